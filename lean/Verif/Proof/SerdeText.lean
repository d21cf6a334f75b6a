import Verif.Proof.Serde
import Verif.Proof.Dump
/-!
# Serde through text: `to_string` and `from_str`

`Val.printable` says which values are written such that the text reads back.
-/

namespace YamlPeg

/-! ## What can be printed -/

/-- The text of the number is read as the number again: as a float, or as an integer
within `i64` that rounds to the number. -/
def FloatBack (f : FloatFmt) (x : F64) : Prop :=
  (∃ κ, ScalarText κ (f.fmt x) (.float (f.fmt x))) ∨
  ∃ sg d i, f.fmt x = sg ++ d ∧ IsSign sg ∧ IsDigits d ∧ toI64 (f.fmt x) = some i ∧ Node.f64OfInt i = x

/-- The same for an `f32`. -/
def FloatBack32 (f : FloatFmt) (x : F64) : Prop :=
  (∃ κ, ScalarText κ (f.fmt32 x) (.float (f.fmt32 x))) ∨
  ∃ sg d i, f.fmt32 x = sg ++ d ∧ IsSign sg ∧ IsDigits d ∧ toI64 (f.fmt32 x) = some i ∧ f32OfInt i = x

/-- The text of a number, which a reader of strings takes as it stands. -/
def NumberStr (s : Bytes) : Prop := ∃ κ, ScalarText κ s (.int s) ∨ ScalarText κ s (.float s)

mutual
/-- Keys: no string or character in the value is written like a Boolean or a number.
(Else different keys may be the same number: `1` and `01`.) -/
def Val.plain : Val → Prop
  | .char c => c.isDigit = false
  | .str s => s ≠ b!"true" ∧ s ≠ b!"false" ∧ ¬ NumberStr s
  | .some v => v.plain
  | .seq vs => plainAll vs
  | .tuple vs => plainAll vs
  | .map es => plainEntries es
  | .newtype v => v.plain
  | .struct fs => plainFields fs
  | .variant _ p => p.plain
  | _ => True
def VVal.plain : VVal → Prop
  | .unit => True
  | .newtype v => v.plain
  | .tuple vs => plainAll vs
  | .struct fs => plainFields fs
def plainAll : List Val → Prop
  | [] => True
  | v :: r => v.plain ∧ plainAll r
def plainEntries : List (Val × Val) → Prop
  | [] => True
  | e :: r => plainEntry e ∧ plainEntries r
def plainEntry : Val × Val → Prop
  | (k, v) => k.plain ∧ v.plain
def plainFields : List (Bytes × Val) → Prop
  | [] => True
  | e :: r => plainField e ∧ plainFields r
def plainField : Bytes × Val → Prop
  | (_, v) => v.plain
end

mutual
/-- The values whose text reads back: strings and characters are lines that stand for
themselves (`LineStr`, or `MultiStr` below the root), `true`, `false` or numbers; names
are `LineStr`; floats are read as floats (`FloatBack`, `FloatBack32`), no collection is empty, and in map
keys no string is written like a Boolean or a number (`Val.plain`). -/
def Val.printable (f : FloatFmt) (cfg : DumpCfg) (inner : Bool) : Val → Prop
  | .bool _ => True
  | .int _ _ => True
  | .f64 x => FloatBack f x
  | .f32 x => FloatBack32 f x
  | .char c => LineStr (String.utf8EncodeChar c) ∨ c.isDigit = true
  | .str s => LineStr s ∨ (inner = true ∧ cfg.windows = false ∧ MultiStr s) ∨ s = b!"true" ∨ s = b!"false" ∨ NumberStr s
  | .bytes s => s ≠ []
  | .unit => True
  | .none => True
  | .some v => v.printable f cfg inner
  | .seq vs => vs ≠ [] ∧ printableAll f cfg vs
  | .tuple vs => vs ≠ [] ∧ printableAll f cfg vs
  | .map es => es ≠ [] ∧ printableEntries f cfg es
  | .newtype v => v.printable f cfg inner
  | .struct fs => fs ≠ [] ∧ printableFields f cfg fs
  | .variant name p => LineStr name ∧ p.printable f cfg
  | .node _ => False
def VVal.printable (f : FloatFmt) (cfg : DumpCfg) : VVal → Prop
  | .unit => True
  | .newtype v => v.printable f cfg true
  | .tuple vs => vs ≠ [] ∧ printableAll f cfg vs
  | .struct fs => fs ≠ [] ∧ printableFields f cfg fs
def printableAll (f : FloatFmt) (cfg : DumpCfg) : List Val → Prop
  | [] => True
  | v :: r => v.printable f cfg true ∧ printableAll f cfg r
def printableEntries (f : FloatFmt) (cfg : DumpCfg) : List (Val × Val) → Prop
  | [] => True
  | e :: r => printableEntry f cfg e ∧ printableEntries f cfg r
def printableEntry (f : FloatFmt) (cfg : DumpCfg) : Val × Val → Prop
  | (k, v) => (k.plain ∧ k.printable f cfg false) ∧ v.printable f cfg true
def printableFields (f : FloatFmt) (cfg : DumpCfg) : List (Bytes × Val) → Prop
  | [] => True
  | e :: r => printableField f cfg e ∧ printableFields f cfg r
def printableField (f : FloatFmt) (cfg : DumpCfg) : Bytes × Val → Prop
  | (name, v) => LineStr name ∧ v.printable f cfg true
end

/-! ## Different nodes, same text -/

/-- The two nodes are printed as the same text. -/
structure PrintsLike (cfg : DumpCfg) (x n : Node) : Prop where
  coll : x.yaml.isColl = n.yaml.isColl
  level : ∀ r l b, valueLevel r l b x.yaml = valueLevel r l b n.yaml
  null : x.yaml = .null → n.yaml = .null
  dump : ∃ N, ∀ m, N ≤ m → ∀ root level, dumpNode cfg m [] root level x = dumpNode cfg m [] root level n

def PrintsLikeL (cfg : DumpCfg) (l' l : List Node) : Prop :=
  ∃ N, ∀ m, N ≤ m → ∀ level first, dumpItems cfg m [] level first l' = dumpItems cfg m [] level first l

def PrintsLikeM (cfg : DumpCfg) (l' l : List (Node × Node)) : Prop :=
  ∃ N, ∀ m, N ≤ m → ∀ root level first, dumpEntries cfg m [] root level first l' = dumpEntries cfg m [] root level first l

section
variable {cfg : DumpCfg}

theorem PrintsLike.refl (x : Node) : PrintsLike cfg x x := ⟨rfl, fun _ _ _ => rfl, id, 0, fun _ _ _ _ => rfl⟩

theorem PrintsLike.float (s : Bytes) : PrintsLike cfg (.ofYaml (.int s)) (.ofYaml (.float s)) :=
  ⟨rfl, fun _ _ _ => rfl, by simp [Node.ofYaml, Node.yaml], 0, fun _ _ _ _ => by
    rw [Node.ofYaml, Node.ofYaml, dumpNode_eq (.inl rfl), dumpNode_eq (.inl rfl)]; rfl⟩

/-- A string without line breaks, blanks and flow signs is printed as it stands. -/
theorem PrintsLike.str {s : Bytes} {y : Yaml} (hne : s ≠ [])
    (hs : ∀ c ∈ s, c < 0x80 ∧ c ∉ b!"\n\r: []{}," ∧ isWs1 c = false)
    (hy : y.isColl = false) (hyn : y ≠ .null) (hd : ∀ m root level, dumpYaml cfg m [] root level y = .ok s) :
    PrintsLike cfg (.ofYaml y) (strNode s) := by
  refine ⟨hy, ?_, ?_, s.length + 1, fun m hm root level => ?_⟩
  · intro r l b
    cases y <;> first | rfl | simp [Yaml.isColl] at hy
  · intro e; exact (hyn e).elim
  · have hb : plainBody false [] false s = true := plainBody_mem fun c hc => (hs c hc).2.1
    have ht : trimEnd s = s := by
      rcases List.eq_nil_or_concat s with h | ⟨a, c, h⟩
      · exact absurd h hne
      · have := hs c (by rw [h]; simp)
        rw [h]
        simpa using trimEnd_ascii (a := a) this.1 this.2.2
    have hl : (lines s).length < 2 := lines_short fun c hc he => (hs c hc).2.1 (by simp [he])
    have hst := stringPlain_read .start [] [] (level := 0) (inner := false) (T := s) (E := []) (.stop rfl) hb
      (utf8_ascii fun c hc => (hs c hc).1) hne ht m (by omega)
    rw [List.append_nil] at hst
    have hs : dumpStr cfg m level s = .ok s := by
      rw [dumpStr, if_neg (by omega), new_state, hst]
    rw [strNode, Node.ofYaml, Node.ofYaml, dumpNode_eq (.inl rfl), dumpNode_eq (.inl rfl), dumpYaml, hs, hd]

theorem PrintsLikeL.nil : PrintsLikeL cfg [] [] := ⟨0, fun _ _ _ _ => rfl⟩
theorem PrintsLikeL.cons {x n : Node} {l' l : List Node} (h : PrintsLike cfg x n) (hl : PrintsLikeL cfg l' l) :
    PrintsLikeL cfg (x :: l') (n :: l) := by
  obtain ⟨N, hN⟩ := h.dump
  obtain ⟨M, hM⟩ := hl
  refine ⟨N + M, fun m hm level first => ?_⟩
  rw [dumpItems, dumpItems, hN m (by omega), hM m (by omega)]

theorem PrintsLikeM.nil : PrintsLikeM cfg [] [] := ⟨0, fun _ _ _ _ _ => rfl⟩
theorem PrintsLikeM.cons {k k' x n : Node} {l' l : List (Node × Node)} (hk : PrintsLike cfg k k')
    (h : PrintsLike cfg x n) (hl : PrintsLikeM cfg l' l) : PrintsLikeM cfg ((k, x) :: l') ((k', n) :: l) := by
  obtain ⟨K, hK⟩ := hk.dump
  obtain ⟨N, hN⟩ := h.dump
  obtain ⟨M, hM⟩ := hl
  refine ⟨K + N + M, fun m hm root level first => ?_⟩
  rw [dumpEntries, dumpEntries, hM m (by omega), dumpEntry, dumpEntry, hK m (by omega), hN m (by omega), hk.coll,
    h.coll, h.level]

theorem PrintsLike.seq {l' l : List Node} (h : PrintsLikeL cfg l' l) :
    PrintsLike cfg (.ofYaml (.seq l')) (.ofYaml (.seq l)) := by
  obtain ⟨N, hN⟩ := h
  refine ⟨rfl, fun _ _ _ => rfl, by simp [Node.ofYaml, Node.yaml], N, fun m hm root level => ?_⟩
  rw [Node.ofYaml, Node.ofYaml, dumpNode_eq (.inl rfl), dumpNode_eq (.inl rfl), dumpYaml, dumpYaml, hN m hm]

theorem PrintsLike.map {l' l : List (Node × Node)} (h : PrintsLikeM cfg l' l) :
    PrintsLike cfg (.ofYaml (.map l')) (.ofYaml (.map l)) := by
  obtain ⟨N, hN⟩ := h
  refine ⟨rfl, fun _ _ _ => rfl, by simp [Node.ofYaml, Node.yaml], N, fun m hm root level => ?_⟩
  rw [Node.ofYaml, Node.ofYaml, dumpNode_eq (.inl rfl), dumpNode_eq (.inl rfl), dumpYaml, dumpYaml, hN m hm]

theorem PrintsLike.doc {x n : Node} (h : PrintsLike cfg x n) : ∃ N, ∀ m, N ≤ m → YamlPeg.dump cfg m [x] [] = YamlPeg.dump cfg m [n] [] := by
  obtain ⟨N, hN⟩ := h.dump
  refine ⟨N, fun m hm => ?_⟩
  rw [YamlPeg.dump, YamlPeg.dump, dumpDocs, dumpDocs, dumperDump, List.getD_nil, hN m hm]
  rfl

end

/-- The bytes of a number. -/
theorem numberStr_bytes {s : Bytes} (h : NumberStr s) :
    s ≠ [] ∧ ∀ c ∈ s, c < 0x80 ∧ c ∉ b!"\n\r: []{}," ∧ isWs1 c = false := by
  have dig : ∀ c : UInt8, isDigit c = true → c < 0x80 ∧ c ∉ b!"\n\r: []{}," ∧ isWs1 c = false := fun c hc =>
    ⟨isDigit_ascii hc, (isDigit_plainByte hc).1, (isDigit_plainByte hc).2.1⟩
  have rad : ∀ r, (r = 16 ∨ r = 8) → ∀ c : UInt8, isRadixDigit r c = true →
      c < 0x80 ∧ c ∉ b!"\n\r: []{}," ∧ isWs1 c = false := by
    intro r hr c
    have := byte_forall (P := fun c => decide (isRadixDigit 16 c = true ∨ isRadixDigit 8 c = true →
      c < 0x80 ∧ c ∉ b!"\n\r: []{}," ∧ isWs1 c = false)) (by decide +kernel) c
    simp only [decide_eq_true_eq] at this
    intro hc
    rcases hr with rfl | rfl
    · exact this (.inl hc)
    · exact this (.inr hc)
  have key : ∀ {κ : EndKind} {T : Bytes} {y : Yaml}, ScalarText κ T y → (y = .int T ∨ y = .float T) →
      T ≠ [] ∧ ∀ c ∈ T, c < 0x80 ∧ c ∉ b!"\n\r: []{}," ∧ isWs1 c = false := by
    intro κ T y hT hy
    have sgn : ∀ sg : Bytes, IsSign sg → ∀ c ∈ sg, c < 0x80 ∧ c ∉ b!"\n\r: []{}," ∧ isWs1 c = false := by
      rintro sg (rfl | rfl) c hc
      · cases hc
      · obtain rfl := List.mem_singleton.1 hc; decide
    cases hT with
    | plain => simp at hy
    | keyword hk =>
      have : ∀ kv ∈ Props.keywords, kv.2 ≠ .int kv.1 ∧ kv.2 ≠ .float kv.1 := by decide +kernel
      rcases hy with hy | hy
      · exact ((this _ hk).1 hy).elim
      · exact ((this _ hk).2 hy).elim
    | int hsg hd =>
      refine ⟨by simp [hd.1], fun c hc => ?_⟩
      rcases List.mem_append.1 hc with hc | hc
      · exact sgn _ hsg c hc
      · exact dig c (hd.2 c hc)
    | hex hne hd =>
      refine ⟨by simp, fun c hc => ?_⟩
      simp only [List.mem_cons] at hc
      rcases hc with rfl | rfl | hc
      · decide
      · decide
      · exact rad 16 (.inl rfl) c (hd c hc).1
    | oct hne hd =>
      refine ⟨by simp, fun c hc => ?_⟩
      simp only [List.mem_cons] at hc
      rcases hc with rfl | rfl | hc
      · decide
      · decide
      · exact rad 8 (.inr rfl) c (hd c hc)
    | float hsg hd hf =>
      refine ⟨by simp, fun c hc => ?_⟩
      simp only [List.mem_append, List.mem_cons] at hc
      rcases hc with (hc | hc) | rfl | hc
      · exact sgn _ hsg c hc
      · exact dig c (hd.2 c hc)
      · decide
      · exact dig c (hf c hc)
    | sci hsg hd he hes hed =>
      refine ⟨by simp, fun c hc => ?_⟩
      simp only [List.mem_append, List.mem_cons] at hc
      rcases hc with ((hc | hc) | rfl | hc) | hc
      · exact sgn _ hsg c hc
      · exact dig c (hd.2 c hc)
      · rcases he with rfl | rfl <;> decide
      · rcases hes with rfl | rfl | rfl
        · cases hc
        · obtain rfl := List.mem_singleton.1 hc; decide
        · obtain rfl := List.mem_singleton.1 hc; decide
      · exact dig c (hed.2 c hc)
    | single => simp at hy
    | double => simp at hy
    | singleFold => simp at hy
    | doubleFold => simp at hy
  obtain ⟨κ, h | h⟩ := h
  · exact key h (.inl rfl)
  · exact key h (.inr rfl)

/-! ## Printable values become dumpable nodes -/

section
variable {h : HashCfg} {f : FloatFmt} {cfg : DumpCfg}

/-- `x` prints like `n`, is dumpable and is read as `v`. -/
structure TX (h : HashCfg) (f : FloatFmt) (cfg : DumpCfg) (inner : Bool) (t : Ty) (v : Val) (n x : Node) : Prop where
  text : PrintsLike cfg x n
  de : de h f t x = .ok v
  dump : x.dumpable cfg inner
  tag : x.rawTag = []
  key : t.keyOk → v.plain → x = n

theorem intDec_scalar (i : Int) : ScalarText .strict (intDec i) (.int (intDec i)) := by
  cases i with
  | ofNat n => exact .int (sg := []) (.inl rfl) (natDec_isDigits n)
  | negSucc n => exact .int (sg := [0x2D]) (.inr rfl) (natDec_isDigits _)

theorem TX.leaf {inner : Bool} {t : Ty} {v : Val} {n : Node} (hd : YamlPeg.de h f t n = .ok v) (hn : n.dumpable cfg inner)
    (ht : n.rawTag = []) : TX h f cfg inner t v n n :=
  ⟨.refl n, hd, hn, ht, fun _ _ => rfl⟩

theorem tx_list {t : Ty} (ht : ∀ v n inner, HasTy t v → v.survives f → v.printable f cfg inner → ser h f v = .ok n →
      ∃ x, TX h f cfg inner t v n x) : ∀ (vs : List Val) l,
    (∀ v ∈ vs, HasTy t v) → survivesAll f vs → printableAll f cfg vs → serList h f vs = .ok l →
    ∃ l', PrintsLikeL cfg l' l ∧ deSeq (de h f t) l' = .ok vs ∧ itemsDumpable cfg l' ∧ l'.length = vs.length ∧
      (t.keyOk → plainAll vs → l' = l)
  | [], l, _, _, _, hs => by cases hs; exact ⟨[], .nil, rfl, trivial, rfl, fun _ _ => rfl⟩
  | v :: r, l, hv, hs, hp, hh => by
    simp only [serList] at hh
    obtain ⟨n, e1, hh⟩ := SRes.bind_eq_ok hh
    obtain ⟨l1, e2, hh⟩ := SRes.bind_eq_ok hh
    cases hh
    obtain ⟨x, hx⟩ := ht v n true (hv v (by simp)) hs.1 hp.1 e1
    obtain ⟨l', h1, h2, h3, h4, h5⟩ := tx_list ht r l1 (fun x hx => hv x (by simp [hx])) hs.2 hp.2 e2
    exact ⟨x :: l', .cons hx.text h1, by simp [deSeq, hx.de, h2], ⟨hx.dump, h3⟩, by simp [h4],
      fun hk hp => by rw [hx.key hk hp.1, h5 hk hp.2]⟩

/-- The keys of maps: different canonical nodes. -/
theorem canonKeysDiffer {m : List (Node × Node)} (hm : ∀ e ∈ m, Canon e.1) (hd : (m.map Prod.fst).Nodup) :
    KeysDiffer m := by
  induction m with
  | nil => exact .nil
  | cons e r ih =>
    rw [List.map_cons, List.nodup_cons] at hd
    refine .cons ?_ (ih (fun x hx => hm x (by simp [hx])) hd.2)
    intro e' he'
    cases hb : Node.eqb e.1 e'.1 with
    | false => rfl
    | true =>
      have := (hm e (by simp)).eqb_eq _ _ (hm e' (by simp [he'])) hb
      exact (hd.1 (List.mem_map.2 ⟨e', he', this.symm⟩)).elim

theorem tx_entries (hf : f.Exact) {tk tv : Ty} (hw : tk.wf) (hkey : tk.keyOk)
    (hk : ∀ v n inner, HasTy tk v → v.survives f → v.printable f cfg inner → ser h f v = .ok n →
      ∃ x, TX h f cfg inner tk v n x)
    (hv : ∀ v n inner, HasTy tv v → v.survives f → v.printable f cfg inner → ser h f v = .ok n →
      ∃ x, TX h f cfg inner tv v n x) : ∀ (es : List (Val × Val)) l,
    (es.map Prod.fst).Nodup → (∀ e ∈ es, HasTy tk e.1 ∧ HasTy tv e.2) → survivesEntries f es →
    printableEntries f cfg es →
    AllTwo (fun (e : Val × Val) (x : Node × Node) => ser h f e.1 = .ok x.1 ∧ ser h f e.2 = .ok x.2) es l →
    ∃ l', PrintsLikeM cfg l' l ∧ deMap (de h f tk) (de h f tv) l' = .ok es ∧ entriesDumpable cfg l' ∧
      l'.length = es.length ∧ (∀ e ∈ l', Canon e.1 ∧ ∃ k ∈ es.map Prod.fst, de h f tk e.1 = .ok k) ∧
      (l'.map Prod.fst).Nodup ∧ (tv.keyOk → plainEntries es → l' = l)
  | [], _, _, _, _, _, .nil => ⟨[], .nil, rfl, trivial, rfl, by simp, by simp, fun _ _ => rfl⟩
  | (k, v) :: r, _, hnd, hh, hs, hp, .cons (y := (kn, vn)) (s := l) h1 h2 => by
    rw [List.map_cons, List.nodup_cons] at hnd
    have hty := hh (k, v) (by simp)
    obtain ⟨a, ha⟩ := hk k kn false hty.1 hs.1.1 hp.1.1.2 h1.1
    obtain ⟨c, hc⟩ := hv v vn true hty.2 hs.1.2 hp.1.2 h1.2
    obtain ⟨l', g1, g2, g3, g4, g5, g6, g7⟩ := tx_entries hf hw hkey hk hv r l hnd.2 (fun x hx => hh x (by simp [hx]))
      hs.2 hp.2 h2
    have hcan : Canon a := by
      obtain ⟨n, hn⟩ := rt (h := h) hf tk hw k hty.1 hs.1.1
      have e := hn.ser.symm.trans h1.1
      simp only [SRes.ok.injEq] at e
      rw [ha.key hkey hp.1.1.1]
      exact e ▸ hn.canon hkey
    refine ⟨(a, c) :: l', .cons ha.text hc.text g1, by simp [deMap, ha.de, hc.de, g2],
      ⟨⟨⟨ha.dump, .inl ha.tag⟩, hc.dump, fun _ => .inl hc.tag⟩, g3⟩, by simp [g4], ?_, ?_,
      fun hkv hpl => by rw [ha.key hkey hpl.1.1, hc.key hkv hpl.1.2, g7 hkv hpl.2]⟩
    · intro e he
      rcases List.mem_cons.1 he with rfl | he
      · exact ⟨hcan, k, by simp, ha.de⟩
      · obtain ⟨q1, k', q2, q3⟩ := g5 e he
        exact ⟨q1, k', by simp only [List.map_cons, List.mem_cons]; exact .inr q2, q3⟩
    · rw [List.map_cons, List.nodup_cons]
      refine ⟨?_, g6⟩
      intro hm
      obtain ⟨e, he, hee⟩ := List.mem_map.1 hm
      obtain ⟨_, k', q2, q3⟩ := g5 e he
      simp only at hee
      rw [hee, ha.de] at q3
      simp only [SRes.ok.injEq] at q3
      exact hnd.1 (q3 ▸ q2)

/-- What the induction provides for the fields of a struct. -/
def TXFields (h : HashCfg) (f : FloatFmt) (cfg : DumpCfg) (fs : List (Bytes × Ty)) (vs : List (Bytes × Val))
    (l : List (Node × Node)) : Prop :=
  ∃ l', PrintsLikeM cfg l' l ∧
    (∀ D : List DeField, (∀ x ∈ deFields h f fs, D.find? (fun y => y.name == x.name) = some x) →
      deFieldLoop D l' = .ok vs) ∧ entriesDumpable cfg l' ∧ l'.length = vs.length ∧
    l'.map Prod.fst = vs.map (fun e => strNode e.1) ∧ (fieldsKeyOk fs → plainFields vs → l' = l)

theorem map_dumpable {m : List (Node × Node)} {inner : Bool} (hne : m ≠ []) (h1 : ∀ e ∈ m, Canon e.1)
    (h2 : (m.map Prod.fst).Nodup) (h3 : entriesDumpable cfg m) : (Node.ofYaml (.map m)).dumpable cfg inner := by
  simp only [Node.ofYaml, Node.dumpable, Yaml.dumpable]
  exact ⟨.inl (.inl rfl), hne, fun e he => (h1 e he).readable, canonKeysDiffer h1 h2, h3⟩

theorem seq_dumpable {l : List Node} {inner : Bool} (hne : l ≠ []) (h3 : itemsDumpable cfg l) :
    (Node.ofYaml (.seq l)).dumpable cfg inner := by
  simp only [Node.ofYaml, Node.dumpable, Yaml.dumpable]
  exact ⟨.inl (.inl rfl), hne, h3⟩

theorem ne_nil_of_length {α β : Type} {l : List α} {l' : List β} (he : l'.length = l.length) (hne : l ≠ []) : l' ≠ [] := by
  rintro rfl
  exact hne (List.length_eq_zero_iff.1 he.symm)

theorem TXFields.struct {fs : List (Bytes × Ty)} {vs : List (Bytes × Val)} {m : List (Node × Node)}
    (hne : vs ≠ []) (hh : HasFields fs vs) (hnd : (fs.map Prod.fst).Nodup)
    (hr : TXFields h f cfg fs vs m) :
    ∃ l', PrintsLikeM cfg l' m ∧ deStructMap (deFields h f fs) l' = .ok (.struct vs) ∧
      (∀ inner, (Node.ofYaml (.map l')).dumpable cfg inner) ∧ (fieldsKeyOk fs → plainFields vs → l' = m) := by
  obtain ⟨l', h1, h2, h3, h4, h5, h6⟩ := hr
  have hnd' : (vs.map Prod.fst).Nodup := by rw [hasFields_names fs vs hh]; exact hnd
  refine ⟨l', h1, ?_, fun inner => map_dumpable (ne_nil_of_length h4 hne) ?_ ?_ h3, h6⟩
  · have hl := h2 (deFields h f fs) (fun x hx => find_name (by rw [deFields_names]; exact hnd) hx)
    have hf := deFieldFill_all (h := h) (f := f) (got := vs) fs vs hh (fun e he => mapGet_nodup hnd' he)
    simp [deStructMap, hl, hf]
  · intro e he
    have : e.1 ∈ vs.map (fun e => strNode e.1) := by rw [← h5]; exact List.mem_map_of_mem he
    obtain ⟨w, _, hw⟩ := List.mem_map.1 this
    rw [← hw]; exact .str
  · rw [h5]
    have : vs.map (fun e => strNode e.1) = (vs.map Prod.fst).map strNode := by simp [Function.comp_def]
    rw [this]
    refine List.Pairwise.map _ ?_ hnd'
    intro a c hac he
    simp only [strNode, Node.ofYaml, Node.mk.injEq, Yaml.str.injEq, true_and] at he
    exact hac he

mutual
theorem tx (hf : f.Exact) : ∀ (t : Ty), t.wf → ∀ v n inner, HasTy t v → v.survives f → v.printable f cfg inner →
    ser h f v = .ok n → ∃ x, TX h f cfg inner t v n x
  | .bool, _, v, n, inner, hh, _, _, hs => by
    cases v <;> simp only [HasTy] at hh
    cases hs
    exact ⟨_, .leaf rfl (by simp only [Node.ofYaml, Node.dumpable, Yaml.dumpable]; exact ⟨.inl (.inl rfl), trivial⟩) rfl⟩
  | .int w, hw, v, n, inner, hh, hsv, _, hs => by
    obtain ⟨n', hn⟩ := rt (h := h) hf (.int w) hw v hh hsv
    cases v <;> simp only [HasTy] at hh
    cases hs
    have := hn.ser
    cases this
    exact ⟨_, .leaf hn.de (by simp only [Node.ofYaml, Node.dumpable, Yaml.dumpable]; exact ⟨.inl (.inl rfl), _, intDec_scalar _⟩)
      rfl⟩
  | .f64, hw, v, n, inner, hh, hsv, hp, hs => by
    obtain ⟨n', hn⟩ := rt (h := h) hf .f64 hw v hh hsv
    cases v <;> simp only [HasTy] at hh
    rename_i x
    cases hs
    have := hn.ser
    cases this
    rcases hp with hp | ⟨sg, d, i, e, hsg, hd, hi, hx⟩
    · exact ⟨_, .leaf hn.de (by simp only [Node.ofYaml, Node.dumpable, Yaml.dumpable]; exact ⟨.inl (.inl rfl), hp⟩)
        rfl⟩
    · refine ⟨.ofYaml (.int (f.fmt x)), .float _, ?_, ?_, rfl, fun hk => by simp [Ty.keyOk] at hk⟩
      · simp [YamlPeg.de, Node.ofYaml, Node.yaml, hi, hx]
      · simp only [Node.ofYaml, Node.dumpable, Yaml.dumpable]
        refine ⟨.inl (.inl rfl), .strict, ?_⟩
        rw [e]
        exact .int hsg hd
  | .f32, hw, v, n, inner, hh, hsv, hp, hs => by
    obtain ⟨n', hn⟩ := rt (h := h) hf .f32 hw v hh hsv
    cases v <;> simp only [HasTy] at hh
    rename_i x
    cases hs
    have := hn.ser
    cases this
    rcases hp with hp | ⟨sg, d, i, e, hsg, hd, hi, hx⟩
    · exact ⟨_, .leaf hn.de (by simp only [Node.ofYaml, Node.dumpable, Yaml.dumpable]; exact ⟨.inl (.inl rfl), hp⟩)
        rfl⟩
    · refine ⟨.ofYaml (.int (f.fmt32 x)), .float _, ?_, ?_, rfl, fun hk => by simp [Ty.keyOk] at hk⟩
      · simp [YamlPeg.de, Node.ofYaml, Node.yaml, hi, hx]
      · simp only [Node.ofYaml, Node.dumpable, Yaml.dumpable]
        refine ⟨.inl (.inl rfl), .strict, ?_⟩
        rw [e]
        exact .int hsg hd
  | .char, hw, v, n, inner, hh, hsv, hp, hs => by
    obtain ⟨n', hn⟩ := rt (h := h) hf .char hw v hh hsv
    cases v <;> simp only [HasTy] at hh
    rename_i c
    cases hs
    have := hn.ser
    cases this
    by_cases hl : LineStr (String.utf8EncodeChar c)
    · exact ⟨_, .leaf hn.de (by simp only [strNode, Node.ofYaml, Node.dumpable, Yaml.dumpable]; exact ⟨.inl (.inl rfl), .inl hl⟩)
        rfl⟩
    · have hp : c.isDigit = true := hp.resolve_left hl
      obtain ⟨e1, e2⟩ := utf8Char_ascii (c := c) hsv
      have hd : isDigit c.toNat.toUInt8 = true := by
        simp only [Char.isDigit, Bool.and_eq_true, decide_eq_true_eq] at hp
        have h3 : c.toNat.toUInt8.toNat = c.toNat := by
          have : c.toNat < 128 := hsv
          simp; omega
        have h1 : (48 : UInt32).toNat ≤ c.val.toNat := hp.1
        have h2 : c.val.toNat ≤ (57 : UInt32).toNat := hp.2
        have h4 : c.val.toNat = c.toNat := rfl
        simp only [isDigit, Bool.and_eq_true, decide_eq_true_eq, UInt8.le_iff_toNat_le, h3]
        exact ⟨by rw [← h4]; exact h1, by rw [← h4]; exact h2⟩
      have hdd : IsDigits [c.toNat.toUInt8] := ⟨by simp, by simpa using hd⟩
      have hsc : ScalarText .strict [c.toNat.toUInt8] (.int [c.toNat.toUInt8]) := .int (sg := []) (.inl rfl) hdd
      obtain ⟨hne, hb⟩ := numberStr_bytes ⟨_, .inl hsc⟩
      refine ⟨.ofYaml (.int [c.toNat.toUInt8]), ?_, ?_, ?_, rfl, fun _ hk => ?_⟩
      · rw [e1]; exact .str hne hb rfl (by simp) (fun _ _ _ => rfl)
      · simp only [YamlPeg.de, Node.ofYaml, Node.yaml, e2]
      · simp only [Node.ofYaml, Node.dumpable, Yaml.dumpable]; exact ⟨.inl (.inl rfl), _, hsc⟩
      · exact absurd hp (by rw [show c.isDigit = false from hk]; simp)
  | .str, hw, v, n, inner, hh, hsv, hp, hs => by
    cases v <;> simp only [HasTy] at hh
    rename_i s
    cases hs
    have line : LineStr s ∨ (inner = true ∧ cfg.windows = false ∧ MultiStr s) →
        ∃ x, TX h f cfg inner .str (.str s) (strNode s) x := fun hp =>
      ⟨_, .leaf rfl (by simp only [strNode, Node.ofYaml, Node.dumpable, Yaml.dumpable]; exact ⟨.inl (.inl rfl), hp⟩)
        rfl⟩
    by_cases hl : LineStr s
    · exact line (.inl hl)
    rcases hp with hp | hp | rfl | rfl | hp
    · exact line (.inl hp)
    · exact line (.inr hp)
    · exact ⟨.ofYaml (.bool true), .str (by simp) (by decide) rfl (by simp) (fun _ _ _ => rfl), rfl,
        by simp only [Node.ofYaml, Node.dumpable, Yaml.dumpable]; exact ⟨.inl (.inl rfl), trivial⟩, rfl,
        fun _ hk => (hk.1 rfl).elim⟩
    · exact ⟨.ofYaml (.bool false), .str (by simp) (by decide) rfl (by simp) (fun _ _ _ => rfl), rfl,
        by simp only [Node.ofYaml, Node.dumpable, Yaml.dumpable]; exact ⟨.inl (.inl rfl), trivial⟩, rfl,
        fun _ hk => (hk.2.1 rfl).elim⟩
    · have hnum := hp
      obtain ⟨hne, hb⟩ := numberStr_bytes hp
      obtain ⟨κ, hp | hp⟩ := hp
      · exact ⟨.ofYaml (.int s), .str hne hb rfl (by simp) (fun _ _ _ => rfl), rfl,
          by simp only [Node.ofYaml, Node.dumpable, Yaml.dumpable]; exact ⟨.inl (.inl rfl), _, hp⟩, rfl,
          fun _ hk => (hk.2.2 hnum).elim⟩
      · exact ⟨.ofYaml (.float s), .str hne hb rfl (by simp) (fun _ _ _ => rfl), rfl,
          by simp only [Node.ofYaml, Node.dumpable, Yaml.dumpable]; exact ⟨.inl (.inl rfl), _, hp⟩, rfl,
          fun _ hk => (hk.2.2 hnum).elim⟩
  | .bytes, hw, v, n, inner, hh, hsv, hp, hs => by
    obtain ⟨n', hn⟩ := rt (h := h) hf .bytes hw v hh hsv
    cases v <;> simp only [HasTy] at hh
    rename_i s
    cases hs
    have := hn.ser
    cases this
    refine ⟨_, .leaf hn.de (seq_dumpable (by simpa using (show s ≠ [] from hp)) ?_) rfl⟩
    clear hn hp hsv
    induction s with
    | nil => trivial
    | cons c r ih =>
      refine ⟨?_, ih⟩
      simp only [Node.ofYaml, Node.dumpable, Yaml.dumpable]
      exact ⟨.inl (.inl rfl), _, intDec_scalar (c.toNat : Int)⟩
  | .unit, hw, v, n, inner, hh, hsv, hp, hs => by
    cases v <;> simp only [HasTy] at hh
    cases hs
    exact ⟨_, .leaf rfl (by simp only [Node.ofYaml, Node.dumpable, Yaml.dumpable]; exact ⟨.inl (.inl rfl), trivial⟩)
      rfl⟩
  | .option t, hw, v, n, inner, hh, hsv, hp, hs => by
    cases v <;> simp only [HasTy] at hh
    · cases hs
      exact ⟨_, .leaf rfl (by simp only [Node.ofYaml, Node.dumpable, Yaml.dumpable]; exact ⟨.inl (.inl rfl), trivial⟩)
        rfl⟩
    · rename_i v
      obtain ⟨x, hx⟩ := tx hf t hw v n inner hh hsv.2 hp hs
      refine ⟨x, hx.text, ?_, hx.dump, hx.tag, hx.key⟩
      have hnn : x.yaml ≠ .null := by
        intro e
        obtain ⟨n', hn⟩ := rt (h := h) hf t hw v hh hsv.2
        rw [ser] at hs
        have e2 := hn.ser.symm.trans hs
        simp only [SRes.ok.injEq] at e2
        subst e2
        exact hsv.1 (hn.null (hx.text.null e))
      simp only [YamlPeg.de, hx.de]
      rfl
  | .seq t, hw, v, n, inner, hh, hsv, hp, hs => by
    cases v <;> simp only [HasTy] at hh
    simp only [ser] at hs
    obtain ⟨l, e1, hs⟩ := SRes.bind_eq_ok hs
    cases hs
    obtain ⟨l', h1, h2, h3, h4, h5⟩ := tx_list (tx hf t hw) _ l hh hsv hp.2 e1
    refine ⟨.ofYaml (.seq l'), .seq h1, ?_, seq_dumpable (ne_nil_of_length h4 hp.1) h3, rfl, fun hk hpl => by rw [h5 hk hpl]⟩
    · simp [YamlPeg.de, Node.ofYaml, Node.yaml, h2]
  | .tuple ts, hw, v, n, inner, hh, hsv, hp, hs => by
    cases v <;> simp only [HasTy] at hh
    simp only [ser] at hs
    obtain ⟨l, e1, hs⟩ := SRes.bind_eq_ok hs
    cases hs
    obtain ⟨l', h1, h2, h3, h4, h5⟩ := tx_tys hf ts hw _ l hh hsv hp.2 e1
    refine ⟨.ofYaml (.seq l'), .seq h1, ?_, seq_dumpable (ne_nil_of_length h4 hp.1) h3, rfl, fun hk hpl => by rw [h5 hk hpl]⟩
    · simp [YamlPeg.de, Node.ofYaml, Node.yaml, h2]
  | .map tk tv, hw, v, n, inner, hh, hsv, hp, hs => by
    cases v <;> simp only [HasTy] at hh
    rename_i es
    simp only [ser] at hs
    obtain ⟨m, e1, hs⟩ := SRes.bind_eq_ok hs
    cases hs
    obtain ⟨m', q1, q2, _⟩ := rt_entries (h := h) hw.2.1 (rt hf tk hw.1) (rt hf tv hw.2.2) _ hh.1 hh.2 hsv
    have q1 := q1 [] (by simp)
    rw [List.nil_append] at q1
    have e2 := q1.symm.trans e1
    simp only [SRes.ok.injEq] at e2
    subst e2
    obtain ⟨l, hl, hall⟩ := serEntries_full _ [] m' e1 (by simp [deMap_length _ _ q2])
    rw [List.nil_append] at hl
    subst hl
    obtain ⟨l', g1, g2, g3, g4, g5, g6, g7⟩ := tx_entries hf hw.1 hw.2.1 (tx hf tk hw.1) (tx hf tv hw.2.2) es m'
      hh.1 hh.2 hsv hp.2 hall
    refine ⟨.ofYaml (.map l'), .map g1, ?_, map_dumpable (ne_nil_of_length g4 hp.1) (fun e he => (g5 e he).1) g6 g3, rfl,
      fun hk hpl => by rw [g7 hk.2 hpl]⟩
    · simp [YamlPeg.de, Node.ofYaml, Node.yaml, g2]
  | .newtype t, hw, v, n, inner, hh, hsv, hp, hs => by
    cases v <;> simp only [HasTy] at hh
    obtain ⟨x, hx⟩ := tx hf t hw _ n inner hh hsv hp hs
    exact ⟨x, hx.text, by simp [YamlPeg.de, hx.de], hx.dump, hx.tag, hx.key⟩
  | .struct fs, hw, v, n, inner, hh, hsv, hp, hs => by
    cases v <;> simp only [HasTy] at hh
    simp only [ser] at hs
    obtain ⟨m, e1, hs⟩ := SRes.bind_eq_ok hs
    cases hs
    obtain ⟨l', h1, h2, h3, h4⟩ := TXFields.struct hp.1 hh hw.1 (tx_struct hf fs hw.1 hw.2 _ m hh hsv hp.2 e1)
    refine ⟨.ofYaml (.map l'), .map h1, ?_, h3 _, rfl, fun hk hpl => by rw [h4 hk hpl]⟩
    · simp [YamlPeg.de, Node.ofYaml, Node.yaml, h2]
  | .enum ts, hw, v, n, inner, hh, hsv, hp, hs => by
    cases v <;> simp only [HasTy] at hh
    rename_i name p
    obtain ⟨y, hy, hyn, hyp⟩ := tx_variants hf ts hw.2 name p hh hsv hp.2
    have hfind := find_variant (by rw [deVariants_names]; exact hw.1) hy
    rw [hyn] at hfind
    have hname : ∀ inner, (strNode name).dumpable cfg inner := fun inner => by
      simp only [strNode, Node.ofYaml, Node.dumpable, Yaml.dumpable]
      exact ⟨.inl (.inl rfl), .inl hp.1⟩
    have payload : p ≠ .unit → ∃ x, TX h f cfg inner (.enum ts) (.variant name p) n x := by
      intro hpu
      have hs' : ∃ c, serPayload h f p = .ok c ∧ n = .ofYaml (.map [(strNode name, c)]) := by
        cases p with
        | unit => exact absurd rfl hpu
        | _ =>
          simp only [ser] at hs
          obtain ⟨c, e1, hs⟩ := SRes.bind_eq_ok hs
          cases hs
          exact ⟨c, e1, rfl⟩
      obtain ⟨c, e1, rfl⟩ := hs'
      rcases hyp with ⟨hu, _⟩ | ⟨_, hyp⟩
      · exact absurd hu hpu
      obtain ⟨x, h1, h2, h3, h4, h5⟩ := hyp c e1
      refine ⟨.ofYaml (.map [(strNode name, x)]), .map (.cons (.refl _) h1 .nil), ?_, map_dumpable (by simp) ?_ (by simp) ?_, rfl, ?_⟩
      · simp [YamlPeg.de, strNode, Node.ofYaml, Node.yaml, deEnum, deIdent, hfind, h2]
      · intro e he
        simp only [List.mem_singleton] at he
        subst he
        exact .str
      · exact ⟨⟨⟨hname false, .inl rfl⟩, h3, fun _ => .inl h4⟩, trivial⟩
      · intro hk hpl
        rw [h5 hk hpl]
    by_cases hpu : p = .unit
    · subst hpu
      rcases hyp with ⟨_, hyp⟩ | ⟨hyp, _⟩
      · rw [ser] at hs
        cases hs
        refine ⟨strNode name, .leaf ?_ (hname inner) rfl⟩
        simp [YamlPeg.de, strNode, Node.ofYaml, Node.yaml, deEnum, deIdent, hfind, hyp]
      · exact absurd rfl hyp
    · exact payload hpu
  | .node, hw, _, _, _, _, _, _, _ => hw.elim

theorem tx_tys (hf : f.Exact) : ∀ (ts : List Ty), tysWf ts → ∀ vs l, HasTys ts vs → survivesAll f vs →
    printableAll f cfg vs → serList h f vs = .ok l →
    ∃ l', PrintsLikeL cfg l' l ∧ deTuple (deAll h f ts) l' = .ok vs ∧ itemsDumpable cfg l' ∧
      l'.length = vs.length ∧ (tysKeyOk ts → plainAll vs → l' = l)
  | [], _, [], l, _, _, _, hs => by cases hs; exact ⟨[], .nil, rfl, trivial, rfl, fun _ _ => rfl⟩
  | t :: ts, hw, v :: vs, l, hh, hs, hp, hl => by
    simp only [serList] at hl
    obtain ⟨n, e1, hl⟩ := SRes.bind_eq_ok hl
    obtain ⟨l1, e2, hl⟩ := SRes.bind_eq_ok hl
    cases hl
    obtain ⟨x, hx⟩ := tx hf t hw.1 v n true hh.1 hs.1 hp.1 e1
    obtain ⟨l', h1, h2, h3, h4, h5⟩ := tx_tys hf ts hw.2 vs l1 hh.2 hs.2 hp.2 e2
    exact ⟨x :: l', .cons hx.text h1, by simp [deAll, deTuple, hx.de, h2], ⟨hx.dump, h3⟩, by simp [h4],
      fun hk hpl => by rw [hx.key hk.1 hpl.1, h5 hk.2 hpl.2]⟩
  | [], _, _ :: _, _, hh, _, _, _ => hh.elim
  | _ :: _, _, [], _, hh, _, _, _ => hh.elim

theorem tx_struct (hf : f.Exact) (fs : List (Bytes × Ty)) (hnd : (fs.map Prod.fst).Nodup) (hw : fieldsWf fs)
    (vs : List (Bytes × Val)) (m : List (Node × Node)) (hh : HasFields fs vs) (hs : survivesFields f vs)
    (hp : printableFields f cfg vs) (hm : serFields h f [] vs = .ok m) : TXFields h f cfg fs vs m := by
  have hn := hasFields_names fs vs hh
  obtain ⟨l, hl, hall⟩ := serFields_full vs [] m (by rw [hn]; exact hnd) (by simp) hm
  rw [List.nil_append] at hl
  subst hl
  exact tx_fields hf fs hw vs m hh hs hp hall

theorem tx_fields (hf : f.Exact) : ∀ (fs : List (Bytes × Ty)), fieldsWf fs → ∀ vs l, HasFields fs vs →
    survivesFields f vs → printableFields f cfg vs →
    AllTwo (fun (e : Bytes × Val) (x : Node × Node) => x.1 = strNode e.1 ∧ ser h f e.2 = .ok x.2) vs l →
    TXFields h f cfg fs vs l
  | [], _, [], _, _, _, _, .nil => ⟨[], .nil, fun _ _ => rfl, trivial, rfl, rfl, fun _ _ => rfl⟩
  | e :: fs, hw, (nm, v) :: vs, _, hh, hs, hp, .cons (y := (k, n)) (s := l) h1 h2 => by
    obtain ⟨x, g1, g2, g4, g5, g6⟩ := tx_field hf e hw.1 nm v n hh.1 hs.1 hp.1.2 h1.2
    obtain ⟨l', q1, q2, q3, q4, q5, q6⟩ := tx_fields hf fs hw.2 vs l hh.2 hs.2 hp.2 h2
    have hk : k = strNode nm := h1.1
    subst hk
    refine ⟨(strNode nm, x) :: l', .cons (.refl _) g1 q1, ?_, ?_, by simp [q4], by simp [q5],
      fun hk hpl => by rw [g6 hk.1 hpl.1, q6 hk.2 hpl.2]⟩
    · intro D hD
      have hx := hD (deField h f e) (by simp [deFields])
      have hr := q2 D (fun x hx => hD x (by simp [deFields, hx]))
      rw [g2.1] at hx
      simp only [deFieldLoop, deIdent, strNode, Node.ofYaml, Node.yaml, SRes.bind_ok, hx, g2.2, hr]
      rfl
    · refine ⟨⟨⟨?_, .inl rfl⟩, g4, fun _ => .inl g5⟩, q3⟩
      simp only [strNode, Node.ofYaml, Node.dumpable, Yaml.dumpable]
      exact ⟨.inl (.inl rfl), .inl hp.1.1⟩
  | [], _, _ :: _, _, hh, _, _, _ => hh.elim
  | _ :: _, _, [], _, hh, _, _, _ => hh.elim

theorem tx_field (hf : f.Exact) : ∀ (e : Bytes × Ty), fieldWf e → ∀ nm v n, HasField e (nm, v) → v.survives f →
    v.printable f cfg true → ser h f v = .ok n →
    ∃ x, PrintsLike cfg x n ∧ ((deField h f e).name = nm ∧ (deField h f e).read x = .ok v) ∧
      x.dumpable cfg true ∧ x.rawTag = [] ∧ (fieldKeyOk e → v.plain → x = n)
  | (a, t), hw, nm, v, n, hh, hs, hp, hn => by
    obtain ⟨x, hx⟩ := tx hf t hw v n true hh.2 hs hp hn
    exact ⟨x, hx.text, ⟨hh.1.symm, hx.de⟩, hx.dump, hx.tag, hx.key⟩

theorem tx_variants (hf : f.Exact) : ∀ (ts : List (Bytes × VTy)), variantsWf ts → ∀ name p,
    HasVariant ts name p → p.survives f → p.printable f cfg →
    ∃ y ∈ deVariants h f ts, y.name = name ∧
      ((p = .unit ∧ y.read none = .ok .unit) ∨ (p ≠ .unit ∧ ∀ c, serPayload h f p = .ok c →
        ∃ x, PrintsLike cfg x c ∧ y.read (some x) = .ok p ∧ x.dumpable cfg true ∧ x.rawTag = [] ∧
          (variantsKeyOk ts → p.plain → x = c)))
  | [], _, _, _, hh, _, _ => hh.elim
  | e :: ts, hw, name, p, hh, hs, hp => by
    rcases hh with hh | hh
    · obtain ⟨h1, h2⟩ := tx_variant hf e hw.1 name p hh hs hp
      refine ⟨deVariant h f e, by simp [deVariants], h1, ?_⟩
      rcases h2 with h2 | ⟨h3, h2⟩
      · exact .inl h2
      · refine .inr ⟨h3, fun c hc => ?_⟩
        obtain ⟨x, a1, a2, a3, a4, a5⟩ := h2 c hc
        exact ⟨x, a1, a2, a3, a4, fun hk => a5 hk.1⟩
    · obtain ⟨y, h1, h2, h3⟩ := tx_variants hf ts hw.2 name p hh hs hp
      refine ⟨y, by simp [deVariants, h1], h2, h3.imp id fun ⟨h4, h3⟩ => ⟨h4, fun c hc => ?_⟩⟩
      obtain ⟨x, a1, a2, a3, a4, a5⟩ := h3 c hc
      exact ⟨x, a1, a2, a3, a4, fun hk => a5 hk.2⟩

theorem tx_variant (hf : f.Exact) : ∀ (e : Bytes × VTy), variantWf e → ∀ name p,
    HasVariant1 e name p → p.survives f → p.printable f cfg →
    (deVariant h f e).name = name ∧
      ((p = .unit ∧ (deVariant h f e).read none = .ok .unit) ∨ (p ≠ .unit ∧ ∀ c, serPayload h f p = .ok c →
        ∃ x, PrintsLike cfg x c ∧ (deVariant h f e).read (some x) = .ok p ∧ x.dumpable cfg true ∧ x.rawTag = [] ∧
          (variantKeyOk e → p.plain → x = c)))
  | (a, t), hw, name, p, hh, hs, hp => ⟨hh.1.symm, tx_payload hf t hw p hh.2 hs hp⟩

theorem tx_payload (hf : f.Exact) : ∀ (t : VTy), payloadWf t → ∀ p, HasPayload t p → p.survives f →
    p.printable f cfg →
    ((p = .unit ∧ dePayload h f t none = .ok .unit) ∨ (p ≠ .unit ∧ ∀ c, serPayload h f p = .ok c →
        ∃ x, PrintsLike cfg x c ∧ dePayload h f t (some x) = .ok p ∧ x.dumpable cfg true ∧ x.rawTag = [] ∧
          (payloadKeyOk t → p.plain → x = c)))
  | .unit, _, p, hh, _, _ => by
    cases p <;> simp only [HasPayload] at hh
    exact .inl ⟨rfl, rfl⟩
  | .newtype t, hw, p, hh, hs, hp => by
    cases p <;> simp only [HasPayload] at hh
    refine .inr ⟨by simp, fun c hc => ?_⟩
    obtain ⟨x, hx⟩ := tx hf t hw _ c true hh hs hp hc
    exact ⟨x, hx.text, by simp [dePayload, hx.de], hx.dump, hx.tag, hx.key⟩
  | .tuple ts, hw, p, hh, hs, hp => by
    cases p <;> simp only [HasPayload] at hh
    refine .inr ⟨by simp, fun c hc => ?_⟩
    simp only [serPayload] at hc
    obtain ⟨l, e1, hc⟩ := SRes.bind_eq_ok hc
    cases hc
    obtain ⟨l', h1, h2, h3, h4, h5⟩ := tx_tys hf ts hw _ l hh hs hp.2 e1
    exact ⟨.ofYaml (.seq l'), .seq h1, by simp [dePayload, Node.ofYaml, Node.yaml, h2],
      seq_dumpable (ne_nil_of_length h4 hp.1) h3, rfl, fun hk hpl => by rw [h5 hk hpl]⟩
  | .struct fs, hw, p, hh, hs, hp => by
    cases p <;> simp only [HasPayload] at hh
    refine .inr ⟨by simp, fun c hc => ?_⟩
    simp only [serPayload] at hc
    obtain ⟨m, e1, hc⟩ := SRes.bind_eq_ok hc
    cases hc
    obtain ⟨l', h1, h2, h3, h4⟩ := TXFields.struct hp.1 hh hw.1 (tx_struct hf fs hw.1 hw.2 _ m hh hs hp.2 e1)
    exact ⟨.ofYaml (.map l'), .map h1, by simp [dePayload, Node.ofYaml, Node.yaml, h2], h3 _, rfl, fun hk hpl => by rw [h4 hk hpl]⟩
end

end

end YamlPeg
