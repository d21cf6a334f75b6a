import Verif.Model.Serde
import Verif.Proof.NodeEq
import Verif.Proof.Decimal
import Verif.Proof.Same
import Verif.Proof.Float
/-!
# Serde: types, values, and the round trip

`HasTy t v` says that `v` is a value of the type `t`; `Val.survives` says which
values keep their identity in YAML.
-/

namespace YamlPeg

/-- The contract of `Display for f64`: what it prints is a number, and reading it
gives the number back. -/
structure FloatFmt.Exact (f : FloatFmt) : Prop where
  back : ∀ x : F64, x.Canonical → toF64 (f.fmt x) = some x
  total : ∀ x : F64, (toF64 (f.fmt x)).isSome

/-- Such a formatter exists. -/
theorem FloatFmt.exact_exists : ∃ f : FloatFmt, f.Exact := by
  classical
  refine ⟨⟨fun x => if hx : x.Canonical then (canonical_text x hx).choose else b!"0",
    fun x => if hx : x.Canonical then (canonical_text x hx).choose else b!"0"⟩, ?_, ?_⟩
  · intro x hx
    simp only [hx, dif_pos]
    exact (canonical_text x hx).choose_spec
  · intro x
    by_cases hx : x.Canonical
    · simp only [hx, dif_pos]
      rw [(canonical_text x hx).choose_spec]; rfl
    · simp only [hx, dif_neg, not_false_eq_true]
      decide

mutual
/-- `v` is a value of type `t`. The keys of a map value are distinct. -/
def HasTy : Ty → Val → Prop
  | .bool, .bool _ => True
  | .int w, .int w' i => w' = w ∧ w.holds i
  | .f64, .f64 x => x.Canonical
  | .f32, .f32 x => x.IsF32
  | .char, .char _ => True
  | .str, .str _ => True
  | .bytes, .bytes _ => True
  | .unit, .unit => True
  | .option _, .none => True
  | .option t, .some v => HasTy t v
  | .seq t, .seq vs => ∀ v ∈ vs, HasTy t v
  | .tuple ts, .tuple vs => HasTys ts vs
  | .map tk tv, .map es => (es.map Prod.fst).Nodup ∧ ∀ e ∈ es, HasTy tk e.1 ∧ HasTy tv e.2
  | .newtype t, .newtype v => HasTy t v
  | .struct fs, .struct vs => HasFields fs vs
  | .enum ts, .variant name p => HasVariant ts name p
  | .node, .node _ => True
  | _, _ => False

def HasTys : List Ty → List Val → Prop
  | [], [] => True
  | t :: ts, v :: vs => HasTy t v ∧ HasTys ts vs
  | _, _ => False

def HasFields : List (Bytes × Ty) → List (Bytes × Val) → Prop
  | [], [] => True
  | e :: ts, v :: vs => HasField e v ∧ HasFields ts vs
  | _, _ => False

def HasField : Bytes × Ty → Bytes × Val → Prop
  | (n, t), (m, v) => m = n ∧ HasTy t v

def HasVariant : List (Bytes × VTy) → Bytes → VVal → Prop
  | [], _, _ => False
  | e :: r, name, p => HasVariant1 e name p ∨ HasVariant r name p

def HasVariant1 : Bytes × VTy → Bytes → VVal → Prop
  | (n, t), name, p => name = n ∧ HasPayload t p

def HasPayload : VTy → VVal → Prop
  | .unit, .unit => True
  | .newtype t, .newtype v => HasTy t v
  | .tuple ts, .tuple vs => HasTys ts vs
  | .struct fs, .struct vs => HasFields fs vs
  | _, _ => False
end

mutual
/-- The type can be a key: it compares by value (`f64` is neither `Hash` nor
`Ord` in Rust, so no map type has such keys). -/
def Ty.keyOk : Ty → Prop
  | .f64 => False
  | .f32 => False
  | .node => False
  | .option t => t.keyOk
  | .seq t => t.keyOk
  | .tuple ts => tysKeyOk ts
  | .map k v => k.keyOk ∧ v.keyOk
  | .newtype t => t.keyOk
  | .struct fs => fieldsKeyOk fs
  | .enum vs => variantsKeyOk vs
  | _ => True
def tysKeyOk : List Ty → Prop
  | [] => True
  | t :: r => t.keyOk ∧ tysKeyOk r
def fieldsKeyOk : List (Bytes × Ty) → Prop
  | [] => True
  | e :: r => fieldKeyOk e ∧ fieldsKeyOk r
def fieldKeyOk : Bytes × Ty → Prop
  | (_, t) => t.keyOk
def variantsKeyOk : List (Bytes × VTy) → Prop
  | [] => True
  | e :: r => variantKeyOk e ∧ variantsKeyOk r
def variantKeyOk : Bytes × VTy → Prop
  | (_, p) => payloadKeyOk p
def payloadKeyOk : VTy → Prop
  | .unit => True
  | .newtype t => t.keyOk
  | .tuple ts => tysKeyOk ts
  | .struct fs => fieldsKeyOk fs
end

mutual
/-- The type exists in Rust: field and variant names are distinct, keys can be
compared; and it does not contain `Node` itself. -/
def Ty.wf : Ty → Prop
  | .node => False
  | .option t => t.wf
  | .seq t => t.wf
  | .tuple ts => tysWf ts
  | .map k v => k.wf ∧ k.keyOk ∧ v.wf
  | .newtype t => t.wf
  | .struct fs => (fs.map Prod.fst).Nodup ∧ fieldsWf fs
  | .enum vs => (vs.map Prod.fst).Nodup ∧ variantsWf vs
  | _ => True
def tysWf : List Ty → Prop
  | [] => True
  | t :: r => t.wf ∧ tysWf r
def fieldsWf : List (Bytes × Ty) → Prop
  | [] => True
  | e :: r => fieldWf e ∧ fieldsWf r
def fieldWf : Bytes × Ty → Prop
  | (_, t) => t.wf
def variantsWf : List (Bytes × VTy) → Prop
  | [] => True
  | e :: r => variantWf e ∧ variantsWf r
def variantWf : Bytes × VTy → Prop
  | (_, p) => payloadWf p
def payloadWf : VTy → Prop
  | .unit => True
  | .newtype t => t.wf
  | .tuple ts => tysWf ts
  | .struct fs => (fs.map Prod.fst).Nodup ∧ fieldsWf fs
end

/-- YAML has one `null` for all of these. -/
def Val.nullish : Val → Prop
  | .unit => True
  | .none => True
  | .some v => v.nullish
  | .newtype v => v.nullish
  | _ => False

/-- The text of an `f32`, read as `f64` and rounded to `f32`, is the number again.  (Reading
it as `f32` in one step always is; in two steps it need not be, see `C69_counterexample_double_rounding`.) -/
def F32Back (f : FloatFmt) (x : F64) : Prop := (toF64 (f.fmt32 x)).map F64.toF32 = some x

mutual
/-- The values that come back unchanged: integers fit into `i64`, characters are
ASCII, no `Some` holds a value that is written as `null`, and the text of an `f32` is not
rounded away from it (`F32Back`). -/
def Val.survives (f : FloatFmt) : Val → Prop
  | .int _ i => -(2 ^ 63) ≤ i ∧ i < 2 ^ 63
  | .f32 x => F32Back f x
  | .char c => c.toNat < 128
  | .some v => ¬ v.nullish ∧ v.survives f
  | .seq vs => survivesAll f vs
  | .tuple vs => survivesAll f vs
  | .map es => survivesEntries f es
  | .newtype v => v.survives f
  | .struct fs => survivesFields f fs
  | .variant _ p => p.survives f
  | _ => True
def VVal.survives (f : FloatFmt) : VVal → Prop
  | .unit => True
  | .newtype v => v.survives f
  | .tuple vs => survivesAll f vs
  | .struct fs => survivesFields f fs
def survivesAll (f : FloatFmt) : List Val → Prop
  | [] => True
  | v :: r => v.survives f ∧ survivesAll f r
def survivesEntries (f : FloatFmt) : List (Val × Val) → Prop
  | [] => True
  | e :: r => survivesEntry f e ∧ survivesEntries f r
def survivesEntry (f : FloatFmt) : Val × Val → Prop
  | (k, v) => k.survives f ∧ v.survives f
def survivesFields (f : FloatFmt) : List (Bytes × Val) → Prop
  | [] => True
  | e :: r => survivesField f e ∧ survivesFields f r
def survivesField (f : FloatFmt) : Bytes × Val → Prop
  | (_, v) => v.survives f
end

/-! ## Canonical nodes -/

mutual
/-- Nodes as `to_node` builds them from values without floats. -/
inductive Canon : Node → Prop
  | null : Canon (.mk 0 [] .null)
  | bool {v} : Canon (.mk 0 [] (.bool v))
  | int {i : Int} : inI64 i = true → Canon (.mk 0 [] (.int (intDec i)))
  | str {s} : Canon (.mk 0 [] (.str s))
  | seq {l} : CanonL l → Canon (.mk 0 [] (.seq l))
  | map {m} : CanonE m → Canon (.mk 0 [] (.map m))
inductive CanonL : List Node → Prop
  | nil : CanonL []
  | cons {n r} : Canon n → CanonL r → CanonL (n :: r)
inductive CanonE : List (Node × Node) → Prop
  | nil : CanonE []
  | cons {k v r} : Canon k → Canon v → CanonE r → CanonE ((k, v) :: r)
end

theorem CanonL.mem {l : List Node} (h : CanonL l) : ∀ x ∈ l, Canon x := by
  induction l with
  | nil => intro x hx; cases hx
  | cons a r ih =>
    cases h with
    | cons h1 h2 =>
      intro x hx
      rcases List.mem_cons.1 hx with rfl | hx
      · exact h1
      · exact ih h2 x hx

theorem CanonE.mem {l : List (Node × Node)} (h : CanonE l) : ∀ k v, (k, v) ∈ l → Canon k ∧ Canon v := by
  induction l with
  | nil => intro k v hx; cases hx
  | cons a r ih =>
    cases h with
    | cons h1 h2 h3 =>
      intro k v hx
      rcases List.mem_cons.1 hx with e | hx
      · cases e; exact ⟨h1, h2⟩
      · exact ih h3 k v hx

theorem CanonE.append {l : List (Node × Node)} (h : CanonE l) {k v : Node} (hk : Canon k) (hv : Canon v) :
    CanonE (l ++ [(k, v)]) := by
  induction l with
  | nil => exact .cons hk hv .nil
  | cons a r ih =>
    cases h with
    | cons h1 h2 h3 => exact .cons h1 h2 (ih h3)

theorem Canon.readable : ∀ n, Canon n → Readable n := by
  refine Node.induct ?_
  intro pos tag y hk h
  refine everywhere_mk.2 ⟨?_, ?_⟩
  · cases h <;> simp_all [ReadableHere, Node.yaml, toI64_intDec]
  · cases h with
    | seq hl => exact fun x hx => hk x hx (hl.mem x hx)
    | map hm => exact fun k v hx => ⟨(hk k v hx).1 (hm.mem k v hx).1, (hk k v hx).2 (hm.mem k v hx).2⟩
    | _ => trivial

theorem nodesEqb_canon {l1 : List Node} (hk : ∀ x ∈ l1, Canon x → ∀ y, Canon y → Node.eqb x y = true → x = y) :
    CanonL l1 → ∀ l2, CanonL l2 → nodesEqb l1 l2 = true → l1 = l2 := by
  induction l1 with
  | nil =>
    intro _ l2 _ h
    cases l2 with
    | nil => rfl
    | cons => simp [nodesEqb] at h
  | cons x r ih =>
    intro h1 l2 h2 h
    cases h2 with
    | nil => simp [nodesEqb] at h
    | cons hy hr =>
      cases h1 with
      | cons hx hxr =>
        simp only [nodesEqb, Bool.and_eq_true] at h
        rw [hk x (by simp) hx _ hy h.1, ih (fun z hz => hk z (by simp [hz])) hxr _ hr h.2]

theorem entriesEqb_canon {l1 : List (Node × Node)}
    (hk : ∀ k v, (k, v) ∈ l1 → (Canon k → ∀ y, Canon y → Node.eqb k y = true → k = y) ∧
      (Canon v → ∀ y, Canon y → Node.eqb v y = true → v = y)) :
    CanonE l1 → ∀ l2, CanonE l2 → entriesEqb l1 l2 = true → l1 = l2 := by
  induction l1 with
  | nil =>
    intro _ l2 _ h
    cases l2 with
    | nil => rfl
    | cons => simp [entriesEqb] at h
  | cons x r ih =>
    intro h1 l2 h2 h
    cases h2 with
    | nil => simp [entriesEqb] at h
    | cons hy hy' hr =>
      cases h1 with
      | cons hx hx' hxr =>
        simp only [entriesEqb, entryEqb, Bool.and_eq_true] at h
        obtain ⟨⟨ha, hb⟩, hc⟩ := h
        have e1 := (hk _ _ List.mem_cons_self).1 hx _ hy ha
        have e2 := (hk _ _ List.mem_cons_self).2 hx' _ hy' hb
        have e3 := ih (fun k v hz => hk k v (List.mem_cons_of_mem _ hz)) hxr _ hr hc
        rw [e1, e2, e3]

/-- Canonical nodes are equal only if they are the same. -/
theorem Canon.eqb_eq : ∀ n, Canon n → ∀ m, Canon m → Node.eqb n m = true → n = m := by
  refine Node.induct ?_
  intro pos tag y hk h m hm he
  cases h with
  | null => cases hm <;> simp_all [Node.eqb, Yaml.eqb]
  | bool => cases hm <;> simp_all [Node.eqb, Yaml.eqb]
  | int hi =>
    cases hm with
    | int hj =>
      simp only [Node.eqb, Yaml.eqb, toI64_intDec, hi, hj, if_true, beq_iff_eq, Option.some.injEq] at he
      rw [he]
    | _ => simp_all [Node.eqb, Yaml.eqb]
  | str => cases hm <;> simp_all [Node.eqb, Yaml.eqb]
  | seq hl =>
    cases hm with
    | seq hl' =>
      simp only [Node.eqb, Yaml.eqb] at he
      rw [nodesEqb_canon hk hl _ hl' he]
    | _ => simp_all [Node.eqb, Yaml.eqb]
  | map hl =>
    cases hm with
    | map hl' =>
      simp only [Node.eqb, Yaml.eqb] at he
      rw [entriesEqb_canon hk hl _ hl' he]
    | _ => simp_all [Node.eqb, Yaml.eqb]

/-- A key equal to none of the others is appended. -/
theorem entriesInsert_new {h : HashCfg} {k : Node} (v : Node) {m : List (Node × Node)}
    (hm : ∀ e ∈ m, Node.eq? k e.1 = .ok false) : entriesInsert h m k v = .ok (m ++ [(k, v)]) := by
  have : entriesTake h k m = .ok (none, m) := by
    induction m with
    | nil => rfl
    | cons e r ih =>
      simp only [entriesTake, ih (fun e he => hm e (by simp [he])), hm e (by simp), Out.map]
      split <;> rfl
  simp [entriesInsert, this, Out.map]

theorem serInsert_new {h : HashCfg} {k : Node} (v : Node) {m : List (Node × Node)} (hk : Canon k)
    (hm : ∀ e ∈ m, Canon e.1 ∧ e.1 ≠ k) : serInsert h m k v = .ok (m ++ [(k, v)]) := by
  rw [serInsert, entriesInsert_new]
  · rfl
  · intro e he
    rw [eq?_ok k hk.readable e.1 (hm e he).1.readable]
    cases hb : Node.eqb k e.1 with
    | false => rfl
    | true => exact absurd (hk.eqb_eq _ _ (hm e he).1 hb).symm (hm e he).2

/-! ## The round trip -/

section
variable {h : HashCfg} {f : FloatFmt}

/-- `v` is written as `n` and `n` is read as `v`. -/
structure RT (h : HashCfg) (f : FloatFmt) (t : Ty) (v : Val) (n : Node) : Prop where
  ser : ser h f v = .ok n
  de : de h f t n = .ok v
  null : n.yaml = .null → v.nullish
  canon : t.keyOk → Canon n

theorem natDec_intDec (n : Nat) : natDec n = intDec (n : Int) := rfl

theorem cast_holds {w : IntTy} {i : Int} (hi : w.holds i) : w.cast i = i := by
  unfold IntTy.holds at hi
  unfold IntTy.cast
  split at hi <;> rename_i hs
  · simp only [hs, if_true]
    have : (2 : Int) ^ w.bits = 2 * 2 ^ (w.bits - 1) := by cases w <;> rfl
    apply Int.bmod_eq_of_le <;> (push_cast; omega)
  · simp only [hs]
    exact Int.emod_eq_of_lt hi.1 hi.2

theorem inI64_iff {i : Int} : inI64 i = true ↔ -(2 ^ 63) ≤ i ∧ i < 2 ^ 63 := by
  simp only [inI64, Bool.and_eq_true, decide_eq_true_eq]
  omega

theorem toI64_nat {n : Nat} (hn : n < 2 ^ 63) : toI64 (natDec n) = some (n : Int) := by
  rw [natDec_intDec, toI64_intDec]
  have : inI64 (n : Int) = true := inI64_iff.2 ⟨by omega, by omega⟩
  rw [if_pos this]

/-- ASCII characters are one byte. -/
theorem utf8Char_ascii {c : Char} (hc : c.toNat < 128) :
    String.utf8EncodeChar c = [c.toNat.toUInt8] ∧ Char.ofNat c.toNat.toUInt8.toNat = c := by
  constructor
  · have : c.val.toNat ≤ 0x7f := by have : c.val.toNat = c.toNat := rfl; omega
    simp only [String.utf8EncodeChar]
    rw [if_pos (by exact this)]
    rfl
  · have : c.toNat.toUInt8.toNat = c.toNat := by simp; omega
    rw [this]
    exact Char.ofNat_toNat c

theorem deSeq_bytes (g : Node → SRes Val)
    (hg : ∀ c : UInt8, g (.ofYaml (.int (natDec c.toNat))) = .ok (.int .u8 c.toNat)) (s : Bytes) :
    deSeq g (s.map fun c => .ofYaml (.int (natDec c.toNat))) = .ok (s.map fun c => .int .u8 c.toNat) := by
  induction s with
  | nil => rfl
  | cons c r ih => simp [deSeq, hg, ih]

theorem rt_list {t : Ty} (ht : ∀ v, HasTy t v → v.survives f → ∃ n, RT h f t v n) : ∀ vs : List Val,
    (∀ v ∈ vs, HasTy t v) → survivesAll f vs →
    ∃ l, serList h f vs = .ok l ∧ deSeq (de h f t) l = .ok vs ∧ (t.keyOk → CanonL l)
  | [], _, _ => ⟨[], rfl, rfl, fun _ => .nil⟩
  | v :: r, hv, hs => by
    obtain ⟨n, hn⟩ := ht v (hv v (by simp)) hs.1
    obtain ⟨l, h1, h2, h3⟩ := rt_list ht r (fun x hx => hv x (by simp [hx])) hs.2
    refine ⟨n :: l, ?_, ?_, fun hk => .cons (hn.canon hk) (h3 hk)⟩
    · simp [serList, hn.ser, h1]
    · simp [deSeq, hn.de, h2]

theorem rt_entries {tk tv : Ty} (hkey : tk.keyOk)
    (hk : ∀ v, HasTy tk v → v.survives f → ∃ n, RT h f tk v n)
    (hv : ∀ v, HasTy tv v → v.survives f → ∃ n, RT h f tv v n) : ∀ es : List (Val × Val),
    (es.map Prod.fst).Nodup → (∀ e ∈ es, HasTy tk e.1 ∧ HasTy tv e.2) → survivesEntries f es →
    ∃ m, (∀ acc : List (Node × Node),
        (∀ e ∈ acc, Canon e.1 ∧ ∀ k ∈ es.map Prod.fst, ∀ n, RT h f tk k n → e.1 ≠ n) →
        serEntries h f acc es = .ok (acc ++ m)) ∧
      deMap (de h f tk) (de h f tv) m = .ok es ∧ (tv.keyOk → CanonE m)
  | [], _, _, _ => ⟨[], by simp [serEntries], rfl, fun _ => .nil⟩
  | (k, v) :: r, hnd, hh, hs => by
    obtain ⟨a, ha⟩ := hk k (hh (k, v) (by simp)).1 hs.1.1
    obtain ⟨c, hc⟩ := hv v (hh (k, v) (by simp)).2 hs.1.2
    rw [List.map_cons, List.nodup_cons] at hnd
    obtain ⟨m, h1, h2, h3⟩ := rt_entries hkey hk hv r hnd.2 (fun x hx => hh x (by simp [hx])) hs.2
    refine ⟨(a, c) :: m, ?_, ?_, fun hk => .cons (ha.canon hkey) (hc.canon hk) (h3 hk)⟩
    · intro acc hacc
      simp only [serEntries, serEntry, ha.ser, hc.ser, SRes.bind_ok, SRes.pure_eq]
      rw [serInsert_new c (ha.canon hkey) (fun e he => ⟨(hacc e he).1, (hacc e he).2 k (by simp) a ha⟩),
        SRes.bind_ok, h1]
      · simp
      · intro e he
        rcases List.mem_append.1 he with he | he
        · exact ⟨(hacc e he).1, fun k' hk' => (hacc e he).2 k' (by simp [hk'])⟩
        · simp only [List.mem_singleton] at he
          subst he
          refine ⟨ha.canon hkey, ?_⟩
          intro k' hk' n hn
          rintro rfl
          have := ha.de.symm.trans hn.de
          simp only [SRes.ok.injEq] at this
          subst this
          exact hnd.1 hk'
    · simp [deMap, ha.de, hc.de, h2]

theorem find_name {D : List DeField} (hd : (D.map (·.name)).Nodup) {x : DeField} (hx : x ∈ D) :
    D.find? (fun y => y.name == x.name) = some x := by
  induction D with
  | nil => cases hx
  | cons y r ih =>
    rw [List.map_cons, List.nodup_cons] at hd
    rcases List.mem_cons.1 hx with rfl | hx
    · simp
    · rw [List.find?_cons_of_neg, ih hd.2 hx]
      intro he
      exact hd.1 (List.mem_map.2 ⟨x, hx, (by simpa using he : y.name = x.name).symm⟩)

theorem find_variant {D : List DeVariant} (hd : (D.map (·.name)).Nodup) {x : DeVariant} (hx : x ∈ D) :
    D.find? (fun y => y.name == x.name) = some x := by
  induction D with
  | nil => cases hx
  | cons y r ih =>
    rw [List.map_cons, List.nodup_cons] at hd
    rcases List.mem_cons.1 hx with rfl | hx
    · simp
    · rw [List.find?_cons_of_neg, ih hd.2 hx]
      intro he
      exact hd.1 (List.mem_map.2 ⟨x, hx, (by simpa using he : y.name = x.name).symm⟩)

theorem mapGet_nodup {V : Type} {l : List (Bytes × V)} (hd : (l.map Prod.fst).Nodup) {k : Bytes} {v : V}
    (hx : (k, v) ∈ l) : mapGet k l = some v := by
  induction l with
  | nil => cases hx
  | cons e r ih =>
    obtain ⟨k', v'⟩ := e
    rw [List.map_cons, List.nodup_cons] at hd
    rcases List.mem_cons.1 hx with e | hx
    · cases e; simp [mapGet]
    · rw [mapGet, if_neg, ih hd.2 hx]
      intro he
      have : k = k' := by simpa using he
      exact hd.1 (List.mem_map.2 ⟨(k, v), hx, this⟩)

theorem deFields_names : ∀ fs, (deFields h f fs).map (·.name) = fs.map Prod.fst
  | [] => rfl
  | (n, t) :: r => by simp [deFields, deField, deFields_names r]

theorem deVariants_names : ∀ vs, (deVariants h f vs).map (·.name) = vs.map Prod.fst
  | [] => rfl
  | (n, t) :: r => by simp [deVariants, deVariant, deVariants_names r]

theorem hasFields_names : ∀ fs vs, HasFields fs vs → vs.map Prod.fst = fs.map Prod.fst
  | [], [], _ => rfl
  | (n, t) :: r, (m, v) :: vs, hh => by
    obtain ⟨⟨h1, h2⟩, h3⟩ := hh
    simp [h1, hasFields_names r vs h3]
  | [], _ :: _, hh => hh.elim
  | _ :: _, [], hh => hh.elim

theorem deFieldFill_all {got : List (Bytes × Val)} : ∀ fs vs, HasFields fs vs →
    (∀ e ∈ vs, mapGet e.1 got = some e.2) → deFieldFill got (deFields h f fs) = .ok vs
  | [], [], _, _ => rfl
  | (n, t) :: r, (m, v) :: vs, hh, hg => by
    obtain ⟨⟨h1, h2⟩, h3⟩ := hh
    subst h1
    have := hg (m, v) (by simp)
    simp only at this
    simp [deFields, deField, deFieldFill, this,
      deFieldFill_all r vs h3 (fun e he => hg e (by simp [he]))]
  | [], _ :: _, hh, _ => hh.elim
  | _ :: _, [], hh, _ => hh.elim

/-- What the induction provides for the fields of a struct. -/
def RTFields (h : HashCfg) (f : FloatFmt) (fs : List (Bytes × Ty)) (vs : List (Bytes × Val)) : Prop :=
  ∃ m, (∀ acc : List (Node × Node),
      (∀ e ∈ acc, ∃ nm, e.1 = strNode nm ∧ nm ∉ fs.map Prod.fst) →
      serFields h f acc vs = .ok (acc ++ m)) ∧
    (∀ D : List DeField, (∀ x ∈ deFields h f fs, D.find? (fun y => y.name == x.name) = some x) →
      deFieldLoop D m = .ok vs) ∧ (fieldsKeyOk fs → CanonE m)

/-- What the induction provides for tuples. -/
def RTTuple (h : HashCfg) (f : FloatFmt) (ts : List Ty) (vs : List Val) : Prop :=
  ∃ l, serList h f vs = .ok l ∧ deTuple (deAll h f ts) l = .ok vs ∧ (tysKeyOk ts → CanonL l)

/-- What the induction provides for the payload of a variant. -/
def RTPayload (h : HashCfg) (f : FloatFmt) (t : VTy) (p : VVal) : Prop :=
  (p = .unit ∧ dePayload h f t none = .ok .unit) ∨
  ∃ n, p ≠ .unit ∧ serPayload h f p = .ok n ∧ dePayload h f t (some n) = .ok p ∧ (payloadKeyOk t → Canon n)

theorem RTFields.struct {fs : List (Bytes × Ty)} {vs : List (Bytes × Val)} (hr : RTFields h f fs vs)
    (hh : HasFields fs vs) (hnd : (fs.map Prod.fst).Nodup) :
    ∃ m, serFields h f [] vs = .ok m ∧ deStructMap (deFields h f fs) m = .ok (.struct vs) ∧
      (fieldsKeyOk fs → CanonE m) := by
  obtain ⟨m, h1, h2, h3⟩ := hr
  refine ⟨m, by simpa using h1 [] (by simp), ?_, h3⟩
  have hl := h2 (deFields h f fs) (fun x hx => find_name (by rw [deFields_names]; exact hnd) hx)
  have hf := deFieldFill_all (h := h) (f := f) (got := vs) fs vs hh
    (fun e he => mapGet_nodup (by rw [hasFields_names fs vs hh]; exact hnd) he)
  simp [deStructMap, hl, hf]

mutual
theorem rt (hf : f.Exact) : ∀ (t : Ty), t.wf → ∀ v, HasTy t v → v.survives f → ∃ n, RT h f t v n
  | .bool, _, v, hh, _ => by
    cases v <;> simp only [HasTy] at hh
    exact ⟨_, rfl, rfl, by simp [Node.yaml, Node.ofYaml], fun _ => .bool⟩
  | .int w, _, v, hh, hs => by
    cases v <;> simp only [HasTy] at hh
    rename_i w' i
    obtain ⟨rfl, hw⟩ := hh
    have hi : inI64 i = true := inI64_iff.2 hs
    refine ⟨_, rfl, ?_, by simp [Node.yaml, Node.ofYaml], fun _ => .int hi⟩
    simp [de, deInt, Node.ofYaml, Node.yaml, toI64_intDec, hi, cast_holds hw]
  | .f64, _, v, hh, _ => by
    cases v <;> simp only [HasTy] at hh
    refine ⟨_, rfl, ?_, by simp [Node.yaml, Node.ofYaml], fun hk => by simp [Ty.keyOk] at hk⟩
    simp [de, Node.ofYaml, Node.yaml, hf.back _ hh]
  | .f32, _, v, hh, hs => by
    cases v <;> simp only [HasTy] at hh
    obtain ⟨y, hy, e⟩ := Option.map_eq_some_iff.1 hs
    refine ⟨_, rfl, ?_, by simp [Node.yaml, Node.ofYaml], fun hk => by simp [Ty.keyOk] at hk⟩
    simp [de, Node.ofYaml, Node.yaml, hy, e]
  | .char, _, v, hh, hs => by
    cases v <;> simp only [HasTy] at hh
    obtain ⟨e1, e2⟩ := utf8Char_ascii hs
    refine ⟨_, rfl, ?_, by simp [Node.yaml, Node.ofYaml, strNode], fun _ => .str⟩
    simp only [de, strNode, Node.ofYaml, Node.yaml, e1, e2]
  | .str, _, v, hh, _ => by
    cases v <;> simp only [HasTy] at hh
    exact ⟨_, rfl, rfl, by simp [Node.yaml, Node.ofYaml, strNode], fun _ => .str⟩
  | .bytes, _, v, hh, hs => by
    cases v <;> simp only [HasTy] at hh
    clear hs
    rename_i s
    refine ⟨_, rfl, ?_, by simp [Node.yaml, Node.ofYaml], fun _ => .seq ?_⟩
    · simp only [de, Node.ofYaml, Node.yaml]
      have := deSeq_bytes (deInt .u8) (fun c => ?_) s
      · simp only [Node.ofYaml] at this
        rw [this]
        simp [Function.comp_def]
      · have hc : c.toNat < 256 := c.toNat_lt
        simp only [deInt, Node.ofYaml, Node.yaml, toI64_nat (show c.toNat < 2 ^ 63 by omega)]
        rw [cast_holds]
        simp [IntTy.holds, IntTy.signed, IntTy.bits]
        omega
    · induction s with
      | nil => exact .nil
      | cons c r ih =>
        have hc : c.toNat < 256 := c.toNat_lt
        exact .cons (.int (i := (c.toNat : Int)) (inI64_iff.2 ⟨by omega, by omega⟩)) ih
  | .unit, _, v, hh, _ => by
    cases v <;> simp only [HasTy] at hh
    exact ⟨_, rfl, rfl, fun _ => trivial, fun _ => .null⟩
  | .option t, hw, v, hh, hs => by
    cases v <;> simp only [HasTy] at hh
    · exact ⟨_, rfl, rfl, fun _ => trivial, fun _ => .null⟩
    · rename_i v
      obtain ⟨n, hn⟩ := rt hf t hw v hh hs.2
      refine ⟨n, hn.ser, ?_, fun e => (hs.1 (hn.null e)).elim, hn.canon⟩
      have : n.yaml ≠ .null := fun e => hs.1 (hn.null e)
      simp only [de, hn.de]
      rfl
  | .seq t, hw, v, hh, hs => by
    cases v <;> simp only [HasTy] at hh
    obtain ⟨l, h1, h2, h3⟩ := rt_list (rt hf t hw) _ hh hs
    refine ⟨.ofYaml (.seq l), by simp [ser, h1], ?_, by simp [Node.yaml, Node.ofYaml], fun hk => .seq (h3 hk)⟩
    simp [de, Node.ofYaml, Node.yaml, h2]
  | .tuple ts, hw, v, hh, hs => by
    cases v <;> simp only [HasTy] at hh
    obtain ⟨l, h1, h2, h3⟩ := rt_tys hf ts hw _ hh hs
    refine ⟨.ofYaml (.seq l), by simp [ser, h1], ?_, by simp [Node.yaml, Node.ofYaml], fun hk => .seq (h3 hk)⟩
    simp [de, Node.ofYaml, Node.yaml, h2]
  | .map tk tv, hw, v, hh, hs => by
    cases v <;> simp only [HasTy] at hh
    obtain ⟨m, h1, h2, h3⟩ := rt_entries hw.2.1 (rt hf tk hw.1) (rt hf tv hw.2.2) _ hh.1 hh.2 hs
    have h1 := h1 [] (by simp)
    refine ⟨.ofYaml (.map m), by simp [ser, h1], ?_, by simp [Node.yaml, Node.ofYaml],
      fun hk => .map (h3 hk.2)⟩
    simp [de, Node.ofYaml, Node.yaml, h2]
  | .newtype t, hw, v, hh, hs => by
    cases v <;> simp only [HasTy] at hh
    obtain ⟨n, hn⟩ := rt hf t hw _ hh hs
    exact ⟨n, hn.ser, by simp [de, hn.de], hn.null, hn.canon⟩
  | .struct fs, hw, v, hh, hs => by
    cases v <;> simp only [HasTy] at hh
    obtain ⟨m, h1, h2, h3⟩ := (rt_fields hf fs hw.1 hw.2 _ hh hs).struct hh hw.1
    refine ⟨.ofYaml (.map m), by simp [ser, h1], ?_, by simp [Node.yaml, Node.ofYaml], fun hk => .map (h3 hk)⟩
    simp [de, Node.ofYaml, Node.yaml, h2]
  | .enum ts, hw, v, hh, hs => by
    cases v <;> simp only [HasTy] at hh
    rename_i name p
    obtain ⟨x, hx, hn, hp, hk⟩ := rt_variants hf ts hw.2 name p hh hs
    have hfind := find_variant (by rw [deVariants_names]; exact hw.1) hx
    rw [hn] at hfind
    rcases hp with ⟨rfl, hp⟩ | ⟨n, hp0, hp1, hp2, hp3⟩
    · refine ⟨strNode name, rfl, ?_, by simp [Node.yaml, Node.ofYaml, strNode], fun _ => .str⟩
      simp [de, strNode, Node.ofYaml, Node.yaml, deEnum, deIdent, hfind, hp]
    · refine ⟨.ofYaml (.map [(strNode name, n)]), ?_, ?_, by simp [Node.yaml, Node.ofYaml],
        fun hkk => .map (.cons .str (hp3 (hk hkk)) .nil)⟩
      · cases p <;> simp_all [ser]
      · simp [de, strNode, Node.ofYaml, Node.yaml, deEnum, deIdent, hfind, hp2]
  | .node, hw, _, _, _ => hw.elim

theorem rt_tys (hf : f.Exact) : ∀ (ts : List Ty), tysWf ts → ∀ vs, HasTys ts vs → survivesAll f vs →
    RTTuple h f ts vs
  | [], _, [], _, _ => ⟨[], rfl, rfl, fun _ => .nil⟩
  | t :: ts, hw, v :: vs, hh, hs => by
    obtain ⟨n, hn⟩ := rt hf t hw.1 v hh.1 hs.1
    obtain ⟨l, h1, h2, h3⟩ := rt_tys hf ts hw.2 vs hh.2 hs.2
    refine ⟨n :: l, ?_, ?_, fun hk => .cons (hn.canon hk.1) (h3 hk.2)⟩
    · simp [serList, hn.ser, h1]
    · simp [deAll, deTuple, hn.de, h2]
  | [], _, _ :: _, hh, _ => hh.elim
  | _ :: _, _, [], hh, _ => hh.elim

theorem rt_fields (hf : f.Exact) : ∀ (fs : List (Bytes × Ty)), (fs.map Prod.fst).Nodup → fieldsWf fs →
    ∀ vs, HasFields fs vs → survivesFields f vs → RTFields h f fs vs
  | [], _, _, [], _, _ => ⟨[], by simp [serFields], fun _ _ => rfl, fun _ => .nil⟩
  | e :: fs, hnd, hw, (nm, v) :: vs, hh, hs => by
    obtain ⟨n, hn, he⟩ := rt_field hf e hw.1 nm v hh.1 hs.1
    rw [List.map_cons, List.nodup_cons] at hnd
    obtain ⟨m, h1, h2, h3⟩ := rt_fields hf fs hnd.2 hw.2 vs hh.2 hs.2
    refine ⟨(strNode nm, n) :: m, ?_, ?_, fun hk => .cons .str (he.2 hk.1) (h3 hk.2)⟩
    · intro acc hacc
      simp only [serFields, serField, hn, SRes.bind_ok]
      rw [serInsert_new (k := strNode nm) n .str, SRes.bind_ok, h1]
      · simp
      · intro x hx
        rcases List.mem_append.1 hx with hx | hx
        · obtain ⟨a, h4, h5⟩ := hacc x hx
          exact ⟨a, h4, fun h6 => h5 (by simp [h6])⟩
        · simp only [List.mem_singleton] at hx
          subst hx
          exact ⟨nm, rfl, by rw [he.1.1]; exact hnd.1⟩
      · intro x hx
        obtain ⟨a, h4, h5⟩ := hacc x hx
        rw [h4]
        refine ⟨.str, ?_⟩
        intro h6
        simp only [strNode, Node.ofYaml, Node.mk.injEq, Yaml.str.injEq, true_and] at h6
        subst h6
        exact h5 (by simp [he.1.1])
    · intro D hD
      have hx := hD (deField h f e) (by simp [deFields])
      have hr := h2 D (fun x hx => hD x (by simp [deFields, hx]))
      rw [he.1.2.1] at hx
      simp only [deFieldLoop, deIdent, strNode, Node.ofYaml, Node.yaml, SRes.bind_ok, hx, he.1.2.2, hr]
      rfl
  | [], _, _, _ :: _, hh, _ => hh.elim
  | _ :: _, _, _, [], hh, _ => hh.elim

theorem rt_field (hf : f.Exact) : ∀ (e : Bytes × Ty), fieldWf e → ∀ nm v, HasField e (nm, v) → v.survives f →
    ∃ n, ser h f v = .ok n ∧ (nm = e.1 ∧ (deField h f e).name = nm ∧ (deField h f e).read n = .ok v) ∧
      (fieldKeyOk e → Canon n)
  | (a, t), hw, nm, v, hh, hs => by
    obtain ⟨n, hn⟩ := rt hf t hw v hh.2 hs
    exact ⟨n, hn.ser, ⟨hh.1, hh.1.symm, hn.de⟩, hn.canon⟩

theorem rt_variants (hf : f.Exact) : ∀ (ts : List (Bytes × VTy)), variantsWf ts → ∀ name p,
    HasVariant ts name p → p.survives f →
    ∃ x ∈ deVariants h f ts, x.name = name ∧
      ((p = .unit ∧ x.read none = .ok .unit) ∨
        ∃ n, p ≠ .unit ∧ serPayload h f p = .ok n ∧ x.read (some n) = .ok p ∧ (variantsKeyOk ts → Canon n)) ∧
      (variantsKeyOk ts → variantsKeyOk ts)
  | [], _, _, _, hh, _ => hh.elim
  | e :: ts, hw, name, p, hh, hs => by
    rcases hh with hh | hh
    · obtain ⟨h1, h2⟩ := rt_variant hf e hw.1 name p hh hs
      refine ⟨deVariant h f e, by simp [deVariants], h1, ?_, id⟩
      rcases h2 with h2 | ⟨n, h2, h3, h4, h5⟩
      · exact .inl h2
      · exact .inr ⟨n, h2, h3, h4, fun hk => h5 hk.1⟩
    · obtain ⟨x, h1, h2, h3, _⟩ := rt_variants hf ts hw.2 name p hh hs
      refine ⟨x, by simp [deVariants, h1], h2, ?_, id⟩
      rcases h3 with h3 | ⟨n, h4, h5, h6, h7⟩
      · exact .inl h3
      · exact .inr ⟨n, h4, h5, h6, fun hk => h7 hk.2⟩

theorem rt_variant (hf : f.Exact) : ∀ (e : Bytes × VTy), variantWf e → ∀ name p,
    HasVariant1 e name p → p.survives f →
    (deVariant h f e).name = name ∧
      ((p = .unit ∧ (deVariant h f e).read none = .ok .unit) ∨
        ∃ n, p ≠ .unit ∧ serPayload h f p = .ok n ∧ (deVariant h f e).read (some n) = .ok p ∧
          (variantKeyOk e → Canon n))
  | (a, t), hw, name, p, hh, hs => ⟨hh.1.symm, rt_payload hf t hw p hh.2 hs⟩

theorem rt_payload (hf : f.Exact) : ∀ (t : VTy), payloadWf t → ∀ p, HasPayload t p → p.survives f →
    RTPayload h f t p
  | .unit, _, p, hh, _ => by
    cases p <;> simp only [HasPayload] at hh
    exact .inl ⟨rfl, rfl⟩
  | .newtype t, hw, p, hh, hs => by
    cases p <;> simp only [HasPayload] at hh
    obtain ⟨n, hn⟩ := rt hf t hw _ hh hs
    exact .inr ⟨n, by simp, hn.ser, by simp [dePayload, hn.de], hn.canon⟩
  | .tuple ts, hw, p, hh, hs => by
    cases p <;> simp only [HasPayload] at hh
    obtain ⟨l, h1, h2, h3⟩ := rt_tys hf ts hw _ hh hs
    exact .inr ⟨.ofYaml (.seq l), by simp, by simp [serPayload, h1],
      by simp [dePayload, Node.ofYaml, Node.yaml, h2], fun hk => .seq (h3 hk)⟩
  | .struct fs, hw, p, hh, hs => by
    cases p <;> simp only [HasPayload] at hh
    obtain ⟨m, h1, h2, h3⟩ := (rt_fields hf fs hw.1 hw.2 _ hh hs).struct hh hw.1
    exact .inr ⟨.ofYaml (.map m), by simp, by simp [serPayload, h1],
      by simp [dePayload, Node.ofYaml, Node.yaml, h2], fun hk => .map (h3 hk)⟩
end

/-! ## Only these values survive -/

/-- Two lists correspond element by element. -/
inductive AllTwo {α β : Type} (R : α → β → Prop) : List α → List β → Prop
  | nil : AllTwo R [] []
  | cons {x : α} {y : β} {r : List α} {s : List β} : R x y → AllTwo R r s → AllTwo R (x :: r) (y :: s)

theorem SRes.bind_eq_ok {α β : Type} {x : SRes α} {g : α → SRes β} {c : β} (hh : (x >>= g) = .ok c) :
    ∃ a, x = .ok a ∧ g a = .ok c := by
  cases x with
  | ok a => exact ⟨a, rfl, hh⟩
  | err e p => cases hh
  | panic p => cases hh

theorem unexpected_not_ok {α : Type} {n : Node} {a : α} : unexpected n ≠ .ok a := by
  unfold unexpected
  split <;> (try split) <;> simp

theorem nullish_ser : ∀ v : Val, v.nullish → ser h f v = .ok (.ofYaml .null)
  | .unit, _ => rfl
  | .none, _ => rfl
  | .some v, hv => by rw [ser]; exact nullish_ser v hv
  | .newtype v, hv => by rw [ser]; exact nullish_ser v hv

theorem conv_list {t : Ty} (ht : ∀ v n, HasTy t v → ser h f v = .ok n → de h f t n = .ok v → v.survives f) :
    ∀ (vs : List Val) l, (∀ v ∈ vs, HasTy t v) → serList h f vs = .ok l → deSeq (de h f t) l = .ok vs →
    survivesAll f vs
  | [], _, _, _, _ => trivial
  | v :: r, l, hv, h1, h2 => by
    simp only [serList] at h1
    obtain ⟨n, e1, h1⟩ := SRes.bind_eq_ok h1
    obtain ⟨l', e2, h1⟩ := SRes.bind_eq_ok h1
    cases h1
    simp only [deSeq] at h2
    obtain ⟨a, e3, h2⟩ := SRes.bind_eq_ok h2
    obtain ⟨r', e4, h2⟩ := SRes.bind_eq_ok h2
    cases h2
    exact ⟨ht v n (hv v (by simp)) e1 e3, conv_list ht r l' (fun x hx => hv x (by simp [hx])) e2 e4⟩

/-- An insertion appends the entry or leaves the length as it is. -/
theorem serInsert_cases {m m' : List (Node × Node)} {k v : Node} (hh : serInsert h m k v = .ok m') :
    m' = m ++ [(k, v)] ∨ m'.length = m.length := by
  have aux : ∀ (m : List (Node × Node)) x r, entriesTake h k m = .ok (x, r) →
      (x = none ∧ r = m) ∨ (x ≠ none ∧ r.length + 1 = m.length) := by
    intro m
    induction m with
    | nil => intro x r e; simp [entriesTake] at e; simp [← e.1, ← e.2]
    | cons a t ih =>
      intro x r e
      have next : ∀ x r, (entriesTake h k t).map (fun (y, r') => (y, a :: r')) = .ok (x, r) →
          (x = none ∧ r = a :: t) ∨ (x ≠ none ∧ r.length + 1 = (a :: t).length) := by
        intro x r e
        cases ht : entriesTake h k t with
        | ok z =>
          obtain ⟨y, r'⟩ := z
          rw [ht] at e
          simp only [Out.map, Out.ok.injEq, Prod.mk.injEq] at e
          obtain ⟨rfl, rfl⟩ := e
          rcases ih _ _ ht with ⟨a1, a2⟩ | ⟨a1, a2⟩
          · exact .inl ⟨a1, by rw [a2]⟩
          · exact .inr ⟨a1, by simp; omega⟩
        | _ => rw [ht] at e; simp [Out.map] at e
      simp only [entriesTake] at e
      split at e
      · split at e
        · simp only [Out.ok.injEq, Prod.mk.injEq] at e
          obtain ⟨rfl, rfl⟩ := e
          exact .inr ⟨by simp, by simp⟩
        · exact next x r e
        all_goals cases e
      · exact next x r e
  unfold serInsert entriesInsert at hh
  cases ht : entriesTake h k m with
  | ok z =>
    obtain ⟨x, r⟩ := z
    rw [ht] at hh
    rcases aux m x r ht with ⟨rfl, rfl⟩ | ⟨h1, h2⟩
    · simp only [Out.map, SRes.ofOut, SRes.ok.injEq] at hh
      exact .inl hh.symm
    · cases x with
      | none => exact absurd rfl h1
      | some k' =>
        simp only [Out.map, SRes.ofOut, SRes.ok.injEq] at hh
        right
        rw [← hh]
        simp; omega
  | _ => rw [ht] at hh; simp [Out.map, SRes.ofOut] at hh

theorem serEntries_length : ∀ (es : List (Val × Val)) (acc m : List (Node × Node)),
    serEntries h f acc es = .ok m → m.length ≤ acc.length + es.length
  | [], acc, m, hh => by cases hh; simp
  | e :: r, acc, m, hh => by
    simp only [serEntries] at hh
    obtain ⟨⟨k, v⟩, _, hh⟩ := SRes.bind_eq_ok hh
    obtain ⟨acc', e2, hh⟩ := SRes.bind_eq_ok hh
    have := serEntries_length r acc' m hh
    rcases serInsert_cases e2 with rfl | h3
    · simp at this ⊢; omega
    · simp; omega

/-- If no entry got lost, every entry was appended. -/
theorem serEntries_full : ∀ (es : List (Val × Val)) (acc m : List (Node × Node)),
    serEntries h f acc es = .ok m → m.length = acc.length + es.length →
    ∃ l, m = acc ++ l ∧ AllTwo (fun (e : Val × Val) (x : Node × Node) =>
      ser h f e.1 = .ok x.1 ∧ ser h f e.2 = .ok x.2) es l
  | [], acc, m, hh, _ => by cases hh; exact ⟨[], by simp, .nil⟩
  | (a, c) :: r, acc, m, hh, hl => by
    simp only [serEntries, serEntry] at hh
    obtain ⟨⟨k, v⟩, e1, hh⟩ := SRes.bind_eq_ok hh
    obtain ⟨k', e3, e1⟩ := SRes.bind_eq_ok e1
    obtain ⟨v', e4, e1⟩ := SRes.bind_eq_ok e1
    cases e1
    obtain ⟨acc', e2, hh⟩ := SRes.bind_eq_ok hh
    have hle := serEntries_length r acc' m hh
    rcases serInsert_cases e2 with rfl | h3
    · obtain ⟨l, rfl, h5⟩ := serEntries_full r _ m hh (by simp at hl ⊢; omega)
      exact ⟨(k, v) :: l, by simp, .cons ⟨e3, e4⟩ h5⟩
    · simp at hl; omega

theorem deMap_length {gk gv : Node → SRes Val} : ∀ m es, deMap gk gv m = .ok es → es.length = m.length
  | [], es, hh => by cases hh; rfl
  | (k, v) :: r, es, hh => by
    simp only [deMap] at hh
    obtain ⟨a, _, hh⟩ := SRes.bind_eq_ok hh
    obtain ⟨b, _, hh⟩ := SRes.bind_eq_ok hh
    obtain ⟨es', e3, hh⟩ := SRes.bind_eq_ok hh
    cases hh
    simp [deMap_length r es' e3]

theorem conv_entries {tk tv : Ty}
    (hk : ∀ v n, HasTy tk v → ser h f v = .ok n → de h f tk n = .ok v → v.survives f)
    (hv : ∀ v n, HasTy tv v → ser h f v = .ok n → de h f tv n = .ok v → v.survives f) :
    ∀ (es : List (Val × Val)) l, (∀ e ∈ es, HasTy tk e.1 ∧ HasTy tv e.2) →
    AllTwo (fun (e : Val × Val) (x : Node × Node) =>
      ser h f e.1 = .ok x.1 ∧ ser h f e.2 = .ok x.2) es l →
    deMap (de h f tk) (de h f tv) l = .ok es → survivesEntries f es
  | [], _, _, _, _ => trivial
  | (a, c) :: r, _, hh, .cons (y := (k, v)) (s := l) h1 h2, hd => by
    simp only [deMap] at hd
    obtain ⟨x, e1, hd⟩ := SRes.bind_eq_ok hd
    obtain ⟨y, e2, hd⟩ := SRes.bind_eq_ok hd
    obtain ⟨z, e3, hd⟩ := SRes.bind_eq_ok hd
    cases hd
    have := hh (a, c) (by simp)
    exact ⟨⟨hk a k this.1 h1.1 e1, hv c v this.2 h1.2 e2⟩,
      conv_entries hk hv r l (fun x hx => hh x (by simp [hx])) h2 e3⟩

/-- Fields are always appended, because their names differ. -/
theorem serFields_full : ∀ (vs : List (Bytes × Val)) (acc m : List (Node × Node)),
    (vs.map Prod.fst).Nodup → (∀ e ∈ acc, ∃ nm, e.1 = strNode nm ∧ nm ∉ vs.map Prod.fst) →
    serFields h f acc vs = .ok m →
    ∃ l, m = acc ++ l ∧ AllTwo (fun (e : Bytes × Val) (x : Node × Node) =>
      x.1 = strNode e.1 ∧ ser h f e.2 = .ok x.2) vs l
  | [], acc, m, _, _, hh => by cases hh; exact ⟨[], by simp, .nil⟩
  | (nm, v) :: r, acc, m, hnd, hacc, hh => by
    rw [List.map_cons, List.nodup_cons] at hnd
    simp only [serFields, serField] at hh
    obtain ⟨n, e1, hh⟩ := SRes.bind_eq_ok hh
    rw [serInsert_new (k := strNode nm) n .str, SRes.bind_ok] at hh
    · have hacc' : ∀ x ∈ acc ++ [(strNode nm, n)], ∃ a, x.1 = strNode a ∧ a ∉ r.map Prod.fst := by
        intro x hx
        rcases List.mem_append.1 hx with hx | hx
        · obtain ⟨a, h4, h5⟩ := hacc x hx
          exact ⟨a, h4, fun h6 => h5 (by simp [h6])⟩
        · simp only [List.mem_singleton] at hx
          subst hx
          exact ⟨nm, rfl, hnd.1⟩
      obtain ⟨l, hl, h5⟩ := serFields_full r _ m hnd.2 hacc' hh
      exact ⟨(strNode nm, n) :: l, by simp [hl], .cons ⟨rfl, e1⟩ h5⟩
    · intro x hx
      obtain ⟨a, h4, h5⟩ := hacc x hx
      rw [h4]
      refine ⟨.str, ?_⟩
      intro h6
      simp only [strNode, Node.ofYaml, Node.mk.injEq, Yaml.str.injEq, true_and] at h6
      subst h6
      exact h5 (by simp)

/-- What the loop over the entries got for a struct's own fields. -/
theorem deFieldLoop_full {D : List DeField} : ∀ (vs : List (Bytes × Val)) (l : List (Node × Node)) got,
    AllTwo (fun (e : Bytes × Val) (x : Node × Node) => x.1 = strNode e.1 ∧ ser h f e.2 = .ok x.2) vs l →
    (∀ e ∈ vs, ∃ x, D.find? (fun y => y.name == e.1) = some x) →
    deFieldLoop D l = .ok got →
    got.map Prod.fst = vs.map Prod.fst ∧
      ∀ e ∈ vs, ∃ x n a, D.find? (fun y => y.name == e.1) = some x ∧ ser h f e.2 = .ok n ∧
        x.read n = .ok a ∧ (e.1, a) ∈ got
  | [], _, got, .nil, _, hh => by cases hh; exact ⟨rfl, by simp⟩
  | (nm, v) :: r, _, got, .cons (y := (k, n)) (s := l) h1 h2, hD, hh => by
    obtain ⟨x, hx⟩ := hD (nm, v) (by simp)
    simp only at h1 hx
    rw [h1.1] at hh
    simp only [deFieldLoop, deIdent, strNode, Node.ofYaml, Node.yaml, SRes.bind_ok, hx] at hh
    obtain ⟨a, e1, hh⟩ := SRes.bind_eq_ok hh
    obtain ⟨got', e2, hh⟩ := SRes.bind_eq_ok hh
    cases hh
    obtain ⟨h5, h6⟩ := deFieldLoop_full r l got' h2 (fun e he => hD e (by simp [he])) e2
    refine ⟨by simp [h5], ?_⟩
    intro e he
    rcases List.mem_cons.1 he with rfl | he
    · exact ⟨x, n, a, hx, h1.2, e1, by simp⟩
    · obtain ⟨x, n, a, g1, g2, g3, g4⟩ := h6 e he
      exact ⟨x, n, a, g1, g2, g3, by simp [g4]⟩

theorem deFieldFill_get {got : List (Bytes × Val)} : ∀ (D : List DeField) vs,
    deFieldFill got D = .ok vs → ∀ e ∈ vs, mapGet e.1 got = some e.2 ∨ mapGet e.1 got = none
  | [], vs, hh => by cases hh; simp
  | x :: r, vs, hh => by
    simp only [deFieldFill] at hh
    split at hh
    · rename_i a ha
      obtain ⟨vs', e1, hh⟩ := SRes.bind_eq_ok hh
      cases hh
      intro e he
      rcases List.mem_cons.1 he with rfl | he
      · exact .inl ha
      · exact deFieldFill_get r vs' e1 e he
    · rename_i ha
      split at hh
      · obtain ⟨vs', e1, hh⟩ := SRes.bind_eq_ok hh
        cases hh
        intro e he
        rcases List.mem_cons.1 he with rfl | he
        · exact .inr ha
        · exact deFieldFill_get r vs' e1 e he
      · cases hh

/-- If a struct comes back, each of its fields does. -/
theorem conv_struct {fs : List (Bytes × Ty)} {vs : List (Bytes × Val)} {m : List (Node × Node)}
    (hnd : (fs.map Prod.fst).Nodup) (hh : HasFields fs vs) (h1 : serFields h f [] vs = .ok m)
    (h2 : deStructMap (deFields h f fs) m = .ok (.struct vs)) :
    ∀ x ∈ deFields h f fs, ∀ v, (x.name, v) ∈ vs → ∃ n, ser h f v = .ok n ∧ x.read n = .ok v := by
  have hn := hasFields_names fs vs hh
  obtain ⟨l, hm, hl⟩ := serFields_full vs [] m (by rw [hn]; exact hnd) (by simp) h1
  rw [List.nil_append] at hm
  subst hm
  simp only [deStructMap] at h2
  obtain ⟨got, e1, h2⟩ := SRes.bind_eq_ok h2
  obtain ⟨vs', e2, h2⟩ := SRes.bind_eq_ok h2
  simp only [SRes.pure_eq, SRes.ok.injEq, Val.struct.injEq] at h2
  subst h2
  have hD : ((deFields h f fs).map (·.name)).Nodup := by rw [deFields_names]; exact hnd
  obtain ⟨g1, g2⟩ := deFieldLoop_full vs' m got hl (fun e he => by
    have : e.1 ∈ (deFields h f fs).map (·.name) := by
      rw [deFields_names, ← hn]; exact List.mem_map.2 ⟨e, he, rfl⟩
    obtain ⟨x, hx, hxe⟩ := List.mem_map.1 this
    exact ⟨x, by rw [← hxe]; exact find_name hD hx⟩) e1
  intro x hx v hv
  obtain ⟨x', n, a, k1, k2, k3, k4⟩ := g2 (x.name, v) hv
  rw [find_name hD hx] at k1
  cases k1
  have hga := mapGet_nodup (by rw [g1, hn]; exact hnd) k4
  simp only at hga
  rcases deFieldFill_get _ _ e2 (x.name, v) hv with q | q
  · rw [hga] at q
    cases q
    exact ⟨n, k2, k3⟩
  · rw [hga] at q
    cases q

mutual
theorem conv : ∀ (t : Ty), t.wf → ∀ v n, HasTy t v → ser h f v = .ok n → de h f t n = .ok v → v.survives f
  | .bool, _, v, n, hh, _, _ => by cases v <;> simp_all [HasTy, Val.survives]
  | .int w, _, v, n, hh, h1, h2 => by
    cases v <;> simp only [HasTy] at hh
    rename_i w' i
    cases h1
    simp only [de, deInt, Node.ofYaml, Node.yaml, toI64_intDec] at h2
    by_cases hi : inI64 i = true
    · exact inI64_iff.1 hi
    · simp [hi] at h2
  | .f64, _, v, n, hh, _, _ => by cases v <;> simp_all [HasTy, Val.survives]
  | .f32, _, v, n, hh, h1, h2 => by
    cases v <;> simp only [HasTy] at hh
    rename_i x
    cases h1
    simp only [de, Node.ofYaml, Node.yaml] at h2
    simp only [Val.survives, F32Back]
    cases hy : toF64 (f.fmt32 x) with
    | none => rw [hy] at h2; cases h2
    | some y =>
      rw [hy] at h2
      simp only [SRes.ok.injEq, Val.f32.injEq] at h2
      rw [Option.map_some, h2]
  | .char, _, v, n, hh, h1, h2 => by
    cases v <;> simp only [HasTy] at hh
    rename_i c
    cases h1
    by_cases hc : c.toNat < 128
    · exact hc
    · exfalso
      have hc' : ¬ c.val.toNat ≤ 0x7f := by have : c.val.toNat = c.toNat := rfl; omega
      simp only [de, strNode, Node.ofYaml, Node.yaml] at h2
      have hlen : ∀ b, String.utf8EncodeChar c ≠ [b] := by
        intro b
        simp only [String.utf8EncodeChar]
        rw [if_neg (by exact hc')]
        split
        · simp
        · split <;> simp
      split at h2
      · rename_i b hb
        simp only [Yaml.str.injEq] at hb
        exact hlen b hb
      · rename_i hb; cases hb
      · exact unexpected_not_ok h2
  | .str, _, v, n, hh, _, _ => by cases v <;> simp_all [HasTy, Val.survives]
  | .bytes, _, v, n, hh, _, _ => by cases v <;> simp_all [HasTy, Val.survives]
  | .unit, _, v, n, hh, _, _ => by cases v <;> simp_all [HasTy, Val.survives]
  | .option t, hw, v, n, hh, h1, h2 => by
    cases v <;> simp only [HasTy] at hh
    · trivial
    · rename_i v
      rw [ser] at h1
      rw [de.eq_def] at h2
      simp only at h2
      split at h2
      · cases h2
      · rename_i hn
        obtain ⟨a, e1, h2⟩ := SRes.bind_eq_ok h2
        cases h2
        refine ⟨?_, conv t hw _ n hh h1 e1⟩
        intro hv
        rw [nullish_ser _ hv] at h1
        cases h1
        exact hn rfl
  | .seq t, hw, v, n, hh, h1, h2 => by
    cases v <;> simp only [HasTy] at hh
    simp only [ser] at h1
    obtain ⟨l, e1, h1⟩ := SRes.bind_eq_ok h1
    cases h1
    simp only [de, Node.ofYaml, Node.yaml] at h2
    obtain ⟨vs, e2, h2⟩ := SRes.bind_eq_ok h2
    cases h2
    exact conv_list (conv t hw) _ l hh e1 e2
  | .tuple ts, hw, v, n, hh, h1, h2 => by
    cases v <;> simp only [HasTy] at hh
    simp only [ser] at h1
    obtain ⟨l, e1, h1⟩ := SRes.bind_eq_ok h1
    cases h1
    simp only [de, Node.ofYaml, Node.yaml] at h2
    obtain ⟨vs, e2, h2⟩ := SRes.bind_eq_ok h2
    cases h2
    exact conv_tys ts hw _ l hh e1 e2
  | .map tk tv, hw, v, n, hh, h1, h2 => by
    cases v <;> simp only [HasTy] at hh
    simp only [ser] at h1
    obtain ⟨m, e1, h1⟩ := SRes.bind_eq_ok h1
    cases h1
    simp only [de, Node.ofYaml, Node.yaml] at h2
    obtain ⟨es, e2, h2⟩ := SRes.bind_eq_ok h2
    cases h2
    obtain ⟨l, e3, e4⟩ := serEntries_full _ [] m e1 (by simp [deMap_length _ _ e2])
    simp only [List.nil_append] at e3
    subst e3
    exact conv_entries (conv tk hw.1) (conv tv hw.2.2) _ m hh.2 e4 e2
  | .newtype t, hw, v, n, hh, h1, h2 => by
    cases v <;> simp only [HasTy] at hh
    rename_i v
    rw [ser] at h1
    show v.survives f
    simp only [de] at h2
    obtain ⟨a, e1, h2⟩ := SRes.bind_eq_ok h2
    cases h2
    exact conv t hw _ n hh h1 e1
  | .struct fs, hw, v, n, hh, h1, h2 => by
    cases v <;> simp only [HasTy] at hh
    simp only [ser] at h1
    obtain ⟨m, e1, h1⟩ := SRes.bind_eq_ok h1
    cases h1
    simp only [de, Node.ofYaml, Node.yaml] at h2
    exact conv_fields fs hw.2 _ hh (conv_struct hw.1 hh e1 h2)
  | .enum ts, hw, v, n, hh, h1, h2 => by
    cases v <;> simp only [HasTy] at hh
    rename_i name p
    have hnd : ((deVariants h f ts).map (·.name)).Nodup := by rw [deVariants_names]; exact hw.1
    obtain ⟨x, hx, hxn, hp⟩ := conv_variants ts hw.2 name p hh
    refine hp ?_
    have hfind := find_variant hnd hx
    rw [hxn] at hfind
    cases p with
    | unit => exact .inl rfl
    | _ =>
      simp only [ser] at h1
      obtain ⟨c, e1, h1⟩ := SRes.bind_eq_ok h1
      cases h1
      simp only [de, strNode, Node.ofYaml, Node.yaml, deEnum, deIdent, SRes.bind_ok, hfind] at h2
      obtain ⟨a, e2, h2⟩ := SRes.bind_eq_ok h2
      cases h2
      exact .inr ⟨c, e1, e2⟩
  | .node, hw, _, _, _, _, _ => hw.elim

theorem conv_tys : ∀ (ts : List Ty), tysWf ts → ∀ vs l, HasTys ts vs → serList h f vs = .ok l →
    deTuple (deAll h f ts) l = .ok vs → survivesAll f vs
  | [], _, [], _, _, _, _ => trivial
  | t :: ts, hw, v :: vs, l, hh, h1, h2 => by
    simp only [serList] at h1
    obtain ⟨n, e1, h1⟩ := SRes.bind_eq_ok h1
    obtain ⟨l', e2, h1⟩ := SRes.bind_eq_ok h1
    cases h1
    simp only [deAll, deTuple] at h2
    obtain ⟨a, e3, h2⟩ := SRes.bind_eq_ok h2
    obtain ⟨r', e4, h2⟩ := SRes.bind_eq_ok h2
    cases h2
    exact ⟨conv t hw.1 v n hh.1 e1 e3, conv_tys ts hw.2 vs l' hh.2 e2 e4⟩
  | [], _, _ :: _, _, hh, _, _ => hh.elim
  | _ :: _, _, [], _, hh, _, _ => hh.elim

theorem conv_fields : ∀ (fs : List (Bytes × Ty)), fieldsWf fs → ∀ vs, HasFields fs vs →
    (∀ x ∈ deFields h f fs, ∀ v, (x.name, v) ∈ vs → ∃ n, ser h f v = .ok n ∧ x.read n = .ok v) →
    survivesFields f vs
  | [], _, [], _, _ => trivial
  | e :: fs, hw, (nm, v) :: vs, hh, hx =>
    ⟨conv_field e hw.1 nm v hh.1 (fun hn => hx (deField h f e) (by simp [deFields]) v (by simp [hn])),
      conv_fields fs hw.2 vs hh.2 (fun x hxx v hv => hx x (by simp [deFields, hxx]) v (by simp [hv]))⟩
  | [], _, _ :: _, hh, _ => hh.elim
  | _ :: _, _, [], hh, _ => hh.elim

theorem conv_field : ∀ (e : Bytes × Ty), fieldWf e → ∀ nm v, HasField e (nm, v) →
    ((deField h f e).name = nm → ∃ n, ser h f v = .ok n ∧ (deField h f e).read n = .ok v) → v.survives f
  | (a, t), hw, nm, v, hh, hx => by
    obtain ⟨n, h1, h2⟩ := hx hh.1.symm
    exact conv t hw v n hh.2 h1 h2

theorem conv_variants : ∀ (ts : List (Bytes × VTy)), variantsWf ts → ∀ name p, HasVariant ts name p →
    ∃ x ∈ deVariants h f ts, x.name = name ∧
      (p = .unit ∨ (∃ n, serPayload h f p = .ok n ∧ x.read (some n) = .ok p) → p.survives f)
  | [], _, _, _, hh => hh.elim
  | e :: ts, hw, name, p, hh => by
    rcases hh with hh | hh
    · exact ⟨deVariant h f e, by simp [deVariants], conv_variant e hw.1 name p hh⟩
    · obtain ⟨x, h1, h2⟩ := conv_variants ts hw.2 name p hh
      exact ⟨x, by simp [deVariants, h1], h2⟩

theorem conv_variant : ∀ (e : Bytes × VTy), variantWf e → ∀ name p, HasVariant1 e name p →
    (deVariant h f e).name = name ∧
      (p = .unit ∨ (∃ n, serPayload h f p = .ok n ∧ (deVariant h f e).read (some n) = .ok p) → p.survives f)
  | (a, t), hw, name, p, hh => ⟨hh.1.symm, by
    rintro (rfl | ⟨n, h1, h2⟩)
    · trivial
    · exact conv_payload t hw p n hh.2 h1 h2⟩

theorem conv_payload : ∀ (t : VTy), payloadWf t → ∀ p n, HasPayload t p → serPayload h f p = .ok n →
    dePayload h f t (some n) = .ok p → p.survives f
  | .unit, _, p, n, hh, _, _ => by
    cases p <;> simp only [HasPayload] at hh
    trivial
  | .newtype t, hw, p, n, hh, h1, h2 => by
    cases p <;> simp only [HasPayload] at hh
    rw [serPayload] at h1
    simp only [dePayload] at h2
    obtain ⟨a, e1, h2⟩ := SRes.bind_eq_ok h2
    cases h2
    exact conv t hw _ n hh h1 e1
  | .tuple ts, hw, p, n, hh, h1, h2 => by
    cases p <;> simp only [HasPayload] at hh
    simp only [serPayload] at h1
    obtain ⟨l, e1, h1⟩ := SRes.bind_eq_ok h1
    cases h1
    simp only [dePayload, Node.ofYaml, Node.yaml] at h2
    obtain ⟨vs, e2, h2⟩ := SRes.bind_eq_ok h2
    cases h2
    exact conv_tys ts hw _ l hh e1 e2
  | .struct fs, hw, p, n, hh, h1, h2 => by
    cases p <;> simp only [HasPayload] at hh
    simp only [serPayload] at h1
    obtain ⟨m, e1, h1⟩ := SRes.bind_eq_ok h1
    cases h1
    simp only [dePayload, Node.ofYaml, Node.yaml] at h2
    obtain ⟨vs, e2, h2⟩ := SRes.bind_eq_ok h2
    cases vs with
    | struct x =>
      cases h2
      exact conv_fields fs hw.2 _ hh (conv_struct hw.1 hh e1 e2)
    | _ => cases h2
end

end

end YamlPeg
