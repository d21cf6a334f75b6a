import Verif.Proof.Dump
/-! # Dumping with anchors -/

namespace YamlPeg
open M

/-- The anchor the dumper writes in front of a node: the first name of the table whose
node equals it. -/
def mark (A : Anchors) (x : Node) : Option Bytes := (A.find? fun kv => Node.eqb kv.2 x).map Prod.fst

mutual
/-- The nodes that get an anchor, in the order in which they end, with their names. -/
def Node.marks (A : Anchors) : Node → List (Bytes × Node)
  | .mk p t y => y.marks A ++
    match mark A (.mk p t y) with
    | some a => [(a, .mk p t y)]
    | none => []
def Yaml.marks (A : Anchors) : Yaml → List (Bytes × Node)
  | .seq l => itemsMarks A l
  | .map m => entriesMarks A m
  | _ => []
def itemsMarks (A : Anchors) : List Node → List (Bytes × Node)
  | [] => []
  | x :: xs => x.marks A ++ itemsMarks A xs
def entriesMarks (A : Anchors) : List (Node × Node) → List (Bytes × Node)
  | [] => []
  | e :: es => entryMarks A e ++ entriesMarks A es
def entryMarks (A : Anchors) : Node × Node → List (Bytes × Node)
  | (k, v) => k.marks A ++ v.marks A
end

mutual
/-- Nodes that the dumper prints such that they read back, anchors in front of the nodes
that are in the table `A`: no key and no collection that is the value of a map is. -/
def Node.dumpableA (cfg : DumpCfg) (A : Anchors) (inner : Bool) : Node → Prop
  | .mk p t y => (PlainTag t ∨ CustomTag t) ∧ (∀ a, mark A (.mk p t y) = some a → IsIdent a) ∧ y.dumpableA cfg A inner
def Yaml.dumpableA (cfg : DumpCfg) (A : Anchors) (inner : Bool) : Yaml → Prop
  | .null => True
  | .bool _ => True
  | .int s => ∃ κ, ScalarText κ s (.int s)
  | .float s => ∃ κ, ScalarText κ s (.float s)
  | .str s => LineStr s ∨ (inner = true ∧ cfg.windows = false ∧ MultiStr s)
  | .seq l => l ≠ [] ∧ itemsDumpableA cfg A l
  | .map m => m ≠ [] ∧ KeysOK (m.map fun e => e.1.yaml) ∧ KeysDiffer m ∧ entriesDumpableA cfg A m
  | .alias a => IsIdent a
def itemsDumpableA (cfg : DumpCfg) (A : Anchors) : List Node → Prop
  | [] => True
  | x :: xs => x.dumpableA cfg A true ∧ itemsDumpableA cfg A xs
def entriesDumpableA (cfg : DumpCfg) (A : Anchors) : List (Node × Node) → Prop
  | [] => True
  | e :: es => entryDumpableA cfg A e ∧ entriesDumpableA cfg A es
def entryDumpableA (cfg : DumpCfg) (A : Anchors) : Node × Node → Prop
  | (k, v) => (k.dumpableA cfg A false ∧ k.yaml.isScalar = true ∧ PlainTag k.rawTag ∧ mark A k = none) ∧
      v.dumpableA cfg A true ∧ (v.yaml.isColl = true → PlainTag v.rawTag ∧ mark A v = none)
end

/-! ## The anchor in front of a node -/

/-- The comparisons with the nodes of the table succeed. -/
def Found (A : Anchors) (x : Node) : Prop := findAnchor x A = .ok (mark A x)

theorem found_readable : ∀ {A : Anchors} {x : Node}, (∀ kv ∈ A, Readable kv.2) → Readable x → Found A x
  | [], x, _, _ => rfl
  | (k, v) :: r, x, hA, hx => by
    have ih := found_readable (A := r) (x := x) (fun kv h => hA kv (by simp [h])) hx
    unfold Found mark at *
    rw [findAnchor, eq?_ok v (hA (k, v) (by simp)) x hx]
    cases h : Node.eqb v x with
    | true => simp [h]
    | false => simpa [h] using ih

/-- The anchor as it is written. -/
def markText : Option Bytes → Bytes
  | some a => 0x26 :: (a ++ b!" ")
  | none => []

theorem dumpNode_mark {cfg : DumpCfg} {A : Anchors} {p : Nat} {t : Bytes} {y : Yaml} (hf : Found A (.mk p t y)) {n : Nat}
    {root : Root} {level : Nat} {s : Bytes} (h : dumpYaml cfg n A root level y = .ok s) :
    dumpNode cfg n A root level (.mk p t y) = .ok (markText (mark A (.mk p t y)) ++ tagText (.mk p t y) ++ s) := by
  have e : anchorText (.mk p t y) A = .ok (markText (mark A (.mk p t y))) := by
    rw [anchorText, hf]
    cases mark A (.mk p t y) <;> simp [Out.map, Out.bind, markText]
  rw [dumpNode, e]
  show Out.bind (.ok _) _ = _
  simp only [Out.bind]
  show Out.bind (dumpYaml cfg n A root level y) _ = _
  rw [h]; rfl

theorem tagText_plain {p : Nat} {t : Bytes} {y : Yaml} (ht : PlainTag t) : tagText (.mk p t y) = [] := by
  have hs : startsWith (Node.mk p t y).tagOf tagPrefix = true ∨ (Node.mk p t y).tagOf = [] := by
    rcases ht with rfl | ht
    · cases y <;> simp [Node.tagOf, Node.rawTag, Node.yaml, startsWith]
    · unfold Node.tagOf Node.rawTag
      simp only
      split
      · cases y <;> simp [Node.yaml, startsWith]
      · exact .inl ht
  unfold tagText
  rcases hs with hs | hs <;> simp [hs]

/-! ## Anchor tables -/

/-- The node bound to a name, without its positions. -/
def sees (t : Anchors) (k : Bytes) : Option Node := (mapGet k t).map Node.noPos

/-- The node marked with a name, without what is not printed. -/
def look (l : List (Bytes × Node)) (k : Bytes) : Option Node := (l.find? fun kv => kv.1 == k).map fun kv => kv.2.erase

/-- The names of `l` are bound, in addition to those of `e`. -/
def Binds (l : List (Bytes × Node)) (fine : Prop) (e eff : Anchors) : Prop :=
  (l.map Prod.fst).Nodup → (∀ kv ∈ l, mapGet kv.1 e = none) → fine ∧ ∀ k, sees eff k = (look l k).or (sees e k)

theorem Binds.nil {fine : Prop} {e : Anchors} (h : fine) : Binds [] fine e e := fun _ _ => ⟨h, by simp [look]⟩

theorem look_append (l1 l2 : List (Bytes × Node)) (k : Bytes) : look (l1 ++ l2) k = (look l1 k).or (look l2 k) := by
  unfold look
  rw [List.find?_append]
  cases l1.find? fun kv => kv.1 == k <;> simp

theorem look_none {l : List (Bytes × Node)} {k : Bytes} (h : k ∉ l.map Prod.fst) : look l k = none := by
  unfold look
  rw [List.find?_eq_none.2]
  · rfl
  · intro x hx he
    simp only [beq_iff_eq] at he
    exact h (he ▸ List.mem_map_of_mem hx)

theorem sees_none {t : Anchors} {k : Bytes} : sees t k = none ↔ mapGet k t = none := by simp [sees]

theorem Binds.append {l1 l2 : List (Bytes × Node)} {f1 f2 : Prop} {e e1 e2 : Anchors} (h1 : Binds l1 f1 e e1)
    (h2 : Binds l2 f2 e1 e2) : Binds (l1 ++ l2) (f1 ∧ f2) e e2 := by
  intro hnd hno
  rw [List.map_append, List.nodup_append] at hnd
  obtain ⟨n1, n2, hd⟩ := hnd
  obtain ⟨a1, a2⟩ := h1 n1 fun kv h => hno kv (by simp [h])
  have hno2 : ∀ kv ∈ l2, mapGet kv.1 e1 = none := by
    intro kv hkv
    rw [← sees_none, a2, look_none]
    · simp [sees_none.2 (hno kv (by simp [hkv]))]
    · exact fun h => hd _ h _ (List.mem_map_of_mem hkv) rfl
  obtain ⟨b1, b2⟩ := h2 n2 hno2
  refine ⟨⟨a1, b1⟩, fun k => ?_⟩
  rw [b2, a2, look_append, Option.or_assoc, ← Option.or_assoc]
  by_cases hk : k ∈ l1.map Prod.fst
  · have hk2 : k ∉ l2.map Prod.fst := fun h => hd _ hk _ h rfl
    rw [look_none hk2]; simp
  · rw [look_none hk]; simp

/-- One more name, bound at the end. -/
theorem Binds.snoc {l : List (Bytes × Node)} {f g : Prop} {e e1 : Anchors} (h : Binds l f e e1) (hg : g) (a : Bytes)
    (x x' : Node) (hx : x'.noPos = x.erase) :
    Binds (l ++ [(a, x)]) (g ∧ f ∧ (a ≠ [] → mapGet a e1 = none)) e (mapInsert a x' e1) := by
  have := h.append (l2 := [(a, x)]) (f2 := mapGet a e1 = none) (e1 := e1) (e2 := mapInsert a x' e1) (by
    intro _ hno
    refine ⟨hno (a, x) (by simp), fun k => ?_⟩
    unfold sees
    rw [mapGet_mapInsert]
    by_cases hk : k = a
    · subst hk; simp [look, hx]
    · have : (a == k) = false := by simp [Ne.symm hk]
      simp [look, hk, this])
  intro h1 h2
  obtain ⟨⟨a1, a2⟩, a3⟩ := this h1 h2
  exact ⟨⟨hg, a1, fun _ => a2⟩, a3⟩

/-! ## Trees -/

/-- Everything a dumped tree satisfies, whatever surrounds it. -/
def DumpedA (cfg : DumpCfg) (A : Anchors) (b : Blk) (y : Yaml) : Prop :=
  (b.text ≠ [] ∧ AfterLines b.kind cfg.nl) ∧ ∀ p e, e.cyclic = true →
    (b.data p e).noPos = y.erase ∧ Binds (y.marks A) (b.fine p e) e.anchors (b.eff p e)

/-- The same for a node. -/
def DumpedNA (cfg : DumpCfg) (A : Anchors) (b : Blk) (x : Node) : Prop :=
  (b.text ≠ [] ∧ AfterLines b.kind cfg.nl) ∧ b.tag = keptTag x.rawTag ∧ ∀ p e, e.cyclic = true →
    (b.data p e).noPos = x.yaml.erase ∧ Binds (x.marks A) (b.fine p e) e.anchors (b.eff p e)

theorem DumpedNA.noPos {cfg : DumpCfg} {A : Anchors} {b : Blk} {x : Node} (h : DumpedNA cfg A b x) (q p : Nat) {e : Env}
    (he : e.cyclic = true) : (Node.mk q b.tag (b.data p e)).noPos = x.erase := by
  obtain ⟨p', t, y⟩ := x
  rw [Node.noPos, Node.erase, (h.2.2 p e he).1, h.2.1]; rfl

/-- The properties the dumper writes in front of a node. -/
def formOf (o : Option Bytes) (t : Bytes) (b : Blk) : Blk :=
  match o with
  | none => if keptTag t = [] then b else .prop (.tag (tagOut t) t b!" ") b
  | some a => if keptTag t = [] then .prop (.anchor a b!" ") b else .prop (.anchorTag a b!" " (tagOut t) t b!" ") b

theorem custom_kept {t : Bytes} (h : CustomTag t) : keptTag t ≠ [] := by rw [h.kept]; exact h.ne

theorem formOf_text {o : Option Bytes} {p : Nat} {t : Bytes} {y : Yaml} {b : Blk} (ht : PlainTag t ∨ CustomTag t) :
    (formOf o t b).text = markText o ++ tagText (.mk p t y) ++ b.text := by
  rcases ht with ht | ht
  · cases o <;> simp [formOf, ht.kept, tagText_plain ht, markText, Blk.text, Form.text]
  · cases o <;> simp [formOf, custom_kept ht, tagText_custom ht, markText, Blk.text, Form.text]

theorem formOf_dumped {cfg : DumpCfg} {A : Anchors} {p : Nat} {t : Bytes} {y : Yaml} {b : Blk} (ht : PlainTag t ∨ CustomTag t)
    (hi : ∀ a, mark A (.mk p t y) = some a → IsIdent a) (hb : b.bare = true) (h : DumpedA cfg A b y) :
    DumpedNA cfg A (formOf (mark A (.mk p t y)) t b) (.mk p t y) := by
  have hbt := bare_tag hb
  cases hm : mark A (.mk p t y) with
  | none =>
    have hmarks : (Node.mk p t y).marks A = y.marks A := by rw [Node.marks, hm]; simp
    rcases ht with ht | ht
    · simp only [formOf, ht.kept, if_true]
      refine ⟨h.1, by rw [hbt, Node.rawTag, ht.kept], fun q e he => ?_⟩
      rw [hmarks]; exact h.2 q e he
    · simp only [formOf, custom_kept ht, if_false]
      refine ⟨by simp only [Blk.kind]; exact ⟨by simp [Blk.text, h.1.1], h.1.2⟩, by rw [Blk.tag, Form.val, Node.rawTag, ht.kept], fun q e he => ?_⟩
      rw [hmarks]
      simp only [Blk.data, Blk.fine, Blk.eff, Form.name, Form.fine, if_true]
      obtain ⟨h1, h2⟩ := h.2 (q + (Form.tag (tagOut t) t b!" ").text.length) e he
      exact ⟨h1, fun a1 a2 => ⟨⟨ht.text _, (h2 a1 a2).1, by simp⟩, (h2 a1 a2).2⟩⟩
  | some a =>
    have hmarks : (Node.mk p t y).marks A = y.marks A ++ [(a, .mk p t y)] := by rw [Node.marks, hm]
    have hne := (hi a hm).ne
    rcases ht with ht | ht
    · simp only [formOf, ht.kept, if_true]
      refine ⟨by simp only [Blk.kind]; exact ⟨by simp [Blk.text, h.1.1], h.1.2⟩, by rw [Blk.tag, Form.val, Node.rawTag, ht.kept], fun q e he => ?_⟩
      rw [hmarks]
      simp only [Blk.data, Blk.fine, Blk.eff, Form.name, Form.fine, Form.val, hne, if_false]
      obtain ⟨h1, h2⟩ := h.2 (q + (Form.anchor a b!" ").text.length) e he
      exact ⟨h1, h2.snoc trivial a _ _ (by rw [Node.noPos, Node.erase, h1, ht.kept])⟩
    · simp only [formOf, custom_kept ht, if_false]
      refine ⟨by simp only [Blk.kind]; exact ⟨by simp [Blk.text, h.1.1], h.1.2⟩, by rw [Blk.tag, Form.val, Node.rawTag, ht.kept], fun q e he => ?_⟩
      rw [hmarks]
      simp only [Blk.data, Blk.fine, Blk.eff, Form.name, Form.fine, Form.val, hne, if_false]
      obtain ⟨h1, h2⟩ := h.2 (q + (Form.anchorTag a b!" " (tagOut t) t b!" ").text.length) e he
      exact ⟨h1, h2.snoc (ht.text _) a _ _ (by rw [Node.noPos, Node.erase, h1, ht.kept])⟩

theorem formOf_is {o : Option Bytes} {t : Bytes} (hi : ∀ a, o = some a → IsIdent a) (lead : Bytes) :
    (∀ f : Form, (o = none ∧ f = .tag (tagOut t) t b!" ") ∨ (∃ a, o = some a ∧ f = .anchor a b!" ") ∨
      (∃ a, o = some a ∧ f = .anchorTag a b!" " (tagOut t) t b!" ") → f.is lead) := by
  have sp : ∀ l, SepIs b!" " l := fun l => ⟨by simp; decide, .inl ⟨[], rfl⟩⟩
  rintro f (⟨_, rfl⟩ | ⟨a, ha, rfl⟩ | ⟨a, ha, rfl⟩)
  · exact ⟨tagOut_head t, sp _⟩
  · exact ⟨hi a ha, sp _⟩
  · exact ⟨hi a ha, tagOut_head t, sp _, sp _⟩

theorem formOf_cases (o : Option Bytes) (t : Bytes) (b : Blk) :
    (o = none ∧ keptTag t = [] ∧ formOf o t b = b) ∨ ∃ f : Form, formOf o t b = .prop f b ∧
      ((o = none ∧ f = .tag (tagOut t) t b!" ") ∨ (∃ a, o = some a ∧ f = .anchor a b!" ") ∨
      (∃ a, o = some a ∧ f = .anchorTag a b!" " (tagOut t) t b!" ")) := by
  cases o with
  | none =>
    by_cases h : keptTag t = []
    · exact .inl ⟨rfl, h, by simp [formOf, h]⟩
    · exact .inr ⟨_, by simp [formOf, h], .inl ⟨rfl, rfl⟩⟩
  | some a =>
    by_cases h : keptTag t = []
    · exact .inr ⟨_, by simp [formOf, h], .inr (.inl ⟨a, rfl, rfl⟩)⟩
    · exact .inr ⟨_, by simp [formOf, h], .inr (.inr ⟨a, rfl, rfl⟩)⟩

theorem formOf_okN {o : Option Bytes} {t : Bytes} {b : Blk} {σ : Nat} (hi : ∀ a, o = some a → IsIdent a) (hb : b.bare = true)
    (hne : b.text ≠ []) (h : b.okN σ) : (formOf o t b).okN σ := by
  rcases formOf_cases o t b with ⟨_, _, e⟩ | ⟨f, e, hf⟩
  · rw [e]; exact h
  · rw [e, Blk.okN]; exact ⟨formOf_is hi _ f hf, hb, hne, h⟩

theorem formOf_okV {o : Option Bytes} {t : Bytes} {b : Blk} {σ : Nat} (hi : ∀ a, o = some a → IsIdent a) (hb : b.bare = true)
    (hne : b.text ≠ []) (h : b.okV σ) : (formOf o t b).okV σ := by
  rcases formOf_cases o t b with ⟨_, _, e⟩ | ⟨f, e, hf⟩
  · rw [e]; exact h
  · rw [e, Blk.okV]; exact ⟨formOf_is hi _ f hf, hb, hne, h⟩

/-- Printed as the root or an item. -/
def Starts (cfg : DumpCfg) (b : Blk) (level : Nat) : Prop :=
  (b.lead = [] ∧ ∀ X, trimStart (b.text ++ X) = b.text ++ X) ∨
    (b.lead = cfg.nl ++ spaces (2 * level) ∧ ∃ r, b.text = b.lead ++ 0x2D :: r)

theorem formOf_starts {cfg : DumpCfg} {o : Option Bytes} {t : Bytes} {b : Blk} {level : Nat} (h : Starts cfg b level) :
    Starts cfg (formOf o t b) level := by
  rcases formOf_cases o t b with ⟨_, _, e⟩ | ⟨f, e, hf⟩
  · rw [e]; exact h
  · refine .inl ⟨by rw [e]; rfl, fun X => ?_⟩
    rw [e, Blk.text]
    obtain ⟨r, hr⟩ := tagOut_head t
    rcases hf with ⟨_, rfl⟩ | ⟨a, _, rfl⟩ | ⟨a, _, rfl⟩
    · rw [Form.text, hr]; exact trimStart_ascii (by decide) (by decide) _
    · rw [Form.text]; exact trimStart_ascii (by decide) (by decide) _
    · rw [Form.text]; exact trimStart_ascii (by decide) (by decide) _

/-- Dumped as the root or an item. -/
def ItemClaimA (cfg : DumpCfg) (A : Anchors) (x : Node) : Prop :=
  ∀ root level inner, root ≠ .map → (inner = true → 0 < level) → x.dumpableA cfg A inner → Everywhere (Found A) x →
    ∃ b : Blk, b.okN (2 * level) ∧ DumpedNA cfg A b x ∧ (PlainTag x.rawTag → mark A x = none → b.bare = true) ∧
      Starts cfg b level ∧ ∃ N, ∀ n, N ≤ n → dumpNode cfg n A root level x = .ok b.text

/-- Dumped as a value. -/
def ValueClaimA (cfg : DumpCfg) (A : Anchors) (x : Node) : Prop :=
  ∀ level lv, (lv = level + 1 ∨ (lv = level ∧ ∃ l, x.yaml = .seq l)) → x.dumpableA cfg A true → Everywhere (Found A) x →
    (x.yaml.isColl = true → PlainTag x.rawTag ∧ mark A x = none) →
    ∃ (sp : Bytes) (b : Blk), SepIs sp b.lead ∧ b.okV (2 * level) ∧ DumpedNA cfg A b x ∧
      ∃ N, ∀ n, N ≤ n → ∃ t, dumpNode cfg n A .map lv x = .ok t ∧
        (if x.yaml.isColl then t else b!" " ++ t) = sp ++ b.text

/-- The data, dumped as the root or an item. -/
def YItemClaimA (cfg : DumpCfg) (A : Anchors) (y : Yaml) : Prop :=
  ∀ root level inner, root ≠ .map → (inner = true → 0 < level) → y.dumpableA cfg A inner → Yaml.Kids (Everywhere (Found A)) y →
    ∃ b : Blk, b.bare = true ∧ b.okN (2 * level) ∧ DumpedA cfg A b y ∧ Starts cfg b level ∧
      ∃ N, ∀ n, N ≤ n → dumpYaml cfg n A root level y = .ok b.text

/-- The data, dumped as a value. -/
def YValueClaimA (cfg : DumpCfg) (A : Anchors) (y : Yaml) : Prop :=
  ∀ level lv, (lv = level + 1 ∨ (lv = level ∧ ∃ l, y = .seq l)) → y.dumpableA cfg A true → Yaml.Kids (Everywhere (Found A)) y →
    ∃ (sp : Bytes) (b : Blk), b.bare = true ∧ SepIs sp b.lead ∧ (y.isColl = false → sp = b!" ") ∧
      b.okV (2 * level) ∧ DumpedA cfg A b y ∧
      ∃ N, ∀ n, N ≤ n → ∃ t, dumpYaml cfg n A .map lv y = .ok t ∧
        (if y.isColl then t else b!" " ++ t) = sp ++ b.text

theorem item_nodeA {cfg : DumpCfg} {A : Anchors} {y : Yaml} (h : YItemClaimA cfg A y) (pos : Nat) (t : Bytes) :
    ItemClaimA cfg A (.mk pos t y) := by
  intro root level inner hroot hin hd hfound
  rw [Node.dumpableA] at hd
  obtain ⟨ht, hi, hd⟩ := hd
  obtain ⟨hf, hk⟩ := everywhere_mk.1 hfound
  obtain ⟨b, hb, hok, hdm, hl, N, hN⟩ := h root level inner hroot hin hd hk
  refine ⟨formOf (mark A (.mk pos t y)) t b, formOf_okN hi hb hdm.1.1 hok, formOf_dumped ht hi hb hdm, ?_, formOf_starts hl, N, fun n hn => ?_⟩
  · intro hp hm
    rw [hm]
    simp only [Node.rawTag] at hp
    simp only [formOf, hp.kept, if_true, hb]
  · rw [dumpNode_mark hf (hN n hn), formOf_text (p := pos) (y := y) ht]

theorem value_nodeA {cfg : DumpCfg} {A : Anchors} {y : Yaml} (h : YValueClaimA cfg A y) (pos : Nat) (t : Bytes) :
    ValueClaimA cfg A (.mk pos t y) := by
  intro level lv hlv hd hfound hcoll
  rw [Node.dumpableA] at hd
  obtain ⟨ht, hi, hd⟩ := hd
  obtain ⟨hf, hk⟩ := everywhere_mk.1 hfound
  obtain ⟨sp, b, hb, hsp, hspc, hok, hdm, N, hN⟩ := h level lv hlv hd hk
  have hsep : SepIs sp (formOf (mark A (.mk pos t y)) t b).lead := by
    rcases formOf_cases (mark A (.mk pos t y)) t b with ⟨_, _, e⟩ | ⟨f, e, hf⟩
    · rw [e]; exact hsp
    · have hc : y.isColl = false := by
        rw [Bool.eq_false_iff]; intro hc
        obtain ⟨h1, h2⟩ := hcoll hc
        have e' : formOf (mark A (.mk pos t y)) t b = b := by
          rw [h2]; simp only [Node.rawTag] at h1; simp [formOf, h1.kept]
        rw [e'] at e; rw [e] at hb; simp [Blk.bare] at hb
      rw [hspc hc, e]; exact sepIs_blank _
  refine ⟨sp, formOf (mark A (.mk pos t y)) t b, hsep, formOf_okV hi hb hdm.1.1 hok, formOf_dumped ht hi hb hdm, N, fun n hn => ?_⟩
  obtain ⟨s, h1, h2⟩ := hN n hn
  refine ⟨_, dumpNode_mark hf h1, ?_⟩
  rw [formOf_text (p := pos) (y := y) ht]
  simp only [Node.yaml] at hcoll ⊢
  by_cases hc : y.isColl = true
  · obtain ⟨g1, g2⟩ := hcoll hc
    simp only [Node.rawTag] at g1
    rw [g2, tagText_plain g1]
    simpa [hc, markText] using h2
  · rw [Bool.not_eq_true] at hc
    rw [hspc hc] at h2 ⊢
    simp only [hc, Bool.false_eq_true, if_false] at h2 ⊢
    rw [List.append_cancel_left h2]

def ItemsClaimA (cfg : DumpCfg) (A : Anchors) (l : List Node) : Prop :=
  ∀ level, ∃ its : Items, its.ok (2 * level) ∧ AfterLines its.kind cfg.nl ∧
    (∀ p e, e.cyclic = true → noPosNodes (its.nodes (2 * level) p e) = eraseNodes l ∧
      Binds (itemsMarks A l) (its.fine (2 * level) p e) e.anchors (its.eff (2 * level) p e)) ∧
    ∃ N, ∀ n, N ≤ n → ∀ first, dumpItems cfg n A level first l =
      .ok (spaces (2 * level) ++ 0x2D :: (its.sp ++ (its.body (2 * level) ++ cfg.nl)))

def EntriesClaimA (cfg : DumpCfg) (A : Anchors) (m : List (Node × Node)) : Prop :=
  ∀ root level first, ∃ es : Ents, es.ok (2 * level) ∧ es.keys = m.map (fun e => e.1.yaml) ∧
    AfterLines es.kind cfg.nl ∧ trimStart es.T = es.T ∧
    (∀ kp p e, e.cyclic = true → noPosEntries (es.pairs (2 * level) (.mk kp [] es.y) p e) = eraseEntries m ∧
      Binds (entriesMarks A m) (es.fine (2 * level) p e) e.anchors (es.eff (2 * level) p e)) ∧
    ∃ N, ∀ n, N ≤ n → dumpEntries cfg n A root level first m =
      .ok ((if !first || root = .map then indent2 level else []) ++
        (es.T ++ 0x3A :: (es.sp ++ (es.body (2 * level) ++ cfg.nl))))

theorem items_claimA (cfg : DumpCfg) (A : Anchors) : ∀ {l : List Node}, l ≠ [] → itemsDumpableA cfg A l →
    (∀ x ∈ l, Everywhere (Found A) x) → (∀ x ∈ l, ItemClaimA cfg A x) → ItemsClaimA cfg A l
  | [], h, _, _, _ => absurd rfl h
  | x :: xs, _, hd, hF, hc => by
    intro level
    rw [itemsDumpableA] at hd
    obtain ⟨b, hok, hdm, _, hlead, N, hN⟩ := hc x (by simp) .array (level + 1) true (by simp) (by simp) hd.1 (hF x (by simp))
    have hok' : b.okN (2 * level + 2) := by rw [Nat.mul_add] at hok; exact hok
    have hind : ∀ first, (if !first || level != 0 then indent2 level else []) = spaces (2 * level) := by
      intro first
      by_cases h0 : level = 0
      · subst h0; cases first <;> rfl
      · simp [h0, indent2]
    cases xs with
    | nil =>
      refine ⟨.one b!" " b, ?_, hdm.1.2, ?_, N, fun n hn first => ?_⟩
      · rw [Items.ok]; exact ⟨.inl (sepIs_blank _), hok'⟩
      · intro p e he
        simp only [Items.nodes, noPosNodes, eraseNodes, itemsMarks, List.append_nil, Items.fine, Items.eff]
        rw [hdm.noPos _ _ he]
        exact ⟨rfl, (hdm.2.2 p e he).2⟩
      · rw [dumpItems, hN n hn, dumpItems, hind]
        show Out.ok _ = _
        simp [Items.sp, Items.body]
    | cons x' xs =>
      obtain ⟨its, iok, ikind, idata, N', hN'⟩ := items_claimA cfg A (l := x' :: xs) (by simp) hd.2
        (fun y hy => hF y (by simp [hy])) (fun y hy => hc y (by simp [hy])) level
      refine ⟨.cons b!" " b cfg.nl its, ?_, ikind, ?_, max N N', fun n hn first => ?_⟩
      · rw [Items.ok]; exact ⟨.inl (sepIs_blank _), hok', hdm.1.2, iok⟩
      · intro p e he
        obtain ⟨i1, i2⟩ := idata (p + b.text.length + cfg.nl.length + 2 * level + 1 + its.sp.length)
          { e with anchors := b.eff p e } he
        rw [Items.nodes, noPosNodes, i1, hdm.noPos _ _ he, itemsMarks, Items.fine, Items.eff]
        exact ⟨by simp [eraseNodes], (hdm.2.2 p e he).2.append i2⟩
      · rw [dumpItems, hN n (by omega), hN' n (by omega), hind]
        show Out.ok _ = _
        simp [Items.sp, Items.body]

theorem dumpYaml_scalar {cfg : DumpCfg} {A : Anchors} {n : Nat} {root : Root} {level : Nat} {y : Yaml} (h : y.isScalar = true) :
    dumpYaml cfg n A root level y = dumpYaml cfg n [] root level y := by
  cases y <;> first | (simp [Yaml.isScalar] at h; done) | (simp only [dumpYaml])

theorem dumpableA_scalar {cfg : DumpCfg} {A : Anchors} {inner : Bool} {y : Yaml} (h : y.isScalar = true) :
    y.dumpableA cfg A inner ↔ y.dumpable cfg inner := by
  cases y <;> first | (simp [Yaml.isScalar] at h; done) | (simp only [Yaml.dumpable, Yaml.dumpableA])

theorem marks_scalar {A : Anchors} {y : Yaml} (h : y.isScalar = true) : y.marks A = [] := by
  cases y <;> first | rfl | simp [Yaml.isScalar] at h

theorem entries_claimA (cfg : DumpCfg) (A : Anchors) : ∀ {m : List (Node × Node)}, m ≠ [] → entriesDumpableA cfg A m →
    (∀ k v, (k, v) ∈ m → Everywhere (Found A) k ∧ Everywhere (Found A) v) →
    (∀ k v, (k, v) ∈ m → ValueClaimA cfg A v) → EntriesClaimA cfg A m
  | [], h, _, _, _ => absurd rfl h
  | (k, v) :: xs, _, hd, hF, hc => by
    intro root level first
    rw [entriesDumpableA, entryDumpableA] at hd
    obtain ⟨⟨⟨hk, hks, hkt, hkm⟩, hv, hvt⟩, hd⟩ := hd
    obtain ⟨kp, kt, ky⟩ := k
    rw [Node.dumpableA] at hk
    simp only [Node.yaml] at hks
    obtain ⟨κ, T, hT, htrim, N1, hN1⟩ := scalar_dump cfg hks ((dumpableA_scalar hks).1 hk.2.2)
    have hkc : (Node.mk kp kt ky).yaml.isColl = false := by
      cases ky <;> first | rfl | simp [Yaml.isScalar] at hks
    have hkmarks : (Node.mk kp kt ky).marks A = [] := by rw [Node.marks, hkm, marks_scalar hks]; rfl
    have hkF := (everywhere_mk.1 (hF _ v (List.mem_cons_self ..)).1).1
    obtain ⟨lv, hlv, hlv'⟩ : ∃ lv, (lv = level + 1 ∨ (lv = level ∧ ∃ l, v.yaml = .seq l)) ∧
        valueLevel root level first v.yaml = lv := by
      refine ⟨_, ?_, rfl⟩
      unfold valueLevel
      split
      · rename_i l hl
        split
        · exact .inr ⟨rfl, l, hl⟩
        · exact .inl rfl
      · exact .inl rfl
    obtain ⟨sp, b, hsp, hok, hdm, N2, hN2⟩ := hc _ v (List.mem_cons_self ..) level lv hlv hv (hF _ v (List.mem_cons_self ..)).2 hvt
    have hentry : ∀ n, max N1 N2 ≤ n → dumpEntry cfg n A root level first (.mk kp kt ky, v) =
        .ok ((if !first || root = .map then indent2 level else []) ++ (T ++ 0x3A :: (sp ++ (b.text ++ cfg.nl)))) := by
      intro n hn
      obtain ⟨t, ht, hte⟩ := hN2 n (by omega)
      rw [dumpEntry, dumpNode_mark hkF (s := T) (by rw [dumpYaml_scalar hks, hN1 n (by omega)]), hkm,
        tagText_plain (show PlainTag kt from hkt)]
      simp only [hkc, Bool.false_eq_true, if_false, markText, List.nil_append]
      show Out.bind (.ok T) _ = _
      simp only [Out.bind]
      show Out.bind (dumpNode cfg n A .map _ v) _ = _
      rw [hlv', ht]
      show Out.ok _ = _
      rw [hte]
      simp
    cases xs with
    | nil =>
      refine ⟨.one T ky sp b, ?_, rfl, hdm.1.2, htrim, ?_, max N1 N2, fun n hn => ?_⟩
      · rw [Ents.ok]; exact ⟨⟨κ, hT⟩, .inl hsp, hok⟩
      · intro kp' p e he
        simp only [Ents.pairs, noPosEntries, noPosEntry, eraseEntries, eraseEntry, Ents.y, entriesMarks, entryMarks, hkmarks,
          List.nil_append, List.append_nil, Ents.fine, Ents.eff]
        rw [hdm.noPos _ _ he, erase_of_yaml (y := ky) (k := .mk kp kt ky) (noPos_scalar hks) hkt]
        exact ⟨rfl, (hdm.2.2 p e he).2⟩
      · rw [dumpEntries, hentry n hn, dumpEntries]
        show Out.ok _ = _
        simp [Ents.sp, Ents.body, Ents.T]
    | cons x' xs =>
      obtain ⟨es, eok, ekeys, ekind, _, edata, N', hN'⟩ := entries_claimA cfg A (m := x' :: xs) (by simp) hd
        (fun k v h => hF k v (by simp [h])) (fun k v h => hc k v (by simp [h])) root level false
      refine ⟨.cons T ky sp b cfg.nl es, ?_, ?_, ekind, htrim, ?_, max (max N1 N2) N', fun n hn => ?_⟩
      · rw [Ents.ok]; exact ⟨⟨κ, hT⟩, .inl hsp, ⟨hok, hdm.1.1⟩, hdm.1.2, eok⟩
      · simp only [Ents.keys, ekeys, List.map_cons, Node.yaml]
      · intro kp' p e he
        obtain ⟨i1, i2⟩ := edata (p + b.text.length + cfg.nl.length + 2 * level)
          (p + b.text.length + cfg.nl.length + 2 * level + es.T.length + 1 + es.sp.length) { e with anchors := b.eff p e } he
        rw [Ents.pairs, noPosEntries, i1, noPosEntry, hdm.noPos _ _ he, entriesMarks, entryMarks, hkmarks, Ents.fine, Ents.eff]
        simp only [Ents.y]
        rw [erase_of_yaml (y := ky) (k := .mk kp kt ky) (noPos_scalar hks) hkt]
        exact ⟨by simp [eraseEntries, eraseEntry], (hdm.2.2 p e he).2.append i2⟩
      · rw [dumpEntries, hentry n (by omega), hN' n (by omega)]
        show Out.ok _ = _
        simp [Ents.sp, Ents.body, Ents.T, indent2]

theorem seq_dumpA {cfg : DumpCfg} {A : Anchors} {l : List Node} (hl : l ≠ []) (hd : itemsDumpableA cfg A l)
    (hF : ∀ x ∈ l, Everywhere (Found A) x) (hc : ∀ x ∈ l, ItemClaimA cfg A x)
    (level : Nat) : ∃ its : Items, its.ok (2 * level) ∧
      DumpedA cfg A (.seq (cfg.nl ++ spaces (2 * level)) (2 * level) its) (.seq l) ∧
      ∃ N, ∀ n, N ≤ n → ∀ root, dumpYaml cfg n A root level (.seq l) =
        .ok (Blk.seq (cfg.nl ++ spaces (2 * level)) (2 * level) its).text := by
  obtain ⟨its, iok, ikind, idata, N, hN⟩ := items_claimA cfg A hl hd hF hc level
  refine ⟨its, iok, ⟨⟨by simp [Blk.text], ikind⟩, fun p e he => ?_⟩, N, fun n hn root => ?_⟩
  · simp only [Blk.data, Yaml.noPos, Yaml.erase, Yaml.marks, Blk.fine, Blk.eff]
    obtain ⟨i1, i2⟩ := idata _ e he
    rw [i1]; exact ⟨rfl, i2⟩
  · rw [dumpYaml, hN n hn]
    show truncNl cfg _ = _
    have e : cfg.nl ++ (spaces (2 * level) ++ 0x2D :: (its.sp ++ (its.body (2 * level) ++ cfg.nl))) =
        (cfg.nl ++ spaces (2 * level) ++ 0x2D :: (its.sp ++ its.body (2 * level))) ++ cfg.nl := by simp
    rw [e, truncNl_append, Blk.text]

theorem map_data {es : Ents} {m : List (Node × Node)} {τ : Nat} (hk : es.keys = m.map fun e => e.1.yaml)
    (hm : KeysDiffer m) (kp p : Nat) (e : Env) :
    mapOf (es.pairs τ (.mk kp [] es.y) p e) = es.pairs τ (.mk kp [] es.y) p e := by
  apply mapOf_differ
  rw [keysDiffer_map]
  have := Ents.keys_pairs es τ kp p e
  rw [List.map_map, hk] at this
  rw [show (es.pairs τ (.mk kp [] es.y) p e).map (fun e => e.1.yaml) = m.map fun e => e.1.yaml from this]
  exact keysDiffer_map.1 hm

theorem map_dumpA {cfg : DumpCfg} {A : Anchors} {m : List (Node × Node)} (hm : m ≠ []) (hk : KeysOK (m.map fun e => e.1.yaml))
    (hdf : KeysDiffer m) (hd : entriesDumpableA cfg A m)
    (hF : ∀ k v, (k, v) ∈ m → Everywhere (Found A) k ∧ Everywhere (Found A) v) (hc : ∀ k v, (k, v) ∈ m → ValueClaimA cfg A v)
    (root : Root) (level : Nat) : ∃ (es : Ents), es.ok (2 * level) ∧ KeysOK es.keys ∧ trimStart es.T = es.T ∧
      ∀ lead : Bytes, lead = (if root = .map then cfg.nl ++ spaces (2 * level) else []) →
      DumpedA cfg A (.map lead (2 * level) es) (.map m) ∧
      ∃ N, ∀ n, N ≤ n → dumpYaml cfg n A root level (.map m) = .ok (Blk.map lead (2 * level) es).text := by
  obtain ⟨es, eok, ekeys, ekind, etrim, edata, N, hN⟩ := entries_claimA cfg A hm hd hF hc root level true
  refine ⟨es, eok, by rw [ekeys]; exact hk, etrim, ?_⟩
  rintro lead rfl
  refine ⟨⟨⟨by simp [Blk.text], ekind⟩, fun p e he => ?_⟩, N, fun n hn => ?_⟩
  · simp only [Blk.data, Yaml.noPos, Yaml.erase, Yaml.marks, Blk.fine, Blk.eff]
    obtain ⟨i1, i2⟩ := edata (p + (if root = .map then cfg.nl ++ spaces (2 * level) else []).length)
      (p + (if root = .map then cfg.nl ++ spaces (2 * level) else []).length + es.T.length + 1 + es.sp.length) e he
    rw [map_data ekeys hdf, i1]; exact ⟨rfl, i2⟩
  · rw [dumpYaml, hN n hn]
    show truncNl cfg _ = _
    by_cases hr : root = .map
    · subst hr
      simp only [if_true, Blk.text]
      have e : cfg.nl ++ ((if (!true || decide True) = true then indent2 level else []) ++
          (es.T ++ 0x3A :: (es.sp ++ (es.body (2 * level) ++ cfg.nl)))) =
          (cfg.nl ++ spaces (2 * level) ++ (es.T ++ 0x3A :: (es.sp ++ es.body (2 * level)))) ++ cfg.nl := by
        simp [indent2]
      rw [e, truncNl_append]
    · simp only [hr, if_false, Blk.text]
      have e : ([] ++ ((if (!true || decide False) = true then indent2 level else []) ++
          (es.T ++ 0x3A :: (es.sp ++ (es.body (2 * level) ++ cfg.nl)))) : Bytes) =
          ([] ++ (es.T ++ 0x3A :: (es.sp ++ es.body (2 * level)))) ++ cfg.nl := by
        simp
      rw [e, truncNl_append]

theorem dumped_leaf {cfg : DumpCfg} {A : Anchors} {κ : EndKind} {T : Bytes} {y : Yaml} (hT : ScalarText κ T y)
    (hs : y.isScalar = true) : DumpedA cfg A (.leaf [] T κ (fun _ _ => y) .none) y := by
  refine ⟨⟨leaf_text_ne hT, leaf_after hT⟩, fun p e _ => ⟨noPos_scalar hs, ?_⟩⟩
  rw [marks_scalar hs, Blk.fine, Blk.eff]; exact .nil trivial

theorem dumped_alias {cfg : DumpCfg} {A : Anchors} {a : Bytes} :
    DumpedA cfg A (.leaf [] (0x2A :: a) .loose (fun _ e => aliasYaml a e) (.of (aliasFine a))) (.alias a) := by
  refine ⟨⟨by simp [Blk.text], afterLines_nl cfg (.inl rfl)⟩, fun p e he => ⟨?_, ?_⟩⟩
  · simp [Blk.data, aliasYaml, he, Yaml.noPos, Yaml.erase]
  · simp only [Yaml.marks, Blk.fine, Blk.eff]; exact .nil (.inl he)

theorem dump_claimsA (cfg : DumpCfg) (A : Anchors) : ∀ x : Node, ItemClaimA cfg A x ∧ ValueClaimA cfg A x := by
  intro x
  induction x using Node.induct with
  | h pos t y kids =>
  suffices h : YItemClaimA cfg A y ∧ YValueClaimA cfg A y from ⟨item_nodeA h.1 pos t, value_nodeA h.2 pos t⟩
  have scalarN : y.isScalar = true → y.dumpable cfg false →
      ∀ root level, ∃ b : Blk, b.bare = true ∧ b.okN (2 * level) ∧ DumpedA cfg A b y ∧ Starts cfg b level ∧
      ∃ N, ∀ n, N ≤ n → dumpYaml cfg n A root level y = .ok b.text := by
    intro hs hd root level
    obtain ⟨κ, T, hT, htr, N, hN⟩ := scalar_dump cfg hs hd
    refine ⟨.leaf [] T κ (fun _ _ => y) .none, rfl, ?_, dumped_leaf hT hs,
      .inl ⟨rfl, fun X => by simpa [Blk.text] using startsT hT htr X hT.utf8⟩, N, fun n hn => ?_⟩
    · rw [Blk.okN]; exact .inl ⟨.inl rfl, .inl (.inl ⟨y, hT, rfl, rfl⟩)⟩
    · rw [dumpYaml_scalar hs, hN n hn]; simp [Blk.text]
  have scalarV : y.isScalar = true → y.dumpable cfg false →
      ∀ level lv, ∃ (sp : Bytes) (b : Blk), b.bare = true ∧ SepIs sp b.lead ∧
        (y.isColl = false → sp = b!" ") ∧ b.okV (2 * level) ∧ DumpedA cfg A b y ∧
      ∃ N, ∀ n, N ≤ n → ∃ s, dumpYaml cfg n A .map lv y = .ok s ∧
        (if y.isColl then s else b!" " ++ s) = sp ++ b.text := by
    intro hs hd level lv
    obtain ⟨κ, T, hT, htr, N, hN⟩ := scalar_dump cfg hs hd
    have hc : y.isColl = false := by cases y <;> first | rfl | simp [Yaml.isScalar] at hs
    refine ⟨b!" ", .leaf [] T κ (fun _ _ => y) .none, rfl, sepIs_blank _, fun _ => rfl, ?_,
      dumped_leaf hT hs, N, fun n hn => ⟨T, ?_, ?_⟩⟩
    · rw [Blk.okV]; exact .inl ⟨rfl, .inl (.inl ⟨y, hT, rfl, rfl⟩)⟩
    · rw [dumpYaml_scalar hs, hN n hn]
    · simp [hc, Blk.text]
  have multi : ∀ s, y = .str s → cfg.windows = false → MultiStr s →
      ∀ level, 0 < level → ∃ T, LitIs (2 * level) T s ∧ DumpedA cfg A (.lit T (2 * level) s) y ∧
      ∀ n root, dumpYaml cfg n A root level y = .ok T := by
    rintro s rfl hw ⟨ls, h2, hb, rfl, he, hf⟩ level hlv
    refine ⟨0x7C :: blockLines (2 * level) ls, ⟨.clip, ls, by omega, hb, .inl ⟨by simp [Chomp.mark], by simp [Chomp.ends]⟩⟩,
      ⟨⟨by simp [Blk.text], afterLines_nl cfg (.inr (.inr ⟨⟨_, rfl⟩, hw⟩))⟩, fun p e _ => ⟨rfl, .nil trivial⟩⟩, fun n root => ?_⟩
    rw [dumpYaml, dumpStr_multi hw h2 hb he hf]
  constructor
  · intro root level inner hroot hin hd hF
    cases y with
    | null => exact scalarN rfl trivial root level
    | bool b => exact scalarN rfl trivial root level
    | int s => exact scalarN rfl hd root level
    | float s => exact scalarN rfl hd root level
    | str s =>
      simp only [Yaml.dumpableA] at hd
      rcases hd with hd | ⟨rfl, hw, hd⟩
      · exact scalarN rfl (by simp only [Yaml.dumpable]; exact .inl hd) root level
      · obtain ⟨T, hT, hD, hN⟩ := multi s rfl hw hd level (hin rfl)
        refine ⟨.lit T (2 * level) s, rfl, ?_, hD, .inl ⟨rfl, ?_⟩, 0, fun n _ => hN n root⟩
        · rw [Blk.okN]; exact ⟨rfl, hT⟩
        · intro X
          obtain ⟨r, rfl | rfl⟩ := hT.ok.1
          · exact trimStart_ascii (by decide) (by decide) _
          · exact trimStart_ascii (by decide) (by decide) _
    | seq l =>
      simp only [Yaml.dumpableA] at hd
      obtain ⟨its, iok, hD, N, hN⟩ := seq_dumpA hd.1 hd.2 hF (fun x hx => (kids x hx).1) level
      refine ⟨_, ?_, ?_, hD, .inr ⟨rfl, _, by rw [Blk.text]; rfl⟩, N, fun n hn => hN n hn root⟩
      · rfl
      rw [Blk.okN]; exact ⟨.inr (leadLines_nl cfg _), rfl, iok⟩
    | map m =>
      simp only [Yaml.dumpableA] at hd
      obtain ⟨es, eok, ekeys, etrim, h⟩ := map_dumpA hd.1 hd.2.1 hd.2.2.1 hd.2.2.2 hF (fun k v h => (kids k v h).2.2) root level
      obtain ⟨hD, N, hN⟩ := h [] (by simp [hroot])
      refine ⟨_, ?_, ?_, hD, .inl ⟨rfl, ?_⟩, N, fun n hn => hN n hn⟩
      · rfl
      · rw [Blk.okN]; exact ⟨.inl rfl, rfl, eok, ekeys⟩
      · intro X
        have : ∃ κ, ScalarText κ es.T es.y := by
          cases es <;> (simp only [Ents.ok] at eok; exact eok.1)
        obtain ⟨κ, hκ⟩ := this
        rw [Blk.text, List.nil_append, List.append_assoc]
        exact startsT hκ etrim _ hκ.utf8
    | alias a =>
      simp only [Yaml.dumpableA] at hd
      refine ⟨.leaf [] (0x2A :: a) .loose (fun _ e => aliasYaml a e) (.of (aliasFine a)), rfl, ?_, dumped_alias, .inl ⟨rfl, fun X => ?_⟩, 0,
        fun n _ => ?_⟩
      · rw [Blk.okN]; exact .inl ⟨.inl rfl, .inl (.inr (.inr ⟨a, hd, rfl, rfl, rfl, rfl⟩))⟩
      · exact trimStart_ascii (by decide) (by decide) _
      · rw [dumpYaml]; rfl
  · intro level lv hlv hd hF
    cases y with
    | null => exact scalarV rfl trivial level lv
    | bool b => exact scalarV rfl trivial level lv
    | int s => exact scalarV rfl hd level lv
    | float s => exact scalarV rfl hd level lv
    | str s =>
      simp only [Yaml.dumpableA] at hd
      rcases hd with hd | ⟨_, hw, hd⟩
      · exact scalarV rfl (by simp only [Yaml.dumpable]; exact .inl hd) level lv
      · have hlv : lv = level + 1 := by simpa using hlv
        subst hlv
        obtain ⟨T, hT, hD, hN⟩ := multi s rfl hw hd (level + 1) (by omega)
        refine ⟨b!" ", .lit T (2 * (level + 1)) s, rfl, sepIs_blank _, fun _ => rfl, ?_, hD, 0, fun n _ => ⟨T, hN n _, rfl⟩⟩
        rw [Blk.okV]; exact ⟨by omega, hT⟩
    | seq l =>
      simp only [Yaml.dumpableA] at hd
      obtain ⟨its, iok, hD, N, hN⟩ := seq_dumpA hd.1 hd.2 hF (fun x hx => (kids x hx).1) lv
      refine ⟨[], _, ?_, sepIs_none cfg _, by simp [Yaml.isColl], ?_, hD, N, fun n hn => ⟨_, hN n hn _, rfl⟩⟩
      · rfl
      rw [Blk.okV]; exact ⟨leadLines_nl cfg _, by omega, iok⟩
    | map m =>
      simp only [Yaml.dumpableA] at hd
      have hlv : lv = level + 1 := by simpa using hlv
      subst hlv
      obtain ⟨es, eok, ekeys, etrim, h⟩ := map_dumpA hd.1 hd.2.1 hd.2.2.1 hd.2.2.2 hF (fun k v h => (kids k v h).2.2) .map (level + 1)
      obtain ⟨hD, N, hN⟩ := h _ (by simp; rfl)
      refine ⟨[], _, ?_, sepIs_none cfg _, by simp [Yaml.isColl], ?_, hD, N, fun n hn => ⟨_, hN n hn, rfl⟩⟩
      · rfl
      rw [Blk.okV]; exact ⟨leadLines_nl cfg _, by omega, eok, ekeys⟩
    | alias a =>
      simp only [Yaml.dumpableA] at hd
      refine ⟨b!" ", .leaf [] (0x2A :: a) .loose (fun _ e => aliasYaml a e) (.of (aliasFine a)), rfl, sepIs_blank _, fun _ => rfl, ?_,
        dumped_alias, 0, fun n _ => ⟨_, by rw [dumpYaml]; rfl, rfl⟩⟩
      rw [Blk.okV]; exact .inl ⟨rfl, .inl (.inr (.inr ⟨a, hd, rfl, rfl, rfl, rfl⟩))⟩


/-! ## Documents -/

theorem doc_claimA {cfg : DumpCfg} {A : Anchors} {x : Node} (hd : x.dumpableA cfg A false) (hF : Everywhere (Found A) x) :
    ∃ b : Blk, b.okN 0 ∧ DumpedNA cfg A b x ∧
      ∃ N, ∀ n, N ≤ n → dumpNode cfg n A .scalar 0 x = .ok b.text := by
  obtain ⟨b, h1, h2, _, _, h3⟩ := (dump_claimsA cfg A x).1 .scalar 0 false (by simp) (by simp) hd hF
  exact ⟨b, h1, h2, h3⟩

theorem next_claimA {cfg : DumpCfg} {A : Anchors} {x : Node} (hd : x.dumpableA cfg A false) (hF : Everywhere (Found A) x)
    (ht : PlainTag x.rawTag) (hm : mark A x = none) :
    ∃ b : Blk, b.okN 0 ∧ DumpedNA cfg A b x ∧ b.lead = cfg.nl ∧ b.inner = cfg.nl ∧
      ∃ N, ∀ n, N ≤ n → ∃ d, dumpNode cfg n A .scalar 0 x = .ok d ∧
        cfg.nl ++ trimStart (d ++ cfg.nl) = b.text ++ cfg.nl := by
  obtain ⟨b, h1, h2, hbare, hl, N, h3⟩ := (dump_claimsA cfg A x).1 .scalar 0 false (by simp) (by simp) hd hF
  replace hbare := hbare ht hm
  have hnl : LeadLines 0 cfg.nl := by simpa [spaces] using leadLines_nl cfg 0
  have hws : ∀ x ∈ cfg.nl, isWs1 x = true := by
    rcases cfg.nl_break with h | h <;> rw [h] <;> simp <;> decide
  have nolit : ∀ T τ s, b ≠ .lit T τ s := by
    rintro T τ s rfl
    simp only [Blk.okN] at h1
    obtain ⟨h0, _, _, h0', _⟩ := h1
    omega
  have noprop : ∀ f c, b ≠ .prop f c := by rintro f c rfl; simp [Blk.bare] at hbare
  rcases hl with ⟨hl, ht⟩ | ⟨hl, r, hr⟩
  · refine ⟨b.setLead cfg.nl, ?_, ?_, ?_, ?_, N, fun n hn => ⟨_, h3 n hn, ?_⟩⟩
    · cases b with
      | lit T τ s => exact absurd rfl (nolit _ _ _)
      | prop f c => exact absurd rfl (noprop _ _)
      | leaf lead T κ y pc =>
        simp only [Blk.okN, Blk.setLead] at h1 ⊢; exact .inl ⟨.inr hnl, (h1.resolve_right (by simp)).2⟩
      | seq lead τ its => simp only [Blk.okN, Blk.setLead] at h1 ⊢; exact ⟨.inr hnl, h1.2⟩
      | map lead τ es => simp only [Blk.okN, Blk.setLead] at h1 ⊢; exact ⟨.inr hnl, h1.2⟩
      | cmap lead τ es =>
        simp only [Blk.okN, Blk.setLead] at h1 ⊢
        exact ⟨.inr hnl, h1.2.1, h1.2.2.1, fun h => absurd h (by rcases cfg.nl_break with h | h <;> rw [h] <;> simp)⟩
    · refine ⟨?_, ?_, fun p e he => ?_⟩
      · have : (b.setLead cfg.nl).kind = b.kind := by cases b <;> simp [Blk.setLead, Blk.kind]
        rw [this]
        refine ⟨?_, h2.1.2⟩
        have := h2.1.1
        cases b with
        | lit T τ s => exact absurd rfl (nolit _ _ _)
        | prop f c => exact absurd rfl (noprop _ _)
        | leaf lead T κ y pc =>
          simp only [Blk.lead] at hl; subst hl; simp only [Blk.text, List.nil_append] at this; simp [Blk.setLead, Blk.text, this]
        | seq lead τ its => simp [Blk.setLead, Blk.text]
        | map lead τ es => simp [Blk.setLead, Blk.text]
        | cmap lead τ es => simp [Blk.setLead, Blk.text]
      · rw [← h2.2.1]; cases b <;> rfl
      · have := h2.2.2 (p + cfg.nl.length) e he
        cases b with
        | lit T τ s => exact absurd rfl (nolit _ _ _)
        | prop f c => exact absurd rfl (noprop _ _)
        | leaf lead T κ y pc =>
          simp only [Blk.lead] at hl; subst hl
          simpa [Blk.setLead, Blk.data, Blk.fine, Blk.eff] using this
        | seq lead τ its =>
          simp only [Blk.lead] at hl; subst hl
          simpa [Blk.setLead, Blk.data, Blk.fine, Blk.eff] using this
        | map lead τ es =>
          simp only [Blk.lead] at hl; subst hl
          simpa [Blk.setLead, Blk.data, Blk.fine, Blk.eff] using this
        | cmap lead τ es =>
          simp only [Blk.lead] at hl; subst hl
          simpa [Blk.setLead, Blk.data, Blk.fine, Blk.eff] using this
    · cases b with
      | lit T τ s => exact absurd rfl (nolit _ _ _)
      | prop f c => exact absurd rfl (noprop _ _)
      | leaf => rfl
      | seq => rfl
      | map => rfl
      | cmap => rfl
    · cases b with
      | lit T τ s => exact absurd rfl (nolit _ _ _)
      | prop f c => exact absurd rfl (noprop _ _)
      | leaf => rfl
      | seq => rfl
      | map => rfl
      | cmap => rfl
    · rw [ht]
      cases b with
      | lit T τ s => exact absurd rfl (nolit _ _ _)
      | prop f c => exact absurd rfl (noprop _ _)
      | leaf lead T κ y pc => simp only [Blk.lead] at hl; subst hl; simp [Blk.setLead, Blk.text]
      | seq lead τ its => simp only [Blk.lead] at hl; subst hl; simp [Blk.setLead, Blk.text]
      | map lead τ es => simp only [Blk.lead] at hl; subst hl; simp [Blk.setLead, Blk.text]
      | cmap lead τ es => simp only [Blk.lead] at hl; subst hl; simp [Blk.setLead, Blk.text]
  · have hl' : b.lead = cfg.nl := by simpa [spaces] using hl
    refine ⟨b, h1, h2, hl', ?_, N, fun n hn => ⟨_, h3 n hn, ?_⟩⟩
    · rw [← hl']
      cases b with
      | prop f c => exact absurd rfl (noprop _ _)
      | _ => rfl
    rw [hr, hl', List.append_assoc, trimStart_ws hws, List.cons_append, trimStart_ascii (by decide) (by decide)]

/-- A root with its table of anchors: printable, compared without a panic, no name twice. -/
def DocA (cfg : DumpCfg) (d : Node × Anchors) : Prop :=
  d.1.dumpableA cfg d.2 false ∧ Everywhere (Found d.2) d.1 ∧ ((d.1.marks d.2).map Prod.fst).Nodup

/-- A root that is not the first. -/
def LaterA (d : Node × Anchors) : Prop := PlainTag d.1.rawTag ∧ mark d.2 d.1 = none

theorem DocA.binds {cfg : DumpCfg} {d : Node × Anchors} (h : DocA cfg d) {b : Blk} (hb : DumpedNA cfg d.2 b d.1) (p : Nat)
    (tags : List (Bytes × Bytes)) :
    b.fine p (.doc true tags) ∧ sees (b.eff p (.doc true tags)) = look (d.1.marks d.2) ∧
      (b.node p (.doc true tags)).noPos = d.1.erase := by
  obtain ⟨h1, h2⟩ := (hb.2.2 p (.doc true tags) rfl).2 h.2.2 (by intro kv _; rfl)
  refine ⟨h1, funext fun k => ?_, hb.noPos _ _ rfl⟩
  rw [h2]; simp [Env.doc, sees, mapGet]

theorem tail_claimA {cfg : DumpCfg} {anchors : List Anchors} :
    ∀ (ds : List (Node × Anchors)) (i : Nat), 0 < i → (∀ j, anchors.getD (i + j) [] = (ds.map Prod.snd).getD j []) →
    (∀ d ∈ ds, DocA cfg d ∧ LaterA d) →
    ∃ t : Tail, (∀ κ c, AfterLines κ cfg.nl → t.ok κ c) ∧
      (∀ p tags, t.fine (.doc true tags) p ∧ (t.nodes (.doc true tags) p).map Node.noPos = ds.map (fun d => d.1.erase) ∧
        (t.tables (.doc true tags) p).map sees = ds.map fun d => look (d.1.marks d.2)) ∧
      ∃ N, ∀ n, N ≤ n → ∃ r, dumpDocs cfg n anchors i (ds.map Prod.fst) = .ok r ∧ t.text = cfg.nl ++ r
  | [], i, _, _, _ => by
    refine ⟨.stop cfg.nl, fun κ c hκ => ?_, fun p tags => by simp [Tail.fine, Tail.nodes, Tail.tables], 0,
      fun n _ => ⟨[], by rw [List.map_nil, dumpDocs], by simp [Tail.text]⟩⟩
    rw [Tail.ok]; exact .inr (.inl hκ)
  | d :: ds, i, hi, ha, hd => by
    obtain ⟨hA, hL⟩ := hd d (by simp)
    obtain ⟨b, h1, h2, hl, hin, N1, h3⟩ := next_claimA hA.1 hA.2.1 hL.1 hL.2
    obtain ⟨t, t1, t2, N2, t3⟩ := tail_claimA ds (i + 1) (by omega)
      (fun j => by have := ha (j + 1); simpa [Nat.add_assoc, Nat.add_comm 1] using this) fun y hy => hd y (by simp [hy])
    refine ⟨.next cfg.nl [] b t, fun κ c hκ => ?_, fun p tags => ?_, max N1 N2, fun n hn => ?_⟩
    · rw [Tail.ok]
      refine ⟨.inl hκ, ?_, h1, .inl ?_, t1 _ _ h2.1.2⟩
      · rw [hl]; simpa using sepIs_none cfg []
      · rw [hin]; rcases cfg.nl_break with h | h <;> rw [h] <;> simp
    · obtain ⟨g1, g2, g3⟩ := hA.binds h2 (p + cfg.nl.length + 3 + ([] : Bytes).length) tags
      obtain ⟨k1, k2, k3⟩ := t2 (p + cfg.nl.length + 3 + ([] : Bytes).length + b.text.length) tags
      simp only [Tail.fine, Tail.nodes, Tail.tables, List.map_cons, g2, g3, k2, k3]
      exact ⟨⟨g1, k1⟩, trivial, trivial⟩
    · obtain ⟨dd, hd1, hd2⟩ := h3 n (by omega)
      obtain ⟨r, hr1, hr2⟩ := t3 n (by omega)
      have hg : anchors.getD i [] = d.2 := by simpa using ha 0
      have hi' : i ≠ 0 := by omega
      refine ⟨b!"---" ++ cfg.nl ++ trimStart (dd ++ cfg.nl) ++ r, ?_, ?_⟩
      · rw [List.map_cons, dumpDocs, dumperDump, hg, hd1]
        show Out.bind (dumpDocs cfg n anchors (i + 1) (ds.map Prod.fst)) _ = _
        rw [hr1]
        show Out.ok _ = _
        rw [if_neg hi']
      · simp only [Tail.text, hr2, List.nil_append]
        rw [← List.append_assoc b.text, ← hd2]
        simp

/-- What is dumped with anchors reads back as the same data with the same anchors. -/
theorem dump_readsA {cfg : DumpCfg} {ds : List (Node × Anchors)} (hne : ds ≠ []) (hd : ∀ d ∈ ds, DocA cfg d)
    (hl : ∀ d ∈ ds.tail, LaterA d) :
    ∃ text, Ends (fun n => dump cfg n (ds.map Prod.fst) (ds.map Prod.snd)) (.ok text) ∧ ∃ ns tbls,
      (∀ h, Ends (fun n => parseCyclic h n text) (.ok (ns, tbls))) ∧ ns.map Node.noPos = ds.map (fun d => d.1.erase) ∧
      tbls.map sees = ds.map fun d => look (d.1.marks d.2) := by
  obtain ⟨d, ds, rfl⟩ := List.exists_cons_of_ne_nil hne
  have hA := hd d (by simp)
  obtain ⟨b, h1, h2, N1, h3⟩ := doc_claimA hA.1 hA.2.1
  obtain ⟨t, t1, t2, N2, t3⟩ := tail_claimA (cfg := cfg) (anchors := (d :: ds).map Prod.snd) ds 1 (by omega)
    (fun j => by rw [Nat.add_comm]; simp) fun y hy => ⟨hd y (by simp [hy]), hl y hy⟩
  have hok : (Stream.mk none b t []).ok := ⟨h1, t1 _ _ h2.1.2, rfl⟩
  obtain ⟨g1, g2, g3⟩ := hA.binds h2 (Stream.mk none b t []).head.length (Stream.mk none b t []).tags
  obtain ⟨k1, k2, k3⟩ := t2 ((Stream.mk none b t []).head.length + b.text.length) (Stream.mk none b t []).tags
  refine ⟨_, ⟨by simp, max N1 N2, fun n hn => ?_⟩, _, _, parseCyclic_stream (Stream.ok_wf hok) ⟨g1, k1⟩, ?_, ?_⟩
  · obtain ⟨r, hr1, hr2⟩ := t3 n (by omega)
    show dumpDocs cfg n _ 0 (d.1 :: ds.map Prod.fst) = _
    rw [dumpDocs, dumperDump]
    have hg : ((d :: ds).map Prod.snd).getD 0 [] = d.2 := by simp
    rw [hg, h3 n (by omega)]
    show Out.bind (dumpDocs cfg n _ (0 + 1) (ds.map Prod.fst)) _ = _
    rw [hr1]
    simp only [Out.bind]
    show Out.ok _ = _
    simp [Stream.text, Stream.head, hr2]
  · simp only [Stream.nodes, List.map_cons, g3, k2]
  · simp only [Stream.tables, List.map_cons, g2, k3]

end YamlPeg
