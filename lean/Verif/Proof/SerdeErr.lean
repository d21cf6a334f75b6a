import Verif.Proof.Serde
/-!
# Serde: what is rejected, and which position is blamed
-/

namespace YamlPeg

/-- What the deserializer asks of a node: a value of a type, a field or variant
name, or the payload of a variant. -/
inductive Want where
  | ty (t : Ty)
  | name
  | unitPayload
  | tuplePayload
  | structPayload

/-- The kinds of nodes that can be a value of the type, at the top. -/
def Ty.accepts : Ty → Yaml → Prop
  | .bool, y => ∃ v, y = .bool v
  | .int _, y => ∃ s, y = .int s
  | .f64, y => (∃ s, y = .float s) ∨ ∃ s, y = .int s
  | .f32, y => (∃ s, y = .float s) ∨ ∃ s, y = .int s
  | .char, y => (∃ c, y = .str [c]) ∨ ∃ c, y = .int [c]
  | .str, y => (∃ s, y = .str s) ∨ (∃ s, y = .int s) ∨ (∃ s, y = .float s) ∨ (∃ v, y = .bool v) ∨ y = .null
  | .bytes, y => (∃ s, y = .str s) ∨ ∃ l, y = .seq l
  | .unit, y => y = .null
  | .option t, y => y = .null ∨ t.accepts y
  | .seq _, y => ∃ l, y = .seq l
  | .tuple _, y => ∃ l, y = .seq l
  | .map _ _, y => ∃ m, y = .map m
  | .newtype t, y => t.accepts y
  | .struct _, y => (∃ l, y = .seq l) ∨ ∃ m, y = .map m
  | .enum _, y => (∃ k v, y = .map [(k, v)]) ∨ ∃ s, y = .str s
  | .node, y => ∀ a, y ≠ .alias a

/-- The kinds of nodes that answer a request. -/
def Want.accepts : Want → Yaml → Prop
  | .ty t, y => t.accepts y
  | .name, y => ∃ s, y = .str s
  | .unitPayload, y => y = .null
  | .tuplePayload, y => ∃ l, y = .seq l
  | .structPayload, y => ∃ m, y = .map m

/-- The payload of a variant is asked for. -/
def VTy.want : VTy → Want
  | .unit => .unitPayload
  | .newtype t => .ty t
  | .tuple _ => .tuplePayload
  | .struct _ => .structPayload

/-- Reading `n` as `w` leads to reading `m` as `w'`. -/
inductive Visits : Want → Node → Want → Node → Prop
  | self {w n} : Visits w n w n
  | option {t n w m} : Visits (.ty t) n w m → Visits (.ty (.option t)) n w m
  | newtype {t n w m} : Visits (.ty t) n w m → Visits (.ty (.newtype t)) n w m
  | byte {p tag l x w m} : x ∈ l → Visits (.ty (.int .u8)) x w m → Visits (.ty .bytes) (.mk p tag (.seq l)) w m
  | item {p tag t l x w m} : x ∈ l → Visits (.ty t) x w m → Visits (.ty (.seq t)) (.mk p tag (.seq l)) w m
  | comp {p tag ts l t x w m} : (t, x) ∈ ts.zip l → Visits (.ty t) x w m →
      Visits (.ty (.tuple ts)) (.mk p tag (.seq l)) w m
  | key {p tag tk tv es k v w m} : (k, v) ∈ es → Visits (.ty tk) k w m →
      Visits (.ty (.map tk tv)) (.mk p tag (.map es)) w m
  | value {p tag tk tv es k v w m} : (k, v) ∈ es → Visits (.ty tv) v w m →
      Visits (.ty (.map tk tv)) (.mk p tag (.map es)) w m
  | structItem {p tag fs l nm t x w m} : ((nm, t), x) ∈ fs.zip l → Visits (.ty t) x w m →
      Visits (.ty (.struct fs)) (.mk p tag (.seq l)) w m
  | fieldName {p tag fs es k v} : (k, v) ∈ es → Visits (.ty (.struct fs)) (.mk p tag (.map es)) .name k
  | field {p tag fs es k v nm t w m} : (k, v) ∈ es → k.yaml = .str nm → (nm, t) ∈ fs →
      Visits (.ty t) v w m → Visits (.ty (.struct fs)) (.mk p tag (.map es)) w m
  | variantName {p tag vs k v} : Visits (.ty (.enum vs)) (.mk p tag (.map [(k, v)])) .name k
  | payload {p tag vs k v nm t} : k.yaml = .str nm → (nm, t) ∈ vs →
      Visits (.ty (.enum vs)) (.mk p tag (.map [(k, v)])) t.want v
  | payloadNew {p tag vs k v nm t w m} : k.yaml = .str nm → (nm, .newtype t) ∈ vs →
      Visits (.ty t) v w m → Visits (.ty (.enum vs)) (.mk p tag (.map [(k, v)])) w m
  | payloadComp {p tag vs k nm p' tag' ts l t x w m} : k.yaml = .str nm → (nm, .tuple ts) ∈ vs →
      (t, x) ∈ ts.zip l → Visits (.ty t) x w m →
      Visits (.ty (.enum vs)) (.mk p tag (.map [(k, .mk p' tag' (.seq l))])) w m
  | payloadName {p tag vs k nm p' tag' fs es k' v'} : k.yaml = .str nm → (nm, .struct fs) ∈ vs →
      (k', v') ∈ es → Visits (.ty (.enum vs)) (.mk p tag (.map [(k, .mk p' tag' (.map es))])) .name k'
  | payloadField {p tag vs k nm p' tag' fs es k' v' nm' t w m} : k.yaml = .str nm → (nm, .struct fs) ∈ vs →
      (k', v') ∈ es → k'.yaml = .str nm' → (nm', t) ∈ fs → Visits (.ty t) v' w m →
      Visits (.ty (.enum vs)) (.mk p tag (.map [(k, .mk p' tag' (.map es))])) w m
  | nodeItem {p tag l x w m} : x ∈ l → Visits (.ty .node) x w m → Visits (.ty .node) (.mk p tag (.seq l)) w m
  | nodeKey {p tag es k v w m} : (k, v) ∈ es → Visits (.ty .node) k w m →
      Visits (.ty .node) (.mk p tag (.map es)) w m
  | nodeValue {p tag es k v w m} : (k, v) ∈ es → Visits (.ty .node) v w m →
      Visits (.ty .node) (.mk p tag (.map es)) w m

/-- Visited nodes occur in the node. -/
theorem Visits.occurs {w w' : Want} {n m : Node} (h : Visits w n w' m) : Occurs m n := by
  induction h with
  | self => exact .self
  | option _ ih => exact ih
  | newtype _ ih => exact ih
  | byte hx _ ih => exact .item hx ih
  | item hx _ ih => exact .item hx ih
  | comp hx _ ih => exact .item (List.of_mem_zip hx).2 ih
  | key hx _ ih => exact .key hx ih
  | value hx _ ih => exact .value hx ih
  | structItem hx _ ih => exact .item (List.of_mem_zip hx).2 ih
  | fieldName hx => exact .key hx .self
  | field hx _ _ _ ih => exact .value hx ih
  | variantName => exact .key (List.mem_singleton.2 rfl) .self
  | payload _ _ => exact .value (List.mem_singleton.2 rfl) .self
  | payloadNew _ _ _ ih => exact .value (List.mem_singleton.2 rfl) ih
  | payloadComp _ _ hx _ ih => exact .value (List.mem_singleton.2 rfl) (.item (List.of_mem_zip hx).2 ih)
  | payloadName _ _ hx => exact .value (List.mem_singleton.2 rfl) (.key hx .self)
  | payloadField _ _ hx _ _ _ ih => exact .value (List.mem_singleton.2 rfl) (.value hx ih)
  | nodeItem hx _ ih => exact .item hx ih
  | nodeKey hx _ ih => exact .key hx ih
  | nodeValue hx _ ih => exact .value hx ih

/-- Who is to blame for an error with position `p` while reading `n` as `w`. -/
def Blames (w : Want) (n : Node) (p : Nat) : SErr → Prop
  | .invalidType =>
    (∃ w' m, Visits w n w' m ∧ ¬ w'.accepts m.yaml ∧ p = m.pos) ∨
    (p = 0 ∧ ∃ vs m s t, Visits w n (.ty (.enum vs)) m ∧ m.yaml = .str s ∧ (s, t) ∈ vs ∧ t ≠ .unit)
  | .anchor => ∃ m a, Visits w n (.ty .node) m ∧ m.yaml = .alias a ∧ p = m.pos
  | .parse => False
  | _ => p = 0

/-- A result is fine, or an error that blames the right node; never a panic. -/
def Blamed {α : Type} (w : Want) (n : Node) : SRes α → Prop
  | .ok _ => True
  | .err e p => Blames w n p e
  | .panic _ => False

/-- Blame passes to the node whose reading includes the reading of the part. -/
theorem Blamed.lift {α : Type} {w w' : Want} {n n' : Node} {x : SRes α}
    (hl : ∀ w'' m, Visits w n w'' m → Visits w' n' w'' m) (h : Blamed w n x) : Blamed w' n' x := by
  cases x with
  | ok a => trivial
  | panic p => exact h
  | err e p =>
    cases e with
    | invalidType =>
      rcases h with ⟨w1, m, h1, h2⟩ | ⟨hp, vs, m, s, t, h1, h2⟩
      · exact .inl ⟨w1, m, hl _ _ h1, h2⟩
      · exact .inr ⟨hp, vs, m, s, t, hl _ _ h1, h2⟩
    | anchor =>
      obtain ⟨m, a, h1, h2⟩ := h
      exact ⟨m, a, hl _ _ h1, h2⟩
    | _ => exact h

theorem Blamed.bind {α β : Type} {w : Want} {n : Node} {x : SRes α} {g : α → SRes β}
    (hx : Blamed w n x) (hg : ∀ a, x = .ok a → Blamed w n (g a)) : Blamed w n (x >>= g) := by
  cases x with
  | ok a => exact hg a rfl
  | err e p => exact hx
  | panic p => exact hx

theorem blamed_ok {α : Type} {w : Want} {n : Node} (a : α) : Blamed w n (SRes.ok a) := trivial

/-- `unexpected` blames the node it is given. -/
theorem blamed_unexpected {α : Type} {w : Want} {n : Node} (hr : ReadableHere n)
    (hn : ¬ w.accepts n.yaml) : Blamed w n (unexpected n : SRes α) := by
  have : (unexpected n : SRes α) = .err .invalidType n.pos := by
    unfold unexpected
    unfold ReadableHere at hr
    split <;> rename_i hy <;> simp_all
  rw [this]
  exact .inl ⟨w, n, .self, hn, rfl⟩

theorem blamed_ident {w : Want} {n k : Node} (hr : Readable k)
    (hl : ∀ w'' m, Visits .name k w'' m → Visits w n w'' m) : Blamed w n (deIdent k) := by
  refine Blamed.lift hl ?_
  unfold deIdent
  split
  · trivial
  · rename_i hn
    exact blamed_unexpected hr.here (by rintro ⟨s, hs⟩; exact hn s hs)

theorem deIdent_ok {k : Node} {s : Bytes} (h : deIdent k = .ok s) : k.yaml = .str s := by
  unfold deIdent at h
  split at h
  · rename_i s' hs
    cases h; exact hs
  · exact absurd h unexpected_not_ok

theorem visits_name {k : Node} {w : Want} {m : Node} (h : Visits .name k w m) : w = .name ∧ m = k := by
  cases h; exact ⟨rfl, rfl⟩

section
variable {h : HashCfg} {f : FloatFmt}

theorem Readable.seq {p : Nat} {tag : Bytes} {l : List Node} (hr : Readable (.mk p tag (.seq l))) :
    ∀ x ∈ l, Readable x := (everywhere_mk.1 hr).2
theorem Readable.map {p : Nat} {tag : Bytes} {l : List (Node × Node)} (hr : Readable (.mk p tag (.map l))) :
    ∀ k v, (k, v) ∈ l → Readable k ∧ Readable v := (everywhere_mk.1 hr).2

theorem readable_of {y : Yaml} {p : Nat} {tag : Bytes} (h1 : ReadableHere (.mk p tag y))
    (h2 : Yaml.Kids Readable y) : Readable (.mk p tag y) := everywhere_mk.2 ⟨h1, h2⟩

/-- Inserting readable keys does not panic, and keeps everything readable. -/
theorem serInsert_readable {m : List (Node × Node)} {k v : Node} (hk : Readable k) (hv : Readable v)
    (hm : ∀ e ∈ m, Readable e.1 ∧ Readable e.2) :
    ∃ m', serInsert h m k v = .ok m' ∧ ∀ e ∈ m', Readable e.1 ∧ Readable e.2 := by
  have : ∃ x r, entriesTake h k m = .ok (x, r) ∧ (∀ e ∈ r, Readable e.1 ∧ Readable e.2) ∧
      ∀ k', x = some k' → Readable k' := by
    induction m with
    | nil => exact ⟨none, [], rfl, by simp, by simp⟩
    | cons e t ih =>
      obtain ⟨x, r, h1, h2, h3⟩ := ih (fun e he => hm e (by simp [he]))
      simp only [entriesTake, h1, Out.map]
      split
      · rw [eq?_ok k hk e.1 (hm e (by simp)).1]
        cases Node.eqb k e.1 with
        | true => exact ⟨some e.1, t, rfl, fun x hx => hm x (by simp [hx]), fun k' hk' => by cases hk'; exact (hm e (by simp)).1⟩
        | false => exact ⟨x, e :: r, rfl, fun y hy => (List.mem_cons.1 hy).elim (fun q => q ▸ hm e (by simp)) (h2 y), h3⟩
      · exact ⟨x, e :: r, rfl, fun y hy => (List.mem_cons.1 hy).elim (fun q => q ▸ hm e (by simp)) (h2 y), h3⟩
  obtain ⟨x, r, h1, h2, h3⟩ := this
  unfold serInsert entriesInsert
  rw [h1]
  cases x with
  | none =>
    refine ⟨r ++ [(k, v)], rfl, ?_⟩
    intro e he
    rcases List.mem_append.1 he with he | he
    · exact h2 e he
    · rw [List.mem_singleton.1 he]; exact ⟨hk, hv⟩
  | some k' =>
    refine ⟨r ++ [(k', v)], rfl, ?_⟩
    intro e he
    rcases List.mem_append.1 he with he | he
    · exact h2 e he
    · rw [List.mem_singleton.1 he]; exact ⟨h3 k' rfl, hv⟩

theorem entriesCollect_readable : ∀ (l acc : List (Node × Node)), (∀ e ∈ acc, Readable e.1 ∧ Readable e.2) →
    (∀ e ∈ l, Readable e.1 ∧ Readable e.2) →
    ∃ m, entriesCollect h acc l = .ok m ∧ ∀ e ∈ m, Readable e.1 ∧ Readable e.2
  | [], acc, ha, _ => ⟨acc, rfl, ha⟩
  | (k, v) :: r, acc, ha, hl => by
    obtain ⟨m', h1, h2⟩ := serInsert_readable (h := h) (k := k) (v := v) (hl _ List.mem_cons_self).1
      (hl _ List.mem_cons_self).2 ha
    have h1' : entriesInsert h acc k v = .ok m' := by
      unfold serInsert at h1
      cases hx : entriesInsert h acc k v <;> rw [hx] at h1 <;> simp_all [SRes.ofOut]
    simp only [entriesCollect, h1']
    exact entriesCollect_readable r m' h2 (fun e he => hl e (List.mem_cons_of_mem _ he))

theorem fromRadix_inI64 {r : Nat} {s : Bytes} {i : Int} (hh : i64FromStrRadix r s = some i) : inI64 i = true := by
  unfold i64FromStrRadix at hh
  split at hh
  simp only at hh
  grind

/-- What `to_i64` returns is an `i64`. -/
theorem toI64_inI64 {s : Bytes} {i : Int} (hh : toI64 s = some i) : inI64 i = true := by
  unfold toI64 at hh
  split at hh
  · exact fromRadix_inI64 hh
  · split at hh
    · exact fromRadix_inI64 hh
    · exact fromRadix_inI64 hh

/-- Reading a node as `Node`: only aliases are rejected; the result is readable. -/
def NodeOutcome (n : Node) (x : SRes Node) : Prop :=
  Blamed (.ty .node) n x ∧ ∀ a, x = .ok a → Readable a

theorem deNodes_blamed {w : Want} {n0 : Node} : ∀ (l : List Node),
    (∀ x ∈ l, Blamed w n0 (deNode h f x) ∧ ∀ a, deNode h f x = .ok a → Readable a) →
    Blamed w n0 (deNodes h f l) ∧ ∀ a, deNodes h f l = .ok a → ∀ y ∈ a, Readable y
  | [], _ => ⟨trivial, fun a ha => by cases ha; simp⟩
  | n :: r, hx => by
    obtain ⟨h1, h2⟩ := hx n (by simp)
    obtain ⟨h3, h4⟩ := deNodes_blamed r (fun x hx' => hx x (by simp [hx']))
    simp only [deNodes]
    refine ⟨h1.bind fun a _ => h3.bind fun b _ => trivial, ?_⟩
    intro a ha
    obtain ⟨b, e1, ha⟩ := SRes.bind_eq_ok ha
    obtain ⟨c, e2, ha⟩ := SRes.bind_eq_ok ha
    cases ha
    intro y hy
    rcases List.mem_cons.1 hy with rfl | hy
    · exact h2 _ e1
    · exact h4 c e2 y hy

theorem deNodeEntries_blamed {w : Want} {n0 : Node} : ∀ (l acc : List (Node × Node)),
    (∀ k v, (k, v) ∈ l → (Blamed w n0 (deNode h f k) ∧ ∀ a, deNode h f k = .ok a → Readable a) ∧
      (Blamed w n0 (deNode h f v) ∧ ∀ a, deNode h f v = .ok a → Readable a)) →
    (∀ e ∈ acc, Readable e.1 ∧ Readable e.2) →
    Blamed w n0 (deNodeEntries h f acc l) ∧
      ∀ a, deNodeEntries h f acc l = .ok a → ∀ y ∈ a, Readable y.1 ∧ Readable y.2
  | [], acc, _, ha => ⟨trivial, fun a e => by cases e; exact ha⟩
  | (k, v) :: r, acc, hx, ha => by
    obtain ⟨⟨h1, h2⟩, ⟨h3, h4⟩⟩ := hx k v (by simp)
    simp only [deNodeEntries, deNodeEntry]
    cases hk : deNode h f k with
    | err e p => rw [hk] at h1; exact ⟨h1, fun a e => by cases e⟩
    | panic p => rw [hk] at h1; exact h1.elim
    | ok a =>
      cases hv : deNode h f v with
      | err e p => rw [hv] at h3; exact ⟨h3, fun a e => by cases e⟩
      | panic p => rw [hv] at h3; exact h3.elim
      | ok c =>
        obtain ⟨m', e1, e2⟩ := serInsert_readable (h := h) (k := a) (v := c) (h2 a hk) (h4 c hv) ha
        simp only [SRes.bind_ok, SRes.pure_eq, e1]
        exact deNodeEntries_blamed r m' (fun k v hkv => hx k v (by simp [hkv])) e2

theorem deNode_blamed (hf : f.Exact) : ∀ n, Readable n → NodeOutcome n (deNode h f n) := by
  refine Node.induct ?_
  intro p tag y hk hr
  have hh := (everywhere_mk.1 hr).1
  cases y with
  | null => exact ⟨trivial, fun a e => by cases e; exact readable_of trivial trivial⟩
  | bool v => exact ⟨trivial, fun a e => by cases e; exact readable_of trivial trivial⟩
  | str s => exact ⟨trivial, fun a e => by cases e; exact readable_of trivial trivial⟩
  | alias a =>
    exact ⟨⟨_, a, .self, rfl, rfl⟩, fun a e => by cases e⟩
  | int s =>
    simp only [ReadableHere, Node.yaml] at hh
    obtain ⟨i, hi⟩ := Option.isSome_iff_exists.1 hh
    simp only [deNode, deYaml, hi]
    refine ⟨trivial, fun a e => ?_⟩
    cases e
    refine readable_of ?_ trivial
    have hi' := toI64_inI64 hi
    simp [ReadableHere, Node.yaml, toI64_intDec, hi']
  | float s =>
    simp only [ReadableHere, Node.yaml] at hh
    obtain ⟨i, hi⟩ := Option.isSome_iff_exists.1 hh
    simp only [deNode, deYaml, hi]
    refine ⟨trivial, fun a e => ?_⟩
    cases e
    exact readable_of (hf.total i) trivial
  | seq l =>
    simp only [deNode, deYaml]
    obtain ⟨h1, h2⟩ := deNodes_blamed (h := h) (f := f) (w := .ty .node) (n0 := .mk p tag (.seq l)) l
      (fun x hx => ⟨(hk x hx (hr.seq x hx)).1.lift (fun w m hv => .nodeItem hx hv), (hk x hx (hr.seq x hx)).2⟩)
    refine ⟨h1.bind fun _ _ => trivial, ?_⟩
    intro a e
    obtain ⟨b, e1, e⟩ := SRes.bind_eq_ok e
    cases e
    exact readable_of trivial (h2 b e1)
  | map l =>
    simp only [deNode, deYaml]
    obtain ⟨h1, h2⟩ := deNodeEntries_blamed (h := h) (f := f) (w := .ty .node) (n0 := .mk p tag (.map l)) l []
      (fun k v hkv => by
        have q := hr.map k v hkv
        have hk' := hk k v hkv
        exact ⟨⟨(hk'.1 q.1).1.lift (fun w m hv => .nodeKey hkv hv), (hk'.1 q.1).2⟩,
          ⟨(hk'.2 q.2).1.lift (fun w m hv => .nodeValue hkv hv), (hk'.2 q.2).2⟩⟩) (by simp)
    have hc : ∀ b, deNodeEntries h f [] l = .ok b → ∃ m, entriesCollect h [] b = .ok m ∧
        ∀ e ∈ m, Readable e.1 ∧ Readable e.2 :=
      fun b hb => entriesCollect_readable b [] (by simp) (h2 b hb)
    refine ⟨h1.bind fun b hb => ?_, ?_⟩
    · obtain ⟨m, e1, _⟩ := hc b hb
      rw [e1]; trivial
    · intro a e
      obtain ⟨b, e1, e⟩ := SRes.bind_eq_ok e
      obtain ⟨m, e2, e3⟩ := hc b e1
      rw [e2] at e
      cases e
      exact readable_of trivial (fun k v hkv => e3 (k, v) hkv)

/-! ## Every type -/

theorem deSeq_blamed {w : Want} {n0 : Node} {g : Node → SRes Val} : ∀ (l : List Node),
    (∀ x ∈ l, Blamed w n0 (g x)) → Blamed w n0 (deSeq g l)
  | [], _ => trivial
  | n :: r, hx => (hx n (by simp)).bind fun _ _ =>
      (deSeq_blamed r (fun x hx' => hx x (by simp [hx']))).bind fun _ _ => trivial

theorem deMap_blamed {w : Want} {n0 : Node} {g g' : Node → SRes Val} : ∀ (l : List (Node × Node)),
    (∀ k v, (k, v) ∈ l → Blamed w n0 (g k) ∧ Blamed w n0 (g' v)) → Blamed w n0 (deMap g g' l)
  | [], _ => trivial
  | (k, v) :: r, hx => (hx k v (by simp)).1.bind fun _ _ => (hx k v (by simp)).2.bind fun _ _ =>
      (deMap_blamed r (fun k v hx' => hx k v (by simp [hx']))).bind fun _ _ => trivial

theorem deTuple_blamed {w : Want} {n0 : Node} : ∀ (gs : List (Node → SRes Val)) (l : List Node),
    (∀ g x, (g, x) ∈ gs.zip l → Blamed w n0 (g x)) → Blamed w n0 (deTuple gs l)
  | [], _, _ => trivial
  | _ :: _, [], _ => (rfl : (0 : Nat) = 0)
  | g :: gs, n :: r, hx => (hx g n (by simp)).bind fun _ _ =>
      (deTuple_blamed gs r (fun g x hx' => hx g x (by simp [hx']))).bind fun _ _ => trivial

theorem deFieldLoop_blamed {w : Want} {n0 : Node} {D : List DeField} : ∀ (l : List (Node × Node)),
    (∀ k v, (k, v) ∈ l → Blamed w n0 (deIdent k) ∧
      ∀ x ∈ D, deIdent k = .ok x.name → Blamed w n0 (x.read v)) → Blamed w n0 (deFieldLoop D l)
  | [], _ => trivial
  | (k, v) :: r, hx => by
    have hr := deFieldLoop_blamed (D := D) r (fun k v hx' => hx k v (by simp [hx']))
    simp only [deFieldLoop]
    refine (hx k v (by simp)).1.bind fun name hname => ?_
    split
    · rename_i x hxx
      have hn : x.name = name := by simpa using List.find?_some hxx
      refine ((hx k v (by simp)).2 x (List.mem_of_find?_eq_some hxx) (by rw [hname, hn])).bind fun _ _ => ?_
      exact hr.bind fun _ _ => trivial
    · exact hr

theorem deFieldFill_blamed {w : Want} {n0 : Node} {got : List (Bytes × Val)} : ∀ D : List DeField,
    Blamed w n0 (deFieldFill got D)
  | [] => trivial
  | x :: r => by
    simp only [deFieldFill]
    split
    · exact (deFieldFill_blamed r).bind fun _ _ => trivial
    · split
      · exact (deFieldFill_blamed r).bind fun _ _ => trivial
      · exact (rfl : (0 : Nat) = 0)

theorem deStructMap_blamed {w : Want} {n0 : Node} {D : List DeField} {l : List (Node × Node)}
    (hx : ∀ k v, (k, v) ∈ l → Blamed w n0 (deIdent k) ∧
      ∀ x ∈ D, deIdent k = .ok x.name → Blamed w n0 (x.read v)) : Blamed w n0 (deStructMap D l) :=
  (deFieldLoop_blamed l hx).bind fun _ _ => (deFieldFill_blamed D).bind fun _ _ => trivial

theorem deStructMap_struct {D : List DeField} {l : List (Node × Node)} {v : Val}
    (hh : deStructMap D l = .ok v) : ∃ x, v = .struct x := by
  simp only [deStructMap] at hh
  obtain ⟨a, _, hh⟩ := SRes.bind_eq_ok hh
  obtain ⟨c, _, hh⟩ := SRes.bind_eq_ok hh
  cases hh
  exact ⟨c, rfl⟩

theorem deAll_map : ∀ ts, deAll h f ts = ts.map (de h f)
  | [] => rfl
  | t :: r => by simp [deAll, deAll_map r]

theorem deFields_map : ∀ fs : List (Bytes × Ty),
    deFields h f fs = fs.map (fun e => ⟨e.1, e.2.isOption, de h f e.2⟩)
  | [] => rfl
  | (n, t) :: r => by simp [deFields, deField, deFields_map r]

theorem deVariants_map : ∀ vs : List (Bytes × VTy),
    deVariants h f vs = vs.map (fun e => ⟨e.1, dePayload h f e.2⟩)
  | [] => rfl
  | (n, t) :: r => by simp [deVariants, deVariant, deVariants_map r]

theorem mem_zip_map {α β γ : Type} {g : α → γ} : ∀ {l : List α} {l' : List β} {c : γ} {x : β},
    (c, x) ∈ (l.map g).zip l' → ∃ a, (a, x) ∈ l.zip l' ∧ c = g a
  | [], _, _, _, hh => by simp at hh
  | _ :: _, [], _, _, hh => by simp at hh
  | a :: l, y :: l', c, x, hh => by
    simp only [List.map_cons, List.zip_cons_cons, List.mem_cons, Prod.mk.injEq] at hh
    rcases hh with ⟨rfl, rfl⟩ | hh
    · exact ⟨a, by simp, rfl⟩
    · obtain ⟨a', h1, h2⟩ := mem_zip_map hh
      exact ⟨a', by simp [h1], h2⟩

/-- Reading an integer. -/
theorem deInt_blamed {w : IntTy} {n : Node} (hr : Readable n) : Blamed (.ty (.int w)) n (deInt w n) := by
  have hh := hr.here
  unfold deInt
  split
  · rename_i s hs
    simp only [ReadableHere, hs] at hh
    obtain ⟨i, hi⟩ := Option.isSome_iff_exists.1 hh
    rw [hi]; trivial
  · rename_i hn
    exact blamed_unexpected hr.here (by rintro ⟨s, hs⟩; exact hn s hs)

mutual
theorem de_blamed (hf : f.Exact) : ∀ (t : Ty) (n : Node), Readable n → Blamed (.ty t) n (de h f t n)
  | .bool, n, hr => by
    simp only [de]
    split
    · trivial
    · rename_i hn
      exact blamed_unexpected hr.here (by rintro ⟨s, hs⟩; exact hn s hs)
  | .int w, n, hr => by rw [de]; exact deInt_blamed hr
  | .f64, n, hr => by
    have hh := hr.here
    simp only [de]
    split
    · rename_i s hs
      simp only [ReadableHere, hs] at hh
      obtain ⟨i, hi⟩ := Option.isSome_iff_exists.1 hh
      rw [hi]; trivial
    · rename_i s hs
      simp only [ReadableHere, hs] at hh
      obtain ⟨i, hi⟩ := Option.isSome_iff_exists.1 hh
      rw [hi]; trivial
    · rename_i h1 h2
      exact blamed_unexpected hr.here (by
        rintro (⟨s, hs⟩ | ⟨s, hs⟩)
        · exact h1 s hs
        · exact h2 s hs)
  | .f32, n, hr => by
    have hh := hr.here
    simp only [de]
    split
    · rename_i s hs
      simp only [ReadableHere, hs] at hh
      obtain ⟨i, hi⟩ := Option.isSome_iff_exists.1 hh
      rw [hi]; trivial
    · rename_i s hs
      simp only [ReadableHere, hs] at hh
      obtain ⟨i, hi⟩ := Option.isSome_iff_exists.1 hh
      rw [hi]; trivial
    · rename_i h1 h2
      exact blamed_unexpected hr.here (by
        rintro (⟨s, hs⟩ | ⟨s, hs⟩)
        · exact h1 s hs
        · exact h2 s hs)
  | .char, n, hr => by
    simp only [de]
    split
    · trivial
    · trivial
    · rename_i h1 h2
      exact blamed_unexpected hr.here (by
        rintro (⟨s, hs⟩ | ⟨s, hs⟩)
        · exact h1 s hs
        · exact h2 s hs)
  | .str, n, hr => by
    simp only [de]
    split
    iterate 5 trivial
    · rename_i h1 h2 h3 h4 h5
      exact blamed_unexpected hr.here (by
        rintro (⟨s, hs⟩ | ⟨s, hs⟩ | ⟨s, hs⟩ | ⟨s, hs⟩ | hs)
        · exact h1 s hs
        · exact h2 s hs
        · exact h3 s hs
        · exact h4 s hs
        · exact h5 hs)
  | .bytes, .mk p tag y, hr => by
    simp only [de, Node.yaml]
    split
    · trivial
    · refine (deSeq_blamed _ fun x hx => ?_).bind fun _ _ => trivial
      exact (deInt_blamed (hr.seq x hx)).lift fun w m hv => .byte hx hv
    · rename_i h1 h2
      exact blamed_unexpected hr.here (by
        rintro (⟨s, hs⟩ | ⟨s, hs⟩)
        · exact h1 s hs
        · exact h2 s hs)
  | .unit, n, hr => by
    simp only [de]
    split
    · trivial
    · rename_i hn
      exact blamed_unexpected hr.here (fun hs => hn hs)
  | .option t, n, hr => by
    rw [de.eq_def]
    simp only
    split
    · trivial
    · exact ((de_blamed hf t n hr).lift fun w m hv => .option hv).bind fun _ _ => trivial
  | .seq t, .mk p tag y, hr => by
    simp only [de, Node.yaml]
    split
    · refine (deSeq_blamed _ fun x hx => ?_).bind fun _ _ => trivial
      exact (de_blamed hf t x (hr.seq x hx)).lift fun w m hv => .item hx hv
    · rename_i hn
      exact blamed_unexpected hr.here (by rintro ⟨s, hs⟩; exact hn s hs)
  | .tuple ts, .mk p tag y, hr => by
    simp only [de, Node.yaml]
    split
    · refine (deTuple_blamed _ _ fun g x hx => ?_).bind fun _ _ => trivial
      rw [deAll_map] at hx
      obtain ⟨t, h1, rfl⟩ := mem_zip_map hx
      exact (tys_blamed hf ts t (List.of_mem_zip h1).1 x (hr.seq x (List.of_mem_zip h1).2)).lift
        fun w m hv => .comp h1 hv
    · rename_i hn
      exact blamed_unexpected hr.here (by rintro ⟨s, hs⟩; exact hn s hs)
  | .map tk tv, .mk p tag y, hr => by
    simp only [de, Node.yaml]
    split
    · refine (deMap_blamed _ fun k v hx => ?_).bind fun _ _ => trivial
      exact ⟨(de_blamed hf tk k (hr.map k v hx).1).lift fun w m hv => .key hx hv,
        (de_blamed hf tv v (hr.map k v hx).2).lift fun w m hv => .value hx hv⟩
    · rename_i hn
      exact blamed_unexpected hr.here (by rintro ⟨s, hs⟩; exact hn s hs)
  | .newtype t, n, hr => by
    rw [de]
    exact ((de_blamed hf t n hr).lift fun w m hv => .newtype hv).bind fun _ _ => trivial
  | .struct fs, .mk p tag y, hr => by
    simp only [de, Node.yaml]
    split
    · refine (deTuple_blamed _ _ fun g x hx => ?_).bind fun _ _ => trivial
      rw [deFields_map, List.map_map] at hx
      obtain ⟨e, h1, rfl⟩ := mem_zip_map hx
      exact (fields_blamed hf fs e (List.of_mem_zip h1).1 x (hr.seq x (List.of_mem_zip h1).2)).lift
        fun w m hv => .structItem (nm := e.1) h1 hv
    · refine deStructMap_blamed fun k v hx => ⟨blamed_ident (hr.map k v hx).1 ?_, ?_⟩
      · intro w m hv
        obtain ⟨rfl, rfl⟩ := visits_name hv
        exact .fieldName hx
      · intro d hd hk
        rw [deFields_map] at hd
        obtain ⟨e, he, rfl⟩ := List.mem_map.1 hd
        exact (fields_blamed hf fs e he v (hr.map k v hx).2).lift
          fun w m hv => .field hx (deIdent_ok hk) (nm := e.1) (t := e.2) he hv
    · rename_i h1 h2
      exact blamed_unexpected hr.here (by
        rintro (⟨s, hs⟩ | ⟨s, hs⟩)
        · exact h1 s hs
        · exact h2 s hs)
  | .enum vs, .mk p tag y, hr => by
    simp only [de, Node.yaml]
    split
    · rename_i k v
      obtain ⟨hrk, hrv⟩ := hr.map k v (by simp)
      simp only [deEnum]
      refine (blamed_ident hrk ?_).bind fun name hname => ?_
      · intro w m hv
        obtain ⟨rfl, rfl⟩ := visits_name hv
        exact .variantName
      · split
        · rename_i x hx
          have hn : x.name = name := by simpa using List.find?_some hx
          have hx := List.mem_of_find?_eq_some hx
          rw [deVariants_map] at hx
          obtain ⟨e, he, rfl⟩ := List.mem_map.1 hx
          have hk := deIdent_ok hname
          rw [← hn] at hk
          refine Blamed.bind ?_ fun _ _ => trivial
          exact variants_blamed hf vs e he p tag vs k v hrv hk he
        · exact (rfl : (0 : Nat) = 0)
    · rename_i s
      simp only [deEnum, deIdent, Node.yaml, SRes.bind_ok]
      split
      · rename_i x hx
        have hn : x.name = s := by simpa using List.find?_some hx
        have hx := List.mem_of_find?_eq_some hx
        rw [deVariants_map] at hx
        obtain ⟨e, he, rfl⟩ := List.mem_map.1 hx
        refine Blamed.bind ?_ fun _ _ => trivial
        obtain ⟨nm, t⟩ := e
        simp only at hn
        subst hn
        have hb : ∀ t, (nm, t) ∈ vs → t ≠ .unit →
            Blamed (.ty (.enum vs)) (.mk p tag (.str nm)) (SRes.err (α := VVal) .invalidType 0) :=
          fun t ht hu => .inr ⟨rfl, vs, _, nm, t, .self, rfl, ht, hu⟩
        cases t with
        | unit => trivial
        | _ => exact hb _ he (by simp)
      · exact (rfl : (0 : Nat) = 0)
    · rename_i h1 h2
      exact blamed_unexpected hr.here (by
        rintro (⟨k, v, hs⟩ | ⟨s, hs⟩)
        · exact h1 k v hs
        · exact h2 s hs)
  | .node, n, hr => by
    rw [de]
    exact (deNode_blamed hf n hr).1.bind fun _ _ => trivial

theorem tys_blamed (hf : f.Exact) : ∀ (ts : List Ty), ∀ t ∈ ts, ∀ n, Readable n → Blamed (.ty t) n (de h f t n)
  | [], _, hm, _, _ => by cases hm
  | t' :: ts, t, hm, n, hr => by
    rcases List.mem_cons.1 hm with e | hm
    · rw [e]; exact de_blamed hf t' n hr
    · exact tys_blamed hf ts t hm n hr

theorem fields_blamed (hf : f.Exact) : ∀ (fs : List (Bytes × Ty)), ∀ e ∈ fs, ∀ n, Readable n →
    Blamed (.ty e.2) n (de h f e.2 n)
  | [], _, hm, _, _ => by cases hm
  | e' :: fs, e, hm, n, hr => by
    rcases List.mem_cons.1 hm with q | hm
    · rw [q]; exact field_blamed hf e' n hr
    · exact fields_blamed hf fs e hm n hr

theorem field_blamed (hf : f.Exact) : ∀ (e : Bytes × Ty), ∀ n, Readable n → Blamed (.ty e.2) n (de h f e.2 n)
  | (_, t), n, hr => de_blamed hf t n hr

theorem variants_blamed (hf : f.Exact) : ∀ (vs' : List (Bytes × VTy)), ∀ e ∈ vs', ∀ p tag vs k v, Readable v →
    k.yaml = .str e.1 → e ∈ vs →
    Blamed (.ty (.enum vs)) (.mk p tag (.map [(k, v)])) (dePayload h f e.2 (some v))
  | [], _, hm, _, _, _, _, _, _, _, _ => by cases hm
  | e' :: fs, e, hm, p, tag, vs, k, v, hr, hk, he => by
    rcases List.mem_cons.1 hm with q | hm
    · rw [q] at hk he ⊢; exact variant_blamed hf e' p tag vs k v hr hk he
    · exact variants_blamed hf fs e hm p tag vs k v hr hk he

theorem variant_blamed (hf : f.Exact) : ∀ (e : Bytes × VTy), ∀ p tag vs k v, Readable v →
    k.yaml = .str e.1 → e ∈ vs →
    Blamed (.ty (.enum vs)) (.mk p tag (.map [(k, v)])) (dePayload h f e.2 (some v))
  | (nm, t), p, tag, vs, k, v, hr, hk, he => payload_blamed hf t nm p tag vs k v hr hk he

theorem payload_blamed (hf : f.Exact) : ∀ (t : VTy) (nm : Bytes), ∀ p tag vs k v, Readable v →
    k.yaml = .str nm → (nm, t) ∈ vs →
    Blamed (.ty (.enum vs)) (.mk p tag (.map [(k, v)])) (dePayload h f t (some v))
  | .unit, nm, p, tag, vs, k, v, hr, hk, he => by
    simp only [dePayload]
    split
    · trivial
    · rename_i hn
      refine Blamed.lift (w := .unitPayload) (n := v) ?_ (blamed_unexpected hr.here (fun hs => hn hs))
      intro w m hv
      cases hv
      exact .payload hk he
  | .newtype t, nm, p, tag, vs, k, v, hr, hk, he => by
    simp only [dePayload]
    exact ((de_blamed hf t v hr).lift fun w m hv => .payloadNew hk he hv).bind fun _ _ => trivial
  | .tuple ts, nm, p, tag, vs, k, .mk p' tag' y, hr, hk, he => by
    simp only [dePayload, Node.yaml]
    split
    · refine (deTuple_blamed _ _ fun g x hx => ?_).bind fun _ _ => trivial
      rw [deAll_map] at hx
      obtain ⟨t, h1, rfl⟩ := mem_zip_map hx
      exact (tys_blamed hf ts t (List.of_mem_zip h1).1 x (hr.seq x (List.of_mem_zip h1).2)).lift
        fun w m hv => .payloadComp hk he h1 hv
    · rename_i hn
      refine Blamed.lift (w := .tuplePayload) ?_ (blamed_unexpected hr.here (by rintro ⟨s, hs⟩; exact hn s hs))
      intro w m hv
      cases hv
      exact .payload hk he
  | .struct fs, nm, p, tag, vs, k, .mk p' tag' y, hr, hk, he => by
    simp only [dePayload, Node.yaml]
    split
    · refine Blamed.bind (deStructMap_blamed fun k' v' hx => ⟨blamed_ident (hr.map k' v' hx).1 ?_, ?_⟩) fun a ha => ?_
      · intro w m hv
        obtain ⟨rfl, rfl⟩ := visits_name hv
        exact .payloadName hk he hx
      · intro d hd hk'
        rw [deFields_map] at hd
        obtain ⟨e, he', rfl⟩ := List.mem_map.1 hd
        exact (fields_blamed hf fs e he' v' (hr.map k' v' hx).2).lift
          fun w m hv => .payloadField hk he hx (deIdent_ok hk') (nm' := e.1) (t := e.2) he' hv
      · obtain ⟨x, rfl⟩ := deStructMap_struct ha
        trivial
    · rename_i hn
      refine Blamed.lift (w := .structPayload) ?_ (blamed_unexpected hr.here (by rintro ⟨s, hs⟩; exact hn s hs))
      intro w m hv
      cases hv
      exact .payload hk he
end

end

end YamlPeg
