import Verif.Model.Node
/-! # Facts about node equality, hashing and maps -/

namespace YamlPeg

/-- `m` is `n` or occurs somewhere inside it (as item, key or value). -/
inductive Occurs (m : Node) : Node → Prop
  | self : Occurs m m
  | item {pos tag l x} : x ∈ l → Occurs m x → Occurs m (.mk pos tag (.seq l))
  | key {pos tag l k v} : (k, v) ∈ l → Occurs m k → Occurs m (.mk pos tag (.map l))
  | value {pos tag l k v} : (k, v) ∈ l → Occurs m v → Occurs m (.mk pos tag (.map l))

/-- `p` holds of `n` and of every node inside it. -/
def Everywhere (p : Node → Prop) (n : Node) : Prop := ∀ m, Occurs m n → p m

/-- What induction over nodes provides. -/
def Yaml.Kids (P : Node → Prop) : Yaml → Prop
  | .seq l => ∀ x ∈ l, P x
  | .map l => ∀ k v, (k, v) ∈ l → P k ∧ P v
  | _ => True

section
variable {P : Node → Prop} (h : ∀ pos tag y, Yaml.Kids P y → P (.mk pos tag y))
include h

mutual
theorem Node.induct : ∀ n, P n
  | .mk pos tag y => h pos tag y (Yaml.induct y)
theorem Yaml.induct : ∀ y : Yaml, Yaml.Kids P y
  | .null => trivial
  | .bool _ => trivial
  | .int _ => trivial
  | .float _ => trivial
  | .str _ => trivial
  | .seq l => nodesInduct l
  | .map l => entriesInduct l
  | .alias _ => trivial
theorem nodesInduct : ∀ (l : List Node), ∀ x ∈ l, P x
  | [], _, h => by cases h
  | y :: ys, x, hx => by
    rcases List.mem_cons.1 hx with e | e
    · exact e ▸ Node.induct y
    · exact nodesInduct ys x e
theorem entriesInduct : ∀ (l : List (Node × Node)), ∀ k v, (k, v) ∈ l → P k ∧ P v
  | [], _, _, h => by cases h
  | e :: es, k, v, hx => by
    rcases List.mem_cons.1 hx with e' | e'
    · subst e'; exact entryInduct (k, v)
    · exact entriesInduct es k v e'
theorem entryInduct : ∀ e : Node × Node, P e.1 ∧ P e.2
  | (a, b) => ⟨Node.induct a, Node.induct b⟩
end
end

theorem everywhere_mk {p : Node → Prop} {pos : Nat} {tag : Bytes} {y : Yaml} :
    Everywhere p (.mk pos tag y) ↔ p (.mk pos tag y) ∧ Yaml.Kids (Everywhere p) y := by
  constructor
  · intro h
    refine ⟨h _ .self, ?_⟩
    cases y with
    | seq l => exact fun x hx m hm => h m (.item hx hm)
    | map l => exact fun k v hx => ⟨fun m hm => h m (.key hx hm), fun m hm => h m (.value hx hm)⟩
    | _ => trivial
  · rintro ⟨h1, h2⟩ m hm
    cases hm with
    | self => exact h1
    | item hx hm => exact h2 _ hx _ hm
    | key hx hm => exact (h2 _ _ hx).1 _ hm
    | value hx hm => exact (h2 _ _ hx).2 _ hm

theorem Everywhere.mono {p q : Node → Prop} {n : Node} (h : Everywhere p n) (hpq : ∀ m, p m → q m) :
    Everywhere q n := fun m hm => hpq m (h m hm)

theorem Everywhere.here {p : Node → Prop} {n : Node} (h : Everywhere p n) : p n := h n .self

theorem Occurs.trans {a c d : Node} (h1 : Occurs a c) (h2 : Occurs c d) : Occurs a d := by
  induction h2 with
  | self => exact h1
  | item hx _ ih => exact .item hx ih
  | key hx _ ih => exact .key hx ih
  | value hx _ ih => exact .value hx ih

/-! ## Equality as a Boolean -/

/-- The number texts of this node (not of its children) can be read. -/
def ReadableHere (n : Node) : Prop :=
  match n.yaml with
  | .int s => (toI64 s).isSome
  | .float s => (toF64 s).isSome
  | _ => True

/-- All number texts in the node can be read. -/
def Readable (n : Node) : Prop := Everywhere ReadableHere n

/-- Meaning of float comparison: both `NaN`, or IEEE-equal. -/
def F64.same (a c : F64) : Bool := if a.isNan && c.isNan then true else a.ieeeEq c

theorem F64.same_refl (a : F64) : a.same a = true := by
  cases a <;> simp [F64.same, F64.isNan, F64.ieeeEq]

theorem F64.same_comm (a c : F64) : a.same c = c.same a := by
  rw [Bool.eq_iff_iff]
  cases a <;> cases c <;> simp [F64.same, F64.isNan, F64.ieeeEq] <;> grind

theorem F64.same_trans {a c d : F64} (h1 : a.same c = true) (h2 : c.same d = true) :
    a.same d = true := by
  cases a <;> cases c <;> cases d <;> simp [F64.same, F64.isNan, F64.ieeeEq] at * <;> grind

mutual
/-- Semantic equality of readable nodes, total. -/
def Node.eqb : Node → Node → Bool
  | .mk _ _ y1, .mk _ _ y2 => Yaml.eqb y1 y2
termination_by structural x => x

def Yaml.eqb : Yaml → Yaml → Bool
  | .null, .null => true
  | .bool b1, .bool b2 => b1 == b2
  | .int s1, .int s2 => toI64 s1 == toI64 s2
  | .float s1, .float s2 => match toF64 s1, toF64 s2 with
    | some a, some c => a.same c
    | none, none => true
    | _, _ => false
  | .str s1, .str s2 => s1 == s2
  | .seq s1, .seq s2 => nodesEqb s1 s2
  | .map m1, .map m2 => entriesEqb m1 m2
  | .alias a1, .alias a2 => a1 == a2
  | _, _ => false
termination_by structural x => x

def nodesEqb : List Node → List Node → Bool
  | [], [] => true
  | x :: xs, y :: ys => Node.eqb x y && nodesEqb xs ys
  | _, _ => false
termination_by structural x => x

def entriesEqb : List (Node × Node) → List (Node × Node) → Bool
  | [], [] => true
  | x :: xs, y :: ys => entryEqb x y && entriesEqb xs ys
  | _, _ => false
termination_by structural x => x

def entryEqb : Node × Node → Node × Node → Bool
  | (k1, v1), (k2, v2) => Node.eqb k1 k2 && Node.eqb v1 v2
termination_by structural x => x
end

theorem andThen_ok {x y : Out Bool} {a c : Bool} (hx : x = .ok a) (hy : a = true → y = .ok c) :
    x.andThen y = .ok (a && c) := by
  subst hx
  cases a
  · rfl
  · simp [Out.andThen, hy]

theorem nodesEq?_ok {l1 l2 : List Node}
    (h : ∀ x ∈ l1, ∀ y, Readable y → Node.eq? x y = .ok (Node.eqb x y))
    (h2 : ∀ y ∈ l2, Readable y) (hl : l1.length = l2.length) :
    nodesEq? l1 l2 = .ok (nodesEqb l1 l2) := by
  induction l1 generalizing l2 with
  | nil =>
    cases l2 with
    | nil => rfl
    | cons y ys => simp at hl
  | cons x xs ih =>
    cases l2 with
    | nil => simp at hl
    | cons y ys =>
      simp only [nodesEq?, nodesEqb]
      refine andThen_ok (h x (List.mem_cons_self ..) y (h2 y (List.mem_cons_self ..))) fun _ => ?_
      exact ih (fun a ha => h a (List.mem_cons_of_mem _ ha))
        (fun a ha => h2 a (List.mem_cons_of_mem _ ha)) (by simpa using hl)

theorem entriesEq?_ok {l1 l2 : List (Node × Node)}
    (h : ∀ k v, (k, v) ∈ l1 → (∀ y, Readable y → Node.eq? k y = .ok (Node.eqb k y)) ∧
      (∀ y, Readable y → Node.eq? v y = .ok (Node.eqb v y)))
    (h2 : ∀ k v, (k, v) ∈ l2 → Readable k ∧ Readable v) (hl : l1.length = l2.length) :
    entriesEq? l1 l2 = .ok (entriesEqb l1 l2) := by
  induction l1 generalizing l2 with
  | nil =>
    cases l2 with
    | nil => rfl
    | cons y ys => simp at hl
  | cons x xs ih =>
    cases l2 with
    | nil => simp at hl
    | cons y ys =>
      obtain ⟨k, v⟩ := x
      obtain ⟨k', v'⟩ := y
      obtain ⟨hk, hv⟩ := h k v (List.mem_cons_self ..)
      obtain ⟨rk, rv⟩ := h2 k' v' (List.mem_cons_self ..)
      simp only [entriesEq?, entriesEqb, entryEq?, entryEqb]
      refine andThen_ok (andThen_ok (hk _ rk) fun _ => hv _ rv) fun _ => ?_
      exact ih (fun a c ha => h a c (List.mem_cons_of_mem _ ha))
        (fun a c ha => h2 a c (List.mem_cons_of_mem _ ha)) (by simpa using hl)

theorem nodesEqb_length {l1 l2 : List Node} (h : nodesEqb l1 l2 = true) : l1.length = l2.length := by
  induction l1 generalizing l2 with
  | nil => cases l2 with
    | nil => rfl
    | cons y ys => simp [nodesEqb] at h
  | cons x xs ih => cases l2 with
    | nil => simp [nodesEqb] at h
    | cons y ys =>
      simp only [nodesEqb, Bool.and_eq_true] at h
      simp [ih h.2]

theorem entriesEqb_length {l1 l2 : List (Node × Node)} (h : entriesEqb l1 l2 = true) :
    l1.length = l2.length := by
  induction l1 generalizing l2 with
  | nil => cases l2 with
    | nil => rfl
    | cons y ys => simp [entriesEqb] at h
  | cons x xs ih => cases l2 with
    | nil => simp [entriesEqb] at h
    | cons y ys =>
      simp only [entriesEqb, Bool.and_eq_true] at h
      simp [ih h.2]

theorem intEq?_ok {s1 s2 : Bytes} (h1 : (toI64 s1).isSome) (h2 : (toI64 s2).isSome) :
    intEq? s1 s2 = .ok (toI64 s1 == toI64 s2) := by
  obtain ⟨a, ha⟩ := Option.isSome_iff_exists.1 h1
  obtain ⟨c, hc⟩ := Option.isSome_iff_exists.1 h2
  simp [intEq?, ha, hc]

theorem floatEq?_ok {s1 s2 : Bytes} (h1 : (toF64 s1).isSome) (h2 : (toF64 s2).isSome) :
    floatEq? s1 s2 = .ok (match toF64 s1, toF64 s2 with
      | some a, some c => a.same c
      | none, none => true
      | _, _ => false) := by
  obtain ⟨a, ha⟩ := Option.isSome_iff_exists.1 h1
  obtain ⟨c, hc⟩ := Option.isSome_iff_exists.1 h2
  simp [floatEq?, ha, hc, F64.same]

/-- On readable nodes the comparison never panics. -/
theorem eq?_ok (a : Node) : Readable a → ∀ c, Readable c → Node.eq? a c = .ok (Node.eqb a c) := by
  induction a using Node.induct with | h pos tag y ih => _
  intro hra c hrc
  obtain ⟨pos', tag', y'⟩ := c
  obtain ⟨ha, hka⟩ := everywhere_mk.1 hra
  obtain ⟨hc, hkc⟩ := everywhere_mk.1 hrc
  simp only [Node.eq?, Node.eqb]
  cases y <;> cases y' <;> simp only [Yaml.eq?, Yaml.eqb]
  · exact intEq?_ok ha hc
  · exact floatEq?_ok ha hc
  · rename_i l1 l2
    split
    · rename_i hl
      exact nodesEq?_ok (fun x hx => ih x hx (hka x hx)) hkc hl
    · rename_i hl
      congr 1
      cases hb : nodesEqb l1 l2 with
      | false => rfl
      | true => exact absurd (nodesEqb_length hb) hl
  · rename_i l1 l2
    split
    · rename_i hl
      exact entriesEq?_ok (fun k v hx => ⟨(ih k v hx).1 (hka k v hx).1, (ih k v hx).2 (hka k v hx).2⟩)
        hkc hl
    · rename_i hl
      congr 1
      cases hb : entriesEqb l1 l2 with
      | false => rfl
      | true => exact absurd (entriesEqb_length hb) hl

theorem nodesEqb_refl {l : List Node} (h : ∀ x ∈ l, Node.eqb x x = true) : nodesEqb l l = true := by
  induction l with
  | nil => rfl
  | cons x xs ih =>
    simp only [nodesEqb, h x (List.mem_cons_self ..), Bool.true_and]
    exact ih fun y hy => h y (List.mem_cons_of_mem _ hy)

theorem entriesEqb_refl {l : List (Node × Node)}
    (h : ∀ k v, (k, v) ∈ l → Node.eqb k k = true ∧ Node.eqb v v = true) : entriesEqb l l = true := by
  induction l with
  | nil => rfl
  | cons x xs ih =>
    obtain ⟨k, v⟩ := x
    obtain ⟨h1, h2⟩ := h k v (List.mem_cons_self ..)
    simp only [entriesEqb, entryEqb, h1, h2, Bool.true_and]
    exact ih fun a c hy => h a c (List.mem_cons_of_mem _ hy)

theorem eqb_refl (a : Node) : Node.eqb a a = true := by
  induction a using Node.induct with | h pos tag y ih => _
  simp only [Node.eqb]
  cases y <;> simp only [Yaml.eqb, beq_self_eq_true]
  · rename_i s
    cases toF64 s with
    | none => rfl
    | some v => exact F64.same_refl v
  · exact nodesEqb_refl ih
  · exact entriesEqb_refl ih

theorem nodesEqb_comm {l1 : List Node} (h : ∀ x ∈ l1, ∀ y, Node.eqb x y = Node.eqb y x) (l2 : List Node) :
    nodesEqb l1 l2 = nodesEqb l2 l1 := by
  induction l1 generalizing l2 with
  | nil => cases l2 <;> rfl
  | cons x xs ih =>
    cases l2 with
    | nil => rfl
    | cons y ys =>
      simp only [nodesEqb, h x (List.mem_cons_self ..) y,
        ih (fun a ha => h a (List.mem_cons_of_mem _ ha)) ys]

theorem entriesEqb_comm {l1 : List (Node × Node)}
    (h : ∀ k v, (k, v) ∈ l1 → (∀ y, Node.eqb k y = Node.eqb y k) ∧ (∀ y, Node.eqb v y = Node.eqb y v))
    (l2 : List (Node × Node)) : entriesEqb l1 l2 = entriesEqb l2 l1 := by
  induction l1 generalizing l2 with
  | nil => cases l2 <;> rfl
  | cons x xs ih =>
    cases l2 with
    | nil => rfl
    | cons y ys =>
      obtain ⟨k, v⟩ := x
      obtain ⟨k', v'⟩ := y
      obtain ⟨h1, h2⟩ := h k v (List.mem_cons_self ..)
      simp only [entriesEqb, entryEqb, h1 k', h2 v',
        ih (fun a c ha => h a c (List.mem_cons_of_mem _ ha)) ys]

theorem eqb_comm (a : Node) : ∀ c, Node.eqb a c = Node.eqb c a := by
  induction a using Node.induct with | h pos tag y ih => _
  intro c
  obtain ⟨pos', tag', y'⟩ := c
  simp only [Node.eqb]
  cases y <;> cases y' <;> simp only [Yaml.eqb]
  · exact BEq.comm
  · exact BEq.comm
  · rename_i s1 s2
    cases toF64 s1 <;> cases toF64 s2 <;> simp only [F64.same_comm]
  · exact BEq.comm
  · exact nodesEqb_comm ih _
  · exact entriesEqb_comm ih _
  · exact BEq.comm

theorem nodesEqb_trans {l1 : List Node}
    (h : ∀ x ∈ l1, ∀ y z, Node.eqb x y = true → Node.eqb y z = true → Node.eqb x z = true)
    {l2 l3 : List Node} (h1 : nodesEqb l1 l2 = true) (h2 : nodesEqb l2 l3 = true) :
    nodesEqb l1 l3 = true := by
  induction l1 generalizing l2 l3 with
  | nil =>
    cases l2 with
    | nil => exact h2
    | cons y ys => simp [nodesEqb] at h1
  | cons x xs ih =>
    cases l2 with
    | nil => simp [nodesEqb] at h1
    | cons y ys =>
      cases l3 with
      | nil => simp [nodesEqb] at h2
      | cons z zs =>
        simp only [nodesEqb, Bool.and_eq_true] at h1 h2 ⊢
        exact ⟨h x (List.mem_cons_self ..) _ _ h1.1 h2.1,
          ih (fun a ha => h a (List.mem_cons_of_mem _ ha)) h1.2 h2.2⟩

theorem entriesEqb_trans {l1 : List (Node × Node)}
    (h : ∀ k v, (k, v) ∈ l1 →
      (∀ y z, Node.eqb k y = true → Node.eqb y z = true → Node.eqb k z = true) ∧
      (∀ y z, Node.eqb v y = true → Node.eqb y z = true → Node.eqb v z = true))
    {l2 l3 : List (Node × Node)} (h1 : entriesEqb l1 l2 = true) (h2 : entriesEqb l2 l3 = true) :
    entriesEqb l1 l3 = true := by
  induction l1 generalizing l2 l3 with
  | nil =>
    cases l2 with
    | nil => exact h2
    | cons y ys => simp [entriesEqb] at h1
  | cons x xs ih =>
    cases l2 with
    | nil => simp [entriesEqb] at h1
    | cons y ys =>
      cases l3 with
      | nil => simp [entriesEqb] at h2
      | cons z zs =>
        obtain ⟨k, v⟩ := x
        obtain ⟨k', v'⟩ := y
        obtain ⟨k'', v''⟩ := z
        obtain ⟨ha, hb⟩ := h k v (List.mem_cons_self ..)
        simp only [entriesEqb, entryEqb, Bool.and_eq_true] at h1 h2 ⊢
        exact ⟨⟨ha _ _ h1.1.1 h2.1.1, hb _ _ h1.1.2 h2.1.2⟩,
          ih (fun a c ha => h a c (List.mem_cons_of_mem _ ha)) h1.2 h2.2⟩

theorem eqb_trans (a : Node) :
    ∀ c d, Node.eqb a c = true → Node.eqb c d = true → Node.eqb a d = true := by
  induction a using Node.induct with | h pos tag y ih => _
  intro c d
  obtain ⟨pos', tag', y'⟩ := c
  obtain ⟨pos'', tag'', y''⟩ := d
  simp only [Node.eqb]
  cases y <;> cases y' <;> cases y'' <;> simp only [Yaml.eqb] <;>
    first
    | (intro h1 h2; simp at h1; done)
    | (intro h1 h2; simp at h2; done)
    | skip
  · simp
  · simp only [beq_iff_eq]; exact Eq.trans
  · simp only [beq_iff_eq]; exact Eq.trans
  · rename_i s1 s2 s3
    cases toF64 s1 <;> cases toF64 s2 <;> cases toF64 s3 <;> simp
    exact F64.same_trans
  · simp only [beq_iff_eq]; exact Eq.trans
  · exact nodesEqb_trans ih
  · exact entriesEqb_trans ih
  · simp only [beq_iff_eq]; exact Eq.trans

/-! ## Hash streams -/

/-- Two nodes write numbers of the same value with the same text. -/
def SameNotation (a c : Node) : Prop :=
  ∀ m m', Occurs m a → Occurs m' c → match m.yaml, m'.yaml with
    | .int s, .int s' => toI64 s = toI64 s' → s = s'
    | .float s, .float s' => ∀ u w, toF64 s = some u → toF64 s' = some w → u.same w = true → s = s'
    | _, _ => True

theorem nodesStream_congr {l1 l2 : List Node}
    (h : ∀ x ∈ l1, ∀ y ∈ l2, Node.eqb x y = true → x.hashStream = y.hashStream)
    (he : nodesEqb l1 l2 = true) : nodesStream l1 = nodesStream l2 := by
  induction l1 generalizing l2 with
  | nil => cases l2 with
    | nil => rfl
    | cons y ys => simp [nodesEqb] at he
  | cons x xs ih => cases l2 with
    | nil => simp [nodesEqb] at he
    | cons y ys =>
      simp only [nodesEqb, Bool.and_eq_true] at he
      simp only [nodesStream, h x (List.mem_cons_self ..) y (List.mem_cons_self ..) he.1,
        ih (fun a ha c hc => h a (List.mem_cons_of_mem _ ha) c (List.mem_cons_of_mem _ hc)) he.2]

theorem entriesStream_congr {l1 l2 : List (Node × Node)}
    (h : ∀ k v, (k, v) ∈ l1 → ∀ k' v', (k', v') ∈ l2 →
      (Node.eqb k k' = true → k.hashStream = k'.hashStream) ∧
      (Node.eqb v v' = true → v.hashStream = v'.hashStream))
    (he : entriesEqb l1 l2 = true) : entriesStream l1 = entriesStream l2 := by
  induction l1 generalizing l2 with
  | nil => cases l2 with
    | nil => rfl
    | cons y ys => simp [entriesEqb] at he
  | cons x xs ih => cases l2 with
    | nil => simp [entriesEqb] at he
    | cons y ys =>
      obtain ⟨k, v⟩ := x
      obtain ⟨k', v'⟩ := y
      simp only [entriesEqb, entryEqb, Bool.and_eq_true] at he
      obtain ⟨h1, h2⟩ := h k v (List.mem_cons_self ..) k' v' (List.mem_cons_self ..)
      simp only [entriesStream, entryStream, h1 he.1.1, h2 he.1.2,
        ih (fun a a' ha c c' hc => h a a' (List.mem_cons_of_mem _ ha) c c' (List.mem_cons_of_mem _ hc)) he.2]

theorem hashStream_congr (a : Node) : ∀ c, Readable a → Readable c → SameNotation a c →
    Node.eqb a c = true → a.hashStream = c.hashStream := by
  induction a using Node.induct with | h pos tag y ih => _
  intro c hra hrc hn
  obtain ⟨pos', tag', y'⟩ := c
  obtain ⟨ha, hka⟩ := everywhere_mk.1 hra
  obtain ⟨hc, hkc⟩ := everywhere_mk.1 hrc
  have hn0 := hn _ _ .self .self
  simp only [Node.eqb, Node.hashStream]
  cases y <;> cases y' <;> simp only [Yaml.eqb] <;>
    first
    | (intro h; simp at h; done)
    | skip
  · simp
  · simp only [beq_iff_eq]; rintro rfl; rfl
  · simp only [beq_iff_eq]
    intro h
    have e := hn0 h
    rw [e]
  · rename_i s s'
    intro h
    obtain ⟨u, hu⟩ := Option.isSome_iff_exists.1 (show (toF64 s).isSome from ha)
    obtain ⟨w, hw⟩ := Option.isSome_iff_exists.1 (show (toF64 s').isSome from hc)
    simp only [hu, hw] at h
    have e := hn0 u w hu hw h
    rw [e]
  · simp only [beq_iff_eq]; rintro rfl; rfl
  · rename_i l1 l2
    intro h
    simp only [Yaml.hashStream]
    rw [nodesEqb_length h, nodesStream_congr _ h]
    exact fun x hx y hy => ih x hx y (hka x hx) (hkc y hy)
      fun m m' h1 h2 => hn m m' (.item hx h1) (.item hy h2)
  · rename_i l1 l2
    intro h
    simp only [Yaml.hashStream]
    rw [entriesStream_congr _ h]
    exact fun k v hx k' v' hy =>
      ⟨(ih k v hx).1 k' (hka k v hx).1 (hkc k' v' hy).1 fun m m' h1 h2 => hn m m' (.key hx h1) (.key hy h2),
       (ih k v hx).2 v' (hka k v hx).2 (hkc k' v' hy).2 fun m m' h1 h2 => hn m m' (.value hx h1) (.value hy h2)⟩
  · simp only [beq_iff_eq]; rintro rfl; rfl

/-! ## Maps -/

/-- Keys for which equality and hashing agree. -/
def GoodKeys (ks : List Node) : Prop :=
  (∀ k ∈ ks, Readable k) ∧
    ∀ k ∈ ks, ∀ k' ∈ ks, Node.eqb k k' = true → k.hashStream = k'.hashStream

/-- The value of the last entry whose key equals `k`. -/
def lastOf (k : Node) : List (Node × Node) → Option Node
  | [] => none
  | e :: r => match lastOf k r with
    | some v => some v
    | none => if Node.eqb k e.1 then some e.2 else none

section
variable {h : HashCfg} {ks : List Node} (hg : GoodKeys ks)
include hg

/-- In a table with good keys a lookup is a search for an equal key. -/
theorem probe_step {k k' : Node} (hk : k ∈ ks) (hk' : k' ∈ ks) :
    Node.eq? k k' = .ok (Node.eqb k k') ∧
      (Node.eqb k k' = true → h.probe k.hashStream k'.hashStream = true) := by
  refine ⟨eq?_ok k (hg.1 k hk) k' (hg.1 k' hk'), fun hb => ?_⟩
  rw [hg.2 k hk k' hk' hb]
  exact h.probe_refl _

theorem entriesGet_good {k : Node} (hk : k ∈ ks) {m : List (Node × Node)} (hm : ∀ e ∈ m, e.1 ∈ ks) :
    entriesGet h k m = .ok ((m.find? fun e => Node.eqb k e.1).map Prod.snd) := by
  induction m with
  | nil => rfl
  | cons e r ih =>
    obtain ⟨h1, h2⟩ := probe_step (h := h) hg hk (hm e (List.mem_cons_self ..))
    have ih := ih fun x hx => hm x (List.mem_cons_of_mem _ hx)
    simp only [entriesGet, h1, List.find?_cons, ih]
    cases hb : Node.eqb k e.1 with
    | true => simp [h2 hb]
    | false => simp

/-- What insertion does to a table with good keys. -/
theorem entriesTake_good {k : Node} (hk : k ∈ ks) {m : List (Node × Node)} (hm : ∀ e ∈ m, e.1 ∈ ks) :
    entriesTake h k m = .ok ((m.find? fun e => Node.eqb k e.1).map Prod.fst,
      m.eraseP fun e => Node.eqb k e.1) := by
  induction m with
  | nil => rfl
  | cons e r ih =>
    obtain ⟨h1, h2⟩ := probe_step (h := h) hg hk (hm e (List.mem_cons_self ..))
    have ih := ih fun x hx => hm x (List.mem_cons_of_mem _ hx)
    simp only [entriesTake, h1, List.find?_cons, List.eraseP_cons, ih]
    cases hb : Node.eqb k e.1 with
    | true => simp [h2 hb]
    | false => simp [Out.map]

end

/-- Keys pairwise different. -/
def KeysDiffer (m : List (Node × Node)) : Prop :=
  m.Pairwise fun e e' => Node.eqb e.1 e'.1 = false

theorem eqb_congr_left {a c : Node} (h : Node.eqb a c = true) (d : Node) :
    Node.eqb a d = Node.eqb c d := by
  cases h1 : Node.eqb a d with
  | true => exact (eqb_trans c a d (by rw [eqb_comm]; exact h) h1).symm
  | false =>
    cases h2 : Node.eqb c d with
    | false => rfl
    | true => rw [eqb_trans a c d h h2] at h1; cases h1

theorem eqb_congr_right {a c : Node} (h : Node.eqb a c = true) (d : Node) :
    Node.eqb d a = Node.eqb d c := by
  rw [eqb_comm d a, eqb_comm d c, eqb_congr_left h]

/-- The table after an insertion. -/
def insertSpec (m : List (Node × Node)) (k v : Node) : List (Node × Node) :=
  match m.find? fun e => Node.eqb k e.1 with
  | some e => (m.eraseP fun e => Node.eqb k e.1) ++ [(e.1, v)]
  | none => m ++ [(k, v)]

theorem entriesInsert_good {h : HashCfg} {ks : List Node} (hg : GoodKeys ks) {k v : Node} (hk : k ∈ ks)
    {m : List (Node × Node)} (hm : ∀ e ∈ m, e.1 ∈ ks) :
    entriesInsert h m k v = .ok (insertSpec m k v) := by
  simp only [entriesInsert, entriesTake_good hg hk hm, Out.map, insertSpec]
  cases hf : m.find? fun e => Node.eqb k e.1 with
  | some e => rfl
  | none =>
    simp only [Option.map_none]
    rw [List.eraseP_of_forall_not]
    intro e he
    have := List.find?_eq_none.1 hf e he
    simpa using this

theorem insertSpec_keys {ks : List Node} {m : List (Node × Node)} {k v : Node} (hk : k ∈ ks)
    (hm : ∀ e ∈ m, e.1 ∈ ks) : ∀ e ∈ insertSpec m k v, e.1 ∈ ks := by
  intro e he
  simp only [insertSpec] at he
  split at he
  · rename_i e' hf
    rcases List.mem_append.1 he with h | h
    · exact hm e (List.mem_of_mem_eraseP h)
    · have : e = (e'.1, v) := by simpa using h
      subst this
      exact hm e' (List.mem_of_find?_eq_some hf)
  · rcases List.mem_append.1 he with h | h
    · exact hm e h
    · have : e = (k, v) := by simpa using h
      subst this; exact hk

theorem entriesCollect_good {h : HashCfg} {ks : List Node} (hg : GoodKeys ks)
    (l : List (Node × Node)) : ∀ acc : List (Node × Node), (∀ e ∈ acc, e.1 ∈ ks) → (∀ e ∈ l, e.1 ∈ ks) →
    entriesCollect h acc l = .ok (l.foldl (fun m e => insertSpec m e.1 e.2) acc) := by
  induction l with
  | nil => intro acc _ _; rfl
  | cons e r ih =>
    intro acc ha hl
    obtain ⟨k, v⟩ := e
    have hk : k ∈ ks := hl (k, v) (List.mem_cons_self ..)
    simp only [entriesCollect, entriesInsert_good hg hk ha, List.foldl_cons]
    exact ih _ (insertSpec_keys hk ha) fun e he => hl e (List.mem_cons_of_mem _ he)

theorem keysDiffer_insert {m : List (Node × Node)} (hm : KeysDiffer m) (k v : Node) :
    KeysDiffer (insertSpec m k v) := by
  simp only [insertSpec]
  split
  · rename_i e hf
    have he : Node.eqb k e.1 = true := by have := List.find?_some hf; exact this
    have hm' : KeysDiffer (m.eraseP fun e => Node.eqb k e.1) := hm.sublist List.eraseP_sublist
    refine List.pairwise_append.2 ⟨hm', by simp, ?_⟩
    intro a ha d hd
    have : d = (e.1, v) := by simpa using hd
    subst this
    -- `a` is another entry than `e`, which is the first equal to `k`
    induction m with
    | nil => simp at hf
    | cons x xs ih =>
      obtain ⟨hx, hxs⟩ := List.pairwise_cons.1 hm
      cases hb : Node.eqb k x.1 with
      | true =>
        simp only [List.find?_cons, hb, Option.some.injEq] at hf
        subst hf
        simp only [List.eraseP_cons, hb, cond_true] at ha
        rw [eqb_comm]; exact hx a ha
      | false =>
        simp only [List.find?_cons, hb] at hf
        simp only [List.eraseP_cons, hb, cond_false] at ha hm'
        rcases List.mem_cons.1 ha with rfl | ha
        · have : Node.eqb a.1 e.1 = Node.eqb a.1 k := (eqb_congr_right he _).symm
          rw [this, eqb_comm]; exact hb
        · exact ih hxs hf (hxs.sublist List.eraseP_sublist) ha
  · rename_i hf
    refine List.pairwise_append.2 ⟨hm, by simp, ?_⟩
    intro a ha d hd
    have : d = (k, v) := by simpa using hd
    subst this
    have := List.find?_eq_none.1 hf a ha
    rw [eqb_comm]; simpa using this

/-- Lookup after insertion. -/
theorem find_insert {m : List (Node × Node)} (hm : KeysDiffer m) (k v q : Node) :
    ((insertSpec m k v).find? fun e => Node.eqb q e.1).map Prod.snd =
      if Node.eqb q k then some v else (m.find? fun e => Node.eqb q e.1).map Prod.snd := by
  simp only [insertSpec]
  split
  · rename_i e hf
    have he : Node.eqb k e.1 = true := by have := List.find?_some hf; exact this
    rw [List.find?_append]
    cases hq : Node.eqb q k with
    | true =>
      have hnone : (m.eraseP fun e => Node.eqb k e.1).find? (fun e => Node.eqb q e.1) = none := by
        rw [List.find?_eq_none]
        intro a ha
        rw [eqb_congr_left hq]
        -- no second entry equal to `k`
        have hd := keysDiffer_insert hm k v
        simp only [insertSpec, hf] at hd
        have := (List.pairwise_append.1 hd).2.2 a ha (e.1, v) (by simp)
        rw [eqb_comm] at this
        simp only at this
        rw [← eqb_congr_left he] at this
        simp [this]
      rw [hnone]
      have : Node.eqb q e.1 = true := by rw [eqb_congr_left hq]; exact he
      simp [this]
    | false =>
      have hqe : Node.eqb q e.1 = false := by
        rw [← eqb_congr_right he]; exact hq
      have : (m.eraseP fun e => Node.eqb k e.1).find? (fun e => Node.eqb q e.1) =
          m.find? fun e => Node.eqb q e.1 := by
        clear hf he hqe hm
        induction m with
        | nil => rfl
        | cons x xs ih =>
          cases hb : Node.eqb k x.1 with
          | true =>
            have hx : Node.eqb q x.1 = false := by rw [← eqb_congr_right hb]; exact hq
            simp [List.eraseP_cons, hb, List.find?_cons, hx]
          | false =>
            simp only [List.eraseP_cons, hb, cond_false, List.find?_cons]
            rw [ih]
      rw [this]
      simp [hqe]
  · rename_i hf
    rw [List.find?_append]
    cases hq : Node.eqb q k with
    | true =>
      have hnone : m.find? (fun e => Node.eqb q e.1) = none := by
        rw [List.find?_eq_none]
        intro a ha
        rw [eqb_congr_left hq]
        exact List.find?_eq_none.1 hf a ha
      simp [hnone, hq]
    | false => simp [hq]

end YamlPeg
