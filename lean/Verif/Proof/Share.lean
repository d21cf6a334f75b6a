import Verif.Spec.Share
import Verif.Proof.NodeEq
/-! # Shared nodes behave as if every node owned its data -/

namespace YamlPeg.Share

/-! ## Counting -/

/-- The references from cells that are not freed. -/
def heapRefs (h : Heap) : List Nat := h.flatMap fun c => match c with
  | some (_, d) => d.addrs
  | none => []

/-- Counts are right, children are older than their parents. -/
structure Inv (h : Heap) (roots : List Nat) : Prop where
  count : ∀ a, strongCount h a = roots.count a + (heapRefs h).count a
  live : ∀ (a c : Nat) (d : Data), h[a]? = some (some (c, d)) → 0 < c ∧ ∀ b ∈ d.addrs, b < a

def Live (h : Heap) (a : Nat) : Prop := ∃ c d, h[a]? = some (some (c, d))

theorem live_of_count {h : Heap} {a : Nat} (hc : 0 < strongCount h a) : Live h a := by
  rw [strongCount] at hc
  split at hc
  · exact ⟨_, _, by assumption⟩
  · omega

theorem Live.lt {h : Heap} {a : Nat} (hl : Live h a) : a < h.length := by
  obtain ⟨c, d, he⟩ := hl
  exact (List.getElem?_eq_some_iff.1 he).1

theorem Inv.root {h : Heap} {roots : List Nat} (hi : Inv h roots) {a : Nat} (ha : a ∈ roots) : Live h a :=
  live_of_count (by rw [hi.count]; have := List.count_pos_iff.2 ha; omega)

theorem mem_heapRefs {h : Heap} {a c : Nat} {d : Data} (he : h[a]? = some (some (c, d))) {b : Nat} (hb : b ∈ d.addrs) :
    b ∈ heapRefs h := by
  rw [heapRefs, List.mem_flatMap]
  exact ⟨_, List.mem_of_getElem? he, hb⟩

theorem Inv.child {h : Heap} {roots : List Nat} (hi : Inv h roots) {a c : Nat} {d : Data} (he : h[a]? = some (some (c, d)))
    {b : Nat} (hb : b ∈ d.addrs) : Live h b :=
  live_of_count (by rw [hi.count]; have := List.count_pos_iff.2 (mem_heapRefs he hb); omega)

/-- The references of one cell. -/
def cellRefs : Option (Nat × Data) → List Nat
  | some (_, d) => d.addrs
  | none => []

theorem heapRefs_eq (h : Heap) : heapRefs h = h.flatMap cellRefs := by
  rw [heapRefs]; congr 1

theorem count_set (h : Heap) (a : Nat) (x y : Option (Nat × Data)) (he : h[a]? = some x) (b : Nat) :
    (heapRefs (h.set a y)).count b + (cellRefs x).count b = (heapRefs h).count b + (cellRefs y).count b := by
  simp only [heapRefs_eq]
  induction h generalizing a with
  | nil => simp at he
  | cons z h ih =>
    cases a with
    | zero =>
      simp only [List.getElem?_cons_zero, Option.some.injEq] at he
      subst he
      simp only [List.set_cons_zero, List.flatMap_cons, List.count_append]
      omega
    | succ a =>
      simp only [List.getElem?_cons_succ] at he
      have := ih a he
      simp only [List.set_cons_succ, List.flatMap_cons, List.count_append]
      omega

theorem strongCount_set {h : Heap} {a : Nat} (ha : a < h.length) (x : Option (Nat × Data)) (b : Nat) :
    strongCount (h.set a x) b = if a = b then (match x with | some (c, _) => c | none => 0) else strongCount h b := by
  simp only [strongCount, List.getElem?_set]
  by_cases hab : a = b
  · subst hab
    simp only [if_true, ha]
    cases x with
    | none => rfl
    | some x => rfl
  · simp only [hab, if_false]

/-! ## The same data -/

/-- The cells of the first heap have the same data in the second. -/
def Keeps (h h' : Heap) : Prop := ∀ (a c : Nat) (d : Data), h[a]? = some (some (c, d)) → ∃ c', h'[a]? = some (some (c', d))

theorem Keeps.refl (h : Heap) : Keeps h h := fun _ c _ he => ⟨c, he⟩

theorem Keeps.trans {h1 h2 h3 : Heap} (h : Keeps h1 h2) (h' : Keeps h2 h3) : Keeps h1 h3 := by
  intro a c d he
  obtain ⟨c', he'⟩ := h a c d he
  exact h' a c' d he'

theorem Data.value_congr {f g : Nat → Yaml} {d : Data} (h : ∀ b ∈ d.addrs, f b = g b) : d.value f = d.value g := by
  cases d with
  | seq l =>
    simp only [Data.value, Yaml.seq.injEq]
    refine List.map_congr_left fun r hr => ?_
    rw [h r.addr (by simp only [Data.addrs, Data.refs]; exact List.mem_map_of_mem hr)]
  | map l =>
    simp only [Data.value, Yaml.map.injEq]
    refine List.map_congr_left fun e he => ?_
    rw [h e.1.addr (by simp only [Data.addrs, Data.refs]; exact List.mem_map_of_mem (List.mem_flatMap.2 ⟨e, he, by simp⟩)),
      h e.2.addr (by simp only [Data.addrs, Data.refs]; exact List.mem_map_of_mem (List.mem_flatMap.2 ⟨e, he, by simp⟩))]
  | _ => rfl

theorem look_keeps {h h' : Heap} {roots : List Nat} (hi : Inv h roots) (hk : Keeps h h') (a : Nat) (hl : Live h a) :
    look h' a = look h a := by
  induction a using Nat.strongRecOn with
  | _ a ih =>
    obtain ⟨c, d, he⟩ := hl
    obtain ⟨c', he'⟩ := hk a c d he
    rw [look, look, he, he']
    simp only
    refine Data.value_congr fun b hb => ?_
    have hlt := (hi.live a c d he).2 b hb
    rw [if_pos hlt, if_pos hlt, ih b hlt (hi.child he hb)]

theorem look_live {h : Heap} {roots : List Nat} (hi : Inv h roots) {a c : Nat} {d : Data} (he : h[a]? = some (some (c, d))) :
    look h a = d.value (look h) := by
  rw [look, he]
  simp only
  refine Data.value_congr fun b hb => ?_
  rw [if_pos ((hi.live a c d he).2 b hb)]

theorem Val.value_keeps {h h' : Heap} {roots : List Nat} (hi : Inv h roots) (hk : Keeps h h') {v : Val}
    (hv : ∀ a ∈ v.addrs, Live h a) : v.value h' = v.value h := by
  cases v with
  | node r =>
    simp only [Val.value, Ref.value]
    rw [look_keeps hi hk _ (hv _ (by simp [Val.addrs]))]
  | rc a =>
    simp only [Val.value]
    rw [look_keeps hi hk _ (hv _ (by simp [Val.addrs]))]
  | data d =>
    simp only [Val.value]
    rw [Data.value_congr fun b hb => look_keeps hi hk b (hv b hb)]

/-- The counters a program holds. -/
def held (vs : List Val) : List Nat := vs.flatMap Val.addrs

theorem values_keeps {h h' : Heap} {roots : List Nat} (hi : Inv h roots) (hk : Keeps h h') {vs : List Val}
    (hv : ∀ a ∈ held vs, Live h a) : vs.map (Val.value h') = vs.map (Val.value h) := by
  refine List.map_congr_left fun v hm => Val.value_keeps hi hk fun a ha => hv a ?_
  exact List.mem_flatMap.2 ⟨v, hm, ha⟩

/-! ## The operations on the heap -/

theorem Inv.perm {h : Heap} {r r' : List Nat} (hi : Inv h r) (hp : r.Perm r') : Inv h r' :=
  ⟨fun a => by rw [hi.count, hp.count_eq], hi.live⟩

theorem incr_spec {h : Heap} {roots : List Nat} {a : Nat} (hi : Inv h roots) (hl : Live h a) :
    ∃ h', incr a h = some h' ∧ Inv h' (a :: roots) ∧ Keeps h h' := by
  obtain ⟨c, d, he⟩ := hl
  have hlt := (List.getElem?_eq_some_iff.1 he).1
  refine ⟨h.set a (some (c + 1, d)), by simp only [incr, he], ⟨fun b => ?_, fun b c' d' he' => ?_⟩, fun b c' d' he' => ?_⟩
  · have h1 := count_set h a _ (some (c + 1, d)) he b
    simp only [cellRefs] at h1
    rw [strongCount_set hlt]
    have h2 := hi.count b
    by_cases hab : a = b
    · subst hab
      simp only [if_true, List.count_cons_self]
      have : strongCount h a = c := by simp only [strongCount, he]
      omega
    · simp only [hab, if_false]
      rw [List.count_cons_of_ne hab]
      omega
  · rw [List.getElem?_set] at he'
    by_cases hab : a = b
    · subst hab
      simp only [if_true, hlt, Option.some.injEq, Prod.mk.injEq] at he'
      obtain ⟨rfl, rfl⟩ := he'
      exact ⟨by omega, (hi.live a c d he).2⟩
    · simp only [hab, if_false] at he'
      exact hi.live b c' d' he'
  · by_cases hab : a = b
    · subst hab
      rw [he] at he'
      simp only [Option.some.injEq, Prod.mk.injEq] at he'
      obtain ⟨rfl, rfl⟩ := he'
      exact ⟨c + 1, by rw [List.getElem?_set]; simp [hlt]⟩
    · exact ⟨c', by rw [List.getElem?_set]; simp [hab, he']⟩

theorem incrAll_spec : ∀ (w : List Nat) {h : Heap} {roots : List Nat}, Inv h roots → (∀ a ∈ w, Live h a) →
    ∃ h', incrAll w h = some h' ∧ Inv h' (w ++ roots) ∧ Keeps h h'
  | [], h, roots, hi, _ => ⟨h, rfl, hi, Keeps.refl h⟩
  | a :: w, h, roots, hi, hl => by
    obtain ⟨h1, e1, hi1, hk1⟩ := incr_spec hi (hl a (by simp))
    obtain ⟨h2, e2, hi2, hk2⟩ := incrAll_spec w hi1 (fun b hb => by
      obtain ⟨c, d, he⟩ := hl b (by simp [hb])
      obtain ⟨c', he'⟩ := hk1 b c d he
      exact ⟨c', d, he'⟩)
    exact ⟨h2, by rw [incrAll, e1]; exact e2, hi2.perm List.perm_middle, hk1.trans hk2⟩

theorem alloc_spec {h : Heap} {roots : List Nat} {d : Data} (hi : Inv h (d.addrs ++ roots)) :
    Inv (h ++ [some (1, d)]) (h.length :: roots) ∧ Keeps h (h ++ [some (1, d)]) := by
  have hk : Keeps h (h ++ [some (1, d)]) := by
    intro a c d' he
    have hlt := (List.getElem?_eq_some_iff.1 he).1
    exact ⟨c, by rw [List.getElem?_append_left hlt]; exact he⟩
  refine ⟨⟨fun a => ?_, fun a c d' he => ?_⟩, hk⟩
  · have h1 : heapRefs (h ++ [some (1, d)]) = heapRefs h ++ d.addrs := by simp [heapRefs]
    have h2 := hi.count a
    rw [List.count_append] at h2
    rw [h1, List.count_append]
    by_cases hlt : a < h.length
    · have h3 : strongCount (h ++ [some (1, d)]) a = strongCount h a := by
        simp only [strongCount, List.getElem?_append_left hlt]
      rw [h3, List.count_cons_of_ne (by omega)]
      omega
    · have hz : strongCount h a = 0 := by
        simp only [strongCount, List.getElem?_eq_none (Nat.le_of_not_lt hlt)]
      by_cases hae : h.length = a
      · subst hae
        have h3 : strongCount (h ++ [some (1, d)]) h.length = 1 := by
          simp only [strongCount, List.getElem?_append_right (Nat.le_refl _), Nat.sub_self, List.getElem?_cons_zero]
        rw [h3, List.count_cons_self]
        omega
      · have h3 : strongCount (h ++ [some (1, d)]) a = 0 := by
          simp only [strongCount]
          rw [List.getElem?_eq_none (by simp; omega)]
        rw [h3, List.count_cons_of_ne hae]
        omega
  · by_cases hlt : a < h.length
    · rw [List.getElem?_append_left hlt] at he
      exact hi.live a c d' he
    · rw [List.getElem?_append_right (Nat.le_of_not_lt hlt)] at he
      have : a - h.length = 0 := by
        have := (List.getElem?_eq_some_iff.1 he).1
        simpa using this
      rw [this] at he
      simp only [List.getElem?_cons_zero, Option.some.injEq, Prod.mk.injEq] at he
      obtain ⟨rfl, rfl⟩ := he
      refine ⟨by omega, fun b hb => ?_⟩
      have := (hi.root (List.mem_append_left _ hb)).lt
      omega

theorem dropAll_spec (w : List Nat) (h : Heap) (roots : List Nat) (hi : Inv h (w ++ roots)) :
    ∃ h', dropAll w h = some h' ∧ Inv h' roots ∧ Keeps h' h := by
  match w, hi with
  | [], hi => exact ⟨h, by rw [dropAll], hi, Keeps.refl h⟩
  | a :: w, hi =>
    obtain ⟨c, d, he⟩ := hi.root (a := a) (by simp)
    have hlt := (List.getElem?_eq_some_iff.1 he).1
    have hpos := (hi.live a c d he).1
    obtain ⟨c, rfl⟩ : ∃ i, c = i + 1 := ⟨c - 1, by omega⟩
    have hcount : strongCount h a = c + 1 := by simp only [strongCount, he]
    have hkeep : ∀ x : Option (Nat × Data), x = none ∨ x = some (c, d) → Keeps (h.set a x) h := by
      intro x hx b c' d' he'
      rw [List.getElem?_set] at he'
      by_cases hab : a = b
      · subst hab
        simp only [if_true, hlt, Option.some.injEq] at he'
        subst he'
        rcases hx with hx | hx
        · cases hx
        · cases hx; exact ⟨_, he⟩
      · simp only [hab, if_false] at he'
        exact ⟨c', he'⟩
    by_cases hc : c = 0
    · subst hc
      have hi1 : Inv (h.set a none) ((d.addrs ++ w) ++ roots) := by
        refine ⟨fun b => ?_, fun b c' d' he' => ?_⟩
        · have h1 := count_set h a _ none he b
          simp only [cellRefs, List.count_nil] at h1
          have h2 := hi.count b
          rw [strongCount_set hlt]
          simp only [List.cons_append, List.count_append] at h2 ⊢
          by_cases hab : a = b
          · subst hab
            simp only [if_true]
            rw [List.count_cons_self, List.count_append] at h2
            have h3 : d.addrs.count a = 0 := List.count_eq_zero.2 fun hm => by
              have := (hi.live a _ d he).2 a hm; omega
            omega
          · simp only [hab, if_false]
            rw [List.count_cons_of_ne hab, List.count_append] at h2
            omega
        · rw [List.getElem?_set] at he'
          by_cases hab : a = b
          · subst hab
            simp only [if_true, hlt, Option.some.injEq] at he'
            cases he'
          · simp only [hab, if_false] at he'
            exact hi.live b c' d' he'
      obtain ⟨h', e', hi', hk'⟩ := dropAll_spec (d.addrs ++ w) (h.set a none) roots hi1
      refine ⟨h', ?_, hi', hk'.trans (hkeep _ (.inl rfl))⟩
      rw [dropAll]
      split
      · rename_i c2 d2 h2
        rw [he] at h2
        simp only [Option.some.injEq, Prod.mk.injEq] at h2
        obtain ⟨h2, rfl⟩ := h2
        rw [if_pos (by omega)]
        exact e'
      · rename_i h2; exact absurd he (h2 _ _)
    · have hi1 : Inv (h.set a (some (c, d))) (w ++ roots) := by
        refine ⟨fun b => ?_, fun b c' d' he' => ?_⟩
        · have h1 := count_set h a _ (some (c, d)) he b
          simp only [cellRefs] at h1
          have h2 := hi.count b
          rw [strongCount_set hlt]
          simp only [List.cons_append] at h2
          by_cases hab : a = b
          · subst hab
            simp only [if_true]
            rw [List.count_cons_self] at h2
            omega
          · simp only [hab, if_false]
            rw [List.count_cons_of_ne hab] at h2
            omega
        · rw [List.getElem?_set] at he'
          by_cases hab : a = b
          · subst hab
            simp only [if_true, hlt, Option.some.injEq, Prod.mk.injEq] at he'
            obtain ⟨rfl, rfl⟩ := he'
            exact ⟨by omega, (hi.live a _ _ he).2⟩
          · simp only [hab, if_false] at he'
            exact hi.live b c' d' he'
      obtain ⟨h', e', hi', hk'⟩ := dropAll_spec w (h.set a (some (c, d))) roots hi1
      refine ⟨h', ?_, hi', hk'.trans (hkeep _ (.inr rfl))⟩
      rw [dropAll]
      split
      · rename_i c2 d2 h2
        rw [he] at h2
        simp only [Option.some.injEq, Prod.mk.injEq] at h2
        obtain ⟨h2, rfl⟩ := h2
        have : c2 = c := by omega
        subst this
        rw [if_neg hc]
        exact e'
      · rename_i h2; exact absurd he (h2 _ _)
termination_by total h
decreasing_by
  · exact total_set he _ (.inl rfl)
  · exact total_set he _ (.inr rfl)

/-! ## One operation -/

theorem held_cons (v : Val) (vs : List Val) : held (v :: vs) = v.addrs ++ held vs := rfl

theorem held_append (vs ws : List Val) : held (vs ++ ws) = held vs ++ held ws := by simp [held]

theorem held_nodes (l : List Ref) : held (l.map .node) = l.map Ref.addr := by
  induction l with
  | nil => rfl
  | cons r l ih => rw [List.map_cons, held_cons, ih]; rfl

theorem held_erase : ∀ {vs : List Val} {k : Nat} {v : Val}, vs[k]? = some v → (held vs).Perm (v.addrs ++ held (vs.eraseIdx k))
  | [], _, _, h => by simp at h
  | w :: vs, 0, v, h => by
    simp only [List.getElem?_cons_zero, Option.some.injEq] at h
    subst h
    exact List.Perm.refl _
  | w :: vs, k + 1, v, h => by
    simp only [List.getElem?_cons_succ] at h
    rw [List.eraseIdx_cons_succ, held_cons, held_cons]
    have := (held_erase h).append_left w.addrs
    refine this.trans ?_
    rw [← List.append_assoc, ← List.append_assoc]
    exact List.perm_append_comm.append_right _

theorem held_set : ∀ {vs : List Val} {k : Nat} {v : Val} (x : Val), vs[k]? = some v →
    (held (vs.set k x)).Perm (x.addrs ++ held (vs.eraseIdx k))
  | [], _, _, _, h => by simp at h
  | w :: vs, 0, v, x, _ => List.Perm.refl _
  | w :: vs, k + 1, v, x, h => by
    simp only [List.getElem?_cons_succ] at h
    rw [List.eraseIdx_cons_succ, List.set_cons_succ, held_cons, held_cons]
    have := (held_set x h).append_left w.addrs
    refine this.trans ?_
    rw [← List.append_assoc, ← List.append_assoc]
    exact List.perm_append_comm.append_right _

/-- The nodes that are taken. -/
theorem takeNodes_spec (h : Heap) : ∀ (n : Nat) (vs : List Val),
    (∃ l ws, takeNodes n vs = some (l, ws) ∧ vs = l.map .node ++ ws ∧
      atakeNodes n (vs.map (Val.value h)) = some (l.map (Ref.value h), ws.map (Val.value h))) ∨
    (takeNodes n vs = none ∧ atakeNodes n (vs.map (Val.value h)) = none)
  | 0, vs => .inl ⟨[], vs, by cases vs <;> rfl, rfl, by cases vs <;> rfl⟩
  | n + 1, [] => .inr ⟨rfl, rfl⟩
  | n + 1, .node r :: vs => by
    rcases takeNodes_spec h n vs with ⟨l, ws, h1, h2, h3⟩ | ⟨h1, h2⟩
    · refine .inl ⟨r :: l, ws, ?_, by rw [h2]; rfl, ?_⟩
      · rw [takeNodes, h1]; rfl
      · rw [List.map_cons, Val.value, atakeNodes, h3]; rfl
    · refine .inr ⟨by rw [takeNodes, h1]; rfl, ?_⟩
      rw [List.map_cons, Val.value, atakeNodes, h2]; rfl
  | n + 1, .rc _ :: _ => .inr ⟨rfl, rfl⟩
  | n + 1, .data _ :: _ => .inr ⟨rfl, rfl⟩

theorem pairUp_map (f : Ref → Node) : ∀ l : List Ref, asEntries (l.map f) = (pairUp l).map fun e => (f e.1, f e.2)
  | [] => rfl
  | [_] => rfl
  | a :: b :: l => by
    show (f a, f b) :: asEntries (l.map f) = _
    rw [pairUp_map f l]; rfl

theorem pairUp_flat {α : Type} : ∀ (n : Nat) (l : List α), l.length = 2 * n → (pairUp l).flatMap (fun e => [e.1, e.2]) = l
  | 0, [], _ => rfl
  | 0, _ :: _, h => by simp at h
  | n + 1, [], h => by simp at h
  | n + 1, [_], h => by simp at h; omega
  | n + 1, a :: b :: l, h => by
    show ([a, b] ++ (pairUp l).flatMap (fun e => [e.1, e.2])) = _
    rw [pairUp_flat n l (by simp at h; omega)]; rfl

theorem takeNodes_length : ∀ (n : Nat) (vs : List Val) {l : List Ref} {ws : List Val}, takeNodes n vs = some (l, ws) → l.length = n
  | 0, vs, l, ws, h => by
    have : takeNodes 0 vs = some ([], vs) := by cases vs <;> rfl
    rw [this] at h; cases h; rfl
  | n + 1, [], _, _, h => by cases h
  | n + 1, .node r :: vs, l, ws, h => by
    rw [takeNodes] at h
    cases hr : takeNodes n vs with
    | none => rw [hr] at h; cases h
    | some x =>
      rw [hr] at h
      cases h
      simp [takeNodes_length n vs (l := x.1) (ws := x.2) hr]
  | n + 1, .rc _ :: _, _, _, h => by cases h
  | n + 1, .data _ :: _, _, _, h => by cases h

theorem Data.value_pure (f : Nat → Yaml) (d : Data) :
    d.pure = if d.refs.isEmpty then some (d.value f) else none := by
  cases d with
  | seq l => cases l <;> rfl
  | map l => cases l <;> rfl
  | _ => rfl

theorem kids_value (h : Heap) (d : Data) : kids (d.value (look h)) = d.refs.map (Ref.value h) := by
  cases d with
  | seq l => rfl
  | map l =>
    simp only [Data.value, kids, Data.refs]
    induction l with
    | nil => rfl
    | cons e l ih => rw [List.map_cons, List.flatMap_cons, List.flatMap_cons, List.map_append, ih]; rfl
  | _ => rfl

/-- The state after the operation stands for the values after the operation. -/
def Agrees : Except Bad State → Option (List AVal) → Prop
  | .ok s, some vs => Inv s.heap (held s.vals) ∧ s.value = vs
  | .error .illTyped, none => True
  | _, _ => False

theorem value_get {s : State} {k : Nat} : s.value[k]? = (s.vals[k]?).map (Val.value s.heap) := by
  simp [State.value]

theorem map_eraseIdx {α β : Type} (f : α → β) : ∀ (l : List α) (k : Nat), (l.eraseIdx k).map f = (l.map f).eraseIdx k
  | [], _ => by simp
  | _ :: _, 0 => rfl
  | a :: l, k + 1 => by
    rw [List.map_cons, List.eraseIdx_cons_succ, List.eraseIdx_cons_succ, List.map_cons, map_eraseIdx f l k]

theorem live_mem {h : Heap} {roots : List Nat} (hi : Inv h roots) : ∀ a ∈ roots, Live h a := fun _ ha => hi.root ha

theorem step_agrees {s : State} (hi : Inv s.heap (held s.vals)) (op : Op) : Agrees (step s op) (astep s.value op) := by
  obtain ⟨h, vs⟩ := s
  simp only at hi
  cases op with
  | scalar d =>
    simp only [step, astep]
    rw [Data.value_pure (look h) d]
    split
    · rename_i hd
      refine ⟨?_, ?_⟩
      · simp only [List.isEmpty_iff] at hd
        show Inv h ((d.refs.map Ref.addr) ++ held vs)
        rw [hd]; exact hi
      · rfl
    · trivial
  | seqOf n =>
    rcases takeNodes_spec h n vs with ⟨l, ws, h1, h2, h3⟩ | ⟨h1, h2⟩
    · simp only [step, astep, State.value, h1, h3, Option.map_some]
      refine ⟨?_, ?_⟩
      · rw [h2, held_append, held_nodes] at hi
        exact hi
      · rfl
    · simp only [step, astep, State.value, h1, h2, Option.map_none]; trivial
  | mapOf n =>
    rcases takeNodes_spec h (2 * n) vs with ⟨l, ws, h1, h2, h3⟩ | ⟨h1, h2⟩
    · simp only [step, astep, State.value, h1, h3, Option.map_some]
      refine ⟨?_, ?_⟩
      · rw [h2, held_append, held_nodes] at hi
        show Inv h (((pairUp l).flatMap fun e => [e.1, e.2]).map Ref.addr ++ held ws)
        rw [pairUp_flat n l (takeNodes_length _ _ h1)]
        exact hi
      · rw [pairUp_map]; rfl
    · simp only [step, astep, State.value, h1, h2, Option.map_none]; trivial
  | unpack =>
    match vs, hi with
    | [], _ => trivial
    | .node r :: vs, _ => trivial
    | .rc a :: vs, _ => trivial
    | .data d :: vs, hi =>
      refine ⟨?_, ?_⟩
      · rw [held_append, held_nodes]; exact hi
      · show (d.refs.map Val.node ++ vs).map (Val.value h) = _
        rw [kids_value, List.map_append, List.map_map, List.map_map]; rfl
  | new pos tag =>
    match vs, hi with
    | [], _ => trivial
    | .node r :: vs, _ => trivial
    | .rc a :: vs, _ => trivial
    | .data d :: vs, hi =>
      rw [held_cons] at hi
      obtain ⟨hi', hk⟩ := alloc_spec (d := d) hi
      refine ⟨hi', ?_⟩
      show AVal.node (.mk pos tag (look (h ++ [some (1, d)]) h.length)) :: vs.map (Val.value (h ++ [some (1, d)])) =
        AVal.node (.mk pos tag (d.value (look h))) :: vs.map (Val.value h)
      rw [values_keeps hi hk fun a ha => hi.root (List.mem_append_right _ ha),
        look_live hi' (c := 1) (d := d) (by simp),
        Data.value_congr fun b hb => look_keeps hi hk b (hi.root (List.mem_append_left _ hb))]
  | newRepr pos tag =>
    match vs, hi with
    | [], _ => trivial
    | .node r :: vs, _ => trivial
    | .rc a :: vs, hi => exact ⟨hi, rfl⟩
    | .data d :: vs, hi => trivial
  | setYaml k =>
    match vs, hi with
    | [], _ => trivial
    | .node r :: vs, _ => trivial
    | .rc a :: vs, _ => trivial
    | .data d :: vs, hi =>
      have hv : (State.mk h (.data d :: vs)).value = .data (d.value (look h)) :: (State.mk h vs).value := rfl
      simp only [step, astep, hv]
      have hg := value_get (s := ⟨h, vs⟩) (k := k)
      cases hk : vs[k]? with
      | none => simp only [hk, Option.map_none] at hg; simp only [hg]; trivial
      | some v =>
        cases v with
        | rc a => simp only [hk, Option.map_some, Val.value] at hg; simp only [hg]; trivial
        | data a => simp only [hk, Option.map_some, Val.value] at hg; simp only [hg]; trivial
        | node r =>
          simp only [hk, Option.map_some, Val.value] at hg
          simp only [hg]
          rw [held_cons] at hi
          obtain ⟨hi1, hk1⟩ := alloc_spec (d := d) hi
          have hp : (h.length :: held vs).Perm ([r.addr] ++ (h.length :: held (vs.eraseIdx k))) :=
            ((held_erase hk).cons _).trans (List.Perm.swap _ _ _)
          obtain ⟨h', e', hi', hk'⟩ := dropAll_spec _ _ _ (hi1.perm hp)
          rw [e']
          have hi2 := hi'.perm (held_set (.node { r with addr := h.length }) hk).symm
          refine ⟨hi2, ?_⟩
          show (vs.set k (.node { r with addr := h.length })).map (Val.value h') = (vs.map (Val.value h)).set k _
          rw [← values_keeps hi2 hk' (live_mem hi2), List.map_set,
            values_keeps hi hk1 fun a ha => hi.root (List.mem_append_right _ ha)]
          congr 1
          show AVal.node (.mk r.pos r.tag (look (h ++ [some (1, d)]) h.length)) = _
          rw [look_live hi1 (c := 1) (d := d) (by simp),
            Data.value_congr fun b hb => look_keeps hi hk1 b (hi.root (List.mem_append_left _ hb))]
          rfl
  | setRepr k =>
    match vs, hi with
    | [], _ => trivial
    | .node r :: vs, _ => trivial
    | .data d :: vs, _ => trivial
    | .rc a :: vs, hi =>
      have hv : (State.mk h (.rc a :: vs)).value = .rc (look h a) :: (State.mk h vs).value := rfl
      simp only [step, astep, hv]
      have hg := value_get (s := ⟨h, vs⟩) (k := k)
      cases hk : vs[k]? with
      | none => simp only [hk, Option.map_none] at hg; simp only [hg]; trivial
      | some v =>
        cases v with
        | rc a => simp only [hk, Option.map_some, Val.value] at hg; simp only [hg]; trivial
        | data a => simp only [hk, Option.map_some, Val.value] at hg; simp only [hg]; trivial
        | node r =>
          simp only [hk, Option.map_some, Val.value] at hg
          simp only [hg]
          rw [held_cons] at hi
          have hp : (a :: held vs).Perm ([r.addr] ++ (a :: held (vs.eraseIdx k))) :=
            ((held_erase hk).cons _).trans (List.Perm.swap _ _ _)
          obtain ⟨h', e', hi', hk'⟩ := dropAll_spec _ _ _ (hi.perm hp)
          rw [e']
          have hi2 := hi'.perm (held_set (.node { r with addr := a }) hk).symm
          refine ⟨hi2, ?_⟩
          show (vs.set k (.node { r with addr := a })).map (Val.value h') = (vs.map (Val.value h)).set k _
          rw [← values_keeps hi2 hk' (live_mem hi2), List.map_set]
          rfl
  | clone k =>
    simp only [step, astep]
    have hg := value_get (s := ⟨h, vs⟩) (k := k)
    cases hk : vs[k]? with
    | none => simp only [hk, Option.map_none] at hg; simp only [hg]; trivial
    | some v =>
      simp only [hk, Option.map_some] at hg; simp only [hg]
      have hm : ∀ a ∈ v.addrs, Live h a := fun a ha =>
        hi.root (List.mem_flatMap.2 ⟨v, List.mem_of_getElem? hk, ha⟩)
      obtain ⟨h', e', hi', hk'⟩ := incrAll_spec v.addrs hi hm
      rw [e']
      refine ⟨hi', ?_⟩
      show v.value h' :: vs.map (Val.value h') = v.value h :: vs.map (Val.value h)
      rw [values_keeps hi hk' (live_mem hi), Val.value_keeps hi hk' hm]
  | cloneYaml k =>
    simp only [step, astep]
    have hg := value_get (s := ⟨h, vs⟩) (k := k)
    cases hk : vs[k]? with
    | none => simp only [hk, Option.map_none] at hg; simp only [hg]; trivial
    | some v =>
      simp only [hk, Option.map_some] at hg; simp only [hg]
      cases v with
      | rc a => trivial
      | data a => trivial
      | node r =>
        have hm : Live h r.addr :=
          hi.root (List.mem_flatMap.2 ⟨_, List.mem_of_getElem? hk, by simp [Val.addrs]⟩)
        obtain ⟨h', e', hi', hk'⟩ := incr_spec hi hm
        simp only [e']
        refine ⟨hi', ?_⟩
        show AVal.rc (look h' r.addr) :: vs.map (Val.value h') = .rc (look h r.addr) :: vs.map (Val.value h)
        rw [values_keeps hi hk' (live_mem hi), look_keeps hi hk' _ hm]
  | yaml k =>
    simp only [step, astep]
    have hg := value_get (s := ⟨h, vs⟩) (k := k)
    cases hk : vs[k]? with
    | none => simp only [hk, Option.map_none] at hg; simp only [hg]; trivial
    | some v =>
      simp only [hk, Option.map_some] at hg; simp only [hg]
      cases v with
      | rc a => trivial
      | data a => trivial
      | node r =>
        have hm : Live h r.addr :=
          hi.root (List.mem_flatMap.2 ⟨_, List.mem_of_getElem? hk, by simp [Val.addrs]⟩)
        obtain ⟨c, d, he⟩ := hm
        have hl : load h r.addr = some d := by simp only [load, he]
        simp only [hl]
        obtain ⟨h', e', hi', hk'⟩ := incrAll_spec d.addrs hi fun b hb => hi.child he hb
        show Agrees (do let h ← must (incrAll d.addrs h); .ok _) _
        rw [e']
        refine ⟨hi', ?_⟩
        show AVal.data (d.value (look h')) :: vs.map (Val.value h') = .data (look h r.addr) :: vs.map (Val.value h)
        rw [values_keeps hi hk' (live_mem hi), look_live hi he,
          Data.value_congr fun b hb => look_keeps hi hk' b (hi.child he hb)]
  | drop k =>
    simp only [step, astep]
    have hg := value_get (s := ⟨h, vs⟩) (k := k)
    cases hk : vs[k]? with
    | none => simp only [hk, Option.map_none] at hg; simp only [hg]; trivial
    | some v =>
      simp only [hk, Option.map_some] at hg; simp only [hg]
      obtain ⟨h', e', hi', hk'⟩ := dropAll_spec _ _ _ (hi.perm (held_erase hk))
      rw [e']
      refine ⟨hi', ?_⟩
      show (vs.eraseIdx k).map (Val.value h') = (vs.map (Val.value h)).eraseIdx k
      rw [← values_keeps hi' hk' (live_mem hi'), map_eraseIdx]
  | pick k =>
    simp only [step, astep]
    have hg := value_get (s := ⟨h, vs⟩) (k := k)
    cases hk : vs[k]? with
    | none => simp only [hk, Option.map_none] at hg; simp only [hg]; trivial
    | some v =>
      simp only [hk, Option.map_some] at hg; simp only [hg]
      refine ⟨hi.perm (held_erase hk), ?_⟩
      show v.value h :: (vs.eraseIdx k).map (Val.value h) = v.value h :: (vs.map (Val.value h)).eraseIdx k
      rw [map_eraseIdx]

theorem run_agrees : ∀ (ops : List Op) {s : State}, Inv s.heap (held s.vals) → Agrees (run s ops) (arun s.value ops)
  | [], s, hi => ⟨hi, rfl⟩
  | op :: ops, s, hi => by
    have h1 := step_agrees hi op
    rw [run, arun]
    cases hs : step s op with
    | error e =>
      cases ha : astep s.value op with
      | none => rw [hs, ha] at h1; exact h1
      | some vs => rw [hs, ha] at h1; cases e <;> exact h1.elim
    | ok s' =>
      cases ha : astep s.value op with
      | none => rw [hs, ha] at h1; exact h1.elim
      | some vs =>
        rw [hs, ha] at h1
        have := run_agrees ops h1.1
        rw [h1.2] at this
        exact this

theorem inv_init : Inv State.init.heap (held State.init.vals) :=
  ⟨fun a => by simp [State.init, strongCount, held, heapRefs], fun a c d he => by simp [State.init] at he⟩

/-! ## Nothing is lost -/

/-- Reached from the counters `roots` through child nodes. -/
inductive Reach (h : Heap) (roots : List Nat) : Nat → Prop
  | root {a : Nat} : a ∈ roots → Reach h roots a
  | child {a b c : Nat} {d : Data} : Reach h roots a → h[a]? = some (some (c, d)) → b ∈ d.addrs → Reach h roots b

theorem Inv.reach {h : Heap} {roots : List Nat} (hi : Inv h roots) (a : Nat) : Live h a ↔ Reach h roots a := by
  constructor
  · intro hl
    have key : ∀ (n a : Nat), h.length - a ≤ n → Live h a → Reach h roots a := by
      intro n
      induction n with
      | zero => intro a hn hl; have := hl.lt; omega
      | succ n ih =>
        intro a hn hl
        obtain ⟨c, d, he⟩ := hl
        have hc := (hi.live a c d he).1
        have h2 := hi.count a
        have h3 : strongCount h a = c := by simp only [strongCount, he]
        by_cases hr : a ∈ roots
        · exact .root hr
        · have h4 : roots.count a = 0 := List.count_eq_zero.2 hr
          have h5 : a ∈ heapRefs h := List.count_pos_iff.1 (by omega)
          rw [heapRefs_eq, List.mem_flatMap] at h5
          obtain ⟨x, hx, ha⟩ := h5
          cases x with
          | none => cases ha
          | some x =>
            obtain ⟨c', d'⟩ := x
            obtain ⟨b, hb⟩ := List.getElem?_of_mem hx
            have hlt := (hi.live b c' d' hb).2 a ha
            have hbl := (List.getElem?_eq_some_iff.1 hb).1
            exact .child (ih b (by omega) ⟨c', d', hb⟩) hb ha
    exact key _ a (Nat.le_refl _) hl
  · intro hr
    induction hr with
    | root h => exact hi.root h
    | child _ he hb _ => exact hi.child he hb

/-! ## Equality -/

theorem andThen_ok {x y : Out Bool} {r : Bool} (h : x.andThen y = .ok r) :
    (x = .ok true ∧ y = .ok r) ∨ (x = .ok false ∧ r = false) := by
  cases x with
  | ok b => cases b with
    | true => exact .inl ⟨rfl, h⟩
    | false => cases h; exact .inr ⟨rfl, rfl⟩
  | err _ => cases h
  | panic _ => cases h
  | diverge => cases h

theorem eq_self_true (n : Node) : ∀ r, Node.eq? n n = .ok r → r = true := by
  refine Node.induct (P := fun n => ∀ r, Node.eq? n n = .ok r → r = true) ?_ n
  intro pos tag y hk r h
  rw [Node.eq?] at h
  cases y with
  | null => simp only [Yaml.eq?, Out.ok.injEq] at h; exact h.symm
  | bool v => simp only [Yaml.eq?, Out.ok.injEq, beq_self_eq_true] at h; exact h.symm
  | str v => simp only [Yaml.eq?, Out.ok.injEq, beq_self_eq_true] at h; exact h.symm
  | alias v => simp only [Yaml.eq?, Out.ok.injEq, beq_self_eq_true] at h; exact h.symm
  | int s =>
    simp only [Yaml.eq?, intEq?] at h
    cases hs : toI64 s with
    | none => rw [hs] at h; cases h
    | some i => rw [hs] at h; simp only [Out.ok.injEq, beq_self_eq_true] at h; exact h.symm
  | float s =>
    have := eqb_refl (Node.mk pos tag (.float s))
    cases hs : toF64 s with
    | none => simp only [Yaml.eq?, floatEq?, hs] at h; cases h
    | some i =>
      have hr : Readable (.mk pos tag (.float s)) := everywhere_mk.2 ⟨by simp only [ReadableHere, Node.yaml, hs, Option.isSome_some], trivial⟩
      have h2 := eq?_ok _ hr _ hr
      rw [eqb_refl, Node.eq?, h] at h2
      cases h2; rfl
  | seq l =>
    simp only [Yaml.eq?, if_true] at h
    clear pos tag
    induction l with
    | nil => cases h; rfl
    | cons x l ih =>
      rw [nodesEq?] at h
      rcases andThen_ok h with ⟨_, h2⟩ | ⟨h1, rfl⟩
      · exact ih (fun x hx => hk x (List.mem_cons_of_mem _ hx)) h2
      · exact hk x (by simp) _ h1
  | map l =>
    simp only [Yaml.eq?, if_true] at h
    clear pos tag
    induction l with
    | nil => cases h; rfl
    | cons x l ih =>
      obtain ⟨k, v⟩ := x
      rw [entriesEq?] at h
      rcases andThen_ok h with ⟨_, h2⟩ | ⟨h1, rfl⟩
      · exact ih (fun x y hx => hk x y (List.mem_cons_of_mem _ hx)) h2
      · rw [entryEq?] at h1
        rcases andThen_ok h1 with ⟨_, h2⟩ | ⟨h1, _⟩
        · exact (hk k v (by simp)).2 _ h2
        · exact (hk k v (by simp)).1 _ h1

theorem andThen_ok_true (y : Out Bool) : (Out.ok true).andThen y = y := rfl
theorem andThen_ok_false (y : Out Bool) : (Out.ok false).andThen y = .ok false := rfl

theorem refsEq_ok {f : Nat → Nat → Out Bool} {v w : Nat → Yaml} : ∀ (l m : List Ref)
    (_ : ∀ x ∈ l, ∀ y ∈ m, ∀ r, Yaml.eq? (v x.addr) (w y.addr) = .ok r → f x.addr y.addr = .ok r) (r : Bool),
    nodesEq? (l.map fun r => .mk r.pos r.tag (v r.addr)) (m.map fun r => .mk r.pos r.tag (w r.addr)) = .ok r →
    refsEq? f l m = .ok r
  | [], [], _, r, h => h
  | [], _ :: _, _, r, h => h
  | _ :: _, [], _, r, h => h
  | x :: l, y :: m, hf, r, h => by
    simp only [List.map_cons, nodesEq?] at h
    rw [Node.eq?] at h
    rw [refsEq?]
    rcases andThen_ok h with ⟨h1, h2⟩ | ⟨h1, rfl⟩
    · rw [hf x (by simp) y (by simp) _ h1, andThen_ok_true]
      exact refsEq_ok l m (fun a ha c hc => hf a (by simp [ha]) c (by simp [hc])) r h2
    · rw [hf x (by simp) y (by simp) _ h1]; rfl

theorem pairsEq_ok {f : Nat → Nat → Out Bool} {v w : Nat → Yaml} : ∀ (l m : List (Ref × Ref))
    (_ : ∀ x ∈ l.flatMap (fun e => [e.1, e.2]), ∀ y ∈ m.flatMap (fun e => [e.1, e.2]), ∀ r,
      Yaml.eq? (v x.addr) (w y.addr) = .ok r → f x.addr y.addr = .ok r) (r : Bool),
    entriesEq? (l.map fun e => (.mk e.1.pos e.1.tag (v e.1.addr), .mk e.2.pos e.2.tag (v e.2.addr)))
      (m.map fun e => (.mk e.1.pos e.1.tag (w e.1.addr), .mk e.2.pos e.2.tag (w e.2.addr))) = .ok r →
    pairsEq? f l m = .ok r
  | [], [], _, r, h => h
  | [], _ :: _, _, r, h => h
  | _ :: _, [], _, r, h => h
  | x :: l, y :: m, hf, r, h => by
    simp only [List.map_cons, entriesEq?, entryEq?] at h
    rw [Node.eq?, Node.eq?] at h
    rw [pairsEq?]
    have hr : ∀ a ∈ l.flatMap (fun e => [e.1, e.2]), ∀ c ∈ m.flatMap (fun e => [e.1, e.2]), ∀ r,
        Yaml.eq? (v a.addr) (w c.addr) = .ok r → f a.addr c.addr = .ok r :=
      fun a ha c hc => hf a (by rw [List.flatMap_cons]; exact List.mem_append_right _ ha) c
        (by rw [List.flatMap_cons]; exact List.mem_append_right _ hc)
    have h1' := hf x.1 (by simp) y.1 (by simp)
    have h2' := hf x.2 (by simp) y.2 (by simp)
    rcases andThen_ok h with ⟨h1, h2⟩ | ⟨h1, rfl⟩
    · rcases andThen_ok h1 with ⟨h3, h4⟩ | ⟨_, h4⟩
      · rw [h1' _ h3, h2' _ h4]
        exact pairsEq_ok l m hr r h2
      · cases h4
    · rcases andThen_ok h1 with ⟨h3, h4⟩ | ⟨h3, _⟩
      · rw [h1' _ h3, h2' _ h4]; rfl
      · rw [h1' _ h3]; rfl

theorem data_eq_ok {f : Nat → Nat → Out Bool} {v w : Nat → Yaml} (d e : Data)
    (hf : ∀ x ∈ d.addrs, ∀ y ∈ e.addrs, ∀ r, Yaml.eq? (v x) (w y) = .ok r → f x y = .ok r) (r : Bool)
    (h : Yaml.eq? (d.value v) (e.value w) = .ok r) : d.eq? f e = .ok r := by
  cases d <;> cases e <;> try exact h
  case seq.seq l m =>
    simp only [Data.value, Yaml.eq?, List.length_map] at h
    rw [Data.eq?]
    split at h
    · rename_i hl
      rw [if_pos hl]
      exact refsEq_ok l m (fun x hx y hy => hf _ (List.mem_map_of_mem hx) _ (List.mem_map_of_mem hy)) r h
    · rename_i hl; rw [if_neg hl]; exact h
  case map.map l m =>
    simp only [Data.value, Yaml.eq?, List.length_map] at h
    rw [Data.eq?]
    split at h
    · rename_i hl
      rw [if_pos hl]
      exact pairsEq_ok l m (fun x hx y hy => hf _ (List.mem_map_of_mem hx) _ (List.mem_map_of_mem hy)) r h
    · rename_i hl; rw [if_neg hl]; exact h

theorem addrEq_ok {h : Heap} {roots : List Nat} (hi : Inv h roots) : ∀ (a c : Nat), Live h a → Live h c → ∀ r,
    Yaml.eq? (look h a) (look h c) = .ok r → addrEq? h a c = .ok r := by
  intro a
  induction a using Nat.strongRecOn with
  | _ a ih =>
    intro c ha hc r he
    rw [addrEq?]
    by_cases hac : a = c
    · subst hac
      rw [if_pos rfl]
      rw [eq_self_true (.mk 0 [] (look h a)) r (by rw [Node.eq?]; exact he)]
    · rw [if_neg hac]
      obtain ⟨n, d, hd⟩ := ha
      obtain ⟨m, e, he'⟩ := hc
      rw [hd, he']
      rw [look_live hi hd, look_live hi he'] at he
      refine data_eq_ok d e (fun x hx y hy r h => ?_) r he
      have hlt := (hi.live a n d hd).2 x hx
      rw [if_pos hlt]
      exact ih x hlt y (hi.child hd hx) (hi.child he' hy) r h

end YamlPeg.Share
