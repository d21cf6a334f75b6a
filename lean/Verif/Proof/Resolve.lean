import Verif.Spec.Resolve
import Verif.Proof.Sim
/-!
# `parse` is `parse_cyclic` with its aliases resolved

Both runs side by side.  The world is the table of the document as `parse_cyclic` has it; it only grows.
-/

namespace YamlPeg
open M

/-! ## Nodes -/

/-- Comparing panics at unreadable numbers only. -/
def PanNum {α : Type} : Out α → Prop
  | .panic p => p = .intUnwrap ∨ p = .floatUnwrap
  | _ => True

theorem PanNum.andThen {x y : Out Bool} (hx : PanNum x) (hy : PanNum y) : PanNum (x.andThen y) := by
  cases x with
  | ok b => cases b
            · trivial
            · exact hy
  | _ => exact hx

theorem PanNum.map {α β : Type} {f : α → β} {x : Out α} (h : PanNum x) : PanNum (x.map f) := by
  cases x <;> first | trivial | exact h

theorem intEq?_panNum (s t : Bytes) : PanNum (intEq? s t) := by
  unfold intEq?; split
  · exact .inl rfl
  · split
    · exact .inl rfl
    · trivial

theorem floatEq?_panNum (s t : Bytes) : PanNum (floatEq? s t) := by
  unfold floatEq?; split
  · exact .inr rfl
  · split
    · exact .inr rfl
    · trivial

mutual
theorem nodeEq?_panNum : ∀ a c : Node, PanNum (Node.eq? a c)
  | .mk _ _ y1, .mk _ _ y2 => yamlEq?_panNum y1 y2
theorem yamlEq?_panNum : ∀ a c : Yaml, PanNum (Yaml.eq? a c)
  | .null, c => by cases c <;> trivial
  | .bool _, c => by cases c <;> trivial
  | .int s, c => by cases c <;> first | trivial | exact intEq?_panNum _ _
  | .float s, c => by cases c <;> first | trivial | exact floatEq?_panNum _ _
  | .str _, c => by cases c <;> trivial
  | .alias _, c => by cases c <;> trivial
  | .seq l, c => by
    cases c <;> try trivial
    rename_i l2
    show PanNum (if l.length = l2.length then nodesEq? l l2 else .ok false)
    split
    · exact nodesEq?_panNum l l2
    · trivial
  | .map l, c => by
    cases c <;> try trivial
    rename_i l2
    show PanNum (if l.length = l2.length then entriesEq? l l2 else .ok false)
    split
    · exact entriesEq?_panNum l l2
    · trivial
theorem nodesEq?_panNum : ∀ a c : List Node, PanNum (nodesEq? a c)
  | [], c => by cases c <;> trivial
  | x :: xs, c => by
    cases c with
    | nil => trivial
    | cons y ys => exact (nodeEq?_panNum x y).andThen (nodesEq?_panNum xs ys)
theorem entriesEq?_panNum : ∀ a c : List (Node × Node), PanNum (entriesEq? a c)
  | [], c => by cases c <;> trivial
  | x :: xs, c => by
    cases c with
    | nil => trivial
    | cons y ys => exact (entryEq?_panNum x y).andThen (entriesEq?_panNum xs ys)
theorem entryEq?_panNum : ∀ a c : Node × Node, PanNum (entryEq? a c)
  | (k1, v1), (k2, v2) => (nodeEq?_panNum k1 k2).andThen (nodeEq?_panNum v1 v2)
end

theorem entriesTake_panNum (h : HashCfg) (k : Node) (m : List (Node × Node)) : PanNum (entriesTake h k m) := by
  induction m with
  | nil => trivial
  | cons e r ih =>
    simp only [entriesTake]
    split
    · have := nodeEq?_panNum k e.1
      cases hq : Node.eq? k e.1 with
      | ok b => cases b
                · exact ih.map
                · trivial
      | panic p => rw [hq] at this; exact this
      | err x => trivial
      | diverge => trivial
    · exact ih.map

theorem entriesCollect_panNum (h : HashCfg) (acc m : List (Node × Node)) : PanNum (entriesCollect h acc m) := by
  induction m generalizing acc with
  | nil => trivial
  | cons e r ih =>
    obtain ⟨k, v⟩ := e
    simp only [entriesCollect]
    have : PanNum (entriesInsert h acc k v) := (entriesTake_panNum h k acc).map
    cases hq : entriesInsert h acc k v with
    | ok b => exact ih b
    | panic p => rw [hq] at this; exact this
    | err x => trivial
    | diverge => trivial

theorem Out.andThen_true {x y : Out Bool} (h : x.andThen y = .ok true) : x = .ok true ∧ y = .ok true := by
  cases x with
  | ok b => cases b
            · simp [Out.andThen] at h
            · exact ⟨rfl, h⟩
  | _ => simp [Out.andThen] at h

theorem HasAlias.item {p : Nat} {t : Bytes} {l : List Node} {x : Node} (hx : x ∈ l) (h : HasAlias x) : HasAlias (.mk p t (.seq l)) :=
  h.of_occurs (.item hx .self)
theorem HasAlias.key {p : Nat} {t : Bytes} {l : List (Node × Node)} {k v : Node} (hx : (k, v) ∈ l) (h : HasAlias k) : HasAlias (.mk p t (.map l)) :=
  h.of_occurs (.key hx .self)
theorem HasAlias.value {p : Nat} {t : Bytes} {l : List (Node × Node)} {k v : Node} (hx : (k, v) ∈ l) (h : HasAlias v) : HasAlias (.mk p t (.map l)) :=
  h.of_occurs (.value hx .self)

mutual
/-- Equal nodes: the one has an alias only if the other has one. -/
theorem eq?_alias : ∀ a c : Node, Node.eq? a c = .ok true → HasAlias a → HasAlias c
  | .mk p t y1, .mk p' t' y2, h, ha => yamlEq?_alias y1 y2 p t p' t' h ha
theorem yamlEq?_alias : ∀ (a c : Yaml) (p : Nat) (t : Bytes) (p' : Nat) (t' : Bytes), Yaml.eq? a c = .ok true → HasAlias (.mk p t a) → HasAlias (.mk p' t' c)
  | .null, _, _, _, _, _, _, ha => (not_hasAlias_leaf (by simp) (by simp) (by simp) ha).elim
  | .bool _, _, _, _, _, _, _, ha => (not_hasAlias_leaf (by simp) (by simp) (by simp) ha).elim
  | .int _, _, _, _, _, _, _, ha => (not_hasAlias_leaf (by simp) (by simp) (by simp) ha).elim
  | .float _, _, _, _, _, _, _, ha => (not_hasAlias_leaf (by simp) (by simp) (by simp) ha).elim
  | .str _, _, _, _, _, _, _, ha => (not_hasAlias_leaf (by simp) (by simp) (by simp) ha).elim
  | .alias a, c, p, t, p', t', h, _ => by
    cases c with
    | alias b => exact ⟨_, b, .self, rfl⟩
    | _ => cases h
  | .seq l, c, p, t, p', t', h, ha => by
    cases c with
    | seq l2 =>
      have h : (if l.length = l2.length then nodesEq? l l2 else .ok false) = .ok true := h
      split at h
      · obtain ⟨x, hx, hxa⟩ := hasAlias_seq ha
        obtain ⟨y, hy, hya⟩ := nodesEq?_alias l l2 h x hx hxa
        exact .item hy hya
      · cases h
    | _ => cases h
  | .map l, c, p, t, p', t', h, ha => by
    cases c with
    | map l2 =>
      have h : (if l.length = l2.length then entriesEq? l l2 else .ok false) = .ok true := h
      split at h
      · obtain ⟨k, v, hx, hxa⟩ := hasAlias_map ha
        obtain ⟨e, hy, hya⟩ := entriesEq?_alias l l2 h (k, v) hx hxa
        rcases hya with hya | hya
        · exact .key hy hya
        · exact .value hy hya
      · cases h
    | _ => cases h
theorem nodesEq?_alias : ∀ a c : List Node, nodesEq? a c = .ok true → ∀ x ∈ a, HasAlias x → ∃ y ∈ c, HasAlias y
  | [], _, _, _, hx, _ => by cases hx
  | z :: zs, c, h, x, hx, ha => by
    cases c with
    | nil => cases h
    | cons y ys =>
      obtain ⟨h1, h2⟩ := Out.andThen_true h
      rcases List.mem_cons.1 hx with e | e
      · exact ⟨y, by simp, eq?_alias z y h1 (e ▸ ha)⟩
      · obtain ⟨w, hw, hwa⟩ := nodesEq?_alias zs ys h2 x e ha
        exact ⟨w, by simp [hw], hwa⟩
theorem entriesEq?_alias : ∀ a c : List (Node × Node), entriesEq? a c = .ok true → ∀ e ∈ a, HasAlias e.1 ∨ HasAlias e.2 →
    ∃ e' ∈ c, HasAlias e'.1 ∨ HasAlias e'.2
  | [], _, _, _, hx, _ => by cases hx
  | z :: zs, c, h, x, hx, ha => by
    cases c with
    | nil => cases h
    | cons y ys =>
      obtain ⟨h1, h2⟩ := Out.andThen_true h
      rcases List.mem_cons.1 hx with e | e
      · exact ⟨y, by simp, entryEq?_alias z y h1 (e ▸ ha)⟩
      · obtain ⟨w, hw, hwa⟩ := entriesEq?_alias zs ys h2 x e ha
        exact ⟨w, by simp [hw], hwa⟩
theorem entryEq?_alias : ∀ a c : Node × Node, entryEq? a c = .ok true → HasAlias a.1 ∨ HasAlias a.2 → HasAlias c.1 ∨ HasAlias c.2
  | (k1, v1), (k2, v2), h, ha => by
    obtain ⟨h1, h2⟩ := Out.andThen_true (x := Node.eq? k1 k2) (y := Node.eq? v1 v2) h
    rcases ha with ha | ha
    · exact .inl (eq?_alias k1 k2 h1 ha)
    · exact .inr (eq?_alias v1 v2 h2 ha)
end

/-- A key with an alias. -/
def KeyAlias (m : List (Node × Node)) : Prop := ∃ e ∈ m, HasAlias e.1

theorem entriesTake_alias {h : HashCfg} {k : Node} : ∀ {m : List (Node × Node)} {o : Option Node} {r : List (Node × Node)},
    entriesTake h k m = .ok (o, r) → (KeyAlias m → KeyAlias r ∨ ∃ k', o = some k' ∧ HasAlias k') ∧
      (HasAlias k → ∀ k', o = some k' → HasAlias k')
  | [], o, r, e => by
    simp only [entriesTake, Out.ok.injEq, Prod.mk.injEq] at e
    obtain ⟨rfl, rfl⟩ := e
    exact ⟨.inl, by simp⟩
  | d :: s, o, r, e => by
    have next : (entriesTake h k s).map (fun (x, r') => (x, d :: r')) = .ok (o, r) →
        (KeyAlias (d :: s) → KeyAlias r ∨ ∃ k', o = some k' ∧ HasAlias k') ∧ (HasAlias k → ∀ k', o = some k' → HasAlias k') := by
      intro e
      cases hq : entriesTake h k s with
      | ok q =>
        obtain ⟨o', r'⟩ := q
        rw [hq] at e
        simp only [Out.map, Out.ok.injEq, Prod.mk.injEq] at e
        obtain ⟨rfl, rfl⟩ := e
        obtain ⟨h1, h2⟩ := entriesTake_alias hq
        refine ⟨?_, h2⟩
        rintro ⟨x, hx, hxa⟩
        rcases List.mem_cons.1 hx with rfl | hx
        · exact .inl ⟨x, by simp, hxa⟩
        · rcases h1 ⟨x, hx, hxa⟩ with ⟨y, hy, hya⟩ | h1
          · exact .inl ⟨y, by simp [hy], hya⟩
          · exact .inr h1
      | _ => rw [hq] at e; simp [Out.map] at e
    simp only [entriesTake] at e
    split at e
    · cases hq : Node.eq? k d.1 with
      | ok b =>
        rw [hq] at e
        cases b
        · exact next e
        · simp only [Out.ok.injEq, Prod.mk.injEq] at e
          obtain ⟨rfl, rfl⟩ := e
          refine ⟨?_, ?_⟩
          · rintro ⟨x, hx, hxa⟩
            rcases List.mem_cons.1 hx with rfl | hx
            · exact .inr ⟨_, rfl, hxa⟩
            · exact .inl ⟨x, hx, hxa⟩
          · rintro ha k' ⟨⟩
            exact eq?_alias _ _ hq ha
      | _ => rw [hq] at e; simp at e
    · exact next e

theorem entriesInsert_alias {h : HashCfg} {m r : List (Node × Node)} {k v : Node} (e : entriesInsert h m k v = .ok r)
    (ha : KeyAlias m ∨ HasAlias k) : KeyAlias r := by
  unfold entriesInsert at e
  cases hq : entriesTake h k m with
  | ok q =>
    obtain ⟨o, s⟩ := q
    rw [hq] at e
    obtain ⟨h1, h2⟩ := entriesTake_alias hq
    cases o with
    | none =>
      simp only [Out.map, Out.ok.injEq] at e
      subst e
      rcases ha with ha | ha
      · rcases h1 ha with ⟨y, hy, hya⟩ | ⟨_, e, _⟩
        · exact ⟨y, by simp [hy], hya⟩
        · cases e
      · exact ⟨(k, v), by simp, ha⟩
    | some k' =>
      simp only [Out.map, Out.ok.injEq] at e
      subst e
      rcases ha with ha | ha
      · rcases h1 ha with ⟨y, hy, hya⟩ | ⟨_, e, hya⟩
        · exact ⟨y, by simp [hy], hya⟩
        · cases e; exact ⟨(k', v), by simp, hya⟩
      · exact ⟨(k', v), by simp, h2 ha k' rfl⟩
  | _ => rw [hq] at e; simp [Out.map] at e

theorem entriesCollect_alias {h : HashCfg} : ∀ {m acc r : List (Node × Node)}, entriesCollect h acc m = .ok r →
    KeyAlias acc ∨ KeyAlias m → KeyAlias r
  | [], acc, r, e, ha => by
    simp only [entriesCollect, Out.ok.injEq] at e
    subst e
    rcases ha with ha | ⟨_, hx, _⟩
    · exact ha
    · cases hx
  | (k, v) :: s, acc, r, e, ha => by
    simp only [entriesCollect] at e
    cases hq : entriesInsert h acc k v with
    | ok q =>
      rw [hq] at e
      refine entriesCollect_alias e ?_
      rcases ha with ha | ⟨x, hx, hxa⟩
      · exact .inl (entriesInsert_alias hq (.inl ha))
      · rcases List.mem_cons.1 hx with rfl | hx
        · exact .inl (entriesInsert_alias hq (.inr hxa))
        · exact .inr ⟨x, hx, hxa⟩
    | _ => rw [hq] at e; simp at e

/-! ## Collecting, with equal keys -/

/-- Pair by pair. -/
inductive Pairs {α β : Type} (A : α → β → Prop) : List α → List β → Prop
  | nil : Pairs A [] []
  | cons {a b l m} : A a b → Pairs A l m → Pairs A (a :: l) (b :: m)

namespace Pairs
variable {α β : Type} {A B : α → β → Prop}
theorem snoc {l : List α} {m : List β} {a : α} {b : β} (h : Pairs A l m) (hab : A a b) : Pairs A (l ++ [a]) (m ++ [b]) := by
  induction h with
  | nil => exact .cons hab .nil
  | cons h _ ih => exact .cons h ih
theorem mono {l : List α} {m : List β} (h : Pairs A l m) (hAB : ∀ a b, A a b → B a b) : Pairs B l m := by
  induction h with
  | nil => exact .nil
  | cons h _ ih => exact .cons (hAB _ _ h) ih
theorem mono_mem {l : List α} {m : List β} (h : Pairs A l m) (hAB : ∀ a b, b ∈ m → A a b → B a b) : Pairs B l m := by
  induction h with
  | nil => exact .nil
  | cons h _ ih => exact .cons (hAB _ _ (by simp) h) (ih fun a b hb => hAB a b (by simp [hb]))
theorem empty {l : List α} {m : List β} (h : Pairs A l m) : l.isEmpty = m.isEmpty := by cases h <;> rfl
theorem length {l : List α} {m : List β} (h : Pairs A l m) : l.length = m.length := by
  induction h with
  | nil => rfl
  | cons _ _ ih => simp [ih]
end Pairs

/-- The same key, related values. -/
def SameKey (V : Node → Node → Prop) (e e' : Node × Node) : Prop := e.1 = e'.1 ∧ V e.2 e'.2

theorem entriesTake_same {h : HashCfg} {k : Node} {V : Node → Node → Prop} {m m' : List (Node × Node)} (hm : Pairs (SameKey V) m m') :
    (∃ o r r', entriesTake h k m = .ok (o, r) ∧ entriesTake h k m' = .ok (o, r') ∧ Pairs (SameKey V) r r') ∨
    (∃ p, entriesTake h k m = .panic p ∧ entriesTake h k m' = .panic p) := by
  induction hm with
  | nil => exact .inl ⟨none, [], [], rfl, rfl, .nil⟩
  | @cons e e' s s' he hs ih =>
    obtain ⟨k1, v1⟩ := e
    obtain ⟨k2, v2⟩ := e'
    obtain ⟨rfl, hv⟩ := he
    have next : (∃ o r r', (entriesTake h k s).map (fun (x, r') => (x, (k1, v1) :: r')) = .ok (o, r) ∧
          (entriesTake h k s').map (fun (x, r') => (x, (k1, v2) :: r')) = .ok (o, r') ∧ Pairs (SameKey V) r r') ∨
        (∃ p, (entriesTake h k s).map (fun (x, r') => (x, (k1, v1) :: r')) = .panic p ∧
          (entriesTake h k s').map (fun (x, r') => (x, (k1, v2) :: r')) = .panic p) := by
      rcases ih with ⟨o, r, r', h1, h2, h3⟩ | ⟨p, h1, h2⟩
      · exact .inl ⟨o, (k1, v1) :: r, (k1, v2) :: r', by rw [h1]; rfl, by rw [h2]; rfl, .cons ⟨rfl, hv⟩ h3⟩
      · exact .inr ⟨p, by rw [h1]; rfl, by rw [h2]; rfl⟩
    simp only [entriesTake]
    split
    · have := nodeEq?_settled k k1
      cases hq : Node.eq? k k1 with
      | ok b =>
        cases b
        · exact next
        · exact .inl ⟨some k1, s, s', rfl, rfl, hs⟩
      | panic p => exact .inr ⟨p, rfl, rfl⟩
      | err x => rw [hq] at this; exact this.elim
      | diverge => rw [hq] at this; exact this.elim
    · exact next

theorem entriesCollect_same {h : HashCfg} {V : Node → Node → Prop} {m m' : List (Node × Node)} (hm : Pairs (SameKey V) m m') :
    ∀ {acc acc' : List (Node × Node)}, Pairs (SameKey V) acc acc' →
    (∃ r r', entriesCollect h acc m = .ok r ∧ entriesCollect h acc' m' = .ok r' ∧ Pairs (SameKey V) r r') ∨
    (∃ p, entriesCollect h acc m = .panic p ∧ entriesCollect h acc' m' = .panic p) := by
  induction hm with
  | nil => exact fun ha => .inl ⟨_, _, rfl, rfl, ha⟩
  | @cons e e' s s' he hs ih =>
    intro acc acc' ha
    obtain ⟨k, v⟩ := e
    obtain ⟨k2, v'⟩ := e'
    obtain ⟨rfl, hv⟩ := he
    simp only [entriesCollect, entriesInsert]
    rcases entriesTake_same (h := h) (k := k) ha with ⟨o, r, r', h1, h2, h3⟩ | ⟨p, h1, h2⟩
    · rw [h1, h2]
      cases o with
      | none => exact ih (h3.snoc ⟨rfl, hv⟩)
      | some k' => exact ih (h3.snoc ⟨rfl, hv⟩)
    · rw [h1, h2]; exact .inr ⟨p, rfl, rfl⟩

/-! ## Resolving -/

mutual
theorem Resolved.noAlias {T : Anchors} : ∀ {n' n : Node}, Resolved T n' n → ¬ HasAlias n' → n = n'
  | .mk _ _ _, _, .mk h, ha => by rw [ResolvedYaml.noAlias h ha]
theorem ResolvedYaml.noAlias {T : Anchors} {p : Nat} {t : Bytes} : ∀ {y' y : Yaml}, ResolvedYaml T y' y → ¬ HasAlias (.mk p t y') → y = y'
  | _, _, .null, _ => rfl
  | _, _, .bool _, _ => rfl
  | _, _, .int _, _ => rfl
  | _, _, .float _, _ => rfl
  | _, _, .str _, _ => rfl
  | _, _, .seq h, ha => by rw [ResolvedItems.noAlias h fun x hx hxa => ha (.item hx hxa)]
  | _, _, .map h, ha => by
    rw [ResolvedEntries.noAlias h fun e hx => ⟨fun hxa => ha (.key (v := e.2) hx hxa), fun hxa => ha (.value (k := e.1) hx hxa)⟩]
  | _, _, .alias _ _, ha => (ha ⟨_, _, .self, rfl⟩).elim
theorem ResolvedItems.noAlias {T : Anchors} : ∀ {l' l : List Node}, ResolvedItems T l' l → (∀ x ∈ l', ¬ HasAlias x) → l = l'
  | _, _, .nil, _ => rfl
  | _, _, .cons h hr, ha => by rw [Resolved.noAlias h (ha _ (by simp)), ResolvedItems.noAlias hr fun x hx => ha x (by simp [hx])]
theorem ResolvedEntries.noAlias {T : Anchors} : ∀ {l' l : List (Node × Node)}, ResolvedEntries T l' l →
    (∀ e ∈ l', ¬ HasAlias e.1 ∧ ¬ HasAlias e.2) → l = l'
  | _, _, .nil, _ => rfl
  | _, _, .cons (k' := k') (v' := v') h hv hr, ha => by
    rw [Resolved.noAlias h (ha (k', v') (by simp)).1, Resolved.noAlias hv (ha (k', v') (by simp)).2,
      ResolvedEntries.noAlias hr fun x hx => ha x (by simp [hx])]
end

theorem Resolved.items {w : Anchors} {l l' : List Node} (h : Pairs (fun n n' => Resolved w n' n) l l') : ResolvedItems w l' l := by
  induction h with
  | nil => exact .nil
  | cons h _ ih => exact .cons h ih

theorem Resolved.entries {w : Anchors} {l l' : List (Node × Node)} (h : Pairs (fun e e' => Resolved w e'.1 e.1 ∧ Resolved w e'.2 e.2) l l') :
    ResolvedEntries w l' l := by
  induction h with
  | nil => exact .nil
  | cons h _ ih => exact .cons h.1 h.2 ih

theorem Pairs.same {α : Type} {A : α → α → Prop} : ∀ {l : List α}, (∀ x ∈ l, A x x) → Pairs A l l
  | [], _ => .nil
  | x :: r, h => .cons (h x (by simp)) (Pairs.same fun y hy => h y (by simp [hy]))

/-- A node without aliases is resolved. -/
theorem Resolved.refl {T : Anchors} (n : Node) : ¬ HasAlias n → Resolved T n n := by
  refine Node.induct (P := fun n => ¬ HasAlias n → Resolved T n n) (fun p t y hk ha => .mk ?_) n
  cases y with
  | null => exact .null
  | bool v => exact .bool v
  | int s => exact .int s
  | float s => exact .float s
  | str s => exact .str s
  | alias a => exact (ha ⟨_, a, .self, rfl⟩).elim
  | seq l => exact .seq (Resolved.items (Pairs.same fun x hx => hk x hx fun h => ha (.item hx h)))
  | map l => exact .map (Resolved.entries (Pairs.same fun e he => ⟨(hk e.1 e.2 he).1 fun h => ha (.key (v := e.2) he h),
      (hk e.1 e.2 he).2 fun h => ha (.value (k := e.1) he h)⟩))

mutual
theorem Resolved.mono {T U : Anchors} (hT : ∀ a m, mapGet a T = some m → mapGet a U = some m) : ∀ {n' n : Node}, Resolved T n' n → Resolved U n' n
  | _, _, .mk h => .mk (ResolvedYaml.mono hT h)
theorem ResolvedYaml.mono {T U : Anchors} (hT : ∀ a m, mapGet a T = some m → mapGet a U = some m) : ∀ {y' y : Yaml}, ResolvedYaml T y' y → ResolvedYaml U y' y
  | _, _, .null => .null
  | _, _, .bool _ => .bool _
  | _, _, .int _ => .int _
  | _, _, .float _ => .float _
  | _, _, .str _ => .str _
  | _, _, .seq h => .seq (ResolvedItems.mono hT h)
  | _, _, .map h => .map (ResolvedEntries.mono hT h)
  | _, _, .alias e h => .alias (hT _ _ e) (ResolvedYaml.mono hT h)
theorem ResolvedItems.mono {T U : Anchors} (hT : ∀ a m, mapGet a T = some m → mapGet a U = some m) : ∀ {l' l : List Node}, ResolvedItems T l' l → ResolvedItems U l' l
  | _, _, .nil => .nil
  | _, _, .cons h hr => .cons (Resolved.mono hT h) (ResolvedItems.mono hT hr)
theorem ResolvedEntries.mono {T U : Anchors} (hT : ∀ a m, mapGet a T = some m → mapGet a U = some m) : ∀ {l' l : List (Node × Node)}, ResolvedEntries T l' l → ResolvedEntries U l' l
  | _, _, .nil => .nil
  | _, _, .cons h hv hr => .cons (Resolved.mono hT h) (Resolved.mono hT hv) (ResolvedEntries.mono hT hr)
end

mutual
/-- There is one resolved form. -/
theorem Resolved.unique {T : Anchors} : ∀ {n' n m : Node}, Resolved T n' n → Resolved T n' m → n = m
  | _, _, _, .mk h, .mk h' => by rw [ResolvedYaml.unique h h']
termination_by structural _ _ _ h => h
theorem ResolvedYaml.unique {T : Anchors} : ∀ {y' y z : Yaml}, ResolvedYaml T y' y → ResolvedYaml T y' z → y = z
  | _, _, _, .null, .null => rfl
  | _, _, _, .bool _, .bool _ => rfl
  | _, _, _, .int _, .int _ => rfl
  | _, _, _, .float _, .float _ => rfl
  | _, _, _, .str _, .str _ => rfl
  | _, _, _, .seq h, .seq h' => by rw [ResolvedItems.unique h h']
  | _, _, _, .map h, .map h' => by rw [ResolvedEntries.unique h h']
  | _, _, _, .alias e h, .alias e' h' => by
    have e2 := e.symm.trans e'
    simp only [Option.some.injEq, Node.mk.injEq] at e2
    exact ResolvedYaml.unique h (by rw [e2.2.2]; exact h')
termination_by structural _ _ _ h => h
theorem ResolvedItems.unique {T : Anchors} : ∀ {l' l m : List Node}, ResolvedItems T l' l → ResolvedItems T l' m → l = m
  | _, _, _, .nil, .nil => rfl
  | _, _, _, .cons h hr, .cons h' hr' => by rw [Resolved.unique h h', ResolvedItems.unique hr hr']
termination_by structural _ _ _ h => h
theorem ResolvedEntries.unique {T : Anchors} : ∀ {l' l m : List (Node × Node)}, ResolvedEntries T l' l → ResolvedEntries T l' m → l = m
  | _, _, _, .nil, .nil => rfl
  | _, _, _, .cons h hv hr, .cons h' hv' hr' => by rw [Resolved.unique h h', Resolved.unique hv hv', ResolvedEntries.unique hr hr']
termination_by structural _ _ _ h => h
end

theorem AliasKey.of_occurs {m n : Node} (ho : Occurs m n) (h : AliasKey m) : AliasKey n := by
  obtain ⟨x, es, k, v, h1, h2⟩ := h
  exact ⟨x, es, k, v, h1.trans ho, h2⟩

theorem AliasKey.hasAlias {n : Node} (h : AliasKey n) : HasAlias n := by
  obtain ⟨⟨p, t, y⟩, es, k, v, h1, h2, h3, h4⟩ := h
  cases h2
  exact (HasAlias.key h3 h4).of_occurs h1

theorem AliasKey.mk {p p' : Nat} {t t' : Bytes} {y : Yaml} (h : AliasKey (.mk p t y)) : AliasKey (.mk p' t' y) := by
  obtain ⟨x, es, k, v, h1, h2, h3, h4⟩ := h
  cases h1 with
  | self => exact ⟨.mk p' t' y, es, k, v, .self, h2, h3, h4⟩
  | item hx ho => exact ⟨x, es, k, v, .item hx ho, h2, h3, h4⟩
  | key hx ho => exact ⟨x, es, k, v, .key hx ho, h2, h3, h4⟩
  | value hx ho => exact ⟨x, es, k, v, .value hx ho, h2, h3, h4⟩

/-- Kept bindings. -/
def TabLe (T U : Anchors) : Prop := ∀ a m, mapGet a T = some m → mapGet a U = some m

/-- Nodes of the two runs: `n` of `parse`, `n'` of `parse_cyclic`. -/
def NRes (w : Anchors) (n n' : Node) : Prop := TableAliasKey w ∨ AliasKey n' ∨ Resolved w n' n

/-- Data of the two runs. -/
def YRes (w : Anchors) (y y' : Yaml) : Prop := ∀ p t, NRes w (.mk p t y) (.mk p t y')

theorem TableAliasKey.mono {T U : Anchors} (hT : TabLe T U) (h : TableAliasKey T) : TableAliasKey U := by
  obtain ⟨a, m, h1, h2⟩ := h
  exact ⟨a, m, hT a m h1, h2⟩

theorem NRes.mono {T U : Anchors} (hT : TabLe T U) {n n' : Node} (h : NRes T n n') : NRes U n n' :=
  h.imp (TableAliasKey.mono hT) (.imp id (Resolved.mono hT))

theorem YRes.mono {T U : Anchors} (hT : TabLe T U) {n n' : Yaml} (h : YRes T n n') : YRes U n n' :=
  fun p t => (h p t).mono hT

theorem NRes.yaml {w : Anchors} : ∀ {n n' : Node}, NRes w n n' → YRes w n.yaml n'.yaml
  | .mk _ _ _, .mk _ _ _, h => fun p t => h.imp id (.imp .mk fun | .mk h => .mk h)

theorem YRes.leaf {w : Anchors} {y : Yaml} (h : ResolvedYaml w y y) : YRes w y y := fun _ _ => .inr (.inr (.mk h))

theorem YRes.null {w : Anchors} : YRes w .null .null := .leaf .null
theorem YRes.str {w : Anchors} (s : Bytes) : YRes w (.str s) (.str s) := .leaf (.str s)

theorem YRes.seq {w : Anchors} {l l' : List Node} (h : Pairs (NRes w) l l') : YRes w (.seq l) (.seq l') := by
  intro p t
  by_cases h1 : TableAliasKey w
  · exact .inl h1
  by_cases h2 : AliasKey (.mk p t (.seq l'))
  · exact .inr (.inl h2)
  refine .inr (.inr (.mk (.seq (Resolved.items (h.mono_mem fun a b hb hab => ?_)))))
  rcases hab with hab | hab | hab
  · exact (h1 hab).elim
  · exact (h2 (hab.of_occurs (.item hb .self))).elim
  · exact hab

/-- Entries of the two runs. -/
def ERes (w : Anchors) (e e' : Node × Node) : Prop := NRes w e.1 e'.1 ∧ NRes w e.2 e'.2

theorem YRes.map {w : Anchors} {l l' : List (Node × Node)} (h : Pairs (ERes w) l l') : YRes w (.map l) (.map l') := by
  intro p t
  by_cases h1 : TableAliasKey w
  · exact .inl h1
  by_cases h2 : AliasKey (.mk p t (.map l'))
  · exact .inr (.inl h2)
  refine .inr (.inr (.mk (.map (Resolved.entries (h.mono_mem fun a b hb hab => ?_)))))
  constructor
  · rcases hab.1 with hab | hab | hab
    · exact (h1 hab).elim
    · exact (h2 (hab.of_occurs (.key (v := b.2) hb .self))).elim
    · exact hab
  · rcases hab.2 with hab | hab | hab
    · exact (h1 hab).elim
    · exact (h2 (hab.of_occurs (.value (k := b.1) hb .self))).elim
    · exact hab

/-- The data of two maps. -/
theorem collect_res {h : HashCfg} {w : Anchors} {m m' : List (Node × Node)} (hm : Pairs (ERes w) m m') :
    (∃ r r', entriesCollect h [] m = .ok r ∧ entriesCollect h [] m' = .ok r' ∧ YRes w (.map r) (.map r')) ∨
    (∃ p, (p = .intUnwrap ∨ p = .floatUnwrap) ∧ (entriesCollect h [] m = .panic p ∨ entriesCollect h [] m' = .panic p)) := by
  have s1 := entriesCollect_settled h [] m
  have s2 := entriesCollect_settled h [] m'
  have p1 := entriesCollect_panNum h [] m
  have p2 := entriesCollect_panNum h [] m'
  by_cases hs : TableAliasKey w ∨ KeyAlias m'
  · cases h1 : entriesCollect h [] m with
    | ok r =>
      cases h2 : entriesCollect h [] m' with
      | ok r' =>
        refine .inl ⟨r, r', rfl, rfl, fun p t => ?_⟩
        rcases hs with hs | hs
        · exact .inl hs
        · obtain ⟨⟨k, v⟩, he, hk⟩ := entriesCollect_alias h2 (.inr hs)
          exact .inr (.inl ⟨_, r', k, v, .self, rfl, he, hk⟩)
      | panic p => rw [h2] at p2; exact .inr ⟨p, p2, .inr rfl⟩
      | err e => rw [h2] at s2; exact s2.elim
      | diverge => rw [h2] at s2; exact s2.elim
    | panic p => rw [h1] at p1; exact .inr ⟨p, p1, .inl rfl⟩
    | err e => rw [h1] at s1; exact s1.elim
    | diverge => rw [h1] at s1; exact s1.elim
  · have hk : Pairs (SameKey (NRes w)) m m' := hm.mono_mem fun e e' he hr => by
      refine ⟨?_, hr.2⟩
      have ha : ¬ HasAlias e'.1 := fun ha => hs (.inr ⟨e', he, ha⟩)
      rcases hr.1 with h1 | h1 | h1
      · exact (hs (.inl h1)).elim
      · exact (ha h1.hasAlias).elim
      · exact h1.noAlias ha
    rcases entriesCollect_same (h := h) hk .nil with ⟨r, r', h1, h2, h3⟩ | ⟨p, h1, h2⟩
    · refine .inl ⟨r, r', h1, h2, ?_⟩
      intro p t
      by_cases hb : AliasKey (.mk p t (.map r'))
      · exact .inr (.inl hb)
      refine YRes.map (h3.mono_mem fun e e' he hr => ⟨?_, hr.2⟩) p t
      rw [hr.1]
      exact .inr (.inr (Resolved.refl _ fun ha => hb ⟨_, r', e'.1, e'.2, .self, rfl, he, ha⟩))
    · rw [h1] at p1
      exact .inr ⟨p, p1, .inl h1⟩

/-! ## Two runs -/

/-- Where the two runs may part: an undefined name, or a number that cannot be read. -/
def Parted {α β : Type} (x : Out α) (y : Out β) : Prop :=
  (∃ m, x = .err (.terminate "anchor referenced before definition" m)) ∨ x = .panic .unreachable ∨
  ∃ p, (p = .intUnwrap ∨ p = .floatUnwrap) ∧ (x = .panic p ∨ y = .panic p)

theorem Parted.map {α β γ δ : Type} {f : α → γ} {g : β → δ} {x : Out α} {y : Out β} (h : Parted x y) : Parted (x.map f) (y.map g) := by
  rcases h with ⟨m, rfl⟩ | rfl | ⟨p, hp, rfl | rfl⟩
  · exact .inl ⟨m, rfl⟩
  · exact .inr (.inl rfl)
  · exact .inr (.inr ⟨p, hp, .inl rfl⟩)
  · exact .inr (.inr ⟨p, hp, .inr rfl⟩)

/-- States of two runs, in a growing world. -/
structure Wd (W : Type) where
  le : W → W → Prop
  refl : ∀ w, le w w
  trans : ∀ {a b c}, le a b → le b c → le a c
  R : W → Loader → Loader → Prop
  par : ∀ {w l l'}, R w l l' → l.parser = l'.parser
  set : ∀ {w l l'} (p : Parser), R w l l' → R w { l with parser := p } { l' with parser := p }

section
variable {W α β γ δ : Type} (Z : Wd W)

/-- Two results with their states. -/
def Together (w : W) (A : W → α → β → Prop) : Out α × Loader → Out β × Loader → Prop
  | (.ok a, l), (.ok b, l') => ∃ v, Z.le w v ∧ Z.R v l l' ∧ A v a b
  | (.err .mismatch, l), (.err .mismatch, l') => ∃ v, Z.le w v ∧ Z.R v l l'
  | (.err (.terminate n m), _), (.err (.terminate n' m'), _) => n = n' ∧ m = m'
  | (.panic p, _), (.panic q, _) => p = q
  | (.diverge, _), (.diverge, _) => True
  | _, _ => False

/-- Two runs that stay together or part. -/
def Ksim (w : W) (A : W → α → β → Prop) (x : LM α) (y : LM β) : Prop :=
  ∀ l l', Z.R w l l' → Parted (x l).1 (y l').1 ∨ Together Z w A (x l) (y l')

variable {Z} {w : W} {A : W → α → β → Prop} {B : W → γ → δ → Prop}

theorem Together.step {v : W} (hv : Z.le w v) : ∀ {r : Out α × Loader} {r' : Out β × Loader}, Together Z v A r r' → Together Z w A r r'
  | (.ok _, _), (.ok _, _), ⟨u, h1, h2⟩ => ⟨u, Z.trans hv h1, h2⟩
  | (.err .mismatch, _), (.err .mismatch, _), ⟨u, h1, h2⟩ => ⟨u, Z.trans hv h1, h2⟩
  | (.err (.terminate _ _), _), (.err (.terminate _ _), _), h => h
  | (.err .mismatch, _), (.err (.terminate _ _), _), h => h
  | (.err (.terminate _ _), _), (.err .mismatch, _), h => h
  | (.panic _, _), (.panic _, _), h => h
  | (.diverge, _), (.diverge, _), h => h
  | (.ok _, _), (.err _, _), h | (.ok _, _), (.panic _, _), h | (.ok _, _), (.diverge, _), h => h.elim
  | (.err e, _), (.ok _, _), h | (.err e, _), (.panic _, _), h | (.err e, _), (.diverge, _), h => by cases e <;> exact h.elim
  | (.panic _, _), (.ok _, _), h | (.panic _, _), (.err _, _), h | (.panic _, _), (.diverge, _), h => h.elim
  | (.diverge, _), (.ok _, _), h | (.diverge, _), (.err _, _), h | (.diverge, _), (.panic _, _), h => h.elim

namespace Ksim

theorem bind {x : LM α} {y : LM β} {f : α → LM γ} {g : β → LM δ} (h : Ksim Z w A x y)
    (hf : ∀ v, Z.le w v → ∀ a b, A v a b → Ksim Z v B (f a) (g b)) : Ksim Z w B (x >>= f) (y >>= g) := by
  intro l l' hR
  have := h l l' hR
  rw [bind_run, bind_run]
  rcases hx : x l with ⟨r, t⟩
  rcases hy : y l' with ⟨r', t'⟩
  rw [hx, hy] at this
  rcases this with this | this
  · left
    rcases this with ⟨m, rfl⟩ | rfl | ⟨p, hp, rfl | rfl⟩
    · exact .inl ⟨m, rfl⟩
    · exact .inr (.inl rfl)
    · exact .inr (.inr ⟨p, hp, .inl rfl⟩)
    · exact .inr (.inr ⟨p, hp, .inr rfl⟩)
  · rcases r with a | (_ | ⟨n, m⟩) | p | _ <;> rcases r' with a' | (_ | ⟨n', m'⟩) | p' | _ <;>
      first | exact this.elim | exact .inr this | skip
    obtain ⟨v, hv, hR', hA⟩ := this
    exact (hf v hv _ _ hA _ _ hR').imp id (.step hv)

theorem orElse {x x' : LM α} {y y' : LM β} (h : Ksim Z w A x y) (h' : ∀ v, Z.le w v → Ksim Z v A x' y') :
    Ksim Z w A (orElseMismatch x x') (orElseMismatch y y') := by
  intro l l' hR
  have := h l l' hR
  unfold orElseMismatch
  rcases hx : x l with ⟨r, t⟩
  rcases hy : y l' with ⟨r', t'⟩
  rw [hx, hy] at this
  rcases this with this | this
  · left
    rcases this with ⟨m, rfl⟩ | rfl | ⟨p, hp, rfl | rfl⟩
    · exact .inl ⟨m, rfl⟩
    · exact .inr (.inl rfl)
    · exact .inr (.inr ⟨p, hp, .inl rfl⟩)
    · exact .inr (.inr ⟨p, hp, .inr rfl⟩)
  · rcases r with a | (_ | ⟨n, m⟩) | p | _ <;> rcases r' with a' | (_ | ⟨n', m'⟩) | p' | _ <;>
      first | exact this.elim | exact .inr this | skip
    obtain ⟨v, hv, hR'⟩ := this
    exact (h' v hv _ _ hR').imp id (.step hv)

theorem pure {a : α} {b : β} (h : A w a b) : Ksim Z w A (Pure.pure a) (Pure.pure b) :=
  fun _ _ hR => .inr ⟨w, Z.refl w, hR, h⟩

theorem diverge : Ksim Z w A M.diverge M.diverge := fun _ _ _ => .inr trivial

theorem ite {c : Prop} [Decidable c] {x x' : LM α} {y y' : LM β} (h : Ksim Z w A x y) (h' : Ksim Z w A x' y') :
    Ksim Z w A (if c then x else x') (if c then y else y') := by
  split
  · exact h
  · exact h'

/-- What works on the parser alone does the same in both runs. -/
theorem lift (x : PM α) : Ksim Z w (fun _ => Eq) (YamlPeg.lift x) (YamlPeg.lift x) := by
  intro l l' hR
  right
  unfold YamlPeg.lift
  rw [Z.par hR]
  rcases x l'.parser with ⟨r, t⟩
  have := Z.set t hR
  cases r with
  | ok a => exact ⟨w, Z.refl w, this, rfl⟩
  | err e =>
    cases e with
    | mismatch => exact ⟨w, Z.refl w, this⟩
    | terminate n m => exact ⟨rfl, rfl⟩
  | panic p => exact rfl
  | diverge => trivial

/-- Going on with the same value. -/
theorem bindEq {x y : LM α} {f : α → LM γ} {g : α → LM δ} (h : Ksim Z w (fun _ => Eq) x y)
    (hf : ∀ v, Z.le w v → ∀ a, Ksim Z v B (f a) (g a)) : Ksim Z w B (x >>= f) (y >>= g) :=
  h.bind fun v hv a b hab => by have hab : a = b := hab; subst hab; exact hf v hv a

/-- The parser moves on, then … -/
theorem then_ {x : PM α} {f : α → LM γ} {g : α → LM δ} (hf : ∀ a, Ksim Z w B (f a) (g a)) :
    Ksim Z w B (YamlPeg.lift x >>= f) (YamlPeg.lift x >>= g) := by
  intro l l' hR
  rw [bind_run, bind_run]
  unfold YamlPeg.lift
  rw [Z.par hR]
  rcases x l'.parser with ⟨r, t⟩
  have := Z.set t hR
  cases r with
  | ok a => exact hf a _ _ this
  | err e =>
    cases e with
    | mismatch => exact .inr ⟨w, Z.refl w, this⟩
    | terminate n m => exact .inr ⟨rfl, rfl⟩
  | panic p => exact .inr rfl
  | diverge => exact .inr trivial

theorem lift_isOk (x : PM α) : (M.isOk (YamlPeg.lift x) : LM Bool) = YamlPeg.lift (M.isOk x) := by
  funext l
  unfold M.isOk YamlPeg.lift
  simp only
  rcases x l.parser with ⟨r, t⟩
  cases r <;> rfl

theorem isOkThen {x : PM α} {f : Bool → LM γ} {g : Bool → LM δ} (hf : ∀ a, Ksim Z w B (f a) (g a)) :
    Ksim Z w B (M.isOk (YamlPeg.lift x) >>= f) (M.isOk (YamlPeg.lift x) >>= g) := by
  rw [lift_isOk]; exact then_ hf

theorem tryThen {x : PM α} {f : Option α → LM γ} {g : Option α → LM δ} (hf : ∀ a, Ksim Z w B (f a) (g a)) :
    Ksim Z w B (M.try? (YamlPeg.lift x) >>= f) (M.try? (YamlPeg.lift x) >>= g) := by
  rw [lift_try]; exact then_ hf

theorem lerr (nm : String) : Ksim Z w A (YamlPeg.lerr nm) (YamlPeg.lerr nm) := by
  intro l l' hR
  right
  unfold YamlPeg.lerr YamlPeg.lift errAt
  rw [Z.par hR]
  cases indicatedMsg l'.parser.doc l'.parser.indicator with
  | some m => exact ⟨rfl, rfl⟩
  | none => exact rfl

theorem orErr {x : LM α} {y : LM β} (h : Ksim Z w A x y) (nm : String) : Ksim Z w A (YamlPeg.orErr x nm) (YamlPeg.orErr y nm) :=
  h.orElse fun _ _ => lerr nm

end Ksim
end

/-! ## Inside a document -/

/-- The tables of a document: the same names, and values of the two runs. -/
def TabRes (X Y : Anchors) : Prop := ∀ a, match mapGet a X, mapGet a Y with
  | some n, some n' => NRes Y n n'
  | none, none => True
  | _, _ => False

/-- The two loaders inside a document; `F` are the finished tables. -/
structure InDoc (F : List Anchors) (w : Anchors) (l l' : Loader) : Prop where
  parser : l.parser = l'.parser
  hash : l.hash = l'.hash
  plain : l.cyclicMode = false
  cyclic : l'.cyclicMode = true
  ind : l.docInd = F.length
  ind' : l'.docInd = F.length
  tables' : l'.anchors = F ++ [w]
  tables : ∃ G X, l.anchors = G ++ [X] ∧ G.length = F.length ∧ TabRes X w

/-- The world inside a document. -/
def docWd (F : List Anchors) : Wd Anchors where
  le := TabLe
  refl _ _ _ h := h
  trans h1 h2 a m h := h2 a m (h1 a m h)
  R := InDoc F
  par h := h.parser
  set p h := ⟨rfl, h.hash, h.plain, h.cyclic, h.ind, h.ind', h.tables', h.tables⟩

section
variable {F : List Anchors} {w : Anchors}

theorem collectMap_res {m m' : List (Node × Node)} (h : Pairs (ERes w) m m') : Ksim (docWd F) w YRes (collectMap m) (collectMap m') := by
  intro l l' hR
  unfold collectMap
  rw [show l.hash = l'.hash from hR.hash]
  rcases collect_res (h := l'.hash) h with ⟨r, r', h1, h2, h3⟩ | ⟨p, hp, h1 | h1⟩
  · rw [h1, h2]
    exact .inr ⟨w, (docWd F).refl w, hR, h3⟩
  · rw [h1]
    exact .inl (.inr (.inr ⟨p, hp, .inl rfl⟩))
  · rw [h1]
    exact .inl (.inr (.inr ⟨p, hp, .inr rfl⟩))

theorem useAlias_res (s : Bytes) : Ksim (docWd F) w YRes (useAlias s) (useAlias s) := by
  intro l l' hR
  obtain ⟨G, X, hG, hl, hX⟩ := hR.tables
  have hy : useAlias s l' = (.ok (.alias s), l') := by
    unfold useAlias
    rw [bind_run]
    change (if l'.cyclicMode then (Pure.pure (Yaml.alias s) : LM Yaml) else _) l' = _
    rw [if_pos hR.cyclic]
    rfl
  have hc : curAnchors l = (.ok X, l) := by
    unfold curAnchors
    rw [hG, hR.ind, ← hl]
    simp
  have hx : useAlias s l = (match mapGet s X with
      | some node => Pure.pure node.yaml
      | none => YamlPeg.lerr "anchor referenced before definition" : LM Yaml) l := by
    unfold useAlias
    rw [bind_run]
    change (if l.cyclicMode then (Pure.pure (Yaml.alias s) : LM Yaml) else _) l = _
    rw [if_neg (by rw [hR.plain]; simp), bind_run, hc]
    rfl
  rw [hx, hy]
  have := hX s
  cases h1 : mapGet s X with
  | none =>
    left
    simp only
    unfold YamlPeg.lerr YamlPeg.lift errAt
    cases indicatedMsg l.parser.doc l.parser.indicator with
    | some m => exact .inl ⟨m, rfl⟩
    | none => exact .inr (.inl rfl)
  | some n =>
    rw [h1] at this
    cases h2 : mapGet s w with
    | none => rw [h2] at this; exact this.elim
    | some n' =>
      rw [h2] at this
      refine .inr ⟨w, (docWd F).refl w, hR, fun p t => ?_⟩
      rcases this with h | h | h
      · exact .inl h
      · exact .inl ⟨s, n', h2, h⟩
      · obtain ⟨p', t', y'⟩ := n'
        cases h with
        | mk h => exact .inr (.inr (.mk (.alias h2 h)))

theorem TabRes.insert {X : Anchors} {a : Bytes} {n n' : Node} (hX : TabRes X w) (hle : TabLe w (mapInsert a n' w)) (hn : NRes w n n') :
    TabRes (mapInsert a n X) (mapInsert a n' w) := by
  intro b
  rw [mapGet_mapInsert, mapGet_mapInsert]
  by_cases hb : b = a
  · rw [if_pos hb, if_pos hb]
    exact hn.mono hle
  · rw [if_neg hb, if_neg hb]
    have := hX b
    revert this
    cases mapGet b X <;> cases mapGet b w <;> intro this <;> first | exact this.elim | trivial | exact NRes.mono hle this

/-- Naming a node. -/
theorem naming_res {a : Bytes} {n n' : Node} (hn : NRes w n n') (nm : String) :
    Ksim (docWd F) w NRes (anchorInsert a n >>= fun b => if b then YamlPeg.lerr nm else Pure.pure n)
      (anchorInsert a n' >>= fun b => if b then YamlPeg.lerr nm else Pure.pure n') := by
  intro l l' hR
  obtain ⟨G, X, hG, hl, hX⟩ := hR.tables
  have hc : curAnchors l = (.ok X, l) := by
    unfold curAnchors
    rw [hG, hR.ind, ← hl]
    simp
  have hc' : curAnchors l' = (.ok w, l') := by
    unfold curAnchors
    rw [hR.tables', hR.ind']
    simp
  have hi : anchorInsert a n l = (.ok (mapGet a X).isSome, { l with anchors := G ++ [mapInsert a n X] }) := by
    unfold anchorInsert
    rw [bind_run, hc]
    change (Out.ok _, { l with anchors := l.anchors.set l.docInd (mapInsert a n X) }) = _
    rw [hG, hR.ind, ← hl]
    simp
  have hi' : anchorInsert a n' l' = (.ok (mapGet a w).isSome, { l' with anchors := F ++ [mapInsert a n' w] }) := by
    unfold anchorInsert
    rw [bind_run, hc']
    change (Out.ok _, { l' with anchors := l'.anchors.set l'.docInd (mapInsert a n' w) }) = _
    rw [hR.tables', hR.ind']
    simp
  rw [bind_run, bind_run, hi, hi']
  simp only
  have hs : (mapGet a X).isSome = (mapGet a w).isSome := by
    have := hX a
    revert this
    cases mapGet a X <;> cases mapGet a w <;> intro this <;> first | exact this.elim | rfl
  rw [hs]
  cases hg : mapGet a w with
  | some m =>
    right
    simp only [Option.isSome, if_true]
    unfold YamlPeg.lerr YamlPeg.lift errAt
    simp only
    rw [show l.parser = l'.parser from hR.parser]
    cases indicatedMsg l'.parser.doc l'.parser.indicator with
    | some m => exact ⟨rfl, rfl⟩
    | none => exact rfl
  | none =>
    have hle : TabLe w (mapInsert a n' w) := by
      intro b m hb
      rw [mapGet_mapInsert]
      by_cases h : b = a
      · subst h; rw [hg] at hb; cases hb
      · rw [if_neg h]; exact hb
    refine .inr ⟨mapInsert a n' w, hle, ?_, hn.mono hle⟩
    exact ⟨hR.parser, hR.hash, hR.plain, hR.cyclic, hR.ind, hR.ind', rfl, _, _, rfl, hl, hX.insert hle hn⟩

theorem nodeProps_res : Ksim (docWd F) w (fun _ => Eq) nodeProps nodeProps := by
  have he : ∃ x : PM (Bytes × Bytes), nodeProps = YamlPeg.lift x := by
    refine ⟨do
      let a ← orDefault [] anchor
      runIf (!a.isEmpty) bound
      forward
      let t ← orDefault [] tag
      runIf (!t.isEmpty) bound
      forward
      let a2 ← orDefault [] anchor
      let a ← (do
        if !a2.isEmpty then
          if a.isEmpty then do
            bound
            Pure.pure a2
          else errAt "duplicated anchor definition"
        else Pure.pure a)
      forward
      Pure.pure (a, t), ?_⟩
    have hr : ∀ (c : Bool) (x : PM Unit), (YamlPeg.lift (runIf c x) : LM Unit) = runIf c (YamlPeg.lift x) := by
      intro c x; cases c <;> rfl
    unfold nodeProps YamlPeg.lerr
    simp only [lift_bind, hr]
    congr 1; funext a
    congr 1; funext _
    congr 1; funext _
    congr 1; funext t
    congr 1; funext _
    congr 1; funext _
    congr 1; funext a2
    congr 1
    cases a2.isEmpty <;> cases a.isEmpty <;> simp only [lift_bind, Bool.not_true, Bool.not_false, if_true, if_false, Bool.false_eq_true] <;> rfl
  obtain ⟨x, hx⟩ := he
  rw [hx]
  exact .lift x

theorem scalarNode_res {f g : LM Yaml} (h : ∀ v, TabLe w v → Ksim (docWd F) v YRes f g) : Ksim (docWd F) w NRes (scalarNode f) (scalarNode g) := by
  unfold scalarNode
  refine .bindEq nodeProps_res fun v hv p => ?_
  rcases p with ⟨a, t⟩
  simp only
  refine .bind (A := fun _ l l' => l.parser = l'.parser) (fun l l' hR => .inr ⟨v, (docWd F).refl v, hR, hR.parser⟩) fun z hz l l' hl => ?_
  rw [hl]
  refine .bind (h z ((docWd F).trans hv hz)) fun u hu y y' hy => ?_
  exact .then_ fun _ => .ite (naming_res (hy _ _) _) (.pure (hy _ _))

theorem resolvePlain_res (s : Bytes) : YRes w (resolvePlain s) (resolvePlain s) := by
  refine .leaf ?_
  unfold resolvePlain
  repeat' split
  all_goals constructor

/-- The recursive call. -/
def CallRes (F : List Anchors) (sc : ScalarCall) : Prop := ∀ w l m f, Ksim (docWd F) w NRes (sc l m f) (sc l m f)

theorem NsRes.mono {v : Anchors} (hv : TabLe w v) {l l' : List Node} (h : Pairs (NRes w) l l') : Pairs (NRes v) l l' :=
  Pairs.mono h fun _ _ h => NRes.mono hv h

theorem EsRes.mono {v : Anchors} (hv : TabLe w v) {l l' : List (Node × Node)} (h : Pairs (ERes w) l l') : Pairs (ERes v) l l' :=
  Pairs.mono h fun _ _ h => ⟨NRes.mono hv h.1, NRes.mono hv h.2⟩

theorem seqFlowLoop_res {sc : ScalarCall} (hs : CallRes F sc) (level : Nat) : ∀ (n : Nat) (w : Anchors) (v v' : List Node), Pairs (NRes w) v v' →
    Ksim (docWd F) w (fun w => Pairs (NRes w)) (seqFlowLoop sc level n v) (seqFlowLoop sc level n v')
  | 0, _, _, _, _ => .diverge
  | n + 1, w, v, v', hv => by
    simp only [seqFlowLoop]
    refine .then_ fun _ => .then_ fun _ => .isOkThen fun _ => .ite (.pure hv) (.then_ fun _ => .bind (.orErr (hs _ _ _ _) _) fun u hu x y hx =>
      .then_ fun _ => .isOkThen fun _ => ?_)
    have := (NsRes.mono hu hv).snoc hx
    exact .ite (seqFlowLoop_res hs level n u _ _ this) (.then_ fun _ => .then_ fun _ => .pure this)

theorem seqFlow_res {sc : ScalarCall} (hs : CallRes F sc) (n level : Nat) : Ksim (docWd F) w YRes (seqFlow sc n level) (seqFlow sc n level) := by
  unfold seqFlow
  exact .then_ fun _ => .bind (seqFlowLoop_res hs level n w [] [] .nil) fun _ _ _ _ h => .then_ fun _ => .pure (YRes.seq h)

theorem gapThenInd_res (level : Nat) : Ksim (docWd F) w (fun _ => Eq) (gapThenInd level) (gapThenInd level) := by
  unfold gapThenInd
  exact .isOkThen fun _ => .ite (.lift _) (.pure rfl)

theorem complexKey_res {sc : ScalarCall} (hs : CallRes F sc) (level : Nat) (map flow : Bool) (nm : String) :
    Ksim (docWd F) w NRes (complexKey sc level map flow nm) (complexKey sc level map flow nm) := by
  unfold complexKey
  exact .then_ fun _ => .bind (.orErr (hs _ _ _ _) _) fun _ _ _ _ h => .bindEq (gapThenInd_res _) fun _ hv _ => .pure (NRes.mono hv h)

theorem mapFlowLoop_res {sc : ScalarCall} (hs : CallRes F sc) {sf : LM Node} (hf : ∀ w, Ksim (docWd F) w NRes sf sf) (level : Nat) :
    ∀ (n : Nat) (w : Anchors) (v v' : List (Node × Node)), Pairs (ERes w) v v' →
    Ksim (docWd F) w (fun w => Pairs (ERes w)) (mapFlowLoop sc sf level n v) (mapFlowLoop sc sf level n v')
  | 0, _, _, _, _ => .diverge
  | n + 1, w, v, v', hv => by
    simp only [mapFlowLoop]
    refine .then_ fun _ => .then_ fun _ => .isOkThen fun _ => .ite (.pure hv) (.then_ fun _ => .bind (A := NRes)
      (.isOkThen fun _ => .ite (complexKey_res hs _ _ _ _) (.orErr (hf _) _)) fun u hu k k' hk => ?_)
    refine .isOkThen fun _ => .ite (.then_ fun _ => .then_ fun _ => .bind (.orErr (hs _ _ _ _) _) fun u' hu' x x' hx => .isOkThen fun _ => ?_) (.lerr _)
    have := (EsRes.mono hu' (EsRes.mono hu hv)).snoc (a := (k, x)) (b := (k', x')) ⟨NRes.mono hu' hk, hx⟩
    exact .ite (mapFlowLoop_res hs hf level n u' _ _ this) (.then_ fun _ => .then_ fun _ => .pure this)

/-- An optional value. -/
def OptRes (w : Anchors) : Option Yaml → Option Yaml → Prop
  | some y, some y' => YRes w y y'
  | none, none => True
  | _, _ => False

theorem scalarAtom_res (n level : Nat) (flow : Bool) : Ksim (docWd F) w OptRes (scalarAtom n level flow) (scalarAtom n level flow) := by
  unfold scalarAtom
  refine .tryThen fun o => ?_
  cases o with
  | some s => exact .pure (.leaf (.float s))
  | none =>
  refine .tryThen fun o => ?_
  cases o with
  | some s => exact .pure (.leaf (.float s))
  | none =>
  refine .tryThen fun o => ?_
  cases o with
  | some s => exact .pure (.leaf (.int s))
  | none =>
  refine .tryThen fun o => ?_
  cases o with
  | some s => exact .bind (useAlias_res s) fun _ _ _ _ h => .pure h
  | none =>
  refine .tryThen fun o => ?_
  cases o with
  | some s => exact .pure (.leaf (.str s))
  | none =>
  refine .tryThen fun o => ?_
  cases o with
  | some s => exact .pure (.leaf (.str _))
  | none =>
  refine .tryThen fun o => ?_
  cases o with
  | some s => exact .pure (resolvePlain_res s)
  | none => exact .pure trivial

theorem scalarTermWith_res {sc : ScalarCall} (hs : CallRes F sc) {sf : LM Node} (hf : ∀ w, Ksim (docWd F) w NRes sf sf) (n level : Nat) (flow : Bool) :
    Ksim (docWd F) w YRes (scalarTermWith sc sf n level flow) (scalarTermWith sc sf n level flow) := by
  unfold scalarTermWith
  refine .bind (scalarAtom_res _ _ _) fun v hv a b hab => ?_
  cases a <;> cases b <;> simp only [OptRes] at hab
  · refine .orElse (.orElse (seqFlow_res hs _ _) fun u hu => ?_) fun _ _ => .pure .null
    exact .then_ fun _ => .bind (mapFlowLoop_res hs hf _ _ _ [] [] .nil) fun _ _ _ _ h => .then_ fun _ => collectMap_res h
  · exact .pure hab

theorem scalarTerm_res {sc : ScalarCall} (hs : CallRes F sc) (n : Nat) : ∀ (d level : Nat) (flow : Bool) (w : Anchors),
    Ksim (docWd F) w YRes (scalarTerm sc n d level flow) (scalarTerm sc n d level flow)
  | 0, _, _, _ => .diverge
  | d + 1, _, _, _ => scalarTermWith_res hs (fun _ => scalarNode_res fun v _ => scalarTerm_res hs n d _ _ v) _ _ _

theorem scalarFlow_res {sc : ScalarCall} (hs : CallRes F sc) (n level : Nat) (flow : Bool) (w : Anchors) :
    Ksim (docWd F) w NRes (scalarFlow sc n level flow) (scalarFlow sc n level flow) := scalarNode_res fun v _ => scalarTerm_res hs _ _ _ _ v

theorem firstItem_res (level : Nat) (map : Bool) : Ksim (docWd F) w (fun _ => Eq) (firstItem level map) (firstItem level map) := by
  unfold firstItem
  exact .ite (.then_ fun _ => .lift _) (gapThenInd_res _)

theorem docEndThen {γ δ : Type} {B : Anchors → γ → δ → Prop} {f : Bool → LM γ} {g : Bool → LM δ} (hf : ∀ a, Ksim (docWd F) w B (f a) (g a)) :
    Ksim (docWd F) w B (docEnd >>= f) (docEnd >>= g) := .then_ hf

theorem nextItem_res (level : Nat) (nm : String) : Ksim (docWd F) w (fun _ => Eq) (nextItem level nm) (nextItem level nm) := by
  unfold nextItem
  exact .isOkThen fun g => .bindEq (.ite (.pure rfl) (docEndThen fun _ => .pure rfl)) fun v _ bad =>
    .ite (.lerr _) (docEndThen fun _ => .ite (.pure rfl) (.isOkThen fun _ => .pure rfl))

theorem seqLoop_res {sc : ScalarCall} (hs : CallRes F sc) (level : Nat) (map : Bool) : ∀ (n : Nat) (w : Anchors) (v v' : List Node), Pairs (NRes w) v v' →
    Ksim (docWd F) w (fun w => Pairs (NRes w)) (seqLoop sc level map n v) (seqLoop sc level map n v')
  | 0, _, _, _, _ => .diverge
  | n + 1, w, v, v', hv => by
    simp only [seqLoop]
    rw [hv.empty]
    refine .then_ fun _ => .bindEq ?_ fun u hu stop => .ite (.pure (NsRes.mono hu hv)) (.then_ fun _ => .bind (.orErr (hs _ _ _ _) _)
      fun u' hu' x y hx => seqLoop_res hs level map n u' _ _ ((NsRes.mono hu' (NsRes.mono hu hv)).snoc hx))
    refine .ite (.bindEq (firstItem_res _ _) fun _ _ _ => .then_ fun _ => .then_ fun _ => .pure rfl) ?_
    exact .bindEq (nextItem_res _ _) fun _ _ _ => .ite (.pure rfl) (.isOkThen fun _ => .ite (.isOkThen fun _ => .ite (.then_ fun _ => .pure rfl) (.pure rfl)) (.pure rfl))

theorem seq_res {sc : ScalarCall} (hs : CallRes F sc) (n level : Nat) (map : Bool) : Ksim (docWd F) w YRes (seq sc n level map) (seq sc n level map) := by
  unfold seq
  exact .bind (seqLoop_res hs _ _ _ w [] [] .nil) fun _ _ _ _ h => .then_ fun _ => .pure (YRes.seq h)

theorem colonBound_res : Ksim (docWd F) w (fun _ => Eq) colonBound colonBound := by
  unfold colonBound
  exact .isOkThen fun _ => .ite (by rw [Ksim.lift_isOk]; exact .lift _) (.pure rfl)

/-- Two beginnings of a round. -/
def StepRes (w : Anchors) : MapStep → MapStep → Prop
  | .alone y, .alone y' => YRes w y y'
  | .stop, .stop => True
  | .key k, .key k' => NRes w k k'
  | _, _ => False

theorem mapStep_res {sc : ScalarCall} (hs : CallRes F sc) {sf : LM Node} (hf : ∀ w, Ksim (docWd F) w NRes sf sf) (level : Nat) (map flow first : Bool) :
    Ksim (docWd F) w StepRes (mapStep sc sf level map flow first) (mapStep sc sf level map flow first) := by
  unfold mapStep
  refine .then_ fun _ => .ite ?_ ?_
  · refine .bindEq (firstItem_res _ _) fun _ _ _ => .then_ fun _ => .bind (A := NRes)
      (.isOkThen fun _ => .ite (complexKey_res hs _ _ _ _) (hf _)) fun u hu k k' hk => ?_
    exact .bindEq colonBound_res fun v hv _ => .ite (.pure (NRes.mono hv hk)) (.pure (NRes.yaml (NRes.mono hv hk)))
  · refine .bindEq (nextItem_res _ _) fun _ _ _ => .ite (.pure trivial) (.then_ fun _ => .bind (A := NRes)
      (.isOkThen fun _ => .ite (complexKey_res hs _ _ _ _) (.orErr (hf _) _)) fun u hu k k' hk => ?_)
    exact .bindEq colonBound_res fun v hv _ => .ite (.pure (NRes.mono hv hk)) (.lerr _)

theorem mapLoop_res {sc : ScalarCall} (hs : CallRes F sc) {sf : LM Node} (hf : ∀ w, Ksim (docWd F) w NRes sf sf) (level : Nat) (map flow : Bool) :
    ∀ (n : Nat) (w : Anchors) (v v' : List (Node × Node)), Pairs (ERes w) v v' →
    Ksim (docWd F) w YRes (mapLoop sc sf level map flow n v) (mapLoop sc sf level map flow n v')
  | 0, _, _, _, _ => .diverge
  | n + 1, w, v, v', hv => by
    simp only [mapLoop]
    rw [hv.empty]
    refine .bind (mapStep_res hs hf _ _ _ _) fun u hu a b hab => ?_
    cases a <;> cases b <;> simp only [StepRes] at hab
    · exact .pure hab
    · exact .then_ fun _ => collectMap_res (EsRes.mono hu hv)
    · rename_i k k'
      exact .then_ fun _ => .bind (.orErr (hs _ _ _ _) _) fun u' hu' x x' hx =>
        mapLoop_res hs hf level map flow n u' _ _
          ((EsRes.mono hu' (EsRes.mono hu hv)).snoc (a := (k, x)) (b := (k', x')) ⟨NRes.mono hu' hab, hx⟩)

theorem scalarBody_res {sc : ScalarCall} (hs : CallRes F sc) (n level : Nat) (map flow : Bool) :
    Ksim (docWd F) w YRes (scalarBody sc n level map flow) (scalarBody sc n level map flow) := by
  unfold scalarBody
  refine .tryThen fun o => ?_
  cases o with
  | some s => exact .pure (.str s)
  | none =>
  refine .tryThen fun o => ?_
  cases o with
  | some s => exact .pure (.str s)
  | none =>
    exact .orElse (.orElse (seq_res hs _ _ _) fun _ _ => mapLoop_res hs (scalarFlow_res hs _ _ _) _ _ _ _ _ [] [] .nil)
      fun _ _ => scalarTerm_res hs _ _ _ _ _

theorem scalar_res : ∀ n, CallRes F (scalar n)
  | 0 => fun _ _ _ _ => .diverge
  | n + 1 => fun _ _ _ _ => scalarNode_res fun _ _ => scalarBody_res (scalar_res n) _ _ _ _

end

/-! ## Between documents -/

/-- The documents, each with its table: `v` of `parse`, `v'` of `parse_cyclic`. -/
inductive DocsRes : List Node → List Node → List Anchors → Prop
  | nil : DocsRes [] [] []
  | snoc {v v' F n n' w} : DocsRes v v' F → NRes w n n' → DocsRes (v ++ [n]) (v' ++ [n']) (F ++ [w])

/-- The two loaders between documents. -/
structure BetweenDocs (F : List Anchors) (l l' : Loader) : Prop where
  parser : l.parser = l'.parser
  hash : l.hash = l'.hash
  plain : l.cyclicMode = false
  cyclic : l'.cyclicMode = true
  ind : l.docInd = F.length
  ind' : l'.docInd = F.length
  tables' : l'.anchors = F
  tables : l.anchors.length = F.length

/-- The world between documents; `none` behind a mismatch inside a document. -/
def betweenWd : Wd (Option (List Anchors)) where
  le _ _ := True
  refl _ := trivial
  trans _ _ := trivial
  R o l l' := match o with
    | some F => BetweenDocs F l l'
    | none => l.parser = l'.parser
  par {o l l'} h := by
    cases o with
    | some F => exact BetweenDocs.parser h
    | none => exact h
  set {o l l'} p h := by
    cases o with
    | some F => exact ⟨rfl, h.hash, h.plain, h.cyclic, h.ind, h.ind', h.tables', h.tables⟩
    | none => exact rfl

/-- A document up to the next one. -/
def docBody (n : Nat) : LM Node := do
  let ret ← scalar n 0 false false
  let _ ← YamlPeg.lift (orDefault 0 (gap true))
  YamlPeg.lift (orDefault () (symSeq b!"..."))
  YamlPeg.lift forward
  Pure.pure ret

theorem docBody_res (n : Nat) (F : List Anchors) (w : Anchors) : Ksim (docWd F) w NRes (docBody n) (docBody n) :=
  .bind (scalar_res n _ _ _ _) fun _ _ _ _ h => .then_ fun _ => .then_ fun _ => .then_ fun _ => .pure h

theorem doc_body (n : Nat) : doc n = YamlPeg.lift (context (orDefault () bound)) >>= fun _ => YamlPeg.lift forward >>= fun _ =>
    (M.modify fun l => { l with anchors := l.anchors ++ [[]] }) >>= fun _ => docBody n >>= fun ret =>
    (M.modify fun l => { l with docInd := l.docInd + 1 }) >>= fun _ => (Pure.pure ret : LM Node) := by
  unfold doc docBody
  simp only [M.bind_assoc']
  rfl

theorem docRest_res (n : Nat) (F : List Anchors) : Ksim betweenWd (some F) (fun o n n' => ∃ w, o = some (F ++ [w]) ∧ NRes w n n')
    ((M.modify fun l => { l with anchors := l.anchors ++ [[]] }) >>= fun _ => docBody n >>= fun ret =>
      (M.modify fun l => { l with docInd := l.docInd + 1 }) >>= fun _ => (Pure.pure ret : LM Node))
    ((M.modify fun l => { l with anchors := l.anchors ++ [[]] }) >>= fun _ => docBody n >>= fun ret =>
      (M.modify fun l => { l with docInd := l.docInd + 1 }) >>= fun _ => (Pure.pure ret : LM Node)) := by
  intro l l' hR
  have hR : BetweenDocs F l l' := hR
  have hin : InDoc F [] { l with anchors := l.anchors ++ [[]] } { l' with anchors := l'.anchors ++ [[]] } := by
    refine ⟨hR.parser, hR.hash, hR.plain, hR.cyclic, hR.ind, hR.ind', ?_, _, _, rfl, hR.tables, fun a => ?_⟩
    · simp only [hR.tables']
    · simp [mapGet]
  have hrun : ∀ l : Loader, ((M.modify fun l => { l with anchors := l.anchors ++ [[]] }) >>= fun _ => docBody n >>= fun ret =>
      (M.modify fun l => { l with docInd := l.docInd + 1 }) >>= fun _ => (Pure.pure ret : LM Node)) l =
      (match docBody n { l with anchors := l.anchors ++ [[]] } with
        | (.ok a, t) => (.ok a, { t with docInd := t.docInd + 1 })
        | (.err e, t) => (.err e, t)
        | (.panic p, t) => (.panic p, t)
        | (.diverge, t) => (.diverge, t)) := by
    intro l
    rw [bind_run]
    simp only [M.modify]
    rw [bind_run]
    rcases docBody n { l with anchors := l.anchors ++ [[]] } with ⟨r, t⟩
    cases r <;> rfl
  have := docBody_res n F [] _ _ hin
  rw [hrun, hrun]
  rcases hx : docBody n { l with anchors := l.anchors ++ [[]] } with ⟨r, t⟩
  rcases hy : docBody n { l' with anchors := l'.anchors ++ [[]] } with ⟨r', t'⟩
  rw [hx, hy] at this
  rcases this with this | this
  · left
    rcases this with ⟨m, rfl⟩ | rfl | ⟨p, hp, rfl | rfl⟩
    · exact .inl ⟨m, rfl⟩
    · exact .inr (.inl rfl)
    · exact .inr (.inr ⟨p, hp, .inl rfl⟩)
    · exact .inr (.inr ⟨p, hp, .inr rfl⟩)
  · rcases r with a | (_ | ⟨n, m⟩) | p | _ <;> rcases r' with a' | (_ | ⟨n', m'⟩) | p' | _ <;>
      first | exact this.elim | skip
    · obtain ⟨w, -, hw, hN⟩ := this
      have hw : InDoc F w t t' := hw
      obtain ⟨G, X, hG, hl, -⟩ := hw.tables
      refine .inr ⟨some (F ++ [w]), trivial, ⟨hw.parser, hw.hash, hw.plain, hw.cyclic, ?_, ?_, hw.tables', ?_⟩, w, rfl, hN⟩
      · simp [hw.ind]
      · simp [hw.ind']
      · simp [hG, hl]
    · obtain ⟨w, -, hw⟩ := this
      have hw : InDoc F w t t' := hw
      exact .inr ⟨none, trivial, hw.parser⟩
    · exact .inr this
    · exact .inr this
    · exact .inr this

theorem doc_res (n : Nat) (F : List Anchors) : Ksim betweenWd (some F) (fun o n n' => ∃ w, o = some (F ++ [w]) ∧ NRes w n n') (doc n) (doc n) := by
  rw [doc_body]
  exact .then_ fun _ => .then_ fun _ => docRest_res n F

theorem directives_res (F : List Anchors) : ∀ n, Ksim betweenWd (some F) (fun o _ _ => o = some F) (directives n) (directives n)
  | 0 => .diverge
  | n + 1 => by
    intro l l' hR
    simp only [directives, YamlPeg.lift]
    rw [betweenWd.par hR]
    have hset := fun t => betweenWd.set t hR
    rcases context directive l'.parser with ⟨r, t⟩
    have := hset t
    rcases r with a | (_ | ⟨n, m⟩) | p | _
    · exact directives_res F n _ _ this
    · exact .inr ⟨some F, trivial, this, rfl⟩
    · exact .inr ⟨rfl, rfl⟩
    · exact .inr rfl
    · exact .inr trivial

theorem docsLoop_res (n : Nat) : ∀ (m : Nat) (F : List Anchors) (v v' : List Node), DocsRes v v' F →
    Ksim betweenWd (some F) (fun o v v' => ∃ F, o = some F ∧ DocsRes v v' F) (docsLoop n m v) (docsLoop n m v')
  | 0, _, _, _, _ => .diverge
  | m + 1, F, v, v', hv => by
    simp only [docsLoop]
    refine .then_ fun _ => .then_ fun _ => .ite (.pure ⟨F, rfl, hv⟩) (.isOkThen fun _ => .ite (.bind (doc_res n F) fun o _ x y hx => ?_) (.lerr _))
    obtain ⟨w, rfl, hx⟩ := hx
    exact docsLoop_res n m _ _ _ (.snoc hv hx)

theorem loaderParse_res (n : Nat) : Ksim betweenWd (some []) (fun o v v' => ∃ F, o = some F ∧ DocsRes v v' F) (loaderParse n) (loaderParse n) := by
  unfold loaderParse
  refine .bind (directives_res [] n) fun o _ _ _ hF => .then_ fun _ => .then_ fun _ => ?_
  subst hF
  refine .bind (doc_res n []) fun o' _ x y hx => ?_
  obtain ⟨w, rfl, hx⟩ := hx
  exact docsLoop_res n n _ _ _ (.snoc .nil hx)

end YamlPeg
