import Verif.Proof.NodeEq
import Verif.Proof.Decimal
/-!
# Properties of nodes: C32–C38, C48 (maps), C51
-/

namespace YamlPeg.Props
open YamlPeg

/-! ## C32: equality -/

/-- What equality of nodes means, independently of the code: same shape, equal
leaves, numbers compared by value; positions and tags do not matter. -/
inductive SameData : Node → Node → Prop
  | null {p t p' t'} : SameData (.mk p t .null) (.mk p' t' .null)
  | bool {p t p' t' v} : SameData (.mk p t (.bool v)) (.mk p' t' (.bool v))
  | int {p t p' t' s s' v} : toI64 s = some v → toI64 s' = some v →
      SameData (.mk p t (.int s)) (.mk p' t' (.int s'))
  | nan {p t p' t' s s'} : toF64 s = some .nan → toF64 s' = some .nan →
      SameData (.mk p t (.float s)) (.mk p' t' (.float s'))
  | float {p t p' t' s s' v w} : toF64 s = some v → toF64 s' = some w → v.ieeeEq w = true →
      SameData (.mk p t (.float s)) (.mk p' t' (.float s'))
  | str {p t p' t' s} : SameData (.mk p t (.str s)) (.mk p' t' (.str s))
  | alias {p t p' t' s} : SameData (.mk p t (.alias s)) (.mk p' t' (.alias s))
  | seq {p t p' t' l l'} : l.length = l'.length →
      (∀ (i : Nat) x y, l[i]? = some x → l'[i]? = some y → SameData x y) →
      SameData (.mk p t (.seq l)) (.mk p' t' (.seq l'))
  | map {p t p' t' m m'} : m.length = m'.length →
      (∀ (i : Nat) k v k' v', m[i]? = some (k, v) → m'[i]? = some (k', v') → SameData k k') →
      (∀ (i : Nat) k v k' v', m[i]? = some (k, v) → m'[i]? = some (k', v') → SameData v v') →
      SameData (.mk p t (.map m)) (.mk p' t' (.map m'))

theorem nodesEqb_iff {l l' : List Node} : nodesEqb l l' = true ↔
    l.length = l'.length ∧ ∀ (i : Nat) x y, l[i]? = some x → l'[i]? = some y → Node.eqb x y = true := by
  induction l generalizing l' with
  | nil => cases l' <;> simp [nodesEqb]
  | cons a r ih =>
    cases l' with
    | nil => simp [nodesEqb]
    | cons a' r' =>
      simp only [nodesEqb, Bool.and_eq_true, ih, List.length_cons]
      constructor
      · rintro ⟨h1, h2, h3⟩
        refine ⟨by omega, ?_⟩
        intro i x y hx hy
        cases i with
        | zero => simp at hx hy; subst hx hy; exact h1
        | succ i => exact h3 i x y (by simpa using hx) (by simpa using hy)
      · rintro ⟨h1, h2⟩
        refine ⟨h2 0 a a' rfl rfl, by omega, ?_⟩
        intro i x y hx hy
        exact h2 (i + 1) x y (by simpa using hx) (by simpa using hy)

theorem entriesEqb_iff {l l' : List (Node × Node)} : entriesEqb l l' = true ↔
    l.length = l'.length ∧ ∀ (i : Nat) k v k' v', l[i]? = some (k, v) → l'[i]? = some (k', v') →
      Node.eqb k k' = true ∧ Node.eqb v v' = true := by
  induction l generalizing l' with
  | nil => cases l' <;> simp [entriesEqb]
  | cons a r ih =>
    cases l' with
    | nil => simp [entriesEqb]
    | cons a' r' =>
      obtain ⟨k, v⟩ := a
      obtain ⟨k', v'⟩ := a'
      simp only [entriesEqb, entryEqb, Bool.and_eq_true, ih, List.length_cons]
      constructor
      · rintro ⟨h1, h2, h3⟩
        refine ⟨by omega, ?_⟩
        intro i x y x' y' hx hy
        cases i with
        | zero =>
          simp only [List.getElem?_cons_zero, Option.some.injEq, Prod.mk.injEq] at hx hy
          obtain ⟨rfl, rfl⟩ := hx
          obtain ⟨rfl, rfl⟩ := hy
          exact h1
        | succ i => exact h3 i x y x' y' (by simpa using hx) (by simpa using hy)
      · rintro ⟨h1, h2⟩
        refine ⟨h2 0 k v k' v' rfl rfl, by omega, ?_⟩
        intro i x y x' y' hx hy
        exact h2 (i + 1) x y x' y' (by simpa using hx) (by simpa using hy)

theorem eqb_of_same {a c : Node} (h : SameData a c) : Node.eqb a c = true := by
  induction h with
  | null => rfl
  | bool => simp [Node.eqb, Yaml.eqb]
  | int h1 h2 => simp [Node.eqb, Yaml.eqb, h1, h2]
  | nan h1 h2 => simp [Node.eqb, Yaml.eqb, h1, h2, F64.same, F64.isNan]
  | float h1 h2 h3 => simp [Node.eqb, Yaml.eqb, h1, h2, F64.same, h3]
  | str => simp [Node.eqb, Yaml.eqb]
  | alias => simp [Node.eqb, Yaml.eqb]
  | seq hl _ ih => simp only [Node.eqb, Yaml.eqb]; exact nodesEqb_iff.2 ⟨hl, ih⟩
  | map hl _ _ ih1 ih2 =>
    simp only [Node.eqb, Yaml.eqb]
    exact entriesEqb_iff.2 ⟨hl, fun i k v k' v' h1 h2 => ⟨ih1 i k v k' v' h1 h2, ih2 i k v k' v' h1 h2⟩⟩

theorem same_of_eqb (a : Node) : ∀ c, Readable a → Readable c → Node.eqb a c = true → SameData a c := by
  induction a using Node.induct with | h pos tag y ih => _
  intro c hra hrc
  obtain ⟨pos', tag', y'⟩ := c
  obtain ⟨ha, hka⟩ := everywhere_mk.1 hra
  obtain ⟨hc, hkc⟩ := everywhere_mk.1 hrc
  simp only [Node.eqb]
  cases y <;> cases y' <;> simp only [Yaml.eqb] <;>
    first
    | (intro h; simp at h; done)
    | skip
  · intro _; exact .null
  · simp only [beq_iff_eq]; rintro rfl; exact .bool
  · rename_i s s'
    simp only [beq_iff_eq]
    intro h
    obtain ⟨u, hu⟩ := Option.isSome_iff_exists.1 (show (toI64 s).isSome from ha)
    exact .int hu (h ▸ hu)
  · rename_i s s'
    obtain ⟨u, hu⟩ := Option.isSome_iff_exists.1 (show (toF64 s).isSome from ha)
    obtain ⟨w, hw⟩ := Option.isSome_iff_exists.1 (show (toF64 s').isSome from hc)
    simp only [hu, hw, F64.same]
    split
    · rename_i hn
      intro _
      cases u <;> simp [F64.isNan] at hn
      cases w <;> simp at hn
      exact .nan hu hw
    · exact .float hu hw
  · simp only [beq_iff_eq]; rintro rfl; exact .str
  · intro h
    obtain ⟨hl, hx⟩ := nodesEqb_iff.1 h
    refine .seq hl fun i x y h1 h2 => ?_
    have m1 := List.mem_of_getElem? h1
    have m2 := List.mem_of_getElem? h2
    exact ih x m1 y (hka x m1) (hkc y m2) (hx i x y h1 h2)
  · intro h
    obtain ⟨hl, hx⟩ := entriesEqb_iff.1 h
    refine .map hl (fun i k v k' v' h1 h2 => ?_) (fun i k v k' v' h1 h2 => ?_)
    · have m1 := List.mem_of_getElem? h1
      have m2 := List.mem_of_getElem? h2
      exact (ih k v m1).1 k' (hka k v m1).1 (hkc k' v' m2).1 (hx i k v k' v' h1 h2).1
    · have m1 := List.mem_of_getElem? h1
      have m2 := List.mem_of_getElem? h2
      exact (ih k v m1).2 v' (hka k v m1).2 (hkc k' v' m2).2 (hx i k v k' v' h1 h2).2
  · simp only [beq_iff_eq]; rintro rfl; exact .alias

/-- **C32.** Comparing two nodes whose numbers are readable never panics, and the
answer is `true` exactly when they hold the same data. -/
theorem C32_eq_is_same_data (a c : Node) (ha : Readable a) (hc : Readable c) :
    ∃ b, Node.eq? a c = .ok b ∧ (b = true ↔ SameData a c) :=
  ⟨Node.eqb a c, eq?_ok a ha c hc, same_of_eqb a c ha hc, eqb_of_same⟩

/-- **C32.** Reflexive (`NaN` included). -/
theorem C32_refl (a : Node) (ha : Readable a) : Node.eq? a a = .ok true := by
  rw [eq?_ok a ha a ha, eqb_refl]

/-- **C32.** Symmetric. -/
theorem C32_symm (a c : Node) (ha : Readable a) (hc : Readable c) :
    Node.eq? a c = Node.eq? c a := by
  rw [eq?_ok a ha c hc, eq?_ok c hc a ha, eqb_comm]

/-- **C32.** Transitive. -/
theorem C32_trans (a c d : Node) (ha : Readable a) (hc : Readable c) (hd : Readable d)
    (h1 : Node.eq? a c = .ok true) (h2 : Node.eq? c d = .ok true) : Node.eq? a d = .ok true := by
  rw [eq?_ok a ha c hc, Out.ok.injEq] at h1
  rw [eq?_ok c hc d hd, Out.ok.injEq] at h2
  rw [eq?_ok a ha d hd, eqb_trans a c d h1 h2]

mutual
/-- Erase all positions and tags. -/
def eraseMeta : Node → Node
  | .mk _ _ y => .mk 0 [] (eraseMetaY y)
def eraseMetaY : Yaml → Yaml
  | .seq l => .seq (eraseMetaL l)
  | .map m => .map (eraseMetaM m)
  | y => y
def eraseMetaL : List Node → List Node
  | [] => []
  | x :: xs => eraseMeta x :: eraseMetaL xs
def eraseMetaM : List (Node × Node) → List (Node × Node)
  | [] => []
  | e :: es => eraseMetaE e :: eraseMetaM es
def eraseMetaE : Node × Node → Node × Node
  | (k, v) => (eraseMeta k, eraseMeta v)
end

theorem eraseMetaL_length (l : List Node) : (eraseMetaL l).length = l.length := by
  induction l with
  | nil => rfl
  | cons x xs ih => simp [eraseMetaL, ih]

theorem eraseMetaM_length (l : List (Node × Node)) : (eraseMetaM l).length = l.length := by
  induction l with
  | nil => rfl
  | cons x xs ih => simp [eraseMetaM, ih]

mutual
theorem eq_erase : ∀ a c : Node, Node.eq? (eraseMeta a) (eraseMeta c) = Node.eq? a c
  | .mk _ _ y, .mk _ _ y' => by simp only [eraseMeta, Node.eq?]; exact eq_eraseY y y'
theorem eq_eraseY : ∀ a c : Yaml, Yaml.eq? (eraseMetaY a) (eraseMetaY c) = Yaml.eq? a c
  | .null, c => by cases c <;> simp [eraseMetaY, Yaml.eq?]
  | .bool _, c => by cases c <;> simp [eraseMetaY, Yaml.eq?]
  | .int _, c => by cases c <;> simp [eraseMetaY, Yaml.eq?]
  | .float _, c => by cases c <;> simp [eraseMetaY, Yaml.eq?]
  | .str _, c => by cases c <;> simp [eraseMetaY, Yaml.eq?]
  | .alias _, c => by cases c <;> simp [eraseMetaY, Yaml.eq?]
  | .seq l, c => by
    cases c with
    | seq l' => simp only [eraseMetaY, Yaml.eq?, eraseMetaL_length, eq_eraseL l l']
    | _ => simp [eraseMetaY, Yaml.eq?]
  | .map l, c => by
    cases c with
    | map l' => simp only [eraseMetaY, Yaml.eq?, eraseMetaM_length, eq_eraseM l l']
    | _ => simp [eraseMetaY, Yaml.eq?]
theorem eq_eraseL : ∀ a c : List Node, nodesEq? (eraseMetaL a) (eraseMetaL c) = nodesEq? a c
  | [], c => by cases c <;> simp [eraseMetaL, nodesEq?]
  | x :: xs, c => by
    cases c with
    | nil => simp [eraseMetaL, nodesEq?]
    | cons y ys => simp only [eraseMetaL, nodesEq?, eq_erase x y, eq_eraseL xs ys]
theorem eq_eraseM : ∀ a c : List (Node × Node), entriesEq? (eraseMetaM a) (eraseMetaM c) = entriesEq? a c
  | [], c => by cases c <;> simp [eraseMetaM, entriesEq?]
  | x :: xs, c => by
    cases c with
    | nil => simp [eraseMetaM, entriesEq?]
    | cons y ys => simp only [eraseMetaM, entriesEq?, eq_eraseE x y, eq_eraseM xs ys]
theorem eq_eraseE : ∀ a c : Node × Node, entryEq? (eraseMetaE a) (eraseMetaE c) = entryEq? a c
  | (k, v), (k', v') => by simp only [eraseMetaE, entryEq?, eq_erase k k', eq_erase v v']
end

/-- **C32.** Positions and tags, at any depth, never influence the answer (also
for unreadable numbers). -/
theorem C32_ignores_pos_and_tag (a c a' c' : Node) (ha : eraseMeta a = eraseMeta a')
    (hc : eraseMeta c = eraseMeta c') : Node.eq? a c = Node.eq? a' c' := by
  rw [← eq_erase a c, ← eq_erase a' c', ha, hc]

/-- **C32, counterexample.** Comparison does panic for numbers that do not fit. -/
theorem C32_counterexample_panic :
    Node.eq? (.ofYaml (.int b!"99999999999999999999")) (.ofYaml (.int b!"1")) = .panic .intUnwrap := by
  decide

theorem readable_leaf {p : Nat} {t : Bytes} {y : Yaml} (h : ReadableHere (.mk p t y))
    (hk : Yaml.Kids Readable y) : Readable (.mk p t y) := everywhere_mk.2 ⟨h, hk⟩

/-- Non-vacuity: `[0x10, NaN]` equals `[16, NaN]` at other positions and tags. -/
example : Node.eq? (.mk 3 b!"x" (.seq [.ofYaml (.int b!"0x10"), .mk 9 [] (.float b!"NaN")]))
    (.ofYaml (.seq [.ofYaml (.int b!"16"), .ofYaml (.float b!"NaN")])) = .ok true := by decide

/-! ## C33: hashing -/

/-- **C33, counterexample.** Two equal nodes that hash differently. -/
theorem C33_counterexample :
    Node.eq? (.ofYaml (.int b!"16")) (.ofYaml (.int b!"0x10")) = .ok true ∧
    (Node.ofYaml (.int b!"16")).hashStream ≠ (Node.ofYaml (.int b!"0x10")).hashStream := by decide

/-- **C33.** Equal nodes hash equally, provided that equal numbers in them are
written the same way. Missing for the full property: numbers with different
notation, where it is false (`C33_counterexample`). -/
theorem C33_hash_partial (a c : Node) (ha : Readable a) (hc : Readable c) (hn : SameNotation a c)
    (he : Node.eq? a c = .ok true) : a.hashStream = c.hashStream := by
  rw [eq?_ok a ha c hc, Out.ok.injEq] at he
  exact hashStream_congr a c ha hc hn he

/-- All integers are in the form `Display` gives them, and there are no floats. -/
def CanonHere (n : Node) : Prop :=
  match n.yaml with
  | .int s => ∃ i, inI64 i = true ∧ s = intDec i
  | .float _ => False
  | _ => True

/-- **C33.** In particular for nodes built from Rust integers, Booleans and
strings. -/
theorem C33_hash_canonical_partial (a c : Node) (ha : Everywhere CanonHere a)
    (hc : Everywhere CanonHere c) (he : Node.eq? a c = .ok true) : a.hashStream = c.hashStream := by
  have hr : ∀ n, CanonHere n → ReadableHere n := by
    rintro ⟨p, t, y⟩
    cases y with
    | int s =>
      rintro ⟨i, hi, rfl⟩
      show (toI64 (intDec i)).isSome
      simp [toI64_intDec, hi]
    | float s => intro h; exact h.elim
    | _ => intro _; trivial
  refine C33_hash_partial a c (ha.mono hr) (hc.mono hr) ?_ he
  intro m m' hm hm'
  have h1 := ha m hm
  have h2 := hc m' hm'
  simp only [CanonHere] at h1 h2
  split
  · rename_i s s' hs hs'
    rw [hs] at h1
    rw [hs'] at h2
    obtain ⟨i, hi, rfl⟩ := h1
    obtain ⟨j, hj, rfl⟩ := h2
    intro h
    rw [toI64_intDec, toI64_intDec, hi, hj] at h
    simp at h
    rw [h]
  · rename_i s s' hs hs'
    rw [hs] at h1
    exact h1.elim
  · trivial

/-! ## C34: maps -/

/-- The pairs' keys are readable, and equal keys hash equally. -/
def GoodMapKeys (l : List (Node × Node)) (qs : List Node) : Prop := GoodKeys (l.map Prod.fst ++ qs)

theorem fold_keys {ks : List Node} (l : List (Node × Node)) : ∀ acc : List (Node × Node),
    (∀ e ∈ acc, e.1 ∈ ks) → (∀ e ∈ l, e.1 ∈ ks) →
    ∀ e ∈ l.foldl (fun m e => insertSpec m e.1 e.2) acc, e.1 ∈ ks := by
  induction l with
  | nil => intro acc h _; exact h
  | cons x r ih =>
    intro acc h hl
    exact ih _ (insertSpec_keys (hl x (List.mem_cons_self ..)) h)
      fun e he => hl e (List.mem_cons_of_mem _ he)

theorem fold_differ (l : List (Node × Node)) : ∀ acc : List (Node × Node), KeysDiffer acc →
    KeysDiffer (l.foldl (fun m e => insertSpec m e.1 e.2) acc) := by
  induction l with
  | nil => intro acc h; exact h
  | cons x r ih => intro acc h; exact ih _ (keysDiffer_insert h _ _)

theorem fold_find (q : Node) (l : List (Node × Node)) : ∀ acc : List (Node × Node), KeysDiffer acc →
    ((l.foldl (fun m e => insertSpec m e.1 e.2) acc).find? fun e => Node.eqb q e.1).map Prod.snd =
      ((l.reverse.find? fun e => Node.eqb q e.1).map Prod.snd).or
        ((acc.find? fun e => Node.eqb q e.1).map Prod.snd) := by
  induction l with
  | nil => intro acc _; simp
  | cons x r ih =>
    intro acc h
    rw [List.foldl_cons, ih _ (keysDiffer_insert h _ _), find_insert h, List.reverse_cons,
      List.find?_append]
    cases hr : r.reverse.find? (fun e => Node.eqb q e.1) with
    | some e => simp
    | none =>
      cases hb : Node.eqb q x.1 with
      | true => simp [hb]
      | false => simp [hb]

/-- **C34.** A map built from pairs whose keys hash consistently exists, and
looking up a key gives the value of the *last* pair with an equal key, for every
hash seed. -/
theorem C34_last_value_wins (h : HashCfg) (l : List (Node × Node)) (q : Node)
    (hg : GoodMapKeys l [q]) :
    ∃ m, entriesCollect h [] l = .ok m ∧
      ∀ v, entriesGet h q m = .ok (some v) ↔
        ∃ l1 k l2, l = l1 ++ (k, v) :: l2 ∧ Node.eq? q k = .ok true ∧
          ∀ e ∈ l2, Node.eq? q e.1 = .ok false := by
  have hl : ∀ e ∈ l, e.1 ∈ l.map Prod.fst ++ [q] := fun e he =>
    List.mem_append_left _ (List.mem_map_of_mem he)
  have hq : q ∈ l.map Prod.fst ++ [q] := by simp
  refine ⟨_, entriesCollect_good hg l [] (by simp) hl, ?_⟩
  intro v
  rw [entriesGet_good hg hq (fold_keys l [] (by simp) hl), fold_find q l [] List.Pairwise.nil]
  simp only [List.find?_nil, Option.map_none, Option.or_none, Out.ok.injEq]
  have heq : ∀ e ∈ l, Node.eq? q e.1 = .ok (Node.eqb q e.1) := fun e he =>
    eq?_ok q (hg.1 q hq) e.1 (hg.1 e.1 (hl e he))
  rw [Option.map_eq_some_iff]
  constructor
  · rintro ⟨⟨k, v'⟩, hf, rfl⟩
    obtain ⟨h1, as, bs, h2, h3⟩ := List.find?_eq_some_iff_append.1 hf
    have e : l = bs.reverse ++ (k, v') :: as.reverse := by
      have := congrArg List.reverse h2
      simpa using this
    refine ⟨bs.reverse, k, as.reverse, e, ?_, ?_⟩
    · rw [heq (k, v') (by rw [e]; simp)]
      simpa using h1
    · intro x hx
      rw [heq x (by rw [e]; simp at hx; simp [hx])]
      have := h3 x (by simpa using hx)
      simpa using this
  · rintro ⟨l1, k, l2, rfl, h1, h2⟩
    refine ⟨(k, v), ?_, rfl⟩
    rw [List.find?_eq_some_iff_append]
    refine ⟨?_, l2.reverse, l1.reverse, by simp, ?_⟩
    · rw [heq (k, v) (by simp)] at h1
      simpa using h1
    · intro a ha
      have ha : a ∈ l2 := by simpa using ha
      have := h2 a ha
      rw [heq a (by simp [ha])] at this
      simpa using this

/-- **C34.** The keys of such a map are pairwise different. -/
theorem C34_keys_differ (h : HashCfg) (l : List (Node × Node)) (hg : GoodMapKeys l []) :
    ∃ m, entriesCollect h [] l = .ok m ∧
      m.Pairwise (fun e e' => Node.eq? e.1 e'.1 = .ok false) := by
  have hl : ∀ e ∈ l, e.1 ∈ l.map Prod.fst ++ [] := fun e he =>
    List.mem_append_left _ (List.mem_map_of_mem he)
  refine ⟨_, entriesCollect_good hg l [] (by simp) hl, ?_⟩
  have hk := fold_keys l [] (by simp) hl
  refine (fold_differ l [] List.Pairwise.nil).imp_of_mem ?_
  intro e e' he he' hb
  rw [eq?_ok _ (hg.1 _ (hk e he)) _ (hg.1 _ (hk e' he')), hb]

/-- **C34.** When the keys are pairwise different already, the map is the list. -/
theorem C34_order (h : HashCfg) (l : List (Node × Node)) (hg : GoodMapKeys l [])
    (hd : l.Pairwise (fun e e' => Node.eq? e.1 e'.1 = .ok false)) :
    entriesCollect h [] l = .ok l := by
  have hl : ∀ e ∈ l, e.1 ∈ l.map Prod.fst ++ [] := fun e he =>
    List.mem_append_left _ (List.mem_map_of_mem he)
  rw [entriesCollect_good hg l [] (by simp) hl]
  have hd' : l.Pairwise (fun e e' => Node.eqb e.1 e'.1 = false) := by
    refine hd.imp_of_mem ?_
    intro e e' he he' hb
    rw [eq?_ok _ (hg.1 _ (hl e he)) _ (hg.1 _ (hl e' he')), Out.ok.injEq] at hb
    exact hb
  have key : ∀ (r acc : List (Node × Node)), (acc ++ r).Pairwise (fun e e' => Node.eqb e.1 e'.1 = false) →
      r.foldl (fun m e => insertSpec m e.1 e.2) acc = acc ++ r := by
    intro r
    induction r with
    | nil => intro acc _; simp
    | cons x r ih =>
      intro acc hp
      have hno : acc.find? (fun e => Node.eqb x.1 e.1) = none := by
        rw [List.find?_eq_none]
        intro a ha
        have := (List.pairwise_append.1 hp).2.2 a ha x (by simp)
        rw [eqb_comm, this]; simp
      rw [List.foldl_cons, insertSpec, hno, ih _ (by simpa using hp)]
      simp
  rw [key l [] (by simpa using hd')]
  simp

/-- **C34, counterexample.** With keys in different notation a map can hold two
equal keys. -/
theorem C34_counterexample :
    ∃ m, entriesCollect .exact [] [(.ofYaml (.int b!"16"), .ofYaml (.str b!"a")),
        (.ofYaml (.int b!"0x10"), .ofYaml (.str b!"b"))] = .ok m ∧ m.length = 2 := by
  refine ⟨_, rfl, ?_⟩
  decide

/-- **C48 for maps.** With good keys the built map does not depend on the seed. -/
theorem C48_map_seed_partial (h h' : HashCfg) (l : List (Node × Node)) (hg : GoodMapKeys l []) :
    entriesCollect h [] l = entriesCollect h' [] l := by
  have hl : ∀ e ∈ l, e.1 ∈ l.map Prod.fst ++ [] := fun e he =>
    List.mem_append_left _ (List.mem_map_of_mem he)
  rw [entriesCollect_good hg l [] (by simp) hl, entriesCollect_good hg l [] (by simp) hl]

/-- Strings always are good keys. -/
theorem goodKeys_str (ks : List Node) (h : ∀ k ∈ ks, ∃ s, k.yaml = .str s) : GoodKeys ks := by
  constructor
  · intro k hk
    obtain ⟨s, hs⟩ := h k hk
    obtain ⟨p, t, y⟩ := k
    simp only [Node.yaml] at hs
    subst hs
    exact everywhere_mk.2 ⟨trivial, trivial⟩
  · intro k hk k' hk' he
    obtain ⟨s, hs⟩ := h k hk
    obtain ⟨s', hs'⟩ := h k' hk'
    obtain ⟨p, t, y⟩ := k
    obtain ⟨p', t', y'⟩ := k'
    simp only [Node.yaml] at hs hs'
    subst hs hs'
    simp only [Node.eqb, Yaml.eqb, beq_iff_eq] at he
    subst he
    rfl

example : ∃ m, entriesCollect .exact [] [(.ofYaml (.str b!"a"), .ofYaml .null),
    (.ofYaml (.str b!"b"), .ofYaml .null), (.ofYaml (.str b!"a"), .ofYaml (.bool true))] = .ok m ∧
    entriesGet .exact (.ofYaml (.str b!"a")) m = .ok (some (.ofYaml (.bool true))) ∧ m.length = 2 :=
  ⟨_, rfl, rfl, rfl⟩

/-! ## C35: accessors -/

/-- **C35.** `as_bool`. -/
theorem C35_as_bool (n : Node) :
    (∀ v, n.asBool = .ok v ↔ n.yaml = .bool v) ∧ (∀ e, n.asBool = .error e → e = n.pos) := by
  obtain ⟨p, t, y⟩ := n
  cases y <;> simp [Node.asBool, Node.yaml, Node.pos, eq_comm]

/-- **C35.** `as_int`: exactly on integers that fit in an `i64`. -/
theorem C35_as_int (n : Node) :
    (∀ v, n.asInt = .ok v ↔ ∃ s, n.yaml = .int s ∧ toI64 s = some v) ∧
      (∀ e, n.asInt = .error e → e = n.pos) := by
  obtain ⟨p, t, y⟩ := n
  cases y <;> simp [Node.asInt, Node.yaml, Node.pos, eq_comm]
  rename_i s
  cases toI64 s <;> simp [eq_comm]

/-- **C35.** `as_float`. -/
theorem C35_as_float (n : Node) :
    (∀ v, n.asFloat = .ok v ↔ ∃ s, n.yaml = .float s ∧ toF64 s = some v) ∧
      (∀ e, n.asFloat = .error e → e = n.pos) := by
  obtain ⟨p, t, y⟩ := n
  cases y <;> simp [Node.asFloat, Node.yaml, Node.pos, eq_comm]
  rename_i s
  cases toF64 s <;> simp [eq_comm]

/-- **C35.** `as_number`: integers and floats. -/
theorem C35_as_number (n : Node) :
    (∀ v, n.asNumber = .ok v ↔
      (∃ s i, n.yaml = .int s ∧ toI64 s = some i ∧ v = roundF64 (decide (i < 0)) i.natAbs 1) ∨
      (∃ s, n.yaml = .float s ∧ toF64 s = some v)) ∧
      (∀ e, n.asNumber = .error e → e = n.pos) := by
  obtain ⟨p, t, y⟩ := n
  cases y <;> simp [Node.asNumber, Node.yaml, Node.pos, Node.f64OfInt, eq_comm]
  · rename_i s
    cases toI64 s <;> simp [eq_comm]
  · rename_i s
    cases toF64 s <;> simp [eq_comm]

/-- **C35.** `as_str`: strings, and null as the empty string. -/
theorem C35_as_str (n : Node) :
    (∀ v, n.asStr = .ok v ↔ n.yaml = .str v ∨ (n.yaml = .null ∧ v = [])) ∧
      (∀ e, n.asStr = .error e → e = n.pos) := by
  obtain ⟨p, t, y⟩ := n
  cases y <;> simp [Node.asStr, Node.yaml, Node.pos, eq_comm]

/-- **C35.** `as_seq`. -/
theorem C35_as_seq (n : Node) :
    (∀ v, n.asSeq = .ok v ↔ n.yaml = .seq v) ∧ (∀ e, n.asSeq = .error e → e = n.pos) := by
  obtain ⟨p, t, y⟩ := n
  cases y <;> simp [Node.asSeq, Node.yaml, Node.pos, eq_comm]

/-- **C35.** `as_map`. -/
theorem C35_as_map (n : Node) :
    (∀ v, n.asMap = .ok v ↔ n.yaml = .map v) ∧ (∀ e, n.asMap = .error e → e = n.pos) := by
  obtain ⟨p, t, y⟩ := n
  cases y <;> simp [Node.asMap, Node.yaml, Node.pos, eq_comm]

/-- **C35.** `as_value`: the text of a scalar. -/
theorem C35_as_value (n : Node) :
    (∀ v, n.asValue = .ok v ↔
      n.yaml = .str v ∨ n.yaml = .int v ∨ n.yaml = .float v ∨
      (n.yaml = .bool true ∧ v = b!"true") ∨ (n.yaml = .bool false ∧ v = b!"false") ∨
      (n.yaml = .null ∧ v = [])) ∧ (∀ e, n.asValue = .error e → e = n.pos) := by
  obtain ⟨p, t, y⟩ := n
  cases y <;> simp [Node.asValue, Node.yaml, Node.pos, eq_comm]
  rename_i b
  cases b <;> simp [eq_comm]

/-- **C35.** `get`: only maps; `Err(pos)` when the key is missing. -/
theorem C35_get (h : HashCfg) (n k : Node) :
    (∀ v, n.get h k = .ok (.ok v) ↔ ∃ m, n.yaml = .map m ∧ entriesGet h k m = .ok (some v)) ∧
      (∀ e, n.get h k = .ok (.error e) → e = n.pos) := by
  obtain ⟨p, t, y⟩ := n
  cases y <;> simp [Node.get, Node.yaml, Node.pos, eq_comm]
  rename_i m
  cases entriesGet h k m <;> simp [Out.map]
  rename_i o
  cases o <;> simp [eq_comm]

/-- **C35, C51.** `get_ind`: only sequences; `Err(pos)` past the end. -/
theorem C35_get_ind (n : Node) (i : Nat) :
    (∀ v, n.getInd i = .ok v ↔ ∃ l, n.yaml = .seq l ∧ l[i]? = some v) ∧
      (∀ e, n.getInd i = .error e → e = n.pos) := by
  obtain ⟨p, t, y⟩ := n
  cases y <;> simp [Node.getInd, Node.yaml, Node.pos, eq_comm]
  rename_i l
  cases l[i]? <;> simp [eq_comm]

/-- **C35.** `is_null` never panics and means the null variant. -/
theorem C35_is_null (n : Node) : ∃ b, n.isNull = .ok b ∧ (b = true ↔ n.yaml = .null) := by
  obtain ⟨p, t, y⟩ := n
  cases y <;> simp [Node.isNull, Node.yaml, Yaml.eq?]

example : (Node.mk 7 [] (.str b!"x")).asInt = .error 7 ∧ (Node.mk 7 [] (.int b!"0x1F")).asInt = .ok 31 :=
  ⟨rfl, rfl⟩

/-! ## C36: indexing -/

/-- **C36.** `node[key]` is `x` iff `get(key)` is `Ok(x)`; otherwise it panics. -/
theorem C36_index_key (h : HashCfg) (n k : Node) :
    (∀ x, n.indexKey h k = .ok x ↔ n.get h k = .ok (.ok x)) ∧
    (∀ e, n.get h k = .ok (.error e) → n.indexKey h k = .panic .outOfBound) ∧
    (∀ p, n.get h k = .panic p → n.indexKey h k = .panic p) := by
  obtain ⟨p, t, y⟩ := n
  cases y <;> simp [Node.get, Node.indexKey, Node.yaml, Node.pos]
  rename_i m
  cases entriesGet h k m <;> simp [Out.map]
  rename_i o
  cases o <;> simp

/-- **C36.** `node[Ind(i)]` agrees with `get_ind(i)` and panics otherwise. -/
theorem C36_index_ind (n : Node) (i : Nat) :
    (∀ x, n.indexInd i = .ok x ↔ n.getInd i = .ok x) ∧
    (∀ e, n.getInd i = .error e → ∃ p, n.indexInd i = .panic p) := by
  obtain ⟨p, t, y⟩ := n
  cases y <;> simp [Node.getInd, Node.indexInd, Node.yaml, Node.pos]
  rename_i l
  cases l[i]? <;> simp

/-- **C36.** `get_default` gives the default exactly when the map lacks the key,
and otherwise the factory's answer for the value `get` finds. -/
theorem C36_get_default {α : Type} (h : HashCfg) (n k : Node) (d : α) (f : Node → Except Nat α) :
    (∀ x, n.get h k = .ok (.ok x) → n.getDefault h k d f = .ok (f x)) ∧
    (∀ m, n.yaml = .map m → entriesGet h k m = .ok none → n.getDefault h k d f = .ok (.ok d)) ∧
    ((∀ m, n.yaml ≠ .map m) → n.getDefault h k d f = .ok (.error n.pos)) := by
  obtain ⟨p, t, y⟩ := n
  cases y <;> simp [Node.get, Node.getDefault, Node.yaml, Node.pos]
  rename_i m
  cases entriesGet h k m <;> simp [Out.map]
  rename_i o
  cases o <;> simp

example : (Node.ofYaml (.seq [.ofYaml .null, .ofYaml (.bool true)])).indexInd 1 =
    .ok (.ofYaml (.bool true)) := rfl

/-! ## C37: `tag()` -/

/-- Names of the variants in the core schema. -/
inductive CoreTag : Yaml → Bytes → Prop
  | null : CoreTag .null b!"tag:yaml.org,2002:null"
  | bool {v} : CoreTag (.bool v) b!"tag:yaml.org,2002:bool"
  | int {s} : CoreTag (.int s) b!"tag:yaml.org,2002:int"
  | float {s} : CoreTag (.float s) b!"tag:yaml.org,2002:float"
  | str {s} : CoreTag (.str s) b!"tag:yaml.org,2002:str"
  | seq {l} : CoreTag (.seq l) b!"tag:yaml.org,2002:seq"
  | map {m} : CoreTag (.map m) b!"tag:yaml.org,2002:map"
  | alias {a} : CoreTag (.alias a) []

/-- **C37.** -/
theorem C37_tag (p : Nat) (t : Bytes) (y : Yaml) :
    (t ≠ [] → (Node.new y p t).tagOf = t) ∧ (t = [] → CoreTag y (Node.new y p t).tagOf) := by
  constructor
  · intro h
    cases t with
    | nil => exact absurd rfl h
    | cons x xs => rfl
  · rintro rfl
    cases y <;> constructor

/-! ## C38: integers -/

/-- **C38.** `Node::from(i).as_int()` gives back every `i64`. -/
theorem C38_int_round_trip (i : Int) (hi : -(2 ^ 63) ≤ i ∧ i < 2 ^ 63) :
    (Node.ofYaml (.ofInt i)).asInt = .ok i := by
  have : inI64 i = true := by simp [inI64]; omega
  simp [Node.asInt, Node.ofYaml, Yaml.ofInt, Node.yaml, toI64_intDec, this]

/-- **C38.** An integer of a wider type outside of `i64` is `Err(pos)`. -/
theorem C38_int_out_of_range (i : Int) (hi : ¬(-(2 ^ 63) ≤ i ∧ i < 2 ^ 63)) (p : Nat) :
    (Node.new (.ofInt i) p []).asInt = .error p := by
  have : inI64 i = false := by
    cases h : inI64 i with
    | false => rfl
    | true => simp [inI64] at h; omega
  simp [Node.asInt, Node.new, Yaml.ofInt, Node.yaml, Node.pos, toI64_intDec, this]

example : (Node.ofYaml (.ofInt (-9223372036854775808))).asInt = .ok (-9223372036854775808) := by
  exact C38_int_round_trip _ (by omega)

/-! ## C51: `as_anchor` -/

/-- **C51.** `as_anchor` resolves an alias through the given table, fails with the
position for an unknown name, and is the identity on every other node. -/
theorem C51_as_anchor (n : Node) (t : List (Bytes × Node)) :
    (∀ a m, n.yaml = .alias a → mapGet a t = some m → n.asAnchor t = .ok m) ∧
    (∀ a, n.yaml = .alias a → mapGet a t = none → n.asAnchor t = .error n.pos) ∧
    ((∀ a, n.yaml ≠ .alias a) → n.asAnchor t = .ok n) := by
  obtain ⟨p, tg, y⟩ := n
  cases y <;> simp [Node.asAnchor, Node.yaml, Node.pos]
  rename_i a
  refine ⟨?_, ?_⟩
  · rintro _ m rfl h
    simp [h]
  · intro h
    simp [h]

/-- **C51.** The table lookup finds exactly the node inserted last under the name. -/
theorem C51_table (a a' : Bytes) (m : Node) (t : List (Bytes × Node)) :
    mapGet a' (mapInsert a m t) = if a' = a then some m else mapGet a' t :=
  mapGet_mapInsert a a' m t

end YamlPeg.Props
