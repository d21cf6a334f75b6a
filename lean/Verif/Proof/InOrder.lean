import Verif.Spec.InOrder
import Verif.Spec.Amount
import Verif.Proof.LoaderTop
import Verif.Proof.RunsD
import Verif.Proof.Fresh
import Verif.Proof.Extent
/-! # Positions in the order of the text -/

namespace YamlPeg
open M

theorem mem_positionsL {p : Nat} : ∀ {l : List Node}, p ∈ positionsL l ↔ ∃ x ∈ l, p ∈ x.positions
  | [] => by simp [positionsL]
  | x :: r => by simp [positionsL, mem_positionsL (l := r)]

theorem mem_positionsM {p : Nat} : ∀ {l : List (Node × Node)},
    p ∈ positionsM l ↔ ∃ e ∈ l, p ∈ e.1.positions ∨ p ∈ e.2.positions
  | [] => by simp [positionsM]
  | (k, v) :: r => by simp [positionsM, positionsE, mem_positionsM (l := r), or_assoc]

theorem positionsL_append {l r : List Node} : positionsL (l ++ r) = positionsL l ++ positionsL r := by
  induction l with
  | nil => simp [positionsL]
  | cons x l ih => simp [positionsL, ih]

theorem positionsM_append {l r : List (Node × Node)} : positionsM (l ++ r) = positionsM l ++ positionsM r := by
  induction l with
  | nil => simp [positionsM]
  | cons x l ih => simp [positionsM, ih]

theorem length_positionsM_cons {k v : Node} {r : List (Node × Node)} :
    (positionsM ((k, v) :: r)).length = k.positions.length + v.positions.length + (positionsM r).length := by
  simp [positionsM, positionsE]; omega

/-- What is claimed of one node, with the texts ending at `b`. -/
def HereD (D : Bytes) (b : Nat) (n : Node) : Prop :=
  (∀ p ∈ n.yaml.positions, n.pos ≤ p) ∧ ClearHere D n ∧ WrittenY D n.pos b n.yaml

theorem WrittenY.mono {D : Bytes} {a b a' b' : Nat} {y : Yaml} (h : WrittenY D a b y) (ha : a' ≤ a) (hb : b ≤ b') :
    WrittenY D a' b' y := by
  cases y with
  | int s => obtain ⟨q, t, r, h1, h2, h3, h4⟩ := h; exact ⟨q, t, r, h1, h2, by omega, by omega⟩
  | float s =>
    rcases h with h | ⟨q, t, r, h1, h2, h3, h4⟩
    · exact .inl ⟨h.1, Nat.le_trans h.2 (Nat.mul_le_mul_left _ (by omega))⟩
    · exact .inr ⟨q, t, r, h1, h2, by omega, by omega⟩
  | alias s => obtain ⟨q, r, h1, h2, h3, h4⟩ := h; exact ⟨q, r, h1, h2, by omega, by omega⟩
  | str s => exact Nat.le_trans (show _ ≤ _ from h) (Nat.mul_le_mul_left _ (by omega))
  | _ => trivial

theorem HereD.mono {D : Bytes} {b b' : Nat} {n : Node} (h : HereD D b n) (hb : b ≤ b') : HereD D b' n :=
  ⟨h.1, h.2.1, h.2.2.mono (Nat.le_refl _) hb⟩

theorem everywhereD_mono {D : Bytes} {b b' : Nat} {n : Node} (h : Everywhere (HereD D b) n) (hb : b ≤ b') :
    Everywhere (HereD D b') n := fun m hm => (h m hm).mono hb

theorem HereD.inOrder {D : Bytes} {b : Nat} {n : Node} (h : HereD D b n) : InOrderHere n := by
  refine ⟨h.1, ?_⟩
  have h2 := h.2.1
  unfold ClearHere at h2
  split
  · rename_i l e
    rw [e] at h2
    exact List.Pairwise.imp (fun h => h.1) h2
  · rename_i m e
    rw [e] at h2
    exact ⟨fun e he => (h2.1 e he).1, List.Pairwise.imp (fun h => ⟨h.1.1, h.2.1⟩) h2.2⟩
  · trivial

theorem amountL_append {l r : List Node} : amountL (l ++ r) = amountL l + amountL r := by
  induction l with
  | nil => simp [amountL]
  | cons x l ih => simp [amountL, ih]; omega

theorem amountM_append {l r : List (Node × Node)} : amountM (l ++ r) = amountM l + amountM r := by
  induction l with
  | nil => simp [amountM]
  | cons x l ih => simp [amountM, ih]; omega

theorem amountM_cons {k v : Node} {r : List (Node × Node)} : amountM ((k, v) :: r) = k.amount + v.amount + amountM r := by
  simp [amountM, amountE]

theorem spread_pos (D : Bytes) : 1 ≤ spread D := by unfold spread; split <;> omega

theorem spread_room {D : Bytes} {a b q k t : Nat} (h1 : a ≤ q) (h2 : q + t ≤ b) (h3 : k ≤ t) :
    k + spread D * a ≤ spread D * b := by
  have h4 : spread D * (a + t) ≤ spread D * b := Nat.mul_le_mul_left _ (by omega)
  have h5 : 1 * t ≤ spread D * t := Nat.mul_le_mul_right _ (spread_pos D)
  rw [Nat.mul_add] at h4
  omega

theorem spread_sub {D : Bytes} {a b k : Nat} (hab : a ≤ b) (h : k ≤ spread D * (b - a)) : k + spread D * a ≤ spread D * b := by
  have h1 : spread D * ((b - a) + a) = spread D * (b - a) + spread D * a := Nat.mul_add ..
  rw [show b - a + a = b by omega] at h1
  omega

theorem WrittenY.amount {D : Bytes} {a b : Nat} {y : Yaml} (h : WrittenY D a b y) (hab : a ≤ b) (hs : ∀ l, y ≠ .seq l)
    (hm : ∀ m, y ≠ .map m) : y.amount + spread D * a ≤ spread D * b := by
  cases y with
  | seq l => exact (hs l rfl).elim
  | map m => exact (hm m rfl).elim
  | int s =>
    obtain ⟨q, t, r, -, ⟨_, _, _, rfl, -⟩, h3, h4⟩ := h
    exact spread_room h3 h4 (by simp [Yaml.amount])
  | float s =>
    rcases h with h | ⟨q, t, r, -, ht, h3, h4⟩
    · exact spread_sub hab h.2
    · refine spread_room h3 h4 ?_
      rcases ht with ⟨_, _, _, rfl, -, -, -, ⟨-, rfl⟩ | ⟨-, rfl⟩⟩ | ⟨_, _, _, _, _, rfl, -⟩ <;>
        simp only [Yaml.amount, List.length_append] <;> omega
  | alias s =>
    obtain ⟨q, r, -, -, h3, h4⟩ := h
    exact spread_room h3 h4 (by simp [Yaml.amount])
  | str s => exact spread_sub hab h
  | null => simp only [Yaml.amount]; have := Nat.mul_le_mul_left (spread D) hab; omega
  | bool b => simp only [Yaml.amount]; have := Nat.mul_le_mul_left (spread D) hab; omega

/-- A node inside `[a, b]`, in order, with at most two nodes per byte and one more. -/
def SpanN (D : Bytes) (a b : Nat) (n : Node) : Prop :=
  Everywhere (HereD D b) n ∧ (∀ p ∈ n.positions, a ≤ p ∧ p ≤ b) ∧ n.positions.length + 2 * a ≤ 2 * b + 1 ∧
  n.amount + spread D * a ≤ spread D * b

def SpanL (D : Bytes) (a b : Nat) (l : List Node) : Prop :=
  (∀ x ∈ l, SpanN D a b x) ∧ l.Pairwise (Node.Clear D) ∧ (positionsL l).length + 2 * a ≤ 2 * b ∧
  amountL l + spread D * a ≤ spread D * b

def SpanM (D : Bytes) (a b : Nat) (m : List (Node × Node)) : Prop :=
  (∀ e ∈ m, SpanN D a b e.1 ∧ SpanN D a b e.2 ∧ e.1.Clear D e.2) ∧
  (m.Pairwise fun e f => e.1.Clear D f.2 ∧ e.2.Clear D f.2) ∧ (positionsM m).length + 2 * a ≤ 2 * b ∧
  amountM m + spread D * a ≤ spread D * b

def SpanY (D : Bytes) (a b : Nat) : Yaml → Prop
  | .seq l => SpanL D a b l
  | .map m => SpanM D a b m
  | y => WrittenY D a b y

theorem SpanN.mono {a b a' b' : Nat} {n : Node} (h : SpanN D a b n) (ha : a' ≤ a) (hb : b ≤ b') : SpanN D a' b' n :=
  ⟨everywhereD_mono h.1 hb, fun p hp => ⟨Nat.le_trans ha (h.2.1 p hp).1, Nat.le_trans (h.2.1 p hp).2 hb⟩, by
    have := h.2.2; have h1 := Nat.mul_le_mul_left (spread D) ha; have h2 := Nat.mul_le_mul_left (spread D) hb; omega⟩

theorem SpanL.mono {a b a' b' : Nat} {n : List Node} (h : SpanL D a b n) (ha : a' ≤ a) (hb : b ≤ b') : SpanL D a' b' n :=
  ⟨fun x hx => (h.1 x hx).mono ha hb, h.2.1, by
    have := h.2.2; have h1 := Nat.mul_le_mul_left (spread D) ha; have h2 := Nat.mul_le_mul_left (spread D) hb; omega⟩

theorem SpanM.mono {a b a' b' : Nat} {n : List (Node × Node)} (h : SpanM D a b n) (ha : a' ≤ a) (hb : b ≤ b') : SpanM D a' b' n :=
  ⟨fun x hx => ⟨(h.1 x hx).1.mono ha hb, (h.1 x hx).2.1.mono ha hb, (h.1 x hx).2.2⟩, h.2.1, by
    have := h.2.2; have h1 := Nat.mul_le_mul_left (spread D) ha; have h2 := Nat.mul_le_mul_left (spread D) hb; omega⟩

theorem SpanY.mono {a b a' b' : Nat} {y : Yaml} (h : SpanY D a b y) (ha : a' ≤ a) (hb : b ≤ b') : SpanY D a' b' y := by
  cases y with
  | seq l => exact SpanL.mono h ha hb
  | map m => exact SpanM.mono h ha hb
  | _ => exact WrittenY.mono (by simpa only [SpanY] using h) ha hb

theorem SpanN.before {a b c d : Nat} {x y : Node} (hx : SpanN D a b x) (hy : SpanN D c d y) (h : b < c) : x.Clear D y :=
  ⟨fun p hp q hq => Nat.lt_of_le_of_lt (hx.2.1 p hp).2 (Nat.lt_of_lt_of_le h (hy.2.1 q hq).1), fun p hp m hm =>
    ((hx.1 m hm).mono (b' := p) (by have := (hy.2.1 p hp).1; omega)).2.2⟩

theorem SpanY.positions {a b : Nat} {y : Yaml} (h : SpanY D a b y) : ∀ p ∈ y.positions, a ≤ p ∧ p ≤ b := by
  intro p hp
  cases y with
  | seq l =>
    obtain ⟨x, hx, hp⟩ := mem_positionsL.1 (by simpa only [Yaml.positions] using hp)
    exact (h.1 x hx).2.1 p hp
  | map m =>
    obtain ⟨e, he, hp⟩ := mem_positionsM.1 (by simpa only [Yaml.positions] using hp)
    exact hp.elim ((h.1 e he).1.2.1 p) ((h.1 e he).2.1.2.1 p)
  | _ => simp [Yaml.positions] at hp

theorem SpanY.kids {a b : Nat} {y : Yaml} (h : SpanY D a b y) : Yaml.Kids (Everywhere (HereD D b)) y := by
  cases y with
  | seq l => exact fun x hx => (h.1 x hx).1
  | map m => exact fun k v hx => ⟨(h.1 _ hx).1.1, (h.1 _ hx).2.1.1⟩
  | _ => trivial

theorem SpanY.length {a b : Nat} {y : Yaml} (h : SpanY D a b y) (hab : a ≤ b) : y.positions.length + 2 * a ≤ 2 * b := by
  cases y with
  | seq l => simpa only [Yaml.positions] using h.2.2.1
  | map m => simpa only [Yaml.positions] using h.2.2.1
  | _ => simp only [Yaml.positions, List.length_nil]; omega

theorem SpanY.amount {a b : Nat} {y : Yaml} (h : SpanY D a b y) (hab : a ≤ b) : y.amount + spread D * a ≤ spread D * b := by
  cases y with
  | seq l => simpa only [Yaml.amount] using h.2.2.2
  | map m => simpa only [Yaml.amount] using h.2.2.2
  | _ => exact WrittenY.amount (by simpa only [SpanY] using h) hab (by simp) (by simp)

theorem SpanY.node {a b : Nat} {t : Bytes} {y : Yaml} (h : SpanY D a b y) (hab : a ≤ b) : SpanN D a b (.mk a t y) := by
  refine ⟨everywhere_mk.2 ⟨⟨fun p hp => (h.positions p hp).1, ?_, ?_⟩, h.kids⟩, ?_, ?_⟩
  · cases y with
    | seq l => exact h.2.1
    | map m => exact ⟨fun e he => (h.1 e he).2.2, h.2.1⟩
    | _ => trivial
  · cases y with
    | seq l => trivial
    | map m => trivial
    | _ => exact h
  · intro p hp
    simp only [Node.positions, List.mem_cons] at hp
    rcases hp with rfl | hp
    · exact ⟨Nat.le_refl _, hab⟩
    · exact h.positions p hp
  · have := h.length hab
    have := h.amount hab
    simp only [Node.positions, Node.amount, List.length_cons]
    omega

theorem positionsL_le {x : Node} : ∀ {l : List Node}, x ∈ l → x.positions.length ≤ (positionsL l).length
  | y :: r, h => by
    simp only [positionsL, List.length_append]
    rcases List.mem_cons.1 h with rfl | h
    · omega
    · have := positionsL_le h; omega

theorem positionsM_le {e : Node × Node} : ∀ {l : List (Node × Node)}, e ∈ l →
    e.1.positions.length + e.2.positions.length ≤ (positionsM l).length
  | (k, v) :: r, h => by
    rw [length_positionsM_cons]
    rcases List.mem_cons.1 h with rfl | h
    · simp only; omega
    · have := positionsM_le h; omega

theorem amountL_le {x : Node} : ∀ {l : List Node}, x ∈ l → x.amount ≤ amountL l
  | y :: r, h => by
    simp only [amountL]
    rcases List.mem_cons.1 h with rfl | h
    · omega
    · have := amountL_le h; omega

theorem amountM_le {e : Node × Node} : ∀ {l : List (Node × Node)}, e ∈ l → e.1.amount + e.2.amount ≤ amountM l
  | (k, v) :: r, h => by
    rw [amountM_cons]
    rcases List.mem_cons.1 h with rfl | h
    · simp only; omega
    · have := amountM_le h; omega

theorem SpanN.yaml {a b : Nat} {n : Node} (h : SpanN D a b n) : SpanY D a b n.yaml := by
  obtain ⟨p, t, y⟩ := n
  obtain ⟨h1, h2, h5⟩ := h
  obtain ⟨⟨_, h3, h6⟩, h4⟩ := everywhere_mk.1 h1
  have h7 := h2 p (by simp [Node.positions])
  simp only [Node.positions, Node.amount, List.mem_cons, List.length_cons] at h2 h5
  cases y with
  | seq l =>
    simp only [Yaml.positions, Yaml.amount] at h5
    refine ⟨fun x hx => ⟨h4 x hx, fun q hq => h2 q (.inr ?_), ?_⟩, h3, by omega⟩
    · simpa only [Yaml.positions] using mem_positionsL.2 ⟨x, hx, hq⟩
    · have := positionsL_le hx; have := amountL_le hx; omega
  | map m =>
    simp only [Yaml.positions, Yaml.amount] at h5
    refine ⟨fun e he => ⟨⟨(h4 e.1 e.2 he).1, fun q hq => h2 q (.inr ?_), ?_⟩, ⟨(h4 e.1 e.2 he).2, fun q hq => h2 q (.inr ?_), ?_⟩,
      h3.1 e he⟩, h3.2, by omega⟩
    · simpa only [Yaml.positions] using mem_positionsM.2 ⟨e, he, .inl hq⟩
    · have := positionsM_le he; have := amountM_le he; omega
    · simpa only [Yaml.positions] using mem_positionsM.2 ⟨e, he, .inr hq⟩
    · have := positionsM_le he; have := amountM_le he; omega
  | _ => exact WrittenY.mono h6 h7.1 (Nat.le_refl _)

theorem SpanL.snoc {a b c d : Nat} {v : List Node} {x : Node} (hv : SpanL D a b v) (hx : SpanN D c d x) (h : b < c) (ha : a ≤ b)
    (hd : c ≤ d) : SpanL D a d (v ++ [x]) := by
  refine ⟨fun y hy => ?_, List.pairwise_append.2 ⟨hv.2.1, by simp, fun y hy z hz => ?_⟩, ?_⟩
  · rcases List.mem_append.1 hy with h1 | h1
    · exact (hv.1 y h1).mono (Nat.le_refl _) (by omega)
    · simp at h1; subst h1; exact hx.mono (by omega) (Nat.le_refl _)
  · simp at hz; subst hz
    exact (hv.1 y hy).before hx h
  · have h1 := hv.2.2
    have h2 := hx.2.2
    have h3 := Nat.mul_le_mul_left (spread D) (Nat.le_of_lt h)
    have h4 := Nat.mul_le_mul_left (spread D) hd
    rw [positionsL_append, amountL_append]
    simp only [positionsL, amountL, List.length_append, List.append_nil]
    omega

theorem SpanM.snoc {a b e c d : Nat} {m : List (Node × Node)} {k v : Node} (hm : SpanM D a b m) (hk : SpanN D b e k) (hv : SpanN D c d v)
    (hab : a ≤ b) (hbe : b ≤ e) (hec : e < c) (hcd : c ≤ d) : SpanM D a d (m ++ [(k, v)]) := by
  refine ⟨fun y hy => ?_, List.pairwise_append.2 ⟨hm.2.1, by simp, fun y hy z hz => ?_⟩, ?_⟩
  · rcases List.mem_append.1 hy with h1 | h1
    · have := hm.1 y h1
      exact ⟨this.1.mono (Nat.le_refl _) (by omega), this.2.1.mono (Nat.le_refl _) (by omega), this.2.2⟩
    · simp at h1; subst h1
      exact ⟨hk.mono hab (by omega), hv.mono (by omega) (Nat.le_refl _), hk.before hv hec⟩
  · simp at hz; subst hz
    exact ⟨(hm.1 y hy).1.before hv (by omega), (hm.1 y hy).2.1.before hv (by omega)⟩
  · have h1 := hm.2.2
    have h2 := hk.2.2
    have h3 := hv.2.2
    have h4 := Nat.mul_le_mul_left (spread D) (Nat.le_of_lt hec)
    rw [positionsM_append, amountM_append]
    simp only [positionsM, positionsE, amountM, amountE, List.length_append, List.append_nil]
    omega

/-! ## Building the map -/

theorem entriesTake_sub {h : HashCfg} {k : Node} : ∀ {m : List (Node × Node)} {o : Option Node} {r : List (Node × Node)},
    entriesTake h k m = .ok (o, r) → r.Sublist m ∧ (∀ k', o = some k' → ∃ v', (k', v') ∈ m) ∧
      (positionsM r).length + (o.elim 0 fun k' => k'.positions.length) ≤ (positionsM m).length ∧
      amountM r + (o.elim 0 Node.amount) ≤ amountM m
  | [], o, r, e => by
    simp only [entriesTake, Out.ok.injEq, Prod.mk.injEq] at e
    obtain ⟨rfl, rfl⟩ := e
    simp
  | (k1, v1) :: m, o, r, e => by
    have next : (entriesTake h k m).map (fun (x, r') => (x, (k1, v1) :: r')) = .ok (o, r) →
        r.Sublist ((k1, v1) :: m) ∧ (∀ k', o = some k' → ∃ v', (k', v') ∈ (k1, v1) :: m) ∧
        (positionsM r).length + (o.elim 0 fun k' => k'.positions.length) ≤ (positionsM ((k1, v1) :: m)).length ∧
        amountM r + (o.elim 0 Node.amount) ≤ amountM ((k1, v1) :: m) := by
      intro e
      rcases hx : entriesTake h k m with ⟨o', r'⟩ | _ | _ | _
      · rw [hx] at e
        simp only [Out.map, Out.ok.injEq, Prod.mk.injEq] at e
        obtain ⟨rfl, rfl⟩ := e
        obtain ⟨h1, h2, h3⟩ := entriesTake_sub hx
        refine ⟨h1.cons_cons _, fun k' hk => ?_, ?_⟩
        · obtain ⟨v', hv⟩ := h2 k' hk
          exact ⟨v', by simp [hv]⟩
        · rw [length_positionsM_cons, length_positionsM_cons, amountM_cons, amountM_cons]; omega
      all_goals (rw [hx] at e; simp [Out.map] at e)
    simp only [entriesTake] at e
    split at e
    · rcases hq : Node.eq? k k1 with b | _ | _ | _
      · rw [hq] at e
        cases b
        · exact next e
        · simp only [Out.ok.injEq, Prod.mk.injEq] at e
          obtain ⟨rfl, rfl⟩ := e
          exact ⟨List.sublist_cons_self .., by rintro _ ⟨⟩; exact ⟨v1, by simp⟩, by
            rw [length_positionsM_cons, amountM_cons]; simp only [Option.elim]; omega⟩
      all_goals (rw [hq] at e; simp at e)
    · exact next e

theorem entriesInsert_sub {h : HashCfg} {k v : Node} {m r : List (Node × Node)} (e : entriesInsert h m k v = .ok r) :
    ∃ r' k', r = r' ++ [(k', v)] ∧ r'.Sublist m ∧ (k' = k ∨ ∃ v', (k', v') ∈ m) ∧
      (positionsM r).length ≤ (positionsM m).length + k.positions.length + v.positions.length ∧
      amountM r ≤ amountM m + k.amount + v.amount := by
  simp only [entriesInsert] at e
  rcases hx : entriesTake h k m with ⟨o, r'⟩ | _ | _ | _
  · rw [hx] at e
    obtain ⟨h1, h2, h3⟩ := entriesTake_sub hx
    have hl : ∀ k', (positionsM (r' ++ [(k', v)])).length = (positionsM r').length + k'.positions.length + v.positions.length := by
      intro k'
      rw [positionsM_append]
      simp only [positionsM, positionsE, List.length_append, List.append_nil]
      omega
    have ha : ∀ k', amountM (r' ++ [(k', v)]) = amountM r' + k'.amount + v.amount := by
      intro k'
      rw [amountM_append]
      simp only [amountM, amountE]
      omega
    cases o with
    | none =>
      simp [Out.map] at e
      simp only [Option.elim] at h3
      exact ⟨r', k, e.symm, h1, .inl rfl, by rw [← e, hl, ha]; omega⟩
    | some k' =>
      simp [Out.map] at e
      simp only [Option.elim] at h3
      exact ⟨r', k', e.symm, h1, .inr (h2 k' rfl), by rw [← e, hl, ha]; omega⟩
  all_goals (rw [hx] at e; simp [Out.map] at e)

theorem entriesCollect_span {h : HashCfg} {a b : Nat} : ∀ {m acc r : List (Node × Node)}, SpanM D a b (acc ++ m) →
    entriesCollect h acc m = .ok r → SpanM D a b r
  | [], acc, r, hs, e => by
    simp only [entriesCollect, Out.ok.injEq] at e
    subst e
    simpa using hs
  | (k, v) :: m, acc, r, hs, e => by
    simp only [entriesCollect] at e
    rcases hx : entriesInsert h acc k v with acc' | _ | _ | _
    · rw [hx] at e
      refine entriesCollect_span ?_ e
      obtain ⟨r', k', rfl, h1, h2, h3⟩ := entriesInsert_sub hx
      obtain ⟨hall, hpw, hlen⟩ := hs
      obtain ⟨p1, p2, p3⟩ := List.pairwise_append.1 hpw
      obtain ⟨p4, p5⟩ := List.pairwise_cons.1 p2
      have hkv := hall (k, v) (by simp)
      have hk' : SpanN D a b k' ∧ k'.Clear D v ∧ ∀ f ∈ m, k'.Clear D f.2 := by
        rcases h2 with rfl | ⟨v', hv'⟩
        · exact ⟨hkv.1, hkv.2.2, fun f hf => (p4 f hf).1⟩
        · exact ⟨(hall _ (List.mem_append_left _ hv')).1, (p3 _ hv' (k, v) (by simp)).1,
            fun f hf => (p3 _ hv' f (by simp [hf])).1⟩
      refine ⟨fun y hy => ?_, ?_, ?_⟩
      · simp only [List.append_assoc, List.mem_append, List.mem_cons, List.not_mem_nil, or_false] at hy
        rcases hy with hy | rfl | hy
        · exact hall y (List.mem_append_left _ (h1.subset hy))
        · exact ⟨hk'.1, hkv.2.1, hk'.2.1⟩
        · exact hall y (by simp [hy])
      · rw [List.append_assoc]
        refine List.pairwise_append.2 ⟨p1.sublist h1, ?_, fun y hy z hz => ?_⟩
        · exact List.pairwise_cons.2 ⟨fun f hf => ⟨hk'.2.2 f hf, (p4 f hf).2⟩, p5⟩
        · rcases List.mem_cons.1 (show z ∈ (k', v) :: m from hz) with rfl | hz
          · exact p3 y (h1.subset hy) (k, v) (by simp)
          · exact p3 y (h1.subset hy) z (by simp [hz])
      · rw [positionsM_append, List.length_append, amountM_append] at hlen ⊢
        rw [length_positionsM_cons, amountM_cons] at hlen
        omega
    all_goals (rw [hx] at e; simp at e)

/-! ## A program logic for the marks -/

/-- The state while aliases stay aliases. -/
def SW (c : LCfg) (l : Loader) : Prop := PWF c.p l.parser ∧ l.cyclicMode = true

/-- What is known of a result, and that the mark does not move back. -/
def Sp (c : LCfg) {α : Type} (x : LM α) (l : Loader) (Q : α → Loader → Prop) : Prop :=
  match x l with
  | (.ok a, l') => SW c l' ∧ l.parser.eaten ≤ l'.parser.eaten ∧ Q a l'
  | (.err .mismatch, l') => SW c l' ∧ l.parser.eaten ≤ l'.parser.eaten
  | _ => True

section
variable {c : LCfg} {α β : Type} {l : Loader}

theorem SW.le (h : SW c l) : l.parser.eaten ≤ l.parser.pos := h.1.eaten

theorem SW.tc (h : SW c l) : PWF (tc c.doc) l.parser :=
  ⟨h.1.doc, fun h => h.elim, Nat.zero_le _, h.1.eaten, h.1.pos, h.1.indent, h.1.tag1, h.1.tag2⟩

theorem Sp.mono {x : LM α} {Q Q' : α → Loader → Prop} (h : Sp c x l Q) (hq : ∀ a l', Q a l' → Q' a l') : Sp c x l Q' := by
  unfold Sp at *
  split at h
  · exact ⟨h.1, h.2.1, hq _ _ h.2.2⟩
  · exact h
  · trivial

theorem Sp.pure {a : α} {Q : α → Loader → Prop} (hl : SW c l) (h : Q a l) : Sp c (pure a) l Q := ⟨hl, Nat.le_refl _, h⟩

theorem Sp.bind {x : LM α} {f : α → LM β} {Q : α → Loader → Prop} {Q' : β → Loader → Prop} (hx : Sp c x l Q)
    (hf : ∀ a l', SW c l' → l.parser.eaten ≤ l'.parser.eaten → Q a l' → Sp c (f a) l' Q') : Sp c (x >>= f) l Q' := by
  unfold Sp at hx
  rcases hr : x l with ⟨r, l1⟩
  rw [hr] at hx
  unfold Sp
  cases r with
  | ok a =>
    rw [bind_ok hr]
    obtain ⟨h1, h2, h3⟩ := hx
    have := hf a l1 h1 h2 h3
    unfold Sp at this
    split at this
    · exact ⟨this.1, Nat.le_trans h2 this.2.1, this.2.2⟩
    · exact ⟨this.1, Nat.le_trans h2 this.2⟩
    · trivial
  | err e =>
    rw [bind_err hr]
    cases e with
    | mismatch => exact hx
    | terminate n m => trivial
  | panic p => rw [bind_panic hr]; trivial
  | diverge => rw [bind_diverge hr]; trivial

theorem Sp.orElse {x y : LM α} {Q : α → Loader → Prop} (hx : Sp c x l Q)
    (hy : ∀ l', SW c l' → l.parser.eaten ≤ l'.parser.eaten → Sp c y l' Q) : Sp c (orElseMismatch x y) l Q := by
  unfold Sp at hx
  rcases hr : x l with ⟨r, l1⟩
  rw [hr] at hx
  unfold Sp
  simp only [orElseMismatch, hr]
  cases r with
  | ok a => exact hx
  | err e =>
    cases e with
    | mismatch =>
      have := hy l1 hx.1 hx.2
      unfold Sp at this
      split at this
      · rename_i e; simp only [e]; exact ⟨this.1, Nat.le_trans hx.2 this.2.1, this.2.2⟩
      · rename_i e; simp only [e]; exact ⟨this.1, Nat.le_trans hx.2 this.2⟩
      · trivial
    | terminate n m => trivial
  | panic p => trivial
  | diverge => trivial

theorem Sp.ite {p : Prop} [Decidable p] {x y : LM α} {Q : α → Loader → Prop} (hx : p → Sp c x l Q) (hy : ¬ p → Sp c y l Q) :
    Sp c (if p then x else y) l Q := by
  split
  · exact hx ‹_›
  · exact hy ‹_›

theorem lift_sp {x : PM α} {V : α → Prop} (h : (PF c.p).Holds x V) (hl : SW c l) : Sp c (lift x) l fun a _ => V a := by
  obtain ⟨h1, h2, h3⟩ := h l.parser hl.1
  unfold Sp
  simp only [lift]
  rcases hx : x l.parser with ⟨r, p⟩
  rw [hx] at h1 h2 h3
  cases r with
  | ok a => exact ⟨⟨h1, hl.2⟩, h2, h3⟩
  | err e =>
    cases e with
    | mismatch => exact ⟨⟨h1, hl.2⟩, h2⟩
    | terminate n m => trivial
  | panic p => trivial
  | diverge => trivial

theorem pk_sp {x : PM α} (h : (PK c.p).Holds x (fun _ => True)) (hl : SW c l) : Sp c (lift x) l fun _ _ => True :=
  lift_sp (pk_pf h) hl

theorem isOk_sp {x : PM α} (h : (PK c.p).Holds x (fun _ => True)) (hl : SW c l) : Sp c (isOk (lift x)) l fun _ _ => True := by
  rw [isOk_lift]; exact pk_sp (isOk_pk h) hl

theorem try_sp {x : PM α} (h : (PK c.p).Holds x (fun _ => True)) (hl : SW c l) : Sp c (try? (lift x)) l fun _ _ => True := by
  rw [try_lift]; exact pk_sp (Frame.Holds.try? h (fun _ _ => trivial) trivial) hl

theorem orDefault_sp {x : PM α} {d : α} (h : (PK c.p).Holds x (fun _ => True)) (hl : SW c l) :
    Sp c (lift (orDefault d x)) l fun _ _ => True := pk_sp (Frame.Holds.orDefault h trivial) hl

/-- Facts about the run itself can be added. -/
theorem Sp.with {x : LM α} {Q : α → Loader → Prop} {R : α → Loader → Prop} (h : Sp c x l Q)
    (hr : ∀ a l', x l = (.ok a, l') → R a l') : Sp c x l fun a l' => Q a l' ∧ R a l' := by
  unfold Sp at *
  split at h
  · rename_i e; exact ⟨h.1, h.2.1, h.2.2, hr _ _ e⟩
  · exact h
  · trivial

theorem forward_sp (hl : SW c l) : Sp c (lift forward) l fun _ l' => l'.parser.eaten = l.parser.pos ∧ l'.parser.pos = l.parser.pos :=
  ((lift_sp forward_pf hl).with (R := fun _ l' => l'.parser.eaten = l.parser.pos ∧ l'.parser.pos = l.parser.pos) fun a l' e => by
    simp only [lift, forward, modify_run, Prod.mk.injEq, true_and] at e
    rw [← e]; exact ⟨rfl, rfl⟩).mono fun _ _ h => h.2

theorem liftOk_run {x : PM α} {a : α} {l' : Loader} (e : lift x l = (.ok a, l')) : x l.parser = (.ok a, l'.parser) := by
  simp only [lift, Prod.mk.injEq] at e
  rw [← e.2, ← e.1]

theorem runs_ok {x : PM α} {s s' : Parser} {a : α} {Q : α → Parser → Prop} {E : PErr → Parser → Prop} (h : Runs x s Q E)
    (e : x s = (.ok a, s')) : Q a s' := by
  unfold Runs at h; rw [e] at h; exact h

theorem sym_sp {x : UInt8} (hl : SW c l) : Sp c (lift (sym x)) l fun _ l' => l'.parser.pos = l.parser.pos + 1 :=
  ((pk_sp sym_pk hl).with (R := fun _ l' => l'.parser.pos = l.parser.pos + 1) fun _ _ e =>
    (runs_ok (sym_runs hl.tc) (liftOk_run e)).2).mono fun _ _ h => h.2

theorem isOk_true_sp {x : LM α} {l' : Loader} (e : isOk x l = (.ok true, l')) : ∃ a, x l = (.ok a, l') := by
  simp only [isOk] at e
  rcases hx : x l with ⟨r, l1⟩
  rw [hx] at e
  cases r <;> simp at e
  subst e
  exact ⟨_, rfl⟩

theorem isSym_sp {x : UInt8} (hl : SW c l) : Sp c (isOk (lift (sym x))) l fun r l' => r = true → l'.parser.pos = l.parser.pos + 1 :=
  ((isOk_sp sym_pk hl).with (R := fun r l' => r = true → l'.parser.pos = l.parser.pos + 1) fun _ _ e => by
    rintro rfl
    obtain ⟨a, e⟩ := isOk_true_sp e
    exact (runs_ok (sym_runs hl.tc) (liftOk_run e)).2).mono fun _ _ h => h.2

theorem bound_sp (hl : SW c l) : Sp c (lift bound) l fun _ l' => l.parser.pos ≤ l'.parser.pos :=
  ((pk_sp bound_pk hl).with (R := fun _ l' => l.parser.pos ≤ l'.parser.pos) fun _ _ e =>
    (runs_ok (bound_runs hl.tc) (liftOk_run e)).2).mono fun _ _ h => h.2

theorem isBound_sp (hl : SW c l) : Sp c (isOk (lift bound)) l fun r l' => r = true → l.parser.pos ≤ l'.parser.pos :=
  ((isOk_sp bound_pk hl).with (R := fun r l' => r = true → l.parser.pos ≤ l'.parser.pos) fun _ _ e => by
    rintro rfl
    obtain ⟨a, e⟩ := isOk_true_sp e
    exact (runs_ok (bound_runs hl.tc) (liftOk_run e)).2).mono fun _ _ h => h.2

theorem inv_sp (hl : SW c l) : Sp c (lift (inv (.more 0))) l fun _ l' => l.parser.pos ≤ l'.parser.pos :=
  ((pk_sp inv_pk hl).with (R := fun _ l' => l.parser.pos ≤ l'.parser.pos) fun _ _ e =>
    (runs_ok (more0_runs (E := fun _ _ => True) hl.tc) (liftOk_run e)).2).mono fun _ _ h => h.2

theorem ctxBound_sp (hl : SW c l) : Sp c (lift (context (orDefault () bound))) l fun _ l' => l.parser.pos ≤ l'.parser.pos :=
  ((pk_sp (context_pk (pk_pf (Frame.Holds.orDefault bound_pk trivial))) hl).with
    (R := fun _ l' => l.parser.pos ≤ l'.parser.pos) fun _ l' e => by
    have e := liftOk_run e
    obtain ⟨k, pre, mid, post, he⟩ := PWF.exists_st hl.1
    rw [he] at e ⊢
    rw [ctxBound_eq] at e
    have e2 := (Prod.mk.inj e).2
    rw [← e2]
    split <;> simp).mono fun _ _ h => h.2

theorem lerr_sp {name : String} {Q : α → Loader → Prop} (hl : SW c l) : Sp c (lerr name) l Q := by
  unfold Sp
  simp only [lerr, lift, errAt]
  split <;> rename_i e <;> first | trivial | (split at e <;> simp at e)

theorem orErr_sp {x : LM α} {name : String} {Q : α → Loader → Prop} (h : Sp c x l Q) : Sp c (orErr x name) l Q :=
  h.orElse fun _ hl _ => lerr_sp hl

theorem runIf_sp {b : Bool} {x : LM Unit} (hl : SW c l) (h : Sp c x l fun _ _ => True) : Sp c (M.runIf b x) l fun _ _ => True := by
  cases b
  · exact Sp.pure hl trivial
  · exact h

/-! ## The loader -/

theorem nodeProps_sp (hl : SW c l) : Sp c nodeProps l fun _ l' => l'.parser.pos = l'.parser.eaten := by
  refine Sp.mono (Sp.with (Q := fun _ _ => True) ?_ fun _ _ e => nodeProps_ok e) fun _ _ h => h.2
  refine Sp.bind (orDefault_sp anchor_pk hl) fun a l hl _ _ => ?_
  refine Sp.bind (runIf_sp hl (pk_sp bound_pk hl)) fun _ l hl _ _ => ?_
  refine Sp.bind (forward_sp hl) fun _ l hl _ _ => ?_
  refine Sp.bind (orDefault_sp tag_pk' hl) fun t l hl _ _ => ?_
  refine Sp.bind (runIf_sp hl (pk_sp bound_pk hl)) fun _ l hl _ _ => ?_
  refine Sp.bind (forward_sp hl) fun _ l hl _ _ => ?_
  refine Sp.bind (orDefault_sp anchor_pk hl) fun a2 l hl _ _ => ?_
  refine Sp.bind (Q := fun _ _ => True) ?_ fun _ l hl _ _ => Sp.bind (forward_sp hl) fun _ l hl _ _ => Sp.pure hl trivial
  refine Sp.ite (fun _ => Sp.ite (fun _ => ?_) fun _ => lerr_sp hl) fun _ => Sp.pure hl trivial
  exact Sp.bind (pk_sp bound_pk hl) fun _ l hl _ _ => Sp.pure hl trivial

/-- A method that yields a node: it lies between the marks. -/
abbrev SpN (c : LCfg) (x : LM Node) : Prop := ∀ l, SW c l → Sp c x l fun n l' => SpanN c.doc l.parser.eaten l'.parser.eaten n

abbrev SpY (c : LCfg) (x : LM Yaml) : Prop := ∀ l, SW c l → Sp c x l fun y l' => SpanY c.doc l.parser.eaten l'.parser.pos y

/-- The same, when it begins with the cursor on the mark. -/
abbrev SpYF (c : LCfg) (x : LM Yaml) : Prop :=
  ∀ l, SW c l → Fr l.parser → Sp c x l fun y l' => SpanY c.doc l.parser.eaten l'.parser.pos y

theorem anchorInsert_sp {a : Bytes} {n : Node} (hl : SW c l) :
    Sp c (anchorInsert a n) l fun _ l' => l'.parser = l.parser := by
  unfold Sp
  cases h : l.anchors[l.docInd]? with
  | none =>
    have hc : curAnchors l = (.panic .index, l) := by simp only [curAnchors, h]
    simp only [anchorInsert, bind_run, hc]
  | some A =>
    have hc : curAnchors l = (.ok A, l) := by simp only [curAnchors, h]
    simp only [anchorInsert, bind_run, hc, modify_run, pure_run]
    exact ⟨hl, Nat.le_refl _, trivial⟩

theorem scalarNode_sp {f : LM Yaml} (hf : SpYF c f) : SpN c (scalarNode f) := by
  intro l hl
  refine Sp.bind (nodeProps_sp hl) fun at' l1 h1 e1 p1 => ?_
  obtain ⟨a, t⟩ := at'
  show Sp c (M.get >>= _) l1 _
  refine Sp.bind (Q := fun x l' => l' = l1 ∧ x = l1) ⟨h1, Nat.le_refl _, rfl, rfl⟩ fun x l1' _ _ he => ?_
  rw [he.1, he.2]
  refine Sp.bind (hf l1 h1 (.inl p1)) fun y l2 h2 e2 hy => Sp.bind (forward_sp h2) fun _ l3 h3 e3 p3 => ?_
  have hi : l1.parser.indicator = l1.parser.eaten := by
    have hc := h1.1.consumed trivial
    simp only [Parser.indicator, hc]
    omega
  have hn : SpanN c.doc l.parser.eaten l3.parser.eaten (Node.new y l1.parser.indicator t) := by
    rw [hi]
    exact (SpanY.node (t := t) (hy.mono (Nat.le_refl _) (Nat.le_of_eq p3.1.symm)) (Nat.le_trans e2 e3)).mono e1 (Nat.le_refl _)
  refine Sp.ite (fun _ => ?_) fun _ => Sp.pure h3 hn
  refine Sp.bind (anchorInsert_sp h3) fun b l4 h4 e4 p4 => Sp.ite (fun _ => lerr_sp h4) fun _ => Sp.pure h4 ?_
  rw [p4]; exact hn

theorem resolvePlain_span {a b : Nat} {s : Bytes} (h : s.length ≤ spread c.doc * (b - a)) : SpanY c.doc a b (resolvePlain s) := by
  have h1 := trimEnd_length s
  unfold resolvePlain
  repeat' split
  all_goals first
    | trivial
    | exact Nat.le_trans h1 h
    | (rename_i e
       simp only [Bool.or_eq_true, beq_iff_eq] at e
       refine .inl ⟨by simp, Nat.le_trans ?_ h⟩
       rcases e with (rfl | rfl) | rfl <;> decide)

/-- What a string method returns is not longer than what it read. -/
theorem string_sp {x : PM Bytes} {g : Bytes → Bytes} (hk : (PK c.p).Holds x (fun _ => True)) (hl : SW c l)
    (hx : Ex x l.parser fun s s' => (g s).length + spread c.doc * l.parser.pos ≤ spread c.doc * s'.pos) :
    Sp c (try? (lift x)) l fun o l' => ∀ s, o = some s → (g s).length ≤ spread c.doc * (l'.parser.pos - l.parser.eaten) := by
  refine ((try_sp hk hl).with (R := fun o l' => ∀ s, o = some s → (g s).length ≤ spread c.doc * (l'.parser.pos - l.parser.eaten))
    fun o l' e => ?_).mono fun _ _ h => h.2
  rintro s rfl
  rw [try_lift] at e
  have e := liftOk_run e
  rcases hr : x l.parser with ⟨r, s1⟩
  cases r with
  | ok a =>
    rw [try_ok hr] at e
    obtain ⟨e1, e2⟩ := Prod.mk.inj e
    cases e1
    have h1 := hx _ _ hr
    rw [e2] at h1
    have h2 := Nat.mul_le_mul_left (spread c.doc) hl.le
    rw [Nat.mul_sub]
    omega
  | err er => rw [try_err hr] at e; cases e
  | panic p => simp only [try?, hr] at e; cases e
  | diverge => simp only [try?, hr] at e; cases e

/-- What is read of a number. -/
theorem number_sp {x : PM Bytes} {f : Unit → PM Bytes} {L : Bytes → Bytes → Bytes → Prop} (hx : x = numPrefix >>= f)
    (hL : ∀ s : Parser, s.pos ≤ s.doc.length → s.eaten = s.pos → Props.Exact x L s s)
    (hk : (PK c.p).Holds x (fun _ => True)) (hl : SW c l) (hf : Fr l.parser) :
    Sp c (try? (lift x)) l fun o l' => (∀ s, o = some s → ∃ q t r, c.doc.drop q = t ++ r ∧ L t r s ∧ l.parser.eaten ≤ q ∧
      q + t.length ≤ l'.parser.pos) ∧ (o = none → Fr l'.parser) := by
  refine ((try_sp hk hl).with (R := fun o l' => (∀ s, o = some s → ∃ q t r, c.doc.drop q = t ++ r ∧ L t r s ∧
      l.parser.eaten ≤ q ∧ q + t.length ≤ l'.parser.pos) ∧ (o = none → Fr l'.parser)) fun o l' e => ?_).mono fun _ _ h => h.2
  have hd : l.parser.doc = c.doc := hl.1.doc
  rw [try_lift] at e
  have e := liftOk_run e
  rcases number_read hx hL hl.le (by rw [hd]; exact hl.1.pos) hf with ⟨t, r, a, h1, h2, h3⟩ | h3
  · rw [try_ok h3] at e
    obtain ⟨e1, e2⟩ := Prod.mk.inj e
    cases e1
    refine ⟨?_, by simp⟩
    rintro _ ⟨⟩
    exact ⟨_, t, r, by rw [← hd]; exact h1, h2, Nat.le_refl _, Nat.le_of_eq (by rw [← e2]; rfl)⟩
  · rw [try_err h3] at e
    obtain ⟨e1, e2⟩ := Prod.mk.inj e
    cases e1
    refine ⟨by simp, fun _ => ?_⟩
    rw [← e2]
    exact .inl rfl

theorem alias_sp (hl : SW c l) : Sp c (try? (lift anchorUse)) l fun o l' => ∀ s, o = some s →
    ∃ q r, c.doc.drop q = b!"*" ++ s ++ r ∧ Props.Name s r ∧ l.parser.eaten ≤ q ∧ q + (s.length + 1) ≤ l'.parser.pos := by
  refine ((try_sp anchorUse_pk hl).with (R := fun o l' => ∀ s, o = some s →
    ∃ q r, c.doc.drop q = b!"*" ++ s ++ r ∧ Props.Name s r ∧ l.parser.eaten ≤ q ∧ q + (s.length + 1) ≤ l'.parser.pos)
    fun o l' e => ?_).mono fun _ _ h => h.2
  rintro s rfl
  have hd : l.parser.doc = c.doc := hl.1.doc
  rw [try_lift] at e
  have e := liftOk_run e
  have ex := Props.C73_alias l.parser ⟨hl.le, by rw [hd]; exact hl.1.pos⟩
  by_cases hh : ∃ t r a, l.parser.doc.drop l.parser.pos = t ++ r ∧ t = b!"*" ++ a ∧ Props.Name a r
  · obtain ⟨t, r, a, h1, h2⟩ := hh
    rw [try_ok (ex.1 t r a h1 h2)] at e
    obtain ⟨e1, e2⟩ := Prod.mk.inj e
    cases e1
    obtain ⟨rfl, h2⟩ := h2
    refine ⟨_, r, by rw [← hd]; exact h1, h2, hl.le, Nat.le_of_eq ?_⟩
    rw [← e2]
    simp [Props.moved]
  · rw [try_err (ex.2 fun t r a h1 h2 => hh ⟨t, r, a, h1, h2⟩)] at e
    cases e

theorem scalarAtom_sp {n level : Nat} {flow : Bool} (hl : SW c l) (hf : Fr l.parser) :
    Sp c (scalarAtom n level flow) l fun o l' => ∀ y, o = some y → SpanY c.doc l.parser.eaten l'.parser.pos y := by
  refine Sp.bind (number_sp rfl Props.C74_float float_pk hl hf) fun o l1 h1 e1 ho => ?_
  cases o with
  | some s =>
    obtain ⟨q, t, r, g1, g2, g3, g4⟩ := ho.1 s rfl
    exact Sp.pure h1 (by rintro _ ⟨⟩; exact .inr ⟨q, t, r, g1, .inl g2, g3, g4⟩)
  | none =>
  refine Sp.bind (number_sp rfl Props.C74_sci_float sciFloat_pk h1 (ho.2 rfl)) fun o l2 h2 e2 ho => ?_
  cases o with
  | some s =>
    obtain ⟨q, t, r, g1, g2, g3, g4⟩ := ho.1 s rfl
    exact Sp.pure h2 (by rintro _ ⟨⟩; exact .inr ⟨q, t, r, g1, .inr g2, by omega, g4⟩)
  | none =>
  refine Sp.bind (number_sp rfl Props.C74_int int_pk h2 (ho.2 rfl)) fun o l3 h3 e3 ho => ?_
  cases o with
  | some s =>
    obtain ⟨q, t, r, g1, g2, g3, g4⟩ := ho.1 s rfl
    exact Sp.pure h3 (by rintro _ ⟨⟩; exact ⟨q, t, r, g1, g2, by omega, g4⟩)
  | none =>
  refine Sp.bind (alias_sp h3) fun o l4 h4 e4 ho => ?_
  cases o with
  | some s =>
    have hu : useAlias s l4 = (.ok (.alias s), l4) := by
      simp only [useAlias]
      rw [bind_ok (get_run _), if_pos h4.2]; rfl
    refine Sp.bind (Q := fun y l' => y = .alias s ∧ l' = l4) (by unfold Sp; rw [hu]; exact ⟨h4, Nat.le_refl _, rfl, rfl⟩) ?_
    rintro _ _ hl - ⟨rfl, rfl⟩
    obtain ⟨q, r, g1, g2, g3, g4⟩ := ho s rfl
    exact Sp.pure hl (by rintro _ ⟨⟩; exact ⟨q, r, g1, g2, by omega, g4⟩)
  | none =>
  have hc := spread_cost c.doc
  refine Sp.bind (string_sp (g := id) (stringQuoted_pk trivial) h4 (stringQuoted_ex hc h4.tc (by simp))) fun o l5 h5 e5 ho => ?_
  cases o with
  | some s => exact Sp.pure h5 (by
      rintro _ ⟨⟩
      exact Nat.le_trans (trimEnd_length s) (Nat.le_trans (ho s rfl) (Nat.mul_le_mul_left _ (by omega))))
  | none =>
  refine Sp.bind (string_sp (g := id) (stringQuoted_pk trivial) h5 (stringQuoted_ex hc h5.tc (by simp))) fun o l6 h6 e6 ho => ?_
  cases o with
  | some s => exact Sp.pure h6 (by
      rintro _ ⟨⟩
      exact Nat.le_trans (trimEnd_length _) (Nat.le_trans (escape_length s) (Nat.le_trans (ho s rfl) (Nat.mul_le_mul_left _ (by omega)))))
  | none =>
  refine Sp.bind (string_sp (g := id) (stringPlain_pk trivial) h6 (stringPlain_ex hc h6.tc)) fun o l7 h7 e7 ho => ?_
  cases o with
  | some s => exact Sp.pure h7 (by
      rintro _ ⟨⟩
      exact resolvePlain_span (Nat.le_trans (ho s rfl) (Nat.mul_le_mul_left _ (by omega))))
  | none => exact Sp.pure h7 (by simp)

/-- The recursive call. -/
def ScSp (c : LCfg) (sc : ScalarCall) : Prop := ∀ level map flow, SpN c (sc level map flow)

theorem diverge_sp {Q : α → Loader → Prop} : Sp c (M.diverge : LM α) l Q := trivial

theorem seqFlowLoop_sp {sc : ScalarCall} (hsc : ScSp c sc) {level : Nat} {a : Nat} : ∀ {n : Nat} {v : List Node} {b : Nat} {l : Loader},
    SW c l → a ≤ b → SpanL c.doc a b v → b < l.parser.pos →
    Sp c (seqFlowLoop sc level n v) l fun v' l' => ∃ b', SpanL c.doc a b' v' ∧ a ≤ b' ∧ b' ≤ l'.parser.pos := by
  intro n
  induction n with
  | zero => intros; exact diverge_sp
  | succ n ih =>
    intro v b l hl hab hv hb
    refine Sp.bind (inv_sp hl) fun _ l1 h1 e1 p1 => Sp.bind (forward_sp h1) fun _ l2 h2 e2 p2 => ?_
    refine Sp.bind (isSym_sp h2) fun _ l3 h3 e3 p3 => Sp.ite (fun _ => Sp.pure h3 ⟨b, hv, hab, ?_⟩) fun _ => ?_
    · have := h3.le; omega
    refine Sp.bind (forward_sp h3) fun _ l4 h4 e4 p4 => Sp.bind (orErr_sp (hsc _ _ _ l4 h4)) fun x l5 h5 e5 hx => ?_
    have hv' : SpanL c.doc a l5.parser.eaten (v ++ [x]) := hv.snoc hx (by omega) hab e5
    refine Sp.bind (inv_sp h5) fun _ l6 h6 e6 p6 => Sp.bind (isSym_sp h6) fun g l7 h7 e7 p7 => ?_
    have q5 := h5.le
    have q6 := h6.le
    refine Sp.ite (fun hg => ih h7 (by omega) hv' (by have := p7 hg; omega)) fun _ => ?_
    refine Sp.bind (inv_sp h7) fun _ l8 h8 e8 p8 => Sp.bind (sym_sp h8) fun _ l9 h9 e9 p9 => Sp.pure h9 ⟨_, hv', by omega, ?_⟩
    have := h9.le; omega

theorem spanL_nil {a : Nat} : SpanL c.doc a a [] := ⟨by simp, by simp, by simp [positionsL, amountL]⟩
theorem spanM_nil {a : Nat} : SpanM c.doc a a [] := ⟨by simp, by simp, by simp [positionsM, amountM]⟩

theorem seqFlow_sp {sc : ScalarCall} (hsc : ScSp c sc) {level n : Nat} : SpY c (seqFlow sc n level) := by
  intro l hl
  refine Sp.bind (sym_sp hl) fun _ l1 h1 e1 p1 => ?_
  have q := hl.le
  refine Sp.bind (seqFlowLoop_sp hsc (a := l.parser.eaten) (b := l.parser.eaten) h1 (Nat.le_refl _) spanL_nil (by omega))
    fun v l2 h2 e2 hv => ?_
  refine Sp.bind (forward_sp h2) fun _ l3 h3 e3 p3 => Sp.pure h3 ?_
  obtain ⟨b, hv, hab, hb⟩ := hv
  exact SpanL.mono hv (Nat.le_refl _) (by omega)

theorem gapThenInd_sp {level : Nat} (hl : SW c l) : Sp c (gapThenInd level) l fun _ _ => True :=
  Sp.bind (isOk_sp gap_pk hl) fun _ _ hl _ _ => Sp.ite (fun _ => pk_sp ind_pk hl) fun _ => Sp.pure hl trivial

theorem complexKey_sp {sc : ScalarCall} (hsc : ScSp c sc) {level : Nat} {map flow : Bool} {name : String} :
    SpN c (complexKey sc level map flow name) := by
  intro l hl
  refine Sp.bind (forward_sp hl) fun _ l1 h1 e1 p1 => Sp.bind (orErr_sp (hsc _ _ _ l1 h1)) fun k l2 h2 e2 hk => ?_
  exact Sp.bind (gapThenInd_sp h2) fun _ l3 h3 e3 _ => Sp.pure h3 (hk.mono e1 e3)

theorem mapFlowLoop_sp {sc : ScalarCall} (hsc : ScSp c sc) {sf : LM Node} (hsf : SpN c sf) {level : Nat} {a : Nat} :
    ∀ {n : Nat} {m : List (Node × Node)} {b : Nat} {l : Loader}, SW c l → a ≤ b → SpanM c.doc a b m → b ≤ l.parser.pos →
    Sp c (mapFlowLoop sc sf level n m) l fun m' l' => ∃ b', SpanM c.doc a b' m' ∧ a ≤ b' ∧ b' ≤ l'.parser.pos := by
  intro n
  induction n with
  | zero => intros; exact diverge_sp
  | succ n ih =>
    intro m b l hl hab hm hb
    refine Sp.bind (inv_sp hl) fun _ l1 h1 e1 p1 => Sp.bind (forward_sp h1) fun _ l2 h2 e2 p2 => ?_
    refine Sp.bind (isSym_sp h2) fun _ l3 h3 e3 p3 => Sp.ite (fun _ => Sp.pure h3 ⟨b, hm, hab, ?_⟩) fun _ => ?_
    · have := h3.le; omega
    refine Sp.bind (forward_sp h3) fun _ l4 h4 e4 p4 => Sp.bind (Q := fun k l' => SpanN c.doc l4.parser.eaten l'.parser.eaten k) ?_
      fun k l5 h5 e5 hk => ?_
    · refine Sp.bind (isOk_sp complexMapping_pk h4) fun _ l5 h5 e5 _ => Sp.ite (fun _ => ?_) fun _ => ?_
      · exact (complexKey_sp hsc l5 h5).mono fun _ _ h => h.mono e5 (Nat.le_refl _)
      · exact (orErr_sp (hsf l5 h5)).mono fun _ _ h => h.mono e5 (Nat.le_refl _)
    refine Sp.bind (isSym_sp h5) fun g l6 h6 e6 p6 => Sp.ite (fun hg => ?_) fun _ => lerr_sp h6
    have p6 := p6 hg
    refine Sp.bind (ctxBound_sp h6) fun _ l7 h7 e7 p7 => Sp.bind (forward_sp h7) fun _ l8 h8 e8 p8 => ?_
    refine Sp.bind (orErr_sp (hsc _ _ _ l8 h8)) fun v l9 h9 e9 hv => ?_
    have q5 := h5.le
    have hm' : SpanM c.doc a l9.parser.eaten (m ++ [(k, v)]) :=
      hm.snoc (hk.mono (by omega) (Nat.le_refl _)) hv hab (by omega) (by omega) e9
    have q9 := h9.le
    refine Sp.bind (isSym_sp h9) fun g l10 h10 e10 p10 => ?_
    refine Sp.ite (fun hg => ih h10 (by omega) hm' (by have := p10 hg; omega)) fun _ => ?_
    refine Sp.bind (inv_sp h10) fun _ l11 h11 e11 p11 => Sp.bind (sym_sp h11) fun _ l12 h12 e12 p12 =>
      Sp.pure h12 ⟨_, hm', by omega, ?_⟩
    have := h12.le; omega

theorem collectMap_sp {m : List (Node × Node)} {a : Nat} (hl : SW c l) (hm : SpanM c.doc a l.parser.eaten m) :
    Sp c (collectMap m) l fun y l' => SpanY c.doc a l'.parser.pos y := by
  have hm := hm.mono (Nat.le_refl _) hl.le
  unfold Sp
  simp only [collectMap]
  cases h : entriesCollect l.hash [] m with
  | ok r => exact ⟨hl, Nat.le_refl _, entriesCollect_span (acc := []) hm h⟩
  | err e =>
    cases e with
    | mismatch => exact ⟨hl, Nat.le_refl _⟩
    | terminate => trivial
  | panic p => trivial
  | diverge => trivial

theorem scalarTerm_sp {sc : ScalarCall} (hsc : ScSp c sc) {n : Nat} (d : Nat) :
    ∀ {level : Nat} {flow : Bool}, SpYF c (scalarTerm sc n d level flow) := by
  induction d with
  | zero => intro _ _ _ _ _; exact diverge_sp
  | succ d ih =>
    intro level flow l hl hf
    refine Sp.bind (scalarAtom_sp hl hf) fun o l1 h1 e1 ho => ?_
    cases o with
    | some y => exact Sp.pure h1 (ho y rfl)
    | none =>
      refine Sp.orElse (Sp.orElse ((seqFlow_sp hsc l1 h1).mono fun _ _ h => h.mono e1 (Nat.le_refl _)) fun l2 h2 e2 => ?_)
        fun l2 h2 _ => Sp.pure h2 trivial
      refine Sp.bind (sym_sp h2) fun _ l3 h3 e3 p3 => ?_
      have q2 := h2.le
      refine Sp.bind (mapFlowLoop_sp hsc (scalarNode_sp ih) (a := l.parser.eaten) (b := l.parser.eaten) h3 (Nat.le_refl _) spanM_nil
        (by omega)) fun m l4 h4 e4 hm => Sp.bind (forward_sp h4) fun _ l5 h5 e5 p5 => ?_
      obtain ⟨b, hm, hab, hb⟩ := hm
      exact collectMap_sp h5 (hm.mono (Nat.le_refl _) (by omega))

theorem scalarFlow_sp {sc : ScalarCall} (hsc : ScSp c sc) {n level : Nat} {flow : Bool} : SpN c (scalarFlow sc n level flow) :=
  scalarNode_sp (scalarTerm_sp hsc n)

theorem firstItem_sp {level : Nat} {map : Bool} (hl : SW c l) : Sp c (firstItem level map) l fun _ _ => True := by
  unfold firstItem
  refine Sp.ite (fun _ => ?_) fun _ => gapThenInd_sp hl
  exact Sp.bind (pk_sp gap_pk hl) fun _ l1 h1 _ _ => pk_sp indDefine_pk h1

theorem docEnd_sp (hl : SW c l) : Sp c docEnd l fun _ _ => True := by
  refine pk_sp ?_ hl
  refine Frame.Holds.bind food_pk fun _ _ => Frame.Holds.ite (fun _ => Frame.Holds.pure trivial)
    fun _ => context_pk (pk_pf ?_)
  refine Frame.Holds.bind (V := fun _ => True) ?_ fun _ _ =>
    Frame.Holds.bind (runIf_pk backward_pk) fun _ _ => Frame.Holds.pure trivial
  exact Frame.Holds.bind (isOk_pk symSeq_pk) fun _ _ => Frame.Holds.ite
    (fun _ => Frame.Holds.pure trivial) fun _ => isOk_pk symSeq_pk

theorem nextItem_sp {level : Nat} {name : String} (hl : SW c l) : Sp c (nextItem level name) l fun _ _ => True := by
  refine Sp.bind (isOk_sp gap_pk hl) fun _ l1 h1 _ _ => Sp.bind (Q := fun _ _ => True) ?_ fun _ l2 h2 _ _ => ?_
  · exact Sp.ite (fun _ => Sp.pure h1 trivial) fun _ => Sp.bind (docEnd_sp h1) fun _ l2 h2 _ _ => Sp.pure h2 trivial
  · refine Sp.ite (fun _ => lerr_sp h2) fun _ => Sp.bind (docEnd_sp h2) fun _ l3 h3 _ _ =>
      Sp.ite (fun _ => Sp.pure h3 trivial) fun _ => ?_
    exact Sp.bind (isOk_sp ind_pk h3) fun _ l4 h4 _ _ => Sp.pure h4 trivial

theorem seqLoop_sp {sc : ScalarCall} (hsc : ScSp c sc) {level : Nat} {map : Bool} {a : Nat} : ∀ {n : Nat} {v : List Node} {l : Loader},
    SW c l → a ≤ l.parser.eaten → SpanL c.doc a l.parser.eaten v →
    Sp c (seqLoop sc level map n v) l fun v' l' => SpanL c.doc a l'.parser.eaten v' := by
  intro n
  induction n with
  | zero => intros; exact diverge_sp
  | succ n ih =>
    intro v l hl ha hv
    refine Sp.bind (forward_sp hl) fun _ l1 h1 e1 p1 => ?_
    refine Sp.bind (Q := fun stop l' => stop = false → l1.parser.eaten < l'.parser.pos) ?_ fun stop l2 h2 e2 p2 => ?_
    · refine Sp.ite (fun _ => ?_) fun _ => ?_
      · refine Sp.bind (firstItem_sp h1) fun _ l2 h2 e2 _ => Sp.bind (sym_sp h2) fun _ l3 h3 e3 p3 =>
          Sp.bind (bound_sp h3) fun _ l4 h4 e4 p4 => Sp.pure h4 fun _ => ?_
        have := h2.le; omega
      · refine Sp.bind (nextItem_sp h1) fun _ l2 h2 e2 _ => Sp.ite (fun _ => Sp.pure h2 (by simp)) fun _ => ?_
        refine Sp.bind (isSym_sp h2) fun g l3 h3 e3 p3 => Sp.ite (fun hg => ?_) fun _ => Sp.pure h3 (by simp)
        refine Sp.bind (isBound_sp h3) fun g' l4 h4 e4 p4 => Sp.ite (fun hg' => ?_) fun _ => Sp.pure h4 (by simp)
        refine Sp.bind (forward_sp h4) fun _ l5 h5 e5 p5 => Sp.pure h5 fun _ => ?_
        have := h2.le
        have := p3 hg
        have := p4 hg'
        omega
    · refine Sp.ite (fun _ => Sp.pure h2 (hv.mono (Nat.le_refl _) (by omega))) fun hs => ?_
      have p2 := p2 (by simpa using hs)
      refine Sp.bind (forward_sp h2) fun _ l3 h3 e3 p3 => Sp.bind (orErr_sp (hsc _ _ _ l3 h3)) fun x l4 h4 e4 hx => ?_
      exact ih h4 (by omega) (hv.snoc hx (by omega) ha e4)

theorem seq_sp {sc : ScalarCall} (hsc : ScSp c sc) {n level : Nat} {map : Bool} : SpY c (seq sc n level map) := by
  intro l hl
  refine Sp.bind (seqLoop_sp hsc (a := l.parser.eaten) hl (Nat.le_refl _) spanL_nil) fun v l1 h1 e1 hv => ?_
  exact Sp.bind (pk_sp backward_pk h1) fun _ l2 h2 e2 _ => Sp.pure h2 (SpanL.mono hv (Nat.le_refl _) (Nat.le_trans e2 h2.le))

theorem colonBound_sp (hl : SW c l) : Sp c colonBound l fun r l' => r = true → l.parser.pos < l'.parser.pos := by
  refine Sp.bind (isSym_sp hl) fun g l1 h1 e1 p1 => Sp.ite (fun hg => ?_) fun _ => Sp.pure h1 (by simp)
  refine (isBound_sp h1).mono fun g' l2 p2 hg' => ?_
  have := p1 hg
  have := p2 hg'
  omega

/-- What a round of the map loop yields: behind a key the cursor has passed its `:`. -/
def StepSp (c : LCfg) (a : Nat) (l' : Loader) : MapStep → Prop
  | .alone y => SpanY c.doc a l'.parser.eaten y
  | .stop => True
  | .key k => ∃ b, SpanN c.doc a b k ∧ a ≤ b ∧ b < l'.parser.pos

theorem mapStep_sp {sc : ScalarCall} (hsc : ScSp c sc) {sf : LM Node} (hsf : SpN c sf) {level : Nat} {map flow first : Bool}
    (hl : SW c l) : Sp c (mapStep sc sf level map flow first) l fun s l' => StepSp c l.parser.eaten l' s := by
  refine Sp.bind (forward_sp hl) fun _ l1 h1 e1 p1 => Sp.ite (fun _ => ?_) fun _ => ?_
  · refine Sp.bind (firstItem_sp h1) fun _ l2 h2 e2 _ => Sp.bind (forward_sp h2) fun _ l3 h3 e3 p3 => ?_
    refine Sp.bind (Q := fun k l' => SpanN c.doc l.parser.eaten l'.parser.eaten k) ?_ fun k l4 h4 e4 hk => ?_
    · refine Sp.bind (isOk_sp complexMapping_pk h3) fun _ l5 h5 e5 _ => Sp.ite (fun _ => ?_) fun _ => ?_
      · exact (complexKey_sp hsc l5 h5).mono fun _ _ h => h.mono (by omega) (Nat.le_refl _)
      · exact (hsf l5 h5).mono fun _ _ h => h.mono (by omega) (Nat.le_refl _)
    · have q4 := h4.le
      refine Sp.bind (colonBound_sp h4) fun g l5 h5 e5 p5 => Sp.ite (fun hg => Sp.pure h5 ⟨_, hk, by omega, ?_⟩) fun _ => Sp.pure h5 ?_
      · have := p5 hg; omega
      · exact hk.yaml.mono (Nat.le_refl _) e5
  · refine Sp.bind (nextItem_sp h1) fun _ l2 h2 e2 _ => Sp.ite (fun _ => Sp.pure h2 trivial) fun _ => ?_
    refine Sp.bind (forward_sp h2) fun _ l3 h3 e3 p3 => ?_
    refine Sp.bind (Q := fun k l' => SpanN c.doc l.parser.eaten l'.parser.eaten k) ?_ fun k l4 h4 e4 hk => ?_
    · refine Sp.bind (isOk_sp complexMapping_pk h3) fun _ l5 h5 e5 _ => Sp.ite (fun _ => ?_) fun _ => ?_
      · exact (complexKey_sp hsc l5 h5).mono fun _ _ h => h.mono (by omega) (Nat.le_refl _)
      · exact (orErr_sp (hsf l5 h5)).mono fun _ _ h => h.mono (by omega) (Nat.le_refl _)
    · have q4 := h4.le
      refine Sp.bind (colonBound_sp h4) fun g l5 h5 e5 p5 => Sp.ite (fun hg => Sp.pure h5 ⟨_, hk, by omega, ?_⟩) fun _ => lerr_sp h5
      have := p5 hg; omega

theorem mapLoop_sp {sc : ScalarCall} (hsc : ScSp c sc) {sf : LM Node} (hsf : SpN c sf) {level : Nat} {map flow : Bool} {a : Nat} :
    ∀ {n : Nat} {m : List (Node × Node)} {l : Loader}, SW c l → a ≤ l.parser.eaten → SpanM c.doc a l.parser.eaten m →
    Sp c (mapLoop sc sf level map flow n m) l fun y l' => SpanY c.doc a l'.parser.pos y := by
  intro n
  induction n with
  | zero => intros; exact diverge_sp
  | succ n ih =>
    intro m l hl ha hm
    refine Sp.bind (mapStep_sp hsc hsf hl) fun s l1 h1 e1 hs => ?_
    cases s with
    | alone y => exact Sp.pure h1 (SpanY.mono hs ha h1.le)
    | stop => exact Sp.bind (pk_sp backward_pk h1) fun _ l2 h2 e2 _ => collectMap_sp h2 (hm.mono (Nat.le_refl _) (by omega))
    | key k =>
      obtain ⟨b, hk, hab, hb⟩ := hs
      refine Sp.bind (forward_sp h1) fun _ l2 h2 e2 p2 => Sp.bind (orErr_sp (hsc _ _ _ l2 h2)) fun v l3 h3 e3 hv => ?_
      exact ih h3 (by omega) (hm.snoc hk hv ha hab (by omega) e3)

theorem map_sp {sc : ScalarCall} (hsc : ScSp c sc) {n level : Nat} {map flow : Bool} : SpY c (YamlPeg.map sc n level map flow) :=
  fun l hl => mapLoop_sp hsc (scalarFlow_sp hsc) hl (Nat.le_refl _) spanM_nil

/-! ### After a mismatch, numbers are read from the mark again -/

/-- A mismatch leaves the cursor on the mark or at the end of the text. -/
def Mf (x : LM α) (l : Loader) : Prop := ∀ l', x l = (.err .mismatch, l') → Fr l'.parser

theorem Mf.of_noMis {x : LM α} (h : NoMis x) : Mf x l := fun l' e => absurd (by rw [e]) (h l)

theorem Mf.bind {x : LM α} {f : α → LM β} {Q : α → Loader → Prop} (hs : Sp c x l Q) (hx : Mf x l)
    (hf : ∀ a l', SW c l' → Q a l' → Mf (f a) l') : Mf (x >>= f) l := by
  intro l' e
  unfold Sp at hs
  rcases hr : x l with ⟨r, l1⟩
  rw [hr] at hs
  cases r with
  | ok a => rw [bind_ok hr] at e; exact hf a l1 hs.1 hs.2.2 l' e
  | err er => rw [bind_err hr] at e; cases e; exact hx _ hr
  | panic p => rw [bind_panic hr] at e; cases e
  | diverge => rw [bind_diverge hr] at e; cases e

theorem Mf.ite {p : Prop} [Decidable p] {x y : LM α} (hx : p → Mf x l) (hy : ¬ p → Mf y l) : Mf (if p then x else y) l := by
  split
  · exact hx ‹_›
  · exact hy ‹_›

theorem lift_mf {x : PM α} (h : ∀ s', x l.parser = (.err .mismatch, s') → Fr s') : Mf (lift x) l := by
  intro l' e
  refine h _ ?_
  simp only [lift, Prod.mk.injEq] at e
  rw [← e.2, ← e.1]

theorem sym_mf {x : UInt8} (hl : SW c l) : Mf (lift (sym x)) l := lift_mf fun _ e => sym_fr hl.1 e
theorem bound_mf (hl : SW c l) : Mf (lift bound) l := lift_mf fun _ e => bound_fr hl.1 e

theorem gapThenInd_mf {level : Nat} (hl : SW c l) : Mf (gapThenInd level) l :=
  Mf.bind (isOk_sp gap_pk hl) (.of_noMis (.isOk _)) fun _ _ hl _ => Mf.ite (fun _ => lift_mf fun _ e => ind_fr hl.1 e)
    fun _ => .of_noMis (.pure _)

theorem firstItem_mf {level : Nat} {map : Bool} (hl : SW c l) (hf : l.parser.pos = l.parser.eaten) : Mf (firstItem level map) l := by
  unfold firstItem
  refine Mf.ite (fun _ => ?_) fun _ => gapThenInd_mf hl
  exact Mf.bind (pk_sp gap_pk hl) (lift_mf fun _ e => gap_fr hl.1 hf e) fun _ l1 h1 _ =>
    lift_mf fun _ e => indDefine_fr h1.1 e

theorem NoMis.runIf {b : Bool} {x : LM Unit} (h : NoMis x) : NoMis (M.runIf b x) := by
  cases b
  · exact .pure _
  · exact h

theorem runIf_bound_mf {b : Bool} (hl : SW c l) : Mf (M.runIf b (lift bound)) l := by
  cases b
  · exact .of_noMis (.pure _)
  · exact bound_mf hl

theorem nodeProps_mf (hl : SW c l) : Mf nodeProps l := by
  refine Mf.bind (orDefault_sp anchor_pk hl) (.of_noMis (.lift (.orDefault _ _))) fun a l hl _ => ?_
  refine Mf.bind (runIf_sp hl (pk_sp bound_pk hl)) (runIf_bound_mf hl) fun _ l hl _ => ?_
  refine Mf.bind (forward_sp hl) (.of_noMis (.lift .forward)) fun _ l hl _ => ?_
  refine Mf.bind (orDefault_sp tag_pk' hl) (.of_noMis (.lift (.orDefault _ _))) fun t l hl _ => ?_
  refine Mf.bind (runIf_sp hl (pk_sp bound_pk hl)) (runIf_bound_mf hl) fun _ l hl _ => ?_
  refine Mf.bind (forward_sp hl) (.of_noMis (.lift .forward)) fun _ l hl _ => ?_
  refine Mf.bind (orDefault_sp anchor_pk hl) (.of_noMis (.lift (.orDefault _ _))) fun a2 l hl _ => ?_
  refine Mf.bind (c := c) (Q := fun _ _ => True) ?_ ?_ fun _ l hl _ => .of_noMis (.bind (.lift .forward) fun _ => .pure _)
  · refine Sp.ite (fun _ => Sp.ite (fun _ => ?_) fun _ => lerr_sp hl) fun _ => Sp.pure hl trivial
    exact Sp.bind (pk_sp bound_pk hl) fun _ l hl _ _ => Sp.pure hl trivial
  · refine Mf.ite (fun _ => Mf.ite (fun _ => ?_) fun _ => .of_noMis .lerr) fun _ => .of_noMis (.pure _)
    exact Mf.bind (pk_sp bound_pk hl) (bound_mf hl) fun _ l hl _ => .of_noMis (.pure _)

theorem scalarFlow_mf {sc : ScalarCall} {n level : Nat} {flow : Bool} (hl : SW c l) : Mf (scalarFlow sc n level flow) l := by
  refine Mf.bind (nodeProps_sp hl) (nodeProps_mf hl) fun at' l1 h1 _ => .of_noMis ?_
  obtain ⟨a, t⟩ := at'
  refine NoMis.bind (fun _ => by simp) fun _ => NoMis.bind .scalarTerm fun _ => NoMis.bind (.lift .forward) fun _ => ?_
  dsimp only
  split
  · refine NoMis.bind .anchorInsert fun _ => ?_
    split
    · exact .lerr
    · exact .pure _
  · exact .pure _

theorem complexKey_mf {sc : ScalarCall} (hsc : ScSp c sc) {level : Nat} {map flow : Bool} {name : String} (hl : SW c l) :
    Mf (complexKey sc level map flow name) l :=
  Mf.bind (forward_sp hl) (.of_noMis (.lift .forward)) fun _ l1 h1 _ =>
    Mf.bind (orErr_sp (hsc _ _ _ l1 h1)) (.of_noMis .orErr) fun _ l2 h2 _ =>
    Mf.bind (gapThenInd_sp h2) (gapThenInd_mf h2) fun _ _ _ _ => .of_noMis (.pure _)

theorem NoMis.docEnd : NoMis docEnd := by
  refine .lift (.bind .food fun _ => ?_)
  split
  · exact .pure _
  · intro s
    simp only [context]
    refine NoMis.bind ?_ (fun b => NoMis.bind ?_ fun _ => .pure _) _
    · refine .bind (.isOk _) fun b => ?_
      split
      · exact .pure _
      · exact .isOk _
    · cases b
      · exact .pure _
      · exact fun _ => by simp [M.runIf, backward]

theorem NoMis.nextItem {level : Nat} {name : String} : NoMis (nextItem level name) := by
  refine .bind (.isOk _) fun g => .bind ?_ fun bad => ?_
  · split
    · exact .pure _
    · exact .bind .docEnd fun _ => .pure _
  · split
    · exact .lerr
    · refine .bind .docEnd fun _ => ?_
      split
      · exact .pure _
      · exact .bind (.isOk _) fun _ => .pure _

theorem seqLoop_mf {sc : ScalarCall} (hsc : ScSp c sc) {level : Nat} {map : Bool} : ∀ {n : Nat} {v : List Node} {l : Loader},
    SW c l → Mf (seqLoop sc level map n v) l := by
  intro n
  induction n with
  | zero => intros; exact .of_noMis .diverge
  | succ n ih =>
    intro v l hl
    refine Mf.bind (forward_sp hl) (.of_noMis (.lift .forward)) fun _ l1 h1 p1 => ?_
    refine Mf.bind (c := c) (Q := fun _ _ => True) ?_ ?_ fun stop l2 h2 _ => ?_
    · refine Sp.ite (fun _ => ?_) fun _ => ?_
      · exact Sp.bind (firstItem_sp h1) fun _ l2 h2 _ _ => Sp.bind (sym_sp h2) fun _ l3 h3 _ _ =>
          Sp.bind (bound_sp h3) fun _ l4 h4 _ _ => Sp.pure h4 trivial
      · refine Sp.bind (nextItem_sp h1) fun _ l2 h2 _ _ => Sp.ite (fun _ => Sp.pure h2 trivial) fun _ => ?_
        refine Sp.bind (isSym_sp h2) fun g l3 h3 _ _ => Sp.ite (fun _ => ?_) fun _ => Sp.pure h3 trivial
        refine Sp.bind (isBound_sp h3) fun g' l4 h4 _ _ => Sp.ite (fun _ => ?_) fun _ => Sp.pure h4 trivial
        exact Sp.bind (forward_sp h4) fun _ l5 h5 _ _ => Sp.pure h5 trivial
    · refine Mf.ite (fun _ => ?_) fun _ => .of_noMis ?_
      · exact Mf.bind (firstItem_sp h1) (firstItem_mf h1 (by rw [p1.1, p1.2])) fun _ l2 h2 _ =>
          Mf.bind (sym_sp h2) (sym_mf h2) fun _ l3 h3 _ => Mf.bind (bound_sp h3) (bound_mf h3) fun _ _ _ _ => .of_noMis (.pure _)
      · refine .bind .nextItem fun _ => ?_
        split
        · exact .pure _
        · refine .bind (.isOk _) fun _ => ?_
          split
          · refine .bind (.isOk _) fun _ => ?_
            split
            · exact .bind (.lift .forward) fun _ => .pure _
            · exact .pure _
          · exact .pure _
    · refine Mf.ite (fun _ => .of_noMis (.pure _)) fun _ => ?_
      exact Mf.bind (forward_sp h2) (.of_noMis (.lift .forward)) fun _ l3 h3 _ =>
        Mf.bind (orErr_sp (hsc _ _ _ l3 h3)) (.of_noMis .orErr) fun _ l4 h4 _ => ih h4

theorem collectMap_mf {m : List (Node × Node)} (hf : Fr l.parser) : Mf (collectMap m) l := by
  intro l' e
  simp only [collectMap] at e
  split at e <;> cases e
  exact hf

theorem mapStep_mf {sc : ScalarCall} (hsc : ScSp c sc) {n lv level : Nat} {fl map flow first : Bool}
    (hl : SW c l) : Mf (mapStep sc (scalarFlow sc n lv fl) level map flow first) l := by
  refine Mf.bind (forward_sp hl) (.of_noMis (.lift .forward)) fun _ l1 h1 p1 => Mf.ite (fun _ => ?_) fun _ => ?_
  · refine Mf.bind (firstItem_sp h1) (firstItem_mf h1 (by rw [p1.1, p1.2])) fun _ l2 h2 _ =>
      Mf.bind (forward_sp h2) (.of_noMis (.lift .forward)) fun _ l3 h3 _ => ?_
    refine Mf.bind (c := c) (Q := fun _ _ => True) ?_ ?_ fun k l4 h4 _ => ?_
    · refine Sp.bind (isOk_sp complexMapping_pk h3) fun _ l5 h5 _ _ => Sp.ite (fun _ => ?_) fun _ => ?_
      · exact (complexKey_sp hsc l5 h5).mono fun _ _ _ => trivial
      · exact (scalarFlow_sp hsc l5 h5).mono fun _ _ _ => trivial
    · exact Mf.bind (isOk_sp complexMapping_pk h3) (.of_noMis (.isOk _)) fun _ l5 h5 _ =>
        Mf.ite (fun _ => complexKey_mf hsc h5) fun _ => scalarFlow_mf h5
    · refine Mf.of_noMis (.bind ?_ fun g => ?_)
      · refine .bind (.isOk _) fun _ => ?_
        split
        · exact .isOk _
        · exact .pure _
      · split
        · exact .pure _
        · exact .pure _
  · refine Mf.bind (nextItem_sp h1) (.of_noMis .nextItem) fun _ l2 h2 _ => Mf.ite (fun _ => .of_noMis (.pure _)) fun _ => ?_
    refine Mf.bind (forward_sp h2) (.of_noMis (.lift .forward)) fun _ l3 h3 _ => ?_
    refine Mf.bind (c := c) (Q := fun _ _ => True) ?_ ?_ fun k l4 h4 _ => ?_
    · refine Sp.bind (isOk_sp complexMapping_pk h3) fun _ l5 h5 _ _ => Sp.ite (fun _ => ?_) fun _ => ?_
      · exact (complexKey_sp hsc l5 h5).mono fun _ _ _ => trivial
      · exact (orErr_sp (scalarFlow_sp hsc l5 h5)).mono fun _ _ _ => trivial
    · exact Mf.bind (isOk_sp complexMapping_pk h3) (.of_noMis (.isOk _)) fun _ l5 h5 _ =>
        Mf.ite (fun _ => complexKey_mf hsc h5) fun _ => .of_noMis .orErr
    · refine Mf.of_noMis (.bind ?_ fun g => ?_)
      · refine .bind (.isOk _) fun _ => ?_
        split
        · exact .isOk _
        · exact .pure _
      · split
        · exact .pure _
        · exact .lerr

theorem backward_sp (hl : SW c l) : Sp c (lift backward) l fun _ l' => Fr l'.parser :=
  ((pk_sp backward_pk hl).with (R := fun _ l' => Fr l'.parser) fun a l' e => by
    simp only [lift, backward, modify_run, Prod.mk.injEq, true_and] at e
    rw [← e]; exact .inl rfl).mono fun _ _ h => h.2

theorem NoMis.backward : NoMis backward := fun _ => by simp [YamlPeg.backward]

theorem mapLoop_mf {sc : ScalarCall} (hsc : ScSp c sc) {k lv level : Nat} {fl map flow : Bool} :
    ∀ {n : Nat} {m : List (Node × Node)} {l : Loader}, SW c l →
    Mf (mapLoop sc (scalarFlow sc k lv fl) level map flow n m) l := by
  intro n
  induction n with
  | zero => intros; exact .of_noMis .diverge
  | succ n ih =>
    intro m l hl
    refine Mf.bind (mapStep_sp hsc (scalarFlow_sp hsc) hl) (mapStep_mf hsc hl) fun s l1 h1 _ => ?_
    cases s with
    | alone y => exact .of_noMis (.pure _)
    | stop => exact Mf.bind (backward_sp h1) (.of_noMis (.lift .backward)) fun _ l2 h2 hf => collectMap_mf hf
    | key k =>
      exact Mf.bind (forward_sp h1) (.of_noMis (.lift .forward)) fun _ l2 h2 _ =>
        Mf.bind (orErr_sp (hsc _ _ _ l2 h2)) (.of_noMis .orErr) fun _ l3 h3 _ => ih h3

theorem Mf.orElse {x y : LM α} {Q : α → Loader → Prop} (hx : Sp c x l Q) (hy : ∀ l', SW c l' → Mf y l') :
    Mf (orElseMismatch x y) l := by
  intro l' e
  unfold Sp at hx
  rcases hr : x l with ⟨r, l1⟩
  rw [hr] at hx
  simp only [orElseMismatch, hr] at e
  cases r with
  | err er =>
    cases er with
    | mismatch => exact hy l1 hx.1 l' e
    | terminate n m => cases e
  | _ => cases e

theorem Sp.orElseF {x y : LM α} {Q : α → Loader → Prop} (hx : Sp c x l Q) (hm : Mf x l)
    (hy : ∀ l', SW c l' → Fr l'.parser → l.parser.eaten ≤ l'.parser.eaten → Sp c y l' Q) : Sp c (orElseMismatch x y) l Q := by
  unfold Sp at hx
  rcases hr : x l with ⟨r, l1⟩
  rw [hr] at hx
  unfold Sp
  simp only [orElseMismatch, hr]
  cases r with
  | ok a => exact hx
  | err e =>
    cases e with
    | mismatch =>
      have := hy l1 hx.1 (hm _ hr) hx.2
      unfold Sp at this
      split at this
      · rename_i e; simp only [e]; exact ⟨this.1, Nat.le_trans hx.2 this.2.1, this.2.2⟩
      · rename_i e; simp only [e]; exact ⟨this.1, Nat.le_trans hx.2 this.2⟩
      · trivial
    | terminate n m => trivial
  | panic p => trivial
  | diverge => trivial

theorem scalarBody_sp {sc : ScalarCall} (hsc : ScSp c sc) {n level : Nat} {map flow : Bool} :
    SpYF c (scalarBody sc n level map flow) := by
  intro l hl _
  have hc := spread_cost c.doc
  refine Sp.bind (string_sp (g := trimEnd) stringLiteral_pk hl (block_ex hc hl.tc)) fun o l1 h1 e1 ho => ?_
  cases o with
  | some s => exact Sp.pure h1 (ho s rfl)
  | none =>
  refine Sp.bind (string_sp (g := trimEnd) stringFolded_pk h1 (block_ex hc h1.tc)) fun o l2 h2 e2 ho => ?_
  cases o with
  | some s => exact Sp.pure h2 (Nat.le_trans (ho s rfl) (Nat.mul_le_mul_left _ (by omega)))
  | none =>
    have hq := (seq_sp hsc (n := n) (level := level) (map := map) l2 h2).mono fun _ _ h =>
      h.mono (show l.parser.eaten ≤ l2.parser.eaten by omega) (Nat.le_refl _)
    refine Sp.orElseF (Sp.orElse hq fun l3 h3 e3 => ?_) (Mf.orElse hq fun l3 h3 => mapLoop_mf hsc h3) fun l3 h3 f3 e3 => ?_
    · exact (map_sp hsc l3 h3).mono fun _ _ h => h.mono (by omega) (Nat.le_refl _)
    · exact (scalarTerm_sp hsc n l3 h3 f3).mono fun _ _ h => h.mono (by omega) (Nat.le_refl _)

theorem scalar_sp (n : Nat) : ScSp c (scalar n) := by
  induction n with
  | zero => exact fun _ _ _ _ _ => diverge_sp
  | succ n ih => exact fun _ _ _ => scalarNode_sp (scalarBody_sp ih)

/-! ## Documents -/

theorem modify_sp {f : Loader → Loader} (hl : SW c l) (hp : (f l).parser = l.parser) (hc : (f l).cyclicMode = l.cyclicMode) :
    Sp c (M.modify f) l fun _ l' => l'.parser = l.parser := by
  unfold Sp
  simp only [modify_run]
  exact ⟨⟨by rw [hp]; exact hl.1, by rw [hc]; exact hl.2⟩, by rw [hp]; exact Nat.le_refl _, hp⟩

theorem doc_sp {n : Nat} (hl : SW c l) :
    Sp c (YamlPeg.doc n) l fun r l' => SpanN c.doc l.parser.pos l'.parser.eaten r ∧ l.parser.pos ≤ l'.parser.eaten := by
  refine Sp.bind (ctxBound_sp hl) fun _ l1 h1 e1 p1 => Sp.bind (forward_sp h1) fun _ l2 h2 e2 p2 => ?_
  refine Sp.bind (modify_sp h2 rfl rfl) fun _ l3 h3 e3 p3 => ?_
  refine Sp.bind (scalar_sp n 0 false false l3 h3) fun r l4 h4 e4 hr => ?_
  refine Sp.bind (orDefault_sp gap_pk h4) fun _ l5 h5 e5 _ => Sp.bind (orDefault_sp symSeq_pk h5) fun _ l6 h6 e6 _ => ?_
  refine Sp.bind (forward_sp h6) fun _ l7 h7 e7 _ => Sp.bind (modify_sp h7 rfl rfl) fun _ l8 h8 e8 _ => Sp.pure h8 ?_
  exact ⟨hr.mono (by omega) (by omega), by omega⟩

theorem isSymSeq_sp {b : Bytes} (hl : SW c l) :
    Sp c (isOk (lift (symSeq b))) l fun r l' => r = true → l'.parser.pos = l.parser.pos + b.length :=
  ((isOk_sp symSeq_pk hl).with (R := fun r l' => r = true → l'.parser.pos = l.parser.pos + b.length) fun _ _ e => by
    rintro rfl
    obtain ⟨a, e⟩ := isOk_true_sp e
    exact (runs_ok (symSeq_runs hl.tc) (liftOk_run e)).2.1).mono fun _ _ h => h.2

/-- The documents so far. -/
def SpanD (D : Bytes) (b : Nat) (v : List Node) : Prop :=
  (∀ x ∈ v, SpanN D 0 b x) ∧ v.Pairwise (Node.Clear D) ∧ (positionsL v).length ≤ 2 * b + 1 ∧
  amountL v ≤ spread D * b

theorem SpanD.mono {a b : Nat} {v : List Node} (h : SpanD c.doc a v) (hb : a ≤ b) : SpanD c.doc b v :=
  ⟨fun x hx => (h.1 x hx).mono (Nat.le_refl _) hb, h.2.1, by
    have := h.2.2; have h2 := Nat.mul_le_mul_left (spread c.doc) hb; omega⟩

theorem SpanD.snoc {b e d : Nat} {v : List Node} {x : Node} (hv : SpanD c.doc b v) (hx : SpanN c.doc e d x) (h : b < e) (hd : e ≤ d) :
    SpanD c.doc d (v ++ [x]) := by
  refine ⟨fun y hy => ?_, List.pairwise_append.2 ⟨hv.2.1, by simp, fun y hy z hz => ?_⟩, ?_⟩
  · rcases List.mem_append.1 hy with h1 | h1
    · exact (hv.1 y h1).mono (Nat.le_refl _) (by omega)
    · simp at h1; subst h1; exact hx.mono (by omega) (Nat.le_refl _)
  · simp at hz; subst hz
    exact (hv.1 y hy).before hx h
  · have h1 := hv.2.2
    have h2 := hx.2.2
    have h3 := Nat.mul_le_mul_left (spread c.doc) (Nat.le_of_lt h)
    rw [positionsL_append, amountL_append]
    simp only [positionsL, amountL, List.length_append, List.append_nil]
    omega

theorem docsLoop_sp {n : Nat} : ∀ {m : Nat} {v : List Node} {l : Loader}, SW c l → SpanD c.doc l.parser.eaten v →
    Sp c (docsLoop n m v) l fun v' l' => SpanD c.doc l'.parser.eaten v' := by
  intro m
  induction m with
  | zero => intros; exact diverge_sp
  | succ m ih =>
    intro v l hl hv
    refine Sp.bind (orDefault_sp gap_pk hl) fun _ l1 h1 e1 _ => Sp.bind (pk_sp food_pk h1) fun fd l2 h2 e2 _ => ?_
    refine Sp.ite (fun _ => Sp.pure h2 (hv.mono (by omega))) fun _ => ?_
    refine Sp.bind (isSymSeq_sp h2) fun g l3 h3 e3 p3 => Sp.ite (fun hg => ?_) fun _ => lerr_sp h3
    have p3 := p3 hg
    have q2 := h2.le
    simp only [List.length_cons, List.length_nil] at p3
    refine Sp.bind (doc_sp h3) fun d l4 h4 e4 hd => ?_
    exact ih h4 (hv.snoc hd.1 (by omega) hd.2)

theorem directives_sp : ∀ {n : Nat} {l : Loader}, SW c l → Sp c (directives n) l fun _ _ => True := by
  intro n
  induction n with
  | zero => intros; exact diverge_sp
  | succ n ih =>
    intro l hl
    have h := pk_sp (context_pk (pk_pf (directive_pk (c := c.p) (.inl trivial)))) hl
    unfold Sp at h ⊢
    simp only [directives]
    rcases hx : lift (context directive) l with ⟨r, l1⟩
    rw [hx] at h
    cases r with
    | ok a =>
      have h2 := ih h.1
      unfold Sp at h2
      simp only
      split at h2
      · exact ⟨h2.1, Nat.le_trans h.2.1 h2.2.1, trivial⟩
      · exact ⟨h2.1, Nat.le_trans h.2.1 h2.2⟩
      · trivial
    | err e =>
      cases e with
      | mismatch => exact ⟨h.1, h.2, trivial⟩
      | terminate n m => trivial
    | panic p => trivial
    | diverge => trivial

theorem loaderParse_sp {n : Nat} (hl : SW c l) : Sp c (loaderParse n) l fun v l' => SpanD c.doc l'.parser.eaten v := by
  refine Sp.bind (directives_sp hl) fun _ l1 h1 e1 _ => Sp.bind (orDefault_sp gap_pk h1) fun _ l2 h2 e2 _ => ?_
  refine Sp.bind (orDefault_sp symSeq_pk h2) fun _ l3 h3 e3 _ => Sp.bind (doc_sp h3) fun d l4 h4 e4 hd => ?_
  have hd' := hd.1.mono (Nat.zero_le _) (Nat.le_refl _)
  refine docsLoop_sp h4 ⟨fun x hx => ?_, by simp, ?_⟩
  · simp only [List.mem_singleton] at hx
    subst hx
    exact hd'
  · have := hd'.2.2
    simp only [positionsL, amountL, List.append_nil]
    omega

end

/-- The roots of `parse_cyclic`. -/
theorem parseCyclic_span {h : HashCfg} {n : Nat} {doc : Bytes} {v : List Node} {t : List Anchors}
    (e : parseCyclic h n doc = .ok (v, t)) :
    (∀ x ∈ v, Everywhere (HereD doc doc.length) x) ∧ v.Pairwise (Node.Clear doc) ∧ (positionsL v).length ≤ 2 * doc.length + 1 ∧
    amountL v ≤ spread doc * doc.length := by
  have hs := start_l0 (c := ⟨doc, true, h⟩)
  have := loaderParse_sp (c := ⟨doc, true, h⟩) (n := n) (l := startLoader ⟨doc, true, h⟩) ⟨hs.parser, rfl⟩
  unfold Sp at this
  unfold parseCyclic at e
  have e0 : startLoader ⟨doc, true, h⟩ = { Loader.new h doc with cyclicMode := true } := rfl
  rw [e0] at this
  generalize loaderParse n { Loader.new h doc with cyclicMode := true } = x at this e
  rcases x with ⟨r, l⟩
  cases r <;> simp [Out.map] at e
  obtain ⟨rfl, -⟩ := e
  obtain ⟨hw, _, h1, h2, h3⟩ := this
  have e1 := hw.le
  have e2 : l.parser.pos ≤ doc.length := hw.1.pos
  exact ⟨fun x hx => everywhereD_mono (h1 x hx).1 (by omega), h2, by omega, Nat.le_trans h3.2 (Nat.mul_le_mul_left _ (by omega))⟩

end YamlPeg
