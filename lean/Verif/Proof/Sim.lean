import Verif.Proof.RunsL
import Verif.Spec.Positions
/-!
# Two runs side by side

`Sim Z A x y`: from related states the runs of `x` and `y` end alike, with related results and in
related states.  An underflow of `x` is left out; no run from a proper state has one.
-/

namespace YamlPeg
open M

/-- A relation between states, and one between the messages of errors. -/
structure SimCfg (σ : Type) where
  R : σ → σ → Prop
  Q : Bytes → Bytes → Prop

/-- Two errors of the same kind. -/
def ErrRel (Q : Bytes → Bytes → Prop) : PErr → PErr → Prop
  | .mismatch, .mismatch => True
  | .terminate n m, .terminate n' m' => n = n' ∧ Q m m'
  | _, _ => False

/-- Two outcomes of the same kind. -/
def OutRel {α β : Type} (Q : Bytes → Bytes → Prop) (A : α → β → Prop) : Out α → Out β → Prop
  | .ok a, .ok b => A a b
  | .err e, .err e' => ErrRel Q e e'
  | .panic p, .panic q => p = q
  | .diverge, .diverge => True
  | _, _ => False

def SimAt {σ α β : Type} (Z : SimCfg σ) (A : α → β → Prop) (r : Out α × σ) (r' : Out β × σ) : Prop :=
  r.1 = .panic .underflow ∨ (OutRel Z.Q A r.1 r'.1 ∧ Z.R r.2 r'.2)

def Sim {σ α β : Type} (Z : SimCfg σ) (A : α → β → Prop) (x : M σ α) (y : M σ β) : Prop :=
  ∀ s s', Z.R s s' → SimAt Z A (x s) (y s')

namespace Sim
variable {σ α β γ δ : Type} {Z : SimCfg σ} {A : α → β → Prop} {B : γ → δ → Prop}

theorem pure {a : α} {b : β} (h : A a b) : Sim Z A (Pure.pure a : M σ α) (Pure.pure b : M σ β) :=
  fun _ _ hR => .inr ⟨h, hR⟩

theorem diverge : Sim Z A (M.diverge : M σ α) (M.diverge : M σ β) := fun _ _ hR => .inr ⟨trivial, hR⟩

theorem mismatch : Sim Z A (M.mismatch : M σ α) (M.mismatch : M σ β) := fun _ _ hR => .inr ⟨trivial, hR⟩

theorem panic {p : Panic} : Sim Z A (M.panic p : M σ α) (M.panic p : M σ β) := fun _ _ hR => .inr ⟨rfl, hR⟩

theorem modify {f g : σ → σ} (h : ∀ s s', Z.R s s' → Z.R (f s) (g s')) : Sim Z (fun _ _ => True) (M.modify f) (M.modify g) :=
  fun s s' hR => .inr ⟨trivial, h s s' hR⟩

theorem get : Sim Z Z.R (M.get : M σ σ) M.get := fun _ _ hR => .inr ⟨hR, hR⟩

theorem weaken {A' : α → β → Prop} (hA : ∀ a b, A a b → A' a b) {x : M σ α} {y : M σ β} (h : Sim Z A x y) : Sim Z A' x y := by
  intro s s' hR
  rcases h s s' hR with h | ⟨h, h2⟩
  · exact .inl h
  · refine .inr ⟨?_, h2⟩
    revert h
    rcases (x s).1 with a | e | p | _ <;> rcases (y s').1 with b | e' | p' | _ <;> try exact id
    exact hA _ _

theorem bind {x : M σ α} {y : M σ β} {f : α → M σ γ} {g : β → M σ δ} (h : Sim Z A x y)
    (hf : ∀ a b, A a b → Sim Z B (f a) (g b)) : Sim Z B (x >>= f) (y >>= g) := by
  intro s s' hR
  have := h s s' hR
  rw [bind_run, bind_run]
  rcases hx : x s with ⟨r, t⟩
  rcases hy : y s' with ⟨r', t'⟩
  rw [hx, hy] at this
  rcases this with h1 | ⟨h1, h2⟩
  · simp only at h1; subst h1; exact .inl rfl
  · simp only at h1 h2
    cases r <;> cases r' <;> first | exact h1.elim | skip
    · exact hf _ _ h1 _ _ h2
    · rename_i e e'
      exact .inr ⟨h1, h2⟩
    · exact .inr ⟨h1, h2⟩
    · exact .inr ⟨trivial, h2⟩

theorem bindU {x : M σ Unit} {y : M σ Unit} {f : Unit → M σ γ} {g : Unit → M σ δ} (h : Sim Z (fun _ _ => True) x y)
    (hf : Sim Z B (f ()) (g ())) : Sim Z B (x >>= f) (y >>= g) := h.bind fun _ _ _ => hf

theorem bindEq {x y : M σ α} {f : α → M σ γ} {g : α → M σ δ} (h : Sim Z Eq x y)
    (hf : ∀ a, Sim Z B (f a) (g a)) : Sim Z B (x >>= f) (y >>= g) := h.bind fun _ _ e => e ▸ hf _

/-- Is the value there, and related? -/
def OptRel (A : α → β → Prop) : Option α → Option β → Prop
  | some a, some b => A a b
  | none, none => True
  | _, _ => False

theorem try? {x : M σ α} {y : M σ β} (h : Sim Z A x y) : Sim Z (OptRel A) (M.try? x) (M.try? y) := by
  intro s s' hR
  have := h s s' hR
  unfold M.try?
  rcases hx : x s with ⟨r, t⟩
  rcases hy : y s' with ⟨r', t'⟩
  rw [hx, hy] at this
  rcases this with h1 | ⟨h1, h2⟩
  · simp only at h1; subst h1; exact .inl rfl
  · simp only at h1 h2
    cases r <;> cases r' <;> first | exact h1.elim | skip
    · exact .inr ⟨h1, h2⟩
    · exact .inr ⟨trivial, h2⟩
    · exact .inr ⟨h1, h2⟩
    · exact .inr ⟨trivial, h2⟩

theorem isOk {x : M σ α} {y : M σ β} (h : Sim Z A x y) : Sim Z Eq (M.isOk x) (M.isOk y) := by
  intro s s' hR
  have := h s s' hR
  unfold M.isOk
  rcases hx : x s with ⟨r, t⟩
  rcases hy : y s' with ⟨r', t'⟩
  rw [hx, hy] at this
  rcases this with h1 | ⟨h1, h2⟩
  · simp only at h1; subst h1; exact .inl rfl
  · simp only at h1 h2
    cases r <;> cases r' <;> first | exact h1.elim | skip
    · exact .inr ⟨rfl, h2⟩
    · exact .inr ⟨rfl, h2⟩
    · exact .inr ⟨h1, h2⟩
    · exact .inr ⟨trivial, h2⟩

theorem orDefault {x : M σ α} {y : M σ β} {d : α} {e : β} (hd : A d e) (h : Sim Z A x y) :
    Sim Z A (M.orDefault d x) (M.orDefault e y) := by
  intro s s' hR
  have := h s s' hR
  unfold M.orDefault
  rcases hx : x s with ⟨r, t⟩
  rcases hy : y s' with ⟨r', t'⟩
  rw [hx, hy] at this
  rcases this with h1 | ⟨h1, h2⟩
  · simp only at h1; subst h1; exact .inl rfl
  · simp only at h1 h2
    cases r <;> cases r' <;> first | exact h1.elim | skip
    · exact .inr ⟨h1, h2⟩
    · exact .inr ⟨hd, h2⟩
    · exact .inr ⟨h1, h2⟩
    · exact .inr ⟨trivial, h2⟩

theorem orElse {x x2 : M σ α} {y y2 : M σ β} (h : Sim Z A x y) (h' : Sim Z A x2 y2) :
    Sim Z A (orElseMismatch x x2) (orElseMismatch y y2) := by
  intro s s' hR
  have := h s s' hR
  unfold orElseMismatch
  rcases hx : x s with ⟨r, t⟩
  rcases hy : y s' with ⟨r', t'⟩
  rw [hx, hy] at this
  rcases this with h1 | ⟨h1, h2⟩
  · simp only at h1; subst h1; exact .inl rfl
  · simp only at h1 h2
    cases r <;> cases r' <;> first | exact h1.elim | skip
    · exact .inr ⟨h1, h2⟩
    · rename_i e e'
      cases e <;> cases e' <;> first | exact h1.elim | skip
      · exact h' _ _ h2
      · exact .inr ⟨h1, h2⟩
    · exact .inr ⟨h1, h2⟩
    · exact .inr ⟨trivial, h2⟩

theorem ite {c : Prop} [Decidable c] {x x2 : M σ α} {y y2 : M σ β} (h : Sim Z A x y) (h' : Sim Z A x2 y2) :
    Sim Z A (if c then x else x2) (if c then y else y2) := by
  split
  · exact h
  · exact h'

theorem runIf {c : Bool} {x y : M σ Unit} (h : Sim Z (fun _ _ => True) x y) : Sim Z (fun _ _ => True) (M.runIf c x) (M.runIf c y) :=
  ite h (pure trivial)

theorem void {x : M σ α} {y : M σ β} (h : Sim Z A x y) : Sim Z (fun _ _ => True) x y := h.weaken fun _ _ _ => trivial

end Sim

/-! ## Positions in nodes -/

theorem mapPosNodes_eq (f : Nat → Nat) : ∀ l, mapPosNodes f l = l.map (Node.mapPos f)
  | [] => rfl
  | x :: r => by rw [mapPosNodes, mapPosNodes_eq f r]; rfl

theorem mapPosEntries_eq (f : Nat → Nat) : ∀ l, mapPosEntries f l = l.map fun e => (e.1.mapPos f, e.2.mapPos f)
  | [] => rfl
  | (k, v) :: r => by rw [mapPosEntries, mapPosEntries_eq f r, mapPosEntry]; rfl

mutual
theorem Node.eq_mapPos (f : Nat → Nat) : ∀ a c : Node, Node.eq? (a.mapPos f) (c.mapPos f) = Node.eq? a c
  | .mk _ _ y, .mk _ _ z => by simp only [Node.mapPos, Node.eq?]; exact Yaml.eq_mapPos f y z
theorem Yaml.eq_mapPos (f : Nat → Nat) : ∀ a c : Yaml, Yaml.eq? (a.mapPos f) (c.mapPos f) = Yaml.eq? a c
  | .seq v, .seq w => by
    simp only [Yaml.mapPos, Yaml.eq?, nodesEq_mapPos f v w]
    simp only [mapPosNodes_eq, List.length_map]
  | .map v, .map w => by
    simp only [Yaml.mapPos, Yaml.eq?, entriesEq_mapPos f v w]
    simp only [mapPosEntries_eq, List.length_map]
  | .null, c => by cases c <;> rfl
  | .bool _, c => by cases c <;> rfl
  | .int _, c => by cases c <;> rfl
  | .float _, c => by cases c <;> rfl
  | .str _, c => by cases c <;> rfl
  | .alias _, c => by cases c <;> rfl
  | .seq _, .null | .seq _, .bool _ | .seq _, .int _ | .seq _, .float _ | .seq _, .str _ | .seq _, .map _ | .seq _, .alias _ => rfl
  | .map _, .null | .map _, .bool _ | .map _, .int _ | .map _, .float _ | .map _, .str _ | .map _, .seq _ | .map _, .alias _ => rfl
theorem nodesEq_mapPos (f : Nat → Nat) : ∀ a c : List Node, nodesEq? (mapPosNodes f a) (mapPosNodes f c) = nodesEq? a c
  | [], [] => rfl
  | [], _ :: _ => rfl
  | _ :: _, [] => rfl
  | x :: xs, y :: ys => by simp only [mapPosNodes, nodesEq?]; rw [Node.eq_mapPos f x y, nodesEq_mapPos f xs ys]
theorem entriesEq_mapPos (f : Nat → Nat) : ∀ a c : List (Node × Node), entriesEq? (mapPosEntries f a) (mapPosEntries f c) = entriesEq? a c
  | [], [] => rfl
  | [], _ :: _ => rfl
  | _ :: _, [] => rfl
  | x :: xs, y :: ys => by simp only [mapPosEntries, entriesEq?]; rw [entryEq_mapPos f x y, entriesEq_mapPos f xs ys]
theorem entryEq_mapPos (f : Nat → Nat) : ∀ a c : Node × Node, entryEq? (mapPosEntry f a) (mapPosEntry f c) = entryEq? a c
  | (k, v), (k', v') => by simp only [mapPosEntry, entryEq?]; rw [Node.eq_mapPos f k k', Node.eq_mapPos f v v']
end

mutual
theorem Node.hash_mapPos (f : Nat → Nat) : ∀ a : Node, (a.mapPos f).hashStream = a.hashStream
  | .mk _ _ y => by simp only [Node.mapPos, Node.hashStream]; exact Yaml.hash_mapPos f y
theorem Yaml.hash_mapPos (f : Nat → Nat) : ∀ a : Yaml, (a.mapPos f).hashStream = a.hashStream
  | .seq v => by
    simp only [Yaml.mapPos, Yaml.hashStream, nodesStream_mapPos f v]
    simp only [mapPosNodes_eq, List.length_map]
  | .map v => by simp only [Yaml.mapPos, Yaml.hashStream, entriesStream_mapPos f v]
  | .null => rfl
  | .bool _ => rfl
  | .int _ => rfl
  | .float _ => rfl
  | .str _ => rfl
  | .alias _ => rfl
theorem nodesStream_mapPos (f : Nat → Nat) : ∀ a : List Node, nodesStream (mapPosNodes f a) = nodesStream a
  | [] => rfl
  | x :: xs => by simp only [mapPosNodes, nodesStream]; rw [Node.hash_mapPos f x, nodesStream_mapPos f xs]
theorem entriesStream_mapPos (f : Nat → Nat) : ∀ a : List (Node × Node), entriesStream (mapPosEntries f a) = entriesStream a
  | [] => rfl
  | x :: xs => by simp only [mapPosEntries, entriesStream]; rw [entryStream_mapPos f x, entriesStream_mapPos f xs]
theorem entryStream_mapPos (f : Nat → Nat) : ∀ a : Node × Node, entryStream (mapPosEntry f a) = entryStream a
  | (k, v) => by simp only [mapPosEntry, entryStream]; rw [Node.hash_mapPos f k, Node.hash_mapPos f v]
end

def mpE (f : Nat → Nat) (e : Node × Node) : Node × Node := (e.1.mapPos f, e.2.mapPos f)

theorem entriesTake_mapPos (h : HashCfg) (f : Nat → Nat) (k : Node) : ∀ m,
    entriesTake h (k.mapPos f) (m.map (mpE f)) = (entriesTake h k m).map fun x => (x.1.map (Node.mapPos f), x.2.map (mpE f))
  | [] => rfl
  | e :: r => by
    simp only [List.map_cons, entriesTake, mpE, Node.hash_mapPos, Node.eq_mapPos]
    have ih := entriesTake_mapPos h f k r
    split
    · cases Node.eq? k e.1 with
      | ok b =>
        cases b with
        | true => rfl
        | false =>
          simp only
          rw [ih]
          cases entriesTake h k r <;> rfl
      | err _ => rfl
      | panic _ => rfl
      | diverge => rfl
    · rw [ih]
      cases entriesTake h k r <;> rfl

theorem entriesInsert_mapPos (h : HashCfg) (f : Nat → Nat) (m : List (Node × Node)) (k v : Node) :
    entriesInsert h (m.map (mpE f)) (k.mapPos f) (v.mapPos f) = (entriesInsert h m k v).map (List.map (mpE f)) := by
  rw [entriesInsert, entriesTake_mapPos, entriesInsert]
  rcases entriesTake h k m with ⟨x, r⟩ | _ | _ | _
  · cases x <;> simp [Out.map, mpE]
  · rfl
  · rfl
  · rfl

theorem entriesCollect_mapPos (h : HashCfg) (f : Nat → Nat) : ∀ (m acc : List (Node × Node)),
    entriesCollect h (acc.map (mpE f)) (m.map (mpE f)) = (entriesCollect h acc m).map (List.map (mpE f))
  | [], acc => rfl
  | (k, v) :: r, acc => by
    simp only [List.map_cons, entriesCollect]
    rw [show mpE f (k, v) = (k.mapPos f, v.mapPos f) from rfl]
    simp only [entriesInsert_mapPos]
    cases entriesInsert h acc k v with
    | ok a => exact entriesCollect_mapPos h f r a
    | err _ => rfl
    | panic _ => rfl
    | diverge => rfl

/-! ## With conditions

`P` holds in front; `S` behind a success; `E` behind a mismatch. -/

def SimX {σ α β : Type} (Z : SimCfg σ) (P S E : σ → σ → Prop) (A : α → β → Prop) (x : M σ α) (y : M σ β) : Prop :=
  ∀ s s', Z.R s s' → P s s' → (x s).1 = .panic .underflow ∨ (OutRel Z.Q A (x s).1 (y s').1 ∧ Z.R (x s).2 (y s').2 ∧
    (∀ a, (x s).1 = .ok a → S (x s).2 (y s').2) ∧ ((x s).1 = .err .mismatch → E (x s).2 (y s').2))

/-- No condition. -/
def Any {σ : Type} (_ _ : σ) : Prop := True

namespace SimX
variable {σ α β γ δ : Type} {Z : SimCfg σ} {P S T E F : σ → σ → Prop} {A : α → β → Prop} {B : γ → δ → Prop}

theorem toSim {x : M σ α} {y : M σ β} (h : SimX Z Any S E A x y) : Sim Z A x y := by
  intro s s' hR
  rcases h s s' hR trivial with h | ⟨h1, h2, -⟩
  · exact .inl h
  · exact .inr ⟨h1, h2⟩

theorem of {x : M σ α} {y : M σ β} (h : Sim Z A x y) : SimX Z P Any Any A x y := by
  intro s s' hR _
  rcases h s s' hR with h | ⟨h1, h2⟩
  · exact .inl h
  · exact .inr ⟨h1, h2, fun _ _ => trivial, fun _ => trivial⟩

/-- A run that never ends in a mismatch. -/
theorem never {x : M σ α} {y : M σ β} (hx : ∀ s, (x s).1 ≠ .err .mismatch) (h : Sim Z A x y) : SimX Z P Any E A x y := by
  intro s s' hR _
  rcases h s s' hR with h | ⟨h1, h2⟩
  · exact .inl h
  · exact .inr ⟨h1, h2, fun _ _ => trivial, fun e => absurd e (hx s)⟩

theorem pre {P' : σ → σ → Prop} {x : M σ α} {y : M σ β} (hP : ∀ s s', P' s s' → P s s') (h : SimX Z P S E A x y) : SimX Z P' S E A x y :=
  fun s s' hR hp => h s s' hR (hP _ _ hp)

theorem any {x : M σ α} {y : M σ β} (h : SimX Z Any S E A x y) : SimX Z P S E A x y := h.pre fun _ _ _ => trivial

theorem post {x : M σ α} {y : M σ β} (h : SimX Z P S E A x y) : SimX Z P Any E A x y := by
  intro s s' hR hp
  rcases h s s' hR hp with h | ⟨h1, h2, -, h4⟩
  · exact .inl h
  · exact .inr ⟨h1, h2, fun _ _ => trivial, h4⟩

theorem pure {a : α} {b : β} (h : A a b) : SimX Z P P E A (Pure.pure a : M σ α) (Pure.pure b : M σ β) :=
  fun _ _ hR hp => .inr ⟨h, hR, fun _ _ => hp, fun e => by cases e⟩

theorem diverge : SimX Z P S E A (M.diverge : M σ α) (M.diverge : M σ β) :=
  fun _ _ hR _ => .inr ⟨trivial, hR, fun _ e => by (cases e), fun e => by cases e⟩

theorem bind {x : M σ α} {y : M σ β} {f : α → M σ γ} {g : β → M σ δ} (h : SimX Z P S E A x y)
    (hf : ∀ a b, A a b → SimX Z S T E B (f a) (g b)) : SimX Z P T E B (x >>= f) (y >>= g) := by
  intro s s' hR hp
  have := h s s' hR hp
  rw [bind_run, bind_run]
  rcases hx : x s with ⟨r, t⟩
  rcases hy : y s' with ⟨r', t'⟩
  rw [hx, hy] at this
  rcases this with h1 | ⟨h1, h2, h3, h4⟩
  · simp only at h1; subst h1; exact .inl rfl
  · simp only at h1 h2 h3 h4
    cases r <;> cases r' <;> first | exact h1.elim | skip
    · exact hf _ _ h1 _ _ h2 (h3 _ rfl)
    · exact .inr ⟨h1, h2, fun _ e => by (cases e), fun e => h4 (by simp only [Out.err.injEq] at e; rw [e])⟩
    · exact .inr ⟨h1, h2, fun _ e => by (cases e), fun e => by cases e⟩
    · exact .inr ⟨trivial, h2, fun _ e => by (cases e), fun e => by cases e⟩

theorem bindU {x : M σ Unit} {y : M σ Unit} {f : Unit → M σ γ} {g : Unit → M σ δ} (h : SimX Z P S E (fun _ _ => True) x y)
    (hf : SimX Z S T E B (f ()) (g ())) : SimX Z P T E B (x >>= f) (y >>= g) := h.bind fun _ _ _ => hf

theorem bindEq {x y : M σ α} {f : α → M σ γ} {g : α → M σ δ} (h : SimX Z P S E Eq x y)
    (hf : ∀ a, SimX Z S T E B (f a) (g a)) : SimX Z P T E B (x >>= f) (y >>= g) := h.bind fun _ _ e => e ▸ hf _

theorem ite {c : Prop} [Decidable c] {x x2 : M σ α} {y y2 : M σ β} (h : SimX Z P S E A x y) (h' : SimX Z P S E A x2 y2) :
    SimX Z P S E A (if c then x else x2) (if c then y else y2) := by split <;> assumption

theorem runIf {c : Bool} {x y : M σ Unit} (h : SimX Z P Any E (fun _ _ => True) x y) :
    SimX Z P Any E (fun _ _ => True) (M.runIf c x) (M.runIf c y) := by
  cases c
  · exact (SimX.pure trivial).post
  · exact h

theorem isOk_ne {x : M σ α} (s : σ) : (M.isOk x s).1 ≠ .err .mismatch := by
  unfold M.isOk
  rcases x s with ⟨r, t⟩
  cases r <;> simp

theorem try_ne {x : M σ α} (s : σ) : (M.try? x s).1 ≠ .err .mismatch := by
  unfold M.try?
  rcases x s with ⟨r, t⟩
  cases r <;> simp

theorem isOk {x : M σ α} {y : M σ β} (h : Sim Z A x y) : SimX Z P Any E Eq (M.isOk x) (M.isOk y) := never isOk_ne h.isOk

theorem try? {x : M σ α} {y : M σ β} (h : Sim Z A x y) : SimX Z P Any E (Sim.OptRel A) (M.try? x) (M.try? y) := never try_ne h.try?

theorem orElse {x x2 : M σ α} {y y2 : M σ β} (h : SimX Z P S E A x y) (h' : SimX Z E S F A x2 y2) :
    SimX Z P S F A (M.orElseMismatch x x2) (M.orElseMismatch y y2) := by
  intro s s' hR hp
  have := h s s' hR hp
  unfold M.orElseMismatch
  rcases hx : x s with ⟨r, t⟩
  rcases hy : y s' with ⟨r', t'⟩
  rw [hx, hy] at this
  rcases this with h1 | ⟨h1, h2, h3, h4⟩
  · simp only at h1; subst h1; exact .inl rfl
  · simp only at h1 h2 h3 h4
    cases r <;> cases r' <;> first | exact h1.elim | skip
    · exact .inr ⟨h1, h2, h3, fun e => by cases e⟩
    · rename_i e e'
      cases e <;> cases e' <;> first | exact h1.elim | skip
      · exact h' _ _ h2 (h4 rfl)
      · exact .inr ⟨h1, h2, fun _ e => by (cases e), fun e => by cases e⟩
    · exact .inr ⟨h1, h2, fun _ e => by (cases e), fun e => by cases e⟩
    · exact .inr ⟨trivial, h2, fun _ e => by (cases e), fun e => by cases e⟩

end SimX

/-- Never a mismatch. -/
def NeverMis {σ α : Type} (x : M σ α) : Prop := ∀ s, (x s).1 ≠ .err .mismatch

namespace NeverMis
variable {σ α β : Type}

theorem pure (a : α) : NeverMis (Pure.pure a : M σ α) := fun _ h => by cases h

theorem bind {x : M σ α} {f : α → M σ β} (h : NeverMis x) (hf : ∀ a, NeverMis (f a)) : NeverMis (x >>= f) := by
  intro s
  have := h s
  rw [bind_run]
  rcases hx : x s with ⟨r, t⟩
  rw [hx] at this
  cases r with
  | ok a => exact hf a t
  | err e => intro e'; simp only [Out.err.injEq] at e'; subst e'; exact this rfl
  | panic p => simp
  | diverge => simp

theorem ite {c : Prop} [Decidable c] {x y : M σ α} (hx : NeverMis x) (hy : NeverMis y) : NeverMis (if c then x else y) := by
  split <;> assumption

theorem runIf {c : Bool} {x : M σ Unit} (hx : NeverMis x) : NeverMis (M.runIf c x) := by
  cases c
  · exact NeverMis.pure ()
  · exact hx

theorem isOk (x : M σ α) : NeverMis (M.isOk x) := SimX.isOk_ne
theorem try? (x : M σ α) : NeverMis (M.try? x) := SimX.try_ne

theorem orDefault (d : α) (x : M σ α) : NeverMis (M.orDefault d x) := by
  intro s
  unfold M.orDefault
  rcases x s with ⟨r, t⟩
  cases r <;> simp

theorem modify (f : σ → σ) : NeverMis (M.modify f) := fun _ h => by cases h

theorem get : NeverMis (M.get : M σ σ) := fun _ h => by cases h

end NeverMis

/-- The numbers among the scalars: is it a float, and its text. -/
def numTry : PM (Option (Bool × Bytes)) := do
  match ← M.try? float with
  | some s => pure (some (true, s))
  | none =>
  match ← M.try? sciFloat with
  | some s => pure (some (true, s))
  | none =>
  match ← M.try? int with
  | some s => pure (some (false, s))
  | none => pure none

def numYaml : Bool × Bytes → Yaml
  | (true, s) => .float s
  | (false, s) => .int s

/-! ## The loader -/

/-- What the sub-parsers do from related states; `φ`, `φ'`: where the positions of the two runs meet; `P`: the
condition in front of numbers. -/
structure Base (Z : SimCfg Parser) (P : Parser → Parser → Prop) (φ φ' : Nat → Nat) : Prop where
  pos : ∀ s s', Z.R s s' → φ s.indicator = φ' s'.indicator
  err : ∀ {α β : Type} (A : α → β → Prop) (nm : String), Sim Z A (errAt nm) (errAt nm)
  boundCtx : Sim Z (fun _ _ => True) (context (orDefault () bound)) (context (orDefault () bound))
  endCtx : Sim Z Eq (context do
      let b ← (do if ← isOk (symSeq b!"---") then pure true else isOk (symSeq b!"..."))
      runIf b backward
      pure b) (context do
      let b ← (do if ← isOk (symSeq b!"---") then pure true else isOk (symSeq b!"..."))
      runIf b backward
      pure b)
  fwdX : SimX Z Any P P (fun _ _ => True) forward forward
  bwdX : SimX Z Any P P (fun _ _ => True) backward backward
  food : Sim Z (fun a b => a.isEmpty = b.isEmpty) food food
  symX : ∀ c : UInt8, c ≠ 0x0A → c ≠ 0x0D → SimX Z Any Any P (fun _ _ => True) (sym c) (sym c)
  dashes : Sim Z (fun _ _ => True) (symSeq b!"---") (symSeq b!"---")
  dots : Sim Z (fun _ _ => True) (symSeq b!"...") (symSeq b!"...")
  boundX : SimX Z Any Any P (fun _ _ => True) bound bound
  complex : Sim Z (fun _ _ => True) complexMapping complexMapping
  inv : Sim Z (fun _ _ => True) (inv (.more 0)) (inv (.more 0))
  gap : Sim Z (fun _ _ => True) (gap true) (gap true)
  indX : ∀ level, SimX Z Any Any P (fun _ _ => True) (ind level) (ind level)
  defineX : ∀ level, SimX Z P Any P (fun _ _ => True) (do let _ ← YamlPeg.gap true; indDefine level) (do let _ ← YamlPeg.gap true; indDefine level)
  anchor : Sim Z Eq anchor anchor
  tag : Sim Z Eq tag tag
  anchorUse : Sim Z Eq anchorUse anchorUse
  nums : SimX Z P Any Any Eq numTry numTry
  single : ∀ n, Sim Z Eq (stringQuoted n 0x27 b!"''") (stringQuoted n 0x27 b!"''")
  double : ∀ n, Sim Z Eq (stringQuoted n 0x22 b!"\\\"") (stringQuoted n 0x22 b!"\\\"")
  plain : ∀ n level inner, Sim Z Eq (stringPlain n level inner) (stringPlain n level inner)
  literal : ∀ level, Sim Z Eq (stringLiteral level) (stringLiteral level)
  folded : ∀ level, Sim Z Eq (stringFolded level) (stringFolded level)
  directive : Sim Z (fun _ _ => True) (context directive) (context directive)

/-- Related states of the loader. -/
structure LR (Z : SimCfg Parser) (φ φ' : Nat → Nat) (l l' : Loader) : Prop where
  parser : Z.R l.parser l'.parser
  cyc : l.cyclicMode = l'.cyclicMode
  hash : l.hash = l'.hash
  ind : l.docInd = l'.docInd
  anchors : l.anchors.map (mapPosAnchors φ) = l'.anchors.map (mapPosAnchors φ')

def lcfg (Z : SimCfg Parser) (φ φ' : Nat → Nat) : SimCfg Loader := ⟨LR Z φ φ', Z.Q⟩

/-- Nodes that are the same where their positions meet. -/
def NR (φ φ' : Nat → Nat) (a b : Node) : Prop := a.mapPos φ = b.mapPos φ'
def YR (φ φ' : Nat → Nat) (a b : Yaml) : Prop := a.mapPos φ = b.mapPos φ'
def NsR (φ φ' : Nat → Nat) (a b : List Node) : Prop := a.map (Node.mapPos φ) = b.map (Node.mapPos φ')
def EsR (φ φ' : Nat → Nat) (a b : List (Node × Node)) : Prop := a.map (mpE φ) = b.map (mpE φ')

section
variable {Z : SimCfg Parser} {φ φ' : Nat → Nat}

theorem NsR.snoc {a b : List Node} {x y : Node} (h : NsR φ φ' a b) (hx : NR φ φ' x y) : NsR φ φ' (a ++ [x]) (b ++ [y]) := by
  simp only [NsR, List.map_append, List.map_cons, List.map_nil]
  rw [show a.map _ = _ from h, show x.mapPos φ = _ from hx]

theorem EsR.snoc {a b : List (Node × Node)} {x y v w : Node} (h : EsR φ φ' a b) (hx : NR φ φ' x y) (hv : NR φ φ' v w) :
    EsR φ φ' (a ++ [(x, v)]) (b ++ [(y, w)]) := by
  simp only [EsR, List.map_append, List.map_cons, List.map_nil]
  rw [show a.map _ = _ from h, mpE, mpE, show x.mapPos φ = _ from hx, show v.mapPos φ = _ from hv]

theorem NsR.empty {a b : List Node} (h : NsR φ φ' a b) : a.isEmpty = b.isEmpty := by
  have := congrArg List.length (show a.map _ = b.map _ from h)
  simp only [List.length_map] at this
  cases a <;> cases b <;> simp_all

theorem EsR.empty {a b : List (Node × Node)} (h : EsR φ φ' a b) : a.isEmpty = b.isEmpty := by
  have := congrArg List.length (show a.map _ = b.map _ from h)
  simp only [List.length_map] at this
  cases a <;> cases b <;> simp_all

theorem NR.mk {p p' : Nat} {t : Bytes} {y y' : Yaml} (hp : φ p = φ' p') (h : YR φ φ' y y') : NR φ φ' (.mk p t y) (.mk p' t y') := by
  simp only [NR, Node.mapPos]; rw [hp, show y.mapPos φ = _ from h]

theorem NR.yaml {a b : Node} (h : NR φ φ' a b) : YR φ φ' a.yaml b.yaml := by
  cases a; cases b
  simp only [NR, Node.mapPos, Node.mk.injEq] at h
  exact h.2.2

theorem YR.seq {a b : List Node} (h : NsR φ φ' a b) : YR φ φ' (.seq a) (.seq b) := by
  simp only [YR, Yaml.mapPos, mapPosNodes_eq]; rw [show a.map _ = b.map _ from h]

theorem YR.map {a b : List (Node × Node)} (h : EsR φ φ' a b) : YR φ φ' (.map a) (.map b) := by
  simp only [YR, Yaml.mapPos, mapPosEntries_eq]; rw [show a.map (fun e => (e.1.mapPos φ, e.2.mapPos φ)) = b.map (fun e => (e.1.mapPos φ', e.2.mapPos φ')) from h]

theorem Sim.lift {α β : Type} {A : α → β → Prop} {x : PM α} {y : PM β} (h : Sim Z A x y) : Sim (lcfg Z φ φ') A (YamlPeg.lift x) (YamlPeg.lift y) := by
  intro l l' hR
  have := h l.parser l'.parser hR.parser
  unfold YamlPeg.lift
  rcases hx : x l.parser with ⟨r, t⟩
  rcases hy : y l'.parser with ⟨r', t'⟩
  rw [hx, hy] at this
  rcases this with h1 | ⟨h1, h2⟩
  · exact .inl h1
  · exact .inr ⟨h1, ⟨h2, hR.cyc, hR.hash, hR.ind, hR.anchors⟩⟩

theorem lift_bind {α β : Type} (x : PM α) (f : α → PM β) : (lift (x >>= f) : LM β) = lift x >>= fun a => lift (f a) := by
  funext l
  rw [bind_run]
  simp only [lift, bind_run]
  rcases x l.parser with ⟨r, p⟩
  cases r <;> rfl

/-- The condition, for loaders. -/
def LP (P : Parser → Parser → Prop) (l l' : Loader) : Prop := P l.parser l'.parser

theorem SimX.lift {α β : Type} {P S E : Parser → Parser → Prop} {A : α → β → Prop} {x : PM α} {y : PM β} (h : SimX Z P S E A x y) :
    SimX (lcfg Z φ φ') (LP P) (LP S) (LP E) A (YamlPeg.lift x) (YamlPeg.lift y) := by
  intro l l' hR hp
  have := h l.parser l'.parser hR.parser hp
  unfold YamlPeg.lift
  rcases hx : x l.parser with ⟨r, t⟩
  rcases hy : y l'.parser with ⟨r', t'⟩
  rw [hx, hy] at this
  rcases this with h1 | ⟨h1, h2, h3, h4⟩
  · exact .inl h1
  · exact .inr ⟨h1, ⟨h2, hR.cyc, hR.hash, hR.ind, hR.anchors⟩, h3, h4⟩

theorem NeverMis.lift {α : Type} {x : PM α} (h : NeverMis x) : NeverMis (YamlPeg.lift x) := fun l => h l.parser

theorem NeverMis.context {α : Type} {x : PM α} (h : NeverMis x) : NeverMis (YamlPeg.context x) := fun s => h _

theorem lerr_ne {α : Type} (nm : String) : NeverMis (YamlPeg.lerr nm : LM α) := by
  intro l
  unfold YamlPeg.lerr YamlPeg.lift errAt
  simp only
  split <;> simp

theorem curAnchors_ne : NeverMis curAnchors := by
  intro l
  unfold curAnchors
  split <;> simp

theorem food_ne : NeverMis food := by
  intro s
  unfold food
  split <;> simp

theorem docEnd_ne : NeverMis YamlPeg.docEnd :=
  .lift (.bind food_ne fun _ => .ite (.pure _) (.context (.bind (.bind (.isOk _) fun _ => .ite (.pure _) (.isOk _)) fun _ =>
    .bind (.runIf (.modify _)) fun _ => .pure _)))

theorem orErr_ne {α : Type} (x : LM α) (nm : String) (l : Loader) : (YamlPeg.orErr x nm l).1 ≠ .err .mismatch := by
  unfold YamlPeg.orErr M.orElseMismatch
  rcases x l with ⟨r, t⟩
  cases r with
  | err e =>
    cases e with
    | mismatch => exact lerr_ne nm t
    | terminate => simp
  | _ => simp

variable {P : Parser → Parser → Prop} (B : Base Z P φ φ')
include B

theorem Base.fwd : Sim Z (fun _ _ => True) forward forward := B.fwdX.toSim
theorem Base.bwd : Sim Z (fun _ _ => True) backward backward := B.bwdX.toSim
theorem Base.sym (c : UInt8) (h : c ≠ 0x0A) (h' : c ≠ 0x0D) : Sim Z (fun _ _ => True) (sym c) (sym c) := (B.symX c h h').toSim
theorem Base.bound : Sim Z (fun _ _ => True) bound bound := B.boundX.toSim
theorem Base.ind (level : Nat) : Sim Z (fun _ _ => True) (ind level) (ind level) := (B.indX level).toSim

theorem Base.lerr {α β : Type} (A : α → β → Prop) (nm : String) : Sim (lcfg Z φ φ') A (lerr nm) (lerr nm) := (B.err A nm).lift

theorem Base.orErr {α β : Type} {A : α → β → Prop} {x : LM α} {y : LM β} (h : Sim (lcfg Z φ φ') A x y) (nm : String) :
    Sim (lcfg Z φ φ') A (orErr x nm) (orErr y nm) := h.orElse (B.lerr A nm)

omit B in
theorem collectMap_sim {m m' : List (Node × Node)} (h : EsR φ φ' m m') : Sim (lcfg Z φ φ') (YR φ φ') (collectMap m) (collectMap m') := by
  intro l l' hR
  have h1 := entriesCollect_mapPos l.hash φ m []
  have h2 := entriesCollect_mapPos l.hash φ' m' []
  simp only [List.map_nil] at h1 h2
  rw [show m.map _ = _ from h, h2] at h1
  unfold collectMap
  rw [← hR.hash]
  refine .inr ?_
  rcases h3 : entriesCollect l.hash [] m with a | e | p | _ <;> rcases h4 : entriesCollect l.hash [] m' with a' | e' | p' | _ <;>
    rw [h3, h4] at h1 <;> simp only [Out.map, Out.ok.injEq, Out.err.injEq, Out.panic.injEq, reduceCtorEq] at h1
  · exact ⟨YR.map h1.symm, hR⟩
  · subst h1
    refine ⟨?_, hR⟩
    cases e' with
    | mismatch => trivial
    | terminate nm t =>
      exfalso
      have := entriesCollect_settled l.hash [] m
      rw [h3] at this
      exact this
  · exact ⟨h1.symm, hR⟩
  · exact ⟨trivial, hR⟩

omit B in
theorem curAnchors_sim : Sim (lcfg Z φ φ') (fun a b => mapPosAnchors φ a = mapPosAnchors φ' b) curAnchors curAnchors := by
  intro l l' hR
  have h := congrArg (·[l.docInd]?) hR.anchors
  simp only [List.getElem?_map] at h
  unfold curAnchors
  rw [← hR.ind]
  refine .inr ?_
  cases h1 : l.anchors[l.docInd]? <;> cases h2 : l'.anchors[l.docInd]? <;> rw [h1, h2] at h <;> simp at h
  · exact ⟨rfl, hR⟩
  · exact ⟨h, hR⟩

omit B in
theorem mapGet_mapPos (f : Nat → Nat) (k : Bytes) : ∀ a : Anchors, mapGet k (mapPosAnchors f a) = (mapGet k a).map (Node.mapPos f)
  | [] => rfl
  | (k', v) :: r => by
    simp only [mapPosAnchors, List.map_cons, mapGet]
    split
    · rfl
    · exact mapGet_mapPos f k r

omit B in
theorem mapInsert_mapPos (f : Nat → Nat) (k : Bytes) (v : Node) : ∀ a : Anchors, mapInsert k (v.mapPos f) (mapPosAnchors f a) = mapPosAnchors f (mapInsert k v a)
  | [] => rfl
  | (k', v') :: r => by
    simp only [mapPosAnchors, List.map_cons, mapInsert]
    split
    · rfl
    · split
      · rfl
      · simp only [List.map_cons]
        exact congrArg _ (mapInsert_mapPos f k v r)

omit B in
theorem anchorInsert_sim {a : Bytes} {n n' : Node} (h : NR φ φ' n n') : Sim (lcfg Z φ φ') Eq (anchorInsert a n) (anchorInsert a n') := by
  unfold anchorInsert
  refine curAnchors_sim.bind fun c c' hc => .bindU (.modify fun l l' hR => ?_) (.pure ?_)
  · refine ⟨hR.parser, hR.cyc, hR.hash, hR.ind, ?_⟩
    simp only [List.map_set]
    rw [hR.anchors, hR.ind, ← mapInsert_mapPos, ← mapInsert_mapPos, hc, show n.mapPos φ = _ from h]
  · have h1 := mapGet_mapPos φ a c
    have h2 := mapGet_mapPos φ' a c'
    rw [hc, h2] at h1
    have := congrArg Option.isSome h1
    simpa using this.symm

theorem Base.docEnd : Sim (lcfg Z φ φ') Eq docEnd docEnd := by
  unfold YamlPeg.docEnd
  refine .lift (B.food.bind fun a b hab => ?_)
  rw [hab]
  refine .ite (.pure rfl) B.endCtx

theorem Base.nodePropsX : SimX (lcfg Z φ φ') Any (LP P) (LP P) Eq nodeProps nodeProps := by
  unfold YamlPeg.nodeProps
  have anc : SimX (lcfg Z φ φ') Any Any (LP P) Eq (YamlPeg.lift (orDefault [] YamlPeg.anchor)) (YamlPeg.lift (orDefault [] YamlPeg.anchor)) :=
    .never (NeverMis.lift (.orDefault _ _)) (.lift (.orDefault rfl B.anchor))
  have tg : SimX (lcfg Z φ φ') Any Any (LP P) Eq (YamlPeg.lift (orDefault [] YamlPeg.tag)) (YamlPeg.lift (orDefault [] YamlPeg.tag)) :=
    .never (NeverMis.lift (.orDefault _ _)) (.lift (.orDefault rfl B.tag))
  have bd : SimX (lcfg Z φ φ') Any Any (LP P) (fun _ _ => True) (YamlPeg.lift YamlPeg.bound) (YamlPeg.lift YamlPeg.bound) := B.boundX.lift
  have fw : SimX (lcfg Z φ φ') Any (LP P) (LP P) (fun _ _ => True) (YamlPeg.lift forward) (YamlPeg.lift forward) := B.fwdX.lift
  refine .bindEq anc fun a => .bindU (.runIf bd) (.bindU fw.post (.bindEq tg fun t => .bindU (.runIf bd) (.bindU fw.post
    (.bindEq anc fun a2 => .bindEq (S := Any) ?_ fun _ => .bindU fw (.pure rfl)))))
  exact .ite (.ite (.bindU bd (.pure rfl)) (.never (lerr_ne _) (B.lerr _ _))) (.pure rfl)

theorem Base.nodeProps : Sim (lcfg Z φ φ') Eq nodeProps nodeProps := B.nodePropsX.toSim

omit B in
theorem anchorInsert_ne (a : Bytes) (n : Node) : NeverMis (anchorInsert a n) :=
  .bind curAnchors_ne fun _ => .bind (.modify _) fun _ => .pure _

theorem Base.scalarNodeX {f g : LM Yaml} (h : SimX (lcfg Z φ φ') (LP P) Any (LP P) (YR φ φ') f g) :
    SimX (lcfg Z φ φ') Any Any (LP P) (NR φ φ') (scalarNode f) (scalarNode g) := by
  unfold YamlPeg.scalarNode
  refine .bindEq B.nodePropsX fun p => ?_
  rcases p with ⟨a, t⟩
  have gt : SimX (lcfg Z φ φ') (LP P) (LP P) (LP P) (lcfg Z φ φ').R (M.get : LM Loader) M.get :=
    fun _ _ hR hp => .inr ⟨hR, hR, fun _ _ => hp, fun _ => hp⟩
  refine .bind gt fun l l' hl => .bind h fun y y' hy => .bindU (S := Any) (B.fwdX.lift).post ?_
  have hn : NR φ φ' (Node.new y l.parser.indicator t) (Node.new y' l'.parser.indicator t) := NR.mk (B.pos _ _ hl.parser) hy
  exact .ite (.bindEq (.never (anchorInsert_ne _ _) (anchorInsert_sim hn)) fun _ => .ite (.never (lerr_ne _) (B.lerr _ _)) (.pure hn)) (.pure hn)

omit B in
theorem resolvePlain_sim (s : Bytes) : YR φ φ' (resolvePlain s) (resolvePlain s) := by
  unfold resolvePlain YR
  repeat' split
  all_goals rfl

theorem Base.useAlias (s : Bytes) : Sim (lcfg Z φ φ') (YR φ φ') (useAlias s) (useAlias s) := by
  unfold YamlPeg.useAlias
  refine .bind .get fun l l' hl => ?_
  rw [hl.cyc]
  refine .ite (.pure rfl) (curAnchors_sim.bind fun c c' hc => ?_)
  have h1 := mapGet_mapPos φ s c
  have h2 := mapGet_mapPos φ' s c'
  rw [hc, h2] at h1
  cases h3 : mapGet s c <;> cases h4 : mapGet s c' <;> rw [h3, h4] at h1 <;> simp at h1
  · exact B.lerr _ _
  · exact .pure (NR.yaml h1.symm)

/-- The recursive call. -/
def ScSim (Z : SimCfg Parser) (φ φ' : Nat → Nat) (sc : ScalarCall) : Prop := ∀ l m f, Sim (lcfg Z φ φ') (NR φ φ') (sc l m f) (sc l m f)

theorem Base.seqFlowLoop {sc : ScalarCall} (hs : ScSim Z φ φ' sc) (level : Nat) : ∀ (n : Nat) (v v' : List Node), NsR φ φ' v v' →
    Sim (lcfg Z φ φ') (NsR φ φ') (seqFlowLoop sc level n v) (seqFlowLoop sc level n v')
  | 0, _, _, _ => .diverge
  | n + 1, v, v', hv => by
    simp only [YamlPeg.seqFlowLoop]
    refine .bindU (.lift B.inv) (.bindU (.lift B.fwd) (.bindEq (.isOk (.lift (B.sym _ (by decide) (by decide)))) fun _ => .ite (.pure hv)
      (.bindU (.lift B.fwd) (.bind (B.orErr (hs _ _ _) _) fun x y hx => .bindU (.lift B.inv)
        (.bindEq (.isOk (.lift (B.sym _ (by decide) (by decide)))) fun _ => .ite (Base.seqFlowLoop hs level n _ _ (hv.snoc hx))
          (.bindU (.lift B.inv) (.bindU (.lift (B.sym _ (by decide) (by decide))) (.pure (hv.snoc hx)))))))))

theorem Base.seqFlow {sc : ScalarCall} (hs : ScSim Z φ φ' sc) (n level : Nat) :
    Sim (lcfg Z φ φ') (YR φ φ') (seqFlow sc n level) (seqFlow sc n level) := by
  unfold YamlPeg.seqFlow
  exact .bindU (.lift (B.sym _ (by decide) (by decide))) (.bind (B.seqFlowLoop hs level n [] [] rfl) fun _ _ h =>
    .bindU (.lift B.fwd) (.pure (YR.seq h)))

theorem Base.gapThenInd (level : Nat) : Sim (lcfg Z φ φ') (fun _ _ => True) (gapThenInd level) (gapThenInd level) := by
  unfold YamlPeg.gapThenInd
  exact .bindEq (.isOk (.lift B.gap)) fun _ => .ite (.lift (B.ind _)) (.pure trivial)

theorem Base.complexKey {sc : ScalarCall} (hs : ScSim Z φ φ' sc) (level : Nat) (map flow : Bool) (nm : String) :
    Sim (lcfg Z φ φ') (NR φ φ') (complexKey sc level map flow nm) (complexKey sc level map flow nm) := by
  unfold YamlPeg.complexKey
  exact .bindU (.lift B.fwd) (.bind (B.orErr (hs _ _ _) _) fun _ _ h => .bindU (B.gapThenInd _) (.pure h))

theorem Base.mapFlowLoop {sc : ScalarCall} (hs : ScSim Z φ φ' sc) {sf : LM Node} (hf : Sim (lcfg Z φ φ') (NR φ φ') sf sf) (level : Nat) :
    ∀ (n : Nat) (v v' : List (Node × Node)), EsR φ φ' v v' →
    Sim (lcfg Z φ φ') (EsR φ φ') (mapFlowLoop sc sf level n v) (mapFlowLoop sc sf level n v')
  | 0, _, _, _ => .diverge
  | n + 1, v, v', hv => by
    simp only [YamlPeg.mapFlowLoop]
    refine .bindU (.lift B.inv) (.bindU (.lift B.fwd) (.bindEq (.isOk (.lift (B.sym _ (by decide) (by decide)))) fun _ => .ite (.pure hv)
      (.bindU (.lift B.fwd) (.bind (A := NR φ φ') ?_ fun k k' hk => ?_))))
    · exact .bindEq (.isOk (.lift B.complex)) fun _ => .ite (B.complexKey hs _ _ _ _) (B.orErr hf _)
    · refine .bindEq (.isOk (.lift (B.sym _ (by decide) (by decide)))) fun _ => .ite (.bindU (.lift B.boundCtx)
        (.bindU (.lift B.fwd) (.bind (B.orErr (hs _ _ _) _) fun x x' hx => ?_))) (B.lerr _ _)
      exact .bindEq (.isOk (.lift (B.sym _ (by decide) (by decide)))) fun _ => .ite (Base.mapFlowLoop hs hf level n _ _ (hv.snoc hk hx))
        (.bindU (.lift B.inv) (.bindU (.lift (B.sym _ (by decide) (by decide))) (.pure (hv.snoc hk hx))))

omit B in
theorem optEq {α : Type} {σ β γ : Type} {Y : SimCfg σ} {C : β → γ → Prop} {f : Option α → M σ β} {g : Option α → M σ γ}
    (h : ∀ o, Sim Y C (f o) (g o)) (a b : Option α) (hab : Sim.OptRel Eq a b) : Sim Y C (f a) (g b) := by
  cases a <;> cases b <;> simp only [Sim.OptRel] at hab
  · exact h _
  · subst hab; exact h _

omit B in
theorem M.bind_assoc' {σ α β γ : Type} (x : M σ α) (f : α → M σ β) (g : β → M σ γ) : (x >>= f) >>= g = x >>= fun a => f a >>= g := by
  funext s
  simp only [bind_run]
  rcases x s with ⟨r, t⟩
  cases r <;> rfl

omit B in
theorem lift_try {α : Type} (x : PM α) : (M.try? (YamlPeg.lift x) : LM (Option α)) = YamlPeg.lift (M.try? x) := by
  funext l
  unfold M.try? YamlPeg.lift
  simp only
  rcases x l.parser with ⟨r, t⟩
  cases r <;> rfl

omit B in
theorem lift_pure {α : Type} (a : α) : (YamlPeg.lift (pure a) : LM α) = pure a := rfl

omit B in
/-- The numbers come first. -/
theorem scalarAtom_nums (n level : Nat) (flow : Bool) : scalarAtom n level flow = (do
    match ← YamlPeg.lift numTry with
    | some y => pure (some (numYaml y))
    | none =>
    match ← try? (YamlPeg.lift anchorUse) with
    | some s => do
      let y ← YamlPeg.useAlias s
      pure (some y)
    | none =>
    match ← try? (YamlPeg.lift (stringQuoted n 0x27 b!"''")) with
    | some s => pure (some (.str s))
    | none =>
    match ← try? (YamlPeg.lift (stringQuoted n 0x22 b!"\\\"")) with
    | some s => pure (some (.str (escape s)))
    | none =>
    match ← try? (YamlPeg.lift (stringPlain n level flow)) with
    | some s => pure (some (resolvePlain s))
    | none => pure none) := by
  unfold scalarAtom numTry
  rw [lift_bind, M.bind_assoc', lift_try]
  congr 1
  funext o
  cases o with
  | some s => rfl
  | none =>
    simp only
    rw [lift_bind, M.bind_assoc', lift_try]
    congr 1
    funext o
    cases o with
    | some s => rfl
    | none =>
      simp only
      rw [lift_bind, M.bind_assoc', lift_try]
      congr 1
      funext o
      cases o with
      | some s => rfl
      | none => rfl

omit B in
theorem optX {α : Type} {σ β γ : Type} {Y : SimCfg σ} {P S E : σ → σ → Prop} {C : β → γ → Prop} {f : Option α → M σ β} {g : Option α → M σ γ}
    (h : ∀ o, SimX Y P S E C (f o) (g o)) (a b : Option α) (hab : Sim.OptRel Eq a b) : SimX Y P S E C (f a) (g b) := by
  cases a <;> cases b <;> simp only [Sim.OptRel] at hab
  · exact h _
  · subst hab; exact h _

omit B in
theorem numTry_ne : NeverMis numTry := by
  unfold numTry
  refine .bind (.try? _) fun o => ?_
  cases o with
  | some s => exact .pure _
  | none =>
  refine .bind (.try? _) fun o => ?_
  cases o with
  | some s => exact .pure _
  | none =>
  refine .bind (.try? _) fun o => ?_
  cases o with
  | some s => exact .pure _
  | none => exact .pure _

omit B in
theorem useAlias_ne (s : Bytes) : NeverMis (YamlPeg.useAlias s) := by
  unfold YamlPeg.useAlias
  refine .bind .get fun l => .ite (.pure _) (.bind curAnchors_ne fun c => ?_)
  cases mapGet s c with
  | none => exact lerr_ne _
  | some y => exact .pure _

theorem Base.scalarAtom (n level : Nat) (flow : Bool) :
    SimX (lcfg Z φ φ') (LP P) Any (LP P) (Sim.OptRel (YR φ φ')) (scalarAtom n level flow) (scalarAtom n level flow) := by
  rw [scalarAtom_nums]
  have hn : SimX (lcfg Z φ φ') (LP P) Any (LP P) Eq (YamlPeg.lift numTry) (YamlPeg.lift numTry) := by
    intro l l' hR hp
    rcases B.nums.lift (φ := φ) (φ' := φ') l l' hR hp with h | ⟨h1, h2, -, -⟩
    · exact .inl h
    · exact .inr ⟨h1, h2, fun _ _ => trivial, fun e => absurd e (numTry_ne l.parser)⟩
  refine .bindEq hn fun o => ?_
  cases o with
  | some y => rcases y with ⟨_ | _, s⟩ <;> exact .pure rfl
  | none =>
  refine .bind (.try? (.lift B.anchorUse)) (optX fun o => ?_)
  cases o with
  | some s =>
    exact .bind (A := YR φ φ') (.never (useAlias_ne s) (B.useAlias s)) fun _ _ h => .pure h
  | none =>
  refine .bind (.try? (.lift (B.single n))) (optX fun o => ?_)
  cases o with
  | some s => exact .pure rfl
  | none =>
  refine .bind (.try? (.lift (B.double n))) (optX fun o => ?_)
  cases o with
  | some s => exact .pure rfl
  | none =>
  refine .bind (.try? (.lift (B.plain n _ _))) (optX fun o => ?_)
  cases o with
  | some s => exact .pure (resolvePlain_sim s)
  | none => exact .pure trivial

theorem Base.scalarTermWith {sc : ScalarCall} (hs : ScSim Z φ φ' sc) {sf : LM Node} (hf : Sim (lcfg Z φ φ') (NR φ φ') sf sf) (n level : Nat) (flow : Bool) :
    SimX (lcfg Z φ φ') (LP P) Any (LP P) (YR φ φ') (scalarTermWith sc sf n level flow) (scalarTermWith sc sf n level flow) := by
  unfold YamlPeg.scalarTermWith
  refine .bind (B.scalarAtom _ _ _) fun a b hab => ?_
  cases a <;> cases b <;> simp only [Sim.OptRel] at hab
  · refine .orElse (E := Any) (.of (.orElse (B.seqFlow hs _ _) ?_)) (.pure rfl)
    exact .bindU (.lift (B.sym _ (by decide) (by decide))) (.bind (B.mapFlowLoop hs hf _ _ [] [] rfl) fun _ _ h =>
      .bindU (.lift B.fwd) (collectMap_sim h))
  · exact .pure hab

theorem Base.scalarTerm {sc : ScalarCall} (hs : ScSim Z φ φ' sc) (n : Nat) : ∀ (d level : Nat) (flow : Bool),
    SimX (lcfg Z φ φ') (LP P) Any (LP P) (YR φ φ') (scalarTerm sc n d level flow) (scalarTerm sc n d level flow)
  | 0, _, _ => .diverge
  | d + 1, _, _ => B.scalarTermWith hs (B.scalarNodeX (Base.scalarTerm hs n d _ _)).toSim _ _ _

theorem Base.scalarFlow {sc : ScalarCall} (hs : ScSim Z φ φ' sc) (n level : Nat) (flow : Bool) :
    SimX (lcfg Z φ φ') Any Any (LP P) (NR φ φ') (scalarFlow sc n level flow) (scalarFlow sc n level flow) := B.scalarNodeX (B.scalarTerm hs _ _ _ _)

theorem Base.gapThenIndX (level : Nat) : SimX (lcfg Z φ φ') Any Any (LP P) (fun _ _ => True) (YamlPeg.gapThenInd level) (YamlPeg.gapThenInd level) := by
  unfold YamlPeg.gapThenInd
  exact .bindEq (.isOk (.lift B.gap)) fun _ => .ite (B.indX _).lift (.pure trivial)

theorem Base.firstItem (level : Nat) (map : Bool) :
    SimX (lcfg Z φ φ') (LP P) Any (LP P) (fun _ _ => True) (firstItem level map) (firstItem level map) := by
  unfold YamlPeg.firstItem
  refine .ite ?_ (B.gapThenIndX _).any
  have := (B.defineX level).lift (φ := φ) (φ' := φ')
  rw [lift_bind] at this
  exact this

theorem Base.complexKeyX {sc : ScalarCall} (hs : ScSim Z φ φ' sc) (level : Nat) (map flow : Bool) (nm : String) :
    SimX (lcfg Z φ φ') Any Any (LP P) (NR φ φ') (YamlPeg.complexKey sc level map flow nm) (YamlPeg.complexKey sc level map flow nm) := by
  unfold YamlPeg.complexKey
  exact .bindU (S := Any) B.fwdX.lift.post (.bind (A := NR φ φ') (.never (orErr_ne _ _) (B.orErr (hs _ _ _) _)) fun _ _ h => .bindU (B.gapThenIndX _) (.pure h))

theorem Base.nextItem (level : Nat) (nm : String) : Sim (lcfg Z φ φ') Eq (nextItem level nm) (nextItem level nm) := by
  unfold YamlPeg.nextItem
  refine .bindEq (.isOk (.lift B.gap)) fun g => .bindEq (.ite (.pure rfl) (.bindEq B.docEnd fun _ => .pure rfl)) fun bad =>
    .ite (B.lerr _ _) (.bindEq B.docEnd fun _ => .ite (.pure rfl) (.bindEq (.isOk (.lift (B.ind _))) fun _ => .pure rfl))

omit B in
theorem nextItem_ne (level : Nat) (nm : String) : NeverMis (YamlPeg.nextItem level nm) :=
  .bind (.isOk _) fun _ => .bind (.ite (.pure _) (.bind docEnd_ne fun _ => .pure _)) fun _ => .ite (lerr_ne _)
    (.bind docEnd_ne fun _ => .ite (.pure _) (.bind (.isOk _) fun _ => .pure _))

theorem Base.seqLoop {sc : ScalarCall} (hs : ScSim Z φ φ' sc) (level : Nat) (map : Bool) : ∀ (n : Nat) (v v' : List Node), NsR φ φ' v v' →
    SimX (lcfg Z φ φ') Any Any (LP P) (NsR φ φ') (seqLoop sc level map n v) (seqLoop sc level map n v')
  | 0, _, _, _ => .diverge
  | n + 1, v, v', hv => by
    simp only [YamlPeg.seqLoop]
    rw [hv.empty]
    refine .bindU (S := LP P) B.fwdX.lift (.bindEq (S := Any) ?_ fun _ => .ite (.pure hv) (.bindU (S := Any) B.fwdX.lift.post
      (.bind (A := NR φ φ') (.never (orErr_ne _ _) (B.orErr (hs _ _ _) _)) fun x y hx => Base.seqLoop hs level map n _ _ (hv.snoc hx))))
    refine .ite (.bindU (B.firstItem _ _) (.bindU (S := Any) (B.symX _ (by decide) (by decide)).lift (.bindU (S := Any) B.boundX.lift (.pure rfl)))) (.any ?_)
    refine .bindEq (.never (nextItem_ne _ _) (B.nextItem _ _)) fun _ => .ite (.pure rfl) (.bindEq (.isOk (.lift (B.sym _ (by decide) (by decide)))) fun _ => .ite
      (.bindEq (.isOk (.lift B.bound)) fun _ => .ite (.bindU (S := Any) B.fwdX.lift.post (.pure rfl)) (.pure rfl)) (.pure rfl))

theorem Base.seq {sc : ScalarCall} (hs : ScSim Z φ φ' sc) (n level : Nat) (map : Bool) :
    SimX (lcfg Z φ φ') Any Any (LP P) (YR φ φ') (seq sc n level map) (seq sc n level map) := by
  unfold YamlPeg.seq
  exact .bind (B.seqLoop hs _ _ _ [] [] rfl) fun _ _ h => .bindU (S := Any) B.bwdX.lift.post (.pure (YR.seq h))

theorem Base.colonBound : Sim (lcfg Z φ φ') Eq colonBound colonBound := by
  unfold YamlPeg.colonBound
  exact .bindEq (.isOk (.lift (B.sym _ (by decide) (by decide)))) fun _ => .ite (.isOk (.lift B.bound)) (.pure rfl)

/-- Two beginnings of a round. -/
def StepR (φ φ' : Nat → Nat) : MapStep → MapStep → Prop
  | .alone y, .alone y' => YR φ φ' y y'
  | .stop, .stop => True
  | .key k, .key k' => NR φ φ' k k'
  | _, _ => False

omit B in
theorem colonBound_ne : NeverMis YamlPeg.colonBound := .bind (.isOk _) fun _ => .ite (.isOk _) (.pure _)

theorem Base.mapStep {sc : ScalarCall} (hs : ScSim Z φ φ' sc) {sf : LM Node} (hf : SimX (lcfg Z φ φ') Any Any (LP P) (NR φ φ') sf sf) (level : Nat) (map flow first : Bool) :
    SimX (lcfg Z φ φ') Any Any (LP P) (StepR φ φ') (mapStep sc sf level map flow first) (mapStep sc sf level map flow first) := by
  unfold YamlPeg.mapStep
  refine .bindU (S := LP P) B.fwdX.lift (.ite ?_ (.any ?_))
  · refine .bindU (B.firstItem _ _) (.bindU (S := Any) B.fwdX.lift.post (.bind (A := NR φ φ') (S := Any) ?_ fun k k' hk => ?_))
    · exact .bindEq (.isOk (.lift B.complex)) fun _ => .ite (B.complexKeyX hs _ _ _ _) hf
    · exact .bindEq (.never colonBound_ne B.colonBound) fun _ => .ite (.pure hk) (.pure (NR.yaml hk))
  · refine .bindEq (.never (nextItem_ne _ _) (B.nextItem _ _)) fun _ => .ite (.pure trivial) (.bindU (S := Any) B.fwdX.lift.post (.bind (A := NR φ φ') (S := Any) ?_ fun k k' hk => ?_))
    · exact .bindEq (.isOk (.lift B.complex)) fun _ => .ite (B.complexKeyX hs _ _ _ _) (.never (orErr_ne _ _) (B.orErr hf.toSim _))
    · exact .bindEq (.never colonBound_ne B.colonBound) fun _ => .ite (.pure hk) (.never (lerr_ne _) (B.lerr _ _))

theorem Base.mapLoop {sc : ScalarCall} (hs : ScSim Z φ φ' sc) {sf : LM Node} (hf : SimX (lcfg Z φ φ') Any Any (LP P) (NR φ φ') sf sf) (level : Nat) (map flow : Bool) :
    ∀ (n : Nat) (v v' : List (Node × Node)), EsR φ φ' v v' →
    SimX (lcfg Z φ φ') Any Any (LP P) (YR φ φ') (mapLoop sc sf level map flow n v) (mapLoop sc sf level map flow n v')
  | 0, _, _, _ => .diverge
  | n + 1, v, v', hv => by
    simp only [YamlPeg.mapLoop]
    rw [hv.empty]
    refine .bind (B.mapStep hs hf _ _ _ _) fun a b hab => ?_
    cases a <;> cases b <;> simp only [StepR] at hab
    · exact .pure hab
    · refine .bindU (S := LP P) B.bwdX.lift ?_
      intro l l' hR hp
      have hst : ∀ (m : List (Node × Node)) (l : Loader), (collectMap m l).2 = l := fun m l => by
        unfold collectMap
        cases entriesCollect l.hash [] m <;> rfl
      rcases collectMap_sim hv l l' hR with h | ⟨h1, h2⟩
      · exact .inl h
      · exact .inr ⟨h1, h2, fun _ _ => trivial, fun _ => by rw [hst, hst]; exact hp⟩
    · exact .bindU (S := Any) B.fwdX.lift.post (.bind (A := NR φ φ') (.never (orErr_ne _ _) (B.orErr (hs _ _ _) _)) fun x y hx =>
        Base.mapLoop hs hf level map flow n _ _ (hv.snoc hab hx))

theorem Base.scalarBody {sc : ScalarCall} (hs : ScSim Z φ φ' sc) (n level : Nat) (map flow : Bool) :
    SimX (lcfg Z φ φ') Any Any (LP P) (YR φ φ') (scalarBody sc n level map flow) (scalarBody sc n level map flow) := by
  unfold YamlPeg.scalarBody
  refine .bind (.try? (.lift (B.literal _))) (optX fun o => ?_)
  cases o with
  | some s => exact .pure rfl
  | none =>
  refine .bind (.try? (.lift (B.folded _))) (optX fun o => ?_)
  cases o with
  | some s => exact .pure rfl
  | none => exact .orElse (.orElse (B.seq hs _ _ _) (.any (B.mapLoop hs (B.scalarFlow hs _ _ _) _ _ _ _ [] [] rfl))) (B.scalarTerm hs _ _ _ _)

theorem Base.scalar : ∀ n, ScSim Z φ φ' (scalar n)
  | 0 => fun _ _ _ => .diverge
  | n + 1 => fun _ _ _ => (B.scalarNodeX (B.scalarBody (Base.scalar n) _ _ _ _).any).toSim

theorem Base.doc (n : Nat) : Sim (lcfg Z φ φ') (NR φ φ') (doc n) (doc n) := by
  unfold YamlPeg.doc
  refine .bindU (.lift B.boundCtx) (.bindU (.lift B.fwd) (.bindU (.modify fun l l' hR => ?_)
    (.bind (B.scalar n _ _ _) fun x y hx => .bind (A := fun _ _ => True) (.lift (.orDefault trivial B.gap)) fun _ _ _ =>
      .bindU (.lift (.orDefault trivial B.dots)) (.bindU (.lift B.fwd) (.bindU (.modify fun l l' hR => ?_) (.pure hx))))))
  · exact ⟨hR.parser, hR.cyc, hR.hash, hR.ind, by simp only [List.map_append]; rw [hR.anchors]; rfl⟩
  · exact ⟨hR.parser, hR.cyc, hR.hash, by simp only [hR.ind], hR.anchors⟩

theorem Base.directives : ∀ n, Sim (lcfg Z φ φ') (fun _ _ => True) (directives n) (directives n)
  | 0 => .diverge
  | n + 1 => by
    intro l l' hR
    have := B.directive.lift (φ := φ) (φ' := φ') l l' hR
    simp only [YamlPeg.directives]
    rcases hx : YamlPeg.lift (context YamlPeg.directive) l with ⟨r, t⟩
    rcases hy : YamlPeg.lift (context YamlPeg.directive) l' with ⟨r', t'⟩
    rw [hx, hy] at this
    rcases this with h1 | ⟨h1, h2⟩
    · simp only at h1; subst h1; exact .inl rfl
    · simp only at h1 h2
      cases r <;> cases r' <;> first | exact h1.elim | skip
      · exact Base.directives n _ _ h2
      · rename_i e e'
        cases e <;> cases e' <;> first | exact h1.elim | skip
        · exact .inr ⟨trivial, h2⟩
        · exact .inr ⟨h1, h2⟩
      · exact .inr ⟨h1, h2⟩
      · exact .inr ⟨trivial, h2⟩

theorem Base.docsLoop (n : Nat) : ∀ (m : Nat) (v v' : List Node), NsR φ φ' v v' →
    Sim (lcfg Z φ φ') (NsR φ φ') (docsLoop n m v) (docsLoop n m v')
  | 0, _, _, _ => .diverge
  | m + 1, v, v', hv => by
    simp only [YamlPeg.docsLoop]
    refine .bind (A := fun _ _ => True) (.lift (.orDefault trivial B.gap)) fun _ _ _ => .bind (.lift B.food) fun a b hab => ?_
    rw [hab]
    exact .ite (.pure hv) (.bindEq (.isOk (.lift B.dashes)) fun _ => .ite (.bind (B.doc n) fun x y hx =>
      Base.docsLoop n m _ _ (hv.snoc hx)) (B.lerr _ _))

theorem Base.loaderParse (n : Nat) : Sim (lcfg Z φ φ') (NsR φ φ') (loaderParse n) (loaderParse n) := by
  unfold YamlPeg.loaderParse
  exact .bindU (B.directives n) (.bind (A := fun _ _ => True) (.lift (.orDefault trivial B.gap)) fun _ _ _ =>
    .bindU (.lift (.orDefault trivial B.dashes)) (.bind (B.doc n) fun x y hx => B.docsLoop n n _ _ (by
      simp only [NsR, List.map_cons, List.map_nil]; rw [show x.mapPos φ = _ from hx])))

end

end YamlPeg
