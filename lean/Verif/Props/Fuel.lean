import Verif.Proof.Fuel
/-!
# C49: the fuel of the model is not observable

`Ends f o`: the modelled call, with enough running time, ends with outcome
`o`.  `Hangs f`: it never ends, however long it runs.
-/

namespace YamlPeg

/-- The call with running time bound `n` ends with `o` for every large `n`. -/
def Ends {α : Type} (f : Nat → Out α) (o : Out α) : Prop := o ≠ .diverge ∧ ∃ N, ∀ n, N ≤ n → f n = o

/-- The call never ends. -/
def Hangs {α : Type} (f : Nat → Out α) : Prop := ∀ n, f n = .diverge

namespace Props

theorem C49_parse_stable (h : HashCfg) (doc : Bytes) (n m : Nat) (hnm : n ≤ m)
    (hd : parse h n doc ≠ .diverge) : parse h m doc = parse h n doc := by
  rcases loaderParse_le hnm (Loader.new h doc) with e | e
  · exact absurd e hd
  · simp only [parse, e]

theorem C49_parse_cyclic_stable (h : HashCfg) (doc : Bytes) (n m : Nat) (hnm : n ≤ m)
    (hd : parseCyclic h n doc ≠ .diverge) : parseCyclic h m doc = parseCyclic h n doc := by
  rcases loaderParse_le hnm { Loader.new h doc with cyclicMode := true } with e | e
  · exfalso; apply hd
    unfold parseCyclic
    generalize loaderParse n _ = x at e ⊢
    rcases x with ⟨r, l⟩
    simp only at e
    subst e; rfl
  · simp only [parseCyclic, e]

theorem C49_dump_stable (cfg : DumpCfg) (nodes : List Node) (anchors : List Anchors) (n m : Nat)
    (hnm : n ≤ m) (hd : dump cfg n nodes anchors ≠ .diverge) :
    dump cfg m nodes anchors = dump cfg n nodes anchors := by
  rcases dumpDocs_le cfg hnm anchors 0 nodes with e | e
  · exact absurd e hd
  · exact e.symm

/-- Stability gives the dichotomy: a call returns exactly one outcome, or it
never returns. -/
theorem returns_or_hangs {α : Type} (f : Nat → Out α)
    (hf : ∀ n m, n ≤ m → f n ≠ .diverge → f m = f n) :
    (Hangs f ∧ ∀ o, ¬ Ends f o) ∨ (¬ Hangs f ∧ ∃ o, Ends f o ∧ ∀ o', Ends f o' → o' = o) := by
  by_cases h : Hangs f
  · left
    refine ⟨h, ?_⟩
    rintro o ⟨ho, N, hN⟩
    exact ho ((hN N (Nat.le_refl _)).symm.trans (h N))
  · right
    refine ⟨h, ?_⟩
    simp only [Hangs, Classical.not_forall] at h
    obtain ⟨n, hn⟩ := h
    refine ⟨f n, ⟨hn, n, fun m hm => hf n m hm hn⟩, ?_⟩
    rintro o' ⟨_, N, hN⟩
    have h1 := hN (max N n) (by omega)
    have h2 := hf n (max N n) (by omega) hn
    rw [← h1, h2]

/-- Every parse either never ends, or ends with exactly one outcome. -/
theorem C49_parse_outcome (h : HashCfg) (doc : Bytes) :
    (Hangs (parse h · doc) ∧ ∀ o, ¬ Ends (parse h · doc) o) ∨
    (¬ Hangs (parse h · doc) ∧ ∃ o, Ends (parse h · doc) o ∧ ∀ o', Ends (parse h · doc) o' → o' = o) :=
  returns_or_hangs _ fun n m hnm hd => C49_parse_stable h doc n m hnm hd

theorem C49_parse_cyclic_outcome (h : HashCfg) (doc : Bytes) :
    (Hangs (parseCyclic h · doc) ∧ ∀ o, ¬ Ends (parseCyclic h · doc) o) ∨
    (¬ Hangs (parseCyclic h · doc) ∧
      ∃ o, Ends (parseCyclic h · doc) o ∧ ∀ o', Ends (parseCyclic h · doc) o' → o' = o) :=
  returns_or_hangs _ fun n m hnm hd => C49_parse_cyclic_stable h doc n m hnm hd

theorem C49_dump_outcome (cfg : DumpCfg) (nodes : List Node) (anchors : List Anchors) :
    (Hangs (dump cfg · nodes anchors) ∧ ∀ o, ¬ Ends (dump cfg · nodes anchors) o) ∨
    (¬ Hangs (dump cfg · nodes anchors) ∧ ∃ o, Ends (dump cfg · nodes anchors) o ∧
      ∀ o', Ends (dump cfg · nodes anchors) o' → o' = o) :=
  returns_or_hangs _ fun n m hnm hd => C49_dump_stable cfg nodes anchors n m hnm hd

/-- One finished run is enough to know the outcome. -/
theorem parse_returns_of {h : HashCfg} {doc : Bytes} {o : Out (List Node)} {n : Nat}
    (e : parse h n doc = o) (ho : o ≠ .diverge) : Ends (parse h · doc) o :=
  ⟨ho, n, fun m hm => by subst e; exact C49_parse_stable h doc n m hm ho⟩

theorem parseCyclic_returns_of {h : HashCfg} {doc : Bytes} {o : Out (List Node × List Anchors)} {n : Nat}
    (e : parseCyclic h n doc = o) (ho : o ≠ .diverge) : Ends (fun n => parseCyclic h n doc) o :=
  ⟨ho, n, fun m hm => by subst e; exact C49_parse_cyclic_stable h doc n m hm ho⟩

/-- Non-vacuity: `a: b` returns, with 20 units of fuel. -/
example : (parse .exact 20 b!"a: b\n").isOk = true := by decide +kernel

end Props
end YamlPeg
