import Verif.Proof.Resolve
import Verif.Props.Loader
/-!
# `parse` and `parse_cyclic`: C80
-/

namespace YamlPeg.Props
open YamlPeg M

/-- Two outcomes of the same kind: values related, errors and panics equal. -/
def SameKind {α β : Type} (A : α → β → Prop) : Out α → Out β → Prop
  | .ok a, .ok b => A a b
  | .err e, .err e' => e = e'
  | .panic p, .panic q => p = q
  | .diverge, .diverge => True
  | _, _ => False

/-- As many documents, and each document of `parse` is the one of `parse_cyclic` with its aliases resolved by its
table, unless there are aliases in keys. -/
def DocsResolved (roots : List Node) (c : List Node × List Anchors) : Prop :=
  roots.length = c.1.length ∧ c.2.length = c.1.length ∧
  ∀ (i : Nat) n n' T, roots[i]? = some n → c.1[i]? = some n' → c.2[i]? = some T → ¬ AliasKey n' → ¬ TableAliasKey T → Resolved T n' n

theorem docsRes_spec {v v' : List Node} {F : List Anchors} (h : DocsRes v v' F) : DocsResolved v (v', F) := by
  induction h with
  | nil => exact ⟨rfl, rfl, fun i n n' T h => by simp at h⟩
  | @snoc v v' F n n' w _ hn ih =>
    obtain ⟨h1, h2, h3⟩ := ih
    refine ⟨by simp [h1], by simp at h2 ⊢; exact h2, fun i m m' T e e' eT hk hT => ?_⟩
    simp only at e' eT h1 h2 h3
    by_cases hi : i < v.length
    · rw [List.getElem?_append_left hi] at e
      rw [List.getElem?_append_left (by omega)] at e' eT
      exact h3 i m m' T e e' eT hk hT
    · rw [List.getElem?_append_right (by omega)] at e
      rw [List.getElem?_append_right (by omega)] at e' eT
      rw [h1] at e
      rw [h2] at eT
      cases hd : i - v'.length with
      | zero =>
        rw [hd] at e e' eT
        simp at e e' eT
        subst e e' eT
        exact (hn.resolve_left hT).resolve_left hk
      | succ j => rw [hd] at e; simp at e

/-- **C80.** Unless `parse` reports an undefined name, or a run panics at an unreadable integer, `parse` and
`parse_cyclic` end alike: the same error, the same panic, both never, or both with documents, those of `parse` being
those of `parse_cyclic` with their aliases resolved. -/
theorem C80_resolved (h : HashCfg) (n : Nat) (doc : Bytes) :
    (∃ m, parse h n doc = .err (.terminate "anchor referenced before definition" m)) ∨
    (UnreadableIntIn doc ∧ (parse h n doc = .panic .intUnwrap ∨ parseCyclic h n doc = .panic .intUnwrap)) ∨
    SameKind DocsResolved (parse h n doc) (parseCyclic h n doc) := by
  have hb : BetweenDocs [] (Loader.new h doc) { Loader.new h doc with cyclicMode := true } := ⟨rfl, rfl, rfl, rfl, rfl, rfl, rfl, rfl⟩
  have hc : parseCyclic h n doc = (loaderParse n { Loader.new h doc with cyclicMode := true }).1.map fun root =>
      (root, (loaderParse n { Loader.new h doc with cyclicMode := true }).2.anchors) := rfl
  rcases loaderParse_res n _ _ hb with hp | hp
  · rcases hp with ⟨m, hm⟩ | hu | ⟨p, hp, hx | hx⟩
    · exact .inl ⟨m, hm⟩
    · exact ((C08_no_message_panic h n doc).1 hu).elim
    · have hx : parse h n doc = .panic p := hx
      rcases C02_panic_causes_partial h n doc p hx with ⟨rfl, -⟩ | ⟨rfl, hi⟩
      · simp at hp
      · exact .inr (.inl ⟨hi, .inl hx⟩)
    · have hx : parseCyclic h n doc = .panic p := by rw [hc, hx]; rfl
      rcases C02_panic_causes_cyclic_partial h n doc p hx with ⟨rfl, -⟩ | ⟨rfl, hi⟩
      · simp at hp
      · exact .inr (.inl ⟨hi, .inr hx⟩)
  · refine .inr (.inr ?_)
    rw [hc]
    change SameKind _ (loaderParse n (Loader.new h doc)).1 _
    revert hp
    generalize loaderParse n (Loader.new h doc) = x
    generalize loaderParse n { Loader.new h doc with cyclicMode := true } = y
    rcases x with ⟨r, l⟩
    rcases y with ⟨r', l'⟩
    intro hp
    rcases r with a | (_ | ⟨nm, m⟩) | p | _ <;> rcases r' with a' | (_ | ⟨nm', m'⟩) | p' | _ <;> first | exact hp.elim | skip
    · obtain ⟨o, -, hR, F, rfl, hF⟩ := hp
      have hR : BetweenDocs F l l' := hR
      change DocsResolved a (a', l'.anchors)
      rw [hR.tables']
      exact docsRes_spec hF
    · rfl
    · obtain ⟨rfl, rfl⟩ := hp
      rfl
    · exact hp
    · trivial

/-- **C80.** The resolved form of a document is determined by it and its table. -/
theorem C80_one_resolved_form {T : Anchors} {n' n m : Node} (h1 : Resolved T n' n) (h2 : Resolved T n' m) : n = m := h1.unique h2

/-- **C80.** Whatever `parse` reads `parse_cyclic` reads, if integers can be read. -/
theorem C80_parse_reads {h : HashCfg} {n : Nat} {doc : Bytes} {roots : List Node} (hi : ¬ UnreadableIntIn doc)
    (hp : parse h n doc = .ok roots) : ∃ c, parseCyclic h n doc = .ok c ∧ DocsResolved roots c := by
  rcases C80_resolved h n doc with ⟨m, hm⟩ | ⟨hu, -⟩ | hs
  · rw [hp] at hm; cases hm
  · exact (hi hu).elim
  · rw [hp] at hs
    cases hc : parseCyclic h n doc with
    | ok c => rw [hc] at hs; exact ⟨c, rfl, hs⟩
    | _ => rw [hc] at hs; exact hs.elim

/-- **C80.** Whatever `parse_cyclic` reads `parse` reads, or reports an undefined name in, if integers can be read. -/
theorem C80_cyclic_reads {h : HashCfg} {n : Nat} {doc : Bytes} {c : List Node × List Anchors} (hi : ¬ UnreadableIntIn doc)
    (hp : parseCyclic h n doc = .ok c) : (∃ roots, parse h n doc = .ok roots ∧ DocsResolved roots c) ∨
      ∃ m, parse h n doc = .err (.terminate "anchor referenced before definition" m) := by
  rcases C80_resolved h n doc with hm | ⟨hu, -⟩ | hs
  · exact .inr hm
  · exact (hi hu).elim
  · rw [hp] at hs
    cases hc : parse h n doc with
    | ok roots => rw [hc] at hs; exact .inl ⟨roots, rfl, hs⟩
    | _ => rw [hc] at hs; exact hs.elim

/-- **C80.** An error of `parse_cyclic` is the error of `parse`, unless that stops earlier at an undefined name. -/
theorem C80_cyclic_errors {h : HashCfg} {n : Nat} {doc : Bytes} {e : PErr} (hi : ¬ UnreadableIntIn doc)
    (hp : parseCyclic h n doc = .err e) : parse h n doc = .err e ∨
      ∃ m, parse h n doc = .err (.terminate "anchor referenced before definition" m) := by
  rcases C80_resolved h n doc with hm | ⟨hu, -⟩ | hs
  · exact .inr hm
  · exact (hi hu).elim
  · rw [hp] at hs
    cases hc : parse h n doc with
    | err e' => rw [hc] at hs; exact .inl (by rw [show e' = e from hs])
    | _ => rw [hc] at hs; exact hs.elim

/-- **C80.** Without aliases the two give the same documents. -/
theorem C80_no_aliases {h : HashCfg} {n : Nat} {doc : Bytes} {roots roots' : List Node} {tables : List Anchors}
    (hp : parse h n doc = .ok roots) (hc : parseCyclic h n doc = .ok (roots', tables))
    (h1 : ∀ n' ∈ roots', ¬ HasAlias n') (h2 : ∀ T ∈ tables, ¬ TableAliasKey T) : roots = roots' := by
  rcases C80_resolved h n doc with ⟨m, hm⟩ | ⟨-, hm | hm⟩ | hs
  · rw [hp] at hm; cases hm
  · rw [hp] at hm; cases hm
  · rw [hc] at hm; cases hm
  · rw [hp, hc] at hs
    obtain ⟨e1, e2, h3⟩ := hs
    simp only at e1 e2 h3
    refine List.ext_getElem e1 fun i hi hi' => ?_
    have ha := h1 _ (List.getElem_mem hi')
    exact (h3 i _ _ _ (List.getElem?_eq_getElem hi) (List.getElem?_eq_getElem hi') (List.getElem?_eq_getElem (by omega))
      (fun hk => ha hk.hasAlias) (h2 _ (List.getElem_mem _))).noAlias ha

/-! ## Examples -/

/-- A document with aliases, one with a tag of its own. -/
def aliasDoc : Bytes := b!"- &a {k: [x]}\n- *a\n- !t *a\n"

/-- The hypotheses are met, and the result is not trivial. -/
example : ∃ roots c, parse .exact 20 aliasDoc = .ok roots ∧ parseCyclic .exact 20 aliasDoc = .ok c ∧
    (∃ n' ∈ c.1, HasAlias n') ∧ roots.length = 1 := by
  refine ⟨[.mk 0 [] (.seq [.mk 5 [] (.map [(.mk 6 [] (.str b!"k"), .mk 9 [] (.seq [.mk 10 [] (.str b!"x")]))]),
      .mk 16 [] (.map [(.mk 6 [] (.str b!"k"), .mk 9 [] (.seq [.mk 10 [] (.str b!"x")]))]),
      .mk 24 b!"t" (.map [(.mk 6 [] (.str b!"k"), .mk 9 [] (.seq [.mk 10 [] (.str b!"x")]))])])],
    ([.mk 0 [] (.seq [.mk 5 [] (.map [(.mk 6 [] (.str b!"k"), .mk 9 [] (.seq [.mk 10 [] (.str b!"x")]))]),
      .mk 16 [] (.alias b!"a"), .mk 24 b!"t" (.alias b!"a")])],
     [[(b!"a", .mk 5 [] (.map [(.mk 6 [] (.str b!"k"), .mk 9 [] (.seq [.mk 10 [] (.str b!"x")]))]))]]),
    by decide +kernel, by decide +kernel, ⟨_, List.mem_singleton.2 rfl, ?_⟩, rfl⟩
  exact ⟨.mk 16 [] (.alias b!"a"), b!"a", .item (x := .mk 16 [] (.alias b!"a")) (by simp) .self, rfl⟩

/-- **C80**, counterexample: with an alias as a key `parse` has one entry where `parse_cyclic` has two. -/
theorem C80_counterexample_alias_key : ∃ doc p q, parse .exact 20 doc = .ok [.mk 0 [] (.map [p])] ∧
    (∃ T e, parseCyclic .exact 20 doc = .ok ([.mk 0 [] (.map [q, e])], T)) := by
  refine ⟨b!"? &a x\n: y\n? *a\n: z\n", (.mk 5 [] (.str b!"x"), .mk 18 [] (.str b!"z")), (.mk 5 [] (.str b!"x"), .mk 9 [] (.str b!"y")), by decide +kernel,
    [[(b!"a", .mk 5 [] (.str b!"x"))]], (.mk 13 [] (.alias b!"a"), .mk 18 [] (.str b!"z")), by decide +kernel⟩

/-- **C80**, counterexample: `parse` panics, comparing two unreadable integers, where `parse_cyclic` returns. -/
theorem C80_counterexample_unreadable : ∃ doc, parse .exact 20 doc = .panic .intUnwrap ∧ (parseCyclic .exact 20 doc).isOk = true :=
  ⟨b!"? &a 99999999999999999999\n: y\n? *a\n: z\n", by decide +kernel, by decide +kernel⟩

/-- An undefined name: only `parse` complains. -/
example : (match parse .exact 20 b!"[*a]\n" with | .err (.terminate s _) => s == "anchor referenced before definition" | _ => false) = true ∧
    (parseCyclic .exact 20 b!"[*a]\n").isOk = true := by decide +kernel

end YamlPeg.Props
