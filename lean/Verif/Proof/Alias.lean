import Verif.Proof.Leaves
/-! # Reading aliases -/

namespace YamlPeg
open M

/-- The value of an alias: the alias itself in cyclic mode, a copy of the data
under its name otherwise. -/
def aliasYaml (a : Bytes) (e : Env) : Yaml :=
  if e.cyclic then .alias a else ((mapGet a e.anchors).map Node.yaml).getD .null

/-- The name is known, or does not need to be. -/
def aliasFine (a : Bytes) (e : Env) : Prop := e.cyclic = true ∨ (mapGet a e.anchors).isSome = true

theorem useAlias_read {L : Loader} (hL : L.Ready) {a : Bytes} {k : Ctx} (h : aliasFine a (envOf L k)) (s : Parser) :
    useAlias a (ld L s) = (.ok (aliasYaml a (envOf L k)), ld L s) := by
  have hlt : L.docInd < L.anchors.length := hL
  rw [useAlias, bind_ok (get_run _)]
  by_cases hc : L.cyclicMode = true
  · simp [hc, aliasYaml, envOf]
  · simp only [ld_cyclic, hc, Bool.false_eq_true, if_false]
    have hcur : curAnchors (ld L s) = (.ok L.cur, ld L s) := by
      simp only [curAnchors, ld_anchors, ld_docInd, Loader.cur]
      rw [List.getElem?_eq_getElem hlt]
      rfl
    rw [bind_ok hcur]
    rcases h with h | h
    · exact absurd h hc
    · obtain ⟨n, hn⟩ := Option.isSome_iff_exists.1 h
      simp only [envOf] at hn
      simp [hn, aliasYaml, envOf, hc]

theorem notNum_star (r : Bytes) : NotNum (0x2A :: r) := .inl rfl

theorem scalarAtom_alias {a E : Bytes} (ha : IsIdent a) (hE : IdEnd E) {L : Loader} (hL : L.Ready) {k : Ctx}
    (h : aliasFine a (envOf L k)) (n level : Nat) (flow : Bool) (pre : Bytes) :
    scalarAtom n level flow (ld L (st k pre [] (0x2A :: a ++ E))) =
      (.ok (some (aliasYaml a (envOf L k))), ld L (st k pre (0x2A :: a) E)) := by
  have h1 := notNum_star (a ++ E)
  rw [List.cons_append]
  rw [scalarAtom, bind_ok (try_err (lift_of (float_no _ _ _ h1)))]
  simp only
  rw [bind_ok (try_err (lift_of (sciFloat_no _ _ _ h1)))]
  simp only
  rw [bind_ok (try_err (lift_of (int_no _ _ _ h1)))]
  simp only
  rw [bind_ok (try_ok (lift_of (anchorUse_read ha hE ..)))]
  simp only
  rw [bind_ok (useAlias_read hL h _)]
  simp

/-- An alias. -/
theorem alias_leaf {a : Bytes} (ha : IsIdent a) :
    LeafOKE .loose (0x2A :: a) (fun _ e => aliasYaml a e) (.of (aliasFine a)) := by
  refine ⟨fun k level E hw _ hE => ?_, 0x2A, a, rfl, by decide, by decide, by rintro (h | h) <;> exact absurd h (by decide)⟩
  have hend : IdEnd E := by
    rintro c r rfl
    rcases hE.head c r rfl with rfl | rfl | rfl | rfl <;> decide
  refine ⟨k, rfl, 1, fun x n i ha' hn hi L pre hL hpc => ?_⟩
  obtain ⟨i, rfl⟩ : ∃ j, i = j + 1 := ⟨i - 1, by omega⟩
  refine ⟨pre, _, rfl, ?_⟩
  rw [show (Known.of (aliasFine a)).eff (k.consumed + pre.length) (envOf L k) = L.cur from rfl, Loader.put_cur hL]
  exact scalarTerm_atom _ (scalarAtom_alias ha hend hL hpc n level false pre)

end YamlPeg
