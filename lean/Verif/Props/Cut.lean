import Verif.Props.Open
import Verif.Proof.OpenEnd
/-!
# C28: flow collections where the input ends

`Props/Open.lean` is about collections that are left open behind an item or a value.  Here the
text ends where an item or a value is due: behind the bracket, behind a comma, or behind the
colon of an entry.
-/

namespace YamlPeg.Props
open YamlPeg

/-- A flow collection that the end of the input cuts off in front of an item or a value. -/
inductive Cut : Bytes → Prop
  /-- `[`, white space, and items, each with its comma -/
  | seq {ws : Bytes} {xs : List FItem} : AllWs ws → (∀ x ∈ xs, x.f.ok x.W ∧ x.f.still ∧ AllWs x.ws) →
      Cut (0x5B :: (ws ++ fitemsText xs))
  /-- `{`, white space, entries, each with its comma, and a key with its colon -/
  | map {ws K sp : Bytes} {y : Yaml} {xs : List FEntry} : AllWs ws →
      (∀ x ∈ xs, FlowKey x.T x.y x.sp ∧ x.v.ok [] ∧ x.v.still ∧ AllWs x.ws) → FlowKey K y sp →
      Cut (0x7B :: (ws ++ (fentriesText xs ++ (K ++ (0x3A :: sp)))))
  /-- the last item of a sequence is cut off -/
  | inSeq {ws T : Bytes} {xs : List FItem} : AllWs ws → (∀ x ∈ xs, x.f.ok x.W ∧ x.f.still ∧ AllWs x.ws) → Cut T →
      Cut (0x5B :: (ws ++ (fitemsText xs ++ T)))
  /-- the last value of a map is cut off -/
  | inMap {ws K sp T : Bytes} {y : Yaml} {xs : List FEntry} : AllWs ws →
      (∀ x ∈ xs, FlowKey x.T x.y x.sp ∧ x.v.ok [] ∧ x.v.still ∧ AllWs x.ws) → FlowKey K y sp → Cut T →
      Cut (0x7B :: (ws ++ (fentriesText xs ++ (K ++ (0x3A :: (sp ++ T))))))

theorem Cut.last {T : Bytes} (h : Cut T) : OpenLast AtEnd T := by
  induction h with
  | seq hws hx => exact cutLast_seq hws fun x h => ⟨Flow.ok_wf _ _ (hx x h).1, (Flow.still_spec _ (hx x h).2.1).2, (hx x h).2.2⟩
  | map hws hx hK =>
    exact cutLast_map hK.key hws fun x h =>
      ⟨(hx x h).1.key, Flow.ok_wf _ _ (hx x h).2.1, (Flow.still_spec _ (hx x h).2.2.1).2, (hx x h).2.2.2⟩
  | inSeq hws hx _ ih =>
    exact openLast_seq AtEnd.rest ih hws fun x h => ⟨Flow.ok_wf _ _ (hx x h).1, (Flow.still_spec _ (hx x h).2.1).2, (hx x h).2.2⟩
  | inMap hws hx hK _ ih =>
    exact openLast_map AtEnd.rest hK.key ih hws fun x h =>
      ⟨(hx x h).1.key, Flow.ok_wf _ _ (hx x h).2.1, (Flow.still_spec _ (hx x h).2.2.1).2, (hx x h).2.2.2⟩

theorem Cut.leaf {T : Bytes} (h : Cut T) : LeafOKE (.only AtEnd) T (fun _ _ => .null) .none := by
  cases h with
  | seq hws hx => exact cutLeaf_seq hws fun x h => ⟨Flow.ok_wf _ _ (hx x h).1, (Flow.still_spec _ (hx x h).2.1).2, (hx x h).2.2⟩
  | map hws hx hK =>
    exact cutLeaf_map hK.key hws fun x h =>
      ⟨(hx x h).1.key, Flow.ok_wf _ _ (hx x h).2.1, (Flow.still_spec _ (hx x h).2.2.1).2, (hx x h).2.2.2⟩
  | inSeq hws hx hT =>
    exact openLeaf_seq AtEnd.rest hT.last hws fun x h => ⟨Flow.ok_wf _ _ (hx x h).1, (Flow.still_spec _ (hx x h).2.1).2, (hx x h).2.2⟩
  | inMap hws hx hK hT =>
    exact openLeaf_map AtEnd.rest hK.key hT.last hws fun x h =>
      ⟨(hx x h).1.key, Flow.ok_wf _ _ (hx x h).2.1, (Flow.still_spec _ (hx x h).2.2.1).2, (hx x h).2.2.2⟩

theorem Cut.head {T : Bytes} (h : Cut T) : ∃ r, T = 0x5B :: r ∨ T = 0x7B :: r := by
  cases h with
  | seq => exact ⟨_, .inl rfl⟩
  | map => exact ⟨_, .inr rfl⟩
  | inSeq => exact ⟨_, .inl rfl⟩
  | inMap => exact ⟨_, .inr rfl⟩

/-- **C28, refutation.** Every flow collection that the end of the input cuts off in front of
an item or a value is accepted; the document is null. -/
theorem C28_cut_is_null {T : Bytes} (h : Cut T) : Reads T [.mk 0 [] .null] := by
  obtain ⟨r, hr⟩ := h.head
  have hE : Rest [] := ⟨.inl rfl⟩
  have := reads_leafE (E := []) h.leaf ⟨by simp, by simp⟩
    (by rcases hr with rfl | rfl <;> rfl) (by rcases hr with rfl | rfl <;> simp) ⟨rfl, hE.last.2⟩ hE.last.1
  simpa using this

/-! ## Examples -/

example : Reads b!"[" [.mk 0 [] .null] := by
  simpa [fitemsText] using C28_cut_is_null (.seq (ws := []) (xs := []) AllWs.nil (by simp))

/-- `[a, ` -/
theorem cut_a : Cut b!"[a, " :=
  .seq (ws := []) (xs := [⟨.atom b!"a" (fun _ => .str b!"a") fun _ => True, [], b!" "⟩]) AllWs.nil (by
    simp only [List.mem_singleton, forall_eq]
    refine ⟨?_, ?_, by simp [AllWs]; decide⟩
    · simp only [Flow.ok]; exact FlowText.is (flow_word (by decide) (by decide) (by decide))
    · simp [Flow.still])

/-- `{k: ` -/
theorem cut_k : Cut b!"{k: " :=
  .map (ws := []) (xs := []) (K := b!"k") (sp := b!" ") (y := .str b!"k") AllWs.nil (by simp)
    ⟨flow_word (by decide) (by decide) (by decide), .inl ⟨[], rfl, by simp⟩⟩

/-- `{k: [a, ` -/
theorem cut_ka : Cut b!"{k: [a, " :=
  .inMap (ws := []) (xs := []) (K := b!"k") (sp := b!" ") (y := .str b!"k") AllWs.nil (by simp)
    ⟨flow_word (by decide) (by decide) (by decide), .inl ⟨[], rfl, by simp⟩⟩ cut_a

example : Reads b!"[a, " [.mk 0 [] .null] := C28_cut_is_null cut_a
example : Reads b!"{k: " [.mk 0 [] .null] := C28_cut_is_null cut_k
example : Reads b!"{k: [a, " [.mk 0 [] .null] := C28_cut_is_null cut_ka

end YamlPeg.Props
