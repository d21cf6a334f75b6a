import Verif.Proof.CharsetW
import Verif.Proof.LoaderInv
/-! # Character boundaries: the loader -/

namespace YamlPeg
open M Frame

/-- The text of a leaf, if it has one. -/
def Yaml.leafText : Yaml → Option Bytes
  | .int s => some s
  | .float s => some s
  | .str s => some s
  | .alias s => some s
  | _ => none

/-- The texts in a node (its tag and its own text) are over `P`. -/
def TextsHere (P : Bytes → Prop) (m : Node) : Prop :=
  Over P m.rawTag ∧ ∀ s, m.yaml.leafText = some s → Over P s

/-- The same for a node and everything in it. -/
def Texts (P : Bytes → Prop) (n : Node) : Prop := Everywhere (TextsHere P) n

def YTexts (P : Bytes → Prop) (y : Yaml) : Prop :=
  (∀ s, y.leafText = some s → Over P s) ∧ Yaml.Kids (Texts P) y

theorem texts_mk {P : Bytes → Prop} {pos : Nat} {tag : Bytes} {y : Yaml} :
    Texts P (.mk pos tag y) ↔ Over P tag ∧ YTexts P y := by
  rw [Texts, everywhere_mk]
  constructor
  · rintro ⟨⟨h1, h2⟩, h3⟩; exact ⟨h1, h2, h3⟩
  · rintro ⟨h1, h2, h3⟩; exact ⟨⟨h1, h2⟩, h3⟩

theorem Texts.yaml {P : Bytes → Prop} {n : Node} (h : Texts P n) : YTexts P n.yaml := by
  cases n; exact (texts_mk.1 h).2

structure LChars (P : Bytes → Prop) (d : Bytes) (l : Loader) : Prop where
  parser : OnChars P d l.parser
  nodes : ∀ A ∈ l.anchors, ∀ k n, mapGet k A = some n → Over P k ∧ Texts P n

/-- The frame of the loader. -/
def CL (P : Bytes → Prop) (d : Bytes) : Frame Loader where
  W := LChars P d
  R _ _ := True
  E _ _ := True
  X _ := True
  D := True
  refl _ _ := trivial
  trans _ _ _ _ _ := trivial

section
variable {P : Bytes → Prop} {d : Bytes} {α : Type}

theorem lift_cl {x : PM α} {V : α → Prop} (h : (CF P d).Holds x V) : (CL P d).Holds (lift x) V := by
  intro l hl
  obtain ⟨h1, _, h3⟩ := h l.parser hl.parser
  simp only [lift]
  rcases hx : x l.parser with ⟨r, p⟩
  rw [hx] at h1 h3
  exact ⟨⟨h1, hl.nodes⟩, trivial, by cases r <;> exact h3⟩

theorem isOk_cl {x : PM α} {V : α → Prop} (h : (CF P d).Holds x V) :
    (CL P d).Holds (isOk (lift x)) (fun _ => True) := Holds.isOk (lift_cl h) fun _ => trivial

theorem lerr_cl {name : String} {V : α → Prop} : (CL P d).Holds (lerr name : LM α) V := lift_cl errAt_cf

theorem orErr_cl {x : LM α} {name : String} {V : α → Prop} (h : (CL P d).Holds x V) :
    (CL P d).Holds (orErr x name) V := Holds.orElseMismatch h lerr_cl

theorem runIf_cl {b : Bool} {x : LM Unit} (h : (CL P d).Holds x (fun _ => True)) :
    (CL P d).Holds (runIf b x) (fun _ => True) := by
  cases b
  · exact Holds.pure trivial
  · exact h

theorem forward_cl : (CL P d).Holds (lift forward) (fun _ => True) := lift_cl forward_cf
theorem backward_cl : (CL P d).Holds (lift backward) (fun _ => True) := lift_cl backward_cf
theorem sym_cl (h : CharDoc P d) {x : UInt8} (hx : x < 0x80) :
    (CL P d).Holds (lift (sym x)) (fun _ => True) := lift_cl (sym_cf h hx)
theorem inv_cl (h : CharDoc P d) : (CL P d).Holds (lift (inv (.more 0))) (fun _ => True) :=
  lift_cl (inv_cf h)

/-- All nodes of an entry list. -/
def ETexts (P : Bytes → Prop) (m : List (Node × Node)) : Prop := ∀ k v, (k, v) ∈ m → Texts P k ∧ Texts P v

theorem entriesTake_texts {h : HashCfg} {k : Node} {m : List (Node × Node)} (hm : ETexts P m)
    {o : Option Node} {r : List (Node × Node)} (he : entriesTake h k m = .ok (o, r)) :
    (∀ k', o = some k' → Texts P k') ∧ ETexts P r := by
  induction m generalizing o r with
  | nil =>
    simp only [entriesTake, Out.ok.injEq, Prod.mk.injEq] at he
    rw [← he.1, ← he.2]; exact ⟨by simp, hm⟩
  | cons e m ih =>
    obtain ⟨k', v'⟩ := e
    have hh := hm k' v' (by simp)
    have hr : ETexts P m := fun a b hab => hm a b (by simp [hab])
    have next : ∀ {o r}, (entriesTake h k m).map (fun (x, r') => (x, (k', v') :: r')) = .ok (o, r) →
        (∀ k', o = some k' → Texts P k') ∧ ETexts P r := by
      intro o r hq
      rcases ht : entriesTake h k m with ⟨o', r'⟩ | _ | _ | _ <;> rw [ht] at hq <;>
        simp only [Out.map, Out.ok.injEq, Prod.mk.injEq, reduceCtorEq] at hq
      rw [← hq.1, ← hq.2]
      obtain ⟨h1, h2⟩ := ih hr ht
      refine ⟨h1, fun a b hab => ?_⟩
      rcases List.mem_cons.1 hab with hab | hab
      · cases hab; exact hh
      · exact h2 a b hab
    simp only [entriesTake] at he
    split at he
    · split at he
      · simp only [Out.ok.injEq, Prod.mk.injEq] at he
        rw [← he.1, ← he.2]
        exact ⟨by rintro _ ⟨⟩; exact hh.1, hr⟩
      · exact next he
      · simp at he
      · simp at he
      · simp at he
    · exact next he

theorem entriesCollect_texts {h : HashCfg} {acc m r : List (Node × Node)} (ha : ETexts P acc)
    (hm : ETexts P m) (he : entriesCollect h acc m = .ok r) : ETexts P r := by
  induction m generalizing acc with
  | nil => simp only [entriesCollect, Out.ok.injEq] at he; rw [← he]; exact ha
  | cons e m ih =>
    obtain ⟨k, v⟩ := e
    have hh := hm k v (by simp)
    simp only [entriesCollect] at he
    rcases hi : entriesInsert h acc k v with x | _ | _ | _ <;> rw [hi] at he <;>
      simp only [reduceCtorEq] at he
    refine ih ?_ (fun a b hab => hm a b (by simp [hab])) he
    simp only [entriesInsert] at hi
    rcases ht : entriesTake h k acc with ⟨o, r'⟩ | _ | _ | _ <;> rw [ht] at hi
    rotate_left
    · cases hi
    · cases hi
    · cases hi
    obtain ⟨h1, h2⟩ := entriesTake_texts ha ht
    cases o with
    | none =>
      simp only [Out.map, Out.ok.injEq] at hi
      rw [← hi]
      intro a b hab
      rcases List.mem_append.1 hab with hab | hab
      · exact h2 a b hab
      · simp at hab; rw [hab.1, hab.2]; exact hh
    | some k' =>
      simp only [Out.map, Out.ok.injEq] at hi
      rw [← hi]
      intro a b hab
      rcases List.mem_append.1 hab with hab | hab
      · exact h2 a b hab
      · simp at hab; rw [hab.1, hab.2]; exact ⟨h1 k' rfl, hh.2⟩

theorem collectMap_cl {m : List (Node × Node)} (hm : ETexts P m) :
    (CL P d).Holds (collectMap m) (YTexts P) := by
  intro l hl
  simp only [collectMap]
  rcases he : entriesCollect l.hash [] m with r | _ | _ | _
  · exact ⟨hl, trivial, by simp [Yaml.leafText], entriesCollect_texts (by intro _ _ h; simp at h) hm he⟩
  · exact ⟨hl, trivial, trivial⟩
  · exact ⟨hl, trivial, trivial⟩
  · exact ⟨hl, trivial, trivial⟩

theorem curAnchors_cl : (CL P d).Holds curAnchors
    (fun A => ∀ k n, mapGet k A = some n → Over P k ∧ Texts P n) := by
  intro l hl
  simp only [curAnchors]
  cases h : l.anchors[l.docInd]? with
  | none => exact ⟨hl, trivial, trivial⟩
  | some A => exact ⟨hl, trivial, hl.nodes A (List.mem_of_getElem? h)⟩

theorem anchorInsert_cl {a : Bytes} {n : Node} (ha : Over P a) (hn : Texts P n) :
    (CL P d).Holds (anchorInsert a n) (fun _ => True) := by
  refine Holds.bind curAnchors_cl fun A hA => Holds.bind (V := fun _ => True) ?_ fun _ _ => Holds.pure trivial
  refine Holds.modify (fun l hl => ⟨hl.parser, fun B hB k m hm => ?_⟩) (fun _ _ => trivial) trivial
  rcases List.mem_or_eq_of_mem_set hB with hB | rfl
  · exact hl.nodes B hB k m hm
  · rw [mapGet_mapInsert] at hm
    split at hm
    · rename_i he; cases hm; rw [he]; exact ⟨ha, hn⟩
    · exact hA k m hm

theorem nodeProps_cl (h : CharDoc P d) :
    (CL P d).Holds nodeProps (fun r => Over P r.1 ∧ Over P r.2) := by
  refine Holds.bind (lift_cl (orDefault_cf (anchor_cf h) .nil)) fun a ha => ?_
  refine Holds.bind (runIf_cl (lift_cl (bound_cf h))) fun _ _ => Holds.bind forward_cl fun _ _ => ?_
  refine Holds.bind (lift_cl (orDefault_cf (tag_cf h) .nil)) fun t ht => ?_
  refine Holds.bind (runIf_cl (lift_cl (bound_cf h))) fun _ _ => Holds.bind forward_cl fun _ _ => ?_
  refine Holds.bind (lift_cl (orDefault_cf (anchor_cf h) .nil)) fun a2 ha2 => ?_
  refine Holds.bind (V := Over P) ?_ fun a' ha' => Holds.bind forward_cl fun _ _ => Holds.pure ⟨ha', ht⟩
  refine Holds.ite (fun _ => Holds.ite (fun _ => ?_) fun _ => lerr_cl) fun _ => Holds.pure ha
  exact Holds.bind (lift_cl (bound_cf h)) fun _ _ => Holds.pure ha2

theorem scalarNode_cl (h : CharDoc P d) {f : LM Yaml} (hf : (CL P d).Holds f (YTexts P)) :
    (CL P d).Holds (scalarNode f) (Texts P) := by
  refine Holds.bind (nodeProps_cl h) fun r hr => ?_
  obtain ⟨a, t⟩ := r
  refine Holds.bind (V := fun _ => True) (Holds.get fun _ _ => trivial) fun l _ =>
    Holds.bind hf fun y hy => Holds.bind forward_cl fun _ _ => ?_
  have hn : Texts P (Node.new y l.parser.indicator t) := texts_mk.2 ⟨hr.2, hy⟩
  refine Holds.ite (fun _ => ?_) fun _ => Holds.pure hn
  exact Holds.bind (anchorInsert_cl hr.1 hn) fun _ _ => Holds.ite (fun _ => lerr_cl) fun _ => Holds.pure hn

theorem useAlias_cl {s : Bytes} (hs : Over P s) : (CL P d).Holds (useAlias s) (YTexts P) := by
  refine Holds.bind (V := fun _ => True) (Holds.get fun _ _ => trivial) fun l _ =>
    Holds.ite (fun _ => Holds.pure ⟨by rintro _ ⟨⟩; exact hs, trivial⟩) fun _ =>
    Holds.bind curAnchors_cl fun A hA => ?_
  cases hg : mapGet s A with
  | none => exact lerr_cl
  | some n => exact Holds.pure (hA s n hg).2.yaml

theorem ytexts_str {s : Bytes} (hs : Over P s) : YTexts P (.str s) := ⟨by rintro _ ⟨⟩; exact hs, trivial⟩

theorem resolvePlain_texts (h : CharDoc P d) {s : Bytes} (hs : Over P s) : YTexts P (resolvePlain s) := by
  have fl : ∀ t : Bytes, (∀ x ∈ t, x < 0x80) → YTexts P (.float t) := fun t ht =>
    ⟨by rintro _ ⟨⟩; exact Over.ascii h.ascii ht, trivial⟩
  simp only [resolvePlain]
  split
  · exact ⟨by simp [Yaml.leafText], trivial⟩
  split
  · exact ⟨by simp [Yaml.leafText], trivial⟩
  split
  · exact ⟨by simp [Yaml.leafText], trivial⟩
  split
  · exact fl _ (by decide)
  split
  · exact fl _ (by decide)
  split
  · exact fl _ (by decide)
  · exact ytexts_str hs

theorem try_cl {x : PM α} {V : α → Prop} (h : (CF P d).Holds x V) :
    (CL P d).Holds (try? (lift x)) (fun o => ∀ a, o = some a → V a) :=
  Holds.try? (lift_cl h) (fun a ha => by rintro _ ⟨⟩; exact ha) (by simp)

theorem scalarAtom_cl (h : CharDoc P d) {n level : Nat} {flow : Bool} :
    (CL P d).Holds (scalarAtom n level flow) (fun o => ∀ y, o = some y → YTexts P y) := by
  have some' : ∀ {y : Yaml}, YTexts P y →
      (CL P d).Holds (pure (some y) : LM (Option Yaml)) (fun o => ∀ y, o = some y → YTexts P y) :=
    fun hy => Holds.pure (by rintro _ ⟨⟩; exact hy)
  refine Holds.bind (try_cl (float_cf h)) fun o ho => ?_
  cases o with
  | some s => exact some' ⟨by rintro _ ⟨⟩; exact ho s rfl, trivial⟩
  | none =>
  refine Holds.bind (try_cl (sciFloat_cf h)) fun o ho => ?_
  cases o with
  | some s => exact some' ⟨by rintro _ ⟨⟩; exact ho s rfl, trivial⟩
  | none =>
  refine Holds.bind (try_cl (int_cf h)) fun o ho => ?_
  cases o with
  | some s => exact some' ⟨by rintro _ ⟨⟩; exact ho s rfl, trivial⟩
  | none =>
  refine Holds.bind (try_cl (anchorUse_cf h)) fun o ho => ?_
  cases o with
  | some s => exact Holds.bind (useAlias_cl (ho s rfl)) fun y hy => some' hy
  | none =>
  refine Holds.bind (try_cl (stringQuoted_cf h (by decide) (by decide))) fun o ho => ?_
  cases o with
  | some s => exact some' (ytexts_str (ho s rfl))
  | none =>
  refine Holds.bind (try_cl (stringQuoted_cf h (by decide) (by decide))) fun o ho => ?_
  cases o with
  | some s => exact some' (ytexts_str (Over.escapeGo h.ascii (ho s rfl) false))
  | none =>
  refine Holds.bind (try_cl (stringPlain_cf h)) fun o ho => ?_
  cases o with
  | some s => exact some' (resolvePlain_texts h (ho s rfl))
  | none => exact Holds.pure (by simp)

/-- The recursive call. -/
def ScTexts (P : Bytes → Prop) (d : Bytes) (sc : ScalarCall) : Prop :=
  ∀ level map flow, (CL P d).Holds (sc level map flow) (Texts P)

theorem texts_snoc {v : List Node} {x : Node} (hv : ∀ y ∈ v, Texts P y) (hx : Texts P x) :
    ∀ y ∈ v ++ [x], Texts P y := by
  intro y hy
  rcases List.mem_append.1 hy with h | h
  · exact hv y h
  · simp at h; rw [h]; exact hx

theorem etexts_snoc {m : List (Node × Node)} {k v : Node} (hm : ETexts P m) (hk : Texts P k)
    (hv : Texts P v) : ETexts P (m ++ [(k, v)]) := by
  intro a b hab
  rcases List.mem_append.1 hab with h | h
  · exact hm a b h
  · simp at h; rw [h.1, h.2]; exact ⟨hk, hv⟩

theorem seqFlowLoop_cl (h : CharDoc P d) {sc : ScalarCall} (hsc : ScTexts P d sc) {level n : Nat}
    {v : List Node} (hv : ∀ y ∈ v, Texts P y) :
    (CL P d).Holds (seqFlowLoop sc level n v) (fun v => ∀ y ∈ v, Texts P y) := by
  induction n generalizing v with
  | zero => exact Holds.diverge trivial
  | succ n ih =>
    refine Holds.bind (inv_cl h) fun _ _ => Holds.bind forward_cl fun _ _ => ?_
    refine Holds.bind (isOk_cl (sym_cf h (by decide))) fun _ _ => Holds.ite (fun _ => Holds.pure hv) fun _ => ?_
    refine Holds.bind forward_cl fun _ _ => Holds.bind (orErr_cl (hsc _ _ _)) fun x hx => ?_
    have hv' := texts_snoc hv hx
    refine Holds.bind (inv_cl h) fun _ _ => Holds.bind (isOk_cl (sym_cf h (by decide))) fun _ _ =>
      Holds.ite (fun _ => ih hv') fun _ => ?_
    exact Holds.bind (inv_cl h) fun _ _ => Holds.bind (sym_cl h (by decide)) fun _ _ => Holds.pure hv'

theorem ytexts_seq {v : List Node} (hv : ∀ y ∈ v, Texts P y) : YTexts P (.seq v) :=
  ⟨by simp [Yaml.leafText], hv⟩

theorem seqFlow_cl (h : CharDoc P d) {sc : ScalarCall} (hsc : ScTexts P d sc) {level n : Nat} :
    (CL P d).Holds (seqFlow sc n level) (YTexts P) :=
  Holds.bind (sym_cl h (by decide)) fun _ _ => Holds.bind (seqFlowLoop_cl h hsc (by simp)) fun v hv =>
    Holds.bind forward_cl fun _ _ => Holds.pure (ytexts_seq hv)

theorem gapThenInd_cl (h : CharDoc P d) {level : Nat} :
    (CL P d).Holds (gapThenInd level) (fun _ => True) :=
  Holds.bind (isOk_cl (gap_cf h)) fun _ _ => Holds.ite (fun _ => lift_cl (ind_cf h)) fun _ => Holds.pure trivial

theorem complexKey_cl (h : CharDoc P d) {sc : ScalarCall} (hsc : ScTexts P d sc) {level : Nat}
    {map flow : Bool} {name : String} :
    (CL P d).Holds (complexKey sc level map flow name) (Texts P) :=
  Holds.bind forward_cl fun _ _ => Holds.bind (orErr_cl (hsc _ _ _)) fun _ hk =>
    Holds.bind (gapThenInd_cl h) fun _ _ => Holds.pure hk

theorem mapFlowLoop_cl (h : CharDoc P d) {sc : ScalarCall} (hsc : ScTexts P d sc) {sf : LM Node}
    (hsf : (CL P d).Holds sf (Texts P)) {level n : Nat} {m : List (Node × Node)} (hm : ETexts P m) :
    (CL P d).Holds (mapFlowLoop sc sf level n m) (ETexts P) := by
  induction n generalizing m with
  | zero => exact Holds.diverge trivial
  | succ n ih =>
    refine Holds.bind (inv_cl h) fun _ _ => Holds.bind forward_cl fun _ _ => ?_
    refine Holds.bind (isOk_cl (sym_cf h (by decide))) fun _ _ => Holds.ite (fun _ => Holds.pure hm) fun _ => ?_
    refine Holds.bind forward_cl fun _ _ => Holds.bind (V := Texts P) ?_ fun k hk => ?_
    · exact Holds.bind (isOk_cl (complexMapping_cf h)) fun _ _ => Holds.ite (fun _ => complexKey_cl h hsc)
        fun _ => orErr_cl hsf
    refine Holds.bind (isOk_cl (sym_cf h (by decide))) fun _ _ => Holds.ite (fun _ => ?_) fun _ => lerr_cl
    refine Holds.bind (lift_cl (context_cf (orDefault_cf (bound_cf h) trivial))) fun _ _ =>
      Holds.bind forward_cl fun _ _ => Holds.bind (orErr_cl (hsc _ _ _)) fun v hv => ?_
    have hm' := etexts_snoc hm hk hv
    refine Holds.bind (isOk_cl (sym_cf h (by decide))) fun _ _ => Holds.ite (fun _ => ih hm') fun _ => ?_
    exact Holds.bind (inv_cl h) fun _ _ => Holds.bind (sym_cl h (by decide)) fun _ _ => Holds.pure hm'

theorem scalarTerm_cl (h : CharDoc P d) {sc : ScalarCall} (hsc : ScTexts P d sc) {n : Nat} (k : Nat) :
    ∀ {level : Nat} {flow : Bool}, (CL P d).Holds (scalarTerm sc n k level flow) (YTexts P) := by
  induction k with
  | zero => intro _ _; exact Holds.diverge trivial
  | succ k ih =>
    intro level flow
    refine Holds.bind (scalarAtom_cl h) fun o ho => ?_
    cases o with
    | some y => exact Holds.pure (ho y rfl)
    | none =>
      refine Holds.orElseMismatch (Holds.orElseMismatch (seqFlow_cl h hsc) ?_)
        (Holds.pure ⟨by simp [Yaml.leafText], trivial⟩)
      exact Holds.bind (sym_cl h (by decide)) fun _ _ =>
        Holds.bind (mapFlowLoop_cl h hsc (scalarNode_cl h ih) (by intro _ _ h; simp at h)) fun m hm =>
        Holds.bind forward_cl fun _ _ => collectMap_cl hm

theorem scalarFlow_cl (h : CharDoc P d) {sc : ScalarCall} (hsc : ScTexts P d sc) {n level : Nat}
    {flow : Bool} : (CL P d).Holds (scalarFlow sc n level flow) (Texts P) :=
  scalarNode_cl h (scalarTerm_cl h hsc n)

theorem firstItem_cl (h : CharDoc P d) {level : Nat} {map : Bool} :
    (CL P d).Holds (firstItem level map) (fun _ => True) :=
  Holds.ite (fun _ => Holds.bind (lift_cl (gap_cf h)) fun _ _ => lift_cl (indDefine_cf h))
    fun _ => gapThenInd_cl h

theorem docEnd_cl (h : CharDoc P d) : (CL P d).Holds docEnd (fun _ => True) := lift_cl (docEndP_cf h)

theorem nextItem_cl (h : CharDoc P d) {level : Nat} {name : String} :
    (CL P d).Holds (nextItem level name) (fun _ => True) := by
  refine Holds.bind (isOk_cl (gap_cf h)) fun _ _ => Holds.bind (V := fun _ => True) ?_ fun _ _ => ?_
  · exact Holds.ite (fun _ => Holds.pure trivial) fun _ =>
      Holds.bind (docEnd_cl h) fun _ _ => Holds.pure trivial
  · refine Holds.ite (fun _ => lerr_cl) fun _ => Holds.bind (docEnd_cl h) fun _ _ =>
      Holds.ite (fun _ => Holds.pure trivial) fun _ => ?_
    exact Holds.bind (isOk_cl (ind_cf h)) fun _ _ => Holds.pure trivial

theorem seqLoop_cl (h : CharDoc P d) {sc : ScalarCall} (hsc : ScTexts P d sc) {level : Nat} {map : Bool}
    {n : Nat} {v : List Node} (hv : ∀ y ∈ v, Texts P y) :
    (CL P d).Holds (seqLoop sc level map n v) (fun v => ∀ y ∈ v, Texts P y) := by
  induction n generalizing v with
  | zero => exact Holds.diverge trivial
  | succ n ih =>
    refine Holds.bind forward_cl fun _ _ => Holds.bind (V := fun _ => True) ?_ fun stop _ => ?_
    · refine Holds.ite (fun _ => ?_) fun _ => ?_
      · exact Holds.bind (firstItem_cl h) fun _ _ => Holds.bind (sym_cl h (by decide)) fun _ _ =>
          Holds.bind (lift_cl (bound_cf h)) fun _ _ => Holds.pure trivial
      · refine Holds.bind (nextItem_cl h) fun _ _ => Holds.ite (fun _ => Holds.pure trivial) fun _ => ?_
        refine Holds.bind (isOk_cl (sym_cf h (by decide))) fun _ _ => Holds.ite (fun _ => ?_) fun _ => Holds.pure trivial
        refine Holds.bind (isOk_cl (bound_cf h)) fun _ _ => Holds.ite (fun _ => ?_) fun _ => Holds.pure trivial
        exact Holds.bind forward_cl fun _ _ => Holds.pure trivial
    · refine Holds.ite (fun _ => Holds.pure hv) fun _ => Holds.bind forward_cl fun _ _ => ?_
      exact Holds.bind (orErr_cl (hsc _ _ _)) fun x hx => ih (texts_snoc hv hx)

theorem seq_cl (h : CharDoc P d) {sc : ScalarCall} (hsc : ScTexts P d sc) {n level : Nat} {map : Bool} :
    (CL P d).Holds (seq sc n level map) (YTexts P) :=
  Holds.bind (seqLoop_cl h hsc (by simp)) fun _ hv => Holds.bind backward_cl fun _ _ =>
    Holds.pure (ytexts_seq hv)

theorem colonBound_cl (h : CharDoc P d) : (CL P d).Holds colonBound (fun _ => True) :=
  Holds.bind (isOk_cl (sym_cf h (by decide))) fun _ _ => Holds.ite (fun _ => isOk_cl (bound_cf h))
    fun _ => Holds.pure trivial

def MapStepTexts (P : Bytes → Prop) : MapStep → Prop
  | .alone y => YTexts P y
  | .stop => True
  | .key k => Texts P k

theorem mapStep_cl (h : CharDoc P d) {sc : ScalarCall} (hsc : ScTexts P d sc) {sf : LM Node}
    (hsf : (CL P d).Holds sf (Texts P)) {level : Nat} {map flow first : Bool} :
    (CL P d).Holds (mapStep sc sf level map flow first) (MapStepTexts P) := by
  refine Holds.bind forward_cl fun _ _ => Holds.ite (fun _ => ?_) fun _ => ?_
  · refine Holds.bind (firstItem_cl h) fun _ _ => Holds.bind forward_cl fun _ _ =>
      Holds.bind (V := Texts P) ?_ fun k hk => ?_
    · exact Holds.bind (isOk_cl (complexMapping_cf h)) fun _ _ => Holds.ite (fun _ => complexKey_cl h hsc)
        fun _ => hsf
    · exact Holds.bind (colonBound_cl h) fun _ _ => Holds.ite (fun _ => Holds.pure hk)
        fun _ => Holds.pure hk.yaml
  · refine Holds.bind (nextItem_cl h) fun _ _ => Holds.ite (fun _ => Holds.pure trivial) fun _ => ?_
    refine Holds.bind forward_cl fun _ _ => Holds.bind (V := Texts P) ?_ fun k hk => ?_
    · exact Holds.bind (isOk_cl (complexMapping_cf h)) fun _ _ => Holds.ite (fun _ => complexKey_cl h hsc)
        fun _ => orErr_cl hsf
    · exact Holds.bind (colonBound_cl h) fun _ _ => Holds.ite (fun _ => Holds.pure hk)
        fun _ => lerr_cl

theorem mapLoop_cl (h : CharDoc P d) {sc : ScalarCall} (hsc : ScTexts P d sc) {sf : LM Node}
    (hsf : (CL P d).Holds sf (Texts P)) {level : Nat} {map flow : Bool} {n : Nat}
    {m : List (Node × Node)} (hm : ETexts P m) :
    (CL P d).Holds (mapLoop sc sf level map flow n m) (YTexts P) := by
  induction n generalizing m with
  | zero => exact Holds.diverge trivial
  | succ n ih =>
    refine Holds.bind (mapStep_cl h hsc hsf) fun s hs => ?_
    cases s with
    | alone y => exact Holds.pure hs
    | stop => exact Holds.bind backward_cl fun _ _ => collectMap_cl hm
    | key k =>
      exact Holds.bind forward_cl fun _ _ => Holds.bind (orErr_cl (hsc _ _ _)) fun v hv =>
        ih (etexts_snoc hm hs hv)

theorem scalarBody_cl (h : CharDoc P d) {sc : ScalarCall} (hsc : ScTexts P d sc) {n level : Nat}
    {map flow : Bool} : (CL P d).Holds (scalarBody sc n level map flow) (YTexts P) := by
  refine Holds.bind (try_cl (stringLiteral_cf h)) fun o ho => ?_
  cases o with
  | some s => exact Holds.pure (ytexts_str (ho s rfl))
  | none =>
  refine Holds.bind (try_cl (stringFolded_cf h)) fun o ho => ?_
  cases o with
  | some s => exact Holds.pure (ytexts_str (ho s rfl))
  | none =>
    exact Holds.orElseMismatch (Holds.orElseMismatch (seq_cl h hsc)
      (mapLoop_cl h hsc (scalarFlow_cl h hsc) (by intro _ _ h; simp at h))) (scalarTerm_cl h hsc n)

theorem scalar_cl (h : CharDoc P d) (n : Nat) : ScTexts P d (scalar n) := by
  induction n with
  | zero => exact fun _ _ _ => Holds.diverge trivial
  | succ n ih => exact fun _ _ _ => scalarNode_cl h (scalarBody_cl h ih)

theorem doc_cl (h : CharDoc P d) {n : Nat} : (CL P d).Holds (doc n) (Texts P) := by
  refine Holds.bind (lift_cl (context_cf (orDefault_cf (bound_cf h) trivial))) fun _ _ =>
    Holds.bind forward_cl fun _ _ => Holds.bind (V := fun _ => True) ?_ fun _ _ =>
    Holds.bind (scalar_cl h n 0 false false) fun r hr =>
    Holds.bind (lift_cl (orDefault_cf (gap_cf h) trivial)) fun _ _ =>
    Holds.bind (lift_cl (orDefault_cf (symSeq_cf h (by decide)) trivial)) fun _ _ =>
    Holds.bind forward_cl fun _ _ => Holds.bind (V := fun _ => True) ?_ fun _ _ => Holds.pure hr
  · refine Holds.modify (fun l hl => ⟨hl.parser, fun A hA k m hm => ?_⟩) (fun _ _ => trivial) trivial
    rcases List.mem_append.1 hA with hA | hA
    · exact hl.nodes A hA k m hm
    · simp at hA; subst hA; simp [mapGet] at hm
  · exact Holds.modify (fun l hl => ⟨hl.parser, hl.nodes⟩) (fun _ _ => trivial) trivial

theorem directives_cl (h : CharDoc P d) (n : Nat) : (CL P d).Holds (directives n) (fun _ => True) := by
  induction n with
  | zero => exact Holds.diverge trivial
  | succ n ih =>
    intro l hl
    have := lift_cl (context_cf (directive_cf h)) l hl
    simp only [directives]
    rcases hx : lift (context directive) l with ⟨r, l'⟩
    rw [hx] at this
    cases r with
    | ok a => exact ih l' this.1
    | err e => cases e <;> exact ⟨this.1, trivial, trivial⟩
    | panic p => exact ⟨this.1, trivial, trivial⟩
    | diverge => exact ⟨this.1, trivial, trivial⟩

theorem docsLoop_cl (h : CharDoc P d) {n : Nat} (m : Nat) {v : List Node} (hv : ∀ y ∈ v, Texts P y) :
    (CL P d).Holds (docsLoop n m v) (fun v => ∀ y ∈ v, Texts P y) := by
  induction m generalizing v with
  | zero => exact Holds.diverge trivial
  | succ m ih =>
    refine Holds.bind (lift_cl (orDefault_cf (gap_cf h) trivial)) fun _ _ =>
      Holds.bind (lift_cl food_cf) fun _ _ => Holds.ite (fun _ => Holds.pure hv) fun _ =>
      Holds.bind (isOk_cl (symSeq_cf h (by decide))) fun _ _ => Holds.ite (fun _ => ?_) fun _ => lerr_cl
    exact Holds.bind (doc_cl h) fun x hx => ih (texts_snoc hv hx)

theorem loaderParse_cl (h : CharDoc P d) {n : Nat} :
    (CL P d).Holds (loaderParse n) (fun v => ∀ y ∈ v, Texts P y) :=
  Holds.bind (directives_cl h n) fun _ _ => Holds.bind (lift_cl (orDefault_cf (gap_cf h) trivial)) fun _ _ =>
    Holds.bind (lift_cl (orDefault_cf (symSeq_cf h (by decide)) trivial)) fun _ _ =>
    Holds.bind (doc_cl h) fun x hx => docsLoop_cl h n (by simpa using hx)

theorem new_lchars (h : CharDoc P d) (hc : HashCfg) (b : Bool) :
    LChars P d { Loader.new hc d with cyclicMode := b } := by
  refine ⟨⟨rfl, by simpa [Loader.new, Parser.new] using Over.nil, by simpa [Loader.new, Parser.new] using Over.nil, ?_⟩, ?_⟩
  · intro k v hg
    simp only [Loader.new, Parser.new, mapGet_mapInsert, mapGet] at hg
    split at hg
    · cases hg; exact Over.ascii h.ascii (by decide)
    · split at hg
      · cases hg; exact .nil
      · simp at hg
  · intro A hA; simp [Loader.new] at hA

end
end YamlPeg
