import Verif.Proof.LoaderTop
import Verif.Proof.Reads
/-!
# Two runs in lock-step

`Blind c x V`: changing the mode and the hash seed of the loader beforehand
(`c.ghost`) changes nothing but the mode and the seed afterwards, and the
results satisfy `V`.
-/

namespace YamlPeg
open M Frame

/-- Everything is allowed but leaving the document. -/
def ac (doc : Bytes) : PCfg := ⟨doc, 0, False, fun _ => True, True⟩

/-- Two runs: the document, the seeds, how the mode changes, and a property of
all nodes. -/
structure BCfg where
  doc : Bytes
  h0 : HashCfg
  h : HashCfg
  mode : Bool → Bool
  P : Node → Prop

/-- The other run's state. -/
def BCfg.ghost (c : BCfg) (l : Loader) : Loader := { l with cyclicMode := c.mode l.cyclicMode, hash := c.h }

def BCfg.PY (c : BCfg) (y : Yaml) : Prop := ∀ p t, c.P (.mk p t y)

/-- What the node property has to satisfy. -/
structure BOk (c : BCfg) : Prop where
  star : (∀ b, c.mode b = b) ∨ (0x2A : UInt8) ∉ c.doc
  collect : ∀ m, (∀ e ∈ m, c.P e.1 ∧ c.P e.2) → entriesCollect c.h0 [] m = entriesCollect c.h [] m ∧
    ∀ es, entriesCollect c.h0 [] m = .ok es → c.PY (.map es)
  seq : ∀ v, (∀ x ∈ v, c.P x) → c.PY (.seq v)
  yaml : ∀ n, c.P n → c.PY n.yaml
  null : c.PY .null
  bool : ∀ b, c.PY (.bool b)
  str : ∀ s, c.PY (.str s)
  alias : ∀ s, c.PY (.alias s)
  nan : c.PY (.float b!"NaN")
  inf : c.PY (.float b!"inf")
  ninf : c.PY (.float b!"-inf")
  int : ∀ s t, PWF (ac c.doc) s → (int s).1 = .ok t → c.PY (.int t)
  float : ∀ s t, PWF (ac c.doc) s → (float s).1 = .ok t → c.PY (.float t)
  sci : ∀ s t, PWF (ac c.doc) s → (sciFloat s).1 = .ok t → c.PY (.float t)

structure BW (c : BCfg) (l : Loader) : Prop where
  parser : PWF (ac c.doc) l.parser
  hash : l.hash = c.h0
  anchors : ∀ a ∈ l.anchors, ∀ e ∈ a, c.P e.2

def Blind {α : Type} (c : BCfg) (x : LM α) (V : α → Prop) : Prop :=
  ∀ l, BW c l → x (c.ghost l) = ((x l).1, c.ghost (x l).2) ∧ BW c (x l).2 ∧ ∀ a, (x l).1 = .ok a → V a

namespace Blind
variable {c : BCfg} {α β : Type}

theorem mono {x : LM α} {V V' : α → Prop} (h : Blind c x V) (hv : ∀ a, V a → V' a) : Blind c x V' :=
  fun l hl => ⟨(h l hl).1, (h l hl).2.1, fun a ha => hv a ((h l hl).2.2 a ha)⟩

theorem pure {a : α} {V : α → Prop} (h : V a) : Blind c (Pure.pure a : LM α) V :=
  fun l hl => ⟨rfl, hl, fun a' ha => by simp [pure_run] at ha; exact ha ▸ h⟩

theorem diverge {V : α → Prop} : Blind c (M.diverge : LM α) V :=
  fun l hl => ⟨rfl, hl, fun a' ha => by simp [M.diverge] at ha⟩

theorem bind {x : LM α} {f : α → LM β} {V : α → Prop} {V' : β → Prop} (h : Blind c x V)
    (hf : ∀ a, V a → Blind c (f a) V') : Blind c (x >>= f) V' := fun l hl => by
  obtain ⟨h1, h2, h3⟩ := h l hl
  rw [bind_run, bind_run, h1]
  rcases hx : x l with ⟨r, l'⟩
  rw [hx] at h1 h2 h3
  cases r with
  | ok a => exact hf a (h3 a rfl) l' h2
  | err e => exact ⟨rfl, h2, fun a ha => by simp at ha⟩
  | panic e => exact ⟨rfl, h2, fun a ha => by simp at ha⟩
  | diverge => exact ⟨rfl, h2, fun a ha => by simp at ha⟩

theorem try? {x : LM α} {V : α → Prop} (h : Blind c x V) :
    Blind c (M.try? x) (fun o => ∀ a, o = some a → V a) := fun l hl => by
  obtain ⟨h1, h2, h3⟩ := h l hl
  unfold M.try?
  rw [h1]
  rcases hx : x l with ⟨r, l'⟩
  rw [hx] at h1 h2 h3
  cases r with
  | ok a =>
    refine ⟨rfl, h2, fun o ha => ?_⟩
    simp only [Out.ok.injEq] at ha
    subst ha
    rintro _ ⟨⟩
    exact h3 a rfl
  | err e =>
    refine ⟨rfl, h2, fun o ha => ?_⟩
    simp only [Out.ok.injEq] at ha
    subst ha
    rintro _ ⟨⟩
  | panic e => exact ⟨rfl, h2, fun a ha => by simp at ha⟩
  | diverge => exact ⟨rfl, h2, fun a ha => by simp at ha⟩

theorem isOk {x : LM α} {V : α → Prop} (h : Blind c x V) : Blind c (M.isOk x) (fun _ => True) := fun l hl => by
  obtain ⟨h1, h2, h3⟩ := h l hl
  unfold M.isOk
  rw [h1]
  rcases hx : x l with ⟨r, l'⟩
  rw [hx] at h1 h2 h3
  cases r <;> exact ⟨rfl, h2, fun a ha => trivial⟩

theorem orElse {x y : LM α} {V : α → Prop} (h : Blind c x V) (h' : Blind c y V) :
    Blind c (orElseMismatch x y) V := fun l hl => by
  obtain ⟨h1, h2, h3⟩ := h l hl
  unfold orElseMismatch
  rw [h1]
  rcases hx : x l with ⟨r, l'⟩
  rw [hx] at h1 h2 h3
  cases r with
  | ok a => exact ⟨rfl, h2, h3⟩
  | err e => cases e with
    | mismatch => exact h' l' h2
    | terminate _ _ => exact ⟨rfl, h2, fun a ha => by simp at ha⟩
  | panic e => exact ⟨rfl, h2, fun a ha => by simp at ha⟩
  | diverge => exact ⟨rfl, h2, fun a ha => by simp at ha⟩

theorem ite {k : Prop} [Decidable k] {x y : LM α} {V : α → Prop} (h : k → Blind c x V) (h' : ¬k → Blind c y V) :
    Blind c (if k then x else y) V := by
  split
  · exact h ‹_›
  · exact h' ‹_›

theorem lift {x : PM α} (h : (PF (ac c.doc)).Holds x (fun _ => True)) :
    Blind c (YamlPeg.lift x) (fun a => ∃ s, PWF (ac c.doc) s ∧ (x s).1 = .ok a) := fun l hl => by
  obtain ⟨h1, -, -⟩ := h l.parser hl.parser
  unfold YamlPeg.lift
  have e : (c.ghost l).parser = l.parser := rfl
  rw [e]
  rcases hx : x l.parser with ⟨r, p⟩
  rw [hx] at h1
  refine ⟨rfl, ⟨h1, hl.hash, hl.anchors⟩, fun a ha => ⟨l.parser, hl.parser, ?_⟩⟩
  rw [hx]; exact ha

theorem lift' {x : PM α} (h : (PF (ac c.doc)).Holds x (fun _ => True)) : Blind c (YamlPeg.lift x) (fun _ => True) :=
  (lift h).mono fun _ _ => trivial

theorem pk {x : PM α} (h : (PK (ac c.doc)).Holds x (fun _ => True)) : Blind c (YamlPeg.lift x) (fun _ => True) :=
  lift' (pk_pf h)

theorem lerr {name : String} {V : α → Prop} : Blind c (YamlPeg.lerr name : LM α) V := by
  have h := errAt_pk (c := ac c.doc) (name := name) (V := fun _ : α => False) (.inr trivial)
  intro l hl
  have hb := lift (c := c) (x := (errAt name : PM α)) (pk_pf (h.mono fun _ _ => trivial)) l hl
  refine ⟨hb.1, hb.2.1, fun a ha => ?_⟩
  obtain ⟨s, hs, ho⟩ := hb.2.2 a ha
  have := (h s hs).2.2
  rw [ho] at this
  exact this.elim

theorem orErr {x : LM α} {V : α → Prop} {nm : String} (h : Blind c x V) : Blind c (YamlPeg.orErr x nm) V :=
  h.orElse lerr

theorem forward : Blind c (YamlPeg.lift YamlPeg.forward) (fun _ => True) := lift' forward_pf
theorem backward : Blind c (YamlPeg.lift YamlPeg.backward) (fun _ => True) := pk backward_pk
theorem sym {x : UInt8} : Blind c (YamlPeg.lift (YamlPeg.sym x)) (fun _ => True) := pk sym_pk
theorem bound : Blind c (YamlPeg.lift YamlPeg.bound) (fun _ => True) := pk bound_pk
theorem inv : Blind c (YamlPeg.lift (YamlPeg.inv (.more 0))) (fun _ => True) := pk inv_pk
theorem ind {L : Nat} : Blind c (YamlPeg.lift (YamlPeg.ind L)) (fun _ => True) := pk ind_pk
theorem gap : Blind c (YamlPeg.lift (YamlPeg.gap true)) (fun _ => True) := pk gap_pk
theorem gapOr : Blind c (YamlPeg.lift (orDefault 0 (YamlPeg.gap true))) (fun _ => True) :=
  pk (Frame.Holds.orDefault gap_pk trivial)
theorem runIf {b : Bool} {x : LM Unit} (h : Blind c x (fun _ => True)) : Blind c (M.runIf b x) (fun _ => True) := by
  unfold M.runIf
  exact ite (fun _ => h) fun _ => pure trivial

end Blind

section
variable {c : BCfg} (ok : BOk c)

theorem Blind.docEnd : Blind c docEnd (fun _ => True) := by
  refine Blind.pk ?_
  refine Frame.Holds.bind food_pk fun _ _ => Frame.Holds.ite (fun _ => .pure trivial) fun _ => ?_
  refine context_pk (pk_pf ?_)
  refine Frame.Holds.bind (V := fun _ => True) ?_ fun _ _ => .bind (V := fun _ => True) (runIf_pk backward_pk) fun _ _ => .pure trivial
  exact .bind (isOk_pk symSeq_pk) fun _ _ => .ite (fun _ => .pure trivial) fun _ => isOk_pk symSeq_pk

theorem Blind.curAnchors : Blind c curAnchors (fun a => ∀ e ∈ a, c.P e.2) := fun l hl => by
  unfold YamlPeg.curAnchors
  have e : (c.ghost l).anchors = l.anchors := rfl
  have e' : (c.ghost l).docInd = l.docInd := rfl
  rw [e, e']
  cases h : l.anchors[l.docInd]? with
  | none => exact ⟨rfl, hl, fun a ha => by simp at ha⟩
  | some a =>
    refine ⟨rfl, hl, fun a' ha => ?_⟩
    simp at ha
    subst ha
    exact hl.anchors _ (List.mem_of_getElem? h)

theorem mapInsert_mem {α : Type} {k : Bytes} {v : α} {m : List (Bytes × α)} : ∀ {e}, e ∈ mapInsert k v m → e.2 = v ∨ e ∈ m := by
  induction m with
  | nil => intro e h; simp [mapInsert] at h; exact .inl (by rw [h])
  | cons x r ih =>
    intro e h
    obtain ⟨k', v'⟩ := x
    simp only [mapInsert] at h
    split at h
    · rcases List.mem_cons.1 h with h | h
      · exact .inl (by rw [h])
      · exact .inr (List.mem_cons_of_mem _ h)
    · split at h
      · rcases List.mem_cons.1 h with h | h
        · exact .inl (by rw [h])
        · exact .inr h
      · rcases List.mem_cons.1 h with h | h
        · exact .inr (by rw [h]; simp)
        · exact (ih h).imp id (List.mem_cons_of_mem _)

theorem mapGet_mem {α : Type} {k : Bytes} {v : α} {m : List (Bytes × α)} (h : mapGet k m = some v) : ∃ e ∈ m, e.2 = v := by
  induction m with
  | nil => simp [mapGet] at h
  | cons x r ih =>
    obtain ⟨k', v'⟩ := x
    simp only [mapGet] at h
    split at h
    · simp at h; exact ⟨(k', v'), by simp, h⟩
    · obtain ⟨e, he, hv⟩ := ih h
      exact ⟨e, List.mem_cons_of_mem _ he, hv⟩

theorem Blind.anchorInsert {a : Bytes} {n : Node} (hn : c.P n) : Blind c (anchorInsert a n) (fun _ => True) := by
  refine .bind .curAnchors fun cur hc => .bind (V := fun _ => True) ?_ fun _ _ => .pure trivial
  intro l hl
  refine ⟨rfl, ⟨hl.parser, hl.hash, ?_⟩, fun _ _ => trivial⟩
  intro t ht e he
  rcases List.mem_or_eq_of_mem_set ht with h | rfl
  · exact hl.anchors _ h e he
  · rcases mapInsert_mem he with h | h
    · rw [h]; exact hn
    · exact hc e h

theorem Blind.nodeProps : Blind c nodeProps (fun _ => True) := by
  have ha : Blind c (YamlPeg.lift (orDefault [] anchor)) (fun _ => True) := .pk (Frame.Holds.orDefault anchor_pk trivial)
  refine .bind ha fun a _ => .bind (.runIf .bound) fun _ _ => .bind .forward fun _ _ => ?_
  refine .bind (.pk (Frame.Holds.orDefault (tag_pk trivial) trivial)) fun t _ => .bind (.runIf .bound) fun _ _ => .bind .forward fun _ _ => ?_
  refine .bind ha fun a2 _ => .bind (V := fun _ => True) ?_ fun _ _ => .bind .forward fun _ _ => .pure trivial
  exact .ite (fun _ => .ite (fun _ => .bind .bound fun _ _ => .pure trivial) fun _ => .lerr) fun _ => .pure trivial

theorem Blind.scalarNode {f : LM Yaml} (hf : Blind c f c.PY) : Blind c (scalarNode f) c.P := by
  refine .bind .nodeProps fun p _ => ?_
  rcases p with ⟨a, t⟩
  have key : ∀ pos, Blind c (do
      let yaml ← f
      YamlPeg.lift YamlPeg.forward
      let node := Node.new yaml pos t
      if !a.isEmpty then
        if ← YamlPeg.anchorInsert a node then YamlPeg.lerr "duplicated anchor definition" else Pure.pure node
      else Pure.pure node : LM Node) c.P := by
    intro pos
    refine .bind hf fun y hy => .bind .forward fun _ _ => .ite (fun _ => ?_) fun _ => .pure (hy _ _)
    exact .bind (.anchorInsert (hy _ _)) fun _ _ => .ite (fun _ => .lerr) fun _ => .pure (hy _ _)
  exact fun l hl => key l.parser.indicator l hl

include ok in
theorem Blind.collectMap {m : List (Node × Node)} (hm : ∀ e ∈ m, c.P e.1 ∧ c.P e.2) :
    Blind c (collectMap m) c.PY := fun l hl => by
  obtain ⟨h1, h2⟩ := ok.collect m hm
  unfold YamlPeg.collectMap
  have e : (c.ghost l).hash = c.h := rfl
  rw [e, hl.hash, ← h1]
  cases ho : entriesCollect c.h0 [] m with
  | ok es =>
    refine ⟨rfl, hl, fun a ha => ?_⟩
    simp only [Out.ok.injEq] at ha
    subst ha
    exact h2 _ ho
  | err e => exact ⟨rfl, hl, fun a ha => by simp at ha⟩
  | panic e => exact ⟨rfl, hl, fun a ha => by simp at ha⟩
  | diverge => exact ⟨rfl, hl, fun a ha => by simp at ha⟩

include ok in
theorem BOk.resolve (s : Bytes) : c.PY (resolvePlain s) := by
  unfold resolvePlain
  repeat' split
  all_goals first
    | exact ok.null
    | exact ok.bool _
    | exact ok.nan
    | exact ok.inf
    | exact ok.ninf
    | exact ok.str _

/-- `*` is needed for an alias. -/
theorem anchorUse_star {s : Parser} (hs : PWF (ac c.doc) s) (h : (0x2A : UInt8) ∉ c.doc) (t : Bytes) :
    (anchorUse s).1 ≠ .ok t := by
  obtain ⟨k, pre, mid, post, rfl⟩ := PWF.exists_st hs
  have hd : pre ++ (mid ++ post) = c.doc := by have := hs.doc; simpa [st, ac] using this
  have : ∀ r, post ≠ 0x2A :: r := by
    rintro r rfl
    rw [← hd] at h
    simp at h
  cases post with
  | nil => rw [anchorUse, bind_err (sym_nil ..)]; simp
  | cons x r =>
    rw [anchorUse, bind_err (sym_miss _ _ _ _ _ _ (fun hx => this r (by rw [hx])))]; simp

include ok in
theorem Blind.useAlias {s : Bytes} (h : ∀ b, c.mode b = b) : Blind c (useAlias s) c.PY := by
  have key : ∀ b, Blind c (if b = true then Pure.pure (Yaml.alias s)
      else do
        let cur ← YamlPeg.curAnchors
        match mapGet s cur with
        | some node => Pure.pure node.yaml
        | none => YamlPeg.lerr "anchor referenced before definition" : LM Yaml) c.PY := by
    intro b
    refine .ite (fun _ => .pure (ok.alias s)) fun _ => .bind .curAnchors fun cur hc => ?_
    cases hg : mapGet s cur with
    | some n =>
      obtain ⟨e, he, rfl⟩ := mapGet_mem hg
      exact .pure (ok.yaml _ (hc e he))
    | none => exact .lerr
  intro l hl
  have e : (c.ghost l).cyclicMode = l.cyclicMode := h _
  have := key l.cyclicMode l hl
  unfold YamlPeg.useAlias
  simp only [bind_run, get_run, e]
  exact this

include ok in
theorem Blind.scalarAtom {n L : Nat} {flow : Bool} : Blind c (scalarAtom n L flow) (fun o => ∀ y, o = some y → c.PY y) := by
  have some_ : ∀ {y : Yaml}, c.PY y → Blind c (Pure.pure (some y) : LM (Option Yaml)) (fun o => ∀ y, o = some y → c.PY y) :=
    fun hy => .pure (by rintro _ ⟨⟩; exact hy)
  refine .bind (.try? (.lift (pk_pf float_pk))) fun r hr => ?_
  cases r with
  | some t => obtain ⟨s, hs, ho⟩ := hr t rfl; exact some_ (ok.float s t hs ho)
  | none =>
  refine .bind (.try? (.lift (pk_pf sciFloat_pk))) fun r hr => ?_
  cases r with
  | some t => obtain ⟨s, hs, ho⟩ := hr t rfl; exact some_ (ok.sci s t hs ho)
  | none =>
  refine .bind (.try? (.lift (pk_pf int_pk))) fun r hr => ?_
  cases r with
  | some t => obtain ⟨s, hs, ho⟩ := hr t rfl; exact some_ (ok.int s t hs ho)
  | none =>
  refine .bind (.try? (.lift (pk_pf anchorUse_pk))) fun r hr => ?_
  cases r with
  | some t =>
    obtain ⟨s, hs, ho⟩ := hr t rfl
    rcases ok.star with h | h
    · exact .bind (.useAlias ok h) fun y hy => some_ hy
    · exact absurd ho (anchorUse_star hs h t)
  | none =>
  refine .bind (.try? (.pk (stringQuoted_pk trivial))) fun r hr => ?_
  cases r with
  | some t => exact some_ (ok.str _)
  | none =>
  refine .bind (.try? (.pk (stringQuoted_pk trivial))) fun r hr => ?_
  cases r with
  | some t => exact some_ (ok.str _)
  | none =>
  refine .bind (.try? (.pk (stringPlain_pk trivial))) fun r hr => ?_
  cases r with
  | some t => exact some_ (ok.resolve _)
  | none => exact .pure (by rintro _ ⟨⟩)

def BSc (c : BCfg) (sc : ScalarCall) : Prop := ∀ l m f, Blind c (sc l m f) c.P

theorem snoc_mem {α : Type} {V : α → Prop} {v : List α} {x : α} (hv : ∀ y ∈ v, V y) (hx : V x) : ∀ y ∈ v ++ [x], V y := by
  intro y hy
  rcases List.mem_append.1 hy with h | h
  · exact hv y h
  · simp at h; exact h ▸ hx

theorem Blind.seqFlowLoop {sc : ScalarCall} (hs : BSc c sc) {L : Nat} {n : Nat} {v : List Node} (hv : ∀ x ∈ v, c.P x) :
    Blind c (seqFlowLoop sc L n v) (fun v => ∀ x ∈ v, c.P x) := by
  induction n generalizing v with
  | zero => exact .diverge
  | succ n ih =>
    refine .bind .inv fun _ _ => .bind .forward fun _ _ => .bind (.isOk .sym) fun _ _ => .ite (fun _ => .pure hv) fun _ => ?_
    refine .bind .forward fun _ _ => .bind (.orErr (hs _ _ _)) fun x hx => .bind .inv fun _ _ => .bind (.isOk .sym) fun _ _ => ?_
    exact .ite (fun _ => ih (snoc_mem hv hx)) fun _ => .bind .inv fun _ _ => .bind .sym fun _ _ => .pure (snoc_mem hv hx)

include ok in
theorem Blind.seqFlow {sc : ScalarCall} (hs : BSc c sc) {L n : Nat} : Blind c (seqFlow sc n L) c.PY :=
  .bind .sym fun _ _ => .bind (.seqFlowLoop hs (by simp)) fun v hv => .bind .forward fun _ _ => .pure (ok.seq v hv)

theorem Blind.gapThenInd {L : Nat} : Blind c (gapThenInd L) (fun _ => True) :=
  .bind (.isOk .gap) fun _ _ => .ite (fun _ => .ind) fun _ => .pure trivial

theorem Blind.complexKey {sc : ScalarCall} (hs : BSc c sc) {L : Nat} {map flow : Bool} {nm : String} :
    Blind c (complexKey sc L map flow nm) c.P :=
  .bind .forward fun _ _ => .bind (.orErr (hs _ _ _)) fun _ hk => .bind .gapThenInd fun _ _ => .pure hk

theorem Blind.complexMapping : Blind c (YamlPeg.lift YamlPeg.complexMapping) (fun _ => True) := .pk complexMapping_pk

theorem Blind.mapFlowLoop {sc : ScalarCall} (hs : BSc c sc) {sf : LM Node} (hf : Blind c sf c.P) {L n : Nat}
    {m : List (Node × Node)} (hm : ∀ e ∈ m, c.P e.1 ∧ c.P e.2) :
    Blind c (mapFlowLoop sc sf L n m) (fun m => ∀ e ∈ m, c.P e.1 ∧ c.P e.2) := by
  induction n generalizing m with
  | zero => exact .diverge
  | succ n ih =>
    refine .bind .inv fun _ _ => .bind .forward fun _ _ => .bind (.isOk .sym) fun _ _ => .ite (fun _ => .pure hm) fun _ => ?_
    refine .bind .forward fun _ _ => .bind (V := c.P) ?_ fun k hk => ?_
    · exact .bind (.isOk .complexMapping) fun _ _ => .ite (fun _ => .complexKey hs) fun _ => .orErr hf
    refine .bind (.isOk .sym) fun _ _ => .ite (fun _ => ?_) fun _ => .lerr
    refine .bind (.pk (context_pk (pk_pf (Frame.Holds.orDefault bound_pk trivial)))) fun _ _ => .bind .forward fun _ _ => ?_
    refine .bind (.orErr (hs _ _ _)) fun v hv => .bind (.isOk .sym) fun _ _ => .ite (fun _ => ih ?_) fun _ => ?_
    · exact snoc_mem (V := fun e : Node × Node => c.P e.1 ∧ c.P e.2) hm ⟨hk, hv⟩
    · exact .bind .inv fun _ _ => .bind .sym fun _ _ => .pure (snoc_mem (V := fun e : Node × Node => c.P e.1 ∧ c.P e.2) hm ⟨hk, hv⟩)

include ok in
theorem Blind.scalarTerm {sc : ScalarCall} (hs : BSc c sc) {n d L : Nat} {flow : Bool} :
    Blind c (scalarTerm sc n d L flow) c.PY := by
  induction d generalizing L flow with
  | zero => exact .diverge
  | succ d ih =>
    refine .bind (.scalarAtom ok) fun r hr => ?_
    cases r with
    | some y => exact .pure (hr y rfl)
    | none =>
      refine .orElse (.orElse (.seqFlow ok hs) ?_) (.pure ok.null)
      exact .bind .sym fun _ _ => .bind (.mapFlowLoop hs (.scalarNode ih) (by simp)) fun m hm =>
        .bind .forward fun _ _ => .collectMap ok hm

include ok in
theorem Blind.scalarFlow {sc : ScalarCall} (hs : BSc c sc) {n L : Nat} {flow : Bool} :
    Blind c (scalarFlow sc n L flow) c.P := .scalarNode (.scalarTerm ok hs)

theorem Blind.firstItem {L : Nat} {map : Bool} : Blind c (firstItem L map) (fun _ => True) :=
  .ite (fun _ => .bind .gap fun _ _ => .pk indDefine_pk) fun _ => .gapThenInd

theorem Blind.nextItem {L : Nat} {nm : String} : Blind c (nextItem L nm) (fun _ => True) := by
  refine .bind (.isOk .gap) fun _ _ => .bind (V := fun _ => True) ?_ fun _ _ => ?_
  · exact .ite (fun _ => .pure trivial) fun _ => .bind .docEnd fun _ _ => .pure trivial
  · exact .ite (fun _ => .lerr) fun _ => .bind .docEnd fun _ _ => .ite (fun _ => .pure trivial) fun _ =>
      .bind (.isOk .ind) fun _ _ => .pure trivial

theorem Blind.seqLoop {sc : ScalarCall} (hs : BSc c sc) {L n : Nat} {map : Bool} {v : List Node} (hv : ∀ x ∈ v, c.P x) :
    Blind c (seqLoop sc L map n v) (fun v => ∀ x ∈ v, c.P x) := by
  induction n generalizing v with
  | zero => exact .diverge
  | succ n ih =>
    refine .bind .forward fun _ _ => .bind (V := fun _ => True) ?_ fun _ _ => ?_
    · refine .ite (fun _ => ?_) fun _ => ?_
      · exact .bind .firstItem fun _ _ => .bind .sym fun _ _ => .bind .bound fun _ _ => .pure trivial
      · refine .bind .nextItem fun _ _ => .ite (fun _ => .pure trivial) fun _ => ?_
        refine .bind (.isOk .sym) fun _ _ => .ite (fun _ => ?_) fun _ => .pure trivial
        exact .bind (.isOk .bound) fun _ _ => .ite (fun _ => .bind .forward fun _ _ => .pure trivial) fun _ => .pure trivial
    · refine .ite (fun _ => .pure hv) fun _ => .bind .forward fun _ _ => .bind (.orErr (hs _ _ _)) fun x hx => ?_
      exact ih (snoc_mem hv hx)

include ok in
theorem Blind.seq {sc : ScalarCall} (hs : BSc c sc) {L n : Nat} {map : Bool} : Blind c (seq sc n L map) c.PY :=
  .bind (.seqLoop hs (by simp)) fun v hv => .bind .backward fun _ _ => .pure (ok.seq v hv)

theorem Blind.colonBound : Blind c colonBound (fun _ => True) :=
  .bind (.isOk .sym) fun _ _ => .ite (fun _ => .isOk .bound) fun _ => .pure trivial

def BStep (c : BCfg) : MapStep → Prop
  | .alone y => c.PY y
  | .stop => True
  | .key k => c.P k

include ok in
theorem Blind.mapStep {sc : ScalarCall} (hs : BSc c sc) {sf : LM Node} (hf : Blind c sf c.P) {L : Nat}
    {map flow first : Bool} : Blind c (mapStep sc sf L map flow first) (BStep c) := by
  refine .bind .forward fun _ _ => .ite (fun _ => ?_) fun _ => ?_
  · refine .bind .firstItem fun _ _ => .bind .forward fun _ _ => .bind (V := c.P) ?_ fun k hk => ?_
    · exact .bind (.isOk .complexMapping) fun _ _ => .ite (fun _ => .complexKey hs) fun _ => hf
    · exact .bind .colonBound fun _ _ => .ite (fun _ => .pure hk) fun _ => .pure (ok.yaml k hk)
  · refine .bind .nextItem fun _ _ => .ite (fun _ => .pure trivial) fun _ => .bind .forward fun _ _ => .bind (V := c.P) ?_ fun k hk => ?_
    · exact .bind (.isOk .complexMapping) fun _ _ => .ite (fun _ => .complexKey hs) fun _ => .orErr hf
    · exact .bind .colonBound fun _ _ => .ite (fun _ => .pure hk) fun _ => .lerr

include ok in
theorem Blind.mapLoop {sc : ScalarCall} (hs : BSc c sc) {sf : LM Node} (hf : Blind c sf c.P) {L n : Nat}
    {map flow : Bool} {m : List (Node × Node)} (hm : ∀ e ∈ m, c.P e.1 ∧ c.P e.2) :
    Blind c (mapLoop sc sf L map flow n m) c.PY := by
  induction n generalizing m with
  | zero => exact .diverge
  | succ n ih =>
    refine .bind (.mapStep ok hs hf) fun r hr => ?_
    cases r with
    | alone y => exact .pure hr
    | stop => exact .bind .backward fun _ _ => .collectMap ok hm
    | key k =>
      refine .bind .forward fun _ _ => .bind (.orErr (hs _ _ _)) fun v hv => ih ?_
      exact snoc_mem (V := fun e : Node × Node => c.P e.1 ∧ c.P e.2) hm ⟨hr, hv⟩

include ok in
theorem Blind.scalarBody {sc : ScalarCall} (hs : BSc c sc) {n L : Nat} {map flow : Bool} :
    Blind c (scalarBody sc n L map flow) c.PY := by
  refine .bind (.try? (.pk stringLiteral_pk)) fun r _ => ?_
  cases r with
  | some s => exact .pure (ok.str s)
  | none =>
    refine .bind (.try? (.pk stringFolded_pk)) fun r _ => ?_
    cases r with
    | some s => exact .pure (ok.str s)
    | none =>
      refine .orElse (.orElse (.seq ok hs) ?_) (.scalarTerm ok hs)
      exact .mapLoop ok hs (.scalarFlow ok hs) (by simp)

include ok in
theorem Blind.scalar : ∀ n, BSc c (scalar n)
  | 0 => fun _ _ _ => .diverge
  | n + 1 => fun _ _ _ => .scalarNode (.scalarBody ok (Blind.scalar n))

include ok in
theorem Blind.doc {n : Nat} : Blind c (doc n) c.P := by
  refine .bind (.pk (context_pk (pk_pf (Frame.Holds.orDefault bound_pk trivial)))) fun _ _ => .bind .forward fun _ _ => ?_
  refine .bind (V := fun _ => True) ?_ fun _ _ => .bind (Blind.scalar ok n _ _ _) fun x hx => ?_
  · intro l hl
    refine ⟨rfl, ⟨hl.parser, hl.hash, ?_⟩, fun _ _ => trivial⟩
    intro t ht
    rcases List.mem_append.1 ht with h | h
    · exact hl.anchors t h
    · simp at h; subst h; simp
  · refine .bind .gapOr fun _ _ => .bind (.pk (Frame.Holds.orDefault symSeq_pk trivial)) fun _ _ => .bind .forward fun _ _ => ?_
    refine .bind (V := fun _ => True) ?_ fun _ _ => .pure hx
    exact fun l hl => ⟨rfl, ⟨hl.parser, hl.hash, hl.anchors⟩, fun _ _ => trivial⟩

theorem Blind.directives {n : Nat} : Blind c (directives n) (fun _ => True) := by
  induction n with
  | zero => exact .diverge
  | succ n ih =>
    intro l hl
    obtain ⟨h1, h2, h3⟩ := Blind.pk (c := c) (context_pk (pk_pf (directive_pk (.inr trivial)))) l hl
    unfold YamlPeg.directives
    rw [h1]
    rcases hx : YamlPeg.lift (context directive) l with ⟨r, l'⟩
    rw [hx] at h2
    cases r with
    | ok a => exact ih l' h2
    | err e => cases e <;> exact ⟨rfl, h2, fun _ _ => trivial⟩
    | panic p => exact ⟨rfl, h2, fun _ _ => trivial⟩
    | diverge => exact ⟨rfl, h2, fun _ _ => trivial⟩

include ok in
theorem Blind.docsLoop {n m : Nat} {v : List Node} (hv : ∀ x ∈ v, c.P x) :
    Blind c (docsLoop n m v) (fun v => ∀ x ∈ v, c.P x) := by
  induction m generalizing v with
  | zero => exact .diverge
  | succ m ih =>
    refine .bind .gapOr fun _ _ => .bind (.pk food_pk) fun _ _ => .ite (fun _ => .pure hv) fun _ => ?_
    refine .bind (.isOk (.pk symSeq_pk)) fun _ _ => .ite (fun _ => ?_) fun _ => .lerr
    exact .bind (.doc ok) fun d hd => ih (snoc_mem hv hd)

include ok in
theorem Blind.loaderParse {n : Nat} : Blind c (loaderParse n) (fun v => ∀ x ∈ v, c.P x) := by
  refine .bind .directives fun _ _ => .bind .gapOr fun _ _ => .bind (.pk (Frame.Holds.orDefault symSeq_pk trivial)) fun _ _ => ?_
  refine .bind (.doc ok) fun d hd => .docsLoop ok ?_
  simpa using hd

include ok in
/-- The two runs from the start. -/
theorem parse_twice (n : Nat) (b : Bool) :
    BW c { Loader.new c.h0 c.doc with cyclicMode := b } ∧
    loaderParse n { Loader.new c.h c.doc with cyclicMode := c.mode b } =
      ((loaderParse n { Loader.new c.h0 c.doc with cyclicMode := b }).1,
        c.ghost (loaderParse n { Loader.new c.h0 c.doc with cyclicMode := b }).2) := by
  have hw : BW c { Loader.new c.h0 c.doc with cyclicMode := b } :=
    ⟨⟨rfl, fun h => h.elim, Nat.zero_le _, Nat.le_refl _, Nat.zero_le _, by simp [Loader.new, Parser.new], rfl, rfl⟩,
      rfl, by simp [Loader.new]⟩
  exact ⟨hw, (Blind.loaderParse ok _ hw).1⟩

end
end YamlPeg
