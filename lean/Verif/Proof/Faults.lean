import Verif.Proof.Stream
import Verif.Proof.Alias
import Verif.Proof.Flow
/-!
# Layouts that fail

A layout whose text is regular, but which names an unknown anchor, defines an
anchor twice, or uses an unknown tag handle.  `Blk.fails` says where the first
such fault is; the run stops there.
-/

namespace YamlPeg
open M

/-- The end of a run that cannot go on. -/
inductive Crash where
  | terminate (name : String) (msg : Bytes)
  | panic (q : Panic)

def Crash.out {α : Type} : Crash → Out α
  | .terminate name m => .err (.terminate name m)
  | .panic q => .panic q

/-- The computation ends in one of the crashes. -/
def Fails {σ α : Type} (C : Crash → Prop) (x : M σ α) (s : σ) : Prop := ∃ c, C c ∧ ∃ s', x s = (c.out, s')

theorem Fails.bind {σ α β : Type} {C : Crash → Prop} {x : M σ α} {s : σ} (h : Fails C x s) (f : α → M σ β) :
    Fails C (x >>= f) s := by
  obtain ⟨c, hc, s', h⟩ := h
  refine ⟨c, hc, s', ?_⟩
  cases c with
  | terminate n m => exact bind_err h
  | panic q => exact bind_panic h

theorem Fails.after {σ α β : Type} {C : Crash → Prop} {x : M σ α} {s s' : σ} {a : α} (h : x s = (.ok a, s')) {f : α → M σ β}
    (hf : Fails C (f a) s') : Fails C (x >>= f) s := by
  obtain ⟨c, hc, s2, hf⟩ := hf
  exact ⟨c, hc, s2, (bind_ok h).trans hf⟩

theorem Fails.orElse {σ α : Type} {C : Crash → Prop} {x y : M σ α} {s : σ} (h : Fails C x s) :
    Fails C (orElseMismatch x y) s := by
  obtain ⟨c, hc, s', h⟩ := h
  refine ⟨c, hc, s', ?_⟩
  cases c with
  | terminate n m => simp only [orElseMismatch, h, Crash.out]
  | panic q => simp only [orElseMismatch, h, Crash.out]

theorem Fails.else {σ α : Type} {C : Crash → Prop} {x y : M σ α} {s s' : σ} (hx : x s = (.err .mismatch, s')) (h : Fails C y s') :
    Fails C (orElseMismatch x y) s := by
  obtain ⟨c, hc, s2, h⟩ := h
  exact ⟨c, hc, s2, (orElse_mismatch hx).trans h⟩

theorem Fails.orErr {α : Type} {C : Crash → Prop} {x : LM α} {s : Loader} (h : Fails C x s) (name : String) :
    Fails C (orErr x name) s := Fails.orElse h

theorem Fails.same {σ α : Type} {C : Crash → Prop} {x y : M σ α} {s t : σ} (h : Fails C x s) (he : y t = x s) : Fails C y t := by
  rwa [Fails, he]

/-- What is wrong with a layout, and where it is reported. -/
inductive Fault where
  /-- an alias of a name that the document has not defined -/
  | alias (p : Nat)
  /-- the second definition of an anchor; behind some of the `slack` bytes at `p` -/
  | twice (p slack : Nat)
  /-- a tag handle that no directive defines -/
  | handle

def Fault.crash (doc : Bytes) : Fault → Crash → Prop
  | .alias p => (· = .terminate "anchor referenced before definition" ((indicatedMsg doc p).getD []))
  | .twice p slack => fun c => ∃ i ≤ slack, c = .terminate "duplicated anchor definition" ((indicatedMsg doc (p + i)).getD [])
  | .handle => (· = .panic .tagHandle)

/-- A tag `!h!…` whose handle is unknown. -/
def UnknownTag (tbl : List (Bytes × Bytes)) (tg : Bytes) : Prop :=
  ∃ h r, IsIdent h ∧ mapGet h tbl = none ∧ tg = 0x21 :: (h ++ 0x21 :: r)

def Form.unknown (tbl : List (Bytes × Bytes)) : Form → Prop
  | .anchor _ _ => False
  | .tag tg _ _ => UnknownTag tbl tg
  | .anchorTag _ _ tg _ _ => UnknownTag tbl tg
  | .tagAnchor tg _ _ _ _ => UnknownTag tbl tg

/-- `T` is an alias of an unknown name. -/
def AliasFails (T : Bytes) (p : Nat) (e : Env) (φ : Fault) : Prop :=
  ∃ a, IsIdent a ∧ T = 0x2A :: a ∧ e.cyclic = false ∧ mapGet a e.anchors = none ∧ φ = .alias (p + T.length)

mutual
/-- The first fault of a flow node whose text begins at `p`, in front of the white space `W`. -/
def Flow.fails : Flow → Bytes → Nat → Env → Fault → Prop
  | .atom T _ _, _, p, e, φ => AliasFails T p e φ
  | .seq ws its, _, p, e, φ => its.fails (p + 1 + ws.length) e φ
  | .map ws es, _, p, e, φ => es.fails (p + 1 + ws.length) e φ
  | .prop P f, W, p, e, φ =>
      (P.unknown e.tags ∧ φ = .handle) ∨
      (P.fine e.tags ∧ f.fails W (p + P.text.length) e φ) ∨
      (P.fine e.tags ∧ f.fine (p + P.text.length) e ∧ P.name ≠ [] ∧
        (mapGet P.name (f.eff (p + P.text.length) e)).isSome = true ∧ φ = .twice (p + P.text.length + f.text.length) W.length)
def FItems.fails : FItems → Nat → Env → Fault → Prop
  | .nil, _, _, _ => False
  | .last f W, p, e, φ => f.fails W p e φ
  | .cons f W ws rest, p, e, φ => f.fails W p e φ ∨ (f.fine p e ∧
      rest.fails (p + f.text.length + W.length + 1 + ws.length) { e with anchors := f.eff p e } φ)
def FEnts.fails : FEnts → Nat → Env → Fault → Prop
  | .nil, _, _, _ => False
  | .last T _ sp v W, p, e, φ => v.fails W (p + T.length + 1 + sp.length) e φ
  | .cons T _ sp v ws rest, p, e, φ => v.fails [] (p + T.length + 1 + sp.length) e φ ∨
      (v.fine (p + T.length + 1 + sp.length) e ∧
      rest.fails (p + T.length + 1 + sp.length + v.text.length + 1 + ws.length)
        { e with anchors := v.eff (p + T.length + 1 + sp.length) e } φ)
end

mutual
/-- The first fault of a tree whose text begins at `p`. -/
def Blk.fails : Blk → Nat → Env → Fault → Prop
  | .leaf lead T _ _ _, p, e, φ => AliasFails T (p + lead.length) e φ ∨
      ∃ f : Flow, f.wf [] ∧ f.isAtom = false ∧ T = f.text ∧ f.fails [] (p + lead.length) e φ
  | .lit .., _, _, _ => False
  | .cmap .., _, _, _ => False
  | .seq lead τ its, p, e, φ => its.fails τ (p + lead.length + 1 + its.sp.length) e φ
  | .map lead τ es, p, e, φ => es.fails τ (p + lead.length + es.T.length + 1 + es.sp.length) e φ
  | .prop f b, p, e, φ =>
      (f.unknown e.tags ∧ φ = .handle) ∨
      (f.fine e.tags ∧ b.fails (p + f.text.length) e φ) ∨
      (f.fine e.tags ∧ b.fine (p + f.text.length) e ∧ f.name ≠ [] ∧
        (mapGet f.name (b.eff (p + f.text.length) e)).isSome = true ∧ φ = .twice (p + f.text.length + b.text.length) 0)
def Items.fails (τ : Nat) : Items → Nat → Env → Fault → Prop
  | .one _ b, p, e, φ => b.fails p e φ
  | .cons _ b G rest, p, e, φ => b.fails p e φ ∨ (b.fine p e ∧
    rest.fails τ (p + b.text.length + G.length + τ + 1 + rest.sp.length) { e with anchors := b.eff p e } φ)
def Ents.fails (τ : Nat) : Ents → Nat → Env → Fault → Prop
  | .one _ _ _ v, p, e, φ => v.fails p e φ
  | .cons _ _ _ v G rest, p, e, φ => v.fails p e φ ∨ (v.fine p e ∧
    rest.fails τ (p + v.text.length + G.length + τ + rest.T.length + 1 + rest.sp.length)
      { e with anchors := v.eff p e } φ)
end

/-! ## The faults themselves -/

theorem lerr_stuck {α : Type} {k : Ctx} (hk : k.consumed = 0) (name : String) (L : Loader) (pre mid post : Bytes) :
    Fails (· = .terminate name ((indicatedMsg (pre ++ (mid ++ post)) (pre.length + mid.length)).getD [])) (lerr name : LM α)
      (ld L (st k pre mid post)) := by
  have hs : (indicatedMsg (pre ++ (mid ++ post)) (pre.length + mid.length)).isSome := by
    rw [indicatedMsg_isSome]; simp
  obtain ⟨m, hm⟩ := Option.isSome_iff_exists.1 hs
  have h1 : (st k pre mid post).doc = pre ++ (mid ++ post) := by simp [st]
  have h2 : (st k pre mid post).indicator = pre.length + mid.length := by simp [Parser.indicator, st, hk]
  have : (errAt name : PM α) (st k pre mid post) = (.err (.terminate name m), st k pre mid post) := by
    simp only [errAt, h1, h2, hm]
  rw [hm]
  exact ⟨_, rfl, _, lift_of this⟩

theorem useAlias_stuck {L : Loader} (hL : L.Ready) {a : Bytes} {k : Ctx} (hk : k.consumed = 0)
    (hc : L.cyclicMode = false) (h : mapGet a L.cur = none) (pre mid post : Bytes) :
    Fails ((Fault.alias (pre.length + mid.length)).crash (pre ++ (mid ++ post))) (useAlias a)
      (ld L (st k pre mid post)) := by
  have hlt : L.docInd < L.anchors.length := hL
  rw [useAlias]
  refine .after (get_run _) ?_
  simp only [ld_cyclic, hc, Bool.false_eq_true, if_false]
  have hcur : curAnchors (ld L (st k pre mid post)) = (.ok L.cur, ld L (st k pre mid post)) := by
    simp only [curAnchors, ld_anchors, ld_docInd, Loader.cur]
    rw [List.getElem?_eq_getElem hlt]
    rfl
  refine .after hcur ?_
  simp only [h]
  exact lerr_stuck hk ..

theorem scalarAtom_stuck {a E : Bytes} (ha : IsIdent a) (hE : IdEnd E) {L : Loader} (hL : L.Ready) {k : Ctx}
    (hk : k.consumed = 0) (hc : L.cyclicMode = false) (h : mapGet a L.cur = none) (n level : Nat) (flow : Bool) (pre : Bytes) :
    Fails ((Fault.alias (pre.length + (0x2A :: a).length)).crash (pre ++ (0x2A :: a ++ E))) (scalarAtom n level flow)
      (ld L (st k pre [] (0x2A :: a ++ E))) := by
  have h1 := notNum_star (a ++ E)
  rw [List.cons_append, scalarAtom]
  refine .after (try_err (lift_of (float_no _ _ _ h1))) ?_
  simp only
  refine .after (try_err (lift_of (sciFloat_no _ _ _ h1))) ?_
  simp only
  refine .after (try_err (lift_of (int_no _ _ _ h1))) ?_
  simp only
  refine .after (try_ok (lift_of (anchorUse_read ha hE ..))) ?_
  simp only
  refine Fails.bind ?_ _
  exact useAlias_stuck hL hk hc h pre (0x2A :: a) E

theorem scalarNode_stuck {f : LM Yaml} {c : Crash → Prop} {k : Ctx} {L : Loader} {pre post : Bytes} (h : noProps post = true)
    (hf : Fails c f (ld L (st k pre [] post))) : Fails c (scalarNode f) (ld L (st k pre [] post)) := by
  rw [scalarNode]
  refine .after (nodeProps_none _ _ _ _ h) ?_
  simp only
  exact .after (get_run _) (hf.bind _)

theorem alias_stuck {a E : Bytes} (ha : IsIdent a) (hE : IdEnd E) {L : Loader} (hL : L.Ready) {k : Ctx}
    (hk : k.consumed = 0) (hc : L.cyclicMode = false) (h : mapGet a L.cur = none) (sc : ScalarCall) (n d level : Nat)
    (flow : Bool) (pre : Bytes) :
    Fails ((Fault.alias (pre.length + (0x2A :: a).length)).crash (pre ++ (0x2A :: a ++ E)))
      (scalarTerm sc n (d + 1) level flow) (ld L (st k pre [] (0x2A :: a ++ E))) := by
  rw [scalarTerm, scalarTermWith]
  exact (scalarAtom_stuck ha hE hL hk hc h n level flow pre).bind _

/-- A tag with an unknown handle. -/
theorem tag_stuck {tbl : List (Bytes × Bytes)} {tg : Bytes} (h : UnknownTag tbl tg) {k : Ctx} (hk : k.tag = tbl)
    (pre mid E : Bytes) : Fails (· = .panic .tagHandle) tag (st k pre mid (tg ++ E)) := by
  obtain ⟨h, r, hh, hn, rfl⟩ := h
  subst hk
  have h1 : IdEnd (0x21 :: (r ++ E)) := not_alnum _ (by decide) _
  have e : 0x21 :: (h ++ 0x21 :: r) ++ E = 0x21 :: (h ++ 0x21 :: (r ++ E)) := by simp
  rw [e]
  rw [tag]
  refine .after (sym_hit ..) ?_
  refine ⟨_, rfl, _, context_st (o := .panic .tagHandle) (p' := []) (m' := h ++ [0x21]) (post' := r ++ E) (k' := k) ?_⟩
  · (
    rw [bind_ok (orDefault_ok (identifier_read hh h1 ..)), bind_ok (text_st ..)]
    simp only [List.nil_append, hh.lossy]
    rw [bind_panic (p := .tagHandle) (s' := st k (pre ++ (mid ++ [0x21])) (h ++ [0x21]) (r ++ E))]
    · simp
    · have hne : h.isEmpty = false := by simpa using hh.ne
      rw [tagPrefixPart]
      simp only [hne, Bool.not_false, if_true]
      rw [bind_ok (isOk_ok (sym_hit ..))]
      simp only [if_true]
      have : mapGet h (st k (pre ++ (mid ++ [0x21])) (h ++ [0x21]) (r ++ E)).tag = none := hn
      simp only [tagLookup, this])

theorem props_stuck {f : Form} {X : Bytes} {k : Ctx} (hwf : f.wf X) (hf : f.unknown k.tag) (L : Loader) (pre : Bytes) :
    Fails (· = .panic .tagHandle) nodeProps (ld L (st k pre [] (f.text ++ X))) := by
  have tagP : ∀ {tg E : Bytes} {pre : Bytes}, UnknownTag k.tag tg →
      Fails (· = .panic .tagHandle) (lift (orDefault [] tag)) (ld L (st k pre [] (tg ++ E))) := by
    intro tg E pre h
    obtain ⟨c, rfl, s', h⟩ := tag_stuck h rfl pre [] E
    exact ⟨_, rfl, ld L s', lift_of (o := .panic .tagHandle) (s' := s') (by simp only [orDefault, h, Crash.out])⟩
  have noA : ∀ {tg E : Bytes} {pre : Bytes}, UnknownTag k.tag tg →
      lift (orDefault [] anchor) (ld L (st k pre [] (tg ++ E))) = (.ok [], ld L (st k pre [] (tg ++ E))) := by
    rintro tg E pre ⟨_, _, _, _, rfl⟩
    exact lift_of (anchor_no _ _ _ (by rintro _ ⟨⟩))
  have fw : ∀ {pre post : Bytes}, lift forward (ld L (st k pre [] post)) = (.ok (), ld L (st k pre [] post)) := by
    intro pre post; rw [lift_of (forward_st ..)]; simp
  rw [nodeProps]
  cases f with
  | anchor a sp => exact hf.elim
  | tag tg t sp =>
    have hf : UnknownTag k.tag tg := hf
    simp only [Form.text, List.append_assoc]
    refine .after (noA hf) ?_
    simp only [List.isEmpty_nil, Bool.not_true, runIf_false]
    exact .after (pure_run ..) (.after fw ((tagP hf).bind _))
  | anchorTag a sp tg t sp' =>
    have hf : UnknownTag k.tag tg := hf
    obtain ⟨ha, ⟨r, hr⟩, hs, hs'⟩ := hwf
    have hs0 : SepOK sp (tg ++ (sp' ++ X)) := hs.append _
    simp only [Form.text, List.append_assoc, List.cons_append]
    refine .after (props_anchor ha hs0 ..) ?_
    simp only [isEmpty_of_ne ha.ne, Bool.not_false, runIf_true]
    exact .after (lift_of (bound_sep _ _ _ hs0)) (.after (lift_forward ..) ((tagP hf).bind _))
  | tagAnchor tg t sp a sp' =>
    have hf : UnknownTag k.tag tg := hf
    simp only [Form.text, List.append_assoc]
    refine .after (noA hf) ?_
    simp only [List.isEmpty_nil, Bool.not_true, runIf_false]
    exact .after (pure_run ..) (.after fw ((tagP hf).bind _))

/-- The three ways a node with properties fails. -/
theorem prop_stuck_handle {g : LM Yaml} {f : Form} {X : Bytes} {k : Ctx} {L : Loader} {pre : Bytes} (hwf : f.wf X)
    (hf : f.unknown k.tag) : Fails (· = .panic .tagHandle) (scalarNode g) (ld L (st k pre [] (f.text ++ X))) := by
  rw [scalarNode]; exact (props_stuck hwf hf L pre).bind _

theorem prop_stuck_inner {C : Crash → Prop} {g : LM Yaml} {f : Form} {X : Bytes} {k : Ctx} {L : Loader} {pre : Bytes} (hwf : f.wf X)
    (hf : f.fine k.tag) (hX : noProps X = true) (h : Fails C (scalarNode g) (ld L (st k (pre ++ f.text) [] X))) :
    Fails C (scalarNode g) (ld L (st k pre [] (f.text ++ X))) := by
  obtain ⟨c, hC, l', h⟩ := h
  rw [scalarNode, bind_ok (nodeProps_none _ _ _ _ hX)] at h
  simp only at h
  rw [bind_ok (get_run _)] at h
  rw [scalarNode]
  refine .after (nodeProps_read hwf hf hX ..) ?_
  simp only
  refine .after (get_run _) ?_
  rcases hg : g (ld L (st k (pre ++ f.text) [] X)) with ⟨o, l1⟩
  rcases o with y1 | e | q | _
  · exfalso
    rw [bind_ok hg] at h
    rcases hfw : lift forward l1 with ⟨o, l2⟩
    have : o = .ok () := by
      have : lift forward l1 = (.ok (), { l1 with parser := { l1.parser with eaten := l1.parser.pos } }) := rfl
      rw [this] at hfw; injection hfw with h1; exact h1.symm
    subst this
    rw [bind_ok hfw] at h
    simp only [List.isEmpty_nil, Bool.not_true, Bool.false_eq_true, if_false, pure_run] at h
    injection h with h _
    cases c <;> simp [Crash.out] at h
  · rw [bind_err hg] at h
    injection h with h1 h2
    exact Fails.bind ⟨c, hC, l1, by rw [hg]; cases c <;> simp [Crash.out] at h1 ⊢; exact h1⟩ _
  · rw [bind_panic hg] at h
    injection h with h1 h2
    exact Fails.bind ⟨c, hC, l1, by rw [hg]; cases c <;> simp [Crash.out] at h1 ⊢; exact h1⟩ _
  · exfalso
    have : (g >>= fun yaml => (do
      lift forward
      let node := Node.new yaml (ld L (st k (pre ++ f.text) [] X)).parser.indicator []
      if (!([] : Bytes).isEmpty) = true then
        if ← anchorInsert [] node then lerr "duplicated anchor definition" else pure node
      else pure node : LM Node)) (ld L (st k (pre ++ f.text) [] X)) = (.diverge, l1) := by
      simp [Bind.bind, M.bind, hg]
    rw [this] at h
    injection h with h _
    cases c <;> simp [Crash.out] at h

theorem prop_stuck_twice {g : LM Yaml} {f : Form} {X : Bytes} {k k' : Ctx} {L : Loader} {A : Anchors} {pre p' post' : Bytes}
    {pos : Nat} {y : Yaml} (hwf : f.wf X) (hfine : f.fine k.tag) (hX : noProps X = true) (hL : L.Ready)
    (hk : k'.consumed = 0) (hne : f.name ≠ []) (hold : (mapGet f.name A).isSome = true)
    (h : scalarNode g (ld L (st k (pre ++ f.text) [] X)) =
      (.ok (.mk pos [] y), ld (L.put A) (st k' p' [] post'))) :
    Fails (· = .terminate "duplicated anchor definition" ((indicatedMsg (p' ++ post') p'.length).getD [])) (scalarNode g) (ld L (st k pre [] (f.text ++ X))) := by
  rw [scalarNode, bind_ok (nodeProps_none _ _ _ _ hX)] at h
  simp only at h
  rw [bind_ok (get_run _)] at h
  rw [scalarNode]
  refine .after (nodeProps_read hwf hfine hX ..) ?_
  simp only
  refine .after (get_run _) ?_
  rcases hg : g (ld L (st k (pre ++ f.text) [] X)) with ⟨o, l1⟩
  rcases o with y1 | e | q | _
  · rw [bind_ok hg] at h
    refine .after hg ?_
    rcases hf : lift forward l1 with ⟨o, l2⟩
    rcases o with u | e | q | _
    · rw [bind_ok hf] at h
      refine .after hf ?_
      simp only [List.isEmpty_nil, Bool.not_true, Bool.false_eq_true, if_false, pure_run, Node.new] at h
      injection h with h1 h2
      subst h2
      have hA : (L.put A).anchors[(L.put A).docInd]? = some A := by
        have : L.docInd < L.anchors.length := hL
        simp [Loader.put, List.getElem?_set, this]
      simp only [isEmpty_of_ne hne, Bool.not_false, if_true]
      generalize Node.new y1 _ _ = nd
      refine .after (a := true) (s' := ld (L.put (mapInsert f.name nd A)) (st k' p' [] post')) ?_ ?_
      · rw [anchorInsert, bind_ok (a := A) (s' := ld (L.put A) (st k' p' [] post'))]
        · rw [bind_ok (a := ()) (s' := ld (L.put (mapInsert f.name nd A)) (st k' p' [] post'))]
          · rw [hold]; rfl
          · simp [M.modify, ld, Loader.put]
        · simp only [curAnchors, ld_anchors, ld_docInd, hA]
      · simp only [if_true]
        have := lerr_stuck (α := Node) hk "duplicated anchor definition" (L.put (mapInsert f.name nd A)) p' [] post'
        simpa using this
    all_goals (simp [Bind.bind, M.bind, hf] at h)
  all_goals (simp [Bind.bind, M.bind, hg] at h)

/-! ## Anywhere in a tree -/

theorem leaf_fail_of {C : Crash → Prop} {lead T E : Bytes} (hT : LeafText T) {q σ : Nat} {k : Ctx} {flow : Bool}
    (hl : LeadOK σ lead) (hw : k.want q = σ) {i : Nat} {L : Loader} {pre : Bytes}
    (h : Fails C (scalarTerm (scalar (i + 1)) (i + 1) (i + 1) (q + 1) flow)
      (ld L (st (if lead = [] then k else k.at q) (pre ++ lead) [] (T ++ E)))) :
    Fails C (scalar (i + 2) q false flow) (ld L (st k pre [] (lead ++ (T ++ E)))) := by
  generalize hk1 : (if lead = [] then k else k.at q) = k1 at h
  have hk1at : k1.at q = k.at q := by subst hk1; split <;> simp
  have hw1 : k1.want q = σ := by rw [Ctx.want_of_at hk1at, hw]
  obtain ⟨c, u, hTe, h1, h2⟩ := hT.head
  obtain ⟨c', r', hce, hc'⟩ := hl.head (c := c) (r := u ++ E) h2
  have htxt : lead ++ (T ++ E) = c' :: r' := by rw [hTe]; simpa using hce
  have hfi : ∀ pre, firstItem q false (ld L (st k1 pre [] (lead ++ (T ++ E)))) =
      (.ok (), ld L (st k1 pre lead (T ++ E))) := by
    intro pre
    rcases hl with rfl | ⟨G, hG, rfl⟩
    · rw [hTe]; exact firstItem_inline _ _ _ _ h1 q
    · obtain ⟨x, s, rfl, hx⟩ := hG.head
      have := firstItem_gap k1 L pre [] hG hw1 (c := c) (r := u ++ E) h1
      have e : k1.at q = k1 := by subst hk1; simp
      rw [e] at this
      rw [hTe]
      simpa using this
  have hp : noProps (T ++ E) = true := by rw [hTe]; exact noProps_of h2
  have hmap : Fails C (YamlPeg.map (scalar (i + 1)) (i + 1) q false flow) (ld L (st k1 pre [] (lead ++ (T ++ E)))) := by
    rw [YamlPeg.map, mapLoop]
    refine Fails.bind ?_ _
    rw [mapStep]
    refine .after (lift_of (forward_st ..)) ?_
    simp only [List.isEmpty_nil, if_true, List.append_nil]
    refine .after (hfi _) (.after (lift_of (forward_st ..)) ?_)
    refine Fails.bind ?_ _
    refine .after (isOk_err (lift_of (complexMapping_no _ _ hT))) ?_
    simp only [Bool.false_eq_true, if_false]
    rw [scalarFlow]
    exact scalarNode_stuck hp h
  rw [scalar]
  refine scalarNode_stuck (by rw [htxt]; exact noProps_of hc') ?_
  rw [htxt, Fails, scalarBody_skip _ _ _ hc', ← htxt]
  refine Fails.orElse (.else (seq_no _ _ _ hT.keyHead hl hw _ _) ?_)
  rw [hk1]; exact hmap

theorem leaf_fail {lead a : Bytes} {E : Bytes} (ha : IsIdent a) (hE : IdEnd E) {q σ : Nat} {k : Ctx} {flow : Bool}
    (hl : LeadOK σ lead) (hw : k.want q = σ) (hk : k.consumed = 0) : ∀ n, 3 ≤ n → ∀ L pre, L.Ready →
      L.cyclicMode = false → mapGet a L.cur = none →
      Fails ((Fault.alias (pre.length + lead.length + (0x2A :: a).length)).crash (pre ++ (lead ++ (0x2A :: a ++ E))))
        (scalar n q false flow) (ld L (st k pre [] (lead ++ (0x2A :: a ++ E)))) := by
  intro n hn L pre hL hc hm
  obtain ⟨i, rfl⟩ : ∃ i, n = i + 2 := ⟨n - 2, by omega⟩
  have hcon : (if lead = [] then k else k.at q).consumed = 0 := by split <;> simpa using hk
  have := alias_stuck ha hE hL hcon hc hm (scalar (i + 1)) (i + 1) i (q + 1) flow (pre ++ lead)
  exact leaf_fail_of (alias_leaf ha).2 hl hw (by simpa using this)

theorem leaf_value_fail_of {C : Crash → Prop} {T E : Bytes} (hT : LeafText T) {p : Nat} {k : Ctx} {i : Nat} {L : Loader} {pre : Bytes}
    (h : Fails C (scalarTerm (scalar (i + 1)) (i + 1) (i + 1) (p + 1) false) (ld L (st k pre [] (T ++ E)))) :
    Fails C (scalar (i + 2) (p + 1) true false) (ld L (st k pre [] (T ++ E))) := by
  obtain ⟨c, u, hTe, h1, h2⟩ := hT.head
  have htxt : T ++ E = c :: (u ++ E) := by rw [hTe]; rfl
  have hfi : firstItem (p + 1) true (ld L (st k pre [] (T ++ E))) =
      (.err .mismatch, ld L (st k pre [] (T ++ E))) := by
    simp only [firstItem, if_true, htxt]
    rw [bind_err (lift_of (gap_tok _ _ _ h1 _))]
  rw [scalar]
  refine scalarNode_stuck (by rw [htxt]; exact noProps_of h2) ?_
  rw [htxt, Fails, scalarBody_skip _ _ _ h2, ← htxt]
  refine Fails.else (s' := ld L (st k pre [] (T ++ E))) ?_ h
  rw [orElse_mismatch (s' := ld L (st k pre [] (T ++ E)))]
  · rw [YamlPeg.map, mapLoop, bind_err]
    rw [mapStep, bind_ok (lift_of (forward_st ..))]
    simp only [List.isEmpty_nil, if_true, List.append_nil]
    rw [bind_err hfi]
  · rw [seq, bind_err]
    rw [seqLoop, bind_ok (lift_of (forward_st ..)), bind_err]
    simp only [List.isEmpty_nil, if_true, List.append_nil]
    rw [bind_err hfi]

theorem leaf_value_fail {a : Bytes} {E : Bytes} (ha : IsIdent a) (hE : IdEnd E) {p : Nat} {k : Ctx}
    (hk : k.consumed = 0) : ∀ n, 3 ≤ n → ∀ L pre, L.Ready →
      L.cyclicMode = false → mapGet a L.cur = none →
      Fails ((Fault.alias (pre.length + (0x2A :: a).length)).crash (pre ++ (0x2A :: a ++ E)))
        (scalar n (p + 1) true false) (ld L (st k pre [] (0x2A :: a ++ E))) := by
  intro n hn L pre hL hc hm
  obtain ⟨i, rfl⟩ : ∃ i, n = i + 2 := ⟨n - 2, by omega⟩
  exact leaf_value_fail_of (alias_leaf ha).2 (alias_stuck ha hE hL hk hc hm (scalar (i + 1)) (i + 1) i (p + 1) false pre)

/-! ## Anywhere in a flow collection -/

theorem FlowStop.idEnd {W E : Bytes} (hW : AllWs W) (hE : FlowStop E) : IdEnd (W ++ E) := by
  intro c r he
  cases W with
  | nil => obtain ⟨c', r', rfl, hc⟩ := hE; simp at he; rw [← he.1]; simp at hc; rcases hc with rfl | rfl | rfl <;> decide
  | cons x W =>
    have := hW x (by simp); simp at he; rw [← he.1]
    rcases isAsciiWs_cases this with rfl | rfl | rfl | rfl | rfl <;> decide

/-- A flow node, with its properties. -/
theorem flow_node_fail {f : Flow} {W : Bytes} (hf : f.wf W) {k : Ctx} {level : Nat} {E : Bytes} (hE : FlowStop E)
    (hw2 : 0 < k.want (level + 2)) (hk : k.consumed = 0) {p₀ : Nat} {e : Env} {φ : Fault} (hφ : f.fails W p₀ e φ)
    (ih : ∀ p₀ e, f.core.fails W p₀ e φ → ∃ N, ∀ a n d, N ≤ a → N ≤ n → N ≤ d → ∀ L pre, L.Ready →
      pre.length = p₀ → envOf L k = e →
      Fails (φ.crash (pre ++ (f.core.text ++ (W ++ E)))) (scalarTerm (scalar a) n d (level + 2) true)
        (ld L (st k pre [] (f.core.text ++ (W ++ E))))) :
    ∃ N, ∀ n, N ≤ n → ∀ L pre, L.Ready → pre.length = p₀ → envOf L k = e →
      Fails (φ.crash (pre ++ (f.text ++ (W ++ E)))) (scalar n (level + 1) false true)
        (ld L (st k pre [] (f.text ++ (W ++ E)))) := by
  have hlt := Flow.first hf
  have key : ∀ p₀ e, f.core.fails W p₀ e φ → ∃ N, ∀ n, N ≤ n → ∀ L pre, L.Ready → pre.length = p₀ → envOf L k = e →
      Fails (φ.crash (pre ++ (f.core.text ++ (W ++ E)))) (scalar n (level + 1) false true)
        (ld L (st k pre [] (f.core.text ++ (W ++ E)))) := by
    intro p₀ e hφ
    obtain ⟨N, hN⟩ := ih p₀ e hφ
    refine ⟨N + 2, fun n hn L pre hL hp he => ?_⟩
    obtain ⟨i, rfl⟩ : ∃ i, n = i + 2 := ⟨n - 2, by omega⟩
    have := leaf_fail_of (lead := []) hlt (q := level + 1) (k := k) (flow := true) (.inl rfl) rfl (i := i) (L := L) (pre := pre) (E := W ++ E)
      (C := φ.crash (pre ++ (f.core.text ++ (W ++ E))))
      (by simpa using hN (i + 1) (i + 1) (i + 1) (by omega) (by omega) (by omega) L pre hL hp he)
    simpa using this
  by_cases hb : f.bare = true
  · rw [Flow.core_bare hb] at key
    exact key _ _ hφ
  · cases f with
    | prop P f =>
      simp only [Flow.core] at key hlt
      obtain ⟨k', u, w, hs, hk', N, hN⟩ := Flow.read (.prop P f) W k (level + 2) true E hf hw2 (fun _ => ⟨rfl, hE⟩)
      rw [Flow.wf] at hf
      simp only [Flow.fails] at hφ
      have hX : noProps (f.text ++ (W ++ E)) = true := by
        obtain ⟨c, r, hT, _, hc⟩ := hlt.head
        rw [hT]; exact noProps_of hc
      simp only [Flow.text, List.append_assoc]
      have hform := Form.wf.append hf.1 (W ++ E)
      rcases hφ with ⟨h1, rfl⟩ | ⟨h1, h2⟩ | ⟨h1, h2, h3, h4, rfl⟩
      · refine ⟨1, fun n hn L pre hL hp he => ?_⟩
        obtain ⟨n, rfl⟩ : ∃ a, n = a + 1 := ⟨n - 1, by omega⟩
        subst hp he
        rw [scalar]
        exact prop_stuck_handle hform h1
      · obtain ⟨N2, hN2⟩ := key _ _ h2
        refine ⟨N2 + 1, fun n hn L pre hL hp he => ?_⟩
        obtain ⟨n, rfl⟩ : ∃ a, n = a + 1 := ⟨n - 1, by omega⟩
        subst hp he
        have := hN2 (n + 1) (by omega) L (pre ++ P.text) hL (by simp) rfl
        rw [scalar] at this ⊢
        have := prop_stuck_inner hform h1 hX this
        simpa using this
      · refine ⟨N + 3, fun n hn L pre hL hp he => ?_⟩
        subst hp he
        have hbare := hf.2.1
        have hcol : f.core = f := Flow.core_bare hbare
        have hpos : k.consumed + (pre ++ P.text).length = pre.length + P.text.length := by rw [hk]; simp
        have hnode := flow_node (f := f) hf.2.2 (k := k) (level := level) hE hs (N := N) (by rw [hcol]; exact hN) hn L (pre ++ P.text) hL
          (by rw [hpos]; exact h2)
        obtain ⟨n, rfl⟩ : ∃ a, n = a + 1 := ⟨n - 1, by omega⟩
        have o1 : f.off = 0 := by cases f <;> simp_all [Flow.bare, Flow.off]
        have o2 : f.tag = [] := by cases f <;> simp_all [Flow.bare, Flow.tag]
        rw [hpos, scalar, Flow.node, o1, o2] at hnode
        simp only [Nat.add_zero] at hnode
        rw [scalar]
        obtain ⟨c, rfl, hc⟩ := prop_stuck_twice hform h1 hX hL ((Ctx.consumed_of_at hk').trans hk) h3 h4 hnode
        refine ⟨_, ⟨u.length, by rw [hs]; simp, ?_⟩, hc⟩
        simp [hs, Nat.add_assoc]
    | _ => simp [Flow.bare] at hb

/-- The value of an entry. -/
theorem FEnts.fail_value {T : Bytes} {y : Yaml} {sp : Bytes} (hT : FKeyOK T y sp) {v : Flow} {W : Bytes} (hv : v.wf W)
    {k : Ctx} {level : Nat} {rest : Bytes} (hstop : FlowStop rest) (hw : 0 < k.want level) (hk : k.consumed = 0)
    {p₀ : Nat} {e : Env} {φ : Fault} (hφ : v.fails W (p₀ + T.length + 1 + sp.length) e φ)
    (ih : ∀ k1 : Ctx, 0 < k1.want (level + 2) → k1.consumed = 0 → ∀ p₀ e, v.core.fails W p₀ e φ →
      ∃ N, ∀ a n d, N ≤ a → N ≤ n → N ≤ d → ∀ L pre, L.Ready → pre.length = p₀ → envOf L k1 = e →
      Fails (φ.crash (pre ++ (v.core.text ++ (W ++ rest)))) (scalarTerm (scalar a) n d (level + 2) true)
        (ld L (st k1 pre [] (v.core.text ++ (W ++ rest))))) :
    ∃ N, ∀ a n d c, N ≤ a → N ≤ n → N ≤ d → N ≤ c → ∀ L pre mid ws m, AllWs ws → L.Ready →
      pre.length + mid.length + ws.length = p₀ → envOf L k = e →
      Fails (φ.crash (pre ++ (mid ++ (ws ++ (T ++ (0x3A :: (sp ++ (v.text ++ (W ++ rest)))))))))
        (mapFlowLoop (scalar a) (scalarNode (scalarTerm (scalar a) n d (level + 1) true)) level c m)
        (ld L (st k pre mid (ws ++ (T ++ (0x3A :: (sp ++ (v.text ++ (W ++ rest)))))))) := by
  have hw1 : 0 < k.want (level + 1) := Nat.lt_of_lt_of_le hw (Ctx.want_mono k level)
  obtain ⟨k1, hk1, N1, hN1⟩ := FEnts.key hT (k := k) (level := level + 1) hw1 (v.text ++ (W ++ rest))
  have hk1' : k1.at level = k.at level := Ctx.at_of_at hk1 (by omega)
  have hw2 : 0 < k1.want (level + 2) :=
    Nat.lt_of_lt_of_le (by rw [Ctx.want_of_at hk1]; exact hw1) (Ctx.want_mono k1 (level + 1))
  have hcon : k1.consumed = 0 := (Ctx.consumed_of_at hk1').trans hk
  obtain ⟨N, hN⟩ := flow_node_fail hv hstop hw2 hcon hφ (ih k1 hw2 hcon)
  refine ⟨N + N1 + 1, fun a n d c ha hn hd hc L pre mid ws m hws hL hp he => ?_⟩
  obtain ⟨c, rfl⟩ : ∃ i, c = i + 1 := ⟨c - 1, by omega⟩
  have hhd : ∃ c r, v.text = c :: r ∧ tokHead c = true := by
    obtain ⟨c, r, h1, h2, _⟩ := Flow.head hv; exact ⟨c, r, h1, h2⟩
  have hread := hN a (by omega) L (pre ++ (mid ++ ws) ++ T ++ ([0x3A] ++ sp)) hL
    (by simp only [List.length_append, List.length_singleton]; omega) ((envOf_at L hk1').trans he)
  have hkey := hN1 a n d (by omega) (by omega) L (pre ++ (mid ++ ws))
  generalize hkn : Node.mk (k.consumed + (pre ++ (mid ++ ws)).length) [] y = kn at *
  rw [mapFlowLoop]
  refine .after (inv_read hws (hT.1.notWs _) ..) (.after (lift_of (forward_st ..)) ?_)
  refine .after (isOk_err (lift_of (sym_no _ _ _ _ fun r => (noClose_append hT.1 hT.2.1 _ r).2))) ?_
  simp only [Bool.false_eq_true, if_false]
  refine .after (lift_of (forward_st ..)) ?_
  rw [List.append_nil]
  refine .after (a := kn) (s' := ld L (st k1 (pre ++ (mid ++ ws) ++ T) [] (0x3A :: (sp ++ (v.text ++ (W ++ rest)))))) ?_ ?_
  · rw [bind_ok (isOk_err (lift_of (complexMapping_no _ _ hT.1)))]
    simp only [Bool.false_eq_true, if_false]
    exact orErr_ok (by simpa using hkey)
  refine .after (isOk_ok (lift_of (sym_hit ..))) ?_
  simp only [if_true]
  refine .after (flowSep_read hT.2.2.1 hhd ..) (.after (lift_of (forward_st ..)) ?_)
  have hread' : Fails (φ.crash (pre ++ (mid ++ (ws ++ (T ++ (0x3A :: (sp ++ (v.text ++ (W ++ rest)))))))))
      (scalar a (level + 1) false true) (ld L (st k1 (pre ++ (mid ++ ws) ++ T ++ ([] ++ [0x3A] ++ sp)) [] (v.text ++ (W ++ rest)))) := by
    simpa using hread
  exact (hread'.orErr _).bind _

mutual
theorem Flow.fail : ∀ (f : Flow) (W : Bytes) (k : Ctx) (level : Nat) (flow : Bool) (E : Bytes), f.wf W → 0 < k.want level →
    (f.core.isAtom = true → flow = true ∧ FlowStop E) → k.consumed = 0 →
    ∀ p₀ e φ, f.core.fails W p₀ e φ → ∃ N, ∀ a n d, N ≤ a → N ≤ n → N ≤ d → ∀ L pre, L.Ready →
      pre.length = p₀ → envOf L k = e →
      Fails (φ.crash (pre ++ (f.core.text ++ (W ++ E)))) (scalarTerm (scalar a) n d level flow)
        (ld L (st k pre [] (f.core.text ++ (W ++ E))))
  | .atom T y pc, W, k, level, flow, E, hwf, hw, hat, hk => by
    obtain ⟨rfl, hE⟩ := hat rfl
    intro p₀ e φ hφ
    simp only [Flow.core, Flow.fails] at hφ
    obtain ⟨a, ha, rfl, hc, hm, rfl⟩ := hφ
    rw [Flow.wf] at hwf
    refine ⟨1, fun b n d hb hn hd L pre hL hp he => ?_⟩
    subst hp he
    obtain ⟨d, rfl⟩ : ∃ i, d = i + 1 := ⟨d - 1, by omega⟩
    simp only [Flow.core, Flow.text]
    exact alias_stuck ha (FlowStop.idEnd hwf.2.2.1 hE) hL hk hc hm (scalar b) n d level true pre
  | .prop P f, W, k, level, flow, E, hwf, hw, hat, hk => by
    rw [Flow.wf] at hwf
    have := Flow.fail f W k level flow E hwf.2.2 hw (by rw [Flow.core_bare hwf.2.1]; exact hat) hk
    rw [Flow.core_bare hwf.2.1] at this
    exact this
  | .seq ws its, W, k, level, flow, E, hwf, hw, _, hk => by
    simp only [Flow.core]
    rw [Flow.wf] at hwf
    intro p₀ e φ hφ
    simp only [Flow.fails] at hφ
    obtain ⟨N, hN⟩ := FItems.fail its (k.at level) level (W ++ E) hwf.2.1 (by simpa using hw) (by simpa using hk) _ _ _ hφ
    refine ⟨N + 1, fun a n d ha hn hd L pre hL hp he => ?_⟩
    subst hp he
    obtain ⟨d, rfl⟩ : ∃ i, d = i + 1 := ⟨d - 1, by omega⟩
    have hl := hN a n (by omega) (by omega) L pre [0x5B] ws [] hwf.1 hL (by simp) rfl
    simp only [Flow.text, List.cons_append, List.append_assoc]
    rw [scalarTerm, scalarTermWith]
    refine .after (scalarAtom_bracket (.inl rfl) hw flow L pre _ (by omega)) ?_
    simp only
    refine Fails.orElse (Fails.orElse ?_)
    rw [seqFlow]
    refine .after (lift_of (sym_hit ..)) ?_
    rw [show ([] : Bytes) ++ [0x5B] = [0x5B] from rfl]
    refine Fails.bind ?_ _
    simpa using hl
  | .map ws es, W, k, level, flow, E, hwf, hw, _, hk => by
    simp only [Flow.core]
    rw [Flow.wf] at hwf
    intro p₀ e φ hφ
    simp only [Flow.fails] at hφ
    obtain ⟨N, hN⟩ := FEnts.fail es (k.at level) level (W ++ E) hwf.2.1 (by simpa using hw) (by simpa using hk) _ _ _ hφ
    refine ⟨N + 1, fun a n d ha hn hd L pre hL hp he => ?_⟩
    subst hp he
    obtain ⟨d, rfl⟩ : ∃ i, d = i + 1 := ⟨d - 1, by omega⟩
    have hl := hN a n d n (by omega) (by omega) (by omega) (by omega) L pre [0x7B] ws [] hwf.1 hL (by simp) rfl
    simp only [Flow.text, List.cons_append, List.append_assoc]
    rw [scalarTerm, scalarTermWith]
    refine .after (scalarAtom_bracket (.inr rfl) hw flow L pre _ (by omega)) ?_
    simp only
    refine Fails.orElse (Fails.else (s' := ld L (st (k.at level) pre [] (0x7B :: (ws ++ (es.text ++ (W ++ E)))))) ?_ ?_)
    · rw [seqFlow, bind_err (lift_of (sym_miss _ _ _ _ _ _ (by decide)))]
      simp
    · refine .after (lift_of (sym_hit ..)) ?_
      rw [show ([] : Bytes) ++ [0x7B] = [0x7B] from rfl]
      refine Fails.bind ?_ _
      simpa using hl
theorem FItems.fail : ∀ (its : FItems) (k : Ctx) (level : Nat) (E : Bytes), its.wf → 0 < k.want level → k.consumed = 0 →
    ∀ p₀ e φ, its.fails p₀ e φ → ∃ N, ∀ a c, N ≤ a → N ≤ c → ∀ L pre mid ws v, AllWs ws → L.Ready →
      pre.length + mid.length + ws.length = p₀ → envOf L k = e →
      Fails (φ.crash (pre ++ (mid ++ (ws ++ (its.text ++ E))))) (seqFlowLoop (scalar a) level c v)
        (ld L (st k pre mid (ws ++ (its.text ++ E))))
  | .nil, k, level, E, hwf, hw, hk => fun _ _ _ hφ => by simp only [FItems.fails] at hφ
  | .last f W, k, level, E, hwf, hw, hk => by
    rw [FItems.wf] at hwf
    have hw2 : 0 < k.want (level + 2) :=
      Nat.lt_of_lt_of_le hw (Nat.le_trans (Ctx.want_mono k level) (Ctx.want_mono k (level + 1)))
    have hstop : FlowStop (0x5D :: E) := ⟨_, _, rfl, by decide⟩
    intro p₀ e φ hφ
    simp only [FItems.fails] at hφ
    obtain ⟨N, hN⟩ := flow_node_fail hwf hstop hw2 hk hφ
      (fun p₀ e => Flow.fail f W k (level + 2) true (0x5D :: E) hwf hw2 (fun _ => ⟨rfl, hstop⟩) hk p₀ e φ)
    refine ⟨N + 1, fun a c ha hc L pre mid ws v hws hL hp he => ?_⟩
    obtain ⟨c, rfl⟩ : ∃ i, c = i + 1 := ⟨c - 1, by omega⟩
    have hread := hN a (by omega) L (pre ++ (mid ++ ws)) hL (by simp [← hp, Nat.add_assoc]) he
    simp only [FItems.text, List.append_assoc, List.cons_append, List.nil_append] at hread ⊢
    rw [seqFlowLoop]
    refine .after (inv_read hws (Flow.notWs hwf _) ..) (.after (lift_of (forward_st ..)) ?_)
    refine .after (isOk_err (lift_of (sym_no _ _ _ _ fun r => (Flow.noClose hwf _ r).1))) ?_
    simp only [Bool.false_eq_true, if_false]
    refine .after (lift_of (forward_st ..)) ?_
    rw [List.append_nil]
    exact (hread.orErr _).bind _
  | .cons f W ws2 rest, k, level, E, hwf, hw, hk => by
    rw [FItems.wf] at hwf
    have hW := Flow.wf_ws hwf.1
    have hw2 : 0 < k.want (level + 2) :=
      Nat.lt_of_lt_of_le hw (Nat.le_trans (Ctx.want_mono k level) (Ctx.want_mono k (level + 1)))
    have hstop : FlowStop (0x2C :: (ws2 ++ (rest.text ++ E))) := ⟨_, _, rfl, by decide⟩
    intro p₀ e φ hφ
    simp only [FItems.fails] at hφ
    simp only [FItems.text, List.append_assoc, List.cons_append]
    rcases hφ with hφ | ⟨hfine, hφ⟩
    · obtain ⟨N, hN⟩ := flow_node_fail hwf.1 hstop hw2 hk hφ
        (fun p₀ e => Flow.fail f W k (level + 2) true _ hwf.1 hw2 (fun _ => ⟨rfl, hstop⟩) hk p₀ e φ)
      refine ⟨N + 1, fun a c ha hc L pre mid ws v hws hL hp he => ?_⟩
      obtain ⟨c, rfl⟩ : ∃ i, c = i + 1 := ⟨c - 1, by omega⟩
      have hread := hN a (by omega) L (pre ++ (mid ++ ws)) hL (by simp [← hp, Nat.add_assoc]) he
      simp only [List.append_assoc] at hread
      rw [seqFlowLoop]
      refine .after (inv_read hws (Flow.notWs hwf.1 _) ..) (.after (lift_of (forward_st ..)) ?_)
      refine .after (isOk_err (lift_of (sym_no _ _ _ _ fun r => (Flow.noClose hwf.1 _ r).1))) ?_
      simp only [Bool.false_eq_true, if_false]
      refine .after (lift_of (forward_st ..)) ?_
      rw [List.append_nil]
      exact (hread.orErr _).bind _
    obtain ⟨k1, u, w, hs, hk1, N, hN⟩ := Flow.read f W k (level + 2) true _ hwf.1 hw2 (fun _ => ⟨rfl, hstop⟩)
    have hww : AllWs w := by rw [hs] at hW; exact hW.of_append.2
    have hk1' : k1.at level = k.at level := Ctx.at_of_at hk1 (by omega)
    obtain ⟨N2, hN2⟩ := FItems.fail rest k1 level E hwf.2.2 (by rw [Ctx.want_of_at hk1']; exact hw)
      ((Ctx.consumed_of_at hk1').trans hk) _ _ _ hφ
    refine ⟨N + N2 + 4, fun a c ha hc L pre mid ws v hws hL hp he => ?_⟩
    subst hp he
    obtain ⟨c, rfl⟩ : ∃ i, c = i + 1 := ⟨c - 1, by omega⟩
    have hpos : k.consumed + (pre ++ (mid ++ ws)).length = pre.length + mid.length + ws.length := by
      rw [hk]; simp [Nat.add_assoc]
    have hread := flow_node hwf.1 hstop hs hN (n := a) (by omega) L (pre ++ (mid ++ ws)) hL (by rw [hpos]; exact hfine)
    rw [hpos] at hread
    generalize hp : pre.length + mid.length + ws.length = p at *
    have hee : envOf (L.put (f.eff p (envOf L k))) k1 = { envOf L k with anchors := f.eff p (envOf L k) } :=
      envOf_put hL (Ctx.tag_of_at hk1') _
    have hlen := congrArg List.length hs
    simp only [List.length_append] at hlen
    have hp2 : (pre ++ (mid ++ ws) ++ f.text ++ u).length + (w ++ [0x2C]).length + ws2.length =
        p + f.text.length + W.length + 1 + ws2.length := by
      simp only [List.length_append, List.length_singleton]
      omega
    have hl := hN2 a c (by omega) (by omega) (L.put (f.eff p (envOf L k)))
      (pre ++ (mid ++ ws) ++ f.text ++ u) (w ++ [0x2C]) ws2 (v ++ [f.node p (envOf L k)])
      hwf.2.1 (hL.put _) hp2 hee
    rw [seqFlowLoop]
    refine .after (inv_read hws (Flow.notWs hwf.1 _) ..) (.after (lift_of (forward_st ..)) ?_)
    refine .after (isOk_err (lift_of (sym_no _ _ _ _ fun r => (Flow.noClose hwf.1 _ r).1))) ?_
    simp only [Bool.false_eq_true, if_false]
    refine .after (lift_of (forward_st ..)) ?_
    rw [List.append_nil]
    refine .after (orErr_ok hread) ?_
    have hinv := inv_read hww (post := 0x2C :: (ws2 ++ (rest.text ++ E))) (by rintro _ _ ⟨⟩; decide) k1
      (L.put (f.eff p (envOf L k))) (pre ++ (mid ++ ws) ++ f.text ++ u) []
    refine .after hinv ?_
    rw [List.nil_append]
    refine .after (isOk_ok (lift_of (sym_hit ..))) ?_
    simp only [if_true]
    simpa [hs] using hl
theorem FEnts.fail : ∀ (es : FEnts) (k : Ctx) (level : Nat) (E : Bytes), es.wf → 0 < k.want level → k.consumed = 0 →
    ∀ p₀ e φ, es.fails p₀ e φ → ∃ N, ∀ a n d c, N ≤ a → N ≤ n → N ≤ d → N ≤ c → ∀ L pre mid ws v, AllWs ws → L.Ready →
      pre.length + mid.length + ws.length = p₀ → envOf L k = e →
      Fails (φ.crash (pre ++ (mid ++ (ws ++ (es.text ++ E)))))
        (mapFlowLoop (scalar a) (scalarNode (scalarTerm (scalar a) n d (level + 1) true)) level c v)
        (ld L (st k pre mid (ws ++ (es.text ++ E))))
  | .nil, k, level, E, hwf, hw, hk => fun _ _ _ hφ => by simp only [FEnts.fails] at hφ
  | .last T y sp v W, k, level, E, hwf, hw, hk => by
    rw [FEnts.wf] at hwf
    obtain ⟨hT, hv⟩ := hwf
    have hstop : FlowStop (0x7D :: E) := ⟨_, _, rfl, by decide⟩
    intro p₀ e φ hφ
    simp only [FEnts.fails] at hφ
    obtain ⟨N, hN⟩ := FEnts.fail_value hT hv (rest := 0x7D :: E) hstop hw hk hφ
      (fun k1 hw2 hk1 p₀ e => Flow.fail v W k1 (level + 2) true (0x7D :: E) hv hw2 (fun _ => ⟨rfl, hstop⟩) hk1 p₀ e φ)
    refine ⟨N, fun a n d c ha hn hd hc L pre mid ws m hws hL hp he => ?_⟩
    simpa [FEnts.text] using hN a n d c ha hn hd hc L pre mid ws m hws hL hp he
  | .cons T y sp v ws2 rest, k, level, E, hwf, hw, hk => by
    rw [FEnts.wf] at hwf
    obtain ⟨hT, hv, hws2, hrest⟩ := hwf
    intro p₀ e φ hφ
    simp only [FEnts.fails] at hφ
    generalize hR : ws2 ++ (rest.text ++ E) = R
    have hstop : FlowStop (0x2C :: R) := ⟨_, _, rfl, by decide⟩
    have htxt : (FEnts.cons T y sp v ws2 rest).text ++ E = T ++ (0x3A :: (sp ++ (v.text ++ (0x2C :: R)))) := by
      simp [FEnts.text, ← hR]
    rw [htxt]
    rcases hφ with hφ | ⟨hfine, hφ⟩
    · obtain ⟨N, hN⟩ := FEnts.fail_value hT hv (rest := 0x2C :: R) hstop hw hk hφ
        (fun k1 hw2 hk1 p₀ e => Flow.fail v [] k1 (level + 2) true (0x2C :: R) hv hw2 (fun _ => ⟨rfl, hstop⟩) hk1 p₀ e φ)
      refine ⟨N, fun a n d c ha hn hd hc L pre mid ws m hws hL hp he => ?_⟩
      simpa using hN a n d c ha hn hd hc L pre mid ws m hws hL hp he
    have hw1 : 0 < k.want (level + 1) := Nat.lt_of_lt_of_le hw (Ctx.want_mono k level)
    obtain ⟨k1, hk1, N1, hN1⟩ := FEnts.key hT (k := k) (level := level + 1) hw1 (v.text ++ (0x2C :: R))
    have hk1' : k1.at level = k.at level := Ctx.at_of_at hk1 (by omega)
    have hw2 : 0 < k1.want (level + 2) :=
      Nat.lt_of_lt_of_le (by rw [Ctx.want_of_at hk1]; exact hw1) (Ctx.want_mono k1 (level + 1))
    obtain ⟨k2, u, w, hs, hk2, N2, hN2⟩ := Flow.read v [] k1 (level + 2) true _ hv hw2 (fun _ => ⟨rfl, hstop⟩)
    obtain ⟨rfl, rfl⟩ := List.append_eq_nil_iff.1 hs.symm
    have hk2' : k2.at level = k.at level := (Ctx.at_of_at hk2 (by omega)).trans hk1'
    obtain ⟨N3, hN3⟩ := FEnts.fail rest k2 level E hrest (by rw [Ctx.want_of_at hk2']; exact hw)
      ((Ctx.consumed_of_at hk2').trans hk) _ _ _ hφ
    refine ⟨N1 + N2 + N3 + 4, fun a n d c ha hn hd hc L pre mid ws m hws hL hp he => ?_⟩
    subst hp he
    have hee := envOf_at L hk1'
    obtain ⟨c, rfl⟩ : ∃ i, c = i + 1 := ⟨c - 1, by omega⟩
    have hhd : ∃ c r, v.text = c :: r ∧ tokHead c = true := by
      obtain ⟨c, r, h1, h2, _⟩ := Flow.head hv; exact ⟨c, r, h1, h2⟩
    have hpos : k1.consumed + (pre ++ (mid ++ ws) ++ T ++ ([0x3A] ++ sp)).length =
        pre.length + mid.length + ws.length + T.length + 1 + sp.length := by
      rw [Ctx.consumed_of_at hk1', hk]
      simp only [List.length_append, List.length_singleton]
      omega
    have hkey := hN1 a n d (by omega) (by omega) L (pre ++ (mid ++ ws))
    have hread := flow_node hv hstop rfl hN2 (n := a) (by omega) L (pre ++ (mid ++ ws) ++ T ++ ([0x3A] ++ sp)) hL
      (by rw [hee, hpos]; exact hfine)
    simp only [List.nil_append, List.append_nil] at hread
    rw [hpos, hee] at hread
    generalize hp : pre.length + mid.length + ws.length = p at *
    generalize hA : v.eff (p + T.length + 1 + sp.length) (envOf L k) = A at *
    have hee2 : envOf (L.put A) k2 = { envOf L k with anchors := A } := envOf_put hL (Ctx.tag_of_at hk2') _
    have hp2 : (pre ++ (mid ++ ws) ++ T ++ ([0x3A] ++ sp) ++ v.text).length + ([0x2C] : Bytes).length + ws2.length =
        p + T.length + 1 + sp.length + v.text.length + 1 + ws2.length := by
      simp only [List.length_append, List.length_singleton]
      omega
    generalize hkn : Node.mk (k.consumed + (pre ++ (mid ++ ws)).length) [] y = kn at *
    have hl := hN3 a n d c (by omega) (by omega) (by omega) (by omega) (L.put A)
      (pre ++ (mid ++ ws) ++ T ++ ([0x3A] ++ sp) ++ v.text) [0x2C] ws2
      (m ++ [(kn, v.node (p + T.length + 1 + sp.length) (envOf L k))]) hws2 (hL.put _) hp2 hee2
    rw [hR] at hl
    simp only [List.append_assoc] at hkey
    rw [mapFlowLoop]
    refine .after (inv_read hws (hT.1.notWs _) ..) (.after (lift_of (forward_st ..)) ?_)
    refine .after (isOk_err (lift_of (sym_no _ _ _ _ fun r => (noClose_append hT.1 hT.2.1 _ r).2))) ?_
    simp only [Bool.false_eq_true, if_false]
    refine .after (lift_of (forward_st ..)) ?_
    rw [List.append_nil]
    refine .after (a := kn) (s' := ld L (st k1 (pre ++ (mid ++ ws) ++ T) [] (0x3A :: (sp ++ (v.text ++ 0x2C :: R))))) ?_ ?_
    · rw [bind_ok (isOk_err (lift_of (complexMapping_no _ _ hT.1)))]
      simp only [Bool.false_eq_true, if_false]
      exact orErr_ok (by simpa using hkey)
    refine .after (isOk_ok (lift_of (sym_hit ..))) ?_
    simp only [if_true]
    refine .after (flowSep_read hT.2.2.1 hhd ..) (.after (lift_of (forward_st ..)) ?_)
    refine .after (orErr_ok (by simpa using hread)) ?_
    refine .after (isOk_ok (lift_of (sym_hit ..))) ?_
    simp only [if_true, List.nil_append]
    simpa using hl
end

theorem Stops.idEnd {σ : Nat} {d : Bool} {E : Bytes} (h : Stops σ d E) : IdEnd E := by
  intro c r he
  have h1 := h.head c r he
  by_cases hi : idByte c = true
  · have := byte_forall (P := fun x => !(idByte x) || tokHead x) (by decide +kernel) c
    simp [hi, h1] at this
  · simpa using hi

mutual
theorem Blk.failN : ∀ (b : Blk) (q σ : Nat) (k : Ctx) (E : Bytes), b.wfN σ → k.want q = σ →
    (b.inner ≠ [] ∨ k.indent.length ≤ q + 1 ∨ (b.short ∧ σ < k.want (q + 1))) → Fits b.kind E → Stops σ false E → k.consumed = 0 →
    ∀ p₀ e φ, b.fails p₀ e φ → ∃ N, ∀ n, N ≤ n → ∀ L pre, L.Ready → pre.length = p₀ → envOf L k = e →
      Fails (φ.crash (pre ++ (b.text ++ E))) (scalar n q false false) (ld L (st k pre [] (b.text ++ E)))
  | .leaf lead T κ y pc, q, σ, k, E, hwf, hw, hlen, hf, hs, hk => by
    rw [Blk.wfN] at hwf
    intro p e φ hφ
    simp only [Blk.fails] at hφ
    rcases hφ with ⟨a, ha, rfl, hc, hm, rfl⟩ | ⟨f, hf1, hf2, rfl, hφ⟩
    · refine ⟨3, fun n hn L pre hL hp he => ?_⟩
      subst hp he
      replace hwf := hwf.resolve_right (by simp [EmptyLeaf])
      simp only [Blk.text, List.append_assoc]
      simpa [Nat.add_assoc] using leaf_fail ha hs.idEnd hwf.1 hw hk n hn L pre hL hc hm
    · have hbare := Flow.core_of_coll hf2
      have hft := Flow.first hf1
      rw [hbare] at hft
      replace hwf := hwf.resolve_right (by
        rintro ⟨⟨_, h, _⟩, _⟩; obtain ⟨c, r, hc, _⟩ := hft; rw [h] at hc; simp at hc)
      have hcon : (if lead = [] then k else k.at q).consumed = 0 := by split <;> simpa using hk
      have hpos : 0 < (if lead = [] then k else k.at q).want (q + 1) := by
        simp only [Blk.inner, Blk.lead] at hlen
        split
        · rename_i h
          rcases hlen with h' | h' | h'
          · exact absurd h h'
          · rw [Ctx.want_succ _ _ h']; omega
          · omega
        · rw [Ctx.want_succ _ _ (by simp)]; omega
      obtain ⟨N, hN⟩ := Flow.fail f [] (if lead = [] then k else k.at q) (q + 1) false E hf1 hpos (by simp [hbare, hf2]) hcon _ _ _ (by rw [hbare]; exact hφ)
      refine ⟨N + 3, fun n hn L pre hL hp he => ?_⟩
      subst hp he
      obtain ⟨i, rfl⟩ : ∃ i, n = i + 2 := ⟨n - 2, by omega⟩
      simp only [Blk.text, List.append_assoc]
      refine leaf_fail_of hft hwf.1 hw ?_
      have henv : envOf L (if lead = [] then k else k.at q) = envOf L k := by split <;> rfl
      rw [hbare] at hN
      have := hN (i + 1) (i + 1) (i + 1) (by omega) (by omega) (by omega) L (pre ++ lead) hL (by simp) henv
      simpa using this
  | .lit T τ s, q, σ, k, E, hwf, hw, hlen, hf, hs, hk =>
    fun _ _ _ hφ => by simp only [Blk.fails] at hφ
  | .cmap lead τ es, q, σ, k, E, hwf, hw, hlen, hf, hs, hk =>
    fun _ _ _ hφ => by simp only [Blk.fails] at hφ
  | .seq lead τ its, q, σ, k, E, hwf, hw, hlen, hf, hs, hk => by
    rw [Blk.wfN] at hwf
    obtain ⟨hl, rfl, hi⟩ := hwf
    rw [Blk.kind] at hf
    simp only [Blk.inner, Blk.lead] at hlen
    generalize hk1 : (if lead = [] then k else k.at q) = k1
    have hk1at : k1.at q = k.at q := by subst hk1; split <;> simp
    have hlen1 : k1.indent.length ≤ q + 1 := by
      subst hk1; split
      · rcases hlen with h | h | h
        · rename_i h'; exact absurd h' h
        · exact h
        · exact absurd h.1 (by simp [Blk.short])
      · simp
    have hw1 : k1.want q = τ := by rw [Ctx.want_of_at hk1at, hw]
    have hcon : k1.consumed = 0 := (Ctx.consumed_of_at hk1at).trans hk
    intro p₀ e φ hφ
    simp only [Blk.fails] at hφ
    obtain ⟨N, hN⟩ := Items.fail its τ q k1 E false hi hw1 hlen1 hf hs hcon _ _ _ hφ
    have hsep := Items.sepOK hi hf
    refine ⟨N + 3, fun n hn L pre hL hp he => ?_⟩
    subst hp he
    obtain ⟨a, rfl⟩ : ∃ a, n = a + 2 := ⟨n - 2, by omega⟩
    have htxt : (Blk.seq lead τ its).text ++ E = lead ++ 0x2D :: (its.sp ++ (its.body τ ++ E)) := by
      simp [Blk.text]
    obtain ⟨c', r', hce, hc'⟩ := hl.head (r := its.sp ++ (its.body τ ++ E)) (c := 0x2D) (by simp [plainHead])
    have hfi : firstItem q false (ld L (st k pre [] (lead ++ 0x2D :: (its.sp ++ (its.body τ ++ E))))) =
        (.ok (), ld L (st k1 pre lead (0x2D :: (its.sp ++ (its.body τ ++ E))))) := by
      rcases hl with rfl | ⟨G, hG, rfl⟩
      · simp only [if_true] at hk1
        subst hk1
        exact firstItem_inline _ _ _ _ (by decide) q
      · obtain ⟨x, s, rfl, hx⟩ := hG.head
        have := firstItem_gap k L pre [] hG hw (c := 0x2D) (r := its.sp ++ (its.body τ ++ E)) (by decide)
        simp only [List.cons_append, List.cons_ne_nil, if_false] at hk1
        rw [hk1] at this
        simpa using this
    have hpos : (pre ++ (lead ++ [0x2D] ++ its.sp)).length = pre.length + lead.length + 1 + its.sp.length := by
      simp; omega
    have hdoc : pre ++ ((lead ++ [0x2D] ++ its.sp) ++ (its.body τ ++ E)) =
        pre ++ (lead ++ 0x2D :: (its.sp ++ (its.body τ ++ E))) := by simp
    have hgo := hN (a + 1) a (by omega) (by omega) L pre (lead ++ [0x2D] ++ its.sp) [] false hL hpos
      (envOf_ctx L (Ctx.tag_of_at hk1at))
    rw [hdoc] at hgo
    rw [scalar, htxt]
    refine scalarNode_stuck (by rw [hce]; exact noProps_of hc') ?_
    rw [Fails, hce, scalarBody_skip _ _ _ hc', ← hce]
    refine Fails.orElse (Fails.orElse ?_)
    rw [seq]
    refine Fails.bind ?_ _
    rw [seqLoop]
    refine .after (lift_of (forward_st ..)) (.after (a := false)
      (s' := ld L (st k1 pre (lead ++ [0x2D] ++ its.sp) (its.body τ ++ E))) ?_ ?_)
    · simp only [List.isEmpty_nil, if_true, List.append_nil]
      rw [bind_ok hfi, bind_ok (lift_of (sym_hit ..)), bind_ok (lift_of (bound_sep _ _ _ hsep))]
      rfl
    · simp only [Bool.false_eq_true, if_false]
      rw [seqGo] at hgo
      exact hgo
  | .map lead τ es, q, σ, k, E, hwf, hw, hlen, hf, hs, hk => by
    rw [Blk.wfN] at hwf
    obtain ⟨hl, rfl, hi, hgood⟩ := hwf
    rw [Blk.kind] at hf
    simp only [Blk.inner, Blk.lead] at hlen
    generalize hk1 : (if lead = [] then k else k.at q) = k1
    have hk1at : k1.at q = k.at q := by subst hk1; split <;> simp
    have hlen1 : k1.indent.length ≤ q + 1 := by
      subst hk1; split
      · rcases hlen with h | h | h
        · rename_i h'; exact absurd h' h
        · exact h
        · exact absurd h.1 (by simp [Blk.short])
      · simp
    have hw1 : k1.want q = τ := by rw [Ctx.want_of_at hk1at, hw]
    have hcon : k1.consumed = 0 := (Ctx.consumed_of_at hk1at).trans hk
    have hsep := Ents.sepOK hi hf
    have hkt := (Ents.keyOK hi).1
    obtain ⟨k2, hk2, N1, hN1⟩ := key_read hi k1 q hf (by rw [Ctx.want_succ _ _ hlen1]; omega)
    have hk2at : k2.at q = k1.at q := Ctx.at_of_at hk2 (Nat.le_succ _)
    have hk2w : k2.want (q + 1) = τ + 2 := by
      rw [Ctx.want_of_at hk2, Ctx.want_succ _ _ hlen1, hw1]
    have hcon2 : k2.consumed = 0 := (Ctx.consumed_of_at hk2at).trans hcon
    intro p₀ e φ hφ
    simp only [Blk.fails] at hφ
    obtain ⟨N, hN⟩ := Ents.fail es τ q k2 E hi
      ((Ctx.want_of_at hk2at).trans hw1) hk2w hf hs hcon2 _ _ _ hφ
    refine ⟨N + N1 + 3, fun n hn L pre hL hp he => ?_⟩
    subst hp he
    obtain ⟨a, rfl⟩ : ∃ a, n = a + 2 := ⟨n - 2, by omega⟩
    have htxt : (Blk.map lead τ es).text ++ E = lead ++ (es.T ++ 0x3A :: (es.sp ++ es.body τ) ++ E) := by
      simp [Blk.text]
    obtain ⟨c, u, hTe, h1, h2⟩ := hkt.2.head
    obtain ⟨c', r', hce, hc'⟩ := hl.head (r := u ++ 0x3A :: (es.sp ++ es.body τ) ++ E) h2
    have hce' : lead ++ (es.T ++ 0x3A :: (es.sp ++ es.body τ) ++ E) = c' :: r' := by
      rw [hTe]; simpa using hce
    have hfi : ∀ pre, firstItem q false (ld L (st k1 pre [] (lead ++ (es.T ++ 0x3A :: (es.sp ++ es.body τ) ++ E)))) =
        (.ok (), ld L (st k1 pre lead (es.T ++ 0x3A :: (es.sp ++ es.body τ) ++ E))) := by
      intro pre
      rcases hl with rfl | ⟨G, hG, rfl⟩
      · rw [hTe]
        exact firstItem_inline _ _ _ _ h1 q
      · obtain ⟨x, s, rfl, hx⟩ := hG.head
        have := firstItem_gap k1 L pre [] hG hw1 (r := u ++ 0x3A :: (es.sp ++ es.body τ) ++ E) h1
        have e : k1.at q = k1 := by subst hk1; simp
        rw [e] at this
        rw [hTe]
        simpa using this
    generalize hkn : (Node.mk (pre.length + lead.length) [] es.y) = kn
    have hpos : (pre ++ lead ++ es.T ++ 0x3A :: es.sp).length =
        pre.length + lead.length + es.T.length + 1 + es.sp.length := by
      simp; omega
    have hdoc : pre ++ lead ++ es.T ++ (0x3A :: es.sp ++ (es.body τ ++ E)) =
        pre ++ (lead ++ (es.T ++ 0x3A :: (es.sp ++ es.body τ) ++ E)) := by simp
    have hgo := hN (a + 1) (a + 1) a (by omega) (by omega) (by omega) L (pre ++ lead ++ es.T)
      (0x3A :: es.sp) [] kn false hL hpos (envOf_ctx L (Ctx.tag_of_at (hk2at.trans hk1at)))
    rw [hdoc] at hgo
    rw [scalar, htxt]
    refine scalarNode_stuck (by rw [hce']; exact noProps_of hc') ?_
    rw [Fails, hce', scalarBody_skip _ _ _ hc', ← hce']
    have hsn : seq (scalar (a + 1)) (a + 1) q false
        (ld L (st k pre [] (lead ++ (es.T ++ 0x3A :: (es.sp ++ es.body τ) ++ E)))) =
        (.err .mismatch, ld L (st k1 pre [] (lead ++ (es.T ++ 0x3A :: (es.sp ++ es.body τ) ++ E)))) := by
      rw [List.append_assoc es.T, ← hk1]; exact seq_no _ _ _ hkt.2.keyHead hl hw _ _
    refine Fails.orElse (Fails.else hsn ?_)
    rw [YamlPeg.map, mapLoop]
    refine .after (a := MapStep.key kn) (s' := ld L (st k2 (pre ++ lead ++ es.T) (0x3A :: es.sp) (es.body τ ++ E))) ?_ ?_
    · rw [mapStep, bind_ok (lift_of (forward_st ..))]
      simp only [List.isEmpty_nil, if_true, List.append_nil]
      have hkey : (do
          if ← isOk (lift complexMapping) then complexKey (scalar (a + 1)) q true false "map key"
          else scalarFlow (scalar (a + 1)) (a + 1) (q + 1) false : LM Node)
          (ld L (st k1 (pre ++ lead) [] (es.T ++ 0x3A :: (es.sp ++ es.body τ) ++ E))) =
          (.ok kn, ld L (st k2 (pre ++ lead ++ es.T) [] (0x3A :: (es.sp ++ (es.body τ ++ E))))) := by
        rw [bind_ok (isOk_err (lift_of (by
          rw [List.append_assoc]; exact complexMapping_no _ _ hkt.2)))]
        simp only [Bool.false_eq_true, if_false]
        rw [← List.append_assoc, hN1 (a + 1) (a + 1) (by omega) (by omega) L (pre ++ lead) hL, ← hkn, hcon]
        simp
      rw [bind_ok (hfi _), bind_ok (lift_of (forward_st ..)), bind_ok hkey]
      rw [bind_ok (colonBound_yes _ _ _ hsep)]
      rfl
    · simp only
      rw [mapGo] at hgo
      exact hgo
  | .prop f b, q, σ, k, E, hwf, hw, hlen, hf, hs, hk => by
    rw [Blk.wfN] at hwf
    obtain ⟨hform, hbare, hb⟩ := hwf
    rw [Blk.kind] at hf
    simp only [Blk.inner] at hlen
    obtain ⟨k', hk', _, N, hN⟩ := Blk.readN b q σ k E hb hw (by
      rw [Blk.inner_bare hbare]; simpa only [Blk.short] using hlen) hf hs
    intro p₀ e φ hφ
    simp only [Blk.fails] at hφ
    have hX : noProps (b.text ++ E) = true := Blk.noPropsN hb hbare hf
    simp only [Blk.text, List.append_assoc]
    rcases hφ with ⟨h1, rfl⟩ | ⟨h1, h2⟩ | ⟨h1, h2, h3, h4, rfl⟩
    · refine ⟨1, fun n hn L pre hL hp he => ?_⟩
      obtain ⟨n, rfl⟩ : ∃ a, n = a + 1 := ⟨n - 1, by omega⟩
      subst hp he
      rw [scalar]
      exact prop_stuck_handle (hform.append E) h1
    · obtain ⟨N2, hN2⟩ := Blk.failN b q σ k E hb hw (by
        rw [Blk.inner_bare hbare]; simpa only [Blk.short] using hlen) hf hs hk _ _ _ h2
      refine ⟨N2 + 1, fun n hn L pre hL hp he => ?_⟩
      obtain ⟨n, rfl⟩ : ∃ a, n = a + 1 := ⟨n - 1, by omega⟩
      subst hp he
      have := hN2 (n + 1) (by omega) L (pre ++ f.text) hL (by simp) rfl
      rw [scalar] at this ⊢
      have := prop_stuck_inner (hform.append E) h1 hX this
      simpa using this
    · refine ⟨N + 1, fun n hn L pre hL hp he => ?_⟩
      obtain ⟨n, rfl⟩ : ∃ a, n = a + 1 := ⟨n - 1, by omega⟩
      subst hp he
      have hpos : k.consumed + (pre ++ f.text).length = pre.length + f.text.length := by rw [hk]; simp
      have := hN (n + 1) (by omega) L (pre ++ f.text) hL (by rw [hpos]; exact h2)
      rw [hpos, scalar, Blk.node, Blk.off_bare hbare, Blk.tag_bare hbare] at this
      simp only [Nat.add_zero] at this
      rw [scalar]
      obtain ⟨c, rfl, hc⟩ := prop_stuck_twice (hform.append E) h1 hX hL ((Ctx.consumed_of_at hk').trans hk) h3 h4 this
      exact ⟨_, ⟨0, Nat.le_refl _, by simp [Nat.add_assoc]⟩, hc⟩

theorem Blk.failV : ∀ (b : Blk) (p σ : Nat) (k : Ctx) (E : Bytes), b.wfV σ → k.want p = σ →
    k.want (p + 1) = σ + 2 → Fits b.kind E → Stops σ true E → (b.deep σ ∨ Stops σ false E) → k.consumed = 0 →
    ∀ p₀ e φ, b.fails p₀ e φ → ∃ N, ∀ n, N ≤ n → ∀ L pre, L.Ready → pre.length = p₀ → envOf L k = e →
      Fails (φ.crash (pre ++ (b.text ++ E))) (scalar n (p + 1) true false) (ld L (st k pre [] (b.text ++ E)))
  | .leaf lead T κ y pc, p, σ, k, E, hwf, hw, hw2, hf, hs, hd, hk => by
    rw [Blk.wfV] at hwf
    intro p₀ e φ hφ
    simp only [Blk.fails] at hφ
    rcases hφ with ⟨a, ha, rfl, hc, hm, rfl⟩ | ⟨f, hf1, hf2, rfl, hφ⟩
    · obtain ⟨rfl, hT⟩ := hwf.resolve_right (by simp [EmptyLeaf])
      refine ⟨3, fun n hn L pre hL hp he => ?_⟩
      subst hp he
      simp only [Blk.text, List.nil_append]
      exact leaf_value_fail ha hs.idEnd hk n hn L pre hL hc hm
    · have hbare := Flow.core_of_coll hf2
      have hft := Flow.first hf1
      rw [hbare] at hft
      obtain ⟨rfl, _⟩ := hwf.resolve_right (by
        rintro ⟨⟨_, h, _⟩, _⟩; obtain ⟨c, r, hc, _⟩ := hft; rw [h] at hc; simp at hc)
      obtain ⟨N, hN⟩ := Flow.fail f [] k (p + 1) false E hf1 (by omega) (by simp [hbare, hf2]) hk _ _ _ (by rw [hbare]; exact hφ)
      refine ⟨N + 3, fun n hn L pre hL hp he => ?_⟩
      subst hp he
      obtain ⟨i, rfl⟩ : ∃ i, n = i + 2 := ⟨n - 2, by omega⟩
      simp only [Blk.text, List.nil_append]
      refine leaf_value_fail_of hft ?_
      rw [hbare] at hN
      have := hN (i + 1) (i + 1) (i + 1) (by omega) (by omega) (by omega) L pre hL (by simp) rfl
      simpa using this
  | .lit T τ s, p, σ, k, E, hwf, hw, hw2, hf, hs, hd, hk =>
    fun _ _ _ hφ => by simp only [Blk.fails] at hφ
  | .cmap lead τ es, p, σ, k, E, hwf, hw, hw2, hf, hs, hd, hk =>
    fun _ _ _ hφ => by simp only [Blk.fails] at hφ
  | .seq lead τ its, p, σ, k, E, hwf, hw, hw2, hf, hs, hd, hk => by
    rw [Blk.wfV] at hwf
    obtain ⟨⟨G, hG, rfl⟩, hle, hi⟩ := hwf
    obtain ⟨w, rfl⟩ : ∃ w, τ = σ + w := ⟨τ - σ, by omega⟩
    rw [Blk.kind] at hf
    generalize hk1 : k.push p w = k1
    have hk1at : k1.at p = k.at p := by subst hk1; exact Ctx.push_at ..
    have hlen1 : k1.indent.length ≤ (p + 1) + 1 := by subst hk1; simp
    have hw1 : k1.want (p + 1) = σ + w := by subst hk1; rw [Ctx.push_want, hw]
    have hcon : k1.consumed = 0 := (Ctx.consumed_of_at hk1at).trans hk
    have hs' : Stops (σ + w) true E := by
      by_cases h : w = 0
      · subst h; exact hs
      · exact (Stops.mono hs (by omega)).to_dash true
    intro p₀ e φ hφ
    simp only [Blk.fails] at hφ
    obtain ⟨N, hN⟩ := Items.fail its (σ + w) (p + 1) k1 E true hi hw1 hlen1 hf hs' hcon _ _ _ hφ
    have hsep := Items.sepOK hi hf
    refine ⟨N + 3, fun n hn L pre hL hp he => ?_⟩
    subst hp he
    obtain ⟨a, rfl⟩ : ∃ a, n = a + 2 := ⟨n - 2, by omega⟩
    have htxt : (Blk.seq (G ++ spaces (σ + w)) (σ + w) its).text ++ E =
        G ++ (spaces (σ + w) ++ 0x2D :: (its.sp ++ (its.body (σ + w) ++ E))) := by
      simp [Blk.text]
    obtain ⟨c', g', hGe, hc'⟩ := hG.head
    have hc' := plainHead_of_not_tok hc'
    have hfi : firstItem (p + 1) true (ld L (st k pre []
        (G ++ (spaces (σ + w) ++ 0x2D :: (its.sp ++ (its.body (σ + w) ++ E)))))) =
        (.ok (), ld L (st k1 pre (G ++ spaces (σ + w)) (0x2D :: (its.sp ++ (its.body (σ + w) ++ E))))) := by
      have := firstItem_value k L pre [] hG (p := p) (w := w) (c := 0x2D)
        (r := its.sp ++ (its.body (σ + w) ++ E)) (by decide)
      rw [hw, hk1] at this
      simpa using this
    have hpos : (pre ++ (G ++ spaces (σ + w) ++ [0x2D] ++ its.sp)).length =
        pre.length + (G ++ spaces (σ + w)).length + 1 + its.sp.length := by
      simp; omega
    have hdoc : pre ++ ((G ++ spaces (σ + w) ++ [0x2D] ++ its.sp) ++ (its.body (σ + w) ++ E)) =
        pre ++ (G ++ (spaces (σ + w) ++ 0x2D :: (its.sp ++ (its.body (σ + w) ++ E)))) := by simp
    have hgo := hN (a + 1) a (by omega) (by omega) L pre (G ++ spaces (σ + w) ++ [0x2D] ++ its.sp) [] true hL hpos
      (envOf_ctx L (Ctx.tag_of_at hk1at))
    rw [hdoc] at hgo
    have hce : G ++ (spaces (σ + w) ++ 0x2D :: (its.sp ++ (its.body (σ + w) ++ E))) =
        c' :: (g' ++ (spaces (σ + w) ++ 0x2D :: (its.sp ++ (its.body (σ + w) ++ E)))) := by
      rw [hGe]; rfl
    rw [scalar, htxt]
    refine scalarNode_stuck (by rw [hce]; exact noProps_of hc') ?_
    rw [Fails, hce, scalarBody_skip _ _ _ hc', ← hce]
    refine Fails.orElse (Fails.orElse ?_)
    rw [seq]
    refine Fails.bind ?_ _
    rw [seqLoop]
    refine .after (lift_of (forward_st ..)) (.after (a := false)
      (s' := ld L (st k1 pre (G ++ spaces (σ + w) ++ [0x2D] ++ its.sp) (its.body (σ + w) ++ E))) ?_ ?_)
    · simp only [List.isEmpty_nil, if_true, List.append_nil]
      rw [bind_ok hfi, bind_ok (lift_of (sym_hit ..)), bind_ok (lift_of (bound_sep _ _ _ hsep))]
      rfl
    · simp only [Bool.false_eq_true, if_false]
      rw [seqGo] at hgo
      exact hgo
  | .map lead τ es, p, σ, k, E, hwf, hw, hw2, hf, hs, hd, hk => by
    rw [Blk.wfV] at hwf
    obtain ⟨⟨G, hG, rfl⟩, hle, hi, hgood⟩ := hwf
    obtain ⟨w, rfl⟩ : ∃ w, τ = σ + w := ⟨τ - σ, by omega⟩
    rw [Blk.kind] at hf
    generalize hk1 : k.push p w = k1
    have hk1at : k1.at p = k.at p := by subst hk1; exact Ctx.push_at ..
    have hlen1 : k1.indent.length ≤ (p + 1) + 1 := by subst hk1; simp
    have hw1 : k1.want (p + 1) = σ + w := by subst hk1; rw [Ctx.push_want, hw]
    have hk1w : k1.want p = σ := by rw [Ctx.want_of_at hk1at, hw]
    have hcon : k1.consumed = 0 := (Ctx.consumed_of_at hk1at).trans hk
    have hs' : Stops (σ + w) false E := by
      by_cases h : w = 0
      · subst h
        simp only [Blk.deep] at hd
        exact hd.resolve_left (by omega)
      · exact Stops.mono hs (by omega)
    have hsep := Ents.sepOK hi hf
    have hkt := (Ents.keyOK hi).1
    obtain ⟨k2, hk2, N1, hN1⟩ := key_read hi k1 (p + 1) hf (by rw [Ctx.want_succ _ _ hlen1]; omega)
    have hk2at : k2.at (p + 1) = k1.at (p + 1) := Ctx.at_of_at hk2 (Nat.le_succ _)
    have hk2w : k2.want (p + 1 + 1) = σ + w + 2 := by
      rw [Ctx.want_of_at hk2, Ctx.want_succ _ _ hlen1, hw1]
    have hcon2 : k2.consumed = 0 := (Ctx.consumed_of_at hk2at).trans hcon
    intro p₀ e φ hφ
    simp only [Blk.fails] at hφ
    obtain ⟨N, hN⟩ := Ents.fail es (σ + w) (p + 1) k2 E hi
      ((Ctx.want_of_at hk2at).trans hw1) hk2w hf hs' hcon2 _ _ _ hφ
    refine ⟨N + N1 + 3, fun n hn L pre hL hp he => ?_⟩
    subst hp he
    obtain ⟨a, rfl⟩ : ∃ a, n = a + 2 := ⟨n - 2, by omega⟩
    generalize hτ : σ + w = τ at *
    generalize htl : es.T ++ 0x3A :: (es.sp ++ es.body τ) ++ E = tl at *
    have htxt : (Blk.map (G ++ spaces τ) τ es).text ++ E = G ++ (spaces τ ++ tl) := by
      simp [Blk.text, ← htl]
    obtain ⟨c, u, hTe, h1, h2⟩ := hkt.2.head
    obtain ⟨c', g', hGe, hc'⟩ := hG.head
    have hc' := plainHead_of_not_tok hc'
    have hce : G ++ (spaces τ ++ tl) = c' :: (g' ++ (spaces τ ++ tl)) := by rw [hGe]; rfl
    have htle : tl = c :: (u ++ 0x3A :: (es.sp ++ es.body τ) ++ E) := by
      rw [← htl, hTe]; rfl
    have hfi : ∀ k0 : Ctx, k0.want p = σ → k0.push p w = k1 → ∀ pre,
        firstItem (p + 1) true (ld L (st k0 pre [] (G ++ (spaces τ ++ tl)))) =
        (.ok (), ld L (st k1 pre (G ++ spaces τ) tl)) := by
      intro k0 h0 h0' pre
      have := firstItem_value k0 L pre [] hG (p := p) (w := w) (c := c)
        (r := u ++ 0x3A :: (es.sp ++ es.body τ) ++ E) h1
      rw [h0, h0', hτ] at this
      rw [htle]
      simpa using this
    have hseq : seq (scalar (a + 1)) (a + 1) (p + 1) true (ld L (st k pre [] (G ++ (spaces τ ++ tl)))) =
        (.err .mismatch, ld L (st k1 pre [] (G ++ (spaces τ ++ tl)))) := by
      rw [seq, bind_err]
      rw [seqLoop, bind_ok (lift_of (forward_st ..)), bind_err]
      simp only [List.isEmpty_nil, if_true, List.append_nil]
      rw [bind_ok (hfi k hw hk1 pre)]
      have hdash : ∃ c' r', tl = c' :: r' ∧ (c' = 0x2D → headIn b!":{}[] ,\n\r" r' = false) := by
        obtain ⟨c2, r2, hT2, _, _, h3⟩ := hkt.2
        refine ⟨c2, r2 ++ 0x3A :: (es.sp ++ es.body τ) ++ E, ?_, ?_⟩
        · rw [← htl, hT2]; rfl
        · intro hc
          obtain ⟨x, s, rfl, hx⟩ := h3 (.inl hc)
          simp only [List.cons_append, headIn]
          simpa using hx
      rcases dash_no k1 pre (G ++ spaces τ) hdash with ⟨s, hs, rfl⟩ | ⟨r', hr, hs, hb⟩
      · rw [bind_err (lift_of hs), List.append_assoc]
      · rw [bind_ok (lift_of hs), bind_err (lift_of hb), List.append_assoc]
    generalize hkn : (Node.mk (pre.length + (G ++ spaces τ).length) [] es.y) = kn
    have hpos : (pre ++ (G ++ spaces τ) ++ es.T ++ 0x3A :: es.sp).length =
        pre.length + (G ++ spaces τ).length + es.T.length + 1 + es.sp.length := by
      simp; omega
    have hdoc : pre ++ (G ++ spaces τ) ++ es.T ++ (0x3A :: es.sp ++ (es.body τ ++ E)) =
        pre ++ (G ++ (spaces τ ++ tl)) := by rw [← htl]; simp
    have hgo := hN (a + 1) (a + 1) a (by omega) (by omega) (by omega) L (pre ++ (G ++ spaces τ) ++ es.T)
      (0x3A :: es.sp) [] kn true hL hpos
        (envOf_ctx L (Ctx.tag_of_at (Ctx.at_of_at hk2at (Nat.le_succ p) |>.trans hk1at)))
    rw [hdoc] at hgo
    rw [scalar, htxt]
    refine scalarNode_stuck (by rw [hce]; exact noProps_of hc') ?_
    rw [Fails, hce, scalarBody_skip _ _ _ hc', ← hce]
    refine Fails.orElse (Fails.else hseq ?_)
    rw [YamlPeg.map, mapLoop]
    refine .after (a := MapStep.key kn)
      (s' := ld L (st k2 (pre ++ (G ++ spaces τ) ++ es.T) (0x3A :: es.sp) (es.body τ ++ E))) ?_ ?_
    · rw [mapStep, bind_ok (lift_of (forward_st ..))]
      simp only [List.isEmpty_nil, if_true, List.append_nil]
      have hkey : (do
          if ← isOk (lift complexMapping) then complexKey (scalar (a + 1)) (p + 1) true false "map key"
          else scalarFlow (scalar (a + 1)) (a + 1) (p + 1 + 1) false : LM Node)
          (ld L (st k1 (pre ++ (G ++ spaces τ)) [] tl)) =
          (.ok kn, ld L (st k2 (pre ++ (G ++ spaces τ) ++ es.T) []
            (0x3A :: (es.sp ++ (es.body τ ++ E))))) := by
        have hcm : complexMapping (st k1 (pre ++ (G ++ spaces τ)) [] tl) =
            (.err .mismatch, st k1 (pre ++ (G ++ spaces τ)) [] tl) := by
          rw [← htl, List.append_assoc es.T]; exact complexMapping_no _ _ hkt.2
        rw [bind_ok (isOk_err (lift_of hcm))]
        simp only [Bool.false_eq_true, if_false]
        rw [hN1 (a + 1) (a + 1) (by omega) (by omega) L (pre ++ (G ++ spaces τ)) hL,
          ← hkn, hcon]
        simp
      rw [bind_ok (hfi k1 hk1w (by subst hk1; simp) _), bind_ok (lift_of (forward_st ..)), bind_ok hkey]
      rw [bind_ok (colonBound_yes _ _ _ hsep)]
      rfl
    · simp only
      rw [mapGo] at hgo
      exact hgo
  | .prop f b, p, σ, k, E, hwf, hw, hw2, hf, hs, hd, hk => by
    rw [Blk.wfV] at hwf
    obtain ⟨hform, hbare, hb⟩ := hwf
    rw [Blk.kind] at hf
    obtain ⟨k', hk', _, N, hN⟩ := Blk.readV b p σ k E hb hw hw2 hf hs (by simpa only [Blk.deep] using hd)
    intro p₀ e φ hφ
    simp only [Blk.fails] at hφ
    have hX : noProps (b.text ++ E) = true := Blk.noPropsV hb hbare hf
    simp only [Blk.text, List.append_assoc]
    rcases hφ with ⟨h1, rfl⟩ | ⟨h1, h2⟩ | ⟨h1, h2, h3, h4, rfl⟩
    · refine ⟨1, fun n hn L pre hL hp he => ?_⟩
      obtain ⟨n, rfl⟩ : ∃ a, n = a + 1 := ⟨n - 1, by omega⟩
      subst hp he
      rw [scalar]
      exact prop_stuck_handle (hform.append E) h1
    · obtain ⟨N2, hN2⟩ := Blk.failV b p σ k E hb hw hw2 hf hs (by simpa only [Blk.deep] using hd) hk _ _ _ h2
      refine ⟨N2 + 1, fun n hn L pre hL hp he => ?_⟩
      obtain ⟨n, rfl⟩ : ∃ a, n = a + 1 := ⟨n - 1, by omega⟩
      subst hp he
      have := hN2 (n + 1) (by omega) L (pre ++ f.text) hL (by simp) rfl
      rw [scalar] at this ⊢
      have := prop_stuck_inner (hform.append E) h1 hX this
      simpa using this
    · refine ⟨N + 1, fun n hn L pre hL hp he => ?_⟩
      obtain ⟨n, rfl⟩ : ∃ a, n = a + 1 := ⟨n - 1, by omega⟩
      subst hp he
      have hpos : k.consumed + (pre ++ f.text).length = pre.length + f.text.length := by rw [hk]; simp
      have := hN (n + 1) (by omega) L (pre ++ f.text) hL (by rw [hpos]; exact h2)
      rw [hpos, scalar, Blk.node, Blk.off_bare hbare, Blk.tag_bare hbare] at this
      simp only [Nat.add_zero] at this
      rw [scalar]
      obtain ⟨c, rfl, hc⟩ := prop_stuck_twice (hform.append E) h1 hX hL ((Ctx.consumed_of_at hk').trans hk) h3 h4 this
      exact ⟨_, ⟨0, Nat.le_refl _, by simp [Nat.add_assoc]⟩, hc⟩

theorem Items.fail : ∀ (its : Items) (τ level : Nat) (k : Ctx) (E : Bytes) (d : Bool), its.wf τ →
    k.want level = τ → k.indent.length ≤ level + 1 → Fits its.kind E → Stops τ d E → k.consumed = 0 →
    ∀ p₀ e φ, its.fails τ p₀ e φ → ∃ N, ∀ n c, N ≤ n → N ≤ c → ∀ L pre mid v map, L.Ready →
      (pre ++ mid).length = p₀ → envOf L k = e →
      Fails (φ.crash (pre ++ (mid ++ (its.body τ ++ E)))) (seqGo n level map c v)
        (ld L (st k pre mid (its.body τ ++ E)))
  | .one sp b, τ, level, k, E, d, hwf, hw, hlen, hf, hs, hk => by
    rw [Items.wf] at hwf
    rw [Items.kind] at hf
    have hw2 : k.want (level + 1) = τ + 2 := by rw [Ctx.want_succ _ _ hlen, hw]
    intro p₀ e φ hφ
    simp only [Items.fails] at hφ
    obtain ⟨N, hN⟩ := Blk.failN b (level + 1) (τ + 2) k E hwf.2 hw2 (.inr (.inl (by omega))) hf
      (Stops.mono hs (by omega)) hk _ _ _ hφ
    refine ⟨N, fun n c h1 h2 L pre mid v map hL hp he => ?_⟩
    have := hN n h1 L (pre ++ mid) hL hp he
    rw [seqGo, Items.body]
    refine .after (lift_of (forward_st ..)) ?_
    rw [List.append_assoc] at this
    exact (this.orErr _).bind _
  | .cons sp b G rest, τ, level, k, E, d, hwf, hw, hlen, hf, hs, hk => by
    rw [Items.wf] at hwf
    obtain ⟨hsep, hb, hG, hfit, hrest⟩ := hwf
    rw [Items.kind] at hf
    have hw2 : k.want (level + 1) = τ + 2 := by rw [Ctx.want_succ _ _ hlen, hw]
    generalize hE' : rest.sp ++ (rest.body τ ++ E) = E'
    obtain ⟨k1, hk1, _, N, hN⟩ := Blk.readN b (level + 1) (τ + 2) k (G ++ (spaces τ ++ 0x2D :: E'))
      hb hw2 (.inr (.inl (by omega))) (hfit _) (hG.stops (by omega) (by decide) _)
    have hk1' := Ctx.at_of_at hk1 (Nat.le_succ level)
    have hw1 : k1.want level = τ := (Ctx.want_of_at hk1').trans hw
    have hcon1 : k1.consumed = 0 := (Ctx.consumed_of_at hk1).trans hk
    have htxt : (Items.cons sp b G rest).body τ ++ E = b.text ++ (G ++ (spaces τ ++ 0x2D :: E')) := by
      simp [Items.body, ← hE']
    have hsep' := Items.sepOK hrest hf
    rw [htxt]
    intro p₀ e φ hφ
    simp only [Items.fails] at hφ
    rcases hφ with hφ | ⟨hfine, hφ⟩
    · obtain ⟨N0, hN0⟩ := Blk.failN b (level + 1) (τ + 2) k (G ++ (spaces τ ++ 0x2D :: E'))
        hb hw2 (.inr (.inl (by omega))) (hfit _) (hG.stops (by omega) (by decide) _) hk _ _ _ hφ
      refine ⟨N0, fun n c h1 h2 L pre mid v map hL hp he => ?_⟩
      rw [seqGo]
      refine .after (lift_of (forward_st ..)) ?_
      have := hN0 n (by omega) L (pre ++ mid) hL hp he
      rw [List.append_assoc] at this
      exact (this.orErr _).bind _
    obtain ⟨N2, hN2⟩ := Items.fail rest τ level (k1.at level) E d hrest
      (by rw [Ctx.want_at, hw1]) (by simp) hf hs (by rw [Ctx.at_consumed, hcon1]) _ _ _ hφ
    refine ⟨N + N2 + 1, fun n c h1 h2 L pre mid v map hL hp he => ?_⟩
    subst hp he
    obtain ⟨c, rfl⟩ : ∃ m, c = m + 1 := ⟨c - 1, by omega⟩
    rw [seqGo]
    refine .after (lift_of (forward_st ..)) ?_
    generalize hP : (pre ++ mid).length = P at *
    generalize hL1 : L.put (b.eff P (envOf L k)) = L1
    have hL1r : L1.Ready := hL1 ▸ hL.put _
    have henv : envOf L1 (k1.at level) = { envOf L k with anchors := b.eff P (envOf L k) } := by
      rw [← hL1, envOf_put hL]; exact Ctx.tag_of_at (q := level) (by rw [Ctx.at_idem, hk1'])
    have hpos : (pre ++ mid ++ b.text ++ (G ++ spaces τ ++ [0x2D] ++ rest.sp) ++ []).length =
        P + b.text.length + G.length + τ + 1 + rest.sp.length := by
      rw [← hP]; simp [spaces]; omega
    have hgo := hN2 n c (by omega) (by omega) L1
      (pre ++ mid ++ b.text ++ (G ++ spaces τ ++ [0x2D] ++ rest.sp)) []
      (v ++ [b.node P (envOf L k)]) map hL1r hpos henv
    have hdoc : pre ++ mid ++ b.text ++ (G ++ spaces τ ++ [0x2D] ++ rest.sp) ++ ([] ++ (rest.body τ ++ E)) =
        pre ++ (mid ++ (b.text ++ (G ++ (spaces τ ++ 0x2D :: E')))) := by rw [← hE']; simp
    rw [hdoc] at hgo
    have hP' : k.consumed + (pre ++ mid).length = P := by rw [hk, Nat.zero_add, hP]
    have hx := hN n (by omega) L (pre ++ mid) hL (by rw [hP']; exact hfine)
    rw [hP', hL1] at hx
    refine .after (orErr_ok hx) ?_
    rw [seqLoop]
    refine .after (lift_of (forward_st ..)) (.after (a := false)
      (s' := ld L1 (st (k1.at level) (pre ++ mid ++ b.text ++ (G ++ spaces τ ++ [0x2D] ++ rest.sp)) []
        (rest.body τ ++ E))) ?_ ?_)
    · simp only [isEmpty_snoc, Bool.false_eq_true, if_false,
          List.append_nil]
      rw [bind_ok (nextItem_more _ _ _ hG hw1 (by decide) (docMark_spaces (by
        rw [← hE']; exact docMark_dash hsep')) _)]
      simp only [Bool.false_eq_true, if_false]
      rw [bind_ok (isOk_ok (lift_of (sym_hit ..)))]
      simp only [if_true]
      rw [← hE', bind_ok (isOk_ok (lift_of (bound_sep _ _ _ hsep')))]
      simp only [if_true]
      rw [bind_ok (lift_of (forward_st ..))]
      rfl
    · simp only [Bool.false_eq_true, if_false]
      rw [seqGo] at hgo
      exact hgo

theorem Ents.fail : ∀ (es : Ents) (τ level : Nat) (k : Ctx) (E : Bytes), es.wf τ →
    k.want level = τ → k.want (level + 1) = τ + 2 → Fits es.kind E → Stops τ false E → k.consumed = 0 →
    ∀ p₀ e φ, es.fails τ p₀ e φ → ∃ N, ∀ n i c, N ≤ n → N ≤ i → N ≤ c → ∀ L pre mid acc kn map, L.Ready →
      (pre ++ mid).length = p₀ → envOf L k = e →
      Fails (φ.crash (pre ++ (mid ++ (es.body τ ++ E)))) (mapGo n level map i c acc kn)
        (ld L (st k pre mid (es.body τ ++ E)))
  | .one T y sp b, τ, level, k, E, hwf, hw, hw2, hf, hs, hk => by
    rw [Ents.wf] at hwf
    rw [Ents.kind] at hf
    intro p₀ e φ hφ
    simp only [Ents.fails] at hφ
    obtain ⟨N, hN⟩ := Blk.failV b level τ k E hwf.2.2 hw hw2 hf (hs.to_dash true) (.inr hs) hk _ _ _ hφ
    refine ⟨N, fun n i c h1 h2 h3 L pre mid acc kn map hL hp he => ?_⟩
    have := hN n h1 L (pre ++ mid) hL hp he
    rw [mapGo, Ents.body]
    refine .after (lift_of (forward_st ..)) ?_
    rw [List.append_assoc] at this
    exact (this.orErr _).bind _
  | .cons T y sp b G rest, τ, level, k, E, hwf, hw, hw2, hf, hs, hk => by
    rw [Ents.wf] at hwf
    obtain ⟨hkey, hsep, hb, hG, hfit, hrest⟩ := hwf
    rw [Ents.kind] at hf
    have hkt := (Ents.keyOK hrest)
    have hmark := docMark_key hkt.2 (rest.sp ++ rest.body τ ++ E)
    generalize htl : rest.T ++ 0x3A :: (rest.sp ++ rest.body τ) ++ E = tl
    have hfit' : Fits b.kind (G ++ (spaces τ ++ tl)) := by
      rw [← htl, List.append_assoc]; exact hfit _
    have hst : Stops τ true (G ++ (spaces τ ++ tl)) := by
      rw [← htl, List.append_assoc]; exact hG.stops_key hkt.1.2.keyHead _
    obtain ⟨k1, hk1, _, N, hN⟩ := Blk.readV b level τ k (G ++ (spaces τ ++ tl)) hb.1 hw hw2 hfit' hst (.inl hb.2)
    have hw1 : k1.want level = τ := (Ctx.want_of_at hk1).trans hw
    have hcon1 : k1.consumed = 0 := (Ctx.consumed_of_at hk1).trans hk
    obtain ⟨k2, hk2, N1, hN1⟩ := key_read hrest (k1.at level) level hf
      (by rw [Ctx.want_succ _ _ (by simp)]; omega)
    have hk2at : k2.at level = k1.at level := by
      rw [Ctx.at_of_at hk2 (Nat.le_succ level), Ctx.at_idem]
    have hk2w : k2.want (level + 1) = τ + 2 := by
      rw [Ctx.want_of_at hk2, Ctx.want_succ _ _ (by simp), Ctx.want_at, hw1]
    have hcon2 : k2.consumed = 0 := (Ctx.consumed_of_at hk2at).trans hcon1
    have htxt : (Ents.cons T y sp b G rest).body τ ++ E = b.text ++ (G ++ (spaces τ ++ tl)) := by
      simp [Ents.body, ← htl]
    have hsep' := Ents.sepOK hrest hf
    rw [htxt]
    intro p₀ e φ hφ
    simp only [Ents.fails] at hφ
    rcases hφ with hφ | ⟨hfine, hφ⟩
    · obtain ⟨N0, hN0⟩ := Blk.failV b level τ k (G ++ (spaces τ ++ tl)) hb.1 hw hw2 hfit' hst (.inl hb.2) hk _ _ _ hφ
      refine ⟨N0, fun n i c h1 h2 h3 L pre mid acc kn map hL hp he => ?_⟩
      rw [mapGo]
      refine .after (lift_of (forward_st ..)) ?_
      have := hN0 n (by omega) L (pre ++ mid) hL hp he
      rw [List.append_assoc] at this
      exact (this.orErr _).bind _
    obtain ⟨N2, hN2⟩ := Ents.fail rest τ level k2 E hrest
      ((Ctx.want_of_at hk2at).trans hw1) hk2w hf hs hcon2 _ _ _ hφ
    refine ⟨N + N1 + N2 + 1, fun n i c h1 h2 h3 L pre mid acc kn map hL hp he => ?_⟩
    subst hp he
    obtain ⟨c, rfl⟩ : ∃ m, c = m + 1 := ⟨c - 1, by omega⟩
    rw [mapGo]
    refine .after (lift_of (forward_st ..)) ?_
    generalize hP : (pre ++ mid).length = P at *
    generalize hkn : (Node.mk (P + b.text.length + G.length + τ) [] rest.y) = kn'
    have hpos : (pre ++ mid ++ b.text ++ (G ++ spaces τ) ++ rest.T ++ 0x3A :: rest.sp).length =
        P + b.text.length + G.length + τ + rest.T.length + 1 + rest.sp.length := by
      rw [← hP]; simp [spaces]; omega
    generalize hL1 : L.put (b.eff P (envOf L k)) = L1
    have hL1r : L1.Ready := hL1 ▸ hL.put _
    have henv : envOf L1 k2 = { envOf L k with anchors := b.eff P (envOf L k) } := by
      rw [← hL1, envOf_put hL]; exact Ctx.tag_of_at (hk2at.trans hk1)
    have hgo := hN2 n i c (by omega) (by omega) (by omega) L1
      (pre ++ mid ++ b.text ++ (G ++ spaces τ) ++ rest.T) (0x3A :: rest.sp)
      (acc ++ [(kn, b.node P (envOf L k))]) kn' map hL1r hpos henv
    have hdoc : pre ++ mid ++ b.text ++ (G ++ spaces τ) ++ rest.T ++ (0x3A :: rest.sp ++ (rest.body τ ++ E)) =
        pre ++ (mid ++ (b.text ++ (G ++ (spaces τ ++ tl)))) := by rw [← htl]; simp
    rw [hdoc] at hgo
    have hP' : k.consumed + (pre ++ mid).length = P := by rw [hk, Nat.zero_add, hP]
    have hx := hN n (by omega) L (pre ++ mid) hL (by rw [hP']; exact hfine)
    rw [hP', hL1] at hx
    obtain ⟨x, u, hTe, hx1, hx2⟩ := hkt.1.2.head
    have htle : tl = x :: (u ++ 0x3A :: (rest.sp ++ rest.body τ) ++ E) := by
      rw [← htl, hTe]; rfl
    refine .after (orErr_ok hx) ?_
    rw [mapLoop]
    refine .after (a := MapStep.key kn')
      (s' := ld L1 (st k2 (pre ++ mid ++ b.text ++ (G ++ spaces τ) ++ rest.T) (0x3A :: rest.sp)
        (rest.body τ ++ E))) ?_ ?_
    · rw [mapStep, bind_ok (lift_of (forward_st ..))]
      simp only [isEmpty_snoc, Bool.false_eq_true, if_false,
          List.append_nil]
      have hni : nextItem level "map terminator" (ld L1 (st k1 (pre ++ mid ++ b.text) [] (G ++ (spaces τ ++ tl)))) =
          (.ok false, ld L1 (st (k1.at level) (pre ++ mid ++ b.text) (G ++ spaces τ) tl)) := by
        have := nextItem_more k1 L1 (pre ++ mid ++ b.text) hG hw1 hx1 (r := u ++ 0x3A :: (rest.sp ++ rest.body τ) ++ E)
          (docMark_spaces (by rw [← htle, ← htl]; simpa using hmark)) "map terminator"
        rw [← htle] at this
        exact this
      rw [bind_ok hni]
      simp only [Bool.false_eq_true, if_false]
      rw [bind_ok (lift_of (forward_st ..))]
      have hkeyr : (do
          if ← isOk (lift complexMapping) then complexKey (scalar n) level true false "map key"
          else orErr (scalarFlow (scalar n) i (level + 1) false) "map key" : LM Node)
          (ld L1 (st (k1.at level) (pre ++ mid ++ b.text ++ (G ++ spaces τ)) [] tl)) =
          (.ok kn', ld L1 (st k2 (pre ++ mid ++ b.text ++ (G ++ spaces τ) ++ rest.T) []
            (0x3A :: (rest.sp ++ (rest.body τ ++ E))))) := by
        have hcm : complexMapping (st (k1.at level) (pre ++ mid ++ b.text ++ (G ++ spaces τ)) [] tl) =
            (.err .mismatch, st (k1.at level) (pre ++ mid ++ b.text ++ (G ++ spaces τ)) [] tl) := by
          rw [← htl, List.append_assoc rest.T]; exact complexMapping_no _ _ hkt.1.2
        rw [bind_ok (isOk_err (lift_of hcm))]
        simp only [Bool.false_eq_true, if_false]
        rw [← htl, orErr_ok (hN1 n i (by omega) (by omega) L1 _ hL1r), ← hkn]
        simp only [Ctx.at_consumed, hcon1, ← hP]
        congr 3
        simp [spaces]; omega
      rw [bind_ok hkeyr, bind_ok (colonBound_yes _ _ _ hsep')]
      rfl
    · simp only
      rw [mapGo] at hgo
      exact hgo
end

/-! ## Anywhere in a stream -/

theorem doc_fail {b : Blk} {k : Ctx} {sp E : Bytes} (hwf : b.wfN 0) (hw : k.want 0 = 0)
    (hlen : b.inner ≠ [] ∨ k.indent.length ≤ 1 ∨ (b.short ∧ 0 < k.want 1)) (hf : Fits b.kind E) (hE : Stops 0 false E)
    (hsp : StartOK sp (b.text ++ E)) (hk : k.consumed = 0) :
    ∀ p₀ e φ, b.fails p₀ e φ → ∃ N, ∀ n, N ≤ n → ∀ L pre mid, L.docInd = L.anchors.length →
      (pre ++ mid ++ sp).length = p₀ → .doc L.cyclicMode k.tag = e →
      Fails (φ.crash (pre ++ (mid ++ (sp ++ (b.text ++ E))))) (doc n) (ld L (st k pre mid (sp ++ (b.text ++ E)))) := by
  intro p₀ e φ hφ
  obtain ⟨N, hN⟩ := Blk.failN b 0 0 k E hwf hw hlen hf hE hk _ _ _ hφ
  refine ⟨N, fun n hn L pre mid hd hp he => ?_⟩
  let L1 : Loader := { L with anchors := L.anchors ++ [[]] }
  have hL1 : L1.Ready := by simp [Loader.Ready, L1, hd]
  have hcur : L1.cur = [] := by simp [Loader.cur, L1, hd]
  have henv : envOf L1 k = .doc L.cyclicMode k.tag := by simp only [envOf, hcur, Env.doc]; rfl
  have hs := hN n hn L1 (pre ++ mid ++ sp) hL1 hp (henv.trans he)
  rw [doc]
  refine .after (start_read hsp ..) (.after (lift_of (forward_st ..)) (.after (modify_run ..) ?_))
  have e1 : ({ ld L (st k (pre ++ (mid ++ sp)) [] (b.text ++ E)) with
      anchors := (ld L (st k (pre ++ (mid ++ sp)) [] (b.text ++ E))).anchors ++ [[]] } : Loader) =
      ld L1 (st k (pre ++ mid ++ sp) [] (b.text ++ E)) := by simp [ld, L1]
  rw [e1]
  simp only [List.append_assoc] at hs ⊢
  exact hs.bind _

/-- The first fault of the documents of a tail. -/
def Tail.fails (e : Env) : Tail → Nat → Fault → Prop
  | .stop _, _, _ => False
  | .next G sp b t, p, φ =>
    b.fails (p + G.length + 3 + sp.length) e φ ∨
    (b.fine (p + G.length + 3 + sp.length) e ∧ t.fails e (p + G.length + 3 + sp.length + b.text.length) φ)

theorem docsLoop_fail : ∀ (calm : Prop) (t : Tail) (k : Ctx) (X Y : Bytes), t.wf calm → k.want 0 = 0 →
    (calm → 0 < k.want 1) → k.consumed = 0 → DocEnd t.text X Y →
    ((∃ E, t = .stop E ∧ (Y = [] ∨ EndGap Y)) ∨
     (∃ G sp b t' G', t = .next G sp b t' ∧ GapText G' ∧ G = X ++ G' ∧
        Y = G' ++ (b!"---" ++ (sp ++ (b.text ++ t'.text))))) →
    ∀ p₀ e φ, t.fails e p₀ φ → ∃ N, ∀ n m, N ≤ n → N ≤ m → ∀ L pre v, L.docInd = L.anchors.length →
      pre.length = p₀ → .doc L.cyclicMode k.tag = e →
      Fails (φ.crash (pre ++ t.text)) (docsLoop n m v) (ld L (st k (pre ++ X) [] Y))
  | calm, .stop E, k, X, Y, hwf, hw, hcalm, hk, hE, hY => fun _ _ _ h => h.elim
  | calm, .next G sp b t', k, X, Y, hwf, hw, hcalm, hk, hE, hY => by
    obtain ⟨hG, hsep, hb, hlead, hfit, ht⟩ := hwf
    rcases hY with ⟨E', he, hY⟩ | ⟨_, _, _, _, G', he, hG', hX, rfl⟩
    · simp at he
    · cases he
      obtain ⟨X', Y', hE', hY'⟩ := Tail.docEnd ht
      obtain ⟨k', hk', hcw, N1, hN1⟩ := doc_read (k := k) (sp := sp) hb hw
        (hlead.imp id fun h => .inr ⟨h.1, hcalm h.2⟩) hfit hE'
        (.inl (hsep.append t'.text))
      have hw' : k'.want 0 = 0 := (Ctx.want_of_at hk').trans hw
      have hcon : k'.consumed = 0 := (Ctx.consumed_of_at hk').trans hk
      have htag : k'.tag = k.tag := Ctx.tag_of_at hk'
      intro p₀ e φ hφ
      have key : ∃ N, (∀ n, N ≤ n → ∀ L pre mid, L.docInd = L.anchors.length →
            (pre ++ mid ++ sp).length = p₀ + G.length + 3 + sp.length → .doc L.cyclicMode k.tag = e →
            Fails (φ.crash (pre ++ (mid ++ (sp ++ (b.text ++ t'.text))))) (doc n) (ld L (st k pre mid (sp ++ (b.text ++ t'.text))))) ∨
          (b.fine (p₀ + G.length + 3 + sp.length) e ∧ ∀ n m, N ≤ n → N ≤ m → ∀ L pre v, L.docInd = L.anchors.length →
            pre.length = p₀ + G.length + 3 + sp.length + b.text.length → .doc L.cyclicMode k'.tag = e →
            Fails (φ.crash (pre ++ t'.text)) (docsLoop n m v) (ld L (st k' (pre ++ X') [] Y'))) := by
        simp only [Tail.fails] at hφ
        rcases hφ with hφ | ⟨hfine, hφ⟩
        · obtain ⟨N0, hN0⟩ := doc_fail (k := k) (sp := sp) hb hw
            (hlead.imp id fun h => .inr ⟨h.1, hcalm h.2⟩) hfit hE'.stops
            (.inl (hsep.append t'.text)) hk _ _ _ hφ
          exact ⟨N0, .inl hN0⟩
        · obtain ⟨N2, hN2⟩ := docsLoop_fail b.calm t' k' X' Y' ht hw' hcw.1 hcon hE' hY' _ _ _ hφ
          exact ⟨N2, .inr ⟨hfine, hN2⟩⟩
      obtain ⟨N0, hN0⟩ := key
      refine ⟨N0 + N1 + 1, fun n m hn hm L pre v hd hp he => ?_⟩
      subst hp he
      obtain ⟨m, rfl⟩ : ∃ i, m = i + 1 := ⟨m - 1, by omega⟩
      obtain ⟨q, hq⟩ := hG' _ (mark_stop (sp ++ (b.text ++ t'.text)))
      have hlen : (pre ++ X ++ (G' ++ b!"---") ++ sp).length =
          pre.length + G.length + 3 + sp.length := by rw [hX]; simp; omega
      have hlen2 : (pre ++ X ++ (G' ++ b!"---") ++ sp ++ b.text).length =
          pre.length + G.length + 3 + sp.length + b.text.length := by rw [hX]; simp; omega
      have hdoc : pre ++ (Tail.next G sp b t').text =
          pre ++ X ++ ((G' ++ b!"---") ++ (sp ++ (b.text ++ t'.text))) := by rw [hX]; simp [Tail.text]
      have hdoc2 : pre ++ (Tail.next G sp b t').text =
          pre ++ X ++ (G' ++ b!"---") ++ sp ++ b.text ++ t'.text := by rw [hX]; simp [Tail.text]
      rw [docsLoop]
      refine .after (lift_of (orDefault_ok (gap_of_spec hq ..))) (.after (lift_of (food_st ..)) ?_)
      have hne : (b!"---" ++ (sp ++ (b.text ++ t'.text))).isEmpty = false := by rfl
      simp only [hne, Bool.false_eq_true, if_false]
      refine .after (isOk_ok (lift_of (symSeq_hit ..))) ?_
      simp only [if_true, List.nil_append]
      rcases hN0 with hN0 | ⟨hfine, hN2⟩
      · have := hN0 n (by omega) L (pre ++ X) (G' ++ b!"---") hd hlen rfl
        rw [hdoc]
        exact this.bind _
      · obtain ⟨L', hL', hdL', hcyc, hd⟩ := hN1 n (by omega) L (pre ++ X) (G' ++ b!"---") hd
          (by rw [hk, Nat.zero_add, hlen]; exact hfine)
        refine .after hd ?_
        have := hN2 n m (by omega) (by omega) L' (pre ++ X ++ (G' ++ b!"---") ++ sp ++ b.text)
          (v ++ [b.node (k.consumed + (pre ++ X ++ (G' ++ b!"---") ++ sp).length) (.doc L.cyclicMode k.tag)]) hdL'
          hlen2 (by rw [hcyc, htag])
        rw [hdoc2]
        exact this

/-- The first fault of a stream. -/
def Stream.fails (s : Stream) (cyclic : Bool) (φ : Fault) : Prop :=
  s.first.fails s.head.length (.doc cyclic s.tags) φ ∨
  (s.first.fine s.head.length (.doc cyclic s.tags) ∧
    s.tail.fails (.doc cyclic s.tags) (s.head.length + s.first.text.length) φ)

theorem loaderParse_fail {s : Stream} (hwf : s.wf) :
    ∀ cyclic φ, s.fails cyclic φ → ∃ N, ∀ n, N ≤ n → ∀ (L : Loader), L.docInd = L.anchors.length → L.cyclicMode = cyclic →
      Fails (φ.crash s.text) (loaderParse n) (ld L (st .start [] [] s.text)) := by
  obtain ⟨X, Y, hE, hY⟩ := Tail.docEnd hwf.2.2.1
  obtain ⟨mid, sp, hhead, hstart, N0, hopen⟩ := opening_read hwf.opening hE
  have hk0 := dirsRun_indent s.dirs .start
  have hw0 : (dirsRun .start s.dirs).want 0 = 0 := by
    have : (dirsRun .start s.dirs).want 0 = Ctx.start.want 0 := by simp only [Ctx.want, hk0.1]
    rw [this, Ctx.start_want]
  have e0 : (dirsRun .start s.dirs).consumed = 0 := hk0.2
  obtain ⟨k', hk', hcw, N1, hN1⟩ := doc_read (k := dirsRun .start s.dirs) (sp := sp) hwf.1 hw0
    (.inr (.inl (by rw [hk0.1]; simp [Ctx.start]))) hwf.2.1 hE hstart
  have hw' : k'.want 0 = 0 := (Ctx.want_of_at hk').trans hw0
  have hcon : k'.consumed = 0 := (Ctx.consumed_of_at hk').trans e0
  have htag : k'.tag = s.tags := Ctx.tag_of_at hk'
  intro cyclic φ hφ
  have key : ∃ N, (∀ n, N ≤ n → ∀ L pre mid, L.docInd = L.anchors.length →
        (pre ++ mid ++ sp).length = s.head.length → .doc L.cyclicMode s.tags = Env.doc cyclic s.tags →
        Fails (φ.crash (pre ++ (mid ++ (sp ++ (s.first.text ++ s.tail.text))))) (doc n)
          (ld L (st (dirsRun .start s.dirs) pre mid (sp ++ (s.first.text ++ s.tail.text))))) ∨
      (s.first.fine s.head.length (.doc cyclic s.tags) ∧ ∀ n m, N ≤ n → N ≤ m → ∀ L pre v, L.docInd = L.anchors.length →
        pre.length = s.head.length + s.first.text.length → .doc L.cyclicMode k'.tag = Env.doc cyclic s.tags →
        Fails (φ.crash (pre ++ s.tail.text)) (docsLoop n m v) (ld L (st k' (pre ++ X) [] Y))) := by
    rcases hφ with hφ | ⟨hfine, hφ⟩
    · obtain ⟨N3, hN3⟩ := doc_fail (k := dirsRun .start s.dirs) (sp := sp) hwf.1 hw0
        (.inr (.inl (by rw [hk0.1]; simp [Ctx.start]))) hwf.2.1 hE.stops hstart e0 _ _ _ hφ
      exact ⟨N3, .inl hN3⟩
    · obtain ⟨N2, hN2⟩ := docsLoop_fail s.first.calm s.tail k' X Y hwf.2.2.1 hw' hcw.1 hcon hE hY _ _ _ hφ
      exact ⟨N2, .inr ⟨hfine, hN2⟩⟩
  obtain ⟨N3, hN3⟩ := key
  refine ⟨N0 + N1 + N3, fun n hn L hd hcyc0 => ?_⟩
  subst hcyc0
  have hpos : ([] ++ mid ++ sp).length = s.head.length := by rw [hhead]; simp
  have hpos2 : (mid ++ sp ++ s.first.text).length = s.head.length + s.first.text.length := by
    rw [hhead]; simp [Nat.add_assoc]
  have ho := hopen n (by omega) L
  have split : loaderParse n = (do
      (do
        directives n
        let _ ← lift (orDefault 0 (gap true))
        lift (orDefault () (symSeq b!"---")) : LM Unit)
      let d ← doc n
      docsLoop n n [d] : LM (List Node)) := by
    funext l
    simp only [loaderParse, bind_run]
    generalize directives n l = o1
    rcases o1 with ⟨o1, s1⟩
    cases o1 <;> simp only
    generalize lift (orDefault 0 (gap true)) s1 = o2
    rcases o2 with ⟨o2, s2⟩
    cases o2 <;> simp only
  have hdoc : s.text = [] ++ (mid ++ (sp ++ (s.first.text ++ s.tail.text))) := by simp [Stream.text, hhead]
  have hdoc2 : s.text = mid ++ sp ++ s.first.text ++ s.tail.text := by simp [Stream.text, hhead]
  rw [split]
  refine .after ho ?_
  rcases hN3 with hN3 | ⟨hfine, hN2⟩
  · have := hN3 n (by omega) L [] mid hd hpos rfl
    rw [← hdoc] at this
    exact this.bind _
  · obtain ⟨L', hL', hdL', hcyc, hd⟩ := hN1 n (by omega) L [] mid hd (by rw [e0, Nat.zero_add, hpos]; exact hfine)
    refine .after hd ?_
    have := hN2 n n (by omega) (by omega) L' (mid ++ sp ++ s.first.text)
      [s.first.node ((dirsRun .start s.dirs).consumed + ([] ++ mid ++ sp).length) (.doc L.cyclicMode (dirsRun .start s.dirs).tag)]
      hdL' hpos2 (by rw [hcyc, htag])
    rw [← hdoc2] at this
    simpa using this

end YamlPeg
