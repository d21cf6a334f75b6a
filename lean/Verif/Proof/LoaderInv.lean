import Verif.Proof.LFrame
import Verif.Proof.Decimal
import Verif.Proof.NodeEq
import Verif.Proof.Order
/-!
# The invariant of the loader

Every method of the loader keeps the cursor inside the document, builds only
well-formed nodes, only extends the anchor table of the current document, and
ends in an allowed way.
-/

namespace YamlPeg
open M

/-- Parameters: the document, the mode and the hash function. -/
structure LCfg where
  doc : Bytes
  cyc : Bool
  hash : HashCfg

/-- The parser part; the only panic of the base parser is the unknown tag handle. -/
def LCfg.p (c : LCfg) : PCfg := ⟨c.doc, 0, True, (fun p => p = .tagHandle ∧ 0x21 ∈ c.doc), True⟩

/-- An integer text of the document that does not fit into `i64` (or has wrong
digits). -/
def BadInt (doc : Bytes) : Prop := ∃ s, s <:+: doc ∧ IntText s ∧ toI64 s = none

/-- Node data the loader builds, not looking at children. -/
def LeafOk (c : LCfg) : Yaml → Prop
  | .int s => IntText s ∧ s <:+: c.doc
  | .float s => FloatText s
  | .alias _ => c.cyc = true
  | _ => True

/-- A node the loader builds, not looking at children. -/
def NodeOkHere (c : LCfg) (n : Node) : Prop := n.pos ≤ c.doc.length ∧ LeafOk c n.yaml

def NodeOk (c : LCfg) (n : Node) : Prop := Everywhere (NodeOkHere c) n

def YamlOk (c : LCfg) (y : Yaml) : Prop := LeafOk c y ∧ Yaml.Kids (NodeOk c) y

theorem nodeOk_mk {c : LCfg} {pos : Nat} {tag : Bytes} {y : Yaml} :
    NodeOk c (.mk pos tag y) ↔ pos ≤ c.doc.length ∧ YamlOk c y := by
  rw [NodeOk, everywhere_mk]
  constructor
  · rintro ⟨⟨h1, h2⟩, h3⟩; exact ⟨h1, h2, h3⟩
  · rintro ⟨h1, h2, h3⟩; exact ⟨⟨h1, h2⟩, h3⟩

theorem NodeOk.yaml {c : LCfg} {n : Node} (h : NodeOk c n) : YamlOk c n.yaml := by
  cases n; exact (nodeOk_mk.1 h).2

/-- Names bound in `A` are bound to the same node in `A'`. -/
def Extends (A A' : Anchors) : Prop := ∀ k n, mapGet k A = some n → mapGet k A' = some n

/-- The invariant of the loader while it works on a document. -/
structure LWF (c : LCfg) (l : Loader) : Prop where
  parser : PWF c.p l.parser
  cyc : l.cyclicMode = c.cyc
  hash : l.hash = c.hash
  anchors : l.anchors.length = l.docInd + 1
  nodes : ∀ A ∈ l.anchors, ∀ k n, mapGet k A = some n → NodeOk c n
  ordered : ∀ A ∈ l.anchors, Ordered A

/-- How the loader changes its state while it works on a document. -/
structure LRel (l l' : Loader) : Prop where
  eaten : l.parser.eaten ≤ l'.parser.eaten
  docInd : l'.docInd = l.docInd
  others : ∀ i, i ≠ l.docInd → l'.anchors[i]? = l.anchors[i]?
  current : ∀ A, l.anchors[l.docInd]? = some A →
    ∃ A', l'.anchors[l.docInd]? = some A' ∧ Extends A A'

/-- The only panics of the loader. -/
def LPanic (c : LCfg) (p : Panic) : Prop :=
  (p = .tagHandle ∧ 0x21 ∈ c.doc) ∨ (p = .intUnwrap ∧ BadInt c.doc)

def LF (c : LCfg) : LFrame Loader where
  W := LWF c
  R := LRel
  Em l := NoMinus l.parser
  T m := ∃ p, p ≤ c.doc.length ∧ indicatedMsg c.doc p = some m
  X := LPanic c
  D := True
  refl l _ := ⟨Nat.le_refl _, rfl, fun _ _ => rfl, fun A h => ⟨A, h, fun _ _ h => h⟩⟩
  trans a b d h1 h2 := by
    refine ⟨Nat.le_trans h1.eaten h2.eaten, h2.docInd.trans h1.docInd, fun i hi => ?_, fun A hA => ?_⟩
    · rw [h2.others i (by rw [h1.docInd]; exact hi), h1.others i hi]
    · obtain ⟨A', h3, h4⟩ := h1.current A hA
      obtain ⟨A'', h5, h6⟩ := h2.current A' (by rw [h1.docInd]; exact h3)
      rw [h1.docInd] at h5
      exact ⟨A'', h5, fun k n h => h6 k n (h4 k n h)⟩

section
variable {c : LCfg} {α : Type}

theorem LWF.setParser {l : Loader} (h : LWF c l) {p : Parser} (hp : PWF c.p p) :
    LWF c { l with parser := p } := ⟨hp, h.cyc, h.hash, h.anchors, h.nodes, h.ordered⟩

theorem LRel.setParser {l : Loader} {p : Parser} (hp : l.parser.eaten ≤ p.eaten) :
    LRel l { l with parser := p } :=
  ⟨hp, rfl, fun _ _ => rfl, fun A h => ⟨A, h, fun _ _ h => h⟩⟩

/-- Lifting a method of the base parser. -/
theorem lift_lf {x : PM α} {V : α → Prop} (h : (PF c.p).Holds x V) (hr : Returns x) :
    (LF c).Holds (lift x) V := by
  intro l hl
  obtain ⟨h1, h2, h3⟩ := h l.parser hl.parser
  have hr := hr l.parser
  simp only [lift]
  rcases hx : x l.parser with ⟨r, p⟩
  rw [hx] at h1 h2 h3 hr
  have w : LWF c { l with parser := p } := hl.setParser h1
  have r' : LRel l { l with parser := p } := LRel.setParser h2
  cases r with
  | ok a => exact ⟨w, r', h3⟩
  | err e =>
    cases e with
    | mismatch => exact ⟨w, r', .inl (hr _ rfl)⟩
    | terminate n m => exact h3
  | panic p => exact .inl h3
  | diverge => trivial

theorem isOk_lift (x : PM α) : isOk (lift x) = lift (isOk x) := by
  funext l
  simp only [isOk, lift]
  rcases x l.parser with ⟨r, p⟩
  cases r <;> rfl

theorem try_lift (x : PM α) : try? (lift x) = lift (try? x) := by
  funext l
  simp only [try?, lift]
  rcases x l.parser with ⟨r, p⟩
  cases r <;> rfl

theorem lift_pk {x : PM α} (h : (PK c.p).Holds x (fun _ => True)) (hr : Returns x) :
    (LF c).Holds (lift x) (fun _ => True) := lift_lf (pk_pf h) hr

theorem isOk_lf {x : PM α} (h : (PK c.p).Holds x (fun _ => True)) :
    (LF c).Holds (isOk (lift x)) (fun _ => True) := by
  rw [isOk_lift]
  exact lift_pk (isOk_pk h) isOk_total.returns

theorem orDefault_lf {x : PM α} {d : α} (h : (PK c.p).Holds x (fun _ => True)) :
    (LF c).Holds (lift (orDefault d x)) (fun _ => True) :=
  lift_pk (Frame.Holds.orDefault h trivial) orDefault_total.returns

theorem try_lf {x : PM α} (h : (PK c.p).Holds x (fun _ => True)) :
    (LF c).Holds (try? (lift x)) (fun _ => True) := by
  rw [try_lift]
  exact lift_pk (Frame.Holds.try? h (fun _ _ => trivial) trivial) try_total.returns

theorem forward_lf : (LF c).Holds (lift forward) (fun _ => True) :=
  lift_lf forward_pf forward_total.returns
theorem backward_lf : (LF c).Holds (lift backward) (fun _ => True) :=
  lift_lf (pk_pf backward_pk) backward_total.returns
theorem sym_lf {x : UInt8} : (LF c).Holds (lift (sym x)) (fun _ => True) :=
  lift_pk sym_pk sym_returns
theorem bound_lf : (LF c).Holds (lift bound) (fun _ => True) := lift_pk bound_pk bound_returns
theorem inv_lf : (LF c).Holds (lift (inv (.more 0))) (fun _ => True) :=
  lift_pk inv_pk takeWhile_returns
theorem ind_lf {level : Nat} : (LF c).Holds (lift (ind level)) (fun _ => True) :=
  lift_pk ind_pk ind_returns
theorem lerr_lf {name : String} {V : α → Prop} : (LF c).Holds (lerr name : LM α) V :=
  fun l hl => by
    obtain ⟨h1, h2, h3⟩ := errAt_pk (c := c.p) (name := name) (V := V) (.inl trivial) l.parser hl.parser
    simp only [lerr, lift]
    revert h3
    simp only [errAt]
    split
    · exact id
    · exact fun h => .inl h

theorem orErr_lf {x : LM α} {name : String} {V : α → Prop} (h : (LF c).Holds x V) :
    (LF c).Holds (orErr x name) V := LFrame.Holds.orElse h lerr_lf

open LFrame

theorem isOk_bound_ctx : (LF c).Holds (lift (context (orDefault () bound))) (fun _ => True) :=
  lift_pk (context_pk (pk_pf (Frame.Holds.orDefault bound_pk trivial)))
    (Total.context orDefault_total).returns

/-! ### Comparing nodes -/


theorem floatEq?_out {s1 s2 : Bytes} (h1 : FloatText s1) (h2 : FloatText s2) :
    ∃ b, floatEq? s1 s2 = .ok b := by
  obtain ⟨a, ha⟩ := Option.isSome_iff_exists.1 h1.isSome
  obtain ⟨b, hb⟩ := Option.isSome_iff_exists.1 h2.isSome
  simp only [floatEq?, ha, hb]
  exact ⟨_, rfl⟩

/-- The outcomes of comparing nodes the loader built. -/
def EqOut (c : LCfg) (o : Out Bool) : Prop :=
  (∃ b, o = .ok b) ∨ (o = .panic .intUnwrap ∧ BadInt c.doc)

theorem intEq?_out {s1 s2 : Bytes} (h1 : LeafOk c (.int s1)) (h2 : LeafOk c (.int s2)) :
    EqOut c (intEq? s1 s2) := by
  simp only [intEq?]
  cases e1 : toI64 s1 with
  | none => exact .inr ⟨rfl, s1, h1.2, h1.1, e1⟩
  | some a =>
    cases e2 : toI64 s2 with
    | none => exact .inr ⟨rfl, s2, h2.2, h2.1, e2⟩
    | some b => exact .inl ⟨_, rfl⟩

theorem EqOut.andThen {x y : Out Bool} (hx : EqOut c x) (hy : EqOut c y) : EqOut c (x.andThen y) := by
  rcases hx with ⟨b, rfl⟩ | ⟨rfl, hb⟩
  · cases b
    · exact .inl ⟨false, rfl⟩
    · exact hy
  · exact .inr ⟨rfl, hb⟩

theorem nodesEq?_out {l1 l2 : List Node} (h : ∀ x ∈ l1, ∀ y ∈ l2, EqOut c (Node.eq? x y)) :
    EqOut c (nodesEq? l1 l2) := by
  induction l1 generalizing l2 with
  | nil => cases l2 <;> exact .inl ⟨_, by unfold nodesEq?; rfl⟩
  | cons x xs ih =>
    cases l2 with
    | nil => exact .inl ⟨_, by unfold nodesEq?; rfl⟩
    | cons y ys =>
      unfold nodesEq?
      exact (h x (by simp) y (by simp)).andThen
        (ih fun a ha b hb => h a (by simp [ha]) b (by simp [hb]))

theorem entriesEq?_out {l1 l2 : List (Node × Node)}
    (h : ∀ k v, (k, v) ∈ l1 → ∀ k' v', (k', v') ∈ l2 → EqOut c (Node.eq? k k') ∧ EqOut c (Node.eq? v v')) :
    EqOut c (entriesEq? l1 l2) := by
  induction l1 generalizing l2 with
  | nil => cases l2 <;> exact .inl ⟨_, by unfold entriesEq?; rfl⟩
  | cons x xs ih =>
    cases l2 with
    | nil => exact .inl ⟨_, by unfold entriesEq?; rfl⟩
    | cons y ys =>
      unfold entriesEq?
      refine EqOut.andThen ?_ (ih fun k v hk k' v' hk' => h k v (by simp [hk]) k' v' (by simp [hk']))
      obtain ⟨k, v⟩ := x
      obtain ⟨k', v'⟩ := y
      unfold entryEq?
      have := h k v (by simp) k' v' (by simp)
      exact this.1.andThen this.2

theorem eq?_out (a : Node) : NodeOk c a → ∀ b, NodeOk c b → EqOut c (Node.eq? a b) := by
  induction a using Node.induct with
  | h pos tag y ih =>
    intro ha b hb
    obtain ⟨pos', tag', y'⟩ := b
    have ha := (nodeOk_mk.1 ha).2
    have hb := (nodeOk_mk.1 hb).2
    unfold Node.eq?
    cases y <;> cases y' <;> (try unfold Yaml.eq?) <;> (try exact .inl ⟨_, rfl⟩)
    · exact intEq?_out ha.1 hb.1
    · exact .inl (floatEq?_out ha.1 hb.1)
    · split
      · exact nodesEq?_out fun x hx y hy => ih x hx (ha.2 x hx) y (hb.2 y hy)
      · exact .inl ⟨_, rfl⟩
    · split
      · refine entriesEq?_out fun k v hx k' v' hy => ⟨?_, ?_⟩
        · exact (ih k v hx).1 (ha.2 k v hx).1 k' (hb.2 k' v' hy).1
        · exact (ih k v hx).2 (ha.2 k v hx).2 v' (hb.2 k' v' hy).2
      · exact .inl ⟨_, rfl⟩

/-- All nodes of an entry list are fine. -/
def EntriesOk (c : LCfg) (m : List (Node × Node)) : Prop :=
  ∀ k v, (k, v) ∈ m → NodeOk c k ∧ NodeOk c v

theorem entriesTake_out {h : HashCfg} {k : Node} (hk : NodeOk c k) {m : List (Node × Node)}
    (hm : EntriesOk c m) :
    (∃ o r, entriesTake h k m = .ok (o, r) ∧ (∀ k', o = some k' → NodeOk c k') ∧ EntriesOk c r) ∨
    (entriesTake h k m = .panic .intUnwrap ∧ BadInt c.doc) := by
  induction m with
  | nil => exact .inl ⟨none, [], rfl, by simp, hm⟩
  | cons e r ih =>
    obtain ⟨k', v'⟩ := e
    have he := hm k' v' (by simp)
    have hr : EntriesOk c r := fun a b hab => hm a b (by simp [hab])
    have next : (∃ o r', (entriesTake h k r).map (fun (x, r') => (x, (k', v') :: r')) = .ok (o, r') ∧
        (∀ k', o = some k' → NodeOk c k') ∧ EntriesOk c r') ∨
        ((entriesTake h k r).map (fun (x, r') => (x, (k', v') :: r')) = .panic .intUnwrap ∧
          BadInt c.doc) := by
      rcases ih hr with ⟨o, r', h1, h2, h3⟩ | ⟨h1, hbad⟩
      · refine .inl ⟨o, (k', v') :: r', by rw [h1]; rfl, h2, ?_⟩
        intro a b hab
        rcases List.mem_cons.1 hab with hab | hab
        · cases hab; exact he
        · exact h3 a b hab
      · exact .inr ⟨by rw [h1]; rfl, hbad⟩
    simp only [entriesTake]
    split
    · rcases eq?_out k hk k' he.1 with ⟨b, hb⟩ | ⟨hb, hbad⟩
      · rw [hb]
        cases b
        · exact next
        · exact .inl ⟨some k', r, rfl, by rintro _ ⟨⟩; exact he.1, hr⟩
      · rw [hb]; exact .inr ⟨rfl, hbad⟩
    · exact next

theorem entriesInsert_out {h : HashCfg} {k v : Node} (hk : NodeOk c k) (hv : NodeOk c v)
    {m : List (Node × Node)} (hm : EntriesOk c m) :
    (∃ r, entriesInsert h m k v = .ok r ∧ EntriesOk c r) ∨
    (entriesInsert h m k v = .panic .intUnwrap ∧ BadInt c.doc) := by
  simp only [entriesInsert]
  rcases entriesTake_out (h := h) hk hm with ⟨o, r, h1, h2, h3⟩ | ⟨h1, hbad⟩
  · rw [h1]
    refine .inl ?_
    cases o with
    | none =>
      refine ⟨_, rfl, fun a b hab => ?_⟩
      rcases List.mem_append.1 hab with hab | hab
      · exact h3 a b hab
      · simp at hab; rw [hab.1, hab.2]; exact ⟨hk, hv⟩
    | some k' =>
      refine ⟨_, rfl, fun a b hab => ?_⟩
      rcases List.mem_append.1 hab with hab | hab
      · exact h3 a b hab
      · simp at hab; rw [hab.1, hab.2]; exact ⟨h2 k' rfl, hv⟩
  · rw [h1]; exact .inr ⟨rfl, hbad⟩

theorem entriesCollect_out {h : HashCfg} {acc m : List (Node × Node)} (ha : EntriesOk c acc)
    (hm : EntriesOk c m) :
    (∃ r, entriesCollect h acc m = .ok r ∧ EntriesOk c r) ∨
    (entriesCollect h acc m = .panic .intUnwrap ∧ BadInt c.doc) := by
  induction m generalizing acc with
  | nil => exact .inl ⟨acc, rfl, ha⟩
  | cons e r ih =>
    obtain ⟨k, v⟩ := e
    have he := hm k v (by simp)
    simp only [entriesCollect]
    rcases entriesInsert_out (h := h) he.1 he.2 ha with ⟨x, h1, h2⟩ | ⟨h1, hbad⟩
    · rw [h1]
      exact ih h2 fun a b hab => hm a b (by simp [hab])
    · rw [h1]; exact .inr ⟨rfl, hbad⟩

theorem collectMap_lf {m : List (Node × Node)} (hm : EntriesOk c m) :
    (LF c).Holds (collectMap m) (YamlOk c) := by
  intro l hl
  simp only [collectMap]
  rcases entriesCollect_out (h := l.hash) (acc := []) (by intro _ _ h; simp at h) hm with
    ⟨r, h1, h2⟩ | ⟨h1, hbad⟩
  · rw [h1]; exact ⟨hl, (LF c).refl l hl, trivial, h2⟩
  · rw [h1]; exact .inr ⟨rfl, hbad⟩

/-! ### Anchors -/

theorem curAnchors_run {l : Loader} (hl : LWF c l) :
    ∃ A, l.anchors[l.docInd]? = some A ∧ A ∈ l.anchors ∧ curAnchors l = (.ok A, l) := by
  have h : l.docInd < l.anchors.length := by rw [hl.anchors]; omega
  refine ⟨l.anchors[l.docInd], List.getElem?_eq_getElem h, List.getElem_mem h, ?_⟩
  simp only [curAnchors, List.getElem?_eq_getElem h]

/-- Recording an anchor: it is new, or the parse is over. -/
theorem anchorInsert_lf {a : Bytes} {n : Node} (hn : NodeOk c n) :
    (LF c).Holds (do
      if ← anchorInsert a n then lerr "duplicated anchor definition" else pure n) (NodeOk c) := by
  intro l hl
  obtain ⟨A, h1, h2, h3⟩ := curAnchors_run hl
  have hrun : anchorInsert a n l =
      (.ok (mapGet a A).isSome, { l with anchors := l.anchors.set l.docInd (mapInsert a n A) }) := by
    simp only [anchorInsert, bind_run, h3, modify_run, pure_run]
  rw [bind_ok hrun]
  have hlt : l.docInd < l.anchors.length := by rw [hl.anchors]; omega
  have w : LWF c { l with anchors := l.anchors.set l.docInd (mapInsert a n A) } := by
    refine ⟨hl.parser, hl.cyc, hl.hash, ?_, ?_, ?_⟩
    · simp [hl.anchors]
    · intro B hB k m hm
      rcases List.mem_or_eq_of_mem_set hB with hB | rfl
      · exact hl.nodes B hB k m hm
      · rw [mapGet_mapInsert] at hm
        split at hm
        · cases hm; exact hn
        · exact hl.nodes A h2 k m hm
    · intro B hB
      rcases List.mem_or_eq_of_mem_set hB with hB | rfl
      · exact hl.ordered B hB
      · exact (hl.ordered A h2).insert
  cases hb : (mapGet a A).isSome with
  | true =>
    -- the name was bound before
    rw [if_pos rfl]
    have := lerr_lf (c := c) (name := "duplicated anchor definition") (V := NodeOk c) _ w
    revert this
    simp only [lerr, lift, errAt]
    split
    · exact id
    · exact id
  | false =>
    rw [if_neg (by simp)]
    refine ⟨w, ⟨Nat.le_refl _, rfl, fun i hi => ?_, fun B hB => ?_⟩, hn⟩
    · show (l.anchors.set l.docInd (mapInsert a n A))[i]? = _
      rw [List.getElem?_set, if_neg (Ne.symm hi)]
    · refine ⟨mapInsert a n A, by simp [hlt], fun k m hm => ?_⟩
      rw [h1] at hB
      cases hB
      rw [mapGet_mapInsert]
      split
      · rename_i hk; subst hk; rw [hm] at hb; simp at hb
      · exact hm

theorem tag_pk' : (PK c.p).Holds tag (fun _ => True) := by
  by_cases h : 0x21 ∈ c.doc
  · exact tag_pk ⟨rfl, h⟩
  · intro s hs
    obtain ⟨k, pre, mid, post, rfl⟩ := PWF.exists_st hs
    have hd : pre ++ (mid ++ post) = c.doc := hs.doc
    have hm : sym 0x21 (st k pre mid post) = (.err .mismatch, st k pre [] (mid ++ post)) := by
      cases post with
      | nil => simp
      | cons x r =>
        refine sym_miss _ _ _ _ _ _ ?_
        rintro rfl
        exact h (by rw [← hd]; simp)
    rw [tag, bind_err hm]
    exact ⟨PWF.move hs (by simp), rfl, trivial⟩

/-- After `node_props` the cursor is on the mark. -/
theorem nodeProps_lf : (LF c).Holds nodeProps (fun _ => True) := by
  refine Holds.bind (orDefault_lf anchor_pk) fun a _ => ?_
  refine Holds.bind (Holds.runIf (fun _ => bound_lf) trivial) fun _ _ => ?_
  refine Holds.bind forward_lf fun _ _ => ?_
  refine Holds.bind (orDefault_lf tag_pk') fun t _ => ?_
  refine Holds.bind (Holds.runIf (fun _ => bound_lf) trivial) fun _ _ => ?_
  refine Holds.bind forward_lf fun _ _ => ?_
  refine Holds.bind (orDefault_lf anchor_pk) fun a2 _ => ?_
  refine Holds.bind (V := fun _ => True) ?_ fun _ _ => Holds.bind forward_lf fun _ _ => Holds.pure trivial
  refine Holds.ite (fun _ => Holds.ite (fun _ => ?_) fun _ => lerr_lf) fun _ => Holds.pure trivial
  exact Holds.bind bound_lf fun _ _ => Holds.pure trivial

theorem nodeProps_ok {l l' : Loader} {r : Bytes × Bytes} (h : nodeProps l = (.ok r, l')) :
    l'.parser.pos = l'.parser.eaten := by
  unfold nodeProps at h
  iterate 8 obtain ⟨_, _, _, h⟩ := bind_ok_inv h
  obtain ⟨_, l1, h1, h⟩ := bind_ok_inv h
  simp only [lift, forward, modify_run, Prod.mk.injEq, true_and] at h1
  simp only [pure_run, Prod.mk.injEq] at h
  rw [← h.2, ← h1]

/-- A node: its properties, then `f` with the cursor on the mark. -/
theorem scalarNode_lf {f : LM Yaml}
    (h : ∀ l, LWF c l → l.parser.pos = l.parser.eaten → (LF c).Good (YamlOk c) l (f l)) :
    (LF c).Holds (scalarNode f) (NodeOk c) := by
  intro l hl
  refine Good.bind (nodeProps_lf l hl) fun at' l1 h1 w1 r1 _ => ?_
  obtain ⟨a, t⟩ := at'
  have hpos := nodeProps_ok h1
  have w1' : LWF c l1 := w1
  show (LF c).Good (NodeOk c) l1 ((M.get >>= _) l1)
  rw [bind_ok (get_run _)]
  refine Good.bind (h l1 w1 hpos) fun y l2 h2 w2 r2 hy => ?_
  refine Holds.bind forward_lf (fun _ _ => ?_) l2 w2
  have hn : NodeOk c (Node.new y l1.parser.indicator t) := by
    refine nodeOk_mk.2 ⟨?_, hy⟩
    have hc := w1'.parser.consumed trivial
    have hp : l1.parser.pos ≤ c.doc.length := w1'.parser.pos
    simp only [Parser.indicator, hc]
    omega
  exact Holds.ite (fun _ => anchorInsert_lf hn) fun _ => Holds.pure hn

theorem useAlias_lf {s : Bytes} : (LF c).Holds (useAlias s) (YamlOk c) := by
  intro l hl
  simp only [useAlias]
  rw [bind_ok (get_run _)]
  split
  · rename_i h
    exact ⟨hl, (LF c).refl l hl, hl.cyc.symm.trans h, trivial⟩
  · obtain ⟨A, h1, h2, h3⟩ := curAnchors_run hl
    rw [bind_ok h3]
    cases hg : mapGet s A with
    | some node => exact ⟨hl, (LF c).refl l hl, (hl.nodes A h2 _ _ hg).yaml⟩
    | none => exact lerr_lf l hl

theorem resolvePlain_ok (s : Bytes) : YamlOk c (resolvePlain s) := by
  simp only [resolvePlain]
  split
  · exact ⟨trivial, trivial⟩
  split
  · exact ⟨trivial, trivial⟩
  split
  · exact ⟨trivial, trivial⟩
  split
  · exact ⟨.inl rfl, trivial⟩
  split
  · exact ⟨.inr (.inl rfl), trivial⟩
  split
  · exact ⟨.inr (.inr (.inl rfl)), trivial⟩
  · exact ⟨trivial, trivial⟩

/-- Try a number; when there is none, the cursor is back on the mark. -/
theorem number_lf {x : PM Bytes} {P : Bytes → Prop} (hp : (PK c.p).Holds x (fun _ => True))
    (hr : Returns x) (hs : ∀ s s' t, PWF c.p s → NoMinus s → x s = (.ok t, s') → P t)
    {l : Loader} (hl : LWF c l) (hm : NoMinus l.parser) {mk : Bytes → Yaml}
    (hmk : ∀ t, P t → YamlOk c (mk t)) {k : LM (Option Yaml)}
    (hk : ∀ l', LWF c l' → NoMinus l'.parser → LRel l l' →
      (LF c).Good (fun o => ∀ y, o = some y → YamlOk c y) l' (k l')) :
    (LF c).Good (fun o => ∀ y, o = some y → YamlOk c y) l
      ((try? (lift x) >>= fun o => match o with
        | some s => pure (some (mk s))
        | none => k) l) := by
  refine Good.bind (try_lf hp l hl) fun o l1 h1 w1 r1 _ => ?_
  rw [try_lift] at h1
  simp only [lift, try?] at h1
  have hr := hr l.parser
  have hs := hs l.parser
  obtain ⟨g1, g2, g3⟩ := hp l.parser hl.parser
  rcases hx : x l.parser with ⟨r, p⟩
  rw [hx] at h1 hr g3
  cases r with
  | ok a =>
    simp only [Prod.mk.injEq, Out.ok.injEq] at h1
    rw [← h1.1]
    refine ⟨w1, (LF c).refl _ w1, ?_⟩
    rintro y ⟨⟩
    exact hmk a (hs p a hl.parser hm hx)
  | err e =>
    simp only [Prod.mk.injEq, Out.ok.injEq] at h1
    rw [← h1.1]
    refine hk l1 w1 ?_ r1
    rw [← h1.2]
    exact .inl (hr _ rfl)
  | panic p => simp at h1
  | diverge => simp at h1

theorem scalarAtom_lf {n level : Nat} {flow : Bool} {l : Loader} (hl : LWF c l)
    (hm : NoMinus l.parser) :
    (LF c).Good (fun o => ∀ y, o = some y → YamlOk c y) l (scalarAtom n level flow l) := by
  refine number_lf (mk := .float) float_pk float_returns (fun _ _ _ => float_shape) hl hm
    (fun t ht => ⟨ht, trivial⟩) fun l hl hm _ => ?_
  refine number_lf (mk := .float) sciFloat_pk sciFloat_returns (fun _ _ _ => sciFloat_shape) hl hm
    (fun t ht => ⟨ht, trivial⟩) fun l hl hm _ => ?_
  refine number_lf (mk := .int) int_pk int_returns (fun _ _ _ => int_shape) hl hm
    (fun t ht => ⟨ht, trivial⟩) fun l hl hm _ => ?_
  refine Holds.bind (try_lf anchorUse_pk) (fun o _ => ?_) l hl
  cases o with
  | some s => exact Holds.bind useAlias_lf fun y hy => Holds.pure (by rintro _ ⟨⟩; exact hy)
  | none =>
  refine Holds.bind (try_lf (stringQuoted_pk trivial)) fun o _ => ?_
  cases o with
  | some s => exact Holds.pure (by rintro _ ⟨⟩; exact ⟨trivial, trivial⟩)
  | none =>
  refine Holds.bind (try_lf (stringQuoted_pk trivial)) fun o _ => ?_
  cases o with
  | some s => exact Holds.pure (by rintro _ ⟨⟩; exact ⟨trivial, trivial⟩)
  | none =>
  refine Holds.bind (try_lf (stringPlain_pk trivial)) fun o _ => ?_
  cases o with
  | some s => exact Holds.pure (by rintro _ ⟨⟩; exact resolvePlain_ok s)
  | none => exact Holds.pure (by simp)

/-- The recursive call respects the invariant. -/
def ScOk (c : LCfg) (sc : ScalarCall) : Prop :=
  ∀ level map flow, (LF c).Holds (sc level map flow) (NodeOk c)

theorem nodesOk_snoc {v : List Node} {x : Node} (hv : ∀ y ∈ v, NodeOk c y) (hx : NodeOk c x) :
    ∀ y ∈ v ++ [x], NodeOk c y := by
  intro y hy
  rcases List.mem_append.1 hy with h | h
  · exact hv y h
  · simp at h; rw [h]; exact hx

theorem entriesOk_snoc {m : List (Node × Node)} {k v : Node} (hm : EntriesOk c m) (hk : NodeOk c k)
    (hv : NodeOk c v) : EntriesOk c (m ++ [(k, v)]) := by
  intro a b hab
  rcases List.mem_append.1 hab with h | h
  · exact hm a b h
  · simp at h; rw [h.1, h.2]; exact ⟨hk, hv⟩

theorem seqFlowLoop_lf {sc : ScalarCall} (hsc : ScOk c sc) {level n : Nat} {v : List Node}
    (hv : ∀ y ∈ v, NodeOk c y) :
    (LF c).Holds (seqFlowLoop sc level n v) (fun v => ∀ y ∈ v, NodeOk c y) := by
  induction n generalizing v with
  | zero => exact Holds.diverge trivial
  | succ n ih =>
    refine Holds.bind inv_lf fun _ _ => Holds.bind forward_lf fun _ _ => ?_
    refine Holds.bind (isOk_lf sym_pk) fun _ _ => Holds.ite (fun _ => Holds.pure hv) fun _ => ?_
    refine Holds.bind forward_lf fun _ _ => Holds.bind (orErr_lf (hsc _ _ _)) fun x hx => ?_
    have hv' := nodesOk_snoc hv hx
    refine Holds.bind inv_lf fun _ _ => Holds.bind (isOk_lf sym_pk) fun _ _ =>
      Holds.ite (fun _ => ih hv') fun _ => ?_
    exact Holds.bind inv_lf fun _ _ => Holds.bind sym_lf fun _ _ => Holds.pure hv'

theorem seqFlow_lf {sc : ScalarCall} (hsc : ScOk c sc) {level n : Nat} :
    (LF c).Holds (seqFlow sc n level) (YamlOk c) :=
  Holds.bind sym_lf fun _ _ => Holds.bind (seqFlowLoop_lf hsc (by simp)) fun v hv =>
    Holds.bind forward_lf fun _ _ => Holds.pure ⟨trivial, hv⟩

theorem gapThenInd_lf {level : Nat} : (LF c).Holds (gapThenInd level) (fun _ => True) :=
  Holds.bind (isOk_lf gap_pk) fun _ _ => Holds.ite (fun _ => ind_lf) fun _ => Holds.pure trivial

theorem complexKey_lf {sc : ScalarCall} (hsc : ScOk c sc) {level : Nat} {map flow : Bool} {name : String} :
    (LF c).Holds (complexKey sc level map flow name) (NodeOk c) :=
  Holds.bind forward_lf fun _ _ => Holds.bind (orErr_lf (hsc _ _ _)) fun k hk =>
    Holds.bind gapThenInd_lf fun _ _ => Holds.pure hk

theorem mapFlowLoop_lf {sc : ScalarCall} (hsc : ScOk c sc) {sf : LM Node}
    (hsf : (LF c).Holds sf (NodeOk c)) {level n : Nat} {m : List (Node × Node)} (hm : EntriesOk c m) :
    (LF c).Holds (mapFlowLoop sc sf level n m) (EntriesOk c) := by
  induction n generalizing m with
  | zero => exact Holds.diverge trivial
  | succ n ih =>
    refine Holds.bind inv_lf fun _ _ => Holds.bind forward_lf fun _ _ => ?_
    refine Holds.bind (isOk_lf sym_pk) fun _ _ => Holds.ite (fun _ => Holds.pure hm) fun _ => ?_
    refine Holds.bind forward_lf fun _ _ => Holds.bind (V := NodeOk c) ?_ fun k hk => ?_
    · refine Holds.bind (isOk_lf complexMapping_pk) fun _ _ => Holds.ite (fun _ => complexKey_lf hsc)
        fun _ => orErr_lf hsf
    refine Holds.bind (isOk_lf sym_pk) fun _ _ => Holds.ite (fun _ => ?_) fun _ => lerr_lf
    refine Holds.bind isOk_bound_ctx fun _ _ => Holds.bind forward_lf fun _ _ =>
      Holds.bind (orErr_lf (hsc _ _ _)) fun v hv => ?_
    have hm' := entriesOk_snoc hm hk hv
    refine Holds.bind (isOk_lf sym_pk) fun _ _ => Holds.ite (fun _ => ih hm') fun _ => ?_
    exact Holds.bind inv_lf fun _ _ => Holds.bind sym_lf fun _ _ => Holds.pure hm'

theorem scalarTerm_lf {sc : ScalarCall} (hsc : ScOk c sc) {n : Nat} (d : Nat) :
    ∀ {level : Nat} {flow : Bool} (l : Loader), LWF c l → NoMinus l.parser →
      (LF c).Good (YamlOk c) l (scalarTerm sc n d level flow l) := by
  induction d with
  | zero => intro _ _ _ _ _; exact trivial
  | succ d ih =>
    intro level flow l hl hm
    refine Good.bind (scalarAtom_lf hl hm) fun o l1 _ w1 _ ho => ?_
    cases o with
    | some y => exact ⟨w1, (LF c).refl _ w1, ho y rfl⟩
    | none =>
      refine Holds.orElse (Holds.orElse (seqFlow_lf hsc) ?_) (Holds.pure (show YamlOk c .null from ⟨trivial, trivial⟩)) l1 w1
      refine Holds.bind sym_lf fun _ _ => Holds.bind (mapFlowLoop_lf hsc ?_ (by intro _ _ h; simp at h))
        fun m hm => Holds.bind forward_lf fun _ _ => collectMap_lf hm
      exact scalarNode_lf fun l hl hp => ih l hl (.inl hp)

theorem scalarFlow_lf {sc : ScalarCall} (hsc : ScOk c sc) {n level : Nat} {flow : Bool} :
    (LF c).Holds (scalarFlow sc n level flow) (NodeOk c) :=
  scalarNode_lf fun l hl hp => scalarTerm_lf hsc n l hl (.inl hp)

theorem nlLen_ne {x : UInt8} {xs : Bytes} (h : x = 0x0A ∨ x = 0x0D) : nlLen (x :: xs) ≠ 0 := by
  rcases h with rfl | rfl
  · cases xs with
    | nil => simp [nlLen]
    | cons y ys => unfold nlLen; split <;> simp_all
  · cases xs with
    | nil => simp [nlLen]
    | cons y ys => unfold nlLen; split <;> simp_all

/-- `gap` after which a mismatch is handed on: the cursor was on the mark, so
it still is, or the input is used up. -/
theorem gap_lf {l : Loader} (hl : LWF c l) (hp : l.parser.pos = l.parser.eaten) :
    (LF c).Good (fun _ => True) l (lift (gap true) l) := by
  have hg := gap_pk (c := c.p) (cmt := true) l.parser hl.parser
  have hmis : (gap true l.parser).1 = .err .mismatch → NoMinus (gap true l.parser).2 := by
    obtain ⟨k, pre, mid, post, he⟩ := PWF.exists_st hl.parser
    rw [he] at hp ⊢
    have : mid = [] := by
      simp only [st_pos, st_eaten] at hp
      have : mid.length = 0 := by omega
      simpa using this
    subst this
    rw [gap_eq]
    cases hs : gapSpec true post with
    | some q => simp
    | none =>
      intro _
      simp only [NoMinus, st_pos, st_eaten, st_rest]
      simp only [gapSpec] at hs
      split at hs
      · rename_i h0
        simp only [gapLead, if_true, cmtSkip] at h0 ⊢
        split
        · rename_i r hr
          right
          simp only [hr] at h0
          cases hd : r.dropWhile (notIn b!"\n\r") with
          | nil => simp
          | cons x xs =>
            exfalso
            rw [hd] at h0
            have := List.head_dropWhile_not (p := notIn b!"\n\r") (l := r) (by rw [hd]; simp)
            simp only [hd, List.head_cons, notIn] at this
            have : x = 0x0A ∨ x = 0x0D := by
              by_cases h : x = 0x0A
              · exact .inl h
              · exact .inr (by simpa [h] using this)
            rcases this with rfl | rfl
            · exact nlLen_ne (.inl rfl) h0
            · exact nlLen_ne (.inr rfl) h0
        · left; simp
      · simp at hs
  obtain ⟨h1, h2, h3⟩ := hg
  simp only [lift]
  rcases hx : gap true l.parser with ⟨r, p⟩
  rw [hx] at h1 h2 h3 hmis
  have w : LWF c { l with parser := p } := hl.setParser h1
  have r' : LRel l { l with parser := p } := LRel.setParser (Nat.le_of_eq (Eq.symm h2))
  cases r with
  | ok a => exact ⟨w, r', h3⟩
  | err e =>
    cases e with
    | mismatch => exact ⟨w, r', hmis rfl⟩
    | terminate n m => exact h3
  | panic p => exact .inl h3
  | diverge => trivial

theorem firstItem_lf {level : Nat} {map : Bool} {l : Loader} (hl : LWF c l)
    (hp : l.parser.pos = l.parser.eaten) :
    (LF c).Good (fun _ => True) l (firstItem level map l) := by
  unfold firstItem
  cases map with
  | true =>
    rw [if_pos rfl]
    exact Good.bind (gap_lf hl hp) fun _ l1 _ w1 _ _ => lift_pk indDefine_pk indDefine_returns l1 w1
  | false =>
    rw [if_neg (by simp)]
    exact gapThenInd_lf l hl

theorem docEnd_lf : (LF c).Holds docEnd (fun _ => True) := by
  refine lift_pk ?_ (Total.returns ?_)
  · refine Frame.Holds.bind food_pk fun _ _ => Frame.Holds.ite (fun _ => Frame.Holds.pure trivial)
      fun _ => context_pk (pk_pf ?_)
    refine Frame.Holds.bind (V := fun _ => True) ?_ fun _ _ =>
      Frame.Holds.bind (runIf_pk backward_pk) fun _ _ => Frame.Holds.pure trivial
    exact Frame.Holds.bind (isOk_pk symSeq_pk) fun _ _ => Frame.Holds.ite
      (fun _ => Frame.Holds.pure trivial) fun _ => isOk_pk symSeq_pk
  · refine Total.bind food_total fun _ => Total.ite Total.pure (Total.context ?_)
    exact Total.bind (Total.bind isOk_total fun _ => Total.ite Total.pure isOk_total) fun _ =>
      Total.bind (Total.runIf backward_total) fun _ => Total.pure

theorem nextItem_lf {level : Nat} {name : String} :
    (LF c).Holds (nextItem level name) (fun _ => True) := by
  refine Holds.bind (isOk_lf gap_pk) fun _ _ => Holds.bind (V := fun _ => True) ?_ fun _ _ => ?_
  · exact Holds.ite (fun _ => Holds.pure trivial) fun _ =>
      Holds.bind docEnd_lf fun _ _ => Holds.pure trivial
  · refine Holds.ite (fun _ => lerr_lf) fun _ => Holds.bind docEnd_lf fun _ _ =>
      Holds.ite (fun _ => Holds.pure trivial) fun _ => ?_
    exact Holds.bind (isOk_lf ind_pk) fun _ _ => Holds.pure trivial

theorem forward_then {β : Type} {f : LM β} {V : β → Prop}
    (h : ∀ l, LWF c l → l.parser.pos = l.parser.eaten → (LF c).Good V l (f l)) :
    (LF c).Holds (do lift forward; f) V := by
  intro l hl
  refine Good.bind (forward_lf l hl) fun _ l1 h1 w1 _ _ => h l1 w1 ?_
  simp only [lift, forward, modify_run, Prod.mk.injEq, true_and] at h1
  rw [← h1]

theorem seqLoop_lf {sc : ScalarCall} (hsc : ScOk c sc) {level : Nat} {map : Bool} {n : Nat}
    {v : List Node} (hv : ∀ y ∈ v, NodeOk c y) :
    (LF c).Holds (seqLoop sc level map n v) (fun v => ∀ y ∈ v, NodeOk c y) := by
  induction n generalizing v with
  | zero => exact Holds.diverge trivial
  | succ n ih =>
    have tail : ∀ stop : Bool, (LF c).Holds (do
        if stop then pure v
        else do
          lift forward
          let x ← orErr (sc (level + 1) false false) "sequence item"
          seqLoop sc level map n (v ++ [x])) (fun v => ∀ y ∈ v, NodeOk c y) := by
      intro stop
      refine Holds.ite (fun _ => Holds.pure hv) fun _ => Holds.bind forward_lf fun _ _ => ?_
      exact Holds.bind (orErr_lf (hsc _ _ _)) fun x hx => ih (nodesOk_snoc hv hx)
    refine forward_then fun l hl hp => ?_
    refine Good.bind (V := fun _ => True) ?_ fun stop l1 _ w1 _ _ => tail stop l1 w1
    split
    · refine Good.bind (firstItem_lf hl hp) fun _ l1 _ w1 _ _ => ?_
      exact Holds.bind sym_lf (fun _ _ => Holds.bind bound_lf fun _ _ => Holds.pure trivial) l1 w1
    · refine Holds.bind nextItem_lf (fun _ _ => Holds.ite (fun _ => Holds.pure trivial) fun _ => ?_) l hl
      refine Holds.bind (isOk_lf sym_pk) fun _ _ => Holds.ite (fun _ => ?_) fun _ => Holds.pure trivial
      refine Holds.bind (isOk_lf bound_pk) fun _ _ => Holds.ite (fun _ => ?_) fun _ => Holds.pure trivial
      exact Holds.bind forward_lf fun _ _ => Holds.pure trivial

theorem seq_lf {sc : ScalarCall} (hsc : ScOk c sc) {n level : Nat} {map : Bool} :
    (LF c).Holds (seq sc n level map) (YamlOk c) :=
  Holds.bind (seqLoop_lf hsc (by simp)) fun v hv => Holds.bind backward_lf fun _ _ =>
    Holds.pure ⟨trivial, hv⟩

theorem colonBound_lf : (LF c).Holds colonBound (fun _ => True) :=
  Holds.bind (isOk_lf sym_pk) fun _ _ => Holds.ite (fun _ => isOk_lf bound_pk)
    fun _ => Holds.pure trivial

/-- What a round of the map loop yields. -/
def MapStepOk (c : LCfg) : MapStep → Prop
  | .alone y => YamlOk c y
  | .stop => True
  | .key k => NodeOk c k

theorem mapStep_lf {sc : ScalarCall} (hsc : ScOk c sc) {sf : LM Node}
    (hsf : (LF c).Holds sf (NodeOk c)) {level : Nat} {map flow first : Bool} :
    (LF c).Holds (mapStep sc sf level map flow first) (MapStepOk c) := by
  refine forward_then fun l hl hp => ?_
  split
  · refine Good.bind (firstItem_lf hl hp) fun _ l1 _ w1 _ _ => ?_
    refine Holds.bind forward_lf (fun _ _ => Holds.bind (V := NodeOk c) ?_ fun k hk => ?_) l1 w1
    · exact Holds.bind (isOk_lf complexMapping_pk) fun _ _ => Holds.ite (fun _ => complexKey_lf hsc)
        fun _ => hsf
    · exact Holds.bind colonBound_lf fun _ _ => Holds.ite (fun _ => Holds.pure hk)
        fun _ => Holds.pure hk.yaml
  · refine Holds.bind nextItem_lf (fun _ _ => Holds.ite (fun _ => Holds.pure trivial) fun _ => ?_) l hl
    refine Holds.bind forward_lf (fun _ _ => Holds.bind (V := NodeOk c) ?_ fun k hk => ?_)
    · exact Holds.bind (isOk_lf complexMapping_pk) fun _ _ => Holds.ite (fun _ => complexKey_lf hsc)
        fun _ => orErr_lf hsf
    · exact Holds.bind colonBound_lf fun _ _ => Holds.ite (fun _ => Holds.pure hk)
        fun _ => lerr_lf

theorem mapLoop_lf {sc : ScalarCall} (hsc : ScOk c sc) {sf : LM Node}
    (hsf : (LF c).Holds sf (NodeOk c)) {level : Nat} {map flow : Bool} {n : Nat}
    {m : List (Node × Node)} (hm : EntriesOk c m) :
    (LF c).Holds (mapLoop sc sf level map flow n m) (YamlOk c) := by
  induction n generalizing m with
  | zero => exact Holds.diverge trivial
  | succ n ih =>
    refine Holds.bind (mapStep_lf hsc hsf) fun s hs => ?_
    cases s with
    | alone y => exact Holds.pure hs
    | stop => exact Holds.bind backward_lf fun _ _ => collectMap_lf hm
    | key k =>
      exact Holds.bind forward_lf fun _ _ => Holds.bind (orErr_lf (hsc _ _ _)) fun v hv =>
        ih (entriesOk_snoc hm hs hv)

theorem map_lf {sc : ScalarCall} (hsc : ScOk c sc) {n level : Nat} {map flow : Bool} :
    (LF c).Holds (YamlPeg.map sc n level map flow) (YamlOk c) :=
  mapLoop_lf hsc (scalarFlow_lf hsc) (by intro _ _ h; simp at h)

theorem scalarBody_lf {sc : ScalarCall} (hsc : ScOk c sc) {n level : Nat} {map flow : Bool} :
    (LF c).Holds (scalarBody sc n level map flow) (YamlOk c) := by
  refine Holds.bind (try_lf stringLiteral_pk) fun o _ => ?_
  cases o with
  | some s => exact Holds.pure ⟨trivial, trivial⟩
  | none =>
  refine Holds.bind (try_lf stringFolded_pk) fun o _ => ?_
  cases o with
  | some s => exact Holds.pure ⟨trivial, trivial⟩
  | none =>
    intro l hl
    exact Good.orElse (Holds.orElse (seq_lf hsc) (map_lf hsc) l hl) fun l1 _ w1 _ e1 =>
      scalarTerm_lf hsc n l1 w1 e1

theorem scalar_lf (n : Nat) : ScOk c (scalar n) := by
  induction n with
  | zero => exact fun _ _ _ => Holds.diverge trivial
  | succ n ih => exact fun _ _ _ => scalarNode_lf fun l hl _ => scalarBody_lf ih l hl

end
end YamlPeg
