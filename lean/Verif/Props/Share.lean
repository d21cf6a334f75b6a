import Verif.Proof.Share
/-!
# C60-C63: nodes share their data (histories of `clone`, `set_yaml`, `drop`, ...)

A history is a list of operations of the API, begun with nothing (`State.init`).  `run`
(Model/Share.lean) does them with reference counters, `arun` (Spec/Share.lean) on plain
values, where every node has data of its own; `State.value` reads the values of a state.
-/

namespace YamlPeg.Props
open YamlPeg.Share

/-- A state that a program can reach. -/
def Reachable (s : State) : Prop := ∃ ops, run .init ops = .ok s

theorem Reachable.inv {s : State} (h : Reachable s) : Inv s.heap (held s.vals) := by
  obtain ⟨ops, h⟩ := h
  have := run_agrees ops inv_init
  rw [h] at this
  cases ha : arun State.init.value ops with
  | none => rw [ha] at this; exact this.elim
  | some vs => rw [ha] at this; exact this.1

theorem run_append (s : State) (l m : List Op) : run s (l ++ m) = (run s l).bind fun s => run s m := by
  induction l generalizing s with
  | nil => rfl
  | cons op l ih =>
    show ((step s op).bind fun s => run s (l ++ m)) = ((step s op).bind fun s => run s l).bind fun s => run s m
    cases step s op with
    | error e => rfl
    | ok s => exact ih s

theorem Reachable.step {s s' : State} {op : Op} (h : Reachable s) (hs : step s op = .ok s') : Reachable s' := by
  obtain ⟨ops, h⟩ := h
  refine ⟨ops ++ [op], ?_⟩
  rw [run_append, h]
  show (Share.step s op).bind (fun s => run s []) = _
  rw [hs]
  rfl

/-- **C60.** After every history, the values are those of the same history without sharing. -/
theorem C60_history (ops : List Op) (s : State) (h : run .init ops = .ok s) : arun [] ops = some s.value := by
  have := run_agrees ops inv_init
  rw [h] at this
  cases ha : arun State.init.value ops with
  | none => rw [ha] at this; exact this.elim
  | some vs => rw [ha] at this; rw [this.2]; exact ha

/-- **C60.** Every history that makes sense without sharing runs to its end. -/
theorem C60_complete (ops : List Op) (vs : List AVal) (h : arun [] ops = some vs) : ∃ s, run .init ops = .ok s ∧ s.value = vs := by
  have := run_agrees ops inv_init
  have hv : State.init.value = [] := rfl
  rw [hv, h] at this
  cases hr : run .init ops with
  | error e => rw [hr] at this; cases e <;> exact this.elim
  | ok s => rw [hr] at this; exact ⟨s, rfl, this.2⟩

/-- **C60.** No history follows a counter of a freed cell. -/
theorem C60_never_dangling (ops : List Op) : run .init ops ≠ .error .dangling := by
  intro h
  have := run_agrees ops inv_init
  rw [h] at this
  cases ha : arun State.init.value ops <;> (rw [ha] at this; exact this.elim)

/-- **C60.** `set_yaml` of one node: it keeps its position and tag and has the new data; every
other value that the program owns, whatever it shares with the node, is as before. -/
theorem C60_set_yaml (s : State) (hs : Reachable s) (k : Nat) (y : Yaml) (vs : List AVal) (n : Node)
    (hv : s.value = .data y :: vs) (hn : vs[k]? = some (.node n)) :
    ∃ s', step s (.setYaml k) = .ok s' ∧
      s'.value[k]? = some (.node (.mk n.pos n.rawTag y)) ∧ (∀ j, j ≠ k → s'.value[j]? = vs[j]?) := by
  have h1 := step_agrees hs.inv (.setYaml k)
  have h2 : astep s.value (.setYaml k) = some (vs.set k (.node (.mk n.pos n.rawTag y))) := by
    rw [hv]; simp only [astep, hn]
  rw [h2] at h1
  cases he : step s (.setYaml k) with
  | error e => rw [he] at h1; cases e <;> exact h1.elim
  | ok s' =>
    rw [he] at h1
    have hlt := (List.getElem?_eq_some_iff.1 hn).1
    refine ⟨s', rfl, ?_, fun j hj => ?_⟩
    · rw [h1.2, List.getElem?_set]; simp [hlt]
    · rw [h1.2, List.getElem?_set]; simp [Ne.symm hj]

/-- **C60.** `set_repr` the same way, with the data of the counter. -/
theorem C60_set_repr (s : State) (hs : Reachable s) (k : Nat) (y : Yaml) (vs : List AVal) (n : Node)
    (hv : s.value = .rc y :: vs) (hn : vs[k]? = some (.node n)) :
    ∃ s', step s (.setRepr k) = .ok s' ∧
      s'.value[k]? = some (.node (.mk n.pos n.rawTag y)) ∧ (∀ j, j ≠ k → s'.value[j]? = vs[j]?) := by
  have h1 := step_agrees hs.inv (.setRepr k)
  have h2 : astep s.value (.setRepr k) = some (vs.set k (.node (.mk n.pos n.rawTag y))) := by
    rw [hv]; simp only [astep, hn]
  rw [h2] at h1
  cases he : step s (.setRepr k) with
  | error e => rw [he] at h1; cases e <;> exact h1.elim
  | ok s' =>
    rw [he] at h1
    have hlt := (List.getElem?_eq_some_iff.1 hn).1
    refine ⟨s', rfl, ?_, fun j hj => ?_⟩
    · rw [h1.2, List.getElem?_set]; simp [hlt]
    · rw [h1.2, List.getElem?_set]; simp [Ne.symm hj]

/-! ## Counts -/

/-- The holders of a cell: the nodes and counters among the owned values, the nodes in owned
data, and the nodes in the data of cells that are not freed. -/
def holders (s : State) (a : Nat) : Nat :=
  (s.vals.flatMap Val.addrs).count a +
    (s.heap.flatMap fun c => match c with | some (_, d) => d.addrs | none => []).count a

/-- **C61.** `strong_count` is the number of holders. -/
theorem C61_strong_count (s : State) (hs : Reachable s) (a : Nat) : strongCount s.heap a = holders s a :=
  hs.inv.count a

theorem strongCount_incr {h h' : Heap} {a : Nat} (hc : incr a h = some h') :
    ∀ b, strongCount h' b = if b = a then strongCount h b + 1 else strongCount h b := by
  intro b
  rw [incr] at hc
  split at hc
  · rename_i c d he
    cases hc
    rw [strongCount_set (List.getElem?_eq_some_iff.1 he).1]
    by_cases hab : a = b
    · subst hab
      simp only [if_true, strongCount, he]
    · simp only [hab, Ne.symm hab, if_false]
  · cases hc

/-- **C61.** `clone` of a node makes no new cell: the clone is a node of the same cell, whose
count is one more; no other count changes. -/
theorem C61_clone (s s' : State) (k : Nat) (r : Ref) (hk : s.vals[k]? = some (.node r))
    (h : step s (.clone k) = .ok s') :
    s'.vals = .node r :: s.vals ∧ s'.heap.length = s.heap.length ∧
      ∀ b, strongCount s'.heap b = if b = r.addr then strongCount s.heap b + 1 else strongCount s.heap b := by
  simp only [step, hk, Val.addrs, incrAll] at h
  cases hi : incr r.addr s.heap with
  | none => rw [hi] at h; cases h
  | some h' =>
    rw [hi] at h
    cases h
    refine ⟨rfl, ?_, strongCount_incr hi⟩
    rw [incr] at hi
    split at hi
    · cases hi; simp
    · cases hi

/-- **C61.** A clone that goes out of scope leaves the counts as they were. -/
theorem C61_clone_drop (s : State) (hs : Reachable s) (k : Nat) (r : Ref) (hk : s.vals[k]? = some (.node r)) :
    ∃ s', run s [.clone k, .drop 0] = .ok s' ∧ s'.vals = s.vals ∧ ∀ b, strongCount s'.heap b = strongCount s.heap b := by
  have hr := run_agrees [.clone k, .drop 0] hs.inv
  have hg := value_get (s := s) (k := k)
  rw [hk, Option.map_some, Val.value] at hg
  have ha : arun s.value [.clone k, .drop 0] = some s.value := by
    simp only [arun, astep, hg, Option.bind_some, List.getElem?_cons_zero, List.eraseIdx_cons_zero]
  rw [ha] at hr
  cases hc : run s [.clone k, .drop 0] with
  | error e => rw [hc] at hr; cases e <;> exact hr.elim
  | ok s' =>
    rw [hc] at hr
    simp only [run, bind, Except.bind] at hc
    cases h1 : step s (.clone k) with
    | error e => rw [h1] at hc; cases hc
    | ok s1 =>
      rw [h1] at hc
      simp only at hc
      obtain ⟨hv, hl, hcnt⟩ := C61_clone s s1 k r hk h1
      cases h2 : step s1 (.drop 0) with
      | error e => rw [h2] at hc; cases hc
      | ok s2 =>
        rw [h2] at hc
        simp only [Except.ok.injEq] at hc
        subst hc
        have hi1 := (hs.step h1).inv
        simp only [step, hv, List.getElem?_cons_zero, Val.addrs] at h2
        have hpos : 0 < strongCount s.heap r.addr := by
          rw [hs.inv.count]
          have : r.addr ∈ held s.vals := List.mem_flatMap.2 ⟨_, List.mem_of_getElem? hk, by simp [Val.addrs]⟩
          have := List.count_pos_iff.2 this
          omega
        have hc1 := hcnt r.addr
        rw [if_pos rfl] at hc1
        rw [hv, held_cons] at hi1
        obtain ⟨c, d, he⟩ := hi1.root (a := r.addr) (by simp [Val.addrs])
        have hcc : strongCount s1.heap r.addr = c := by simp only [strongCount, he]
        obtain ⟨c, rfl⟩ : ∃ i, c = i + 2 := ⟨c - 2, by omega⟩
        have hd : dropAll [r.addr] s1.heap = some (s1.heap.set r.addr (some (c + 1, d))) := by
          rw [dropAll]
          split
          · rename_i c2 d2 h2
            rw [he] at h2
            simp only [Option.some.injEq, Prod.mk.injEq] at h2
            obtain ⟨h2, rfl⟩ := h2
            have : c2 = c + 1 := by omega
            subst this
            rw [if_neg (by omega), dropAll]
          · rename_i h2; exact absurd he (h2 _ _)
        rw [hd] at h2
        cases h2
        refine ⟨_, rfl, by simp, fun b => ?_⟩
        rw [strongCount_set (List.getElem?_eq_some_iff.1 he).1]
        have := hcnt b
        by_cases hb : r.addr = b
        · subst hb; simp only [if_true]; omega
        · simp only [hb, if_false]; rw [this, if_neg (Ne.symm hb)]

/-! ## Freeing -/

/-- **C62.** The cells that are not freed are exactly those that the owned values reach. -/
theorem C62_live_iff_reached (s : State) (hs : Reachable s) (a : Nat) :
    Live s.heap a ↔ Reach s.heap (s.vals.flatMap Val.addrs) a := hs.inv.reach a

/-- **C62.** When nothing is owned any more, everything is freed. -/
theorem C62_all_freed (s : State) (hs : Reachable s) (hv : s.vals = []) : ∀ c ∈ s.heap, c = none := by
  intro c hc
  cases c with
  | none => rfl
  | some x =>
    obtain ⟨a, ha⟩ := List.getElem?_of_mem hc
    have : Reach s.heap [] a := by
      have := (C62_live_iff_reached s hs a).1 ⟨x.1, x.2, ha⟩
      rw [hv] at this; exact this
    have key : ∀ b, Reach s.heap [] b → False := by
      intro b hb
      induction hb with
      | root h => cases h
      | child _ _ _ ih => exact ih
    exact (key a this).elim

/-- Dropping all values, one after the other. -/
theorem dropAll_values : ∀ (n : Nat) (s : State), Inv s.heap (held s.vals) → s.vals.length = n →
    ∃ s', run s (List.replicate n (.drop 0)) = .ok s' ∧ s'.vals = []
  | 0, s, _, hn => ⟨s, rfl, List.length_eq_zero_iff.1 hn⟩
  | n + 1, s, hi, hn => by
    have h1 := step_agrees hi (.drop 0)
    obtain ⟨h, vs⟩ := s
    cases vs with
    | nil => cases hn
    | cons v vs =>
      have h2 : astep (State.mk h (v :: vs)).value (.drop 0) = some (vs.map (Val.value h)) := rfl
      rw [h2] at h1
      cases hs : step ⟨h, v :: vs⟩ (.drop 0) with
      | error e => rw [hs] at h1; cases e <;> exact h1.elim
      | ok s' =>
        rw [hs] at h1
        have hl : s'.vals.length = n := by
          have := congrArg List.length h1.2
          simp only [State.value, List.length_map] at this
          simp only [List.length_cons] at hn
          omega
        obtain ⟨s2, e2, hv2⟩ := dropAll_values n s' h1.1 hl
        refine ⟨s2, ?_, hv2⟩
        rw [List.replicate_succ, run, hs]
        exact e2

/-- **C62.** From every state, the end of all scopes frees everything. -/
theorem C62_end (s : State) (hs : Reachable s) :
    ∃ s', run s (List.replicate s.vals.length (.drop 0)) = .ok s' ∧ ∀ c ∈ s'.heap, c = none := by
  obtain ⟨s', e, hv⟩ := dropAll_values _ s hs.inv rfl
  refine ⟨s', e, C62_all_freed s' ?_ hv⟩
  obtain ⟨ops, ho⟩ := hs
  refine ⟨ops ++ List.replicate s.vals.length (.drop 0), ?_⟩
  rw [run_append, ho]
  exact e

/-! ## Equality -/

/-- **C63.** Where the comparison of the values answers, the comparison of the shared nodes
gives the same answer. -/
theorem C63_eq (s : State) (hs : Reachable s) (r1 r2 : Ref) (h1 : .node r1 ∈ s.vals) (h2 : .node r2 ∈ s.vals) (b : Bool)
    (h : Node.eq? (r1.value s.heap) (r2.value s.heap) = .ok b) : addrEq? s.heap r1.addr r2.addr = .ok b := by
  have hm : ∀ r : Ref, Val.node r ∈ s.vals → Live s.heap r.addr := fun r hr =>
    hs.inv.root (List.mem_flatMap.2 ⟨_, hr, by simp [Val.addrs]⟩)
  exact addrEq_ok hs.inv _ _ (hm r1 h1) (hm r2 h2) b h

/-- **C63.** In particular for nodes whose numbers can be read, where it always answers. -/
theorem C63_eq_readable (s : State) (hs : Reachable s) (r1 r2 : Ref) (h1 : .node r1 ∈ s.vals) (h2 : .node r2 ∈ s.vals)
    (hr1 : Readable (r1.value s.heap)) (hr2 : Readable (r2.value s.heap)) :
    addrEq? s.heap r1.addr r2.addr = Node.eq? (r1.value s.heap) (r2.value s.heap) := by
  have h := eq?_ok _ hr1 _ hr2
  rw [h]
  exact C63_eq s hs r1 r2 h1 h2 _ h

/-- **C63.** A clone is always equal to its original, whatever the data, and without panic. -/
theorem C63_clone_equal (s s' : State) (k : Nat) (r : Ref) (hk : s.vals[k]? = some (.node r))
    (h : step s (.clone k) = .ok s') :
    ∃ r', s'.vals[0]? = some (.node r') ∧ s'.vals[k + 1]? = some (.node r) ∧ addrEq? s'.heap r'.addr r.addr = .ok true := by
  obtain ⟨hv, _, _⟩ := C61_clone s s' k r hk h
  refine ⟨r, by rw [hv]; rfl, by rw [hv]; simpa using hk, ?_⟩
  rw [addrEq?, if_pos rfl]

/-! ## Examples -/

/-- `let a = Node::new(Str("v"), 1, ""); let b = a.clone(); let c = Node::new(Seq([b]), 2, "");
a.set_yaml(Bool(true));` -/
def exampleHistory : List Op :=
  [.scalar (.str b!"v"), .new 1 [], .clone 0, .seqOf 1, .new 2 [], .scalar (.bool true), .setYaml 1]

/-- The values: the sequence has the old data, `a` the new one. -/
example : arun [] exampleHistory =
    some [.node (.mk 2 [] (.seq [.mk 1 [] (.str b!"v")])), .node (.mk 1 [] (.bool true))] := rfl

/-- The history can be run, so the theorems apply. -/
example : ∃ s, run .init exampleHistory = .ok s ∧
    s.value = [.node (.mk 2 [] (.seq [.mk 1 [] (.str b!"v")])), .node (.mk 1 [] (.bool true))] :=
  C60_complete _ _ rfl

/-- The doc example of `Node::rc_ref` (node.rs:185-204): the count is one, two with a clone. -/
example : ∃ s, run .init [.scalar (.str b!"a"), .new 0 []] = .ok s ∧ strongCount s.heap 0 = 1 := ⟨_, rfl, rfl⟩
example : ∃ s, run .init [.scalar (.str b!"a"), .new 0 [], .clone 0] = .ok s ∧ strongCount s.heap 0 = 2 := ⟨_, rfl, rfl⟩

/-- An operation that does not fit is rejected on both sides. -/
example : arun [] [.scalar .null, .clone 0, .setYaml 0] = none := rfl

/-- **C63, the difference.** For numbers that cannot be read, sharing can be seen: a node is equal
to its clone, but comparing it with the same data built anew panics. -/
theorem C63_counterexample_shared :
    ∃ s r1 r2 r3, run .init [.scalar (.int b!"99999999999999999999"), .new 0 [], .clone 0,
        .scalar (.int b!"99999999999999999999"), .new 0 []] = .ok s ∧
      s.vals = [.node r3, .node r2, .node r1] ∧
      r1.value s.heap = r2.value s.heap ∧ r1.value s.heap = r3.value s.heap ∧
      addrEq? s.heap r1.addr r2.addr = .ok true ∧ addrEq? s.heap r1.addr r3.addr = .panic .intUnwrap := by
  refine ⟨⟨[some (2, .int b!"99999999999999999999"), some (1, .int b!"99999999999999999999")],
    [.node ⟨0, [], 1⟩, .node ⟨0, [], 0⟩, .node ⟨0, [], 0⟩]⟩, ⟨0, [], 0⟩, ⟨0, [], 0⟩, ⟨0, [], 1⟩, rfl, rfl, rfl, ?_, ?_, ?_⟩
  · simp [Ref.value, look, Data.value]
  · rw [addrEq?, if_pos rfl]
  · rw [addrEq?, if_neg (by decide)]
    simp only [List.getElem?_cons_zero, List.getElem?_cons_succ, Data.eq?]
    decide

end YamlPeg.Props
