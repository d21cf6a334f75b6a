import Verif.Proof.Shift
import Verif.Proof.Layout
import Verif.Props.Loader
import Verif.Props.Text
/-!
# Beginning further on: C76 (a loader set to a position), C77 (lines in front of `---`)
-/

namespace YamlPeg.Props
open YamlPeg M

/-- The second outcome is the first one, further on: the values become those of `f`; errors keep their
kind and name, and their messages are those for the same place, in `D` and in `pre ++ D`. -/
def FurtherOn {α : Type} (pre D : Bytes) (f : α → α) : Out α → Out α → Prop
  | .ok v, .ok v' => v' = f v
  | .err .mismatch, .err .mismatch => True
  | .err (.terminate name m), .err (.terminate name' m') => name' = name ∧
      ∃ p ≤ D.length, indicatedMsg D p = some m ∧ indicatedMsg (pre ++ D) (p + pre.length) = some m'
  | .panic q, .panic q' => q' = q
  | .diverge, .diverge => True
  | _, _ => False

/-- All documents, `k` bytes further on. -/
def moveRoots (k : Nat) (v : List Node) : List Node := v.map (Node.mapPos (· + k))

/-- All documents and their anchors, `k` bytes further on. -/
def moveAll (k : Nat) (v : List Node × List Anchors) : List Node × List Anchors :=
  (moveRoots k v.1, v.2.map (mapPosAnchors (· + k)))

/-! ## Positions as they are -/

mutual
theorem Node.mapPos_id : ∀ n : Node, n.mapPos id = n
  | .mk p t y => by simp only [Node.mapPos]; rw [Yaml.mapPos_id y]; rfl
theorem Yaml.mapPos_id : ∀ y : Yaml, y.mapPos id = y
  | .null | .bool _ | .int _ | .float _ | .str _ | .alias _ => rfl
  | .seq v => by simp only [Yaml.mapPos]; rw [mapPosNodes_id v]
  | .map m => by simp only [Yaml.mapPos]; rw [mapPosEntries_id m]
theorem mapPosNodes_id : ∀ l : List Node, mapPosNodes id l = l
  | [] => rfl
  | x :: r => by simp only [mapPosNodes]; rw [Node.mapPos_id x, mapPosNodes_id r]
theorem mapPosEntries_id : ∀ l : List (Node × Node), mapPosEntries id l = l
  | [] => rfl
  | x :: r => by simp only [mapPosEntries]; rw [mapPosEntry_id x, mapPosEntries_id r]
theorem mapPosEntry_id : ∀ e : Node × Node, mapPosEntry id e = e
  | (k, v) => by simp only [mapPosEntry]; rw [Node.mapPos_id k, Node.mapPos_id v]
end

theorem roots_id (v : List Node) : v.map (Node.mapPos id) = v := by
  rw [show Node.mapPos id = id from funext Node.mapPos_id, List.map_id]

theorem anchors_id (v : List Anchors) : v.map (mapPosAnchors id) = v := by
  rw [show mapPosAnchors id = id from funext fun a => by
    simp only [mapPosAnchors, Node.mapPos_id]; exact List.map_id _, List.map_id]

/-! ## From the simulation to outcomes -/

theorem furtherOn_of {pre D : Bytes} : ∀ {r r' : Out (List Node)}, OutRel (SamePlace pre D) (NsR (· + pre.length) id) r r' →
    FurtherOn pre D (moveRoots pre.length) r r'
  | .ok v, .ok v', h => by
    have : v.map (Node.mapPos (· + pre.length)) = v'.map (Node.mapPos id) := h
    rw [roots_id] at this
    exact this.symm
  | .err .mismatch, .err .mismatch, _ => trivial
  | .err (.terminate _ _), .err (.terminate _ _), h => by
    obtain ⟨h1, p, h2, h3⟩ := h
    exact ⟨h1.symm, p, (indicatedMsg_isSome D p).1 (by rw [h2]; rfl), h2, h3⟩
  | .err .mismatch, .err (.terminate _ _), h => h
  | .err (.terminate _ _), .err .mismatch, h => h
  | .panic p, .panic q, h => by
    have : p = q := h
    exact this.symm
  | .diverge, .diverge, _ => trivial
  | .ok _, .err _, h | .ok _, .panic _, h | .ok _, .diverge, h => h.elim
  | .err e, .ok _, h | .err e, .panic _, h | .err e, .diverge, h => by cases e <;> exact h.elim
  | .panic _, .ok _, h | .panic _, .err _, h | .panic _, .diverge, h => h.elim
  | .diverge, .ok _, h | .diverge, .err _, h | .diverge, .panic _, h => h.elim

theorem furtherOn_map {pre D : Bytes} {a a' : List Anchors} (ha : a' = a.map (mapPosAnchors (· + pre.length))) :
    ∀ {r r' : Out (List Node)}, FurtherOn pre D (moveRoots pre.length) r r' →
    FurtherOn pre D (moveAll pre.length) (r.map fun v => (v, a)) (r'.map fun v => (v, a'))
  | .ok v, .ok v', h => by
    have : v' = moveRoots pre.length v := h
    change (v', a') = _
    rw [this, ha]; rfl
  | .err .mismatch, .err .mismatch, _ => trivial
  | .err (.terminate _ _), .err (.terminate _ _), h => h
  | .err .mismatch, .err (.terminate _ _), h => h
  | .err (.terminate _ _), .err .mismatch, h => h
  | .panic _, .panic _, h => h
  | .diverge, .diverge, _ => trivial
  | .ok _, .err _, h | .ok _, .panic _, h | .ok _, .diverge, h => h.elim
  | .err e, .ok _, h | .err e, .panic _, h | .err e, .diverge, h => by cases e <;> exact h.elim
  | .panic _, .ok _, h | .panic _, .err _, h | .panic _, .diverge, h => h.elim
  | .diverge, .ok _, h | .diverge, .err _, h | .diverge, .panic _, h => h.elim

theorem furtherOn_all {pre D : Bytes} {r r' : Out (List Node)} {a a' : List Anchors}
    (h : OutRel (SamePlace pre D) (NsR (· + pre.length) id) r r')
    (ha : a.map (mapPosAnchors (· + pre.length)) = a'.map (mapPosAnchors id)) :
    FurtherOn pre D (moveAll pre.length) (r.map fun v => (v, a)) (r'.map fun v => (v, a')) :=
  furtherOn_map (by rw [ha, anchors_id]) (furtherOn_of h)

theorem FurtherOn.ok {α : Type} {pre D : Bytes} {f : α → α} {v : α} : ∀ {r : Out α}, FurtherOn pre D f (.ok v) r → r = .ok (f v)
  | .ok _, h => congrArg Out.ok h
  | .err _, h | .panic _, h | .diverge, h => h.elim

/-- The loader over `doc`, its parser set to the position `pos`. -/
def loaderAt (h : HashCfg) (cyclic : Bool) (doc : Bytes) (pos : Nat) : Loader :=
  { Loader.new h doc with cyclicMode := cyclic, parser := (Parser.new doc).setPos pos }

theorem parse_not_underflow {h : HashCfg} {n : Nat} {D : Bytes} (hp : (loaderParse n (Loader.new h D)).1 = .panic .underflow) : False := by
  rcases C02_panic_causes_partial h n D .underflow hp with ⟨h, -⟩ | ⟨h, -⟩ <;> cases h

theorem parseCyclic_not_underflow {h : HashCfg} {n : Nat} {D : Bytes}
    (hp : (loaderParse n { Loader.new h D with cyclicMode := true }).1 = .panic .underflow) : False := by
  rcases C02_panic_causes_cyclic_partial h n D .underflow (by
    unfold parseCyclic
    rcases hx : loaderParse n { Loader.new h D with cyclicMode := true } with ⟨r, l⟩
    rw [hx] at hp; simp only at hp; subst hp; rfl) with ⟨h, -⟩ | ⟨h, -⟩ <;> cases h

theorem start_related (h : HashCfg) (cyclic : Bool) (pre D : Bytes) :
    LR (shiftCfg pre D) (· + pre.length) id { Loader.new h D with cyclicMode := cyclic } (loaderAt h cyclic (pre ++ D) pre.length) := by
  refine ⟨⟨rfl, ?_⟩, rfl, rfl, rfl, rfl⟩
  simp [loaderAt, Parser.setPos, Parser.behind, Loader.new, Parser.new]

/-- **C76.** A loader whose parser is set behind a text does what it does on the rest alone, further on. -/
theorem C76_begin_anywhere (h : HashCfg) (n : Nat) (pre D : Bytes) :
    FurtherOn pre D (moveRoots pre.length) (parse h n D) (loaderParse n (loaderAt h false (pre ++ D) pre.length)).1 := by
  rcases (shift_base pre D).loaderParse n _ _ (start_related h false pre D) with hp | ⟨h1, -⟩
  · exact (parse_not_underflow hp).elim
  · exact furtherOn_of h1

/-- **C76.** The same in cyclic mode, with the anchors. -/
theorem C76_begin_anywhere_cyclic (h : HashCfg) (n : Nat) (pre D : Bytes) :
    FurtherOn pre D (moveAll pre.length) (parseCyclic h n D)
      ((loaderParse n (loaderAt h true (pre ++ D) pre.length)).1.map fun v =>
        (v, (loaderParse n (loaderAt h true (pre ++ D) pre.length)).2.anchors)) := by
  rcases (shift_base pre D).loaderParse n _ _ (start_related h true pre D) with hp | ⟨h1, h2⟩
  · exact (parseCyclic_not_underflow hp).elim
  · exact furtherOn_all h1 h2.anchors

/-- For instance: behind a text that is no YAML. -/
example : (loaderParse 20 (loaderAt .exact false (b!"]{ " ++ b!"a: [1]\n") (b!"]{ ").length)).1 =
    .ok (moveRoots (b!"]{ ").length [.mk 0 [] (.map [(.mk 0 [] (.str b!"a"), .mk 3 [] (.seq [.mk 4 [] (.int b!"1")]))])]) := by
  have key : ∀ pre D v, parse .exact 20 D = .ok v →
      (loaderParse 20 (loaderAt .exact false (pre ++ D) pre.length)).1 = .ok (moveRoots pre.length v) := by
    intro pre D v h1
    have := C76_begin_anywhere .exact 20 pre D
    rw [h1] at this
    exact this.ok
  exact key _ _ _ (by decide +kernel)

example : moveRoots 3 [.mk 0 [] (.map [(.mk 0 [] (.str b!"a"), .mk 3 [] (.seq [.mk 4 [] (.int b!"1")]))])] =
    [.mk 3 [] (.map [(.mk 3 [] (.str b!"a"), .mk 6 [] (.seq [.mk 7 [] (.int b!"1")]))])] := by decide +kernel

/-! ## C77 -/

theorem doc_mid (n : Nat) (L : Loader) (k : Ctx) (pre mid post : Bytes) :
    doc n (ld L (st k pre mid post)) = doc n (ld L (st k (pre ++ mid) [] post)) := by
  have hb : ∀ pre mid, lift (context (orDefault () bound)) (ld L (st k pre mid post)) =
      (.ok (), ld L (if headIn b!":{}[] ,\n\r" post then st k pre (mid ++ post.takeWhile isBlank) (post.dropWhile isBlank)
        else st k pre mid post)) := by
    intro pre mid
    by_cases hb : headIn b!":{}[] ,\n\r" post = true
    · rw [if_pos hb]
      have := context_st (k := k) (k' := k) (pre := pre) (mid := mid) (post := post) (p' := []) (m' := post.takeWhile isBlank)
        (post' := post.dropWhile isBlank) (o := .ok ()) (f := orDefault () bound) (by
          rw [orDefault_ok (by rw [bound_eq, if_pos hb])]; simp)
      refine lift_of ?_
      simpa using this
    · rw [if_neg hb]
      have := context_st (k := k) (k' := k) (pre := pre) (mid := mid) (post := post) (p' := []) (m' := [])
        (post' := post) (o := .ok ()) (f := orDefault () bound) (by
          rw [orDefault_err (by rw [bound_eq, if_neg hb])]; simp)
      refine lift_of ?_
      simpa using this
  unfold YamlPeg.doc
  rw [bind_ok (hb pre mid), bind_ok (hb (pre ++ mid) [])]
  by_cases hb : headIn b!":{}[] ,\n\r" post = true
  · rw [if_pos hb, if_pos hb, bind_ok (lift_of (forward_st ..)), bind_ok (lift_of (forward_st ..))]
    simp
  · rw [if_neg hb, if_neg hb, bind_ok (lift_of (forward_st ..)), bind_ok (lift_of (forward_st ..))]
    simp

theorem idle_gapText {G : Bytes} (h : IdleLines G) : GapText G := by
  obtain ⟨nl, ls, h1, h2, h3, rfl⟩ := h
  exact gapText_lines h1 h2 h3

theorem idle_percent {G R r : Bytes} (h : IdleLines G) : G ++ R ≠ 0x25 :: r := by
  obtain ⟨nl, ls, h1, h2, h3, rfl⟩ := h
  cases ls with
  | nil => exact absurd rfl h2
  | cons l ls =>
    rcases h3 l (by simp) with rfl | ⟨b, c, rfl, hb, -⟩
    · rcases h1 with rfl | rfl <;> simp [gapLines]
    · cases b with
      | nil => simp [gapLines]
      | cons x b =>
        have := hb x (by simp)
        rintro e
        simp only [gapLines, List.cons_append, List.cons.injEq] at e
        rw [e.1] at this
        exact absurd this (by decide)

theorem opening (h : HashCfg) (cyc : Bool) (n : Nat) {G : Bytes} (hG : G = [] ∨ IdleLines G) (D : Bytes) :
    loaderParse (n + 1) { Loader.new h (G ++ (b!"---" ++ D)) with cyclicMode := cyc } =
      (do let d ← doc (n + 1); docsLoop (n + 1) (n + 1) [d])
        (ld { Loader.new h (G ++ (b!"---" ++ D)) with cyclicMode := cyc } (st .start (G ++ b!"---") [] D)) := by
  rw [show ({ Loader.new h (G ++ (b!"---" ++ D)) with cyclicMode := cyc } : Loader) =
    ld { Loader.new h (G ++ (b!"---" ++ D)) with cyclicMode := cyc } (st .start [] [] (G ++ (b!"---" ++ D))) by
      simp [ld, Loader.new, st, Parser.new, Ctx.start]]
  rw [loaderParse]
  rw [bind_ok (directives_none (by omega) (by
    rcases hG with rfl | hG
    · rintro _ ⟨⟩
    · exact fun r => idle_percent hG) _ _ _)]
  have hg : ∃ t, orDefault 0 (gap true) (st .start [] [] (G ++ (b!"---" ++ D))) = (.ok t, st .start [] G (b!"---" ++ D)) := by
    rcases hG with rfl | hG
    · have hs : gapSpec true (b!"---" ++ D) = none := by rfl
      refine ⟨0, ?_⟩
      rw [orDefault_err (by rw [gap_eq, List.nil_append, hs])]
      rfl
    · obtain ⟨t, ht⟩ := (idle_gapText hG).gap (j := 0) (c := 0x2D) (r := b!"--" ++ D) (by decide) (k := .start) (pre := []) (mid := [])
      exact ⟨t, orDefault_ok ht⟩
  obtain ⟨t, hg⟩ := hg
  rw [bind_ok (lift_of hg), bind_ok (lift_of (orDefault_ok (symSeq_hit ..)))]
  rw [bind_run, doc_mid, ← bind_run]
  rfl


theorem opening_sim (G D : Bytes) (n : Nat) :
    Sim (lcfg (shiftCfg G D) (· + G.length) id) (NsR (· + G.length) id)
      (do let d ← doc n; docsLoop n n [d]) (do let d ← doc n; docsLoop n n [d]) :=
  Sim.bind ((shift_base _ _).doc _) fun x y hx => (shift_base _ _).docsLoop _ _ _ _ (by
    simp only [NsR, List.map_cons, List.map_nil]
    rw [show x.mapPos (· + G.length) = _ from hx])

theorem opening_related (h : HashCfg) (cyc : Bool) (G M D : Bytes) :
    LR (shiftCfg G (M ++ D)) (· + G.length) id (ld { Loader.new h (M ++ D) with cyclicMode := cyc } (st .start M [] D))
      (ld { Loader.new h (G ++ (M ++ D)) with cyclicMode := cyc } (st .start (G ++ M) [] D)) := by
  refine ⟨⟨by simp [ld, st], ?_⟩, rfl, rfl, rfl, rfl⟩
  simp [ld, st, Parser.behind, Nat.add_comm]

theorem front_sim (h : HashCfg) (cyc : Bool) (n : Nat) {G : Bytes} (hG : IdleLines G) (D : Bytes) :
    SimAt (lcfg (shiftCfg G (b!"---" ++ D)) (· + G.length) id) (NsR (· + G.length) id)
      (loaderParse (n + 1) { Loader.new h (b!"---" ++ D) with cyclicMode := cyc })
      (loaderParse (n + 1) { Loader.new h (G ++ (b!"---" ++ D)) with cyclicMode := cyc }) := by
  rw [opening h cyc n (.inr hG) D]
  have := opening h cyc n (.inl rfl) D
  simp only [List.nil_append] at this
  rw [this]
  exact opening_sim _ _ _ _ _ (opening_related h cyc G _ D)

theorem front_out (h : HashCfg) (n : Nat) (G D : Bytes)
    (key : ∀ cyc, SimAt (lcfg (shiftCfg G D) (· + G.length) id) (NsR (· + G.length) id)
      (loaderParse n { Loader.new h D with cyclicMode := cyc }) (loaderParse n { Loader.new h (G ++ D) with cyclicMode := cyc })) :
    FurtherOn G D (moveRoots G.length) (parse h n D) (parse h n (G ++ D)) ∧
    FurtherOn G D (moveAll G.length) (parseCyclic h n D) (parseCyclic h n (G ++ D)) := by
  constructor
  · rcases key false with hp | ⟨h1, -⟩
    · exact (parse_not_underflow hp).elim
    · exact furtherOn_of h1
  · rcases key true with hp | ⟨h1, h2⟩
    · exact (parseCyclic_not_underflow hp).elim
    · exact furtherOn_all h1 h2.anchors

theorem zero_diverges (h : HashCfg) (D : Bytes) : parse h 0 D = .diverge ∧ parseCyclic h 0 D = .diverge := by
  have e : ∀ l : Loader, loaderParse 0 l = (.diverge, l) := fun l => by rw [loaderParse, bind_run]; rfl
  exact ⟨by rw [parse, e], by rw [parseCyclic, e]; rfl⟩

/-- **C77.** Empty lines and comment lines in front of a stream that begins with `---` make no difference:
everything is the same, further on. -/
theorem C77_lines_in_front (h : HashCfg) (n : Nat) (G D : Bytes) (hG : IdleLines G) :
    FurtherOn G (b!"---" ++ D) (moveRoots G.length) (parse h n (b!"---" ++ D)) (parse h n (G ++ (b!"---" ++ D))) ∧
    FurtherOn G (b!"---" ++ D) (moveAll G.length) (parseCyclic h n (b!"---" ++ D)) (parseCyclic h n (G ++ (b!"---" ++ D))) := by
  cases n with
  | zero =>
    rw [(zero_diverges h _).1, (zero_diverges h _).2, (zero_diverges h _).1, (zero_diverges h _).2]
    exact ⟨trivial, trivial⟩
  | succ n => exact front_out h _ _ _ fun cyc => front_sim h cyc n hG D

/-- What an error message becomes: the line is the same, and so is the column; the line number grows by the
number of line feeds in front. -/
theorem C77_message (G D m : Bytes) (p : Nat) (hp : p ≤ D.length) (hG : G.getLast? = some 0x0A) (hm : indicatedMsg D p = some m) :
    ∃ rest, m = natDec (lineNo D p) ++ rest ∧
      indicatedMsg (G ++ D) (p + G.length) = some (natDec (lineNo D p + G.count 0x0A) ++ rest) := by
  rw [C06_indicated_msg D p hp, Option.some.injEq] at hm
  refine ⟨b!":" ++ natDec (colNo D p) ++ b!"\n" ++ lossy (lineBefore D p ++ lineAfter D p) ++ b!"\n" ++
      List.replicate (colNo D p - 1) 0x20 ++ b!"^", by rw [← hm]; simp only [List.append_assoc], ?_⟩
  rw [C06_indicated_msg _ _ (by rw [List.length_append]; omega)]
  have e1 : (G ++ D).take (p + G.length) = G ++ D.take p := by rw [Nat.add_comm, List.take_length_add_append]
  have e2 : (G ++ D).drop (p + G.length) = D.drop p := by
    rw [Nat.add_comm, ← List.drop_drop, List.drop_left]
  have e3 : lineBefore (G ++ D) (p + G.length) = lineBefore D p := by
    obtain ⟨G', rfl⟩ : ∃ G', G = G' ++ [0x0A] := by
      rw [List.getLast?_eq_some_iff] at hG; exact hG
    simp only [lineBefore, e1]
    rw [List.reverse_append, List.takeWhile_append]
    split
    · rename_i hl
      have : (D.take p).reverse.takeWhile notNl = (D.take p).reverse :=
        (List.takeWhile_sublist _).eq_of_length hl
      rw [this]
      simp [notNl]
    · rfl
  have e4 : lineAfter (G ++ D) (p + G.length) = lineAfter D p := by simp only [lineAfter, e2]
  have e5 : lineNo (G ++ D) (p + G.length) = lineNo D p + G.count 0x0A := by
    simp only [lineNo, e1, List.count_append]; omega
  have e6 : colNo (G ++ D) (p + G.length) = colNo D p := by simp only [colNo, e3]
  rw [e3, e4, e5, e6]
  simp only [List.append_assoc]


example : IdleLines b!"\n  # c\n" := ⟨b!"\n", [[], b!"  # c"], .inl rfl, by simp, by
  intro x hx
  simp only [List.mem_cons, List.not_mem_nil, or_false] at hx
  rcases hx with rfl | rfl
  · exact .inl rfl
  · exact .inr ⟨b!"  ", b!" c", rfl, by decide, by decide⟩, rfl⟩

example : parse .exact 30 b!"---\n!t a: [1]\n" =
      .ok [.mk 3 [] (.map [(.mk 7 b!"t" (.str b!"a"), .mk 10 [] (.seq [.mk 11 [] (.int b!"1")]))])] ∧
    parse .exact 30 b!"\n  # c\n---\n!t a: [1]\n" =
      .ok [.mk 10 [] (.map [(.mk 14 b!"t" (.str b!"a"), .mk 17 [] (.seq [.mk 18 [] (.int b!"1")]))])] := by
  constructor <;> decide +kernel

/-- **C77, counterexample.** Without the `---` the claim is false: behind a comment line the tag of the document is
lost, and the document is said to begin with the comment. -/
theorem C77_counterexample_tag :
    Ends (fun n => parse .exact n b!"!t x\n") (.ok [.mk 3 b!"t" (.str b!"x")]) ∧
    Ends (fun n => parse .exact n b!"# c\n!t x\n") (.ok [.mk 0 [] (.str b!"x")]) :=
  ⟨parse_returns_of (n := 30) (by decide +kernel) (by simp), parse_returns_of (n := 30) (by decide +kernel) (by simp)⟩

/-- **C77, counterexample.** Behind a comment line a directive is a document of its own. -/
theorem C77_counterexample_directive :
    Ends (fun n => parse .exact n b!"%YAML 1.2\n--- a\n") (.ok [.mk 14 [] (.str b!"a")]) ∧
    Ends (fun n => parse .exact n b!"# c\n%YAML 1.2\n--- a\n") (.ok [.mk 0 [] (.str b!"%YAML 1.2"), .mk 18 [] (.str b!"a")]) :=
  ⟨parse_returns_of (n := 30) (by decide +kernel) (by simp), parse_returns_of (n := 30) (by decide +kernel) (by simp)⟩

end YamlPeg.Props
