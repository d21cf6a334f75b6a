import Verif.Proof.Blind
import Verif.Props.Fuel
import Verif.Props.Nodes
import Verif.Props.Scalars
/-!
# C12 (the two parsers agree without `*`) and C48 (the seed does not matter)
-/

namespace YamlPeg.Props
open YamlPeg

/-! ## C12 -/

/-- **C12.** Without `*` in the text `parse` and `parse_cyclic` have the same
outcome — nodes (with positions and tags), error, panic or hang — for every
document and hash seed, after the same running time. -/
theorem C12_agree (h : HashCfg) (doc : Bytes) (hs : (0x2A : UInt8) ∉ doc) (n : Nat) :
    parse h n doc = (parseCyclic h n doc).map Prod.fst := by
  let c : BCfg := ⟨doc, h, h, fun _ => true, fun _ => True⟩
  have ok : BOk c := ⟨.inr hs, fun m _ => ⟨rfl, fun _ _ _ _ => trivial⟩, fun _ _ _ _ => trivial, fun _ _ _ _ => trivial,
    fun _ _ => trivial, fun _ _ _ => trivial, fun _ _ _ => trivial, fun _ _ _ => trivial, fun _ _ => trivial,
    fun _ _ => trivial, fun _ _ => trivial, fun _ _ _ _ _ _ => trivial, fun _ _ _ _ _ _ => trivial, fun _ _ _ _ _ _ => trivial⟩
  have := (parse_twice ok n false).2
  unfold parse parseCyclic
  have e : ({ Loader.new h doc with cyclicMode := true } : Loader) =
    { Loader.new c.h c.doc with cyclicMode := c.mode false } := rfl
  rw [e, this]
  have e2 : ({ Loader.new c.h0 c.doc with cyclicMode := false } : Loader) = Loader.new h doc := rfl
  rw [e2]
  rcases loaderParse n (Loader.new h doc) with ⟨r, l⟩
  cases r <;> rfl

/-- The same for the final outcome of the two calls. -/
theorem C12_same_outcome (h : HashCfg) (doc : Bytes) (hs : (0x2A : UInt8) ∉ doc) :
    (∀ v, Ends (fun n => parse h n doc) (.ok v) ↔ ∃ a, Ends (fun n => parseCyclic h n doc) (.ok (v, a))) ∧
    (∀ e, Ends (fun n => parse h n doc) (.err e) ↔ Ends (fun n => parseCyclic h n doc) (.err e)) ∧
    (Hangs (fun n => parse h n doc) ↔ Hangs (fun n => parseCyclic h n doc)) := by
  have ag := fun n => C12_agree h doc hs n
  refine ⟨fun v => ⟨?_, ?_⟩, fun e => ⟨?_, ?_⟩, ?_⟩
  · rintro ⟨h1, N, hN⟩
    have hp : parse h N doc = _ := hN N (Nat.le_refl _)
    rw [ag] at hp
    rcases ho : parseCyclic h N doc with ⟨v', a⟩ | _ | _ | _
    · rw [ho] at hp
      cases hp
      refine ⟨a, by simp, N, fun n hn => ?_⟩
      show parseCyclic h n doc = _
      rw [C49_parse_cyclic_stable h doc N n hn (by rw [ho]; simp), ho]
    all_goals rw [ho] at hp; cases hp
  · rintro ⟨a, _, N, hN⟩
    refine ⟨by simp, N, fun n hn => ?_⟩
    show parse h n doc = _
    rw [ag, show parseCyclic h n doc = _ from hN n hn]; rfl
  · rintro ⟨h1, N, hN⟩
    refine ⟨by simp, N, fun n hn => ?_⟩
    have hp : parse h n doc = _ := hN n hn
    rw [ag] at hp
    show parseCyclic h n doc = _
    rcases ho : parseCyclic h n doc with ⟨v', a⟩ | _ | _ | _ <;> rw [ho] at hp <;> cases hp
    rfl
  · rintro ⟨_, N, hN⟩
    refine ⟨by simp, N, fun n hn => ?_⟩
    show parse h n doc = _
    rw [ag, show parseCyclic h n doc = _ from hN n hn]; rfl
  · constructor
    · intro hh n
      have hp : parse h n doc = _ := hh n
      rw [ag] at hp
      show parseCyclic h n doc = _
      rcases ho : parseCyclic h n doc with ⟨v', a⟩ | _ | _ | _ <;> rw [ho] at hp <;> cases hp
    · intro hh n
      show parse h n doc = _
      rw [ag, show parseCyclic h n doc = _ from hh n]; rfl

/-- The hypothesis is met by a document with anchors, and needed: with `*` the
two differ. -/
example : (0x2A : UInt8) ∉ b!"a: &x [1, 2]\nb: !t c\n" := by decide
example : Ends (fun n => parse .exact n b!"[&x a, *x]\n") (.ok [.mk 0 [] (.seq [.mk 4 [] (.str b!"a"), .mk 7 [] (.str b!"a")])]) :=
  parse_returns_of (n := 30) (by decide +kernel) (by simp)

/-! ## C48 -/

/-- The public sub-parser `x`, started anywhere in the document, can return `t`. -/
def CanRead (doc : Bytes) (x : PM Bytes) (t : Bytes) : Prop :=
  ∃ s : Parser, s.doc = doc ∧ s.eaten ≤ s.pos ∧ s.pos ≤ doc.length ∧ (x s).1 = .ok t

/-- The float texts that can come up: read from the text, or the special values. -/
def FloatOf (doc : Bytes) (t : Bytes) : Prop :=
  t = b!"NaN" ∨ t = b!"inf" ∨ t = b!"-inf" ∨ CanRead doc float t ∨ CanRead doc sciFloat t

/-- The numbers of the document are written in one way: equal values have equal
texts, and all integers fit. -/
structure OneNotation (doc : Bytes) : Prop where
  fits : ∀ t, CanRead doc int t → (toI64 t).isSome
  ints : ∀ t t', CanRead doc int t → CanRead doc int t' → toI64 t = toI64 t' → t = t'
  reads : ∀ t, FloatOf doc t → (toF64 t).isSome
  floats : ∀ t t' u w, FloatOf doc t → FloatOf doc t' → toF64 t = some u → toF64 t' = some w → u.same w = true → t = t'

/-- The numbers of a node come from the document. -/
def numsFrom (doc : Bytes) (n : Node) : Prop :=
  match n.yaml with
  | .int s => CanRead doc int s
  | .float s => FloatOf doc s
  | _ => True

theorem everywhere_fold {p : Node → Prop} {m : List (Node × Node)} :
    ∀ acc, (∀ e ∈ acc, p e.1 ∧ p e.2) → (∀ e ∈ m, p e.1 ∧ p e.2) →
    ∀ e ∈ m.foldl (fun m e => insertSpec m e.1 e.2) acc, p e.1 ∧ p e.2 := by
  induction m with
  | nil => intro acc h _; exact h
  | cons x r ih =>
    intro acc h hl
    refine ih _ ?_ fun e he => hl e (List.mem_cons_of_mem _ he)
    have hx := hl x (by simp)
    intro e he
    simp only [insertSpec] at he
    split at he
    · rename_i e' hf
      rcases List.mem_append.1 he with h1 | h1
      · exact h e (List.mem_of_mem_eraseP h1)
      · simp at h1; subst h1
        exact ⟨(h e' (List.mem_of_find?_eq_some hf)).1, hx.2⟩
    · rcases List.mem_append.1 he with h1 | h1
      · exact h e h1
      · simp at h1; subst h1; exact hx

/-- **C48 for `parse`.** When the numbers of the document are written in one way,
the outcome does not depend on the seed of the hasher — neither for `parse` nor
for `parse_cyclic`. -/
theorem C48_parse_seed_partial (h h' : HashCfg) (doc : Bytes) (hd : OneNotation doc) (n : Nat) :
    parse h' n doc = parse h n doc ∧ parseCyclic h' n doc = parseCyclic h n doc := by
  let c : BCfg := ⟨doc, h, h', id, Everywhere (numsFrom doc)⟩
  have leaf : ∀ y : Yaml, (∀ p t, numsFrom doc (.mk p t y)) → Yaml.Kids (Everywhere (numsFrom doc)) y → c.PY y :=
    fun y h1 h2 p t => everywhere_mk.2 ⟨h1 p t, h2⟩
  have canread : ∀ {x : PM Bytes} {s t}, PWF (ac doc) s → (x s).1 = .ok t → CanRead doc x t :=
    fun hs ho => ⟨_, hs.doc, hs.eaten, hs.pos, ho⟩
  have good : ∀ ks : List Node, (∀ k ∈ ks, Everywhere (numsFrom doc) k) → GoodKeys ks := by
    intro ks hk
    have rd : ∀ k ∈ ks, Readable k := fun k hk' => (hk k hk').mono fun m hm => by
      obtain ⟨p, t, y⟩ := m
      cases y with
      | int s => exact hd.fits s hm
      | float s => exact hd.reads s hm
      | _ => trivial
    refine ⟨rd, fun k hk1 k' hk2 he => hashStream_congr k k' (rd k hk1) (rd k' hk2) ?_ he⟩
    intro m m' h1 h2
    have e1 := hk k hk1 m h1
    have e2 := hk k' hk2 m' h2
    obtain ⟨p, t, y⟩ := m
    obtain ⟨p', t', y'⟩ := m'
    cases y <;> cases y' <;> try trivial
    · exact hd.ints _ _ e1 e2
    · exact fun u w hu hw hs => hd.floats _ _ u w e1 e2 hu hw hs
  have ok : BOk c := by
    refine ⟨.inl fun _ => rfl, fun m hm => ?_, fun v hv => ?_, fun n hn p t => ?_, leaf _ (fun _ _ => trivial) trivial,
      fun b => leaf _ (fun _ _ => trivial) trivial, fun b => leaf _ (fun _ _ => trivial) trivial,
      fun b => leaf _ (fun _ _ => trivial) trivial, leaf _ (fun _ _ => .inl rfl) trivial,
      leaf _ (fun _ _ => .inr (.inl rfl)) trivial, leaf _ (fun _ _ => .inr (.inr (.inl rfl))) trivial,
      fun s t hs ho => leaf _ (fun _ _ => canread hs ho) trivial,
      fun s t hs ho => leaf _ (fun _ _ => .inr (.inr (.inr (.inl (canread hs ho))))) trivial,
      fun s t hs ho => leaf _ (fun _ _ => .inr (.inr (.inr (.inr (canread hs ho))))) trivial⟩
    · have hg : GoodKeys (m.map Prod.fst ++ []) := good _ (by
        intro k hk
        simp only [List.append_nil, List.mem_map] at hk
        obtain ⟨e, he, rfl⟩ := hk
        exact (hm e he).1)
      refine ⟨C48_map_seed_partial _ _ m hg, fun es he => ?_⟩
      have hl : ∀ e ∈ m, e.1 ∈ m.map Prod.fst ++ [] := fun e he =>
        List.mem_append_left _ (List.mem_map_of_mem he)
      rw [entriesCollect_good hg m [] (by simp) hl] at he
      cases he
      refine leaf _ (fun _ _ => trivial) ?_
      exact fun k v hkv => everywhere_fold (p := Everywhere (numsFrom doc)) [] (by simp) hm (k, v) hkv
    · exact leaf _ (fun _ _ => trivial) hv
    · obtain ⟨p', t', y⟩ := n
      have := everywhere_mk.1 hn
      exact everywhere_mk.2 ⟨this.1, this.2⟩
  constructor
  · have := (parse_twice ok n false).2
    exact (congrArg Prod.fst this : _)
  · have := (parse_twice ok n true).2
    unfold parseCyclic
    have e : ({ Loader.new h' doc with cyclicMode := true } : Loader) =
      { Loader.new c.h c.doc with cyclicMode := c.mode true } := rfl
    rw [e, this]
    have e2 : ({ Loader.new c.h0 c.doc with cyclicMode := true } : Loader) = { Loader.new h doc with cyclicMode := true } := rfl
    rw [e2]
    rcases loaderParse n { Loader.new h doc with cyclicMode := true } with ⟨r, l⟩
    rfl

/-- No digits, no numbers. -/
theorem numPrefix_no_digit {k : Ctx} {pre mid post : Bytes} (hd : ∀ c ∈ mid ++ post, isDigit c = false) :
    (numPrefix (st k pre mid post)).1 = .err .mismatch := by
  have key : ∀ mid post : Bytes, (∀ c ∈ post, isDigit c = false) →
      (takeWhile isDigit (.more 1) (st k pre mid post)).1 = .err .mismatch := by
    intro mid post h
    have : post.takeWhile isDigit = [] := by
      cases post with
      | nil => rfl
      | cons x r => rw [List.takeWhile_cons, h x (by simp)]; rfl
    rw [takeWhile_more1, if_pos this]
  have hp : ∀ c ∈ post, isDigit c = false := fun c hc => hd c (by simp [hc])
  unfold numPrefix
  cases post with
  | nil =>
    rw [bind_ok (orDefault_err (sym_nil ..))]
    exact key _ _ (by simpa using hd)
  | cons x r =>
    by_cases hx : x = 0x2D
    · subst hx
      rw [bind_ok (orDefault_ok (sym_hit ..))]
      exact key _ _ fun c hc => hp c (by simp [hc])
    · rw [bind_ok (orDefault_err (sym_miss _ _ _ _ _ _ hx))]
      exact key _ _ hd

theorem canRead_split {doc : Bytes} {s : Parser} (h1 : s.doc = doc) (h2 : s.eaten ≤ s.pos) (h3 : s.pos ≤ doc.length) :
    ∃ k pre mid post, s = st k pre mid post ∧ doc = pre ++ (mid ++ post) := by
  subst h1
  obtain ⟨k, pre, mid, post, rfl⟩ := exists_st s h2 h3
  exact ⟨k, pre, mid, post, rfl, rfl⟩

theorem canRead_no_digit {doc t : Bytes} {f : Unit → PM Bytes} (hd : ∀ c ∈ doc, isDigit c = false) :
    ¬ CanRead doc (numPrefix >>= f) t := by
  rintro ⟨s, h1, h2, h3, h4⟩
  obtain ⟨k, pre, mid, post, rfl, hdoc⟩ := canRead_split h1 h2 h3
  have := numPrefix_no_digit (k := k) (pre := pre) (mid := mid) (post := post) fun c hc => hd c (by
    rw [hdoc]; simp only [List.mem_append] at hc ⊢; exact .inr hc)
  rcases hx : numPrefix (st k pre mid post) with ⟨r, s'⟩
  rw [hx] at this
  cases this
  rw [bind_err hx] at h4
  cases h4

/-- A document without digits has no numbers but the special floats. -/
theorem oneNotation_no_digit {doc : Bytes} (hd : ∀ c ∈ doc, isDigit c = false) : OneNotation doc := by
  have hi : ∀ t, ¬ CanRead doc int t := fun t => canRead_no_digit hd
  have hf : ∀ t, FloatOf doc t → t = b!"NaN" ∨ t = b!"inf" ∨ t = b!"-inf" := by
    rintro t (h | h | h | h | h)
    · exact .inl h
    · exact .inr (.inl h)
    · exact .inr (.inr h)
    · exact absurd h (canRead_no_digit hd)
    · exact absurd h (canRead_no_digit hd)
  refine ⟨fun t h => absurd h (hi t), fun t t' h => absurd h (hi t), fun t h => ?_, fun t t' u w h h' => ?_⟩
  · rcases hf t h with rfl | rfl | rfl <;> decide +kernel
  · have e1 : toF64 b!"NaN" = some .nan := by decide +kernel
    have e2 : toF64 b!"inf" = some (.inf false) := by decide +kernel
    have e3 : toF64 b!"-inf" = some (.inf true) := by decide +kernel
    rcases hf t h with rfl | rfl | rfl <;> rcases hf t' h' with rfl | rfl | rfl <;> simp only [e1, e2, e3] <;>
      rintro ⟨⟩ ⟨⟩ <;> intro h <;> first | trivial | rfl | exact absurd h (by decide)

/-- Documents without digits: the outcome does not depend on the seed. -/
theorem C48_no_digits (h h' : HashCfg) (doc : Bytes) (hd : ∀ c ∈ doc, isDigit c = false) (n : Nat) :
    parse h' n doc = parse h n doc ∧ parseCyclic h' n doc = parseCyclic h n doc :=
  C48_parse_seed_partial h h' doc (oneNotation_no_digit hd) n

example : ∀ c ∈ b!"a: &x [b, .inf]\n? {c: d}\n: *x\n", isDigit c = false := by decide

/-- The hasher whose keys all collide. -/
def collide : HashCfg := ⟨fun _ _ => true, fun _ => rfl⟩

/-- **C48 is false in general**: `16` and `0x10` are equal keys with different
hashes, so the seed decides whether the map has one entry or two. -/
theorem C48_counterexample_two_notations :
    Ends (fun n => parse .exact n b!"{16: a, 0x10: b}\n") (.ok [.mk 0 [] (.map
      [(.mk 1 [] (.int b!"16"), .mk 5 [] (.str b!"a")), (.mk 8 [] (.int b!"0x10"), .mk 14 [] (.str b!"b"))])]) ∧
    Ends (fun n => parse collide n b!"{16: a, 0x10: b}\n") (.ok [.mk 0 [] (.map
      [(.mk 1 [] (.int b!"16"), .mk 14 [] (.str b!"b"))])]) :=
  ⟨parse_returns_of (n := 30) (by decide +kernel) (by simp), parse_returns_of (n := 30) (by decide +kernel) (by simp)⟩

end YamlPeg.Props
