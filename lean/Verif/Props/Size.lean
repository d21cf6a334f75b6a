import Verif.Proof.InOrder
import Verif.Props.InOrder
import Verif.Props.Anchors
/-!
# How large a result can be: C82

The number of nodes of a list of documents is `(positionsL roots).length`: every node has one position.
-/

namespace YamlPeg.Props
open YamlPeg M

/-- **C82.** What `parse_cyclic` returns has at most two nodes per byte of the text, and one. -/
theorem C82_linear (h : HashCfg) (n : Nat) (doc : Bytes) (roots : List Node) (anchors : List Anchors)
    (hp : parseCyclic h n doc = .ok (roots, anchors)) : (positionsL roots).length ≤ 2 * doc.length + 1 :=
  (parseCyclic_span hp).2.2.1

/-- **C82.** The same of `parse`, for a text without aliases. -/
theorem C82_parse_without_aliases (h : HashCfg) (n : Nat) (doc : Bytes) (hs : (0x2A : UInt8) ∉ doc) (roots : List Node)
    (hp : parse h n doc = .ok roots) : (positionsL roots).length ≤ 2 * doc.length + 1 := by
  rw [C12_agree h doc hs] at hp
  rcases ho : parseCyclic h n doc with ⟨v, t⟩ | _ | _ | _
  · rw [ho] at hp
    cases hp
    exact (parseCyclic_span ho).2.2.1
  all_goals rw [ho] at hp; cases hp

/-- The empty text reaches the bound; a line with one colon is a map, a key and a value. -/
example : (parse .exact 9 []).map positionsL = .ok [0] ∧ (parse .exact 9 b!":\n").map positionsL = .ok [0, 0, 1] := by
  constructor <;> decide +kernel

/-! ## Aliases -/

/-- The name of the `i`th list. -/
def bombName (i : Nat) : Bytes := List.replicate (i + 1) 0x62

def bombAlias (i : Nat) : Flow := .atom (0x2A :: bombName i) (aliasYaml (bombName i)) (aliasFine (bombName i))

/-- `&bb [*b, *b]` -/
def bombItem (i : Nat) : Flow :=
  .prop (.anchor (bombName (i + 1)) b!" ") (.seq [] (.cons (bombAlias i) [] b!" " (.last (bombAlias i) [])))

def bombItems (i : Nat) : Nat → FItems
  | 0 => .last (bombItem i) []
  | m + 1 => .cons (bombItem i) [] b!" " (bombItems (i + 1) m)

/-- `[&b x, &bb [*b, *b], &bbb [*bb, *bb], …]` -/
def bomb (k : Nat) : Flow := .seq [] (.cons (.prop (.anchor (bombName 0) b!" ") (.one b!"x" (.str b!"x"))) [] b!" " (bombItems 0 k))

theorem bombName_ident (i : Nat) : IsIdent (bombName i) := by
  refine ⟨by simp [bombName, List.replicate, headAlnum]; decide, fun c hc => ?_⟩
  rw [List.eq_of_mem_replicate hc]; decide

theorem bombName_inj {i j : Nat} : bombName i = bombName j ↔ i = j := by
  refine ⟨fun h => ?_, fun h => by rw [h]⟩
  have := congrArg List.length h
  simpa [bombName] using this

theorem bombItem_text (i : Nat) : (bombItem i).text.length = 3 * i + 12 := by
  simp [bombItem, bombAlias, Flow.text, FItems.text, Form.text, bombName]; omega

theorem bombItems_text (B : Nat) : ∀ m i, 3 * (i + m) + 14 ≤ B → (bombItems i m).text.length ≤ (m + 1) * B
  | 0, i, h => by
    have := bombItem_text i
    simp only [bombItems, FItems.text, List.length_append, List.length_cons, List.length_nil]
    omega
  | m + 1, i, h => by
    have := bombItem_text i
    have ih := bombItems_text B m (i + 1) (by omega)
    rw [Nat.add_mul (m + 1) 1 B]
    simp only [bombItems, FItems.text, List.length_append, List.length_cons, List.length_nil]
    omega

theorem bombItem_ok (i : Nat) : (bombItem i).ok [] := by
  simp only [bombItem, bombAlias, Flow.ok, FItems.ok]
  have ha := bombName_ident i
  exact ⟨⟨bombName_ident _, sep_space _⟩, rfl, AllWs.nil,
    ⟨.inr ⟨_, ha, AllWs.nil, rfl, rfl, rfl⟩, by simp [AllWs]; decide, .inr ⟨_, ha, AllWs.nil, rfl, rfl, rfl⟩⟩, AllWs.nil⟩

theorem bombItems_ok : ∀ m i, (bombItems i m).ok
  | 0, i => by simp only [bombItems, FItems.ok]; exact bombItem_ok i
  | m + 1, i => by
    simp only [bombItems, FItems.ok]
    exact ⟨bombItem_ok i, by simp [AllWs]; decide, bombItems_ok m (i + 1)⟩

theorem node_yaml_positions (n : Node) : n.yaml.positions.length + 1 = n.positions.length := by
  cases n; simp [Node.positions, Node.yaml]

/-- The table holds the `i`th list, of size `2 ^ i` at least, and none behind it. -/
def BombEnv (i : Nat) (e : Env) : Prop :=
  e.cyclic = false ∧ (∃ nd, mapGet (bombName i) e.anchors = some nd ∧ 2 ^ i ≤ nd.positions.length) ∧
    ∀ j, i < j → mapGet (bombName j) e.anchors = none

theorem bombName_ne (i : Nat) : bombName i ≠ [] := by simp [bombName]

theorem bombItem_run {i p : Nat} {e : Env} (h : BombEnv i e) : (bombItem i).fine p e ∧
    BombEnv (i + 1) { e with anchors := (bombItem i).eff p e } ∧
    2 ^ (i + 1) ≤ ((bombItem i).node p e).positions.length := by
  obtain ⟨hc, ⟨nd, h1, h2⟩, h3⟩ := h
  have e1 : ∀ A, aliasYaml (bombName i) ⟨e.cyclic, e.tags, A⟩ = ((mapGet (bombName i) A).map Node.yaml).getD .null := by
    intro A; simp [aliasYaml, hc]
  have hp := node_yaml_positions nd
  have hsz : ∀ q t r, 2 ^ (i + 1) ≤ (Node.mk q t ((Flow.seq [] (.cons (bombAlias i) [] b!" " (.last (bombAlias i) []))).data r e)).positions.length := by
    intro q t r
    simp only [bombAlias, Flow.data, FItems.nodes, Flow.eff, Node.positions, Yaml.positions, positionsL, List.length_cons,
      List.length_append, aliasYaml, hc, h1, Option.map_some, Option.getD_some, List.length_nil, Bool.false_eq_true, if_false]
    rw [Nat.pow_succ]
    omega
  have he : (bombItem i).eff p e = mapInsert (bombName (i + 1)) (.mk (p + (Form.anchor (bombName (i + 1)) b!" ").text.length)
      (Form.anchor (bombName (i + 1)) b!" ").val ((Flow.seq [] (.cons (bombAlias i) [] b!" " (.last (bombAlias i) []))).data
        (p + (Form.anchor (bombName (i + 1)) b!" ").text.length) e)) e.anchors := by
    simp [bombItem, bombAlias, Flow.eff, FItems.eff, Form.name, bombName_ne]
  refine ⟨?_, ⟨hc, ?_, ?_⟩, ?_⟩
  · simp [bombItem, bombAlias, Flow.fine, FItems.fine, Form.fine, aliasFine, h1, Flow.eff, FItems.eff, Form.name, h3 (i + 1) (by omega)]
  · refine ⟨_, by simp only [he, mapGet_mapInsert]; exact if_pos trivial, hsz _ _ _⟩
  · intro j hj
    rw [he]
    simp only [mapGet_mapInsert]
    rw [if_neg (by rw [bombName_inj]; omega)]
    exact h3 j (by omega)
  · simp only [bombItem, Flow.node]
    rw [Flow.data]
    exact hsz _ _ _

theorem bombItems_run : ∀ m i p e, BombEnv i e → (bombItems i m).fine p e ∧
    2 ^ (i + m + 1) ≤ (positionsL ((bombItems i m).nodes p e)).length
  | 0, i, p, e, h => by
    obtain ⟨h1, h2, h3⟩ := bombItem_run (p := p) h
    simp only [bombItems, FItems.fine, FItems.nodes, positionsL, List.append_nil]
    exact ⟨h1, h3⟩
  | m + 1, i, p, e, h => by
    obtain ⟨h1, h2, h3⟩ := bombItem_run (p := p) h
    obtain ⟨h4, h5⟩ := bombItems_run m (i + 1) (p + (bombItem i).text.length + 0 + 1 + 1) _ h2
    simp only [bombItems, FItems.fine, FItems.nodes, positionsL, List.length_append]
    refine ⟨⟨h1, h4⟩, Nat.le_trans ?_ (Nat.le_add_left _ _)⟩
    rw [show i + (m + 1) + 1 = i + 1 + m + 1 by omega]
    exact h5

theorem bomb_run (k : Nat) (t : List (Bytes × Bytes)) : (bomb k).fine 0 (.doc false t) ∧
    2 ^ (k + 1) ≤ ((bomb k).data 0 (.doc false t)).positions.length := by
  let f0 : Flow := .prop (.anchor (bombName 0) b!" ") (.one b!"x" (.str b!"x"))
  have ht : f0.text.length = 4 := by decide
  have hb : BombEnv 0 { Env.doc false t with anchors := f0.eff 1 (.doc false t) } := by
    have ha : f0.eff 1 (.doc false t) = mapInsert (bombName 0) (.mk 4 [] (.str b!"x")) [] := by
      simp [f0, Flow.eff, Form.name, bombName_ne, Flow.one, Env.doc, Form.text, Form.val, Flow.data, bombName]
    refine ⟨rfl, ⟨.mk 4 [] (.str b!"x"), ?_, by simp [Node.positions]⟩, fun j hj => ?_⟩
    · simp only [ha, mapGet_mapInsert, if_true]
    · simp only [ha, mapGet_mapInsert]
      rw [if_neg (by rw [bombName_inj]; omega)]
      rfl
  have hr := bombItems_run k 0 (0 + 1 + 0 + f0.text.length + 0 + 1 + 1) _ hb
  constructor
  · simp only [bomb, Flow.fine, FItems.fine]
    refine ⟨⟨trivial, ?_, ?_⟩, hr.1⟩
    · simp [Flow.one, Flow.fine]
    · intro _
      simp [Flow.one, Flow.eff, Env.doc, mapGet]
  · simp only [bomb, Flow.data, Yaml.positions, FItems.nodes, positionsL, List.length_append]
    refine Nat.le_trans ?_ (Nat.le_add_left _ _)
    have := hr.2
    rw [Nat.zero_add] at this
    exact this

/-- **C82, counterexample.** With aliases `parse` can return exponentially many nodes: for every `k` there is a text of
less than `(k + 2) * (3 * k + 14)` bytes, such as `[&b x, &bb [*b, *b], &bbb [*bb, *bb]]`, with more than `2 ^ (k + 1)`
nodes in its one document; `parse_cyclic` returns at most two per byte (C82_linear). -/
theorem C82_counterexample_aliases (hash : HashCfg) (k : Nat) :
    ∃ doc root, doc.length < (k + 2) * (3 * k + 14) ∧ Ends (fun n => parse hash n doc) (.ok [root]) ∧
      2 ^ (k + 1) < root.positions.length := by
  have hok : (bomb k).ok [] := by
    simp only [bomb, Flow.ok, FItems.ok]
    exact ⟨AllWs.nil, ⟨⟨⟨bombName_ident 0, sep_space _⟩, rfl, FlowText.is (flow_word (by decide) (by decide) (by decide))⟩,
      by simp [AllWs]; decide, bombItems_ok k 0⟩, AllWs.nil⟩
  have hl : LeafIs .loose (bomb k).text (bomb k).data (bomb k).known := .inr (.inl ⟨bomb k, hok, rfl, rfl, rfl, rfl, rfl⟩)
  have hs : Stream.ok ⟨none, .leaf [] (bomb k).text .loose (bomb k).data (bomb k).known, .stop b!"\n", []⟩ :=
    ⟨by simp only [Blk.okN]; exact .inl ⟨.inl trivial, .inl hl⟩,
    .inr (.inl (by simp only [Blk.kind]; exact after_lf (.inl rfl))), rfl⟩
  have hr := bomb_run k
  refine ⟨_, _, ?_, C52_layout hs ?_ hash, ?_⟩
  · have := bombItems_text (3 * k + 14) k 0 (by omega)
    have hk : (bomb k).text.length = 7 + (bombItems 0 k).text.length := by
      simp [bomb, Flow.text, FItems.text, Form.text, Flow.one, bombName]; omega
    simp only [Stream.text, Stream.head, Blk.text, Tail.text, List.length_append, List.length_cons, List.length_nil, hk]
    rw [Nat.add_mul (k + 1) 1]
    omega
  · refine ⟨?_, trivial⟩
    simp only [Blk.fine]
    exact (hr _).1
  · simp only [Blk.node, Blk.data, Node.positions, List.length_cons]
    exact Nat.lt_succ_of_le (hr _).2

end YamlPeg.Props
