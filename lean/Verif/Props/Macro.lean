import Verif.Props.Nodes
import Verif.Model.Macro
/-!
# C68: nodes written with `node!`

`Lit` is what is written between the brackets of `node!(..)`, `Lit.eval` the node it makes.
-/

namespace YamlPeg.Props
open YamlPeg

/-- Every literal of the list makes the node at its place. -/
inductive Makes (h : HashCfg) : List Lit → List Node → Prop
  | nil : Makes h [] []
  | cons {v l x xs} : v.eval h = .ok x → Makes h l xs → Makes h (v :: l) (x :: xs)

/-- Every pair of literals makes the pair of nodes at its place. -/
inductive MakesPairs (h : HashCfg) : List (Lit × Lit) → List (Node × Node) → Prop
  | nil : MakesPairs h [] []
  | cons {k v l x y es} : k.eval h = .ok x → v.eval h = .ok y → MakesPairs h l es →
      MakesPairs h ((k, v) :: l) ((x, y) :: es)

theorem Makes.evals {h : HashCfg} {l : List Lit} {ns : List Node} (hl : Makes h l ns) : Lit.evals h l = .ok ns := by
  induction hl with
  | nil => rfl
  | cons h1 _ ih => simp only [Lit.evals, h1, ih, Out.map]

theorem Makes.length {h : HashCfg} {l : List Lit} {ns : List Node} (hl : Makes h l ns) : ns.length = l.length := by
  induction hl with
  | nil => rfl
  | cons _ _ ih => simp [ih]

theorem MakesPairs.evals {h : HashCfg} {l : List (Lit × Lit)} {es : List (Node × Node)} (hl : MakesPairs h l es) :
    Lit.evalPairs h l = .ok es := by
  induction hl with
  | nil => rfl
  | cons h1 h2 _ ih => simp only [Lit.evalPairs, Lit.evalPair, h1, h2, ih, Out.map]

/-- **C68.** `node!(x)` of a node is the node, of data it is a node at position 0 without a tag;
`node!(*"a")` is the alias. -/
theorem C68_atoms (h : HashCfg) (n : Node) (y : Yaml) (a : Bytes) :
    (Lit.node n).eval h = .ok n ∧ (Lit.data y).eval h = .ok (.mk 0 [] y) ∧ (Lit.alias a).eval h = .ok (.mk 0 [] (.alias a)) :=
  ⟨rfl, rfl, rfl⟩

/-- **C68.** `node!([v1, .., vn])` is the sequence of the `n` nodes in order: `as_seq` gives them,
`get_ind(Ind(i))` the one at `i`. -/
theorem C68_sequence {h : HashCfg} {l : List Lit} {ns : List Node} (hl : Makes h l ns) :
    ∃ n, (Lit.seq l).eval h = .ok n ∧ n.pos = 0 ∧ n.rawTag = [] ∧ n.asSeq = .ok ns ∧ ns.length = l.length ∧
      ∀ i (hi : i < ns.length), n.getInd i = .ok ns[i] := by
  refine ⟨.ofYaml (.seq ns), by simp only [Lit.eval, hl.evals, Out.map], rfl, rfl, rfl, hl.length, fun i hi => ?_⟩
  simp [Node.getInd, Node.ofYaml, Node.yaml, List.getElem?_eq_getElem hi]

/-- **C68.** `node!([v; n])`: `n` times the node `v`. -/
theorem C68_repeated {h : HashCfg} {v : Lit} {x : Node} (hv : v.eval h = .ok x) (n : Nat) :
    ∃ s, (Lit.rep v n).eval h = .ok s ∧ s.asSeq = .ok (List.replicate n x) ∧
      (Lit.rep v n).eval h = (Lit.seq (List.replicate n v)).eval h := by
  have hm : Makes h (List.replicate n v) (List.replicate n x) := by
    induction n with
    | zero => exact .nil
    | succ n ih => exact .cons hv ih
  exact ⟨.ofYaml (.seq (List.replicate n x)), by simp only [Lit.eval, hv, Out.map], rfl,
    by simp only [Lit.eval, hv, hm.evals, Out.map]⟩

/-- **C68.** `node!({k1 => v1, ..})`, with keys whose hashes agree where they are equal: `get(q)` is the value
of the last pair whose key equals `q`. -/
theorem C68_map_last_value_wins {h : HashCfg} {l : List (Lit × Lit)} {es : List (Node × Node)} (hl : MakesPairs h l es)
    (q : Node) (hg : GoodMapKeys es [q]) :
    ∃ n, (Lit.map l).eval h = .ok n ∧ n.pos = 0 ∧ n.rawTag = [] ∧
      ∀ v, n.get h q = .ok (.ok v) ↔
        ∃ l1 k l2, es = l1 ++ (k, v) :: l2 ∧ Node.eq? q k = .ok true ∧ ∀ e ∈ l2, Node.eq? q e.1 = .ok false := by
  obtain ⟨m, hm, hs⟩ := C34_last_value_wins h es q hg
  refine ⟨.ofYaml (.map m), by simp only [Lit.eval, hl.evals, hm, Out.map], rfl, rfl, fun v => ?_⟩
  rw [← hs v]
  simp only [Node.get, Node.ofYaml, Node.yaml]
  cases entriesGet h q m with
  | ok o => cases o <;> simp [Out.map]
  | _ => simp [Out.map]

/-- **C68.** With pairwise different keys, `as_map` gives exactly the pairs, in order. -/
theorem C68_map_order {h : HashCfg} {l : List (Lit × Lit)} {es : List (Node × Node)} (hl : MakesPairs h l es)
    (hg : GoodMapKeys es []) (hd : es.Pairwise fun e e' => Node.eq? e.1 e'.1 = .ok false) :
    ∃ n, (Lit.map l).eval h = .ok n ∧ n.pos = 0 ∧ n.rawTag = [] ∧ n.asMap = .ok es :=
  ⟨.ofYaml (.map es), by simp only [Lit.eval, hl.evals, C34_order h es hg hd, Out.map], rfl, rfl, rfl⟩

/-! ## Everything can be written -/

/-- The keys of every map in the node are pairwise different, readable, and hash alike where they are equal. -/
def MapsGood (n : Node) : Prop :=
  Everywhere (fun m => ∀ es, m.yaml = .map es →
    GoodMapKeys es [] ∧ es.Pairwise fun e e' => Node.eq? e.1 e'.1 = .ok false) n

mutual
/-- The literal of a node: sequences and maps in brackets, everything else as data. -/
def litOf : Node → Lit
  | .mk _ _ y => litOfY y
def litOfY : Yaml → Lit
  | .seq l => .seq (litOfL l)
  | .map m => .map (litOfM m)
  | .alias a => .alias a
  | y => .data y
def litOfL : List Node → List Lit
  | [] => []
  | x :: xs => litOf x :: litOfL xs
def litOfM : List (Node × Node) → List (Lit × Lit)
  | [] => []
  | e :: es => litOfE e :: litOfM es
def litOfE : Node × Node → Lit × Lit
  | (k, v) => (litOf k, litOf v)
end

mutual
theorem hash_erase : ∀ n : Node, (eraseMeta n).hashStream = n.hashStream
  | .mk _ _ y => by simp only [eraseMeta, Node.hashStream]; exact hash_eraseY y
theorem hash_eraseY : ∀ y : Yaml, (eraseMetaY y).hashStream = y.hashStream
  | .seq l => by simp only [eraseMetaY, Yaml.hashStream, eraseMetaL_length, hash_eraseL l]
  | .map m => by simp only [eraseMetaY, Yaml.hashStream, hash_eraseM m]
  | .null => rfl
  | .bool _ => rfl
  | .int _ => rfl
  | .float _ => rfl
  | .str _ => rfl
  | .alias _ => rfl
theorem hash_eraseL : ∀ l : List Node, nodesStream (eraseMetaL l) = nodesStream l
  | [] => rfl
  | x :: xs => by simp only [eraseMetaL, nodesStream, hash_erase x, hash_eraseL xs]
theorem hash_eraseM : ∀ l : List (Node × Node), entriesStream (eraseMetaM l) = entriesStream l
  | [] => rfl
  | e :: es => by simp only [eraseMetaM, entriesStream, hash_eraseE e, hash_eraseM es]
theorem hash_eraseE : ∀ e : Node × Node, entryStream (eraseMetaE e) = entryStream e
  | (k, v) => by simp only [eraseMetaE, entryStream, hash_erase k, hash_erase v]
end

theorem eraseMetaL_map (l : List Node) : eraseMetaL l = l.map eraseMeta := by
  induction l with
  | nil => rfl
  | cons x xs ih => simp [eraseMetaL, ih]

theorem eraseMetaM_map (l : List (Node × Node)) : eraseMetaM l = l.map fun e => (eraseMeta e.1, eraseMeta e.2) := by
  induction l with
  | nil => rfl
  | cons x xs ih => obtain ⟨k, v⟩ := x; simp [eraseMetaM, eraseMetaE, ih]

theorem readable_erase (n : Node) : Readable n → Readable (eraseMeta n) := by
  refine Node.induct (P := fun n => Readable n → Readable (eraseMeta n)) ?_ n
  rintro p t y ih hr
  obtain ⟨h1, h2⟩ := everywhere_mk.1 hr
  rw [eraseMeta]
  refine everywhere_mk.2 ⟨by cases y <;> exact h1, ?_⟩
  cases y with
  | seq l =>
    simp only [eraseMetaY, eraseMetaL_map]
    intro x hx
    obtain ⟨x, hx', rfl⟩ := List.mem_map.1 hx
    exact ih x hx' (h2 x hx')
  | map l =>
    simp only [eraseMetaY, eraseMetaM_map]
    intro k v hx
    obtain ⟨⟨k', v'⟩, hy, he⟩ := List.mem_map.1 hx
    obtain ⟨rfl, rfl⟩ := Prod.mk.injEq .. ▸ he
    exact ⟨(ih k' v' hy).1 (h2 k' v' hy).1, (ih k' v' hy).2 (h2 k' v' hy).2⟩
  | _ => trivial

theorem goodKeys_erase {ks : List Node} (h : GoodKeys ks) : GoodKeys (ks.map eraseMeta) := by
  constructor
  · intro k hm
    obtain ⟨k, hk, rfl⟩ := List.mem_map.1 hm
    exact readable_erase k (h.1 k hk)
  · intro k hm k' hm' hb
    obtain ⟨k, hk, rfl⟩ := List.mem_map.1 hm
    obtain ⟨k', hk', rfl⟩ := List.mem_map.1 hm'
    rw [hash_erase, hash_erase]
    refine h.2 k hk k' hk' ?_
    have h1 := eq?_ok _ (readable_erase k (h.1 k hk)) _ (readable_erase k' (h.1 k' hk'))
    rw [eq_erase, eq?_ok _ (h.1 k hk) _ (h.1 k' hk'), hb] at h1
    simpa using h1

theorem litOf_eval (h : HashCfg) (n : Node) : MapsGood n → (litOf n).eval h = .ok (eraseMeta n) := by
  refine Node.induct (P := fun n => MapsGood n → (litOf n).eval h = .ok (eraseMeta n)) ?_ n
  rintro p t y ih hr
  obtain ⟨h1, h2⟩ := everywhere_mk.1 hr
  rw [litOf, eraseMeta]
  cases y with
  | seq l =>
    have hm : Makes h (litOfL l) (eraseMetaL l) := by
      clear h1 hr
      induction l with
      | nil => exact .nil
      | cons x xs ihx =>
        exact .cons (ih x (by simp) (h2 x (by simp))) (ihx (fun y hy => ih y (by simp [hy])) fun y hy => h2 y (by simp [hy]))
    simp only [litOfY, eraseMetaY, Lit.eval, hm.evals, Out.map, Node.ofYaml]
  | map l =>
    have hm : MakesPairs h (litOfM l) (eraseMetaM l) := by
      clear h1 hr
      induction l with
      | nil => exact .nil
      | cons e xs ihx =>
        obtain ⟨k, v⟩ := e
        exact .cons ((ih k v (by simp)).1 (h2 k v (by simp)).1) ((ih k v (by simp)).2 (h2 k v (by simp)).2)
          (ihx (fun a b hy => ih a b (by simp [hy])) fun a b hy => h2 a b (by simp [hy]))
    obtain ⟨hg, hd⟩ := h1 l rfl
    have hg' : GoodMapKeys (eraseMetaM l) [] := by
      have := goodKeys_erase hg
      simpa [GoodMapKeys, eraseMetaM_map, Function.comp_def] using this
    have hd' : (eraseMetaM l).Pairwise fun e e' => Node.eq? e.1 e'.1 = .ok false := by
      rw [eraseMetaM_map, List.pairwise_map]
      exact hd.imp fun h => by rw [eq_erase]; exact h
    simp only [litOfY, eraseMetaY, Lit.eval, hm.evals, C34_order h _ hg' hd', Out.map, Node.ofYaml]
  | _ => rfl

/-- **C68.** Every node can be written as a literal: what the macro makes of it is the node up to
positions and tags, and compares equal to it. -/
theorem C68_every_node (h : HashCfg) (n : Node) (hr : Readable n) (hm : MapsGood n) :
    ∃ n', (litOf n).eval h = .ok n' ∧ n' = eraseMeta n ∧ Node.eq? n' n = .ok true := by
  refine ⟨_, litOf_eval h n hm, rfl, ?_⟩
  rw [C32_ignores_pos_and_tag (eraseMeta n) n n n ?_ rfl]
  · exact C32_refl n hr
  · have : ∀ n : Node, eraseMeta (eraseMeta n) = eraseMeta n := by
      intro n
      refine Node.induct (P := fun n => eraseMeta (eraseMeta n) = eraseMeta n) ?_ n
      rintro p t y ih
      simp only [eraseMeta]
      congr 1
      cases y with
      | seq l =>
        simp only [eraseMetaY, eraseMetaL_map, List.map_map]
        congr 1
        exact List.map_congr_left fun x hx => ih x hx
      | map l =>
        simp only [eraseMetaY, eraseMetaM_map, List.map_map]
        congr 1
        refine List.map_congr_left fun e he => ?_
        have := ih e.1 e.2 he
        simp [this.1, this.2]
      | _ => rfl
    exact this n

/-- **C68, counterexample.** A literal with the same unreadable number twice as a key panics. -/
theorem C68_counterexample_panic (h : HashCfg) :
    (Lit.map [(.data (.int b!"x"), .data .null), (.data (.int b!"x"), .data .null)]).eval h = .panic .intUnwrap := by
  simp [Lit.eval, Lit.evalPairs, Lit.evalPair, Out.map, entriesCollect, entriesInsert, entriesTake, Node.hashStream, Yaml.hashStream,
    h.probe_refl, Node.ofYaml, Node.eq?, Yaml.eq?, intEq?, show toI64 b!"x" = none from by decide]

/-- `node!([1, "a", [true; 2]])` and `node!({"a" => 1, "b" => *"x"})`. -/
example : (Lit.seq [.data (.ofInt 1), .data (.str b!"a"), .rep (.data (.bool true)) 2]).eval .exact =
    .ok (.mk 0 [] (.seq [.mk 0 [] (.int b!"1"), .mk 0 [] (.str b!"a"),
      .mk 0 [] (.seq [.mk 0 [] (.bool true), .mk 0 [] (.bool true)])])) := rfl

example : ∃ n, (Lit.map [(.data (.str b!"a"), .data (.ofInt 1)), (.data (.str b!"b"), .alias b!"x")]).eval .exact = .ok n ∧ n.pos = 0 ∧
    n.rawTag = [] ∧ n.asMap = .ok [(.mk 0 [] (.str b!"a"), .mk 0 [] (.int b!"1")), (.mk 0 [] (.str b!"b"), .mk 0 [] (.alias b!"x"))] :=
  C68_map_order (.cons rfl rfl (.cons rfl rfl .nil)) (goodKeys_str _ (by simp [Node.yaml])) (.cons (by
    intro e he; obtain rfl := List.mem_singleton.1 he; decide) (.cons (by simp) .nil))

example : MapsGood (.mk 3 [] (.map [(.mk 3 [] (.str b!"a"), .mk 6 b!"t" (.seq []))])) := by
  refine everywhere_mk.2 ⟨?_, ?_⟩
  · rintro es ⟨⟩
    exact ⟨goodKeys_str _ (by simp [Node.yaml]), by simp⟩
  · intro k v hx
    simp only [List.mem_singleton, Prod.mk.injEq] at hx
    obtain ⟨rfl, rfl⟩ := hx
    exact ⟨everywhere_mk.2 ⟨(by rintro _ ⟨⟩), trivial⟩, everywhere_mk.2 ⟨(by rintro _ ⟨⟩), (by rintro x ⟨⟩)⟩⟩

end YamlPeg.Props
