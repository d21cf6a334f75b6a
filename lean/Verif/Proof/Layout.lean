import Verif.Proof.Literal
import Verif.Proof.Alias
import Verif.Proof.Reads
import Verif.Proof.PlainFold
/-!
# Well-formed layouts, in terms of the text only

The trees of `Proof/Tree.lean` are concrete syntax trees: they carry every
character of a document.  Here we say, with conditions on the characters only,
when such a tree is a document that the parser reads as expected.
-/

namespace YamlPeg
open M

/-! ## Keys -/

/-- Number keys are within range, and keys with the same value are written the same way. -/
structure KeysOK (ys : List Yaml) : Prop where
  int : ∀ s, .int s ∈ ys → (toI64 s).isSome
  intSame : ∀ s s', .int s ∈ ys → .int s' ∈ ys → toI64 s = toI64 s' → s = s'
  float : ∀ s, .float s ∈ ys → (toF64 s).isSome
  floatSame : ∀ s s' a c, .float s ∈ ys → .float s' ∈ ys → toF64 s = some a → toF64 s' = some c →
    a.same c = true → s = s'

def Yaml.isScalar : Yaml → Bool
  | .seq _ => false
  | .map _ => false
  | .alias _ => false
  | _ => true

theorem ScalarText.scalar {κ : EndKind} {T : Bytes} {y : Yaml} (h : ScalarText κ T y) : y.isScalar = true := by
  cases h <;> try rfl
  rename_i hk
  have : ∀ kv ∈ Props.keywords, kv.2.isScalar = true := by decide
  exact this _ hk

theorem goodKeys_scalars {ks : List Node} (hs : ∀ k ∈ ks, k.yaml.isScalar = true)
    (h : KeysOK (ks.map Node.yaml)) : GoodKeys ks := by
  have hm : ∀ k ∈ ks, k.yaml ∈ ks.map Node.yaml := fun k hk => List.mem_map_of_mem hk
  have hr : ∀ k ∈ ks, ReadableHere k := by
    intro k hk
    have := hm k hk
    unfold ReadableHere
    split
    · rename_i s he; rw [he] at this; exact h.int s this
    · rename_i s he; rw [he] at this; exact h.float s this
    · trivial
  refine ⟨?_, ?_⟩
  · intro k hk
    have h1 := hr k hk
    have h2 := hs k hk
    obtain ⟨p, t, y⟩ := k
    refine everywhere_mk.2 ⟨h1, ?_⟩
    simp only [Node.yaml] at h2
    cases y <;> first | trivial | simp [Yaml.isScalar] at h2
  · intro k hk k' hk' he
    have h1 := hs k hk
    have h2 := hs k' hk'
    have m1 := hm k hk
    have m2 := hm k' hk'
    have r1 := hr k hk
    have r2 := hr k' hk'
    obtain ⟨p, t, y⟩ := k
    obtain ⟨p', t', y'⟩ := k'
    simp only [Node.yaml] at h1 h2 m1 m2
    simp only [Node.eqb] at he
    simp only [Node.hashStream]
    cases y <;> cases y' <;> simp only [Yaml.eqb, Bool.false_eq_true, beq_iff_eq] at he <;>
      first
      | (simp [Yaml.isScalar] at h1; done)
      | rfl
      | (rw [he]; done)
      | skip
    · rw [h.intSame _ _ m1 m2 he]
    · simp only [ReadableHere, Node.yaml] at r1 r2
      rename_i s s'
      obtain ⟨a, ha⟩ := Option.isSome_iff_exists.1 r1
      obtain ⟨c, hc⟩ := Option.isSome_iff_exists.1 r2
      rw [ha, hc] at he
      rw [h.floatSame _ _ _ _ m1 m2 ha hc he]

/-! ## Flow collections -/

/-- A scalar that can stand in a flow collection, or an alias, in front of the white space `W`. -/
def AtomIs (T : Bytes) (y : Env → Yaml) (pc : Env → Prop) (W : Bytes) : Prop :=
  (∃ κ v, FlowText T v ∧ ScalarText κ T v ∧ Behind κ W ∧ (y = fun _ => v) ∧ pc = fun _ => True) ∨
  (∃ a, IsIdent a ∧ AllWs W ∧ T = 0x2A :: a ∧ y = aliasYaml a ∧ pc = aliasFine a)

theorem AtomIs.ok {T : Bytes} {y : Env → Yaml} {pc : Env → Prop} {W : Bytes} (h : AtomIs T y pc W) : AtomOK T y pc W := by
  rcases h with ⟨κ, v, h1, h2, h3, rfl, rfl⟩ | ⟨a, ha, hW, rfl, rfl, rfl⟩
  · exact h1.atom h2 h3
  · exact alias_atom ha hW

/-- Blanks; behind `-` and `:` there is a space or the end of the line. -/
def SepIs (sp lead : Bytes) : Prop :=
  (∀ x ∈ sp, isBlank x = true) ∧ ((∃ r, sp = 0x20 :: r) ∨ (sp = [] ∧ ∃ nl r, LineBreak nl ∧ lead = nl ++ r))

/-- An anchor is an identifier, a tag begins with `!`; behind each there is a
space or the end of the line, the latter only in front of the node. -/
def Form.is (lead : Bytes) : Form → Prop
  | .anchor a sp => IsIdent a ∧ SepIs sp lead
  | .tag tg _ sp => (∃ r, tg = 0x21 :: r) ∧ SepIs sp lead
  | .anchorTag a sp tg _ sp' => IsIdent a ∧ (∃ r, tg = 0x21 :: r) ∧ SepIs sp [] ∧ SepIs sp' lead
  | .tagAnchor tg _ sp a sp' => (∃ r, tg = 0x21 :: r) ∧ SepIs sp [] ∧ IsIdent a ∧ SepIs sp' lead

theorem Form.is.wf_flow {f : Form} {T : Bytes} (h : f.is []) (hT : ∃ c r, T = c :: r ∧ isBlank c = false) : f.wf T := by
  have one : ∀ {sp X : Bytes}, (∃ c r, X = c :: r ∧ isBlank c = false) → SepIs sp [] → SepOK sp X := by
    intro sp X hX h
    refine ⟨h.1, hX, h.2.imp id ?_⟩
    rintro ⟨_, nl, r', hnl, he⟩
    rcases hnl with rfl | rfl <;> simp at he
  cases f with
  | anchor a sp => exact ⟨h.1, one hT h.2⟩
  | tag tg t sp => exact ⟨h.1, one hT h.2⟩
  | anchorTag a sp tg t sp' =>
    obtain ⟨h1, ⟨r, rfl⟩, h3, h4⟩ := h
    exact ⟨h1, ⟨r, rfl⟩, one ⟨_, r, rfl, by decide⟩ h3, one hT h4⟩
  | tagAnchor tg t sp a sp' =>
    obtain ⟨h1, h2, h3, h4⟩ := h
    exact ⟨h1, one ⟨_, a, rfl, by decide⟩ h2, h3, one hT h4⟩

mutual
/-- Every scalar is a `FlowText` or an alias, the white space is white space;
`W` is the white space behind the node. -/
def Flow.ok (W : Bytes) : Flow → Prop
  | .atom T y pc => AtomIs T y pc W
  | .seq ws its => AllWs ws ∧ its.ok ∧ AllWs W
  | .map ws es => AllWs ws ∧ es.ok ∧ AllWs W ∧ KeysOK es.keys
  | .prop P f => P.is [] ∧ f.bare = true ∧ f.ok W
def FItems.ok : FItems → Prop
  | .nil => True
  | .last f W => f.ok W
  | .cons f W ws rest => f.ok W ∧ AllWs ws ∧ rest.ok
def FEnts.ok : FEnts → Prop
  | .nil => True
  | .last T y sp v W => FlowKey T y sp ∧ v.ok W
  | .cons T y sp v ws rest => FlowKey T y sp ∧ v.ok [] ∧ AllWs ws ∧ rest.ok
/-- The keys in order. -/
def FEnts.keys : FEnts → List Yaml
  | .nil => []
  | .last _ y _ _ _ => [y]
  | .cons _ y _ _ _ rest => y :: rest.keys
end

theorem FEnts.keys_pairs : ∀ (es : FEnts) (p : Nat) (e : Env), ((es.pairs p e).map Prod.fst).map Node.yaml = es.keys
  | .nil, p, e => by simp [FEnts.pairs, FEnts.keys]
  | .last T y sp v W, p, e => by simp [FEnts.pairs, FEnts.keys, Node.yaml]
  | .cons T y sp v ws rest, p, e => by
    have := FEnts.keys_pairs rest (p + T.length + 1 + sp.length + v.text.length + 1 + ws.length)
      { e with anchors := v.eff (p + T.length + 1 + sp.length) e }
    simp only [FEnts.pairs, FEnts.keys, List.map_cons, this, Node.yaml]

theorem FEnts.keys_scalar : ∀ (es : FEnts), es.ok → ∀ y ∈ es.keys, y.isScalar = true
  | .nil, _ => by simp [FEnts.keys]
  | .last T y sp v W, h => by
    simp only [FEnts.ok] at h
    simp only [FEnts.keys, List.mem_singleton, forall_eq]
    obtain ⟨κ, hk⟩ := h.1.1.1; exact hk.scalar
  | .cons T y sp v ws rest, h => by
    simp only [FEnts.ok] at h
    simp only [FEnts.keys, List.mem_cons]
    rintro x (rfl | hx)
    · obtain ⟨κ, hk⟩ := h.1.1.1; exact hk.scalar
    · exact FEnts.keys_scalar rest h.2.2.2 x hx

mutual
theorem Flow.ok_wf : ∀ (f : Flow) (W : Bytes), f.ok W → f.wf W
  | .atom T y pc, W, h => by simp only [Flow.ok, Flow.wf] at h ⊢; exact h.ok
  | .seq ws its, W, h => by simp only [Flow.ok, Flow.wf] at h ⊢; exact ⟨h.1, FItems.ok_wf its h.2.1, h.2.2⟩
  | .map ws es, W, h => by
    simp only [Flow.ok, Flow.wf] at h ⊢
    refine ⟨h.1, FEnts.ok_wf es h.2.1, h.2.2.1, fun p e => goodKeys_scalars ?_ ?_⟩
    · intro k hk
      refine FEnts.keys_scalar es h.2.1 _ ?_
      rw [← FEnts.keys_pairs es p e]; exact List.mem_map_of_mem hk
    · rw [FEnts.keys_pairs]; exact h.2.2.2
  | .prop P f, W, h => by
    simp only [Flow.ok, Flow.wf] at h ⊢
    have hf := Flow.ok_wf f W h.2.2
    obtain ⟨c, r, h1, h2, _⟩ := Flow.head hf
    exact ⟨h.1.wf_flow ⟨c, r, h1, tokHead_blank h2⟩, h.2.1, hf⟩
theorem FItems.ok_wf : ∀ (f : FItems), f.ok → f.wf
  | .nil, _ => by simp [FItems.wf]
  | .last f W, h => by simp only [FItems.ok, FItems.wf] at h ⊢; exact Flow.ok_wf f W h
  | .cons f W ws rest, h => by
    simp only [FItems.ok, FItems.wf] at h ⊢
    exact ⟨Flow.ok_wf f W h.1, h.2.1, FItems.ok_wf rest h.2.2⟩
theorem FEnts.ok_wf : ∀ (es : FEnts), es.ok → es.wf
  | .nil, _ => by simp [FEnts.wf]
  | .last T y sp v W, h => by
    simp only [FEnts.ok, FEnts.wf] at h ⊢; exact ⟨h.1.key, Flow.ok_wf v W h.2⟩
  | .cons T y sp v ws rest, h => by
    simp only [FEnts.ok, FEnts.wf] at h ⊢
    exact ⟨h.1.key, Flow.ok_wf v [] h.2.1, h.2.2.1, FEnts.ok_wf rest h.2.2.2⟩
end

mutual
/-- Neither anchors nor aliases, and no tag that needs a directive. -/
def Flow.still : Flow → Prop
  | .atom _ y pc => (∀ e e', y e = y e') ∧ ∀ e, pc e
  | .seq _ its => its.still
  | .map _ es => es.still
  | .prop P f => (∀ tbl, P.fine tbl) ∧ P.name = [] ∧ f.still
def FItems.still : FItems → Prop
  | .nil => True
  | .last f _ => f.still
  | .cons f _ _ rest => f.still ∧ rest.still
def FEnts.still : FEnts → Prop
  | .nil => True
  | .last _ _ _ v _ => v.still
  | .cons _ _ _ v _ rest => v.still ∧ rest.still
end

mutual
theorem Flow.still_spec : ∀ (f : Flow), f.still → (∀ p e e', f.data p e = f.data p e') ∧ f.known.still
  | .atom T y pc, h => by
    simp only [Flow.still] at h
    simp only [Flow.data, Flow.known, Known.still, Flow.fine, Flow.eff]
    exact ⟨fun _ => h.1, fun _ => h.2, fun _ _ => trivial⟩
  | .seq ws its, h => by
    simp only [Flow.still] at h
    have := FItems.still_spec its h
    simp only [Flow.data, Flow.known, Known.still, Flow.fine, Flow.eff]
    exact ⟨fun p e e' => by rw [this.1 _ e e'], fun p e => this.2.1 _ e, fun p e => this.2.2 _ e⟩
  | .map ws es, h => by
    simp only [Flow.still] at h
    have := FEnts.still_spec es h
    simp only [Flow.data, Flow.known, Known.still, Flow.fine, Flow.eff]
    exact ⟨fun p e e' => by rw [this.1 _ e e'], fun p e => this.2.1 _ e, fun p e => this.2.2 _ e⟩
  | .prop P f, h => by
    simp only [Flow.still] at h
    have := Flow.still_spec f h.2.2
    simp only [Flow.known, Known.still] at this
    simp only [Flow.data, Flow.known, Known.still, Flow.fine, Flow.eff, h.2.1, if_true]
    exact ⟨fun p e e' => this.1 _ e e', fun p e => ⟨h.1 _, this.2.1 _ e, by simp⟩, fun p e => this.2.2 _ e⟩
theorem FItems.still_spec : ∀ (its : FItems), its.still → (∀ p e e', its.nodes p e = its.nodes p e') ∧
    (∀ p e, its.fine p e) ∧ ∀ p e, its.eff p e = e.anchors
  | .nil, _ => by simp [FItems.nodes, FItems.fine, FItems.eff]
  | .last f W, h => by
    simp only [FItems.still] at h
    have := Flow.still_spec f h
    simp only [FItems.nodes, FItems.fine, FItems.eff]
    exact ⟨fun p e e' => by rw [this.1 _ e e'], this.2.1, this.2.2⟩
  | .cons f W ws rest, h => by
    simp only [FItems.still] at h
    have h1 := Flow.still_spec f h.1
    have h2 := FItems.still_spec rest h.2
    simp only [FItems.nodes, FItems.fine, FItems.eff]
    refine ⟨fun p e e' => ?_, fun p e => ⟨h1.2.1 p e, h2.2.1 _ _⟩, fun p e => ?_⟩
    · rw [h1.1 _ e e', h2.1 _ _ { e' with anchors := f.eff p e' }]
    · rw [h2.2.2]; exact h1.2.2 p e
theorem FEnts.still_spec : ∀ (es : FEnts), es.still → (∀ p e e', es.pairs p e = es.pairs p e') ∧
    (∀ p e, es.fine p e) ∧ ∀ p e, es.eff p e = e.anchors
  | .nil, _ => by simp [FEnts.pairs, FEnts.fine, FEnts.eff]
  | .last T y sp v W, h => by
    simp only [FEnts.still] at h
    have := Flow.still_spec v h
    simp only [FEnts.pairs, FEnts.fine, FEnts.eff]
    exact ⟨fun p e e' => by rw [this.1 _ e e'], fun p e => this.2.1 _ e, fun p e => this.2.2 _ e⟩
  | .cons T y sp v ws rest, h => by
    simp only [FEnts.still] at h
    have h1 := Flow.still_spec v h.1
    have h2 := FEnts.still_spec rest h.2
    simp only [FEnts.pairs, FEnts.fine, FEnts.eff]
    refine ⟨fun p e e' => ?_, fun p e => ⟨h1.2.1 _ e, h2.2.1 _ _⟩, fun p e => ?_⟩
    · rw [h1.1 _ e e', h2.1 _ _ { e' with anchors := v.eff (p + T.length + 1 + sp.length) e' }]
    · rw [h2.2.2]; exact h1.2.2 _ e
end

/-- The data of a flow collection without anchors and aliases. -/
def Flow.value (f : Flow) (p : Nat) : Yaml := f.data p .none

/-- A scalar of a flow collection. -/
abbrev Flow.one (T : Bytes) (y : Yaml) : Flow := .atom T (fun _ => y) (fun _ => True)

/-! ## Blocks -/

/-- A leaf: a scalar on one line, a flow collection, or an alias. -/
def LeafIs (κ : EndKind) (T : Bytes) (y : Nat → Env → Yaml) (pc : Known) : Prop :=
  (∃ v, ScalarText κ T v ∧ (y = fun _ _ => v) ∧ pc = .none) ∨
  (∃ f : Flow, f.ok [] ∧ f.isAtom = false ∧ κ = .loose ∧ T = f.text ∧ y = f.data ∧ pc = f.known) ∨
  (∃ a, IsIdent a ∧ κ = .loose ∧ T = 0x2A :: a ∧ (y = fun _ e => aliasYaml a e) ∧ pc = .of (aliasFine a))

/-- A plain scalar over several lines, the further ones indented by `w`. -/
def FoldIs (w : Nat) (κ : EndKind) (T : Bytes) (y : Nat → Env → Yaml) (pc : Known) : Prop :=
  ∃ nl s r, LineBreak nl ∧ PlainLine s ∧ PlainMore r ∧ r ≠ [] ∧ κ = .fold w ∧ T = plainFolded nl w s r ∧
    (y = fun _ _ => .str (plainFoldVal s r)) ∧ pc = .none

/-- A leaf of a tree at column `σ`. -/
def LeafAt (σ : Nat) (κ : EndKind) (T : Bytes) (y : Nat → Env → Yaml) (pc : Known) : Prop :=
  LeafIs κ T y pc ∨ FoldIs (σ + 2) κ T y pc

/-- A block scalar indented by `τ`, with its value. -/
def LitIs (τ : Nat) (T s : Bytes) : Prop :=
  ∃ (c : Chomp) (ls : List Bytes), 0 < τ ∧ BlockScalar ls ∧
    ((T = 0x7C :: (c.mark ++ blockLines τ ls) ∧ s = literalValue ls ++ c.ends) ∨
     (FoldedLines ls ∧ T = 0x3E :: (c.mark ++ blockLines τ ls) ∧ s = foldedValue ls ++ c.ends))

/-- The lines between `- ` or `key: ` and a node on a line of its own: the rest
of the line, perhaps a comment, and further empty lines and comment lines. -/
def LeadLines (σ : Nat) (lead : Bytes) : Prop :=
  ∃ nl l ls, LineBreak nl ∧ IdleLine l ∧ (∀ c r, l = c :: r → isBlank c = false) ∧
    (∀ x ∈ ls, IdleLine x) ∧ lead = gapLines nl (l :: ls) ++ spaces σ

/-- The lines that end a node: the rest of its last line, then empty lines and
comment lines.  Numbers cannot be followed by a comment; a block scalar cannot be
followed by an empty line or an indented comment; where there is no node, a
comment would be taken for one. -/
def AfterLines (κ : EndKind) (G : Bytes) : Prop :=
  ∃ nl l ls, LineBreak nl ∧ G = gapLines nl (l :: ls) ∧ IdleLine l ∧ (∀ x ∈ ls, IdleLine x) ∧
    match κ with
    | .strict => l = []
    | .empty => l = []
    | .loose => l = [] ∨ ∃ r, l = 0x20 :: 0x23 :: r
    | .fold _ => l = [] ∨ ∃ r, l = 0x20 :: 0x23 :: r
    | .lit _ => nl = [0x0A] ∧ l = [] ∧ ∀ m, ls.head? = some m → ∃ r, m = 0x23 :: r
    | .only _ => False

/-- The keys in order. -/
def Ents.keys : Ents → List Yaml
  | .one _ y _ _ => [y]
  | .cons _ y _ _ _ rest => y :: rest.keys

/-- Blanks between `-` or `:` and the node; none are needed if there is no node. -/
def Blk.sepIs (sp : Bytes) (b : Blk) : Prop := SepIs sp b.lead ∨ (sp = [] ∧ b.text = [])

/-- A key on the line of its `:`, perhaps with properties. -/
def Blk.flatIs : Blk → Prop
  | .leaf lead T κ y pc => lead = [] ∧ LeafIs κ T y pc
  | .prop f (.leaf lead T κ y pc) => f.is [] ∧ lead = [] ∧ LeafIs κ T y pc
  | _ => False

mutual
/-- A node in a sequence, or the root.  An item may be empty. -/
def Blk.okN (σ : Nat) : Blk → Prop
  | .leaf lead T κ y pc => ((lead = [] ∨ LeadLines σ lead) ∧ LeafAt σ κ T y pc) ∨ (EmptyLeaf lead T κ y pc ∧ 0 < σ)
  | .lit T τ s => τ = σ ∧ LitIs τ T s
  | .seq lead τ its => (lead = [] ∨ LeadLines σ lead) ∧ τ = σ ∧ its.ok τ
  | .map lead τ es => (lead = [] ∨ LeadLines σ lead) ∧ τ = σ ∧ es.ok τ ∧ KeysOK es.keys
  | .cmap lead τ es => (lead = [] ∨ LeadLines σ lead) ∧ τ = σ ∧ es.ok τ ∧ (lead = [] → es.c ≠ none ∨ es.b.bare = true)
  | .prop f b => f.is b.lead ∧ b.bare = true ∧ b.text ≠ [] ∧ b.okN σ
/-- The value of a map at column `σ`.  It may be empty if the map is indented. -/
def Blk.okV (σ : Nat) : Blk → Prop
  | .leaf lead T κ y pc => (lead = [] ∧ LeafAt σ κ T y pc) ∨ (EmptyLeaf lead T κ y pc ∧ 0 < σ)
  | .lit T τ s => τ = σ + 2 ∧ LitIs τ T s
  | .seq lead τ its => LeadLines τ lead ∧ σ ≤ τ ∧ its.ok τ
  | .map lead τ es => LeadLines τ lead ∧ σ < τ ∧ es.ok τ ∧ KeysOK es.keys
  | .cmap lead τ es => LeadLines τ lead ∧ σ < τ ∧ es.ok τ
  | .prop f b => f.is b.lead ∧ b.bare = true ∧ b.text ≠ [] ∧ b.okV σ
def Items.ok (τ : Nat) : Items → Prop
  | .one sp b => b.sepIs sp ∧ b.okN (τ + 2)
  | .cons sp b G rest => b.sepIs sp ∧ b.okN (τ + 2) ∧ AfterLines b.kind G ∧ rest.ok τ
/-- Only the last value may be empty. -/
def Ents.ok (τ : Nat) : Ents → Prop
  | .one T y sp v => (∃ κ, ScalarText κ T y) ∧ v.sepIs sp ∧ v.okV τ
  | .cons T y sp v G rest => (∃ κ, ScalarText κ T y) ∧ v.sepIs sp ∧ (v.okV τ ∧ v.text ≠ []) ∧
      AfterLines v.kind G ∧ rest.ok τ
/-- Keys that are nodes: on the line of the `:`, or behind `?`. -/
def CEnts.ok (τ : Nat) : CEnts → Prop
  | .one none b sp v => b.flatIs ∧ v.sepIs sp ∧ v.okV τ
  | .one (some (s, G)) b sp v => (SepIs s b.lead ∧ b.okV τ ∧ b.text ≠ [] ∧ AfterLines b.kind G) ∧ v.sepIs sp ∧ v.okV τ
  | .cons none b sp v G' rest => b.flatIs ∧ v.sepIs sp ∧ (v.okV τ ∧ v.text ≠ []) ∧ AfterLines v.kind G' ∧ rest.ok τ
  | .cons (some (s, G)) b sp v G' rest => (SepIs s b.lead ∧ b.okV τ ∧ b.text ≠ [] ∧ AfterLines b.kind G) ∧
      v.sepIs sp ∧ (v.okV τ ∧ v.text ≠ []) ∧ AfterLines v.kind G' ∧ rest.ok τ
end

theorem LeafIs.ok {κ : EndKind} {T : Bytes} {y : Nat → Env → Yaml} {pc : Known} (h : LeafIs κ T y pc) :
    LeafOKE κ T y pc := by
  rcases h with ⟨v, hv, rfl, rfl⟩ | ⟨f, hf, ha, rfl, rfl, rfl, rfl⟩ | ⟨a, ha, rfl, rfl, rfl, rfl⟩
  · exact hv.leaf.toE
  · exact Flow.leaf (Flow.ok_wf f [] hf) ha
  · exact alias_leaf ha

theorem LeafIs.kind {κ : EndKind} {T : Bytes} {y : Nat → Env → Yaml} {pc : Known} (h : LeafIs κ T y pc) :
    κ = .loose ∨ κ = .strict := by
  rcases h with ⟨v, hv, _⟩ | ⟨f, hf, ha, rfl, _⟩ | ⟨a, ha, rfl, _⟩
  · cases hv <;> simp
  · simp
  · simp

theorem FoldIs.ok {w : Nat} {κ : EndKind} {T : Bytes} {y : Nat → Env → Yaml} {pc : Known} (h : FoldIs w κ T y pc) :
    LeafOKE κ T y pc := by
  obtain ⟨nl, s, r, h1, h2, h3, h4, rfl, rfl, rfl, rfl⟩ := h
  exact plain_folded_leaf h1 h2 h3 h4

theorem LeafAt.ok {σ : Nat} {κ : EndKind} {T : Bytes} {y : Nat → Env → Yaml} {pc : Known} (h : LeafAt σ κ T y pc) :
    LeafOKE κ T y pc := h.elim LeafIs.ok FoldIs.ok

theorem LeafAt.fits {σ : Nat} {κ : EndKind} {T : Bytes} {y : Nat → Env → Yaml} {pc : Known} (h : LeafAt σ κ T y pc) :
    KindFits σ κ := by
  rintro w rfl
  rcases h with h | ⟨nl, s, r, h1, h2, h3, h4, h5, _⟩
  · rcases h.kind with h | h <;> cases h
  · cases h5; rfl

theorem LitIs.ok {τ : Nat} {T s : Bytes} (h : LitIs τ T s) : LitOK τ T s := by
  obtain ⟨c, ls, hτ, hb, ⟨rfl, rfl⟩ | ⟨hf, rfl, rfl⟩⟩ := h
  · exact hb.literal hτ c
  · exact hb.folded hτ hf c

theorem LeadLines.lead {σ : Nat} {lead : Bytes} (h : LeadLines σ lead) : ∃ G, GapText G ∧ lead = G ++ spaces σ := by
  obtain ⟨nl, l, ls, hnl, hl, _, hls, rfl⟩ := h
  exact ⟨_, gapText_lines hnl (by simp) (by simp; exact ⟨hl, hls⟩), rfl⟩

theorem leadOK {σ : Nat} {lead : Bytes} (h : lead = [] ∨ LeadLines σ lead) : LeadOK σ lead :=
  h.imp id LeadLines.lead

theorem AfterLines.gap {κ : EndKind} {G : Bytes} (h : AfterLines κ G) : GapText G := by
  obtain ⟨nl, l, ls, hnl, rfl, hl, hls, _⟩ := h
  exact gapText_lines hnl (by simp) (by simp; exact ⟨hl, hls⟩)

/-- What the kind of a tree can be. -/
def KindAt (σ : Nat) (κ : EndKind) : Prop :=
  κ = .loose ∨ κ = .strict ∨ (∃ τ, κ = .lit τ ∧ σ < τ) ∨ (∃ w, κ = .fold w) ∨ κ = .empty

theorem KindAt.mono {σ σ' : Nat} {κ : EndKind} (h : KindAt σ κ) (hσ : σ' ≤ σ) : KindAt σ' κ := by
  rcases h with h | h | ⟨τ, h, hl⟩ | h
  · exact .inl h
  · exact .inr (.inl h)
  · exact .inr (.inr (.inl ⟨τ, h, by omega⟩))
  · exact .inr (.inr (.inr h))

theorem LeafAt.kindAt {τ : Nat} {κ : EndKind} {T : Bytes} {y : Nat → Env → Yaml} {pc : Known} (h : LeafAt τ κ T y pc)
    (σ : Nat) : KindAt σ κ := by
  rcases h with h | ⟨nl, s, r, h1, h2, h3, h4, h5, _⟩
  · rcases h.kind with h | h
    · exact .inl h
    · exact .inr (.inl h)
  · exact .inr (.inr (.inr (.inl ⟨_, h5⟩)))

mutual
theorem Blk.okN_kind : ∀ (b : Blk) (σ : Nat), b.okN (σ + 1) → KindAt σ b.kind
  | .leaf lead T κ y pc, σ, h => by
    simp only [Blk.okN] at h; simp only [Blk.kind]
    rcases h with h | ⟨h, _⟩
    · exact h.2.kindAt σ
    · exact .inr (.inr (.inr (.inr h.2.2.1)))
  | .lit T τ s, σ, h => by
    simp only [Blk.okN] at h; simp only [Blk.kind]
    exact .inr (.inr (.inl ⟨τ, rfl, by omega⟩))
  | .seq lead τ its, σ, h => by
    simp only [Blk.okN] at h; simp only [Blk.kind]
    exact (Items.ok_kind its τ h.2.2).mono (by omega)
  | .map lead τ es, σ, h => by
    simp only [Blk.okN] at h; simp only [Blk.kind]
    exact (Ents.ok_kind es τ h.2.2.1).mono (by omega)
  | .cmap lead τ es, σ, h => by
    simp only [Blk.okN] at h; simp only [Blk.kind]
    exact (CEnts.ok_kind es τ h.2.2.1).mono (by omega)
  | .prop f b, σ, h => by
    simp only [Blk.okN] at h; simp only [Blk.kind]
    exact Blk.okN_kind b σ h.2.2.2
theorem Blk.okV_kind : ∀ (b : Blk) (σ : Nat), b.okV σ → KindAt σ b.kind
  | .leaf lead T κ y pc, σ, h => by
    simp only [Blk.okV] at h; simp only [Blk.kind]
    rcases h with h | ⟨h, _⟩
    · exact h.2.kindAt σ
    · exact .inr (.inr (.inr (.inr h.2.2.1)))
  | .lit T τ s, σ, h => by
    simp only [Blk.okV] at h; simp only [Blk.kind]
    exact .inr (.inr (.inl ⟨τ, rfl, by omega⟩))
  | .seq lead τ its, σ, h => by
    simp only [Blk.okV] at h; simp only [Blk.kind]
    exact (Items.ok_kind its τ h.2.2).mono (by omega)
  | .map lead τ es, σ, h => by
    simp only [Blk.okV] at h; simp only [Blk.kind]
    exact (Ents.ok_kind es τ h.2.2.1).mono (by omega)
  | .cmap lead τ es, σ, h => by
    simp only [Blk.okV] at h; simp only [Blk.kind]
    exact (CEnts.ok_kind es τ h.2.2).mono (by omega)
  | .prop f b, σ, h => by
    simp only [Blk.okV] at h; simp only [Blk.kind]
    exact Blk.okV_kind b σ h.2.2.2
theorem Items.ok_kind : ∀ (its : Items) (τ : Nat), its.ok τ → KindAt τ its.kind
  | .one sp b, τ, h => by
    simp only [Items.ok] at h; simp only [Items.kind]
    exact (Blk.okN_kind b (τ + 1) h.2).mono (by omega)
  | .cons sp b G rest, τ, h => by
    simp only [Items.ok] at h; simp only [Items.kind]
    exact Items.ok_kind rest τ h.2.2.2
theorem Ents.ok_kind : ∀ (es : Ents) (τ : Nat), es.ok τ → KindAt τ es.kind
  | .one T y sp v, τ, h => by
    simp only [Ents.ok] at h; simp only [Ents.kind]; exact Blk.okV_kind v τ h.2.2
  | .cons T y sp v G rest, τ, h => by
    simp only [Ents.ok] at h; simp only [Ents.kind]; exact Ents.ok_kind rest τ h.2.2.2.2
theorem CEnts.ok_kind : ∀ (es : CEnts) (τ : Nat), es.ok τ → KindAt τ es.kind
  | .one none b sp v, τ, h => by
    simp only [CEnts.ok] at h; simp only [CEnts.kind]; exact Blk.okV_kind v τ h.2.2
  | .one (some (s, G)) b sp v, τ, h => by
    simp only [CEnts.ok] at h; simp only [CEnts.kind]; exact Blk.okV_kind v τ h.2.2
  | .cons none b sp v G' rest, τ, h => by
    simp only [CEnts.ok] at h; simp only [CEnts.kind]; exact CEnts.ok_kind rest τ h.2.2.2.2
  | .cons (some (s, G)) b sp v G' rest, τ, h => by
    simp only [CEnts.ok] at h; simp only [CEnts.kind]; exact CEnts.ok_kind rest τ h.2.2.2.2
end

theorem spaces_isPrefix_lt {τ σ : Nat} (h : σ < τ) {c : UInt8} (hc : c ≠ 0x20) (r : Bytes) :
    (spaces τ).isPrefixOf (spaces σ ++ c :: r) = false := by
  induction σ generalizing τ with
  | zero =>
    obtain ⟨t, rfl⟩ : ∃ t, τ = t + 1 := ⟨τ - 1, by omega⟩
    simp [spaces, List.replicate_succ, List.isPrefixOf, Ne.symm hc]
  | succ σ ih =>
    obtain ⟨t, rfl⟩ : ∃ t, τ = t + 1 := ⟨τ - 1, by omega⟩
    have := ih (τ := t) (by omega)
    simpa [spaces, List.replicate_succ, List.isPrefixOf] using this

theorem AfterLines.fits {κ : EndKind} {G : Bytes} (h : AfterLines κ G) {σ : Nat} (hk : KindAt σ κ) {X : Bytes}
    (hX : X = [] ∨ ∃ c r, X = spaces σ ++ c :: r ∧ tokHead c = true) : Fits κ (G ++ X) := by
  obtain ⟨nl, l, ls, hnl, rfl, hl, hls, hm⟩ := h
  rcases hk with rfl | rfl | ⟨τ, rfl, hlt⟩ | ⟨w, rfl⟩ | rfl
  · simp only at hm
    rcases hm with rfl | ⟨r, rfl⟩
    · left; simp only [gapLines, List.nil_append, List.append_assoc]; exact hnl.nlLen _
    · right; rfl
  · simp only at hm
    subst hm
    simp only [Fits, gapLines, List.nil_append, List.append_assoc]; exact hnl.nlLen _
  · simp only at hm
    obtain ⟨rfl, rfl, hm⟩ := hm
    refine ⟨gapLines [0x0A] ls ++ X, by simp [gapLines], ?_⟩
    cases ls with
    | nil =>
      simp only [gapLines, List.nil_append]
      rcases hX with rfl | ⟨c, r, rfl, hc⟩
      · refine ⟨by simp [nlLen], ?_⟩
        obtain ⟨t, rfl⟩ : ∃ t, τ = t + 1 := ⟨τ - 1, by omega⟩
        simp [spaces, List.replicate_succ, List.isPrefixOf]
      · refine ⟨?_, spaces_isPrefix_lt hlt (by rintro rfl; revert hc; decide) r⟩
        rw [nlLen_zero_iff]
        intro x s hx
        cases σ with
        | zero => simp [spaces] at hx; rw [← hx.1]; exact ⟨(tokHead_ne hc).2.1, (tokHead_ne hc).2.2.1⟩
        | succ σ => simp [spaces, List.replicate_succ] at hx; rw [← hx.1]; decide
    | cons m ls =>
      obtain ⟨r, rfl⟩ := hm m rfl
      simp only [gapLines, List.cons_append]
      refine ⟨?_, ?_⟩
      · rw [nlLen_zero_iff]; rintro _ _ ⟨⟩; decide
      · exact spaces_isPrefix_lt (σ := 0) (by omega) (by decide) _
  · simp only at hm
    rcases hm with rfl | ⟨r, rfl⟩
    · left; simp only [gapLines, List.nil_append, List.append_assoc]; exact hnl.nlLen _
    · right; rfl
  · simp only at hm
    subst hm
    simp only [Fits, gapLines, List.nil_append, List.append_assoc]; exact hnl.nlLen _

/-! ## The text of a tree begins at a token -/

theorem Form.is.head {f : Form} {lead : Bytes} (h : f.is lead) : ∃ c r, f.text = c :: r ∧ (c = 0x26 ∨ c = 0x21) := by
  cases f with
  | anchor a sp => exact ⟨_, _, rfl, .inl rfl⟩
  | tag tg t sp => obtain ⟨⟨r, rfl⟩, _⟩ := h; exact ⟨_, _, rfl, .inr rfl⟩
  | anchorTag a sp tg t sp' => exact ⟨_, _, rfl, .inl rfl⟩
  | tagAnchor tg t sp a sp' => obtain ⟨⟨r, rfl⟩, _⟩ := h; exact ⟨_, _, rfl, .inr rfl⟩

theorem Blk.flatIs.head {b : Blk} (h : b.flatIs) : ∃ c r, b.text = c :: r ∧ tokHead c = true := by
  cases b with
  | leaf lead T κ y pc =>
    obtain ⟨rfl, h⟩ := h
    obtain ⟨c, r, he, hc, _⟩ := h.ok.2.head
    exact ⟨c, r, by simp [Blk.text, he], hc⟩
  | prop f b =>
    cases b with
    | leaf lead T κ y pc =>
      obtain ⟨c, r, he, hc⟩ := Form.is.head h.1
      exact ⟨c, _, by simp [Blk.text, he]; rfl, by rcases hc with rfl | rfl <;> decide⟩
    | _ => exact h.elim
  | _ => exact h.elim

theorem CEnts.head_tok {τ : Nat} {es : CEnts} (h : es.ok τ) : ∃ c r, es.K τ = c :: r ∧ tokHead c = true := by
  cases es with
  | one c b sp v =>
    rcases c with _ | ⟨s, G⟩
    · simp only [CEnts.ok] at h; exact h.1.head
    · exact ⟨0x3F, _, rfl, by decide⟩
  | cons c b sp v G' rest =>
    rcases c with _ | ⟨s, G⟩
    · simp only [CEnts.ok] at h; exact h.1.head
    · exact ⟨0x3F, _, rfl, by decide⟩

theorem Blk.okN_head {σ : Nat} {b : Blk} (h : b.okN σ) (hne : b.text ≠ []) (hl : b.lead = []) :
    ∃ c r, b.text = c :: r ∧ tokHead c = true := by
  match b, h with
  | .leaf lead T κ y pc, h =>
    simp only [Blk.okN] at h
    simp only [Blk.lead] at hl; subst hl
    replace h := h.resolve_right (by rintro ⟨⟨_, rfl, _⟩, _⟩; simp [Blk.text] at hne)
    obtain ⟨c, r, rfl, hc, _⟩ := h.2.ok.2.head
    exact ⟨c, r, by simp [Blk.text], hc⟩
  | .lit T τ s, h =>
    simp only [Blk.okN] at h
    obtain ⟨r, rfl | rfl⟩ := h.2.ok.1
    · exact ⟨_, r, rfl, by decide⟩
    · exact ⟨_, r, rfl, by decide⟩
  | .seq lead τ its, h =>
    simp only [Blk.lead] at hl; subst hl
    exact ⟨0x2D, _, by simp [Blk.text]; rfl, by decide⟩
  | .map lead τ es, h =>
    simp only [Blk.lead] at hl; subst hl
    simp only [Blk.okN] at h
    have : ∃ κ, ScalarText κ es.T es.y := by
      cases es <;> (simp only [Ents.ok] at h; exact h.2.2.1.1)
    obtain ⟨κ, hκ⟩ := this
    obtain ⟨c, r, he, hc, _⟩ := hκ.leaf.2.head
    exact ⟨c, _, by simp [Blk.text, he]; rfl, hc⟩
  | .cmap lead τ es, h =>
    simp only [Blk.lead] at hl; subst hl
    simp only [Blk.okN] at h
    obtain ⟨c, r, he, hc⟩ := CEnts.head_tok h.2.2.1
    exact ⟨c, _, by simp [Blk.text, he]; rfl, hc⟩
  | .prop f b, h =>
    simp only [Blk.okN] at h
    obtain ⟨c, r, he, hc⟩ := h.1.head
    exact ⟨c, _, by simp [Blk.text, he]; rfl, by rcases hc with rfl | rfl <;> decide⟩

theorem Blk.okV_head {σ : Nat} {b : Blk} (h : b.okV σ) (hne : b.text ≠ []) (hl : b.lead = []) :
    ∃ c r, b.text = c :: r ∧ tokHead c = true := by
  match b, h with
  | .leaf lead T κ y pc, h =>
    simp only [Blk.okV] at h
    replace h := h.resolve_right (by rintro ⟨⟨rfl, rfl, _⟩, _⟩; simp [Blk.text] at hne)
    obtain ⟨rfl, h⟩ := h
    exact Blk.okN_head (σ := σ) (b := .leaf [] T κ y pc) (by simp only [Blk.okN]; exact .inl ⟨.inl trivial, h⟩) hne rfl
  | .lit T τ s, h =>
    simp only [Blk.okV] at h
    exact Blk.okN_head (σ := τ) (b := .lit T τ s) (by simp only [Blk.okN]; exact ⟨trivial, h.2⟩) hne rfl
  | .seq lead τ its, h =>
    simp only [Blk.okV] at h
    exact Blk.okN_head (σ := τ) (b := .seq lead τ its) (by simp only [Blk.okN]; exact ⟨.inr h.1, trivial, h.2.2⟩) hne hl
  | .map lead τ es, h =>
    simp only [Blk.okV] at h
    exact Blk.okN_head (σ := τ) (b := .map lead τ es) (by simp only [Blk.okN]; exact ⟨.inr h.1, trivial, h.2.2⟩) hne hl
  | .cmap lead τ es, h =>
    simp only [Blk.okV] at h
    simp only [Blk.lead] at hl
    obtain ⟨G, hG, he⟩ := h.1.lead
    obtain ⟨c, r, rfl, _⟩ := hG.head
    rw [hl] at he
    simp at he
  | .prop f b, h =>
    simp only [Blk.okV] at h
    obtain ⟨c, r, he, hc⟩ := h.1.head
    exact ⟨c, _, by simp [Blk.text, he]; rfl, by rcases hc with rfl | rfl <;> decide⟩

theorem Blk.text_lead (b : Blk) : ∃ r, b.text = b.lead ++ r := by
  cases b
  · exact ⟨_, by simp [Blk.text, Blk.lead]; rfl⟩
  · exact ⟨_, by simp [Blk.text, Blk.lead]; rfl⟩
  · exact ⟨_, by simp [Blk.text, Blk.lead]; rfl⟩
  · exact ⟨_, by simp [Blk.text, Blk.lead]; rfl⟩
  · exact ⟨_, by simp [Blk.text, Blk.lead]; rfl⟩
  · exact ⟨_, by simp [Blk.text, Blk.lead]; rfl⟩

theorem LeadLines.head {σ : Nat} {lead : Bytes} (h : LeadLines σ lead) (X : Bytes) :
    ∃ c r, lead ++ X = c :: r ∧ isBlank c = false := by
  obtain ⟨nl, l, ls, hnl, hl, hb, hls, rfl⟩ := h
  cases l with
  | nil =>
    rcases hnl with rfl | rfl
    · exact ⟨0x0A, _, by simp [gapLines]; rfl, by decide⟩
    · exact ⟨0x0D, _, by simp [gapLines]; rfl, by decide⟩
  | cons c l => exact ⟨c, _, by simp [gapLines]; rfl, hb c l rfl⟩

theorem sepOK {sp : Bytes} {b : Blk} (h : SepIs sp b.lead)
    (hb : ∃ c r, b.text = c :: r ∧ isBlank c = false) : SepOK sp b.text := by
  refine ⟨h.1, hb, h.2.imp id ?_⟩
  rintro ⟨rfl, nl, r, hnl, hl⟩
  refine ⟨rfl, ?_⟩
  obtain ⟨r', hr⟩ := b.text_lead
  rw [hr, hl, List.append_assoc]; exact hnl.nlLen _

theorem tok_notBlank {c : UInt8} (h : tokHead c = true) : isBlank c = false := by
  revert h
  exact of_decide_eq_true (byte_forall (P := fun c => decide (tokHead c = true → isBlank c = false)) (by decide +kernel) c)

theorem headN {σ : Nat} {b : Blk} (h : b.okN σ) (hne : b.text ≠ []) (hl : b.lead = [] ∨ LeadLines σ b.lead) :
    ∃ c r, b.text = c :: r ∧ isBlank c = false := by
  rcases hl with hl | hl
  · obtain ⟨c, r, he, hc⟩ := Blk.okN_head h hne hl
    exact ⟨c, r, he, tok_notBlank hc⟩
  · obtain ⟨r, hr⟩ := b.text_lead
    rw [hr]; exact hl.head r

theorem Blk.okN_notBlank {σ : Nat} {b : Blk} (h : b.okN σ) (hne : b.text ≠ []) : ∃ c r, b.text = c :: r ∧ isBlank c = false := by
  refine headN h hne ?_
  match b, h with
  | .leaf .., h => simp only [Blk.okN] at h; exact h.elim And.left fun h => .inl h.1.1
  | .lit .., h => exact .inl rfl
  | .seq .., h => simp only [Blk.okN] at h; exact h.1
  | .map .., h => simp only [Blk.okN] at h; exact h.1
  | .cmap .., h => simp only [Blk.okN] at h; exact h.1
  | .prop .., h => exact .inl rfl

theorem Blk.okV_notBlank {σ : Nat} {b : Blk} (h : b.okV σ) (hne : b.text ≠ []) : ∃ c r, b.text = c :: r ∧ isBlank c = false := by
  match b, h with
  | .leaf lead T κ y pc, h =>
    simp only [Blk.okV] at h
    exact Blk.okN_notBlank (σ := σ) (b := .leaf lead T κ y pc) (by simp only [Blk.okN]; exact h.imp (fun h => ⟨.inl h.1, h.2⟩) id) hne
  | .lit T τ s, h =>
    simp only [Blk.okV] at h
    exact Blk.okN_notBlank (σ := τ) (b := .lit T τ s) (by simp only [Blk.okN]; exact ⟨trivial, h.2⟩) hne
  | .seq lead τ its, h =>
    simp only [Blk.okV] at h
    exact Blk.okN_notBlank (σ := τ) (b := .seq lead τ its) (by simp only [Blk.okN]; exact ⟨.inr h.1, trivial, h.2.2⟩) hne
  | .map lead τ es, h =>
    simp only [Blk.okV] at h
    exact Blk.okN_notBlank (σ := τ) (b := .map lead τ es) (by simp only [Blk.okN]; exact ⟨.inr h.1, trivial, h.2.2⟩) hne
  | .cmap lead τ es, h =>
    simp only [Blk.okV] at h
    rw [Blk.text]
    exact h.1.head _
  | .prop f b, h =>
    obtain ⟨c, r, he, hc⟩ := Blk.okV_head h hne rfl
    exact ⟨c, r, he, tok_notBlank hc⟩

/-- A node without text is an empty one. -/
theorem Blk.okN_empty {σ : Nat} {b : Blk} (h : b.okN σ) (he : b.text = []) : b.kind = .empty ∧ 0 < σ := by
  match b, h with
  | .leaf lead T κ y pc, h =>
    simp only [Blk.okN] at h
    rcases h with h | h
    · obtain ⟨c, r, rfl, hc, _⟩ := h.2.ok.2.head
      simp [Blk.text] at he
    · exact ⟨h.1.2.2.1, h.2⟩
  | .lit T τ s, h =>
    simp only [Blk.okN] at h
    obtain ⟨r, rfl | rfl⟩ := h.2.ok.1 <;> simp [Blk.text] at he
  | .seq .., h => simp [Blk.text] at he
  | .map .., h => simp [Blk.text] at he
  | .cmap .., h => simp [Blk.text] at he
  | .prop f b, h =>
    simp only [Blk.okN] at h
    simp only [Blk.text, List.append_eq_nil_iff] at he
    exact absurd he.2 h.2.2.1

theorem Blk.okV_empty {σ : Nat} {b : Blk} (h : b.okV σ) (he : b.text = []) : b.kind = .empty := by
  match b, h with
  | .leaf lead T κ y pc, h =>
    simp only [Blk.okV] at h
    rcases h with h | h
    · obtain ⟨c, r, rfl, hc, _⟩ := h.2.ok.2.head
      simp [Blk.text] at he
    · exact h.1.2.2.1
  | .lit T τ s, h =>
    simp only [Blk.okV] at h
    obtain ⟨r, rfl | rfl⟩ := h.2.ok.1 <;> simp [Blk.text] at he
  | .seq .., h => simp [Blk.text] at he
  | .map .., h => simp [Blk.text] at he
  | .cmap .., h => simp [Blk.text] at he
  | .prop f b, h =>
    simp only [Blk.okV] at h
    simp only [Blk.text, List.append_eq_nil_iff] at he
    exact absurd he.2 h.2.2.1

theorem Blk.sepIs.of {sp : Bytes} {b : Blk} (h : b.sepIs sp) (hb : b.text ≠ [] → ∃ c r, b.text = c :: r ∧ isBlank c = false)
    (hk : b.text = [] → b.kind = .empty) : b.sepOf sp := by
  by_cases he : b.text = []
  · refine .inr ⟨he, hk he, ?_⟩
    rcases h with h | ⟨rfl, _⟩
    · refine ⟨h.1, ?_⟩
      rcases h.2 with h | ⟨h, _⟩
      · exact .inr h
      · exact .inl h
    · exact ⟨by simp, .inl rfl⟩
  · rcases h with h | ⟨_, h⟩
    · exact .inl (YamlPeg.sepOK h (hb he))
    · exact absurd h he

theorem Form.is.wf {f : Form} {b : Blk} (h : f.is b.lead) (hb : ∃ c r, b.text = c :: r ∧ isBlank c = false) :
    f.wf b.text := by
  have one : ∀ {sp : Bytes} {c : UInt8} (r : Bytes), isBlank c = false → SepIs sp [] → SepOK sp (c :: r) := by
    intro sp c r hc h
    refine ⟨h.1, ⟨c, r, rfl, hc⟩, h.2.imp id ?_⟩
    rintro ⟨_, nl, r', hnl, he⟩
    rcases hnl with rfl | rfl <;> simp at he
  cases f with
  | anchor a sp => exact ⟨h.1, sepOK h.2 hb⟩
  | tag tg t sp => exact ⟨h.1, sepOK h.2 hb⟩
  | anchorTag a sp tg t sp' =>
    obtain ⟨h1, ⟨r, rfl⟩, h3, h4⟩ := h
    exact ⟨h1, ⟨r, rfl⟩, one r (by decide) h3, sepOK h4 hb⟩
  | tagAnchor tg t sp a sp' =>
    obtain ⟨h1, h2, h3, h4⟩ := h
    exact ⟨h1, one a (by decide) h2, h3, sepOK h4 hb⟩

/-! ## Textually well-formed trees are well-formed -/

theorem Ents.keys_pairs : ∀ (es : Ents) (τ kp p : Nat) (e : Env),
    ((es.pairs τ (.mk kp [] es.y) p e).map Prod.fst).map Node.yaml = es.keys
  | .one T y sp v, τ, kp, p, e => by simp [Ents.pairs, Ents.keys, Ents.y, Node.yaml]
  | .cons T y sp v G rest, τ, kp, p, e => by
    have := Ents.keys_pairs rest τ (p + v.text.length + G.length + τ)
      (p + v.text.length + G.length + τ + rest.T.length + 1 + rest.sp.length) { e with anchors := v.eff p e }
    simp only [Ents.pairs, Ents.keys, List.map_cons, this, Node.yaml]; rfl

theorem Ents.keys_scalar : ∀ (es : Ents) (τ : Nat), es.ok τ → ∀ y ∈ es.keys, y.isScalar = true
  | .one T y sp v, τ, h => by
    simp only [Ents.ok] at h
    simp only [Ents.keys, List.mem_singleton, forall_eq]
    obtain ⟨κ, hk⟩ := h.1; exact hk.scalar
  | .cons T y sp v G rest, τ, h => by
    simp only [Ents.ok] at h
    simp only [Ents.keys, List.mem_cons]
    rintro x (rfl | hx)
    · obtain ⟨κ, hk⟩ := h.1; exact hk.scalar
    · exact Ents.keys_scalar rest τ h.2.2.2.2 x hx

theorem Ents.good {es : Ents} {τ : Nat} (h : es.ok τ) (hk : KeysOK es.keys) (kp p : Nat) (e : Env) :
    GoodKeys ((es.pairs τ (.mk kp [] es.y) p e).map Prod.fst) := by
  refine goodKeys_scalars ?_ ?_
  · intro k hk
    refine Ents.keys_scalar es τ h _ ?_
    rw [← Ents.keys_pairs es τ kp p e]; exact List.mem_map_of_mem hk
  · rw [Ents.keys_pairs]; exact hk

theorem Ents.head_tok {τ : Nat} {es : Ents} (h : es.ok τ) : ∃ c r, es.T = c :: r ∧ tokHead c = true := by
  have : ∃ κ, ScalarText κ es.T es.y := by
    cases es <;> (simp only [Ents.ok] at h; exact h.1)
  obtain ⟨κ, hκ⟩ := this
  obtain ⟨c, r, he, hc, _⟩ := hκ.leaf.2.head
  exact ⟨c, r, he, hc⟩

theorem Blk.okV_deep : ∀ (b : Blk) (σ : Nat), b.okV σ → b.text ≠ [] → b.deep σ
  | .leaf lead T κ y pc, _, h, hne => by
    simp only [Blk.okV] at h
    simp only [Blk.deep]
    rintro rfl
    rcases h with ⟨rfl, _⟩ | ⟨⟨rfl, _⟩, _⟩ <;> simp [Blk.text] at hne
  | .lit .., _, _, _ => by simp [Blk.deep]
  | .seq .., _, _, _ => by simp [Blk.deep]
  | .map lead τ es, σ, h, _ => by simp only [Blk.okV] at h; simp only [Blk.deep]; exact h.2.1
  | .cmap lead τ es, σ, h, _ => by simp only [Blk.okV] at h; simp only [Blk.deep]; exact h.2.1
  | .prop f b, σ, h, _ => by
    simp only [Blk.okV] at h; simp only [Blk.deep]; exact Blk.okV_deep b σ h.2.2.2 h.2.2.1

theorem Flow.head_char {f : Flow} (h : f.isAtom = false) : ∃ r, f.text = 0x5B :: r ∨ f.text = 0x7B :: r := by
  cases f with
  | atom => simp [Flow.isAtom] at h
  | seq ws its => exact ⟨_, .inl (by rw [Flow.text])⟩
  | map ws its => exact ⟨_, .inr (by rw [Flow.text])⟩
  | prop => simp [Flow.isAtom] at h

theorem LeafIs.noMark {κ : EndKind} {T : Bytes} {y : Nat → Env → Yaml} {pc : Known} (h : LeafIs κ T y pc) :
    docMark T = false ∧ ∀ r, T ≠ 0x25 :: r := by
  rcases h with ⟨v, hv, _⟩ | ⟨f, hf, ha, _, rfl, _⟩ | ⟨a, ha, rfl, rfl, _⟩
  · exact hv.noMark
  · obtain ⟨r, h | h⟩ := Flow.head_char ha <;> rw [h] <;> simp [docMark, List.isPrefixOf]
  · simp [docMark, List.isPrefixOf]

theorem Blk.flatIs.key {b : Blk} (h : b.flatIs) : b.flatKey := by
  have hk : ∀ {κ T y pc}, LeafIs κ T y pc → LeafOKE κ T y pc ∧ docMark T = false ∧ KeyKind κ := by
    intro κ T y pc h
    refine ⟨h.ok, h.noMark.1, ?_⟩
    rcases h.kind with rfl | rfl <;> simp [KeyKind]
  cases b with
  | leaf lead T κ y pc => exact ⟨h.1, hk h.2⟩
  | prop f b =>
    cases b with
    | leaf lead T κ y pc =>
      obtain ⟨h1, rfl, h2⟩ := h
      refine ⟨?_, rfl, hk h2⟩
      obtain ⟨c, r, he, hc, _⟩ := h2.ok.2.head
      exact Form.is.wf (b := .leaf [] T κ y pc) h1 ⟨c, r, by simp [Blk.text, he], tok_notBlank hc⟩
    | _ => exact h.elim
  | _ => exact h.elim

mutual
theorem Blk.okN_wf : ∀ (b : Blk) (σ : Nat), b.okN σ → b.wfN σ
  | .leaf lead T κ y pc, σ, h => by
    simp only [Blk.okN, Blk.wfN] at h ⊢; exact h.imp (fun h => ⟨leadOK h.1, h.2.ok, h.2.fits⟩) id
  | .lit T τ s, σ, h => by
    simp only [Blk.okN, Blk.wfN] at h ⊢; exact ⟨h.1, h.2.ok⟩
  | .seq lead τ its, σ, h => by
    simp only [Blk.okN, Blk.wfN] at h ⊢; exact ⟨leadOK h.1, h.2.1, Items.ok_wf its τ h.2.2⟩
  | .map lead τ es, σ, h => by
    simp only [Blk.okN, Blk.wfN] at h ⊢
    exact ⟨leadOK h.1, h.2.1, Ents.ok_wf es τ h.2.2.1, Ents.good h.2.2.1 h.2.2.2⟩
  | .cmap lead τ es, σ, h => by
    simp only [Blk.okN, Blk.wfN] at h ⊢
    exact ⟨leadOK h.1, h.2.1, CEnts.ok_wf es τ h.2.2.1, h.2.2.2⟩
  | .prop f b, σ, h => by
    simp only [Blk.okN, Blk.wfN] at h ⊢
    exact ⟨h.1.wf (Blk.okN_notBlank h.2.2.2 h.2.2.1), h.2.1, Blk.okN_wf b σ h.2.2.2⟩
theorem Blk.okV_wf : ∀ (b : Blk) (σ : Nat), b.okV σ → b.wfV σ
  | .leaf lead T κ y pc, σ, h => by
    simp only [Blk.okV, Blk.wfV] at h ⊢; exact h.imp (fun h => ⟨h.1, h.2.ok, h.2.fits⟩) id
  | .lit T τ s, σ, h => by
    simp only [Blk.okV, Blk.wfV] at h ⊢; exact ⟨h.1, h.2.ok⟩
  | .seq lead τ its, σ, h => by
    simp only [Blk.okV, Blk.wfV] at h ⊢; exact ⟨h.1.lead, h.2.1, Items.ok_wf its τ h.2.2⟩
  | .map lead τ es, σ, h => by
    simp only [Blk.okV, Blk.wfV] at h ⊢
    exact ⟨h.1.lead, Nat.le_of_lt h.2.1, Ents.ok_wf es τ h.2.2.1, Ents.good h.2.2.1 h.2.2.2⟩
  | .cmap lead τ es, σ, h => by
    simp only [Blk.okV, Blk.wfV] at h ⊢
    exact ⟨h.1.lead, Nat.le_of_lt h.2.1, CEnts.ok_wf es τ h.2.2⟩
  | .prop f b, σ, h => by
    simp only [Blk.okV, Blk.wfV] at h ⊢
    exact ⟨h.1.wf (Blk.okV_notBlank h.2.2.2 h.2.2.1), h.2.1, Blk.okV_wf b σ h.2.2.2⟩
theorem Items.ok_wf : ∀ (its : Items) (τ : Nat), its.ok τ → its.wf τ
  | .one sp b, τ, h => by
    simp only [Items.ok, Items.wf] at h ⊢
    exact ⟨h.1.of (Blk.okN_notBlank h.2) fun he => (Blk.okN_empty h.2 he).1, Blk.okN_wf b _ h.2⟩
  | .cons sp b G rest, τ, h => by
    simp only [Items.ok, Items.wf] at h ⊢
    refine ⟨h.1.of (Blk.okN_notBlank h.2.1) fun he => (Blk.okN_empty h.2.1 he).1, Blk.okN_wf b _ h.2.1, h.2.2.1.gap, fun r => ?_,
      Items.ok_wf rest τ h.2.2.2⟩
    exact h.2.2.1.fits ((Blk.okN_kind b (τ + 1) h.2.1).mono (by omega)) (.inr ⟨0x2D, r, rfl, by decide⟩)
theorem Ents.ok_wf : ∀ (es : Ents) (τ : Nat), es.ok τ → es.wf τ
  | .one T y sp v, τ, h => by
    simp only [Ents.ok, Ents.wf] at h ⊢
    obtain ⟨κ, hκ⟩ := h.1
    exact ⟨hκ.key, h.2.1.of (Blk.okV_notBlank h.2.2) (Blk.okV_empty h.2.2), Blk.okV_wf v _ h.2.2⟩
  | .cons T y sp v G rest, τ, h => by
    simp only [Ents.ok, Ents.wf] at h ⊢
    obtain ⟨κ, hκ⟩ := h.1
    refine ⟨hκ.key, h.2.1.of (Blk.okV_notBlank h.2.2.1.1) (Blk.okV_empty h.2.2.1.1),
      ⟨Blk.okV_wf v _ h.2.2.1.1, Blk.okV_deep v _ h.2.2.1.1 h.2.2.1.2⟩, h.2.2.2.1.gap, fun r => ?_,
      Ents.ok_wf rest τ h.2.2.2.2⟩
    obtain ⟨c, r', he, hc⟩ := Ents.head_tok h.2.2.2.2
    refine h.2.2.2.1.fits (Blk.okV_kind v τ h.2.2.1.1) (.inr ⟨c, r' ++ r, ?_, hc⟩)
    rw [he]; simp
theorem CEnts.ok_wf : ∀ (es : CEnts) (τ : Nat), es.ok τ → es.wf τ
  | .one none b sp v, τ, h => by
    simp only [CEnts.ok, CEnts.wf] at h ⊢
    exact ⟨h.1.key, h.2.1.of (Blk.okV_notBlank h.2.2) (Blk.okV_empty h.2.2), Blk.okV_wf v _ h.2.2⟩
  | .one (some (s, G)) b sp v, τ, h => by
    simp only [CEnts.ok, CEnts.wf] at h ⊢
    exact ⟨⟨YamlPeg.sepOK h.1.1 (Blk.okV_notBlank h.1.2.1 h.1.2.2.1), Blk.okV_wf b τ h.1.2.1,
      Blk.okV_deep b τ h.1.2.1 h.1.2.2.1, h.1.2.2.2.gap,
      fun r => h.1.2.2.2.fits (Blk.okV_kind b τ h.1.2.1) (.inr ⟨0x3A, r, rfl, by decide⟩)⟩, h.2.1.of (Blk.okV_notBlank h.2.2) (Blk.okV_empty h.2.2), Blk.okV_wf v _ h.2.2⟩
  | .cons none b sp v G' rest, τ, h => by
    simp only [CEnts.ok, CEnts.wf] at h ⊢
    refine ⟨h.1.key, h.2.1.of (Blk.okV_notBlank h.2.2.1.1) (Blk.okV_empty h.2.2.1.1),
      ⟨Blk.okV_wf v _ h.2.2.1.1, Blk.okV_deep v _ h.2.2.1.1 h.2.2.1.2⟩, h.2.2.2.1.gap, fun r => ?_,
      CEnts.ok_wf rest τ h.2.2.2.2⟩
    obtain ⟨c, r', he, hc⟩ := CEnts.head_tok h.2.2.2.2
    refine h.2.2.2.1.fits (Blk.okV_kind v τ h.2.2.1.1) (.inr ⟨c, r' ++ r, ?_, hc⟩)
    rw [he]; simp
  | .cons (some (s, G)) b sp v G' rest, τ, h => by
    simp only [CEnts.ok, CEnts.wf] at h ⊢
    refine ⟨⟨YamlPeg.sepOK h.1.1 (Blk.okV_notBlank h.1.2.1 h.1.2.2.1), Blk.okV_wf b τ h.1.2.1,
      Blk.okV_deep b τ h.1.2.1 h.1.2.2.1, h.1.2.2.2.gap,
      fun r => h.1.2.2.2.fits (Blk.okV_kind b τ h.1.2.1) (.inr ⟨0x3A, r, rfl, by decide⟩)⟩, h.2.1.of (Blk.okV_notBlank h.2.2.1.1) (Blk.okV_empty h.2.2.1.1),
      ⟨Blk.okV_wf v _ h.2.2.1.1, Blk.okV_deep v _ h.2.2.1.1 h.2.2.1.2⟩, h.2.2.2.1.gap, fun r => ?_,
      CEnts.ok_wf rest τ h.2.2.2.2⟩
    obtain ⟨c, r', he, hc⟩ := CEnts.head_tok h.2.2.2.2
    refine h.2.2.2.1.fits (Blk.okV_kind v τ h.2.2.1.1) (.inr ⟨c, r' ++ r, ?_, hc⟩)
    rw [he]; simp
end


/-! ## Streams of documents -/

/-- Empty lines and comment lines. -/
def IdleLines (G : Bytes) : Prop :=
  ∃ nl ls, LineBreak nl ∧ ls ≠ [] ∧ (∀ x ∈ ls, IdleLine x) ∧ G = gapLines nl ls

/-- The end of the input behind a node: nothing (not after a number or a block
scalar), lines without content, a document end marker. -/
def EndLines (κ : EndKind) (E : Bytes) : Prop :=
  (E = [] ∧ (κ = .loose ∨ ∃ w, κ = .fold w)) ∨ AfterLines κ E ∨
    ∃ G G2, AfterLines κ G ∧ E = G ++ (b!"..." ++ G2) ∧ (G2 = [] ∨ IdleLines G2)

/-- Between two documents: lines without content, perhaps a document end marker. -/
def BetweenLines (κ : EndKind) (G : Bytes) : Prop :=
  AfterLines κ G ∨ ∃ G1 G2, AfterLines κ G1 ∧ IdleLines G2 ∧ G = G1 ++ (b!"..." ++ G2)

/-- The further documents, behind a document that ends in `κ`.  Each begins on the
line after its `---`, or is a scalar or flow collection on the line of its `---`; the
latter needs a `calm` document in front of it. -/
def Tail.ok (κ : EndKind) (calm : Prop) : Tail → Prop
  | .stop E => EndLines κ E
  | .next G sp b t => BetweenLines κ G ∧ SepIs sp b.lead ∧ b.okN 0 ∧ (b.inner ≠ [] ∨ (b.short ∧ calm)) ∧
      t.ok b.kind b.calm

/-- A directive on a line of its own, perhaps followed by idle lines. -/
def Dir.is : Dir → Prop
  | .yaml sp _ G => Blanks sp ∧ IdleLines G
  | .tag sp h sp' p G => Blanks sp ∧ h.wf ∧ Blanks sp' ∧ p ≠ [] ∧ Utf8 p ∧ (∀ c ∈ p, c ∉ b!" \n\r") ∧
      (∀ c r, p = c :: r → isBlank c = false) ∧ IdleLines G ∧ headIn b!" \n\r" G = true
  | .other t G => (∀ c ∈ t, c ∉ b!"\n\r") ∧ (b!"YAML").isPrefixOf t = false ∧ (b!"TAG").isPrefixOf t = false ∧
      IdleLines G ∧ headIn b!"\n\r" G = true

/-- A stream of documents, the first of them perhaps behind `---`; directives
need this `---`; at most one of them is `%YAML`. -/
def Stream.ok (s : Stream) : Prop :=
  s.first.okN 0 ∧ s.tail.ok s.first.kind s.first.calm ∧
  match s.mark with
  | none => s.dirs = []
  | some (G, sp) => (∀ d ∈ s.dirs, d.is) ∧ (s.dirs.filter Dir.isYaml).length ≤ 1 ∧
      (G = [] ∨ (s.dirs = [] ∧ IdleLines G)) ∧ SepIs sp s.first.lead

theorem IdleLines.gap {G : Bytes} (h : IdleLines G) : GapText G := by
  obtain ⟨nl, ls, hnl, hne, hls, rfl⟩ := h; exact gapText_lines hnl hne hls

theorem IdleLines.endGap {G : Bytes} (h : IdleLines G) : EndGap G := by
  obtain ⟨nl, ls, hnl, hne, hls, rfl⟩ := h; exact endGap_lines hnl hne hls

theorem AfterLines.idle {κ : EndKind} {G : Bytes} (h : AfterLines κ G) : IdleLines G := by
  obtain ⟨nl, l, ls, hnl, rfl, hl, hls, _⟩ := h
  exact ⟨nl, l :: ls, hnl, by simp, by simp; exact ⟨hl, hls⟩, rfl⟩

theorem Dir.is.wf {d : Dir} (h : d.is) : d.wf := by
  cases d with
  | yaml sp old G => exact ⟨h.1, h.2.gap⟩
  | tag sp x sp' p G =>
    obtain ⟨h1, h2, h3, h4, h5, h6, h7, h8, h9⟩ := h
    exact ⟨h1, h2, h3, h4, h5, h6, h7, h8.gap, h9⟩
  | other t G =>
    obtain ⟨h1, h2, h3, h4, h5⟩ := h
    exact ⟨h1, h2, h3, h4.gap, h5⟩

theorem Blk.okN_kind0 : ∀ (b : Blk), b.okN 0 → KindAt 0 b.kind := by
  intro b h
  match b, h with
  | .leaf lead T κ y pc, h =>
    simp only [Blk.okN] at h; simp only [Blk.kind]; exact (h.resolve_right (by simp)).2.kindAt 0
  | .lit T τ s, h =>
    simp only [Blk.okN] at h
    obtain ⟨rfl, c, ls, h0, _⟩ := h
    exact absurd h0 (Nat.lt_irrefl 0)
  | .seq lead τ its, h =>
    simp only [Blk.okN] at h; simp only [Blk.kind]
    obtain ⟨_, rfl, h⟩ := h; exact Items.ok_kind its 0 h
  | .map lead τ es, h =>
    simp only [Blk.okN] at h; simp only [Blk.kind]
    obtain ⟨_, rfl, h, _⟩ := h; exact Ents.ok_kind es 0 h
  | .cmap lead τ es, h =>
    simp only [Blk.okN] at h; simp only [Blk.kind]
    obtain ⟨_, rfl, h, _⟩ := h; exact CEnts.ok_kind es 0 h
  | .prop f b, h =>
    simp only [Blk.okN] at h; simp only [Blk.kind]
    exact Blk.okN_kind0 b h.2.2.2

theorem Blk.okN_ne {b : Blk} (h : b.okN 0) : b.text ≠ [] := fun he => absurd (Blk.okN_empty h he).2 (Nat.lt_irrefl 0)

theorem Tail.ok_wf : ∀ (t : Tail) (κ : EndKind) (calm : Prop), KindAt 0 κ → t.ok κ calm → t.wf calm ∧ Fits κ t.text
  | .stop E, κ, calm, hk, h => by
    simp only [Tail.ok, Tail.wf, Tail.text] at h ⊢
    rcases h with ⟨rfl, rfl | ⟨w, rfl⟩⟩ | h | ⟨G, G2, h, rfl, hG2⟩
    · exact ⟨.inl rfl, .inr rfl⟩
    · exact ⟨.inl rfl, .inr rfl⟩
    · exact ⟨.inr (.inl h.idle.endGap), by simpa using h.fits hk (.inl rfl)⟩
    · exact ⟨.inr (.inr ⟨G, G2, h.gap, rfl, hG2.imp id IdleLines.endGap⟩),
        h.fits hk (.inr ⟨0x2E, _, rfl, by decide⟩)⟩
  | .next G sp b t, κ, calm, hk, h => by
    simp only [Tail.ok, Tail.wf, Tail.text] at h ⊢
    obtain ⟨hG, hsp, hb, hl, ht⟩ := h
    have ih := Tail.ok_wf t b.kind b.calm (Blk.okN_kind0 b hb) ht
    refine ⟨⟨?_, sepOK hsp (Blk.okN_notBlank hb (Blk.okN_ne hb)), Blk.okN_wf b 0 hb, hl, ih.2, ih.1⟩, ?_⟩
    · rcases hG with h | ⟨G1, G2, h1, h2, rfl⟩
      · exact .inl h.gap
      · exact .inr ⟨G1, G2, h1.gap, h2.gap, rfl⟩
    · rcases hG with h | ⟨G1, G2, h1, h2, rfl⟩
      · exact h.fits hk (.inr ⟨0x2D, _, rfl, by decide⟩)
      · rw [List.append_assoc]
        exact h1.fits hk (.inr ⟨0x2E, _, rfl, by decide⟩)

theorem LeafAt.noMark {σ : Nat} {κ : EndKind} {T : Bytes} {y : Nat → Env → Yaml} {pc : Known} (h : LeafAt σ κ T y pc) :
    docMark T = false ∧ ∀ r, T ≠ 0x25 :: r := by
  rcases h with h | ⟨nl, s, r, h1, h2, h3, h4, _, rfl, _⟩
  · exact h.noMark
  obtain ⟨c, u, rfl, hc⟩ := h2.first
  constructor
  · have h5 : c ≠ 0x2D := by rintro rfl; revert hc; decide
    have h6 : c ≠ 0x2E := by rintro rfl; revert hc; decide
    simp [docMark, List.isPrefixOf, plainFolded, h5.symm, h6.symm]
  · rintro r h; simp [plainFolded] at h; rw [h.1] at hc; revert hc; decide

theorem LeadLines.not_percent {σ : Nat} {lead : Bytes} (h : LeadLines σ lead) (X r : Bytes) : lead ++ X ≠ 0x25 :: r := by
  obtain ⟨nl, l, ls, hnl, hl, hb, hls, rfl⟩ := h
  rcases hl with rfl | ⟨b, c, rfl, hbl, _⟩
  · rcases hnl with rfl | rfl <;> simp [gapLines]
  · cases b with
    | nil => simp [gapLines]
    | cons x b =>
      have := hb x (b ++ 0x23 :: c) (by simp)
      rw [hbl x (by simp)] at this; simp at this

theorem Blk.flatIs.not_percent {b : Blk} (h : b.flatIs) {X r : Bytes} : b.text ++ X ≠ 0x25 :: r := by
  intro he
  cases b with
  | leaf lead T κ y pc =>
    obtain ⟨rfl, h⟩ := h
    obtain ⟨c, u, hT, _⟩ := h.ok.2.head
    simp [Blk.text, hT] at he
    exact h.noMark.2 u (by rw [hT, he.1])
  | prop f b =>
    cases b with
    | leaf lead T κ y pc =>
      obtain ⟨c, r, hf, hc⟩ := Form.is.head h.1
      simp [Blk.text, hf] at he
      rw [he.1] at hc; revert hc; decide
    | _ => exact h.elim
  | _ => exact h.elim

theorem CEnts.not_percent {es : CEnts} {τ : Nat} (h : es.ok τ) {X r : Bytes} : es.K τ ++ X ≠ 0x25 :: r := by
  cases es with
  | one c b sp v =>
    rcases c with _ | ⟨s, G⟩
    · simp only [CEnts.ok] at h; exact h.1.not_percent
    · simp [CEnts.K, ktext]
  | cons c b sp v G' rest =>
    rcases c with _ | ⟨s, G⟩
    · simp only [CEnts.ok] at h; exact h.1.not_percent
    · simp [CEnts.K, ktext]

theorem Blk.first_char {b : Blk} (h : b.okN 0) : ∀ c r, b.text = c :: r → c ≠ 0x20 ∧ c ≠ 0x25 := by
  intro c r he
  constructor
  · rintro rfl
    obtain ⟨c', r', he', hc'⟩ := Blk.okN_notBlank h (Blk.okN_ne h)
    rw [he] at he'; cases he'
    exact absurd hc' (by decide)
  · rintro rfl
    have hlead : b.lead = [] ∨ LeadLines 0 b.lead := by
      match b, h with
      | .leaf .., h => simp only [Blk.okN] at h; exact (h.resolve_right (by simp)).1
      | .lit .., h => exact .inl rfl
      | .seq .., h => simp only [Blk.okN] at h; exact h.1
      | .map .., h => simp only [Blk.okN] at h; exact h.1
      | .cmap .., h => simp only [Blk.okN] at h; exact h.1
      | .prop .., h => exact .inl rfl
    rcases hlead with hl | hl
    · match b, h with
      | .leaf lead T κ y pc, h =>
        simp only [Blk.okN] at h
        simp only [Blk.lead] at hl; subst hl
        exact (h.resolve_right (by simp)).2.noMark.2 r (by simpa [Blk.text] using he)
      | .lit T τ s, h =>
        simp only [Blk.okN] at h
        obtain ⟨r, rfl | rfl⟩ := h.2.ok.1 <;> simp [Blk.text] at he
      | .seq lead τ its, h =>
        simp only [Blk.lead] at hl; subst hl
        simp [Blk.text] at he
      | .map lead τ es, h =>
        simp only [Blk.lead] at hl; subst hl
        simp only [Blk.okN] at h
        have : ∃ κ, ScalarText κ es.T es.y := by
          cases es <;> (simp only [Ents.ok] at h; exact h.2.2.1.1)
        obtain ⟨κ, hκ⟩ := this
        obtain ⟨c, r, he', hc, _⟩ := hκ.leaf.2.head
        simp [Blk.text, he'] at he
        exact hκ.noMark.2 r (by rw [he', he.1])
      | .cmap lead τ es, h =>
        simp only [Blk.lead] at hl; subst hl
        simp only [Blk.okN] at h
        exact CEnts.not_percent h.2.2.1 (r := r) (X := 0x3A :: (es.sp ++ es.body τ)) (by simpa [Blk.text] using he)
      | .prop f b, h =>
        simp only [Blk.okN] at h
        obtain ⟨c, r', he', hc⟩ := h.1.head
        simp [Blk.text, he'] at he
        rw [he.1] at hc; revert hc; decide
    · obtain ⟨r', hr⟩ := b.text_lead
      rw [he] at hr
      exact hl.not_percent r' r hr.symm

theorem Stream.ok_wf {s : Stream} (h : s.ok) : s.wf := by
  obtain ⟨h1, h2, h3⟩ := h
  have ht := Tail.ok_wf s.tail _ _ (Blk.okN_kind0 _ h1) h2
  refine ⟨Blk.okN_wf _ _ h1, ht.2, ht.1, ?_⟩
  cases hm : s.mark with
  | none =>
    rw [hm] at h3
    refine ⟨h3, Blk.first_char h1, ?_⟩
    match hf : s.first, h1 with
    | .leaf lead T κ y pc, h1 => simp only [Blk.okN] at h1; exact (h1.resolve_right (by simp)).2.noMark.1
    | .lit .., _ => trivial
    | .seq .., _ => trivial
    | .map .., _ => trivial
    | .cmap .., _ => trivial
    | .prop .., _ => trivial
  | some m =>
    rw [hm] at h3
    obtain ⟨h3, h4, h5, h6⟩ := h3
    exact ⟨⟨fun d hd => (h3 d hd).wf, h4⟩, h5.imp id fun h => ⟨h.1, h.2.gap⟩, sepOK h6 (Blk.okN_notBlank h1 (Blk.okN_ne h1))⟩

theorem reads_ok {s : Stream} (h : s.ok) (hs : s.still) : Reads s.text s.values := reads_stream (Stream.ok_wf h) hs

end YamlPeg
