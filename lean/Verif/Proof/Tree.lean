import Verif.Proof.Block
import Verif.Proof.NodeEq
import Verif.Proof.PropText
/-!
# Block documents: syntax trees and their layout

`Blk` describes the layout of a block document: leaves, block sequences and
block maps, tags, anchors and aliases, with all the white space, comments and
line breaks.  `text` is the document, `data` the YAML data it stands for, `eff`
the anchors that are known behind it.
-/

namespace YamlPeg
open M

/-! ## Leaves -/

/-- What may follow a tree: a line break only; a line break, ` #` or the end of
the input; some of these; a line with less indentation; what ends a
loose leaf, for a leaf whose further lines are indented by `w`; a line break, for
a node that is not there. -/
inductive EndKind where
  | strict | loose | empty | only (P : Bytes → Prop) | lit (τ : Nat) | fold (w : Nat)

/-- How a leaf may end: at `: `, at the end of its line with nothing to
continue it, and, for a loose leaf, at ` #` and at the end of the input. -/
def LeafEnd (κ : EndKind) (k : Ctx) (level : Nat) (E : Bytes) : Prop :=
  ((∀ P, κ ≠ .only P) ∧ ∃ r, E = 0x3A :: r ∧ colonStop r = true) ∨
  ((∀ P, κ = .only P → P E) ∧ nlLen E ≠ 0 ∧ ∃ t taken left, gapSpec true E = some (t, taken, left) ∧ 0 < k.want level ∧
    (spaces (k.want level)).isPrefixOf left = false) ∨
  ((κ = .loose ∨ ∃ w, κ = .fold w) ∧ stopB E = true) ∨
  (∃ P, κ = .only P ∧ P E ∧ stopB E = true)

/-- `scalar_term` reads the leaf `T` as `y`. -/
def LeafRead (κ : EndKind) (T : Bytes) (y : Nat → Yaml) : Prop :=
  ∀ (k : Ctx) (level : Nat) (E : Bytes), 0 < k.want level → LeafEnd κ k level E →
    ∃ k', k'.at level = k.at level ∧ ∃ N, ∀ a n d, N ≤ a → N ≤ n → N ≤ d → ∀ L pre,
      ∃ p' m', p' ++ m' = pre ++ T ∧
        scalarTerm (scalar a) n d level false (ld L (st k pre [] (T ++ E))) =
          (.ok (y (k.consumed + pre.length)), ld L (st k' p' m' E))

/-! ## What the meaning of a text depends on -/

/-- The mode, the tag handles and the anchors known so far. -/
structure Env where
  cyclic : Bool
  tags : List (Bytes × Bytes)
  anchors : Anchors

/-- The anchors of the current document. -/
def Loader.cur (L : Loader) : Anchors := (L.anchors[L.docInd]?).getD []
/-- The current document has other anchors. -/
def Loader.put (L : Loader) (a : Anchors) : Loader := { L with anchors := L.anchors.set L.docInd a }
/-- The current document has a table of anchors. -/
def Loader.Ready (L : Loader) : Prop := L.docInd < L.anchors.length

def envOf (L : Loader) (k : Ctx) : Env := ⟨L.cyclicMode, k.tag, L.cur⟩

theorem Loader.put_cur {L : Loader} (h : L.Ready) : L.put L.cur = L := by
  have h' : L.docInd < L.anchors.length := h
  have : L.cur = L.anchors[L.docInd] := by simp [Loader.cur, List.getElem?_eq_getElem h']
  rw [Loader.put, this, List.set_getElem_self]

@[simp] theorem Loader.put_put (L : Loader) (a c : Anchors) : (L.put a).put c = L.put c := by
  simp [Loader.put, List.set_set]

theorem Loader.cur_put {L : Loader} (h : L.Ready) (a : Anchors) : (L.put a).cur = a := by
  have h' : L.docInd < L.anchors.length := h
  simp [Loader.put, Loader.cur, List.getElem?_set, h']

theorem Loader.Ready.put {L : Loader} (h : L.Ready) (a : Anchors) : (L.put a).Ready := by
  simpa [Loader.put, Loader.Ready] using h

theorem envOf_put {L : Loader} (h : L.Ready) {k k' : Ctx} (hk : k'.tag = k.tag) (a : Anchors) :
    envOf (L.put a) k' = { envOf L k with anchors := a } := by
  rw [envOf, Loader.cur_put h, hk]; rfl

theorem envOf_ctx (L : Loader) {k k' : Ctx} (hk : k'.tag = k.tag) : envOf L k' = envOf L k := by
  rw [envOf, hk]; rfl

/-- What a leaf that begins at a position needs (its aliases are known, its anchors new, its
tags have their meaning), and the anchors known behind it. -/
structure Known where
  ok : Nat → Env → Prop
  eff : Nat → Env → Anchors

/-- A leaf that binds no anchors. -/
def Known.of (pc : Env → Prop) : Known := ⟨fun _ e => pc e, fun _ e => e.anchors⟩

/-- A leaf that needs nothing. -/
def Known.none : Known := .of fun _ => True

@[simp] theorem Known.of_ok (pc : Env → Prop) (p : Nat) (e : Env) : (Known.of pc).ok p e = pc e := rfl
@[simp] theorem Known.of_eff (pc : Env → Prop) (p : Nat) (e : Env) : (Known.of pc).eff p e = e.anchors := rfl
@[simp] theorem Known.none_ok (p : Nat) (e : Env) : Known.none.ok p e = True := rfl
@[simp] theorem Known.none_eff (p : Nat) (e : Env) : Known.none.eff p e = e.anchors := rfl

/-- `scalar_term` reads the leaf `T` as `y`, which may depend on the anchors. -/
def LeafReadE (κ : EndKind) (T : Bytes) (y : Nat → Env → Yaml) (pc : Known) : Prop :=
  ∀ (k : Ctx) (level : Nat) (E : Bytes), 0 < k.want level → (∀ w, κ = .fold w → k.want level = w) → LeafEnd κ k level E →
    ∃ k', k'.at level = k.at level ∧ ∃ N, ∀ a n d, N ≤ a → N ≤ n → N ≤ d → ∀ L pre, L.Ready → pc.ok (k.consumed + pre.length) (envOf L k) →
      ∃ p' m', p' ++ m' = pre ++ T ∧
        scalarTerm (scalar a) n d level false (ld L (st k pre [] (T ++ E))) =
          (.ok (y (k.consumed + pre.length) (envOf L k)),
            ld (L.put (pc.eff (k.consumed + pre.length) (envOf L k))) (st k' p' m' E))

/-- The first bytes of a leaf are not taken for anything else. -/
def LeafText (T : Bytes) : Prop :=
  ∃ c r, T = c :: r ∧ tokHead c = true ∧ c ∉ b!"&!|>" ∧
    ((c = 0x2D ∨ c = 0x3F) → ∃ x s, r = x :: s ∧ x ∉ b!":{}[] ,\n\r")

def LeafOK (κ : EndKind) (T : Bytes) (y : Nat → Yaml) : Prop := LeafRead κ T y ∧ LeafText T

def LeafOKE (κ : EndKind) (T : Bytes) (y : Nat → Env → Yaml) (pc : Known) : Prop := LeafReadE κ T y pc ∧ LeafText T

theorem LeafOK.toE {κ : EndKind} {T : Bytes} {y : Nat → Yaml} (h : LeafOK κ T y) :
    LeafOKE κ T (fun p _ => y p) .none := by
  refine ⟨fun k level E hw _ hE => ?_, h.2⟩
  obtain ⟨k', hk', N, hN⟩ := h.1 k level E hw hE
  refine ⟨k', hk', N, fun a n d ha hn hd L pre hL _ => ?_⟩
  rw [show Known.none.eff (k.consumed + pre.length) (envOf L k) = L.cur from rfl, Loader.put_cur hL]
  exact hN a n d ha hn hd L pre

def Fits : EndKind → Bytes → Prop
  | .strict, E => nlLen E ≠ 0
  | .empty, E => nlLen E ≠ 0
  | .loose, E => nlLen E ≠ 0 ∨ stopB E = true
  | .only P, E => P E ∧ (nlLen E ≠ 0 ∨ stopB E = true)
  | .fold _, E => nlLen E ≠ 0 ∨ stopB E = true
  | .lit τ, E => ∃ left, E = 0x0A :: left ∧ nlLen left = 0 ∧ (spaces τ).isPrefixOf left = false

/-- `scalar` reads the block scalar `T` as the string `s`. -/
def LitOK (τ : Nat) (T s : Bytes) : Prop :=
  (∃ r, T = 0x7C :: r ∨ T = 0x3E :: r) ∧
  ∀ (k : Ctx) (level : Nat) (E : Bytes) (sc : ScalarCall) (n : Nat) (map : Bool) (L : Loader) (pre : Bytes),
    k.want level = τ → Fits (.lit τ) E →
      ∃ p' m', p' ++ m' = pre ++ T ∧
        scalarBody sc n level map false (ld L (st k pre [] (T ++ E))) =
          (.ok (.str s), ld L (st (k.at level) p' m' E))

/-! ## Properties of a node -/

/-- The separator behind `-` and `:`, and behind a tag and an anchor. -/
def SepOK (sp text : Bytes) : Prop :=
  (∀ x ∈ sp, isBlank x = true) ∧ (∃ c r, text = c :: r ∧ isBlank c = false) ∧
    ((∃ r, sp = 0x20 :: r) ∨ (sp = [] ∧ nlLen text ≠ 0))

/-- An anchor, a tag `tg` that stands for `t`, or both, in either order. -/
inductive Form where
  | anchor (a sp : Bytes)
  | tag (tg t sp : Bytes)
  | anchorTag (a sp tg t sp' : Bytes)
  | tagAnchor (tg t sp a sp' : Bytes)

def Form.text : Form → Bytes
  | .anchor a sp => 0x26 :: (a ++ sp)
  | .tag tg _ sp => tg ++ sp
  | .anchorTag a sp tg _ sp' => 0x26 :: (a ++ (sp ++ (tg ++ sp')))
  | .tagAnchor tg _ sp a sp' => tg ++ (sp ++ 0x26 :: (a ++ sp'))

/-- The name of the anchor. -/
def Form.name : Form → Bytes
  | .anchor a _ => a
  | .tag _ _ _ => []
  | .anchorTag a _ _ _ _ => a
  | .tagAnchor _ _ _ a _ => a

/-- What the tag stands for. -/
def Form.val : Form → Bytes
  | .anchor _ _ => []
  | .tag _ t _ => t
  | .anchorTag _ _ _ t _ => t
  | .tagAnchor _ t _ _ _ => t

/-- The properties are well-formed in front of the text `X`. -/
def Form.wf (X : Bytes) : Form → Prop
  | .anchor a sp => IsIdent a ∧ SepOK sp X
  | .tag tg _ sp => (∃ r, tg = 0x21 :: r) ∧ SepOK sp X
  | .anchorTag a sp tg _ sp' => IsIdent a ∧ (∃ r, tg = 0x21 :: r) ∧ SepOK sp tg ∧ SepOK sp' X
  | .tagAnchor tg _ sp a sp' => (∃ r, tg = 0x21 :: r) ∧ SepOK sp (0x26 :: a) ∧ IsIdent a ∧ SepOK sp' X

/-- The tag has its meaning. -/
def Form.fine (tbl : List (Bytes × Bytes)) : Form → Prop
  | .anchor _ _ => True
  | .tag tg t _ => TagText tbl tg t
  | .anchorTag _ _ tg t _ => TagText tbl tg t
  | .tagAnchor tg t _ _ _ => TagText tbl tg t

/-! ## Trees -/

mutual
inductive Blk where
  | leaf (lead T : Bytes) (κ : EndKind) (y : Nat → Env → Yaml) (pc : Known)
  | lit (T : Bytes) (τ : Nat) (s : Bytes)
  | seq (lead : Bytes) (τ : Nat) (its : Items)
  | map (lead : Bytes) (τ : Nat) (es : Ents)
  | cmap (lead : Bytes) (τ : Nat) (es : CEnts)
  | prop (f : Form) (b : Blk)
inductive Items where
  | one (sp : Bytes) (b : Blk)
  | cons (sp : Bytes) (b : Blk) (G : Bytes) (rest : Items)
inductive Ents where
  | one (T : Bytes) (y : Yaml) (sp : Bytes) (v : Blk)
  | cons (T : Bytes) (y : Yaml) (sp : Bytes) (v : Blk) (G : Bytes) (rest : Ents)
/-- Entries whose keys are nodes: `c = none` for a key on the line of its `:`
(which may have properties, be an alias or a flow collection); `c = some (s, G)`
for a key behind `?` and the blanks `s`, with the gap `G` in front of the line of
the `:`. -/
inductive CEnts where
  | one (c : Option (Bytes × Bytes)) (b : Blk) (sp : Bytes) (v : Blk)
  | cons (c : Option (Bytes × Bytes)) (b : Blk) (sp : Bytes) (v : Blk) (G : Bytes) (rest : CEnts)
end

/-- The text of a key whose node has the text `t`. -/
def ktext (τ : Nat) : Option (Bytes × Bytes) → Bytes → Bytes
  | none, t => t
  | some (s, G), t => 0x3F :: (s ++ (t ++ (G ++ spaces τ)))
/-- Where the node of a key begins. -/
def koff : Option (Bytes × Bytes) → Nat
  | none => 0
  | some (s, _) => 1 + s.length

def Items.sp : Items → Bytes
  | .one sp _ => sp
  | .cons sp _ _ _ => sp
def Ents.T : Ents → Bytes
  | .one T _ _ _ => T
  | .cons T _ _ _ _ _ => T
def Ents.y : Ents → Yaml
  | .one _ y _ _ => y
  | .cons _ y _ _ _ _ => y
def Ents.sp : Ents → Bytes
  | .one _ _ sp _ => sp
  | .cons _ _ sp _ _ _ => sp
def CEnts.c : CEnts → Option (Bytes × Bytes)
  | .one c _ _ _ => c
  | .cons c _ _ _ _ _ => c
def CEnts.b : CEnts → Blk
  | .one _ b _ _ => b
  | .cons _ b _ _ _ _ => b
def CEnts.sp : CEnts → Bytes
  | .one _ _ sp _ => sp
  | .cons _ _ sp _ _ _ => sp

mutual
/-- The text of a tree. -/
def Blk.text : Blk → Bytes
  | .leaf lead T _ _ _ => lead ++ T
  | .lit T _ _ => T
  | .seq lead τ its => lead ++ 0x2D :: (its.sp ++ its.body τ)
  | .map lead τ es => lead ++ (es.T ++ 0x3A :: (es.sp ++ es.body τ))
  | .cmap lead τ es => lead ++ (es.K τ ++ 0x3A :: (es.sp ++ es.body τ))
  | .prop f b => f.text ++ b.text
/-- The text behind `- `. -/
def Items.body (τ : Nat) : Items → Bytes
  | .one _ b => b.text
  | .cons _ b G rest => b.text ++ (G ++ (spaces τ ++ 0x2D :: (rest.sp ++ rest.body τ)))
/-- The text behind `key: `. -/
def Ents.body (τ : Nat) : Ents → Bytes
  | .one _ _ _ v => v.text
  | .cons _ _ _ v G rest =>
    v.text ++ (G ++ (spaces τ ++ (rest.T ++ 0x3A :: (rest.sp ++ rest.body τ))))
/-- The text of the first key. -/
def CEnts.K (τ : Nat) : CEnts → Bytes
  | .one c b _ _ => ktext τ c b.text
  | .cons c b _ _ _ _ => ktext τ c b.text
def CEnts.body (τ : Nat) : CEnts → Bytes
  | .one _ _ _ v => v.text
  | .cons _ _ _ v G rest =>
    v.text ++ (G ++ (spaces τ ++ (rest.K τ ++ 0x3A :: (rest.sp ++ rest.body τ))))
end

/-- Build a map from entries: later entries replace earlier ones. -/
def mapOf (l : List (Node × Node)) : List (Node × Node) :=
  l.foldl (fun m e => insertSpec m e.1 e.2) []

/-- The length of the properties in front of a tree: the node begins behind them. -/
def Blk.off : Blk → Nat
  | .prop f _ => f.text.length
  | _ => 0

/-- The tag of a tree. -/
def Blk.tag : Blk → Bytes
  | .prop f _ => f.val
  | _ => []

mutual
/-- The data of a tree whose text begins at position `p`. -/
def Blk.data : Blk → Nat → Env → Yaml
  | .leaf lead _ _ y _, p, e => y (p + lead.length) e
  | .lit _ _ s, _, _ => .str s
  | .seq lead τ its, p, e => .seq (its.nodes τ (p + lead.length + 1 + its.sp.length) e)
  | .map lead τ es, p, e => .map (mapOf (es.pairs τ (.mk (p + lead.length) [] es.y)
      (p + lead.length + es.T.length + 1 + es.sp.length) e))
  | .cmap lead τ es, p, e => .map (mapOf (es.pairs τ (p + lead.length) e))
  | .prop f b, p, e => b.data (p + f.text.length) e
/-- The items, the first of them at position `p`. -/
def Items.nodes (τ : Nat) : Items → Nat → Env → List Node
  | .one _ b, p, e => [.mk (p + b.off) b.tag (b.data p e)]
  | .cons _ b G rest, p, e =>
    .mk (p + b.off) b.tag (b.data p e) ::
      rest.nodes τ (p + b.text.length + G.length + τ + 1 + rest.sp.length) { e with anchors := b.eff p e }
/-- The entries; the first key is `kn`, the first value at position `p`. -/
def Ents.pairs (τ : Nat) : Ents → Node → Nat → Env → List (Node × Node)
  | .one _ _ _ v, kn, p, e => [(kn, .mk (p + v.off) v.tag (v.data p e))]
  | .cons _ _ _ v G rest, kn, p, e =>
    (kn, .mk (p + v.off) v.tag (v.data p e)) ::
      rest.pairs τ (.mk (p + v.text.length + G.length + τ) [] rest.y)
        (p + v.text.length + G.length + τ + rest.T.length + 1 + rest.sp.length) { e with anchors := v.eff p e }
/-- The entries; the text of the first key begins at position `p`. -/
def CEnts.pairs (τ : Nat) : CEnts → Nat → Env → List (Node × Node)
  | .one c b sp v, p, e =>
    [(.mk (p + koff c + b.off) b.tag (b.data (p + koff c) e),
      .mk (p + (ktext τ c b.text).length + 1 + sp.length + v.off) v.tag
        (v.data (p + (ktext τ c b.text).length + 1 + sp.length) { e with anchors := b.eff (p + koff c) e }))]
  | .cons c b sp v G rest, p, e =>
    (.mk (p + koff c + b.off) b.tag (b.data (p + koff c) e),
      .mk (p + (ktext τ c b.text).length + 1 + sp.length + v.off) v.tag
        (v.data (p + (ktext τ c b.text).length + 1 + sp.length) { e with anchors := b.eff (p + koff c) e })) ::
      rest.pairs τ (p + (ktext τ c b.text).length + 1 + sp.length + v.text.length + G.length + τ)
        { e with anchors := v.eff (p + (ktext τ c b.text).length + 1 + sp.length) ({ e with anchors := b.eff (p + koff c) e }) }
/-- The anchors known behind a tree: an anchor is bound once its node is read. -/
def Blk.eff : Blk → Nat → Env → Anchors
  | .leaf lead _ _ _ pc, p, e => pc.eff (p + lead.length) e
  | .lit .., _, e => e.anchors
  | .seq lead τ its, p, e => its.eff τ (p + lead.length + 1 + its.sp.length) e
  | .map lead τ es, p, e => es.eff τ (p + lead.length + es.T.length + 1 + es.sp.length) e
  | .cmap lead τ es, p, e => es.eff τ (p + lead.length) e
  | .prop f b, p, e =>
    if f.name = [] then b.eff (p + f.text.length) e
    else mapInsert f.name (.mk (p + f.text.length) f.val (b.data (p + f.text.length) e)) (b.eff (p + f.text.length) e)
def Items.eff (τ : Nat) : Items → Nat → Env → Anchors
  | .one _ b, p, e => b.eff p e
  | .cons _ b G rest, p, e =>
    rest.eff τ (p + b.text.length + G.length + τ + 1 + rest.sp.length) { e with anchors := b.eff p e }
def Ents.eff (τ : Nat) : Ents → Nat → Env → Anchors
  | .one _ _ _ v, p, e => v.eff p e
  | .cons _ _ _ v G rest, p, e =>
    rest.eff τ (p + v.text.length + G.length + τ + rest.T.length + 1 + rest.sp.length)
      { e with anchors := v.eff p e }
def CEnts.eff (τ : Nat) : CEnts → Nat → Env → Anchors
  | .one c b sp v, p, e =>
    v.eff (p + (ktext τ c b.text).length + 1 + sp.length) { e with anchors := b.eff (p + koff c) e }
  | .cons c b sp v G rest, p, e =>
    rest.eff τ (p + (ktext τ c b.text).length + 1 + sp.length + v.text.length + G.length + τ)
      { e with anchors := v.eff (p + (ktext τ c b.text).length + 1 + sp.length) ({ e with anchors := b.eff (p + koff c) e }) }
end

/-- The node of a tree whose text begins at position `p`. -/
def Blk.node (b : Blk) (p : Nat) (e : Env) : Node := .mk (p + b.off) b.tag (b.data p e)

mutual
/-- The tags have their meaning, no anchor is bound twice, aliases are known. -/
def Blk.fine : Blk → Nat → Env → Prop
  | .leaf lead _ _ _ pc, p, e => pc.ok (p + lead.length) e
  | .lit .., _, _ => True
  | .seq lead τ its, p, e => its.fine τ (p + lead.length + 1 + its.sp.length) e
  | .map lead τ es, p, e => es.fine τ (p + lead.length + es.T.length + 1 + es.sp.length) e
  | .cmap lead τ es, p, e => es.fine τ (p + lead.length) e ∧
      GoodKeys ((es.pairs τ (p + lead.length) e).map Prod.fst)
  | .prop f b, p, e => f.fine e.tags ∧ b.fine (p + f.text.length) e ∧
      (f.name ≠ [] → mapGet f.name (b.eff (p + f.text.length) e) = none)
def Items.fine (τ : Nat) : Items → Nat → Env → Prop
  | .one _ b, p, e => b.fine p e
  | .cons _ b G rest, p, e => b.fine p e ∧
    rest.fine τ (p + b.text.length + G.length + τ + 1 + rest.sp.length) { e with anchors := b.eff p e }
def Ents.fine (τ : Nat) : Ents → Nat → Env → Prop
  | .one _ _ _ v, p, e => v.fine p e
  | .cons _ _ _ v G rest, p, e => v.fine p e ∧
    rest.fine τ (p + v.text.length + G.length + τ + rest.T.length + 1 + rest.sp.length)
      { e with anchors := v.eff p e }
def CEnts.fine (τ : Nat) : CEnts → Nat → Env → Prop
  | .one c b sp v, p, e => b.fine (p + koff c) e ∧
    v.fine (p + (ktext τ c b.text).length + 1 + sp.length) { e with anchors := b.eff (p + koff c) e }
  | .cons c b sp v G rest, p, e => b.fine (p + koff c) e ∧
    v.fine (p + (ktext τ c b.text).length + 1 + sp.length) { e with anchors := b.eff (p + koff c) e } ∧
    rest.fine τ (p + (ktext τ c b.text).length + 1 + sp.length + v.text.length + G.length + τ)
      { e with anchors := v.eff (p + (ktext τ c b.text).length + 1 + sp.length) ({ e with anchors := b.eff (p + koff c) e }) }
end

mutual
/-- What may follow a tree. -/
def Blk.kind : Blk → EndKind
  | .leaf _ _ κ _ _ => κ
  | .lit _ τ _ => .lit τ
  | .seq _ _ its => its.kind
  | .map _ _ es => es.kind
  | .cmap _ _ es => es.kind
  | .prop _ b => b.kind
def Items.kind : Items → EndKind
  | .one _ b => b.kind
  | .cons _ _ _ rest => rest.kind
def Ents.kind : Ents → EndKind
  | .one _ _ _ v => v.kind
  | .cons _ _ _ _ _ rest => rest.kind
def CEnts.kind : CEnts → EndKind
  | .one _ _ _ v => v.kind
  | .cons _ _ _ _ _ rest => rest.kind
end

/-- Nothing, or a gap and the indentation. -/
def LeadOK (σ : Nat) (lead : Bytes) : Prop := lead = [] ∨ ∃ G, GapText G ∧ lead = G ++ spaces σ

/-- A text that can be a key. -/
def KeyOK (T : Bytes) (y : Yaml) : Prop := LeafOK .strict T (fun _ => y) ∧ docMark T = false

/-- A tree without properties. -/
def Blk.bare : Blk → Bool
  | .prop .. => false
  | _ => true

/-- A map as a value is indented more than the map it is in.  (If it is not, it
takes all further entries; so does a value that is not there.) -/
def Blk.deep (σ : Nat) : Blk → Prop
  | .leaf _ T _ _ _ => T ≠ []
  | .map _ τ _ => σ < τ
  | .cmap _ τ _ => σ < τ
  | .prop _ b => b.deep σ
  | _ => True

/-- A leaf of one line, or a literal: it may stand on the line of a marker `---`
whatever the document in front of it was like. -/
def Blk.short : Blk → Prop
  | .leaf _ _ κ _ _ => ∀ w, κ ≠ .fold w
  | .lit .. => True
  | .prop _ b => b.short
  | _ => False

/-- The value of a map at column `σ` does not begin in column `σ` of a further line. -/
def Blk.calmV (σ : Nat) : Blk → Prop
  | .seq _ τ _ => σ < τ
  | .map _ τ _ => σ < τ
  | .cmap _ τ _ => σ < τ
  | .prop _ b => b.calmV σ
  | _ => True

/-- The last value does not begin in the column of the keys. -/
def Ents.calm (τ : Nat) : Ents → Prop
  | .one _ _ _ v => v.calmV τ
  | .cons _ _ _ _ _ rest => rest.calm τ

/-- The last value does not begin in the column of the keys. -/
def CEnts.calm (τ : Nat) : CEnts → Prop
  | .one _ _ _ v => v.calmV τ
  | .cons _ _ _ _ _ rest => rest.calm τ

/-- The last value of the map, if it is one, does not begin in the column of the
keys.  (If it does, the loader keeps that column as the indentation of the content
of the next document.) -/
def Blk.calm : Blk → Prop
  | .map _ τ es => es.calm τ
  | .cmap _ τ es => es.calm τ
  | .prop _ b => b.calm
  | _ => True

/-- What is left of the width of the next level behind a node at column `σ`. -/
def Kept (calm : Prop) (σ w : Nat) : Prop := (calm → σ < w) ∧ (¬ calm → σ = 0 → w = 0)

theorem Kept.yes {calm : Prop} {σ w : Nat} (h : σ < w) (hc : calm) : Kept calm σ w := ⟨fun _ => h, fun hn => absurd hc hn⟩

/-- The further lines of a leaf are indented as they must be at column `σ`. -/
def KindFits (σ : Nat) (κ : EndKind) : Prop := ∀ w, κ = .fold w → σ + 2 = w

/-- A node that is not there: null. -/
def EmptyLeaf (lead T : Bytes) (κ : EndKind) (y : Nat → Env → Yaml) (pc : Known) : Prop :=
  lead = [] ∧ T = [] ∧ κ = .empty ∧ (y = fun _ _ => .null) ∧ pc = .none

/-- The separator in front of a tree. -/
def Blk.sepOf (sp : Bytes) (b : Blk) : Prop :=
  SepOK sp b.text ∨
    (b.text = [] ∧ b.kind = .empty ∧ (∀ x ∈ sp, isBlank x = true) ∧ (sp = [] ∨ ∃ r, sp = 0x20 :: r))

/-- What may follow a leaf that is a key: also the `:`. -/
def KeyKind (κ : EndKind) : Prop := (∀ P, κ ≠ .only P) ∧ ∀ w, κ ≠ .fold w

/-- A key on the line of its `:`. -/
def Blk.flatKey : Blk → Prop
  | .leaf lead T κ y pc => lead = [] ∧ LeafOKE κ T y pc ∧ docMark T = false ∧ KeyKind κ
  | .prop f (.leaf lead T κ y pc) => f.wf T ∧ lead = [] ∧ LeafOKE κ T y pc ∧ docMark T = false ∧ KeyKind κ
  | _ => False

mutual
/-- A tree that is the root or an item, at column `σ`. -/
def Blk.wfN (σ : Nat) : Blk → Prop
  | .leaf lead T κ y pc => (LeadOK σ lead ∧ LeafOKE κ T y pc ∧ KindFits σ κ) ∨ (EmptyLeaf lead T κ y pc ∧ 0 < σ)
  | .lit T τ s => τ = σ ∧ LitOK τ T s
  | .seq lead τ its => LeadOK σ lead ∧ τ = σ ∧ its.wf τ
  | .map lead τ es => LeadOK σ lead ∧ τ = σ ∧ es.wf τ ∧
      ∀ kp p e, GoodKeys ((es.pairs τ (.mk kp [] es.y) p e).map Prod.fst)
  | .cmap lead τ es => LeadOK σ lead ∧ τ = σ ∧ es.wf τ ∧ (lead = [] → es.c ≠ none ∨ es.b.bare = true)
  | .prop f b => f.wf b.text ∧ b.bare = true ∧ b.wfN σ
/-- A tree that is the value of a map at column `σ`. -/
def Blk.wfV (σ : Nat) : Blk → Prop
  | .leaf lead T κ y pc => (lead = [] ∧ LeafOKE κ T y pc ∧ KindFits σ κ) ∨ (EmptyLeaf lead T κ y pc ∧ 0 < σ)
  | .lit T τ s => τ = σ + 2 ∧ LitOK τ T s
  | .seq lead τ its => (∃ G, GapText G ∧ lead = G ++ spaces τ) ∧ σ ≤ τ ∧ its.wf τ
  | .map lead τ es => (∃ G, GapText G ∧ lead = G ++ spaces τ) ∧ σ ≤ τ ∧ es.wf τ ∧
      ∀ kp p e, GoodKeys ((es.pairs τ (.mk kp [] es.y) p e).map Prod.fst)
  | .cmap lead τ es => (∃ G, GapText G ∧ lead = G ++ spaces τ) ∧ σ ≤ τ ∧ es.wf τ
  | .prop f b => f.wf b.text ∧ b.bare = true ∧ b.wfV σ
def Items.wf (τ : Nat) : Items → Prop
  | .one sp b => b.sepOf sp ∧ b.wfN (τ + 2)
  | .cons sp b G rest => b.sepOf sp ∧ b.wfN (τ + 2) ∧ GapText G ∧
      (∀ r, Fits b.kind (G ++ (spaces τ ++ 0x2D :: r))) ∧ rest.wf τ
def Ents.wf (τ : Nat) : Ents → Prop
  | .one T y sp v => KeyOK T y ∧ v.sepOf sp ∧ v.wfV τ
  | .cons T y sp v G rest => KeyOK T y ∧ v.sepOf sp ∧ (v.wfV τ ∧ v.deep τ) ∧ GapText G ∧
      (∀ r, Fits v.kind (G ++ (spaces τ ++ (rest.T ++ r)))) ∧ rest.wf τ
def CEnts.wf (τ : Nat) : CEnts → Prop
  | .one none b sp v => b.flatKey ∧ v.sepOf sp ∧ v.wfV τ
  | .one (some (s, G)) b sp v => (SepOK s b.text ∧ b.wfV τ ∧ b.deep τ ∧ GapText G ∧
      ∀ r, Fits b.kind (G ++ (spaces τ ++ 0x3A :: r))) ∧ v.sepOf sp ∧ v.wfV τ
  | .cons none b sp v G' rest => b.flatKey ∧ v.sepOf sp ∧ (v.wfV τ ∧ v.deep τ) ∧ GapText G' ∧
      (∀ r, Fits v.kind (G' ++ (spaces τ ++ (rest.K τ ++ r)))) ∧ rest.wf τ
  | .cons (some (s, G)) b sp v G' rest => (SepOK s b.text ∧ b.wfV τ ∧ b.deep τ ∧ GapText G ∧
      ∀ r, Fits b.kind (G ++ (spaces τ ++ 0x3A :: r))) ∧ v.sepOf sp ∧ (v.wfV τ ∧ v.deep τ) ∧ GapText G' ∧
      (∀ r, Fits v.kind (G' ++ (spaces τ ++ (rest.K τ ++ r)))) ∧ rest.wf τ
end

/-- The gap in front of a tree. -/
def Blk.lead : Blk → Bytes
  | .leaf lead _ _ _ _ => lead
  | .lit _ _ _ => []
  | .seq lead _ _ => lead
  | .map lead _ _ => lead
  | .cmap lead _ _ => lead
  | .prop _ _ => []

/-- The gap behind the properties. -/
def Blk.inner : Blk → Bytes
  | .prop _ b => b.lead
  | b => b.lead

/-! ## Auxiliary facts -/

theorem gapSpec_tok {c : UInt8} (h : tokHead c = true) (r : Bytes) : gapSpec true (c :: r) = none := by
  have h0 : nlLen (c :: r) = 0 := by
    rw [nlLen_zero_iff]; rintro _ _ ⟨⟩; exact ⟨(tokHead_ne h).2.1, (tokHead_ne h).2.2.1⟩
  simp only [gapSpec, gapLead_tok h r, h0, if_true]

theorem GapText.head {G : Bytes} (hG : GapText G) : ∃ c r, G = c :: r ∧ tokHead c = false := by
  obtain ⟨t, ht⟩ := hG [0x78] ⟨0, 0x78, [], rfl, by decide⟩
  cases G with
  | nil => rw [List.nil_append, gapSpec_tok (by decide)] at ht; simp at ht
  | cons c r =>
    refine ⟨c, r, rfl, ?_⟩
    cases h : tokHead c with
    | false => rfl
    | true => rw [List.cons_append, gapSpec_tok h] at ht; simp at ht

theorem Stops.head {σ : Nat} {d : Bool} {E : Bytes} (h : Stops σ d E) :
    ∀ c r, E = c :: r → tokHead c = false := by
  rintro c r rfl
  rcases h with h | ⟨t, taken, left, hg, _⟩
  · simp at h
  · cases h : tokHead c with
    | false => rfl
    | true => rw [gapSpec_tok h] at hg; simp at hg

/-- The node has neither properties nor a block scalar indicator in front. -/
def plainHead (c : UInt8) : Prop := c ≠ 0x26 ∧ c ≠ 0x21 ∧ c ≠ 0x7C ∧ c ≠ 0x3E

theorem plainHead_of_not_tok {c : UInt8} (h : tokHead c = false) : plainHead c := by
  refine ⟨?_, ?_, ?_, ?_⟩ <;> (rintro rfl; revert h; decide)

theorem noProps_of {c : UInt8} {r : Bytes} (h : plainHead c) : noProps (c :: r) = true := by
  obtain ⟨h1, h2, _⟩ := h
  simp [noProps, h1, h2]

theorem LeafText.head {T : Bytes} (h : LeafText T) : ∃ c r, T = c :: r ∧ tokHead c = true ∧ plainHead c := by
  obtain ⟨c, r, rfl, h1, h2, _⟩ := h
  refine ⟨c, r, rfl, h1, ?_⟩
  simp at h2
  exact ⟨h2.1, h2.2.1, h2.2.2.1, h2.2.2.2⟩

theorem LeadOK.head {σ : Nat} {lead : Bytes} (h : LeadOK σ lead) {c : UInt8} {r : Bytes}
    (hc : plainHead c) : ∃ c' r', lead ++ c :: r = c' :: r' ∧ plainHead c' := by
  rcases h with rfl | ⟨G, hG, rfl⟩
  · exact ⟨c, r, rfl, hc⟩
  · obtain ⟨x, s, rfl, hx⟩ := hG.head
    exact ⟨x, _, rfl, plainHead_of_not_tok hx⟩

variable (k : Ctx) (L : Loader) (pre mid post : Bytes)

/-- No block scalar here. -/
theorem scalarBody_skip {c : UInt8} {r : Bytes} (hc : plainHead c) (sc : ScalarCall) (n level : Nat)
    (map flow : Bool) :
    scalarBody sc n level map flow (ld L (st k pre [] (c :: r))) =
      orElseMismatch
        (orElseMismatch (seq sc n level map) (YamlPeg.map sc n level map flow))
        (scalarTerm sc n n level flow) (ld L (st k pre [] (c :: r))) := by
  have h1 : stringLiteral level (st k pre [] (c :: r)) = (.err .mismatch, st k pre [] (c :: r)) := by
    rw [stringLiteral, bind_err (sym_miss _ _ _ _ _ _ hc.2.2.1)]; simp
  have h2 : stringFolded level (st k pre [] (c :: r)) = (.err .mismatch, st k pre [] (c :: r)) := by
    rw [stringFolded, bind_err (sym_miss _ _ _ _ _ _ hc.2.2.2)]; simp
  rw [scalarBody, bind_ok (try_err (lift_of h1))]
  simp only
  rw [bind_ok (try_err (lift_of h2))]

/-- The first bytes of a key: no item. -/
def KeyHead (T : Bytes) : Prop :=
  ∃ c r, T = c :: r ∧ tokHead c = true ∧ (c = 0x2D → ∃ x s, r = x :: s ∧ x ∉ b!":{}[] ,\n\r")

theorem LeafText.keyHead {T : Bytes} (h : LeafText T) : KeyHead T := by
  obtain ⟨c, r, h0, h1, _, h3⟩ := h
  exact ⟨c, r, h0, h1, fun hc => h3 (.inl hc)⟩

/-- No item here: `seq` does not match. -/
theorem seq_no {T E : Bytes} (hT : KeyHead T) {lead : Bytes} {σ level : Nat} (hl : LeadOK σ lead)
    (hw : k.want level = σ) (sc : ScalarCall) (n : Nat) :
    seq sc (n + 1) level false (ld L (st k pre [] (lead ++ (T ++ E)))) =
      (.err .mismatch, ld L (st (if lead = [] then k else k.at level) pre [] (lead ++ (T ++ E)))) := by
  obtain ⟨c, r, rfl, h1, h3⟩ := hT
  have hfi : firstItem level false (ld L (st k pre [] (lead ++ (c :: r ++ E)))) =
      (.ok (), ld L (st (if lead = [] then k else k.at level) pre lead (c :: r ++ E))) := by
    rcases hl with rfl | ⟨G, hG, rfl⟩
    · simp only [if_true, List.nil_append]
      exact firstItem_inline _ _ _ _ h1 level
    · have := firstItem_gap k L pre [] hG hw (r := r ++ E) h1
      obtain ⟨x, s, rfl, hx⟩ := hG.head
      simpa using this
  have hdash : (∃ s, (do lift (sym 0x2D); lift bound; pure false : LM Bool)
      (ld L (st (if lead = [] then k else k.at level) pre lead (c :: r ++ E))) = (.err .mismatch, s) ∧
      s = ld L (st (if lead = [] then k else k.at level) pre [] (lead ++ (c :: r ++ E)))) := by
    refine ⟨_, ?_, rfl⟩
    rcases dash_no (if lead = [] then k else k.at level) pre lead (r := c :: r ++ E)
      ⟨c, r ++ E, rfl, fun hc => by
        obtain ⟨x, s, rfl, hx⟩ := h3 hc
        simp only [List.cons_append, headIn]
        simpa using hx⟩ with ⟨s, hs, rfl⟩ | ⟨r', hr, hs, hb⟩
    · rw [bind_err (lift_of hs)]
    · rw [bind_ok (lift_of hs), bind_err (lift_of hb)]
  obtain ⟨s, hs, rfl⟩ := hdash
  rw [seq, bind_err]
  rw [seqLoop, bind_ok (lift_of (forward_st ..)), bind_err]
  simp only [List.isEmpty_nil, if_true, List.append_nil]
  rw [bind_ok hfi, hs]

theorem complexMapping_no {T E : Bytes} (hT : LeafText T) :
    complexMapping (st k pre [] (T ++ E)) = (.err .mismatch, st k pre [] (T ++ E)) := by
  obtain ⟨c, r, rfl, h1, h2, h3⟩ := hT
  by_cases hc : c = 0x3F
  · subst hc
    obtain ⟨x, s, rfl, hx⟩ := h3 (.inr rfl)
    rw [complexMapping, List.cons_append, bind_ok (sym_hit ..), bound_eq, if_neg]
    · simp
    · simp only [List.cons_append, headIn]; simpa using hx
  · rw [complexMapping, List.cons_append, bind_err (sym_miss _ _ _ _ _ _ hc)]; simp

theorem colonBound_yes' {sp text : Bytes} (h : SepOK sp text) :
    colonBound (ld L (st k pre mid (0x3A :: (sp ++ text)))) =
      (.ok true, ld L (st k pre (mid ++ 0x3A :: sp) text)) := by
  obtain ⟨h1, ⟨c, r, rfl, hc⟩, h3⟩ := h
  have ht := takeWhile_all h1 (c :: r) (by rintro _ _ ⟨⟩; exact hc)
  have hh : headIn b!":{}[] ,\n\r" (sp ++ c :: r) = true := by
    rcases h3 with ⟨s, rfl⟩ | ⟨rfl, hn⟩
    · rfl
    · rw [List.nil_append]
      by_cases h1 : c = 0x0A
      · subst h1; rfl
      · by_cases h2 : c = 0x0D
        · subst h2; rfl
        · exfalso; apply hn; rw [nlLen_zero_iff]; rintro _ _ ⟨⟩; exact ⟨h1, h2⟩
  rw [colonBound, bind_ok (isOk_ok (lift_of (sym_hit ..)))]
  simp only [if_true]
  rw [isOk_ok (a := ()) (s' := ld L (st k pre (mid ++ 0x3A :: sp) (c :: r)))]
  apply lift_of
  rw [bound_eq, if_pos hh, ht.1, ht.2]
  simp

theorem colonBound_yes {sp text : Bytes} (h : SepOK sp text) :
    colonBound (ld L (st k pre [] (0x3A :: (sp ++ text)))) =
      (.ok true, ld L (st k pre (0x3A :: sp) text)) := colonBound_yes' k L pre [] h

theorem bound_sep {sp text : Bytes} (h : SepOK sp text) :
    bound (st k pre mid (sp ++ text)) = (.ok (), st k pre (mid ++ sp) text) := by
  obtain ⟨h1, ⟨c, r, rfl, hc⟩, h3⟩ := h
  have ht := takeWhile_all h1 (c :: r) (by rintro _ _ ⟨⟩; exact hc)
  have hh : headIn b!":{}[] ,\n\r" (sp ++ c :: r) = true := by
    rcases h3 with ⟨s, rfl⟩ | ⟨rfl, hn⟩
    · rfl
    · rw [List.nil_append]
      by_cases h1 : c = 0x0A
      · subst h1; rfl
      · by_cases h2 : c = 0x0D
        · subst h2; rfl
        · exfalso; apply hn; rw [nlLen_zero_iff]; rintro _ _ ⟨⟩; exact ⟨h1, h2⟩
  rw [bound_eq, if_pos hh, ht.1, ht.2]

theorem nlLen_append {a : Bytes} (h : nlLen a ≠ 0) (b : Bytes) : nlLen (a ++ b) ≠ 0 := by
  rw [Ne, nlLen_zero_iff] at *
  intro h'
  apply h
  rintro c r rfl
  exact h' c (r ++ b) rfl

theorem nlLen_append_zero {a : Bytes} (ha : a ≠ []) (h : nlLen a = 0) (b : Bytes) : nlLen (a ++ b) = 0 := by
  rw [nlLen_zero_iff] at *
  cases a with
  | nil => simp at ha
  | cons x a => rintro _ _ ⟨⟩; exact h _ _ rfl

theorem SepOK.append {sp text : Bytes} (h : SepOK sp text) (E : Bytes) : SepOK sp (text ++ E) := by
  obtain ⟨h1, ⟨c, r, rfl, hc⟩, h3⟩ := h
  refine ⟨h1, ⟨c, r ++ E, rfl, hc⟩, ?_⟩
  rcases h3 with h | ⟨rfl, h⟩
  · exact .inl h
  · exact .inr ⟨rfl, nlLen_append h E⟩

theorem SepOK.colonStop {sp text : Bytes} (h : SepOK sp text) : colonStop (sp ++ text) = true := by
  obtain ⟨h1, ⟨c, r, rfl, hc⟩, h3⟩ := h
  rcases h3 with ⟨s, rfl⟩ | ⟨rfl, hn⟩
  · rfl
  · rw [List.nil_append]
    by_cases h1 : c = 0x0A
    · subst h1; rfl
    · by_cases h2 : c = 0x0D
      · subst h2; rfl
      · exfalso; apply hn; rw [nlLen_zero_iff]; rintro _ _ ⟨⟩; exact ⟨h1, h2⟩

theorem LeafEnd.of_stops {κ : EndKind} {level σ : Nat} {d : Bool} {E : Bytes}
    (hf : Fits κ E) (hs : Stops σ d E) (hw : σ < k.want level) :
    LeafEnd κ k level E := by
  have main : (∀ P, κ = .only P → P E) → nlLen E ≠ 0 → LeafEnd κ k level E := by
    intro hκ hn
    rcases hs with rfl | ⟨t, taken, left, hg, h⟩
    · simp [nlLen] at hn
    · exact .inr (.inl ⟨hκ, hn, t, taken, left, hg, by omega,
        Stops.not_prefix (d := d) (.inr ⟨t, taken, left, hg, h⟩) hg hw⟩)
  cases κ with
  | strict => exact main (by simp) hf
  | empty => exact main (by simp) hf
  | loose =>
    rcases hf with h | h
    · exact main (by simp) h
    · exact .inr (.inr (.inl ⟨.inl rfl, h⟩))
  | fold w =>
    rcases hf with h | h
    · exact main (by simp) h
    · exact .inr (.inr (.inl ⟨.inr ⟨w, rfl⟩, h⟩))
  | only P =>
    obtain ⟨hP, h | h⟩ := hf
    · exact main (by rintro _ ⟨⟩; exact hP) h
    · exact .inr (.inr (.inr ⟨P, rfl, hP, h⟩))
  | lit τ =>
    obtain ⟨left, rfl, _⟩ := hf
    exact main (by simp) (by rw [Ne, nlLen_zero_iff]; intro h; exact absurd rfl (h _ _ rfl).1)

theorem Stops.colon {σ : Nat} {d : Bool} {E : Bytes} (h : Stops σ d E) :
    sym 0x3A (st k pre [] E) = (.err .mismatch, st k pre [] E) := by
  cases E with
  | nil => simp
  | cons c r =>
    have := h.head c r rfl
    rw [sym_miss]
    · simp
    · rintro rfl; revert this; decide

theorem Ctx.want_of_at {k k' : Ctx} {q : Nat} (h : k'.at q = k.at q) : k'.want q = k.want q := by
  have := congrArg (fun c => c.indent.sum) h
  simpa [Ctx.at, Ctx.want] using this

theorem Ctx.at_of_at {k k' : Ctx} {p q : Nat} (h : k'.at q = k.at q) (hp : p ≤ q) : k'.at p = k.at p := by
  rw [← Ctx.at_at hp k', h, Ctx.at_at hp k]

theorem Ctx.consumed_of_at {k k' : Ctx} {q : Nat} (h : k'.at q = k.at q) : k'.consumed = k.consumed := by
  have := congrArg Ctx.consumed h
  simpa using this

theorem Ctx.tag_of_at {k k' : Ctx} {q : Nat} (h : k'.at q = k.at q) : k'.tag = k.tag := by
  have := congrArg Ctx.tag h
  simpa [Ctx.at] using this

/-! ## Reading a leaf -/

theorem leafNode_read {κ : EndKind} {T : Bytes} {y : Nat → Env → Yaml} {pc : Known} (hT : LeafOKE κ T y pc) {level : Nat}
    {E : Bytes} (hw : 0 < k.want level) (hκ : ∀ w, κ = .fold w → k.want level = w) (hE : LeafEnd κ k level E) :
    ∃ k', k'.at level = k.at level ∧ ∃ N, ∀ a n, N ≤ a → N ≤ n → ∀ L pre, L.Ready → pc.ok (k.consumed + pre.length) (envOf L k) →
      scalarFlow (scalar a) n level false (ld L (st k pre [] (T ++ E))) =
        (.ok (.mk (k.consumed + pre.length) [] (y (k.consumed + pre.length) (envOf L k))),
          ld (L.put (pc.eff (k.consumed + pre.length) (envOf L k))) (st k' (pre ++ T) [] E)) := by
  obtain ⟨k', hk', N, hN⟩ := hT.1 k level E hw hκ hE
  refine ⟨k', hk', N, fun a n ha hn L pre hL hpc => ?_⟩
  obtain ⟨p', m', hpm, he⟩ := hN a n n ha hn hn L pre hL hpc
  obtain ⟨c, r, hTe, h1, h2⟩ := hT.2.head
  have hp : noProps (T ++ E) = true := by subst hTe; exact noProps_of h2
  rw [scalarFlow, scalarNode_ok _ _ _ _ hp he, hpm]

/-- A leaf as the root or an item. -/
theorem leaf_node {κ : EndKind} {lead T : Bytes} {y : Nat → Env → Yaml} {pc : Known} (hT : LeafOKE κ T y pc) {q σ : Nat}
    (hκ : KindFits σ κ)
    (hl : LeadOK σ lead) (hw : k.want q = σ) (hlen : lead ≠ [] ∨ k.indent.length ≤ q + 1 ∨
      (σ < k.want (q + 1) ∧ ∀ w, κ ≠ .fold w)) {E : Bytes} {d : Bool}
    (hf : Fits κ E) (hs : Stops σ d E) :
    ∃ k', k'.at q = k.at q ∧ σ < k'.want (q + 1) ∧ ∃ N, ∀ n, N ≤ n → ∀ L pre, L.Ready → pc.ok (k.consumed + pre.length + lead.length) (envOf L k) →
      scalar n q false false (ld L (st k pre [] (lead ++ T ++ E))) =
        (.ok (.mk (k.consumed + pre.length) [] (y (k.consumed + pre.length + lead.length) (envOf L k))),
          ld (L.put (pc.eff (k.consumed + pre.length + lead.length) (envOf L k))) (st k' (pre ++ (lead ++ T)) [] E)) := by
  generalize hk1 : (if lead = [] then k else k.at q) = k1
  have hk1at : k1.at q = k.at q := by subst hk1; split <;> simp
  have hw1 : k1.want q = σ := by rw [Ctx.want_of_at hk1at, hw]
  have hcon : k1.consumed = k.consumed := Ctx.consumed_of_at hk1at
  have htag : k1.tag = k.tag := Ctx.tag_of_at hk1at
  have hw2 : σ < k1.want (q + 1) ∧ ∀ w, κ = .fold w → k1.want (q + 1) = w := by
    have hlen1 : k1.indent.length ≤ q + 1 ∨ (σ < k1.want (q + 1) ∧ ∀ w, κ ≠ .fold w) := by
      subst hk1; split
      · rcases hlen with h | h
        · rename_i h'; exact absurd h' h
        · exact h
      · simp
    rcases hlen1 with h | ⟨h1, h2⟩
    · rw [Ctx.want_succ _ _ h, hw1]
      exact ⟨by omega, hκ⟩
    · exact ⟨h1, fun w h => absurd h (h2 w)⟩
  have hE : LeafEnd κ k1 (q + 1) E := LeafEnd.of_stops k1 hf hs (by omega)
  obtain ⟨k', hk', N, hN⟩ := leafNode_read k1 hT (by omega) hw2.2 hE
  refine ⟨k', ?_, by rw [Ctx.want_of_at hk']; exact hw2.1, N + 3, fun n hn L pre hL hpc => ?_⟩
  · exact (Ctx.at_of_at hk' (Nat.le_succ q)).trans hk1at
  obtain ⟨a, rfl⟩ : ∃ a, n = a + 2 := ⟨n - 2, by omega⟩
  obtain ⟨c, r, hTe, h1, h2⟩ := hT.2.head
  obtain ⟨c', r', hce, hc'⟩ := hl.head (r := r ++ E) h2
  have htxt : lead ++ (T ++ E) = c' :: r' := by rw [hTe]; simpa using hce
  have hfi : ∀ pre, firstItem q false (ld L (st k1 pre [] (lead ++ (T ++ E)))) =
      (.ok (), ld L (st k1 pre lead (T ++ E))) := by
    intro pre
    rcases hl with rfl | ⟨G, hG, rfl⟩
    · subst hTe
      exact firstItem_inline _ _ _ _ h1 q
    · obtain ⟨x, s, rfl, hx⟩ := hG.head
      have := firstItem_gap k1 L pre [] hG hw1 (r := r ++ E) h1
      have e : k1.at q = k1 := by
        subst hk1; simp
      rw [e] at this
      subst hTe
      simpa using this
  generalize hL1 : L.put (pc.eff (k.consumed + pre.length + lead.length) (envOf L k)) = L1
  have hmap : YamlPeg.map (scalar (a + 1)) (a + 1) q false false (ld L (st k1 pre [] (lead ++ (T ++ E)))) =
      (.ok (y (k.consumed + pre.length + lead.length) (envOf L k)), ld L1 (st k' (pre ++ lead ++ T) [] E)) := by
    rw [YamlPeg.map, mapLoop, bind_ok (a := MapStep.alone (y (k.consumed + pre.length + lead.length) (envOf L k)))
      (s' := ld L1 (st k' (pre ++ lead ++ T) [] E))]
    · rfl
    · rw [mapStep, bind_ok (lift_of (forward_st ..))]
      simp only [List.isEmpty_nil, if_true, List.append_nil]
      have hkey : (do
          if ← isOk (lift complexMapping) then complexKey (scalar (a + 1)) q true false "map key"
          else scalarFlow (scalar (a + 1)) (a + 1) (q + 1) false : LM Node)
          (ld L (st k1 (pre ++ lead) [] (T ++ E))) =
          (.ok (.mk (k1.consumed + (pre ++ lead).length) [] (y (k1.consumed + (pre ++ lead).length) (envOf L k1))),
            ld L1 (st k' (pre ++ lead ++ T) [] E)) := by
        rw [bind_ok (isOk_err (lift_of (complexMapping_no _ _ hT.2)))]
        simp only [Bool.false_eq_true, if_false]
        have hpos : k1.consumed + (pre ++ lead).length = k.consumed + pre.length + lead.length := by
          rw [hcon, List.length_append]; omega
        have := hN (a + 1) (a + 1) (by omega) (by omega) L (pre ++ lead) hL
          (by rw [envOf_ctx L htag, hpos]; exact hpc)
        rw [this, envOf_ctx L htag, hpos, hL1]
      rw [bind_ok (hfi _), bind_ok (lift_of (forward_st ..)), bind_ok hkey]
      · rw [bind_ok (a := false) (s' := ld L1 (st k' (pre ++ lead ++ T) [] E))]
        · simp [Node.yaml, hcon, Nat.add_assoc, envOf_ctx L htag]
        · rw [colonBound, bind_ok (isOk_err (lift_of (Stops.colon _ _ hs)))]
          rfl
  rw [scalar, List.append_assoc]
  rw [scalarNode_ok (y := y (k.consumed + pre.length + lead.length) (envOf L k)) (k' := k') (L' := L1)
    (p' := pre ++ lead ++ T) (m' := []) (post' := E)]
  · simp
  · rw [htxt]; exact noProps_of hc'
  · rw [htxt, scalarBody_skip _ _ _ hc', ← htxt, orElse_ok]
    rw [orElse_mismatch (seq_no _ _ _ hT.2.keyHead hl hw _ _), hk1, hmap]

/-- A leaf as a value. -/
theorem leaf_value {κ : EndKind} {T : Bytes} {y : Nat → Env → Yaml} {pc : Known} (hT : LeafOKE κ T y pc) {p σ : Nat}
    (hκ : KindFits σ κ) (hw2 : k.want (p + 1) = σ + 2) {E : Bytes} {d : Bool}
    (hf : Fits κ E) (hs : Stops σ d E) :
    ∃ k', k'.at p = k.at p ∧ σ < k'.want (p + 1) ∧ ∃ N, ∀ n, N ≤ n → ∀ L pre, L.Ready → pc.ok (k.consumed + pre.length) (envOf L k) →
      scalar n (p + 1) true false (ld L (st k pre [] (T ++ E))) =
        (.ok (.mk (k.consumed + pre.length) [] (y (k.consumed + pre.length) (envOf L k))),
          ld (L.put (pc.eff (k.consumed + pre.length) (envOf L k))) (st k' (pre ++ T) [] E)) := by
  have hE : LeafEnd κ k (p + 1) E := LeafEnd.of_stops k hf hs (by omega)
  obtain ⟨k', hk', N, hN⟩ := hT.1 k (p + 1) E (by omega) (fun w h => by rw [hw2]; exact hκ w h) hE
  refine ⟨k', ?_, by rw [Ctx.want_of_at hk']; omega, N + 3, fun n hn L pre hL hpc => ?_⟩
  · exact Ctx.at_of_at hk' (Nat.le_succ p)
  obtain ⟨a, rfl⟩ : ∃ a, n = a + 2 := ⟨n - 2, by omega⟩
  obtain ⟨p', m', hpm, he⟩ := hN (a + 1) (a + 1) (a + 1) (by omega) (by omega) (by omega) L pre hL hpc
  obtain ⟨c, r, rfl, h1, h2⟩ := hT.2.head
  have hp : noProps (c :: r ++ E) = true := noProps_of h2
  have hfi : firstItem (p + 1) true (ld L (st k pre [] (c :: r ++ E))) =
      (.err .mismatch, ld L (st k pre [] (c :: r ++ E))) := by
    simp only [firstItem, if_true, List.cons_append]
    rw [bind_err (lift_of (gap_tok _ _ _ h1 _))]
  rw [scalar, scalarNode_ok _ _ _ _ hp (k' := k') (L' := L.put (pc.eff (k.consumed + pre.length) (envOf L k))) (p' := p') (m' := m') (post' := E)
    (y := y (k.consumed + pre.length) (envOf L k))]
  · rw [hpm]
  · rw [List.cons_append, scalarBody_skip _ _ _ h2, ← List.cons_append, orElse_mismatch, he]
    rw [orElse_mismatch (s' := ld L (st k pre [] (c :: r ++ E)))]
    · rw [YamlPeg.map, mapLoop, bind_err]
      rw [mapStep, bind_ok (lift_of (forward_st ..))]
      simp only [List.isEmpty_nil, if_true, List.append_nil]
      rw [bind_err hfi]
    · rw [seq, bind_err]
      rw [seqLoop, bind_ok (lift_of (forward_st ..)), bind_err]
      simp only [List.isEmpty_nil, if_true, List.append_nil]
      rw [bind_err hfi]

/-! ## Empty nodes -/

theorem Stops.gap_some {σ : Nat} {d : Bool} {E : Bytes} (h : Stops σ d E) (hE : nlLen E ≠ 0) :
    ∃ t taken left, gapSpec true E = some (t, taken, left) := by
  rcases h with rfl | ⟨t, taken, left, hg, _⟩
  · simp [nlLen] at hE
  · exact ⟨t, taken, left, hg⟩

/-- The next line is indented less. -/
theorem Stops.not_prefix_at {σ : Nat} {E : Bytes} {t : Nat} {taken left : Bytes}
    (h : Stops σ false E) (hg : gapSpec true E = some (t, taken, left)) (hw : 0 < σ) :
    (spaces σ).isPrefixOf left = false := by
  rcases h with rfl | ⟨t', taken', left', hg', h⟩
  · simp [gapSpec, gapLead, cmtSkip, nlLen] at hg
  · rw [hg] at hg'
    simp only [Option.some.injEq, Prod.mk.injEq] at hg'
    obtain ⟨rfl, rfl, rfl⟩ := hg'
    rcases h with rfl | h | ⟨j, c, r, rfl, h2, h3⟩
    · exact spaces_not_prefix_nil hw
    · obtain ⟨c, r, rfl, hc⟩ := docMark_head h
      exact spaces_not_prefix_cons hw (by rcases hc with rfl | rfl <;> decide) r
    · refine spaces_not_prefix ?_ h2 r
      rcases h3 with h3 | h3
      · exact h3
      · simp at h3

theorem gapSpec_append {E : Bytes} {t : Nat} {taken left : Bytes} (hg : gapSpec true E = some (t, taken, left)) :
    taken ++ left = E := by
  have e := gapLead_append E true
  simp only [gapSpec] at hg
  split at hg
  · simp at hg
  · simp only [Option.some.injEq, Prod.mk.injEq] at hg
    obtain ⟨_, rfl, rfl⟩ := hg
    rw [List.append_assoc, List.append_assoc, gapMore_append, List.take_append_drop, e]

theorem nl_head {E : Bytes} (h : nlLen E ≠ 0) : ∃ c r, E = c :: r ∧ (c = 0x0A ∨ c = 0x0D) := by
  cases E with
  | nil => simp [nlLen] at h
  | cons c r =>
    refine ⟨c, r, rfl, ?_⟩
    by_cases h1 : c = 0x0A
    · exact .inl h1
    · by_cases h2 : c = 0x0D
      · exact .inr h2
      · exact absurd ((nlLen_zero_iff _).2 (by rintro _ _ ⟨⟩; exact ⟨h1, h2⟩)) h

/-- `scalar_term` finds nothing. -/
theorem scalarTerm_empty {E : Bytes} (hE : nlLen E ≠ 0) {level : Nat} {t : Nat} {taken left : Bytes}
    (hg : gapSpec true E = some (t, taken, left)) (hw : 0 < k.want level)
    (hn : (spaces (k.want level)).isPrefixOf left = false) (sc : ScalarCall) {n : Nat} (h0 : 0 < n) (d : Nat) :
    scalarTerm sc n (d + 1) level false (ld L (st k pre [] E)) = (.ok .null, ld L (st (k.at level) pre [] E)) := by
  obtain ⟨c, r, rfl, hc⟩ := nl_head hE
  have h1 : NotNum (c :: r) := by left; rcases hc with rfl | rfl <;> rfl
  have h2 : atomHead (c :: r) = true := by rcases hc with rfl | rfl <;> rfl
  have hb : ∀ x : UInt8, x = 0x5B ∨ x = 0x7B → ∀ u, c :: r ≠ x :: u := by
    rintro x hx u ⟨⟩
    rcases hc with rfl | rfl <;> rcases hx with h | h <;> revert h <;> decide
  rw [scalarTerm, scalarTermWith, bind_ok (scalarAtom_none k L pre h1 h2 (.line hE hg hw hn) n h0)]
  simp only
  rw [orElse_mismatch (s' := ld L (st (k.at level) pre [] (c :: r)))]
  · rfl
  · rw [orElse_mismatch (s' := ld L (st (k.at level) pre [] (c :: r)))]
    · rw [bind_err (lift_of (sym_no _ _ _ _ (hb _ (.inr rfl))))]
    · rw [seqFlow, bind_err (lift_of (sym_no _ _ _ _ (hb _ (.inl rfl))))]

/-- An item that is not there. -/
theorem empty_node {q σ : Nat} (hσ : 0 < σ) (hw : k.want q = σ) {E : Bytes} (hf : nlLen E ≠ 0) (hs : Stops σ false E) :
    ∃ k', k'.at q = k.at q ∧ σ < k'.want (q + 1) ∧ ∃ N, ∀ n, N ≤ n → ∀ L pre,
      scalar n q false false (ld L (st k pre [] E)) =
        (.ok (.mk (k.consumed + pre.length) [] .null), ld L (st k' pre [] E)) := by
  obtain ⟨t, taken, left, hg⟩ := hs.gap_some hf
  have hnp := hs.not_prefix_at hg hσ
  have happ := gapSpec_append hg
  refine ⟨k.at q, by simp, by rw [Ctx.want_succ _ _ (by simp), Ctx.want_at]; omega, 3, fun n hn L pre => ?_⟩
  obtain ⟨a, rfl⟩ : ∃ a, n = a + 2 := ⟨n - 2, by omega⟩
  obtain ⟨c, r, hE, hc⟩ := nl_head hf
  have hp : plainHead c := by rcases hc with rfl | rfl <;> (refine ⟨?_, ?_, ?_, ?_⟩ <;> decide)
  have hfi : ∀ k0 : Ctx, k0.at q = k.at q → firstItem q false (ld L (st k0 pre [] E)) =
      (.err .mismatch, ld L (st (k.at q) pre [] E)) := by
    intro k0 h0
    have hw0 : k0.want q = σ := (Ctx.want_of_at h0).trans hw
    have hgap : gap true (st k0 pre [] E) = (.ok t, st k0 pre taken left) := by rw [gap_eq, hg]; simp
    simp only [firstItem, Bool.false_eq_true, if_false, gapThenInd]
    rw [bind_ok (isOk_ok (lift_of hgap))]
    simp only [if_true]
    rw [lift_of (ind_miss _ _ _ _ _ (by rw [hw0]; exact hnp)), happ, h0]
  have hseq : seq (scalar (a + 1)) (a + 1) q false (ld L (st k pre [] E)) =
      (.err .mismatch, ld L (st (k.at q) pre [] E)) := by
    rw [seq, bind_err]
    rw [seqLoop, bind_ok (lift_of (forward_st ..)), bind_err]
    simp only [List.isEmpty_nil, if_true, List.append_nil]
    rw [bind_err (hfi k rfl)]
  have hmap : YamlPeg.map (scalar (a + 1)) (a + 1) q false false (ld L (st (k.at q) pre [] E)) =
      (.err .mismatch, ld L (st (k.at q) pre [] E)) := by
    rw [YamlPeg.map, mapLoop, bind_err]
    rw [mapStep, bind_ok (lift_of (forward_st ..))]
    simp only [List.isEmpty_nil, if_true, List.append_nil]
    rw [bind_err (hfi (k.at q) (by simp))]
  rw [scalar, scalarNode_ok (y := .null) (k' := k.at q) (L' := L) (p' := pre) (m' := []) (post' := E)]
  · simp
  · rw [hE]; exact noProps_of hp
  · rw [hE, scalarBody_skip _ _ _ hp, ← hE, orElse_mismatch]
    · have := scalarTerm_empty (k.at q) L pre hf hg (level := q) (by simp [hw, hσ]) (by simpa [hw] using hnp)
        (scalar (a + 1)) (n := a + 1) (by omega) a
      rw [this]; simp
    · rw [orElse_mismatch hseq, hmap]

/-- A value that is not there, in a map that is indented. -/
theorem empty_value {p σ : Nat} (hσ : 0 < σ) (hw : k.want p = σ) (hw2 : k.want (p + 1) = σ + 2) {E : Bytes}
    (hf : nlLen E ≠ 0) (hs : Stops σ false E) :
    ∃ k', k'.at p = k.at p ∧ σ < k'.want (p + 1) ∧ ∃ N, ∀ n, N ≤ n → ∀ L pre,
      scalar n (p + 1) true false (ld L (st k pre [] E)) =
        (.ok (.mk (k.consumed + pre.length) [] .null), ld L (st k' pre [] E)) := by
  obtain ⟨t, taken, left, hg⟩ := hs.gap_some hf
  have hnp := hs.not_prefix_at hg hσ
  have happ := gapSpec_append hg
  refine ⟨(k.at p).at (p + 1), ?_, by rw [Ctx.want_at, Ctx.want_succ _ _ (by simp), Ctx.want_at]; omega, 3, fun n hn L pre => ?_⟩
  · rw [Ctx.at_at (Nat.le_succ p)]; simp
  obtain ⟨a, rfl⟩ : ∃ a, n = a + 2 := ⟨n - 2, by omega⟩
  obtain ⟨c, r, hE, hc⟩ := nl_head hf
  have hp : plainHead c := by rcases hc with rfl | rfl <;> (refine ⟨?_, ?_, ?_, ?_⟩ <;> decide)
  have hfi : ∀ k0 : Ctx, k0.at p = k.at p → firstItem (p + 1) true (ld L (st k0 pre [] E)) =
      (.err .mismatch, ld L (st (k.at p) pre [] E)) := by
    intro k0 h0
    have hw0 : k0.want p = σ := (Ctx.want_of_at h0).trans hw
    have hgap : gap true (st k0 pre [] E) = (.ok t, st k0 pre taken left) := by rw [gap_eq, hg]; simp
    simp only [firstItem, if_true]
    rw [bind_ok (lift_of hgap)]
    refine lift_of ?_
    rw [indDefine]
    simp only [show decide (p + 1 > 0) = true by simp, runIf_true, Nat.add_sub_cancel]
    rw [bind_err (ind_miss _ _ _ _ _ (by rw [hw0]; exact hnp)), happ, h0]
  have hseq : seq (scalar (a + 1)) (a + 1) (p + 1) true (ld L (st k pre [] E)) =
      (.err .mismatch, ld L (st (k.at p) pre [] E)) := by
    rw [seq, bind_err]
    rw [seqLoop, bind_ok (lift_of (forward_st ..)), bind_err]
    simp only [List.isEmpty_nil, if_true, List.append_nil]
    rw [bind_err (hfi k rfl)]
  have hmap : YamlPeg.map (scalar (a + 1)) (a + 1) (p + 1) true false (ld L (st (k.at p) pre [] E)) =
      (.err .mismatch, ld L (st (k.at p) pre [] E)) := by
    rw [YamlPeg.map, mapLoop, bind_err]
    rw [mapStep, bind_ok (lift_of (forward_st ..))]
    simp only [List.isEmpty_nil, if_true, List.append_nil]
    rw [bind_err (hfi (k.at p) (by simp))]
  have hw3 : (k.at p).want (p + 1) = σ + 2 := by
    rw [Ctx.want_succ _ _ (by simp), Ctx.want_at, hw]
  rw [scalar, scalarNode_ok (y := .null) (k' := (k.at p).at (p + 1)) (L' := L) (p' := pre) (m' := []) (post' := E)]
  · simp
  · rw [hE]; exact noProps_of hp
  · rw [hE, scalarBody_skip _ _ _ hp, ← hE, orElse_mismatch]
    · exact scalarTerm_empty (k.at p) L pre hf hg (level := p + 1) (by rw [hw3]; omega)
        (by rw [hw3]; exact (hs.to_dash true).not_prefix hg (by omega)) (scalar (a + 1)) (n := a + 1) (by omega) a
    · rw [orElse_mismatch hseq, hmap]

end YamlPeg
