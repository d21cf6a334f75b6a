import Verif.Proof.Stream
import Verif.Proof.Words
import Verif.Proof.Same
import Verif.Props.Fuel
/-! # What a document is read as -/

namespace YamlPeg
open M

/-- The text is read as `plain` by `parse`, and as `cyc` with the anchors `tb`
by `parse_cyclic`, whatever the hash seed. -/
def ReadsBoth (doc : Bytes) (plain cyc : List Node) (tb : List Anchors) : Prop :=
  ∀ h, Ends (fun n => parse h n doc) (.ok plain) ∧ Ends (fun n => parseCyclic h n doc) (.ok (cyc, tb))

/-- Both parsers read the text as these documents, whatever the hash seed; no
anchor is recorded. -/
def Reads (doc : Bytes) (nodes : List Node) : Prop :=
  ∀ h, Ends (fun n => parse h n doc) (.ok nodes) ∧
    Ends (fun n => parseCyclic h n doc) (.ok (nodes, List.replicate nodes.length []))

/-- `parse` reads a well-formed stream. -/
theorem parse_stream {s : Stream} (hwf : s.wf) (hf : s.fine false) (h : HashCfg) :
    Ends (fun n => parse h n s.text) (.ok (s.nodes false)) := by
  obtain ⟨N, hN⟩ := loaderParse_stream hwf
  refine ⟨by simp, N, fun n hn => ?_⟩
  obtain ⟨l', _, he⟩ := hN n hn (Loader.new h s.text) rfl hf
  rw [← new_st] at he
  simp only [parse, he]
  rfl

/-- `parse_cyclic` reads a well-formed stream. -/
theorem parseCyclic_stream {s : Stream} (hwf : s.wf) (hf : s.fine true) (h : HashCfg) :
    Ends (fun n => parseCyclic h n s.text) (.ok (s.nodes true, s.tables true)) := by
  obtain ⟨N, hN⟩ := loaderParse_stream hwf
  refine ⟨by simp, N, fun n hn => ?_⟩
  obtain ⟨l', ha, he⟩ := hN n hn { Loader.new h s.text with cyclicMode := true } rfl hf
  have e : ld { Loader.new h s.text with cyclicMode := true } (st .start [] [] s.text) =
      { Loader.new h s.text with cyclicMode := true } := by
    simp [ld, Loader.new, st, Parser.new, Ctx.start]
  rw [e] at he
  simp only [parseCyclic, he, Out.map, ha]
  simp [Loader.new]

/-! ## Trees without anchors and aliases -/

/-- A leaf that needs nothing and binds no anchors. -/
def Known.still (pc : Known) : Prop := (∀ p e, pc.ok p e) ∧ ∀ p e, pc.eff p e = e.anchors

@[simp] theorem Known.still_none : Known.none.still := ⟨fun _ _ => trivial, fun _ _ => rfl⟩

mutual
/-- Neither anchors nor aliases, and no tag that needs a directive. -/
def Blk.still : Blk → Prop
  | .leaf _ _ _ y pc => (∀ p e e', y p e = y p e') ∧ pc.still
  | .lit .. => True
  | .seq _ _ its => its.still
  | .map _ _ es => es.still
  | .cmap _ τ es => es.still ∧ ∀ p e, GoodKeys ((es.pairs τ p e).map Prod.fst)
  | .prop f b => (∀ tbl, f.fine tbl) ∧ f.name = [] ∧ b.still
def Items.still : Items → Prop
  | .one _ b => b.still
  | .cons _ b _ rest => b.still ∧ rest.still
def Ents.still : Ents → Prop
  | .one _ _ _ v => v.still
  | .cons _ _ _ v _ rest => v.still ∧ rest.still
def CEnts.still : CEnts → Prop
  | .one _ b _ v => b.still ∧ v.still
  | .cons _ b _ v _ rest => b.still ∧ v.still ∧ rest.still
end

mutual
theorem Blk.still_spec : ∀ (b : Blk), b.still → ∀ p, (∀ e e', b.data p e = b.data p e') ∧
    (∀ e, b.eff p e = e.anchors) ∧ ∀ e, b.fine p e
  | .leaf .., h, p => by simp only [Blk.still] at h; simp only [Blk.data, Blk.eff, Blk.fine]; exact ⟨h.1 _, h.2.2 _, h.2.1 _⟩
  | .lit .., _, p => by simp [Blk.data, Blk.eff, Blk.fine]
  | .seq lead τ its, h, p => by
    simp only [Blk.still] at h
    have := Items.still_spec its h τ
    simp only [Blk.data, Blk.eff, Blk.fine]
    exact ⟨fun e e' => by rw [(this _).1 e e'], (this _).2.1, (this _).2.2⟩
  | .map lead τ es, h, p => by
    simp only [Blk.still] at h
    have := Ents.still_spec es h τ
    simp only [Blk.data, Blk.eff, Blk.fine]
    exact ⟨fun e e' => by rw [(this _).1 _ e e'], (this _).2.1, (this _).2.2⟩
  | .cmap lead τ es, h, p => by
    simp only [Blk.still] at h
    have := CEnts.still_spec es h.1 τ
    simp only [Blk.data, Blk.eff, Blk.fine]
    exact ⟨fun e e' => by rw [(this _).1 e e'], (this _).2.1, fun e => ⟨(this _).2.2 e, h.2 _ _⟩⟩
  | .prop f b, h, p => by
    simp only [Blk.still] at h
    have := Blk.still_spec b h.2.2 (p + f.text.length)
    simp only [Blk.data, Blk.eff, Blk.fine, h.2.1, if_true]
    exact ⟨this.1, this.2.1, fun e => ⟨h.1 _, this.2.2 e, by simp⟩⟩
theorem Items.still_spec : ∀ (its : Items), its.still → ∀ τ p, (∀ e e', its.nodes τ p e = its.nodes τ p e') ∧
    (∀ e, its.eff τ p e = e.anchors) ∧ ∀ e, its.fine τ p e
  | .one sp b, h, τ, p => by
    simp only [Items.still] at h
    have := Blk.still_spec b h p
    simp only [Items.nodes, Items.eff, Items.fine]
    exact ⟨fun e e' => by rw [this.1 e e'], this.2⟩
  | .cons sp b G rest, h, τ, p => by
    simp only [Items.still] at h
    have h1 := Blk.still_spec b h.1 p
    have h2 := Items.still_spec rest h.2 τ
    simp only [Items.nodes, Items.eff, Items.fine]
    refine ⟨fun e e' => ?_, fun e => ?_, fun e => ⟨h1.2.2 e, (h2 _).2.2 _⟩⟩
    · rw [h1.1 e e', (h2 _).1 _ { e' with anchors := b.eff p e' }]
    · rw [(h2 _).2.1]; exact h1.2.1 e
theorem Ents.still_spec : ∀ (es : Ents), es.still → ∀ τ p, (∀ kn e e', es.pairs τ kn p e = es.pairs τ kn p e') ∧
    (∀ e, es.eff τ p e = e.anchors) ∧ ∀ e, es.fine τ p e
  | .one T y sp v, h, τ, p => by
    simp only [Ents.still] at h
    have := Blk.still_spec v h p
    simp only [Ents.pairs, Ents.eff, Ents.fine]
    exact ⟨fun kn e e' => by rw [this.1 e e'], this.2⟩
  | .cons T y sp v G rest, h, τ, p => by
    simp only [Ents.still] at h
    have h1 := Blk.still_spec v h.1 p
    have h2 := Ents.still_spec rest h.2 τ
    simp only [Ents.pairs, Ents.eff, Ents.fine]
    refine ⟨fun kn e e' => ?_, fun e => ?_, fun e => ⟨h1.2.2 e, (h2 _).2.2 _⟩⟩
    · rw [h1.1 e e', (h2 _).1 _ _ { e' with anchors := v.eff p e' }]
    · rw [(h2 _).2.1]; exact h1.2.1 e
theorem CEnts.still_spec : ∀ (es : CEnts), es.still → ∀ τ p, (∀ e e', es.pairs τ p e = es.pairs τ p e') ∧
    (∀ e, es.eff τ p e = e.anchors) ∧ ∀ e, es.fine τ p e
  | .one c b sp v, h, τ, p => by
    simp only [CEnts.still] at h
    have h1 := Blk.still_spec b h.1 (p + koff c)
    have h2 := Blk.still_spec v h.2
    simp only [CEnts.pairs, CEnts.eff, CEnts.fine]
    refine ⟨fun e e' => ?_, fun e => ?_, fun e => ⟨h1.2.2 e, (h2 _).2.2 _⟩⟩
    · rw [h1.1 e e', (h2 _).1 _ { e' with anchors := b.eff (p + koff c) e' }]
    · rw [(h2 _).2.1]; exact h1.2.1 e
  | .cons c b sp v G rest, h, τ, p => by
    simp only [CEnts.still] at h
    have h1 := Blk.still_spec b h.1 (p + koff c)
    have h2 := Blk.still_spec v h.2.1
    have h3 := CEnts.still_spec rest h.2.2 τ
    simp only [CEnts.pairs, CEnts.eff, CEnts.fine]
    refine ⟨fun e e' => ?_, fun e => ?_, fun e => ⟨h1.2.2 e, (h2 _).2.2 _, (h3 _).2.2 _⟩⟩
    · rw [h1.1 e e', (h2 _).1 _ { e' with anchors := b.eff (p + koff c) e' }, (h3 _).1 _ _]
    · rw [(h3 _).2.1]
      simp only
      rw [(h2 _).2.1]; exact h1.2.1 e
end

/-- An environment with nothing in it. -/
def Env.none : Env := ⟨false, [], []⟩

/-- The node of a tree without anchors and aliases. -/
def Blk.value (b : Blk) (p : Nat) : Node := b.node p .none

theorem Blk.still_node {b : Blk} (h : b.still) (p : Nat) (e : Env) : b.node p e = b.value p := by
  rw [Blk.value, Blk.node, (Blk.still_spec b h p).1 e .none]; rfl

def Tail.still : Tail → Prop
  | .stop _ => True
  | .next _ _ b t => b.still ∧ t.still

/-- The documents of a tail without anchors and aliases. -/
def Tail.values : Tail → Nat → List Node
  | .stop _, _ => []
  | .next G sp b t, p =>
    b.value (p + G.length + 3 + sp.length) ::
      t.values (p + G.length + 3 + sp.length + b.text.length)

theorem Tail.still_spec : ∀ (t : Tail), t.still → ∀ p c tg, t.fine (.doc c tg) p ∧
    t.nodes (.doc c tg) p = t.values p ∧ t.tables (.doc c tg) p = List.replicate (t.values p).length []
  | .stop E, _, p, c, tg => by simp [Tail.fine, Tail.nodes, Tail.tables, Tail.values]
  | .next G sp b t, h, p, c, tg => by
    obtain ⟨h1, h2⟩ := h
    have hb := Blk.still_spec b h1
    have ih := Tail.still_spec t h2 (p + G.length + 3 + sp.length + b.text.length) c tg
    simp only [Tail.fine, Tail.nodes, Tail.tables, Tail.values, ih, Blk.still_node h1, (hb _).2.1]
    exact ⟨⟨(hb _).2.2 _, trivial⟩, trivial, by simp [Env.doc, List.replicate_succ]⟩

def Stream.still (s : Stream) : Prop := s.first.still ∧ s.tail.still

/-- The documents of a stream without anchors and aliases. -/
def Stream.values (s : Stream) : List Node :=
  s.first.value s.head.length :: s.tail.values (s.head.length + s.first.text.length)

theorem reads_stream {s : Stream} (hwf : s.wf) (hs : s.still) : Reads s.text s.values := by
  intro h
  have h1 := Blk.still_spec s.first hs.1 s.head.length
  have h2 := Tail.still_spec s.tail hs.2 (s.head.length + s.first.text.length)
  have hf : ∀ c, s.fine c := fun c => ⟨h1.2.2 _, (h2 _ _).1⟩
  have hn : ∀ c, s.nodes c = s.values := fun c => by
    rw [Stream.nodes, Stream.values, (h2 _ _).2.1, Blk.still_node hs.1]
  have ht : ∀ c, s.tables c = List.replicate s.values.length [] := fun c => by
    rw [Stream.tables, Stream.values, (h2 _ _).2.2, h1.2.1]
    simp [Env.doc, List.replicate_succ]
  have e1 := parse_stream hwf (hf false) h
  have e2 := parseCyclic_stream hwf (hf true) h
  rw [hn] at e1 e2
  rw [ht] at e2
  exact ⟨e1, e2⟩

/-- A document that is one leaf. -/
theorem reads_leafE {κ : EndKind} {T E : Bytes} {y : Nat → Env → Yaml} {pc : Known} (hT : LeafOKE κ T y pc)
    (hs : (∀ p e e', y p e = y p e') ∧ pc.still) (hm : docMark T = false)
    (hp : ∀ r, T ≠ 0x25 :: r) (hf : Fits κ E) (hE : LastOK E) (hκ : ∀ w, κ ≠ .fold w := by simp) :
    Reads (T ++ E) [.mk 0 [] (y 0 .none)] := by
  have hwf : (Stream.mk none (.leaf [] T κ y pc) (.stop E) []).wf := by
    refine ⟨?_, hf, hE, rfl, ?_, hm⟩
    · rw [Blk.wfN]; exact .inl ⟨.inl rfl, hT, fun w h => absurd h (hκ w)⟩
    · intro c r he
      obtain ⟨c', r', rfl, hc, _⟩ := hT.2
      simp [Blk.text] at he
      obtain ⟨rfl, rfl⟩ := he
      exact ⟨(tokHead_ne hc).2.2.2.1, fun h => hp r' (by rw [h])⟩
  have := reads_stream hwf ⟨by simp only [Blk.still]; exact hs, trivial⟩
  simpa [Stream.text, Stream.head, Stream.values, Tail.values, Blk.text, Blk.value, Blk.node, Blk.off, Blk.tag, Blk.data, Tail.text] using this

theorem reads_leaf {κ : EndKind} {T E : Bytes} {y : Nat → Yaml} (hT : LeafOK κ T y) (hm : docMark T = false)
    (hp : ∀ r, T ≠ 0x25 :: r) (hf : Fits κ E) (hE : LastOK E) (hκ : ∀ w, κ ≠ .fold w := by simp) :
    Reads (T ++ E) [.mk 0 [] (y 0)] := reads_leafE hT.toE ⟨by simp, Known.still_none⟩ hm hp hf hE hκ

/-- Idle lines that close a scalar: the rest of its own line, empty or a comment
behind one blank, and further idle lines. -/
structure Rest (E : Bytes) : Prop where
  intro ::
  lines : E = [] ∨ ∃ nl l ls, LineBreak nl ∧ E = gapLines nl (l :: ls) ∧ (∀ x ∈ l :: ls, IdleLine x) ∧
    (l = [] ∨ ∃ r, l = 0x20 :: 0x23 :: r)

/-- The same, with nothing behind the scalar on its own line. -/
structure RestLine (E : Bytes) : Prop where
  intro ::
  lines : ∃ nl ls, LineBreak nl ∧ E = gapLines nl ([] :: ls) ∧ ∀ x ∈ ls, IdleLine x

theorem LineBreak.nlLen {nl : Bytes} (h : LineBreak nl) (r : Bytes) : nlLen (nl ++ r) ≠ 0 := by
  rw [Ne, nlLen_zero_iff]
  intro h'
  rcases h with rfl | rfl
  · exact absurd rfl (h' _ _ rfl).1
  · exact absurd rfl (h' _ _ rfl).2

theorem Rest.last {E : Bytes} (h : Rest E) : LastOK E ∧ Fits .loose E := by
  rcases h.lines with rfl | ⟨nl, l, ls, hnl, rfl, hls, hl⟩
  · exact ⟨.inl rfl, .inr rfl⟩
  · refine ⟨.inr (.inl (endGap_lines hnl (by simp) hls)), ?_⟩
    rcases hl with rfl | ⟨r, rfl⟩
    · left; exact hnl.nlLen _
    · right; rfl

theorem RestLine.last {E : Bytes} (h : RestLine E) : LastOK E ∧ nlLen E ≠ 0 := by
  obtain ⟨nl, ls, hnl, rfl, hls⟩ := h.lines
  refine ⟨.inr (.inl (endGap_lines hnl (by simp) ?_)), hnl.nlLen _⟩
  intro x hx
  simp only [List.mem_cons] at hx
  rcases hx with rfl | hx
  · exact .inl rfl
  · exact hls x hx

end YamlPeg
