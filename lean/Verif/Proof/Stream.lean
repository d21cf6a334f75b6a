import Verif.Proof.Direct
/-! # Reading a whole document and a stream of documents -/

namespace YamlPeg
open M

/-- The text behind a document, and what `doc` takes of it. -/
structure DocEnd (E X Y : Bytes) : Prop where
  app : X ++ Y = E
  stops : Stops 0 false E
  run : ∀ (k : Ctx) (L : Loader) (pre : Bytes), (do
      let _ ← lift (orDefault 0 (gap true))
      lift (orDefault () (symSeq b!"..."))
      lift forward : LM Unit) (ld L (st k pre [] E)) = (.ok (), ld L (st k (pre ++ X) [] Y))

theorem gap_of_spec {E taken left : Bytes} {t : Nat} (hg : gapSpec true E = some (t, taken, left))
    (k : Ctx) (pre mid : Bytes) :
    gap true (st k pre mid E) = (.ok t, st k pre (mid ++ taken) left) := by rw [gap_eq, hg]

theorem docEnd_none : DocEnd [] [] [] where
  app := rfl
  stops := .inl rfl
  run := fun k L pre => by
    rw [bind_ok (lift_of (orDefault_err (gap_nil ..))),
      bind_ok (lift_of (orDefault_err (symSeq_miss _ _ _ _ _ (by rfl)))), lift_of (forward_st ..)]
    simp

theorem docEnd_gap {G left : Bytes} {t : Nat} (hg : gapSpec true (G ++ left) = some (t, G, left))
    (hl : left = [] ∨ (b!"---").isPrefixOf left = true) : DocEnd (G ++ left) [] (G ++ left) where
  app := rfl
  stops := .inr ⟨t, G, left, hg, by
    rcases hl with h | h
    · exact .inl h
    · exact .inr (.inl (by simp [docMark, h]))⟩
  run := fun k L pre => by
    have hd : (b!"...").isPrefixOf left = false := by
      rcases hl with rfl | h
      · rfl
      · obtain ⟨r, rfl⟩ := List.isPrefixOf_iff_prefix.1 h
        rfl
    rw [bind_ok (lift_of (orDefault_ok (gap_of_spec hg ..))),
      bind_ok (lift_of (orDefault_err (symSeq_miss _ _ _ _ _ hd))), lift_of (forward_st ..)]
    simp

theorem docEnd_dots {G : Bytes} (hG : GapText G) (r : Bytes) :
    DocEnd (G ++ (b!"..." ++ r)) (G ++ b!"...") r where
  app := by simp
  stops := by
    obtain ⟨t, ht⟩ := hG (b!"..." ++ r) ⟨0, 0x2E, _, rfl, by decide⟩
    exact .inr ⟨t, _, _, ht, .inr (.inl rfl)⟩
  run := fun k L pre => by
    obtain ⟨t, ht⟩ := hG (b!"..." ++ r) ⟨0, 0x2E, _, rfl, by decide⟩
    rw [bind_ok (lift_of (orDefault_ok (gap_of_spec ht ..))),
      bind_ok (lift_of (orDefault_ok (symSeq_hit ..))), lift_of (forward_st ..)]
    simp

/-- The blanks in front of a document: as behind a marker, or none. -/
def StartOK (sp text : Bytes) : Prop := SepOK sp text ∨ (sp = [] ∧ ∀ r, text ≠ 0x20 :: r)

theorem start_read {sp text : Bytes} (h : StartOK sp text) (k : Ctx) (L : Loader) (pre mid : Bytes) :
    lift (context (orDefault () bound)) (ld L (st k pre mid (sp ++ text))) =
      (.ok (), ld L (st k pre (mid ++ sp) text)) := by
  apply lift_of
  rcases h with h | ⟨rfl, h⟩
  · have := context_st (k := k) (k' := k) (pre := pre) (mid := mid) (post := sp ++ text) (p' := [])
      (m' := sp) (post' := text) (o := .ok ()) (f := orDefault () bound) (by
        rw [orDefault_ok (bound_sep _ _ _ h)]; simp)
    simpa using this
  · have := context_st (k := k) (k' := k) (pre := pre) (mid := mid) (post := text) (p' := [])
      (m' := []) (post' := text) (o := .ok ()) (f := orDefault () bound) (by
        by_cases hb : headIn b!":{}[] ,\n\r" text = true
        · have : text.takeWhile isBlank = [] ∧ text.dropWhile isBlank = text := by
            cases text with
            | nil => simp [headIn] at hb
            | cons c r =>
              have hc : isBlank c = false := by
                simp [headIn] at hb
                rcases hb with rfl | rfl | rfl | rfl | rfl | rfl | rfl | rfl | rfl
                all_goals first
                  | decide
                  | exact absurd rfl (h r)
              simp [List.takeWhile, List.dropWhile, hc]
          rw [orDefault_ok (by rw [bound_eq, if_pos hb, this.1, this.2])]
          simp
        · rw [orDefault_err (by rw [bound_eq, if_neg hb])]
          simp)
    simpa using this

/-- What a document depends on at its beginning: no anchor is known. -/
def Env.doc (cyclic : Bool) (tags : List (Bytes × Bytes)) : Env := ⟨cyclic, tags, []⟩

/-- One document. -/
theorem doc_read {b : Blk} {k : Ctx} {sp E X Y : Bytes} (hwf : b.wfN 0) (hw : k.want 0 = 0)
    (hlen : b.inner ≠ [] ∨ k.indent.length ≤ 1 ∨ (b.short ∧ 0 < k.want 1)) (hf : Fits b.kind E) (hE : DocEnd E X Y)
    (hsp : StartOK sp (b.text ++ E)) :
    ∃ k', k'.at 0 = k.at 0 ∧ Kept b.calm 0 (k'.want 1) ∧ ∃ N, ∀ n, N ≤ n → ∀ L pre mid, L.docInd = L.anchors.length →
      b.fine (k.consumed + (pre ++ mid ++ sp).length) (.doc L.cyclicMode k.tag) →
      ∃ L', L'.anchors = L.anchors ++ [b.eff (k.consumed + (pre ++ mid ++ sp).length) (.doc L.cyclicMode k.tag)] ∧
      L'.docInd = L'.anchors.length ∧ L'.cyclicMode = L.cyclicMode ∧
      doc n (ld L (st k pre mid (sp ++ (b.text ++ E)))) =
        (.ok (b.node (k.consumed + (pre ++ mid ++ sp).length) (.doc L.cyclicMode k.tag)),
          ld L' (st k' (pre ++ mid ++ sp ++ b.text ++ X) [] Y)) := by
  obtain ⟨k', hk', hcw, N, hN⟩ := Blk.readN b 0 0 k E hwf hw hlen hf hE.stops
  refine ⟨k', hk', hcw, N, fun n hn L pre mid hd hfine => ?_⟩
  generalize hP : k.consumed + (pre ++ mid ++ sp).length = P at *
  let L1 : Loader := { L with anchors := L.anchors ++ [[]] }
  have hL1 : L1.Ready := by simp [Loader.Ready, L1, hd]
  have hcur : L1.cur = [] := by simp [Loader.cur, L1, hd]
  have henv : envOf L1 k = .doc L.cyclicMode k.tag := by simp only [envOf, hcur, Env.doc]; rfl
  generalize hA : b.eff P (.doc L.cyclicMode k.tag) = A
  let L2 : Loader := { L1.put A with docInd := L1.docInd + 1 }
  have hs := hN n hn L1 (pre ++ mid ++ sp) hL1 (by rw [hP, henv]; exact hfine)
  rw [hP, henv, hA] at hs
  refine ⟨L2, ?_, ?_, rfl, ?_⟩
  · simp [L2, L1, Loader.put, hd]
  · simp [L2, L1, Loader.put, hd]
  rw [doc, bind_ok (start_read hsp ..), bind_ok (lift_of (forward_st ..)), bind_ok (modify_run ..)]
  have e1 : ({ ld L (st k (pre ++ (mid ++ sp)) [] (b.text ++ E)) with
      anchors := (ld L (st k (pre ++ (mid ++ sp)) [] (b.text ++ E))).anchors ++ [[]] } : Loader) =
      ld L1 (st k (pre ++ mid ++ sp) [] (b.text ++ E)) := by simp [ld, L1]
  rw [e1, bind_ok hs]
  have hr := hE.run k' (L1.put A) (pre ++ mid ++ sp ++ b.text)
  simp only [bind_run] at hr ⊢
  revert hr
  generalize lift (orDefault 0 (gap true)) (ld (L1.put A) (st k' (pre ++ mid ++ sp ++ b.text) [] E)) = o1
  rcases o1 with ⟨o1, s1⟩
  cases o1 with
  | ok a =>
    simp only
    generalize lift (orDefault () (symSeq b!"...")) s1 = o2
    rcases o2 with ⟨o2, s2⟩
    cases o2 with
    | ok a =>
      simp only
      intro hr
      rw [hr]
      rfl
    | err e => intro hr; simp at hr
    | panic e => intro hr; simp at hr
    | diverge => intro hr; simp at hr
  | err e => intro hr; simp at hr
  | panic e => intro hr; simp at hr
  | diverge => intro hr; simp at hr

/-! ## Streams -/

/-- What follows a document: the end, or a marker and the next document. -/
inductive Tail where
  | stop (E : Bytes)
  | next (G sp : Bytes) (b : Blk) (t : Tail)

def Tail.text : Tail → Bytes
  | .stop E => E
  | .next G sp b t => G ++ (b!"---" ++ (sp ++ (b.text ++ t.text)))

/-- The documents, the text of the tail beginning at position `p`. -/
def Tail.nodes (e : Env) : Tail → Nat → List Node
  | .stop _, _ => []
  | .next G sp b t, p =>
    b.node (p + G.length + 3 + sp.length) e :: t.nodes e (p + G.length + 3 + sp.length + b.text.length)

/-- The anchors of the documents. -/
def Tail.tables (e : Env) : Tail → Nat → List Anchors
  | .stop _, _ => []
  | .next G sp b t, p =>
    b.eff (p + G.length + 3 + sp.length) e :: t.tables e (p + G.length + 3 + sp.length + b.text.length)

/-- The tags have their meaning, no anchor is bound twice, aliases are known. -/
def Tail.fine (e : Env) : Tail → Nat → Prop
  | .stop _, _ => True
  | .next G sp b t, p =>
    b.fine (p + G.length + 3 + sp.length) e ∧ t.fine e (p + G.length + 3 + sp.length + b.text.length)

/-- The end of the stream: nothing, empty and comment lines, or a document end
marker `...`. -/
def LastOK (E : Bytes) : Prop :=
  E = [] ∨ EndGap E ∨ ∃ G G2, GapText G ∧ E = G ++ (b!"..." ++ G2) ∧ (G2 = [] ∨ EndGap G2)

/-- Between two documents: empty and comment lines, with or without `...`. -/
def BetweenOK (G : Bytes) : Prop :=
  GapText G ∨ ∃ G1 G2, GapText G1 ∧ GapText G2 ∧ G = G1 ++ (b!"..." ++ G2)

/-- Well-formed further documents; `calm`: the document in front of them is calm. -/
def Tail.wf (calm : Prop) : Tail → Prop
  | .stop E => LastOK E
  | .next G sp b t => BetweenOK G ∧ SepOK sp b.text ∧ b.wfN 0 ∧ (b.inner ≠ [] ∨ (b.short ∧ calm)) ∧
      Fits b.kind t.text ∧ t.wf b.calm

theorem mark_stop (r : Bytes) : ∃ j c r', b!"---" ++ r = spaces j ++ c :: r' ∧ tokHead c = true :=
  ⟨0, 0x2D, _, rfl, by decide⟩

/-- How the tail looks to `doc`, and what the document loop does with the rest. -/
theorem Tail.docEnd {calm : Prop} {t : Tail} (h : t.wf calm) : ∃ X Y, DocEnd t.text X Y ∧
    ((∃ E, t = .stop E ∧ (Y = [] ∨ EndGap Y)) ∨
     (∃ G sp b t' G', t = .next G sp b t' ∧ GapText G' ∧ G = X ++ G' ∧
        Y = G' ++ (b!"---" ++ (sp ++ (b.text ++ t'.text))))) := by
  cases t with
  | stop E =>
    rcases h with rfl | ⟨n, hE⟩ | ⟨G, G2, hG, rfl, hG2⟩
    · exact ⟨[], [], docEnd_none, .inl ⟨_, rfl, .inl rfl⟩⟩
    · refine ⟨[], E, ?_, .inl ⟨_, rfl, .inr ⟨n, hE⟩⟩⟩
      have := docEnd_gap (G := E) (left := []) (by simpa using hE) (.inl rfl)
      simpa [Tail.text] using this
    · exact ⟨_, G2, docEnd_dots hG G2, .inl ⟨_, rfl, hG2⟩⟩
  | next G sp b t' =>
    rcases h.1 with hG | ⟨G1, G2, hG1, hG2, rfl⟩
    · obtain ⟨n, hn⟩ := hG _ (mark_stop (sp ++ (b.text ++ t'.text)))
      exact ⟨[], _, docEnd_gap hn (.inr (by simp)), .inr ⟨G, sp, b, t', G, rfl, hG, rfl, rfl⟩⟩
    · refine ⟨G1 ++ b!"...", _, ?_, .inr ⟨_, sp, b, t', G2, rfl, hG2, ?_, rfl⟩⟩
      · have := docEnd_dots hG1 (G2 ++ (b!"---" ++ (sp ++ (b.text ++ t'.text))))
        simpa [Tail.text] using this
      · simp

theorem docsLoop_read : ∀ (calm : Prop) (t : Tail) (k : Ctx) (X Y : Bytes), t.wf calm → k.want 0 = 0 →
    (calm → 0 < k.want 1) → DocEnd t.text X Y →
    ((∃ E, t = .stop E ∧ (Y = [] ∨ EndGap Y)) ∨
     (∃ G sp b t' G', t = .next G sp b t' ∧ GapText G' ∧ G = X ++ G' ∧
        Y = G' ++ (b!"---" ++ (sp ++ (b.text ++ t'.text))))) →
    ∃ N, ∀ n m, N ≤ n → N ≤ m → ∀ L pre v, L.docInd = L.anchors.length →
      t.fine (.doc L.cyclicMode k.tag) (k.consumed + pre.length) → ∃ s',
      s'.anchors = L.anchors ++ t.tables (.doc L.cyclicMode k.tag) (k.consumed + pre.length) ∧
      docsLoop n m v (ld L (st k (pre ++ X) [] Y)) =
        (.ok (v ++ t.nodes (.doc L.cyclicMode k.tag) (k.consumed + pre.length)), s')
  | calm, .stop E, k, X, Y, hwf, hw, hcalm, hE, hY => by
    rcases hY with ⟨E', he, hY⟩ | ⟨_, _, _, _, _, he, _⟩
    · refine ⟨1, fun n m hn hm L pre v hd hfine => ?_⟩
      obtain ⟨m, rfl⟩ : ∃ i, m = i + 1 := ⟨m - 1, by omega⟩
      rcases hY with rfl | ⟨t, ht⟩
      · refine ⟨ld L (st k (pre ++ X) [] []), by simp [Tail.tables], ?_⟩
        rw [docsLoop, bind_ok (lift_of (orDefault_err (gap_nil ..))), bind_ok (lift_of (food_st ..))]
        simp [Tail.nodes]
      · refine ⟨ld L (st k (pre ++ X) Y []), by simp [Tail.tables], ?_⟩
        rw [docsLoop, bind_ok (lift_of (orDefault_ok (gap_of_spec ht ..))), bind_ok (lift_of (food_st ..))]
        simp [Tail.nodes]
    · simp at he
  | calm, .next G sp b t', k, X, Y, hwf, hw, hcalm, hE, hY => by
    obtain ⟨hG, hsep, hb, hlead, hfit, ht⟩ := hwf
    rcases hY with ⟨E', he, hY⟩ | ⟨_, _, _, _, G', he, hG', hX, rfl⟩
    · simp at he
    · cases he
      obtain ⟨X', Y', hE', hY'⟩ := Tail.docEnd ht
      obtain ⟨k', hk', hcw, N1, hN1⟩ := doc_read (k := k) (sp := sp) hb hw
        (hlead.imp id fun h => .inr ⟨h.1, hcalm h.2⟩) hfit hE'
        (.inl (hsep.append t'.text))
      have hw' : k'.want 0 = 0 := (Ctx.want_of_at hk').trans hw
      have hcon : k'.consumed = k.consumed := Ctx.consumed_of_at hk'
      obtain ⟨N2, hN2⟩ := docsLoop_read b.calm t' k' X' Y' ht hw' hcw.1 hE' hY'
      have htag : k'.tag = k.tag := Ctx.tag_of_at hk'
      refine ⟨N1 + N2 + 1, fun n m hn hm L pre v hd hfine => ?_⟩
      obtain ⟨m, rfl⟩ : ∃ i, m = i + 1 := ⟨m - 1, by omega⟩
      obtain ⟨q, hq⟩ := hG' _ (mark_stop (sp ++ (b.text ++ t'.text)))
      have hlen : k.consumed + (pre ++ X ++ (G' ++ b!"---") ++ sp).length =
          k.consumed + pre.length + G.length + 3 + sp.length := by rw [hX]; simp; omega
      have hlen2 : k.consumed + (pre ++ X ++ (G' ++ b!"---") ++ sp ++ b.text).length =
          k.consumed + pre.length + G.length + 3 + sp.length + b.text.length := by rw [hX]; simp; omega
      simp only [Tail.fine] at hfine
      obtain ⟨L', hL', hdL', hcyc, hd⟩ := hN1 n (by omega) L (pre ++ X) (G' ++ b!"---") hd
        (by rw [hlen]; exact hfine.1)
      obtain ⟨s', hs', hl⟩ := hN2 n m (by omega) (by omega) L' (pre ++ X ++ (G' ++ b!"---") ++ sp ++ b.text)
        (v ++ [b.node (k.consumed + (pre ++ X ++ (G' ++ b!"---") ++ sp).length) (.doc L.cyclicMode k.tag)]) hdL'
        (by rw [hcon, hlen2, hcyc, htag]; exact hfine.2)
      rw [hcyc, htag] at hs' hl
      refine ⟨s', by
        rw [hs', hL', hcon, hlen2, hlen]; simp [Tail.tables], ?_⟩
      rw [docsLoop, bind_ok (lift_of (orDefault_ok (gap_of_spec hq ..))), bind_ok (lift_of (food_st ..))]
      have hne : (b!"---" ++ (sp ++ (b.text ++ t'.text))).isEmpty = false := by rfl
      simp only [hne, Bool.false_eq_true, if_false]
      rw [bind_ok (isOk_ok (lift_of (symSeq_hit ..)))]
      simp only [if_true, List.nil_append]
      rw [bind_ok hd, hl, hcon, List.append_assoc]
      rw [hlen, hlen2]
      rfl

/-- The initial context. -/
def Ctx.start : Ctx := ⟨[0], 0, false, (Parser.new []).tag⟩

/-- The text of directives. -/
def dirsText : List Dir → Bytes
  | [] => []
  | d :: ds => d.text ++ dirsText ds

/-- What directives do. -/
def dirsRun (k : Ctx) : List Dir → Ctx
  | [] => k
  | d :: ds => dirsRun (d.run k) ds

/-- Well-formed directives, at most one of them `%YAML`. -/
def DirsOK (ds : List Dir) : Prop := (∀ d ∈ ds, d.wf) ∧ (ds.filter Dir.isYaml).length ≤ 1

/-- A stream: the first document, perhaps behind directives and `---`, and the tail. -/
structure Stream where
  /-- the marker in front of the first document, with the blanks behind it -/
  mark : Option (Bytes × Bytes)
  first : Blk
  tail : Tail
  dirs : List Dir := []

def Stream.head (s : Stream) : Bytes :=
  match s.mark with
  | none => []
  | some (G, sp) => dirsText s.dirs ++ (G ++ (b!"---" ++ sp))

def Stream.text (s : Stream) : Bytes := s.head ++ (s.first.text ++ s.tail.text)

/-- The tag handles of the stream. -/
def Stream.tags (s : Stream) : List (Bytes × Bytes) := (dirsRun .start s.dirs).tag

def Stream.nodes (s : Stream) (cyclic : Bool) : List Node :=
  s.first.node s.head.length (.doc cyclic s.tags) ::
    s.tail.nodes (.doc cyclic s.tags) (s.head.length + s.first.text.length)

/-- The anchors of the documents. -/
def Stream.tables (s : Stream) (cyclic : Bool) : List Anchors :=
  s.first.eff s.head.length (.doc cyclic s.tags) ::
    s.tail.tables (.doc cyclic s.tags) (s.head.length + s.first.text.length)

/-- The tags have their meaning, no anchor is bound twice, aliases are known. -/
def Stream.fine (s : Stream) (cyclic : Bool) : Prop :=
  s.first.fine s.head.length (.doc cyclic s.tags) ∧
    s.tail.fine (.doc cyclic s.tags) (s.head.length + s.first.text.length)

/-- No `---` in front of the content. -/
def Blk.noMark : Blk → Prop
  | .leaf _ T _ _ _ => docMark T = false
  | _ => True

def Stream.wf (s : Stream) : Prop :=
  s.first.wfN 0 ∧ Fits s.first.kind s.tail.text ∧ s.tail.wf s.first.calm ∧
  match s.mark with
  | none => s.dirs = [] ∧ (∀ c r, s.first.text = c :: r → c ≠ 0x20 ∧ c ≠ 0x25) ∧ s.first.noMark
  | some (G, sp) => DirsOK s.dirs ∧ (G = [] ∨ (s.dirs = [] ∧ GapText G)) ∧ SepOK sp s.first.text

/-- The part of `Stream.wf` that concerns the first document. -/
def Stream.wfHead (s : Stream) : Prop :=
  s.first.wfN 0 ∧ Fits s.first.kind s.tail.text ∧
  match s.mark with
  | none => s.dirs = [] ∧ (∀ c r, s.first.text = c :: r → c ≠ 0x20 ∧ c ≠ 0x25) ∧ s.first.noMark
  | some (G, sp) => DirsOK s.dirs ∧ (G = [] ∨ (s.dirs = [] ∧ GapText G)) ∧ SepOK sp s.first.text

theorem Stream.wf.opening {s : Stream} (h : s.wf) : s.wfHead := ⟨h.1, h.2.1, h.2.2.2⟩

theorem directives_none {n : Nat} (hn : 0 < n) {post : Bytes} (h : ∀ r, post ≠ 0x25 :: r) (k : Ctx) (L : Loader)
    (mid : Bytes) : directives n (ld L (st k [] mid post)) = (.ok (), ld L (st k [] mid post)) := by
  obtain ⟨m, rfl⟩ : ∃ m, n = m + 1 := ⟨n - 1, by omega⟩
  have hd : context directive (st k [] mid post) = (.err .mismatch, st k [] mid post) := by
    have := context_st (k := k) (k' := k) (pre := []) (mid := mid) (post := post) (p' := [])
      (m' := []) (post' := post) (o := .err .mismatch) (f := directive) (by
        rw [directive, bind_err (sym_no _ _ _ _ h)]; simp)
    simpa using this
  rw [directives]
  have : lift (context directive) (ld L (st k [] mid post)) = (.err .mismatch, ld L (st k [] mid post)) :=
    lift_of hd
  simp only [this]

theorem Dir.run_checked (k : Ctx) (d : Dir) : (d.run k).versionChecked = (d.isYaml || k.versionChecked) := by
  cases d <;> simp [Dir.run, Dir.isYaml]

theorem Dir.head (d : Dir) : ∃ r, d.text = 0x25 :: r := by cases d <;> exact ⟨_, rfl⟩

/-- All directives. -/
theorem directives_read : ∀ (ds : List Dir) (k : Ctx), (∀ d ∈ ds, d.wf) →
    (ds.filter Dir.isYaml).length + (if k.versionChecked then 1 else 0) ≤ 1 → ∀ {c : UInt8} {r : Bytes},
    tokHead c = true → c ≠ 0x25 → ∀ n, ds.length < n → ∀ (L : Loader) (mid : Bytes),
    directives n (ld L (st k [] mid (dirsText ds ++ c :: r))) =
      (.ok (), ld L (st (dirsRun k ds) [] (mid ++ dirsText ds) (c :: r)))
  | [], k, _, _, c, r, hc, hp, n, hn, L, mid => by
    have := directives_none hn (post := c :: r) (by rintro _ ⟨⟩; exact hp rfl) k L mid
    simpa [dirsText, dirsRun] using this
  | d :: ds, k, hwf, hy, c, r, hc, hp, n, hn, L, mid => by
    obtain ⟨n, rfl⟩ : ∃ m, n = m + 1 := ⟨n - 1, by simp at hn; omega⟩
    have hl : ∃ j x s, dirsText ds ++ c :: r = spaces j ++ x :: s ∧ tokHead x = true := by
      cases ds with
      | nil => exact ⟨0, c, r, rfl, hc⟩
      | cons d' ds' =>
        obtain ⟨s, hs⟩ := d'.head
        exact ⟨0, 0x25, s ++ dirsText ds' ++ c :: r, by simp [dirsText, hs, spaces], by decide⟩
    have hd := directive_read (hwf d (by simp)) (k := k) (by
      intro h
      simp only [List.filter_cons, h, if_true, List.length_cons] at hy
      cases hk : k.versionChecked with
      | false => rfl
      | true => simp [hk] at hy) hl [] mid
    have ih := directives_read ds (d.run k) (fun x hx => hwf x (by simp [hx])) (by
      rw [Dir.run_checked]
      revert hy
      simp only [List.filter_cons]
      cases d.isYaml <;> cases k.versionChecked <;> simp) (c := c) (r := r) hc hp n (by simp at hn; omega) L (mid ++ d.text)
    have : lift (context directive) (ld L (st k [] mid (d.text ++ (dirsText ds ++ c :: r)))) =
        (.ok (), ld L (st (d.run k) [] (mid ++ d.text) (dirsText ds ++ c :: r))) := lift_of hd
    rw [directives, dirsText, List.append_assoc]
    simp only [this]
    rw [ih]
    simp [dirsRun]

theorem Dir.run_indent (k : Ctx) (d : Dir) : (d.run k).indent = k.indent ∧ (d.run k).consumed = k.consumed := by
  cases d <;> simp [Dir.run]

theorem dirsRun_indent : ∀ (ds : List Dir) (k : Ctx),
    (dirsRun k ds).indent = k.indent ∧ (dirsRun k ds).consumed = k.consumed
  | [], k => ⟨rfl, rfl⟩
  | d :: ds, k => by
    have := dirsRun_indent ds (d.run k)
    rw [dirsRun, this.1, this.2]
    exact d.run_indent k

theorem new_st (h : HashCfg) (doc : Bytes) : Loader.new h doc = ld (Loader.new h doc) (st .start [] [] doc) := by
  simp [ld, Loader.new, st, Parser.new, Ctx.start]

theorem Ctx.start_want : Ctx.start.want 0 = 0 := by rfl

theorem isPrefixOf_append_no {a : UInt8} : ∀ {p T E : Bytes}, (∀ x ∈ p, x = a) → p.isPrefixOf T = false →
    (∀ c r, E = c :: r → c ≠ a) → p.isPrefixOf (T ++ E) = false
  | [], _, _, _, h, _ => by simp at h
  | x :: p, [], E, hp, _, hE => by
    cases E with
    | nil => rfl
    | cons c r =>
      have := hE c r rfl
      have hx := hp x (by simp)
      subst hx
      simp [List.isPrefixOf, Ne.symm this]
  | x :: p, y :: T, E, hp, h, hE => by
    simp only [List.isPrefixOf, List.cons_append, Bool.and_eq_false_iff] at h ⊢
    rcases h with h | h
    · exact .inl h
    · exact .inr (isPrefixOf_append_no (fun z hz => hp z (by simp [hz])) h hE)

theorem Form.wf.head {f : Form} {X : Bytes} (h : f.wf X) : ∃ c r, f.text = c :: r ∧ (c = 0x26 ∨ c = 0x21) := by
  cases f with
  | anchor a sp => exact ⟨_, _, rfl, .inl rfl⟩
  | tag tg t sp => obtain ⟨⟨r, rfl⟩, _⟩ := h; exact ⟨_, _, rfl, .inr rfl⟩
  | anchorTag a sp tg t sp' => exact ⟨_, _, rfl, .inl rfl⟩
  | tagAnchor tg t sp a sp' => obtain ⟨⟨r, rfl⟩, _⟩ := h; exact ⟨_, _, rfl, .inr rfl⟩

/-- The content of a document, behind the leading gap. -/
theorem Blk.noMark_text {b : Blk} (hwf : b.wfN 0) (hm : b.noMark) {E : Bytes} (hf : Fits b.kind E)
    (hE : Stops 0 false E) :
    (∃ T, b.text ++ E = b.lead ++ T ∧ (b!"---").isPrefixOf T = false ∧
      ∃ c r, T = c :: r ∧ tokHead c = true) := by
  have pre : ∀ {T : Bytes}, docMark T = false → (b!"---").isPrefixOf T = false := by
    intro T h; simp only [docMark, Bool.or_eq_false_iff] at h; exact h.1
  cases b with
  | leaf lead T κ y pc =>
    rw [Blk.wfN] at hwf
    replace hwf := hwf.resolve_right (by simp)
    obtain ⟨c, r, rfl, h1, _⟩ := hwf.2.1.2
    refine ⟨c :: r ++ E, by simp [Blk.text, Blk.lead], ?_, c, r ++ E, rfl, h1⟩
    refine isPrefixOf_append_no (a := 0x2D) (by simp) (pre hm) ?_
    intro c r he hc
    have := hE.head c r he
    subst hc; revert this; decide
  | lit T τ s =>
    rw [Blk.wfN] at hwf
    obtain ⟨_, ⟨r, hr⟩, _⟩ := hwf
    refine ⟨T ++ E, by simp [Blk.text, Blk.lead], ?_, ?_⟩
    · rcases hr with rfl | rfl <;> rfl
    · rcases hr with rfl | rfl
      · exact ⟨_, r ++ E, rfl, by decide⟩
      · exact ⟨_, r ++ E, rfl, by decide⟩
  | seq lead τ its =>
    rw [Blk.wfN] at hwf
    have := docMark_dash (Items.sepOK hwf.2.2 hf)
    refine ⟨0x2D :: (its.sp ++ (its.body τ ++ E)), by simp [Blk.text, Blk.lead], pre this, _, _, rfl, by decide⟩
  | map lead τ es =>
    rw [Blk.wfN] at hwf
    have hk := Ents.keyOK hwf.2.2.1
    obtain ⟨c, r, he, h1, _⟩ := hk.1.2.head
    refine ⟨es.T ++ 0x3A :: (es.sp ++ (es.body τ ++ E)), by simp [Blk.text, Blk.lead],
      pre (docMark_key hk.2 _), c, r ++ 0x3A :: (es.sp ++ (es.body τ ++ E)), by rw [he]; rfl, h1⟩
  | cmap lead τ es =>
    rw [Blk.wfN] at hwf
    have hk := hwf.2.2.1.key
    obtain ⟨c, r, he, h1, _⟩ := hk.head
    refine ⟨es.K τ ++ 0x3A :: (es.sp ++ (es.body τ ++ E)), by simp [Blk.text, Blk.lead],
      pre (hk.mark _), c, r ++ 0x3A :: (es.sp ++ (es.body τ ++ E)), by rw [he]; rfl, h1⟩
  | prop f b =>
    rw [Blk.wfN] at hwf
    obtain ⟨c, r, he, hc⟩ := hwf.1.head
    refine ⟨f.text ++ (b.text ++ E), by simp [Blk.text, Blk.lead], ?_, c, r ++ (b.text ++ E), by rw [he]; rfl, ?_⟩
    · rw [he]; rcases hc with rfl | rfl <;> rfl
    · rcases hc with rfl | rfl <;> decide

theorem Blk.leadOK {b : Blk} {σ : Nat} (hwf : b.wfN σ) : LeadOK σ b.lead := by
  cases b with
  | leaf lead T κ y pc =>
    rw [Blk.wfN] at hwf
    rcases hwf with h | ⟨h, _⟩
    · exact h.1
    · exact .inl h.1
  | lit T τ s => exact .inl rfl
  | seq lead τ its => rw [Blk.wfN] at hwf; exact hwf.1
  | map lead τ es => rw [Blk.wfN] at hwf; exact hwf.1
  | cmap lead τ es => rw [Blk.wfN] at hwf; exact hwf.1
  | prop f b => exact .inl rfl

/-- The opening of a stream. -/
theorem opening_read {s : Stream} (hwf : s.wfHead) {X Y : Bytes} (hE : DocEnd s.tail.text X Y) :
    ∃ mid sp, s.head = mid ++ sp ∧ StartOK sp (s.first.text ++ s.tail.text) ∧
      ∃ N, ∀ n, N ≤ n → ∀ L, (do
        directives n
        let _ ← lift (orDefault 0 (gap true))
        lift (orDefault () (symSeq b!"---")) : LM Unit) (ld L (st .start [] [] s.text)) =
        (.ok (), ld L (st (dirsRun .start s.dirs) [] mid (sp ++ (s.first.text ++ s.tail.text)))) := by
  obtain ⟨hfirst, hfit, hm⟩ := hwf
  obtain ⟨mark, b, t, ds⟩ := s
  simp only at *
  cases mark with
  | none =>
    simp only at hm
    obtain ⟨rfl, hm⟩ := hm
    obtain ⟨T, hT, hpre, c, r, hc, htok⟩ := Blk.noMark_text hfirst hm.2 hfit hE.stops
    have hne : b.text ≠ [] := by
      intro h0
      have hEs := hE.stops
      rcases Blk.leadOK hfirst with hl | ⟨G, hG, hl⟩
      · rw [h0, hl, hc] at hT
        have := hEs.head c r (by simpa using hT)
        rw [this] at htok; simp at htok
      · cases b with
        | leaf lead T κ y pc =>
          obtain ⟨x, s, hx, _⟩ := hG.head
          simp only [Blk.lead] at hl
          simp [Blk.text, hl, hx] at h0
        | lit T τ s => rw [Blk.wfN] at hfirst; obtain ⟨_, ⟨r, hr⟩, _⟩ := hfirst; rcases hr with rfl | rfl <;> simp [Blk.text] at h0
        | seq lead τ its => simp [Blk.text] at h0
        | map lead τ es => simp [Blk.text] at h0
        | cmap lead τ es => simp [Blk.text] at h0
        | prop f b =>
          rw [Blk.wfN] at hfirst
          obtain ⟨c, r, he, _⟩ := hfirst.1.head
          simp [Blk.text, he] at h0
    obtain ⟨x, u, hxu⟩ := List.exists_cons_of_ne_nil hne
    have hx := hm.1 x u hxu
    refine ⟨[], [], rfl, .inr ⟨rfl, ?_⟩, 1, fun n hn L => ?_⟩
    · rintro r' h
      rw [hxu] at h; simp at h; exact hx.1 h.1
    · simp only [Stream.text, Stream.head, List.nil_append, dirsRun]
      rw [bind_ok (directives_none hn (by
        rintro r' h; rw [hxu] at h; simp at h; exact hx.2 h.1) .start L []), hT]
      rcases Blk.leadOK hfirst with hl | ⟨G, hG, hl⟩
      · rw [hl, List.nil_append, hc, bind_ok (lift_of (orDefault_err (gap_tok _ _ _ htok r))),
          lift_of (orDefault_err (symSeq_miss _ _ _ _ _ (by rw [← hc]; exact hpre)))]
        simp
      · have hl' : b.lead = G := by simpa [spaces] using hl
        obtain ⟨q, hq⟩ := hG T ⟨0, c, r, by simpa [spaces] using hc, htok⟩
        rw [hl', bind_ok (lift_of (orDefault_ok (gap_of_spec hq ..))),
          lift_of (orDefault_err (symSeq_miss _ _ _ _ _ hpre))]
        simp
  | some m =>
    obtain ⟨G, sp⟩ := m
    simp only at hm
    obtain ⟨hds, hG, hsep⟩ := hm
    refine ⟨dirsText ds ++ (G ++ b!"---"), sp, by simp [Stream.head], .inl (hsep.append _), ds.length + 1,
      fun n hn L => ?_⟩
    have htxt : (Stream.mk (some (G, sp)) b t ds).text =
        dirsText ds ++ (G ++ (b!"---" ++ (sp ++ (b.text ++ t.text)))) := by simp [Stream.text, Stream.head]
    rw [htxt]
    rcases hG with rfl | ⟨rfl, hG⟩
    · have := directives_read ds .start hds.1 (by have := hds.2; simpa [Ctx.start] using this) (c := 0x2D)
        (r := 0x2D :: 0x2D :: (sp ++ (b.text ++ t.text))) (by decide) (by decide) n (by omega) L []
      rw [List.nil_append]
      simp only [List.cons_append, List.nil_append] at this ⊢
      rw [bind_ok this,
        bind_ok (lift_of (orDefault_err (gap_tok _ _ _ (by decide) _)))]
      have := lift_of (L := L) (orDefault_ok (d := ()) (symSeq_hit (dirsRun .start ds) [] (dirsText ds)
        (sp ++ (b.text ++ t.text)) b!"---"))
      simpa using this
    · obtain ⟨q, hq⟩ := hG _ (mark_stop (sp ++ (b.text ++ t.text)))
      obtain ⟨c, r, rfl, hc⟩ := hG.head
      simp only [dirsText, dirsRun, List.nil_append]
      rw [bind_ok (directives_none (by omega) (by
        rintro r' h; simp at h; rw [h.1] at hc; revert hc; decide) .start L []),
        bind_ok (lift_of (orDefault_ok (gap_of_spec hq ..))), lift_of (orDefault_ok (symSeq_hit ..))]
      rfl

/-- The opening, the first document, the others. -/
theorem loaderParse_split (n : Nat) : loaderParse n = (do
      (do
        directives n
        let _ ← lift (orDefault 0 (gap true))
        lift (orDefault () (symSeq b!"---")) : LM Unit)
      let d ← doc n
      docsLoop n n [d] : LM (List Node)) := by
    funext l
    simp only [loaderParse, bind_run]
    generalize directives n l = o1
    rcases o1 with ⟨o1, s1⟩
    cases o1 <;> simp only
    generalize lift (orDefault 0 (gap true)) s1 = o2
    rcases o2 with ⟨o2, s2⟩
    cases o2 <;> simp only

/-- **Reading a stream**: every well-formed stream of block documents is read
exactly, for all sufficiently large fuel, whatever the hash seed; both by
`parse` and by `parse_cyclic`. -/
theorem loaderParse_stream {s : Stream} (hwf : s.wf) :
    ∃ N, ∀ n, N ≤ n → ∀ (L : Loader), L.docInd = L.anchors.length → s.fine L.cyclicMode →
      ∃ l', l'.anchors = L.anchors ++ s.tables L.cyclicMode ∧
      loaderParse n (ld L (st .start [] [] s.text)) = (.ok (s.nodes L.cyclicMode), l') := by
  obtain ⟨X, Y, hE, hY⟩ := Tail.docEnd hwf.2.2.1
  obtain ⟨mid, sp, hhead, hstart, N0, hopen⟩ := opening_read hwf.opening hE
  have hk0 := dirsRun_indent s.dirs .start
  have hw0 : (dirsRun .start s.dirs).want 0 = 0 := by
    have : (dirsRun .start s.dirs).want 0 = Ctx.start.want 0 := by simp only [Ctx.want, hk0.1]
    rw [this, Ctx.start_want]
  have e0 : (dirsRun .start s.dirs).consumed = 0 := hk0.2
  obtain ⟨k', hk', hcw, N1, hN1⟩ := doc_read (k := dirsRun .start s.dirs) (sp := sp) hwf.1 hw0
    (.inr (.inl (by rw [hk0.1]; simp [Ctx.start]))) hwf.2.1 hE hstart
  have hw' : k'.want 0 = 0 := (Ctx.want_of_at hk').trans hw0
  have hcon : k'.consumed = 0 := (Ctx.consumed_of_at hk').trans e0
  have htag : k'.tag = s.tags := Ctx.tag_of_at hk'
  obtain ⟨N2, hN2⟩ := docsLoop_read s.first.calm s.tail k' X Y hwf.2.2.1 hw' hcw.1 hE hY
  refine ⟨N0 + N1 + N2, fun n hn L hd hfine => ?_⟩
  have hpos : (dirsRun .start s.dirs).consumed + ([] ++ mid ++ sp).length = s.head.length := by
    rw [e0, hhead]; simp
  have hpos2 : k'.consumed + (mid ++ sp ++ s.first.text).length = s.head.length + s.first.text.length := by
    rw [hcon, hhead]; simp [Nat.add_assoc]
  obtain ⟨L', hL', hdL', hcyc, hd⟩ := hN1 n (by omega) L [] mid hd (by rw [hpos]; exact hfine.1)
  obtain ⟨s', hs', hl⟩ := hN2 n n (by omega) (by omega) L' (mid ++ sp ++ s.first.text)
    [s.first.node s.head.length (.doc L.cyclicMode s.tags)] hdL' (by
      rw [hpos2, hcyc, htag]; exact hfine.2)
  rw [hcyc, htag, hpos2] at hs' hl
  rw [hpos] at hL' hd
  have hs2 : s'.anchors = L.anchors ++ s.tables L.cyclicMode := by
    rw [hs', hL']
    simp only [Stream.tables, Stream.tags, List.append_assoc, List.singleton_append]
  refine ⟨s', hs2, ?_⟩
  have ho := hopen n (by omega) L
  rw [loaderParse_split, bind_ok ho, bind_ok hd]
  simp only [List.nil_append] at hl ⊢
  have hl' := hl
  simp only [Stream.tags] at hl'
  rw [hl']
  simp [Stream.nodes, Stream.tags]

end YamlPeg
