import Verif.Props.Layout
import Verif.Props.Text
/-!
# Directives and tags: C30, C31

`Dir` (Proof/Direct.lean) is a directive as it is written: `%YAML 1.1`, `%YAML 1.2`,
`%TAG handle prefix`, or any other line beginning with `%`, each with the line break
and the idle lines behind it; `dirsText` is the text of a list of directives.
-/

namespace YamlPeg.Props
open YamlPeg YamlPeg.M

/-! ## Running the directives in front of something else -/

theorem directives_prefix : ∀ (ds : List Dir) (k : Ctx), (∀ d ∈ ds, d.wf) →
    (ds.filter Dir.isYaml).length + (if k.versionChecked then 1 else 0) ≤ 1 → ∀ {c : UInt8} {r : Bytes},
    tokHead c = true → ∀ n (L : Loader) (mid : Bytes),
    directives (n + ds.length) (ld L (st k [] mid (dirsText ds ++ c :: r))) =
      directives n (ld L (st (dirsRun k ds) [] (mid ++ dirsText ds) (c :: r)))
  | [], k, _, _, c, r, hc, n, L, mid => by simp [dirsText, dirsRun]
  | d :: ds, k, hwf, hy, c, r, hc, n, L, mid => by
    have hl : ∃ j x s, dirsText ds ++ c :: r = spaces j ++ x :: s ∧ tokHead x = true := by
      cases ds with
      | nil => exact ⟨0, c, r, rfl, hc⟩
      | cons d' ds' =>
        obtain ⟨s, hs⟩ := d'.head
        exact ⟨0, 0x25, s ++ dirsText ds' ++ c :: r, by simp [dirsText, hs, spaces], by decide⟩
    have hd := directive_read (hwf d (by simp)) (k := k) (by
      intro h
      simp only [List.filter_cons, h, if_true, List.length_cons] at hy
      cases hk : k.versionChecked with
      | false => rfl
      | true => simp [hk] at hy) hl [] mid
    have ih := directives_prefix ds (d.run k) (fun x hx => hwf x (by simp [hx])) (by
      rw [Dir.run_checked]
      revert hy
      simp only [List.filter_cons]
      cases d.isYaml <;> cases k.versionChecked <;> simp) (c := c) (r := r) hc n L (mid ++ d.text)
    have : lift (context directive) (ld L (st k [] mid (d.text ++ (dirsText ds ++ c :: r)))) =
        (.ok (), ld L (st (d.run k) [] (mid ++ d.text) (dirsText ds ++ c :: r))) := lift_of hd
    rw [show n + (d :: ds).length = (n + ds.length) + 1 by simp; omega, directives, dirsText, List.append_assoc]
    simp only [this]
    rw [ih]
    simp [dirsRun]

theorem dirsRun_checked : ∀ (ds : List Dir) (k : Ctx),
    (dirsRun k ds).versionChecked = (k.versionChecked || (ds.any Dir.isYaml))
  | [], k => by simp [dirsRun]
  | d :: ds, k => by
    rw [dirsRun, dirsRun_checked ds, Dir.run_checked, List.any_cons]
    cases d.isYaml <;> cases k.versionChecked <;> simp

theorem errAt_st {α : Type} (name : String) (k : Ctx) (pre mid post : Bytes) (hk : k.consumed = 0) :
    ∃ m, indicatedMsg (pre ++ mid ++ post) (pre ++ mid).length = some m ∧
      (errAt name : PM α) (st k pre mid post) = (.err (.terminate name m), st k pre mid post) := by
  have hs : (indicatedMsg (pre ++ mid ++ post) (pre ++ mid).length).isSome := by
    rw [indicatedMsg_isSome]; simp
  obtain ⟨m, hm⟩ := Option.isSome_iff_exists.1 hs
  refine ⟨m, hm, ?_⟩
  have h1 : (st k pre mid post).doc = pre ++ mid ++ post := by simp [st]
  have h2 : (st k pre mid post).indicator = (pre ++ mid).length := by simp [Parser.indicator, st, hk]
  simp only [errAt, h1, h2, hm]

/-- Whatever follows the error of a directive. -/
theorem loaderParse_directive_err {n : Nat} {l l' : Loader} {e : PErr} (h : directives n l = (.err e, l')) :
    loaderParse n l = (.err e, l') := by rw [loaderParse, bind_err h]

/-- `%YAML` fails, behind any directives. -/
theorem yaml_directive_err {ds : List Dir} (hds : ∀ d ∈ ds, d.is) (hy : (ds.filter Dir.isYaml).length ≤ 1)
    {sp R : Bytes} (hsp : Blanks sp) (hR : ∀ c r, R = c :: r → isBlank c = false) {name : String}
    (hn : (ds.any Dir.isYaml = true ∧ name = "checked version") ∨
      (ds.any Dir.isYaml = false ∧ name = "invalid version" ∧ (b!"1.1").isPrefixOf R = false ∧ (b!"1.2").isPrefixOf R = false)) :
    ∃ m, indicatedMsg (dirsText ds ++ (b!"%YAML" ++ (sp ++ R))) (dirsText ds ++ (b!"%YAML" ++ sp)).length = some m ∧
      ∀ hash, Ends (fun n => parse hash n (dirsText ds ++ (b!"%YAML" ++ (sp ++ R)))) (.err (.terminate name m)) ∧
        Ends (fun n => parseCyclic hash n (dirsText ds ++ (b!"%YAML" ++ (sp ++ R)))) (.err (.terminate name m)) := by
  have hk0 := dirsRun_indent ds .start
  generalize hk : dirsRun .start ds = k at hk0
  have hcon : k.consumed = 0 := hk0.2
  have hchk : k.versionChecked = ds.any Dir.isYaml := by rw [← hk, dirsRun_checked]; rfl
  -- the directive itself
  have hdir : ∃ m, indicatedMsg (dirsText ds ++ (b!"%YAML" ++ (sp ++ R))) (dirsText ds ++ (b!"%YAML" ++ sp)).length = some m ∧
      ∃ s', context directive (st k [] (dirsText ds) (0x25 :: (b!"YAML" ++ (sp ++ R)))) = (.err (.terminate name m), s') := by
    obtain ⟨m, hm, he⟩ := errAt_st (α := Unit) name k (dirsText ds ++ [0x25]) (b!"YAML" ++ sp) R hcon
    refine ⟨m, by simpa [List.append_assoc] using hm, ?_⟩
    refine ⟨_, context_st (k' := k) (o := .err (.terminate name m)) (p' := []) (m' := 0x25 :: (b!"YAML" ++ sp)) (post' := R) ?_⟩
    simp only [List.nil_append, List.append_nil]
    rw [directive, bind_ok (sym_hit ..)]
    have hc := context_st (f := (do
        if ← isOk (symSeq b!"YAML") then directiveYaml
        else if ← isOk (symSeq b!"TAG") then directiveTag
        else takeWhile (notIn b!"\n\r") (.more 0) : PM Unit)) (k := k) (k' := k) (pre := dirsText ds) (mid := [0x25])
        (post := b!"YAML" ++ (sp ++ R)) (o := .err (.terminate name m)) (p' := []) (m' := b!"YAML" ++ sp) (post' := R) (by
      rw [bind_ok (isOk_ok (symSeq_hit ..))]
      simp only [if_true, List.nil_append, List.append_nil]
      rw [directiveYaml, bind_ok (ws1_read hsp hR ..), bind_ok (get_run _)]
      have hv : (st k (dirsText ds ++ [0x25]) (b!"YAML" ++ sp) R).versionChecked = ds.any Dir.isYaml := hchk
      rcases hn with ⟨h1, rfl⟩ | ⟨h1, rfl, h2, h3⟩
      · rw [h1] at hv
        simp only [hv, if_true]
        exact he
      · rw [h1] at hv
        simp only [hv, Bool.false_eq_true, if_false]
        rw [bind_ok (a := false) (s' := st k (dirsText ds ++ [0x25]) (b!"YAML" ++ sp) R)]
        · simpa using he
        · have := context_st (f := (do
              if ← isOk (symSeq b!"1.1") then pure true else isOk (symSeq b!"1.2") : PM Bool)) (k := k) (k' := k)
              (pre := dirsText ds ++ [0x25]) (mid := b!"YAML" ++ sp) (post := R) (o := .ok false) (p' := []) (m' := [])
              (post' := R) (by
            rw [bind_ok (isOk_err (symSeq_miss _ _ _ _ _ h2))]
            simp only [Bool.false_eq_true, if_false, List.nil_append, List.append_nil]
            rw [isOk_err (symSeq_miss _ _ _ _ _ h3)]; simp)
          simpa using this)
    rw [bind_err (by simpa using hc)]
    simp
  obtain ⟨m, hm, s', hs'⟩ := hdir
  refine ⟨m, hm, fun hash => ?_⟩
  have run : ∀ n, ds.length + 1 ≤ n → ∀ L : Loader, ∃ l',
      loaderParse n (ld L (st .start [] [] (dirsText ds ++ (b!"%YAML" ++ (sp ++ R))))) = (.err (.terminate name m), l') := by
    intro n hn' L
    obtain ⟨i, rfl⟩ : ∃ i, n = (i + 1) + ds.length := ⟨n - ds.length - 1, by omega⟩
    have h1 := directives_prefix ds .start (fun d hd => (hds d hd).wf) (by simpa [Ctx.start] using hy) (c := 0x25)
      (r := b!"YAML" ++ (sp ++ R)) (by decide) (i + 1) L []
    rw [List.nil_append, hk, directives] at h1
    have h2 : lift (context directive) (ld L (st k [] (dirsText ds) (0x25 :: (b!"YAML" ++ (sp ++ R))))) =
        (.err (.terminate name m), ld L s') := lift_of hs'
    simp only [h2] at h1
    exact ⟨_, loaderParse_directive_err h1⟩
  constructor
  · refine ⟨by simp, ds.length + 1, fun n hn' => ?_⟩
    obtain ⟨l', h⟩ := run n hn' (Loader.new hash (dirsText ds ++ (b!"%YAML" ++ (sp ++ R))))
    rw [← new_st] at h
    simp only [parse, h]
  · refine ⟨by simp, ds.length + 1, fun n hn' => ?_⟩
    obtain ⟨l', h⟩ := run n hn' { Loader.new hash (dirsText ds ++ (b!"%YAML" ++ (sp ++ R))) with cyclicMode := true }
    have e : ld { Loader.new hash (dirsText ds ++ (b!"%YAML" ++ (sp ++ R))) with cyclicMode := true }
        (st .start [] [] (dirsText ds ++ (b!"%YAML" ++ (sp ++ R)))) =
        { Loader.new hash (dirsText ds ++ (b!"%YAML" ++ (sp ++ R))) with cyclicMode := true } := by
      simp [ld, Loader.new, st, Parser.new, Ctx.start]
    rw [e] at h
    simp only [parseCyclic, h, Out.map]

/-! ## C30 -/

/-- **C30.** A second `%YAML` directive is an error, whatever directives stand between the
two, whatever version it names and whatever follows; the error points behind its blanks. -/
theorem C30_second_version (ds : List Dir) (hds : ∀ d ∈ ds, d.is) (hy : (ds.filter Dir.isYaml).length = 1)
    (sp R : Bytes) (hsp : Blanks sp) (hR : ∀ c r, R = c :: r → isBlank c = false) :
    ∃ m, indicatedMsg (dirsText ds ++ (b!"%YAML" ++ (sp ++ R))) (dirsText ds ++ (b!"%YAML" ++ sp)).length = some m ∧
      ∀ hash, Ends (fun n => parse hash n (dirsText ds ++ (b!"%YAML" ++ (sp ++ R)))) (.err (.terminate "checked version" m)) ∧
        Ends (fun n => parseCyclic hash n (dirsText ds ++ (b!"%YAML" ++ (sp ++ R))))
          (.err (.terminate "checked version" m)) := by
  refine yaml_directive_err hds (Nat.le_of_eq hy) hsp hR (.inl ⟨?_, rfl⟩)
  rw [List.any_eq_true]
  obtain ⟨d, hd⟩ := List.exists_mem_of_ne_nil (ds.filter Dir.isYaml) (by intro h; rw [h] at hy; simp at hy)
  exact ⟨d, (List.mem_filter.1 hd).1, (List.mem_filter.1 hd).2⟩

/-- **C30, partial.** A version that does not begin with `1.1` or `1.2` is an error, whatever
other directives stand in front and whatever follows.  Missing: versions like `1.20`, which
are not reported (`C30_counterexample_version`). -/
theorem C30_bad_version_partial (ds : List Dir) (hds : ∀ d ∈ ds, d.is) (hy : ∀ d ∈ ds, d.isYaml = false)
    (sp R : Bytes) (hsp : Blanks sp) (hR : ∀ c r, R = c :: r → isBlank c = false)
    (h1 : (b!"1.1").isPrefixOf R = false) (h2 : (b!"1.2").isPrefixOf R = false) :
    ∃ m, indicatedMsg (dirsText ds ++ (b!"%YAML" ++ (sp ++ R))) (dirsText ds ++ (b!"%YAML" ++ sp)).length = some m ∧
      ∀ hash, Ends (fun n => parse hash n (dirsText ds ++ (b!"%YAML" ++ (sp ++ R)))) (.err (.terminate "invalid version" m)) ∧
        Ends (fun n => parseCyclic hash n (dirsText ds ++ (b!"%YAML" ++ (sp ++ R))))
          (.err (.terminate "invalid version" m)) := by
  have hf : ds.filter Dir.isYaml = [] := by simpa [List.filter_eq_nil_iff] using hy
  refine yaml_directive_err hds (by simp [hf]) hsp hR (.inr ⟨?_, rfl, h1, h2⟩)
  rw [Bool.eq_false_iff]
  intro h
  obtain ⟨d, hd, h⟩ := List.any_eq_true.1 h
  rw [hy d hd] at h; simp at h

/-- A directive line `%…` with a line feed. -/
theorem idle_lf : IdleLines b!"\n" := ⟨[0x0A], [[]], .inl rfl, by simp, by simp [IdleLine], rfl⟩

/-- The document `T` behind directives. -/
theorem directives_doc {ds : List Dir} (hds : ∀ d ∈ ds, d.is) (hy : (ds.filter Dir.isYaml).length ≤ 1) {T : Bytes} {y : Yaml}
    (hT : Writes T y) : Reads (dirsText ds ++ (b!"--- " ++ (T ++ b!"\n"))) [.mk ((dirsText ds).length + 4) [] y] := by
  obtain ⟨κ, hκ⟩ := hT
  have hl : LeafIs κ T (fun _ _ => y) .none := .inl ⟨_, hκ, rfl, rfl⟩
  have := C52_layout_still (s := ⟨some ([], b!" "), .leaf [] T κ (fun _ _ => y) .none, .stop b!"\n", ds⟩)
    ⟨by simp only [Blk.okN]; exact .inl ⟨.inl trivial, .inl hl⟩,
      .inr (.inl (by simp only [Blk.kind]; exact after_lf (hl.kind.imp id fun h => .inl h))), hds, hy, .inl rfl, sep_space _⟩
    ⟨by simp [Blk.still], trivial⟩
  simpa [Stream.text, Stream.head, Stream.values, Tail.values, Blk.value, Blk.node, Blk.off, Blk.tag, Blk.data, Blk.text,
    Tail.text] using this

/-- **C30.** At most one `%YAML 1.1` or `%YAML 1.2`, with `%TAG` directives and unknown
directives around it, does not change the document behind `---`. -/
theorem C30_accepted (ds : List Dir) (hds : ∀ d ∈ ds, d.is) (hy : (ds.filter Dir.isYaml).length ≤ 1) (T : Bytes) (y : Yaml)
    (hT : Writes T y) : Reads (dirsText ds ++ (b!"--- " ++ (T ++ b!"\n"))) [.mk ((dirsText ds).length + 4) [] y] :=
  directives_doc hds hy hT

/-- **C30.** Unknown directives are ignored: any lines that begin with `%`, but not with
`%YAML` or `%TAG`. -/
theorem C30_unknown_ignored (ts : List Bytes) (hts : ∀ t ∈ ts, (∀ c ∈ t, c ∉ b!"\n\r") ∧
    (b!"YAML").isPrefixOf t = false ∧ (b!"TAG").isPrefixOf t = false) (T : Bytes) (y : Yaml) (hT : Writes T y) :
    ∃ p, Reads (ts.flatMap (fun t => b!"%" ++ t ++ b!"\n") ++ b!"--- " ++ T ++ b!"\n") [.mk p [] y] := by
  have := directives_doc (ds := ts.map fun t => .other t b!"\n") (by
    intro d hd
    obtain ⟨t, ht, rfl⟩ := List.mem_map.1 hd
    obtain ⟨h1, h2, h3⟩ := hts t ht
    exact ⟨h1, h2, h3, idle_lf, rfl⟩) (by
    have : (ts.map fun t => Dir.other t b!"\n").filter Dir.isYaml = [] := by simp [List.filter_eq_nil_iff, Dir.isYaml]
    simp [this]) hT
  have e : dirsText (ts.map fun t => .other t b!"\n") = ts.flatMap (fun t => b!"%" ++ t ++ b!"\n") := by
    clear this hts
    induction ts with
    | nil => rfl
    | cons t ts ih => rw [List.map_cons, dirsText, ih]; simp [Dir.text]
  rw [e] at this
  exact ⟨_, by simpa using this⟩

example : ∃ p, Reads b!"%FOO bar\n%\n%TA\n--- x\n" [.mk p [] (.str b!"x")] :=
  C30_unknown_ignored [b!"FOO bar", [], b!"TA"] (by decide) b!"x" _ (writes_word (by decide) (by decide))

/-- The hypotheses of `C30_second_version` are met. -/
example : ∃ m, ∀ hash, Ends (fun n => parse hash n b!"%YAML 1.2\n%X\n%YAML 1.1\n---\na\n") (.err (.terminate "checked version" m)) := by
  obtain ⟨m, _, h⟩ := C30_second_version [.yaml b!" " false b!"\n", .other b!"X" b!"\n"] (by
      simp only [List.mem_cons, List.not_mem_nil, or_false]
      rintro d (rfl | rfl)
      · exact ⟨⟨by simp, by decide⟩, idle_lf⟩
      · exact ⟨by decide, rfl, rfl, idle_lf, rfl⟩) rfl b!" " b!"1.1\n---\na\n" ⟨by simp, by decide⟩ (by rintro _ _ ⟨⟩; decide)
  exact ⟨m, fun hash => (h hash).1⟩

example : ∃ m, ∀ hash, Ends (fun n => parse hash n b!"%YAML 3.0\n--- a\n") (.err (.terminate "invalid version" m)) := by
  obtain ⟨m, _, h⟩ := C30_bad_version_partial [] (by simp) (by simp) b!" " b!"3.0\n--- a\n" ⟨by simp, by decide⟩
    (by rintro _ _ ⟨⟩; decide) rfl rfl
  exact ⟨m, fun hash => (h hash).1⟩

/-- **C30, counterexample.** The version `1.20` is not reported: the directive becomes a document. -/
theorem C30_counterexample_version : Ends (fun n => parse .exact n b!"%YAML 1.20\n---\na\n")
    (.ok [.mk 0 [] (.str b!"%YAML 1.20"), .mk 14 [] (.str b!"a")]) :=
  parse_returns_of (n := 40) (by decide +kernel) (by simp)

/-- **C30, counterexample.** A second `%YAML` behind a document end marker is refused as well, although it
belongs to another document. -/
theorem C30_counterexample_second_document : Ends (fun n => parse .exact n b!"%YAML 1.2\n--- a\n...\n%YAML 1.2\n--- b\n")
    (.err (.terminate "document splitter"
      ((indicatedMsg b!"%YAML 1.2\n--- a\n...\n%YAML 1.2\n--- b\n" 19).getD []))) :=
  parse_returns_of (n := 40) (by decide +kernel) (by simp)

end YamlPeg.Props
