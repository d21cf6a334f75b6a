import Verif.Proof.LineEnds
import Verif.Props.Shift
/-!
# Line endings: C78 (`\r\n`), C79 (`\r`)
-/

namespace YamlPeg.Props
open YamlPeg M

/-- Two outcomes, for `D` and for `D'`, that are the same up to places: `f` turns the values for `D'` into
those for `D`; errors have the same kind and name, and their messages are those for a place `p` of `D'` and
the place `place p` of `D`. -/
def Alike {α : Type} (D D' : Bytes) (place : Nat → Nat) (f : α → α) : Out α → Out α → Prop
  | .ok v, .ok v' => v = f v'
  | .err .mismatch, .err .mismatch => True
  | .err (.terminate name m), .err (.terminate name' m') => name = name' ∧
      ∃ p ≤ D'.length, indicatedMsg D (place p) = some m ∧ indicatedMsg D' p = some m'
  | .panic q, .panic q' => q = q'
  | .diverge, .diverge => True
  | _, _ => False

/-- All positions in the documents mapped. -/
def mapRoots (f : Nat → Nat) (v : List Node) : List Node := v.map (Node.mapPos f)

/-- The same for documents and their anchors. -/
def mapAll (f : Nat → Nat) (v : List Node × List Anchors) : List Node × List Anchors := (mapRoots f v.1, v.2.map (mapPosAnchors f))

theorem alike_of {e D : Bytes} : ∀ {r r' : Out (List Node)}, OutRel (SameSpot e D) (NsR id (placeOf e D)) r r' →
    Alike D (withBreaks e D) (placeOf e D) (mapRoots (placeOf e D)) r r'
  | .ok v, .ok v', h => by
    have : v.map (Node.mapPos id) = v'.map (Node.mapPos (placeOf e D)) := h
    rw [roots_id] at this
    exact this
  | .err .mismatch, .err .mismatch, _ => trivial
  | .err (.terminate _ _), .err (.terminate _ _), h => h
  | .err .mismatch, .err (.terminate _ _), h => h
  | .err (.terminate _ _), .err .mismatch, h => h
  | .panic p, .panic q, h => h
  | .diverge, .diverge, _ => trivial
  | .ok _, .err _, h | .ok _, .panic _, h | .ok _, .diverge, h => h.elim
  | .err e, .ok _, h | .err e, .panic _, h | .err e, .diverge, h => by cases e <;> exact h.elim
  | .panic _, .ok _, h | .panic _, .err _, h | .panic _, .diverge, h => h.elim
  | .diverge, .ok _, h | .diverge, .err _, h | .diverge, .panic _, h => h.elim

theorem alike_map {D D' : Bytes} {f : Nat → Nat} {a a' : List Anchors} (ha : a = a'.map (mapPosAnchors f)) :
    ∀ {r r' : Out (List Node)}, Alike D D' f (mapRoots f) r r' →
    Alike D D' f (mapAll f) (r.map fun v => (v, a)) (r'.map fun v => (v, a'))
  | .ok v, .ok v', h => by
    have : v = mapRoots f v' := h
    change (v, a) = _
    rw [this, ha]; rfl
  | .err .mismatch, .err .mismatch, _ => trivial
  | .err (.terminate _ _), .err (.terminate _ _), h => h
  | .err .mismatch, .err (.terminate _ _), h => h
  | .err (.terminate _ _), .err .mismatch, h => h
  | .panic _, .panic _, h => h
  | .diverge, .diverge, _ => trivial
  | .ok _, .err _, h | .ok _, .panic _, h | .ok _, .diverge, h => h.elim
  | .err e, .ok _, h | .err e, .panic _, h | .err e, .diverge, h => by cases e <;> exact h.elim
  | .panic _, .ok _, h | .panic _, .err _, h | .panic _, .diverge, h => h.elim
  | .diverge, .ok _, h | .diverge, .err _, h | .diverge, .panic _, h => h.elim

theorem breaks_related (h : HashCfg) (cyc : Bool) (e D : Bytes) :
    LR (brk e D true D.length (withBreaks e D).length) id (placeOf e D) { Loader.new h D with cyclicMode := cyc }
      { Loader.new h (withBreaks e D) with cyclicMode := cyc } := by
  refine ⟨?_, rfl, rfl, rfl, rfl⟩
  have hn : ∀ D : Bytes, Parser.new D = st .start [] [] D := fun D => by simp [st, Parser.new, Ctx.start]
  exact ⟨.start, [], [], D, [], [], withBreaks e D, hn _, hn _, rfl, rfl, rfl, .reg, .reg, Nat.le_refl _, Nat.le_refl _⟩

theorem breaks_parse {e D : Bytes} (he : Ending e) (hD : (0x0D : UInt8) ∉ D) (hT : e = [0x0D] ∨ NoBlankLines D) (h : HashCfg) (n : Nat) :
    Alike D (withBreaks e D) (placeOf e D) (mapRoots (placeOf e D)) (parse h n D) (parse h n (withBreaks e D)) := by
  rcases (le_base he hD hT).loaderParse n _ _ (breaks_related h false e D) with hp | ⟨h1, -⟩
  · exact (parse_not_underflow hp).elim
  · exact alike_of h1

theorem breaks_parseCyclic {e D : Bytes} (he : Ending e) (hD : (0x0D : UInt8) ∉ D) (hT : e = [0x0D] ∨ NoBlankLines D) (h : HashCfg) (n : Nat) :
    Alike D (withBreaks e D) (placeOf e D) (mapAll (placeOf e D)) (parseCyclic h n D) (parseCyclic h n (withBreaks e D)) := by
  rcases (le_base he hD hT).loaderParse n _ _ (breaks_related h true e D) with hp | ⟨h1, h2⟩
  · exact (parseCyclic_not_underflow hp).elim
  · exact alike_map (by have := h2.anchors; rw [anchors_id] at this; exact this) (alike_of h1)

theorem placeOf_crlf (D : Bytes) : placeOf [0x0D, 0x0A] D = lfPlace D := by
  funext p
  simp [placeOf, lfPlace, crlf]

theorem placeOf_cr (D : Bytes) : placeOf [0x0D] D = id := by
  funext p
  simp [placeOf]

/-- **C78.** A text in which white space lines are empty reads the same with `\r\n` line endings: the same
documents, the positions being those without the carriage returns. -/
theorem C78_crlf (h : HashCfg) (n : Nat) {D : Bytes} (hD : (0x0D : UInt8) ∉ D) (hT : NoBlankLines D) :
    Alike D (crlf D) (lfPlace D) (mapRoots (lfPlace D)) (parse h n D) (parse h n (crlf D)) := by
  have := breaks_parse (.inr rfl) hD (.inr hT) h n
  rwa [placeOf_crlf] at this

/-- **C78.** With the anchors. -/
theorem C78_crlf_cyclic (h : HashCfg) (n : Nat) {D : Bytes} (hD : (0x0D : UInt8) ∉ D) (hT : NoBlankLines D) :
    Alike D (crlf D) (lfPlace D) (mapAll (lfPlace D)) (parseCyclic h n D) (parseCyclic h n (crlf D)) := by
  have := breaks_parseCyclic (.inr rfl) hD (.inr hT) h n
  rwa [placeOf_crlf] at this

/-- **C79.** Any text reads the same with lone carriage returns as line endings, positions included. -/
theorem C79_cr (h : HashCfg) (n : Nat) {D : Bytes} (hD : (0x0D : UInt8) ∉ D) :
    Alike D (crOnly D) id id (parse h n D) (parse h n (crOnly D)) := by
  have := breaks_parse (.inl rfl) hD (.inl rfl) h n
  rw [placeOf_cr, show mapRoots id = id from funext roots_id] at this
  exact this

/-- **C79.** With the anchors. -/
theorem C79_cr_cyclic (h : HashCfg) (n : Nat) {D : Bytes} (hD : (0x0D : UInt8) ∉ D) :
    Alike D (crOnly D) id id (parseCyclic h n D) (parseCyclic h n (crOnly D)) := by
  have := breaks_parseCyclic (.inl rfl) hD (.inl rfl) h n
  rw [placeOf_cr, show mapAll id = id from funext fun v => by simp only [mapAll, mapRoots, roots_id, anchors_id]; rfl] at this
  exact this

/-! ## Messages -/

/-- Where the first `p` bytes of `crlf D` end in `D`. -/
theorem crlf_take : ∀ {D : Bytes}, (0x0D : UInt8) ∉ D → ∀ {p : Nat}, p ≤ (crlf D).length → ∃ A B, D = A ++ B ∧
    ((crlf D).take p = crlf A ∨ ((crlf D).take p = crlf A ++ [0x0D] ∧ ∃ c, B = 0x0A :: c))
  | [], _, p, _ => ⟨[], [], rfl, .inl (by simp [crlf, withBreaks])⟩
  | c :: r, hD, p, hp => by
    have hr : (0x0D : UInt8) ∉ r := fun h => hD (by simp [h])
    by_cases hc : c = 0x0A
    · subst hc
      have hx : crlf (0x0A :: r) = 0x0D :: 0x0A :: crlf r := wb_nl r
      rw [hx] at hp ⊢
      rcases p with _ | _ | p
      · exact ⟨[], _, rfl, .inl (by simp [crlf, withBreaks])⟩
      · exact ⟨[], _, rfl, .inr ⟨by simp [crlf, withBreaks], r, rfl⟩⟩
      · obtain ⟨A, B, rfl, h⟩ := crlf_take hr (p := p) (by simpa using hp)
        refine ⟨0x0A :: A, B, rfl, ?_⟩
        rw [show crlf (0x0A :: A) = 0x0D :: 0x0A :: crlf A from wb_nl A]
        rcases h with h | ⟨h, h2⟩
        · exact .inl (by simp only [List.take_succ_cons]; rw [h])
        · exact .inr ⟨by simp only [List.take_succ_cons]; rw [h]; rfl, h2⟩
    · have hx : ∀ r, crlf (c :: r) = c :: crlf r := fun r => wb_cons hc r
      rw [hx] at hp ⊢
      rcases p with _ | p
      · exact ⟨[], _, rfl, .inl (by simp [crlf, withBreaks])⟩
      · obtain ⟨A, B, rfl, h⟩ := crlf_take hr (p := p) (by simpa using hp)
        refine ⟨c :: A, B, rfl, ?_⟩
        rw [hx A]
        rcases h with h | ⟨h, h2⟩
        · exact .inl (by simp only [List.take_succ_cons]; rw [h])
        · exact .inr ⟨by simp only [List.take_succ_cons]; rw [h]; rfl, h2⟩

theorem crlf_count_nl : ∀ A : Bytes, (crlf A).count 0x0A = A.count 0x0A
  | [] => rfl
  | c :: r => by
    by_cases hc : c = 0x0A
    · subst hc
      rw [show crlf (0x0A :: r) = 0x0D :: 0x0A :: crlf r from wb_nl r, List.count_cons_of_ne (by decide), List.count_cons_self,
        List.count_cons_self, crlf_count_nl r]
    · rw [show crlf (c :: r) = c :: crlf r from wb_cons hc r, List.count_cons_of_ne hc, List.count_cons_of_ne hc, crlf_count_nl r]

theorem crlf_lastLine (A : Bytes) : ∀ R : Bytes, R.reverse = A → (crlf A).reverse.takeWhile notNl = A.reverse.takeWhile notNl
  | [], h => by subst h; rfl
  | c :: R, h => by
    subst h
    have ih := crlf_lastLine R.reverse R rfl
    rw [List.reverse_cons, show crlf (R.reverse ++ [c]) = crlf R.reverse ++ crlf [c] from wb_append _ _ _]
    by_cases hc : c = 0x0A
    · subst hc
      rw [show crlf [0x0A] = [0x0D, 0x0A] from rfl]
      simp [notNl]
    · rw [show crlf [c] = [c] from wb_cons hc []]
      simp only [List.reverse_append, List.reverse_cons, List.reverse_nil, List.nil_append, List.cons_append]
      rw [List.takeWhile_cons_of_pos (by simpa [notNl] using hc), List.takeWhile_cons_of_pos (by simpa [notNl] using hc), ih]

/-- **C78.** A place of `crlf D` and its place in `D` are in the same line, at the same column; just behind a
carriage return the column is one more. -/
theorem C78_same_line_and_column {D : Bytes} (hD : (0x0D : UInt8) ∉ D) {p : Nat} (hp : p ≤ (crlf D).length) :
    lfPlace D p ≤ D.length ∧ lineNo (crlf D) p = lineNo D (lfPlace D p) ∧
      colNo (crlf D) p = colNo D (lfPlace D p) + (if ((crlf D).take p).getLast? = some 0x0D then 1 else 0) := by
  obtain ⟨A, B, rfl, h⟩ := crlf_take hD hp
  have hA : (0x0D : UInt8) ∉ A := fun h => hD (by simp [h])
  have hl := wb_crlf_length hA
  have lp : p = ((crlf (A ++ B)).take p).length := by rw [List.length_take]; omega
  have lf : lfPlace (A ++ B) p = A.length := by
    unfold lfPlace
    rcases h with h | ⟨h, -⟩
    · rw [h] at lp ⊢
      rw [crlf] at lp ⊢; omega
    · rw [h, List.length_append] at lp
      rw [h, List.count_append, crlf]
      rw [crlf] at lp
      simp only [List.length_singleton, List.count_singleton_self] at *
      omega
  have hlast : (crlf A).getLast? ≠ some 0x0D := by
    intro h
    obtain ⟨ys, hy⟩ := List.getLast?_eq_some_iff.1 h
    have : ∀ A : Bytes, (0x0D : UInt8) ∉ A → ∀ ys, crlf A ≠ ys ++ [0x0D] := by
      intro A
      induction A with
      | nil => intro _ ys h; simp [crlf, withBreaks] at h
      | cons c r ih =>
        intro hr ys h
        have hc : c ≠ 0x0D := fun h => hr (by simp [h])
        have hr : (0x0D : UInt8) ∉ r := fun h => hr (by simp [h])
        have done : ∀ ys, crlf r ≠ ys ++ [0x0D] := ih hr
        by_cases hn : c = 0x0A
        · subst hn
          rw [show crlf (0x0A :: r) = 0x0D :: 0x0A :: crlf r from wb_nl r] at h
          match ys, h with
          | [], h => simp at h
          | [_], h => simp only [List.cons_append, List.nil_append, List.cons.injEq] at h; exact absurd h.2.1 (by decide)
          | _ :: _ :: ys, h =>
            simp only [List.cons_append, List.cons.injEq] at h
            exact done ys h.2.2
        · rw [show crlf (c :: r) = c :: crlf r from wb_cons hn r] at h
          match ys, h with
          | [], h => simp only [List.nil_append, List.cons.injEq] at h; exact hc h.1
          | _ :: ys, h =>
            simp only [List.cons_append, List.cons.injEq] at h
            exact done ys h.2
    exact this A hA ys hy
  rw [lf]
  simp only [lineNo, colNo, lineBefore, List.take_left]
  refine ⟨by simp, ?_, ?_⟩
  · rcases h with h | ⟨h, -⟩
    · rw [h, crlf_count_nl]
    · rw [h, List.count_append, crlf_count_nl]; simp
  · rcases h with h | ⟨h, -⟩
    · rw [h, crlf_lastLine A A.reverse (List.reverse_reverse _), if_neg hlast]
    · rw [h]
      simp only [List.reverse_append, List.reverse_cons, List.reverse_nil, List.nil_append, List.cons_append]
      rw [List.takeWhile_cons_of_pos (by decide), crlf_lastLine A A.reverse (List.reverse_reverse _)]
      simp

theorem crOnly_no_nl : ∀ D : Bytes, (0x0A : UInt8) ∉ crOnly D
  | [] => by simp [crOnly, withBreaks]
  | c :: r => by
    have ih := crOnly_no_nl r
    rw [crOnly] at ih ⊢
    by_cases hc : c = 0x0A
    · subst hc
      rw [wb_nl]; simp [ih]
    · rw [wb_cons hc]; simp [ih, Ne.symm hc]

/-- **C79.** Messages do not count lone carriage returns: every place of `crOnly D` is in line 1, at the
column of its byte offset. -/
theorem C79_counterexample_messages (D : Bytes) {p : Nat} (hp : p ≤ (crOnly D).length) :
    lineNo (crOnly D) p = 1 ∧ colNo (crOnly D) p = p + 1 := by
  have h0 : (0x0A : UInt8) ∉ (crOnly D).take p := fun h => crOnly_no_nl D (List.mem_of_mem_take h)
  refine ⟨by simp [lineNo, List.count_eq_zero.2 h0], ?_⟩
  have : ((crOnly D).take p).reverse.takeWhile notNl = ((crOnly D).take p).reverse := by
    have := (YamlPeg.takeWhile_all (f := notNl) (d := ((crOnly D).take p).reverse) (by
      intro x hx
      have : x ≠ 0x0A := by rintro rfl; exact h0 (by simpa using hx)
      simpa [notNl] using this) [] (by rintro x r ⟨⟩)).1
    simpa using this
  simp only [colNo, lineBefore, this, List.reverse_reverse, List.length_take]
  omega

/-! ## Cases -/

/-- Checks `NoBlankLines`: in the line so far there is nothing (0), white space (1), more (2). -/
def checkLines : Nat → Bytes → Bool
  | _, [] => true
  | s, c :: r =>
    if c = 0x0A then s != 1 && checkLines 0 r
    else if c = 0x20 ∨ c = 0x09 ∨ c = 0x0C then checkLines (if s = 2 then 2 else 1) r
    else checkLines 2 r

theorem checkLines_nl {a x : Bytes} : ∀ {s : Nat}, checkLines s (a ++ 0x0A :: x) = true → checkLines 0 x = true := by
  induction a with
  | nil => intro s h; simp only [List.nil_append, checkLines, if_true, Bool.and_eq_true] at h; exact h.2
  | cons c r ih =>
    intro s h
    simp only [List.cons_append, checkLines] at h
    split at h
    · simp only [Bool.and_eq_true] at h; exact ih h.2
    · split at h <;> exact ih h

theorem checkLines_ws {w c : Bytes} (hw : ∀ x ∈ w, (x = 0x20 ∨ x = 0x09 ∨ x = 0x0C)) : checkLines 1 (w ++ 0x0A :: c) = false := by
  induction w with
  | nil => simp [checkLines]
  | cons x r ih =>
    have hx := hw x (by simp)
    have hx2 : x ≠ 0x0A := by rcases hx with rfl | rfl | rfl <;> decide
    simp only [List.cons_append, checkLines, if_neg hx2, if_pos hx]
    exact ih fun y hy => hw y (by simp [hy])

theorem noBlankLines_of {D : Bytes} (h : checkLines 0 D = true) : NoBlankLines D := by
  rintro a w c rfl ha hw
  have h1 : checkLines 0 (w ++ 0x0A :: c) = true := by
    rcases ha with rfl | ⟨a0, rfl⟩
    · exact h
    · exact checkLines_nl (a := a0) (by simpa using h)
  cases w with
  | nil => rfl
  | cons x r =>
    have hx := hw x (by simp)
    have hx2 : x ≠ 0x0A := by rcases hx with rfl | rfl | rfl <;> decide
    simp only [List.cons_append, checkLines, if_neg hx2, if_pos hx] at h1
    have := checkLines_ws (c := c) fun y hy => hw y (List.mem_cons_of_mem x hy)
    simp [this] at h1

/-- A text that meets the hypotheses, with empty lines, a block scalar, nested collections and a comment. -/
def sampleText : Bytes := b!"a: |\n  x\n\n  y\nb:\n\n  # c\n  - [1,\n    2]\n  - &k z\n"

example : (0x0D : UInt8) ∉ sampleText ∧ NoBlankLines sampleText := ⟨by decide, noBlankLines_of (by decide +kernel)⟩

theorem Alike.ok {α : Type} {D D' : Bytes} {place : Nat → Nat} {f : α → α} {v : α} : ∀ {r : Out α}, Alike D D' place f (.ok v) r →
    ∃ v', r = .ok v' ∧ v = f v'
  | .ok v', h => ⟨v', rfl, h⟩
  | .err _, h | .panic _, h | .diverge, h => h.elim

theorem crlf_ok {n : Nat} {D : Bytes} {v : List Node} (hD : (0x0D : UInt8) ∉ D) (hT : NoBlankLines D) (h : parse .exact n D = .ok v) :
    ∃ v', parse .exact n (crlf D) = .ok v' ∧ v = mapRoots (lfPlace D) v' := by
  have h2 := C78_crlf .exact n hD hT
  rw [h] at h2
  exact h2.ok

/-- What `sampleText` says. -/
def sampleRoots : List Node := [.mk 0 [] (.map [(.mk 0 [] (.str b!"a"), .mk 3 [] (.str b!"x\n\ny\n")),
  (.mk 14 [] (.str b!"b"), .mk 16 [] (.seq [.mk 28 [] (.seq [.mk 29 [] (.int b!"1"), .mk 36 [] (.int b!"2")]), .mk 46 [] (.str b!"z")]))])]

/-- It says so in both forms. -/
example : ∃ v', parse .exact 40 (crlf sampleText) = .ok v' ∧ sampleRoots = mapRoots (lfPlace sampleText) v' :=
  crlf_ok (by decide) (noBlankLines_of (by decide +kernel)) (by decide +kernel)

/-- **C78.** With a line of spaces the two forms need not read the same: the second line counts as indentation,
line break included, so here the last entry belongs to another map. -/
theorem C78_counterexample_blank_line :
    parse .exact 40 b!"a:\n \n  b: 1\n    c: 2\n" = .ok [.mk 0 [] (.map [(.mk 0 [] (.str b!"a"),
      .mk 2 [] (.map [(.mk 7 [] (.str b!"b"), .mk 10 [] (.int b!"1")), (.mk 16 [] (.str b!"c"), .mk 19 [] (.int b!"2"))]))])] ∧
    parse .exact 40 (crlf b!"a:\n \n  b: 1\n    c: 2\n") = .ok [.mk 0 [] (.map [(.mk 0 [] (.str b!"a"),
      .mk 2 [] (.map [(.mk 9 [] (.str b!"b"), .mk 12 [] (.int b!"1"))])), (.mk 15 [] (.str b!"    c"), .mk 22 [] (.int b!"2"))])] := by
  constructor <;> decide +kernel

/-- **C78.** An error in the one form and a value in the other. -/
theorem C78_counterexample_blank_line_error :
    (∃ v, parse .exact 40 b!"a:\n \n - 1\n   - 2\n" = .ok v) ∧
    ∃ m, parse .exact 40 (crlf b!"a:\n \n - 1\n   - 2\n") = .err (.terminate "map splitter" m) :=
  ⟨⟨[.mk 0 [] (.map [(.mk 0 [] (.str b!"a"), .mk 2 [] (.seq [.mk 8 [] (.int b!"1"), .mk 15 [] (.int b!"2")]))])], by decide +kernel⟩,
    ⟨b!"4:7\n   - 2\x0d\n      ^", by decide +kernel⟩⟩

/-- Such an error: the same name, the same line and column. -/
example : parse .exact 40 b!"a: 1\n- b\n" = .err (.terminate "map splitter" b!"2:4\n- b\n   ^") ∧
    parse .exact 40 (crlf b!"a: 1\n- b\n") = .err (.terminate "map splitter" b!"2:4\n- b\x0d\n   ^") ∧
    parse .exact 40 (crOnly b!"a: 1\n- b\n") = .err (.terminate "map splitter" b!"1:9\na: 1\x0d- b\x0d\n        ^") := by
  refine ⟨?_, ?_, ?_⟩ <;> decide +kernel

end YamlPeg.Props
