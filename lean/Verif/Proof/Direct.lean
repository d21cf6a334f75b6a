import Verif.Proof.Gaps
/-! # Reading directives -/

namespace YamlPeg
open M

/-- Blanks, at least one. -/
def Blanks (sp : Bytes) : Prop := sp ≠ [] ∧ ∀ x ∈ sp, isBlank x = true

/-- The handle of a `%TAG` directive. -/
inductive Handle where
  /-- `!h!` -/
  | named (h : Bytes)
  /-- `!!` -/
  | second
  /-- `!` -/
  | first

def Handle.text : Handle → Bytes
  | .named h => 0x21 :: (h ++ [0x21])
  | .second => b!"!!"
  | .first => b!"!"

/-- The name under which the handle is kept. -/
def Handle.key : Handle → Bytes
  | .named h => h
  | .second => b!"!!"
  | .first => b!"!"

def Handle.wf : Handle → Prop
  | .named h => IsIdent h
  | _ => True

/-- A directive, with the line break and idle lines behind it. -/
inductive Dir where
  | yaml (sp : Bytes) (old : Bool) (G : Bytes)
  | tag (sp : Bytes) (h : Handle) (sp' p : Bytes) (G : Bytes)
  | other (t : Bytes) (G : Bytes)

def Dir.text : Dir → Bytes
  | .yaml sp old G => b!"%YAML" ++ (sp ++ ((if old then b!"1.1" else b!"1.2") ++ G))
  | .tag sp h sp' p G => b!"%TAG" ++ (sp ++ (h.text ++ (sp' ++ (p ++ G))))
  | .other t G => 0x25 :: (t ++ G)

def Dir.wf : Dir → Prop
  | .yaml sp _ G => Blanks sp ∧ GapText G
  | .tag sp h sp' p G => Blanks sp ∧ h.wf ∧ Blanks sp' ∧ p ≠ [] ∧ Utf8 p ∧ (∀ c ∈ p, c ∉ b!" \n\r") ∧
      (∀ c r, p = c :: r → isBlank c = false) ∧ GapText G ∧ headIn b!" \n\r" G = true
  | .other t G => (∀ c ∈ t, c ∉ b!"\n\r") ∧ (b!"YAML").isPrefixOf t = false ∧ (b!"TAG").isPrefixOf t = false ∧
      GapText G ∧ headIn b!"\n\r" G = true

def Dir.isYaml : Dir → Bool
  | .yaml .. => true
  | _ => false

/-- What a directive does. -/
def Dir.run (k : Ctx) : Dir → Ctx
  | .yaml .. => { k with versionChecked := true }
  | .tag _ h _ p _ => { k with tag := mapInsert h.key p k.tag }
  | .other .. => k

theorem ws1_read {sp : Bytes} (h : Blanks sp) {E : Bytes} (hE : ∀ c r, E = c :: r → isBlank c = false) (k : Ctx)
    (pre mid : Bytes) : ws (.more 1) (st k pre mid (sp ++ E)) = (.ok (), st k pre (mid ++ sp) E) := by
  have t := takeWhile_all h.2 E hE
  rw [ws, show (fun c => isAsciiWs c && c != 0x0A && c != 0x0D) = isBlank from rfl, takeWhile_more1, t.1, t.2, if_neg h.1]

theorem modify_st_tag (k : Ctx) (pre mid post h p : Bytes) :
    (M.modify fun s => { s with tag := mapInsert h p s.tag } : PM Unit) (st k pre mid post) =
      (.ok (), st { k with tag := mapInsert h p k.tag } pre mid post) := by rfl

theorem modify_st_version (k : Ctx) (pre mid post : Bytes) :
    (M.modify fun s => { s with versionChecked := true } : PM Unit) (st k pre mid post) =
      (.ok (), st { k with versionChecked := true } pre mid post) := by rfl

theorem handle_read {h : Handle} (hh : h.wf) {E : Bytes} (hE : headIn b!"!" E = false) (hE' : h = .first → IdEnd E) (k : Ctx)
    (pre : Bytes) : ∃ r, h.text = 0x21 :: r ∧ directiveHandle (st k pre [] (r ++ E)) = (.ok h.key, st k pre r E) := by
  cases h with
  | named x =>
    have hx : IsIdent x := hh
    refine ⟨x ++ [0x21], rfl, ?_⟩
    have h1 : IdEnd (0x21 :: E) := not_alnum _ (by decide) _
    rw [List.append_assoc, List.singleton_append, directiveHandle, bind_ok (isOk_ok (identifier_read hx h1 ..))]
    simp only [if_true, List.nil_append]
    rw [bind_ok (text_st ..), bind_ok (sym_hit ..), hx.lossy]
    rfl
  | second =>
    refine ⟨[0x21], rfl, ?_⟩
    have h1 : IdEnd (0x21 :: E) := not_alnum _ (by decide) _
    rw [List.singleton_append, directiveHandle, bind_ok (isOk_err (identifier_none h1 ..))]
    simp only [Bool.false_eq_true, if_false, List.nil_append]
    rw [bind_ok (isOk_ok (sym_hit ..))]
    rfl
  | first =>
    refine ⟨[], rfl, ?_⟩
    rw [List.nil_append, directiveHandle, bind_ok (isOk_err (identifier_none (hE' rfl) ..))]
    simp only [Bool.false_eq_true, if_false, List.nil_append]
    rw [bind_ok (isOk_err (sym_no _ _ _ _ (by rintro r rfl; simp [headIn] at hE)))]
    rfl

theorem Blanks.head {sp : Bytes} (h : Blanks sp) (E : Bytes) : ∃ c r, sp ++ E = c :: r ∧ isBlank c = true := by
  obtain ⟨h1, h2⟩ := h
  cases sp with
  | nil => exact absurd rfl h1
  | cons c r => exact ⟨c, r ++ E, rfl, h2 c (by simp)⟩

theorem blank_idEnd {c : UInt8} (h : isBlank c = true) : idByte c = false ∧ c ≠ 0x21 := by
  have := byte_forall (P := fun x => !(isBlank x) || (!(idByte x) && (x != 0x21))) (by decide +kernel) c
  simpa [h] using this

theorem prefix_miss {E : Bytes} : ∀ (w t : Bytes), (∀ c r, E = c :: r → c = 0x0A ∨ c = 0x0D) →
    (∀ x ∈ w, x ≠ 0x0A ∧ x ≠ 0x0D) → w.isPrefixOf t = false → w.isPrefixOf (t ++ E) = false
  | [], _, _, _, h => by simp at h
  | x :: w, [], hE, hw, _ => by
    cases E with
    | nil => rfl
    | cons c r =>
      have hx := hw x (by simp)
      simp only [List.nil_append, List.isPrefixOf, Bool.and_eq_false_iff]
      left
      rcases hE c r rfl with rfl | rfl
      · simpa using hx.1
      · simpa using hx.2
  | x :: w, y :: t, hE, hw, h => by
    simp only [List.cons_append, List.isPrefixOf, Bool.and_eq_false_iff] at h ⊢
    rcases h with h | h
    · exact .inl h
    · exact .inr (prefix_miss w t hE (fun z hz => hw z (by simp [hz])) h)

theorem gap_of_spec' {E taken left : Bytes} {t : Nat} (hg : gapSpec true E = some (t, taken, left))
    (k : Ctx) (pre mid : Bytes) :
    gap true (st k pre mid E) = (.ok t, st k pre (mid ++ taken) left) := by rw [gap_eq, hg]

/-- One directive. -/
theorem directive_read {d : Dir} (hd : d.wf) {k : Ctx} (hv : d.isYaml = true → k.versionChecked = false)
    {left : Bytes} (hl : ∃ j c r, left = spaces j ++ c :: r ∧ tokHead c = true) (pre mid : Bytes) :
    context directive (st k pre mid (d.text ++ left)) = (.ok (), st (d.run k) pre (mid ++ d.text) left) := by
  suffices h : ∀ pre, directive (st k pre [] (d.text ++ left)) = (.ok (), st (d.run k) pre d.text left) by
    have := context_st (k := k) (k' := d.run k) (pre := pre) (mid := mid) (post := d.text ++ left) (p' := [])
      (m' := d.text) (post' := left) (o := .ok ()) (f := directive) (by simpa using h (pre ++ mid))
    simpa using this
  intro pre
  cases d with
  | yaml sp old G =>
    obtain ⟨hsp, hG⟩ := hd
    obtain ⟨q, hq⟩ := hG left hl
    generalize hv' : (if old then b!"1.1" else b!"1.2") = ver
    have e : (Dir.yaml sp old G).text ++ left = 0x25 :: (b!"YAML" ++ (sp ++ (ver ++ (G ++ left)))) := by
      simp [Dir.text, hv']
    rw [e, directive, bind_ok (sym_hit ..),
      bind_ok (context_st (k' := { k with versionChecked := true }) (o := .ok ()) (p' := []) (m' := b!"YAML" ++ sp ++ ver)
        (post' := G ++ left) ?_), bind_ok (gap_of_spec' hq ..)]
    · simp [Dir.text, Dir.run, hv']
    · rw [bind_ok (isOk_ok (symSeq_hit ..))]
      simp only [if_true]
      have hvh : ∀ c r, ver ++ (G ++ left) = c :: r → isBlank c = false := by
        rw [← hv']; cases old <;> (rintro c r ⟨⟩; decide)
      rw [directiveYaml, bind_ok (ws1_read hsp hvh ..), bind_ok (get_run _)]
      have hk : (st k (pre ++ [0x25]) ([] ++ b!"YAML" ++ sp) (ver ++ (G ++ left))).versionChecked = false := hv rfl
      simp only [List.nil_append] at hk ⊢
      simp only [hk, Bool.false_eq_true, if_false]
      rw [bind_ok (a := true) (s' := st k (pre ++ [0x25]) (b!"YAML" ++ sp ++ ver) (G ++ left))]
      · simp only [if_true]
        rw [modify_st_version]; simp
      · rw [context_st (k' := k) (o := .ok true) (p' := []) (m' := ver) (post' := G ++ left)]
        · simp
        · subst hv'
          cases old with
          | true =>
            simp only [if_true]
            rw [bind_ok (isOk_ok (symSeq_hit ..))]; simp
          | false =>
            simp only [Bool.false_eq_true, if_false]
            rw [bind_ok (isOk_err (symSeq_miss _ _ _ _ _ (by simp [List.isPrefixOf])))]
            simp only [Bool.false_eq_true, if_false]
            rw [List.nil_append, isOk_ok (symSeq_hit ..)]; simp
  | tag sp h sp' p G =>
    obtain ⟨hsp, hh, hsp', hp, hu, hpb, hph, hG, hGh⟩ := hd
    obtain ⟨q, hq⟩ := hG left hl
    have e : (Dir.tag sp h sp' p G).text ++ left =
        0x25 :: (b!"TAG" ++ (sp ++ (h.text ++ (sp' ++ (p ++ (G ++ left)))))) := by
      simp [Dir.text]
    obtain ⟨c, r, hc, hcb⟩ := hsp'.head (p ++ (G ++ left))
    obtain ⟨t, ht, hr⟩ := handle_read hh (E := sp' ++ (p ++ (G ++ left)))
      (by rw [hc]; simp [headIn, (blank_idEnd hcb).2]) (by
        intro _; rw [hc]; exact not_alnum _ (blank_idEnd hcb).1 _) k (pre ++ [0x25] ++ (b!"TAG" ++ sp ++ [0x21]))
    rw [e, directive, bind_ok (sym_hit ..),
      bind_ok (context_st (k' := { k with tag := mapInsert h.key p k.tag }) (o := .ok ()) (p' := [])
        (m' := b!"TAG" ++ sp ++ [0x21] ++ (t ++ sp' ++ p)) (post' := G ++ left) ?_), bind_ok (gap_of_spec' hq ..)]
    · simp [Dir.text, Dir.run, ht]
    · rw [bind_ok (isOk_err (symSeq_miss _ _ _ _ _ (by simp [List.isPrefixOf])))]
      simp only [Bool.false_eq_true, if_false, List.nil_append]
      rw [bind_ok (isOk_ok (symSeq_hit ..))]
      simp only [if_true]
      rw [ht, directiveTag, bind_ok (ws1_read hsp (by rintro _ _ ⟨⟩; decide) ..), List.cons_append, bind_ok (sym_hit ..)]
      simp only [List.nil_append]
      rw [context_st (k' := { k with tag := mapInsert h.key p k.tag }) (o := .ok ()) (p' := [])
        (m' := t ++ sp' ++ p) (post' := G ++ left)]
      · simp
      · rw [bind_ok hr, bind_ok (ws1_read hsp' (by
          cases p with
          | nil => exact absurd rfl hp
          | cons x s => rintro _ _ ⟨⟩; exact hph x s rfl) ..)]
        have tw := takeWhile_all (f := notIn b!" \n\r") (d := p) (fun c hc => by simpa [notIn] using hpb c hc) (G ++ left) (by
          cases G with
          | nil => simp [headIn] at hGh
          | cons x s =>
            rintro _ _ ⟨⟩
            simp [headIn] at hGh
            simp [notIn, hGh])
        rw [bind_ok (context_st (k' := k) (o := .ok p) (p' := []) (m' := p) (post' := G ++ left) ?_)]
        · rw [modify_st_tag]; simp
        · rw [bind_ok (by rw [takeWhile_more1, tw.1, tw.2, if_neg hp])]
          simp [lossy_utf8 hu]
  | other t G =>
    obtain ⟨ht, hy, htg, hG, hGh⟩ := hd
    obtain ⟨q, hq⟩ := hG left hl
    have e : (Dir.other t G).text ++ left = 0x25 :: (t ++ (G ++ left)) := by simp [Dir.text]
    have hGn : ∀ c r, G ++ left = c :: r → c = 0x0A ∨ c = 0x0D := by
      cases G with
      | nil => simp [headIn] at hGh
      | cons x s => rintro _ _ ⟨⟩; simpa [headIn] using hGh
    have tw := takeWhile_all (f := notIn b!"\n\r") (d := t) (fun c hc => by simpa [notIn] using ht c hc) (G ++ left) (by
      intro c r he; rcases hGn c r he with rfl | rfl <;> decide)
    have miss : ∀ w : Bytes, (∀ x ∈ w, x ≠ 0x0A ∧ x ≠ 0x0D) → w.isPrefixOf t = false →
        w.isPrefixOf (t ++ (G ++ left)) = false := fun w hw h => prefix_miss w t hGn hw h
    rw [e, directive, bind_ok (sym_hit ..),
      bind_ok (context_st (k' := k) (o := .ok ()) (p' := []) (m' := t) (post' := G ++ left) ?_), bind_ok (gap_of_spec' hq ..)]
    · simp [Dir.text, Dir.run]
    · rw [bind_ok (isOk_err (symSeq_miss _ _ _ _ _ (miss _ (by decide) hy)))]
      simp only [Bool.false_eq_true, if_false, List.nil_append]
      rw [bind_ok (isOk_err (symSeq_miss _ _ _ _ _ (miss _ (by decide) htg)))]
      simp only [Bool.false_eq_true, if_false, List.nil_append]
      rw [takeWhile_more0, tw.1, tw.2]
      simp

end YamlPeg
