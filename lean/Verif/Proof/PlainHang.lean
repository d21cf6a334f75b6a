import Verif.Proof.Dump
/-!
# Plain scalars that never end

Where `ind level` wants no space at all, `string_plain` (grammar.rs:128-183) is stuck
in front of a line break or of a flow indicator: `ind` succeeds without moving the
cursor, and the loop starts over.
-/

namespace YamlPeg
open M

/-- The rest in front of which a plain scalar with text `T` is stuck. -/
inductive Stuck (inner : Bool) (T : Bytes) : Bytes → Prop
  | nl {c : UInt8} {r : Bytes} : c = 0x0A ∨ c = 0x0D → Stuck inner T (c :: r)
  | flow {c : UInt8} {r : Bytes} : c ∈ b!"[]{}," → (inner = true ∨ T = []) → (c = 0x2C → inner = true) →
      Stuck inner T (c :: r)

theorem Stuck.head {inner : Bool} {T E : Bytes} (h : Stuck inner T E) :
    ∃ c r, E = c :: r ∧ notIn (plainPatt inner) c = false ∧ c ∉ b!": " ∧
      ((!inner && !T.isEmpty) = true → c ∉ b!"{}[]") := by
  cases h with
  | nl hc =>
    refine ⟨_, _, rfl, ?_, ?_, fun _ => ?_⟩ <;> rcases hc with rfl | rfl <;> cases inner <;> decide
  | flow hc hi hcomma =>
    refine ⟨_, _, rfl, ?_, ?_, fun h => ?_⟩
    · rw [notIn_false]
      simp at hc
      rcases hc with rfl | rfl | rfl | rfl | rfl
      · cases inner <;> decide
      · cases inner <;> decide
      · cases inner <;> decide
      · cases inner <;> decide
      · rw [hcomma rfl]; decide
    · simp at hc
      rcases hc with rfl | rfl | rfl | rfl | rfl <;> decide
    · rcases hi with rfl | rfl <;> simp at h

theorem plainRest_stuck {level : Nat} {inner : Bool} {T E : Bytes} (hE : Stuck inner T E) (lead : Bool) : ∀ (n : Nat)
    {k : Ctx} (_ : k.want level = 0) (pre : Bytes),
    (plainRest level inner (plainPatt inner) n T lead (st k pre [] E)).1 = .diverge := by
  obtain ⟨c, r, rfl, h1, h2, h3⟩ := hE.head
  have hs : stopB (c :: r) = false := by
    simp at h2
    unfold stopB
    split <;> simp_all
  intro n
  induction n with
  | zero =>
    intro k hk pre
    rw [plainRest_go _ _ _ _ _ _ _ _ _ hs, bind_ok (isOk_err (symSet_miss _ _ _ _ _ _ h2))]
    simp only [Bool.false_eq_true, if_false, List.nil_append]
    have hb : (if !inner && !T.isEmpty then isOk (symSet b!"{}[]") else pure false : PM Bool)
        (st k pre [] (c :: r)) = (.ok false, st k pre [] (c :: r)) := by
      split
      · rw [isOk_err (symSet_miss _ _ _ _ _ _ (h3 (by assumption)))]; simp
      · rfl
    rw [bind_ok hb]
    simp only [Bool.false_eq_true, if_false]
    have := ind_hit k pre [] (c :: r) level
    rw [hk] at this
    simp only [spaces, List.replicate_zero, List.nil_append] at this
    rw [bind_ok (isOk_ok this)]
    rfl
  | succ n ih =>
    intro k hk pre
    rw [plainRest_go _ _ _ _ _ _ _ _ _ hs, bind_ok (isOk_err (symSet_miss _ _ _ _ _ _ h2))]
    simp only [Bool.false_eq_true, if_false, List.nil_append]
    have hb : (if !inner && !T.isEmpty then isOk (symSet b!"{}[]") else pure false : PM Bool)
        (st k pre [] (c :: r)) = (.ok false, st k pre [] (c :: r)) := by
      split
      · rw [isOk_err (symSet_miss _ _ _ _ _ _ (h3 (by assumption)))]; simp
      · rfl
    rw [bind_ok hb]
    simp only [Bool.false_eq_true, if_false]
    have := ind_hit k pre [] (c :: r) level
    rw [hk] at this
    simp only [spaces, List.replicate_zero, List.nil_append] at this
    rw [bind_ok (isOk_ok this)]
    simp only [if_true]
    rw [plainLoop_chunk]
    simp only [List.takeWhile, List.dropWhile, h1, List.append_nil]
    rw [lossy_utf8 .nil, List.append_nil]
    exact ih (by rw [Ctx.want_at]; exact hk) _

/-- The loop runs into the stuck place. -/
theorem plainLoop_hangs {level : Nat} {inner : Bool} {T E : Bytes} {k : Ctx} (hk : k.want level = 0)
    (hE : Stuck inner T E) (hB : plainBody inner E false T = true) :
    ∀ (n : Nat) (U S : Bytes) (pre mid : Bytes), T = U ++ S → Utf8 S →
    (plainLoop level inner (plainPatt inner) n U false (st k pre mid (S ++ E))).1 = .diverge := by
  intro n
  induction n with
  | zero => intros; rfl
  | succ n ih =>
    intro U S pre mid hT hu
    have hEh : ∀ c r, E = c :: r → notIn (plainPatt inner) c = false := by
      obtain ⟨c, r, rfl, h1, _⟩ := hE.head
      rintro _ _ ⟨⟩; exact h1
    obtain ⟨e1, e2⟩ := takeWhile_append_stop (S := S) hEh
    have hsp := Utf8.span (f := notIn (plainPatt inner)) patt_ascii hu
    have hcat := List.takeWhile_append_dropWhile (p := notIn (plainPatt inner)) (l := S)
    rcases hR : S.dropWhile (notIn (plainPatt inner)) with _ | ⟨c, s⟩
    · rw [hR] at hcat e2
      simp only [List.append_nil] at hcat
      rw [plainLoop_chunk, e1, e2, lossy_utf8 hsp.1, hcat, ← hT, List.nil_append]
      exact plainRest_stuck hE false n hk _
    · rw [plainLoop_chunk, e1, e2, lossy_utf8 hsp.1]
      generalize hA : S.takeWhile (notIn (plainPatt inner)) = A at *
      rw [hR] at hcat hsp ⊢
      have hc : notIn (plainPatt inner) c = false := by
        have := List.head?_dropWhile_not (p := notIn (plainPatt inner)) S
        rw [hR] at this; simpa using this
      have hT' : T = (U ++ A) ++ (c :: s) := by rw [hT, ← hcat, List.append_assoc]
      have hB' := hB
      rw [hT'] at hB'
      have hb := plainBody_split hB'
      simp only [plainBody, Bool.and_eq_true, Bool.not_eq_true', Bool.and_eq_false_iff] at hb
      obtain ⟨⟨⟨⟨⟨⟨b1, b2⟩, b3⟩, b4⟩, b5⟩, b6⟩, _⟩ := hb
      have hus : Utf8 s := (Utf8.cons_ascii (patt_ascii c hc)).1 hsp.2
      have hgo : (plainLoop level inner (plainPatt inner) n (U ++ A ++ [c]) false
          (st k (pre ++ mid ++ A) [c] (s ++ E))).1 = .diverge :=
        ih (U ++ A ++ [c]) s (pre ++ mid ++ A) [c] (by rw [hT']; simp) hus
      simp only [List.cons_append]
      by_cases h1 : c = 0x3A ∨ c = 0x20
      · rw [plainRest_colon _ _ _ _ _ _ _ _ _ ?_ h1, hgo]
        rcases h1 with rfl | rfl
        · simpa [stopB] using b3
        · rcases hsE : s ++ E with _ | ⟨d, q⟩
          · rfl
          · rw [hsE] at b4
            simp at b4
            unfold stopB
            split <;> simp_all
      · have h2 : c ∈ b!"{}[]" ∨ c = 0x2C ∨ c = 0x0A ∨ c = 0x0D := by
          cases inner
          · rw [notIn_false] at hc; simp [plainPatt] at hc
            simp only [not_or] at h1
            simp
            rcases hc with rfl | rfl | rfl | rfl | rfl | rfl | rfl | rfl <;> simp_all
          · rw [notIn_false] at hc; simp [plainPatt] at hc
            simp only [not_or] at h1
            simp
            rcases hc with rfl | rfl | rfl | rfl | rfl | rfl | rfl | rfl | rfl <;> simp_all
        rcases h2 with h2 | rfl | rfl | rfl
        · have hq : (b!"[]{}").contains c = true := by
            simp at h2 ⊢; rcases h2 with rfl | rfl | rfl | rfl <;> simp
          rw [hq] at b5
          simp only [Bool.true_eq_false, false_or, Bool.or_eq_false_iff] at b5
          rw [plainRest_bracket _ _ _ _ _ _ _ _ _ h2 b5.1 ?_, hgo]
          simpa using b5.2
        · exfalso
          cases inner
          · revert hc; decide
          · simp at b6
        · exact absurd b1 (by decide)
        · exact absurd b2 (by decide)

theorem bind_div {σ α β : Type} {x : M σ α} {f : α → M σ β} {s : σ} (h : (x s).1 = .diverge) :
    ((x >>= f) s).1 = .diverge := by
  show (M.bind x f s).1 = _
  unfold M.bind
  split <;> simp_all

theorem try_div {σ α : Type} {x : M σ α} {s : σ} (h : (x s).1 = .diverge) : (try? x s).1 = .diverge := by
  unfold try?
  split <;> simp_all

theorem isOk_div {σ α : Type} {x : M σ α} {s : σ} (h : (x s).1 = .diverge) : (isOk x s).1 = .diverge := by
  unfold isOk
  split <;> simp_all

theorem orElse_div {σ α : Type} {x y : M σ α} {s : σ} (h : (x s).1 = .diverge) :
    (orElseMismatch x y s).1 = .diverge := by
  unfold orElseMismatch
  split <;> simp_all

theorem context_div {α : Type} {f : PM α} (k : Ctx) (pre mid post : Bytes)
    (h : (f (st k (pre ++ mid) [] post)).1 = .diverge) : (context f (st k pre mid post)).1 = .diverge := by
  have e : ({ st k pre mid post with eaten := (st k pre mid post).pos } : Parser) = st k (pre ++ mid) [] post := by simp [st]
  simp only [context, e, h]

/-- `string_plain` never returns. -/
theorem stringPlain_hangs {level : Nat} {inner : Bool} {T E : Bytes} {k : Ctx} (hk : k.want level = 0)
    (hE : Stuck inner T E) (hB : plainBody inner E false T = true) (hu : Utf8 T) (n : Nat) (pre mid : Bytes) :
    (stringPlain n level inner (st k pre mid (T ++ E))).1 = .diverge := by
  have hl := plainLoop_hangs hk hE hB n [] T (pre ++ mid) [] rfl hu
  rw [stringPlain]
  exact context_div _ _ _ _ (bind_div hl)

/-! ## What `string_plain` does with a text of its own -/

theorem plainBody_snoc {inner : Bool} {c : UInt8} {r : Bytes} : ∀ {U : Bytes} {ne : Bool},
    plainBody inner (c :: r) ne U = true → plainBody inner r (ne || !U.isEmpty) [c] = true →
    plainBody inner r ne (U ++ [c]) = true
  | [], ne, _, h => by simpa using h
  | x :: U, ne, h, h' => by
    simp only [List.cons_append, plainBody, Bool.and_eq_true] at h ⊢
    refine ⟨?_, plainBody_snoc h.2 (by simpa using h')⟩
    simpa using h.1

/-- Every text is a plain scalar followed by its end, or by a place where it gets stuck. -/
theorem plain_split : ∀ (s U : Bytes), plainBody false s false U = true →
    ∃ T E, U ++ s = U ++ T ++ E ∧ plainBody false E false (U ++ T) = true ∧ (stopB E = true ∨ Stuck false (U ++ T) E)
  | [], U, h => ⟨[], [], by simp, by simpa using h, .inl rfl⟩
  | c :: r, U, h => by
    by_cases hs : stopB (c :: r) = true
    · exact ⟨[], c :: r, by simp, by simpa using h, .inl hs⟩
    by_cases hst : Stuck false U (c :: r)
    · exact ⟨[], c :: r, by simp, by simpa using h, .inr (by simpa using hst)⟩
    have hb : plainBody false r false (U ++ [c]) = true := by
      refine plainBody_snoc h ?_
      have hc : c ≠ 0x0A ∧ c ≠ 0x0D := by
        constructor <;> rintro rfl
        · exact hst (.nl (.inl rfl))
        · exact hst (.nl (.inr rfl))
      have hcol : c = 0x3A → colonStop r = false := by
        rintro rfl; simpa [stopB] using hs
      have hsp : c = 0x20 → r.head? ≠ some 0x23 := by
        rintro rfl hr
        cases r with
        | nil => simp at hr
        | cons d q => simp at hr; subst hr; simp [stopB] at hs
      have hbr : c ∈ b!"[]{}" → U ≠ [] := by
        rintro hc' rfl
        refine hst (.flow ?_ (.inr rfl) ?_)
        · simp at hc' ⊢; rcases hc' with h | h | h | h <;> simp [h]
        · intro hcc; rw [hcc] at hc'; revert hc'; decide
      simp only [plainBody, Bool.and_eq_true, bne_iff_ne, Bool.not_eq_true', Bool.and_eq_false_iff, beq_eq_false_iff_ne,
        List.nil_append, Bool.false_or, Bool.not_false, Bool.not_eq_false', and_true]
      refine ⟨⟨⟨⟨hc, ?_⟩, ?_⟩, ?_⟩, by simp⟩
      · by_cases h : c = 0x3A
        · exact .inr (hcol h)
        · exact .inl h
      · by_cases h : c = 0x20
        · exact .inr (hsp h)
        · exact .inl h
      · by_cases h : c ∈ b!"[]{}"
        · exact .inr (by simpa using hbr h)
        · exact .inl (by simpa using h)
    obtain ⟨T, E, h1, h2, h3⟩ := plain_split r (U ++ [c]) hb
    refine ⟨c :: T, E, ?_, by simpa using h2, by simpa using h3⟩
    simpa using h1

/-- All that `string_plain` can do with a text of its own (this is how the dumper calls it). -/
theorem plain_outcome {s : Bytes} (hu : Utf8 s) : ∃ T E, s = T ++ E ∧ plainBody false E false T = true ∧
    ((Stuck false T E ∧ ∀ n, (stringPlain n 0 false (Parser.new s)).1 = .diverge) ∨
     (stopB E = true ∧ ∀ n, T.length < n → (stringPlain n 0 false (Parser.new s)).1 =
        if trimEnd T = [] then .err .mismatch else .ok (trimEnd T))) := by
  obtain ⟨T, E, h1, h2, h3⟩ := plain_split s [] rfl
  simp only [List.nil_append] at h1 h2 h3
  have huT : Utf8 T := by
    cases E with
    | nil => simpa [h1] using hu
    | cons c r =>
      have hc : c < 0x80 := by
        rcases h3 with h3 | h3
        · have : c = 0x3A ∨ c = 0x20 := by
            unfold stopB at h3
            split at h3 <;> simp_all
          rcases this with rfl | rfl <;> decide
        · obtain ⟨c', r', he, hc', _⟩ := h3.head
          cases he
          exact patt_ascii c hc'
      rw [h1] at hu
      exact ((Utf8.cut hc).1 hu).1
  refine ⟨T, E, h1, h2, ?_⟩
  rcases h3 with h3 | h3
  · refine .inr ⟨h3, fun n hn => ?_⟩
    have hl := plainLoop_read .start (level := 0) (inner := false) (T := T) (E := E) (.stop h3) h2 n [] T [] [] rfl huT hn
    have := context_st (k := .start) (k' := .start) (pre := []) (mid := []) (post := T ++ E) (p' := T)
      (m' := []) (post' := E) (o := if trimEnd T = [] then .err .mismatch else .ok (trimEnd T)) (f := do
        let v ← plainLoop 0 false (plainPatt false) n [] false
        let v := trimEnd v
        if v.isEmpty then mismatch else pure v) (by
          simp only [List.append_nil, List.nil_append] at hl ⊢
          rw [bind_ok hl]
          simp only [List.isEmpty_iff]
          split <;> rfl)
    rw [h1, new_state, stringPlain, this]
  · refine .inl ⟨h3, fun n => ?_⟩
    rw [h1, new_state]
    exact stringPlain_hangs Ctx.start_want h3 h2 huT n [] []

end YamlPeg
