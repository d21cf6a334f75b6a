import Verif.Proof.Charset
import Verif.Proof.LFrame
/-!
# The base parser stays on character boundaries

For a document over a set `P` of characters (which contains ASCII) every cursor
position the grammar methods reach is a character boundary, so every text cut
out of the document is over `P` again.
-/

namespace YamlPeg
open M Frame

/-- The cursor, the mark and the tag table respect the characters of `d`. -/
structure OnChars (P : Bytes → Prop) (d : Bytes) (s : Parser) : Prop where
  doc : s.doc = d
  pos : Over P (d.take s.pos)
  eaten : Over P (d.take s.eaten)
  tag : ∀ k v, mapGet k s.tag = some v → Over P v

/-- The frame: only the invariant, any outcome. -/
def CF (P : Bytes → Prop) (d : Bytes) : Frame Parser where
  W := OnChars P d
  R _ _ := True
  E _ _ := True
  X _ := True
  D := True
  refl _ _ := trivial
  trans _ _ _ _ _ := trivial

/-- A set of characters that contains ASCII, and a document over it. -/
structure CharDoc (P : Bytes → Prop) (d : Bytes) : Prop where
  ascii : ∀ b : UInt8, b < 0x80 → P [b]
  doc : Over P d

section
variable {P : Bytes → Prop} {d : Bytes} {α : Type}

theorem context_cf {x : PM α} {V : α → Prop} (h : (CF P d).Holds x V) :
    (CF P d).Holds (context x) V := by
  intro s hs
  have hs' : OnChars P d { s with eaten := s.pos } := ⟨hs.doc, hs.pos, hs.pos, hs.tag⟩
  obtain ⟨h1, _, h3⟩ := h _ hs'
  have h1 : OnChars P d _ := h1
  refine ⟨⟨h1.doc, h1.pos, hs.eaten, h1.tag⟩, trivial, ?_⟩
  revert h3
  simp only [context]
  rcases x { s with eaten := s.pos } with ⟨r, s'⟩
  cases r <;> exact id

theorem forward_cf : (CF P d).Holds forward (fun _ => True) :=
  Holds.modify (fun _ hs => ⟨hs.doc, hs.pos, hs.pos, hs.tag⟩) (fun _ _ => trivial) trivial

theorem backward_cf : (CF P d).Holds backward (fun _ => True) :=
  Holds.modify (fun _ hs => ⟨hs.doc, hs.eaten, hs.eaten, hs.tag⟩) (fun _ _ => trivial) trivial

theorem food_cf : (CF P d).Holds food (fun _ => True) := by
  intro s hs
  simp only [food]
  split <;> exact ⟨hs, trivial, trivial⟩

theorem text_cf : (CF P d).Holds text (Over P) := by
  intro s hs
  simp only [text]
  split
  · split
    · refine ⟨hs, trivial, ?_⟩
      rename_i h1 h2
      have e : s.doc.take s.pos = d.take s.eaten ++ (s.doc.take s.pos).drop s.eaten := by
        have := List.take_append_drop s.eaten (s.doc.take s.pos)
        rw [List.take_take, Nat.min_eq_left (Nat.le_of_lt h1)] at this
        rw [← hs.doc]; exact this.symm
      have hp := hs.pos
      rw [← hs.doc] at hp
      rw [e] at hp
      have := (Over.split hs.eaten.utf8 hp).2
      show Over P (lossy _)
      rw [lossy_utf8 this.utf8]
      exact this
    · exact ⟨hs, trivial, trivial⟩
  · exact ⟨hs, trivial, Over.nil⟩

theorem errAt_cf {name : String} {V : α → Prop} : (CF P d).Holds (errAt name : PM α) V := by
  intro s hs
  simp only [errAt]
  split <;> exact ⟨hs, trivial, trivial⟩

theorem takeCount_more (f : UInt8 → Bool) (lo : Nat) (l : Bytes) (k : Nat) :
    takeCount f (.more lo) l k = k + (l.takeWhile f).length := by
  induction l generalizing k with
  | nil => simp [takeCount]
  | cons x xs ih =>
    simp only [takeCount, List.takeWhile_cons]
    split
    · rw [ih]; simp; omega
    · simp

/-- All bytes the loop accepts satisfy the test. -/
theorem takeCount_mem (f : UInt8 → Bool) (opt : TakeOpt) (l : Bytes) (k : Nat) :
    ∀ x ∈ l.take (takeCount f opt l k - k), f x = true := by
  induction l generalizing k with
  | nil => simp
  | cons c cs ih =>
    simp only [takeCount]
    split
    · rename_i hc
      have one : ∀ x ∈ (c :: cs).take (k + 1 - k), f x = true := by
        rw [Nat.add_sub_cancel_left]; simpa using hc
      have more : ∀ x ∈ (c :: cs).take (takeCount f opt cs (k + 1) - k), f x = true := by
        have h1 := le_takeCount f opt cs (k + 1)
        have : takeCount f opt cs (k + 1) - k = (takeCount f opt cs (k + 1) - (k + 1)) + 1 := by omega
        rw [this, List.take_succ_cons]
        intro x hx
        rcases List.mem_cons.1 hx with rfl | hx
        · exact hc
        · exact ih _ x hx
      split
      · exact one
      · split
        · exact one
        · exact more
      · exact more
    · simp

/-- A test that never stops inside a character. -/
def Aligned (f : UInt8 → Bool) (opt : TakeOpt) : Prop :=
  (∀ x, f x = true → x < 0x80) ∨ ((∃ lo, opt = .more lo) ∧ ∀ x, f x = false → x < 0x80)

theorem OnChars.rest (h : CharDoc P d) {s : Parser} (hs : OnChars P d s) : Over P s.rest := by
  have := h.doc
  rw [← List.take_append_drop s.pos d] at this
  rw [Parser.rest, hs.doc]
  exact (Over.split hs.pos.utf8 this).2

theorem OnChars.advance (h : CharDoc P d) {s : Parser} (hs : OnChars P d s) {n : Nat}
    (hn : Over P (s.rest.take n)) : Over P (d.take (s.pos + n)) := by
  rw [List.take_add]
  refine hs.pos.append ?_
  rw [← hs.doc]; exact hn

theorem takeWhile_cf (h : CharDoc P d) {f : UInt8 → Bool} {opt : TakeOpt} (ha : Aligned f opt) :
    (CF P d).Holds (takeWhile f opt) (fun _ => True) := by
  intro s hs
  have hb : OnChars P d { s with pos := s.eaten } := ⟨hs.doc, hs.eaten, hs.eaten, hs.tag⟩
  have hf : OnChars P d { s with pos := s.pos + takeCount f opt s.rest 0 } := by
    refine ⟨hs.doc, hs.advance h ?_, hs.eaten, hs.tag⟩
    rcases ha with ha | ⟨⟨lo, rfl⟩, ha⟩
    · have := takeCount_mem f opt s.rest 0
      simp only [Nat.sub_zero] at this
      exact Over.ascii h.ascii fun x hx => ha x (this x hx)
    · rw [takeCount_more, Nat.zero_add]
      have : s.rest.take (s.rest.takeWhile f).length = s.rest.takeWhile f := by
        conv => lhs; rw [← List.takeWhile_append_dropWhile (p := f) (l := s.rest)]
        exact List.take_left' (by rw [List.takeWhile_append_dropWhile])
      rw [this]
      exact Over.span h.ascii ha (hs.rest h)
  simp only [takeWhile]
  split
  · split
    · split
      · exact ⟨hs, trivial, trivial⟩
      · exact ⟨hb, trivial, trivial⟩
    · split
      · split
        · exact ⟨hb, trivial, trivial⟩
        · exact ⟨hf, trivial, trivial⟩
      · exact ⟨hf, trivial, trivial⟩
  · exact ⟨hs, trivial, trivial⟩

theorem aligned_isIn {set : Bytes} {opt : TakeOpt} (h : ∀ x ∈ set, x < 0x80) :
    Aligned (isIn set) opt := .inl fun x hx => by
  simp only [isIn, notIn, Bool.not_not, List.contains_iff_mem] at hx
  exact h x hx

theorem aligned_notIn {set : Bytes} {lo : Nat} (h : ∀ x ∈ set, x < 0x80) :
    Aligned (notIn set) (.more lo) := .inr ⟨⟨lo, rfl⟩, fun x hx => by
  simp only [notIn, Bool.not_eq_false', List.contains_iff_mem] at hx
  exact h x hx⟩

theorem symSet_cf (h : CharDoc P d) {set : Bytes} (hs : ∀ x ∈ set, x < 0x80) :
    (CF P d).Holds (symSet set) (fun _ => True) := takeWhile_cf h (aligned_isIn hs)

theorem sym_cf (h : CharDoc P d) {x : UInt8} (hx : x < 0x80) :
    (CF P d).Holds (sym x) (fun _ => True) := symSet_cf h (by simpa using hx)

theorem symSeq_cf (h : CharDoc P d) {l : Bytes} (hl : ∀ x ∈ l, x < 0x80) :
    (CF P d).Holds (symSeq l) (fun _ => True) := by
  induction l with
  | nil => exact Holds.pure trivial
  | cons x xs ih =>
    exact Holds.bind (sym_cf h (hl x (by simp))) fun _ _ => ih fun y hy => hl y (by simp [hy])

theorem symTimes_cf (h : CharDoc P d) {x : UInt8} (hx : x < 0x80) {n : Nat} :
    (CF P d).Holds (symTimes x n) (fun _ => True) := by
  induction n with
  | zero => exact Holds.pure trivial
  | succ n ih => exact Holds.bind (sym_cf h hx) fun _ _ => ih

theorem ind_cf (h : CharDoc P d) {level : Nat} : (CF P d).Holds (ind level) (fun _ => True) :=
  Holds.bind (V := fun _ => True)
    (Holds.modify (fun _ hs => ⟨hs.doc, hs.pos, hs.eaten, hs.tag⟩) (fun _ _ => trivial) trivial) fun _ _ =>
    Holds.bind (V := fun _ => True) (Holds.get fun _ _ => trivial) fun _ _ => symTimes_cf h (by decide)

theorem isAsciiWs_ascii {x : UInt8} (h : isAsciiWs x = true) : x < 0x80 := by
  simp only [isAsciiWs, Bool.or_eq_true, beq_iff_eq] at h
  rcases h with (((rfl | rfl) | rfl) | rfl) | rfl <;> decide

theorem isAlnum_ascii {x : UInt8} (h : isAlnum x = true) : x < 0x80 := by
  simp only [isAlnum, isDigit, Bool.or_eq_true, Bool.and_eq_true, decide_eq_true_eq,
    UInt8.le_iff_toNat_le, UInt8.lt_iff_toNat_lt, UInt8.toNat_ofNat] at *
  omega

theorem aligned_ws {opt : TakeOpt} : Aligned (fun c => isAsciiWs c && c != 0x0A && c != 0x0D) opt :=
  .inl fun x hx => by
    simp only [Bool.and_eq_true] at hx
    exact isAsciiWs_ascii hx.1.1

theorem ws_cf (h : CharDoc P d) {opt : TakeOpt} : (CF P d).Holds (ws opt) (fun _ => True) :=
  takeWhile_cf h aligned_ws
theorem inv_cf (h : CharDoc P d) {opt : TakeOpt} : (CF P d).Holds (inv opt) (fun _ => True) :=
  takeWhile_cf h (.inl fun _ hx => isAsciiWs_ascii hx)

theorem runIf_cf {b : Bool} {x : PM Unit} (h : (CF P d).Holds x (fun _ => True)) :
    (CF P d).Holds (runIf b x) (fun _ => True) := by
  cases b
  · exact Holds.pure trivial
  · exact h

theorem isOk_cf {x : PM α} {V : α → Prop} (h : (CF P d).Holds x V) :
    (CF P d).Holds (isOk x) (fun _ => True) := Holds.isOk h fun _ => trivial

theorem orDefault_cf {x : PM α} {V : α → Prop} {a : α} (h : (CF P d).Holds x V) (ha : V a) :
    (CF P d).Holds (orDefault a x) V := Holds.orDefault h ha

theorem mismatch_cf {V : α → Prop} : (CF P d).Holds (mismatch : PM α) V :=
  Holds.mismatch (F := CF P d) fun _ _ => trivial

theorem diverge_cf {V : α → Prop} : (CF P d).Holds (diverge : PM α) V := Holds.diverge trivial

theorem nl_cf (h : CharDoc P d) : (CF P d).Holds nl (fun _ => True) := by
  apply context_cf
  refine Holds.bind (isOk_cf (symSeq_cf h (by decide))) fun b _ => Holds.ite (fun _ => Holds.pure trivial) fun _ => ?_
  refine Holds.bind (isOk_cf (symSeq_cf h (by decide))) fun b _ => Holds.ite (fun _ => Holds.pure trivial) fun _ => ?_
  refine Holds.bind (isOk_cf (sym_cf h (by decide))) fun b _ => Holds.ite (fun _ => Holds.pure trivial) fun _ => ?_
  refine Holds.bind (isOk_cf (sym_cf h (by decide))) fun b _ => Holds.ite (fun _ => Holds.pure trivial) fun _ => ?_
  exact mismatch_cf

theorem comment_cf (h : CharDoc P d) : (CF P d).Holds comment (fun _ => True) :=
  Holds.bind (ws_cf h) fun _ _ => Holds.bind (sym_cf h (by decide)) fun _ _ =>
    takeWhile_cf h (aligned_notIn (by decide))

theorem gapLoop_cf (h : CharDoc P d) {cmt : Bool} {n t : Nat} :
    (CF P d).Holds (gapLoop cmt n t) (fun _ => True) := by
  induction n generalizing t with
  | zero => exact diverge_cf
  | succ n ih =>
    refine Holds.bind forward_cf fun _ _ => Holds.bind (ws_cf h) fun _ _ =>
      Holds.bind (runIf_cf (orDefault_cf (comment_cf h) trivial)) fun _ _ =>
      Holds.bind (isOk_cf (nl_cf h)) fun _ _ => Holds.ite (fun _ => ih) fun _ => ?_
    exact Holds.bind backward_cf fun _ _ => Holds.pure trivial

theorem gap_cf (h : CharDoc P d) {cmt : Bool} : (CF P d).Holds (gap cmt) (fun _ => True) :=
  context_cf <| Holds.bind (runIf_cf (orDefault_cf (comment_cf h) trivial)) fun _ _ =>
    Holds.bind (nl_cf h) fun _ _ => Holds.bind (V := fun _ => True) (Holds.get fun _ _ => trivial)
      fun _ _ => gapLoop_cf h

/-! ### Going back one byte -/

/-- The cursor may also go back one byte. -/
def CanBack (P : Bytes → Prop) (d : Bytes) (s : Parser) : Prop := Over P (d.take (s.pos - 1))

theorem back_ok {s s' : Parser} {a : Unit} (hs : OnChars P d s) (hb : CanBack P d s)
    {V : Unit → Prop} (hV : V ()) :
    (CF P d).W (back 1 s).2 ∧ (CF P d).R s (back 1 s).2 ∧ (CF P d).OutOk V (back 1 s).2 (back 1 s).1 := by
  simp only [back]
  split
  · exact ⟨⟨hs.doc, hb, hs.eaten, hs.tag⟩, trivial, hV⟩
  · exact ⟨hs, trivial, trivial⟩

/-- A test for one byte moves by one byte. -/
theorem takeOne_ok {f : UInt8 → Bool} {s s' : Parser} {a : Unit}
    (h : takeWhile f .one s = (.ok a, s')) : s'.pos = s.pos + 1 := by
  simp only [takeWhile, TakeOpt.lo?] at h
  split at h
  · split at h
    · simp at h
    · simp only [Prod.mk.injEq, true_and] at h
      rw [← h]
      have : takeCount f .one s.rest 0 ≤ 1 := by
        cases s.rest with
        | nil => simp [takeCount]
        | cons x xs => simp only [takeCount]; split <;> simp
      show s.pos + _ = _
      omega
  · simp at h

theorem takeOne_canBack {f : UInt8 → Bool} {s s' : Parser} {a : Unit} (hs : OnChars P d s)
    (h : takeWhile f .one s = (.ok a, s')) : CanBack P d s' := by
  simp only [CanBack, takeOne_ok h, Nat.add_sub_cancel]
  exact hs.pos

/-- Sequencing where the continuation may use the reached state. -/
theorem Frame.Holds.bindAt {σ α β : Type} {F : Frame σ} {x : M σ α} {f : α → M σ β} {V : α → Prop}
    {V' : β → Prop} (hx : F.Holds x V)
    (hf : ∀ s a s', F.W s → x s = (.ok a, s') → F.W s' → V a →
      F.W (f a s').2 ∧ F.R s' (f a s').2 ∧ F.OutOk V' (f a s').2 (f a s').1) :
    F.Holds (x >>= f) V' := by
  intro s hs
  obtain ⟨h1, h2, h3⟩ := hx s hs
  rcases hxs : x s with ⟨r, s'⟩
  rw [hxs] at h1 h2 h3
  cases r with
  | ok a =>
    rw [bind_ok hxs]
    obtain ⟨g1, g2, g3⟩ := hf s a s' hs hxs h1 h3
    exact ⟨g1, F.trans _ _ _ h2 g2, g3⟩
  | err e => rw [bind_err hxs]; exact ⟨h1, h2, h3⟩
  | panic p => rw [bind_panic hxs]; exact ⟨h1, h2, h3⟩
  | diverge => rw [bind_diverge hxs]; exact ⟨h1, h2, h3⟩

/-- Sequencing pointwise. -/
theorem bind_at {x : PM α} {β : Type} {f : α → PM β} {V : α → Prop} {V' : β → Prop} {s : Parser}
    (hx : (CF P d).W (x s).2 ∧ (CF P d).R s (x s).2 ∧ (CF P d).OutOk V (x s).2 (x s).1)
    (hf : ∀ a, V a → (CF P d).Holds (f a) V') :
    (CF P d).W ((x >>= f) s).2 ∧ (CF P d).R s ((x >>= f) s).2 ∧
      (CF P d).OutOk V' ((x >>= f) s).2 ((x >>= f) s).1 := by
  obtain ⟨h1, h2, h3⟩ := hx
  rcases hxs : x s with ⟨r, s'⟩
  rw [hxs] at h1 h2 h3
  cases r with
  | ok a => rw [bind_ok hxs]; exact hf a h3 s' h1
  | err e => rw [bind_err hxs]; exact ⟨h1, h2, h3⟩
  | panic p => rw [bind_panic hxs]; exact ⟨h1, h2, h3⟩
  | diverge => rw [bind_diverge hxs]; exact ⟨h1, h2, h3⟩

theorem bound_cf (h : CharDoc P d) : (CF P d).Holds bound (fun _ => True) := by
  refine Frame.Holds.bindAt (symSet_cf h (by decide)) fun s a s' hs hx hs' _ => ?_
  exact bind_at (V := fun _ => True) (back_ok (s' := s) (a := ()) hs' (takeOne_canBack hs hx) trivial) fun _ _ => ws_cf h

theorem complexMapping_cf (h : CharDoc P d) : (CF P d).Holds complexMapping (fun _ => True) :=
  Holds.bind (sym_cf h (by decide)) fun _ _ => bound_cf h

theorem numPrefix_cf (h : CharDoc P d) : (CF P d).Holds numPrefix (fun _ => True) :=
  Holds.bind (orDefault_cf (sym_cf h (by decide)) trivial) fun _ _ =>
    takeWhile_cf h (.inl fun _ hx => isDigit_ascii hx)

theorem octal_cf (h : CharDoc P d) : (CF P d).Holds octal (fun _ => True) :=
  Holds.bind (sym_cf h (by decide)) fun _ _ =>
    takeWhile_cf h (.inl fun _ hx => asciiDigit_ascii (by decide) hx)
theorem hexadecimal_cf (h : CharDoc P d) : (CF P d).Holds hexadecimal (fun _ => True) :=
  Holds.bind (sym_cf h (by decide)) fun _ _ =>
    takeWhile_cf h (.inl fun _ hx => asciiDigit_ascii (by decide) hx)

theorem octalOrHex_cf (h : CharDoc P d) : (CF P d).Holds octalOrHex (fun _ => True) :=
  Holds.bind (isOk_cf (octal_cf h)) fun _ _ => Holds.ite (fun _ => Holds.pure trivial) fun _ =>
    isOk_cf (hexadecimal_cf h)

theorem int_cf (h : CharDoc P d) : (CF P d).Holds int (Over P) := by
  refine Holds.bind (numPrefix_cf h) fun _ _ => Holds.bind text_cf fun s hs => ?_
  refine Holds.bind (V := Over P) ?_ fun s' hs' => Holds.bind (ws_cf h) fun _ _ =>
    Holds.bind (bound_cf h) fun _ _ => Holds.pure hs'
  refine Holds.ite (fun _ => ?_) fun _ => Holds.pure hs
  exact Holds.bind (context_cf (octalOrHex_cf h)) fun _ _ =>
    Holds.ite (fun _ => text_cf) fun _ => Holds.pure hs

theorem floatTail_cf (h : CharDoc P d) : (CF P d).Holds floatTail (fun _ => True) := by
  intro s hs
  -- after the spaces every position since `s.pos` is a boundary
  obtain ⟨w1, _, _⟩ := ws_cf h (opt := .more 0) s hs
  have hws : ws (.more 0) s = (ws (.more 0) s) := rfl
  simp only [floatTail, count]
  rcases hr : ws (.more 0) s with ⟨r, s1⟩
  rw [hr] at w1
  have w1 : OnChars P d s1 := w1
  have key : s.pos < s1.pos → CanBack P d s1 := by
    intro hlt
    simp only [ws, takeWhile] at hr
    split at hr
    · split at hr
      · split at hr
        · simp only [Prod.mk.injEq] at hr; rw [← hr.2] at hlt; exact absurd hlt (Nat.lt_irrefl _)
        · rename_i h0; exact absurd rfl h0
      · simp only [TakeOpt.lo?, Nat.not_lt_zero, if_false, Prod.mk.injEq] at hr
        have e : s1.pos = s.pos + takeCount (fun c => isAsciiWs c && c != 0x0A && c != 0x0D) (.more 0) s.rest 0 := by
          rw [← hr.2]
        have : s1.pos - 1 = s.pos + (takeCount (fun c => isAsciiWs c && c != 0x0A && c != 0x0D) (.more 0) s.rest 0 - 1) := by
          omega
        rw [CanBack, this]
        refine hs.advance h (Over.ascii h.ascii fun x hx => ?_)
        have := takeCount_mem (fun c => isAsciiWs c && c != 0x0A && c != 0x0D) (.more 0) s.rest 0 x ?_
        · simp only [Bool.and_eq_true] at this; exact isAsciiWs_ascii this.1.1
        · rw [Nat.sub_zero]
          exact (List.take_prefix_take_left (by omega)).subset hx
    · simp only [Prod.mk.injEq] at hr; rw [← hr.2] at hlt; exact absurd hlt (Nat.lt_irrefl _)
  have hc : ∀ r', count (ws (.more 0)) s = r' → (r' = (.ok (s1.pos - s.pos), s1) ∨
      ∀ n, r'.1 ≠ .ok n) ∧ OnChars P d r'.2 := by
    rintro _ rfl
    simp only [count]
    rw [bind_ok (get_run _)]
    cases r with
    | ok a =>
      rw [bind_ok hr, bind_ok (get_run _)]
      split
      · exact ⟨.inl rfl, w1⟩
      · exact ⟨.inr (by simp), w1⟩
    | err e => rw [bind_err hr]; exact ⟨.inr (by simp), w1⟩
    | panic p => rw [bind_panic hr]; exact ⟨.inr (by simp), w1⟩
    | diverge => rw [bind_diverge hr]; exact ⟨.inr (by simp), w1⟩
  show (CF P d).W ((count (ws (.more 0)) >>= fun n => runIf (decide (n > 0)) (back 1) >>= fun _ => bound) s).2 ∧ _
  have goal : ∀ r' s', count (ws (.more 0)) s = (r', s') →
      (CF P d).W ((count (ws (.more 0)) >>= fun n => runIf (decide (n > 0)) (back 1) >>= fun _ => bound) s).2 ∧
      True ∧ (CF P d).OutOk (fun _ => True)
        ((count (ws (.more 0)) >>= fun n => runIf (decide (n > 0)) (back 1) >>= fun _ => bound) s).2
        ((count (ws (.more 0)) >>= fun n => runIf (decide (n > 0)) (back 1) >>= fun _ => bound) s).1 := by
    intro r' s' hcr
    obtain ⟨h1, h2⟩ := hc _ hcr
    cases r' with
    | ok n =>
      rw [bind_ok hcr]
      rcases h1 with h1 | h1
      · cases h1
        refine bind_at (V := fun _ => True) ?_ fun _ _ => bound_cf h
        by_cases hlt : s1.pos - s.pos > 0
        · simp only [hlt, decide_true, runIf]
          exact back_ok (s' := s) (a := ()) w1 (key (by omega)) trivial
        · simp only [hlt, decide_false, runIf]
          exact ⟨w1, trivial, trivial⟩
      · exact absurd rfl (h1 n)
    | err e => rw [bind_err hcr]; exact ⟨h2, trivial, trivial⟩
    | panic p => rw [bind_panic hcr]; exact ⟨h2, trivial, trivial⟩
    | diverge => rw [bind_diverge hcr]; exact ⟨h2, trivial, trivial⟩
  rcases hcr : count (ws (.more 0)) s with ⟨r', s'⟩
  exact goal r' s' hcr

theorem float_cf (h : CharDoc P d) : (CF P d).Holds float (Over P) :=
  Holds.bind (numPrefix_cf h) fun _ _ => Holds.bind (sym_cf h (by decide)) fun _ _ =>
    Holds.bind (takeWhile_cf h (.inl fun _ hx => isDigit_ascii hx)) fun _ _ =>
      Holds.bind text_cf fun _ hs => Holds.bind (floatTail_cf h) fun _ _ =>
        Holds.pure (hs.trimEndMatches (by decide))

theorem sciFloat_cf (h : CharDoc P d) : (CF P d).Holds sciFloat (Over P) :=
  Holds.bind (numPrefix_cf h) fun _ _ => Holds.bind (symSet_cf h (by decide)) fun _ _ =>
    Holds.bind (takeWhile_cf h (aligned_isIn (by decide))) fun _ _ =>
    Holds.bind (takeWhile_cf h (.inl fun _ hx => isDigit_ascii hx)) fun _ _ =>
      Holds.bind text_cf fun _ hs => Holds.bind (floatTail_cf h) fun _ _ => Holds.pure hs

theorem quotedLoop_cf (h : CharDoc P d) {q : UInt8} (hq : q < 0x80) {ig : Bytes}
    (hig : ∀ x ∈ ig, x < 0x80) {n : Nat} {v : Bytes} (hv : Over P v) :
    (CF P d).Holds (quotedLoop q ig n v) (Over P) := by
  induction n generalizing v with
  | zero => exact diverge_cf
  | succ n ih =>
    refine Holds.bind forward_cf fun _ _ => Holds.bind (takeWhile_cf h (aligned_notIn ?_)) fun _ _ =>
      Holds.bind text_cf fun t ht => Holds.bind forward_cf fun _ _ =>
      Holds.bind (isOk_cf (symSeq_cf h hig)) fun _ _ =>
        Holds.ite (fun _ => ih ((hv.append ht).snoc h.ascii hq)) fun _ => ?_
    · intro x hx
      simp only [List.mem_cons, List.not_mem_nil, or_false] at hx
      rcases hx with rfl | rfl | rfl | rfl
      · decide
      · decide
      · decide
      · exact hq
    refine Holds.bind (V := fun _ => True) (Holds.try? (gap_cf h) (fun _ _ => trivial) trivial) fun o _ => ?_
    cases o with
    | some t' => exact Holds.bind (ws_cf h) fun _ _ => ih ((hv.append ht).quotedBreak h.ascii _)
    | none =>
      refine Holds.bind (isOk_cf (sym_cf h (by decide))) fun _ _ =>
        Holds.ite (fun _ => ih ((hv.append ht).snoc h.ascii (by decide))) fun _ =>
        Holds.bind (isOk_cf (sym_cf h hq)) fun _ _ => Holds.ite (fun _ => Holds.pure (hv.append ht)) fun _ => ?_
      exact ih (hv.append ht)

theorem stringQuoted_cf (h : CharDoc P d) {n : Nat} {q : UInt8} (hq : q < 0x80) {ig : Bytes}
    (hig : ∀ x ∈ ig, x < 0x80) : (CF P d).Holds (stringQuoted n q ig) (Over P) :=
  context_cf <| Holds.bind (sym_cf h hq) fun _ _ => Holds.bind forward_cf fun _ _ =>
    Holds.bind (ws_cf h) fun _ _ => Holds.bind text_cf fun _ hv => quotedLoop_cf h hq hig hv

theorem plainStop_cf (h : CharDoc P d) : (CF P d).Holds plainStop (fun _ => True) := by
  refine Holds.bind food_cf fun _ _ => Holds.ite (fun _ => Holds.pure trivial) fun _ =>
    Holds.bind (isOk_cf (symSeq_cf h (by decide))) fun _ _ => Holds.ite (fun _ => Holds.pure trivial) fun _ =>
    Holds.bind (V := fun _ => True) ?_ fun _ _ => Holds.ite (fun _ => Holds.pure trivial) fun _ =>
      isOk_cf (symSeq_cf h (by decide))
  exact Holds.bind (isOk_cf (sym_cf h (by decide))) fun _ _ =>
    Holds.ite (fun _ => isOk_cf (nl_cf h)) fun _ => Holds.pure trivial

theorem plainLoop_cf (h : CharDoc P d) {level : Nat} {inner : Bool} {patt : Bytes}
    (hp : ∀ x ∈ patt, x < 0x80) {n : Nat} {v : Bytes} {lead : Bool} (hv : Over P v) :
    (CF P d).Holds (plainLoop level inner patt n v lead) (Over P) := by
  induction n generalizing v lead with
  | zero => exact diverge_cf
  | succ n ih =>
    refine Holds.bind forward_cf fun _ _ => Holds.bind (takeWhile_cf h (aligned_notIn hp)) fun _ _ =>
      Holds.bind text_cf fun t ht => Holds.bind forward_cf fun _ _ =>
      Holds.bind (plainStop_cf h) fun _ _ => Holds.ite (fun _ => ?_) fun _ => ?_
    · exact Holds.bind backward_cf fun _ _ => Holds.pure (hv.append ht)
    have hv' := hv.append ht
    refine Holds.bind forward_cf fun _ _ =>
      Holds.bind (isOk_cf (symSet_cf h (by decide))) fun _ _ => Holds.ite (fun _ => ?_) fun _ => ?_
    · refine Holds.bind text_cf fun t' ht' => ih (Over.append ?_ ht')
      split
      · exact hv'.trimEnd
      · exact hv'
    refine Holds.bind (V := fun _ => True) (Holds.ite (fun _ => isOk_cf (symSet_cf h (by decide)))
      fun _ => Holds.pure trivial) fun _ _ => Holds.ite (fun _ => ?_) fun _ => ?_
    · exact Holds.bind text_cf fun t' ht' => ih (hv'.append ht')
    refine Holds.bind (isOk_cf (ind_cf h)) fun _ _ => Holds.ite (fun _ => ih hv') fun _ => ?_
    refine Holds.bind (V := fun _ => True) (Holds.try? (gap_cf h) (fun _ _ => trivial) trivial) fun o _ => ?_
    cases o with
    | some t' =>
      exact Holds.bind (isOk_cf (ind_cf h)) fun _ _ =>
        Holds.ite (fun _ => ih (hv'.plainBreak h.ascii _)) fun _ => Holds.pure (hv'.plainBreak h.ascii _)
    | none => exact Holds.pure hv'

theorem plainPatt_ascii {inner : Bool} : ∀ x ∈ plainPatt inner, x < 0x80 := by
  cases inner <;> decide

theorem stringPlain_cf (h : CharDoc P d) {n level : Nat} {inner : Bool} :
    (CF P d).Holds (stringPlain n level inner) (Over P) :=
  context_cf <| Holds.bind (plainLoop_cf h plainPatt_ascii .nil) fun _ hv =>
    Holds.ite (fun _ => mismatch_cf) fun _ => Holds.pure hv.trimEnd

end
end YamlPeg
