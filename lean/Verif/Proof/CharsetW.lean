import Verif.Proof.CharsetP
/-! # Character boundaries: block scalars, tags, anchors, directives -/

namespace YamlPeg
open M Frame

section
variable {P : Bytes → Prop} {d : Bytes} {α : Type}

theorem isOk_true {σ : Type} {x : M σ α} {s s' : σ} (h : isOk x s = (.ok true, s')) :
    ∃ a, x s = (.ok a, s') := by
  simp only [isOk] at h
  rcases hx : x s with ⟨r, s1⟩
  rw [hx] at h
  cases r <;> simp_all

theorem isOk_false {σ : Type} {x : M σ α} {s s' : σ} (h : isOk x s = (.ok false, s')) :
    ∃ e, x s = (.err e, s') := by
  simp only [isOk] at h
  rcases hx : x s with ⟨r, s1⟩
  rw [hx] at h
  cases r <;> simp_all

theorem holds_at {x : PM α} {V : α → Prop} (hx : (CF P d).Holds x V) {s s' : Parser} {r : Out α}
    (hs : OnChars P d s) (h : x s = (r, s')) : OnChars P d s' := by
  have := (hx s hs).1
  rw [h] at this
  exact this

theorem symSeq_canBack (h : CharDoc P d) {l : Bytes} (hl : ∀ x ∈ l, x < 0x80) (hne : l ≠ [])
    {s s' : Parser} {a : Unit} (hs : OnChars P d s) (hr : symSeq l s = (.ok a, s')) :
    CanBack P d s' := by
  induction l generalizing s with
  | nil => exact absurd rfl hne
  | cons x xs ih =>
    obtain ⟨_, s1, h1, h2⟩ := bind_ok_inv hr
    cases xs with
    | nil =>
      simp only [symSeq, pure_run, Prod.mk.injEq] at h2
      rw [← h2.2]
      exact takeOne_canBack hs h1
    | cons y ys =>
      exact ih (fun z hz => hl z (by simp [hz])) (by simp) (holds_at (sym_cf h (hl x (by simp))) hs h1) h2

theorem nl_canBack (h : CharDoc P d) {s s' : Parser} {a : Unit} (hs : OnChars P d s)
    (hr : nl s = (.ok a, s')) : CanBack P d s' := by
  simp only [nl, context] at hr
  have hs0 : OnChars P d { s with eaten := s.pos } := ⟨hs.doc, hs.pos, hs.pos, hs.tag⟩
  generalize hb : (do
      if ← isOk (symSeq b!"\r\n") then pure ()
      else if ← isOk (symSeq b!"\n\r") then pure ()
      else if ← isOk (sym 0x0A) then pure ()
      else if ← isOk (sym 0x0D) then pure ()
      else mismatch : PM Unit) = body at hr
  rcases hq : body { s with eaten := s.pos } with ⟨r, s1⟩
  rw [hq] at hr
  simp only [Prod.mk.injEq] at hr
  obtain ⟨rfl, rfl⟩ := hr
  show CanBack P d s1
  rw [← hb] at hq
  obtain ⟨b, t1, g1, hq⟩ := bind_ok_inv hq
  cases b with
  | true =>
    simp only [if_true, pure_run, Prod.mk.injEq] at hq
    rw [← hq.2]
    obtain ⟨_, g1⟩ := isOk_true g1
    exact symSeq_canBack h (by decide) (by simp) hs0 g1
  | false =>
  have hs1 := holds_at (isOk_cf (symSeq_cf h (by decide))) hs0 g1
  rw [if_neg (by simp)] at hq
  obtain ⟨b, t2, g2, hq⟩ := bind_ok_inv hq
  cases b with
  | true =>
    simp only [if_true, pure_run, Prod.mk.injEq] at hq
    rw [← hq.2]
    obtain ⟨_, g2⟩ := isOk_true g2
    exact symSeq_canBack h (by decide) (by simp) hs1 g2
  | false =>
  have hs2 := holds_at (isOk_cf (symSeq_cf h (by decide))) hs1 g2
  rw [if_neg (by simp)] at hq
  obtain ⟨b, t3, g3, hq⟩ := bind_ok_inv hq
  cases b with
  | true =>
    simp only [if_true, pure_run, Prod.mk.injEq] at hq
    rw [← hq.2]
    obtain ⟨_, g3⟩ := isOk_true g3
    exact takeOne_canBack hs2 g3
  | false =>
  have hs3 := holds_at (isOk_cf (sym_cf h (by decide))) hs2 g3
  rw [if_neg (by simp)] at hq
  obtain ⟨b, t4, g4, hq⟩ := bind_ok_inv hq
  cases b with
  | true =>
    simp only [if_true, pure_run, Prod.mk.injEq] at hq
    rw [← hq.2]
    obtain ⟨_, g4⟩ := isOk_true g4
    exact takeOne_canBack hs3 g4
  | false =>
  rw [if_neg (by simp)] at hq
  simp [mismatch, M.throw] at hq

/-! Which methods leave the mark alone, whatever the state. -/

/-- The mark is left alone. -/
def KeepsMark (x : PM α) : Prop := ∀ s, (x s).2.eaten = s.eaten

theorem takeWhile_mark {f : UInt8 → Bool} {opt : TakeOpt} : KeepsMark (takeWhile f opt) := by
  intro s
  simp only [takeWhile]
  repeat' split
  all_goals rfl

theorem KeepsMark.bind {β : Type} {x : PM α} {f : α → PM β} (hx : KeepsMark x) (hf : ∀ a, KeepsMark (f a)) :
    KeepsMark (x >>= f) := by
  intro s
  have := hx s
  rcases hr : x s with ⟨r, s'⟩
  rw [hr] at this
  cases r with
  | ok a => rw [bind_ok hr]; exact (hf a s').trans this
  | err e => rw [bind_err hr]; exact this
  | panic p => rw [bind_panic hr]; exact this
  | diverge => rw [bind_diverge hr]; exact this

theorem symTimes_mark {c : UInt8} {n : Nat} : KeepsMark (symTimes c n) := by
  induction n with
  | zero => exact fun s => rfl
  | succ n ih => exact KeepsMark.bind takeWhile_mark fun _ => ih

theorem ind_mark {level : Nat} : KeepsMark (ind level) :=
  KeepsMark.bind (fun _ => rfl) fun _ => KeepsMark.bind (fun _ => rfl) fun _ => symTimes_mark

theorem context_mark {x : PM α} : KeepsMark (context x) := fun _ => rfl

theorem gapLoop_total {cmt : Bool} {n t : Nat} : Total (gapLoop cmt n t) := by
  induction n generalizing t with
  | zero => intro s e; simp [gapLoop]
  | succ n ih =>
    refine Total.bind forward_total fun _ => Total.bind takeWhile_total fun _ =>
      Total.bind (Total.runIf orDefault_total) fun _ => Total.bind isOk_total fun _ => Total.ite ih ?_
    exact Total.bind backward_total fun _ => Total.pure

/-- A failed `nl` leaves the cursor where it was. -/
theorem nl_err_pos {s s' : Parser} {e : PErr} (hr : nl s = (.err e, s')) : s'.pos = s.pos := by
  simp only [nl, context] at hr
  generalize hb : (do
      if ← isOk (symSeq b!"\r\n") then pure ()
      else if ← isOk (symSeq b!"\n\r") then pure ()
      else if ← isOk (sym 0x0A) then pure ()
      else if ← isOk (sym 0x0D) then pure ()
      else mismatch : PM Unit) = body at hr
  rcases hq : body { s with eaten := s.pos } with ⟨r, s1⟩
  rw [hq] at hr
  simp only [Prod.mk.injEq] at hr
  obtain ⟨rfl, rfl⟩ := hr
  show s1.pos = s.pos
  have mk : ∀ {x : PM Unit}, KeepsMark x → KeepsMark (isOk x) := @fun x hx s => by
    have := hx s
    simp only [isOk]
    rcases hxs : x s with ⟨r, s'⟩
    rw [hxs] at this
    cases r <;> exact this
  have ss : ∀ l, KeepsMark (symSeq l) := by
    intro l
    induction l with
    | nil => exact fun s => rfl
    | cons x xs ih => exact KeepsMark.bind takeWhile_mark fun _ => ih
  rw [← hb] at hq
  have step : ∀ {x : PM Unit} {k : PM Unit} {t t' : Parser}, (isOk x >>= fun b => if b then pure () else k) t = (.err e, t') →
      ∃ t1, isOk x t = (.ok false, t1) ∧ k t1 = (.err e, t') := by
    intro x k t t' hh
    rcases hx : isOk x t with ⟨r, t1⟩
    cases r with
    | ok b =>
      rw [bind_ok hx] at hh
      cases b with
      | true => simp [pure_run] at hh
      | false => exact ⟨t1, rfl, by simpa using hh⟩
    | err e' => exact absurd (by rw [hx]) (isOk_total (x := x) t e')
    | panic p => rw [bind_panic hx] at hh; simp at hh
    | diverge => rw [bind_diverge hx] at hh; simp at hh
  obtain ⟨t1, g1, hq⟩ := step hq
  obtain ⟨t2, g2, hq⟩ := step hq
  obtain ⟨t3, g3, hq⟩ := step hq
  obtain ⟨t4, g4, hq⟩ := step hq
  have m1 := mk (ss b!"\r\n") { s with eaten := s.pos }
  have m2 := mk (ss b!"\n\r") t1
  have m3 := mk (takeWhile_mark (f := isIn [0x0A]) (opt := .one)) t2
  have m4 := mk (takeWhile_mark (f := isIn [0x0D]) (opt := .one)) t3
  rw [g1] at m1
  rw [g2] at m2
  change (isOk (sym 0x0A) t2).2.eaten = _ at m3
  change (isOk (sym 0x0D) t3).2.eaten = _ at m4
  rw [g3] at m3
  rw [g4] at m4
  simp only [mismatch, M.throw, Prod.mk.injEq] at hq
  rw [← hq.2]
  obtain ⟨e', g4'⟩ := isOk_false g4
  have := sym_returns t3 e' (by rw [g4'])
  rw [g4'] at this
  rw [this]
  show t4.eaten = s.pos
  have m1 : t1.eaten = s.pos := m1
  have m2 : t2.eaten = t1.eaten := m2
  have m3 : t3.eaten = t2.eaten := m3
  have m4 : t4.eaten = t3.eaten := m4
  omega

/-- A failed `gap` that skips no comment leaves the cursor where it was. -/
theorem gap_err_pos {s s' : Parser} {e : PErr} (hr : gap false s = (.err e, s')) : s'.pos = s.pos := by
  simp only [gap, context] at hr
  generalize hb : (do
    runIf false (orDefault () comment)
    nl
    let s ← get
    gapLoop false (s.rest.length + 1) 1 : PM Nat) = body at hr
  rcases hq : body { s with eaten := s.pos } with ⟨r, s1⟩
  rw [hq] at hr
  simp only [Prod.mk.injEq] at hr
  obtain ⟨rfl, rfl⟩ := hr
  show s1.pos = s.pos
  rw [← hb] at hq
  rw [bind_ok (show runIf false (orDefault () comment) { s with eaten := s.pos } =
    (.ok (), { s with eaten := s.pos }) from rfl)] at hq
  rcases hn : nl { s with eaten := s.pos } with ⟨r, s2⟩
  cases r with
  | ok a =>
    rw [bind_ok hn, bind_ok (get_run _)] at hq
    exact absurd (by rw [hq]) (gapLoop_total s2 e)
  | err e' =>
    rw [bind_err hn] at hq
    simp only [Prod.mk.injEq] at hq
    rw [← hq.2]
    have := nl_err_pos hn
    exact this
  | panic p => rw [bind_panic hn] at hq; simp at hq
  | diverge => rw [bind_diverge hn] at hq; simp at hq

/-- One line of a block scalar, then the rest. -/
def wrappedLine (level : Nat) (sep : UInt8) (leading : Bool) (n : Nat) (v : Bytes) : PM Bytes := do
  forward
  takeWhile (notIn b!"\n\r") (.more 0)
  let s ← text
  wrappedLoop level sep leading n (wrappedPush sep leading v s)

theorem wrappedLoop_succ (level : Nat) (sep : UInt8) (leading : Bool) (n : Nat) (v : Bytes) :
    wrappedLoop level sep leading (n + 1) v = (do
      nl
      forward
      if ← isOk (ind level) then wrappedLine level sep leading n v
      else match ← try? (gap false) with
        | some t =>
          if ← isOk (ind level) then wrappedLine level sep leading n (v ++ List.replicate t 0x0A)
          else pure (v ++ List.replicate t 0x0A)
        | none => pure v) := rfl

theorem wrappedLoop_cf (h : CharDoc P d) {level : Nat} {sep : UInt8} (hsep : sep < 0x80)
    {leading : Bool} {n : Nat} {v : Bytes} (hv : Over P v) :
    (CF P d).Holds (wrappedLoop level sep leading n v) (Over P) := by
  induction n generalizing v with
  | zero => exact diverge_cf
  | succ n ih =>
    have line : ∀ {v}, Over P v → (CF P d).Holds (wrappedLine level sep leading n v) (Over P) :=
      fun hv => Holds.bind forward_cf fun _ _ => Holds.bind (takeWhile_cf h (aligned_notIn (by decide)))
        fun _ _ => Holds.bind text_cf fun _ hs => ih (hv.wrappedPush h.ascii hsep hs)
    rw [wrappedLoop_succ]
    refine Holds.bind (nl_cf h) fun _ _ => Holds.bind forward_cf fun _ _ =>
      Holds.bind (isOk_cf (ind_cf h)) fun _ _ => Holds.ite (fun _ => line hv) fun _ => ?_
    refine Holds.bind (V := fun _ => True) (Holds.try? (gap_cf h) (fun _ _ => trivial) trivial) fun o _ => ?_
    cases o with
    | none => exact Holds.pure hv
    | some t =>
      have hv' := hv.append (Over.replicate h.ascii (n := t) (c := 0x0A) (by decide))
      exact Holds.bind (isOk_cf (ind_cf h)) fun _ _ => Holds.ite (fun _ => line hv') fun _ => Holds.pure hv'

/-- The loop ends behind a line break. -/
theorem wrappedLoop_canBack (h : CharDoc P d) {level : Nat} {sep : UInt8} {leading : Bool} (n : Nat) :
    ∀ {v r : Bytes} {s s' : Parser}, OnChars P d s →
      wrappedLoop level sep leading n v s = (.ok r, s') → CanBack P d s' := by
  induction n with
  | zero => intro v r s s' _ hr; simp [wrappedLoop, diverge] at hr
  | succ n ih =>
    intro v r s s' hs hr
    have line : ∀ {v r : Bytes} {s s' : Parser}, OnChars P d s →
        wrappedLine level sep leading n v s = (.ok r, s') → CanBack P d s' := by
      intro v r s s' hs hr
      obtain ⟨_, s1, g1, hr⟩ := bind_ok_inv hr
      have hs1 := holds_at forward_cf hs g1
      obtain ⟨_, s2, g2, hr⟩ := bind_ok_inv hr
      have hs2 := holds_at (takeWhile_cf h (aligned_notIn (by decide))) hs1 g2
      obtain ⟨_, s3, g3, hr⟩ := bind_ok_inv hr
      exact ih (holds_at text_cf hs2 g3) hr
    rw [wrappedLoop_succ] at hr
    obtain ⟨_, s1, g1, hr⟩ := bind_ok_inv hr
    have hs1 := holds_at (nl_cf h) hs g1
    have hb1 := nl_canBack h hs g1
    obtain ⟨_, s2, g2, hr⟩ := bind_ok_inv hr
    have hs2 := holds_at forward_cf hs1 g2
    simp only [forward, modify_run, Prod.mk.injEq, true_and] at g2
    have e2 : s2.eaten = s1.pos := by rw [← g2]
    obtain ⟨b, s3, g3, hr⟩ := bind_ok_inv hr
    have hs3 := holds_at (isOk_cf (ind_cf h)) hs2 g3
    cases b with
    | true => exact line hs3 (by simpa using hr)
    | false =>
    rw [if_neg (by simp)] at hr
    obtain ⟨_, g3⟩ := isOk_false g3
    have e3 : s3.eaten = s1.pos := by
      have := ind_mark (level := level) s2
      rw [g3] at this
      exact this.trans e2
    have p3 : s3.pos = s1.pos := by
      have := ind_returns (level := level) s2 _ (by rw [g3])
      rw [g3] at this
      exact this.trans e3
    obtain ⟨o, s4, g4, hr⟩ := bind_ok_inv hr
    have hs4 := holds_at (Holds.try? (V' := fun _ => True) (gap_cf h) (fun _ _ => trivial) trivial) hs3 g4
    simp only [try?] at g4
    rcases hg : gap false s3 with ⟨r4, s4'⟩
    rw [hg] at g4
    cases r4 with
    | ok t =>
      simp only [Prod.mk.injEq, Out.ok.injEq] at g4
      obtain ⟨rfl, rfl⟩ := g4
      have e4 : s4'.eaten = s1.pos := by
        have := context_mark (x := do
          runIf false (orDefault () comment)
          nl
          let s ← get
          gapLoop false (s.rest.length + 1) 1) s3
        rw [show context _ s3 = gap false s3 from rfl, hg] at this
        exact this.trans e3
      obtain ⟨b, s5, g5, hr⟩ := bind_ok_inv hr
      have hs5 := holds_at (isOk_cf (ind_cf h)) hs4 g5
      cases b with
      | true => exact line hs5 (by simpa using hr)
      | false =>
        simp only [Bool.false_eq_true, if_false, pure_run, Prod.mk.injEq] at hr
        rw [← hr.2]
        obtain ⟨_, g5⟩ := isOk_false g5
        have e5 := ind_mark (level := level) s4'
        have p5 := ind_returns (level := level) s4' _ (by rw [g5])
        rw [g5] at e5 p5
        rw [CanBack, show s5.pos = s1.pos from p5.trans (e5.trans e4)]
        exact hb1
    | err e =>
      simp only [Prod.mk.injEq, Out.ok.injEq] at g4
      obtain ⟨rfl, rfl⟩ := g4
      simp only [pure_run, Prod.mk.injEq] at hr
      rw [← hr.2, CanBack, gap_err_pos hg, p3]
      exact hb1
    | panic p => simp at g4
    | diverge => simp at g4

theorem stringWrapped_cf (h : CharDoc P d) {level : Nat} {sep : UInt8} (hsep : sep < 0x80)
    {leading : Bool} : (CF P d).Holds (stringWrapped level sep leading) (Over P) := by
  refine context_cf (Holds.bind (V := fun _ => True) (Holds.get fun _ _ => trivial) fun s0 _ => ?_)
  refine Frame.Holds.bindAt (wrappedLoop_cf h hsep .nil) fun s v s' hs hr hs' hv => ?_
  exact bind_at (V := fun _ => True) (back_ok (s' := s) (a := ()) hs' (wrappedLoop_canBack h _ hs hr) trivial)
    fun _ _ => Holds.pure (hv.snoc h.ascii (by decide))

theorem chomp_cf (h : CharDoc P d) : (CF P d).Holds chomp (fun _ => True) :=
  context_cf <| Holds.bind (isOk_cf (sym_cf h (by decide))) fun _ _ =>
    Holds.ite (fun _ => Holds.pure trivial) fun _ =>
    Holds.bind (isOk_cf (sym_cf h (by decide))) fun _ _ =>
      Holds.ite (fun _ => Holds.pure trivial) fun _ => Holds.pure trivial

theorem stringLiteral_cf (h : CharDoc P d) {level : Nat} :
    (CF P d).Holds (stringLiteral level) (Over P) :=
  Holds.bind (sym_cf h (by decide)) fun _ _ => Holds.bind (chomp_cf h) fun _ _ =>
    Holds.bind (ws_cf h) fun _ _ => Holds.bind (stringWrapped_cf h (by decide)) fun _ hs =>
      Holds.pure (hs.chomp h.ascii)

theorem stringFolded_cf (h : CharDoc P d) {level : Nat} :
    (CF P d).Holds (stringFolded level) (Over P) :=
  Holds.bind (sym_cf h (by decide)) fun _ _ => Holds.bind (chomp_cf h) fun _ _ =>
    Holds.bind (ws_cf h) fun _ _ => Holds.bind (stringWrapped_cf h (by decide)) fun _ hs =>
      Holds.pure (hs.chomp h.ascii)

theorem identifier_cf (h : CharDoc P d) : (CF P d).Holds identifier (fun _ => True) :=
  Holds.bind (takeWhile_cf h (.inl fun _ hx => isAlnum_ascii hx)) fun _ _ =>
    takeWhile_cf h (.inl fun x hx => by
      simp only [Bool.or_eq_true, beq_iff_eq] at hx
      rcases hx with hx | rfl
      · exact isAlnum_ascii hx
      · decide)

theorem tagLookup_cf {key : Bytes} : (CF P d).Holds (tagLookup key) (Over P) := by
  intro s hs
  simp only [tagLookup]
  cases hg : mapGet key s.tag with
  | none => exact ⟨hs, trivial, trivial⟩
  | some v => exact ⟨hs, trivial, hs.tag key v hg⟩

theorem tagPrefixPart_cf (h : CharDoc P d) {handle : Bytes} :
    (CF P d).Holds (tagPrefixPart handle) (Over P) := by
  refine Holds.ite (fun _ => ?_) fun _ => ?_
  · exact Holds.bind (isOk_cf (sym_cf h (by decide))) fun _ _ =>
      Holds.ite (fun _ => tagLookup_cf) fun _ => Holds.pure .nil
  · refine Holds.bind (isOk_cf (sym_cf h (by decide))) fun _ _ => Holds.ite (fun _ => ?_) fun _ => ?_
    · refine Holds.bind (V := Over P) (context_cf ?_) fun t ht =>
        Holds.bind (sym_cf h (by decide)) fun _ _ => Holds.pure ht
      exact Holds.bind (takeWhile_cf h (aligned_notIn (by decide))) fun _ _ => text_cf
    · exact Holds.bind (isOk_cf (sym_cf h (by decide))) fun _ _ =>
        Holds.ite (fun _ => tagLookup_cf) fun _ => tagLookup_cf

theorem tag_cf (h : CharDoc P d) : (CF P d).Holds tag (Over P) := by
  refine Holds.bind (sym_cf h (by decide)) fun _ _ => context_cf ?_
  refine Holds.bind (orDefault_cf (identifier_cf h) trivial) fun _ _ => Holds.bind text_cf fun _ _ =>
    Holds.bind (tagPrefixPart_cf h) fun p hp => Holds.bind (V := Over P) (context_cf ?_) fun t ht =>
      Holds.pure (hp.append ht)
  exact Holds.bind (isOk_cf (identifier_cf h)) fun _ _ =>
    Holds.ite (fun _ => text_cf) fun _ => Holds.pure .nil

theorem anchor_cf (h : CharDoc P d) : (CF P d).Holds anchor (Over P) :=
  Holds.bind (sym_cf h (by decide)) fun _ _ =>
    context_cf (Holds.bind (identifier_cf h) fun _ _ => text_cf)
theorem anchorUse_cf (h : CharDoc P d) : (CF P d).Holds anchorUse (Over P) :=
  Holds.bind (sym_cf h (by decide)) fun _ _ =>
    context_cf (Holds.bind (identifier_cf h) fun _ _ => text_cf)

theorem count_cf {x : PM α} {V : α → Prop} (hx : (CF P d).Holds x V) :
    (CF P d).Holds (count x) (fun _ => True) :=
  Holds.bind (V := fun _ => True) (Holds.get fun _ _ => trivial) fun _ _ => Holds.bind hx fun _ _ =>
    Holds.bind (V := fun _ => True) (Holds.get fun _ _ => trivial) fun _ _ =>
      Holds.ite (fun _ => Holds.pure trivial) fun _ => Holds.panic trivial

theorem indDefine_cf (h : CharDoc P d) {level : Nat} :
    (CF P d).Holds (indDefine level) (fun _ => True) := by
  refine Holds.bind (runIf_cf (ind_cf h)) fun _ _ =>
    Holds.bind (count_cf (takeWhile_cf h (.inl fun _ hx => isAsciiWs_ascii hx))) fun n _ =>
    Holds.bind (V := fun _ => True) (Holds.get fun _ _ => trivial) fun s _ => ?_
  refine Holds.ite (fun _ => ?_) fun _ => Holds.ite (fun _ => ?_) fun _ => Holds.panic trivial
  · exact Holds.modify (fun _ hs => ⟨hs.doc, hs.pos, hs.eaten, hs.tag⟩) (fun _ _ => trivial) trivial
  · exact Holds.modify (fun _ hs => ⟨hs.doc, hs.pos, hs.eaten, hs.tag⟩) (fun _ _ => trivial) trivial

theorem directiveYaml_cf (h : CharDoc P d) : (CF P d).Holds directiveYaml (fun _ => True) := by
  refine Holds.bind (ws_cf h) fun _ _ => Holds.bind (V := fun _ => True) (Holds.get fun _ _ => trivial)
    fun _ _ => Holds.ite (fun _ => errAt_cf) fun _ => ?_
  refine Holds.bind (V := fun _ => True) (context_cf ?_) fun _ _ => Holds.ite (fun _ => ?_) fun _ => errAt_cf
  · exact Holds.bind (isOk_cf (symSeq_cf h (by decide))) fun _ _ =>
      Holds.ite (fun _ => Holds.pure trivial) fun _ => isOk_cf (symSeq_cf h (by decide))
  · exact Holds.modify (fun _ hs => ⟨hs.doc, hs.pos, hs.eaten, hs.tag⟩) (fun _ _ => trivial) trivial

theorem directiveHandle_cf (h : CharDoc P d) : (CF P d).Holds directiveHandle (Over P) := by
  refine Holds.bind (isOk_cf (identifier_cf h)) fun _ _ => Holds.ite (fun _ => ?_) fun _ => ?_
  · exact Holds.bind text_cf fun _ ht => Holds.bind (sym_cf h (by decide)) fun _ _ => Holds.pure ht
  · exact Holds.bind (isOk_cf (sym_cf h (by decide))) fun _ _ =>
      Holds.ite (fun _ => Holds.pure (Over.ascii h.ascii (by decide)))
        fun _ => Holds.pure (Over.ascii h.ascii (by decide))

theorem directiveTag_cf (h : CharDoc P d) : (CF P d).Holds directiveTag (fun _ => True) := by
  refine Holds.bind (ws_cf h) fun _ _ => Holds.bind (sym_cf h (by decide)) fun _ _ => context_cf ?_
  refine Holds.bind (directiveHandle_cf h) fun k _ => Holds.bind (ws_cf h) fun _ _ =>
    Holds.bind (V := Over P) (context_cf ?_) fun v hv => ?_
  · exact Holds.bind (takeWhile_cf h (aligned_notIn (by decide))) fun _ _ => text_cf
  · refine Holds.modify (fun s hs => ⟨hs.doc, hs.pos, hs.eaten, fun k' v' hg => ?_⟩)
      (fun _ _ => trivial) trivial
    have hg : mapGet k' (mapInsert k v s.tag) = some v' := hg
    rw [mapGet_mapInsert] at hg
    split at hg
    · cases hg; exact hv
    · exact hs.tag k' v' hg

theorem directive_cf (h : CharDoc P d) : (CF P d).Holds directive (fun _ => True) := by
  refine Holds.bind (sym_cf h (by decide)) fun _ _ => Holds.bind (V := fun _ => True) (context_cf ?_) fun _ _ =>
    Holds.bind (gap_cf h) fun _ _ => Holds.pure trivial
  refine Holds.bind (isOk_cf (symSeq_cf h (by decide))) fun _ _ => Holds.ite (fun _ => directiveYaml_cf h) fun _ => ?_
  exact Holds.bind (isOk_cf (symSeq_cf h (by decide))) fun _ _ => Holds.ite (fun _ => directiveTag_cf h) fun _ =>
    takeWhile_cf h (aligned_notIn (by decide))

theorem docEndP_cf (h : CharDoc P d) : (CF P d).Holds (do
    if (← food).isEmpty then pure true
    else context do
      let x ← (do if ← isOk (symSeq b!"---") then pure true else isOk (symSeq b!"..."))
      runIf x backward
      pure x) (fun _ => True) := by
  refine Holds.bind food_cf fun _ _ => Holds.ite (fun _ => Holds.pure trivial) fun _ => context_cf ?_
  refine Holds.bind (V := fun _ => True) ?_ fun _ _ => Holds.bind (runIf_cf backward_cf) fun _ _ => Holds.pure trivial
  exact Holds.bind (isOk_cf (symSeq_cf h (by decide))) fun _ _ =>
    Holds.ite (fun _ => Holds.pure trivial) fun _ => isOk_cf (symSeq_cf h (by decide))

end
end YamlPeg
