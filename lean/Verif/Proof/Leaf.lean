import Verif.Proof.Plain
import Verif.Model.Loader
/-! # Symbolic evaluation of the loader: node properties and leaf scalars -/

namespace YamlPeg
open M

/-- The loader `L` with the parser state `s`. -/
def ld (L : Loader) (s : Parser) : Loader := { L with parser := s }

@[simp] theorem ld_parser (L : Loader) (s : Parser) : (ld L s).parser = s := rfl
@[simp] theorem ld_ld (L : Loader) (s t : Parser) : ld (ld L s) t = ld L t := rfl
@[simp] theorem ld_hash (L : Loader) (s : Parser) : (ld L s).hash = L.hash := rfl
@[simp] theorem ld_anchors (L : Loader) (s : Parser) : (ld L s).anchors = L.anchors := rfl
@[simp] theorem ld_cyclic (L : Loader) (s : Parser) : (ld L s).cyclicMode = L.cyclicMode := rfl
@[simp] theorem ld_docInd (L : Loader) (s : Parser) : (ld L s).docInd = L.docInd := rfl

theorem lift_run {α : Type} (x : PM α) (L : Loader) (s : Parser) :
    lift x (ld L s) = ((x s).1, ld L (x s).2) := rfl

theorem lift_of {α : Type} {x : PM α} {L : Loader} {s s' : Parser} {o : Out α} (h : x s = (o, s')) :
    lift x (ld L s) = (o, ld L s') := by rw [lift_run, h]

variable (k : Ctx) (L : Loader) (pre mid post : Bytes)

/-- The node starts with neither an anchor nor a tag. -/
def noProps : Bytes → Bool
  | c :: _ => c != 0x26 && c != 0x21
  | [] => true

theorem sym_no (c : UInt8) (h : ∀ r, post ≠ c :: r) :
    sym c (st k pre [] post) = (.err .mismatch, st k pre [] post) := by
  cases post with
  | nil => simp
  | cons x r => rw [sym_miss _ _ _ _ _ _ (by rintro rfl; exact h r rfl)]; simp

theorem anchor_no (h : ∀ r, post ≠ 0x26 :: r) :
    orDefault [] anchor (st k pre [] post) = (.ok [], st k pre [] post) := by
  rw [orDefault_err]
  rw [anchor, bind_err (sym_no _ _ _ _ h)]

theorem tag_no (h : ∀ r, post ≠ 0x21 :: r) :
    orDefault [] tag (st k pre [] post) = (.ok [], st k pre [] post) := by
  rw [orDefault_err]
  rw [tag, bind_err (sym_no _ _ _ _ h)]

theorem nodeProps_none (h : noProps post = true) :
    nodeProps (ld L (st k pre [] post)) = (.ok ([], []), ld L (st k pre [] post)) := by
  have h1 : ∀ r, post ≠ 0x26 :: r := by rintro r rfl; simp [noProps] at h
  have h2 : ∀ r, post ≠ 0x21 :: r := by rintro r rfl; simp [noProps] at h
  have hf : lift forward (ld L (st k pre [] post)) = (.ok (), ld L (st k pre [] post)) := by
    rw [lift_of (forward_st ..)]; simp
  rw [nodeProps, bind_ok (lift_of (anchor_no _ _ _ h1))]
  simp only [List.isEmpty_nil, Bool.not_true, runIf_false]
  rw [bind_ok (pure_run ..), bind_ok hf, bind_ok (lift_of (tag_no _ _ _ h2))]
  simp only [List.isEmpty_nil, Bool.not_true, runIf_false]
  rw [bind_ok (pure_run ..), bind_ok hf, bind_ok (lift_of (anchor_no _ _ _ h1))]
  simp only [List.isEmpty_nil, Bool.not_true, Bool.false_eq_true, if_false]
  rw [bind_ok (pure_run ..), bind_ok hf]
  rfl

/-- A node without properties. -/
theorem scalarNode_ok {f : LM Yaml} {y : Yaml} {k' : Ctx} {L' : Loader} {p' m' post' : Bytes}
    (h : noProps post = true)
    (hf : f (ld L (st k pre [] post)) = (.ok y, ld L' (st k' p' m' post'))) :
    scalarNode f (ld L (st k pre [] post)) =
      (.ok (.mk (k.consumed + pre.length) [] y), ld L' (st k' (p' ++ m') [] post')) := by
  rw [scalarNode, bind_ok (nodeProps_none _ _ _ _ h)]
  simp only
  rw [bind_ok (get_run _), bind_ok hf, bind_ok (lift_of (forward_st ..))]
  simp only [List.isEmpty_nil, Bool.not_true, Bool.false_eq_true, if_false, pure_run, ld_parser,
    st_indicator, List.length_nil, Nat.add_zero]
  rfl

theorem scalarNode_err {f : LM Yaml} {e : PErr} {l' : Loader}
    (h : noProps post = true) (hf : f (ld L (st k pre [] post)) = (.err e, l')) :
    scalarNode f (ld L (st k pre [] post)) = (.err e, l') := by
  rw [scalarNode, bind_ok (nodeProps_none _ _ _ _ h)]
  simp only
  rw [bind_ok (get_run _), bind_err hf]

/-- A number never starts a new byte here. -/
def atomHead : Bytes → Bool
  | c :: _ => c != 0x2A && c != 0x27 && c != 0x22
  | [] => true

theorem anchorUse_no (h : ∀ r, post ≠ 0x2A :: r) :
    anchorUse (st k pre [] post) = (.err .mismatch, st k pre [] post) := by
  rw [anchorUse, bind_err (sym_no _ _ _ _ h)]

theorem stringQuoted_no (n : Nat) (q : UInt8) (ig : Bytes) (h : ∀ r, post ≠ q :: r) :
    stringQuoted n q ig (st k pre [] post) = (.err .mismatch, st k pre [] post) := by
  have := context_st (k := k) (k' := k) (pre := pre) (mid := []) (post := post) (p' := [])
    (m' := []) (post' := post) (o := .err .mismatch) (f := do
      sym q
      forward
      ws (.more 0)
      let v ← text
      quotedLoop q ig n v) (by
        rw [bind_err (sym_no _ _ _ _ h)]; simp)
  rw [stringQuoted, this]; simp

/-- Text that is no number, alias or quoted string is left to `string_plain`. -/
theorem scalarAtom_plain (n level : Nat) (flow : Bool) (h1 : NotNum post) (h2 : atomHead post = true) :
    scalarAtom n level flow (ld L (st k pre [] post)) =
      (do match ← try? (lift (stringPlain n level flow)) with
          | some s => pure (some (resolvePlain s))
          | none => pure none : LM (Option Yaml)) (ld L (st k pre [] post)) := by
  rw [scalarAtom, bind_ok (try_err (lift_of (float_no _ _ _ h1)))]
  simp only
  rw [bind_ok (try_err (lift_of (sciFloat_no _ _ _ h1)))]
  simp only
  rw [bind_ok (try_err (lift_of (int_no _ _ _ h1)))]
  simp only
  rw [bind_ok (try_err (lift_of (anchorUse_no _ _ _ (by rintro r rfl; simp [atomHead] at h2))))]
  simp only
  rw [bind_ok (try_err (lift_of (stringQuoted_no _ _ _ _ _ _ (by rintro r rfl; simp [atomHead] at h2))))]
  simp only
  rw [bind_ok (try_err (lift_of (stringQuoted_no _ _ _ _ _ _ (by rintro r rfl; simp [atomHead] at h2))))]
  rfl

/-- A plain scalar. -/
theorem scalarAtom_read {level : Nat} {flow : Bool} {T E : Bytes} {k' : Ctx} {tail : Bytes}
    (h1 : NotNum (T ++ E)) (h2 : atomHead (T ++ E) = true)
    (hE : PlainEnd k level flow T E k' tail) (hB : plainBody flow E false T = true)
    (hu : Utf8 T) (hne : T ≠ []) (htrim : trimEnd T = T) (n : Nat) (hn : T.length < n) :
    scalarAtom n level flow (ld L (st k pre [] (T ++ E))) =
      (.ok (some (resolvePlain T)), ld L (st k' pre T E)) := by
  rw [scalarAtom_plain _ _ _ _ _ _ _ h1 h2,
    bind_ok (try_ok (lift_of (stringPlain_read _ _ _ hE hB hu hne htrim n hn)))]
  simp

/-- Nothing: not even an empty plain scalar. -/
theorem scalarAtom_none {level : Nat} {flow : Bool} {E : Bytes} {k' : Ctx} {tail : Bytes}
    (h1 : NotNum E) (h2 : atomHead E = true) (hE : PlainEnd k level flow [] E k' tail)
    (n : Nat) (hn : 0 < n) :
    scalarAtom n level flow (ld L (st k pre [] E)) = (.ok none, ld L (st k' pre [] E)) := by
  rw [scalarAtom_plain _ _ _ _ _ _ _ h1 h2,
    bind_ok (try_err (lift_of (stringPlain_empty _ _ _ hE n hn)))]
  simp

/-! ## Numbers -/

/-- Bytes that end a number: `bound`'s set without blanks. -/
def NumEnd (E : Bytes) : Prop := ∃ c r, E = c :: r ∧ c ∈ b!":{}[],\n\r"

theorem NumEnd.bound {E : Bytes} (h : NumEnd E) :
    bound (st k pre mid E) = (.ok (), st k pre mid E) := by
  obtain ⟨c, r, rfl, hc⟩ := h
  have hb : isBlank c = false := by
    simp at hc; rcases hc with rfl | rfl | rfl | rfl | rfl | rfl | rfl | rfl <;> decide
  rw [bound_eq, if_pos]
  · simp [List.takeWhile, List.dropWhile, hb]
  · simp at hc; simp [headIn]; rcases hc with rfl | rfl | rfl | rfl | rfl | rfl | rfl | rfl <;> decide

theorem NumEnd.blank {E : Bytes} (h : NumEnd E) :
    E.takeWhile isBlank = [] ∧ E.dropWhile isBlank = E := by
  obtain ⟨c, r, rfl, hc⟩ := h
  have hb : isBlank c = false := by
    simp at hc; rcases hc with rfl | rfl | rfl | rfl | rfl | rfl | rfl | rfl <;> decide
  simp [List.takeWhile, List.dropWhile, hb]

theorem NumEnd.notDigit {E : Bytes} (h : NumEnd E) : ∀ c r, E = c :: r → isDigit c = false := by
  obtain ⟨c, r, rfl, hc⟩ := h
  rintro _ _ ⟨⟩
  simp at hc; rcases hc with rfl | rfl | rfl | rfl | rfl | rfl | rfl | rfl <;> decide

theorem NumEnd.head {E : Bytes} (h : NumEnd E) : ∀ c r, E = c :: r → c ∈ b!":{}[],\n\r" := by
  obtain ⟨c, r, rfl, hc⟩ := h
  rintro _ _ ⟨⟩; exact hc

theorem isDigit_not_minus {x : UInt8} (h : isDigit x = true) : x ≠ 0x2D := by
  rintro rfl; revert h; decide

theorem takeWhile_all {f : UInt8 → Bool} {d : Bytes} (hd : ∀ x ∈ d, f x = true) (E : Bytes)
    (hE : ∀ c r, E = c :: r → f c = false) :
    (d ++ E).takeWhile f = d ∧ (d ++ E).dropWhile f = E := by
  induction d with
  | nil => exact takeWhile_append_stop (S := []) hE
  | cons x d ih =>
    have := ih fun y hy => hd y (by simp [hy])
    simp [List.takeWhile, List.dropWhile, hd x (by simp), this]

/-- Sign and digits, then something else. -/
theorem numPrefix_read {sg d : Bytes} (hsg : IsSign sg) (hd : IsDigits d) (E : Bytes)
    (hE : ∀ c r, E = c :: r → isDigit c = false) :
    numPrefix (st k pre [] (sg ++ (d ++ E))) = (.ok (), st k pre (sg ++ d) E) := by
  obtain ⟨hne, hdig⟩ := hd
  obtain ⟨t1, t2⟩ := takeWhile_all hdig E hE
  have hs : signOf (sg ++ (d ++ E)) = sg ∧ unsigned (sg ++ (d ++ E)) = d ++ E := by
    rcases hsg with rfl | rfl
    · obtain ⟨x, d', rfl⟩ := List.exists_cons_of_ne_nil hne
      have hx := isDigit_not_minus (hdig x (by simp))
      simp only [List.nil_append, List.cons_append]
      constructor
      · unfold signOf; split
        · simp_all
        · rfl
      · unfold unsigned; split
        · simp_all
        · rfl
    · exact ⟨rfl, rfl⟩
  rw [numPrefix_eq, hs.1, hs.2, t1, t2, if_neg hne]

/-- A number is followed by spaces `u` and a byte that ends it. -/
structure NumRest (F u E : Bytes) : Prop where
  eq : F = u ++ E
  spaces : ∀ x ∈ u, x = 0x20
  stop : NumEnd E

theorem NumEnd.rest {E : Bytes} (h : NumEnd E) : NumRest E [] E := ⟨rfl, by simp, h⟩

theorem NumRest.head {F u E : Bytes} (h : NumRest F u E) : ∀ c r, F = c :: r → c ∈ b!" :{}[],\n\r" := by
  obtain ⟨rfl, hu, hE⟩ := h
  intro c r he
  cases u with
  | nil => have := hE.head c r he; simp at this ⊢; rcases this with h | h | h | h | h | h | h | h <;> simp [h]
  | cons x u => simp at he; rw [← he.1, hu x (by simp)]; simp

theorem NumRest.notDigit {F u E : Bytes} (h : NumRest F u E) : ∀ c r, F = c :: r → isDigit c = false := by
  intro c r he
  have := h.head c r he
  simp at this; rcases this with rfl | rfl | rfl | rfl | rfl | rfl | rfl | rfl | rfl <;> decide

theorem NumRest.blank {F u E : Bytes} (h : NumRest F u E) : F.takeWhile isBlank = u ∧ F.dropWhile isBlank = E := by
  obtain ⟨rfl, hu, hE⟩ := h
  refine takeWhile_all (fun x hx => by rw [hu x hx]; decide) E fun c r he => ?_
  have := hE.head c r he
  simp at this; rcases this with rfl | rfl | rfl | rfl | rfl | rfl | rfl | rfl <;> decide

theorem int_read' {sg d F u E : Bytes} (hsg : IsSign sg) (hd : IsDigits d) (hE : NumRest F u E) :
    int (st k pre [] (sg ++ d ++ F)) = (.ok (sg ++ d), st k pre (sg ++ d ++ u) E) := by
  have hasc : ∀ x ∈ sg ++ d, x < 0x80 := by
    intro x hx; rcases List.mem_append.1 hx with h | h
    · exact hsg.ascii x h
    · exact hd.ascii x h
  rw [List.append_assoc, int, bind_ok (numPrefix_read _ _ hsg hd F hE.notDigit), bind_ok (text_st ..),
    lossy_ascii _ hasc, bind_ok (int_tail _ _ _ _ _ ?_), bind_ok (ws_st ..), hE.blank.1, hE.blank.2,
    bind_ok (hE.stop.bound ..)]
  · simp
  · intro c r h
    have := hE.head c r h
    constructor <;> (rintro rfl; revert this; decide)

theorem int_read {sg d E : Bytes} (hsg : IsSign sg) (hd : IsDigits d) (hE : NumEnd E) :
    int (st k pre [] (sg ++ d ++ E)) = (.ok (sg ++ d), st k pre (sg ++ d) E) := by
  simpa using int_read' k pre hsg hd hE.rest

theorem float_no_point {sg d E : Bytes} (hsg : IsSign sg) (hd : IsDigits d)
    (hE : ∀ c r, E = c :: r → isDigit c = false ∧ c ≠ 0x2E) :
    float (st k pre [] (sg ++ d ++ E)) = (.err .mismatch, st k pre [] (sg ++ d ++ E)) := by
  rw [List.append_assoc, float, bind_ok (numPrefix_read _ _ hsg hd E fun c r h => (hE c r h).1)]
  cases E with
  | nil => rw [bind_err (sym_nil ..)]; simp
  | cons c r => rw [bind_err (sym_miss _ _ _ _ _ _ (hE c r rfl).2)]; simp

theorem sciFloat_no_e {sg d E : Bytes} (hsg : IsSign sg) (hd : IsDigits d)
    (hE : ∀ c r, E = c :: r → isDigit c = false ∧ c ∉ b!"eE") :
    sciFloat (st k pre [] (sg ++ d ++ E)) = (.err .mismatch, st k pre [] (sg ++ d ++ E)) := by
  rw [List.append_assoc, sciFloat, bind_ok (numPrefix_read _ _ hsg hd E fun c r h => (hE c r h).1)]
  cases E with
  | nil => rw [bind_err (symSet_nil ..)]; simp
  | cons c r => rw [bind_err (symSet_miss _ _ _ _ _ _ (hE c r rfl).2)]; simp

/-- A decimal integer. -/
theorem scalarAtom_int' {sg d F u E : Bytes} (hsg : IsSign sg) (hd : IsDigits d) (hE : NumRest F u E)
    (n level : Nat) (flow : Bool) :
    scalarAtom n level flow (ld L (st k pre [] (sg ++ d ++ F))) =
      (.ok (some (.int (sg ++ d))), ld L (st k pre (sg ++ d ++ u) E)) := by
  rw [scalarAtom, bind_ok (try_err (lift_of (float_no_point _ _ hsg hd ?_)))]
  · simp only
    rw [bind_ok (try_err (lift_of (sciFloat_no_e _ _ hsg hd ?_)))]
    · simp only
      rw [bind_ok (try_ok (lift_of (int_read' _ _ hsg hd hE)))]
      simp
    · intro c r h
      refine ⟨hE.notDigit c r h, ?_⟩
      have := hE.head c r h
      intro h'
      simp at h'
      rcases h' with rfl | rfl <;> (revert this; decide)
  · intro c r h
    refine ⟨hE.notDigit c r h, ?_⟩
    have := hE.head c r h
    rintro rfl; revert this; decide

theorem scalarAtom_int {sg d E : Bytes} (hsg : IsSign sg) (hd : IsDigits d) (hE : NumEnd E)
    (n level : Nat) (flow : Bool) :
    scalarAtom n level flow (ld L (st k pre [] (sg ++ d ++ E))) =
      (.ok (some (.int (sg ++ d))), ld L (st k pre (sg ++ d) E)) := by
  simpa using scalarAtom_int' k L pre hsg hd hE.rest n level flow

/-- An integer with a radix prefix. -/
theorem scalarAtom_radix' {r : UInt8} {radix : UInt8} (hr : (r = 0x78 ∧ radix = 16) ∨ (r = 0x6F ∧ radix = 8))
    {d F u E : Bytes} (hne : d ≠ []) (hd : ∀ x ∈ d, asciiDigit radix x = true) (hE : NumRest F u E)
    (n level : Nat) (flow : Bool) :
    scalarAtom n level flow (ld L (st k pre [] (0x30 :: r :: d ++ F))) =
      (.ok (some (.int (0x30 :: r :: d))), ld L (st k pre (0x30 :: r :: d ++ u) E)) := by
  have hrad : radix ≤ 16 := by rcases hr with ⟨_, rfl⟩ | ⟨_, rfl⟩ <;> decide
  have hr' : isDigit r = false ∧ r ≠ 0x2E ∧ r ∉ b!"eE" ∧ r < 0x80 := by
    rcases hr with ⟨rfl, _⟩ | ⟨rfl, _⟩ <;> decide
  have hasc : ∀ x ∈ 0x30 :: r :: d, x < 0x80 := by
    intro x hx
    simp only [List.mem_cons] at hx
    rcases hx with rfl | rfl | h
    · decide
    · exact hr'.2.2.2
    · exact asciiDigit_ascii hrad (hd x h)
  have hEr : ∀ c r, F = c :: r → asciiDigit radix c = false := by
    intro c q h
    have := hE.head c q h
    simp at this
    rcases hr with ⟨_, rfl⟩ | ⟨_, rfl⟩ <;>
      rcases this with rfl | rfl | rfl | rfl | rfl | rfl | rfl | rfl | rfl <;> decide
  obtain ⟨t1, t2⟩ := takeWhile_all hd F hEr
  have hsg : IsSign [] := .inl rfl
  have hdig : IsDigits [0x30] := ⟨by simp, by simp; decide⟩
  have e0 : float (st k pre [] (0x30 :: r :: d ++ F)) = (.err .mismatch, st k pre [] (0x30 :: r :: d ++ F)) := by
    have := float_no_point k pre (E := r :: d ++ F) hsg hdig
      (by rintro _ _ ⟨⟩; exact ⟨hr'.1, hr'.2.1⟩)
    simpa using this
  have e1 : sciFloat (st k pre [] (0x30 :: r :: d ++ F)) = (.err .mismatch, st k pre [] (0x30 :: r :: d ++ F)) := by
    have := sciFloat_no_e k pre (E := r :: d ++ F) hsg hdig
      (by rintro _ _ ⟨⟩; exact ⟨hr'.1, hr'.2.2.1⟩)
    simpa using this
  have e2 : context octalOrHex (st k pre [0x30] (r :: (d ++ F))) =
      (.ok true, st k pre (0x30 :: r :: d) F) := by
    have := context_st (f := octalOrHex) (k := k) (k' := k) (pre := pre) (mid := [0x30])
      (post := r :: (d ++ F)) (p' := []) (m' := r :: d) (post' := F) (o := .ok true) (by
        rw [octalOrHex]
        rcases hr with ⟨rfl, rfl⟩ | ⟨rfl, rfl⟩
        · rw [bind_ok (isOk_err (e := .mismatch) (s' := st k (pre ++ [0x30]) [] (0x78 :: (d ++ F))) ?_)]
          · simp only [Bool.false_eq_true, if_false]
            rw [isOk_ok (a := ()) (s' := st k (pre ++ [0x30]) (0x78 :: d) F)]
            · simp
            · rw [hexadecimal, bind_ok (sym_hit ..), takeWhile_more1, t1, t2, if_neg hne]; simp
          · rw [octal, bind_err (sym_miss _ _ _ _ _ _ (by decide))]; simp
        · rw [bind_ok (isOk_ok (a := ()) (s' := st k (pre ++ [0x30]) (0x6F :: d) F) ?_)]
          · simp
          · rw [octal, bind_ok (sym_hit ..), takeWhile_more1, t1, t2, if_neg hne]; simp)
    simpa using this
  have e3 : int (st k pre [] (0x30 :: r :: d ++ F)) = (.ok (0x30 :: r :: d), st k pre (0x30 :: r :: d ++ u) E) := by
    have hnp := numPrefix_read k pre hsg hdig (r :: d ++ F) (by rintro _ _ ⟨⟩; exact hr'.1)
    simp only [List.nil_append, List.cons_append] at hnp
    simp only [List.cons_append]
    have ht : (do
        if (lossy [0x30] == b!"0") = true then
          if ← context octalOrHex then text else pure (lossy [0x30])
        else pure (lossy [0x30]) : PM Bytes) (st k pre [0x30] (r :: (d ++ F))) =
          (.ok (0x30 :: r :: d), st k pre (0x30 :: r :: d) F) := by
      rw [if_pos (by decide), bind_ok e2]
      simp only [if_true]
      rw [text_st, lossy_ascii _ hasc]
    rw [int, bind_ok hnp, bind_ok (text_st ..), bind_ok ht, bind_ok (ws_st ..), hE.blank.1, hE.blank.2,
      bind_ok (hE.stop.bound ..)]
    simp
  rw [scalarAtom, bind_ok (try_err (lift_of e0))]
  simp only
  rw [bind_ok (try_err (lift_of e1))]
  simp only
  rw [bind_ok (try_ok (lift_of e3))]
  simp

theorem scalarAtom_radix {r : UInt8} {radix : UInt8} (hr : (r = 0x78 ∧ radix = 16) ∨ (r = 0x6F ∧ radix = 8))
    {d E : Bytes} (hne : d ≠ []) (hd : ∀ x ∈ d, asciiDigit radix x = true) (hE : NumEnd E)
    (n level : Nat) (flow : Bool) :
    scalarAtom n level flow (ld L (st k pre [] (0x30 :: r :: d ++ E))) =
      (.ok (some (.int (0x30 :: r :: d))), ld L (st k pre (0x30 :: r :: d) E)) := by
  simpa using scalarAtom_radix' k L pre hr hne hd hE.rest n level flow

theorem floatTail_read {F u E : Bytes} (hE : NumRest F u E) :
    floatTail (st k pre mid F) = (.ok (), st k pre (mid ++ u) E) := by
  rw [floatTail_eq, hE.blank.1, hE.blank.2]
  rcases List.eq_nil_or_concat u with rfl | ⟨w, x, rfl⟩
  · simp only [List.dropLast_nil, List.getLast?_nil, List.append_nil]
    exact hE.stop.bound ..
  · rw [List.concat_eq_append] at hE ⊢
    obtain rfl := hE.spaces x (by simp)
    have hb := hE.stop.blank
    rw [bound_eq, if_pos]
    · simp [List.takeWhile, List.dropWhile, isBlank, isAsciiWs, hb.1, hb.2]
    · simp [headIn]

/-- A decimal float. -/
theorem scalarAtom_float' {sg d f F u E : Bytes} (hsg : IsSign sg) (hd : IsDigits d)
    (hf : ∀ x ∈ f, isDigit x = true) (hE : NumRest F u E) (n level : Nat) (flow : Bool) :
    scalarAtom n level flow (ld L (st k pre [] (sg ++ d ++ 0x2E :: f ++ F))) =
      (.ok (some (.float (trimEndMatches (sg ++ d ++ 0x2E :: f) b!".0"))),
        ld L (st k pre (sg ++ d ++ 0x2E :: f ++ u) E)) := by
  have hasc : ∀ x ∈ sg ++ d ++ 0x2E :: f, x < 0x80 := by
    intro x hx
    simp only [List.mem_append, List.mem_cons] at hx
    rcases hx with (h | h) | rfl | h
    · exact hsg.ascii x h
    · exact hd.ascii x h
    · decide
    · exact isDigit_ascii (hf x h)
  obtain ⟨t1, t2⟩ := takeWhile_all hf F hE.notDigit
  have e : float (st k pre [] (sg ++ d ++ 0x2E :: f ++ F)) =
      (.ok (trimEndMatches (sg ++ d ++ 0x2E :: f) b!".0"), st k pre (sg ++ d ++ 0x2E :: f ++ u) E) := by
    simp only [List.append_assoc, List.cons_append]
    rw [float, bind_ok (numPrefix_read _ _ hsg hd _ ?_), bind_ok (sym_hit ..),
      bind_ok (takeWhile_more0 ..), t1, t2, bind_ok (text_st ..), bind_ok (floatTail_read _ _ _ hE)]
    · have : sg ++ d ++ [0x2E] ++ f = sg ++ d ++ 0x2E :: f := by simp
      rw [this, lossy_ascii _ hasc]; simp
    · rintro _ _ ⟨⟩; decide
  rw [scalarAtom, bind_ok (try_ok (lift_of e))]
  simp

theorem scalarAtom_float {sg d f E : Bytes} (hsg : IsSign sg) (hd : IsDigits d)
    (hf : ∀ x ∈ f, isDigit x = true) (hE : NumEnd E) (n level : Nat) (flow : Bool) :
    scalarAtom n level flow (ld L (st k pre [] (sg ++ d ++ 0x2E :: f ++ E))) =
      (.ok (some (.float (trimEndMatches (sg ++ d ++ 0x2E :: f) b!".0"))),
        ld L (st k pre (sg ++ d ++ 0x2E :: f) E)) := by
  simpa using scalarAtom_float' k L pre hsg hd hf hE.rest n level flow

/-- A float in scientific notation. -/
theorem scalarAtom_sci' {sg d es ed F u E : Bytes} {e : UInt8} (hsg : IsSign sg) (hd : IsDigits d)
    (he : e = 0x65 ∨ e = 0x45) (hes : es = [] ∨ es = [0x2B] ∨ es = [0x2D]) (hed : IsDigits ed)
    (hE : NumRest F u E) (n level : Nat) (flow : Bool) :
    scalarAtom n level flow (ld L (st k pre [] (sg ++ d ++ e :: es ++ ed ++ F))) =
      (.ok (some (.float (sg ++ d ++ e :: es ++ ed))), ld L (st k pre (sg ++ d ++ e :: es ++ ed ++ u) E)) := by
  have hasc : ∀ x ∈ sg ++ d ++ e :: es ++ ed, x < 0x80 := by
    intro x hx
    simp only [List.mem_append, List.mem_cons] at hx
    rcases hx with ((h | h) | rfl | h) | h
    · exact hsg.ascii x h
    · exact hd.ascii x h
    · rcases he with rfl | rfl <;> decide
    · rcases hes with rfl | rfl | rfl <;> simp at h <;> subst h <;> decide
    · exact hed.ascii x h
  obtain ⟨t1, t2⟩ := takeWhile_all hed.2 F hE.notDigit
  have hee : isDigit e = false ∧ e ≠ 0x2E := by rcases he with rfl | rfl <;> decide
  have e0 : float (st k pre [] (sg ++ d ++ e :: es ++ ed ++ F)) =
      (.err .mismatch, st k pre [] (sg ++ d ++ e :: es ++ ed ++ F)) := by
    have := float_no_point k pre (E := e :: es ++ ed ++ F) hsg hd (by rintro _ _ ⟨⟩; exact hee)
    simpa [List.append_assoc] using this
  have hrange : takeWhile (isIn b!"+-") (.range 0 1) (st k pre (sg ++ d ++ [e]) (es ++ (ed ++ F))) =
      (.ok (), st k pre (sg ++ d ++ [e] ++ es) (ed ++ F)) := by
    rw [takeWhile_range01]
    rcases hes with rfl | rfl | rfl
    · obtain ⟨x, r, rfl⟩ := List.exists_cons_of_ne_nil hed.1
      have hx := hed.2 x (by simp)
      have : isIn b!"+-" x = false := by
        simp only [isIn, notIn, Bool.not_not]
        rw [Bool.eq_false_iff]
        intro h
        simp at h
        rcases h with rfl | rfl <;> (revert hx; decide)
      simp [headTrue, this]
    · simp [headTrue, isIn, notIn]
    · simp [headTrue, isIn, notIn]
  have e1 : sciFloat (st k pre [] (sg ++ d ++ e :: es ++ ed ++ F)) =
      (.ok (sg ++ d ++ e :: es ++ ed), st k pre (sg ++ d ++ e :: es ++ ed ++ u) E) := by
    simp only [List.append_assoc, List.cons_append]
    rw [sciFloat, bind_ok (numPrefix_read _ _ hsg hd _ ?_),
      bind_ok (symSet_hit _ _ _ _ _ _ (by rcases he with rfl | rfl <;> decide)),
      bind_ok hrange, bind_ok (by rw [takeWhile_more1, t1, t2, if_neg hed.1]),
      bind_ok (text_st ..), bind_ok (floatTail_read _ _ _ hE)]
    · have : sg ++ d ++ [e] ++ es ++ ed = sg ++ d ++ e :: es ++ ed := by simp
      rw [this, lossy_ascii _ hasc]; simp
    · rintro _ _ ⟨⟩; exact hee.1
  rw [scalarAtom, bind_ok (try_err (lift_of e0))]
  simp only
  rw [bind_ok (try_ok (lift_of e1))]
  simp
theorem scalarAtom_sci {sg d es ed E : Bytes} {e : UInt8} (hsg : IsSign sg) (hd : IsDigits d)
    (he : e = 0x65 ∨ e = 0x45) (hes : es = [] ∨ es = [0x2B] ∨ es = [0x2D]) (hed : IsDigits ed)
    (hE : NumEnd E) (n level : Nat) (flow : Bool) :
    scalarAtom n level flow (ld L (st k pre [] (sg ++ d ++ e :: es ++ ed ++ E))) =
      (.ok (some (.float (sg ++ d ++ e :: es ++ ed))), ld L (st k pre (sg ++ d ++ e :: es ++ ed) E)) := by
  simpa using scalarAtom_sci' k L pre hsg hd he hes hed hE.rest n level flow

end YamlPeg
