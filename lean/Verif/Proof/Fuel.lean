import Verif.Proof.Zip
import Verif.Model.Dumper
/-!
# More fuel never changes an outcome

`Le x y`: on every state `x` runs out of fuel or does exactly what `y` does.
-/

namespace YamlPeg
open M

def Le {σ α : Type} (x y : M σ α) : Prop := ∀ s, (x s).1 = .diverge ∨ x s = y s

namespace Le
variable {σ α β : Type}

theorem refl (x : M σ α) : Le x x := fun _ => .inr rfl

theorem trans {x y z : M σ α} (h1 : Le x y) (h2 : Le y z) : Le x z := fun s => by
  rcases h1 s with h | h
  · exact .inl h
  · rw [h]; exact h2 s

theorem diverge (y : M σ α) : Le M.diverge y := fun _ => .inl rfl

theorem bind {x y : M σ α} {f g : α → M σ β} (h : Le x y) (hf : ∀ a, Le (f a) (g a)) :
    Le (x >>= f) (y >>= g) := fun s => by
  rcases h s with h | h
  · left; rw [bind_run]
    rcases hx : x s with ⟨r, s'⟩
    rw [hx] at h; simp at h; subst h; rfl
  · rw [bind_run, bind_run, ← h]
    rcases x s with ⟨r, s'⟩
    cases r with
    | ok a => exact hf a s'
    | err e => exact .inr rfl
    | panic p => exact .inr rfl
    | diverge => exact .inr rfl

private theorem lift1 {x y : M σ α} {F : Out α × σ → Out β × σ} (h : Le x y)
    (hF : ∀ r, r.1 = .diverge → (F r).1 = .diverge) :
    Le (fun s => F (x s)) (fun s => F (y s)) := fun s => by
  rcases h s with h | h
  · exact .inl (hF _ h)
  · right; simp only [h]

theorem try? {x y : M σ α} (h : Le x y) : Le (M.try? x) (M.try? y) :=
  lift1 (F := fun r => match r with
  | (.ok a, s') => (.ok (some a), s')
  | (.err _, s') => (.ok none, s')
  | (.panic p, s') => (.panic p, s')
  | (.diverge, s') => (.diverge, s')) h (by rintro ⟨_, _⟩ rfl; rfl)

theorem isOk {x y : M σ α} (h : Le x y) : Le (M.isOk x) (M.isOk y) :=
  lift1 (F := fun r => match r with
  | (.ok _, s') => (.ok true, s')
  | (.err _, s') => (.ok false, s')
  | (.panic p, s') => (.panic p, s')
  | (.diverge, s') => (.diverge, s')) h (by rintro ⟨_, _⟩ rfl; rfl)

theorem orElse {x y x' y' : M σ α} (h : Le x y) (h' : Le x' y') :
    Le (orElseMismatch x x') (orElseMismatch y y') := fun s => by
  unfold orElseMismatch
  rcases h s with h | h
  · left
    rcases hx : x s with ⟨r, s'⟩
    rw [hx] at h; simp at h; subst h; rfl
  · rw [← h]
    rcases x s with ⟨r, s'⟩
    cases r with
    | ok a => exact .inr rfl
    | err e => cases e with
      | mismatch => exact h' s'
      | terminate _ _ => exact .inr rfl
    | panic p => exact .inr rfl
    | diverge => exact .inr rfl

theorem ite {c : Prop} [Decidable c] {x y x' y' : M σ α} (h : Le x y) (h' : Le x' y') :
    Le (if c then x else x') (if c then y else y') := by
  split
  · exact h
  · exact h'

theorem context {x y : PM α} (h : Le x y) : Le (YamlPeg.context x) (YamlPeg.context y) := fun s => by
  rcases h { s with eaten := s.pos } with h | h
  · left; simp only [YamlPeg.context]; exact h
  · right; simp only [YamlPeg.context, h]

theorem lift {x y : PM α} (h : Le x y) : Le (YamlPeg.lift x) (YamlPeg.lift y) := fun s => by
  rcases h s.parser with h | h
  · left; simp only [YamlPeg.lift]; exact h
  · right; simp only [YamlPeg.lift, h]

theorem orErr {x y : LM α} (h : Le x y) {nm : String} : Le (YamlPeg.orErr x nm) (YamlPeg.orErr y nm) :=
  h.orElse (refl _)

end Le

theorem quotedLoop_le (q : UInt8) (ig : Bytes) {n m : Nat} (h : n ≤ m) (v : Bytes) :
    Le (quotedLoop q ig n v) (quotedLoop q ig m v) := by
  induction n generalizing m v with
  | zero => exact Le.diverge _
  | succ n ih =>
    obtain ⟨m, rfl⟩ : ∃ m', m = m' + 1 := ⟨m - 1, by omega⟩
    have ih := fun v => ih (m := m) (by omega) v
    simp only [quotedLoop]
    refine .bind (.refl _) fun _ => .bind (.refl _) fun _ => .bind (.refl _) fun _ =>
      .bind (.refl _) fun _ => .bind (.refl _) fun _ => .ite (ih _) ?_
    refine .bind (.refl _) fun t => ?_
    cases t with
    | some t => exact .bind (.refl _) fun _ => ih _
    | none =>
      refine .bind (.refl _) fun _ => .ite (ih _) ?_
      exact .bind (.refl _) fun _ => .ite (.refl _) (ih _)

theorem stringQuoted_le (q : UInt8) (ig : Bytes) {n m : Nat} (h : n ≤ m) :
    Le (stringQuoted n q ig) (stringQuoted m q ig) := by
  unfold stringQuoted
  exact .context (.bind (.refl _) fun _ => .bind (.refl _) fun _ => .bind (.refl _) fun _ =>
    .bind (.refl _) fun _ => quotedLoop_le _ _ h _)

theorem plainLoop_le (level : Nat) (inner : Bool) (patt : Bytes) {n m : Nat} (h : n ≤ m)
    (v : Bytes) (lead : Bool) :
    Le (plainLoop level inner patt n v lead) (plainLoop level inner patt m v lead) := by
  induction n generalizing m v lead with
  | zero => exact Le.diverge _
  | succ n ih =>
    obtain ⟨m, rfl⟩ : ∃ m', m = m' + 1 := ⟨m - 1, by omega⟩
    have ih := fun v lead => ih (m := m) (by omega) v lead
    simp only [plainLoop]
    refine .bind (.refl _) fun _ => .bind (.refl _) fun _ => .bind (.refl _) fun _ =>
      .bind (.refl _) fun _ => .bind (.refl _) fun _ => .ite (.refl _) ?_
    refine .bind (.refl _) fun _ => .bind (.refl _) fun _ => .ite ?_ ?_
    · exact .bind (.refl _) fun _ => ih _ _
    refine .bind (.refl _) fun _ => .ite ?_ ?_
    · exact .bind (.refl _) fun _ => ih _ _
    refine .bind (.refl _) fun _ => .ite (ih _ _) ?_
    refine .bind (.refl _) fun t => ?_
    cases t with
    | some t => exact .bind (.refl _) fun _ => .ite (ih _ _) (.refl _)
    | none => exact .refl _

theorem stringPlain_le (level : Nat) (inner : Bool) {n m : Nat} (h : n ≤ m) :
    Le (stringPlain n level inner) (stringPlain m level inner) := by
  unfold stringPlain
  exact .context (.bind (plainLoop_le _ _ _ h _ _) fun _ => .refl _)

/-- Two recursive calls in order. -/
def ScLe (sc sc' : ScalarCall) : Prop := ∀ l m f, Le (sc l m f) (sc' l m f)

theorem scalarAtom_le {n m : Nat} (h : n ≤ m) (level : Nat) (flow : Bool) :
    Le (scalarAtom n level flow) (scalarAtom m level flow) := by
  unfold scalarAtom
  repeat' first
    | exact .refl _
    | exact .try? (.lift (stringQuoted_le _ _ h))
    | exact .try? (.lift (stringPlain_le _ _ h))
    | refine .bind (.refl _) fun r => ?_
    | refine .bind (.try? (.lift (stringQuoted_le _ _ h))) fun r => ?_
    | refine .bind (.try? (.lift (stringPlain_le _ _ h))) fun r => ?_
    | cases r

theorem seqFlowLoop_le {sc sc' : ScalarCall} (hs : ScLe sc sc') (level : Nat) {n m : Nat} (h : n ≤ m)
    (v : List Node) : Le (seqFlowLoop sc level n v) (seqFlowLoop sc' level m v) := by
  induction n generalizing m v with
  | zero => exact Le.diverge _
  | succ n ih =>
    obtain ⟨m, rfl⟩ : ∃ m', m = m' + 1 := ⟨m - 1, by omega⟩
    simp only [seqFlowLoop]
    refine .bind (.refl _) fun _ => .bind (.refl _) fun _ => .bind (.refl _) fun _ =>
      .ite (.refl _) (.bind (.refl _) fun _ => .bind (.orErr (hs _ _ _)) fun _ =>
      .bind (.refl _) fun _ => .bind (.refl _) fun _ => .ite (ih (by omega) _) (.refl _))

theorem seqFlow_le {sc sc' : ScalarCall} (hs : ScLe sc sc') (level : Nat) {n m : Nat} (h : n ≤ m) :
    Le (seqFlow sc n level) (seqFlow sc' m level) := by
  unfold seqFlow
  exact .bind (.refl _) fun _ => .bind (seqFlowLoop_le hs _ h _) fun _ => .refl _

theorem complexKey_le {sc sc' : ScalarCall} (hs : ScLe sc sc') (level : Nat) (map flow : Bool)
    (name : String) : Le (complexKey sc level map flow name) (complexKey sc' level map flow name) := by
  unfold complexKey
  exact .bind (.refl _) fun _ => .bind (.orErr (hs _ _ _)) fun _ => .refl _

theorem mapFlowLoop_le {sc sc' : ScalarCall} (hs : ScLe sc sc') {sf sf' : LM Node} (hf : Le sf sf')
    (level : Nat) {n m : Nat} (h : n ≤ m) (v : List (Node × Node)) :
    Le (mapFlowLoop sc sf level n v) (mapFlowLoop sc' sf' level m v) := by
  induction n generalizing m v with
  | zero => exact Le.diverge _
  | succ n ih =>
    obtain ⟨m, rfl⟩ : ∃ m', m = m' + 1 := ⟨m - 1, by omega⟩
    simp only [mapFlowLoop]
    refine .bind (.refl _) fun _ => .bind (.refl _) fun _ => .bind (.refl _) fun _ =>
      .ite (.refl _) (.bind (.refl _) fun _ => .bind ?_ fun _ => ?_)
    · exact .bind (.refl _) fun _ => .ite (complexKey_le hs _ _ _ _) (.orErr hf)
    · refine .bind (.refl _) fun _ => .ite ?_ (.refl _)
      exact .bind (.refl _) fun _ => .bind (.refl _) fun _ => .bind (.orErr (hs _ _ _)) fun _ =>
        .bind (.refl _) fun _ => .ite (ih (by omega) _) (.refl _)

theorem scalarNode_le {f g : LM Yaml} (h : Le f g) : Le (scalarNode f) (scalarNode g) := by
  unfold scalarNode
  refine .bind (.refl _) fun p => ?_
  rcases p with ⟨a, t⟩
  exact .bind (.refl _) fun _ => .bind h fun _ => .refl _

theorem scalarTermWith_le {sc sc' : ScalarCall} (hs : ScLe sc sc') {sf sf' : LM Node} (hf : Le sf sf')
    {n m : Nat} (h : n ≤ m) (level : Nat) (flow : Bool) :
    Le (scalarTermWith sc sf n level flow) (scalarTermWith sc' sf' m level flow) := by
  unfold scalarTermWith
  refine .bind (scalarAtom_le h _ _) fun r => ?_
  cases r with
  | some y => exact .refl _
  | none =>
    refine .orElse (.orElse (seqFlow_le hs _ h) ?_) (.refl _)
    exact .bind (.refl _) fun _ => .bind (mapFlowLoop_le hs hf _ h _) fun _ => .refl _

theorem scalarTerm_le {sc sc' : ScalarCall} (hs : ScLe sc sc') {n m : Nat} (h : n ≤ m)
    {d e : Nat} (hd : d ≤ e) (level : Nat) (flow : Bool) :
    Le (scalarTerm sc n d level flow) (scalarTerm sc' m e level flow) := by
  induction d generalizing e level flow with
  | zero => exact Le.diverge _
  | succ d ih =>
    obtain ⟨e, rfl⟩ : ∃ m', e = m' + 1 := ⟨e - 1, by omega⟩
    exact scalarTermWith_le hs (scalarNode_le (ih (by omega) _ _)) h _ _

theorem scalarFlow_le {sc sc' : ScalarCall} (hs : ScLe sc sc') {n m : Nat} (h : n ≤ m)
    (level : Nat) (flow : Bool) : Le (scalarFlow sc n level flow) (scalarFlow sc' m level flow) :=
  scalarNode_le (scalarTerm_le hs h h _ _)

theorem seqLoop_le {sc sc' : ScalarCall} (hs : ScLe sc sc') (level : Nat) (map : Bool) {n m : Nat}
    (h : n ≤ m) (v : List Node) : Le (seqLoop sc level map n v) (seqLoop sc' level map m v) := by
  induction n generalizing m v with
  | zero => exact Le.diverge _
  | succ n ih =>
    obtain ⟨m, rfl⟩ : ∃ m', m = m' + 1 := ⟨m - 1, by omega⟩
    simp only [seqLoop]
    refine .bind (.refl _) fun _ => .bind (.refl _) fun _ => .ite (.refl _) ?_
    exact .bind (.refl _) fun _ => .bind (.orErr (hs _ _ _)) fun _ => ih (by omega) _

theorem seq_le {sc sc' : ScalarCall} (hs : ScLe sc sc') {n m : Nat} (h : n ≤ m) (level : Nat)
    (map : Bool) : Le (seq sc n level map) (seq sc' m level map) := by
  unfold seq
  exact .bind (seqLoop_le hs _ _ h _) fun _ => .refl _

theorem mapStep_le {sc sc' : ScalarCall} (hs : ScLe sc sc') {sf sf' : LM Node} (hf : Le sf sf')
    (level : Nat) (map flow first : Bool) :
    Le (mapStep sc sf level map flow first) (mapStep sc' sf' level map flow first) := by
  unfold mapStep
  refine .bind (.refl _) fun _ => .ite ?_ ?_
  · refine .bind (.refl _) fun _ => .bind (.refl _) fun _ => .bind ?_ fun _ => .refl _
    exact .bind (.refl _) fun _ => .ite (complexKey_le hs _ _ _ _) hf
  · refine .bind (.refl _) fun _ => .ite (.refl _) (.bind (.refl _) fun _ => .bind ?_ fun _ => .refl _)
    exact .bind (.refl _) fun _ => .ite (complexKey_le hs _ _ _ _) (.orErr hf)

theorem mapLoop_le {sc sc' : ScalarCall} (hs : ScLe sc sc') {sf sf' : LM Node} (hf : Le sf sf')
    (level : Nat) (map flow : Bool) {n m : Nat} (h : n ≤ m) (v : List (Node × Node)) :
    Le (mapLoop sc sf level map flow n v) (mapLoop sc' sf' level map flow m v) := by
  induction n generalizing m v with
  | zero => exact Le.diverge _
  | succ n ih =>
    obtain ⟨m, rfl⟩ : ∃ m', m = m' + 1 := ⟨m - 1, by omega⟩
    simp only [mapLoop]
    refine .bind (mapStep_le hs hf _ _ _ _) fun r => ?_
    cases r with
    | alone y => exact .refl _
    | stop => exact .refl _
    | key k =>
      exact .bind (.refl _) fun _ => .bind (.orErr (hs _ _ _)) fun _ => ih (by omega) _

theorem scalarBody_le {sc sc' : ScalarCall} (hs : ScLe sc sc') {n m : Nat} (h : n ≤ m) (level : Nat)
    (map flow : Bool) : Le (scalarBody sc n level map flow) (scalarBody sc' m level map flow) := by
  unfold scalarBody
  refine .bind (.refl _) fun r => ?_
  cases r with
  | some _ => exact .refl _
  | none =>
    refine .bind (.refl _) fun r => ?_
    cases r with
    | some _ => exact .refl _
    | none =>
      refine .orElse (.orElse (seq_le hs h _ _) ?_) (scalarTerm_le hs h h _ _)
      exact mapLoop_le hs (scalarFlow_le hs h _ _) _ _ _ h _

theorem scalar_le {n m : Nat} (h : n ≤ m) : ScLe (scalar n) (scalar m) := by
  induction n generalizing m with
  | zero => exact fun _ _ _ => Le.diverge _
  | succ n ih =>
    obtain ⟨m, rfl⟩ : ∃ m', m = m' + 1 := ⟨m - 1, by omega⟩
    exact fun _ _ _ => scalarNode_le (scalarBody_le (ih (by omega)) (by omega) _ _ _)

theorem doc_le {n m : Nat} (h : n ≤ m) : Le (doc n) (doc m) := by
  unfold doc
  exact .bind (.refl _) fun _ => .bind (.refl _) fun _ => .bind (.refl _) fun _ =>
    .bind (scalar_le h _ _ _) fun _ => .refl _

theorem directives_le {n m : Nat} (h : n ≤ m) : Le (directives n) (directives m) := by
  induction n generalizing m with
  | zero => exact Le.diverge _
  | succ n ih =>
    obtain ⟨m, rfl⟩ : ∃ m', m = m' + 1 := ⟨m - 1, by omega⟩
    intro s
    simp only [directives]
    rcases YamlPeg.lift (context directive) s with ⟨r, s'⟩
    cases r with
    | ok a => exact ih (by omega) s'
    | err e => cases e <;> exact .inr rfl
    | panic p => exact .inr rfl
    | diverge => exact .inr rfl

theorem docsLoop_le {n m : Nat} (h : n ≤ m) {i j : Nat} (hi : i ≤ j) (v : List Node) :
    Le (docsLoop n i v) (docsLoop m j v) := by
  induction i generalizing j v with
  | zero => exact Le.diverge _
  | succ i ih =>
    obtain ⟨j, rfl⟩ : ∃ m', j = m' + 1 := ⟨j - 1, by omega⟩
    simp only [docsLoop]
    refine .bind (.refl _) fun _ => .bind (.refl _) fun _ => .ite (.refl _) ?_
    exact .bind (.refl _) fun _ => .ite (.bind (doc_le h) fun _ => ih (by omega) _) (.refl _)

theorem loaderParse_le {n m : Nat} (h : n ≤ m) : Le (loaderParse n) (loaderParse m) := by
  unfold loaderParse
  exact .bind (directives_le h) fun _ => .bind (.refl _) fun _ => .bind (.refl _) fun _ =>
    .bind (doc_le h) fun _ => docsLoop_le h h _

/-! ## The dumper -/

/-- The same relation on plain outcomes. -/
def OLe {α : Type} (x y : Out α) : Prop := x = .diverge ∨ x = y

namespace OLe
variable {α β : Type}
theorem refl (x : Out α) : OLe x x := .inr rfl
theorem bind {x y : Out α} {f g : α → Out β} (h : OLe x y) (hf : ∀ a, OLe (f a) (g a)) :
    OLe (x >>= f) (y >>= g) := by
  rcases h with rfl | rfl
  · exact .inl rfl
  · cases x with
    | ok a => exact hf a
    | err e => exact .inr rfl
    | panic p => exact .inr rfl
    | diverge => exact .inr rfl
end OLe

theorem dumpStr_le (cfg : DumpCfg) {n m : Nat} (h : n ≤ m) (level : Nat) (s : Bytes) :
    OLe (dumpStr cfg n level s) (dumpStr cfg m level s) := by
  unfold dumpStr
  split
  · exact .refl _
  · rcases stringPlain_le 0 false h (Parser.new s) with h | h
    · rw [h]; exact .inl rfl
    · rw [h]; exact .refl _

mutual
theorem dumpNode_le (cfg : DumpCfg) {n m : Nat} (h : n ≤ m) (an : Anchors) (root : Root)
    (level : Nat) : (x : Node) →
    OLe (dumpNode cfg n an root level x) (dumpNode cfg m an root level x)
  | .mk pos t y => by
    simp only [dumpNode]
    exact .bind (.refl _) fun _ => .bind (dumpYaml_le cfg h an root level y) fun _ => .refl _

theorem dumpYaml_le (cfg : DumpCfg) {n m : Nat} (h : n ≤ m) (an : Anchors) (root : Root)
    (level : Nat) : (x : Yaml) →
    OLe (dumpYaml cfg n an root level x) (dumpYaml cfg m an root level x)
  | .null => .refl _
  | .bool _ => .refl _
  | .int _ => .refl _
  | .float _ => .refl _
  | .str s => by simp only [dumpYaml]; exact dumpStr_le cfg h level s
  | .seq v => by
    simp only [dumpYaml]
    exact .bind (dumpItems_le cfg h an level true v) fun _ => .refl _
  | .map v => by
    simp only [dumpYaml]
    exact .bind (dumpEntries_le cfg h an root level true v) fun _ => .refl _
  | .alias _ => .refl _

theorem dumpItems_le (cfg : DumpCfg) {n m : Nat} (h : n ≤ m) (an : Anchors)
    (level : Nat) (first : Bool) : (x : List Node) →
    OLe (dumpItems cfg n an level first x) (dumpItems cfg m an level first x)
  | [] => .refl _
  | x :: xs => by
    simp only [dumpItems]
    exact .bind (dumpNode_le cfg h an .array (level + 1) x) fun _ =>
      .bind (dumpItems_le cfg h an level false xs) fun _ => .refl _

theorem dumpEntries_le (cfg : DumpCfg) {n m : Nat} (h : n ≤ m) (an : Anchors) (root : Root)
    (level : Nat) (first : Bool) : (x : List (Node × Node)) →
    OLe (dumpEntries cfg n an root level first x) (dumpEntries cfg m an root level first x)
  | [] => .refl _
  | x :: xs => by
    simp only [dumpEntries]
    exact .bind (dumpEntry_le cfg h an root level first x) fun _ =>
      .bind (dumpEntries_le cfg h an root level false xs) fun _ => .refl _

theorem dumpEntry_le (cfg : DumpCfg) {n m : Nat} (h : n ≤ m) (an : Anchors) (root : Root)
    (level : Nat) (first : Bool) : (x : Node × Node) →
    OLe (dumpEntry cfg n an root level first x) (dumpEntry cfg m an root level first x)
  | (k, v) => by
    simp only [dumpEntry]
    refine .bind (dumpNode_le cfg h an .map (level + 1) k) fun _ => ?_
    exact .bind (dumpNode_le cfg h an .map _ v) fun _ => .refl _
end

theorem dumpDocs_le (cfg : DumpCfg) {n m : Nat} (h : n ≤ m) (an : List Anchors) (i : Nat)
    (l : List Node) : OLe (dumpDocs cfg n an i l) (dumpDocs cfg m an i l) := by
  induction l generalizing i with
  | nil => exact .refl _
  | cons x xs ih =>
    simp only [dumpDocs]
    exact .bind (dumpNode_le cfg h _ _ _ _) fun _ => .bind (ih _) fun _ => .refl _

end YamlPeg
