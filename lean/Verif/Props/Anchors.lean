import Verif.Props.Directives
import Verif.Proof.Faults
/-!
# Anchors, aliases and tags in whole documents: C13, C14, C31

`Stream.fails s cyclic φ` (Proof/Faults.lean): going through the stream from the front,
the first thing wrong is `φ`: an alias of a name the current document has not defined
(only in `parse`), an anchor defined a second time, or a tag whose handle is unknown.
-/

namespace YamlPeg.Props
open YamlPeg YamlPeg.M

theorem parse_fails {s : Stream} (h : s.ok) {φ : Fault} (hf : s.fails false φ) (hash : HashCfg) :
    ∃ c, φ.crash s.text c ∧ Ends (fun n => parse hash n s.text) c.out := by
  obtain ⟨N, hN⟩ := loaderParse_fail (Stream.ok_wf h) _ _ hf
  obtain ⟨c, hc, l', he⟩ := hN N (Nat.le_refl _) (Loader.new hash s.text) rfl rfl
  rw [← new_st] at he
  refine ⟨c, hc, parse_returns_of (n := N) (by simp only [parse, he]) (by cases c <;> simp [Crash.out])⟩

theorem parseCyclic_fails {s : Stream} (h : s.ok) {φ : Fault} (hf : s.fails true φ) (hash : HashCfg) :
    ∃ c, φ.crash s.text c ∧ Ends (fun n => parseCyclic hash n s.text) c.out := by
  obtain ⟨N, hN⟩ := loaderParse_fail (Stream.ok_wf h) _ _ hf
  obtain ⟨c, hc, l', he⟩ := hN N (Nat.le_refl _) { Loader.new hash s.text with cyclicMode := true } rfl rfl
  have e : ld { Loader.new hash s.text with cyclicMode := true } (st .start [] [] s.text) =
      { Loader.new hash s.text with cyclicMode := true } := by
    simp [ld, Loader.new, st, Parser.new, Ctx.start]
  rw [e] at he
  refine ⟨c, hc, parseCyclic_returns_of (n := N) (by simp only [parseCyclic, he]; cases c <;> rfl) (by cases c <;> simp [Crash.out])⟩

/-! ## Every layout either has a meaning or a fault -/

mutual
/-- Every tag in the flow collection has a meaning or an unknown handle. -/
def Flow.tidy (tbl : List (Bytes × Bytes)) : Flow → Prop
  | .atom _ _ _ => True
  | .seq _ its => FItems.tidy tbl its
  | .map _ es => FEnts.tidy tbl es
  | .prop P f => (P.fine tbl ∨ P.unknown tbl) ∧ Flow.tidy tbl f
def FItems.tidy (tbl : List (Bytes × Bytes)) : FItems → Prop
  | .nil => True
  | .last f _ => Flow.tidy tbl f
  | .cons f _ _ rest => Flow.tidy tbl f ∧ FItems.tidy tbl rest
def FEnts.tidy (tbl : List (Bytes × Bytes)) : FEnts → Prop
  | .nil => True
  | .last _ _ _ v _ => Flow.tidy tbl v
  | .cons _ _ _ v _ rest => Flow.tidy tbl v ∧ FEnts.tidy tbl rest
end

theorem alias_fine_or {a : Bytes} (ha : IsIdent a) (p : Nat) (e : Env) :
    aliasFine a e ∨ AliasFails (0x2A :: a) p e (.alias (p + (0x2A :: a).length)) := by
  by_cases h : aliasFine a e
  · exact .inl h
  · have hc : e.cyclic = false := by
      cases hc : e.cyclic with
      | false => rfl
      | true => exact absurd (.inl hc) h
    have hm : mapGet a e.anchors = none := by
      cases hm : mapGet a e.anchors with
      | none => rfl
      | some n => exact absurd (.inr (by simp [hm])) h
    exact .inr ⟨a, ha, rfl, hc, hm, rfl⟩

mutual
theorem Flow.fine_or_fails : ∀ (f : Flow) (W : Bytes) (p : Nat) (e : Env), f.ok W → Flow.tidy e.tags f →
    f.fine p e ∨ ∃ φ, f.fails W p e φ
  | .atom T y pc, W, p, e, h, _ => by
    simp only [Flow.ok] at h
    simp only [Flow.fine, Flow.fails]
    rcases h with ⟨_, _, _, _, _, _, rfl⟩ | ⟨a, ha, _, rfl, _, rfl⟩
    · exact .inl trivial
    · exact (alias_fine_or ha p e).imp id fun h => ⟨_, h⟩
  | .seq ws its, W, p, e, h, ht => by
    simp only [Flow.ok] at h
    simp only [Flow.tidy] at ht
    simpa only [Flow.fine, Flow.fails] using FItems.fine_or_fails its _ e h.2.1 ht
  | .map ws es, W, p, e, h, ht => by
    simp only [Flow.ok] at h
    simp only [Flow.tidy] at ht
    simpa only [Flow.fine, Flow.fails] using FEnts.fine_or_fails es _ e h.2.1 ht
  | .prop P f, W, p, e, h, ht => by
    simp only [Flow.ok] at h
    simp only [Flow.tidy] at ht
    have hb := Flow.fine_or_fails f W (p + P.text.length) e h.2.2 ht.2
    simp only [Flow.fine, Flow.fails]
    rcases ht.1 with hf | hf
    · rcases hb with hb | ⟨φ, hb⟩
      · by_cases hn : P.name ≠ [] ∧ (mapGet P.name (f.eff (p + P.text.length) e)).isSome = true
        · exact .inr ⟨_, .inr (.inr ⟨hf, hb, hn.1, hn.2, rfl⟩)⟩
        · refine .inl ⟨hf, hb, fun hne => ?_⟩
          cases hm : mapGet P.name (f.eff (p + P.text.length) e) with
          | none => rfl
          | some n => exact absurd ⟨hne, by simp [hm]⟩ hn
      · exact .inr ⟨φ, .inr (.inl ⟨hf, hb⟩)⟩
    · exact .inr ⟨_, .inl ⟨hf, rfl⟩⟩
theorem FItems.fine_or_fails : ∀ (its : FItems) (p : Nat) (e : Env), its.ok → FItems.tidy e.tags its →
    its.fine p e ∨ ∃ φ, its.fails p e φ
  | .nil, _, _, _, _ => .inl (by simp only [FItems.fine])
  | .last f W, p, e, h, ht => by
    simp only [FItems.ok] at h
    simp only [FItems.tidy] at ht
    simpa only [FItems.fine, FItems.fails] using Flow.fine_or_fails f W p e h ht
  | .cons f W ws rest, p, e, h, ht => by
    simp only [FItems.ok] at h
    simp only [FItems.tidy] at ht
    simp only [FItems.fine, FItems.fails]
    rcases Flow.fine_or_fails f W p e h.1 ht.1 with hb | ⟨φ, hb⟩
    · rcases FItems.fine_or_fails rest (p + f.text.length + W.length + 1 + ws.length)
        { e with anchors := f.eff p e } h.2.2 ht.2 with hr | ⟨φ, hr⟩
      · exact .inl ⟨hb, hr⟩
      · exact .inr ⟨φ, .inr ⟨hb, hr⟩⟩
    · exact .inr ⟨φ, .inl hb⟩
theorem FEnts.fine_or_fails : ∀ (es : FEnts) (p : Nat) (e : Env), es.ok → FEnts.tidy e.tags es →
    es.fine p e ∨ ∃ φ, es.fails p e φ
  | .nil, _, _, _, _ => .inl (by simp only [FEnts.fine])
  | .last T y sp v W, p, e, h, ht => by
    simp only [FEnts.ok] at h
    simp only [FEnts.tidy] at ht
    simpa only [FEnts.fine, FEnts.fails] using Flow.fine_or_fails v W _ e h.2 ht
  | .cons T y sp v ws rest, p, e, h, ht => by
    simp only [FEnts.ok] at h
    simp only [FEnts.tidy] at ht
    simp only [FEnts.fine, FEnts.fails]
    rcases Flow.fine_or_fails v [] (p + T.length + 1 + sp.length) e h.2.1 ht.1 with hb | ⟨φ, hb⟩
    · rcases FEnts.fine_or_fails rest (p + T.length + 1 + sp.length + v.text.length + 1 + ws.length)
        { e with anchors := v.eff (p + T.length + 1 + sp.length) e } h.2.2.2 ht.2 with hr | ⟨φ, hr⟩
      · exact .inl ⟨hb, hr⟩
      · exact .inr ⟨φ, .inr ⟨hb, hr⟩⟩
    · exact .inr ⟨φ, .inl hb⟩
end

mutual
/-- Every tag has a meaning or an unknown handle, also in flow collections; no complex keys. -/
def Blk.tidy (tbl : List (Bytes × Bytes)) : Blk → Prop
  | .leaf _ T _ _ pc => (∃ a, T = 0x2A :: a) ∨ (∀ p e, pc.ok p e) ∨
      ∃ f : Flow, f.ok [] ∧ f.isAtom = false ∧ T = f.text ∧ pc = f.known ∧ Flow.tidy tbl f
  | .lit .. => True
  | .seq _ _ its => Items.tidy tbl its
  | .map _ _ es => Ents.tidy tbl es
  | .cmap .. => False
  | .prop f b => (f.fine tbl ∨ f.unknown tbl) ∧ Blk.tidy tbl b
def Items.tidy (tbl : List (Bytes × Bytes)) : Items → Prop
  | .one _ b => Blk.tidy tbl b
  | .cons _ b _ rest => Blk.tidy tbl b ∧ Items.tidy tbl rest
def Ents.tidy (tbl : List (Bytes × Bytes)) : Ents → Prop
  | .one _ _ _ v => Blk.tidy tbl v
  | .cons _ _ _ v _ rest => Blk.tidy tbl v ∧ Ents.tidy tbl rest
end

theorem leaf_fine_or {σ : Nat} {κ : EndKind} {lead T : Bytes} {y : Nat → Env → Yaml} {pc : Known} (h : LeafAt σ κ T y pc)
    (p : Nat) (e : Env) (ht : Blk.tidy e.tags (.leaf lead T κ y pc)) :
    (Blk.leaf lead T κ y pc).fine p e ∨ ∃ φ, (Blk.leaf lead T κ y pc).fails p e φ := by
  simp only [Blk.tidy] at ht
  simp only [Blk.fine, Blk.fails]
  rcases ht with ⟨a, rfl⟩ | ht | ⟨f, hok, hat, hT, rfl, ht⟩
  · rcases h with (⟨_, _, _, rfl⟩ | ⟨f, _, hat, _, hT, _⟩ | ⟨a, ha, rfl, hT, rfl, rfl⟩) | ⟨_, _, _, _, _, _, _, _, _, _, rfl⟩
    rotate_right
    · exact .inl (by simp)
    · exact .inl (by simp)
    · obtain ⟨r, hr | hr⟩ := Flow.head_char hat <;> simp [hr] at hT
    · simp only [List.cons.injEq, true_and] at hT
      subst hT
      rcases alias_fine_or ha (p + lead.length) e with h | h
      · exact .inl h
      · exact .inr ⟨_, .inl h⟩
  · exact .inl (ht _ e)
  · rcases Flow.fine_or_fails f [] (p + lead.length) e hok ht with h | ⟨φ, h⟩
    · exact .inl h
    · exact .inr ⟨φ, .inr ⟨f, Flow.ok_wf f [] hok, hat, hT, h⟩⟩

theorem prop_fine_or {f : Form} {b : Blk} {p : Nat} {e : Env} (hf : f.fine e.tags ∨ f.unknown e.tags)
    (hb : b.fine (p + f.text.length) e ∨ ∃ φ, b.fails (p + f.text.length) e φ) :
    (Blk.prop f b).fine p e ∨ ∃ φ, (Blk.prop f b).fails p e φ := by
  simp only [Blk.fine, Blk.fails]
  rcases hf with hf | hf
  · rcases hb with hb | ⟨φ, hb⟩
    · by_cases hn : f.name ≠ [] ∧ (mapGet f.name (b.eff (p + f.text.length) e)).isSome = true
      · exact .inr ⟨_, .inr (.inr ⟨hf, hb, hn.1, hn.2, rfl⟩)⟩
      · refine .inl ⟨hf, hb, fun hne => ?_⟩
        cases hm : mapGet f.name (b.eff (p + f.text.length) e) with
        | none => rfl
        | some n => exact absurd ⟨hne, by simp [hm]⟩ hn
    · exact .inr ⟨φ, .inr (.inl ⟨hf, hb⟩)⟩
  · exact .inr ⟨_, .inl ⟨hf, rfl⟩⟩

mutual
theorem Blk.fine_or_failsN : ∀ (b : Blk) (σ p : Nat) (e : Env), b.okN σ → Blk.tidy e.tags b →
    b.fine p e ∨ ∃ φ, b.fails p e φ
  | .leaf lead T κ y pc, σ, p, e, h, ht => by
    simp only [Blk.okN] at h
    rcases h with h | h
    · exact leaf_fine_or h.2 p e ht
    · exact .inl (by simp only [Blk.fine]; rw [h.1.2.2.2.2]; trivial)
  | .lit .., _, _, _, _, _ => .inl (by simp [Blk.fine])
  | .seq lead τ its, σ, p, e, h, ht => by
    simp only [Blk.okN] at h
    simp only [Blk.tidy] at ht
    simpa only [Blk.fine, Blk.fails] using Items.fine_or_fails its τ _ e h.2.2 ht
  | .map lead τ es, σ, p, e, h, ht => by
    simp only [Blk.okN] at h
    simp only [Blk.tidy] at ht
    simpa only [Blk.fine, Blk.fails] using Ents.fine_or_fails es τ _ e h.2.2.1 ht
  | .cmap .., _, _, _, _, ht => by simp only [Blk.tidy] at ht
  | .prop f b, σ, p, e, h, ht => by
    simp only [Blk.okN] at h
    simp only [Blk.tidy] at ht
    exact prop_fine_or ht.1 (Blk.fine_or_failsN b σ _ e h.2.2.2 ht.2)
theorem Blk.fine_or_failsV : ∀ (b : Blk) (σ p : Nat) (e : Env), b.okV σ → Blk.tidy e.tags b →
    b.fine p e ∨ ∃ φ, b.fails p e φ
  | .leaf lead T κ y pc, σ, p, e, h, ht => by
    simp only [Blk.okV] at h
    rcases h with h | h
    · exact leaf_fine_or h.2 p e ht
    · exact .inl (by simp only [Blk.fine]; rw [h.1.2.2.2.2]; trivial)
  | .lit .., _, _, _, _, _ => .inl (by simp [Blk.fine])
  | .seq lead τ its, σ, p, e, h, ht => by
    simp only [Blk.okV] at h
    simp only [Blk.tidy] at ht
    simpa only [Blk.fine, Blk.fails] using Items.fine_or_fails its τ _ e h.2.2 ht
  | .map lead τ es, σ, p, e, h, ht => by
    simp only [Blk.okV] at h
    simp only [Blk.tidy] at ht
    simpa only [Blk.fine, Blk.fails] using Ents.fine_or_fails es τ _ e h.2.2.1 ht
  | .cmap .., _, _, _, _, ht => by simp only [Blk.tidy] at ht
  | .prop f b, σ, p, e, h, ht => by
    simp only [Blk.okV] at h
    simp only [Blk.tidy] at ht
    exact prop_fine_or ht.1 (Blk.fine_or_failsV b σ _ e h.2.2.2 ht.2)
theorem Items.fine_or_fails : ∀ (its : Items) (τ p : Nat) (e : Env), its.ok τ → Items.tidy e.tags its →
    its.fine τ p e ∨ ∃ φ, its.fails τ p e φ
  | .one sp b, τ, p, e, h, ht => by
    simp only [Items.ok] at h
    simp only [Items.tidy] at ht
    simpa only [Items.fine, Items.fails] using Blk.fine_or_failsN b _ p e h.2 ht
  | .cons sp b G rest, τ, p, e, h, ht => by
    simp only [Items.ok] at h
    simp only [Items.tidy] at ht
    simp only [Items.fine, Items.fails]
    rcases Blk.fine_or_failsN b _ p e h.2.1 ht.1 with hb | ⟨φ, hb⟩
    · rcases Items.fine_or_fails rest τ (p + b.text.length + G.length + τ + 1 + rest.sp.length)
        { e with anchors := b.eff p e } h.2.2.2 ht.2 with hr | ⟨φ, hr⟩
      · exact .inl ⟨hb, hr⟩
      · exact .inr ⟨φ, .inr ⟨hb, hr⟩⟩
    · exact .inr ⟨φ, .inl hb⟩
theorem Ents.fine_or_fails : ∀ (es : Ents) (τ p : Nat) (e : Env), es.ok τ → Ents.tidy e.tags es →
    es.fine τ p e ∨ ∃ φ, es.fails τ p e φ
  | .one T y sp v, τ, p, e, h, ht => by
    simp only [Ents.ok] at h
    simp only [Ents.tidy] at ht
    simpa only [Ents.fine, Ents.fails] using Blk.fine_or_failsV v _ p e h.2.2 ht
  | .cons T y sp v G rest, τ, p, e, h, ht => by
    simp only [Ents.ok] at h
    simp only [Ents.tidy] at ht
    simp only [Ents.fine, Ents.fails]
    rcases Blk.fine_or_failsV v _ p e h.2.2.1.1 ht.1 with hb | ⟨φ, hb⟩
    · rcases Ents.fine_or_fails rest τ (p + v.text.length + G.length + τ + rest.T.length + 1 + rest.sp.length)
        { e with anchors := v.eff p e } h.2.2.2.2 ht.2 with hr | ⟨φ, hr⟩
      · exact .inl ⟨hb, hr⟩
      · exact .inr ⟨φ, .inr ⟨hb, hr⟩⟩
    · exact .inr ⟨φ, .inl hb⟩
end

def Tail.tidy (tbl : List (Bytes × Bytes)) : Tail → Prop
  | .stop _ => True
  | .next _ _ b t => Blk.tidy tbl b ∧ Tail.tidy tbl t

theorem Tail.fine_or_fails : ∀ (t : Tail) (κ : EndKind) (calm : Prop) (p : Nat) (e : Env), t.ok κ calm → Tail.tidy e.tags t →
    t.fine e p ∨ ∃ φ, t.fails e p φ
  | .stop _, _, _, _, _, _, _ => .inl trivial
  | .next G sp b t, κ, calm, p, e, h, ht => by
    obtain ⟨_, _, hb, _, hr⟩ := h
    simp only [Tail.fine, Tail.fails]
    rcases Blk.fine_or_failsN b 0 (p + G.length + 3 + sp.length) e hb ht.1 with hb | ⟨φ, hb⟩
    · rcases Tail.fine_or_fails t b.kind b.calm (p + G.length + 3 + sp.length + b.text.length) e hr ht.2 with hr | ⟨φ, hr⟩
      · exact .inl ⟨hb, hr⟩
      · exact .inr ⟨φ, .inr ⟨hb, hr⟩⟩
    · exact .inr ⟨φ, .inl hb⟩

/-- The tags of the stream have a meaning or an unknown handle. -/
def Stream.tidy (s : Stream) : Prop := Blk.tidy s.tags s.first ∧ Tail.tidy s.tags s.tail

theorem Stream.fine_or_fails {s : Stream} (h : s.ok) (ht : Stream.tidy s) (cyclic : Bool) :
    s.fine cyclic ∨ ∃ φ, s.fails cyclic φ := by
  simp only [Stream.fine, Stream.fails]
  rcases Blk.fine_or_failsN s.first 0 s.head.length (.doc cyclic s.tags) h.1 ht.1 with hb | ⟨φ, hb⟩
  · rcases Tail.fine_or_fails s.tail _ _ (s.head.length + s.first.text.length) (.doc cyclic s.tags) h.2.1 ht.2 with hr | ⟨φ, hr⟩
    · exact .inl ⟨hb, hr⟩
    · exact .inr ⟨φ, .inr ⟨hb, hr⟩⟩
  · exact .inr ⟨φ, .inl hb⟩

/-! ## C13, C14 -/

/-- **C13.** An anchor defined a second time in a document, at any depth, in any document of
any layout: both parsers report the second definition, at the end of its node. -/
theorem C13_second_anchor {s : Stream} (h : s.ok) {p : Nat} (hash : HashCfg) :
    (s.fails false (.twice p 0) → Ends (fun n => parse hash n s.text)
      (.err (.terminate "duplicated anchor definition" ((indicatedMsg s.text p).getD [])))) ∧
    (s.fails true (.twice p 0) → Ends (fun n => parseCyclic hash n s.text)
      (.err (.terminate "duplicated anchor definition" ((indicatedMsg s.text p).getD [])))) := by
  refine ⟨fun hf => ?_, fun hf => ?_⟩
  · obtain ⟨c, ⟨i, hi, rfl⟩, hc⟩ := parse_fails h hf hash
    obtain rfl := Nat.le_zero.1 hi
    exact hc
  · obtain ⟨c, ⟨i, hi, rfl⟩, hc⟩ := parseCyclic_fails h hf hash
    obtain rfl := Nat.le_zero.1 hi
    exact hc

/-- **C13.** The same for nodes in flow collections with white space behind them: the report points to the end
of the node or into the white space. -/
theorem C13_second_anchor_flow {s : Stream} (h : s.ok) {p w : Nat} (hash : HashCfg) :
    (s.fails false (.twice p w) → ∃ i ≤ w, Ends (fun n => parse hash n s.text)
      (.err (.terminate "duplicated anchor definition" ((indicatedMsg s.text (p + i)).getD [])))) ∧
    (s.fails true (.twice p w) → ∃ i ≤ w, Ends (fun n => parseCyclic hash n s.text)
      (.err (.terminate "duplicated anchor definition" ((indicatedMsg s.text (p + i)).getD [])))) := by
  refine ⟨fun hf => ?_, fun hf => ?_⟩
  · obtain ⟨c, ⟨i, hi, rfl⟩, hc⟩ := parse_fails h hf hash
    exact ⟨i, hi, hc⟩
  · obtain ⟨c, ⟨i, hi, rfl⟩, hc⟩ := parseCyclic_fails h hf hash
    exact ⟨i, hi, hc⟩

/-- **C14.** An alias of a name that the current document has not defined, at any depth, in block or flow
collections, in any document of any layout: `parse` reports it, pointing behind the alias. -/
theorem C14_unknown_alias {s : Stream} (h : s.ok) {p : Nat} (hf : s.fails false (.alias p)) (hash : HashCfg) :
    Ends (fun n => parse hash n s.text)
      (.err (.terminate "anchor referenced before definition" ((indicatedMsg s.text p).getD []))) := by
  obtain ⟨c, rfl, hc⟩ := parse_fails h hf hash
  exact hc

/-- **C13, C14.** A layout parses if and only if no name is defined twice in a document, every alias
follows its definition in the same document, and every handle is defined. -/
theorem C14_parses_iff {s : Stream} (h : s.ok) (ht : Stream.tidy s) (hash : HashCfg) :
    (∃ ns, Ends (fun n => parse hash n s.text) (.ok ns)) ↔ s.fine false := by
  constructor
  · rintro ⟨ns, hns⟩
    rcases Stream.fine_or_fails h ht false with hf | ⟨φ, hf⟩
    · exact hf
    · obtain ⟨_, N1, h1⟩ := hns
      obtain ⟨c, _, _, N2, h2⟩ := parse_fails h hf hash
      have e := (h1 (max N1 N2) (Nat.le_max_left ..)).symm.trans (h2 (max N1 N2) (Nat.le_max_right ..))
      cases c <;> simp [Crash.out] at e
  · exact fun hf => ⟨_, C52_layout h hf hash⟩

theorem IsIdent.ne {a : Bytes} (h : IsIdent a) : a ≠ [] := by
  rintro rfl; exact absurd h.1 (by decide)

/-- `- &a T`, `- *b`. -/
def defineUse (a b T : Bytes) (κ : EndKind) (y : Yaml) : Stream :=
  ⟨none, .seq [] 0 (.cons b!" " (.prop (.anchor a b!" ") (.leaf [] T κ (fun _ _ => y) .none)) b!"\n"
    (.one b!" " (.leaf [] (0x2A :: b) .loose (fun _ e => aliasYaml b e) (.of (aliasFine b))))), .stop b!"\n", []⟩

theorem defineUse_ok {a b T : Bytes} {κ : EndKind} {y : Yaml} (ha : IsIdent a) (hb : IsIdent b) (hT : ScalarText κ T y) :
    (defineUse a b T κ y).ok := by
  have hl : LeafIs κ T (fun _ _ => y) .none := .inl ⟨_, hT, rfl, rfl⟩
  refine ⟨?_, .inr (.inl ?_), rfl⟩
  · simp only [defineUse, Blk.okN, Items.ok, Blk.kind]
    exact ⟨.inl trivial, trivial, .inl (sep_space _), ⟨⟨ha, sep_space _⟩, rfl, leaf_ne hT, .inl ⟨.inl trivial, .inl hl⟩⟩,
      after_lf (hl.kind.imp id fun h => .inl h), .inl (sep_space _), .inl ⟨.inl trivial, .inl (.inr (.inr ⟨b, hb, rfl, rfl, rfl, rfl⟩))⟩⟩
  · simp only [defineUse, Blk.kind, Items.kind]; exact after_lf (.inl rfl)

theorem defineUse_text (a b T : Bytes) (κ : EndKind) (y : Yaml) :
    (defineUse a b T κ y).text = b!"- &" ++ a ++ b!" " ++ T ++ b!"\n- *" ++ b ++ b!"\n" := by
  simp [defineUse, Stream.text, Stream.head, Blk.text, Items.body, Form.text, Tail.text, Items.sp, spaces]

/-- **C14.** A sequence with an anchored scalar and an alias of it: `parse` gives the value of the anchored
scalar twice; `parse_cyclic` keeps the alias and returns the binding. -/
theorem C14_define_then_use (a T : Bytes) (y : Yaml) (ha : IsIdent a) (hT : Writes T y) (hash : HashCfg) :
    Ends (fun n => parse hash n (b!"- &" ++ a ++ b!" " ++ T ++ b!"\n- *" ++ a ++ b!"\n"))
      (.ok [.mk 0 [] (.seq [.mk (4 + a.length) [] y, .mk (4 + a.length + T.length + 3) [] y])]) ∧
    Ends (fun n => parseCyclic hash n (b!"- &" ++ a ++ b!" " ++ T ++ b!"\n- *" ++ a ++ b!"\n"))
      (.ok ([.mk 0 [] (.seq [.mk (4 + a.length) [] y, .mk (4 + a.length + T.length + 3) [] (.alias a)])],
        [[(a, .mk (4 + a.length) [] y)]])) := by
  obtain ⟨κ, hκ⟩ := hT
  have hok := defineUse_ok ha ha hκ
  have hne := ha.ne
  have hfine : ∀ c, (defineUse a a T κ y).fine c := by
    intro c
    refine ⟨?_, trivial⟩
    simp [defineUse, Blk.fine, Items.fine, Form.fine, Blk.eff, Form.name, hne, aliasFine, Env.doc, mapGet, mapGet_mapInsert]
  have h1 := C52_layout hok (hfine false) hash
  have h2 := C52_layout_cyclic hok (hfine true) hash
  rw [defineUse_text] at h1 h2
  refine ⟨?_, ?_⟩
  · refine cast (congrArg _ ?_) h1
    simp [defineUse, Stream.nodes, Stream.head, Blk.node, Blk.off, Blk.tag, Blk.data, Items.nodes, Items.sp, Form.text, Form.val,
      Blk.text, Blk.eff, Form.name, hne, aliasYaml, Env.doc, mapGet_mapInsert, Tail.nodes, Node.yaml]
    omega
  · refine cast (congrArg _ ?_) h2
    simp [defineUse, Stream.nodes, Stream.tables, Stream.head, Blk.node, Blk.off, Blk.tag, Blk.data, Items.nodes, Items.sp, Form.text, Form.val,
      Blk.text, Blk.eff, Items.eff, Form.name, hne, aliasYaml, Env.doc, mapInsert, Tail.nodes, Tail.tables]
    omega

/-- **C14.** The same inside a flow sequence: `[&a T, *a]`. -/
theorem C14_flow_define_then_use (a T : Bytes) (y : Yaml) (ha : IsIdent a) (hT : FlowText T y) (hash : HashCfg) :
    Ends (fun n => parse hash n (b!"[&" ++ a ++ b!" " ++ T ++ b!", *" ++ a ++ b!"]\n"))
      (.ok [.mk 0 [] (.seq [.mk (3 + a.length) [] y, .mk (3 + a.length + T.length + 2) [] y])]) ∧
    Ends (fun n => parseCyclic hash n (b!"[&" ++ a ++ b!" " ++ T ++ b!", *" ++ a ++ b!"]\n"))
      (.ok ([.mk 0 [] (.seq [.mk (3 + a.length) [] y, .mk (3 + a.length + T.length + 2) [] (.alias a)])],
        [[(a, .mk (3 + a.length) [] y)]])) := by
  have hne := ha.ne
  let f : Flow := .seq [] (.cons (.prop (.anchor a b!" ") (.one T y)) [] b!" " (.last (.atom (0x2A :: a) (aliasYaml a) (aliasFine a)) []))
  have hok : f.ok [] := by
    simp only [f, Flow.ok, FItems.ok]
    exact ⟨AllWs.nil, ⟨⟨⟨ha, sep_space _⟩, rfl, FlowText.is hT⟩, by simp [AllWs]; decide, .inr ⟨a, ha, AllWs.nil, rfl, rfl, rfl⟩⟩, AllWs.nil⟩
  have hl : LeafIs .loose f.text f.data f.known := .inr (.inl ⟨f, hok, rfl, rfl, rfl, rfl, rfl⟩)
  let s : Stream := ⟨none, .leaf [] f.text .loose f.data f.known, .stop b!"\n", []⟩
  have hs : s.ok := ⟨by simp only [s, Blk.okN]; exact .inl ⟨.inl trivial, .inl hl⟩,
    .inr (.inl (by simp only [s, Blk.kind]; exact after_lf (.inl rfl))), rfl⟩
  have hfine : ∀ c, s.fine c := by
    intro c
    refine ⟨?_, trivial⟩
    simp [s, f, Blk.fine, Flow.known, Flow.fine, FItems.fine, Form.fine, Flow.eff, Form.name, hne, aliasFine, Env.doc, mapGet, mapGet_mapInsert]
  have ht : s.text = b!"[&" ++ a ++ b!" " ++ T ++ b!", *" ++ a ++ b!"]\n" := by
    simp [s, f, Stream.text, Stream.head, Blk.text, Flow.text, FItems.text, Form.text, Tail.text]
  have h1 := C52_layout hs (hfine false) hash
  have h2 := C52_layout_cyclic hs (hfine true) hash
  rw [ht] at h1 h2
  refine ⟨?_, ?_⟩
  · refine cast (congrArg _ ?_) h1
    simp [s, f, Stream.nodes, Stream.head, Blk.node, Blk.off, Blk.tag, Blk.data, Flow.data, FItems.nodes, Flow.off, Flow.tag, Flow.text,
      Form.text, Form.val, Flow.eff, Form.name, hne, aliasYaml, Env.doc, mapGet_mapInsert, Tail.nodes, Node.yaml]
    omega
  · refine cast (congrArg _ ?_) h2
    simp [s, f, Stream.nodes, Stream.tables, Stream.head, Blk.node, Blk.off, Blk.tag, Blk.data, Blk.eff, Flow.known, Flow.data, FItems.nodes, FItems.eff,
      Flow.off, Flow.tag, Flow.text, Form.text, Form.val, Flow.eff, Form.name, hne, aliasYaml, Env.doc, mapInsert, Tail.nodes, Tail.tables]
    omega

example : Ends (fun n => parse .exact n b!"[&a x, *a]\n") (.ok [.mk 0 [] (.seq [.mk 4 [] (.str b!"x"), .mk 7 [] (.str b!"x")])]) :=
  (C14_flow_define_then_use b!"a" b!"x" (.str b!"x") ⟨rfl, by decide⟩ (flow_word (by decide) (by decide) (by decide)) .exact).1

/-- **C14.** An alias of another name is an error in `parse`; the report points behind the alias. -/
theorem C14_define_then_use_other (a b T : Bytes) (y : Yaml) (ha : IsIdent a) (hb : IsIdent b) (hne : b ≠ a) (hT : Writes T y)
    (hash : HashCfg) :
    Ends (fun n => parse hash n (b!"- &" ++ a ++ b!" " ++ T ++ b!"\n- *" ++ b ++ b!"\n"))
      (.err (.terminate "anchor referenced before definition"
        ((indicatedMsg (b!"- &" ++ a ++ b!" " ++ T ++ b!"\n- *" ++ b ++ b!"\n") (a.length + T.length + b.length + 8)).getD []))) := by
  obtain ⟨κ, hκ⟩ := hT
  have hok := defineUse_ok ha hb hκ
  have hne' := ha.ne
  have := C14_unknown_alias (p := a.length + T.length + b.length + 8) hok (by
    refine .inl ?_
    simp only [defineUse, Blk.fails, Items.fails]
    refine .inr ⟨?_, .inl ⟨b, hb, rfl, rfl, ?_, ?_⟩⟩
    · simp [Blk.fine, Form.fine, Blk.eff, Form.name, Env.doc, mapGet]
    · simp [Blk.eff, Form.name, hne', Env.doc, mapGet_mapInsert, hne, mapGet]
    · simp [Stream.head, Blk.text, Form.text, Items.sp]
      omega) hash
  rwa [defineUse_text] at this

/-- **C14.** The names of one document are unknown in the next. -/
theorem C14_other_document (a T : Bytes) (y : Yaml) (ha : IsIdent a) (hT : Writes T y) (hash : HashCfg) :
    Ends (fun n => parse hash n (b!"&" ++ a ++ b!" " ++ T ++ b!"\n---\n*" ++ a ++ b!"\n"))
      (.err (.terminate "anchor referenced before definition"
        ((indicatedMsg (b!"&" ++ a ++ b!" " ++ T ++ b!"\n---\n*" ++ a ++ b!"\n") (2 * a.length + T.length + 8)).getD []))) := by
  obtain ⟨κ, hκ⟩ := hT
  have hl : LeafIs κ T (fun _ _ => y) .none := .inl ⟨_, hκ, rfl, rfl⟩
  have hk : AfterLines κ b!"\n" := after_lf (hl.kind.imp id fun h => .inl h)
  have := C14_unknown_alias (p := 2 * a.length + T.length + 8) (s := ⟨none, .prop (.anchor a b!" ") (.leaf [] T κ (fun _ _ => y) .none),
      .next b!"\n" [] (.leaf b!"\n" (0x2A :: a) .loose (fun _ e => aliasYaml a e) (.of (aliasFine a))) (.stop b!"\n"), []⟩)
    ⟨by simp only [Blk.okN]; exact ⟨⟨ha, sep_space _⟩, rfl, leaf_ne hκ, .inl ⟨.inl trivial, .inl hl⟩⟩, by
        simp only [Tail.ok, Blk.kind, Blk.okN]
        exact ⟨.inl hk, sep_lf [], .inl ⟨.inr (lead_lf 0), .inl (.inr (.inr ⟨a, ha, rfl, rfl, rfl, rfl⟩))⟩, .inl (by simp [Blk.inner, Blk.lead]),
          .inr (.inl (after_lf (.inl rfl)))⟩, rfl⟩ (by
      refine .inr ⟨?_, .inl ?_⟩
      · simp [Blk.fine, Form.fine, Blk.eff, Env.doc, mapGet]
      · simp only [Blk.fails]
        refine .inl ⟨a, ha, rfl, rfl, rfl, ?_⟩
        simp [Stream.head, Blk.text, Form.text]
        omega) hash
  simpa [Stream.text, Stream.head, Blk.text, Form.text, Tail.text] using this

/-- `- &a T`, `- &a U`. -/
def defineTwice (a T U : Bytes) (κ κ' : EndKind) (y z : Yaml) : Stream :=
  ⟨none, .seq [] 0 (.cons b!" " (.prop (.anchor a b!" ") (.leaf [] T κ (fun _ _ => y) .none)) b!"\n"
    (.one b!" " (.prop (.anchor a b!" ") (.leaf [] U κ' (fun _ _ => z) .none)))), .stop b!"\n", []⟩

/-- **C13.** Two definitions of a name in a sequence: both parsers report the second, behind its node. -/
theorem C13_define_twice (a T U : Bytes) (y z : Yaml) (ha : IsIdent a) (hT : Writes T y) (hU : Writes U z) (hash : HashCfg) :
    Ends (fun n => parse hash n (b!"- &" ++ a ++ b!" " ++ T ++ b!"\n- &" ++ a ++ b!" " ++ U ++ b!"\n"))
      (.err (.terminate "duplicated anchor definition" ((indicatedMsg (b!"- &" ++ a ++ b!" " ++ T ++ b!"\n- &" ++ a ++ b!" " ++ U ++ b!"\n")
        (2 * a.length + T.length + U.length + 9)).getD []))) ∧
    Ends (fun n => parseCyclic hash n (b!"- &" ++ a ++ b!" " ++ T ++ b!"\n- &" ++ a ++ b!" " ++ U ++ b!"\n"))
      (.err (.terminate "duplicated anchor definition" ((indicatedMsg (b!"- &" ++ a ++ b!" " ++ T ++ b!"\n- &" ++ a ++ b!" " ++ U ++ b!"\n")
        (2 * a.length + T.length + U.length + 9)).getD []))) := by
  obtain ⟨κ, hκ⟩ := hT
  obtain ⟨κ', hκ'⟩ := hU
  have hl : LeafIs κ T (fun _ _ => y) .none := .inl ⟨_, hκ, rfl, rfl⟩
  have hl' : LeafIs κ' U (fun _ _ => z) .none := .inl ⟨_, hκ', rfl, rfl⟩
  have hne := ha.ne
  have hok : (defineTwice a T U κ κ' y z).ok := by
    refine ⟨?_, .inr (.inl ?_), rfl⟩
    · simp only [defineTwice, Blk.okN, Items.ok, Blk.kind]
      exact ⟨.inl trivial, trivial, .inl (sep_space _), ⟨⟨ha, sep_space _⟩, rfl, leaf_ne hκ, .inl ⟨.inl trivial, .inl hl⟩⟩,
        after_lf (hl.kind.imp id fun h => .inl h), .inl (sep_space _), ⟨ha, sep_space _⟩, rfl, leaf_ne hκ', .inl ⟨.inl trivial, .inl hl'⟩⟩
    · simp only [defineTwice, Blk.kind, Items.kind]; exact after_lf (hl'.kind.imp id fun h => .inl h)
  have htx : (defineTwice a T U κ κ' y z).text = b!"- &" ++ a ++ b!" " ++ T ++ b!"\n- &" ++ a ++ b!" " ++ U ++ b!"\n" := by
    simp [defineTwice, Stream.text, Stream.head, Blk.text, Items.body, Form.text, Tail.text, Items.sp, spaces]
  have hf : ∀ c, (defineTwice a T U κ κ' y z).fails c (.twice (2 * a.length + T.length + U.length + 9) 0) := by
    intro c
    refine .inl ?_
    simp only [defineTwice, Blk.fails, Items.fails]
    refine .inr ⟨?_, .inr (.inr ⟨trivial, ?_, hne, ?_, ?_⟩)⟩
    · simp [Blk.fine, Form.fine, Blk.eff, Env.doc, mapGet]
    · simp [Blk.fine]
    · simp [Blk.eff, Form.name, hne, Env.doc, mapGet_mapInsert]
    · simp [Stream.head, Blk.text, Form.text, Items.sp]
      omega
  have := C13_second_anchor hok (p := 2 * a.length + T.length + U.length + 9) hash
  rw [htx] at this
  exact ⟨this.1 (hf false), this.2 (hf true)⟩

/-- A flow sequence as the only document. -/
theorem flow_doc_ok {f : Flow} (hok : f.ok []) (ha : f.isAtom = false) :
    (⟨none, .leaf [] f.text .loose f.data f.known, .stop b!"\n", []⟩ : Stream).ok :=
  ⟨by simp only [Blk.okN]; exact .inl ⟨.inl trivial, .inl (.inr (.inl ⟨f, hok, ha, rfl, rfl, rfl, rfl⟩))⟩,
    .inr (.inl (by simp only [Blk.kind]; exact after_lf (.inl rfl))), rfl⟩

/-- **C13.** Two definitions of a name in a flow sequence: both parsers report the second, behind its node. -/
theorem C13_flow_define_twice (a T U : Bytes) (y z : Yaml) (ha : IsIdent a) (hT : FlowText T y) (hU : FlowText U z) (hash : HashCfg) :
    Ends (fun n => parse hash n (b!"[&" ++ a ++ b!" " ++ T ++ b!", &" ++ a ++ b!" " ++ U ++ b!"]\n"))
      (.err (.terminate "duplicated anchor definition" ((indicatedMsg (b!"[&" ++ a ++ b!" " ++ T ++ b!", &" ++ a ++ b!" " ++ U ++ b!"]\n")
        (2 * a.length + T.length + U.length + 7)).getD []))) ∧
    Ends (fun n => parseCyclic hash n (b!"[&" ++ a ++ b!" " ++ T ++ b!", &" ++ a ++ b!" " ++ U ++ b!"]\n"))
      (.err (.terminate "duplicated anchor definition" ((indicatedMsg (b!"[&" ++ a ++ b!" " ++ T ++ b!", &" ++ a ++ b!" " ++ U ++ b!"]\n")
        (2 * a.length + T.length + U.length + 7)).getD []))) := by
  have hne := ha.ne
  let f : Flow := .seq [] (.cons (.prop (.anchor a b!" ") (.one T y)) [] b!" " (.last (.prop (.anchor a b!" ") (.one U z)) []))
  have hok : f.ok [] := by
    simp only [f, Flow.ok, FItems.ok]
    exact ⟨AllWs.nil, ⟨⟨⟨ha, sep_space _⟩, rfl, FlowText.is hT⟩, by simp [AllWs]; decide, ⟨ha, sep_space _⟩, rfl, FlowText.is hU⟩, AllWs.nil⟩
  have hs := flow_doc_ok hok rfl
  have htx : (⟨none, .leaf [] f.text .loose f.data f.known, .stop b!"\n", []⟩ : Stream).text =
      b!"[&" ++ a ++ b!" " ++ T ++ b!", &" ++ a ++ b!" " ++ U ++ b!"]\n" := by
    simp [f, Stream.text, Stream.head, Blk.text, Flow.text, FItems.text, Form.text, Tail.text]
  have hf : ∀ c, (⟨none, .leaf [] f.text .loose f.data f.known, .stop b!"\n", []⟩ : Stream).fails c
      (.twice (2 * a.length + T.length + U.length + 7) 0) := by
    intro c
    refine .inl ?_
    simp only [Blk.fails]
    refine .inr ⟨f, Flow.ok_wf f [] hok, rfl, rfl, ?_⟩
    simp only [f, Flow.fails, FItems.fails]
    refine .inr ⟨?_, .inr (.inr ⟨trivial, ?_, hne, ?_, ?_⟩)⟩
    · simp [Flow.fine, Form.fine, Flow.eff, Env.doc, mapGet]
    · simp [Flow.fine]
    · simp [Flow.eff, Form.name, hne, Env.doc, mapGet_mapInsert]
    · simp [Stream.head, Flow.text, Form.text]
      omega
  have := C13_second_anchor hs (p := 2 * a.length + T.length + U.length + 7) hash
  rw [htx] at this
  exact ⟨this.1 (hf false), this.2 (hf true)⟩

example : Ends (fun n => parse .exact n b!"[&a x, &a y]\n")
    (.err (.terminate "duplicated anchor definition" b!"1:12\n[&a x, &a y]\n           ^")) := by
  have h := (C13_flow_define_twice b!"a" b!"x" b!"y" (.str b!"x") (.str b!"y") ⟨rfl, by decide⟩ (flow_word (by decide) (by decide) (by decide))
    (flow_word (by decide) (by decide) (by decide)) .exact).1
  exact cast (congrArg _ (by decide +kernel)) h

/-- **C14.** An alias of an unknown name in a flow sequence: `parse` reports it, behind the alias. -/
theorem C14_flow_unknown_alias (a T : Bytes) (y : Yaml) (ha : IsIdent a) (hT : FlowText T y) (hash : HashCfg) :
    Ends (fun n => parse hash n (b!"[" ++ T ++ b!", *" ++ a ++ b!"]\n"))
      (.err (.terminate "anchor referenced before definition" ((indicatedMsg (b!"[" ++ T ++ b!", *" ++ a ++ b!"]\n")
        (a.length + T.length + 4)).getD []))) := by
  let f : Flow := .seq [] (.cons (.one T y) [] b!" " (.last (.atom (0x2A :: a) (aliasYaml a) (aliasFine a)) []))
  have hok : f.ok [] := by
    simp only [f, Flow.ok, FItems.ok]
    exact ⟨AllWs.nil, ⟨FlowText.is hT, by simp [AllWs]; decide, .inr ⟨a, ha, AllWs.nil, rfl, rfl, rfl⟩⟩, AllWs.nil⟩
  have htx : (⟨none, .leaf [] f.text .loose f.data f.known, .stop b!"\n", []⟩ : Stream).text =
      b!"[" ++ T ++ b!", *" ++ a ++ b!"]\n" := by
    simp [f, Stream.text, Stream.head, Blk.text, Flow.text, FItems.text, Tail.text]
  have := C14_unknown_alias (p := a.length + T.length + 4) (flow_doc_ok hok rfl) (by
    refine .inl ?_
    simp only [Blk.fails]
    refine .inr ⟨f, Flow.ok_wf f [] hok, rfl, rfl, ?_⟩
    simp only [f, Flow.fails, FItems.fails]
    refine .inr ⟨by simp [Flow.fine], a, ha, rfl, rfl, ?_, ?_⟩
    · simp [Flow.eff, Env.doc, mapGet]
    · simp [Stream.head, Flow.text]
      omega) hash
  rwa [htx] at this

/-- **C13.** Each document has its own names: the same name in two documents is no error. -/
theorem C13_each_document (a T U : Bytes) (y z : Yaml) (ha : IsIdent a) (hT : Writes T y) (hU : Writes U z) (hash : HashCfg) :
    Ends (fun n => parseCyclic hash n (b!"&" ++ a ++ b!" " ++ T ++ b!"\n--- &" ++ a ++ b!" " ++ U ++ b!"\n"))
      (.ok ([.mk (a.length + 2) [] y, .mk (2 * a.length + T.length + 9) [] z],
        [[(a, .mk (a.length + 2) [] y)], [(a, .mk (2 * a.length + T.length + 9) [] z)]])) := by
  obtain ⟨κ, hκ⟩ := hT
  obtain ⟨κ', hκ'⟩ := hU
  have hl : LeafIs κ T (fun _ _ => y) .none := .inl ⟨_, hκ, rfl, rfl⟩
  have hl' : LeafIs κ' U (fun _ _ => z) .none := .inl ⟨_, hκ', rfl, rfl⟩
  have hk : AfterLines κ b!"\n" := after_lf (hl.kind.imp id fun h => .inl h)
  have hk' : AfterLines κ' b!"\n" := after_lf (hl'.kind.imp id fun h => .inl h)
  have hne := ha.ne
  have := C52_layout_cyclic (s := ⟨none, .prop (.anchor a b!" ") (.leaf [] T κ (fun _ _ => y) .none),
      .next b!"\n" b!" " (.prop (.anchor a b!" ") (.leaf [] U κ' (fun _ _ => z) .none)) (.stop b!"\n"), []⟩)
    ⟨by simp only [Blk.okN]; exact ⟨⟨ha, sep_space _⟩, rfl, leaf_ne hκ, .inl ⟨.inl trivial, .inl hl⟩⟩, by
        simp only [Tail.ok, Blk.kind, Blk.okN]
        exact ⟨.inl hk, sep_space _, ⟨⟨ha, sep_space _⟩, rfl, leaf_ne hκ', .inl ⟨.inl trivial, .inl hl'⟩⟩,
          .inr ⟨by simp only [Blk.short]; rintro w rfl; rcases hl'.kind with h | h <;> simp at h, by simp [Blk.calm]⟩,
          .inr (.inl hk')⟩, rfl⟩ (by
      refine ⟨?_, ?_, trivial⟩
      · simp [Blk.fine, Form.fine, Blk.eff, Env.doc, mapGet]
      · simp [Blk.fine, Form.fine, Blk.eff, Env.doc, mapGet]) hash
  refine cast ?_ this
  congr 1
  · simp [Stream.text, Stream.head, Blk.text, Form.text, Tail.text]
  · simp [Stream.nodes, Stream.tables, Stream.head, Blk.node, Blk.off, Blk.tag, Blk.data, Form.text, Form.val,
      Blk.text, Blk.eff, Form.name, hne, Env.doc, mapInsert, Tail.nodes, Tail.tables]
    omega

example : Ends (fun n => parseCyclic .exact n b!"&a x\n--- &a 'y'\n") (.ok ([.mk 3 [] (.str b!"x"), .mk 12 [] (.str b!"y")],
    [[(b!"a", .mk 3 [] (.str b!"x"))], [(b!"a", .mk 12 [] (.str b!"y"))]])) :=
  C13_each_document b!"a" b!"x" b!"'y'" (.str b!"x") (.str b!"y") ⟨rfl, by decide⟩ (writes_word (by decide) (by decide))
    ⟨_, .single (s := b!"y") (utf8_ascii (by decide)) (by decide)⟩ .exact

/-! ## C31: tags -/

deriving instance DecidableEq for Handle

/-- The prefix that a directive declares for a handle. -/
def declares (h : Handle) : Dir → Option Bytes
  | .tag _ h' _ p _ => if h' = h then some p else none
  | _ => none

/-- The prefix that the directives declare for a handle; the last one counts. -/
def declared (h : Handle) : List Dir → Option Bytes
  | [] => none
  | d :: ds => (declared h ds).or (declares h d)

theorem ident_ne {x y : Bytes} (hx : IsIdent x) (hy : headAlnum y = false) : x ≠ y := by
  rintro rfl; rw [hx.1] at hy; simp at hy

theorem key_inj {h h' : Handle} (hh : h.wf) (hh' : h'.wf) (e : h.key = h'.key) : h = h' := by
  cases h with
  | named x =>
    cases h' with
    | named y => simpa [Handle.key] using e
    | second => exact absurd e (ident_ne hh (by decide))
    | first => exact absurd e (ident_ne hh (by decide))
  | second =>
    cases h' with
    | named y => exact absurd e.symm (ident_ne hh' (by decide))
    | second => rfl
    | first => exact absurd e (by decide)
  | first =>
    cases h' with
    | named y => exact absurd e.symm (ident_ne hh' (by decide))
    | second => exact absurd e (by decide)
    | first => rfl

theorem mapGet_dirsRun {h : Handle} (hh : h.wf) : ∀ (ds : List Dir) (k : Ctx), (∀ d ∈ ds, d.is) →
    mapGet h.key (dirsRun k ds).tag = (declared h ds).or (mapGet h.key k.tag)
  | [], k, _ => by simp [dirsRun, declared]
  | d :: ds, k, hd => by
    rw [dirsRun, mapGet_dirsRun hh ds _ fun x hx => hd x (by simp [hx]), declared]
    cases hds : declared h ds with
    | some p => rfl
    | none =>
      simp only [Option.none_or]
      cases d with
      | yaml sp old G => simp [Dir.run, declares]
      | other t G => simp [Dir.run, declares]
      | tag sp h' sp' p G =>
        have hw : h'.wf := (hd (.tag sp h' sp' p G) (by simp)).2.1
        simp only [Dir.run, mapGet_mapInsert, declares]
        by_cases e : h' = h
        · subst e; simp
        · have : h.key ≠ h'.key := fun he => e (key_inj hh hw he).symm
          simp [this, e]

/-- The ways to write a tag, behind directives `ds`, and what they stand for. -/
inductive Tagged (ds : List Dir) : Bytes → Bytes → Prop
  /-- `!x` stands for `x` -/
  | local {x} : IsIdent x → Tagged ds (b!"!" ++ x) x
  /-- `!h!x`: the prefix that is declared for `!h!`, then `x` -/
  | named {h x p} : IsIdent h → IsIdent x → declared (.named h) ds = some p → Tagged ds (b!"!" ++ h ++ b!"!" ++ x) (p ++ x)
  /-- `!!x`: the prefix that is declared for `!!`, then `x`; without one, `tag:yaml.org,2002:x` -/
  | second {x} : IsIdent x → Tagged ds (b!"!!" ++ x) ((declared .second ds).getD b!"tag:yaml.org,2002:" ++ x)
  /-- `!<t>` stands for `t` -/
  | verbatim {t} : t ≠ [] → Utf8 t → (∀ c ∈ t, c ∉ b!" <>\n\r") → Tagged ds (b!"!<" ++ t ++ b!">") t

theorem Tagged.text {ds : List Dir} (hds : ∀ d ∈ ds, d.is) {tg t : Bytes} (h : Tagged ds tg t) :
    TagText (dirsRun .start ds).tag tg t := by
  cases h with
  | «local» hx => exact .local hx
  | @named h x p hh hx hp =>
    have := mapGet_dirsRun (h := .named h) hh ds .start hds
    rw [hp] at this
    simpa using TagText.named hh hx this
  | @second x hx =>
    have := mapGet_dirsRun (h := .second) trivial ds .start hds
    refine TagText.second (p := (declared .second ds).getD b!"tag:yaml.org,2002:") hx ?_
    rw [show b!"!!" = Handle.second.key from rfl, this]
    cases declared .second ds with
    | some p => rfl
    | none => rfl
  | verbatim h1 h2 h3 => simpa using TagText.verbatim h1 h2 h3

/-- A layout without anchors and aliases whose tags have a meaning. -/
theorem reads_tagged {ds : List Dir} {tg t T : Bytes} {y : Yaml} (mark : Option (Bytes × Bytes)) (hm : match mark with
    | none => ds = []
    | some (G, sp) => (∀ d ∈ ds, d.is) ∧ (ds.filter Dir.isYaml).length ≤ 1 ∧ (G = [] ∨ (ds = [] ∧ IdleLines G)) ∧ SepIs sp [])
    (ht : TagText (dirsRun .start ds).tag tg t) (hT : Writes T y) (doc : Bytes) (p : Nat)
    (he : doc = (match mark with | none => [] | some (G, sp) => dirsText ds ++ (G ++ (b!"---" ++ sp))) ++ (tg ++ (b!" " ++ (T ++ b!"\n"))))
    (hp : p = (match mark with | none => [] | some (G, sp) => dirsText ds ++ (G ++ (b!"---" ++ sp))).length + tg.length + 1) :
    Reads doc [.mk p t y] := by
  obtain ⟨κ, hκ⟩ := hT
  have hl : LeafIs κ T (fun _ _ => y) .none := .inl ⟨_, hκ, rfl, rfl⟩
  have hg : ∃ r, tg = 0x21 :: r := by cases ht <;> exact ⟨_, rfl⟩
  let s : Stream := ⟨mark, .prop (.tag tg t b!" ") (.leaf [] T κ (fun _ _ => y) .none), .stop b!"\n", ds⟩
  have hok : s.ok := by
    refine ⟨by simp only [s, Blk.okN]; exact ⟨⟨hg, sep_space _⟩, rfl, leaf_ne hκ, .inl ⟨.inl trivial, .inl hl⟩⟩,
      .inr (.inl (by simp only [s, Blk.kind]; exact after_lf (hl.kind.imp id fun h => .inl h))), ?_⟩
    cases mark with
    | none => exact hm
    | some x => exact hm
  have hf : ∀ c, s.fine c := fun c => ⟨by
    simp only [s, Blk.fine, Form.fine, Form.name]
    exact ⟨ht, trivial, fun h => absurd rfl h⟩, trivial⟩
  have htx : s.text = doc := by
    subst he
    simp only [s, Stream.text, Stream.head, Blk.text, Form.text, Tail.text, List.nil_append, List.append_assoc]
    cases mark <;> rfl
  have hn : ∀ c, s.nodes c = [.mk p t y] := by
    intro c; subst hp
    simp only [s, Stream.nodes, Stream.head, Blk.node, Blk.off, Blk.tag, Blk.data, Form.val, Form.text, Tail.nodes]
    cases mark <;> simp [Nat.add_assoc]
  have htb : s.tables true = [[]] := by
    simp [s, Stream.tables, Blk.eff, Form.name, Tail.tables, Env.doc]
  intro hash
  have h1 := C52_layout hok (hf false) hash
  have h2 := C52_layout_cyclic hok (hf true) hash
  rw [htx, hn] at h1
  rw [htx, hn, htb] at h2
  exact ⟨h1, h2⟩

/-- **C31, partial.** A tag in front of a scalar, behind any directives and `---`: the node has what the tag
stands for as its tag, and the scalar is read as it would be without the tag.  (For tags
at any depth see `C52_layout`.)  Missing: a tag with an undeclared handle is a panic, not an error
(`C31_unknown_handle_panics`), and a tag on the line after `---` is lost. -/
theorem C31_tag_partial (ds : List Dir) (hds : ∀ d ∈ ds, d.is) (hy : (ds.filter Dir.isYaml).length ≤ 1) (tg t T : Bytes) (y : Yaml)
    (ht : Tagged ds tg t) (hT : Writes T y) :
    Reads (dirsText ds ++ (b!"--- " ++ (tg ++ (b!" " ++ (T ++ b!"\n")))))
      [.mk ((dirsText ds).length + 4 + tg.length + 1) t y] :=
  reads_tagged (some ([], b!" ")) ⟨hds, hy, .inl rfl, sep_space _⟩ (ht.text hds) hT _ _ (by simp) (by simp)

/-- **C31, partial.** The same at the beginning of the text, without directives. -/
theorem C31_root_tag_partial (tg t T : Bytes) (y : Yaml) (ht : Tagged [] tg t) (hT : Writes T y) :
    Reads (tg ++ b!" " ++ T ++ b!"\n") [.mk (tg.length + 1) t y] :=
  reads_tagged none rfl (ht.text (by simp)) hT _ _ (by simp) (by simp)

/-- **C31.** `%TAG !h! p` and then `!h!x`. -/
theorem C31_named_handle (h p x T : Bytes) (y : Yaml) (hh : IsIdent h) (hx : IsIdent x) (hp : p ≠ []) (hu : Utf8 p)
    (hp' : ∀ c ∈ p, c ∉ b!" \n\r\t\x0c") (hT : Writes T y) :
    ∃ q, Reads (b!"%TAG !" ++ h ++ b!"! " ++ p ++ b!"\n--- !" ++ h ++ b!"!" ++ x ++ b!" " ++ T ++ b!"\n") [.mk q (p ++ x) y] := by
  have := C31_tag_partial [.tag b!" " (.named h) b!" " p b!"\n"] (by
    simp only [List.mem_singleton, forall_eq]
    refine ⟨⟨by simp, by decide⟩, hh, ⟨by simp, by decide⟩, hp, hu, fun c hc => ?_, ?_, idle_lf, by decide⟩
    · have := hp' c hc
      simp only [List.mem_cons, List.not_mem_nil, or_false, not_or] at this ⊢
      exact ⟨this.1, this.2.1, this.2.2.1⟩
    · rintro c r rfl
      have := hp' c (by simp)
      simp only [List.mem_cons, List.not_mem_nil, or_false, not_or] at this
      simp [isBlank, isAsciiWs, this]) (by simp [Dir.isYaml]) _ _ T y (.named (p := p) hh hx (by simp [declared, declares])) hT
  exact ⟨_, by simpa [dirsText, Dir.text, Handle.text] using this⟩

theorem ident_of {x : Bytes} (h : headAlnum x = true) (h' : x.all idByte = true) : IsIdent x :=
  ⟨h, fun c hc => List.all_eq_true.1 h' c hc⟩

example : ∃ q, Reads b!"%TAG !e! tag:x.org,\n--- !e!f-g 'a b'\n" [.mk q b!"tag:x.org,f-g" (.str b!"a b")] :=
  C31_named_handle b!"e" b!"tag:x.org," b!"f-g" b!"'a b'" (.str b!"a b") (ident_of rfl rfl) (ident_of rfl rfl) (by simp)
    (utf8_ascii (by decide)) (by decide) ⟨_, .single (s := b!"a b") (utf8_ascii (by decide)) (by decide)⟩

example : Reads b!"!!int x\n" [.mk 6 b!"tag:yaml.org,2002:int" (.str b!"x")] :=
  C31_root_tag_partial b!"!!int" _ b!"x" (.str b!"x") (Tagged.second (x := b!"int") (ident_of rfl rfl)) (writes_word (by decide) (by decide))

example : Reads b!"!<a:b!c> x\n" [.mk 9 b!"a:b!c" (.str b!"x")] :=
  C31_root_tag_partial b!"!<a:b!c>" _ b!"x" (.str b!"x") (Tagged.verbatim (t := b!"a:b!c") (by simp) (utf8_ascii (by decide)) (by decide))
    (writes_word (by decide) (by decide))

/-- **C31, counterexample; C02, counterexample.** A tag with an undeclared handle, at any depth, in any
document of any layout, is a panic in both parsers. -/
theorem C31_unknown_handle_panics {s : Stream} (h : s.ok) (hash : HashCfg) :
    (s.fails false .handle → Ends (fun n => parse hash n s.text) (.panic .tagHandle)) ∧
    (s.fails true .handle → Ends (fun n => parseCyclic hash n s.text) (.panic .tagHandle)) := by
  refine ⟨fun hf => ?_, fun hf => ?_⟩
  · obtain ⟨c, rfl, hc⟩ := parse_fails h hf hash
    exact hc
  · obtain ⟨c, rfl, hc⟩ := parseCyclic_fails h hf hash
    exact hc

/-- **C31, counterexample; C02, counterexample.** At the root: `--- !h!… T`, whatever directives stand in front, if none of them
declares `!h!`. -/
theorem C31_undeclared_root_panics (ds : List Dir) (hds : ∀ d ∈ ds, d.is) (hy : (ds.filter Dir.isYaml).length ≤ 1) (h r T : Bytes)
    (y : Yaml) (hh : IsIdent h) (hd : declared (.named h) ds = none) (hT : Writes T y) (hash : HashCfg) :
    Ends (fun n => parse hash n (dirsText ds ++ (b!"--- !" ++ (h ++ (b!"!" ++ (r ++ (b!" " ++ (T ++ b!"\n"))))))))
      (.panic .tagHandle) := by
  obtain ⟨κ, hκ⟩ := hT
  have hl : LeafIs κ T (fun _ _ => y) .none := .inl ⟨_, hκ, rfl, rfl⟩
  let s : Stream := ⟨some ([], b!" "), .prop (.tag (0x21 :: (h ++ 0x21 :: r)) [] b!" ") (.leaf [] T κ (fun _ _ => y) .none),
    .stop b!"\n", ds⟩
  have hok : s.ok := ⟨by simp only [s, Blk.okN]; exact ⟨⟨⟨_, rfl⟩, sep_space _⟩, rfl, leaf_ne hκ, .inl ⟨.inl trivial, .inl hl⟩⟩,
      .inr (.inl (by simp only [s, Blk.kind]; exact after_lf (hl.kind.imp id fun h => .inl h))), hds, hy, .inl rfl, sep_space _⟩
  have hu : mapGet h (dirsRun .start ds).tag = none := by
    have := mapGet_dirsRun (h := .named h) hh ds .start hds
    rw [hd] at this
    refine this.trans ?_
    have h1 : h ≠ b!"!" := ident_ne hh (by decide)
    have h2 : h ≠ b!"!!" := ident_ne hh (by decide)
    simp [Ctx.start, Parser.new, mapGet_mapInsert, h1, h2, mapGet, Handle.key]
  have hf : s.fails false .handle := .inl (by
    simp only [s, Blk.fails, Form.unknown, UnknownTag]
    exact .inl ⟨⟨h, r, hh, hu, rfl⟩, trivial⟩)
  have := (C31_unknown_handle_panics hok hash).1 hf
  simpa [s, Stream.text, Stream.head, Blk.text, Form.text, Tail.text] using this

example : Ends (fun n => parse .exact n b!"%TAG !f! x\n--- !e!y z\n") (.panic .tagHandle) :=
  C31_undeclared_root_panics [.tag b!" " (.named b!"f") b!" " b!"x" b!"\n"] (by
    simp only [List.mem_singleton, forall_eq]
    exact ⟨⟨by simp, by decide⟩, ident_of (x := b!"f") rfl rfl, ⟨by simp, by decide⟩, by simp, utf8_ascii (by decide), by decide,
      by rintro c r ⟨⟩; decide, idle_lf, by decide⟩)
    (by simp [Dir.isYaml]) b!"e" b!"y" b!"z" (.str b!"z") (ident_of rfl rfl) (by simp [declared, declares]) (writes_word (by decide) (by decide)) .exact

/-- **C02, counterexample.** A tag with an undeclared handle (for all of these see
`C31_unknown_handle_panics`). -/
theorem C02_counterexample_handle : Ends (fun n => parse .exact n b!"!e!y z\n") (.panic .tagHandle) :=
  parse_returns_of (n := 20) (by decide +kernel) (by simp)

/-- **C02, counterexample.** Equal integer keys outside the range of `i64`. -/
theorem C02_counterexample_int_keys :
    Ends (fun n => parse .exact n b!"{99999999999999999999: a, 99999999999999999999: b}") (.panic .intUnwrap) :=
  parse_returns_of (n := 20) (by decide +kernel) (by simp)

/-- **C31, counterexample.** `%TAG ! p` does not apply to `!x`. -/
theorem C31_counterexample_primary : Ends (fun n => parse .exact n b!"%TAG ! tag:x,\n--- !y z\n")
    (.ok [.mk 21 b!"y" (.str b!"z")]) :=
  parse_returns_of (n := 40) (by decide +kernel) (by simp)

/-- **C31, counterexample.** A tag on the line after `---` is lost. -/
theorem C31_counterexample_next_line : Ends (fun n => parse .exact n b!"---\n!t x\n")
    (.ok [.mk 3 [] (.str b!"x")]) :=
  parse_returns_of (n := 40) (by decide +kernel) (by simp)

end YamlPeg.Props
