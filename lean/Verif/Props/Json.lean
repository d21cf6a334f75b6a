import Verif.Proof.Dump
import Verif.Props.Layout
/-!
# JSON texts: C59

The data of JSON, how serializers write it, and what `parse` makes of that.
-/

namespace YamlPeg.Props
open YamlPeg M

/-! ## Specification -/

mutual
/-- JSON data; numbers are kept as text. -/
inductive Json where
  | null
  | bool (b : Bool)
  | num (T : Bytes)
  | str (s : Bytes)
  | arr (xs : Elems)
  | obj (ms : Members)
/-- The elements of an array. -/
inductive Elems where
  | nil
  | cons (x : Json) (xs : Elems)
/-- The members of an object. -/
inductive Members where
  | nil
  | cons (k : Bytes) (v : Json) (ms : Members)
end

/-- How a byte is written in a JSON string. -/
def jsonByte (c : UInt8) : Bytes :=
  if c = 0x22 then b!"\\\"" else if c = 0x5C then b!"\\\\" else if c = 0x0A then b!"\\n"
  else if c = 0x0D then b!"\\r" else if c = 0x09 then b!"\\t" else if c = 0x08 then b!"\\b"
  else if c = 0x0C then b!"\\f" else [c]

def jsonString (s : Bytes) : Bytes := b!"\"" ++ s.flatMap jsonByte ++ b!"\""

/-- The white space a serializer puts behind an opening bracket, behind a comma and
in front of a closing bracket, at each depth, and behind a colon. -/
structure JsonStyle where
  opn : Nat → Bytes
  comma : Nat → Bytes
  close : Nat → Bytes
  colon : Bytes

/-- `{"a":[1,2]}` -/
def JsonStyle.compact : JsonStyle := ⟨fun _ => [], fun _ => [], fun _ => [], []⟩
/-- `{"a": [1, 2]}` -/
def JsonStyle.spaced : JsonStyle := ⟨fun _ => [], fun _ => b!" ", fun _ => [], b!" "⟩
/-- One element per line, indented by `w` blanks (or tabs) for each level. -/
def JsonStyle.pretty (blank : UInt8) (w : Nat) : JsonStyle :=
  let line := fun d => 0x0A :: List.replicate (w * d) blank
  ⟨line, line, line, b!" "⟩

mutual
/-- The JSON text of `j` in a style, at depth `d`. -/
def Json.text (σ : JsonStyle) (d : Nat) : Json → Bytes
  | .null => b!"null"
  | .bool true => b!"true"
  | .bool false => b!"false"
  | .num T => T
  | .str s => jsonString s
  | .arr .nil => b!"[]"
  | .arr (.cons x xs) => b!"[" ++ σ.opn (d + 1) ++ x.text σ (d + 1) ++ xs.text σ (d + 1) ++ σ.close d ++ b!"]"
  | .obj .nil => b!"{}"
  | .obj (.cons k v ms) =>
    b!"{" ++ σ.opn (d + 1) ++ jsonString k ++ b!":" ++ σ.colon ++ v.text σ (d + 1) ++ ms.text σ (d + 1) ++ σ.close d ++ b!"}"
/-- The further elements, at depth `d`. -/
def Elems.text (σ : JsonStyle) (d : Nat) : Elems → Bytes
  | .nil => []
  | .cons x xs => b!"," ++ σ.comma d ++ x.text σ d ++ xs.text σ d
/-- The further members, at depth `d`. -/
def Members.text (σ : JsonStyle) (d : Nat) : Members → Bytes
  | .nil => []
  | .cons k v ms => b!"," ++ σ.comma d ++ jsonString k ++ b!":" ++ σ.colon ++ v.text σ d ++ ms.text σ d
end

/-- A JSON number has a minus sign or none, digits, and perhaps a fraction or an exponent, not both. -/
def JsonNumber (T : Bytes) : Prop :=
  ∃ sg d, IsSign sg ∧ IsDigits d ∧
    (T = sg ++ d ∨ (∃ f, IsDigits f ∧ T = sg ++ d ++ 0x2E :: f) ∨
     ∃ e es ed, (e = 0x65 ∨ e = 0x45) ∧ (es = [] ∨ es = [0x2B] ∨ es = [0x2D]) ∧ IsDigits ed ∧ T = sg ++ d ++ e :: es ++ ed)

/-- Without a point and an exponent it is an `Int`, else a `Float`; `1.0` is kept as `1`. -/
def jsonNumber (T : Bytes) : Yaml :=
  if 0x2E ∈ T then .float (trimEndMatches T b!".0") else if 0x65 ∈ T ∨ 0x45 ∈ T then .float T else .int T

mutual
/-- The data as YAML, all positions 0. -/
def Json.yaml : Json → Yaml
  | .null => .null
  | .bool b => .bool b
  | .num T => jsonNumber T
  | .str s => .str s
  | .arr xs => .seq xs.nodes
  | .obj ms => .map ms.pairs
def Elems.nodes : Elems → List Node
  | .nil => []
  | .cons x xs => .mk 0 [] x.yaml :: xs.nodes
def Members.pairs : Members → List (Node × Node)
  | .nil => []
  | .cons k v ms => (.mk 0 [] (.str k), .mk 0 [] v.yaml) :: ms.pairs
end

def Members.names : Members → List Bytes
  | .nil => []
  | .cons k _ ms => k :: ms.names

/-- Strings are UTF-8 and do not end in a backslash. -/
def JsonText (s : Bytes) : Prop := Utf8 s ∧ s.getLast? ≠ some 0x5C

mutual
/-- Numbers are numbers, strings are text, the names of an object are different. -/
def Json.ok : Json → Prop
  | .null => True
  | .bool _ => True
  | .num T => JsonNumber T
  | .str s => JsonText s
  | .arr xs => xs.ok
  | .obj ms => ms.ok ∧ ms.names.Nodup
def Elems.ok : Elems → Prop
  | .nil => True
  | .cons x xs => x.ok ∧ xs.ok
def Members.ok : Members → Prop
  | .nil => True
  | .cons k v ms => JsonText k ∧ v.ok ∧ ms.ok
end

/-- White space is white space; in front of a closing bracket there are spaces,
then perhaps a line break and any white space; behind a colon nothing, or a space
and blanks. -/
structure JsonStyle.ok (σ : JsonStyle) : Prop where
  opn : ∀ d, AllWs (σ.opn d)
  comma : ∀ d, AllWs (σ.comma d)
  close : ∀ d, Behind .strict (σ.close d)
  colon : σ.colon = [] ∨ FlowSep σ.colon

/-! ## As flow collections -/

theorem jsonByte_eq : jsonByte = quoteByte := by
  funext c
  unfold jsonByte quoteByte escapeByte
  repeat' split
  all_goals simp_all

theorem jsonString_eq (s : Bytes) : jsonString s = doubleQuoted s := by
  simp [jsonString, doubleQuoted, jsonByte_eq]

theorem IsSign.none {sg : Bytes} (h : IsSign sg) : ∀ x ∈ sg, x ≠ 0x2E ∧ x ≠ 0x65 ∧ x ≠ 0x45 := by
  rcases h with rfl | rfl
  · simp
  · decide

theorem IsDigits.none {d : Bytes} (h : IsDigits d) : ∀ x ∈ d, x ≠ 0x2E ∧ x ≠ 0x65 ∧ x ≠ 0x45 := by
  intro x hx
  have := h.2 x hx
  refine ⟨?_, ?_, ?_⟩ <;> (rintro rfl; revert this; decide)

theorem JsonNumber.text {T : Bytes} (h : JsonNumber T) : ScalarText .strict T (jsonNumber T) := by
  obtain ⟨sg, d, hsg, hd, rfl | ⟨f, hf, rfl⟩ | ⟨e, es, ed, he, hes, hed, rfl⟩⟩ := h
  · have h1 : ∀ x ∈ sg ++ d, x ≠ 0x2E ∧ x ≠ 0x65 ∧ x ≠ 0x45 := by
      intro x hx
      rcases List.mem_append.1 hx with h | h
      · exact IsSign.none hsg x h
      · exact IsDigits.none hd x h
    have e1 : 0x2E ∉ sg ++ d := fun h => (h1 _ h).1 rfl
    have e2 : ¬(0x65 ∈ sg ++ d ∨ 0x45 ∈ sg ++ d) := by
      rintro (h | h)
      · exact (h1 _ h).2.1 rfl
      · exact (h1 _ h).2.2 rfl
    rw [jsonNumber, if_neg e1, if_neg e2]
    exact .int hsg hd
  · rw [jsonNumber, if_pos (by simp)]
    exact .float hsg hd hf.2
  · have e1 : 0x2E ∉ sg ++ d ++ e :: es ++ ed := by
      intro h
      simp only [List.mem_append, List.mem_cons] at h
      rcases h with ((h | h) | h | h) | h
      · exact (IsSign.none hsg _ h).1 rfl
      · exact (IsDigits.none hd _ h).1 rfl
      · rcases he with rfl | rfl <;> exact absurd h (by decide)
      · rcases hes with rfl | rfl | rfl <;> exact absurd h (by decide)
      · exact (IsDigits.none hed _ h).1 rfl
    have e2 : 0x65 ∈ sg ++ d ++ e :: es ++ ed ∨ 0x45 ∈ sg ++ d ++ e :: es ++ ed := by
      rcases he with rfl | rfl <;> simp
    rw [jsonNumber, if_neg e1, if_pos e2]
    exact .sci hsg hd he hes hed

/-- The bytes of a number are no brackets. -/
theorem JsonNumber.bare {T : Bytes} (h : JsonNumber T) : ∀ c ∈ T, c ∉ b!"[]{}," := by
  have hs : ∀ {sg : Bytes}, IsSign sg → ∀ c ∈ sg, c ∉ b!"[]{}," := by
    rintro sg (rfl | rfl) <;> decide
  have hd : ∀ {d : Bytes}, IsDigits d → ∀ c ∈ d, c ∉ b!"[]{}," := by
    intro d h c hc
    have := h.2 c hc
    simp only [List.mem_cons, List.not_mem_nil, or_false, not_or]
    refine ⟨?_, ?_, ?_, ?_, ?_⟩ <;> (rintro rfl; revert this; decide)
  obtain ⟨sg, d, hsg, hdd, rfl | ⟨f, hf, rfl⟩ | ⟨e, es, ed, he, hes, hed, rfl⟩⟩ := h
  · intro c hc
    rcases List.mem_append.1 hc with h | h
    · exact hs hsg c h
    · exact hd hdd c h
  · intro c hc
    simp only [List.mem_append, List.mem_cons] at hc
    rcases hc with (h | h) | rfl | h
    · exact hs hsg c h
    · exact hd hdd c h
    · decide
    · exact hd hf c h
  · intro c hc
    simp only [List.mem_append, List.mem_cons] at hc
    rcases hc with ((h | h) | rfl | h) | h
    · exact hs hsg c h
    · exact hd hdd c h
    · rcases he with rfl | rfl <;> decide
    · rcases hes with rfl | rfl | rfl
      · simp at h
      · simp at h; subst h; decide
      · simp at h; subst h; decide
    · exact hd hed c h

mutual
def Json.flow (σ : JsonStyle) (d : Nat) : Json → Flow
  | .null => .one b!"null" .null
  | .bool true => .one b!"true" (.bool true)
  | .bool false => .one b!"false" (.bool false)
  | .num T => .one T (jsonNumber T)
  | .str s => .one (jsonString s) (.str s)
  | .arr .nil => .seq [] .nil
  | .arr (.cons x xs) => .seq (σ.opn (d + 1)) (xs.flow σ d (x.flow σ (d + 1)))
  | .obj .nil => .map [] .nil
  | .obj (.cons k v ms) => .map (σ.opn (d + 1)) (ms.flow σ d k (v.flow σ (d + 1)))
def Elems.flow (σ : JsonStyle) (d : Nat) : Elems → Flow → FItems
  | .nil, f => .last f (σ.close d)
  | .cons x xs, f => .cons f [] (σ.comma (d + 1)) (xs.flow σ d (x.flow σ (d + 1)))
def Members.flow (σ : JsonStyle) (d : Nat) : Members → Bytes → Flow → FEnts
  | .nil, k, f => .last (jsonString k) (.str k) σ.colon f (σ.close d)
  | .cons k' v ms, k, f => .cons (jsonString k) (.str k) σ.colon f (σ.comma (d + 1)) (ms.flow σ d k' (v.flow σ (d + 1)))
end

mutual
theorem Json.flow_text (σ : JsonStyle) : ∀ (j : Json) (d : Nat), (j.flow σ d).text = j.text σ d
  | .null, d => by simp [Json.flow, Json.text, Flow.text]
  | .bool true, d => by simp [Json.flow, Json.text, Flow.text]
  | .bool false, d => by simp [Json.flow, Json.text, Flow.text]
  | .num T, d => by simp [Json.flow, Json.text, Flow.text]
  | .str s, d => by simp [Json.flow, Json.text, Flow.text]
  | .arr .nil, d => by simp [Json.flow, Json.text, Flow.text, FItems.text]
  | .arr (.cons x xs), d => by
    simp only [Json.flow, Json.text, Flow.text, Elems.flow_text σ xs d, Json.flow_text σ x (d + 1)]
    simp
  | .obj .nil, d => by simp [Json.flow, Json.text, Flow.text, FEnts.text]
  | .obj (.cons k v ms), d => by
    simp only [Json.flow, Json.text, Flow.text, Members.flow_text σ ms d, Json.flow_text σ v (d + 1)]
    simp
theorem Elems.flow_text (σ : JsonStyle) : ∀ (xs : Elems) (d : Nat) (f : Flow),
    (xs.flow σ d f).text = f.text ++ (xs.text σ (d + 1) ++ (σ.close d ++ b!"]"))
  | .nil, d, f => by simp [Elems.flow, Elems.text, FItems.text]
  | .cons x xs, d, f => by
    simp only [Elems.flow, Elems.text, FItems.text, Elems.flow_text σ xs d, Json.flow_text σ x (d + 1)]
    simp
theorem Members.flow_text (σ : JsonStyle) : ∀ (ms : Members) (d : Nat) (k : Bytes) (f : Flow),
    (ms.flow σ d k f).text = jsonString k ++ (0x3A :: (σ.colon ++ (f.text ++ (ms.text σ (d + 1) ++ (σ.close d ++ b!"}")))))
  | .nil, d, k, f => by simp [Members.flow, Members.text, FEnts.text]
  | .cons k' v ms, d, k, f => by
    simp only [Members.flow, Members.text, FEnts.text, Members.flow_text σ ms d, Json.flow_text σ v (d + 1)]
    simp
end

theorem JsonText.scalar {s : Bytes} (h : JsonText s) : ScalarText .loose (jsonString s) (.str s) := by
  rw [jsonString_eq]; exact .double h.1 h.2

theorem jsonString_quoted (s : Bytes) : Quoted (jsonString s) := ⟨_, .inr rfl⟩

theorem Behind.loose {κ : EndKind} {W : Bytes} (h : Behind .strict W) : Behind κ W := ⟨h.1, fun _ => h.2 rfl⟩

theorem JsonText.key {s sp : Bytes} (h : JsonText s) (hsp : sp = [] ∨ FlowSep sp) : FlowKey (jsonString s) (.str s) sp :=
  ⟨⟨⟨_, h.scalar⟩, .inl (jsonString_quoted s)⟩, hsp.symm.imp id fun h => ⟨h, .inl (jsonString_quoted s)⟩⟩

theorem Members.flow_keys (σ : JsonStyle) : ∀ (ms : Members) (d : Nat) (k : Bytes) (f : Flow),
    (ms.flow σ d k f).keys = (k :: ms.names).map .str
  | .nil, d, k, f => by simp [Members.flow, FEnts.keys, Members.names]
  | .cons k' v ms, d, k, f => by
    simp only [Members.flow, FEnts.keys, Members.names, Members.flow_keys σ ms d]
    rfl

mutual
theorem Json.flow_ok {σ : JsonStyle} (hσ : σ.ok) : ∀ (j : Json) (d : Nat) (W : Bytes), j.ok → Behind .strict W →
    (j.flow σ d).ok W
  | .null, d, W, _, hW => by
    simp only [Json.flow, Flow.ok]
    exact .inl ⟨.loose, _, ⟨⟨_, .keyword (by simp [keywords])⟩, .inr (by decide)⟩, .keyword (by simp [keywords]), Behind.loose hW, rfl, rfl⟩
  | .bool true, d, W, _, hW => by
    simp only [Json.flow, Flow.ok]
    exact .inl ⟨.loose, _, ⟨⟨_, .keyword (by simp [keywords])⟩, .inr (by decide)⟩, .keyword (by simp [keywords]), Behind.loose hW, rfl, rfl⟩
  | .bool false, d, W, _, hW => by
    simp only [Json.flow, Flow.ok]
    exact .inl ⟨.loose, _, ⟨⟨_, .keyword (by simp [keywords])⟩, .inr (by decide)⟩, .keyword (by simp [keywords]), Behind.loose hW, rfl, rfl⟩
  | .num T, d, W, h, hW => by
    simp only [Json.flow, Flow.ok]
    simp only [Json.ok] at h
    exact .inl ⟨.strict, _, ⟨⟨_, h.text⟩, .inr h.bare⟩, h.text, hW, rfl, rfl⟩
  | .str s, d, W, h, hW => by
    simp only [Json.flow, Flow.ok]
    simp only [Json.ok] at h
    exact .inl ⟨.loose, _, ⟨⟨_, h.scalar⟩, .inl (jsonString_quoted s)⟩, h.scalar, Behind.loose hW, rfl, rfl⟩
  | .arr .nil, d, W, _, hW => by simp only [Json.flow, Flow.ok, FItems.ok]; exact ⟨AllWs.nil, trivial, hW.1⟩
  | .arr (.cons x xs), d, W, h, hW => by
    simp only [Json.ok, Elems.ok] at h
    simp only [Json.flow, Flow.ok]
    exact ⟨hσ.opn _, Elems.flow_ok hσ xs d _ h.2 fun W hW => Json.flow_ok hσ x (d + 1) W h.1 hW, hW.1⟩
  | .obj .nil, d, W, _, hW => by
    simp only [Json.flow, Flow.ok, FEnts.ok, FEnts.keys]; exact ⟨AllWs.nil, trivial, hW.1, keysOK_str _ (by simp)⟩
  | .obj (.cons k v ms), d, W, h, hW => by
    simp only [Json.ok, Members.ok] at h
    simp only [Json.flow, Flow.ok]
    refine ⟨hσ.opn _, Members.flow_ok hσ ms d k _ h.1.2.2 h.1.1 fun W hW => Json.flow_ok hσ v (d + 1) W h.1.2.1 hW, hW.1,
      keysOK_str _ ?_⟩
    rw [Members.flow_keys]
    intro y hy
    obtain ⟨s, _, rfl⟩ := List.mem_map.1 hy
    exact ⟨s, rfl⟩
theorem Elems.flow_ok {σ : JsonStyle} (hσ : σ.ok) : ∀ (xs : Elems) (d : Nat) (f : Flow), xs.ok →
    (∀ W, Behind .strict W → f.ok W) → (xs.flow σ d f).ok
  | .nil, d, f, _, hf => by simp only [Elems.flow, FItems.ok]; exact hf _ (hσ.close d)
  | .cons x xs, d, f, h, hf => by
    simp only [Elems.ok] at h
    simp only [Elems.flow, FItems.ok]
    exact ⟨hf _ (Behind.nil _), hσ.comma _, Elems.flow_ok hσ xs d _ h.2 fun W hW => Json.flow_ok hσ x (d + 1) W h.1 hW⟩
theorem Members.flow_ok {σ : JsonStyle} (hσ : σ.ok) : ∀ (ms : Members) (d : Nat) (k : Bytes) (f : Flow), ms.ok → JsonText k →
    (∀ W, Behind .strict W → f.ok W) → (ms.flow σ d k f).ok
  | .nil, d, k, f, _, hk, hf => by simp only [Members.flow, FEnts.ok]; exact ⟨hk.key hσ.colon, hf _ (hσ.close d)⟩
  | .cons k' v ms, d, k, f, h, hk, hf => by
    simp only [Members.ok] at h
    simp only [Members.flow, FEnts.ok]
    exact ⟨hk.key hσ.colon, hf _ (Behind.nil _), hσ.comma _,
      Members.flow_ok hσ ms d k' _ h.2.2 h.1 fun W hW => Json.flow_ok hσ v (d + 1) W h.2.1 hW⟩
end

mutual
theorem Json.flow_still (σ : JsonStyle) : ∀ (j : Json) (d : Nat), (j.flow σ d).still
  | .null, d => by simp [Json.flow, Flow.still]
  | .bool true, d => by simp [Json.flow, Flow.still]
  | .bool false, d => by simp [Json.flow, Flow.still]
  | .num T, d => by simp [Json.flow, Flow.still]
  | .str s, d => by simp [Json.flow, Flow.still]
  | .arr .nil, d => by simp [Json.flow, Flow.still, FItems.still]
  | .arr (.cons x xs), d => by
    simp only [Json.flow, Flow.still]; exact Elems.flow_still σ xs d _ (Json.flow_still σ x (d + 1))
  | .obj .nil, d => by simp [Json.flow, Flow.still, FEnts.still]
  | .obj (.cons k v ms), d => by
    simp only [Json.flow, Flow.still]; exact Members.flow_still σ ms d k _ (Json.flow_still σ v (d + 1))
theorem Elems.flow_still (σ : JsonStyle) : ∀ (xs : Elems) (d : Nat) (f : Flow), f.still → (xs.flow σ d f).still
  | .nil, d, f, hf => by simpa only [Elems.flow, FItems.still] using hf
  | .cons x xs, d, f, hf => by
    simp only [Elems.flow, FItems.still]; exact ⟨hf, Elems.flow_still σ xs d _ (Json.flow_still σ x (d + 1))⟩
theorem Members.flow_still (σ : JsonStyle) : ∀ (ms : Members) (d : Nat) (k : Bytes) (f : Flow), f.still →
    (ms.flow σ d k f).still
  | .nil, d, k, f, hf => by simpa only [Members.flow, FEnts.still] using hf
  | .cons k' v ms, d, k, f, hf => by
    simp only [Members.flow, FEnts.still]; exact ⟨hf, Members.flow_still σ ms d k' _ (Json.flow_still σ v (d + 1))⟩
end

theorem noPos_number (T : Bytes) : (jsonNumber T).noPos = jsonNumber T := by
  unfold jsonNumber; repeat' split
  all_goals rfl

/-- Members with different names are a map as they are. -/
theorem names_mapOf {l : List (Node × Node)} {ks : List Bytes} (h : (l.map Prod.fst).map Node.yaml = ks.map .str)
    (hn : ks.Nodup) : mapOf l = l := by
  refine mapOf_differ (keysDiffer_map.2 ?_)
  have e : (l.map fun e => e.1.yaml) = ks.map .str := by rw [← h]; simp
  rw [e, List.pairwise_map]
  refine hn.imp fun {a c} hac => ?_
  simpa [Yaml.eqb] using hac

theorem Json.flow_tag (σ : JsonStyle) (j : Json) (d : Nat) : (j.flow σ d).tag = [] := by
  cases j with
  | bool b => cases b <;> simp [Json.flow, Flow.tag]
  | arr xs => cases xs <;> simp [Json.flow, Flow.tag]
  | obj xs => cases xs <;> simp [Json.flow, Flow.tag]
  | _ => simp [Json.flow, Flow.tag]

mutual
theorem Json.flow_data (σ : JsonStyle) : ∀ (j : Json) (d p : Nat) (e : Env), j.ok → ((j.flow σ d).data p e).noPos = j.yaml
  | .null, d, p, e, _ => by simp [Json.flow, Flow.data, Json.yaml, Yaml.noPos]
  | .bool true, d, p, e, _ => by simp [Json.flow, Flow.data, Json.yaml, Yaml.noPos]
  | .bool false, d, p, e, _ => by simp [Json.flow, Flow.data, Json.yaml, Yaml.noPos]
  | .num T, d, p, e, _ => by simp [Json.flow, Flow.data, Json.yaml, noPos_number]
  | .str s, d, p, e, _ => by simp [Json.flow, Flow.data, Json.yaml, Yaml.noPos]
  | .arr .nil, d, p, e, _ => by simp [Json.flow, Flow.data, Json.yaml, Yaml.noPos, FItems.nodes, noPosNodes, Elems.nodes]
  | .arr (.cons x xs), d, p, e, h => by
    simp only [Json.ok, Elems.ok] at h
    simp only [Json.flow, Flow.data, Json.yaml, Yaml.noPos, Elems.nodes]
    rw [Elems.flow_data σ xs d _ _ _ h.2 (Json.flow_tag ..) fun p e => Json.flow_data σ x (d + 1) p e h.1]
  | .obj .nil, d, p, e, _ => by
    simp [Json.flow, Flow.data, Json.yaml, Yaml.noPos, FEnts.pairs, noPosEntries, Members.pairs, mapOf]
  | .obj (.cons k v ms), d, p, e, h => by
    simp only [Json.ok, Members.ok] at h
    simp only [Json.flow, Flow.data, Json.yaml, Yaml.noPos, Members.pairs]
    rw [names_mapOf (ks := k :: ms.names) (by rw [FEnts.keys_pairs, Members.flow_keys]) h.2,
      Members.flow_data σ ms d k _ _ _ h.1.2.2 (Json.flow_tag ..) fun p e => Json.flow_data σ v (d + 1) p e h.1.2.1]
theorem Elems.flow_data (σ : JsonStyle) : ∀ (xs : Elems) (d : Nat) (f : Flow) (e : Env) {y : Yaml} (p : Nat), xs.ok →
    f.tag = [] → (∀ p e, (f.data p e).noPos = y) → noPosNodes ((xs.flow σ d f).nodes p e) = .mk 0 [] y :: xs.nodes
  | .nil, d, f, e, y, p, _, ht, hf => by
    simp only [Elems.flow, FItems.nodes, noPosNodes, Node.noPos, hf, ht, Elems.nodes]
  | .cons x xs, d, f, e, y, p, h, ht, hf => by
    simp only [Elems.ok] at h
    simp only [Elems.flow, FItems.nodes, noPosNodes, Node.noPos, hf, ht, Elems.nodes]
    rw [Elems.flow_data σ xs d _ _ _ h.2 (Json.flow_tag ..) fun p e => Json.flow_data σ x (d + 1) p e h.1]
theorem Members.flow_data (σ : JsonStyle) : ∀ (ms : Members) (d : Nat) (k : Bytes) (f : Flow) (e : Env) {y : Yaml} (p : Nat),
    ms.ok → f.tag = [] → (∀ p e, (f.data p e).noPos = y) →
    noPosEntries ((ms.flow σ d k f).pairs p e) = (.mk 0 [] (.str k), .mk 0 [] y) :: ms.pairs
  | .nil, d, k, f, e, y, p, _, ht, hf => by
    simp only [Members.flow, FEnts.pairs, noPosEntries, noPosEntry, Node.noPos, hf, ht, Members.pairs, Yaml.noPos]
  | .cons k' v ms, d, k, f, e, y, p, h, ht, hf => by
    simp only [Members.ok] at h
    simp only [Members.flow, FEnts.pairs, noPosEntries, noPosEntry, Node.noPos, hf, ht, Members.pairs, Yaml.noPos]
    rw [Members.flow_data σ ms d k' _ _ _ h.2.2 (Json.flow_tag ..) fun p e => Json.flow_data σ v (d + 1) p e h.2.1]
end

/-! ## C59 -/

/-- **C59.** Every JSON value, nested to any depth, written in any of the usual styles, is read
by `parse` and by `parse_cyclic` as this value: one document, no tags, no anchors.  A number
that is the whole document must be closed by a line break. -/
theorem C59_json {σ : JsonStyle} (hσ : σ.ok) (j : Json) (hj : j.ok) (E : Bytes) (hE : Rest E)
    (hn : ∀ T, j = .num T → RestLine E) :
    ∃ y, Reads (j.text σ 0 ++ E) [.mk 0 [] y] ∧ y.noPos = j.yaml := by
  have key : ∀ {κ T y}, ScalarText κ T y → Fits κ E → Reads (T ++ E) [.mk 0 [] y] := by
    intro κ T y h hf
    refine reads_leaf h.leaf h.noMark.1 h.noMark.2 hf hE.last.1 ?_
    cases h <;> simp
  have hloose := hE.last.2
  cases j with
  | null => exact ⟨.null, by simpa only [Json.text] using key (.keyword (by simp [keywords])) hloose, rfl⟩
  | bool b =>
    refine ⟨.bool b, ?_, rfl⟩
    cases b
    · simpa only [Json.text] using key (.keyword (by simp [keywords])) hloose
    · simpa only [Json.text] using key (.keyword (by simp [keywords])) hloose
  | num T =>
    simp only [Json.ok] at hj
    exact ⟨jsonNumber T, by simpa only [Json.text] using key hj.text (hn T rfl).last.2, noPos_number T⟩
  | str s =>
    simp only [Json.ok] at hj
    exact ⟨.str s, by simpa only [Json.text] using key hj.scalar hloose, rfl⟩
  | arr xs =>
    have := C24_flow ((Json.arr xs).flow σ 0) (Json.flow_ok hσ _ 0 [] hj (Behind.nil _)) (Json.flow_still σ _ 0)
      (by cases xs <;> simp [Json.flow, Flow.isAtom]) E hE
    rw [Json.flow_text] at this
    exact ⟨_, this, Json.flow_data σ _ 0 0 _ hj⟩
  | obj ms =>
    have := C24_flow ((Json.obj ms).flow σ 0) (Json.flow_ok hσ _ 0 [] hj (Behind.nil _)) (Json.flow_still σ _ 0)
      (by cases ms <;> simp [Json.flow, Flow.isAtom]) E hE
    rw [Json.flow_text] at this
    exact ⟨_, this, Json.flow_data σ _ 0 0 _ hj⟩

theorem compact_ok : JsonStyle.compact.ok :=
  ⟨fun _ => AllWs.nil, fun _ => AllWs.nil, fun _ => Behind.nil _, .inl rfl⟩

theorem spaced_ok : JsonStyle.spaced.ok :=
  ⟨fun _ => AllWs.nil, fun _ => by simp [JsonStyle.spaced, AllWs]; decide, fun _ => Behind.nil _, .inr ⟨[], rfl, by simp⟩⟩

theorem pretty_ok {blank : UInt8} (hb : blank = 0x20 ∨ blank = 0x09) (w : Nat) : (JsonStyle.pretty blank w).ok := by
  have h : ∀ d, AllWs (0x0A :: List.replicate (w * d) blank) := by
    intro d x hx
    rcases List.mem_cons.1 hx with rfl | hx
    · decide
    · rw [(List.mem_replicate.1 hx).2]; rcases hb with rfl | rfl <;> decide
  exact ⟨h, h, fun d => ⟨h d, fun _ => ⟨[], _, rfl, by simp, .inr ⟨_, .inl rfl⟩⟩⟩, .inr ⟨[], rfl, by simp⟩⟩

theorem rest_lf : Rest b!"\n" := ⟨.inr ⟨[0x0A], [], [], .inl rfl, rfl, by simp [IdleLine], .inl rfl⟩⟩
theorem restLine_lf : RestLine b!"\n" := ⟨[0x0A], [], .inl rfl, rfl, by simp⟩

/-- **C59.** Compact (`{"a":[1,2]}`), on one line (`{"a": [1, 2]}`) and indented by any number of blanks or
tabs, each followed by a line break: the three texts are read as the same data. -/
theorem C59_styles (j : Json) (hj : j.ok) (blank : UInt8) (hb : blank = 0x20 ∨ blank = 0x09) (w : Nat) :
    ∀ σ ∈ [JsonStyle.compact, JsonStyle.spaced, JsonStyle.pretty blank w],
      ∃ y, Reads (j.text σ 0 ++ b!"\n") [.mk 0 [] y] ∧ y.noPos = j.yaml := by
  intro σ hσ
  simp only [List.mem_cons, List.not_mem_nil, or_false] at hσ
  refine C59_json ?_ j hj _ rest_lf fun _ _ => restLine_lf
  rcases hσ with rfl | rfl | rfl
  · exact compact_ok
  · exact spaced_ok
  · exact pretty_ok hb w

/-- `{"a":1,"b":[true,null,"x\ty"],"c":{},"d":-2.5}` -/
def jsonSample : Json :=
  .obj (.cons b!"a" (.num b!"1") (.cons b!"b" (.arr (.cons (.bool true) (.cons .null (.cons (.str b!"x\ty") .nil))))
    (.cons b!"c" (.obj .nil) (.cons b!"d" (.num b!"-2.5") .nil))))

theorem jsonSample_ok : jsonSample.ok := by
  have t : ∀ s : Bytes, (∀ c ∈ s, c < 0x80) → s.getLast? ≠ some 0x5C → JsonText s := fun s h1 h2 => ⟨utf8_ascii h1, h2⟩
  simp only [jsonSample, Json.ok, Members.ok, Elems.ok, Members.names]
  refine ⟨⟨t _ (by decide) (by decide), ⟨[], b!"1", .inl rfl, ⟨by simp, by decide⟩, .inl rfl⟩, t _ (by decide) (by decide),
    ⟨trivial, trivial, t _ (by decide) (by decide), trivial⟩, t _ (by decide) (by decide), ⟨trivial, by simp⟩,
    t _ (by decide) (by decide),
    ⟨b!"-", b!"2", .inr rfl, ⟨by simp, by decide⟩, .inr (.inl ⟨b!"5", ⟨by simp, by decide⟩, rfl⟩)⟩, trivial⟩, by decide⟩

/-- What the printers make of the sample, and what it means. -/
example : jsonSample.text .compact 0 = b!"{\"a\":1,\"b\":[true,null,\"x\\ty\"],\"c\":{},\"d\":-2.5}" ∧
    jsonSample.text (.pretty 0x20 2) 0 =
      b!"{\n  \"a\": 1,\n  \"b\": [\n    true,\n    null,\n    \"x\\ty\"\n  ],\n  \"c\": {},\n  \"d\": -2.5\n}" := by
  decide

example : ∃ y, Reads (jsonSample.text (.pretty 0x20 2) 0 ++ b!"\n") [.mk 0 [] y] ∧ y.noPos =
    .map [(.mk 0 [] (.str b!"a"), .mk 0 [] (.int b!"1")),
      (.mk 0 [] (.str b!"b"), .mk 0 [] (.seq [.mk 0 [] (.bool true), .mk 0 [] .null, .mk 0 [] (.str b!"x\ty")])),
      (.mk 0 [] (.str b!"c"), .mk 0 [] (.map [])), (.mk 0 [] (.str b!"d"), .mk 0 [] (.float b!"-2.5"))] :=
  C59_styles jsonSample jsonSample_ok 0x20 (.inl rfl) 2 _ (by simp)

/-! Outside these bounds: -/

/-- **C59, counterexample.** `\\u` escapes are not decoded. -/
theorem C59_counterexample_unicode_escape : Ends (fun n => parse .exact n b!"\"\\u00e9\"\n")
    (.ok [.mk 0 [] (.str b!"u00e9")]) :=
  parse_returns_of (n := 30) (by decide +kernel) (by simp)

/-- **C59, counterexample.** A number with a fraction and an exponent is a string. -/
theorem C59_counterexample_fraction_exponent : Ends (fun n => parse .exact n b!"[1.5e3]\n")
    (.ok [.mk 0 [] (.seq [.mk 1 [] (.str b!"1.5e3")])]) :=
  parse_returns_of (n := 30) (by decide +kernel) (by simp)

/-- **C59, counterexample.** A blank in front of a colon is refused. -/
theorem C59_counterexample_blank_colon : Ends (fun n => parse .exact n b!"{\"a\" : 1}\n")
    (.err (.terminate "flow map splitter" b!"1:5\n{\"a\" : 1}\n    ^")) :=
  parse_returns_of (n := 30) (by decide +kernel) (by simp)

/-- **C59, counterexample.** A line break behind a colon is refused. -/
theorem C59_counterexample_break_colon : Ends (fun n => parse .exact n b!"{\"a\":\n1}\n")
    (.err (.terminate "document splitter" b!"1:6\n{\"a\":\n     ^")) :=
  parse_returns_of (n := 30) (by decide +kernel) (by simp)

/-- **C59, counterexample.** In an object, a blank between a string and a comma is refused. -/
theorem C59_counterexample_blank_comma : Ends (fun n => parse .exact n b!"{\"a\":\"x\" ,\"b\":2}\n")
    (.err (.terminate "document splitter" b!"1:9\n{\"a\":\"x\" ,\"b\":2}\n        ^")) :=
  parse_returns_of (n := 30) (by decide +kernel) (by simp)

/-- **C59, counterexample.** A tab behind a fraction makes it a string. -/
theorem C59_counterexample_tab : Ends (fun n => parse .exact n b!"[1.5\t]\n")
    (.ok [.mk 0 [] (.seq [.mk 1 [] (.str b!"1.5")])]) :=
  parse_returns_of (n := 30) (by decide +kernel) (by simp)

end YamlPeg.Props
