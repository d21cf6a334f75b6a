import Verif.Proof.SerdeNode
/-!
# Resolving aliases

`Resolved T n' n`: the node `n` is `n'` with every alias replaced by what the table `T` has under its name,
aliases in there replaced as well.  The place and the tag are those of the alias.
-/

namespace YamlPeg

mutual
/-- `n` is `n'` with its aliases resolved. -/
inductive Resolved (T : Anchors) : Node → Node → Prop
  | mk {p t y' y} : ResolvedYaml T y' y → Resolved T (.mk p t y') (.mk p t y)

/-- The same for the data of a node. -/
inductive ResolvedYaml (T : Anchors) : Yaml → Yaml → Prop
  | null : ResolvedYaml T .null .null
  | bool (v) : ResolvedYaml T (.bool v) (.bool v)
  | int (s) : ResolvedYaml T (.int s) (.int s)
  | float (s) : ResolvedYaml T (.float s) (.float s)
  | str (s) : ResolvedYaml T (.str s) (.str s)
  | seq {l' l} : ResolvedItems T l' l → ResolvedYaml T (.seq l') (.seq l)
  | map {l' l} : ResolvedEntries T l' l → ResolvedYaml T (.map l') (.map l)
  | alias {a p t y' y} : mapGet a T = some (.mk p t y') → ResolvedYaml T y' y → ResolvedYaml T (.alias a) y

/-- Item by item. -/
inductive ResolvedItems (T : Anchors) : List Node → List Node → Prop
  | nil : ResolvedItems T [] []
  | cons {x' x l' l} : Resolved T x' x → ResolvedItems T l' l → ResolvedItems T (x' :: l') (x :: l)

/-- Entry by entry. -/
inductive ResolvedEntries (T : Anchors) : List (Node × Node) → List (Node × Node) → Prop
  | nil : ResolvedEntries T [] []
  | cons {k' k v' v l' l} : Resolved T k' k → Resolved T v' v → ResolvedEntries T l' l →
      ResolvedEntries T ((k', v') :: l') ((k, v) :: l)
end

/-- Somewhere in the node there is a mapping with an alias in a key. -/
def AliasKey (n : Node) : Prop := ∃ m es k v, Occurs m n ∧ m.yaml = .map es ∧ (k, v) ∈ es ∧ HasAlias k

/-- There is one in the table. -/
def TableAliasKey (T : Anchors) : Prop := ∃ a m, mapGet a T = some m ∧ AliasKey m

end YamlPeg
