import Verif.Model.AddValue
/-!
# Specification of the accumulation of values in objects
-/

namespace JsonLd.Spec

mutual
/-- The values in a value: those in its items if it is an array, else the value itself. -/
def leaves : Json → List Json
  | .arr l => leavesAll l
  | v => [v]
/-- The values in a list of values. -/
def leavesAll : List Json → List Json
  | [] => []
  | v :: l => leaves v ++ leavesAll l
end

/-- The values an entry holds. -/
def held : Option Json → List Json
  | none => []
  | some (.arr l) => l
  | some v => [v]

/-- A value that is no array. -/
def NotArray (v : Json) : Prop := ∀ l, v ≠ .arr l

/-- An addition: the key, the value, and whether an array is requested. -/
structure Addition where
  key : Str
  value : Json
  asArray : Bool

/-- Additions one after the other. -/
def addSeq (m : List (Str × Json)) : List Addition → Except CompErr (List (Str × Json))
  | [] => .ok m
  | a :: as => (addValue m a.key a.value a.asArray).bind fun m => addSeq m as

/-- The additions to a key. -/
def additionsTo (k : Str) (as : List Addition) : List Addition := as.filter fun a => decide (a.key = k)

/-- The values in additions. -/
def added (as : List Addition) : List Json := as.flatMap fun a => leaves a.value

/-- Arrays with one item are kept: this is requested, or the property is `@graph` or `@set`, or a term
with a list or set container, or `@type` with a definition (its container is `@set`). -/
def KeepsArrays (c : ACtx) (prop : Option Str) (compactArrays : Bool) : Prop :=
  compactArrays = false ∨ prop = some "@graph".toList ∨ prop = some "@set".toList ∨
  (prop = some "@type".toList ∧ c.typeDef ≠ none) ∨
  ∃ p d, prop = some p ∧ p ≠ "@type".toList ∧ lookupKey p c.defs = some d ∧
    (ContainerKind.list ∈ d.container.asSlice ∨ ContainerKind.set ∈ d.container.asSlice)

end JsonLd.Spec
