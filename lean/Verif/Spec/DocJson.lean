import Verif.Spec.Inside
/-!
# Which documents can be written and read back
-/

namespace JsonLd.Spec

section
variable (validIri validBlank : Str → Bool)

/-- The identifier is of the kind its text says: an IRI, else a blank node label, else neither. -/
def IdOk : Id → Prop
  | .iri s => validIri s = true
  | .blank s => validIri s = false ∧ validBlank s = true
  | .invalid s => validIri s = false ∧ validBlank s = false

/-- Value type are IRIs other than the text `@json`; strings with language or direction have one of
them. -/
def ValueOk : Value → Prop
  | .literal _ (some t) => validIri t = true ∧ t ≠ "@json".toList
  | .literal _ none => True
  | .langString s => s.language ≠ none ∨ s.direction ≠ none
  | .json _ => True

/-- The entries of a node object that are not properties, and those marking other objects. -/
def reserved : List Str :=
  ["@id".toList, "@type".toList, "@graph".toList, "@included".toList, "@reverse".toList,
   "@index".toList, "@context".toList, "@value".toList, "@list".toList]

/-- The identifiers written in the node are of the kind their text says. -/
structure NodeIdsOk (n : Node) : Prop where
  id : ∀ i, n.id = some i → IdOk validIri validBlank i
  types : ∀ ts, n.types = some ts → ∀ t ∈ ts, IdOk validIri validBlank t
  props : ∀ p ∈ n.props, IdOk validIri validBlank p.1
  rev : ∀ r, n.rev = some r → ∀ p ∈ r, IdOk validIri validBlank p.1

/-- Whatever the document contains has identifiers of the right kind and well-formed values. -/
structure Typed (d : Doc) : Prop where
  values : ∀ i v, Inside d (.obj (.value i v)) → ValueOk validIri v
  nodes : ∀ n, Inside d (.node n) → NodeIdsOk validIri validBlank n

end

/-- The document has no included nodes, no empty list of types, and no property called like another
entry. -/
structure Plain (d : Doc) : Prop where
  included : ∀ n, Inside d (.node n) → n.included = none
  types : ∀ n, Inside d (.node n) → n.types ≠ some []
  keys : ∀ n, Inside d (.node n) → ∀ p ∈ n.props, p.1.str ∉ reserved

end JsonLd.Spec
