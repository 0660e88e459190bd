import Verif.Spec.ExpandDoc
/-!
# Identifiers and values that can be written and read again
-/

namespace JsonLd.Spec

/-- The identifier is read again as it is, as `@id`: it is an IRI or a blank node identifier, or there is no base
IRI and the text is not taken for a keyword. -/
def ReadableId (c : ACtx) (i : Id) : Prop :=
  i.isValid = true ∨ c.base = none ∧ (isKeywordLike i.str = true → isKeyword i.str = true)

/-- The identifier is read again as it is, as `@type`. -/
def ReadableType (E : XEnv) (c : ACtx) (i : Id) : Prop :=
  i.isValid = true ∨ c.base = none ∧ E.opts.invalid = .keep ∧ isKeywordLike i.str = false

/-- What the document says can be written and read again: its identifiers, types, keys and values. Nothing is said
of included nodes, of members of graphs, or of the objects at the top. -/
structure Readable (E : XEnv) (c : ACtx) (d : Doc) : Prop where
  good : GoodDoc E.toIriEnv d
  ids : ∀ n, Inside d (.node n) → ∀ i, n.id = some i → ReadableId c i
  types : ∀ n, Inside d (.node n) → ∀ ts, n.types = some ts → ts ≠ [] ∧ ∀ t ∈ ts, ReadableType E c t
  keys : ∀ n, Inside d (.node n) → AbsoluteKeys E n
  languages : ∀ i s, Inside d (.obj (.value i (.langString s))) → s.language ≠ some "@none".toList

/-- The generator gives blank node identifiers. -/
def BlankGen (env : IriEnv) (gen : Nat → Id) : Prop := ∀ k, ∃ b, gen k = .blank b ∧ env.isBlank b = true

end JsonLd.Spec
