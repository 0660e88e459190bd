import Verif.Spec.Process
/-!
# Specifications for JSON-LD 1.0 processing
-/

namespace JsonLd.Spec

/-- The containers of JSON-LD 1.0. -/
def OldContainer (c : Option (Option SynContainer)) : Prop :=
  c = none ∨ c = some (some (.one .list)) ∨ c = some (some (.one .set)) ∨ c = some (some (.one .language)) ∨
    c = some (some (.one .index))

/-- The expanded term definition has none of the entries JSON-LD 1.1 added. -/
structure OldTerm (x : SExp) : Prop where
  protected_ : x.protected_ = none
  json : x.type ≠ some (some (.keyword .json))
  none_ : x.type ≠ some (some (.keyword .none))
  nest : x.nest = none ∨ IdLooksLikeKeyword (some (.expanded x))
  /-- What a reverse property, or a term whose `@id` is ignored, has besides is never looked at. -/
  rest : x.reverse = none → ¬ IdLooksLikeKeyword (some (.expanded x)) →
    OldContainer x.container ∧ x.index = none ∧ x.context = none ∧ x.prefix_ = none

/-- The context definition has none of the entries JSON-LD 1.1 added, except for `@protected` and
`@propagate`. -/
structure OldDef (d : SDef) : Prop where
  version : d.version = false
  import_ : d.import_ = none
  direction : d.direction = none
  type : d.type = none
  terms : ∀ k x, lookupKey k d.bindings = some (some (.expanded x)) → OldTerm x

/-- The definition `d` is part of the context `l`, or of a context `l` refers to, and so on. -/
inductive Reaches (E : ProcEnv) (d : SDef) : Option Str → SCtx → Prop
  | here (base l) : SEntry.defn d ∈ l.entries → Reaches E d base l
  | ref (base l r u l') : SEntry.ref r ∈ l.entries → resolveIri E.toIriEnv r base = some u →
      E.load u = .ok l' → Reaches E d (some u) l' → Reaches E d base l

end JsonLd.Spec
