import Verif.Spec.Warn
import Verif.Model.WarnNode
/-!
# Specification of the warnings of literals, identifiers and types
-/

namespace JsonLd.Spec

open Classical in
/-- The warnings deserved by a string that is used as an IRI. -/
noncomputable def iriWarns (env : IriEnv) (c : ACtx) (docRel : Bool) (voc : Option Action) (s : Str) :
    List Warn :=
  if Keyword.tryFrom s = none ∧ NotUnderstood env c docRel voc s then [.malformedIri s] else []

/-- The strings in a list of JSON values. -/
def stringsIn (l : List Json) : List Str :=
  l.filterMap fun
    | .str s => some s
    | _ => none

end JsonLd.Spec
