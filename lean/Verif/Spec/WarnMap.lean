import Verif.Spec.Warn
import Verif.Model.WarnMap
/-!
# Specification of the warnings of language maps
-/

namespace JsonLd.Spec

/-- The key of a language map means `@none`. -/
def NoLanguage (E : XEnv) (c : ACtx) (l : Str) : Prop :=
  expandIri E.toIriEnv c (some (.ofStr l)) false (some E.opts.vocab) = .ok (some (.keyword .none))

open Classical in
/-- The warnings for a string with the key `l` in a language map: `l` read as an IRI, and `l` read
as a language tag. -/
noncomputable def langWarns (E : XEnv) (tagOk : Str → Bool) (c : ACtx) (l : Str) : List Warn :=
  (if Keyword.tryFrom l = none ∧ NotUnderstood E.toIriEnv c false (some E.opts.vocab) l
    then [.malformedIri l] else []) ++
  (if ¬ NoLanguage E c l ∧ tagOk l = false then [.malformedTag l] else [])

/-- The strings of an entry of a language map. -/
def mapStrings : Json → List Str
  | .str s => [s]
  | .arr l => l.filterMap fun
    | .str s => some s
    | _ => none
  | _ => []

end JsonLd.Spec
