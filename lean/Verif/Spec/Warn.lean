import Verif.Spec.Iri
import Verif.Model.Warn
/-!
# Specification of warnings
-/

namespace JsonLd.Spec

/-- No rule of IRI expansion gives a meaning to `s`: it is no term, no blank node identifier, no
compact IRI with a known prefix, no IRI, and cannot be used relative to the vocabulary (there is
none, or it is no identifier) or to the base IRI. -/
def NotUnderstood (env : IriEnv) (c : ACtx) (docRel : Bool) (voc : Option Action) (s : Str) : Prop :=
  NoTerm c s voc.isSome ∧ Relative env c s ∧
    ((voc.isSome = true ∧ ∃ t, c.vocab = some t ∧ ∀ i, t ≠ .id i) ∨
      ((voc = none ∨ c.vocab = none) ∧
        (docRel = true → env.isRef s = true → c.base = none ∧ env.isIri s = false)))

open Classical in
/-- The warnings deserved by a key of an object: it is empty, it is not understood, it stands for a
blank node. -/
noncomputable def keyWarns (E : XEnv) (c : ACtx) (k : Str) : List Warn :=
  (if k = [] then [.emptyTerm] else []) ++
  (if Keyword.tryFrom k = none ∧ NotUnderstood E.toIriEnv c false (some E.opts.vocab) k
    then [.malformedIri k] else []) ++
  (match expandIri E.toIriEnv c (some (.ofStr k)) false (some E.opts.vocab) with
    | .ok (some (.id (.blank b))) => [.blankProperty b]
    | _ => [])

end JsonLd.Spec
