import Verif.Model.Process
import Verif.Model.IntoSyntax
/-!
# Contexts that can be written down again (C61)
-/

namespace JsonLd.Spec

/-- The string is no term of the context, and neither is the part before its first colon, if it may be a
prefix. -/
structure Unbound (E : IriEnv) (c : ACtx) (s : Str) : Prop where
  term : lookupKey s c.defs = none
  pre : ∀ p x, compactIri E s = some (p, x) → lookupKey p c.defs = none
  keyword : isKeywordLike s = false

/-- An IRI which the context leaves alone. -/
structure PlainIri (E : IriEnv) (c : ACtx) (s : Str) : Prop extends Unbound E c s where
  iri : E.isIri s = true
  colon : colonInside s = true
  blank : E.isBlank s = false
  notEmpty : s ≠ ['_', ':']

/-- A blank node identifier which the context leaves alone. -/
structure PlainBlank (E : IriEnv) (c : ACtx) (s : Str) : Prop extends Unbound E c s where
  blank : E.isBlank s = true
  colon : colonInside s = true

/-- What a term may stand for. -/
inductive Meaning (E : IriEnv) (c : ACtx) : CTerm → Prop
  | iri (s) : PlainIri E c s → Meaning E c (.id (.iri s))
  | blank (s) : PlainBlank E c s → Meaning E c (.id (.blank s))
  | keyword (k) : k ≠ .context → Meaning E c (.keyword k)

/-- An index property: an IRI, or a name relative to the vocabulary mapping. -/
inductive IndexProperty (E : IriEnv) (c : ACtx) : Str → Prop
  | iri (s) : PlainIri E c s → IndexProperty E c s
  | vocab (s v) : c.vocab = some (.id v) → E.isIri (v.str ++ s) = true → colonInside s = false →
      Unbound E c s → IndexProperty E c s

/-- A definition that has no entry but its IRI mapping. -/
def OnlyId (d : TermDef) : Prop :=
  d.reverse = false ∧ d.typ = none ∧ d.context = none ∧ d.index = none ∧ d.language = none ∧ d.direction = none ∧
    d.container = .none ∧ d.nest = none ∧ d.protected_ = false

/-- A term definition that can be written down: the term is a name, the definition could have been created, and
the following exceptions do not apply, which the conversion gets wrong: a name for an IRI that could be a prefix,
but is not meant to be one; a name for nothing with other entries; a scoped context. -/
structure Expressible (E : IriEnv) (c : ACtx) (k : Str) (d : TermDef) : Prop where
  name : k ≠ [] ∧ ':' ∉ k ∧ '/' ∉ k
  value : (d.value = none ∧ OnlyId d ∧ d.prefix_ = false) ∨ ∃ t, d.value = some t ∧ Meaning E c t
  context : d.context = none ∧ d.baseUrl = none
  typ : ∀ s, d.typ = some (.iri s) → PlainIri E c s
  container : d.container.contains .type = true → d.typ = some .id ∨ d.typ = some .vocab
  language : d.typ ≠ none → d.language = none ∧ d.direction = none
  index : ∀ i, d.index = some i → d.container.contains .index = true ∧ IndexProperty E c i
  pre : d.prefix_ = true → d.reverse = false ∧ ∀ k, d.value ≠ some (.keyword k)
  noPrefix : d.prefix_ = false → ∀ t, d.value = some t → genDelimOrBlank t = true → ¬ OnlyId d
  reverse : d.reverse = true → (∃ i, d.value = some (.id i)) ∧ d.index = none ∧ d.nest = none ∧ d.language = none ∧
    d.direction = none ∧ (d.container = .none ∨ d.container = .set ∨ d.container = .index)

/-- A vocabulary mapping that can be written down. -/
inductive PlainVocab (E : IriEnv) : Option CTerm → Prop
  | none : PlainVocab E none
  | iri (s) : PlainIri E {} s → PlainVocab E (some (.id (.iri s)))
  | blank (s) : PlainBlank E {} s → PlainVocab E (some (.id (.blank s)))

/-- A context that can be written down: all its terms can; there is no previous context; a context without a base
IRI (`@base: null`) has no original one either. -/
structure Writable (E : IriEnv) (c : ACtx) : Prop where
  terms : ∀ k d, (k, d) ∈ c.defs → Expressible E c k d
  keys : (c.defs.map Prod.fst).Nodup
  vocab : PlainVocab E c.vocab
  base : (∃ b, c.base = some b ∧ E.isIri b = true) ∨ c.base = none ∧ c.originalBase = none
  previous : c.previous = none

end JsonLd.Spec
