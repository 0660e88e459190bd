import Verif.Spec.Syntax
import Verif.Model.ExpandIri
/-!
# Specification of IRI expansion

JSON-LD 1.1 API, section 5.2 (IRI expansion), as a set of rules. Every rule states all its
conditions, so their order does not matter. Only the data types of the model are used, lookup in the
map of definitions, and `Id.classify` (the classification of a string as IRI, blank node identifier
or neither).
-/

namespace JsonLd.Spec

/-- `s` starts with a non-empty part without colon, followed by a colon. -/
def HasColon (s : Str) : Prop := ∃ p x, s = p ++ ':' :: x ∧ ':' ∉ p ∧ p ≠ []

/-- `s` is a compact IRI with non-empty prefix `p` and suffix `x`. -/
def CompactForm (env : IriEnv) (s p x : Str) : Prop :=
  s = p ++ ':' :: x ∧ ':' ∉ p ∧ p ≠ [] ∧ p ≠ ['_'] ∧ ¬ ['/', '/'] <+: x ∧ env.isRef s = true

/-- `s` is a term that stands for something in this position: always if vocabulary-relative
(`voc`), otherwise only if it is an alias of a keyword. -/
def UsedTerm (c : ACtx) (s : Str) (voc : Bool) (d : TermDef) : Prop :=
  lookupKey s c.defs = some d ∧ (voc = true ∨ ∃ k, d.value = some (.keyword k))

/-- `p` may be used as a prefix and stands for `m`. -/
def PrefixFor (c : ACtx) (p : Str) (m : CTerm) : Prop :=
  ∃ d, lookupKey p c.defs = some d ∧ d.prefix_ = true ∧ d.value = some m

/-- `s` has to be interpreted by itself: it is no keyword and no usable term. -/
def NoTerm (c : ACtx) (s : Str) (voc : Bool) : Prop :=
  ¬ KeywordForm s ∧ ∀ d, ¬ UsedTerm c s voc d

/-- `s` is neither a blank node identifier nor a compact IRI with a known prefix nor an IRI. -/
def Relative (env : IriEnv) (c : ACtx) (s : Str) : Prop :=
  HasColon s → env.isBlank s = false ∧ s ≠ ['_', ':'] ∧ env.isIri s = false ∧
    ∀ p x m, CompactForm env s p x → ¬ PrefixFor c p m

/-- The rules of IRI expansion. `voc` says what to do with strings relative to the vocabulary. -/
inductive Expands (env : IriEnv) (c : ACtx) (docRel : Bool) (voc : Option Action) (s : Str) :
    CTerm → Prop
  | keywordLike : KeywordForm s → Expands env c docRel voc s .null
  | term (d) : ¬ KeywordForm s → UsedTerm c s voc.isSome d →
      Expands env c docRel voc s (d.value.getD .null)
  | blank : NoTerm c s voc.isSome → HasColon s → env.isBlank s = true →
      Expands env c docRel voc s (.id (.blank s))
  | emptyBlank : NoTerm c s voc.isSome → env.isBlank s = false → s = ['_', ':'] →
      Expands env c docRel voc s (.id (.invalid s))
  | compact (p x m) : NoTerm c s voc.isSome → env.isBlank s = false →
      CompactForm env s p x → PrefixFor c p m →
      Expands env c docRel voc s (.id (Id.classify env (m.str ++ x)))
  | absolute : NoTerm c s voc.isSome → HasColon s → env.isBlank s = false → s ≠ ['_', ':'] →
      (∀ p x m, CompactForm env s p x → ¬ PrefixFor c p m) → env.isIri s = true →
      Expands env c docRel voc s (.id (.iri s))
  | vocab (i) : NoTerm c s voc.isSome → Relative env c s → voc = some .keep →
      c.vocab = some (.id i) → Expands env c docRel voc s (.id (Id.classify env (i.str ++ s)))
  | oddVocab (t) : NoTerm c s voc.isSome → Relative env c s → voc.isSome = true →
      c.vocab = some t → (∀ i, t ≠ .id i) → Expands env c docRel voc s (.id (.invalid s))
  | base (b) : NoTerm c s voc.isSome → Relative env c s → (voc = none ∨ c.vocab = none) →
      docRel = true → env.isRef s = true → c.base = some b →
      Expands env c docRel voc s (.id (.iri (env.resolve s b)))
  | noBase : NoTerm c s voc.isSome → Relative env c s → (voc = none ∨ c.vocab = none) →
      docRel = true → env.isRef s = true → c.base = none → env.isIri s = true →
      Expands env c docRel voc s (.id (.iri s))
  | unknown : NoTerm c s voc.isSome → Relative env c s → (voc = none ∨ c.vocab = none) →
      (docRel = true → env.isRef s = true → c.base = none ∧ env.isIri s = false) →
      Expands env c docRel voc s (.id (.invalid s))

/-- What is used about the external notion of IRI: an IRI has a non-empty scheme, which does not
start with `@` and is not `_`; it is no blank node identifier; resolving a reference gives an IRI. -/
structure IriFacts (env : IriEnv) : Prop where
  scheme : ∀ i, env.isIri i = true →
    ∃ p x, i = p ++ ':' :: x ∧ ':' ∉ p ∧ p ≠ [] ∧ p.head? ≠ some '@' ∧ p ≠ ['_']
  noBlank : ∀ i, env.isIri i = true → env.isBlank i = false
  resolve : ∀ r b, env.isIri (env.resolve r b) = true

end JsonLd.Spec
