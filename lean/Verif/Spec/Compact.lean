import Verif.Spec.Iri
import Verif.Spec.Inverse
import Verif.Model.CompactIri
/-!
# Specifications for IRI compaction
-/

namespace JsonLd.Spec

/-- `s` is a compact IRI for `var`: the name of a prefix, a colon, and the rest of `var`. It is not
defined itself, except as `var` if that is compacted without value (`noValue`). -/
def PrefixCandidate (c : ACtx) (var : CTerm) (noValue : Bool) (s : Str) : Prop :=
  ∃ p m x, PrefixFor c p m ∧ x ≠ [] ∧ var.str = m.str ++ x ∧ s = p ++ ':' :: x ∧
    ∀ d, lookupKey s c.defs = some d → d.value = some var ∧ noValue = true

/-- `a` is at most as long as `b` and before it in the order of dictionaries. -/
def Better (a b : Str) : Prop := utf8Len a ≤ utf8Len b ∧ LexLt a b

/-- The ways to compact `var` to `s`, in order of preference. -/
inductive CompactedBy (env : CompEnv) (c : ACtx) (var : CTerm) (noValue vocab : Bool) (s : Str) : Prop
  | term (d) : vocab = true → lookupKey s c.defs = some d → d.value = some var →
      CompactedBy env c var noValue vocab s
  | vocab (v) : vocab = true → c.vocab = some v → var.str = v.str ++ s → s ≠ [] →
      (¬ KeywordForm s → lookupKey s c.defs = none) → CompactedBy env c var noValue vocab s
  | prefixed : PrefixCandidate c var noValue s → CompactedBy env c var noValue vocab s
  | relative (i b) : vocab = false → (∀ s', ¬ PrefixCandidate c var noValue s') →
      var = .id (.iri i) → c.base = some b →
      s = (if isKeywordLike (env.relativeTo i b) ∧ (Keyword.tryFrom (env.relativeTo i b)).isNone
        then ['.', '/'] ++ env.relativeTo i b else env.relativeTo i b) →
      (∀ p x, i = p ++ ':' :: x → ':' ∉ p → ¬ KeywordForm p → lookupKey p c.defs = none) →
      CompactedBy env c var noValue vocab s
  | itself : (∀ s', ¬ PrefixCandidate c var noValue s') → s = var.str →
      (∀ i p x, var = .id (.iri i) → i = p ++ ':' :: x → ':' ∉ p → ¬ KeywordForm p →
        lookupKey p c.defs = none) →
      CompactedBy env c var noValue vocab s

/-- What is used about the external notions of IRIs, blank node identifiers and relative references:
blank node identifiers start with `_:`. The reference to an IRI relative to a base IRI is the IRI or a
reference without colon that resolves to it, also with `./` in front if it looks like a keyword. -/
structure CompactFacts (env : CompEnv) : Prop where
  blank : ∀ s, env.isBlank s = true → ∃ x, s = '_' :: ':' :: x
  relative : ∀ i b, env.isIri i = true → env.isIri b = true →
    env.relativeTo i b = i ∨ (¬ HasColon (env.relativeTo i b) ∧ env.isRef (env.relativeTo i b) = true ∧
      env.resolve (env.relativeTo i b) b = i)
  dot : ∀ r b, KeywordForm r → env.isRef ('.' :: '/' :: r) = true ∧
    env.resolve ('.' :: '/' :: r) b = env.resolve r b

/-- The context defines no keywords; prefixes are not empty, not `_`, and without colon; terms that are
IRIs or blank node identifiers stand for themselves. The vocabulary mapping and the base IRI are
identifiers and IRIs. -/
structure CleanTerms (env : CompEnv) (c : ACtx) : Prop where
  distinct : (c.defs.map Prod.fst).Nodup
  terms : ∀ k d, lookupKey k c.defs = some d → ¬ KeywordForm k
  prefixes : ∀ p m, PrefixFor c p m → p ≠ [] ∧ p ≠ ['_'] ∧ ':' ∉ p
  ids : ∀ k d, lookupKey k c.defs = some d → env.isIri k = true ∨ env.isBlank k = true →
    d.value = some (.id (Id.classify env.toIriEnv k))
  vocab : ∀ t, c.vocab = some t → ∃ j, t = .id j
  base : ∀ b, c.base = some b → env.isIri b = true

/-- No rule of compaction is misled for the identifier `j`:
* the part after the vocabulary mapping, if any, is neither of the form of a keyword nor has a colon;
* the part after a prefix, if any, does not start with `//`, and gives a valid reference;
* the relative reference, if any, is no keyword and no alias of a keyword. -/
structure NotMisled (env : CompEnv) (c : ACtx) (j : Id) (voc : Bool) : Prop where
  vocab : voc = true → ∀ v x, c.vocab = some v → j.str = v.str ++ x → ¬ KeywordForm x ∧ ¬ HasColon x
  prefixes : ∀ p m x, PrefixFor c p m → j.str = m.str ++ x →
    ¬ ['/', '/'] <+: x ∧ env.isRef (p ++ ':' :: x) = true
  relative : voc = false → ∀ i b, j = .iri i → c.base = some b →
    Keyword.tryFrom (env.relativeTo i b) = none ∧
    ∀ r d k, r = env.relativeTo i b ∨ r = '.' :: '/' :: env.relativeTo i b →
      lookupKey r c.defs = some d → d.value ≠ some (.keyword k)

end JsonLd.Spec
