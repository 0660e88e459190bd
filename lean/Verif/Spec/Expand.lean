import Verif.Spec.DocJson
import Verif.Model.ExpandValue
/-!
# Specifications for expansion
-/

namespace JsonLd.Spec

/-- A value that may occur in an expanded document: no `null`, types are IRIs, strings with language
or direction have one of them. -/
def GoodValue (env : IriEnv) : Value → Prop
  | .literal l ty => l ≠ .null ∧ ∀ t, ty = some t → env.isIri t = true
  | .langString s => s.language ≠ none ∨ s.direction ≠ none
  | .json _ => True

/-- The identifier is of the kind its text says: an IRI, else a blank node label, else neither. -/
def GoodId (env : IriEnv) (i : Id) : Prop := IdOk env.isIri env.isBlank i

/-- What the external functions are assumed to satisfy: an IRI has a scheme, which is not empty, does
not start with `@` and is not `_`; resolving a reference gives an IRI; blank node identifiers start
with `_:`. -/
structure EnvFacts (env : IriEnv) : Prop where
  scheme : ∀ i, env.isIri i = true →
    ∃ p x, i = p ++ ':' :: x ∧ ':' ∉ p ∧ p ≠ [] ∧ p.head? ≠ some '@' ∧ p ≠ ['_']
  resolve : ∀ r b, env.isIri (env.resolve r b) = true
  blank : ∀ b, env.isBlank b = true → ∃ x, b = '_' :: ':' :: x

/-- The identifiers in the context are of the kind their texts say: those the terms stand for, and the
types of the terms. The same holds for the contexts to return to. -/
inductive GoodCtx (env : IriEnv) : ACtx → Prop
  | intro (c) : (∀ k d i, lookupKey k c.defs = some d → d.value = some (.id i) → GoodId env i) →
      (∀ k d t, lookupKey k c.defs = some d → d.typ = some (.iri t) → env.isIri t = true) →
      (∀ p, c.previous = some p → GoodCtx env p) → GoodCtx env c

/-- The values of the entries for a keyword. -/
def entriesFor (k : Keyword) (es : List XEntry) : List Json :=
  (es.filter fun e => decide (e.term = .keyword k)).map XEntry.value

/-- The entries a value object may have. -/
def valueKeywords : List Keyword := [.value, .type, .language, .direction, .index]

/-- The value object consists of entries that are allowed, each at most once. -/
structure ValueObject (es : List XEntry) : Prop where
  keys : ∀ e ∈ es, ∃ k ∈ valueKeywords, e.term = .keyword k
  once : ∀ k, (entriesFor k es).length ≤ 1

/-- The text of an optional entry: missing, or a string. -/
def textEntry (k : Keyword) (es : List XEntry) (s : Option Str) : Prop :=
  (entriesFor k es = [] ∧ s = none) ∨ ∃ x, entriesFor k es = [.str x] ∧ s = some x

/-- The language of a value object: `@none` is no language. -/
def languageOf (es : List XEntry) (l : Option Str) : Prop :=
  ∃ s, textEntry .language es s ∧ l = if s = some "@none".toList then none else s

/-- The direction of a value object. -/
def directionOf (es : List XEntry) (d : Option Direction) : Prop :=
  (entriesFor .direction es = [] ∧ d = none) ∨
  ∃ x, d = some x ∧ entriesFor .direction es = [.str x.asStr]

/-- The type of a value object: none, `@json` or an IRI. -/
inductive VType where
  | none | json
  | iri (t : Str)

/-- The type of a value object, expanded relative to the vocabulary and the base. Without an entry, the
type expected by the caller counts if it is `@json`. -/
def typeOf (env : IriEnv) (vocab : Action) (expected : Option CTerm) (tsc : ACtx) (es : List XEntry) :
    VType → Prop
  | .none => entriesFor .type es = [] ∧ expected ≠ some (.keyword .json)
  | .json => (entriesFor .type es = [] ∧ expected = some (.keyword .json)) ∨
      ∃ s, entriesFor .type es = [.str s] ∧
        expandIri env tsc (some (.ofStr s)) true (some vocab) = .ok (some (.keyword .json))
  | .iri t => ∃ s, entriesFor .type es = [.str s] ∧
      expandIri env tsc (some (.ofStr s)) true (some vocab) = .ok (some (.id (.iri t)))

/-- The scalars other than `null`. -/
def scalar : Json → Option Literal
  | .str s => some (.str s)
  | .num n => some (.num n)
  | .bool b => some (.bool b)
  | _ => none

/-- What a value object stands for, given its index, type, language, direction and `@value` entry. -/
inductive ValueMeans (v : Json) (i : Option Str) : VType → Option Str → Option Direction → Option Obj → Prop
  | json : ValueMeans v i .json none none (some (.value i (.json v)))
  | null (t l d) : (t = .none ∨ ∃ x, t = .iri x) → v = .null → ValueMeans v i t l d none
  | plain (x) : scalar v = some x → ValueMeans v i .none none none (some (.value i (.literal x none)))
  | typed (t x) : scalar v = some x →
      ValueMeans v i (.iri t) none none (some (.value i (.literal x (some t))))
  | string (s l d) : v = .str s → (l ≠ none ∨ d ≠ none) →
      ValueMeans v i .none l d (some (.value i (.langString ⟨s, l, d⟩)))

/-- The language of strings of a property: that of the term, otherwise the default one. -/
def LanguageFor (c : ACtx) (d : Option TermDef) (l : Option Str) : Prop :=
  (∃ t, d = some t ∧ t.language = some l) ∨ ((∀ t, d = some t → t.language = none) ∧ l = c.language)

/-- The direction of strings of a property: that of the term, otherwise the default one. -/
def DirectionFor (c : ACtx) (d : Option TermDef) (l : Option Direction) : Prop :=
  (∃ t, d = some t ∧ t.direction = some l) ∨ ((∀ t, d = some t → t.direction = none) ∧ l = c.direction)

/-- The type of the values of a property. -/
def TypeFor (d : Option TermDef) (t : Option TypeMap) : Prop :=
  (d = none ∧ t = none) ∨ ∃ x, d = some x ∧ x.typ = t

/-- The node object `{"@id": i}`, or `{}`. -/
def idOnly (i : Option Id) : Obj := .node (.mk none i none none none [] none)

/-- The identifier a term stands for; keywords are no identifiers. -/
inductive TermId : CTerm → Option Id → Prop
  | null : TermId .null none
  | id (i) : TermId (.id i) (some i)
  | keyword (k) : TermId (.keyword k) (some (.invalid k.intoStr))

/-- What a scalar stands for as a value of a property with the definition `d`: JSON-LD 1.1 API,
section 5.3 (value expansion). -/
inductive ScalarMeans (env : IriEnv) (vocab : Action) (c : ACtx) (d : Option TermDef) :
    Literal → Obj → Prop
  | id (s t i) : TypeFor d (some .id) → expandIri env c (some (.ofStr s)) true none = .ok (some t) →
      TermId t i → ScalarMeans env vocab c d (.str s) (idOnly i)
  | vocab (s t i) : TypeFor d (some .vocab) →
      expandIri env c (some (.ofStr s)) true (some vocab) = .ok (some t) → TermId t i →
      ScalarMeans env vocab c d (.str s) (idOnly i)
  | vocabDropped (s) : TypeFor d (some .vocab) →
      expandIri env c (some (.ofStr s)) true (some vocab) = .ok none →
      ScalarMeans env vocab c d (.str s) (idOnly none)
  | typed (l t) : TypeFor d (some (.iri t)) →
      ScalarMeans env vocab c d l (.value none (.literal l (some t)))
  | plain (l ty) : TypeFor d ty → ty ∈ [none, some .id, some .vocab, some .none] →
      (∀ s, l ≠ .str s) → ScalarMeans env vocab c d l (.value none (.literal l none))
  | string (s ty) : TypeFor d ty → ty ∈ [none, some .none] → LanguageFor c d none →
      DirectionFor c d none → ScalarMeans env vocab c d (.str s) (.value none (.literal (.str s) none))
  | langString (s ty l r) : TypeFor d ty → ty ∈ [none, some .none] → LanguageFor c d l →
      DirectionFor c d r → (l ≠ none ∨ r ≠ none) →
      ScalarMeans env vocab c d (.str s) (.value none (.langString ⟨s, l, r⟩))

end JsonLd.Spec
