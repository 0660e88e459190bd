import Verif.Spec.Syntax
import Verif.Spec.Iri
import Verif.Model.Process
/-!
# Specifications for context processing
-/

namespace JsonLd.Spec

/-- Language tags that agree up to the case of ASCII letters. -/
def SameLanguage (a b : Option (Option Str)) : Prop :=
  a.map (·.map (·.map lowerChar)) = b.map (·.map (·.map lowerChar))

/-- The same scoped context, as compared by the library. -/
def SameContext (a b : Option SCtx) : Prop := a = b ∨ optCtxEqv a b = true

/-- The same term definition except for the protected flag. -/
structure SameTerm (a b : TermDef) : Prop where
  value : b.value = a.value
  prefix_ : b.prefix_ = a.prefix_
  reverse : b.reverse = a.reverse
  baseUrl : b.baseUrl = a.baseUrl
  context : SameContext b.context a.context
  container : b.container = a.container
  direction : b.direction = a.direction
  index : b.index = a.index
  language : SameLanguage b.language a.language
  nest : b.nest = a.nest
  typ : b.typ = a.typ

/-- The binding defines a reverse property. -/
def IsReverse (b : Option STerm) : Prop := ∃ x, b = some (.expanded x) ∧ x.reverse.isSome = true

/-- The binding has an `@id` of the form of a keyword that is no keyword. -/
def IdLooksLikeKeyword (b : Option STerm) : Prop :=
  (∃ s, b = some (.simple s) ∧ KeywordForm s ∧ String.ofList s ∉ keywords) ∨
  (∃ x s, b = some (.expanded x) ∧ x.id = some (some (.term s)) ∧ KeywordForm s)

/-- No context definition of the local context binds `k` in one of these two ways. -/
def PlainTerm (k : Str) (l : SCtx) : Prop :=
  ∀ d, SEntry.defn d ∈ l.entries → ∀ b, lookupKey k d.bindings = some b →
    ¬ IsReverse b ∧ ¬ IdLooksLikeKeyword b

/-- The same for everything the loader may return. -/
def PlainLoads (E : ProcEnv) (k : Str) : Prop := ∀ u l, E.load u = .ok l → PlainTerm k l

/-- `l` is the scoped context of a term of the definition. -/
def ScopedIn (l : SCtx) (d : SDef) : Prop :=
  ∃ k x, (k, some (.expanded x)) ∈ d.bindings ∧ x.context = some l

/-- The definition `i` is imported by `d`. -/
def Imports (E : ProcEnv) (base : Option Str) (d i : SDef) : Prop :=
  ∃ r u, d.import_ = some r ∧ resolveIri E.toIriEnv r base = some u ∧ E.load u = .ok (.one (.defn i))

/-- One context is scoped to a term which the other one defines or imports. Scoped contexts are resolved
against the same base URL or none at all. -/
def Nested (E : ProcEnv) (inner outer : Option Str × SCtx) : Prop :=
  (inner.1 = outer.1 ∨ inner.1 = none) ∧ ∃ d i, SEntry.defn d ∈ outer.2.entries ∧
    (i = d ∨ Imports E outer.1 d i) ∧ ScopedIn inner.2 i

/-- Nesting ends: there is no infinite chain of contexts each scoped to a term of the previous one. -/
def NestingEnds (E : ProcEnv) (base : Option Str) (l : SCtx) : Prop := Acc (Nested E) (base, l)

/-- No definition at any depth has an `@import` entry. -/
inductive ImportFree : SCtx → Prop
  | intro (l) : (∀ d, SEntry.defn d ∈ l.entries → d.import_ = none) →
      (∀ d, SEntry.defn d ∈ l.entries → ∀ l', ScopedIn l' d → ImportFree l') → ImportFree l

/-- `@import` does not occur within scoped contexts. -/
def ScopedImportFree (l : SCtx) : Prop :=
  ∀ d, SEntry.defn d ∈ l.entries → ∀ l', ScopedIn l' d → ImportFree l'

/-- No item of the context is `null`. -/
def NoNull (l : SCtx) : Prop := SEntry.null ∉ l.entries

/-- Whether the context propagates: its own `@propagate` entry, otherwise the given default. -/
def propagates (l : SCtx) (default : Bool) : Bool :=
  match l with
  | .one (.defn d) => d.propagate.getD default
  | _ => default

/-- No definition of the context sets the base IRI, neither itself nor by an import. -/
def NoBase (E : ProcEnv) (base : Option Str) (l : SCtx) : Prop :=
  ∀ d, SEntry.defn d ∈ l.entries → d.base = none ∧ ∀ i, Imports E base d i → i.base = none

/-- The definition `d` together with what it imports: the entries of `d`, and those of `i` that `d`
does not have. `@import` is gone; `@propagate` and `@version` of an imported context do not count. -/
def mergeDefs (d i : SDef) : SDef where
  base := d.base.or i.base
  import_ := none
  language := d.language.or i.language
  direction := d.direction.or i.direction
  propagate := d.propagate
  protected_ := d.protected_.or i.protected_
  type := d.type.or i.type
  version := d.version
  vocab := d.vocab.or i.vocab
  bindings := i.bindings.filter (fun b => decide (∀ b' ∈ d.bindings, b'.1 ≠ b.1)) ++ d.bindings

/-- The containers with an index. -/
def HasIndex (c : Container) : Prop :=
  c = .index ∨ c = .indexSet ∨ c = .graphIndex ∨ c = .graphIndexSet

/-- The type containers. -/
def HasType (c : Container) : Prop := c = .type ∨ c = .setType

/-- What later algorithms rely on in the definition of the term `k`. -/
structure WellFormed (k : Str) (d : TermDef) : Prop where
  /-- The IRI mapping is no invalid IRI and not `@context`. -/
  value : ∀ s, d.value ≠ some (.id (.invalid s))
  noContext : d.value ≠ some (.keyword .context)
  /-- Reverse properties have an IRI or blank node mapping and a simple container. -/
  reverseContainer : d.reverse = true → d.container = .none ∨ d.container = .set ∨ d.container = .index
  reverseValue : d.reverse = true → ∃ i, d.value = some (.id i)
  reverseNest : d.reverse = true → d.nest = none
  /-- `@index` needs an index container. -/
  index : d.index.isSome = true → HasIndex d.container
  /-- Type containers need node identifiers. -/
  type : HasType d.container → d.typ = some .id ∨ d.typ = some .vocab
  /-- Prefixes are plain names with a mapping that is no keyword. -/
  prefixName : d.prefix_ = true → ':' ∉ k ∧ '/' ∉ k
  prefixValue : d.prefix_ = true → ∃ t, d.value = some t ∧ ∀ w, t ≠ .keyword w
  /-- Language and direction are not used with a type, except the one a type container implies. -/
  language : d.language.isSome = true ∨ d.direction.isSome = true → d.typ = none ∨ HasType d.container

/-- All terms are well formed. -/
def WellFormedCtx (c : ACtx) : Prop := ∀ k d, lookupKey k c.defs = some d → WellFormed k d

/-- What an `@base` entry makes of the base IRI: nothing without entry, no base IRI if it is null, an
IRI replaces the base IRI, anything else is resolved against it. -/
def SetsBase (E : ProcEnv) (old : Option Str) (entry : Option (Option Str)) (new : Option Str) : Prop :=
  (entry = none ∧ new = old) ∨ (entry = some none ∧ new = none) ∨
  (∃ i, entry = some (some i) ∧ E.isIri i = true ∧ new = some i) ∨
  (∃ r b, entry = some (some r) ∧ E.isIri r = false ∧ old = some b ∧ new = some (E.resolve r b))

/-- What an `@vocab` entry makes of the vocabulary mapping: an entry that is not null is expanded in the
context, relative to the previous vocabulary mapping and to the base IRI. -/
def SetsVocab (E : ProcEnv) (c : ACtx) (a : Action) (entry : Option (Option Str)) (new : Option CTerm) :
    Prop :=
  (entry = none ∧ new = c.vocab) ∨ (entry = some none ∧ new = none) ∨
  (∃ v i, entry = some (some v) ∧ Expands E.toIriEnv c true (some a) v (.id i) ∧ new = some (.id i))

end JsonLd.Spec
