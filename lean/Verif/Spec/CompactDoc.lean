import Verif.Spec.ExpandDoc
import Verif.Spec.Syntax
import Verif.Spec.AddValue
import Verif.Spec.Compact
import Verif.Model.Compact
/-!
# Specifications for the compaction of documents
-/

namespace JsonLd.Spec

/-- All contexts of a compaction that starts with `c` satisfy `Q`: `c` does, and context processing
only gives such contexts. -/
structure CompactsIn (Q : ACtx → Prop) (E : CEnv) (c : ACtx) : Prop where
  start : Everywhere Q c
  process : ∀ c l b o c', E.process c l b o = .ok c' → Everywhere Q c'

/-- The JSON literals inside have no duplicate keys. -/
def CleanLiterals (x : Item) : Prop :=
  ∀ i j, Relation.ReflTransGen PartL (.obj (.value i (.json j))) x → NoDupKeys j

/-- No term has a container that makes a map (`@language`, `@index`, `@id`, `@type`) or a `@nest` entry. -/
def PlainTerms (c : ACtx) : Prop :=
  ∀ k d, c.get k = some d → d.nest = none ∧ .language ∉ d.container.asSlice ∧
    .index ∉ d.container.asSlice ∧ .id ∉ d.container.asSlice ∧ .type ∉ d.container.asSlice

/-- No term has a scoped context. -/
def NoScoped (c : ACtx) : Prop := ∀ k d, c.get k = some d → d.context = none

/-- No prefix and no vocabulary mapping is a prefix of a keyword. -/
structure KeywordsFree (c : ACtx) : Prop where
  prefixes : ∀ p m, PrefixFor c p m → ∀ k : Keyword, ¬ m.str <+: k.intoStr
  vocab : ∀ v, c.vocab = some v → ∀ k : Keyword, ¬ v.str <+: k.intoStr

/-- The language of strings of the property: that of the term, otherwise the default language. -/
def DefaultLanguage (c : ACtx) (t : Str) (l : Option Str) : Prop :=
  (∃ d, c.get t = some d ∧ d.language = some l) ∨
    ((∀ d, c.get t = some d → d.language = none) ∧ l = c.language)

/-- The direction of strings of the property: that of the term, otherwise the default direction. -/
def DefaultDirection (c : ACtx) (t : Str) (x : Option Direction) : Prop :=
  (∃ d, c.get t = some d ∧ d.direction = some x) ∨
    ((∀ d, c.get t = some d → d.direction = none) ∧ x = c.direction)

/-- The term coerces strings to identifiers or typed values. -/
def Coerces (c : ACtx) (t : Str) : Prop := ∃ d m, c.get t = some d ∧ d.typ = some m ∧ m ≠ .none

/-- Values that can be compacted with the term `t` without loss:
* no `null`;
* the datatype is an IRI that is not misled by compaction;
* a string has a language or a direction if it is a language string, and then the term does not coerce,
  and there is no default language (direction) for it if it has none itself;
* a JSON literal if the term is not of type `@json`. -/
inductive Faithful (env : CompEnv) (c : ACtx) (t : Str) : Value → Prop
  | plain (l) : l ≠ .null → Faithful env c t (.literal l none)
  | typed (l ty) : l ≠ .null → env.isIri ty = true → NotMisled env c (.iri ty) true →
      Faithful env c t (.literal l (some ty))
  | lang (s) : s.language ≠ none ∨ s.direction ≠ none → s.language ≠ some "@none".toList → ¬ Coerces c t →
      (s.language = none → DefaultLanguage c t none) →
      (s.direction = none → DefaultDirection c t none) → Faithful env c t (.langString s)
  | json (j) : (∀ d, c.get t = some d → d.typ ≠ some .json) → Faithful env c t (.json j)

/-- The index of a value is left to the map of the term. -/
def IndexInMap (c : ACtx) (t : Str) : Prop := ∃ d, c.get t = some d ∧ .index ∈ d.container.asSlice

/-- If the language of the string is the given one up to case, it is written in the same way. -/
def CasedAs (l : Option Str) (v : Value) : Prop :=
  ∀ s x, v = .langString s → s.language = some x → langOptEq l (some x) = true → l = some x

/-- A term definition that is only an IRI mapping: no type, language, direction, container, scoped context,
`@nest`, `@index` or `@reverse`. -/
structure PlainDef (d : TermDef) : Prop where
  typ : d.typ = none
  language : d.language = none
  direction : d.direction = none
  container : d.container = .none
  context : d.context = none
  nest : d.nest = none
  index : d.index = none
  reverse : d.reverse = false

/-- The same, with or without a scoped context. -/
structure NamedDef (d : TermDef) : Prop where
  typ : d.typ = none
  language : d.language = none
  direction : d.direction = none
  container : d.container = .none
  nest : d.nest = none
  index : d.index = none
  reverse : d.reverse = false

/-- A context whose terms are only names for IRIs, blank nodes and keywords. It may have prefixes, a
vocabulary mapping, a base IRI, a default language and a default direction. -/
structure PlainCtx (c : ACtx) : Prop where
  defs : ∀ b ∈ c.defs, PlainDef b.2
  typeDef : c.typeDef = none
  previous : c.previous = none

/-- Compaction and expansion in the same environment: the same external functions, the vocabulary mapping is
used for keys, the processing mode is JSON-LD 1.1. The terms of the context do not confuse
compaction (see `CleanTerms` and `KeywordsFree`). -/
structure BaseEnv (E : CEnv) (X : XEnv) (c : ACtx) : Prop where
  env : X.toIriEnv = E.toIriEnv
  vocab : X.opts.vocab = .keep
  mode : X.opts.mode = .v11
  iris : IriFacts E.toIriEnv
  facts : CompactFacts E.toCompEnv
  clean : CleanTerms E.toCompEnv c
  keywords : KeywordsFree c

/-- The same with a plain context, when nothing is sorted. -/
structure RoundEnv (E : CEnv) (X : XEnv) (c : ACtx) : Prop extends BaseEnv E X c where
  plain : PlainCtx c
  sorted : E.opts.ordered = false ∧ X.opts.ordered = false

/-- An IRI or a blank node identifier whose compaction does not mislead. -/
structure Nameable (env : CompEnv) (c : ACtx) (vocab : Bool) (j : Id) : Prop where
  kind : Id.classify env.toIriEnv j.str = j
  valid : env.isIri j.str = true ∨ env.isBlank j.str = true
  clear : NotMisled env c j vocab

/-- A node that can be compacted without loss: all identifiers can be compacted and expanded back, there is no
empty list of types and no empty map of reverse properties, and the members of its graph say something. -/
structure CarriedNode (env : CompEnv) (c : ACtx) (n : Node) : Prop where
  id : ∀ i, n.id = some i → Nameable env c false i
  types : ∀ ts, n.types = some ts → ts ≠ [] ∧ ∀ t ∈ ts, Nameable env c true t
  graph : ∀ g, n.graph = some g → ∀ o ∈ g, Says o
  props : ∀ p ∈ n.props, Nameable env c true p.1
  rev : ∀ r, n.rev = some r → r ≠ [] ∧ ∀ p ∈ r, Nameable env c true p.1

/-- A value that can be compacted without loss in a plain context:
* no `null`;
* the datatype is an IRI whose compaction does not mislead;
* a language string has a language or a direction, the language is not written `@none`; it has a language
  (direction) if there is a default language (direction), and its language is written as the default language
  if they are the same;
* any JSON literal. -/
inductive CarriedValue (env : CompEnv) (c : ACtx) : Value → Prop
  | plain (l) : l ≠ .null → CarriedValue env c (.literal l none)
  | typed (l ty) : l ≠ .null → Nameable env c true (.iri ty) → CarriedValue env c (.literal l (some ty))
  | lang (s) : s.language ≠ none ∨ s.direction ≠ none → s.language ≠ some "@none".toList →
      (s.language = none → c.language = none) → (s.direction = none → c.direction = none) →
      CasedAs c.language (.langString s) → CarriedValue env c (.langString s)
  | json (j) : CarriedValue env c (.json j)

/-- A document that can be compacted without loss: all nodes and values inside can, and the objects at the top
say something. -/
structure CarriedDoc (env : CompEnv) (c : ACtx) (d : Doc) : Prop where
  nodes : ∀ n, Inside d (.node n) → CarriedNode env c n
  values : ∀ i v, Inside d (.obj (.value i v)) → CarriedValue env c v
  top : ∀ o ∈ d, Says o

/-- Reading the written context `l` leads from the initial context `c0` to the context `c` of the compaction.
(`null` and the empty contexts `[]` and `{}` are not written.) -/
def WrittenContext (X : XEnv) (c0 c : ACtx) (l : SCtx) : Prop :=
  if l.toJson = .null ∨ l.toJson = .arr [] ∨ l.toJson = .obj [] then c0 = c
  else X.process c0 l X.base X.opts.proc = .ok c

end JsonLd.Spec
