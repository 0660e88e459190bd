import Verif.Spec.Expand
import Verif.Spec.Inside
import Verif.Model.Expand
import Verif.Model.Process
/-!
# Specifications for the expansion of documents
-/

namespace JsonLd.Spec

/-- Contexts are processed by the algorithm of `Model/Process.lean`, with the same external functions. -/
structure ContextsBy (E : XEnv) (pe : ProcEnv) : Prop where
  env : pe.toIriEnv = E.toIriEnv
  process : ∀ c l b o c', E.process c l b o = .ok c' → Processed pe c l b o (.ok c')

/-- The context and the contexts to return to satisfy `Q`. -/
inductive Everywhere (Q : ACtx → Prop) : ACtx → Prop
  | intro (c) : Q c → (∀ p, c.previous = some p → Everywhere Q p) → Everywhere Q c

/-- All contexts of an expansion that starts with `c` satisfy `Q`: `c` does, and context processing
only gives such contexts. -/
structure ContextsOf (Q : ACtx → Prop) (E : XEnv) (c : ACtx) : Prop where
  start : Everywhere Q c
  process : ∀ c l b o c', E.process c l b o = .ok c' → Everywhere Q c'

/-- No term has an index mapping, other than `@index`. -/
def NoIndexMappings (c : ACtx) : Prop :=
  ∀ k d m, c.get k = some d → d.index = some m → m = "@index".toList

/-- No term has the given container. -/
def NoContainer (x : ContainerKind) (c : ACtx) : Prop :=
  ∀ k d, c.get k = some d → x ∉ d.container.asSlice

/-- `@graph` is not bound as a term with a list container. -/
def NoGraphLists (c : ACtx) : Prop :=
  ∀ d, c.get "@graph".toList = some d → ContainerKind.list ∉ d.container.asSlice

/-- A property key as the policy for invalid terms admits it: it contains a colon, and it is an IRI or a
blank node identifier unless invalid terms are kept. -/
def Absolute (E : XEnv) (p : Id) : Prop :=
  ':' ∈ p.str ∧ (E.opts.invalid = .keep ∨ ∀ s, p ≠ .invalid s)

/-- A well-formed expanded document: the values inside are well formed, the identifiers are of the kind
their texts say, and no value is at the top. -/
structure GoodDoc (env : IriEnv) (d : Doc) : Prop where
  values : ∀ i v, Inside d (.obj (.value i v)) → GoodValue env v
  nodes : ∀ n, Inside d (.node n) → NodeIdsOk env.isIri env.isBlank n
  top : ∀ i v, .value i v ∉ d

/-- The first policy is like the second, but rejects more. -/
structure Stricter (o₁ o₂ : XOpts) : Prop where
  mode : o₁.mode = o₂.mode
  ordered : o₁.ordered = o₂.ordered
  vocab : o₁.vocab = o₂.vocab ∨ o₁.vocab = .reject
  invalid : o₁.invalid = o₂.invalid ∨ o₁.invalid = .reject
  undefined : o₁.allowUndefined = true → o₂.allowUndefined = true

/-- The errors with which a policy rejects a document. -/
inductive PolicyErr : XErr → Prop
  | forbiddenVocab : PolicyErr .forbiddenVocab
  | literal : PolicyErr (.literal .forbiddenVocab)
  | value : PolicyErr (.value .forbiddenVocab)
  | type : PolicyErr .invalidTypeValue
  | key (s) : PolicyErr (.keyExpansionFailed s)

/-- The active context with which the keys of an object are expanded: the property-scoped, the local and
then the type-scoped contexts apply (element.rs:131-265). -/
def KeyContext (E : XEnv) (c : ACtx) (prop : Option Str) (m : List (Str × Json)) (fromMap : Bool)
    (c' : ACtx) : Prop :=
  ∃ tsc tes, objContext E c prop m fromMap = .ok tsc ∧ typeEntries E tsc m = .ok tes ∧
    typeScoped E tsc tes = .ok c'

/-- A key that a policy without undefined terms admits: it stands for nothing, for a keyword, or for an
identifier with a colon, which is an IRI or a blank node identifier if invalid terms are rejected. -/
inductive Admitted (E : XEnv) : Option CTerm → Prop
  | none : Admitted E none
  | null : Admitted E (some .null)
  | keyword (k) : Admitted E (some (.keyword k))
  | id (i) : ':' ∈ i.str → (E.opts.invalid = .reject → i.isValid = true) → Admitted E (some (.id i))

/-- A context without terms and without vocabulary mapping. It may have a base IRI, a default language and
a default direction. -/
structure EmptyCtx (c : ACtx) : Prop where
  defs : c.defs = []
  typeDef : c.typeDef = none
  vocab : c.vocab = none
  previous : c.previous = none

/-- A node that says something: it has an entry other than `@id`. Other nodes, lists and values are
removed where they are no values of a property. -/
def Says (o : Obj) : Prop := ∃ n, o = .node n ∧ (n.isEmpty = false ∨ n.index ≠ none)

/-- A node that expansion leaves as it is: identifiers and types are IRIs or blank node identifiers, or they
are not resolved since there is no base IRI; the members of its graph say something; there are no included
nodes. -/
structure SettledNode (E : XEnv) (c : ACtx) (n : Node) : Prop where
  id : ∀ i, n.id = some i → i.isValid = true ∨ c.base = none ∧
    (isKeywordLike i.str = true → isKeyword i.str = true)
  types : ∀ ts, n.types = some ts → ∀ t ∈ ts, t.isValid = true ∨ c.base = none ∧
    E.opts.invalid = .keep ∧ isKeywordLike t.str = false
  graph : ∀ g, n.graph = some g → ∀ o ∈ g, Says o
  included : n.included = none

/-- The keys of properties and reverse properties are absolute. -/
structure AbsoluteKeys (E : XEnv) (n : Node) : Prop where
  props : ∀ p ∈ n.props, Absolute E p.1
  rev : ∀ r, n.rev = some r → ∀ p ∈ r, Absolute E p.1

/-- A document that expansion leaves as it is: all nodes inside are as in `SettledNode`, no language is
written `@none`; the objects at the top say something, and they are not just one graph without a name. -/
structure Settled (E : XEnv) (c : ACtx) (d : Doc) : Prop where
  nodes : ∀ n, Inside d (.node n) → SettledNode E c n
  languages : ∀ i s, Inside d (.obj (.value i (.langString s))) → s.language ≠ some "@none".toList
  top : ∀ o ∈ d, Says o
  unnamed : ∀ n, d = [.node n] → n.id = none → n.isGraph = false

end JsonLd.Spec
