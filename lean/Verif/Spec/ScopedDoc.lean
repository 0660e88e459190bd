import Verif.Spec.CompactDoc
import Verif.Spec.ExpandMaps
/-!
# Specifications for the compaction of documents with scoped contexts
-/

namespace JsonLd.Spec

/-- A context whose terms are only names for IRIs, blank nodes and keywords, and may have scoped contexts. Names of
keywords have none. -/
structure NamedCtx (c : ACtx) : Prop where
  defs : ∀ b ∈ c.defs, NamedDef b.2
  keywords : ∀ b ∈ c.defs, ∀ k, b.2.value = some (.keyword k) → b.2.context = none
  typeDef : c.typeDef = none

/-- Compaction and expansion in the same environment, with such a context, when nothing is sorted. -/
structure NamedEnv (E : CEnv) (X : XEnv) (c : ACtx) : Prop extends BaseEnv E X c where
  named : NamedCtx c
  process : X.process = E.process
  modes : E.opts.mode = .v11
  sorted : E.opts.ordered = false ∧ X.opts.ordered = false

/-- The property has no scoped context in `c`. -/
def NoScope (c : ACtx) (prop : Option Str) : Prop := ∀ k, prop = some k → Unscoped c k

/-- The scoped context of the property, whose term is looked up in `c`, leads from `a` to `b`; `over`: it may
redefine protected terms. -/
inductive Scope (X : XEnv) (over : Bool) (c : ACtx) (prop : Option Str) : ACtx → ACtx → Prop
  | none (a) : NoScope c prop → Scope X over c prop a a
  | within (k d l a b) : prop = some k → c.get k = some d → d.context = some l →
      X.process a l d.baseUrl { mode := X.opts.mode, override := over } = .ok b → Scope X over c prop a b

/-- The same keys stand for the same keywords in both contexts. -/
def SameAliases (X : XEnv) (c c' : ACtx) : Prop :=
  ∀ k kw, expandIri X.toIriEnv c (some (.ofStr k)) false (some X.opts.vocab) = .ok (some (.keyword kw)) ↔
    expandIri X.toIriEnv c' (some (.ofStr k)) false (some X.opts.vocab) = .ok (some (.keyword kw))

/-- Type-scoped contexts do not apply to the values of properties: a node starts with the previous context, unless
it is only a reference. -/
inductive Starts (c : ACtx) (n : Node) : ACtx → Prop
  | reference : n.isEmpty = true → n.id.isSome = true → Starts c n c
  | node (p) : ¬ (n.isEmpty = true ∧ n.id.isSome = true) → Returned c p → Starts c n p

/-- The contexts of a node under the property `prop` in the context `c`: `c1` is the context without the contexts
of its types, `ss` are its types, compacted, and `c'` is the context with the contexts of the types, in order. -/
structure NodeContexts (E : CEnv) (X : XEnv) (c : ACtx) (prop : Option Str) (n : Node) (c1 : ACtx) (ss : List Str)
    (c' : ACtx) : Prop where
  start : ∃ a, Starts c n a ∧ Scope X true c prop a c1
  names : List.Forall₂ (fun s t => compactIriPlain E.toCompEnv c (.id t) true false E.opts = .ok (some s)) ss
    (n.types.getD [])
  types : ∃ ss', ss'.Perm ss ∧ ss'.Pairwise (· ≤ ·) ∧ Applied X c ss' c1 c'

/-- A value under the property `prop` that can be compacted without loss: `c1` is the context of the property.
* The scoped context of the property does not redefine protected terms, and leaves the names of the keywords as they are.
* The value can be compacted without loss in `c1`.
* The term for its datatype has no scoped context. -/
structure ScopedValue (E : CEnv) (X : XEnv) (c : ACtx) (prop : Option Str) (c1 : ACtx) (v : Value) : Prop where
  env : NamedEnv E X c1
  scalar : Scope X false c prop c c1
  aliases : SameAliases X c c1
  value : CarriedValue E.toCompEnv c1 v
  datatype : ∀ l ty, v = .literal l (some ty) → ∀ s d, c1.get s = some d → d.value = some (.id (.iri ty)) →
    d.context = none

/-- A node that can be compacted without loss, apart from what is inside.
* The scoped contexts leave the names of the keywords as they are.
* Its identifier and its properties can be compacted without loss in the context `c'` of the node.
* The scoped contexts that apply before those of the types leave the types alone.
* It does not have an empty list of types or an empty map of reverse properties, and the members of its graph say
  something.
* If it is a reference, and a type-scoped context applies, it has no index. -/
structure ScopedNode (E : CEnv) (X : XEnv) (c : ACtx) (n : Node) (c1 : ACtx) (ss : List Str)
    (c' : ACtx) : Prop where
  env : NamedEnv E X c'
  aliases : SameAliases X c c' ∧ SameAliases X c1 c'
  id : ∀ i, n.id = some i → Nameable E.toCompEnv c' false i
  props : ∀ p ∈ n.props, Nameable E.toCompEnv c' true p.1
  rev : ∀ r, n.rev = some r → r ≠ [] ∧ ∀ p ∈ r, Nameable E.toCompEnv c' true p.1
  types : n.types ≠ some [] ∧ List.Forall₂ (IsType X c1) ss (n.types.getD []) ∧ ∀ s ∈ ss, c1.get s = c.get s
  graph : ∀ g, n.graph = some g → ∀ o ∈ g, Says o
  reference : n.isEmpty = true → n.id ≠ none → c.previous ≠ none → n.index = none

/-- The object, under the property `prop` in the context `c`, can be compacted without loss. (For lists and graph objects, no
type-scoped context and no context of the property apply.) -/
inductive Carries (E : CEnv) (X : XEnv) : ACtx → Option Str → Obj → Prop
  | value (c prop i v) : (∀ c1, Scope X true c prop c c1 → ScopedValue E X c prop c1 v) →
      Carries E X c prop (.value i v)
  | list (c prop i l) : NamedEnv E X c → c.previous = none → NoScope c prop → (∀ o ∈ l, Carries E X c prop o) →
      Carries E X c prop (.list i l)
  | node (c prop n) : (n.isGraph = true → c.previous = none ∧ NoScope c prop) →
      (∀ c1 ss c', NodeContexts E X c prop n c1 ss c' → ScopedNode E X c n c1 ss c') →
      (∀ c1 ss c', NodeContexts E X c prop n c1 ss c' → ∀ g, n.graph = some g → ∀ o ∈ g,
        Carries E X c' (some "@graph".toList) o) →
      (∀ c1 ss c', NodeContexts E X c prop n c1 ss c' → ∀ l, n.included = some l → ∀ m ∈ l,
        Carries E X c' (some "@included".toList) (.node m)) →
      (∀ c1 ss c', NodeContexts E X c prop n c1 ss c' → ∀ p ∈ n.props, ∀ o ∈ p.2, ∀ key,
        compactIriWith E.toCompEnv c' (.id p.1) o true false E.opts = .ok (some key) →
        Carries E X c' (some key) o) →
      (∀ c1 ss c', NodeContexts E X c prop n c1 ss c' → ∀ r, n.rev = some r → ∀ p ∈ r, ∀ m ∈ p.2, ∀ key,
        compactIriWith E.toCompEnv c' (.id p.1) (.node m) true true E.opts = .ok (some key) →
        Carries E X c' (some key) (.node m)) →
      Carries E X c prop (.node n)

end JsonLd.Spec
