import Verif.Spec.CompactDoc
/-!
# Specifications for the compaction of documents with typed terms and maps
-/

namespace JsonLd.Spec

/-- No term for `p` has a container with `k`. -/
def NoTermWith (c : ACtx) (p : CTerm) (k : ContainerKind) : Prop :=
  ∀ t d, c.get t = some d → d.value = some p → k ∉ d.container.asSlice

/-- Some term has the type mapping `m`. -/
def TypedTerm (c : ACtx) (m : TypeMap) : Prop := ∃ t d, c.get t = some d ∧ d.typ = some m

/-- A term definition with any language, direction and container, and any type except `@json`. The term is not
defined as `null`, and it has no scoped context, `@nest`, `@index` or `@reverse`. -/
structure ValueDef (d : TermDef) : Prop where
  value : ∃ t, d.value = some t ∧ t ≠ .null
  typ : d.typ ≠ some .json
  context : d.context = none
  nest : d.nest = none
  index : d.index = none
  reverse : d.reverse = false

/-- A context of such terms. Aliases of keywords and terms that are IRIs or blank node identifiers are only
names. -/
structure ValueCtx (env : CompEnv) (c : ACtx) : Prop where
  defs : ∀ b ∈ c.defs, ValueDef b.2
  keywords : ∀ b ∈ c.defs, ∀ k, b.2.value = some (.keyword k) → PlainDef b.2
  iris : ∀ b ∈ c.defs, env.isIri b.1 = true ∨ env.isBlank b.1 = true → PlainDef b.2
  typeDef : c.typeDef = none
  previous : c.previous = none

/-- Compaction and expansion in the same environment (see `BaseEnv`) with such a context. -/
structure MapEnv (E : CEnv) (X : XEnv) (c : ACtx) : Prop extends BaseEnv E X c where
  ctx : ValueCtx E.toCompEnv c

/-- The key is not taken for `@none` or for nothing. -/
def NotNone (c : ACtx) (i : Str) : Prop :=
  ¬ KeywordForm i ∧ ∀ d, c.get i = some d → d.value ≠ some (.keyword .none)

/-- The value can be put in a map by language under the term `t`: strings only, and the direction is that of the
term. -/
def InLanguageMap (c : ACtx) (t : Str) : Value → Prop
  | .literal l none => (∃ s, l = .str s) ∧ DefaultDirection c t none
  | .langString s => DefaultDirection c t s.direction
  | _ => True

/-- A list object. -/
def IsList (o : Obj) : Prop := ∃ i l, o = .list i l

/-- The graph can be put under a term with the container `k`. Under terms with `@graph` it has exactly one member;
without `@id` in the container it has no identifier, and without `@index` no index. In a map of graphs the member
is not a graph itself, and it has no index if the map is by index. A map by index is no place for a graph
otherwise. -/
def InGraphTerm (k : Container) (g : Node) : Prop :=
  match k with
  | .graph | .graphSet => g.id = none ∧ g.index = none ∧ ∃ o, g.graph = some [o]
  | .graphId | .graphIdSet => g.index = none ∧ ∃ o, g.graph = some [o] ∧ o.isGraph = false
  | .graphIndex | .graphIndexSet => g.id = none ∧ ∃ o, g.graph = some [o] ∧ o.isGraph = false ∧ o.index = none
  | .index | .indexSet => False
  | _ => True

/-- A node that can be compacted without loss:
* all identifiers can be compacted and expanded back, those of nodes also as terms if there are terms of type
  `@vocab`;
* there is no empty list of types and no empty map of reverse properties, and the members of its graph say
  something;
* a node that has only an identifier has no index if there are terms of type `@id` or `@vocab`;
* a property with several lists has no term with the container `@list`, one with lists none with the container
  `@index`, and neither has a reverse property;
* the graphs can be put under the terms of the property (`InGraphTerm`);
* a property with a term with the container `@language` has no plain values other than strings, and the direction
  of such terms is that of the strings;
* the index is not taken for `@none`. -/
structure PlacedNode (env : CompEnv) (c : ACtx) (n : Node) : Prop where
  id : ∀ i, n.id = some i → Nameable env c false i
  term : ∀ i, n.id = some i → TypedTerm c .vocab → Nameable env c true i
  reference : n.id ≠ none → n.isEmpty = true → TypedTerm c .id ∨ TypedTerm c .vocab → n.index = none
  types : ∀ ts, n.types = some ts → ts ≠ [] ∧ ∀ t ∈ ts, Nameable env c true t
  graph : ∀ g, n.graph = some g → ∀ o ∈ g, Says o
  props : ∀ p ∈ n.props, Nameable env c true p.1
  lists : ∀ p ∈ n.props, NoTermWith c (.id p.1) .list ∨ p.2.Pairwise fun a b => ¬ (IsList a ∧ IsList b)
  maps : ∀ p ∈ n.props, ∀ o ∈ p.2, IsList o → NoTermWith c (.id p.1) .index
  graphs : ∀ p ∈ n.props, ∀ g, .node g ∈ p.2 → g.isGraph = true → ∀ t d, c.get t = some d →
    d.value = some (.id p.1) → InGraphTerm d.container g
  rev : ∀ r, n.rev = some r → r ≠ [] ∧ ∀ p ∈ r, Nameable env c true p.1 ∧ NoTermWith c (.id p.1) .index
  langs : ∀ p ∈ n.props, ∀ v, .value none v ∈ p.2 → ∀ t d, c.get t = some d → d.value = some (.id p.1) →
    .language ∈ d.container.asSlice → InLanguageMap c t v
  index : ∀ i, n.index = some i → NotNone c i

/-- A value that can be compacted without loss:
* no `null`;
* the datatype is an IRI whose compaction does not mislead;
* a language string has a language or a direction, and the language is not taken for `@none`; it has a language
  (direction) if the context or a term has a language (direction);
* any JSON literal. -/
inductive PlacedValue (env : CompEnv) (c : ACtx) : Value → Prop
  | plain (l) : l ≠ .null → PlacedValue env c (.literal l none)
  | typed (l ty) : l ≠ .null → Nameable env c true (.iri ty) → PlacedValue env c (.literal l (some ty))
  | lang (s) : s.language ≠ none ∨ s.direction ≠ none →
      (∀ l, s.language = some l → NotNone c l) →
      (s.language = none → c.language = none ∧ ∀ t d, c.get t = some d → d.language.join = none) →
      (s.direction = none → c.direction = none ∧ ∀ t d, c.get t = some d → d.direction.join = none) →
      PlacedValue env c (.langString s)
  | json (j) : PlacedValue env c (.json j)

/-- A document that can be compacted without loss: all nodes and values inside can, no list contains lists, and
the objects at the top say something. -/
structure PlacedDoc (env : CompEnv) (c : ACtx) (d : Doc) : Prop where
  nodes : ∀ n, Inside d (.node n) → PlacedNode env c n
  values : ∀ i v, Inside d (.obj (.value i v)) → PlacedValue env c v ∧ ∀ x, i = some x → NotNone c x
  lists : ∀ i l, Inside d (.obj (.list i l)) → ∀ o ∈ l, ¬ IsList o
  top : ∀ o ∈ d, Says o

end JsonLd.Spec
