import Verif.Spec.CompactMaps
/-!
# Specifications for compaction without failure
-/

namespace JsonLd.Spec

/-- The values of a term with this container are put in a map. -/
def MakesMap (k : Container) : Prop :=
  .language ∈ k.asSlice ∨ .index ∈ k.asSlice ∨ .id ∈ k.asSlice ∨ .type ∈ k.asSlice

/-- A context that does not mislead compaction, as context processing gives it:
* no term has the form of a keyword;
* terms that are IRIs or blank node identifiers, aliases of keywords and reverse terms do not make maps;
* terms that are IRIs or blank node identifiers are not aliases of keywords, and aliases are not reverse;
* `@nest` entries are `@nest` or one of its aliases;
* no prefix and no vocabulary mapping is a prefix of a keyword. -/
structure SafeCtx (env : CompEnv) (c : ACtx) : Prop where
  distinct : (c.defs.map Prod.fst).Nodup
  terms : ∀ k d, lookupKey k c.defs = some d → ¬ KeywordForm k
  ids : ∀ k d, lookupKey k c.defs = some d → env.isIri k = true ∨ env.isBlank k = true →
    ¬ MakesMap d.container ∧ ∀ x, d.value ≠ some (.keyword x)
  aliases : ∀ k d x, lookupKey k c.defs = some d → d.value = some (.keyword x) →
    ¬ MakesMap d.container ∧ d.reverse = false
  reverse : ∀ k d, lookupKey k c.defs = some d → d.reverse = true → ¬ MakesMap d.container
  nest : ∀ k d n, lookupKey k c.defs = some d → d.nest = some n →
    n = .nest ∨ ∃ t d', n = .term t ∧ lookupKey t c.defs = some d' ∧ d'.value = some (.keyword .nest)
  keywords : KeywordsFree c

/-- A property that is not taken for a keyword: an IRI or a blank node identifier; what follows the vocabulary
mapping, if it starts with it, has not the form of a keyword. -/
structure SafeName (env : CompEnv) (c : ACtx) (p : Id) : Prop where
  valid : env.isIri p.str = true ∨ env.isBlank p.str = true
  vocab : ∀ v x, c.vocab = some v → p.str = v.str ++ x → ¬ KeywordForm x

/-- A graph has a place under the terms of the property: if one is a map by index, then a map of graphs, and the
graph has no identifier. -/
def GraphPlace (c : ACtx) (p : Id) (g : Node) : Prop :=
  ∀ t d, c.get t = some d → d.value = some (.id p) → .index ∈ d.container.asSlice →
    .graph ∈ d.container.asSlice ∧ g.id = none

/-- A node whose properties are told apart in the context, and whose lists and graphs are not in the way of maps
by index. -/
structure SafeNode (env : CompEnv) (c : ACtx) (n : Node) : Prop where
  keys : (n.props.map Prod.fst).Nodup
  props : ∀ p ∈ n.props, SafeName env c p.1
  lists : ∀ p ∈ n.props, ∀ o ∈ p.2, IsList o → NoTermWith c (.id p.1) .index
  graphs : ∀ p ∈ n.props, ∀ g, .node g ∈ p.2 → g.isGraph = true → GraphPlace c p.1 g
  revKeys : ∀ r, n.rev = some r → (r.map Prod.fst).Nodup
  rev : ∀ r, n.rev = some r → ∀ p ∈ r, SafeName env c p.1
  revGraphs : ∀ r, n.rev = some r → ∀ p ∈ r, ∀ g ∈ p.2, g.isGraph = true → GraphPlace c p.1 g

/-- The IRI is used in the node or value itself: as identifier, type, property or datatype. -/
def NamesIri : Item → Str → Prop
  | .node n, i => n.id = some (.iri i) ∨ (∃ ts, n.types = some ts ∧ .iri i ∈ ts) ∨ (∃ p ∈ n.props, p.1 = .iri i) ∨
      ∃ r, n.rev = some r ∧ ∃ p ∈ r, p.1 = .iri i
  | .obj (.value _ (.literal _ (some t))), i => t = i
  | _, _ => False

/-- The scheme of the IRI is not a term. -/
def FreeScheme (c : ACtx) (i : Str) : Prop := ∃ p x, i = p ++ ':' :: x ∧ ':' ∉ p ∧ c.get p = none

end JsonLd.Spec
