import Verif.Model.Compact
/-!
# Specification: where compacted documents have arrays
-/

namespace JsonLd.Spec

/-- Arrays are wanted under the key: `compact_arrays` is not set, the key is `@graph`, or it is a term with `@set`
in its container. -/
def WantsArray (E : CEnv) (c : ACtx) (k : Str) : Prop :=
  E.opts.compactArrays = false ∨ k = "@graph".toList ∨ ∃ d, c.get k = some d ∧ .set ∈ d.container.asSlice

/-- The key is written for the keyword. -/
def WrittenFor (E : CEnv) (c : ACtx) (kw : Keyword) (k : Str) : Prop :=
  compactIriPlain E.toCompEnv c (.keyword kw) true false E.opts = .ok (some k)

/-- The key holds an object with further entries of the node: a nest, or the key for `@reverse`. -/
def GroupKey (E : CEnv) (c : ACtx) (k : Str) : Prop :=
  k = "@nest".toList ∨ c.getValue k = some (some (.keyword .nest)) ∨ WrittenFor E c .reverse k

/-- The term holds a map. -/
def HoldsMap (c : ACtx) (k : Str) : Prop :=
  ∃ d, c.get k = some d ∧ (.language ∈ d.container.asSlice ∨ .index ∈ d.container.asSlice ∨
    .id ∈ d.container.asSlice ∨ .type ∈ d.container.asSlice)

/-- The entries of a compacted node have arrays where they are wanted. Excepted are identifiers and indexes, which
are single strings, and types in JSON-LD 1.0 unless all arrays are kept. In a map, the arrays are the values in
the map. Keys in maps and groups are distinct. -/
inductive Arrays (E : CEnv) (c : ACtx) : Str → Json → Prop
  | array (k l) : ¬ GroupKey E c k → Arrays E c k (.arr l)
  | free (k v) : ¬ GroupKey E c k → ¬ WantsArray E c k → Arrays E c k v
  | map (k o) : ¬ GroupKey E c k → HoldsMap c k → (o.map Prod.fst).Nodup → (∀ e ∈ o, ∃ l, Prod.snd e = .arr l) →
      Arrays E c k (.obj o)
  | name (k s) : ¬ GroupKey E c k → WrittenFor E c .id k ∨ WrittenFor E c .index k → Arrays E c k (.str s)
  | types (k v) : ¬ GroupKey E c k → WrittenFor E c .type k → E.opts.mode = .v10 → E.opts.compactArrays = true →
      Arrays E c k v
  | group (k o) : GroupKey E c k → (o.map Prod.fst).Nodup → (∀ e ∈ o, Arrays E c (Prod.fst e) (Prod.snd e)) →
      Arrays E c k (.obj o)

/-- What the entries of a node other than `@id`, `@type`, `@index` and `@reverse` stand for. -/
def EntryTerm (n : Node) (t : CTerm) : Prop :=
  t = .keyword .graph ∨ t = .keyword .included ∨ (∃ p ∈ n.props, t = .id p.1) ∨
    ∃ r, n.rev = some r ∧ ∃ p ∈ r, t = .id p.1

/-- Nests and `@reverse` do not share their keys with anything else, and `@graph` and `@reverse` are no terms. -/
structure Apart (E : CEnv) (c : ACtx) (n : Node) : Prop where
  props : ∀ t rev o k, EntryTerm n t → compactIriWith E.toCompEnv c t o true rev E.opts = .ok (some k) →
    ¬ GroupKey E c k
  names : ∀ kw ∈ [Keyword.id, .type, .index], ∀ k, WrittenFor E c kw k → ¬ GroupKey E c k ∧ k ≠ "@graph".toList
  terms : ∀ k d, c.get k = some d → d.reverse = true → ¬ GroupKey E c k
  graph : c.get "@graph".toList = none
  reverse : c.get "@reverse".toList = none

end JsonLd.Spec
