import Verif.Spec.KeyOrder
/-!
# Entries that mean nothing
-/

namespace JsonLd.Spec

/-- In the context, the key stands for no keyword and no property: it is mapped to null or dropped, it has no colon when
expanded, or it is not an IRI and such keys are dropped. -/
inductive MeansNothing (E : XEnv) (c : ACtx) (key : Str) : Prop
  | dropped : expandIri E.toIriEnv c (some (.ofStr key)) false (some E.opts.vocab) = .ok none → MeansNothing E c key
  | null : expandIri E.toIriEnv c (some (.ofStr key)) false (some E.opts.vocab) = .ok (some .null) → MeansNothing E c key
  | undefined {p : Id} : expandIri E.toIriEnv c (some (.ofStr key)) false (some E.opts.vocab) = .ok (some (.id p)) →
      ':' ∉ p.str → MeansNothing E c key
  | invalid {s : Str} :
      expandIri E.toIriEnv c (some (.ofStr key)) false (some E.opts.vocab) = .ok (some (.id (.invalid s))) →
      E.opts.invalid = .drop → MeansNothing E c key

/-- The key means nothing in all of the contexts, and this is allowed. -/
structure Idle (E : XEnv) (K : ACtx → Prop) (key : Str) : Prop where
  notRejected : E.opts.invalid ≠ .reject
  undefinedAllowed : E.opts.allowUndefined = true
  nothing : ∀ c, K c → MeansNothing E c key

/-- The entries of a node, not of a value object, list object or set object. -/
def NodeEntries (E : XEnv) (K : ACtx → Prop) (m : List (Str × Json)) : Prop :=
  ∀ c, K c → ∀ e ∈ m, ¬ KeyFor E c e.1 .value ∧ ¬ KeyFor E c e.1 .list ∧ ¬ KeyFor E c e.1 .set

/-- The values of the key may be maps: language maps, index maps, maps by type or identifier. -/
def MapKey (K : ACtx → Prop) (key : Str) : Prop :=
  ∃ c d, K c ∧ c.get key = some d ∧ (d.container.contains .language || d.container.contains .index ||
    d.container.contains .type || d.container.contains .id) = true

/-- The second value comes from the first one by removing entries of nodes that mean nothing. What is left is not a
single `@id` where a context that is not propagated may be active. -/
inductive Pruned (E : XEnv) (K : ACtx → Prop) : Json → Json → Prop
  | refl (j : Json) : Pruned E K j j
  | trans {a b c : Json} : Pruned E K a b → Pruned E K b c → Pruned E K a c
  | drop {k : Str} {v : Json} (m m' : List (Str × Json)) : Idle E K k → NodeEntries E K (m ++ m') →
      (∀ e, m ++ m' = [e] → ∀ c, K c → c.previous ≠ none → ¬ KeyFor E c e.1 .id) →
      Pruned E K (.obj (m ++ (k, v) :: m')) (.obj (m ++ m'))
  | entry {k : Str} {v v' : Json} (m m' : List (Str × Json)) : ¬ Untouched E K k →
      (MapKey K k → ∀ o, v ≠ .obj o) → Pruned E K v v' →
      Pruned E K (.obj (m ++ (k, v) :: m')) (.obj (m ++ (k, v') :: m'))
  | map {k i : Str} {v v' : Json} (m m' p p' : List (Str × Json)) : ¬ Untouched E K k → ¬ Untouched E K i →
      (MapKey K i → ∀ o, v ≠ .obj o) → Pruned E K v v' →
      Pruned E K (.obj (m ++ (k, .obj (p ++ (i, v) :: p')) :: m')) (.obj (m ++ (k, .obj (p ++ (i, v') :: p')) :: m'))
  | item {v v' : Json} (l l' : List Json) : Pruned E K v v' → Pruned E K (.arr (l ++ v :: l')) (.arr (l ++ v' :: l'))

end JsonLd.Spec
