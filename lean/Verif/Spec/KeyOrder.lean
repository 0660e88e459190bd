import Verif.Model.Expand
/-!
# Documents that differ in the order of keys
-/

namespace JsonLd.Spec

/-- The key expands to the keyword. -/
def KeyFor (E : XEnv) (c : ACtx) (key : Str) (k : Keyword) : Prop :=
  expandIri E.toIriEnv c (some (.ofStr key)) false (some E.opts.vocab) = .ok (some (.keyword k))

/-- `v` is the value of an entry `@context` in the JSON value. -/
inductive ContextIn (v : Json) : Json → Prop
  | here {m : List (Str × Json)} : ("@context".toList, v) ∈ m → ContextIn v (.obj m)
  | entry {k : Str} {w : Json} {m : List (Str × Json)} : (k, w) ∈ m → ContextIn v w → ContextIn v (.obj m)
  | item {w : Json} {l : List Json} : w ∈ l → ContextIn v w → ContextIn v (.arr l)

/-- The contexts that may be active during the expansion of the document `j` with the context `c`: that
context, what the contexts inside the document and the scoped contexts of terms make of such contexts, and
their previous contexts. -/
inductive MayBeActive (E : XEnv) (c : ACtx) (j : Json) : ACtx → Prop
  | start : MayBeActive E c j c
  | embedded {a b : ACtx} {v : Json} {l : SCtx} {base : Option Str} {o : Opts} : MayBeActive E c j a → ContextIn v j →
      readCtx E.isRef v = .ok l → E.process a l base o = .ok b → MayBeActive E c j b
  | scopedContext {a a' b : ACtx} {t : Str} {d : TermDef} {l : SCtx} {base : Option Str} {o : Opts} :
      MayBeActive E c j a → MayBeActive E c j a' → a'.get t = some d → d.context = some l →
      E.process a l base o = .ok b → MayBeActive E c j b
  | previous {a b : ACtx} : MayBeActive E c j a → a.previous = some b → MayBeActive E c j b

/-- In all of the contexts, the order of the entries should not matter: there are no duplicate keys, no two
keys for the same keyword, no key for `@nest`, and no reverse properties next to `@reverse`. -/
structure Movable (E : XEnv) (K : ACtx → Prop) (m : List (Str × Json)) : Prop where
  nodup : (m.map Prod.fst).Nodup
  single : ∀ c, K c → ∀ e ∈ m, ∀ e' ∈ m, ∀ k, KeyFor E c e.1 k → KeyFor E c e'.1 k → e.1 = e'.1
  noNest : ∀ c, K c → ∀ e ∈ m, ¬ KeyFor E c e.1 .nest
  noReverse : ∀ c, K c → ∀ e ∈ m, KeyFor E c e.1 .reverse → ∀ e' ∈ m, ∀ d, c.get e'.1 = some d → d.reverse = false

/-- The value of the key is a context, the value of a value object, or a JSON literal; it is left as it is. -/
inductive Untouched (E : XEnv) (K : ACtx → Prop) (key : Str) : Prop
  | context : key = "@context".toList → Untouched E K key
  | value {c : ACtx} : K c → KeyFor E c key .value → Untouched E K key
  | json {c : ACtx} {d : TermDef} : K c → c.get key = some d → d.typ = some .json → Untouched E K key

/-- The second value comes from the first one by moving entries of objects. -/
inductive Reordered (E : XEnv) (K : ACtx → Prop) : Json → Json → Prop
  | refl (j : Json) : Reordered E K j j
  | trans {a b c : Json} : Reordered E K a b → Reordered E K b c → Reordered E K a c
  | move {m m' : List (Str × Json)} : Movable E K m → m.Perm m' → Reordered E K (.obj m) (.obj m')
  | entry {k : Str} {v v' : Json} (m m' : List (Str × Json)) : ¬ Untouched E K k → Reordered E K v v' →
      Reordered E K (.obj (m ++ (k, v) :: m')) (.obj (m ++ (k, v') :: m'))
  | item {v v' : Json} (l l' : List Json) : Reordered E K v v' → Reordered E K (.arr (l ++ v :: l')) (.arr (l ++ v' :: l'))

end JsonLd.Spec
