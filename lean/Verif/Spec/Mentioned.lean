import Verif.Spec.KeyOrder
import Verif.Spec.Says
import Verif.Base.PermRel
/-!
# The terms that a document mentions
-/

namespace JsonLd.Spec

/-- The string is a key or a value somewhere in the JSON value. -/
inductive Said (s : Str) : Json → Prop
  | str : Said s (.str s)
  | key {v : Json} {m : List (Str × Json)} : (s, v) ∈ m → Said s (.obj m)
  | entry {k : Str} {v : Json} {m : List (Str × Json)} : (k, v) ∈ m → Said s v → Said s (.obj m)
  | item {v : Json} {l : List Json} : v ∈ l → Said s v → Said s (.arr l)

/-- The names that the expansion of the document may look up: its strings, what precedes the first colon of such a name,
index mappings of the definitions of such names in the context, and two keywords. -/
inductive Mentioned (c : ACtx) (j : Json) : Str → Prop
  | said {s : Str} : Said s j → Mentioned c j s
  | before {s p x : Str} : Mentioned c j s → splitOnce ':' s = some (p, x) → Mentioned c j p
  | index {t i : Str} {d : TermDef} : Mentioned c j t → c.getNormal t = some d → d.index = some i → Mentioned c j i
  | graph : Mentioned c j "@graph".toList
  | included : Mentioned c j "@included".toList

/-- The contexts have the same settings, and the same definitions of these terms; protection and the base URLs of scoped
contexts may differ. -/
structure AgreeOn (M : Str → Prop) (c c' : ACtx) : Prop where
  terms : ∀ t, M t → (c.getNormal t).map forget = (c'.getNormal t).map forget
  type : c.typeDef.isSome = c'.typeDef.isSome
  base : c.base = c'.base
  vocab : c.vocab = c'.vocab
  language : c.language = c'.language
  direction : c.direction = c'.direction

/-- The same error, or related results. -/
def Alike {ε α β : Type} (R : α → β → Prop) : Except ε α → Except ε β → Prop
  | .ok a, .ok b => R a b
  | .error e, .error e' => e = e'
  | _, _ => False

/-- A relation between active contexts that expansion cannot tell apart: related contexts agree on the names in `M`, which
contain what can be reached from them, previous contexts are related, and contexts are processed to related ones: those in
the set `L`, and the scoped contexts of the names in `M`. Two ways of processing contexts are compared. -/
structure Simulates (process process' : ACtx → SCtx → Option Str → Opts → Except CtxErr ACtx) (M : Str → Prop)
    (L : SCtx → Prop) (R : ACtx → ACtx → Prop) : Prop where
  agree : ∀ {c c'}, R c c' → AgreeOn M c c'
  previous : ∀ {c c'}, R c c' → OptRel R c.previous c'.previous
  before : ∀ {s p x}, M s → splitOnce ':' s = some (p, x) → M p
  index : ∀ {c c' t d i}, R c c' → M t → c.getNormal t = some d → d.index = some i → M i
  graph : M "@graph".toList
  included : M "@included".toList
  embedded : ∀ {c c' l base o}, R c c' → L l → Alike R (process c l base o) (process' c' l base o)
  scopedContext : ∀ {a a' c c' t d d' l o}, R a a' → R c c' → M t → c.getNormal t = some d → c'.getNormal t = some d' →
    d.context = some l → Alike R (process a l d.baseUrl o) (process' a' l d'.baseUrl o)

end JsonLd.Spec
