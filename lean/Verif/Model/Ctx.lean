import Verif.Model.DocEq
import Verif.Model.Container
/-!
# Contexts: syntactic contexts (`crates/syntax/src/context`) and active contexts
(`crates/core/src/context`)

`Nullable<T>` is `Option T`. IRIs, IRI references and language tags are their texts. Maps are
association lists: in insertion order for `IndexMap`, in an order nothing here depends on for `HashMap`.
-/

namespace JsonLd

/-- `term_definition::Id`, crates/syntax/src/context/term_definition/id.rs:11-14. -/
inductive SId where
  | keyword (k : Keyword)
  | term (s : Str)
  deriving DecidableEq, Repr

/-- `From<String> for Id` and `From<&str> for IdRef`, term_definition/id.rs:93-100 and 148-155. -/
def SId.ofStr (s : Str) : SId :=
  match Keyword.tryFrom s with
  | some k => .keyword k
  | none => .term s

/-- `Id::as_str`, term_definition/id.rs:45-50. -/
def SId.str : SId → Str
  | .keyword k => k.intoStr
  | .term s => s

/-- `TypeKeyword`, term_definition/type_.rs:75-91. -/
inductive STypeKeyword where
  | id | json | none | vocab
  deriving DecidableEq, Repr

/-- `From<TypeKeyword> for Keyword`, term_definition/type_.rs:153-162. -/
def STypeKeyword.keyword : STypeKeyword → Keyword
  | .id => .id
  | .json => .json
  | .none => .none
  | .vocab => .vocab

/-- `term_definition::Type`, term_definition/type_.rs:8-11. -/
inductive SType where
  | keyword (k : STypeKeyword)
  | term (s : Str)
  deriving DecidableEq, Repr

/-- `term_definition::Nest`, term_definition/nest.rs:6-11. -/
inductive SNest where
  | nest
  | term (s : Str)
  deriving DecidableEq, Repr

mutual
/-- `syntax::context::Context`, crates/syntax/src/context/mod.rs:19-22. -/
inductive SCtx where
  | one (e : SEntry)
  | many (es : List SEntry)
/-- `ContextEntry`, context/mod.rs:171-175. -/
inductive SEntry where
  | null
  | ref (s : Str)
  | defn (d : SDef)
/-- `context::Definition`, context/definition/mod.rs:27-105. The only value of `TypeContainer` is
`@set`, so `@type` is its protected flag; the only `Version` is 1.1. -/
structure SDef where
  base : Option (Option Str)
  import_ : Option Str
  language : Option (Option Str)
  direction : Option (Option Direction)
  propagate : Option Bool
  protected_ : Option Bool
  type : Option (Option Bool)
  version : Bool
  vocab : Option (Option Str)
  bindings : List (Str × Option STerm)
/-- `TermDefinition`, context/term_definition/mod.rs:23-26. -/
inductive STerm where
  | simple (s : Str)
  | expanded (x : SExp)
/-- `term_definition::Expanded`, term_definition/mod.rs:92-180. -/
structure SExp where
  id : Option (Option SId)
  type : Option (Option SType)
  context : Option SCtx
  reverse : Option Str
  index : Option Str
  language : Option (Option Str)
  direction : Option (Option Direction)
  container : Option (Option SynContainer)
  nest : Option SNest
  prefix_ : Option Bool
  propagate : Option Bool
  protected_ : Option Bool
end

/-- `Definition::default`, definition/mod.rs:27-30. -/
def SDef.empty : SDef := ⟨none, none, none, none, none, none, none, false, none, []⟩
/-- `Expanded::default`, term_definition/mod.rs:92-95. -/
def SExp.empty : SExp :=
  ⟨none, none, none, none, none, none, none, none, none, none, none, none⟩

instance : Inhabited SDef := ⟨.empty⟩
instance : Inhabited SExp := ⟨.empty⟩
instance : Inhabited SCtx := ⟨.many []⟩

/-- `Context::as_slice`, context/mod.rs:64-69. -/
def SCtx.entries : SCtx → List SEntry
  | .one e => [e]
  | .many es => es

/-- Lookup in a map. -/
def lookupKey {α : Type} (k : Str) : List (Str × α) → Option α
  | [] => none
  | (k', v) :: m => if k' = k then some v else lookupKey k m

/-- Removal from a map. -/
def mapErase {α : Type} (k : Str) (m : List (Str × α)) : List (Str × α) :=
  m.filter fun p => decide (p.1 ≠ k)

/-- Insertion in a map. -/
def mapInsert {α : Type} (k : Str) (v : α) (m : List (Str × α)) : List (Str × α) :=
  (k, v) :: mapErase k m

/-- Equality of optional nullable language tags (`LenientLangTag` compares ASCII
case-insensitively, crates/syntax/src/lang.rs:35-39). -/
def langOptOptEq : Option (Option Str) → Option (Option Str) → Bool
  | none, none => true
  | some a, some b => langOptEq a b
  | _, _ => false

mutual
/-- The derived `PartialEq` of contexts, context/mod.rs:16. -/
def SCtx.eqv : SCtx → SCtx → Bool
  | .one e, .one e' => e.eqv e'
  | .many es, .many es' => entriesEqv es es'
  | _, _ => false
/-- The derived `PartialEq` of entries, context/mod.rs:165. -/
def SEntry.eqv : SEntry → SEntry → Bool
  | .null, .null => true
  | .ref s, .ref s' => s == s'
  | .defn d, .defn d' => d.eqv d'
  | _, _ => false
/-- The derived `PartialEq` of definitions, definition/mod.rs:27; `Bindings` is an `IndexMap`,
whose equality ignores the order. -/
def SDef.eqv : SDef → SDef → Bool
  | ⟨b, i, l, d, pg, pt, t, v, vo, bs⟩, ⟨b', i', l', d', pg', pt', t', v', vo', bs'⟩ =>
    decide (b = b') && decide (i = i') && langOptOptEq l l' && decide (d = d') &&
    decide (pg = pg') && decide (pt = pt') && decide (t = t') && decide (v = v') &&
    decide (vo = vo') && decide (bs.length = bs'.length) && bindingsEqv bs bs'
/-- The derived `PartialEq` of term definitions, term_definition/mod.rs:20. -/
def STerm.eqv : STerm → STerm → Bool
  | .simple s, .simple s' => s == s'
  | .expanded x, .expanded x' => x.eqv x'
  | _, _ => false
/-- The derived `PartialEq` of expanded term definitions, term_definition/mod.rs:92. -/
def SExp.eqv : SExp → SExp → Bool
  | ⟨i, t, c, r, ix, l, d, co, n, p, pg, pt⟩, ⟨i', t', c', r', ix', l', d', co', n', p', pg', pt'⟩ =>
    decide (i = i') && decide (t = t') && optCtxEqv c c' && decide (r = r') && decide (ix = ix') &&
    langOptOptEq l l' && decide (d = d') && decide (co = co') && decide (n = n') &&
    decide (p = p') && decide (pg = pg') && decide (pt = pt')
/-- Equality of optional contexts. -/
def optCtxEqv : Option SCtx → Option SCtx → Bool
  | none, none => true
  | some c, some c' => c.eqv c'
  | _, _ => false
/-- Equality of optional (nullable) term definitions. -/
def optTermEqv : Option STerm → Option STerm → Bool
  | none, none => true
  | some c, some c' => c.eqv c'
  | _, _ => false
/-- Equality of lists of entries. -/
def entriesEqv : List SEntry → List SEntry → Bool
  | [], [] => true
  | e :: es, e' :: es' => e.eqv e' && entriesEqv es es'
  | _, _ => false
/-- Every binding of the first map is in the second. -/
def bindingsEqv : List (Str × Option STerm) → List (Str × Option STerm) → Bool
  | [], _ => true
  | (k, t) :: bs, m =>
    (match lookupKey k m with
      | some t' => optTermEqv t t'
      | none => false) && bindingsEqv bs m
end

/-! ## Active contexts -/

/-- `Term`, crates/core/src/term.rs:9-19. -/
inductive CTerm where
  | null
  | id (i : Id)
  | keyword (k : Keyword)
  deriving DecidableEq, Repr

/-- `Term::is_keyword`, term.rs:39-41. -/
def CTerm.isKeyword : CTerm → Bool
  | .keyword _ => true
  | _ => false

/-- `Term::as_iri`, term.rs:44-49. -/
def CTerm.asIri : CTerm → Option Str
  | .id (.iri s) => some s
  | _ => none

/-- `Term::as_str` (with the vocabulary), term.rs:73-91. -/
def CTerm.str : CTerm → Str
  | .null => []
  | .id i => i.str
  | .keyword k => k.intoStr

/-- `Type`, crates/core/src/ty.rs:12-34. -/
inductive TypeMap where
  | id | json | none | vocab
  | iri (s : Str)
  deriving DecidableEq, Repr

/-- `TryFrom<Term> for Type`, ty.rs:112-125. -/
def TypeMap.ofTerm : CTerm → Option TypeMap
  | .keyword .id => some .id
  | .keyword .json => some .json
  | .keyword .none => some .none
  | .keyword .vocab => some .vocab
  | .id (.iri s) => some (.iri s)
  | _ => Option.none

/-- `NormalTermDefinition`, crates/core/src/context/definition.rs:528-564. -/
structure TermDef where
  value : Option CTerm := none
  prefix_ : Bool := false
  protected_ : Bool := false
  reverse : Bool := false
  baseUrl : Option Str := none
  context : Option SCtx := none
  container : Container := .none
  direction : Option (Option Direction) := none
  index : Option Str := none
  language : Option (Option Str) := none
  nest : Option SNest := none
  typ : Option TypeMap := none

/-- `PartialEq for ModuloProtected<&NormalTermDefinition>`, definition.rs:693-711. -/
def TermDef.eqModProtected (a b : TermDef) : Bool :=
  decide (a.prefix_ = b.prefix_) && decide (a.reverse = b.reverse) &&
  langOptOptEq a.language b.language && decide (a.direction = b.direction) &&
  decide (a.nest = b.nest) && decide (a.index = b.index) && decide (a.container = b.container) &&
  decide (a.baseUrl = b.baseUrl) && decide (a.value = b.value) && decide (a.typ = b.typ) &&
  optCtxEqv a.context b.context

/-- `Context`, crates/core/src/context/mod.rs:29-38. `defs` and `typeDef` are `definitions`
(definition.rs:72-75); a `TypeTermDefinition` (definition.rs:276-283) is its protected flag, since
its container is always `@set`. The cached inverse context is left out. -/
structure ACtx where
  originalBase : Option Str := none
  base : Option Str := none
  vocab : Option CTerm := none
  language : Option Str := none
  direction : Option Direction := none
  previous : Option ACtx := none
  defs : List (Str × TermDef) := []
  typeDef : Option Bool := none

instance : Inhabited ACtx := ⟨{}⟩

/-- `Context::new`, context/mod.rs:58-72. -/
def ACtx.new (base : Option Str) : ACtx := { originalBase := base, base := base }

/-- `Context::get_normal`, context/mod.rs:84-90. -/
def ACtx.getNormal (c : ACtx) (k : Str) : Option TermDef := lookupKey k c.defs

/-- `Context::get` followed by `value()`, context/mod.rs:75-82, definition.rs:115-126 and 400-405:
the outer option is whether there is a definition, the inner one its IRI mapping. -/
def ACtx.getValue (c : ACtx) (k : Str) : Option (Option CTerm) :=
  if k = "@type".toList then c.typeDef.map fun _ => none
  else (c.getNormal k).map (·.value)

/-- `Context::contains_term`, context/mod.rs:98-105. -/
def ACtx.containsTerm (c : ACtx) (k : Str) : Bool := (c.getValue k).isSome

/-- `Context::has_protected_items`, context/mod.rs:163-171. -/
def ACtx.hasProtected (c : ACtx) : Bool :=
  c.typeDef == some true || c.defs.any (·.2.protected_)

/-- `Context::set_normal` with a definition, context/mod.rs:183-190. -/
def ACtx.setNormal (c : ACtx) (k : Str) (d : TermDef) : ACtx := { c with defs := mapInsert k d c.defs }

/-- `Context::set_normal` without a definition, context/mod.rs:183-190. -/
def ACtx.eraseNormal (c : ACtx) (k : Str) : ACtx := { c with defs := mapErase k c.defs }

end JsonLd
