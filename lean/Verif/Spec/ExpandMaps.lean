import Verif.Model.Expand
import Mathlib.Data.List.Forall2
/-!
# Specifications for the expansion of the values of a term

The values of a property depend on the container of the term: they are an object with one property,
described here container by container.
-/

namespace JsonLd.Spec

/-- The key stands for the property `p` in the context, and the policy for invalid terms admits it. -/
structure IsProperty (E : XEnv) (c : ACtx) (key : Str) (p : Id) : Prop where
  expands : expandIri E.toIriEnv c (some (.ofStr key)) false (some E.opts.vocab) = .ok (some (.id p))
  absolute : ':' ∈ p.str
  admitted : p.isValid = true ∨ E.opts.invalid = .keep

/-- The node that has only the given values of a property. -/
def onlyProp (p : Id) (os : List Obj) : Expanded :=
  .object (.node (.mk none none none none none [(p, os)] none))

/-- The node that has only the given values of a reverse property. -/
def onlyReverse (p : Id) (ns : List Node) : Expanded :=
  .object (.node (.mk none none none none none [] (some [(p, ns)])))

/-- The values of a term are those of a property, or of a reverse property if the term is one; then they
must be nodes. -/
inductive OfTerm (d : TermDef) (p : Id) : List Obj → Expanded → Prop
  | forward (os) : d.reverse = false → OfTerm d p os (onlyProp p os)
  | backward (ns) : d.reverse = true → OfTerm d p (ns.map Obj.node) (onlyReverse p ns)

/-- The items of an array; another value is its own item. -/
def itemsIn : Json → List Json
  | .arr l => l
  | j => [j]

/-- The string with the given language and direction; a plain string if it has neither. -/
inductive Tagged (s : Str) : Option Str → Option Direction → Obj → Prop
  | plain : Tagged s none none (.value none (.literal (.str s) none))
  | tagged (x : LangString) : x.data = s → x.language ≠ none ∨ x.direction ≠ none →
      Tagged s x.language x.direction (.value none (.langString x))

/-- The direction of the strings of the term: its own, otherwise that of the context. -/
inductive DirectionOf (c : ACtx) (d : TermDef) : Option Direction → Prop
  | own (x) : d.direction = some x → DirectionOf c d x
  | default : d.direction = none → DirectionOf c d c.direction

/-- What an item of the entry `k` of a language map gives. -/
inductive LangMapItem (E : XEnv) (c : ACtx) (dir : Option Direction) (k : Str) : Json → List Obj → Prop
  | null : LangMapItem E c dir k .null []
  | none (s o) : expandIri E.toIriEnv c (some (.ofStr k)) false (some E.opts.vocab) =
      .ok (some (.keyword .none)) → Tagged s none dir o → LangMapItem E c dir k (.str s) [o]
  | lang (s o t) : expandIri E.toIriEnv c (some (.ofStr k)) false (some E.opts.vocab) = .ok t →
      t ≠ some (.keyword .none) → Tagged s (some k) dir o → LangMapItem E c dir k (.str s) [o]

/-- The values of a language map: strings, each in the language of its key. -/
def LanguageMap (E : XEnv) (c : ACtx) (d : TermDef) (m : List (Str × Json)) (os : List Obj) : Prop :=
  ∃ dir parts, DirectionOf c d dir ∧
    List.Forall₂ (fun x part => LangMapItem E c dir x.1 x.2 part)
      (m.flatMap fun e => (itemsIn e.2).map fun j => (e.1, j)) parts ∧
    os = parts.flatten

/-- What the key of a map stands for; nothing if it stands for `@none` or `null`. -/
inductive MapTerm (E : XEnv) (c : ACtx) (k : Str) : Option CTerm → Prop
  | none (t) : expandIri E.toIriEnv c (some (.ofStr k)) false (some E.opts.vocab) = .ok t →
      t = none ∨ t = some .null ∨ t = some (.keyword .none) → MapTerm E c k none
  | some (t) : expandIri E.toIriEnv c (some (.ofStr k)) false (some E.opts.vocab) = .ok (some t) →
      t ≠ .null → t ≠ .keyword .none → MapTerm E c k (some t)

/-- The values of a map: `ctx k` is the context for the values of the entry `k`, and `f k t o` what becomes
of an object `o` found there, if `t` is what the key stands for. -/
def MapOf (E : XEnv) (c : ACtx) (key : Str) (ctx : Str → ACtx → Prop)
    (f : Str → Option CTerm → Obj → List Obj → Prop) (m : List (Str × Json)) (os : List Obj) : Prop :=
  ∃ parts, List.Forall₂ (fun e part => ∃ c' t x ps, ctx e.1 c' ∧ MapTerm E c e.1 t ∧
      expandElement E c' (some key) e.2 true = .ok x ∧ List.Forall₂ (f e.1 t) x.toList ps ∧
      part = ps.flatten) m parts ∧
    os = parts.flatten

/-- The context to return to, if any. -/
inductive Returned (c : ACtx) : ACtx → Prop
  | stay : c.previous = none → Returned c c
  | back (p) : c.previous = some p → Returned c p

/-- The context for the values of the key `k` of a map by type. -/
inductive TypeContext (E : XEnv) (c : ACtx) (k : Str) : ACtx → Prop
  | plain (b) : Returned c b → (∀ d, b.get k = some d → d.context = none) → TypeContext E c k b
  | within (b d l c') : Returned c b → b.get k = some d → d.context = some l →
      E.process b l d.baseUrl { mode := E.opts.mode } = .ok c' → TypeContext E c k c'

/-- The key of an index map is the index of objects that have none. -/
inductive IndexedBy (k : Str) : Option CTerm → Obj → List Obj → Prop
  | none (o) : IndexedBy k none o [o]
  | kept (t o) : o.index ≠ .none → IndexedBy k (some t) o [o]
  | set (t o) : o.index = .none → IndexedBy k (some t) o [o.setIndex (some k)]

/-- The key of a map is the value of the index property `ik` of the nodes in it. (If `ik` stands for no
property, the object is dropped.) -/
inductive PropertyBy (E : XEnv) (c : ACtx) (ik k : Str) : Option CTerm → Obj → List Obj → Prop
  | none (o) : PropertyBy E c ik k none o [o]
  | added (t p r i id ty g inc ps rv) :
      expandLiteral E.toIriEnv E.opts.vocab c (some ik) (.str k) = .ok r →
      expandIri E.toIriEnv c (some (.ofStr ik)) false (some E.opts.vocab) = .ok (some (.id p)) →
      PropertyBy E c ik k (some t) (.node (.mk i id ty g inc ps rv))
        [.node (.mk i id ty g inc (insertAll p [r] ps) rv)]
  | dropped (t o r u) : expandLiteral E.toIriEnv E.opts.vocab c (some ik) (.str k) = .ok r →
      expandIri E.toIriEnv c (some (.ofStr ik)) false (some E.opts.vocab) = .ok u →
      (∀ p, u ≠ some (.id p)) → PropertyBy E c ik k (some t) o []

/-- The key of a map by identifier is the identifier of the nodes that have none. -/
inductive NamedBy (E : XEnv) (c : ACtx) (k : Str) : Option CTerm → Obj → List Obj → Prop
  | none (o) : NamedBy E c k none o [o]
  | other (t o) : (∀ n, o ≠ .node n) → NamedBy E c k (some t) o [o]
  | kept (t n) : n.id ≠ .none → NamedBy E c k (some t) (.node n) [.node n]
  | set (t u i ty g inc ps rv) : expandIri E.toIriEnv c (some (.ofStr k)) true none = .ok u →
      NamedBy E c k (some t) (.node (.mk i .none ty g inc ps rv))
        [.node (.mk i (u.bind nodeIdOfTerm) ty g inc ps rv)]

/-- The key of a map by type is the first type of the nodes in it. -/
inductive TypedBy : Option CTerm → Obj → List Obj → Prop
  | none (o) : TypedBy none o [o]
  | other (t o) : (∀ n, o ≠ .node n) → TypedBy (some (.id t)) o [o]
  | set (t i id ty g inc ps rv) : TypedBy (some (.id t)) (.node (.mk i id ty g inc ps rv))
      [.node (.mk i id (some (t :: ty.getD [])) g inc ps rv)]

/-- An object that is no graph is put in a graph. -/
inductive InGraph : Obj → Obj → Prop
  | graph (n : Node) : n.isGraph = true → InGraph (.node n) (.node n)
  | other (o : Obj) : (∀ n, o = .node n → n.isGraph = false) →
      InGraph o (.node (.mk none none none (some [o]) none [] none))

/-- What becomes of an object in a map of graphs. -/
def GraphBy (f : Option CTerm → Obj → List Obj → Prop) (t : Option CTerm) (o : Obj) (os : List Obj) : Prop :=
  ∃ o', InGraph o o' ∧ f t o' os

/-- How the key is defined; a key that is no term is as a term without any setting. -/
inductive Defined (c : ACtx) (key : Str) : TermDef → Prop
  | term (d) : c.get key = some d → Defined c key d
  | undefined : c.get key = none → Defined c key {}

/-- The result of the expansion of an object with one entry: nothing is left of it if its value is `null`. -/
inductive Kept (d : TermDef) (p : Id) : Expanded → Expanded → Prop
  | null : Kept d p .null .null
  | object (o x) : OfTerm d p [o] x → Kept d p (.object o) x
  | array (os x) : OfTerm d p os x → Kept d p (.array os) x

/-- The objects of the items of an array. -/
def ItemsOf (E : XEnv) (c : ACtx) (prop : Option Str) (fromMap : Bool) (l : List Json) (os : List Obj) : Prop :=
  ∃ ys : List Expanded, List.Forall₂ (fun j y => expandElement E c prop j fromMap = .ok y) l ys ∧
    os = ys.flatMap Expanded.toList

/-- The value of a term with a list container: a list object is kept, other objects make a list. -/
inductive AsList : Expanded → Obj → Prop
  | list (i l) : AsList (.object (.list i l)) (.list i l)
  | object (o) : (∀ i l, o ≠ .list i l) → AsList (.object o) (.list none [o])
  | array (os) : AsList (.array os) (.list none os)
  | null : AsList .null (.list none [])

/-- The container makes no map of this value. -/
def NoMap (k : Container) (v : Json) : Prop :=
  k = .none ∨ k = .set ∨
    ((k = .language ∨ k = .languageSet ∨ k = .index ∨ k = .indexSet ∨ k = .id ∨ k = .idSet ∨ k = .type ∨
      k = .setType) ∧ ∀ m, v ≠ .obj m)

/-- All keys stand for properties. -/
def PropertyKeys (E : XEnv) (c : ACtx) (m : List (Str × Json)) : Prop := ∀ e ∈ m, ∃ p, IsProperty E c e.1 p

/-- The term has no scoped context. -/
def Unscoped (c : ACtx) (key : Str) : Prop := ∀ d, c.get key = some d → d.context = none

/-- What the second node says is added to the first. (For nodes that have nothing but properties and reverse
properties.) -/
inductive PutTogether : Node → Node → Node → Prop
  | mk (ps ps' rv rv') : PutTogether (.mk none none none none none ps rv) (.mk none none none none none ps' rv')
      (.mk none none none none none (ps'.foldl (fun a e => insertAll e.1 e.2 a) ps)
        (match rv' with
          | none => rv
          | some r => some (r.foldl (fun a e => insertAll e.1 e.2 a) (rv.getD []))))

/-- Strings, numbers and booleans. -/
inductive ScalarAs : Json → Literal → Prop
  | str (s) : ScalarAs (.str s) (.str s)
  | num (n) : ScalarAs (.num n) (.num n)
  | bool (b) : ScalarAs (.bool b) (.bool b)

/-- The scoped contexts of the types, which are looked up in `c`, are applied in turn. They do not apply to the
values of the properties (`propagate`). -/
inductive Applied (E : XEnv) (c : ACtx) : List Str → ACtx → ACtx → Prop
  | nil (a) : Applied E c [] a a
  | plain (t l a b) : Unscoped c t → Applied E c l a b → Applied E c (t :: l) a b
  | within (t d x l a a' b) : c.get t = some d → d.context = some x →
      E.process a x d.baseUrl { mode := E.opts.mode, propagate := false } = .ok a' → Applied E c l a' b →
      Applied E c (t :: l) a b

/-- The string stands for the type in the context, and the policy for invalid terms admits it. -/
structure IsType (E : XEnv) (c : ACtx) (t : Str) (i : Id) : Prop where
  expands : expandIri E.toIriEnv c (some (.ofStr t)) true (some E.opts.vocab) = .ok (some (.id i))
  admitted : i.isValid = true ∨ E.opts.invalid = .keep

end JsonLd.Spec
