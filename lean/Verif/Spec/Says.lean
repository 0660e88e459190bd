import Verif.Spec.Process
/-!
# Specifications: what a term definition says
-/

namespace JsonLd.Spec

/-- The IRI mapping of a term without `@id` in the context `c`: that of its prefix with the rest appended; or
the term itself, if it is a blank node identifier or an IRI; or what the term, if it is a path, expands to
without its own definition; or the term appended to the vocabulary mapping. -/
inductive Implicit (E : IriEnv) (voc : Action) (c : ACtx) (k : Str) : CTerm → Prop
  | pre (p y v) : compactIri E k = some (p, y) → c.getValue p = some v →
      Implicit E voc c k (.id (.iri ((v.bind (·.asIri)).getD [] ++ y)))
  | blank : (∀ p y, compactIri E k = some (p, y) → c.getValue p = none) → E.isBlank k = true →
      Implicit E voc c k (.id (.blank k))
  | iri : (∀ p y, compactIri E k = some (p, y) → c.getValue p = none) → E.isBlank k = false →
      E.isRef k = true → E.isIri k = true → Implicit E voc c k (.id (.iri k))
  | path (i) : (∀ p y, compactIri E k = some (p, y) → c.getValue p = none) → E.isBlank k = false →
      E.isRef k = true → E.isIri k = false → '/' ∈ k →
      expandStr E (c.eraseNormal k) k false (some voc) = .ok (some (.id (.iri i))) → Implicit E voc c k (.id (.iri i))
  | vocab (v) : (∀ p y, compactIri E k = some (p, y) → c.getValue p = none) → E.isBlank k = false →
      (E.isRef k = true → E.isIri k = false ∧ '/' ∉ k) → c.vocab.bind (·.asIri) = some v →
      Implicit E voc c k (.id (.iri (v ++ k)))

/-- The IRI mapping `v` of the term `k` is what its `@id` entry says in the context `c`. -/
structure IdSays (E : IriEnv) (voc : Action) (x : SExp) (k : Str) (c : ACtx) (v : Option CTerm) : Prop where
  null : x.id = some none → v = none
  given : ∀ i, x.id = some (some i) → i ≠ .term k → expandIri E c (some i.expandable) false (some voc) = .ok v
  implicit : x.id = none ∨ x.id = some (some (.term k)) → ∃ w, v = some w ∧ Implicit E voc c k w

/-- The type `ty` is what the `@type` entry of the term says in the context `c`. -/
def TypeSays (E : IriEnv) (voc : Action) (x : SExp) (c : ACtx) (ty : Option TypeMap) : Prop :=
  (x.type = none ∧ ty = none) ∨
  ∃ s r, x.type = some s ∧ expandIri E c (s.map SType.expandable) false (some voc) = .ok r ∧
    ((r = none ∧ ty = none) ∨ ∃ w q, r = some w ∧ ty = some q ∧ TypeMap.ofTerm w = some q)

/-- IRI mappings which make a simple term a prefix. -/
def PrefixLike (w : CTerm) : Prop :=
  (∃ s, w = .id (.blank s)) ∨
  ∃ s c, w = .id (.iri s) ∧ s.getLast? = some c ∧ c ∈ [':', '/', '?', '#', '[', ']', '@']

/-- The definition `t` of the term `k` says what the binding `b` says, in the context `c`. The base URL of scoped
contexts is `base`; terms are protected if they say so, if `prot` holds and they say nothing, or if the protection
of a former definition is kept (`keep`). -/
structure TermSays (E : IriEnv) (voc : Action) (base : Option Str) (prot keep : Bool) (k : Str)
    (b : Option STerm) (c : ACtx) (t : TermDef) : Prop where
  id : IdSays E voc (STerm.exp b) k c t.value
  type : ∃ ty, TypeSays E voc (STerm.exp b) c ty ∧ (HasType t.container → ty = none → t.typ = some .id) ∧
    (¬ HasType t.container ∨ ty ≠ none → t.typ = ty)
  container : ((STerm.exp b).container = none ∧ t.container = .none) ∨
    ∃ q, (STerm.exp b).container = some q ∧ Container.fromSyntax q = some t.container
  index : t.index = (STerm.exp b).index
  context : t.context = (STerm.exp b).context
  nest : t.nest = (STerm.exp b).nest
  /-- Language and direction are ignored for terms with a type. -/
  language : t.language = if (STerm.exp b).type.isSome then none else (STerm.exp b).language
  direction : t.direction = if (STerm.exp b).type.isSome then none else (STerm.exp b).direction
  prefix_ : ∀ p, (STerm.exp b).prefix_ = some p → t.prefix_ = p
  simplePrefix : (STerm.exp b).prefix_ = none → (t.prefix_ = true ↔ STerm.isSimple b = true ∧ ':' ∉ k ∧ '/' ∉ k ∧
    (STerm.exp b).id ≠ some (some (.term k)) ∧ ∃ w, t.value = some w ∧ PrefixLike w)
  reverse : t.reverse = false
  baseUrl : t.baseUrl = if (STerm.exp b).context.isSome then base else none
  protected_ : t.protected_ = ((STerm.exp b).protected_.getD prot || keep)

/-- The same for a reverse property. -/
structure SaysReverse (E : IriEnv) (voc : Action) (prot : Bool) (x : SExp) (v : Str) (c : ACtx) (t : TermDef) :
    Prop where
  value : ∃ i, t.value = some (.id i) ∧ i.isValid = true ∧
    expandIri E c (some (Expandable.ofStr v)) false (some voc) = .ok (some (.id i))
  type : TypeSays E voc x c t.typ
  container : (x.container = none ∨ x.container = some none) ∧ t.container = .none ∨
    ∃ q, x.container = some (some q) ∧ Container.fromSyntax (some q) = some t.container ∧
      (t.container = .set ∨ t.container = .index)
  rest : t.index = none ∧ t.context = none ∧ t.nest = none ∧ t.language = none ∧ t.direction = none ∧
    t.prefix_ = false ∧ t.baseUrl = none
  reverse : t.reverse = true
  protected_ : t.protected_ = x.protected_.getD prot

/-- What becomes of the term `k` bound to `b` in the context `c`. -/
structure Outcome (E : IriEnv) (voc : Action) (base : Option Str) (prot keep : Bool) (k : Str) (b : Option STerm)
    (c : ACtx) : Prop where
  reverseIgnored : ∀ v, (STerm.exp b).reverse = some v → KeywordForm v → c.getNormal k = none
  reverse : ∀ v, (STerm.exp b).reverse = some v → ¬ KeywordForm v →
    ∃ t, c.getNormal k = some t ∧ SaysReverse E voc prot (STerm.exp b) v c t
  ignored : (STerm.exp b).reverse = none → ∀ s, (STerm.exp b).id = some (some (.term s)) → KeywordForm s → s ≠ k →
    c.getNormal k = none
  defined : (STerm.exp b).reverse = none →
    (∀ s, (STerm.exp b).id = some (some (.term s)) → KeywordForm s → s = k) →
    ∃ t, c.getNormal k = some t ∧ TermSays E voc base prot keep k b c t

/-- Is the definition of `k` in `c` protected? -/
def keepOf (c : ACtx) (k : Str) : Bool := ((c.getNormal k).map (·.protected_)).getD false

/-- What the context definition `d` imports. -/
inductive ImportOf (E : ProcEnv) (base : Option Str) (d : SDef) : Option SDef → Prop
  | nothing : d.import_ = none → ImportOf E base d none
  | context (r u i) : d.import_ = some r → resolveIri E.toIriEnv r base = some u →
      E.load u = .ok (.one (.defn i)) → ImportOf E base d (some i)

/-- The term `k` is bound to `b` in the definition `d`, or in the import `i` and not in `d`. -/
inductive BoundIn (d : SDef) (i : Option SDef) (k : Str) (b : Option STerm) : Prop
  | here : lookupKey k d.bindings = some b → BoundIn d i k b
  | imported (i') : i = some i' → lookupKey k d.bindings = none → lookupKey k i'.bindings = some b → BoundIn d i k b

/-- Terms are protected by default: by the definition `d`, or by its import `i` if `d` does not say. -/
def ProtectedBy (d : SDef) (i : Option SDef) : Bool :=
  match d.protected_, i with
  | some p, _ => p
  | none, some i => i.protected_.getD false
  | none, none => false

/-- The definition without its base URL and protection. -/
def forget (t : TermDef) : TermDef := { t with baseUrl := none, protected_ := false }

end JsonLd.Spec
