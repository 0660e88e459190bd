import Verif.Spec.Faults
/-!
# Documents that must be refused

Unlike in `Spec/Faults.lean`, where the places and faults are all those an error may come from, the places here
are certainly visited, in the contexts given, and what is wrong there certainly makes the expansion fail.
-/

namespace JsonLd.Spec

/-- There are two entries for the keyword. -/
def Twice (E : XEnv) (c : ACtx) (m : List (Str × Json)) (kw : Keyword) : Prop :=
  ∃ e e' l, m.Perm (e :: e' :: l) ∧ KeyMeans E c e.1 (.keyword kw) ∧ KeyMeans E c e'.1 (.keyword kw)

/-- The texts among the values. -/
def textsIn : List Json → List Str
  | [] => []
  | .str s :: l => s :: textsIn l
  | _ :: l => textsIn l

/-- The types of an object in the order in which their scoped contexts are applied: those of each key for
`@type` are sorted, and the keys are sorted. -/
def TypesInOrder (E : XEnv) (c : ACtx) (m : List (Str × Json)) (ts : List Str) : Prop :=
  ∃ es rest us, m.Perm (es ++ rest) ∧ (∀ e ∈ es, KeyMeans E c e.1 (.keyword .type)) ∧
    (∀ e ∈ rest, ¬ KeyMeans E c e.1 (.keyword .type)) ∧ es.Pairwise (fun a b => a.1 < b.1) ∧
    List.Forall₂ (fun e u => u.Pairwise (· ≤ ·) ∧ u.Perm (textsIn (itemsIn e.2))) es us ∧ ts = us.flatten

/-- The place below is visited with this context. -/
structure Visits (E : XEnv) (pl pl' : Place) : Prop where
  under : Under E pl pl'
  /-- The scoped contexts of the types are applied in order. -/
  types : ∀ c p m fm c' tsc, pl = .value c p (.obj m) fm → pl' = .object c' tsc p m false →
    ∃ ts, TypesInOrder E tsc m ts ∧ Applied E tsc ts tsc c'
  /-- Of several lists, or several sets, only the last is visited. -/
  single : ∀ c tsc p m, pl = .object c tsc p m false → ¬ Twice E c m .list ∧ ¬ Twice E c m .set

/-- The context `l` is applied to the context `a` at the place. -/
inductive Applies (E : XEnv) : Place → ACtx → SCtx → Option Str → Opts → Prop
  | entry {c p m fm v l a b} : StartsIn E c m fm a →
      Within E (p.bind c.get) { mode := E.opts.mode, override := true } a b →
      ("@context".toList, v) ∈ m → readCtx E.isRef v = .ok l →
      Applies E (.value c p (.obj m) fm) b l E.base { mode := E.opts.mode }
  | object {c k m fm d l a} : StartsIn E c m fm a → c.get k = some d → d.context = some l →
      Applies E (.value c (some k) (.obj m) fm) a l d.baseUrl { mode := E.opts.mode, override := true }
  | scalar {c k j x fm d l} : k ≠ "@graph".toList → ScalarAs j x → c.get k = some d → d.context = some l →
      Applies E (.value c (some k) j fm) c l d.baseUrl { mode := E.opts.mode }
  | type {c p m fm tsc ts t ts' a d l} : BeforeTypes E c p m fm tsc → TypesInOrder E tsc m (ts ++ t :: ts') →
      Applied E tsc ts tsc a → tsc.get t = some d → d.context = some l →
      Applies E (.value c p (.obj m) fm) a l d.baseUrl { mode := E.opts.mode, propagate := false }
  | nest {c tsc p m b k v d l} : (k, v) ∈ m → KeyMeans E c k (.keyword .nest) → itemsIn v ≠ [] → c.get k = some d →
      d.context = some l →
      Applies E (.object c tsc p m b) c l d.baseUrl { mode := E.opts.mode, override := true }
  | typeMap {c tsc p m b k m' q i w a d l} : (k, .obj m') ∈ m → KeyMeans E c k (.id q) → IsUsed E q → IsMap c k →
      HasContainer c k .type → (i, w) ∈ m' → Returned c a → a.get i = some d → d.context = some l →
      Applies E (.object c tsc p m b) a l d.baseUrl { mode := E.opts.mode }

/-- The text is expanded at the place in the context `a`, with the vocabulary. -/
inductive Resolved (E : XEnv) : Place → ACtx → Str → Bool → Prop
  | first {c p m fm e} : e ∈ m → Resolved E (.value c p (.obj m) fm) c e.1 false
  | typeKey {c p m fm e tsc} : BeforeTypes E c p m fm tsc → e ∈ m →
      Resolved E (.value c p (.obj m) fm) tsc e.1 false
  | key {c tsc p m b e} : e ∈ m → Resolved E (.object c tsc p m b) c e.1 false
  | type {c tsc p m b k v s} : (k, v) ∈ m → KeyMeans E c k (.keyword .type) → .str s ∈ itemsIn v →
      Resolved E (.object c tsc p m b) tsc s true
  | reverse {c tsc p m b k m' e} : (k, .obj m') ∈ m → KeyMeans E c k (.keyword .reverse) → e ∈ m' →
      Resolved E (.object c tsc p m b) c e.1 false
  | map {c tsc p m b k m' q e} : (k, .obj m') ∈ m → KeyMeans E c k (.id q) → IsUsed E q →
      IsMap c k → e ∈ m' → Resolved E (.object c tsc p m b) c e.1 false
  | value {c k s fm c' d} : k ≠ "@graph".toList → Within E (c.get k) { mode := E.opts.mode } c c' →
      c'.get k = some d → d.typ = some .vocab → Resolved E (.value c (some k) (.str s) fm) c' s true

/-- The value has a scalar that stands for no node. -/
inductive HasScalar (E : XEnv) (c : ACtx) (k : Str) : Json → Prop
  | scalar {j l c'} : ScalarAs j l → Within E (c.get k) { mode := E.opts.mode } c c' →
      ((∃ s, j = .str s) → ∀ d, c'.get k = some d → d.typ ≠ some .id ∧ d.typ ≠ some .vocab) → HasScalar E c k j
  | item {l x} : x ∈ l → HasScalar E c k x → HasScalar E c k (.arr l)

/-- The value object has a language or a direction. (The language `@none` is ignored.) -/
def HasTag (E : XEnv) (c : ACtx) (m : List (Str × Json)) : Prop :=
  ∃ k v, (k, v) ∈ m ∧
    (KeyMeans E c k (.keyword .language) ∧ v ≠ .str "@none".toList ∨ KeyMeans E c k (.keyword .direction))

/-- What is wrong with a value object. -/
inductive ValueWrong (E : XEnv) (c tsc : ACtx) (m : List (Str × Json)) : Prop
  | language {k v} : (k, v) ∈ m → KeyMeans E c k (.keyword .language) → (∀ s, v ≠ .str s) → ValueWrong E c tsc m
  | direction {k v} : (k, v) ∈ m → KeyMeans E c k (.keyword .direction) → v ≠ .str "ltr".toList →
      v ≠ .str "rtl".toList → ValueWrong E c tsc m
  | index {k v} : (k, v) ∈ m → KeyMeans E c k (.keyword .index) → (∀ s, v ≠ .str s) → ValueWrong E c tsc m
  | type {k v} : (k, v) ∈ m → KeyMeans E c k (.keyword .type) → (∀ s, v ≠ .str s) → ValueWrong E c tsc m
  | typeName {k s t} : (k, .str s) ∈ m → KeyMeans E c k (.keyword .type) → TypeMeans E tsc s t →
      t ≠ some (.keyword .json) → (∀ i, t ≠ some (.id (.iri i))) → ValueWrong E c tsc m
  | key {k v t} : (k, v) ∈ m → KeyMeans E c k t → (∀ kw ∈ valueKeywords, t ≠ .keyword kw) → ValueWrong E c tsc m
  /-- A typed value has no language and no direction. -/
  | typeAndTag {k v k' v'} : (k, v) ∈ m → KeyMeans E c k (.keyword .type) → HasTag E c m →
      ¬ Twice E c m .value → (k', v') ∈ m → KeyMeans E c k' (.keyword .value) → v' ≠ .null → ValueWrong E c tsc m
  /-- Only strings have a language or a direction. -/
  | tagged {k v} : HasTag E c m → ¬ Twice E c m .value → (k, v) ∈ m → KeyMeans E c k (.keyword .value) →
      v ≠ .null → (∀ s, v ≠ .str s) → ValueWrong E c tsc m
  /-- Only JSON literals are arrays or objects. -/
  | value {k v} : ¬ Twice E c m .value → (k, v) ∈ m → KeyMeans E c k (.keyword .value) →
      ((∃ l, v = .arr l) ∨ ∃ m', v = .obj m') →
      (∀ e ∈ m, ¬ KeyMeans E c e.1 (.keyword .type) ∧ ¬ KeyMeans E tsc e.1 (.keyword .type)) → ValueWrong E c tsc m

/-- What is wrong at a place. -/
inductive Wrong (E : XEnv) : Place → Prop
  | context {c p m fm v x} : ("@context".toList, v) ∈ m → readCtx E.isRef v = .error x →
      Wrong E (.value c p (.obj m) fm)
  | contexts {c p m fm v w l} : m.Perm (("@context".toList, v) :: ("@context".toList, w) :: l) →
      Wrong E (.value c p (.obj m) fm)
  | process {pl a l b o x} : Applies E pl a l b o → E.process a l b o = .error x → Wrong E pl
  | vocab {pl a s b u} : Resolved E pl a s b →
      expandIri E.toIriEnv a (some (.ofStr s)) b (some E.opts.vocab) = .error u → Wrong E pl
  | json {c k j l fm c'} : k ≠ "@graph".toList → ScalarAs j l → Within E (c.get k) { mode := E.opts.mode } c c' →
      IsJson c' k → Wrong E (.value c (some k) j fm)
  | key {c tsc p m b k v i} : (k, v) ∈ m → KeyMeans E c k (.id i) →
      (E.opts.invalid = .reject ∧ i.isValid = false) ∨ (E.opts.allowUndefined = false ∧ ':' ∉ i.str) →
      Wrong E (.object c tsc p m b)
  | reverseKey {c tsc p m b k m' k' v t} : (k, .obj m') ∈ m → KeyMeans E c k (.keyword .reverse) →
      (k', v) ∈ m' → expandIri E.toIriEnv c (some (.ofStr k')) false (some E.opts.vocab) = .ok t →
      E.opts.invalid = .reject ∨ E.opts.allowUndefined = false →
      (∀ i, t = some (.id i) → ':' ∉ i.str ∨ (E.opts.invalid = .reject ∧ i.isValid = false)) →
      Wrong E (.object c tsc p m b)
  | id {c tsc p m b k v} : (k, v) ∈ m → KeyMeans E c k (.keyword .id) → (∀ s, v ≠ .str s) →
      Wrong E (.object c tsc p m b)
  /-- The index of a set object is not looked at. -/
  | index {c tsc p m b k v} : (k, v) ∈ m → KeyMeans E c k (.keyword .index) → (∀ s, v ≠ .str s) →
      b = true ∨ (∀ e ∈ m, ¬ KeyMeans E c e.1 (.keyword .set)) → Wrong E (.object c tsc p m b)
  | type {c tsc p m b k v x} : (k, v) ∈ m → KeyMeans E c k (.keyword .type) → x ∈ itemsIn v → (∀ s, x ≠ .str s) →
      Wrong E (.object c tsc p m b)
  | typeName {c tsc p m b k v s t} : (k, v) ∈ m → KeyMeans E c k (.keyword .type) → .str s ∈ itemsIn v →
      TypeMeans E tsc s (some t) → (∀ i, t = .id i → E.opts.invalid = .reject ∧ i.isValid = false) →
      t ≠ .keyword .json ∨ b = true ∨ (∀ e ∈ m, ¬ KeyMeans E c e.1 (.keyword .value)) → Wrong E (.object c tsc p m b)
  | reverse {c tsc p m b k v} : (k, v) ∈ m → KeyMeans E c k (.keyword .reverse) → (∀ m', v ≠ .obj m') →
      Wrong E (.object c tsc p m b)
  | nest {c tsc p m b k v x} : (k, v) ∈ m → KeyMeans E c k (.keyword .nest) → x ∈ itemsIn v →
      (∀ m', x ≠ .obj m') → Wrong E (.object c tsc p m b)
  | nestedValue {c tsc p m k v} : (k, v) ∈ m → KeyMeans E c k (.keyword .value) → Wrong E (.object c tsc p m true)
  | included {c tsc p m b k v} : (k, v) ∈ m → KeyMeans E c k (.keyword .included) → E.opts.mode = .v11 →
      HasScalar E c "@included".toList v → Wrong E (.object c tsc p m b)
  | graphs {c tsc p m b} : Twice E c m .graph → Wrong E (.object c tsc p m b)
  | ids {c tsc p m b e e' l s s' i i'} : m.Perm (e :: e' :: l) → KeyMeans E c e.1 (.keyword .id) →
      KeyMeans E c e'.1 (.keyword .id) → e.2 = .str s → e'.2 = .str s' →
      expandIri E.toIriEnv c (some (.ofStr s)) true none = .ok (some (.id i)) →
      expandIri E.toIriEnv c (some (.ofStr s')) true none = .ok (some (.id i')) → Wrong E (.object c tsc p m b)
  | reverseKeyword {c tsc p m b k m' k' v kw} : (k, .obj m') ∈ m → KeyMeans E c k (.keyword .reverse) →
      (k', v) ∈ m' → KeyMeans E c k' (.keyword kw) → Wrong E (.object c tsc p m b)
  | reverseValue {c tsc p m b k m' k' v q} : (k, .obj m') ∈ m → KeyMeans E c k (.keyword .reverse) →
      (k', v) ∈ m' → KeyMeans E c k' (.id q) → IsUsed E q → (∀ d, c.get k' = some d → d.reverse = false) →
      k' ≠ "@graph".toList → HasScalar E c k' v → Wrong E (.object c tsc p m b)
  | reverseTerm {c tsc p m b k v q d} : (k, v) ∈ m → KeyMeans E c k (.id q) → IsUsed E q → c.get k = some d →
      d.reverse = true → ¬ HasContainer c k .graph → k ≠ "@graph".toList → HasScalar E c k v →
      Wrong E (.object c tsc p m b)
  | languageMap {c tsc p m b k m' q l v x} : (k, .obj m') ∈ m → KeyMeans E c k (.id q) → IsUsed E q →
      HasContainer c k .language → ¬ IsJson c k → (l, v) ∈ m' → x ∈ itemsIn v → x ≠ .null → (∀ s, x ≠ .str s) →
      Wrong E (.object c tsc p m b)
  | list {c tsc p m k v k' v' t} : p ≠ none → p ≠ some "@graph".toList → (k, v) ∈ m →
      KeyMeans E c k (.keyword .list) → (k', v') ∈ m →
      KeyMeans E c k' t → t ≠ .keyword .list → t ≠ .keyword .index → Wrong E (.object c tsc p m false)
  | set {c tsc p m k v k' v' t} : (k, v) ∈ m → KeyMeans E c k (.keyword .set) → (k', v') ∈ m →
      KeyMeans E c k' t → t ≠ .keyword .set → t ≠ .keyword .index → Wrong E (.object c tsc p m false)
  | value {c tsc p m k v} : (k, v) ∈ m → KeyMeans E c k (.keyword .value) → ValueWrong E c tsc m →
      Wrong E (.object c tsc p m false)

/-- Something is wrong in the document, at a place that is visited. -/
def Invalid (E : XEnv) (c : ACtx) (j : Json) : Prop :=
  ∃ pl, Relation.ReflTransGen (Visits E) (.value c none j false) pl ∧ Wrong E pl

end JsonLd.Spec
