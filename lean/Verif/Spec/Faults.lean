import Verif.Spec.ExpandMaps
import Verif.Spec.Expand
import Mathlib.Logic.Relation
/-!
# Faults of documents

What is wrong with a document that cannot be expanded, where, and with which error it is reported.
-/

namespace JsonLd.Spec

/-- The key stands for `t` in the context `c`. -/
def KeyMeans (E : XEnv) (c : ACtx) (k : Str) (t : CTerm) : Prop :=
  expandIri E.toIriEnv c (some (.ofStr k)) false (some E.opts.vocab) = .ok (some t)

/-! ## Active contexts -/

/-- The context in which an object is read, before any other is applied: a context that does not propagate is
left, except in values of maps, in value objects and in node references. -/
inductive StartsIn (E : XEnv) (c : ACtx) (m : List (Str × Json)) (fromMap : Bool) : ACtx → Prop
  | stay : c.previous = none ∨ fromMap = true ∨ (∃ e ∈ m, KeyMeans E c e.1 (.keyword .value)) ∨
      (∃ e, m = [e] ∧ KeyMeans E c e.1 (.keyword .id)) → StartsIn E c m fromMap c
  | back (p) : c.previous = some p → fromMap = false → (∀ e ∈ m, ¬ KeyMeans E c e.1 (.keyword .value)) →
      (∀ e, m = [e] → ¬ KeyMeans E c e.1 (.keyword .id)) → StartsIn E c m fromMap p

/-- The scoped context of a term is applied to the context `a`. -/
inductive Within (E : XEnv) (d : Option TermDef) (o : Opts) (a : ACtx) : ACtx → Prop
  | plain : (∀ t, d = some t → t.context = none) → Within E d o a a
  | term (t l b) : d = some t → t.context = some l → E.process a l t.baseUrl o = .ok b → Within E d o a b

/-- The local context of an object is applied to the context `a`. -/
inductive Locally (E : XEnv) (m : List (Str × Json)) (a : ACtx) : ACtx → Prop
  | plain : (∀ v, ("@context".toList, v) ∉ m) → Locally E m a a
  | entry (v l b) : ("@context".toList, v) ∈ m → readCtx E.isRef v = .ok l →
      E.process a l E.base { mode := E.opts.mode } = .ok b → Locally E m a b

/-- The context of an object before the scoped contexts of its types apply; `prop` is the property it is a
value of. -/
def BeforeTypes (E : XEnv) (c : ACtx) (prop : Option Str) (m : List (Str × Json)) (fromMap : Bool)
    (tsc : ACtx) : Prop :=
  ∃ a b, StartsIn E c m fromMap a ∧
    Within E (prop.bind c.get) { mode := E.opts.mode, override := true } a b ∧ Locally E m b tsc

/-- The string is written as a type in the object. -/
def WrittenType (E : XEnv) (c : ACtx) (m : List (Str × Json)) (t : Str) : Prop :=
  ∃ k v, (k, v) ∈ m ∧ KeyMeans E c k (.keyword .type) ∧ .str t ∈ itemsIn v

/-- The context of the values of the entry `k` of a map. -/
inductive MapContext (E : XEnv) (c : ACtx) (cm : Container) (k : Str) : ACtx → Prop
  | plain : ContainerKind.type ∉ cm.asSlice → ContainerKind.id ∉ cm.asSlice → MapContext E c cm k c
  | id (b) : ContainerKind.type ∉ cm.asSlice → ContainerKind.id ∈ cm.asSlice → Returned c b →
      MapContext E c cm k b
  | type (b) : ContainerKind.type ∈ cm.asSlice → TypeContext E c k b → MapContext E c cm k b

/-! ## Places -/

/-- A place in a document: a value, with the active context, the property it is a value of, and whether it is
a value of a map; or an object, with the context for its keys, the one for its types, the property, and
whether it is a value of `@nest`. -/
inductive Place where
  | value (c : ACtx) (prop : Option Str) (j : Json) (fromMap : Bool)
  | object (c tsc : ACtx) (prop : Option Str) (m : List (Str × Json)) (nested : Bool)

/-- The values of this property are not looked into: they are JSON literals. -/
def IsJson (c : ACtx) (k : Str) : Prop := ∃ d, c.get k = some d ∧ d.typ = some .json

/-- The container of the term says that this kind of map is expected. -/
def HasContainer (c : ACtx) (k : Str) (x : ContainerKind) : Prop :=
  ∃ d, c.get k = some d ∧ x ∈ d.container.asSlice

/-- The value of the term is a map by index, by type or by identifier. -/
def IsMap (c : ACtx) (k : Str) : Prop :=
  ¬ IsJson c k ∧ ¬ HasContainer c k .language ∧
    (HasContainer c k .index ∨ HasContainer c k .type ∨ HasContainer c k .id)

/-- The property is not ignored: it contains a colon, and is valid unless invalid ones are kept. -/
def IsUsed (E : XEnv) (q : Id) : Prop := ':' ∈ q.str ∧ (q.isValid = false → E.opts.invalid = .keep)

/-- From a place to the places directly below. -/
inductive Under (E : XEnv) : Place → Place → Prop
  /-- The items of an array. -/
  | item {c p l fm x} : x ∈ l → Under E (.value c p (.arr l) fm) (.value c p x fm)
  /-- An object, with its context. -/
  | object {c p m fm tsc ts c'} : BeforeTypes E c p m fm tsc → (∀ t ∈ ts, WrittenType E tsc m t) →
      Applied E tsc ts tsc c' → Under E (.value c p (.obj m) fm) (.object c' tsc p m false)
  /-- The value of a property. -/
  | property {c tsc p m b k v q} : (k, v) ∈ m → KeyMeans E c k (.id q) → IsUsed E q → ¬ IsJson c k →
      (∀ m', v = .obj m' → ¬ IsMap c k ∧ ¬ HasContainer c k .language) →
      Under E (.object c tsc p m b) (.value c (some k) v false)
  /-- A value of a map. -/
  | map {c tsc p m b k m' q d i w c'} : (k, .obj m') ∈ m → KeyMeans E c k (.id q) → IsUsed E q →
      c.get k = some d → IsMap c k → (i, w) ∈ m' → MapContext E c d.container i c' →
      Under E (.object c tsc p m b) (.value c' (some k) w true)
  | graph {c tsc p m b k v} : (k, v) ∈ m → KeyMeans E c k (.keyword .graph) →
      Under E (.object c tsc p m b) (.value c (some "@graph".toList) v false)
  | included {c tsc p m b k v} : (k, v) ∈ m → KeyMeans E c k (.keyword .included) → E.opts.mode = .v11 →
      Under E (.object c tsc p m b) (.value c (some "@included".toList) v false)
  | list {c tsc p m k v x} : p ≠ none → p ≠ some "@graph".toList → (k, v) ∈ m →
      KeyMeans E c k (.keyword .list) → x ∈ itemsIn v →
      Under E (.object c tsc p m false) (.value c p x false)
  | set {c tsc p m k v} : (k, v) ∈ m → KeyMeans E c k (.keyword .set) →
      Under E (.object c tsc p m false) (.value c p v false)
  | reverse {c tsc p m b k m' k' v q} : (k, .obj m') ∈ m → KeyMeans E c k (.keyword .reverse) →
      (k', v) ∈ m' → KeyMeans E c k' (.id q) → IsUsed E q →
      Under E (.object c tsc p m b) (.value c (some k') v false)
  | nest {c tsc p m b k v m' c'} : (k, v) ∈ m → KeyMeans E c k (.keyword .nest) → .obj m' ∈ itemsIn v →
      Within E (c.get k) { mode := E.opts.mode, override := true } c c' →
      Under E (.object c tsc p m b) (.object c' tsc p m' true)

/-- The context `l` is written at the place, and has to be applied to the context `a`: it is the local context of
an object, or the scoped context of a term used there. -/
inductive ContextAt (E : XEnv) : Place → ACtx → SCtx → Option Str → Opts → Prop
  | entry {c p m fm v l a b} : StartsIn E c m fm a →
      Within E (p.bind c.get) { mode := E.opts.mode, override := true } a b →
      ("@context".toList, v) ∈ m → readCtx E.isRef v = .ok l →
      ContextAt E (.value c p (.obj m) fm) b l E.base { mode := E.opts.mode }
  | object {c k m fm d l a} : StartsIn E c m fm a → c.get k = some d → d.context = some l →
      ContextAt E (.value c (some k) (.obj m) fm) a l d.baseUrl { mode := E.opts.mode, override := true }
  | scalar {c k j x fm d l} : ScalarAs j x → c.get k = some d → d.context = some l →
      ContextAt E (.value c (some k) j fm) c l d.baseUrl { mode := E.opts.mode }
  | type {c p m fm tsc ts t a d l} : BeforeTypes E c p m fm tsc → (∀ t ∈ ts, WrittenType E tsc m t) →
      Applied E tsc ts tsc a → WrittenType E tsc m t → tsc.get t = some d → d.context = some l →
      ContextAt E (.value c p (.obj m) fm) a l d.baseUrl { mode := E.opts.mode, propagate := false }
  | nest {c tsc p m b k v d l} : (k, v) ∈ m → KeyMeans E c k (.keyword .nest) → c.get k = some d →
      d.context = some l →
      ContextAt E (.object c tsc p m b) c l d.baseUrl { mode := E.opts.mode, override := true }
  | typeMap {c tsc p m b k m' q i w a d l} : (k, .obj m') ∈ m → KeyMeans E c k (.id q) → IsUsed E q → IsMap c k →
      HasContainer c k .type → (i, w) ∈ m' → Returned c a → a.get i = some d → d.context = some l →
      ContextAt E (.object c tsc p m b) a l d.baseUrl { mode := E.opts.mode }

/-- The text at the place is expanded in the context `a`, with the vocabulary; as a type, if the flag is set. -/
inductive Looked (E : XEnv) : Place → ACtx → Str → Bool → Prop
  | first {c p m fm e} : e ∈ m → Looked E (.value c p (.obj m) fm) c e.1 false
  | typeKey {c p m fm e tsc} : BeforeTypes E c p m fm tsc → e ∈ m →
      Looked E (.value c p (.obj m) fm) tsc e.1 false
  | key {c tsc p m b e} : e ∈ m → Looked E (.object c tsc p m b) c e.1 false
  | inputType {c tsc p m t} : WrittenType E tsc m t → Looked E (.object c tsc p m false) c t false
  | type {c tsc p m b k v s} : (k, v) ∈ m → KeyMeans E c k (.keyword .type) → .str s ∈ itemsIn v →
      Looked E (.object c tsc p m b) tsc s true
  | reverse {c tsc p m b k m' e} : (k, .obj m') ∈ m → KeyMeans E c k (.keyword .reverse) → e ∈ m' →
      Looked E (.object c tsc p m b) c e.1 false
  | map {c tsc p m b k m' q e} : (k, .obj m') ∈ m → KeyMeans E c k (.id q) → IsUsed E q →
      (¬ IsJson c k ∧ HasContainer c k .language) ∨ IsMap c k → e ∈ m' → Looked E (.object c tsc p m b) c e.1 false
  | index {c tsc p m b k m' q d x} : (k, .obj m') ∈ m → KeyMeans E c k (.id q) → IsUsed E q → IsMap c k →
      c.get k = some d → ContainerKind.index ∈ d.container.asSlice → d.index = some x →
      Looked E (.object c tsc p m b) c x false

/-! ## Values that are not nodes -/

/-- The value has an item that is a value object, a list object or a scalar that stands for no node. -/
inductive NonNode (E : XEnv) : Place → Prop
  | scalar {c k j l fm c'} : ScalarAs j l → Within E (c.get k) { mode := E.opts.mode } c c' →
      ((∃ s, j = .str s) → ∀ d, c'.get k = some d → d.typ ≠ some .id ∧ d.typ ≠ some .vocab) →
      NonNode E (.value c (some k) j fm)
  | array {c k l fm} : HasContainer c k .list → NonNode E (.value c (some k) (.arr l) fm)
  | item {c p l fm x} : x ∈ l → NonNode E (.value c p x fm) → NonNode E (.value c p (.arr l) fm)
  | value {c p m fm c' tsc k v} : Under E (.value c p (.obj m) fm) (.object c' tsc p m false) → (k, v) ∈ m →
      KeyMeans E c' k (.keyword .value) → NonNode E (.value c p (.obj m) fm)
  | list {c p m fm c' tsc k v} : p ≠ none → p ≠ some "@graph".toList →
      Under E (.value c p (.obj m) fm) (.object c' tsc p m false) → (k, v) ∈ m → KeyMeans E c' k (.keyword .list) →
      NonNode E (.value c p (.obj m) fm)
  | set {c p m fm c' tsc k v} : Under E (.value c p (.obj m) fm) (.object c' tsc p m false) → (k, v) ∈ m →
      KeyMeans E c' k (.keyword .set) → NonNode E (.value c' p v false) → NonNode E (.value c p (.obj m) fm)

/-- The value of the term has an item that is not a node. -/
inductive NonNodeValue (E : XEnv) (c : ACtx) (k : Str) (v : Json) : Prop
  | json : IsJson c k → NonNodeValue E c k v
  | language : HasContainer c k .language → NonNodeValue E c k v
  | list : HasContainer c k .list → NonNodeValue E c k v
  | map {m d i w c'} : v = .obj m → c.get k = some d → (i, w) ∈ m → MapContext E c d.container i c' →
      NonNode E (.value c' (some k) w true) → NonNodeValue E c k v
  | plain : NonNode E (.value c (some k) v false) → NonNodeValue E c k v

/-! ## Keywords -/

/-- The object, or one of its nested objects, has an entry for the keyword. Reverse terms are entries for
`@reverse`. -/
inductive HasEntry (E : XEnv) (kw : Keyword) : ACtx → List (Str × Json) → Prop
  | here {c m k v} : (k, v) ∈ m → KeyMeans E c k (.keyword kw) → HasEntry E kw c m
  | reverse {c m k v d} : (k, v) ∈ m → c.get k = some d → d.reverse = true → kw = .reverse → HasEntry E kw c m
  | nest {c m k v m' c'} : (k, v) ∈ m → KeyMeans E c k (.keyword .nest) → .obj m' ∈ itemsIn v →
      Within E (c.get k) { mode := E.opts.mode, override := true } c c' → HasEntry E kw c' m' → HasEntry E kw c m

/-- One of the nested objects among the items has an entry for the keyword. -/
def NestHasEntry (E : XEnv) (kw : Keyword) (c : ACtx) (k : Str) (l : List Json) : Prop :=
  ∃ m c', .obj m ∈ l ∧ Within E (c.get k) { mode := E.opts.mode, override := true } c c' ∧ HasEntry E kw c' m

/-- The object, together with its nested objects, has two entries for the keyword. -/
inductive HasTwo (E : XEnv) (kw : Keyword) : ACtx → List (Str × Json) → Prop
  | entries {c m e e' l} : m.Perm (e :: e' :: l) → HasEntry E kw c [e] → HasEntry E kw c [e'] → HasTwo E kw c m
  | items {c m k v l₁ l₂} : (k, v) ∈ m → KeyMeans E c k (.keyword .nest) → itemsIn v = l₁ ++ l₂ →
      NestHasEntry E kw c k l₁ → NestHasEntry E kw c k l₂ → HasTwo E kw c m
  | nest {c m k v m' c'} : (k, v) ∈ m → KeyMeans E c k (.keyword .nest) → .obj m' ∈ itemsIn v →
      Within E (c.get k) { mode := E.opts.mode, override := true } c c' → HasTwo E kw c' m' → HasTwo E kw c m

/-- The keywords a node may have only once. -/
def Single (E : XEnv) (kw : Keyword) : Prop := E.opts.mode = .v10 ∨ kw ≠ .included ∧ kw ≠ .type

/-! ## Value objects -/

/-- The type of a value object is the text `s` means. -/
def TypeMeans (E : XEnv) (tsc : ACtx) (s : Str) (t : Option CTerm) : Prop :=
  expandIri E.toIriEnv tsc (some (.ofStr s)) true (some E.opts.vocab) = .ok t

/-- What is wrong with a value object. -/
inductive ValueFault (E : XEnv) (c tsc : ACtx) (m : List (Str × Json)) : ValueErr → Prop
  | language {k v} : (k, v) ∈ m → KeyMeans E c k (.keyword .language) → (∀ s, v ≠ .str s) →
      ValueFault E c tsc m .languageTaggedString
  | direction {k v} : (k, v) ∈ m → KeyMeans E c k (.keyword .direction) → v ≠ .str "ltr".toList →
      v ≠ .str "rtl".toList → ValueFault E c tsc m .baseDirection
  | index {k v} : (k, v) ∈ m → KeyMeans E c k (.keyword .index) → (∀ s, v ≠ .str s) →
      ValueFault E c tsc m .indexValue
  | type {k v} : (k, v) ∈ m → KeyMeans E c k (.keyword .type) → (∀ s, v ≠ .str s) →
      ValueFault E c tsc m .typedValue
  | typeName {k s t} : (k, .str s) ∈ m → KeyMeans E c k (.keyword .type) → TypeMeans E tsc s t →
      t ≠ some (.keyword .json) → (∀ i, t ≠ some (.id (.iri i))) → ValueFault E c tsc m .typedValue
  | key {k v t} : (k, v) ∈ m → KeyMeans E c k t → (∀ kw ∈ valueKeywords, t ≠ .keyword kw) →
      ValueFault E c tsc m .valueObject
  | typeAndTag {k v k' v'} : (k, v) ∈ m → KeyMeans E c k (.keyword .type) → (k', v') ∈ m →
      KeyMeans E c k' (.keyword .language) ∨ KeyMeans E c k' (.keyword .direction) →
      ValueFault E c tsc m .valueObject
  | json {t k v} : WrittenType E tsc m t → KeyMeans E c t (.keyword .json) → (k, v) ∈ m →
      KeyMeans E c k (.keyword .language) ∨ KeyMeans E c k (.keyword .direction) →
      ValueFault E c tsc m .valueObject
  | value {k v} : (k, v) ∈ m → KeyMeans E c k (.keyword .value) → ((∃ l, v = .arr l) ∨ ∃ m', v = .obj m') →
      ((∀ k' s, (k', .str s) ∈ m → KeyMeans E c k' (.keyword .type) →
          ¬ TypeMeans E tsc s (some (.keyword .json))) ∨
        ∃ k' s i, (k', .str s) ∈ m ∧ KeyMeans E c k' (.keyword .type) ∧ TypeMeans E tsc s (some (.id (.iri i)))) →
      ValueFault E c tsc m .valueObjectValue
  | tagged {k v k' v'} : (k, v) ∈ m → KeyMeans E c k (.keyword .value) → (∀ s, v ≠ .str s) → (k', v') ∈ m →
      KeyMeans E c k' (.keyword .language) ∨ KeyMeans E c k' (.keyword .direction) →
      ValueFault E c tsc m .languageTaggedValue
  | vocab {k s u} : (k, .str s) ∈ m → KeyMeans E c k (.keyword .type) →
      expandIri E.toIriEnv tsc (some (.ofStr s)) true (some E.opts.vocab) = .error u →
      ValueFault E c tsc m .forbiddenVocab

/-! ## Faults -/

/-- What is wrong at a place, and the error that tells it. -/
inductive Fault (E : XEnv) : Place → XErr → Prop
  /-- The local context cannot be read. -/
  | context {c p m fm v x} : ("@context".toList, v) ∈ m → readCtx E.isRef v = .error x →
      Fault E (.value c p (.obj m) fm) (.contextSyntax x)
  /-- There are two local contexts. -/
  | contexts {c p m fm v w l} : m.Perm (("@context".toList, v) :: ("@context".toList, w) :: l) →
      Fault E (.value c p (.obj m) fm) (.duplicateKey "@context".toList)
  /-- A context cannot be processed. -/
  | process {pl a l b o x} : ContextAt E pl a l b o → E.process a l b o = .error x → Fault E pl (.contextProcessing x)
  /-- The policy forbids the use of `@vocab`. -/
  | vocab {pl a s b u} : Looked E pl a s b →
      expandIri E.toIriEnv a (some (.ofStr s)) b (some E.opts.vocab) = .error u → Fault E pl .forbiddenVocab
  | vocabValue {c k s fm c' d u} : Within E (c.get k) { mode := E.opts.mode } c c' → c'.get k = some d →
      d.typ = some .vocab → expandIri E.toIriEnv c' (some (.ofStr s)) true (some E.opts.vocab) = .error u →
      Fault E (.value c (some k) (.str s) fm) (.literal .forbiddenVocab)
  | vocabIndex {c tsc p m b k m' q d x d' e u} : (k, .obj m') ∈ m → KeyMeans E c k (.id q) → IsUsed E q →
      IsMap c k → c.get k = some d → ContainerKind.index ∈ d.container.asSlice → d.index = some x →
      c.get x = some d' → d'.typ = some .vocab → e ∈ m' →
      expandIri E.toIriEnv c (some (.ofStr e.1)) true (some E.opts.vocab) = .error u →
      Fault E (.object c tsc p m b) (.literal .forbiddenVocab)
  /-- The policy forbids invalid or undefined keys. -/
  | key {c tsc p m b k v i} : (k, v) ∈ m → KeyMeans E c k (.id i) →
      (E.opts.invalid = .reject ∧ i.isValid = false) ∨ (E.opts.allowUndefined = false ∧ ':' ∉ i.str) →
      Fault E (.object c tsc p m b) (.keyExpansionFailed i.str)
  | reverseKey {c tsc p m b k m' k' v t} : (k, .obj m') ∈ m → KeyMeans E c k (.keyword .reverse) →
      (k', v) ∈ m' → expandIri E.toIriEnv c (some (.ofStr k')) false (some E.opts.vocab) = .ok t →
      E.opts.invalid = .reject ∨ E.opts.allowUndefined = false → (∀ kw, t ≠ some (.keyword kw)) →
      (∀ i, t = some (.id i) → ':' ∉ i.str ∨ (E.opts.invalid = .reject ∧ i.isValid = false)) →
      Fault E (.object c tsc p m b) (.keyExpansionFailed k')
  /-- Values of keywords. -/
  | id {c tsc p m b k v} : (k, v) ∈ m → KeyMeans E c k (.keyword .id) → (∀ s, v ≠ .str s) →
      Fault E (.object c tsc p m b) .invalidIdValue
  | index {c tsc p m b k v} : (k, v) ∈ m → KeyMeans E c k (.keyword .index) → (∀ s, v ≠ .str s) →
      Fault E (.object c tsc p m b) .invalidIndexValue
  | type {c tsc p m b k v x} : (k, v) ∈ m → KeyMeans E c k (.keyword .type) → x ∈ itemsIn v → (∀ s, x ≠ .str s) →
      Fault E (.object c tsc p m b) .invalidTypeValue
  | typeName {c tsc p m b k v s t} : (k, v) ∈ m → KeyMeans E c k (.keyword .type) → .str s ∈ itemsIn v →
      TypeMeans E tsc s (some t) → (∀ i, t = .id i → E.opts.invalid = .reject ∧ i.isValid = false) →
      Fault E (.object c tsc p m b) .invalidTypeValue
  | reverse {c tsc p m b k v} : (k, v) ∈ m → KeyMeans E c k (.keyword .reverse) → (∀ m', v ≠ .obj m') →
      Fault E (.object c tsc p m b) .invalidReverseValue
  | nest {c tsc p m b k v x} : (k, v) ∈ m → KeyMeans E c k (.keyword .nest) → x ∈ itemsIn v →
      (∀ m', x ≠ .obj m') → Fault E (.object c tsc p m b) .invalidNestValue
  | nestedValue {c tsc p m k v} : (k, v) ∈ m → KeyMeans E c k (.keyword .value) →
      Fault E (.object c tsc p m true) .invalidNestValue
  | included {c tsc p m b k v} : (k, v) ∈ m → KeyMeans E c k (.keyword .included) → E.opts.mode = .v11 →
      NonNode E (.value c (some "@included".toList) v false) → Fault E (.object c tsc p m b) .invalidIncludedValue
  /-- Two entries for a keyword. -/
  | colliding {c tsc p m kw} : Single E kw → HasTwo E kw c m → Fault E (.object c tsc p m false) .collidingKeywords
  /-- Reverse properties. -/
  | reverseKeyword {c tsc p m b k m' k' v kw} : (k, .obj m') ∈ m → KeyMeans E c k (.keyword .reverse) →
      (k', v) ∈ m' → KeyMeans E c k' (.keyword kw) → Fault E (.object c tsc p m b) .invalidReversePropertyMap
  | reverseValue {c tsc p m b k m' k' v q} : (k, .obj m') ∈ m → KeyMeans E c k (.keyword .reverse) →
      (k', v) ∈ m' → KeyMeans E c k' (.id q) → IsUsed E q → (∀ d, c.get k' = some d → d.reverse = false) →
      NonNode E (.value c (some k') v false) → Fault E (.object c tsc p m b) .invalidReversePropertyValue
  | reverseTerm {c tsc p m b k v q d} : (k, v) ∈ m → KeyMeans E c k (.id q) → IsUsed E q → c.get k = some d →
      d.reverse = true → NonNodeValue E c k v → Fault E (.object c tsc p m b) .invalidReversePropertyValue
  /-- Maps. -/
  | languageMap {c tsc p m b k m' q l v x} : (k, .obj m') ∈ m → KeyMeans E c k (.id q) → IsUsed E q →
      HasContainer c k .language → ¬ IsJson c k → (l, v) ∈ m' → x ∈ itemsIn v → x ≠ .null → (∀ s, x ≠ .str s) →
      Fault E (.object c tsc p m b) .invalidLanguageMapValue
  | typeMap {c tsc p m b k m' q i w kw} : (k, .obj m') ∈ m → KeyMeans E c k (.id q) → IsUsed E q → IsMap c k →
      HasContainer c k .type → (i, w) ∈ m' → KeyMeans E c i (.keyword kw) → kw ≠ .none →
      Fault E (.object c tsc p m b) .invalidTypeValue
  | indexProperty {c tsc p m b k m' q d x i w c'} : (k, .obj m') ∈ m → KeyMeans E c k (.id q) → IsUsed E q →
      IsMap c k → c.get k = some d → ContainerKind.index ∈ d.container.asSlice → ContainerKind.graph ∉ d.container.asSlice →
      d.index = some x → x ≠ "@index".toList → (i, w) ∈ m' → MapContext E c d.container i c' →
      NonNode E (.value c' (some k) w true) → Fault E (.object c tsc p m b) (.value .valueObject)
  | indexJson {c tsc p m b k m' q d x} : (k, .obj m') ∈ m → KeyMeans E c k (.id q) → IsUsed E q →
      IsMap c k → c.get k = some d → ContainerKind.index ∈ d.container.asSlice → d.index = some x → IsJson c x →
      Fault E (.object c tsc p m b) (.literal .invalidTypeValue)
  /-- Lists and sets. -/
  | list {c tsc p m k v k' v' t} : p ≠ none → p ≠ some "@graph".toList → (k, v) ∈ m →
      KeyMeans E c k (.keyword .list) → (k', v') ∈ m →
      KeyMeans E c k' t → t ≠ .keyword .list → t ≠ .keyword .index →
      Fault E (.object c tsc p m false) .invalidSetOrListObject
  | set {c tsc p m k v k' v' t} : (k, v) ∈ m → KeyMeans E c k (.keyword .set) → (k', v') ∈ m →
      KeyMeans E c k' t → t ≠ .keyword .set → t ≠ .keyword .index →
      Fault E (.object c tsc p m false) .invalidSetOrListObject
  /-- A scalar, where the type of the property is `@json` only inside its scoped context. -/
  | json {c k j l fm c'} : ScalarAs j l → Within E (c.get k) { mode := E.opts.mode } c c' → IsJson c' k →
      Fault E (.value c (some k) j fm) (.literal .invalidTypeValue)
  /-- Value objects. -/
  | value {c tsc p m k v x} : (k, v) ∈ m → KeyMeans E c k (.keyword .value) → ValueFault E c tsc m x →
      Fault E (.object c tsc p m false) (.value x)

/-- The document has a fault: at the start, or at a place below. -/
def Faulty (E : XEnv) (c : ACtx) (j : Json) (e : XErr) : Prop :=
  ∃ pl, Relation.ReflTransGen (Under E) (.value c none j false) pl ∧ Fault E pl e

/-! ## Documents without contexts -/

/-- A context without definitions, without vocabulary, and without a context to return to. -/
structure Bare (c : ACtx) : Prop where
  defs : c.defs = []
  types : c.typeDef = none
  vocab : c.vocab = none
  previous : c.previous = none

/-- A document whose nodes have keys that do not begin with `@`, and at most the keywords `@id` with a string,
`@type` with strings that do not begin with `@`, and `@graph`. Value objects are `{"@value": …}` with a scalar. -/
inductive PlainDoc : Json → Prop
  | null : PlainDoc .null
  | str {s} : PlainDoc (.str s)
  | num {s} : PlainDoc (.num s)
  | bool {s} : PlainDoc (.bool s)
  | arr {l} : (∀ x ∈ l, PlainDoc x) → PlainDoc (.arr l)
  | value {v} : (v = .null ∨ ∃ l, ScalarAs v l) → PlainDoc (.obj [("@value".toList, v)])
  | node {m} : (m.map Prod.fst).Nodup → (∀ v, ("@id".toList, v) ∈ m → ∃ s, v = .str s) →
      (∀ v, ("@type".toList, v) ∈ m → ∀ x ∈ itemsIn v, ∃ s, x = .str s ∧ s.head? ≠ some '@') →
      (∀ k v, (k, v) ∈ m → k ≠ "@id".toList → k ≠ "@type".toList → k.head? ≠ some '@' ∨ k = "@graph".toList) →
      (∀ k v, (k, v) ∈ m → k.head? ≠ some '@' ∨ k = "@graph".toList → PlainDoc v) → PlainDoc (.obj m)

end JsonLd.Spec
