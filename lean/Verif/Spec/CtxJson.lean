import Verif.Model.Ctx
/-!
# Which contexts can be written and read back
-/

namespace JsonLd.Spec

/-- The entries of a context definition that are not term definitions. -/
def contextKeys : List Str :=
  ["@base".toList, "@import".toList, "@language".toList, "@direction".toList, "@propagate".toList,
   "@protected".toList, "@type".toList, "@version".toList, "@vocab".toList]

/-- The keywords a type mapping may be. -/
def typeKeywords : List Str := ["@id".toList, "@json".toList, "@none".toList, "@vocab".toList]

/-- An identifier written as a term is no keyword. -/
def IdText : SId → Prop
  | .keyword _ => True
  | .term s => isKeyword s = false

/-- A type mapping written as a term is no type keyword. -/
def TypeText : SType → Prop
  | .keyword _ => True
  | .term s => s ∉ typeKeywords

/-- The term of `@nest` is no keyword. -/
def NestText : SNest → Prop
  | .nest => True
  | .term s => isKeyword s = false

section
variable (isRef : Str → Bool)

mutual
/-- The texts in the context are what their place requires: references are IRI references, terms are
defined once and not called like other entries, terms in place of keywords are no keywords. -/
def CtxOk : SCtx → Prop
  | .one e => EntryOk e
  | .many es => EntriesOk es
/-- See `CtxOk`. -/
def EntryOk : SEntry → Prop
  | .null => True
  | .ref s => isRef s = true
  | .defn d => DefOk d
/-- See `CtxOk`. -/
def EntriesOk : List SEntry → Prop
  | [] => True
  | e :: es => EntryOk e ∧ EntriesOk es
/-- See `CtxOk`. -/
def DefOk : SDef → Prop
  | ⟨base, import_, _, _, _, _, _, _, _, bs⟩ =>
    (∀ s, base = some (some s) → isRef s = true) ∧ (∀ s, import_ = some s → isRef s = true) ∧
    (bs.map Prod.fst).Nodup ∧ (∀ k ∈ bs.map Prod.fst, k ∉ contextKeys) ∧ BindingsOk bs
/-- See `CtxOk`. -/
def BindingsOk : List (Str × Option STerm) → Prop
  | [] => True
  | (_, none) :: bs => BindingsOk bs
  | (_, some t) :: bs => TermOk t ∧ BindingsOk bs
/-- See `CtxOk`. -/
def TermOk : STerm → Prop
  | .simple _ => True
  | .expanded x => ExpOk x
/-- See `CtxOk`. -/
def ExpOk : SExp → Prop
  | ⟨id, type, context, _, _, _, _, _, nest, _, _, _⟩ =>
    (∀ i, id = some (some i) → IdText i) ∧ (∀ t, type = some (some t) → TypeText t) ∧
    (∀ n, nest = some n → NestText n) ∧ ScopedOk context
/-- See `CtxOk`. -/
def ScopedOk : Option SCtx → Prop
  | none => True
  | some c => CtxOk c
end
end

/-- The values of the entries with this key. -/
def valuesOf (k : Str) : List (Str × Json) → List Json
  | [] => []
  | (k', v) :: m => if k' = k then v :: valuesOf k m else valuesOf k m

end JsonLd.Spec
