import Verif.Spec.Faults
import Verif.Model.ErrorCode
/-!
# What error codes tell
-/

namespace JsonLd.Spec

/-- There is such a place in the document. -/
def Somewhere (E : XEnv) (c : ACtx) (j : Json) (P : Place → Prop) : Prop :=
  ∃ pl, Relation.ReflTransGen (Under E) (.value c none j false) pl ∧ P pl

/-- The place is an object with an entry for the keyword, whose value is as given. -/
def EntryWith (E : XEnv) (kw : Keyword) (P : Json → Prop) (pl : Place) : Prop :=
  ∃ c tsc p m b k v, pl = .object c tsc p m b ∧ (k, v) ∈ m ∧ KeyMeans E c k (.keyword kw) ∧ P v

/-- The value is not a string. -/
def NotString (v : Json) : Prop := ∀ s, v ≠ .str s

/-- The value is not an object. -/
def NotObject (v : Json) : Prop := ∀ m, v ≠ .obj m

/-- The place is a language map with something else than strings. -/
def BadLanguageMap (pl : Place) : Prop :=
  ∃ c tsc p m b k m' l v x, pl = .object c tsc p m b ∧ (k, .obj m') ∈ m ∧ HasContainer c k .language ∧
    (l, v) ∈ m' ∧ x ∈ itemsIn v ∧ x ≠ .null ∧ NotString x

/-- What the text of the error code says about the document. -/
inductive TextMeans (E : XEnv) (pl : Place) : Str → Prop
  | id : EntryWith E .id NotString pl → TextMeans E pl "invalid @id value".toList
  | index : EntryWith E .index NotString pl → TextMeans E pl "invalid @index value".toList
  | reverse : EntryWith E .reverse NotObject pl → TextMeans E pl "invalid @reverse value".toList
  | language : EntryWith E .language NotString pl → TextMeans E pl "invalid language-tagged string".toList
  | value : EntryWith E .value (fun v => (∃ l, v = .arr l) ∨ ∃ m, v = .obj m) pl →
      TextMeans E pl "invalid value object value".toList
  | languageMap : BadLanguageMap pl → TextMeans E pl "invalid language map value".toList
  | colliding {c tsc p m kw} : pl = .object c tsc p m false → Single E kw → HasTwo E kw c m →
      TextMeans E pl "colliding keywords".toList

/-- The texts whose meaning is given above. -/
def explainedTexts : List Str :=
  ["invalid @id value".toList, "invalid @index value".toList, "invalid @reverse value".toList,
   "invalid language-tagged string".toList, "invalid value object value".toList,
   "invalid language map value".toList, "colliding keywords".toList]

end JsonLd.Spec
