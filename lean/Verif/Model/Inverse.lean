import Verif.Model.ExpandIri
/-!
# Inverse contexts (`crates/core/src/context/inverse.rs`)
-/

namespace JsonLd

/-- `str::cmp(..) == Less`. The order of the UTF-8 encodings is that of the characters. -/
def strLt : Str → Str → Bool
  | _, [] => false
  | [], _ :: _ => true
  | a :: s, b :: t => decide (a.toNat < b.toNat) || (decide (a = b) && strLt s t)

/-- The order of terms, inverse.rs:291-300: is `a` before `b` or equal to it? -/
def termLe (a b : Str) : Bool :=
  decide (utf8Len a < utf8Len b) || (decide (utf8Len a = utf8Len b) && !strLt b a)

/-- Insert a definition before the first one that is not before it. -/
def insertTerm (b : Str × TermDef) : List (Str × TermDef) → List (Str × TermDef)
  | [] => [b]
  | b' :: l => if termLe b.1 b'.1 then b :: b' :: l else b' :: insertTerm b l

/-- The definitions in the order of their terms, inverse.rs:290-300. (There is only one such order of
a map, so it does not matter how they are sorted.) -/
def sortTerms : List (Str × TermDef) → List (Str × TermDef)
  | [] => []
  | b :: l => insertTerm b (sortTerms l)

/-- `TypeSelection`, inverse.rs:12-17. -/
inductive TypeSel where
  | reverse | any
  | type (t : TypeMap)
  deriving DecidableEq, Repr

/-- `LangDir`, inverse.rs:69. -/
abbrev LangDir := Option (Option Str × Option Direction)

/-- `LangDir` as a key of maps: language tags are compared and hashed case-insensitively,
crates/syntax/src/lang.rs:35-57. -/
def LangDir.key : LangDir → LangDir
  | none => none
  | some (l, d) => some (l.map (·.map lowerChar), d)

/-- `LangSelection`, inverse.rs:76-80. -/
inductive LangSel where
  | any
  | lang (l : LangDir)
  deriving DecidableEq, Repr

/-- `Selection`, inverse.rs:207-211. -/
inductive Selection where
  | any
  | type (l : List TypeSel)
  | lang (l : List LangSel)

/-- Lookup in a map. -/
def assocGet {α β : Type} [DecidableEq α] (k : α) : List (α × β) → Option β
  | [] => none
  | (k', v) :: m => if k' = k then some v else assocGet k m

/-- `contains_key` and `insert`, or `entry(..).or_insert`: the first value stays. -/
def assocSet {α β : Type} [DecidableEq α] (k : α) (v : β) (m : List (α × β)) : List (α × β) :=
  match assocGet k m with
  | some _ => m
  | none => (k, v) :: m

/-- Change the value of a key (`reference_mut`, inverse.rs:155-164 and 246-258), which is inserted
first if missing. -/
def assocUpd {α β : Type} [DecidableEq α] (k : α) (new : β) (f : β → β) : List (α × β) → List (α × β)
  | [] => [(k, f new)]
  | (k', v) :: m => if k' = k then (k', f v) :: m else (k', v) :: assocUpd k new f m

/-- `InverseType`, inverse.rs:29-33. -/
structure InvType where
  reverse : Option Str := none
  any : Option Str := none
  map : List (TypeMap × Str) := []

/-- `InverseType::select`, inverse.rs:36-45. -/
def InvType.select (i : InvType) : TypeSel → Option Str
  | .reverse => i.reverse
  | .any => i.any
  | .type t => assocGet t i.map

/-- `InverseLang`, inverse.rs:71-74; the keys are `LangDir.key`s. -/
structure InvLang where
  any : Option Str := none
  map : List (LangDir × Str) := []

/-- `InverseLang::select`, inverse.rs:83-91. -/
def InvLang.select (i : InvLang) : LangSel → Option Str
  | .any => i.any
  | .lang l => assocGet l.key i.map

/-- `InverseLang::set`, inverse.rs:103-110. -/
def InvLang.set (i : InvLang) (l : LangDir) (k : Str) : InvLang :=
  { i with map := assocSet l.key k i.map }

/-- `InverseContainer`, inverse.rs:113-121. -/
structure InvContainer where
  language : InvLang := {}
  typ : InvType := {}
  none : Str

/-- The language and direction a definition without type mapping stands for, inverse.rs:334-402, in
the order in which they are set. -/
def termLangs (c : ACtx) (d : TermDef) : List LangDir :=
  match d.language, d.direction with
  | some (some l), some (some r) => [some (some l, some r)]
  | some (some l), some .none => [some (some l, .none)]
  | some .none, some (some r) => [some (.none, some r)]
  | some .none, some .none => [.none]
  | some (some l), .none => [some (some l, .none)]
  | some .none, .none => [.none]
  | .none, some (some r) => [some (.none, some r)]
  | .none, some .none => [some (.none, .none)]
  | .none, .none => [some (c.language, c.direction), some (.none, .none)]

/-- `type_map.set_none`, for terms without language and direction, inverse.rs:400. -/
def InvContainer.setNone (k : Str) (d : TermDef) (i : InvContainer) : InvContainer :=
  if d.language.isNone ∧ d.direction.isNone then
    { i with typ := { i.typ with map := assocSet .none k i.typ.map } }
  else i

/-- Enter a term, inverse.rs:313-405. -/
def InvContainer.enter (c : ACtx) (k : Str) (d : TermDef) (i : InvContainer) : InvContainer :=
  if d.reverse then { i with typ := { i.typ with reverse := i.typ.reverse.or (some k) } }
  else match d.typ with
    | some .none =>
      { i with
        typ := { i.typ with any := i.typ.any.or (some k) }
        language := { i.language with any := i.language.any.or (some k) } }
    | some t => { i with typ := { i.typ with map := assocSet t k i.typ.map } }
    | Option.none =>
      InvContainer.setNone k d
        { i with language := (termLangs c d).foldl (fun l x => l.set x k) i.language }

/-- `InverseDefinition`, inverse.rs:139-141. -/
abbrev InvDef := List (Container × InvContainer)
/-- `InverseContext`, inverse.rs:203-205. -/
abbrev InvCtx := List (CTerm × InvDef)

/-- The body of the loop, inverse.rs:302-406. -/
def InvCtx.add (c : ACtx) (I : InvCtx) (b : Str × TermDef) : InvCtx :=
  match b.2.value with
  | Option.none => I
  | some var =>
    assocUpd var []
      (fun m => assocUpd b.2.container { none := b.1 } (InvContainer.enter c b.1 b.2) m) I

/-- `From<&Context> for InverseContext`, inverse.rs:284-410. -/
def ACtx.inverse (c : ACtx) : InvCtx :=
  (sortTerms c.defs).foldl (InvCtx.add c) []

/-- The part of `InverseDefinition::select` for one container, inverse.rs:176-193. -/
def InvContainer.select (i : InvContainer) : Selection → Option Str
  | .any => some i.none
  | .type l => l.findSome? i.typ.select
  | .lang l => l.findSome? i.language.select

/-- `InverseDefinition::select`, inverse.rs:166-198. -/
def InvDef.select (m : InvDef) (containers : List Container) (s : Selection) : Option Str :=
  containers.findSome? fun c => (assocGet c m).bind (·.select s)

/-- `InverseContext::select`, inverse.rs:260-273. -/
def InvCtx.select (I : InvCtx) (var : CTerm) (containers : List Container) (s : Selection) :
    Option Str :=
  (assocGet var I).bind fun m => InvDef.select m containers s

end JsonLd
