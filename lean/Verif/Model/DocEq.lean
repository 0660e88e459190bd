import Verif.Model.Doc
/-!
# Equality of documents as the code computes it, sets
-/

namespace JsonLd

/-- ASCII lower-casing of a character (the bytes of `into_smallcase`, crates/syntax/src/utils.rs:6-12,
lifted to characters: ASCII bytes only occur in UTF-8 as ASCII characters). -/
def lowerChar (c : Char) : Char := if 'A' ≤ c ∧ c ≤ 'Z' then Char.ofNat (c.toNat + 32) else c

/-- `LenientLangTag::eq`, crates/syntax/src/lang.rs:35-39. -/
def langEq (a b : Str) : Bool := a.map lowerChar == b.map lowerChar

/-- Equality of optional language tags. -/
def langOptEq : Option Str → Option Str → Bool
  | none, none => true
  | some a, some b => langEq a b
  | _, _ => false

/-- Derived `PartialEq` of `LangString`, crates/core/src/lang_string.rs:8-10. -/
def LangString.eq (a b : LangString) : Bool :=
  a.data == b.data && langOptEq a.language b.language && decide (a.direction = b.direction)

/-- Derived `PartialEq` of `Value`, object/value.rs:116-117. Equality of JSON literals
(`json_syntax::Value`) is structural, and numbers are compared as texts. -/
def Value.eq : Value → Value → Bool
  | .literal l t, .literal l' t' => decide (l = l') && decide (t = t')
  | .langString s, .langString s' => s.eq s'
  | .json j, .json j' => decide (j = j')
  | _, _ => false

/-- `compare_unordered`, object/node/multiset.rs:162-182, on identifiers. -/
def idsEq (a b : List Id) : Bool := unorderedEq (fun x y => decide (x = y)) a b

/-- `compare_unordered_opt`, multiset.rs:184-190. -/
def idsOptEq : Option (List Id) → Option (List Id) → Bool
  | none, none => true
  | some a, some b => idsEq a b
  | _, _ => false

/-- `IndexMap::get`. -/
def lookupProp {α : Type} (k : Id) : List (Id × α) → Option α
  | [] => none
  | (k', a) :: ps => if k' = k then some a else lookupProp k ps

mutual
/-- `PartialEq` of `Indexed<Object>`: derived, indexed.rs:13 and object/mod.rs:96-101. -/
def Obj.eq : Obj → Obj → Bool
  | .value i v, .value j w => decide (i = j) && v.eq w
  | .list i l, .list j m => decide (i = j) && objsListEq l m
  | .node n, .node m => n.eq m
  | _, _ => false
/-- `PartialEq` of `Indexed<Node>`: derived for the index (indexed.rs:13) and
object/node/mod.rs:707-716. -/
def Node.eq : Node → Node → Bool
  | .mk i id ty g inc ps rv, .mk i' id' ty' g' inc' ps' rv' =>
    decide (i = i') && decide (id = id') && idsOptEq ty ty' && objsOptEq g g' &&
      nodesOptEq inc inc' && propsEq ps ps' && rpropsOptEq rv rv'
/-- Optional `IndexSet`s of objects. -/
def objsOptEq : Option (List Obj) → Option (List Obj) → Bool
  | none, none => true
  | some a, some b => decide (a.length = b.length) && objsSubset a b
  | _, _ => false
/-- Optional `IndexSet`s of nodes. -/
def nodesOptEq : Option (List Node) → Option (List Node) → Bool
  | none, none => true
  | some a, some b => decide (a.length = b.length) && nodesSubset a b
  | _, _ => false
/-- Optional reverse properties. -/
def rpropsOptEq : Option (List (Id × List Node)) → Option (List (Id × List Node)) → Bool
  | none, none => true
  | some a, some b => decide (a.length = b.length) && rpropsSub a b
  | _, _ => false
/-- `Vec` equality (list objects), object/list.rs:9-15. -/
def objsListEq : List Obj → List Obj → Bool
  | [], [] => true
  | a :: as, b :: bs => a.eq b && objsListEq as bs
  | _, _ => false
/-- `IndexSet::is_subset`: `IndexSet` equality is equality of lengths and inclusion. -/
def objsSubset : List Obj → List Obj → Bool
  | [], _ => true
  | a :: as, bs => bs.any a.eq && objsSubset as bs
/-- `IndexSet::is_subset`. -/
def nodesSubset : List Node → List Node → Bool
  | [], _ => true
  | a :: as, bs => bs.any a.eq && nodesSubset as bs
/-- Loop of `compare_unordered`, object/node/multiset.rs:167-176, over objects. -/
def objsGreedy : List Obj → List Obj → Bool
  | [], _ => true
  | a :: as, bs => match removeFirst a.eq bs with
    | none => false
    | some bs' => objsGreedy as bs'
/-- Loop of `compare_unordered` over nodes. -/
def nodesGreedy : List Node → List Node → Bool
  | [], _ => true
  | a :: as, bs => match removeFirst a.eq bs with
    | none => false
    | some bs' => nodesGreedy as bs'
/-- `IndexMap` equality: same number of entries, and each entry of the left has an equal one in the
right; the values are multisets. Derived for `Properties`, object/node/properties.rs:14-19.
(Written by cases to stay structurally recursive: it is
`decide (ps.length = qs.length) && propsSub ps qs`, see `propsEq_eq`.) -/
def propsEq : List (Id × List Obj) → List (Id × List Obj) → Bool
  | [], qs => decide (0 = qs.length)
  | (k, a) :: ps, qs => decide (ps.length + 1 = qs.length) && ((match lookupProp k qs with
    | none => false
    | some b => decide (a.length = b.length) && objsGreedy a b) && propsSub ps qs)
/-- Each entry of the left has an equal one in the right. -/
def propsSub : List (Id × List Obj) → List (Id × List Obj) → Bool
  | [], _ => true
  | (k, a) :: ps, qs => (match lookupProp k qs with
    | none => false
    | some b => decide (a.length = b.length) && objsGreedy a b) && propsSub ps qs
/-- Each entry of the left has an equal one in the right. -/
def rpropsSub : List (Id × List Node) → List (Id × List Node) → Bool
  | [], _ => true
  | (k, a) :: ps, qs => (match lookupProp k qs with
    | none => false
    | some b => decide (a.length = b.length) && nodesGreedy a b) && rpropsSub ps qs
end

theorem propsEq_eq (ps qs : List (Id × List Obj)) :
    propsEq ps qs = (decide (ps.length = qs.length) && propsSub ps qs) := by
  cases ps with
  | nil => simp [propsEq, propsSub]
  | cons p ps => obtain ⟨k, a⟩ := p; simp [propsEq, propsSub]

/-- `IndexSet::insert`. -/
def setInsert {α : Type} (eq : α → α → Bool) (l : List α) (x : α) : List α :=
  if l.any (eq x) then l else l ++ [x]

/-- `IndexSet::from_iter`. -/
def setCollect {α : Type} (eq : α → α → Bool) (xs : List α) : List α :=
  xs.foldl (setInsert eq) []

/-- `PartialEq for ExpandedDocument`, document/expanded.rs:295-300. -/
def Doc.eq (a b : Doc) : Bool := objsOptEq (some a) (some b)

end JsonLd
