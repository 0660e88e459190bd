import Verif.Model.CompactIri
import Verif.Model.DocJson
/-!
# Objects and arrays built by compaction (`crates/compaction/src/lib.rs`)
-/

namespace JsonLd

/-- `Context::get`, crates/core/src/context/mod.rs:75-83 and definition.rs:114-126. A
`TypeTermDefinition` is a definition with container `@set` and nothing else, definition.rs:411-513. -/
def ACtx.get (c : ACtx) (k : Str) : Option TermDef :=
  if k = "@type".toList then c.typeDef.map fun p => { protected_ := p, container := .set }
  else c.getNormal k

/-- `Value::is_array`. -/
def Json.isArr : Json → Bool
  | .arr _ => true
  | _ => false

/-- `Value::is_null`. -/
def Json.isNull : Json → Bool
  | .null => true
  | _ => false

/-- `Object::get_unique(k).ok().unwrap()`: panics if there are several entries with the key. -/
def jGet (k : Str) (m : List (Str × Json)) : Except CompErr (Option Json) :=
  match m.filter (fun e => decide (e.1 = k)) with
  | [] => .ok none
  | [e] => .ok (some e.2)
  | _ => .error .panic

/-- The first part of `add_value`, lib.rs:401-415: a value that is no array becomes one; an array is
created if requested. (`remove_unique` and `insert` move the entry to the end of the object.) -/
def addStart (m : List (Str × Json)) (k : Str) (asArray : Bool) : Except CompErr (List (Str × Json)) := do
  let v ← jGet k m
  match v with
  | some (.arr _) => .ok m
  | some v => .ok (jInsert k (.arr [v]) (m.filter fun e => decide (e.1 ≠ k)))
  | none => if asArray then .ok (jInsert k (.arr []) m) else .ok m

/-- The last part of `add_value`, lib.rs:423-430: push to the array, or insert. -/
def addLeaf (m : List (Str × Json)) (k : Str) (v : Json) : Except CompErr (List (Str × Json)) := do
  let w ← jGet k m
  match w with
  | some (.arr l) => .ok (m.map fun e => if e.1 = k then (e.1, .arr (l ++ [v])) else e)
  | some _ => .error .panic
  | none => .ok (jInsert k v m)

mutual
/-- `add_value`, lib.rs:400-432. -/
def addValue (m : List (Str × Json)) (k : Str) (v : Json) (asArray : Bool) :
    Except CompErr (List (Str × Json)) :=
  match v with
  | .arr l => (addStart m k asArray).bind fun m => addValues m k l
  | v => (addStart m k asArray).bind fun m => addLeaf m k v
/-- The loop over the items of an array, lib.rs:418-422. -/
def addValues (m : List (Str × Json)) (k : Str) (l : List Json) : Except CompErr (List (Str × Json)) :=
  match l with
  | [] => .ok m
  | v :: l => (addValue m k v false).bind fun m => addValues m k l
end

/-- `value_value`, lib.rs:435-447. -/
def valueValue : Value → Json
  | .literal l _ => l.toJson
  | .langString s => .str s.data
  | .json j => j

/-- `list_or_set`, lib.rs:485-496. -/
def listOrSet (c : ACtx) (prop : Option Str) : Bool :=
  match prop.bind c.get with
  | some d => d.container.contains .list || d.container.contains .set
  | none => false

/-- The end of `compact_collection_with`, lib.rs:485-507. -/
def collect (c : ACtx) (prop : Option Str) (o : CompOpts) (result : List Json) : Json :=
  match result with
  | [v] =>
    if !o.compactArrays || prop == some "@graph".toList || prop == some "@set".toList ||
      listOrSet c prop then .arr [v] else v
  | l => .arr l

/-- The loop over the items, lib.rs:468-483. `f` compacts an item. -/
def compactItems {α : Type} (f : α → Except CompErr Json) : List α → Except CompErr (List Json)
  | [] => .ok []
  | x :: l => do
    let v ← f x
    let r ← compactItems f l
    .ok (if v.isNull then r else v :: r)

/-- `compact_collection_with`, lib.rs:449-507. `f` compacts an item. -/
def compactCollection {α : Type} (f : α → Except CompErr Json) (c : ACtx) (prop : Option Str)
    (o : CompOpts) (items : List α) : Except CompErr Json := do
  let l ← compactItems f items
  .ok (collect c prop o l)

end JsonLd
