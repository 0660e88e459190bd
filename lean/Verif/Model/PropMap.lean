import Verif.Model.Flatten
/-!
# The API of property maps (`crates/core/src/object/node/{properties,reverse_properties,multiset}.rs`)

`Properties` and `ReverseProperties` have the same code, over objects and over nodes. Both are
modelled once, over items of any type `α` with an equivalence test `eqv`. The `IndexMap` inside is
the list of its entries in order; a look-up finds the entry whose key is equivalent to the argument.
-/

namespace JsonLd

/-- `Indexed::equivalent` of nodes (object/node/mod.rs:728-730) with `Node::equivalent` (627-633). -/
def Node.equiv (n m : Node) : Bool :=
  decide (n.index = m.index) && (n.id.isSome && m.id.isSome && n.eq m)

/-- The arguments accepted by the look-ups: an `Id`, or one of the types with an implementation of
`indexmap::Equivalent<Id<…>>`, id.rs:55-98. -/
inductive PKey where
  | id (i : Id)
  /-- `ValidId::Iri`, `ValidId::Blank`. -/
  | validIri (s : Str)
  | validBlank (s : Str)
  /-- `&Iri`, `IriBuf`. -/
  | iri (s : Str)
  /-- `BlankId`, `BlankIdBuf`. -/
  | blank (s : Str)

/-- `Equivalent::equivalent`, id.rs:55-98. -/
def PKey.matches : PKey → Id → Bool
  | .id i, k => decide (k = i)
  | .validIri s, .iri t => decide (s = t)
  | .validBlank s, .blank t => decide (s = t)
  | .iri s, .iri t => decide (s = t)
  | .blank s, .blank t => decide (s = t)
  | _, _ => false

/-- `struct Properties`, properties.rs:19; `struct ReverseProperties`, reverse_properties.rs:22-24.
`Multiset` is a vector, multiset.rs:18-21. -/
abbrev PropMap (α : Type) := List (Id × List α)

namespace PropMap
variable {α : Type}

/-- `IndexMap::get`. -/
def find (q : PKey) : PropMap α → Option (List α)
  | [] => none
  | (k, vs) :: ps => if q.matches k then some vs else find q ps

/-- `len`, properties.rs:35-37. -/
def len (ps : PropMap α) : Nat := ps.length

/-- `is_empty`, properties.rs:41-43. -/
def isEmpty (ps : PropMap α) : Bool := List.isEmpty ps

/-- `contains`, properties.rs:66-70; reverse_properties.rs:72-74. -/
def contains (ps : PropMap α) (q : PKey) : Bool := (find q ps).isSome

/-- `get`, properties.rs:72-84; reverse_properties.rs:77-89. The iterator `Objects` over no slice
yields nothing. -/
def get (ps : PropMap α) (q : PKey) : List α :=
  match find q ps with
  | some vs => vs
  | none => []

/-- `get_any`, properties.rs:86-98; reverse_properties.rs:91-105. -/
def getAny (ps : PropMap α) (q : PKey) : Option α :=
  match find q ps with
  | some vs => vs.head?
  | none => none

/-- `insert`, properties.rs:100-108; reverse_properties.rs:107-115. -/
def insert (ps : PropMap α) (k : Id) (v : α) : PropMap α :=
  match lookupProp k ps with
  | some vs => setKey k (vs ++ [v]) ps
  | none => ps ++ [(k, [v])]

/-- `insert_unique`, properties.rs:110-119; reverse_properties.rs:117-127. -/
def insertUnique (eqv : α → α → Bool) (ps : PropMap α) (k : Id) (v : α) : PropMap α :=
  match lookupProp k ps with
  | some vs => if vs.all fun w => !eqv w v then setKey k (vs ++ [v]) ps else ps
  | none => ps ++ [(k, [v])]

/-- `insert_all`, properties.rs:121-133; reverse_properties.rs:129-141. -/
def insertAll (ps : PropMap α) (k : Id) (vs : List α) : PropMap α :=
  match lookupProp k ps with
  | some ws => setKey k (ws ++ vs) ps
  | none => ps ++ [(k, vs)]

/-- The loop of `insert_all_unique`, properties.rs:145-149 and 154-158. -/
def addEach (eqv : α → α → Bool) (ws : List α) : List α → List α
  | [] => ws
  | v :: vs => addEach eqv (if ws.all fun w => !eqv w v then ws ++ [v] else ws) vs

/-- `insert_all_unique`, properties.rs:135-162; reverse_properties.rs:143-171. -/
def insertAllUnique (eqv : α → α → Bool) (ps : PropMap α) (k : Id) (vs : List α) : PropMap α :=
  match lookupProp k ps with
  | some ws => setKey k (addEach eqv ws vs) ps
  | none => ps ++ [(k, addEach eqv [] vs)]

/-- `set`, properties.rs:164-166: `IndexMap::insert` replaces the value in place. -/
def set (ps : PropMap α) (k : Id) (vs : List α) : PropMap α :=
  match lookupProp k ps with
  | some _ => setKey k vs ps
  | none => ps ++ [(k, vs)]

/-- `IndexMap::swap_remove`: the entry is replaced by the last one. -/
def swapRemove (q : PKey) : PropMap α → PropMap α
  | [] => []
  | (k, vs) :: ps =>
    if q.matches k then
      match ps.getLast? with
      | none => []
      | some e => e :: ps.dropLast
    else (k, vs) :: swapRemove q ps

/-- `remove`, properties.rs:178-185; reverse_properties.rs:186-188: the new map and the result. -/
def remove (ps : PropMap α) (q : PKey) : PropMap α × Option (List α) := (swapRemove q ps, find q ps)

/-- `clear`, properties.rs:60-62. -/
def clear (_ : PropMap α) : PropMap α := []

/-- `extend`, properties.rs:236-245. -/
def extend (ps : PropMap α) (es : List (Id × List α)) : PropMap α :=
  es.foldl (fun ps e => insertAll ps e.1 e.2) ps

/-- `extend_unique`, properties.rs:168-176; reverse_properties.rs:177-184. -/
def extendUnique (eqv : α → α → Bool) (ps : PropMap α) (es : List (Id × List α)) : PropMap α :=
  es.foldl (fun ps e => insertAllUnique eqv ps e.1 e.2) ps

/-- `from_iter`, properties.rs:188-199; reverse_properties.rs:191-202. -/
def fromIter (es : List (Id × List α)) : PropMap α := extend [] es

/-- A mutating call. -/
inductive Op (α : Type) where
  | insert (k : Id) (v : α)
  | insertUnique (k : Id) (v : α)
  | insertAll (k : Id) (vs : List α)
  | insertAllUnique (k : Id) (vs : List α)
  | set (k : Id) (vs : List α)
  | remove (q : PKey)
  | clear
  | extend (es : List (Id × List α))
  | extendUnique (es : List (Id × List α))

/-- One mutating call. -/
def step (eqv : α → α → Bool) (ps : PropMap α) : Op α → PropMap α
  | .insert k v => ps.insert k v
  | .insertUnique k v => ps.insertUnique eqv k v
  | .insertAll k vs => ps.insertAll k vs
  | .insertAllUnique k vs => ps.insertAllUnique eqv k vs
  | .set k vs => ps.set k vs
  | .remove q => (ps.remove q).1
  | .clear => ps.clear
  | .extend es => ps.extend es
  | .extendUnique es => ps.extendUnique eqv es

/-- A sequence of calls on a new map (`new`, properties.rs:29-31). -/
def run (eqv : α → α → Bool) (ops : List (Op α)) : PropMap α := ops.foldl (step eqv) []

end PropMap

end JsonLd
