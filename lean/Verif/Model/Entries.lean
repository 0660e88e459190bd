import Verif.Model.Traverse
import Verif.Model.DocJson
/-!
# The iterators over the entries of objects

`entries` of values, lists, nodes and indexed objects (`crates/core/src/object/mod.rs:395-403,
490-556`, `object/value.rs:359-516`, `object/node/mod.rs:453-462, 730-1000`). Each iterator is its
state; `next` returns the item, if any, and the state left.
-/

namespace JsonLd

/-! ## Values -/

/-- `struct value::Entries`, object/value.rs:459-464. -/
structure VIter where
  value : Option Value
  type : Option (Option Str)
  language : Option Str
  direction : Option Direction

namespace VIter

/-- `Value::entries`, object/value.rs:236-258. -/
def of : Value → VIter
  | .literal l ty => ⟨some (.literal l ty), ty.map some, none, none⟩
  | .langString s => ⟨some (.langString s), none, s.language, s.direction⟩
  | .json j => ⟨some (.json j), some none, none, none⟩

/-- `size_hint`, object/value.rs:469-489. -/
def len (it : VIter) : Nat :=
  let n := 0
  let n := if it.value.isSome then n + 1 else n
  let n := if it.type.isSome then n + 1 else n
  let n := if it.language.isSome then n + 1 else n
  if it.direction.isSome then n + 1 else n

/-- `next`, object/value.rs:491-500. -/
def next (it : VIter) : Option VEntry × VIter :=
  match it.value with
  | some v => (some (.value v), { it with value := none })
  | none => match it.type with
    | some t => (some (.type t), { it with type := none })
    | none => match it.language with
      | some l => (some (.language l), { it with language := none })
      | none => (it.direction.map .direction, { it with direction := none })

/-- `next_back`, object/value.rs:506-515. -/
def nextBack (it : VIter) : Option VEntry × VIter :=
  match it.direction with
  | some d => (some (.direction d), { it with direction := none })
  | none => match it.language with
    | some l => (some (.language l), { it with language := none })
    | none => match it.type with
      | some t => (some (.type t), { it with type := none })
      | none => (it.value.map .value, { it with value := none })

end VIter

/-! ## Nodes -/

/-- `struct node::Entries`, object/node/mod.rs:911-918. -/
structure NIter where
  id : Option Id
  type : Option (List Id)
  graph : Option (List Obj)
  included : Option (List Node)
  reverse : Option (List (Id × List Node))
  properties : List (Id × List Obj)

namespace NIter

/-- `Node::entries`, object/node/mod.rs:453-462. -/
def of : Node → NIter
  | .mk _ id ty g inc ps rv => ⟨id, ty, g, inc, rv, ps⟩

/-- `size_hint`, object/node/mod.rs:923-947. -/
def len (it : NIter) : Nat :=
  let n := it.properties.length
  let n := if it.id.isSome then n + 1 else n
  let n := if it.type.isSome then n + 1 else n
  let n := if it.graph.isSome then n + 1 else n
  let n := if it.included.isSome then n + 1 else n
  if it.reverse.isSome then n + 1 else n

/-- `next`, object/node/mod.rs:949-963. -/
def next (it : NIter) : Option NEntry × NIter :=
  match it.id with
  | some x => (some (.id x), { it with id := none })
  | none => match it.type with
    | some x => (some (.type x), { it with type := none })
    | none => match it.graph with
      | some x => (some (.graph x), { it with graph := none })
      | none => match it.included with
        | some x => (some (.included x), { it with included := none })
        | none => match it.reverse with
          | some x => (some (.reverse x), { it with reverse := none })
          | none => match it.properties with
            | p :: ps => (some (.property p.1 p.2), { it with properties := ps })
            | [] => (none, it)

end NIter

/-! ## Objects -/

/-- `object::EntryRef`, object/mod.rs:627-631. -/
inductive OEntry where
  | value (e : VEntry)
  | list (l : List Obj)
  | node (e : NEntry)

/-- `enum Entries`, object/mod.rs:503-507. -/
inductive OIter where
  | value (it : VIter)
  | list (l : Option (List Obj))
  | node (it : NIter)

namespace OIter

/-- `Object::entries`, object/mod.rs:397-403. -/
def of : Obj → OIter
  | .value _ v => .value (.of v)
  | .list _ l => .list (some l)
  | .node n => .node (.of n)

/-- `size_hint`, object/mod.rs:512-520. -/
def len : OIter → Nat
  | .value it => it.len
  | .list l => if l.isSome then 1 else 0
  | .node it => it.len

/-- `next`, object/mod.rs:522-528. -/
def next : OIter → Option OEntry × OIter
  | .value it => ((it.next).1.map .value, .value (it.next).2)
  | .list l => (l.map .list, .list none)
  | .node it => ((it.next).1.map .node, .node (it.next).2)

end OIter

/-- `IndexedEntryRef`, object/mod.rs; for nodes `node::IndexedEntryRef`, node/mod.rs. -/
inductive IEntry where
  | index (s : Str)
  | object (e : OEntry)

/-- `struct IndexedEntries`, object/mod.rs:533-538 (and object/node/mod.rs:968-973, the same over
nodes). -/
structure IIter where
  index : Option Str
  inner : OIter

namespace IIter

/-- The index of an indexed object. -/
def indexOf : Obj → Option Str
  | .value i _ => i
  | .list i _ => i
  | .node n => n.index

/-- `Indexed<Object>::entries`, object/mod.rs:490-498. -/
def of (o : Obj) : IIter := ⟨indexOf o, .of o⟩

/-- `size_hint`, object/mod.rs:543-546. -/
def len (it : IIter) : Nat := it.inner.len + if it.index.isSome then 1 else 0

/-- `next`, object/mod.rs:548-553. -/
def next (it : IIter) : Option IEntry × IIter :=
  match it.index with
  | some i => (some (.index i), { it with index := none })
  | none => ((it.inner.next).1.map .object, { it with inner := (it.inner.next).2 })

end IIter

/-! ## Keys and values -/

/-- `value::EntryKey::into_str`, object/value.rs:444-451, of `into_key` (367-374). -/
def VEntry.key : VEntry → Str
  | .value _ => "@value".toList
  | .type _ => "@type".toList
  | .language _ => "@language".toList
  | .direction _ => "@direction".toList

/-- `node::EntryKeyRef::into_str`, object/node/mod.rs:760-773, of `into_key` (845-854). -/
def NEntry.key : NEntry → Str
  | .id _ => "@id".toList
  | .type _ => "@type".toList
  | .graph _ => "@graph".toList
  | .included _ => "@included".toList
  | .reverse _ => "@reverse".toList
  | .property k _ => k.str

/-- `object::EntryKeyRef::into_str`, object/mod.rs:580-590. -/
def OEntry.key : OEntry → Str
  | .value e => e.key
  | .list _ => "@list".toList
  | .node e => e.key

/-- `IndexedEntryKeyRef::into_str`, object/mod.rs and object/node/mod.rs:1017-1030. -/
def IEntry.key : IEntry → Str
  | .index _ => "@index".toList
  | .object e => e.key

/-- `node::EntryKeyRef::into_keyword`, object/node/mod.rs:741-752. -/
def NEntry.keyword : NEntry → Option Keyword
  | .id _ => some .id
  | .type _ => some .type
  | .graph _ => some .graph
  | .included _ => some .included
  | .reverse _ => some .reverse
  | .property _ _ => none

/-- `enum Term` as it is asked for by `has_key`. -/
inductive NKey where
  | keyword (k : Keyword)
  | id (i : Id)
  | null

/-- `Node::has_key`, object/node/mod.rs:546-556. -/
def Node.hasKey (n : Node) : NKey → Bool
  | .keyword .id => n.id.isSome
  | .keyword .type => n.types.isSome
  | .keyword .graph => n.graph.isSome
  | .keyword .included => n.included.isSome
  | .keyword .reverse => n.rev.isSome
  | .id p => (lookupProp p n.props).isSome
  | _ => false

end JsonLd
