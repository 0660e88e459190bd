import Verif.Base.Greedy
/-!
# Multisets (`crates/core/src/object/node/multiset.rs`)
-/

namespace JsonLd

variable {α β : Type}

/-- `compare_unordered`, crates/core/src/object/node/multiset.rs:162-182. The free-index flags are
modelled by removing the matched item. `eq` is the items' `PartialEq`. -/
def compareUnordered (eq : α → β → Bool) (a : List α) (b : List β) : Bool :=
  if a.length = b.length then greedy eq a b else false

/-- `Hash for Multiset`, crates/core/src/object/node/multiset.rs:194-203: the value written to the
hasher, where `h` is `hash_one`. Also `hash_set`, crates/core/src/utils/hash.rs:11-27. -/
def multisetHash (h : α → UInt64) (items : List α) : UInt64 :=
  items.foldl (fun acc x => acc + h x) 0

/-- `Multiset::contains` (a linear search), multiset.rs:58-63. -/
def multisetContains [DecidableEq α] (items : List α) (x : α) : Bool := items.contains x

/-- `Multiset::insert_unique`, multiset.rs:96-106. Returns the new content and whether the item
was inserted. -/
def multisetInsertUnique [DecidableEq α] (items : List α) (x : α) : List α × Bool :=
  if multisetContains items x then (items, false) else (items ++ [x], true)

end JsonLd
