import Verif.Model.DocEq
/-!
# Hashing documents

A hash is modelled by the sequence of things written to the hasher; `fin` is the (arbitrary)
function from such a sequence to the final 64-bit hash (`DefaultHasher::new()` … `finish()`).
-/

namespace JsonLd

/-- What is written to a hasher: an enumeration tag, a 64-bit word, an identifier, a text, or a
JSON literal (whose derived hash is a function of the literal). -/
inductive Tok where
  | tag (n : Nat)
  | word (n : UInt64)
  | id (i : Id)
  | str (s : Str)
  | lit (l : Literal)
  | json (j : Json)
  | dir (d : Direction)
  deriving DecidableEq

/-- Derived hash of an `Option<String>`. -/
def optStrHash : Option Str → List Tok
  | none => [.tag 0]
  | some s => [.tag 1, .str s]

/-- Derived hash of an optional language tag, which writes the lower-cased tag
(crates/syntax/src/lang.rs:55-59, utils.rs:28-32). -/
def optLangHash : Option Str → List Tok
  | none => [.tag 0]
  | some s => [.tag 1, .str (s.map lowerChar)]

/-- Derived hash of `Value`, object/value.rs:122-132, and of `LangString`, lang_string.rs:8-26. -/
def Value.hash : Value → List Tok
  | .literal l none => [.tag 0, .lit l, .tag 0]
  | .literal l (some t) => [.tag 0, .lit l, .tag 1, .str t]
  | .langString s => .tag 1 :: .str s.data :: (optLangHash s.language ++
      match s.direction with
      | none => [.tag 0]
      | some d => [.tag 1, .dir d])
  | .json j => [.tag 2, .json j]

/-- Hash of an optional identifier. -/
def optIdHash : Option Id → List Tok
  | none => [.tag 0]
  | some i => [.tag 1, .id i]

section
variable (fin : List Tok → UInt64)

/-- `hash_set_opt` of the types, utils/hash.rs:11-37. An absent set writes nothing. -/
def typesHash : Option (List Id) → List Tok
  | none => []
  | some l => [.word ((l.map fun i => fin [.id i]).sum)]

mutual
/-- Derived hash of `Indexed<Object>`, indexed.rs:13 and object/mod.rs:97. -/
def Obj.hash : Obj → List Tok
  | .value i v => optStrHash i ++ .tag 0 :: v.hash
  | .list i l => optStrHash i ++ .tag 2 :: .tag l.length :: objsHash l
  | .node n => n.hash
/-- Hash of an indexed node as an object: `Node::hash`, object/node/mod.rs:1200-1210, preceded by
the index and the tag of the variant. (The tag is absent when a node is hashed on its own; it is a
constant.) -/
def Node.hash : Node → List Tok
  | .mk i id ty g inc ps rv => optStrHash i ++ .tag 1 :: (optIdHash id ++ typesHash fin ty ++
      gHash g ++ incHash inc ++ [.word (psSum ps)] ++ rvHash rv)
/-- `hash_set_opt`, utils/hash.rs:30-37. -/
def gHash : Option (List Obj) → List Tok
  | none => []
  | some l => [.word (objsSum l)]
/-- `hash_set_opt`, utils/hash.rs:30-37. -/
def incHash : Option (List Node) → List Tok
  | none => []
  | some l => [.word (nodesSum l)]
/-- Derived hash of the optional reverse properties (reverse_properties.rs:235-240). -/
def rvHash : Option (List (Id × List Node)) → List Tok
  | none => [.tag 0]
  | some l => [.tag 1, .word (rpsSum l)]
/-- Hash of the items of a `Vec`, in order. -/
def objsHash : List Obj → List Tok
  | [] => []
  | o :: os => o.hash ++ objsHash os
/-- The wrapping sum of the hashes of the items: `Multiset::hash`, multiset.rs:194-203, and
`hash_set`, utils/hash.rs:11-27. (The code adds from the left; wrapping addition is associative
and commutative.) -/
def objsSum : List Obj → UInt64
  | [] => 0
  | o :: os => fin o.hash + objsSum os
/-- The wrapping sum of the hashes of the nodes. -/
def nodesSum : List Node → UInt64
  | [] => 0
  | o :: os => fin o.hash + nodesSum os
/-- `hash_map` of the properties, utils/hash.rs:46-62, properties.rs:230-235. -/
def psSum : List (Id × List Obj) → UInt64
  | [] => 0
  | (k, l) :: ps => fin [.id k, .word (objsSum l)] + psSum ps
/-- `hash_map` of the reverse properties. -/
def rpsSum : List (Id × List Node) → UInt64
  | [] => 0
  | (k, l) :: ps => fin [.id k, .word (nodesSum l)] + rpsSum ps
end
end

end JsonLd
