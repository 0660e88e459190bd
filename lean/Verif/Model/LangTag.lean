/-!
# Language tags (`crates/syntax/src/utils.rs`, `lang.rs`)

A tag is the list of its bytes.
-/

namespace JsonLd

/-- `into_smallcase`, crates/syntax/src/utils.rs:6-12 (`u8::is_ascii_uppercase`, `c + 0x20`). -/
def intoSmallcase (c : UInt8) : UInt8 :=
  if 0x41 ≤ c ∧ c ≤ 0x5a then c + 0x20 else c

/-- The loop of `case_insensitive_eq`, crates/syntax/src/utils.rs:16-20 (both of equal length). -/
def ciEqLoop : List UInt8 → List UInt8 → Bool
  | a :: as, b :: bs => if intoSmallcase a ≠ intoSmallcase b then false else ciEqLoop as bs
  | _, _ => true

/-- `case_insensitive_eq`, crates/syntax/src/utils.rs:14-26; `LenientLangTag::eq`, lang.rs:35-39. -/
def ciEq (a b : List UInt8) : Bool :=
  if a.length = b.length then ciEqLoop a b else false

/-- What `case_insensitive_hash` writes to the hasher, in order,
crates/syntax/src/utils.rs:28-32; `LenientLangTag::hash`, lang.rs:55-59. -/
def ciHashInput : List UInt8 → List UInt8
  | [] => []
  | b :: bs => intoSmallcase b :: ciHashInput bs

/-- `case_insensitive_cmp`, crates/syntax/src/utils.rs:34-53; `LenientLangTag::cmp`,
lang.rs:49-53. The index loop is a simultaneous recursion; note that the code makes a proper
prefix *greater* than its extensions. -/
def ciCmp : List UInt8 → List UInt8 → Ordering
  | [], [] => .eq
  | [], _ :: _ => .gt
  | _ :: _, [] => .lt
  | a :: as, b :: bs =>
    match compare (intoSmallcase a) (intoSmallcase b) with
    | .eq => ciCmp as bs
    | o => o

end JsonLd
