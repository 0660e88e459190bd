import Verif.Base.Json
import Verif.Base.Greedy
/-!
# Comparison of JSON-LD documents (`crates/core/src/utils/comparison.rs`)
-/

namespace JsonLd

/-- `json_syntax::Object::get(key).next()` (external): the first value of the key. -/
def firstOf (m : List (Str × Json)) (k : Str) : Option Json := (m.find? fun e => e.1 == k).map Prod.snd

/-- `(Value::Array(item_a), Value::Array(item_b)) if item_a.len() == item_b.len()`, comparison.rs:29-31. -/
def sameLength : Json → Json → Bool
  | .arr x, .arr y => decide (x.length = y.length)
  | _, _ => false

mutual
/-- `simple_json_ld_eq`, crates/core/src/utils/comparison.rs:3-62. -/
def simpleEq : Json → Json → Bool
  | .arr a, .arr b => if a.length = b.length then simpleItems a b else false
  | .obj a, .obj b => if a.length = b.length then simpleEntries a b else false
  | .null, .null => true
  | .bool a, .bool b => a == b
  | .num a, .num b => a == b
  | .str a, .str b => a == b
  | _, _ => false
termination_by structural a => a
/-- The loop over the items of the left array, comparison.rs:9-20. The `selected` flags are modelled by removing the
selected item. -/
def simpleItems : List Json → List Json → Bool
  | [], _ => true
  | a :: as, bs => match removeFirst (simpleEq a) bs with
    | none => false
    | some bs' => simpleItems as bs'
termination_by structural as => as
/-- The loop over the entries of the left object, comparison.rs:23-52. -/
def simpleEntries : List (Str × Json) → List (Str × Json) → Bool
  | [], _ => true
  | (k, v) :: es, m => match firstOf m k with
    | none => false
    | some w =>
      (if k = "@list".toList ∧ sameLength v w = true then simpleOrdered v w else simpleEq v w) && simpleEntries es m
termination_by structural es => es
/-- The values of `@list`, comparison.rs:30-38, for arrays of the same length. -/
def simpleOrdered : Json → Json → Bool
  | .arr x, .arr y => simpleZip x y
  | _, _ => true
termination_by structural a => a
/-- `item_a.iter().zip(item_b).all(|(a, b)| simple_json_ld_eq(a, b))`, comparison.rs:32-35. -/
def simpleZip : List Json → List Json → Bool
  | a :: as, b :: bs => simpleEq a b && simpleZip as bs
  | _, _ => true
termination_by structural as => as
end

end JsonLd
