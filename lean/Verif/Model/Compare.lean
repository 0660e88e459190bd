import Verif.Base.Json
/-!
# Structural comparison of JSON documents (`crates/syntax/src/compare.rs`)
-/

namespace JsonLd

/-- `json_syntax::Object::get_unique` (external): `Err` (here `none`) if the key occurs more than
once, otherwise the value if the key occurs. -/
def getUnique (m : List (Str × Json)) (k : Str) : Option (Option Json) :=
  match m.filter (fun e => e.1 = k) with
  | [] => some none
  | [e] => some (some e.2)
  | _ => none

/-- The inner loop over the not yet selected items of the other array, crates/syntax/src/compare.rs:
21-26: the remaining items after selecting the first match, if any; outer `none` is a panic inside
the comparison. The `selected` flags are modelled by removing the selected item. -/
def selectFirst (p : Json → Option Bool) : List Json → Option (Option (List Json))
  | [] => some none
  | b :: bs => match p b with
    | none => none
    | some true => some (some bs)
    | some false => match selectFirst p bs with
      | none => none
      | some none => some none
      | some (some r) => some (some (b :: r))

mutual
/-- `Compare::compare` for JSON values, crates/syntax/src/compare.rs:8-57. The result `none` is the
panic of `expect("invalid JSON-LD")` at line 39. -/
def Json.compare : Json → Json → Option Bool
  | .null, .null => some true
  | .bool a, .bool b => some (a == b)
  | .num a, .num b => some (a == b)
  | .str a, .str b => some (a == b)
  | .arr a, .arr b => if a.length = b.length then compareItems a b else some false
  | .obj a, .obj b => if a.length = b.length then compareEntries a b else some false
  | _, _ => some false
/-- The loop over the items of the left array, crates/syntax/src/compare.rs:20-31. -/
def compareItems : List Json → List Json → Option Bool
  | [], _ => some true
  | a :: as, bs => match selectFirst (Json.compare a) bs with
    | none => none
    | some none => some false
    | some (some bs') => compareItems as bs'
/-- The loop over the entries of the left object, crates/syntax/src/compare.rs:38-49. -/
def compareEntries : List (Str × Json) → List (Str × Json) → Option Bool
  | [], _ => some true
  | (k, v) :: es, m => match getUnique m k with
    | none => none
    | some none => some false
    | some (some w) => match Json.compare v w with
      | none => none
      | some false => some false
      | some true => compareEntries es m
end

end JsonLd
