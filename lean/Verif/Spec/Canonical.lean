import Verif.Model.Doc
/-!
# The values of a document
-/

namespace JsonLd.Spec

mutual
/-- The values of an object, at every depth, in reading order; the flag tells those that are inside a
`@graph` or `@included` entry. -/
def objVals (b : Bool) : Obj → List (Bool × Value)
  | .value _ v => [(b, v)]
  | .list _ l => objsVals b l
  | .node n => nodeVals b n
/-- See `objVals`. -/
def nodeVals (b : Bool) : Node → List (Bool × Value)
  | .mk _ _ _ g inc ps rv => gVals g ++ incVals inc ++ psVals b ps ++ rvVals b rv
/-- See `objVals`. -/
def gVals : Option (List Obj) → List (Bool × Value)
  | none => []
  | some l => objsVals true l
/-- See `objVals`. -/
def incVals : Option (List Node) → List (Bool × Value)
  | none => []
  | some l => nodesVals true l
/-- See `objVals`. -/
def rvVals (b : Bool) : Option (List (Id × List Node)) → List (Bool × Value)
  | none => []
  | some l => rpsVals b l
/-- See `objVals`. -/
def objsVals (b : Bool) : List Obj → List (Bool × Value)
  | [] => []
  | o :: os => objVals b o ++ objsVals b os
/-- See `objVals`. -/
def nodesVals (b : Bool) : List Node → List (Bool × Value)
  | [] => []
  | n :: ns => nodeVals b n ++ nodesVals b ns
/-- See `objVals`. -/
def psVals (b : Bool) : List (Id × List Obj) → List (Bool × Value)
  | [] => []
  | (_, l) :: ps => objsVals b l ++ psVals b ps
/-- See `objVals`. -/
def rpsVals (b : Bool) : List (Id × List Node) → List (Bool × Value)
  | [] => []
  | (_, l) :: ps => nodesVals b l ++ rpsVals b ps
end

mutual
/-- The object with every value, at every depth, replaced by the same one: what remains is the shape
and the identifiers. -/
def objBare : Obj → Obj
  | .value i _ => .value i (.json .null)
  | .list i l => .list i (objsBare l)
  | .node n => .node (nodeBare n)
/-- See `objBare`. -/
def nodeBare : Node → Node
  | .mk i id ty g inc ps rv => .mk i id ty (gBare g) (incBare inc) (psBare ps) (rvBare rv)
/-- See `objBare`. -/
def gBare : Option (List Obj) → Option (List Obj)
  | none => none
  | some l => some (objsBare l)
/-- See `objBare`. -/
def incBare : Option (List Node) → Option (List Node)
  | none => none
  | some l => some (nodesBare l)
/-- See `objBare`. -/
def rvBare : Option (List (Id × List Node)) → Option (List (Id × List Node))
  | none => none
  | some l => some (rpsBare l)
/-- See `objBare`. -/
def objsBare : List Obj → List Obj
  | [] => []
  | o :: os => objBare o :: objsBare os
/-- See `objBare`. -/
def nodesBare : List Node → List Node
  | [] => []
  | n :: ns => nodeBare n :: nodesBare ns
/-- See `objBare`. -/
def psBare : List (Id × List Obj) → List (Id × List Obj)
  | [] => []
  | (k, l) :: ps => (k, objsBare l) :: psBare ps
/-- See `objBare`. -/
def rpsBare : List (Id × List Node) → List (Id × List Node)
  | [] => []
  | (k, l) :: ps => (k, nodesBare l) :: rpsBare ps
end

/-- `w` is the value `v` with its number, or the JSON value it consists of, in canonical form (`num`
and `json` give the canonical forms). -/
inductive Canonical (num : Str → Str) (json : Json → Json) : Value → Value → Prop where
  | number {n : Str} {t : Option Str} :
      Canonical num json (.literal (.num n) t) (.literal (.num (num n)) t)
  | json {j : Json} : Canonical num json (.json j) (.json (json j))
  | other {l : Literal} {t : Option Str} : (∀ n, l ≠ .num n) →
      Canonical num json (.literal l t) (.literal l t)
  | string {s : LangString} : Canonical num json (.langString s) (.langString s)

end JsonLd.Spec
