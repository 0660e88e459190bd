import Verif.Model.Print
/-!
# The text of a JSON value, and the JSON value shown for a document
-/

namespace JsonLd.Spec

section
variable (P : Printer)

mutual
/-- The size of a JSON value. -/
def size : Json → PSize
  | .null => .width 4
  | .bool true => .width 4
  | .bool false => .width 5
  | .num n => .width n.length
  | .str s => .width (P.strSize s)
  | .arr l => P.arrSize (sizes l)
  | .obj m => P.objSize (memberSizes m)
/-- Those of the items of an array. -/
def sizes : List Json → List PSize
  | [] => []
  | j :: l => size j :: sizes l
/-- Those of the members of an object. -/
def memberSizes : List (Str × Json) → List (Str × PSize)
  | [] => []
  | (k, j) :: l => (k, size j) :: memberSizes l
end

mutual
/-- The text of a JSON value, at some indentation: every array and object in it is laid out according
to its own size. -/
def text (ind : Nat) : Json → Str
  | .null => "null".toList
  | .bool true => "true".toList
  | .bool false => "false".toList
  | .num n => n
  | .str s => P.strText s
  | .arr l => P.arrText (size P (.arr l)) ind (texts (P.inner (size P (.arr l)) ind) l)
  | .obj m => P.objText (size P (.obj m)) ind (memberTexts (P.inner (size P (.obj m)) ind) m)
/-- The texts of the items of an array. -/
def texts (ind : Nat) : List Json → List Str
  | [] => []
  | j :: l => text ind j :: texts ind l
/-- The texts of the members of an object. -/
def memberTexts (ind : Nat) : List (Str × Json) → List (Str × Str)
  | [] => []
  | (k, j) :: l => (k, text ind j) :: memberTexts ind l
end

end

/-- A member that may be there. -/
def member (k : Str) : Option Json → List (Str × Json)
  | some j => [(k, j)]
  | none => []

/-- The members shown for a value. -/
def shownValue : Value → List (Str × Json)
  | .literal l ty => ("@value".toList, match l with
      | .null => .null
      | .bool b => .bool b
      | .num n => .num n
      | .str s => .str s) :: member "@type".toList (ty.map .str)
  | .langString s => ("@value".toList, .str s.data) ::
      (member "@language".toList (s.language.map .str) ++
       member "@direction".toList (s.direction.map fun d => .str d.asStr))
  | .json j => [("@value".toList, j), ("@type".toList, .str "@json".toList)]

mutual
/-- The JSON object shown for an object: the index, if any, and what it consists of. -/
def shown : Obj → Json
  | .value i v => .obj (member "@index".toList (i.map .str) ++ shownValue v)
  | .list i l => .obj (member "@index".toList (i.map .str) ++ [("@list".toList, .arr (shownObjs l))])
  | .node n => shownNode n
/-- The JSON object shown for a node. -/
def shownNode : Node → Json
  | .mk i id ty g inc ps rv => .obj (member "@index".toList (i.map .str) ++
      (member "@id".toList (id.map fun x => .str x.str) ++
       member "@type".toList (ty.map fun ts => .arr (ts.map fun t => .str t.str)) ++
       shownGraph g ++ shownIncluded inc ++ shownReverse rv ++ shownProps ps))
/-- The graph, if any. -/
def shownGraph : Option (List Obj) → List (Str × Json)
  | none => []
  | some l => [("@graph".toList, .arr (shownObjs l))]
/-- The included nodes, if any. -/
def shownIncluded : Option (List Node) → List (Str × Json)
  | none => []
  | some l => [("@included".toList, .arr (shownNodes l))]
/-- The reverse properties, if any. -/
def shownReverse : Option (List (Id × List Node)) → List (Str × Json)
  | none => []
  | some l => [("@reverse".toList, .obj (shownReverseProps l))]
/-- Objects one after the other. -/
def shownObjs : List Obj → List Json
  | [] => []
  | o :: os => shown o :: shownObjs os
/-- Nodes one after the other. -/
def shownNodes : List Node → List Json
  | [] => []
  | o :: os => shownNode o :: shownNodes os
/-- Properties one after the other. -/
def shownProps : List (Id × List Obj) → List (Str × Json)
  | [] => []
  | (k, l) :: ps => (k.str, .arr (shownObjs l)) :: shownProps ps
/-- Reverse properties one after the other. -/
def shownReverseProps : List (Id × List Node) → List (Str × Json)
  | [] => []
  | (k, l) :: ps => (k.str, .arr (shownNodes l)) :: shownReverseProps ps
end

/-- The JSON array shown for a document. -/
def shownDoc (d : Doc) : Json := .arr (shownObjs d)

end JsonLd.Spec
