import Verif.Model.DocJson
/-!
# Printing expanded documents

(`crates/core/src/print.rs`.) Printing goes over the value twice. The first pass computes the size of
every array and object and appends it to a list, in the order in which they begin. The second writes
the text, and takes from this list, one after the other, the sizes of the arrays and objects it meets:
whether one is written on one line or on several depends on it.

The options are fixed. What the external crate `json_syntax` does with the sizes is in `Printer`.
Identifiers are texts, so the vocabulary disappears; the `unwrap` on its answer
(print.rs:312, 329) is no panic.
-/

namespace JsonLd

/-- `json_syntax::print::Size`. -/
inductive PSize where
  | expanded
  | width (n : Nat)
  deriving DecidableEq, Repr

/-- The functions of `json_syntax::print` used here, for given options. -/
structure Printer where
  /-- `printed_string_size`. -/
  strSize : Str → Nat
  /-- `string_literal`. -/
  strText : Str → Str
  /-- The size of an array, from those of its items. -/
  arrSize : List PSize → PSize
  /-- The size of an object, from its keys and the sizes of their values. -/
  objSize : List (Str × PSize) → PSize
  /-- The indentation of the items of an array or object of the given size, at the given indentation. -/
  inner : PSize → Nat → Nat
  /-- The text of an array of the given size, at the given indentation, from those of its items. -/
  arrText : PSize → Nat → List Str → Str
  /-- The same for objects. -/
  objText : PSize → Nat → List (Str × Str) → Str

/-- What `pre_compute_size` returns, and what it appends to the sizes. -/
abbrev Pre := PSize × List PSize

/-- What the second pass does, at the given indentation and with the sizes that are left: the text and
the sizes left after it; `none` is the panic when there is none left. -/
abbrev Fmt := Nat → List PSize → Option (Str × List PSize)

section
variable (P : Printer)

/-- `pre_compute_array_size`, external: the place of the array's own size is before those of its
items. -/
def preArr (items : List Pre) : Pre :=
  (P.arrSize (items.map (·.1)), P.arrSize (items.map (·.1)) :: items.flatMap (·.2))

/-- `pre_compute_object_size`, external. -/
def preObj (es : List (Str × Pre)) : Pre :=
  (P.objSize (es.map fun e => (e.1, e.2.1)),
    P.objSize (es.map fun e => (e.1, e.2.1)) :: es.flatMap (·.2.2))

/-- The items, one after the other. -/
def fmtItems (ind : Nat) : List Fmt → List PSize → Option (List Str × List PSize)
  | [], sizes => some ([], sizes)
  | f :: fs, sizes => do
    let (t, sizes) ← f ind sizes
    let (ts, sizes) ← fmtItems ind fs sizes
    some (t :: ts, sizes)

/-- `print_array`, external: `sizes[*index]`, then the items. -/
def fmtArr (items : List Fmt) : Fmt
  | _, [] => none
  | ind, s :: sizes => do
    let (ts, sizes) ← fmtItems (P.inner s ind) items sizes
    some (P.arrText s ind ts, sizes)

/-- `print_object`, external. -/
def fmtObj (es : List (Str × Fmt)) : Fmt
  | _, [] => none
  | ind, s :: sizes => do
    let (ts, sizes) ← fmtItems (P.inner s ind) (es.map (·.2)) sizes
    some (P.objText s ind ((es.map (·.1)).zip ts), sizes)

/-- The size of a text, appending nothing. -/
def preStr (s : Str) : Pre := (.width (P.strSize s), [])

/-- A text is written without taking any size. -/
def fmtText (t : Str) : Fmt := fun _ sizes => some (t, sizes)

/-- `string_literal`. -/
def fmtStr (s : Str) : Fmt := fmtText (P.strText s)

/-! ## JSON values (external crate) -/

mutual
/-- `pre_compute_size` of `json_syntax::Value`. -/
def Json.pre : Json → Pre
  | .null => (.width 4, [])
  | .bool b => (.width (if b then 4 else 5), [])
  | .num n => (.width n.length, [])
  | .str s => preStr P s
  | .arr l => preArr P (jsonsPre l)
  | .obj m => preObj P (membersPre m)
/-- See `Json.pre`. -/
def jsonsPre : List Json → List Pre
  | [] => []
  | j :: l => j.pre :: jsonsPre l
/-- See `Json.pre`. -/
def membersPre : List (Str × Json) → List (Str × Pre)
  | [] => []
  | (k, j) :: l => (k, j.pre) :: membersPre l
end

mutual
/-- `fmt_with_size` of `json_syntax::Value`. -/
def Json.fmt : Json → Fmt
  | .null => fmtText "null".toList
  | .bool b => fmtText (if b then "true".toList else "false".toList)
  | .num n => fmtText n
  | .str s => fmtStr P s
  | .arr l => fmtArr P (jsonsFmt l)
  | .obj m => fmtObj P (membersFmt m)
/-- See `Json.fmt`. -/
def jsonsFmt : List Json → List Fmt
  | [] => []
  | j :: l => j.fmt :: jsonsFmt l
/-- See `Json.fmt`. -/
def membersFmt : List (Str × Json) → List (Str × Fmt)
  | [] => []
  | (k, j) :: l => (k, j.fmt) :: membersFmt l
end

/-! ## Values -/

/-- `Literal::pre_compute_size`, print.rs:375-384. -/
def Literal.pre : Literal → Pre
  | .null => (.width 4, [])
  | .bool b => (.width (if b then 4 else 5), [])
  | .num n => (.width n.length, [])
  | .str s => preStr P s

/-- `Literal::fmt_with`, print.rs:386-400. -/
def Literal.fmt : Literal → Fmt
  | .null => fmtText "null".toList
  | .bool b => fmtText (if b then "true".toList else "false".toList)
  | .num n => fmtText n
  | .str s => fmtStr P s

/-- `TypeRef::contextual_pre_compute_size`, print.rs:310-315: `none` is `@json`. -/
def typeRefPre : Option Str → Pre
  | some t => preStr P t
  | none => preStr P "@json".toList

/-- `TypeRef::contextual_fmt_with`, print.rs:330-346. -/
def typeRefFmt : Option Str → Fmt
  | some t => fmtStr P t
  | none => fmtStr P "@json".toList

/-- The entries of a value (object/value.rs:236-258, in the order of 491-500), with their keys
(object/value.rs:444-451) and sizes, print.rs:262-273 and 348-356. -/
def Value.preEntries : Value → List (Str × Pre)
  | .literal l ty =>
    ("@value".toList, l.pre P) :: (ty.map fun t => ("@type".toList, typeRefPre P (some t))).toList
  | .langString s =>
    ("@value".toList, preStr P s.data) ::
    ((s.language.map fun l => ("@language".toList, preStr P l)).toList ++
     (s.direction.map fun d => ("@direction".toList, preStr P d.asStr)).toList)
  | .json j => [("@value".toList, j.pre P), ("@type".toList, typeRefPre P none)]

/-- The entries of a value, print.rs:276-299 and 358-373. -/
def Value.fmtEntries : Value → List (Str × Fmt)
  | .literal l ty =>
    ("@value".toList, l.fmt P) :: (ty.map fun t => ("@type".toList, typeRefFmt P (some t))).toList
  | .langString s =>
    ("@value".toList, fmtStr P s.data) ::
    ((s.language.map fun l => ("@language".toList, fmtStr P l)).toList ++
     (s.direction.map fun d => ("@direction".toList, fmtStr P d.asStr)).toList)
  | .json j => [("@value".toList, j.fmt P), ("@type".toList, typeRefFmt P none)]

/-- The index comes first: object/mod.rs:548-553, print.rs:180 and 505. -/
def preIndex (i : Option Str) : List (Str × Pre) :=
  (i.map fun s => ("@index".toList, preStr P s)).toList

/-- The index, print.rs:203 and 525. -/
def fmtIndex (i : Option Str) : List (Str × Fmt) :=
  (i.map fun s => ("@index".toList, fmtStr P s)).toList

/-- `Id::contextual_pre_compute_size`, print.rs:93-102. -/
def Id.pre (i : Id) : Pre := preStr P i.str

/-- `Id::contextual_fmt_with`, print.rs:104-114; `contextual_fmt_with_size`, 116-128. -/
def Id.fmt (i : Id) : Fmt := fmtStr P i.str

/-! ## Objects -/

mutual
/-- `Indexed<Object>::contextual_pre_compute_size`, print.rs:130-148, 169-186 and 213-234. -/
def Obj.pre : Obj → Pre
  | .value i v => preObj P (preIndex P i ++ v.preEntries P)
  | .list i l => preObj P (preIndex P i ++ [("@list".toList, preArr P (objsPre l))])
  | .node n => n.pre
/-- `Indexed<Node>::contextual_pre_compute_size`, print.rs:451-469, 494-511 and 534-562. The entries are
those of object/node/mod.rs:453-462, in the order of 949-963, with the keys of 760-773. -/
def Node.pre : Node → Pre
  | .mk i id ty g inc ps rv => preObj P (preIndex P i ++
      ((id.map fun x => ("@id".toList, x.pre P)).toList ++
       (ty.map fun ts => ("@type".toList, preArr P (ts.map (Id.pre P)))).toList ++
       gPre g ++ incPre inc ++ rvPre rv ++ psPre ps))
/-- `@graph`, print.rs:549-552. -/
def gPre : Option (List Obj) → List (Str × Pre)
  | none => []
  | some l => [("@graph".toList, preArr P (objsPre l))]
/-- `@included`, print.rs:553-556. -/
def incPre : Option (List Node) → List (Str × Pre)
  | none => []
  | some l => [("@included".toList, preArr P (nodesPre l))]
/-- `@reverse`, print.rs:557-559 and 626-643. -/
def rvPre : Option (List (Id × List Node)) → List (Str × Pre)
  | none => []
  | some l => [("@reverse".toList, preObj P (rpsPre l))]
/-- Objects one after the other. -/
def objsPre : List Obj → List Pre
  | [] => []
  | o :: os => o.pre :: objsPre os
/-- Nodes one after the other. -/
def nodesPre : List Node → List Pre
  | [] => []
  | o :: os => o.pre :: nodesPre os
/-- The properties, print.rs:560-562. -/
def psPre : List (Id × List Obj) → List (Str × Pre)
  | [] => []
  | (k, l) :: ps => (k.str, preArr P (objsPre l)) :: psPre ps
/-- The reverse properties, print.rs:636-641. -/
def rpsPre : List (Id × List Node) → List (Str × Pre)
  | [] => []
  | (k, l) :: ps => (k.str, preArr P (nodesPre l)) :: rpsPre ps
end

mutual
/-- `Indexed<Object>::contextual_fmt_with_size`, print.rs:150-174, 188-211 and 236-267. -/
def Obj.fmt : Obj → Fmt
  | .value i v => fmtObj P (fmtIndex P i ++ v.fmtEntries P)
  | .list i l => fmtObj P (fmtIndex P i ++ [("@list".toList, fmtArr P (objsFmt l))])
  | .node n => n.fmt
/-- `Indexed<Node>::contextual_fmt_with_size`, print.rs:471-495, 513-532 and 566-624. -/
def Node.fmt : Node → Fmt
  | .mk i id ty g inc ps rv => fmtObj P (fmtIndex P i ++
      ((id.map fun x => ("@id".toList, x.fmt P)).toList ++
       (ty.map fun ts => ("@type".toList, fmtArr P (ts.map (Id.fmt P)))).toList ++
       gFmt g ++ incFmt inc ++ rvFmt rv ++ psFmt ps))
/-- `@graph`, print.rs:589-599. -/
def gFmt : Option (List Obj) → List (Str × Fmt)
  | none => []
  | some l => [("@graph".toList, fmtArr P (objsFmt l))]
/-- `@included`, print.rs:600-610. -/
def incFmt : Option (List Node) → List (Str × Fmt)
  | none => []
  | some l => [("@included".toList, fmtArr P (nodesFmt l))]
/-- `@reverse`, print.rs:611-613 and 645-664. -/
def rvFmt : Option (List (Id × List Node)) → List (Str × Fmt)
  | none => []
  | some l => [("@reverse".toList, fmtObj P (rpsFmt l))]
/-- Objects one after the other. -/
def objsFmt : List Obj → List Fmt
  | [] => []
  | o :: os => o.fmt :: objsFmt os
/-- Nodes one after the other. -/
def nodesFmt : List Node → List Fmt
  | [] => []
  | o :: os => o.fmt :: nodesFmt os
/-- The properties, print.rs:614-621. -/
def psFmt : List (Id × List Obj) → List (Str × Fmt)
  | [] => []
  | (k, l) :: ps => (k.str, fmtArr P (objsFmt l)) :: psFmt ps
/-- The reverse properties, print.rs:656-663. -/
def rpsFmt : List (Id × List Node) → List (Str × Fmt)
  | [] => []
  | (k, l) :: ps => (k.str, fmtArr P (nodesFmt l)) :: rpsFmt ps
end

/-- `ExpandedDocument::contextual_pre_compute_size`, print.rs:24-39. -/
def Doc.pre (d : Doc) : Pre := preArr P (objsPre P d)

/-- `ExpandedDocument::contextual_fmt_with_size`, print.rs:71-91. -/
def Doc.fmt (d : Doc) : Fmt := fmtArr P (objsFmt P d)

/-- `ExpandedDocument::contextual_fmt_with`, print.rs:41-54: both passes. `none` is a panic; the sizes
that are not used are returned too. -/
def Doc.print (ind : Nat) (d : Doc) : Option (Str × List PSize) := d.fmt P ind (d.pre P).2

/-- `Node::contextual_fmt_with`, print.rs:56-69, of a node without index (430-449). -/
def Node.print (ind : Nat) (n : Node) : Option (Str × List PSize) :=
  match n with
  | .mk _ id ty g inc ps rv =>
    (Node.mk none id ty g inc ps rv).fmt P ind ((Node.mk none id ty g inc ps rv).pre P).2

end
end JsonLd
