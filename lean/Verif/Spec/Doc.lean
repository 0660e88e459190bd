import Verif.Model.Doc
/-!
# Reading a document: what occurs in it

Definitions used to state properties of documents. None of the functions of the model under test
is used here, only the data type.
-/

namespace JsonLd.Spec

mutual
/-- Identifier and types of every node of an object, at every depth, in reading order. -/
def objHeaders : Obj → List (Option Id × Option (List Id))
  | .value _ _ => []
  | .list _ l => objsHeaders l
  | .node n => nodeHeaders n
/-- Identifier and types of this node and of every node inside, in reading order. -/
def nodeHeaders : Node → List (Option Id × Option (List Id))
  | .mk _ id ty g inc ps rv =>
    (id, ty) :: (gHeaders g ++ incHeaders inc ++ psHeaders ps ++ rvHeaders rv)
/-- Nodes of the `@graph` entry. -/
def gHeaders : Option (List Obj) → List (Option Id × Option (List Id))
  | none => []
  | some l => objsHeaders l
/-- Nodes of the `@included` entry. -/
def incHeaders : Option (List Node) → List (Option Id × Option (List Id))
  | none => []
  | some l => nodesHeaders l
/-- Nodes of the `@reverse` entry. -/
def rvHeaders : Option (List (Id × List Node)) → List (Option Id × Option (List Id))
  | none => []
  | some l => rpsHeaders l
/-- Nodes of a sequence of objects. -/
def objsHeaders : List Obj → List (Option Id × Option (List Id))
  | [] => []
  | o :: os => objHeaders o ++ objsHeaders os
/-- Nodes of a sequence of nodes. -/
def nodesHeaders : List Node → List (Option Id × Option (List Id))
  | [] => []
  | o :: os => nodeHeaders o ++ nodesHeaders os
/-- Nodes of the properties. -/
def psHeaders : List (Id × List Obj) → List (Option Id × Option (List Id))
  | [] => []
  | (_, l) :: ps => objsHeaders l ++ psHeaders ps
/-- Nodes of the reverse properties. -/
def rpsHeaders : List (Id × List Node) → List (Option Id × Option (List Id))
  | [] => []
  | (_, l) :: ps => nodesHeaders l ++ rpsHeaders ps
end

mutual
/-- The object with `f` applied to the identifier and `t` to every type of every node, at every
depth. Everything else is kept. -/
def mapObj (f : Option Id → Option Id) (t : Id → Id) : Obj → Obj
  | .value i v => .value i v
  | .list i l => .list i (mapObjs f t l)
  | .node n => .node (mapNode f t n)
/-- See `mapObj`. -/
def mapNode (f : Option Id → Option Id) (t : Id → Id) : Node → Node
  | .mk i id ty g inc ps rv =>
    .mk i (f id) (ty.map (List.map t)) (mapG f t g) (mapInc f t inc) (mapPs f t ps) (mapRv f t rv)
/-- See `mapObj`. -/
def mapG (f : Option Id → Option Id) (t : Id → Id) : Option (List Obj) → Option (List Obj)
  | none => none
  | some l => some (mapObjs f t l)
/-- See `mapObj`. -/
def mapInc (f : Option Id → Option Id) (t : Id → Id) : Option (List Node) → Option (List Node)
  | none => none
  | some l => some (mapNodes f t l)
/-- See `mapObj`. -/
def mapRv (f : Option Id → Option Id) (t : Id → Id) :
    Option (List (Id × List Node)) → Option (List (Id × List Node))
  | none => none
  | some l => some (mapRps f t l)
/-- See `mapObj`. -/
def mapObjs (f : Option Id → Option Id) (t : Id → Id) : List Obj → List Obj
  | [] => []
  | o :: os => mapObj f t o :: mapObjs f t os
/-- See `mapObj`. -/
def mapNodes (f : Option Id → Option Id) (t : Id → Id) : List Node → List Node
  | [] => []
  | o :: os => mapNode f t o :: mapNodes f t os
/-- See `mapObj`. -/
def mapPs (f : Option Id → Option Id) (t : Id → Id) :
    List (Id × List Obj) → List (Id × List Obj)
  | [] => []
  | (k, l) :: ps => (k, mapObjs f t l) :: mapPs f t ps
/-- See `mapObj`. -/
def mapRps (f : Option Id → Option Id) (t : Id → Id) :
    List (Id × List Node) → List (Id × List Node)
  | [] => []
  | (k, l) :: ps => (k, mapNodes f t l) :: mapRps f t ps
end

/-- The document with the identifiers and types of all nodes rewritten. -/
def mapDoc (f : Option Id → Option Id) (t : Id → Id) (d : Doc) : Doc := mapObjs f t d

/-- Identifier and types of every node of the document. -/
def docHeaders (d : Doc) : List (Option Id × Option (List Id)) := objsHeaders d

/-- The document with all identifiers removed, and all types kept. -/
def withoutIds (d : Doc) : Doc := mapDoc (fun _ => none) (fun t => t) d

/-- Nodes are listed in the same order before and after; this lists the identifiers after of the
nodes that had none before. -/
def newIds (before after : List (Option Id × Option (List Id))) : List Id :=
  (before.zip after).filterMap fun p => if p.1.1 = none then p.2.1 else none

/-- The blank node labels among a list of identifiers. -/
def blankLabels : List Id → List Str
  | [] => []
  | .blank b :: is => b :: blankLabels is
  | _ :: is => blankLabels is

/-- The identifiers written in one node: its own and its types. -/
def headerIds (h : Option Id × Option (List Id)) : List Id := h.1.toList ++ h.2.getD []

/-- All identifiers written as `@id` or `@type` in the document. -/
def docIds (d : Doc) : List Id := (docHeaders d).flatMap headerIds

/-- Replacing blank node labels by identifiers. -/
def renameId (ρ : Str → Id) : Id → Id
  | .blank b => ρ b
  | i => i

/-- The document with every identifier and type erased: what is left is the shape, the property
keys, the indexes and the values. -/
def shape (d : Doc) : Doc := mapDoc (fun _ => none) (fun _ => .iri []) d

/-- Renaming blank node labels. -/
def renLabel (f : Str → Str) : Id → Id
  | .blank b => .blank (f b)
  | i => i

mutual
/-- The object with every blank node label renamed: identifiers, types and property keys, at every
depth. -/
def renObj (f : Str → Str) : Obj → Obj
  | .value i v => .value i v
  | .list i l => .list i (renObjs f l)
  | .node n => .node (renNode f n)
/-- See `renObj`. -/
def renNode (f : Str → Str) : Node → Node
  | .mk i id ty g inc ps rv =>
    .mk i (id.map (renLabel f)) (ty.map (List.map (renLabel f))) (renG f g) (renInc f inc)
      (renPs f ps) (renRv f rv)
/-- See `renObj`. -/
def renG (f : Str → Str) : Option (List Obj) → Option (List Obj)
  | none => none
  | some l => some (renObjs f l)
/-- See `renObj`. -/
def renInc (f : Str → Str) : Option (List Node) → Option (List Node)
  | none => none
  | some l => some (renNodes f l)
/-- See `renObj`. -/
def renRv (f : Str → Str) : Option (List (Id × List Node)) → Option (List (Id × List Node))
  | none => none
  | some l => some (renRps f l)
/-- See `renObj`. -/
def renObjs (f : Str → Str) : List Obj → List Obj
  | [] => []
  | o :: os => renObj f o :: renObjs f os
/-- See `renObj`. -/
def renNodes (f : Str → Str) : List Node → List Node
  | [] => []
  | o :: os => renNode f o :: renNodes f os
/-- See `renObj`. -/
def renPs (f : Str → Str) : List (Id × List Obj) → List (Id × List Obj)
  | [] => []
  | (k, l) :: ps => (renLabel f k, renObjs f l) :: renPs f ps
/-- See `renObj`. -/
def renRps (f : Str → Str) : List (Id × List Node) → List (Id × List Node)
  | [] => []
  | (k, l) :: ps => (renLabel f k, renNodes f l) :: renRps f ps
end

/-- The document with every blank node label renamed. -/
def renDoc (f : Str → Str) (d : Doc) : Doc := renObjs f d

end JsonLd.Spec
