import Verif.Model.Doc
/-!
# Documents that are the same up to the names of blank nodes
-/

namespace JsonLd.Spec

/-- No name is given to two blank nodes, and no blank node has two names. -/
def OneToOne (R : Str → Str → Prop) : Prop :=
  (∀ a b c, R a b → R a c → b = c) ∧ ∀ a b c, R a c → R b c → a = b

/-- The same identifier, or blank nodes that correspond to each other. -/
inductive IdRen (R : Str → Str → Prop) : Id → Id → Prop
  | iri (i) : IdRen R (.iri i) (.iri i)
  | invalid (i) : IdRen R (.invalid i) (.invalid i)
  | blank (a b) : R a b → IdRen R (.blank a) (.blank b)

/-- Both are absent, or both are there and related. -/
inductive OptRen {α β : Type} (P : α → β → Prop) : Option α → Option β → Prop
  | none : OptRen P none none
  | some (a b) : P a b → OptRen P (some a) (some b)

section
variable (R : Str → Str → Prop)

mutual
/-- `ObjRen R o o'`: the objects are the same, except that the identifiers and types of nodes that are blank
nodes `a` in `o` are blank nodes `b` in `o'` with `R a b`. The keys of properties are the same. -/
def ObjRen : Obj → Obj → Prop
  | .value i v, .value j w => i = j ∧ v = w
  | .list i l, .list j m => i = j ∧ ObjsRen l m
  | .node n, .node m => NodeRen n m
  | _, _ => False
/-- Nodes. -/
def NodeRen : Node → Node → Prop
  | .mk i id ty gr inc ps rv, .mk i' id' ty' gr' inc' ps' rv' =>
    i = i' ∧ OptRen (IdRen R) id id' ∧ OptRen (List.Forall₂ (IdRen R)) ty ty' ∧ GraphRen gr gr' ∧
      IncRen inc inc' ∧ PropsRen ps ps' ∧ RevRen rv rv'
/-- Graphs. -/
def GraphRen : Option (List Obj) → Option (List Obj) → Prop
  | none, none => True
  | some l, some m => ObjsRen l m
  | _, _ => False
/-- Included nodes. -/
def IncRen : Option (List Node) → Option (List Node) → Prop
  | none, none => True
  | some l, some m => NodesRen l m
  | _, _ => False
/-- Reverse properties. -/
def RevRen : Option (List (Id × List Node)) → Option (List (Id × List Node)) → Prop
  | none, none => True
  | some l, some m => RpsRen l m
  | _, _ => False
/-- Lists of objects. -/
def ObjsRen : List Obj → List Obj → Prop
  | [], [] => True
  | o :: os, o' :: os' => ObjRen o o' ∧ ObjsRen os os'
  | _, _ => False
/-- Lists of nodes. -/
def NodesRen : List Node → List Node → Prop
  | [], [] => True
  | o :: os, o' :: os' => NodeRen o o' ∧ NodesRen os os'
  | _, _ => False
/-- Properties. -/
def PropsRen : List (Id × List Obj) → List (Id × List Obj) → Prop
  | [], [] => True
  | (k, l) :: ps, p' :: ps' => k = p'.1 ∧ ObjsRen l p'.2 ∧ PropsRen ps ps'
  | _, _ => False
/-- Entries of reverse properties. -/
def RpsRen : List (Id × List Node) → List (Id × List Node) → Prop
  | [], [] => True
  | (k, l) :: ps, p' :: ps' => k = p'.1 ∧ NodesRen l p'.2 ∧ RpsRen ps ps'
  | _, _ => False
end
end

/-- The documents are the same up to the names of blank nodes. -/
def DocRen (R : Str → Str → Prop) (d d' : Doc) : Prop := ObjsRen R d d'

end JsonLd.Spec
