import Verif.Model.Doc
import Mathlib.Logic.Relation
/-!
# What a document contains
-/

namespace JsonLd.Spec

/-- An object or a node. -/
inductive Item where
  | obj (o : Obj)
  | node (n : Node)

/-- `Part c p`: the item `c` is written directly inside the item `p`, other than as a list item. -/
inductive Part : Item → Item → Prop where
  /-- A node object is a node. -/
  | self (n : Node) : Part (.node n) (.obj (.node n))
  /-- Member of the `@graph` entry. -/
  | graph {n : Node} {l : List Obj} {o : Obj} : n.graph = some l → o ∈ l → Part (.obj o) (.node n)
  /-- Member of the `@included` entry. -/
  | included {n : Node} {l : List Node} {m : Node} :
      n.included = some l → m ∈ l → Part (.node m) (.node n)
  /-- Value of a property. -/
  | property {n : Node} {k : Id} {l : List Obj} {o : Obj} :
      (k, l) ∈ n.props → o ∈ l → Part (.obj o) (.node n)
  /-- Value of a reverse property. -/
  | reverse {n : Node} {r : List (Id × List Node)} {k : Id} {l : List Node} {m : Node} :
      n.rev = some r → (k, l) ∈ r → m ∈ l → Part (.node m) (.node n)

/-- `PartL c p`: the item `c` is written directly inside the item `p`. -/
inductive PartL : Item → Item → Prop where
  /-- Anything but a list item. -/
  | part {c p : Item} : Part c p → PartL c p
  /-- Item of a list. -/
  | item {i : Option Str} {l : List Obj} {o : Obj} : o ∈ l → PartL (.obj o) (.obj (.list i l))

/-- The item is in the document, at any depth. -/
def Inside (d : Doc) (x : Item) : Prop := ∃ o ∈ d, Relation.ReflTransGen PartL x (.obj o)

/-- The item is in the document, at any depth, and not in a list. -/
def InsideNoList (d : Doc) (x : Item) : Prop := ∃ o ∈ d, Relation.ReflTransGen Part x (.obj o)

/-- The blank node label is written in the node itself, as its identifier, one of its types or one of
its property keys (reverse property keys are left out). -/
def ownBlanks (n : Node) (b : Str) : Prop :=
  n.id = some (.blank b) ∨ (∃ ts, n.types = some ts ∧ Id.blank b ∈ ts) ∨
    ∃ p ∈ n.props, p.1 = .blank b

end JsonLd.Spec
