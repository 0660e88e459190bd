import Verif.Model.Doc
/-!
# Objects up to the order of properties
-/

namespace JsonLd.Spec
open JsonLd

mutual
/-- The second object is the first with the properties of some nodes listed in another order, at any depth. The
properties of a node have different names. -/
def PropsReordered : Obj → Obj → Prop
  | .value i v, .value i' v' => i = i' ∧ v = v'
  | .list i l, .list i' l' => i = i' ∧ ObjsReordered l l'
  | .node n, .node n' => NodeReordered n n'
  | _, _ => False
/-- See `PropsReordered`. -/
def NodeReordered : Node → Node → Prop
  | .mk x i t g inc ps r, .mk x' i' t' g' inc' ps' r' =>
    x = x' ∧ i = i' ∧ t = t' ∧ OptObjsReordered g g' ∧ OptNodesReordered inc inc' ∧
      (ps.map fun p => p.1.str).Nodup ∧ (∃ qs, ps'.Perm qs ∧ EachPropReordered ps qs) ∧ OptRevReordered r r'
/-- See `PropsReordered`. -/
def ObjsReordered : List Obj → List Obj → Prop
  | [], [] => True
  | o :: l, o' :: l' => PropsReordered o o' ∧ ObjsReordered l l'
  | _, _ => False
/-- See `PropsReordered`. -/
def OptObjsReordered : Option (List Obj) → Option (List Obj) → Prop
  | none, none => True
  | some l, some l' => ObjsReordered l l'
  | _, _ => False
/-- See `PropsReordered`. -/
def NodesReordered : List Node → List Node → Prop
  | [], [] => True
  | n :: l, n' :: l' => NodeReordered n n' ∧ NodesReordered l l'
  | _, _ => False
/-- See `PropsReordered`. -/
def OptNodesReordered : Option (List Node) → Option (List Node) → Prop
  | none, none => True
  | some l, some l' => NodesReordered l l'
  | _, _ => False
/-- The same properties in the same order. -/
def EachPropReordered : List (Id × List Obj) → List (Id × List Obj) → Prop
  | [], [] => True
  | (i, l) :: ps, (i', l') :: ps' => i = i' ∧ ObjsReordered l l' ∧ EachPropReordered ps ps'
  | _, _ => False
/-- The same reverse properties in the same order. -/
def EachRevReordered : List (Id × List Node) → List (Id × List Node) → Prop
  | [], [] => True
  | (i, l) :: ps, (i', l') :: ps' => i = i' ∧ NodesReordered l l' ∧ EachRevReordered ps ps'
  | _, _ => False
/-- See `PropsReordered`. -/
def OptRevReordered : Option (List (Id × List Node)) → Option (List (Id × List Node)) → Prop
  | none, none => True
  | some l, some l' => EachRevReordered l l'
  | _, _ => False
end

end JsonLd.Spec
