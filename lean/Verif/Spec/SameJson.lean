import Verif.Model.Ctx
/-!
# JSON values with the same members in any order
-/

namespace JsonLd.Spec

mutual
/-- The values differ in the order of the members of objects at most, at any depth. -/
inductive SameJson : Json → Json → Prop
  | refl (j : Json) : SameJson j j
  | arr {l l' : List Json} (h : SameItems l l') : SameJson (.arr l) (.arr l')
  | obj {m m' m'' : List (Str × Json)} (h : SameMembers m m') (hp : m'.Perm m'') :
      SameJson (.obj m) (.obj m'')
/-- Items one by one, in order. -/
inductive SameItems : List Json → List Json → Prop
  | nil : SameItems [] []
  | cons {j j' : Json} {l l' : List Json} (h : SameJson j j') (ht : SameItems l l') :
      SameItems (j :: l) (j' :: l')
/-- Members one by one, with the same keys. -/
inductive SameMembers : List (Str × Json) → List (Str × Json) → Prop
  | nil : SameMembers [] []
  | cons {k : Str} {v v' : Json} {m m' : List (Str × Json)} (h : SameJson v v')
      (ht : SameMembers m m') : SameMembers ((k, v) :: m) ((k, v') :: m')
end

/-- Definitions with the same entries and the same terms in any order. -/
def SameEntries (d e : SDef) : Prop := e = { d with bindings := e.bindings } ∧ d.bindings.Perm e.bindings

end JsonLd.Spec
