import Verif.Model.PropMap
/-!
# What a history of calls says about a property map
-/

namespace JsonLd.Spec

/-- The property an argument of a look-up stands for. -/
def denotes : PKey → Id
  | .id i => i
  | .validIri s => .iri s
  | .validBlank s => .blank s
  | .iri s => .iri s
  | .blank s => .blank s

/-- The items of a list of bindings for one property, and whether there is such a binding. -/
def boundIn {α : Type} (p : Id) (es : List (Id × List α)) : Option (List α) :=
  match es.filter fun e => decide (e.1 = p) with
  | [] => none
  | l => some (l.flatMap Prod.snd)

/-- Items are added one by one, those with an equivalent item before them are left out. -/
inductive AddedOnce {α : Type} (eqv : α → α → Bool) : List α → List α → List α → Prop
  | done (ws : List α) : AddedOnce eqv ws [] ws
  | known (ws : List α) (v : α) (vs r : List α) :
      (∃ w ∈ ws, eqv w v = true) → AddedOnce eqv ws vs r → AddedOnce eqv ws (v :: vs) r
  | fresh (ws : List α) (v : α) (vs r : List α) :
      (∀ w ∈ ws, eqv w v = false) → AddedOnce eqv (ws ++ [v]) vs r → AddedOnce eqv ws (v :: vs) r

/-- What one call makes of the items of the property `p` (`none`: the property is not bound). -/
inductive Effect {α : Type} (eqv : α → α → Bool) (p : Id) :
    PropMap.Op α → Option (List α) → Option (List α) → Prop
  | insert (v : α) (x : Option (List α)) : Effect eqv p (.insert p v) x (some (x.getD [] ++ [v]))
  | insertUnique (v : α) (x : Option (List α)) (r : List α) :
      AddedOnce eqv (x.getD []) [v] r → Effect eqv p (.insertUnique p v) x (some r)
  | insertAll (vs : List α) (x : Option (List α)) :
      Effect eqv p (.insertAll p vs) x (some (x.getD [] ++ vs))
  | insertAllUnique (vs : List α) (x : Option (List α)) (r : List α) :
      AddedOnce eqv (x.getD []) vs r → Effect eqv p (.insertAllUnique p vs) x (some r)
  | set (vs : List α) (x : Option (List α)) : Effect eqv p (.set p vs) x (some vs)
  | remove (q : PKey) (x : Option (List α)) : denotes q = p → Effect eqv p (.remove q) x none
  | clear (x : Option (List α)) : Effect eqv p .clear x none
  | extend (es : List (Id × List α)) (vs : List α) (x : Option (List α)) :
      boundIn p es = some vs → Effect eqv p (.extend es) x (some (x.getD [] ++ vs))
  | extendUnique (es : List (Id × List α)) (vs : List α) (x : Option (List α)) (r : List α) :
      boundIn p es = some vs → AddedOnce eqv (x.getD []) vs r →
        Effect eqv p (.extendUnique es) x (some r)
  /-- Calls about other properties. -/
  | other (o : PropMap.Op α) (x : Option (List α)) :
      (match o with
        | .insert k _ | .insertUnique k _ | .insertAll k _ | .insertAllUnique k _ | .set k _ => k ≠ p
        | .remove q => denotes q ≠ p
        | .clear => False
        | .extend es | .extendUnique es => boundIn p es = none) → Effect eqv p o x x

/-- What a history of calls on a new map makes of the property `p`. -/
inductive History {α : Type} (eqv : α → α → Bool) (p : Id) :
    List (PropMap.Op α) → Option (List α) → Prop
  | new : History eqv p [] none
  | call (ops : List (PropMap.Op α)) (o : PropMap.Op α) (x y : Option (List α)) :
      History eqv p ops x → Effect eqv p o x y → History eqv p (ops ++ [o]) y

/-- The properties a call may bind. -/
def binds {α : Type} : PropMap.Op α → List Id
  | .insert k _ | .insertUnique k _ | .insertAll k _ | .insertAllUnique k _ | .set k _ => [k]
  | .remove _ | .clear => []
  | .extend es | .extendUnique es => es.map Prod.fst

/-- The call removes nothing. -/
def keeps {α : Type} : PropMap.Op α → Bool
  | .remove _ | .clear => false
  | _ => true

/-- The call never adds an item next to an equivalent one. -/
def unique {α : Type} (eqv : α → α → Bool) : PropMap.Op α → Prop
  | .insert _ _ | .insertAll _ _ | .extend _ => False
  | .set _ vs => vs.Pairwise fun a b => eqv a b = false
  | _ => True

end JsonLd.Spec
