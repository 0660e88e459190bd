import Verif.Model.CtxTraverse
/-!
# The fragments of a context
-/

namespace JsonLd.Spec

/-- A fragment is directly in another one: the whole syntax tree of a context, scoped contexts among it. -/
inductive In : CFrag → CFrag → Prop
  | item {es e} : e ∈ es → In (.context e) (.array es)
  | entry {d e} : e ∈ SDef.left d → In (.entry e) (.context (.defn d))
  | key {e} : In (.key e) (.entry e)
  | value {e} : In (.value e) (.entry e)
  | termEntry {k x e} : e ∈ SExp.left x → In (.termEntry e) (.value (.definition k (some (.expanded x))))
  | termKey {e} : In (.termKey e) (.termEntry e)
  | termValue {e} : In (.termValue e) (.termEntry e)
  | kind {k ks} : k ∈ ks → In (.kind k) (.termValue (.container (some (.many ks))))
  | scopedOne {e} : In (.context e) (.termValue (.context (.one e)))
  | scopedMany {es e} : e ∈ es → In (.context e) (.termValue (.context (.many es)))

/-- The outermost fragment. -/
def rootOf : SCtx → CFrag
  | .one e => .context e
  | .many es => .array es

/-- The fragments of a context. -/
def FragmentOf (c : SCtx) (f : CFrag) : Prop := Relation.ReflTransGen (fun a b => In b a) (rootOf c) f

/-- How many arrays and objects there are in a JSON value. -/
def compounds : Json → Nat
  | .arr l => 1 + compoundsL l
  | .obj m => 1 + compoundsM m
  | _ => 0
where
  /-- In the items of an array. -/
  compoundsL : List Json → Nat
    | [] => 0
    | j :: l => compounds j + compoundsL l
  /-- In the members of an object. -/
  compoundsM : List (Str × Json) → Nat
    | [] => 0
    | (_, j) :: l => compounds j + compoundsM l

/-- A term definition given by an object. -/
def asObject : Option STerm → Option SExp
  | some (.expanded x) => some x
  | _ => none

/-- The entries of a context that is one or several. -/
def entriesOf : SCtx → List SEntry
  | .one e => [e]
  | .many es => es

/-- The terms of a context definition that are given by an object. -/
def termsOf : SEntry → List SExp
  | .defn d => d.bindings.filterMap fun b => asObject b.2
  | _ => []

/-- The arrays and objects of a scoped context. -/
def ofScoped : Option SCtx → Nat
  | some c => compounds c.toJson
  | none => 0

/-- The array of containers. -/
def ofContainer : Option (Option SynContainer) → Nat
  | some (some (.many _)) => 1
  | _ => 0

/-- The arrays and objects inside of a term definition: those of its scoped context, and the array of its
containers. -/
def insideTerm (x : SExp) : Nat := ofScoped x.context + ofContainer x.container

end JsonLd.Spec
