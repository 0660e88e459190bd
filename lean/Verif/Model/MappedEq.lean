import Verif.Model.DocEq
/-!
# Comparison of documents up to a renaming of blank nodes (`object/mapped_eq.rs`)

The function `f` renames the blank node labels of the left-hand side.
-/

namespace JsonLd

/-- `MappedEq for Id` and `ValidId`, object/mapped_eq.rs:177-212. -/
def Id.meq (f : Str → Str) : Id → Id → Bool
  | .blank a, .blank b => f a == b
  | .iri a, .iri b => a == b
  | .invalid a, .invalid b => a == b
  | _, _ => false

/-- `opt_mapped_eq` on identifiers, mapped_eq.rs:230-244. -/
def optIdMeq (f : Str → Str) : Option Id → Option Id → Bool
  | some a, some b => a.meq f b
  | none, none => true
  | _, _ => false

section
variable (f : Str → Str)

mutual
/-- `MappedEq for Indexed` and `Object`, mapped_eq.rs:162-175 and 214-228; `List`,
object/list.rs:159-168. -/
def Obj.meq : Obj → Obj → Bool
  | .value i v, .value j w => decide (i = j) && v.eq w
  | .list i l, .list j m => decide (i = j) && objsMeq l m
  | .node n, .node m => n.meq m
  | _, _ => false
/-- `MappedEq for Indexed` and `Node`, mapped_eq.rs:162-175 and 246-264. The types are not
compared. -/
def Node.meq : Node → Node → Bool
  | .mk i id _ g inc ps rv, .mk i' id' _ g' inc' ps' rv' =>
    decide (i = i') && (optIdMeq f id id' && incMeq inc inc' && gMeq g g' &&
      (decide (ps.length = ps'.length) && psMeq ps ps') && rvMeq rv rv')
/-- `opt_mapped_eq` on sets of objects, mapped_eq.rs:230-244 and 147-160. -/
def gMeq : Option (List Obj) → Option (List Obj) → Bool
  | some a, some b => decide (a.length = b.length) && objsGMeq a b
  | none, none => true
  | _, _ => false
/-- `opt_mapped_eq` on sets of nodes, mapped_eq.rs:230-244 and 147-160. -/
def incMeq : Option (List Node) → Option (List Node) → Bool
  | some a, some b => decide (a.length = b.length) && nodesGMeq a b
  | none, none => true
  | _, _ => false
/-- `opt_mapped_eq` on reverse properties, mapped_eq.rs:230-244 and 302-338. -/
def rvMeq : Option (List (Id × List Node)) → Option (List (Id × List Node)) → Bool
  | some a, some b => decide (a.length = b.length) && rpsMeq a b
  | none, none => true
  | _, _ => false
/-- `MappedEq for [T]`, mapped_eq.rs:119-137 (lengths compared first; here by the cases). -/
def objsMeq : List Obj → List Obj → Bool
  | [], [] => true
  | a :: as, b :: bs => a.meq b && objsMeq as bs
  | _, _ => false
/-- Loop of `unordered_mapped_eq`, mapped_eq.rs:37-54, on objects. The `selected` flags are modelled
by removing the selected item. -/
def objsGMeq : List Obj → List Obj → Bool
  | [], _ => true
  | a :: as, bs => match removeFirst a.meq bs with
    | none => false
    | some bs' => objsGMeq as bs'
/-- Loop of `unordered_mapped_eq` on nodes. -/
def nodesGMeq : List Node → List Node → Bool
  | [], _ => true
  | a :: as, bs => match removeFirst a.meq bs with
    | none => false
    | some bs' => nodesGMeq as bs'
/-- Loop of `MappedEq for Properties`, mapped_eq.rs:273-296. -/
def psMeq : List (Id × List Obj) → List (Id × List Obj) → Bool
  | [], _ => true
  | (k, l) :: ps, qs =>
    match removeFirst (fun q => k.meq f q.1 && (decide (l.length = q.2.length) && objsGMeq l q.2))
      qs with
    | none => false
    | some qs' => psMeq ps qs'
/-- Loop of `MappedEq for ReverseProperties`, mapped_eq.rs:309-332. -/
def rpsMeq : List (Id × List Node) → List (Id × List Node) → Bool
  | [], _ => true
  | (k, l) :: ps, qs =>
    match removeFirst (fun q => k.meq f q.1 && (decide (l.length = q.2.length) && nodesGMeq l q.2))
      qs with
    | none => false
    | some qs' => rpsMeq ps qs'
end

/-- Comparison of two sets of objects (the content of expanded documents), mapped_eq.rs:147-160. -/
def Doc.meq (d e : Doc) : Bool := gMeq f (some d) (some e)

end
end JsonLd
