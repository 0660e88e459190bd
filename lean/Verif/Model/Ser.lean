import Verif.Model.Rdf
import Verif.Model.DocJson
/-!
# Building a document from RDF quads (`crates/core/src/serialization.rs`)

Resources are of an arbitrary type `R`; the interpretation gives their names (`Interp`). Maps and sets
are lists without duplicates; the orders in which the code iterates over them (`BTreeMap`, `BTreeSet`,
`HashSet`) are arbitrary permutations (`SerOrders`). The field `graph` of a resource is kept apart, in
`SerState.named`, as only resources of the default graph have one (`fold_into_default_graph`).
-/

namespace JsonLd

/-- `ReverseTermInterpretation` and the vocabulary (external crate), with the parsers used for
literals. -/
structure Interp (R : Type) where
  iris : R → List Str
  blanks : R → List Str
  literals : R → List (Str × LitType)
  parseJson : Str → Option Json
  parseNumber : Str → Option Str

/-- Quads of resources. -/
structure IQuad (R : Type) where
  subject : R
  property : R
  object : R
  graph : Option R

/-- `SerializationError`, serialization.rs:217-227; panics; and running out of the recursion bound. -/
inductive SerErr where
  | invalidJson
  | invalidBoolean
  | number
  | panic
  | depth
  deriving DecidableEq, Repr

/-- `enum RdfProperty`, serialization.rs:157-161. -/
inductive RdfProp where
  | type
  | first
  | rest
  deriving DecidableEq

/-- `enum RdfType`, serialization.rs:183-187. -/
inductive RType (R : Type) where
  | list
  | other (r : R)
  deriving DecidableEq

/-- `SerResource` with the fields of its `SerList` (serialization.rs:66-108), without `graph`. -/
structure Res (R : Type) where
  types : List (RType R)
  properties : List (R × List R)
  first : List R
  rest : List R
  reverseRest : List R
  values : Option (List R)
  references : Nat

/-- `SerGraph`, serialization.rs:62-64. -/
abbrev SGraph (R : Type) := List (R × Res R)

/-- `SerDataset` (serialization.rs:29-32) and the variables `nil` and `rdf_terms` of
`from_interpreted_quads_in` (254-259). -/
structure SerState (R : Type) where
  default : SGraph R
  named : List (R × SGraph R)
  nil : Option R
  list : Option R
  first : Option R
  rest : Option R

/-- The orders of iteration. -/
structure SerOrders (R : Type) where
  resources : SGraph R → SGraph R
  properties : List (R × List R) → List (R × List R)
  types : List (RType R) → List (RType R)
  set : List R → List R
  resources_perm : ∀ l, (resources l).Perm l
  properties_perm : ∀ l, (properties l).Perm l
  types_perm : ∀ l, (types l).Perm l
  set_perm : ∀ l, (set l).Perm l

/-- `usize::MAX`, on 64 bits. -/
def usizeMax : Nat := 2 ^ 64 - 1

/-- `SerResource::default`, serialization.rs:98-108. -/
def Res.empty {R : Type} : Res R := ⟨[], [], [], [], [], none, 0⟩

section
variable {R : Type} [DecidableEq R]

/-- Insertion in a set. -/
def addNew {α : Type} [DecidableEq α] (a : α) (l : List α) : List α := if a ∈ l then l else l ++ [a]

/-- `f(map.entry(k).or_insert(v))` -/
def upsert {α : Type} (k : R) (v : α) (f : α → α) : List (R × α) → List (R × α)
  | [] => [(k, f v)]
  | (k', a) :: l => if k' = k then (k', f a) :: l else (k', a) :: upsert k v f l

/-- `map.get(k)` -/
def find {α : Type} (k : R) : List (R × α) → Option α
  | [] => none
  | (k', a) :: l => if k' = k then some a else find k l

/-- `SerResource::is_empty`, serialization.rs:111-116; `g` is the graph of the resource. -/
def Res.isEmpty (r : Res R) (g : Option (SGraph R)) : Bool :=
  r.types.isEmpty && r.properties.isEmpty && g.isNone && (r.first.isEmpty && r.rest.isEmpty)

/-- `SerResource::is_list_node`, serialization.rs:118-123. -/
def Res.isListNode (r : Res R) (g : Option (SGraph R)) : Bool :=
  r.types.all (fun t => match t with | .list => true | .other _ => false) && r.properties.isEmpty &&
    g.isNone && (r.first.length == 1 && r.rest.length == 1)

variable (I : Interp R)

/-- `rdf_property`, serialization.rs:163-181. -/
def rdfProperty (r : R) : Option RdfProp :=
  (I.iris r).findSome? fun i =>
    if i = rdfNs "type" then some .type
    else if i = rdfNs "first" then some .first
    else if i = rdfNs "rest" then some .rest
    else none

/-- `rdf_type`, serialization.rs:197-211. -/
def rdfTypeOf (r : R) : RType R := if rdfNs "List" ∈ I.iris r then .list else .other r

/-- `is_anonymous`, serialization.rs:213-215. -/
def isAnonymous (r : R) : Bool := (I.iris r).isEmpty && (I.literals r).isEmpty

/-- What a quad changes in its graph, serialization.rs:262-306. -/
def addQuad (q : IQuad R) (G : SGraph R) : SGraph R :=
  let G := match rdfProperty I q.property with
    | some .type => upsert q.subject .empty
        (fun s => { s with types := addNew (rdfTypeOf I q.object) s.types }) G
    | some .first => upsert q.subject .empty
        (fun s => { s with first := addNew q.object s.first }) G
    | some .rest =>
      upsert q.object .empty (fun o => { o with reverseRest := addNew q.property o.reverseRest })
        (upsert q.subject .empty (fun s => { s with rest := addNew q.object s.rest }) G)
    | none => upsert q.subject .empty
        (fun s => { s with properties := upsert q.property [] (addNew q.object) s.properties }) G
  upsert q.object .empty (fun o => { o with references :=
    if q.property = q.object then usizeMax else min (o.references + 1) usizeMax }) G

/-- One turn of the loop over the quads, serialization.rs:261-307. -/
def serStep (s : SerState R) (q : IQuad R) : SerState R :=
  let s := match q.graph with
    | none => { s with default := addQuad I q s.default }
    | some g => { s with named := upsert g [] (addQuad I q) s.named }
  match rdfProperty I q.property with
  | some .type =>
    { s with first := some q.property,
             list := if rdfTypeOf I q.object = .list then some q.object else s.list }
  | some .first => { s with first := some q.property }
  | some .rest =>
    { s with rest := some q.property,
             nil := if s.nil.isNone && rdfNs "nil" ∈ I.iris q.object then some q.object else s.nil }
  | none => s

/-- `fold_into_default_graph`, serialization.rs:53-59. -/
def SerState.fold (s : SerState R) : SGraph R :=
  s.named.foldl (fun G g => upsert g.1 .empty id G) s.default

/-- The loop collecting the items of a list from its last cell to its first,
serialization.rs:322-342; it may not end, whence the bound. `sub` gives the graph of a resource. -/
def collectList (sub : R → Option (SGraph R)) (G : SGraph R) :
    Nat → R → Res R → List R → Except SerErr (R × List R)
  | 0, _, _, _ => .error .depth
  | k + 1, headId, head, values =>
    match head.first.head?, head.reverseRest.head? with
    | some first, some parentId =>
      if isAnonymous I parentId then
        match find parentId G with
        | some parent =>
          if parent.references = 1 ∧ parent.isListNode (sub parentId) then
            collectList sub G k parentId parent (first :: values)
          else .ok (headId, first :: values)
        | none => .ok (headId, first :: values)
      else .ok (headId, first :: values)
    | _, _ => .error .panic

/-- The lists, serialization.rs:311-349. -/
def collectLists (sub : R → Option (SGraph R)) (G : SGraph R) (bound : Nat) :
    List R → Except SerErr (List (R × List R))
  | [] => .ok []
  | n :: ns => do
    let ls ← collectLists sub G bound ns
    if isAnonymous I n then
      match find n G with
      | some head =>
        if head.references = 1 ∧ head.isListNode (sub n) then do
          let l ← collectList I sub G bound n head []
          .ok (l :: ls)
        else .ok ls
      | none => .ok ls
    else .ok ls

/-- See `collectLists`; the starting points. -/
def listStarts (nil : Option R) (G : SGraph R) : List R :=
  match nil.bind fun i => find i G with
  | some n => n.reverseRest
  | none => []

/-- `id_of`, serialization.rs:615-632. -/
def idOf (r : R) : Option Id :=
  match I.iris r with
  | i :: _ => some (.iri i)
  | [] => match I.blanks r with
    | b :: _ => some (.blank b)
    | [] => none

/-- The value of a literal, serialization.rs:655-706. -/
def litValue (text : Str) : LitType → Except SerErr Value
  | .any ty =>
    if ty = rdfNs "JSON" then
      match I.parseJson text with
      | some j => .ok (.json j)
      | none => .error .invalidJson
    else if ty = xsdNs "boolean" then
      if text = ['t', 'r', 'u', 'e'] ∨ text = ['1'] then .ok (.literal (.bool true) (some ty))
      else if text = ['f', 'a', 'l', 's', 'e'] ∨ text = ['0'] then .ok (.literal (.bool false) (some ty))
      else .error .invalidBoolean
    else if ty = xsdNs "integer" ∨ ty = xsdNs "double" then
      match I.parseNumber text with
      | some n => .ok (.literal (.num n) (some ty))
      | none => .error .number
    else if ty = xsdNs "string" then .ok (.literal (.str text) none)
    else .ok (.literal (.str text) (some ty))
  | .lang tag => .ok (.langString ⟨text, some tag, none⟩)

/-- `render_reference` with `term_of`, serialization.rs:590-613 and 638-713. -/
def renderRef (r : R) : Except SerErr Obj :=
  match idOf I r with
  | some i => .ok (.node (.mk none (some i) none none none [] none))
  | none => match I.literals r with
    | (text, ty) :: _ => do
      let v ← litValue I text ty
      .ok (.value none v)
    | [] => .ok (.node (.mk none none none none none [] none))

/-- `insert_property`, serialization.rs:504-554; `f` is `render_object_or_reference`. -/
def insertProperty (f : R → Except SerErr Obj) (p : R) (values : List R) (ps : List (Id × List Obj)) :
    Except SerErr (List (Id × List Obj)) :=
  match idOf I p with
  | none => .ok ps
  | some k => values.foldlM (fun ps v => do
      let o ← f v
      .ok (insertAll k [o] ps)) ps

/-- The types of a node, serialization.rs:433-448. -/
def renderTypes (list : Option R) : List (RType R) → Except SerErr (List Id)
  | [] => .ok []
  | t :: ts =>
    match (match t with | .list => list | .other o => some o) with
    | none => .error .panic
    | some r => do
      let l ← renderTypes list ts
      .ok ((idOf I r).toList ++ l)

/-- The property of the cells of lists, serialization.rs:483-497 and 499-513. -/
def insertCells (f : R → Except SerErr Obj) (p : Option R) (values : List R)
    (ps : List (Id × List Obj)) : Except SerErr (List (Id × List Obj)) :=
  if values.isEmpty then .ok ps
  else match p with
    | none => .error .panic
    | some p => insertProperty I f p values ps

variable (o : SerOrders R) (s : SerState R)

/-- The elements of a graph, serialization.rs:355-367 and 453-466; `f` is `render_object`. -/
def renderTop (f : R → Res R → Except SerErr Obj) (sub : R → Option (SGraph R)) (G : SGraph R) :
    Except SerErr (List Obj) := do
  let l ← ((o.resources G).filter fun r => decide (r.2.references ≠ 1) && !r.2.isEmpty (sub r.1)).mapM
    fun r => f r.1 r.2
  .ok (setCollect Obj.eq l)

/-- The properties of a node, serialization.rs:470-513. -/
def renderProps (f : R → Except SerErr Obj) (res : Res R) : Except SerErr (List (Id × List Obj)) := do
  let ps ← (o.properties res.properties).foldlM (fun ps p => insertProperty I f p.1 (o.set p.2) ps) []
  let ps ← insertCells I f s.first (o.set res.first) ps
  insertCells I f s.rest (o.set res.rest) ps

/-- The graph of a node, serialization.rs:450-468; `f` is `render_object` in a graph. -/
def renderSub (f : SGraph R → R → Res R → Except SerErr Obj) :
    Option (SGraph R) → Except SerErr (Option (List Obj))
  | some G => do
    let l ← renderTop o (f G) (fun _ => none) G
    .ok (some l)
  | none => .ok none

/-- `render_object_or_reference`, serialization.rs:556-588; `f` is `render_object`. -/
def renderChild (f : R → Res R → Except SerErr Obj) (sub : R → Option (SGraph R)) (G : SGraph R) (r : R) :
    Except SerErr Obj :=
  match find r G with
  | some c => if c.references = 1 ∧ c.isEmpty (sub r) = false then f r c else renderRef I r
  | none => renderRef I r

/-- `render_object`, serialization.rs:395-519. The code has no bound on the depth of the recursion. -/
def renderObj : Nat → (R → Option (SGraph R)) → SGraph R → R → Res R → Except SerErr Obj
  | 0, _, _, _, _ => .error .depth
  | k + 1, sub, G, id, res =>
    if res.isEmpty (sub id) then renderRef I id
    else match res.values with
      | some values => do
        let l ← values.mapM (renderChild I (renderObj k sub G) sub G)
        .ok (.list none l)
      | none => do
        let types ← renderTypes I s.list (o.types res.types)
        let graph ← renderSub o (fun G' => renderObj k (fun _ => none) G') (sub id)
        let ps ← renderProps I o s (renderChild I (renderObj k sub G) sub G) res
        .ok (.node (.mk none (idOf I id) (if types.isEmpty then none else some types) graph none ps none))

/-- `ExpandedDocument::from_interpreted_quads_in`, serialization.rs:237-370, with a bound on the depth
of the recursion and on the length of lists. -/
def fromQuads (bound : Nat) (qs : List (IQuad R)) : Except SerErr Doc := do
  let s := qs.foldl (serStep I) ⟨[], [], none, none, none, none⟩
  let sub : R → Option (SGraph R) := fun r => find r s.named
  let G := s.fold
  let lists ← collectLists I sub G bound (o.set (listStarts s.nil G))
  let G := lists.foldl (fun G l => upsert l.1 .empty (fun r => { r with values := some l.2 }) G) G
  renderTop o (renderObj I o s bound sub G) sub G

end
end JsonLd
