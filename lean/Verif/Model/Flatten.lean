import Verif.Model.Relabel
import Mathlib.Data.List.Sort
/-!
# Flattening (`crates/core/src/flattening/*.rs`)

The state of the environment (environment.rs:6-10: generator and map from labels to identifiers) is
the same as that of a relabelling, `Relabeling`. Hash maps are lists of pairs; as nothing but the
functions `NodeMap.flatten` and `NodeMap.flattenUnordered` iterates over them, only those take the
iteration orders into account (`Orders`). Unwraps of missing entries are errors (`FlatErr.panic`).
-/

namespace JsonLd

/-- `ConflictingIndexes`, node_map.rs:15-21, and panics. -/
inductive FlatErr where
  | conflict (id : Id) (defined conflicting : Str)
  | panic
  deriving DecidableEq, Repr

/-- `NodeMapGraph`, node_map.rs:149-153. -/
abbrev NMGraph := List (Id × Node)

/-- `NodeMap`, node_map.rs:26-31. -/
structure NodeMap where
  graphs : List (Id × NMGraph)
  default : NMGraph

/-- `*map.get_mut(k).unwrap() = v`. -/
def setKey {α : Type} (k : Id) (v : α) : List (Id × α) → List (Id × α)
  | [] => []
  | (k', a) :: ps => if k' = k then (k', v) :: ps else (k', a) :: setKey k v ps

/-- `NodeMap::graph`, node_map.rs:58-63; also `graph_mut`, 65-70. -/
def NodeMap.graph (m : NodeMap) : Option Id → Option NMGraph
  | none => some m.default
  | some g => lookupProp g m.graphs

/-- Update through `graph_mut`, node_map.rs:65-70. -/
def NodeMap.setGraph (m : NodeMap) (g : Option Id) (G : NMGraph) : NodeMap :=
  match g with
  | none => { m with default := G }
  | some g => { m with graphs := setKey g G m.graphs }

/-- `NodeMap::declare_graph`, node_map.rs:72-76. -/
def NodeMap.declareGraph (m : NodeMap) (g : Id) : NodeMap :=
  match lookupProp g m.graphs with
  | some _ => m
  | none => { m with graphs := m.graphs ++ [(g, [])] }

/-- `Indexed::new(Node::with_id(id), index)`, node/mod.rs:91-100. -/
def Node.withId (id : Id) (index : Option Str) : Node := .mk index (some id) none none none [] none

/-- `Indexed::set_index`, indexed.rs:61-63. -/
def Node.setIndex (i : Option Str) : Node → Node
  | .mk _ id ty g inc ps rv => .mk i id ty g inc ps rv

/-- Assignment of the field `types`. -/
def Node.setTypes (ty : Option (List Id)) : Node → Node
  | .mk i id _ g inc ps rv => .mk i id ty g inc ps rv

/-- `Node::set_graph_entry`, node/mod.rs:346-348. -/
def Node.setGraphEntry (g : Option (List Obj)) : Node → Node
  | .mk i id ty _ inc ps rv => .mk i id ty g inc ps rv

/-- Update of the field `properties`. -/
def Node.setProps (ps : List (Id × List Obj)) : Node → Node
  | .mk i id ty g inc _ rv => .mk i id ty g inc ps rv

/-- `NodeMapGraph::declare_node`, node_map.rs:179-206. -/
def declareNode (G : NMGraph) (id : Id) (index : Option Str) : Except FlatErr NMGraph :=
  match lookupProp id G with
  | some n =>
    match n.index, index with
    | some a, some b => if a ≠ b then .error (.conflict id a b) else .ok G
    | none, some b => .ok (setKey id (n.setIndex (some b)) G)
    | _, none => .ok G
  | none => .ok (G ++ [(id, Node.withId id index)])

/-- `node_map.graph_mut(active_graph).unwrap().declare_node(id, index)?`, node_map.rs:371-374. -/
def NodeMap.declare (m : NodeMap) (g : Option Id) (id : Id) (index : Option Str) :
    Except FlatErr NodeMap :=
  match m.graph g with
  | none => .error .panic
  | some G => do
    let G' ← declareNode G id index
    pure (m.setGraph g G')

/-- `node_map.graph_mut(active_graph).unwrap().get_mut(&id).unwrap()` followed by an update `f`,
node_map.rs:395-403, 418-424 and 440-449. -/
def NodeMap.modify (m : NodeMap) (g : Option Id) (id : Id) (f : Node → Node) :
    Except FlatErr NodeMap :=
  match m.graph g with
  | none => .error .panic
  | some G => match lookupProp id G with
    | none => .error .panic
    | some n => .ok (m.setGraph g (setKey id (f n) G))

/-- `Indexed::equivalent` (object/mod.rs:454-456), `Object::equivalent` (object/mod.rs:383-393),
`Node::equivalent` (object/node/mod.rs:627-633). -/
def Obj.equiv : Obj → Obj → Bool
  | .value i v, .value j w => decide (i = j) && v.eq w
  | .node n, .node m => decide (n.index = m.index) && (n.id.isSome && m.id.isSome && n.eq m)
  | _, _ => false

/-- `for value in values { if node_values.iter().all(|v| !v.equivalent(&value)) {…} }`,
properties.rs:145-149 and 154-158. -/
def addUnique (os : List Obj) : List Obj → List Obj
  | [] => os
  | v :: vs => addUnique (if os.all fun o => !o.equiv v then os ++ [v] else os) vs

/-- `Properties::insert_all_unique`, properties.rs:139-162. -/
def insertAllUnique (ps : List (Id × List Obj)) (k : Id) (vs : List Obj) : List (Id × List Obj) :=
  match lookupProp k ps with
  | some os => setKey k (addUnique os vs) ps
  | none => ps ++ [(k, addUnique [] vs)]

/-- `Properties::insert_unique`, properties.rs:111-119. -/
def insertUnique (ps : List (Id × List Obj)) (k : Id) (v : Obj) : List (Id × List Obj) :=
  match lookupProp k ps with
  | some os => if os.all fun o => !o.equiv v then setKey k (os ++ [v]) ps else ps
  | none => ps ++ [(k, [v])]

/-- `Environment::assign_node_id`, environment.rs:39-45, with `assign` (27-37, `relabelBlank`) and
`next` (48-50). -/
def assignNodeId (gen : Nat → Id) : Option Id → Relabeling → Id × Relabeling
  | some (.blank b), s => relabelBlank gen b s
  | some i, s => (i, s)
  | none, s => (gen s.count, ⟨s.count + 1, s.map⟩)

/-- `entry.iter().map(|ty| env.assign_node_id(Some(ty))).collect()`, node_map.rs:378-381. -/
def assignTypes (gen : Nat → Id) : List Id → Relabeling → List Id × Relabeling
  | [], s => ([], s)
  | t :: ts, s =>
    let r := assignNodeId gen (some t) s
    let rs := assignTypes gen ts r.2
    (r.1 :: rs.1, rs.2)

/-- Environment and node map. -/
abbrev FlatState := Relabeling × NodeMap

section
variable (gen : Nat → Id)

/-- `if let Some(entry) = node.types.as_deref() {…}`, node_map.rs:376-383. -/
def extendTypes (g : Option Id) (id : Id) : Option (List Id) → FlatState → Except FlatErr FlatState
  | none, s => pure s
  | some ts, s => do
    let r := assignTypes gen ts s.1
    let m ← s.2.modify g id (Node.setTypes (some r.1))
    pure (r.2, m)

/-- `match flat_node.graph_entry_mut() {…}`, node_map.rs:400-403, where `flat_graph` was collected
in 389-393. -/
def extendGraphEntry (os : List Obj) (n : Node) : Node :=
  match n.graph with
  | some l => n.setGraphEntry (some ((setCollect Obj.eq os).foldl (setInsert Obj.eq) l))
  | none => n.setGraphEntry (some (setCollect Obj.eq os))

mutual
/-- `extend_node_map`, node_map.rs:317-353. -/
def extendObj (g : Option Id) : Obj → FlatState → Except FlatErr (Obj × FlatState)
  | .value i v, s => pure (.value i v, s)
  | .list i l, s => do
    let r ← extendObjs g l s
    pure (.list i r.1, r.2)
  | .node n, s => do
    let r ← extendNode g n s
    pure (.node (Node.withId r.1 none), r.2)
/-- `extend_node_map_from_node`, node_map.rs:357-475. The result is `Node::with_id(id)`, of which
only the identifier is returned here. -/
def extendNode (g : Option Id) : Node → FlatState → Except FlatErr (Id × FlatState)
  | .mk i id ty gr inc ps rv, s => do
    let a := assignNodeId gen id s.1
    let m ← s.2.declare g a.1 i
    let s1 ← extendTypes gen g a.1 ty (a.2, m)
    let s2 ← extendGraph g a.1 gr s1
    let s3 ← extendIncluded g inc s2
    let s4 ← extendProps g a.1 ps s3
    let s5 ← extendRev g a.1 rv s4
    pure (a.1, s5)
/-- `if let Some(graph_entry) = node.graph_entry() {…}`, node_map.rs:386-404. -/
def extendGraph (g : Option Id) (id : Id) : Option (List Obj) → FlatState → Except FlatErr FlatState
  | none, s => pure s
  | some l, s => do
    let r ← extendObjs (some id) l (s.1, s.2.declareGraph id)
    let m ← r.2.2.modify g id (extendGraphEntry r.1)
    pure (r.2.1, m)
/-- `if let Some(included_entry) = node.included_entry() {…}`, node_map.rs:406-410. -/
def extendIncluded (g : Option Id) : Option (List Node) → FlatState → Except FlatErr FlatState
  | none, s => pure s
  | some l, s => extendNodes g l s
/-- `if let Some(reverse_properties) = … {…}`, node_map.rs:427-451. -/
def extendRev (g : Option Id) (id : Id) :
    Option (List (Id × List Node)) → FlatState → Except FlatErr FlatState
  | none, s => pure s
  | some l, s => extendRps g id l s
/-- Loop over objects, node_map.rs:338-340, 390-393, 414-417. -/
def extendObjs (g : Option Id) : List Obj → FlatState → Except FlatErr (List Obj × FlatState)
  | [], s => pure ([], s)
  | o :: os, s => do
    let r ← extendObj g o s
    let rs ← extendObjs g os r.2
    pure (r.1 :: rs.1, rs.2)
/-- Loop over included nodes, node_map.rs:407-409. -/
def extendNodes (g : Option Id) : List Node → FlatState → Except FlatErr FlatState
  | [], s => pure s
  | n :: ns, s => do
    let r ← extendNode g n s
    extendNodes g ns r.2
/-- Loop over properties, node_map.rs:412-425. -/
def extendProps (g : Option Id) (id : Id) :
    List (Id × List Obj) → FlatState → Except FlatErr FlatState
  | [], s => pure s
  | (k, os) :: ps, s => do
    let r ← extendObjs g os s
    let m ← r.2.2.modify g id (fun n => n.setProps (insertAllUnique n.props k r.1))
    extendProps g id ps (r.2.1, m)
/-- Outer loop over reverse properties, node_map.rs:428-450. -/
def extendRps (g : Option Id) (id : Id) :
    List (Id × List Node) → FlatState → Except FlatErr FlatState
  | [], s => pure s
  | (k, ns) :: ps, s => do
    let s1 ← extendSubjects g id k ns s
    extendRps g id ps s1
/-- Inner loop over reverse properties, node_map.rs:429-450. -/
def extendSubjects (g : Option Id) (id k : Id) : List Node → FlatState → Except FlatErr FlatState
  | [], s => pure s
  | n :: ns, s => do
    let r ← extendNode g n s
    let m ← r.2.2.modify g r.1
      (fun n => n.setProps (insertUnique n.props k (.node (Node.withId id none))))
    extendSubjects g id k ns (r.2.1, m)
end

/-- `ExpandedDocument::generate_node_map_with`, node_map.rs:297-308. The generator has already
yielded `n` identifiers. -/
def Doc.nodeMap (d : Doc) (n : Nat) : Except FlatErr NodeMap := do
  let r ← extendObjs gen none d (⟨n, []⟩, ⟨[], []⟩)
  pure r.2.2

end

/-- The orders in which hash maps are iterated: that of the named graphs and that of the nodes of
each graph. -/
structure Orders where
  graphs : List (Id × NMGraph) → List (Id × NMGraph)
  nodes : Option Id → NMGraph → NMGraph
  graphs_perm : ∀ l, (graphs l).Perm l
  nodes_perm : ∀ g l, (nodes g l).Perm l

/-- `filter_graph`, flattening/mod.rs:88-94. -/
def filterGraph (n : Node) : Option Node :=
  if n.index.isNone && n.isEmpty then none else some n

/-- `filter_sub_graph`, flattening/mod.rs:96-105. -/
def filterSubGraph (n : Node) : Option Obj :=
  if n.index.isNone && n.props.isEmpty then none
  else match n with
    | .mk i id ty _ _ ps _ => some (.node (.mk i id ty none none ps none))

/-- The key nodes are sorted by: `a.id.as_ref().unwrap().as_str()`. (Every node of a node map has an
identifier, see `C16_flat`, so the unwrap cannot fail.) -/
def Node.idStr (n : Node) : Str := (n.id.map Id.str).getD []

/-- `sort_by(|a, b| key(a).cmp(key(b)))`: a stable sort. Comparing the bytes of two strings is
comparing their characters one by one. -/
def sortByKey {α : Type} (key : α → Str) (l : List α) : List α :=
  l.insertionSort fun a b => key a ≤ key b

/-- `default_graph.declare_node(graph_id, None).ok().unwrap()` and `set_graph_entry`,
flattening/mod.rs:130-145 and 168-173. `none`: panic. -/
def addGraphs (entry : Id × NMGraph → List Obj) :
    List (Id × NMGraph) → NMGraph → Option NMGraph
  | [], D => some D
  | (g, G) :: gs, D =>
    match declareNode D g none with
    | .error _ => none
    | .ok D' => match lookupProp g D' with
      | none => none
      | some n => addGraphs entry gs (setKey g (n.setGraphEntry (some (entry (g, G)))) D')

/-- Sorting on demand. -/
def sortIf {α : Type} (ordered : Bool) (key : α → Str) (l : List α) : List α :=
  if ordered then sortByKey key l else l

/-- `NodeMap::flatten_with`, flattening/mod.rs:115-163. `none`: panic. -/
def NodeMap.flatten (o : Orders) (ordered : Bool) (m : NodeMap) : Option (List Node) :=
  match addGraphs
      (fun gG => setCollect Obj.eq ((sortIf ordered Node.idStr
        ((o.nodes (some gG.1) gG.2).map Prod.snd)).filterMap filterSubGraph))
      (sortIf ordered (fun gG => gG.1.str) (o.graphs m.graphs)) m.default with
  | none => none
  | some D => some (sortIf ordered Node.idStr (((o.nodes none D).map Prod.snd).filterMap filterGraph))

/-- `NodeMap::flatten_unordered`, flattening/mod.rs:165-179 (a set, as a list). `none`: panic. -/
def NodeMap.flattenUnordered (o : Orders) (m : NodeMap) : Option (List Node) :=
  match addGraphs
      (fun gG => setCollect Obj.eq (((o.nodes (some gG.1) gG.2).map Prod.snd).filterMap filterSubGraph))
      (o.graphs m.graphs) m.default with
  | none => none
  | some D => some (setCollect Node.eq (((o.nodes none D).map Prod.snd).filterMap filterGraph))

/-- `Flatten::flatten_with` for expanded documents, flattening/mod.rs:60-72. -/
def Doc.flatten (gen : Nat → Id) (o : Orders) (ordered : Bool) (d : Doc) (n : Nat) :
    Except FlatErr (List Node) := do
  let m ← d.nodeMap gen n
  match m.flatten o ordered with
  | none => .error .panic
  | some l => pure l

/-- `Flatten::flatten_unordered_with`, flattening/mod.rs:74-85. -/
def Doc.flattenUnordered (gen : Nat → Id) (o : Orders) (d : Doc) (n : Nat) :
    Except FlatErr (List Node) := do
  let m ← d.nodeMap gen n
  match m.flattenUnordered o with
  | none => .error .panic
  | some l => pure l

end JsonLd
