import Verif.Props.CompactMaps
/-!
# C66: graphs under terms with the container `@graph`
-/

namespace JsonLd.Props
open JsonLd.Spec

/-! ## An example -/

/-- A context with a term for graphs, a map of graphs by identifier, and a map of graphs by index. -/
def exGraphsCtx : ACtx :=
  { defs := [("graph".toList, exMapsTerm "http:graph" .graph none),
      ("named".toList, exMapsTerm "http:named" .graphId none),
      ("sorted".toList, exMapsTerm "http:sorted" .graphIndexSet none)] }

/-- A node that says something. -/
def exMember (i : String) : Node :=
  .mk none (some (.iri i.toList)) none none none [(.iri "http:p".toList, [])] none

/-- A graph. -/
def exGraphNode (x : Option String) (i : Option String) (os : List Obj) : Node :=
  .mk (x.map String.toList) (i.map fun s => .iri s.toList) none (some os) none [] none

/-- Properties that use all the terms. -/
def exGraphsProps : List (Id × List Obj) :=
    [(.iri "http:graph".toList, [.node (exGraphNode none none [.node (exMember "http:b")])]),
     (.iri "http:named".toList, [.node (exGraphNode none (some "http:g") [.node (exMember "http:b")]),
       .node (exGraphNode none none [.node (exMember "http:c")]),
       .node (exGraphNode none (some "http:g") [.node (exMember "http:d")])]),
     (.iri "http:sorted".toList, [.node (exGraphNode (some "i") none [.node (exMember "http:b")]),
       .node (exGraphNode none none [.node (exMember "http:c")])])]

/-- A node with these properties. -/
def exGraphsDoc : Doc := [.node (.mk none (some (.iri "http:a".toList)) none none none exGraphsProps none)]

theorem exGraphs_get {t : Str} {d : TermDef} (h : exGraphsCtx.get t = some d) : (t, d) ∈ exGraphsCtx.defs := by
  unfold ACtx.get at h
  split at h
  · cases h
  · exact lookupKey_mem h

theorem exGraphs_defs {t : Str} {d : TermDef} (h : lookupKey t exGraphsCtx.defs = some d) : (t, d) ∈ exGraphsCtx.defs :=
  lookupKey_mem h

theorem exGraphs_noPrefix {p : Str} {m : CTerm} (h : PrefixFor exGraphsCtx p m) : False := by
  obtain ⟨d, h1, h2, -⟩ := h
  have := exGraphs_defs h1
  simp only [exGraphsCtx, exMapsTerm, List.mem_cons, Prod.mk.injEq, List.not_mem_nil, or_false] at this
  rcases this with ⟨-, rfl⟩ | ⟨-, rfl⟩ | ⟨-, rfl⟩ <;> cases h2

theorem exGraphs_env : MapEnv exCEnv exBackEnv exGraphsCtx where
  env := rfl
  vocab := rfl
  mode := rfl
  iris := exComp_facts.1
  facts := exComp_facts.2
  clean := {
    distinct := by decide
    terms := fun k d h => by
      rw [← C01_form, Bool.not_eq_true]
      have := exGraphs_defs h
      simp only [exGraphsCtx, List.mem_cons, Prod.mk.injEq, List.not_mem_nil, or_false] at this
      rcases this with ⟨rfl, -⟩ | ⟨rfl, -⟩ | ⟨rfl, -⟩ <;> decide
    prefixes := fun p m h => (exGraphs_noPrefix h).elim
    ids := fun k d h h' => by
      have := exGraphs_defs h
      simp only [exGraphsCtx, List.mem_cons, Prod.mk.injEq, List.not_mem_nil, or_false] at this
      rcases this with ⟨rfl, -⟩ | ⟨rfl, -⟩ | ⟨rfl, -⟩ <;> exact absurd h' (by decide)
    vocab := nofun
    base := nofun }
  keywords := ⟨fun p m h => (exGraphs_noPrefix h).elim, nofun⟩
  ctx := {
    defs := fun b hb => by
      simp only [exGraphsCtx, List.mem_cons, List.not_mem_nil, or_false] at hb
      rcases hb with rfl | rfl | rfl <;> exact ⟨⟨_, rfl, nofun⟩, by decide, rfl, rfl, rfl, rfl⟩
    keywords := fun b hb k hk => by
      simp only [exGraphsCtx, exMapsTerm, List.mem_cons, List.not_mem_nil, or_false] at hb
      rcases hb with rfl | rfl | rfl <;> cases hk
    iris := fun b hb h => by
      simp only [exGraphsCtx, List.mem_cons, List.not_mem_nil, or_false] at hb
      rcases hb with rfl | rfl | rfl <;> exact absurd h (by decide)
    typeDef := rfl
    previous := rfl }

theorem exGraphs_name {i : Str} (h : Id.classify exCEnv.toIriEnv i = .iri i) (h' : exCEnv.isIri i = true) (voc : Bool) :
    Nameable exCEnv.toCompEnv exGraphsCtx voc (.iri i) :=
  ⟨h, .inl h', nofun, fun _ _ _ h => (exGraphs_noPrefix h).elim, nofun⟩

theorem exGraphs_wf : exGraphsDoc.WF := by
  simp [Doc.WF, exGraphsDoc, exGraphsProps, exGraphNode, exMember, gWF, incWF, rvWF, Node.WF, psWF, objsWF, Obj.WF]

theorem exGraphs_untyped {m : TypeMap} : ¬ TypedTerm exGraphsCtx m := by
  rintro ⟨t, d, h1, h2⟩
  have := exGraphs_get h1
  simp only [exGraphsCtx, exMapsTerm, List.mem_cons, Prod.mk.injEq, List.not_mem_nil, or_false] at this
  rcases this with ⟨-, rfl⟩ | ⟨-, rfl⟩ | ⟨-, rfl⟩ <;> cases h2

theorem exGraphs_graphs : ∀ p ∈ exGraphsProps, ∀ g, .node g ∈ p.2 → g.isGraph = true → ∀ t d, exGraphsCtx.get t = some d →
    d.value = some (.id p.1) → InGraphTerm d.container g := by
  intro p hp g hg _ t d hd hv
  have := exGraphs_get hd
  simp only [exGraphsCtx, exMapsTerm, List.mem_cons, Prod.mk.injEq, List.not_mem_nil, or_false] at this
  simp only [exGraphsProps, List.mem_cons, List.not_mem_nil, or_false] at hp
  rcases hp with rfl | rfl | rfl <;> rcases this with ⟨-, rfl⟩ | ⟨-, rfl⟩ | ⟨-, rfl⟩ <;>
    first | exact absurd hv (by decide) | skip
  · simp only [List.mem_singleton, Obj.node.injEq] at hg
    subst hg
    exact ⟨rfl, rfl, _, rfl⟩
  · simp only [List.mem_cons, List.not_mem_nil, or_false, Obj.node.injEq] at hg
    rcases hg with rfl | rfl | rfl <;> exact ⟨rfl, _, rfl, rfl⟩
  · simp only [List.mem_cons, List.not_mem_nil, or_false, Obj.node.injEq] at hg
    rcases hg with rfl | rfl <;> exact ⟨rfl, _, rfl, rfl, rfl⟩

/-- Members of the graphs. -/
theorem exGraphs_member {i : String} (h : ∀ voc, Nameable exCEnv.toCompEnv exGraphsCtx voc (.iri i.toList)) :
    PlacedNode exCEnv.toCompEnv exGraphsCtx (exMember i) where
  id := fun j hj => by cases hj; exact h false
  term := fun j hj _ => by cases hj; exact h true
  reference := fun _ _ _ => rfl
  types := nofun
  graph := nofun
  props := fun p hp => by rw [List.mem_singleton.1 hp]; exact exGraphs_name (by decide) (by decide) _
  lists := fun p hp => by rw [List.mem_singleton.1 hp]; exact .inr .nil
  maps := fun p hp => by rw [List.mem_singleton.1 hp]; exact nofun
  graphs := fun p hp => by rw [List.mem_singleton.1 hp]; exact nofun
  rev := nofun
  langs := fun p hp => by rw [List.mem_singleton.1 hp]; exact nofun
  index := nofun

/-- The graphs. -/
theorem exGraphs_graph {x i : Option String} {s : String}
    (hx : ∀ y, x = some y → NotNone exGraphsCtx y.toList)
    (h : ∀ j, i = some j → ∀ voc, Nameable exCEnv.toCompEnv exGraphsCtx voc (.iri j.toList)) :
    PlacedNode exCEnv.toCompEnv exGraphsCtx (exGraphNode x i [.node (exMember s)]) where
  id := fun j hj => by
    obtain ⟨y, h1, rfl⟩ := Option.map_eq_some_iff.1 (show i.map _ = some j from hj)
    exact h y h1 false
  term := fun j _ ht => absurd ht exGraphs_untyped
  reference := fun _ _ ht => absurd ht (not_or.2 ⟨exGraphs_untyped, exGraphs_untyped⟩)
  types := nofun
  graph := fun g hg o ho => by
    cases hg
    rw [List.mem_singleton.1 ho]
    exact ⟨_, rfl, .inl rfl⟩
  props := nofun
  lists := nofun
  maps := nofun
  graphs := nofun
  rev := nofun
  langs := nofun
  index := fun y hy => by
    obtain ⟨z, h1, rfl⟩ := Option.map_eq_some_iff.1 (show x.map _ = some y from hy)
    exact hx z h1

theorem exGraphs_placed : PlacedDoc exCEnv.toCompEnv exGraphsCtx exGraphsDoc := by
  refine ⟨fun n hn => ?_, fun i v hv => ?_, fun i l hl => ?_, fun o ho => ?_⟩
  · have := inside_items hn
    simp only [exGraphsDoc, exGraphsProps, itemsOfObjs, Obj.items, Node.items, exGraphNode, exMember, itemsOfGraph, itemsOfProps,
      itemsOfIncluded, itemsOfRev, List.mem_append, List.mem_cons, List.not_mem_nil, or_false, reduceCtorEq, false_or,
      or_assoc, Item.node.injEq] at this
    rcases this with rfl | rfl | rfl | rfl | rfl | rfl | rfl | rfl | rfl | rfl | rfl | rfl | rfl
    · exact {
        id := fun i h => by cases h; exact exGraphs_name (by decide) (by decide) _
        term := fun i h _ => by cases h; exact exGraphs_name (by decide) (by decide) _
        reference := fun _ _ _ => rfl
        types := nofun
        graph := nofun
        props := fun p hp => by
          simp only [Node.props, List.mem_cons, List.not_mem_nil, or_false] at hp
          rcases hp with rfl | rfl | rfl <;> exact exGraphs_name (by decide) (by decide) _
        lists := fun p hp => by
          simp only [Node.props, List.mem_cons, List.not_mem_nil, or_false] at hp
          rcases hp with rfl | rfl | rfl <;> refine .inr ?_ <;> simp [IsList]
        maps := fun p hp o ho hl => by
          simp only [Node.props, List.mem_cons, List.not_mem_nil, or_false] at hp
          rcases hp with rfl | rfl | rfl <;> simp only [List.mem_cons, List.not_mem_nil, or_false] at ho <;>
            (obtain ⟨i, l, rfl⟩ := hl) <;> simp at ho
        graphs := exGraphs_graphs
        rev := nofun
        langs := fun p hp v hv => by
          simp only [Node.props, List.mem_cons, List.not_mem_nil, or_false] at hp
          rcases hp with rfl | rfl | rfl <;> simp at hv
        index := nofun }
    all_goals first
      | exact exGraphs_member (exGraphs_name (by decide) (by decide))
      | refine exGraphs_graph (x := none) (i := none) nofun nofun
      | refine exGraphs_graph (x := none) (i := some _) nofun (fun j h => ?_)
        cases h
        exact exGraphs_name (by decide) (by decide)
      | refine exGraphs_graph (x := some _) (i := none) (fun j h => ?_) nofun
        cases h
        refine ⟨?_, fun d hd => ?_⟩
        · rw [← C01_form]; decide
        · exact absurd (exGraphs_get hd) (by
            simp only [exGraphsCtx, List.mem_cons, Prod.mk.injEq, List.not_mem_nil, or_false]
            rintro (⟨h, -⟩ | ⟨h, -⟩ | ⟨h, -⟩) <;> exact absurd h (by decide))
  · have := inside_items hv
    simp [exGraphsDoc, exGraphsProps, itemsOfObjs, Obj.items, Node.items, exGraphNode, exMember, itemsOfGraph, itemsOfProps,
      itemsOfIncluded, itemsOfRev] at this
  · have := inside_items hl
    simp [exGraphsDoc, exGraphsProps, itemsOfObjs, Obj.items, Node.items, exGraphNode, exMember, itemsOfGraph, itemsOfProps,
      itemsOfIncluded, itemsOfRev] at this
  · rw [List.mem_singleton.1 ho]
    exact ⟨_, rfl, .inl rfl⟩

/-- The compacted document. -/
def exGraphsJson : Json :=
  .obj [("@id".toList, .str "http:a".toList),
    ("graph".toList, exMemberJson "http:b"),
    ("named".toList, .obj [("@none".toList, exMemberJson "http:c"),
      ("http:g".toList, .arr [exMemberJson "http:b", exMemberJson "http:d"])]),
    ("sorted".toList, .obj [("i".toList, .arr [exMemberJson "http:b"]), ("@none".toList, .arr [exMemberJson "http:c"])])]
where
  exMemberJson (i : String) : Json := .obj [("@id".toList, .str i.toList), ("http:p".toList, .arr [])]

/-- C66 holds of graphs under terms with the container `@graph` and in maps of graphs. -/
example : WrittenContext exBackEnv exGraphsCtx exGraphsCtx (.one .null) ∧
    compactDoc exCEnv exGraphsCtx (.one .null) exGraphsDoc = .ok exGraphsJson ∧
    ((expandDoc exBackEnv exGraphsCtx exGraphsJson).toOption.map fun d => d.eq exGraphsDoc) = some true := by
  refine ⟨?_, by decide +kernel⟩
  unfold WrittenContext
  rw [if_pos (by decide)]

/-! ## Where the conditions are needed -/

/-- A graph as the value of a property. -/
def exGraphT (x i : Option String) (os : List Obj) : Doc := [exNodeT [.node (exGraphNode x i os)]]

/-- C66 is false of a graph with two members under a term with the container `@graph`: they become nodes included
in a node. In a map of graphs there are two graphs. -/
theorem C66_graph_members :
    exBack (exTermCtx .graph) (exGraphT none none [.node (exMember "http:b"), .node (exMember "http:c")]) =
      some (exGraphT none none [.node (.mk none none none none (some [exMember "http:b", exMember "http:c"]) [] none)]) ∧
    exBack (exTermCtx .graphId) (exGraphT none (some "http:g") [.node (exMember "http:b"), .node (exMember "http:c")]) =
      some [exNodeT [.node (exGraphNode none (some "http:g") [.node (exMember "http:b")]),
        .node (exGraphNode none (some "http:g") [.node (exMember "http:c")])]] := by
  decide +kernel

/-- C66 is false of a graph without members under a term with the container `@graph`: it is lost, and so is the
property. -/
theorem C66_graph_empty :
    exBack (exTermCtx .graph) (exGraphT none none []) = some [] ∧
    exBack (exTermCtx .graphSet) (exGraphT none none []) = some [exNodeT []] := by
  decide +kernel

/-- C66 is false of a graph with an identifier under a term with the container `@graph`: it becomes the member of
another graph. -/
theorem C66_graph_named :
    exBack (exTermCtx .graph) (exGraphT none (some "http:g") [.node (exMember "http:b")]) =
      some (exGraphT none none [.node (exGraphNode none (some "http:g") [.node (exMember "http:b")])]) := by
  decide +kernel

/-- C66 is false of a graph with an identifier under a term with the containers `@graph` and `@index`: the object
for the graph is not put in a map, but expansion takes it for the map. -/
theorem C66_graph_no_map :
    compactDoc exCEnv (exTermCtx .graphIndex) (.one .null) (exGraphT none (some "http:g") [.node (exMember "http:b")]) =
      .ok (.obj [("t".toList, .obj [("@graph".toList, .obj [("@id".toList, .str "http:b".toList), ("http:p".toList, .arr [])]),
        ("@id".toList, .str "http:g".toList)])]) ∧
    exBack (exTermCtx .graphIndex) (exGraphT none (some "http:g") [.node (exMember "http:b")]) =
      some [exNodeT [.node (exGraphNode (some "@graph") none [.node (exMember "http:b")]),
        .node (exGraphNode (some "@id") none [exText none "http:g".toList])]] := by
  decide +kernel

/-- C66 is false of a graph with an index under terms without `@index`: the index is lost. -/
theorem C66_graph_index :
    exBack (exTermCtx .graph) (exGraphT (some "i") none [.node (exMember "http:b")]) =
      some (exGraphT none none [.node (exMember "http:b")]) ∧
    exBack (exTermCtx .graphId) (exGraphT (some "i") none [.node (exMember "http:b")]) =
      some (exGraphT none none [.node (exMember "http:b")]) := by
  decide +kernel

/-- C66 is false of a graph whose member has an index, in a map of graphs by index: that index is lost. -/
theorem C66_graph_member_index :
    exBack (exTermCtx .graphIndex) (exGraphT none none [.node (exMember "http:b" |>.setIndex (some "i".toList))]) =
      some (exGraphT none none [.node (exMember "http:b")]) := by
  decide +kernel

/-- C66 is false of a graph whose member is a graph, in a map of graphs: one of the two is lost. -/
theorem C66_graph_in_graph :
    exBack (exTermCtx .graphId) (exGraphT none (some "http:g") [.node (exGraphNode none (some "http:h") [.node (exMember "http:b")])]) =
      some (exGraphT none (some "http:h") [.node (exMember "http:b")]) := by
  decide +kernel

end JsonLd.Props
