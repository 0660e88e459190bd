import Verif.Props.NodeMap
import Verif.Proofs.NodeMapMerge
/-!
# C102: merging the graphs of a node map
-/

namespace JsonLd.Props
open JsonLd Spec

section
variable {m : NodeMap}

/-- C102, nodes. Whatever the order in which graphs and nodes are merged, the merged graph has one
node for each identifier which has a node in some graph, under this identifier, and no other. -/
theorem C102_nodes (hm : WellKeyed m) (o : Orders) :
    ((m.merge o).map Prod.fst).Nodup ∧
    (∀ x p, (x, p) ∈ m.merge o → p.id = some x) ∧
    ∀ x, (∃ p, (x, p) ∈ m.merge o) ↔ ∃ g n, InMap m g n ∧ n.id = some x := by
  have h := merge_merged hm o
  refine ⟨h.keys, fun x p hp => (h.nodes x p hp).id, fun x => ?_⟩
  have := h.ids x
  constructor
  · rintro ⟨p, hp⟩
    obtain ⟨n, ⟨g, h1⟩, h2⟩ := this.1 (List.mem_map.2 ⟨_, hp, rfl⟩)
    exact ⟨g, n, h1, h2⟩
  · rintro ⟨g, n, h1, h2⟩
    obtain ⟨⟨y, p⟩, hp, e⟩ := List.mem_map.1 (this.2 ⟨n, ⟨g, h1⟩, h2⟩)
    cases e
    exact ⟨p, hp⟩

/-- C102, types. A merged node has the types which the node has in some graph: none is lost, none is
added. -/
theorem C102_types (hm : WellKeyed m) {o : Orders} {x : Id} {p : Node} (hp : (x, p) ∈ m.merge o) (t : Id) :
    (∃ ts, p.types = some ts ∧ t ∈ ts) ↔
      ∃ g n ts, InMap m g n ∧ n.id = some x ∧ n.types = some ts ∧ t ∈ ts := by
  have h := ((merge_merged hm o).nodes x p hp).types t
  have e : (∃ ts, p.types = some ts ∧ t ∈ ts) ↔ t ∈ p.types.getD [] := by
    cases p.types <;> simp
  rw [e, h]
  constructor
  · rintro ⟨n, ts, ⟨g, h1⟩, h2⟩; exact ⟨g, n, ts, h1, h2⟩
  · rintro ⟨g, n, ts, h1, h2⟩; exact ⟨n, ts, ⟨g, h1⟩, h2⟩

/-- C102, properties. Every value of a property of a merged node is a value of this property of the
node in some graph; every value that the node has in some graph is a value of the merged node, as it
is or through an equivalent one; and if no node has two equivalent values for a property, no merged
node has. -/
theorem C102_properties (hm : WellKeyed m) {o : Orders} {x : Id} {p : Node} (hp : (x, p) ∈ m.merge o) :
    (∀ k os v, (k, os) ∈ p.props → v ∈ os →
      ∃ g n os', InMap m g n ∧ n.id = some x ∧ (k, os') ∈ n.props ∧ v ∈ os') ∧
    (∀ g n k os, InMap m g n → n.id = some x → (k, os) ∈ n.props → Holds Obj.equiv k os p.props) ∧
    ((∀ g n k os, InMap m g n → (k, os) ∈ n.props → os.Pairwise fun a b => a.equiv b = false) →
      ∀ k os, (k, os) ∈ p.props → os.Pairwise fun a b => a.equiv b = false) := by
  have h := (merge_merged hm o).nodes x p hp
  refine ⟨?_, ?_, ?_⟩
  · intro k os v hk hv
    obtain ⟨n, os', ⟨g, h1⟩, h2⟩ := h.sound k os hk v hv
    exact ⟨g, n, os', h1, h2⟩
  · intro g n k os hn hx hk
    exact h.complete n k os ⟨g, hn⟩ hx hk
  · intro hp
    exact h.once fun n k os ⟨g, hn⟩ => hp g n k os hn

/-- C102, reverse properties: the same. -/
theorem C102_reverse (hm : WellKeyed m) {o : Orders} {x : Id} {p : Node} (hp : (x, p) ∈ m.merge o) :
    (∀ r k os v, p.rev = some r → (k, os) ∈ r → v ∈ os →
      ∃ g n r' os', InMap m g n ∧ n.id = some x ∧ n.rev = some r' ∧ (k, os') ∈ r' ∧ v ∈ os') ∧
    (∀ g n r k os, InMap m g n → n.id = some x → n.rev = some r → (k, os) ∈ r →
      ∃ r', p.rev = some r' ∧ Holds Node.equiv k os r') := by
  have h := (merge_merged hm o).nodes x p hp
  refine ⟨?_, ?_⟩
  · intro r k os v hr hk hv
    obtain ⟨n, r', os', ⟨g, h1⟩, h2⟩ := h.rev_sound r hr k os hk v hv
    exact ⟨g, n, r', os', h1, h2⟩
  · intro g n r k os hn hx hr hk
    exact h.rev_complete n r k os ⟨g, hn⟩ hx hr hk

/-- C102, index. The index of a merged node is one of those of the node, and there is one if the node
has one in some graph. -/
theorem C102_index (hm : WellKeyed m) {o : Orders} {x : Id} {p : Node} (hp : (x, p) ∈ m.merge o) :
    (∀ a, p.index = some a → ∃ g n, InMap m g n ∧ n.id = some x ∧ n.index = some a) ∧
    (p.index = none → ∀ g n, InMap m g n → n.id = some x → n.index = none) := by
  have h := (merge_merged hm o).nodes x p hp
  refine ⟨?_, ?_⟩
  · intro a ha
    obtain ⟨n, ⟨g, h1⟩, h2⟩ := h.index a ha
    exact ⟨g, n, h1, h2⟩
  · intro hi g n hn hx
    exact h.indexed hi n ⟨g, hn⟩ hx

/-- C102, other entries. The `@graph` and `@included` entries of a merged node, if any, are those of
the node in some graph. They may be lost: see `C102_graph_lost`. -/
theorem C102_entries (hm : WellKeyed m) {o : Orders} {x : Id} {p : Node} (hp : (x, p) ∈ m.merge o) :
    (∀ l, p.graph = some l → ∃ g n, InMap m g n ∧ n.id = some x ∧ n.graph = some l) ∧
    (∀ l, p.included = some l → ∃ g n, InMap m g n ∧ n.id = some x ∧ n.included = some l) := by
  have h := (merge_merged hm o).nodes x p hp
  refine ⟨?_, ?_⟩
  · intro l hl
    obtain ⟨n, ⟨g, h1⟩, h2⟩ := h.graph l hl
    exact ⟨g, n, h1, h2⟩
  · intro l hl
    obtain ⟨n, ⟨g, h1⟩, h2⟩ := h.included l hl
    exact ⟨g, n, h1, h2⟩

end

section
variable {gen : Nat → Id} {d : Doc}

/-- Node maps of documents are well keyed. -/
theorem C102_generated (h : Relabelable gen d) {n : Nat} {m : NodeMap} (hm : d.nodeMap gen n = .ok m) :
    WellKeyed m := by
  obtain ⟨hi, _⟩ := nodeMap_nodes h hm
  refine ⟨hi.keys.2 none _ rfl, fun x p hp => ?_, fun g G hG x p hp => ?_⟩
  · have : m.get none x = some p := (lookupProp_iff (hi.keys.2 none _ rfl)).2 hp
    exact (hi.nodes _ _ _ this).hid
  · have hg : m.graph (some g) = some G := (lookupProp_iff hi.keys.1).2 hG
    have : m.get (some g) x = some p := by
      unfold NodeMap.get
      rw [hg]
      exact (lookupProp_iff (hi.keys.2 _ _ hg)).2 hp
    exact (hi.nodes _ _ _ this).hid

/-- C102, statements. In the merged graph of the node map of a document, a node has a value for a
property only if the document states it in some graph, with nodes replaced by references; and all
that the document states about properties in some graph is there, up to equality of values. -/
theorem C102_statements (h : Relabelable gen d) {n : Nat} {m : NodeMap} (hm : d.nodeMap gen n = .ok m)
    (o : Orders) :
    (∀ x p k os v, (x, p) ∈ m.merge o → (k, os) ∈ p.props → v ∈ os →
      ∃ g y, Asserts (d.relabel gen n).1 ⟨g, x, .ref k, y⟩ ∧ asReference y = .obj v) ∧
    (∀ g x k y, Asserts (d.relabel gen n).1 ⟨g, x, .ref k, y⟩ →
      ∃ p os v, (x, p) ∈ m.merge o ∧ (k, os) ∈ p.props ∧ v ∈ os ∧ SameObject (asReference y) (.obj v)) := by
  have hw := C102_generated h hm
  have sound : ∀ x p k os v, (x, p) ∈ m.merge o → (k, os) ∈ p.props → v ∈ os →
      ∃ g y, Asserts (d.relabel gen n).1 ⟨g, x, .ref k, y⟩ ∧ asReference y = .obj v := by
    intro x p k os v hp hk hv
    obtain ⟨g, q, os', h1, h2, h3, h4⟩ := (C102_properties hw hp).1 k os v hk hv
    obtain ⟨y, hy, e⟩ := (C101_statements h hm).1 _ (.property h1 h2 h3 h4)
    exact ⟨g, y, hy, e.symm⟩
  refine ⟨sound, ?_⟩
  intro g x k y hy
  obtain ⟨z, hz, hs⟩ := (C101_statements h hm).2 _ hy nofun
  simp only at hz hs
  generalize hq : (⟨g, x, .ref k, z⟩ : Quad) = q at hz
  cases hz with
  | type => cases hq
  | @property g' q s k' os v hin hid hk hv =>
    injection hq with e1 e2 e3 e4
    injection e3 with e3
    subst e1 e2 e3 e4
    obtain ⟨p, hp⟩ := ((C102_nodes hw o).2.2 x).2 ⟨_, _, hin, hid⟩
    obtain ⟨os2, v2, h1, h2, h3⟩ := (C102_properties hw hp).2.1 _ _ _ _ hin hid hk v hv
    refine ⟨p, os2, v2, hp, h1, h2, ?_⟩
    rcases h3 with rfl | h3
    · exact hs
    · obtain ⟨_, y2, _, e2⟩ := sound x p k os2 v2 hp h1 h2
      have w2 := (asReference_WF y2).1 _ e2
      obtain ⟨y3, _, e3⟩ := (C101_statements h hm).1 _ (.property hin hid hk hv)
      have w1 := (asReference_WF y3).1 _ e3.symm
      have h3 : v.eq v2 = true := by
        rw [← (Obj.eqOk w2).2.1 v w1]
        exact equiv_eq h3
      cases hy' : asReference y with
      | ref => rw [hy'] at hs; exact hs.elim
      | node => rw [hy'] at hs; exact hs.elim
      | obj a =>
        rw [hy'] at hs
        exact (Obj.eqOk ((asReference_WF y).1 _ hy')).2.2 _ _ w1 w2 hs h3

end

/-- Two graphs; the node which names the first is described in the second as well. -/
def exTwoGraphs : Doc :=
  [.node (.mk none (some (.iri "a".toList)) (some [.iri "T".toList]) (some
      [.node (.mk none (some (.iri "x".toList)) none none none [(.iri "p".toList, [exStr "1"])] none)])
      none [] none),
   .node (.mk none (some (.iri "h".toList)) none (some
      [.node (.mk none (some (.iri "a".toList)) (some [.iri "U".toList]) none none
        [(.iri "p".toList, [exStr "2"])] none)]) none [] none)]

/-- Its node map. -/
def exTwoMap : NodeMap where
  graphs := [(.iri "a".toList, [(.iri "x".toList,
      .mk none (some (.iri "x".toList)) none none none [(.iri "p".toList, [exStr "1"])] none)]),
    (.iri "h".toList, [(.iri "a".toList, .mk none (some (.iri "a".toList)) (some [.iri "U".toList]) none none
        [(.iri "p".toList, [exStr "2"])] none)])]
  default := [(.iri "a".toList, .mk none (some (.iri "a".toList)) (some [.iri "T".toList])
        (some [bareNode (some (.iri "x".toList))]) none [] none),
     (.iri "h".toList, .mk none (some (.iri "h".toList)) none
        (some [bareNode (some (.iri "a".toList))]) none [] none)]

theorem exTwo_map : exTwoGraphs.nodeMap exGen 0 = .ok exTwoMap := by
  have h : (exTwoGraphs.nodeMap exGen 0).toOption.map (fun m => (m.graphs, m.default)) =
      some (exTwoMap.graphs, exTwoMap.default) := by decide +kernel
  cases hm : exTwoGraphs.nodeMap exGen 0 with
  | error e => rw [hm] at h; cases h
  | ok m =>
    rw [hm] at h
    simp only [Except.toOption, Option.map_some, Option.some.injEq, Prod.mk.injEq] at h
    obtain ⟨g, df⟩ := m
    rw [show g = exTwoMap.graphs from h.1, show df = exTwoMap.default from h.2]

/-- The merged node. -/
def exTwoNode : Node :=
  .mk none (some (.iri "a".toList)) (some [.iri "T".toList, .iri "U".toList]) none none
    [(.iri "p".toList, [exStr "2"])] none

/-- The example meets the hypotheses of C102. The merged graph has all types and properties, but has
lost the `@graph` entry of the node: what does not hold of the code is that `@graph` entries are
kept. -/
theorem C102_graph_lost : ∃ m p, Relabelable exGen exTwoGraphs ∧ exTwoGraphs.nodeMap exGen 0 = .ok m ∧
    (∃ q, InMap m none q ∧ q.id = some (.iri "a".toList) ∧ q.graph = some [bareNode (some (.iri "x".toList))]) ∧
    (Id.iri "a".toList, p) ∈ m.merge Orders.insertion ∧
    p.types = some [.iri "T".toList, .iri "U".toList] ∧ p.props = [(.iri "p".toList, [exStr "2"])] ∧
    p.graph = none := by
  refine ⟨exTwoMap, exTwoNode, ⟨exGen_injective, ?_, fun h hh i hi hb k e => hb _ e.symm⟩, exTwo_map,
    ⟨_, ⟨_, List.mem_cons_self⟩, rfl, rfl⟩, ?_, rfl, rfl, rfl⟩
  · refine ⟨by decide +kernel, ?_⟩
    simp [exTwoGraphs, exStr, gWF, objsWF, Obj.WF, Node.WF, incWF, rvWF, psWF]
  · decide +kernel

end JsonLd.Props
