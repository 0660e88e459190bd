import Verif.Proofs.NodeMapGraph
import Verif.Props.NodeMap
import Verif.Spec.NodeMapGraph
/-!
# Graph entries of a node map
-/

namespace JsonLd.Props
open Spec

section
variable {gen : Nat → Id} {d : Doc}

/-- C106. A node of the map has a graph entry exactly if the document gives a graph to some node of the same name
in the same graph. -/
theorem C106_has_graph (h : Relabelable gen d) {n : Nat} {m : NodeMap} (hm : d.nodeMap gen n = .ok m) {g : Option Id}
    {p : Node} {s : Id} (hp : InMap m g p) (hs : p.id = some s) :
    (∃ l, p.graph = some l) ↔ ∃ q l, Occurs (d.relabel gen n).1 g (.node q) ∧ q.id = some s ∧ q.graph = some l := by
  obtain ⟨hi, -⟩ := nodeMap_nodes h hm
  obtain ⟨x, hx⟩ := (inMap_iff hi.keys).1 hp
  have hid := (hi.nodes _ _ _ hx).hid
  rw [hs] at hid
  cases hid
  have he := nodeMap_entry h hm hx
  rw [← Option.isSome_iff_exists, he.some]
  constructor
  · rintro ⟨os, hos⟩
    obtain ⟨q, l, h1, h2, h3, -⟩ := doc_evs_sound (allNamed h n) _ hos
    exact ⟨q, l, h1, h2, h3⟩
  · rintro ⟨q, l, h1, h2, h3⟩
    exact ⟨_, ev_gadd h1 h2 h3⟩

/-- C106. The graph entry of a node of the map consists of references to the members of all graphs that the document
gives to this node, in the same graph: there is nothing else in the entry, every member is there up to equality, and
none twice. -/
theorem C106_members (h : Relabelable gen d) {n : Nat} {m : NodeMap} (hm : d.nodeMap gen n = .ok m) {g : Option Id}
    {p : Node} {s : Id} (hp : InMap m g p) (hs : p.id = some s) {l : List Obj} (hl : p.graph = some l) :
    (∀ o ∈ l, ∃ o', GraphMember (d.relabel gen n).1 g s o' ∧ o = reference o') ∧
    (∀ o', GraphMember (d.relabel gen n).1 g s o' → ∃ o ∈ l, (reference o').eq o = true) ∧
    l.Pairwise fun a b => b.eq a = false := by
  obtain ⟨hi, -⟩ := nodeMap_nodes h hm
  obtain ⟨x, hx⟩ := (inMap_iff hi.keys).1 hp
  have hid := (hi.nodes _ _ _ hx).hid
  rw [hs] at hid
  cases hid
  have he := nodeMap_entry h hm hx
  refine ⟨fun o ho => ?_, ?_, he.once l hl⟩
  · obtain ⟨os, hos, hoo⟩ := he.sound l hl o ho
    obtain ⟨q, l', h1, h2, h3, rfl⟩ := doc_evs_sound (allNamed h n) _ hos
    rw [references_eq] at hoo
    obtain ⟨o', ho', rfl⟩ := List.mem_map.1 hoo
    exact ⟨o', ⟨q, l', h1, h2, h3, ho'⟩, rfl⟩
  · rintro o' ⟨q, l', h1, h2, h3, ho'⟩
    obtain ⟨o, ho, hso⟩ := he.complete l hl _ (ev_gadd h1 h2 h3) (reference o')
      (by rw [references_eq]; exact List.mem_map_of_mem ho')
    exact ⟨o, ho, hso.eq⟩

/-- C106. The nodes that a graph entry refers to are nodes of the named graph. -/
theorem C106_refers (h : Relabelable gen d) {n : Nat} {m : NodeMap} (hm : d.nodeMap gen n = .ok m) {g : Option Id}
    {p : Node} {s : Id} (hp : InMap m g p) (hs : p.id = some s) {l : List Obj} (hl : p.graph = some l) {i : Id}
    (hi : bareNode (some i) ∈ l) : ∃ q, InMap m (some s) q ∧ q.id = some i := by
  obtain ⟨o, ⟨q, l', h1, h2, h3, ho⟩, e⟩ := (C106_members h hm hp hs hl).1 _ hi
  obtain ⟨hmi, -⟩ := nodeMap_nodes h hm
  cases o with
  | value => cases e
  | list => cases e
  | node r =>
    have hr : r.id = some i := by
      simp only [reference, bareNode, Obj.node.injEq, Node.mk.injEq] at e
      exact e.2.1.symm
    obtain ⟨q', hq'⟩ := Option.isSome_iff_exists.1
      (hmi.exists_node _ _ _ (ev_declare (.self (h1.graph h2 h3 ho)) hr))
    exact ⟨q', (inMap_iff hmi.keys).2 ⟨i, hq'⟩, (hmi.nodes _ _ _ hq').hid⟩

end

/-! ## An example -/

/-- A node that says nothing but its name. -/
def exNameOnly (x : String) : Node := .mk none (some (.iri x.toList)) none none none [] none

/-- The node `g` has a graph in two places. -/
def exGraphTwice : Doc :=
  [.node (.mk none (some (.iri "g".toList)) none (some [.node (exNameOnly "a"), .node (exNameOnly "b")]) none [] none),
    .node (.mk none (some (.iri "h".toList)) none none (some
      [.mk none (some (.iri "g".toList)) none (some [.node (exNameOnly "b"), .node (exNameOnly "c")]) none [] none]) [] none)]

/-- The members of both graphs are in the entry, and `b` is in it once. -/
example : Relabelable exGen exGraphTwice ∧ ((exGraphTwice.nodeMap exGen 0).toOption.map fun m => m.default.map fun e => e.2.graph) =
    some [some [.node (exNameOnly "a"), .node (exNameOnly "b"), .node (exNameOnly "c")], none] := by
  refine ⟨⟨exGen_injective, ?_, fun h hh i hi hb k e => hb _ e.symm⟩, by decide +kernel⟩
  refine ⟨by decide +kernel, ?_⟩
  simp [exGraphTwice, exNameOnly, gWF, objsWF, Obj.WF, Node.WF, incWF, nodesWF, rvWF, psWF]
  decide +kernel

end JsonLd.Props
