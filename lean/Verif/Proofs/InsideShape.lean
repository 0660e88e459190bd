import Verif.Proofs.ToRdf
import Verif.Proofs.MappedEq
/-!
# What documents of the same shape contain
-/

namespace JsonLd
open Spec

/-- Identifiers and types of the item rewritten. -/
def Item.remap (f : Option Id → Option Id) (t : Id → Id) : Item → Item
  | .obj o => .obj (mapObj f t o)
  | .node n => .node (mapNode f t n)

variable {f : Option Id → Option Id} {t : Id → Id}

theorem partL_remap {x y : Item} (h : PartL x y) : PartL (Item.remap f t x) (Item.remap f t y) := by
  cases h with
  | item ho =>
    refine .item ?_
    rw [mapObjs_eq]
    exact List.mem_map_of_mem ho
  | part h =>
    cases h with
    | self n => exact .part (.self _)
    | @graph n l o hl ho =>
      obtain ⟨i, id, ty, gr, inc, ps, rv⟩ := n
      simp only [Node.graph] at hl
      subst hl
      refine .part (.graph (l := l.map (mapObj f t)) ?_ (List.mem_map_of_mem ho))
      simp [mapNode, Node.graph, mapG, mapObjs_eq]
    | @included n l o hl ho =>
      obtain ⟨i, id, ty, gr, inc, ps, rv⟩ := n
      simp only [Node.included] at hl
      subst hl
      refine .part (.included (l := l.map (mapNode f t)) ?_ (List.mem_map_of_mem ho))
      simp [mapNode, Node.included, mapInc, mapNodes_eq]
    | @property n k l o hl ho =>
      obtain ⟨i, id, ty, gr, inc, ps, rv⟩ := n
      simp only [Node.props] at hl
      refine .part (.property (k := k) (l := l.map (mapObj f t)) ?_ (List.mem_map_of_mem ho))
      simp only [mapNode, Node.props, mapPs_eq]
      exact List.mem_map.2 ⟨_, hl, rfl⟩
    | @reverse n r k l m hr hl ho =>
      obtain ⟨i, id, ty, gr, inc, ps, rv⟩ := n
      simp only [Node.rev] at hr
      subst hr
      refine .part (.reverse (r := r.map fun p => (p.1, p.2.map (mapNode f t))) (k := k)
        (l := l.map (mapNode f t)) ?_ (List.mem_map.2 ⟨_, hl, rfl⟩) (List.mem_map_of_mem ho))
      simp [mapNode, Node.rev, mapRv, mapRps_eq]

theorem partL_unmap {y z : Item} (h : PartL y (Item.remap f t z)) :
    ∃ z', PartL z' z ∧ y = Item.remap f t z' := by
  cases z with
  | obj o =>
    cases o with
    | value i v =>
      generalize hx : Item.remap f t (.obj (.value i v)) = w at h
      cases h with
      | item ho => simp [Item.remap, mapObj] at hx
      | part hp => cases hp <;> simp [Item.remap, mapObj] at hx
    | list i l =>
      generalize hx : Item.remap f t (.obj (.list i l)) = w at h
      cases h with
      | item ho =>
        simp only [Item.remap, mapObj, mapObjs_eq, Item.obj.injEq, Obj.list.injEq] at hx
        obtain ⟨-, rfl⟩ := hx
        obtain ⟨x, hx, rfl⟩ := List.mem_map.1 ho
        exact ⟨.obj x, .item hx, rfl⟩
      | part hp => cases hp <;> simp [Item.remap, mapObj] at hx
    | node n =>
      generalize hx : Item.remap f t (.obj (.node n)) = w at h
      cases h with
      | item ho => simp [Item.remap, mapObj] at hx
      | part hp =>
        cases hp <;> simp [Item.remap, mapObj] at hx
        exact ⟨.node n, .part (.self n), by simp [Item.remap, hx]⟩
  | node n =>
    obtain ⟨i, id, ty, gr, inc, ps, rv⟩ := n
    generalize hx : Item.remap f t (.node (.mk i id ty gr inc ps rv)) = w at h
    simp only [Item.remap, mapNode] at hx
    cases h with
    | item ho => simp at hx
    | part hp =>
      cases hp with
      | self n => simp at hx
      | @graph n l o e ho =>
        cases hx
        cases gr with
        | none => simp [Node.graph, mapG] at e
        | some l0 =>
          simp only [Node.graph, mapG, Option.some.injEq, mapObjs_eq] at e
          subst e
          obtain ⟨x, hx, rfl⟩ := List.mem_map.1 ho
          exact ⟨.obj x, .part (.graph rfl hx), rfl⟩
      | @included n l o e ho =>
        cases hx
        cases inc with
        | none => simp [Node.included, mapInc] at e
        | some l0 =>
          simp only [Node.included, mapInc, Option.some.injEq, mapNodes_eq] at e
          subst e
          obtain ⟨x, hx, rfl⟩ := List.mem_map.1 ho
          exact ⟨.node x, .part (.included rfl hx), rfl⟩
      | @property n k l o e ho =>
        cases hx
        simp only [Node.props, mapPs_eq] at e
        obtain ⟨p, hp, he⟩ := List.mem_map.1 e
        cases he
        obtain ⟨x, hx', rfl⟩ := List.mem_map.1 ho
        exact ⟨.obj x, .part (.property (k := p.1) hp hx'), rfl⟩
      | @reverse n r k l o e he ho =>
        cases hx
        cases rv with
        | none => simp [Node.rev, mapRv] at e
        | some r0 =>
          simp only [Node.rev, mapRv, Option.some.injEq, mapRps_eq] at e
          subst e
          obtain ⟨p, hp, he⟩ := List.mem_map.1 he
          cases he
          obtain ⟨x, hx', rfl⟩ := List.mem_map.1 ho
          exact ⟨.node x, .part (.reverse (k := p.1) rfl hp hx'), rfl⟩

theorem inside_remap {d : Doc} {x : Item} (h : Inside d x) : Inside (mapDoc f t d) (Item.remap f t x) := by
  obtain ⟨o, ho, h⟩ := h
  refine ⟨mapObj f t o, ?_, ?_⟩
  · rw [mapDoc, mapObjs_eq]
    exact List.mem_map_of_mem ho
  · induction h using Relation.ReflTransGen.head_induction_on with
    | refl => exact .refl
    | head hp _ ih => exact .head (partL_remap hp) ih

theorem inside_unmap {d : Doc} {y : Item} (h : Inside (mapDoc f t d) y) :
    ∃ z, Inside d z ∧ y = Item.remap f t z := by
  obtain ⟨o, ho, hr⟩ := h
  rw [mapDoc, mapObjs_eq] at ho
  obtain ⟨x, hx, rfl⟩ := List.mem_map.1 ho
  suffices ∃ z, Relation.ReflTransGen PartL z (.obj x) ∧ y = Item.remap f t z by
    obtain ⟨z, hz, e⟩ := this
    exact ⟨z, ⟨x, hx, hz⟩, e⟩
  induction hr using Relation.ReflTransGen.head_induction_on with
  | refl => exact ⟨.obj x, .refl, rfl⟩
  | head hp _ ih =>
    obtain ⟨z, hz, rfl⟩ := ih
    obtain ⟨z', hz', rfl⟩ := partL_unmap hp
    exact ⟨z', .head hz' hz, rfl⟩

/-- What is inside a document has a counterpart inside a document of the same shape. -/
theorem shape_inside {d e : Doc} (hs : shape d = shape e) {y : Item} (h : Inside d y) :
    ∃ z, Inside e z ∧ Item.remap (fun _ => none) (fun _ => .iri []) y =
      Item.remap (fun _ => none) (fun _ => .iri []) z := by
  have := inside_remap (f := fun _ => none) (t := fun _ => .iri []) h
  have h2 : Inside (shape e) (Item.remap (fun _ => none) (fun _ => .iri []) y) := by
    rw [← hs]; exact this
  exact inside_unmap h2

theorem shape_value {d e : Doc} (hs : shape d = shape e) {i : Option Str} {v : Value}
    (h : Inside d (.obj (.value i v))) : Inside e (.obj (.value i v)) := by
  obtain ⟨z, hz, he⟩ := shape_inside hs h
  cases z with
  | node n => cases he
  | obj o =>
    cases o with
    | value j w => cases he; exact hz
    | list => simp [Item.remap, mapObj] at he
    | node => simp [Item.remap, mapObj] at he

theorem shape_node {d e : Doc} (hs : shape d = shape e) {n : Node} (h : Inside d (.node n)) :
    ∃ m, Inside e (.node m) ∧ n.props.map Prod.fst = m.props.map Prod.fst ∧
      n.rev.map (List.map Prod.fst) = m.rev.map (List.map Prod.fst) := by
  obtain ⟨z, hz, he⟩ := shape_inside hs h
  cases z with
  | obj o => cases he
  | node m =>
    refine ⟨m, hz, ?_⟩
    obtain ⟨i, id, ty, gr, inc, ps, rv⟩ := n
    obtain ⟨i', id', ty', gr', inc', ps', rv'⟩ := m
    simp only [Item.remap, mapNode, Item.node.injEq, Node.mk.injEq, mapPs_eq] at he
    obtain ⟨_, _, _, _, _, hp, hr⟩ := he
    simp only [Node.props, Node.rev]
    constructor
    · have := congrArg (List.map Prod.fst) hp
      simpa [List.map_map, Function.comp_def] using this
    · cases rv <;> cases rv' <;> simp only [mapRv, reduceCtorEq, Option.some.injEq, mapRps_eq] at hr
      · rfl
      · have := congrArg (List.map Prod.fst) hr
        simpa [List.map_map, Function.comp_def] using this

/-- Each header is that of a node inside. -/
theorem header_node {h : Header} :
    (∀ o : Obj, h ∈ objHeaders o → ∃ n, Relation.ReflTransGen PartL (.node n) (.obj o) ∧ h = (n.id, n.types)) ∧
    (∀ m : Node, h ∈ nodeHeaders m → ∃ n, Relation.ReflTransGen PartL (.node n) (.node m) ∧ h = (n.id, n.types)) := by
  apply Doc.ind
  · intro i v hh; cases hh
  · intro i l ih hh
    rw [objHeaders, objsHeaders_eq] at hh
    obtain ⟨o, ho, hh⟩ := List.mem_flatMap.1 hh
    obtain ⟨n, hn, e⟩ := ih o ho hh
    exact ⟨n, hn.tail (.item ho), e⟩
  · intro m ih hh
    obtain ⟨n, hn, e⟩ := ih hh
    exact ⟨n, hn.tail (.part (.self m)), e⟩
  · intro i id ty g inc ps rv hg hi hp hr hh
    simp only [nodeHeaders, List.mem_cons, List.mem_append] at hh
    rcases hh with rfl | (((hh | hh) | hh) | hh)
    · exact ⟨_, .refl, rfl⟩
    · cases g with
      | none => cases hh
      | some l =>
        rw [gHeaders, objsHeaders_eq] at hh
        obtain ⟨o, ho, hh⟩ := List.mem_flatMap.1 hh
        obtain ⟨n, hn, e⟩ := hg l rfl o ho hh
        exact ⟨n, hn.tail (.part (.graph rfl ho)), e⟩
    · cases inc with
      | none => cases hh
      | some l =>
        rw [incHeaders, nodesHeaders_eq] at hh
        obtain ⟨o, ho, hh⟩ := List.mem_flatMap.1 hh
        obtain ⟨n, hn, e⟩ := hi l rfl o ho hh
        exact ⟨n, hn.tail (.part (.included rfl ho)), e⟩
    · rw [psHeaders_eq] at hh
      obtain ⟨p, hp', hh⟩ := List.mem_flatMap.1 hh
      obtain ⟨o, ho, hh⟩ := List.mem_flatMap.1 hh
      obtain ⟨n, hn, e⟩ := hp p hp' o ho hh
      exact ⟨n, hn.tail (.part (.property (k := p.1) hp' ho)), e⟩
    · cases rv with
      | none => cases hh
      | some l =>
        rw [rvHeaders, rpsHeaders_eq] at hh
        obtain ⟨p, hp', hh⟩ := List.mem_flatMap.1 hh
        obtain ⟨o, ho, hh⟩ := List.mem_flatMap.1 hh
        obtain ⟨n, hn, e⟩ := hr l rfl p hp' o ho hh
        exact ⟨n, hn.tail (.part (.reverse (k := p.1) rfl hp' ho)), e⟩

theorem docHeader_node {d : Doc} {h : Header} (hh : h ∈ docHeaders d) :
    ∃ n, Inside d (.node n) ∧ h = (n.id, n.types) := by
  rw [docHeaders, objsHeaders_eq] at hh
  obtain ⟨o, ho, hh⟩ := List.mem_flatMap.1 hh
  obtain ⟨n, hn, e⟩ := header_node.1 o hh
  exact ⟨n, ⟨o, ho, hn⟩, e⟩

end JsonLd
