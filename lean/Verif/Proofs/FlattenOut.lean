import Verif.Proofs.FlattenSpec
/-!
# The flattened document made of a node map
-/

namespace JsonLd
open Spec

/-! ## Adding the named graphs -/

theorem addGraphs_spec (entry : Id × NMGraph → List Obj) (gs : List (Id × NMGraph)) (D : NMGraph)
    (hgs : (gs.map Prod.fst).Nodup) (hD : (D.map Prod.fst).Nodup) :
    ∃ D', addGraphs entry gs D = some D' ∧ (D'.map Prod.fst).Nodup ∧
      ∀ x, lookupProp x D' = match lookupProp x gs with
        | some G => some (((lookupProp x D).getD (Node.withId x none)).setGraphEntry
            (some (entry (x, G))))
        | none => lookupProp x D := by
  induction gs generalizing D with
  | nil => exact ⟨D, rfl, hD, fun x => rfl⟩
  | cons p gs ih =>
    obtain ⟨g, G⟩ := p
    simp only [List.map_cons, List.nodup_cons] at hgs
    have hdecl : ∃ D1, declareNode D g none = .ok D1 := by
      unfold declareNode
      split
      · rename_i n hn
        cases n.index <;> exact ⟨_, rfl⟩
      · exact ⟨_, rfl⟩
    obtain ⟨D1, hD1⟩ := hdecl
    obtain ⟨h1, _, h3⟩ := declareNode_ok hD hD1
    have hg : lookupProp g D1 = some (declEffect g none (lookupProp g D)) := by rw [h3, if_pos rfl]
    have heff : declEffect g none (lookupProp g D) = (lookupProp g D).getD (Node.withId g none) := by
      cases lookupProp g D with
      | none => rfl
      | some n => simp only [declEffect, Option.getD_some]; cases n.index <;> rfl
    simp only [addGraphs, hD1, hg]
    obtain ⟨D', h4, h5, h6⟩ := ih (setKey g
      ((declEffect g none (lookupProp g D)).setGraphEntry (some (entry (g, G)))) D1) hgs.2
      (by rw [setKey_keys]; exact h1)
    refine ⟨D', h4, h5, ?_⟩
    intro x
    rw [h6]
    by_cases e : x = g
    · subst e
      have hn : lookupProp x gs = none := lookupProp_eq_none.2 hgs.1
      simp only [hn, lookupProp, if_true, lookupProp_setKey, hg, Option.map_some, heff]
    · simp only [lookupProp, Ne.symm e, if_false, lookupProp_setKey, e, h3]

theorem lookupProp_perm {α : Type} {l l' : List (Id × α)} (hp : l.Perm l')
    (hn : (l'.map Prod.fst).Nodup) (k : Id) : lookupProp k l = lookupProp k l' := by
  have hn' : (l.map Prod.fst).Nodup := (hp.map Prod.fst).nodup_iff.2 hn
  cases h : lookupProp k l' with
  | some v =>
    exact (lookupProp_iff hn').2 (hp.mem_iff.2 ((lookupProp_iff hn).1 h))
  | none =>
    rw [lookupProp_eq_none] at h ⊢
    exact fun h' => h ((hp.map Prod.fst).mem_iff.1 h')

theorem sortIf_perm {α : Type} (b : Bool) (key : α → Str) (l : List α) : (sortIf b key l).Perm l := by
  cases b
  · exact List.Perm.refl _
  · exact List.perm_insertionSort _ l

theorem sortByKey_sorted {α : Type} (key : α → Str) (l : List α) :
    (sortByKey key l).Pairwise fun a b => key a ≤ key b := by
  have : Std.Total fun a b : α => key a ≤ key b := ⟨fun a b => List.le_total (key a) (key b)⟩
  have : IsTrans α fun a b : α => key a ≤ key b := ⟨fun a b c h h' => List.le_trans h h'⟩
  exact List.pairwise_insertionSort _ l

/-! ## Nodes of the result -/

/-- The node `x` of the default graph once the named graphs have been declared there. -/
def NodeMap.base (m : NodeMap) (x : Id) : Option Node :=
  match m.graph (some x) with
  | some _ => some ((m.get none x).getD (Node.withId x none))
  | none => m.get none x

/-- The elements of a named graph, in some order. -/
def graphNodes (order : List Node → List Node) (G : NMGraph) : List Obj :=
  (order (G.map Prod.snd)).filterMap filterSubGraph

theorem filterSubGraph_id {n : Node} {o : Obj} (h : filterSubGraph n = some o) :
    ∃ m, o = .node m ∧ m.id = n.id := by
  unfold filterSubGraph at h
  split at h
  · cases h
  · obtain ⟨i, id, ty, g, inc, ps, rv⟩ := n
    cases h
    exact ⟨_, rfl, rfl⟩

theorem node_eq_id {n m : Node} (h : n.eq m = true) : n.id = m.id := by
  obtain ⟨i, id, ty, g, inc, ps, rv⟩ := n
  obtain ⟨i', id', ty', g', inc', ps', rv'⟩ := m
  simp only [Node.eq, Bool.and_eq_true, decide_eq_true_eq] at h
  exact h.1.1.1.1.1.2

section
variable {E : List Ev} {m : NodeMap}

theorem ids_eq_keys (hi : MapInv E m) {g : Option Id} {G : NMGraph} (hG : m.graph g = some G) :
    (G.map Prod.snd).map Node.id = (G.map Prod.fst).map some := by
  rw [List.map_map, List.map_map]
  apply List.map_congr_left
  intro p hp
  have : m.get g p.1 = some p.2 := by
    simp only [NodeMap.get, hG, Option.bind_some]
    exact (lookupProp_iff (hi.keys.2 _ _ hG)).2 hp
  exact (hi.nodes _ _ _ this).hid

theorem ids_nodup (hi : MapInv E m) {g : Option Id} {G : NMGraph} (hG : m.graph g = some G) :
    ((G.map Prod.snd).map Node.id).Nodup := by
  rw [ids_eq_keys hi hG]
  exact (hi.keys.2 _ _ hG).map (Option.some_injective _)

/-- Members of the graph entry are pairwise different. -/
theorem subgraph_collect {l : List Node} (hl : (l.map Node.id).Nodup) :
    setCollect Obj.eq (l.filterMap filterSubGraph) = l.filterMap filterSubGraph := by
  apply setCollect_of_pairwise
  rw [List.pairwise_filterMap]
  have := List.pairwise_map.1 hl
  refine this.imp ?_
  intro a b hab x hx y hy
  obtain ⟨n, rfl, hn⟩ := filterSubGraph_id hx
  obtain ⟨n', rfl, hn'⟩ := filterSubGraph_id hy
  rw [Bool.eq_false_iff]
  intro h
  simp only [Obj.eq] at h
  exact hab (by rw [← hn, ← hn', node_eq_id h])

end

/-- Nodes that are the same except for the order of the elements of `@graph`. -/
def setGraphOf (m : NodeMap) (ent : Id → NMGraph → List Obj) (x : Id) : Option Node :=
  (m.base x).map fun n => n.setGraphEntry ((m.graph (some x)).map (ent x))

theorem addGraphs_final {E : List Ev} {m : NodeMap} (hi : MapInv E m)
    (entry : Id × NMGraph → List Obj) {gs : List (Id × NMGraph)} (hgs : gs.Perm m.graphs) :
    ∃ D, addGraphs entry gs m.default = some D ∧ (D.map Prod.fst).Nodup ∧
      ∀ x, lookupProp x D = setGraphOf m (fun x G => entry (x, G)) x := by
  obtain ⟨D, h1, h2, h3⟩ := addGraphs_spec entry gs m.default
    ((hgs.map Prod.fst).nodup_iff.2 hi.keys.1) (hi.keys.2 none _ rfl)
  refine ⟨D, h1, h2, ?_⟩
  intro x
  rw [h3, lookupProp_perm hgs hi.keys.1]
  have hd : lookupProp x m.default = m.get none x := rfl
  have hg : lookupProp x m.graphs = m.graph (some x) := rfl
  rw [hd, hg]
  simp only [setGraphOf, NodeMap.base]
  cases hG : m.graph (some x) with
  | some G => rfl
  | none =>
    simp only
    cases hn : m.get none x with
    | none => rfl
    | some n =>
      have hinv := hi.nodes _ _ _ hn
      have hgn : n.graph = none := by
        cases h : n.graph with
        | none => rfl
        | some l =>
          obtain ⟨os, ho⟩ := hinv.graph (by rw [h]; rfl)
          have := (hi.graphs (some x)).2 (Or.inr ⟨x, rfl, (hi.evOk _ ho).2⟩)
          rw [hG] at this; cases this
      obtain ⟨i, id, ty, g, inc, ps, rv⟩ := n
      simp only [Node.graph] at hgn
      subst hgn
      rfl

/-- The elements of a flattened document, up to order. -/
def flatList (D : NMGraph) : List Node := (D.map Prod.snd).filterMap filterGraph

/-- The order of the elements of a named graph. -/
def Orders.sub (o : Orders) (ordered : Bool) (x : Id) (G : NMGraph) : List Obj :=
  (sortIf ordered Node.idStr ((o.nodes (some x) G).map Prod.snd)).filterMap filterSubGraph

theorem sub_collect {E : List Ev} {m : NodeMap} (hi : MapInv E m) (o : Orders) (ordered : Bool)
    (x : Id) {G : NMGraph} (hG : m.graph (some x) = some G) :
    setCollect Obj.eq (o.sub ordered x G) = o.sub ordered x G := by
  apply subgraph_collect
  refine ((((sortIf_perm ordered Node.idStr _).trans
    ((o.nodes_perm (some x) G).map Prod.snd)).map Node.id).nodup_iff).2 (ids_nodup hi hG)

theorem filterGraph_eq {n n' : Node} (h : filterGraph n = some n') : n' = n := by
  unfold filterGraph at h
  split at h
  · cases h
  · cases h; rfl

theorem flatten_spec {E : List Ev} {m : NodeMap} (hi : MapInv E m) (o : Orders) (ordered : Bool) :
    ∃ D, m.flatten o ordered =
        some (sortIf ordered Node.idStr (((o.nodes none D).map Prod.snd).filterMap filterGraph)) ∧
      (D.map Prod.fst).Nodup ∧ ∀ x, lookupProp x D = setGraphOf m (o.sub ordered) x := by
  obtain ⟨D, h1, h2, h3⟩ := addGraphs_final hi
    (fun gG => setCollect Obj.eq (o.sub ordered gG.1 gG.2))
    ((sortIf_perm ordered (fun gG : Id × NMGraph => gG.1.str) _).trans (o.graphs_perm m.graphs))
  refine ⟨D, ?_, h2, ?_⟩
  · unfold NodeMap.flatten
    simp only [Orders.sub] at h1
    simp only [h1]
  · intro x
    rw [h3]
    unfold setGraphOf
    congr 1
    funext n
    cases hG : m.graph (some x) with
    | none => rfl
    | some G => simp only [Option.map_some, sub_collect hi o ordered x hG]

theorem setGraphOf_id {E : List Ev} {m : NodeMap} (hi : MapInv E m) {ent : Id → NMGraph → List Obj}
    {x : Id} {n : Node} (h : setGraphOf m ent x = some n) : n.id = some x := by
  unfold setGraphOf at h
  cases hb : m.base x with
  | none => rw [hb] at h; cases h
  | some n0 =>
    rw [hb] at h
    have h0 : n0.id = some x := by
      unfold NodeMap.base at hb
      split at hb
      · cases hg : m.get none x with
        | none => rw [hg] at hb; cases hb; rfl
        | some n1 => rw [hg] at hb; cases hb; exact (hi.nodes _ _ _ hg).hid
      · exact (hi.nodes _ _ _ hb).hid
    obtain ⟨i, id, ty, g, inc, ps, rv⟩ := n0
    cases h
    exact h0

theorem flatList_ids {D : NMGraph} (hid : ∀ p ∈ D, p.2.id = some p.1) (hD : (D.map Prod.fst).Nodup) :
    ((flatList D).map Node.id).Nodup := by
  have : ((D.map Prod.snd).map Node.id).Nodup := by
    have e : (D.map Prod.snd).map Node.id = (D.map Prod.fst).map some := by
      rw [List.map_map, List.map_map]
      exact List.map_congr_left hid
    rw [e]
    exact hD.map (Option.some_injective _)
  unfold flatList
  refine this.sublist ?_
  have hs : (D.map Prod.snd).filterMap filterGraph =
      (D.map Prod.snd).filter fun n => !(n.index.isNone && n.isEmpty) := by
    rw [← List.filterMap_eq_filter]
    congr 1
    funext n
    unfold filterGraph Option.guard
    cases h : (n.index.isNone && n.isEmpty) <;> simpa using h
  rw [hs]
  exact (List.filter_sublist).map _

theorem flattenUnordered_spec {E : List Ev} {m : NodeMap} (hi : MapInv E m) (o : Orders) :
    ∃ D, m.flattenUnordered o = some (((o.nodes none D).map Prod.snd).filterMap filterGraph) ∧
      (D.map Prod.fst).Nodup ∧ ∀ x, lookupProp x D = setGraphOf m (o.sub false) x := by
  obtain ⟨D, h1, h2, h3⟩ := addGraphs_final hi
    (fun gG => setCollect Obj.eq (o.sub false gG.1 gG.2)) (o.graphs_perm m.graphs)
  refine ⟨D, ?_, h2, ?_⟩
  · unfold NodeMap.flattenUnordered
    simp only [Orders.sub, sortIf, Bool.false_eq_true, if_false] at h1
    simp only [h1]
    rw [setCollect_of_pairwise]
    have hp := o.nodes_perm none D
    have hn := flatList_ids (D := o.nodes none D)
      (fun p hp' => by
        have := (lookupProp_iff h2).2 (hp.mem_iff.1 (show (p.1, p.2) ∈ _ from hp'))
        rw [h3] at this
        exact setGraphOf_id hi this)
      ((hp.map Prod.fst).nodup_iff.2 h2)
    refine (List.pairwise_map.1 hn).imp ?_
    intro a b hab
    rw [Bool.eq_false_iff]
    intro h
    exact hab (node_eq_id h).symm
  · intro x
    rw [h3]
    unfold setGraphOf
    congr 1
    funext n
    cases hG : m.graph (some x) with
    | none => rfl
    | some G => simp only [Option.map_some, sub_collect hi o false x hG]

theorem mem_flat {D : NMGraph} (hD : (D.map Prod.fst).Nodup) (o : Orders) {n : Node} :
    n ∈ ((o.nodes none D).map Prod.snd).filterMap filterGraph ↔
      ∃ x, lookupProp x D = some n ∧ ¬ (n.index.isNone && n.isEmpty) = true := by
  rw [List.mem_filterMap]
  constructor
  · rintro ⟨n', hn', hf⟩
    have := filterGraph_eq hf
    subst this
    obtain ⟨p, hp, rfl⟩ := List.mem_map.1 hn'
    refine ⟨p.1, (lookupProp_iff hD).2 ((o.nodes_perm none D).mem_iff.1 hp), ?_⟩
    intro hc
    unfold filterGraph at hf
    rw [if_pos hc] at hf
    cases hf
  · rintro ⟨x, hx, hc⟩
    refine ⟨n, List.mem_map.2 ⟨(x, n), ?_, rfl⟩, ?_⟩
    · exact (o.nodes_perm none D).mem_iff.2 ((lookupProp_iff hD).1 hx)
    · unfold filterGraph
      rw [if_neg hc]

end JsonLd
