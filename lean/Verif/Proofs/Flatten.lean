import Verif.Proofs.FlattenOut
/-!
# Facts about flattened documents
-/

namespace JsonLd
open Spec

/-- The list is made of the nodes of the node map. -/
structure FlatOf (m : NodeMap) (ent : Id → NMGraph → List Obj) (f : List Node) : Prop where
  ent_perm : ∀ x G, (ent x G).Perm ((G.map Prod.snd).filterMap filterSubGraph)
  ex : ∃ D, (D.map Prod.fst).Nodup ∧ (∀ x, lookupProp x D = setGraphOf m ent x) ∧
    f.Perm (flatList D)

theorem sub_perm (o : Orders) (b : Bool) (x : Id) (G : NMGraph) :
    (o.sub b x G).Perm ((G.map Prod.snd).filterMap filterSubGraph) :=
  ((sortIf_perm b Node.idStr _).trans ((o.nodes_perm (some x) G).map Prod.snd)).filterMap _

theorem flatten_flatOf {E : List Ev} {m : NodeMap} (hi : MapInv E m) (o : Orders) (b : Bool) :
    ∃ f, m.flatten o b = some f ∧ FlatOf m (o.sub b) f := by
  obtain ⟨D, h1, h2, h3⟩ := flatten_spec hi o b
  refine ⟨_, h1, sub_perm o b, D, h2, h3, ?_⟩
  exact (sortIf_perm b Node.idStr _).trans (((o.nodes_perm none D).map Prod.snd).filterMap _)

theorem flattenUnordered_flatOf {E : List Ev} {m : NodeMap} (hi : MapInv E m) (o : Orders) :
    ∃ f, m.flattenUnordered o = some f ∧ FlatOf m (o.sub false) f := by
  obtain ⟨D, h1, h2, h3⟩ := flattenUnordered_spec hi o
  exact ⟨_, h1, sub_perm o false, D, h2, h3, ((o.nodes_perm none D).map Prod.snd).filterMap _⟩

/-- The node is kept in the default graph. -/
def Kept (n : Node) : Prop := ¬ (n.index.isNone && n.isEmpty) = true

/-- The node is kept in a named graph. -/
def KeptSub (n : Node) : Prop := ¬ (n.index.isNone && n.props.isEmpty) = true

/-- The node without anything but index, identifier, types and properties. -/
def trim : Node → Node
  | .mk i id ty _ _ ps _ => .mk i id ty none none ps none

theorem filterSubGraph_iff {n : Node} {o : Obj} :
    filterSubGraph n = some o ↔ KeptSub n ∧ o = .node (trim n) := by
  unfold filterSubGraph KeptSub
  split
  · rename_i h; simp [h]
  · rename_i h
    obtain ⟨i, id, ty, g, inc, ps, rv⟩ := n
    simp only [trim, Option.some.injEq]
    exact ⟨fun e => ⟨h, e.symm⟩, fun e => e.2.symm⟩

section
variable {E : List Ev} {m : NodeMap} {ent : Id → NMGraph → List Obj} {f : List Node}

theorem flat_default (hf : FlatOf m ent f) {n : Node} :
    n ∈ f ↔ ∃ x, setGraphOf m ent x = some n ∧ Kept n := by
  obtain ⟨D, h1, h2, h3⟩ := hf.ex
  rw [h3.mem_iff]
  unfold flatList
  rw [List.mem_filterMap]
  constructor
  · rintro ⟨n', hn', hk⟩
    have := filterGraph_eq hk
    subst this
    obtain ⟨p, hp, rfl⟩ := List.mem_map.1 hn'
    refine ⟨p.1, by rw [← h2]; exact (lookupProp_iff h1).2 hp, ?_⟩
    intro hc
    unfold filterGraph at hk
    rw [if_pos hc] at hk
    cases hk
  · rintro ⟨x, hx, hc⟩
    refine ⟨n, List.mem_map.2 ⟨(x, n), ?_, rfl⟩, ?_⟩
    · rw [← h2] at hx; exact (lookupProp_iff h1).1 hx
    · unfold filterGraph
      rw [if_neg hc]

theorem flat_ids (hi : MapInv E m) (hf : FlatOf m ent f) : (f.map Node.id).Nodup := by
  obtain ⟨D, h1, h2, h3⟩ := hf.ex
  refine ((h3.map Node.id).nodup_iff).2 (flatList_ids ?_ h1)
  intro p hp
  have := (lookupProp_iff h1).2 (show (p.1, p.2) ∈ D from hp)
  rw [h2] at this
  exact setGraphOf_id hi this

theorem setGraphOf_graph {x : Id} {n : Node} (h : setGraphOf m ent x = some n) :
    n.graph = (m.graph (some x)).map (ent x) := by
  unfold setGraphOf at h
  cases hb : m.base x with
  | none => rw [hb] at h; cases h
  | some n0 =>
    rw [hb] at h
    obtain ⟨i, id, ty, g, inc, ps, rv⟩ := n0
    cases h
    rfl

theorem setGraphOf_exists {x : Id} {G : NMGraph} (h : m.graph (some x) = some G) :
    ∃ n, setGraphOf m ent x = some n := by
  unfold setGraphOf NodeMap.base
  rw [h]
  exact ⟨_, rfl⟩

theorem kept_of_graph {n : Node} {l : List Obj} (h : n.graph = some l) : Kept n := by
  obtain ⟨i, id, ty, g, inc, ps, rv⟩ := n
  simp only [Node.graph] at h
  subst h
  simp [Kept, Node.isEmpty]

theorem kept_of_props {n : Node} {p} (h : p ∈ n.props) : Kept n := by
  obtain ⟨i, id, ty, g, inc, ps, rv⟩ := n
  simp only [Node.props] at h
  cases ps with
  | nil => cases h
  | cons => simp [Kept, Node.isEmpty]

theorem keptSub_of_props {n : Node} {p} (h : p ∈ n.props) : KeptSub n := by
  obtain ⟨i, id, ty, g, inc, ps, rv⟩ := n
  simp only [Node.props] at h
  cases ps with
  | nil => cases h
  | cons => simp [KeptSub, Node.props]

/-- Elements of the graph entries. -/
theorem flat_graph_entry (hi : MapInv E m) (hf : FlatOf m ent f) {n : Node} (hn : n ∈ f)
    {l : List Obj} (hl : n.graph = some l) :
    ∃ x G, n.id = some x ∧ m.graph (some x) = some G ∧ l = ent x G := by
  obtain ⟨x, hx, _⟩ := (flat_default hf).1 hn
  have hg := setGraphOf_graph hx
  rw [hl] at hg
  cases hG : m.graph (some x) with
  | none => rw [hG] at hg; cases hg
  | some G =>
    rw [hG] at hg
    cases hg
    exact ⟨x, G, setGraphOf_id hi hx, hG, rfl⟩

theorem ent_mem (hi : MapInv E m) (hf : FlatOf m ent f) {x : Id} {G : NMGraph}
    (hG : m.graph (some x) = some G) {o : Obj} :
    o ∈ ent x G ↔ ∃ i n, m.get (some x) i = some n ∧ KeptSub n ∧ o = .node (trim n) := by
  rw [(hf.ent_perm x G).mem_iff, List.mem_filterMap]
  constructor
  · rintro ⟨n, hn, ho⟩
    obtain ⟨p, hp, rfl⟩ := List.mem_map.1 hn
    obtain ⟨h1, h2⟩ := filterSubGraph_iff.1 ho
    refine ⟨p.1, p.2, ?_, h1, h2⟩
    simp only [NodeMap.get, hG, Option.bind_some]
    exact (lookupProp_iff (hi.keys.2 _ _ hG)).2 hp
  · rintro ⟨i, n, hn, h1, rfl⟩
    simp only [NodeMap.get, hG, Option.bind_some] at hn
    exact ⟨n, List.mem_map.2 ⟨(i, n), lookupProp_mem hn, rfl⟩, filterSubGraph_iff.2 ⟨h1, rfl⟩⟩

theorem flat_named (hi : MapInv E m) (hf : FlatOf m ent f) {x : Id} {n : Node} :
    FlatNode f (some x) n ↔ ∃ i n0, m.get (some x) i = some n0 ∧ KeptSub n0 ∧ n = trim n0 := by
  constructor
  · rintro ⟨p, hp, hpx, l, hl, hn⟩
    obtain ⟨y, G, hy, hG, rfl⟩ := flat_graph_entry hi hf hp hl
    rw [hpx] at hy
    cases hy
    obtain ⟨i, n0, h1, h2, h3⟩ := (ent_mem hi hf hG).1 hn
    cases h3
    exact ⟨i, n0, h1, h2, rfl⟩
  · rintro ⟨i, n0, h1, h2, rfl⟩
    cases hG : m.graph (some x) with
    | none => simp [NodeMap.get, hG] at h1
    | some G =>
      obtain ⟨p, hp⟩ := setGraphOf_exists (ent := ent) hG
      have hg := setGraphOf_graph hp
      rw [hG] at hg
      exact ⟨p, (flat_default hf).2 ⟨x, hp, kept_of_graph hg⟩, setGraphOf_id hi hp, _, hg,
        (ent_mem hi hf hG).2 ⟨i, n0, h1, h2, rfl⟩⟩

/-- What is said of the node `x` of the graph `g` in terms of updates. -/
structure NodeFacts (E : List Ev) (g : Option Id) (x : Id) (n : Node) : Prop where
  hid : n.id = some x
  included : n.included = none
  rev : n.rev = none
  graph : g ≠ none → n.graph = none
  index : ∀ a, n.index = some a ↔ Ev.declare g x (some a) ∈ E
  types : ∀ ts, n.types = some ts → Ev.types g x ts ∈ E
  types_some : ∀ ts, Ev.types g x ts ∈ E → n.types.isSome = true
  keys : (n.props.map Prod.fst).Nodup
  sound : ∀ k os, lookupProp k n.props = some os →
    os.Pairwise (fun a b => a.equiv b = false) ∧ ∀ o ∈ os, ∃ vs, Ev.props g x k vs ∈ E ∧ o ∈ vs
  complete : ∀ k vs, Ev.props g x k vs ∈ E → ∃ os, lookupProp k n.props = some os ∧
    ∀ v ∈ vs, ∃ o ∈ os, o = v ∨ o.equiv v = true
  source : ∀ k os, lookupProp k n.props = some os → ∃ vs, Ev.props g x k vs ∈ E

theorem NodeInv.facts {g : Option Id} {x : Id} {n : Node} (h : NodeInv E g x n)
    {l : Option (List Obj)} (hl : g ≠ none → l = none) : NodeFacts E g x (n.setGraphEntry l) := by
  obtain ⟨i, id, ty, gr, inc, ps, rv⟩ := n
  exact ⟨h.hid, h.included, h.rev, hl, h.index, h.types, h.types_some, h.keys, h.sound, h.complete,
    h.source⟩

theorem trim_eq {g : Option Id} {x : Id} {n : Node} (h : NodeInv E g x n) :
    trim n = n.setGraphEntry none := by
  have h1 := h.included
  have h2 := h.rev
  obtain ⟨i, id, ty, gr, inc, ps, rv⟩ := n
  simp only [Node.included, Node.rev] at h1 h2
  subst h1; subst h2
  rfl

/-- A node that is not in the node map has not been updated. -/
theorem absent_facts (hi : MapInv E m) {x : Id} (h : m.get none x = none) (l : Option (List Obj)) :
    NodeFacts E none x ((Node.withId x none).setGraphEntry l) := by
  have hnd : ∀ j, Ev.declare none x j ∉ E := by
    intro j hj
    have := hi.exists_node _ _ _ hj
    rw [h] at this; cases this
  have hty : ∀ ts, Ev.types none x ts ∉ E := fun ts ht => by
    obtain ⟨i, hi'⟩ := hi.evOk _ ht; exact hnd i hi'
  have hpr : ∀ k vs, Ev.props none x k vs ∉ E := fun k vs ht => by
    obtain ⟨i, hi'⟩ := hi.evOk _ ht; exact hnd i hi'
  constructor
  · rfl
  · rfl
  · rfl
  · intro h; exact absurd rfl h
  · intro a; simp [Node.withId, Node.setGraphEntry, Node.index, hnd]
  · intro ts h; cases h
  · intro ts h; exact absurd h (hty ts)
  · exact List.nodup_nil
  · intro k os h; cases h
  · intro k vs h; exact absurd h (hpr k vs)
  · intro k os h; cases h

theorem flatNode_facts (hi : MapInv E m) (hf : FlatOf m ent f) {g : Option Id} {n : Node}
    (h : FlatNode f g n) : ∃ x, NodeFacts E g x n := by
  cases g with
  | none =>
    obtain ⟨x, hx, _⟩ := (flat_default hf).1 h
    refine ⟨x, ?_⟩
    unfold setGraphOf NodeMap.base at hx
    cases hg : m.get none x with
    | none =>
      rw [hg] at hx
      cases hG : m.graph (some x) with
      | none => rw [hG] at hx; cases hx
      | some G =>
        rw [hG] at hx
        cases hx
        exact absent_facts hi hg _
    | some n0 =>
      rw [hg] at hx
      have : n = n0.setGraphEntry ((m.graph (some x)).map (ent x)) := by
        cases hG : m.graph (some x) <;> rw [hG] at hx <;> cases hx <;> rfl
      rw [this]
      exact (hi.nodes _ _ _ hg).facts (by simp)
  | some y =>
    obtain ⟨i, n0, h1, _, rfl⟩ := (flat_named hi hf).1 h
    have hn := hi.nodes _ _ _ h1
    rw [trim_eq hn]
    exact ⟨i, hn.facts (by simp)⟩

/-- Where the identifier of a node of the result comes from. -/
theorem flatNode_id (hi : MapInv E m) (hf : FlatOf m ent f) {g : Option Id} {n : Node}
    (h : FlatNode f g n) : ∃ x, n.id = some x ∧ ((∃ i, Ev.declare g x i ∈ E) ∨ Ev.decl x ∈ E) := by
  cases g with
  | none =>
    obtain ⟨x, hx, _⟩ := (flat_default hf).1 h
    refine ⟨x, setGraphOf_id hi hx, ?_⟩
    unfold setGraphOf NodeMap.base at hx
    cases hg : m.get none x with
    | none =>
      rw [hg] at hx
      cases hG : m.graph (some x) with
      | none => rw [hG] at hx; cases hx
      | some G =>
        rcases (hi.graphs (some x)).1 (by rw [hG]; rfl) with h | ⟨i, h, h'⟩
        · cases h
        · cases h; exact .inr h'
    | some n0 => exact .inl (hi.nodes _ _ _ hg).declared
  | some y =>
    obtain ⟨i, n0, h1, _, rfl⟩ := (flat_named hi hf).1 h
    have hn := hi.nodes _ _ _ h1
    rw [trim_eq hn]
    exact ⟨i, (hn.facts (l := none) (by simp)).hid, .inl hn.declared⟩

/-- A declared node of the default graph is in the result unless it says nothing. -/
theorem default_exists (hi : MapInv E m) (hf : FlatOf m ent f) {x : Id} {i : Option Str}
    (h : Ev.declare none x i ∈ E) (hk : ∀ n, NodeFacts E none x n → Kept n) :
    ∃ n, FlatNode f none n ∧ NodeFacts E none x n := by
  obtain ⟨n0, hn0⟩ := Option.isSome_iff_exists.1 (hi.exists_node _ _ _ h)
  have hs : setGraphOf m ent x = some (n0.setGraphEntry ((m.graph (some x)).map (ent x))) := by
    unfold setGraphOf NodeMap.base
    rw [hn0]
    cases m.graph (some x) <;> rfl
  have hfacts := (hi.nodes _ _ _ hn0).facts (l := (m.graph (some x)).map (ent x)) (by simp)
  exact ⟨_, (flat_default hf).2 ⟨x, hs, hk _ hfacts⟩, hfacts⟩

theorem named_exists (hi : MapInv E m) (hf : FlatOf m ent f) {g x : Id} {i : Option Str}
    (h : Ev.declare (some g) x i ∈ E) (hk : ∀ n, NodeFacts E (some g) x n → KeptSub n) :
    ∃ n, FlatNode f (some g) n ∧ NodeFacts E (some g) x n := by
  obtain ⟨n0, hn0⟩ := Option.isSome_iff_exists.1 (hi.exists_node _ _ _ h)
  have hn := hi.nodes _ _ _ hn0
  have hfacts := hn.facts (l := none) (by simp)
  have hk' := hk _ hfacts
  refine ⟨_, (flat_named hi hf).2 ⟨x, n0, hn0, ?_, rfl⟩, ?_⟩
  · obtain ⟨ni, nid, ty, gr, inc, ps, rv⟩ := n0
    exact hk'
  · rw [trim_eq hn]; exact hfacts

theorem node_exists (hi : MapInv E m) (hf : FlatOf m ent f) {g : Option Id} {x : Id}
    {i : Option Str} (h : Ev.declare g x i ∈ E)
    (hk : ∀ n, NodeFacts E g x n → n.index.isSome = true ∨ n.props ≠ []) :
    ∃ n, FlatNode f g n ∧ NodeFacts E g x n := by
  cases g with
  | none =>
    refine default_exists hi hf h fun n hn => ?_
    rcases hk n hn with hk | hk
    · obtain ⟨a, ha⟩ := Option.isSome_iff_exists.1 hk
      simp [Kept, ha]
    · cases hp : n.props with
      | nil => exact absurd hp hk
      | cons p ps => exact kept_of_props (p := p) (by rw [hp]; exact List.mem_cons_self)
  | some g =>
    refine named_exists hi hf h fun n hn => ?_
    rcases hk n hn with hk | hk
    · obtain ⟨a, ha⟩ := Option.isSome_iff_exists.1 hk
      simp [KeptSub, ha]
    · cases hp : n.props with
      | nil => exact absurd hp hk
      | cons p ps => exact keptSub_of_props (p := p) (by rw [hp]; exact List.mem_cons_self)

/-- The nodes of a graph have distinct identifiers. -/
theorem flatNode_unique (hi : MapInv E m) (hf : FlatOf m ent f) {g : Option Id} {n n' : Node}
    (h : FlatNode f g n) (h' : FlatNode f g n') (he : n.id = n'.id) : n = n' := by
  cases g with
  | none => exact List.inj_on_of_nodup_map (flat_ids hi hf) h h' he
  | some g =>
    obtain ⟨i, n0, h1, _, rfl⟩ := (flat_named hi hf).1 h
    obtain ⟨i', n0', h1', _, rfl⟩ := (flat_named hi hf).1 h'
    have e : ∀ n, (trim n).id = n.id := by rintro ⟨⟩; rfl
    rw [e, e, (hi.nodes _ _ _ h1).hid, (hi.nodes _ _ _ h1').hid] at he
    cases he
    rw [h1] at h1'
    cases h1'
    rfl

/-! ## Comparing two results -/

theorem setGraphOf_same {ent' : Id → NMGraph → List Obj}
    (he : ∀ x G, m.graph (some x) = some G → (ent x G).Perm (ent' x G)) {x : Id} {n : Node}
    (h : setGraphOf m ent x = some n) : ∃ n', setGraphOf m ent' x = some n' ∧ SameNode n n' := by
  unfold setGraphOf at h ⊢
  cases hb : m.base x with
  | none => rw [hb] at h; cases h
  | some n0 =>
    rw [hb] at h
    obtain ⟨i, id, ty, g, inc, ps, rv⟩ := n0
    cases h
    refine ⟨_, rfl, rfl, rfl, rfl, ?_, rfl, rfl, rfl⟩
    simp only [Node.setGraphEntry, Node.graph]
    cases hG : m.graph (some x) with
    | none => trivial
    | some G => exact he x G hG

theorem SameNode.symm {n n' : Node} (h : SameNode n n') : SameNode n' n :=
  ⟨h.index.symm, h.id.symm, h.types.symm, optRel_symm_of h.graph fun _ _ _ _ h => h.symm,
    h.included.symm, h.props.symm, h.rev.symm⟩

theorem sameNode_kept {n n' : Node} (h : SameNode n n') (hk : Kept n) : Kept n' := by
  obtain ⟨i, id, ty, g, inc, ps, rv⟩ := n
  obtain ⟨i', id', ty', g', inc', ps', rv'⟩ := n'
  obtain ⟨h1, h2, h3, h4, h5, h6, h7⟩ := h
  simp only [Node.index, Node.id, Node.types, Node.graph, Node.included, Node.props, Node.rev] at *
  subst h1 h2 h3 h5 h6 h7
  have : g.isNone = g'.isNone := by
    cases g <;> cases g' <;> simp_all [OptRel]
  simpa [Kept, Node.index, Node.isEmpty, this] using hk

theorem flatOf_agree (hi : MapInv E m) {ent' : Id → NMGraph → List Obj} {f' : List Node}
    (hf : FlatOf m ent f) (hf' : FlatOf m ent' f') : PermRel SameNode f f' := by
  have hent : ∀ x G, (ent x G).Perm (ent' x G) :=
    fun x G => (hf.ent_perm x G).trans (hf'.ent_perm x G).symm
  have h1 : ∀ n ∈ f, ∃ n' ∈ f', SameNode n n' := by
    intro n hn
    obtain ⟨x, hx, hk⟩ := (flat_default hf).1 hn
    obtain ⟨n', hx', hs⟩ := setGraphOf_same (fun x G _ => hent x G) hx
    exact ⟨n', (flat_default hf').2 ⟨x, hx', sameNode_kept hs hk⟩, hs⟩
  have h2 : ∀ n ∈ f', ∃ n' ∈ f, SameNode n n' := by
    intro n hn
    obtain ⟨x, hx, hk⟩ := (flat_default hf').1 hn
    obtain ⟨n', hx', hs⟩ := setGraphOf_same (fun x G _ => (hent x G).symm) hx
    exact ⟨n', (flat_default hf).2 ⟨x, hx', sameNode_kept hs hk⟩, hs⟩
  have hlen : f.length = f'.length := by
    have : (f.map Node.id).Perm (f'.map Node.id) := by
      rw [List.perm_ext_iff_of_nodup (flat_ids hi hf) (flat_ids hi hf')]
      intro i
      constructor
      · intro h
        obtain ⟨n, hn, rfl⟩ := List.mem_map.1 h
        obtain ⟨n', hn', hs⟩ := h1 n hn
        exact List.mem_map.2 ⟨n', hn', hs.id.symm⟩
      · intro h
        obtain ⟨n, hn, rfl⟩ := List.mem_map.1 h
        obtain ⟨n', hn', hs⟩ := h2 n hn
        exact List.mem_map.2 ⟨n', hn', hs.id.symm⟩
    simpa using this.length_eq
  refine permRel_of_inj hlen h1 ?_
  refine (List.pairwise_map.1 (flat_ids hi hf)).imp ?_
  intro a a' hne b _ h h'
  exact hne (h.id.trans h'.id.symm)

theorem flatOf_perm (hi : MapInv E m) {ent' : Id → NMGraph → List Obj} {f' : List Node}
    (hf : FlatOf m ent f) (hf' : FlatOf m ent' f')
    (he : ∀ x G, m.graph (some x) = some G → ent x G = ent' x G) : f.Perm f' := by
  have hs : ∀ x, setGraphOf m ent x = setGraphOf m ent' x := by
    intro x
    unfold setGraphOf
    cases hG : m.graph (some x) with
    | none => rfl
    | some G => simp only [Option.map_some, he x G hG]
  rw [List.perm_ext_iff_of_nodup (List.Nodup.of_map _ (flat_ids hi hf))
    (List.Nodup.of_map _ (flat_ids hi hf'))]
  intro n
  rw [flat_default hf, flat_default hf']
  simp only [hs]

/-- Sorting makes a list unique if keys are. -/
theorem sort_unique {l l' : List Node} (hp : l.Perm l')
    (hinj : ∀ a ∈ l, ∀ b ∈ l, a.idStr = b.idStr → a = b) :
    sortByKey Node.idStr l = sortByKey Node.idStr l' := by
  have p1 := List.perm_insertionSort (fun a b : Node => a.idStr ≤ b.idStr) l
  have p2 := List.perm_insertionSort (fun a b : Node => a.idStr ≤ b.idStr) l'
  refine List.Perm.eq_of_pairwise ?_ (sortByKey_sorted Node.idStr l) (sortByKey_sorted Node.idStr l')
    (p1.trans (hp.trans p2.symm))
  intro a b ha hb h h'
  exact hinj a (p1.mem_iff.1 ha) b (hp.mem_iff.2 (p2.mem_iff.1 hb)) (List.le_antisymm h h')

theorem entry_nodup (hi : MapInv E m) (hf : FlatOf m ent f) {n : Node} (hn : n ∈ f)
    {l : List Obj} (hl : n.graph = some l) :
    ∃ ns : List Node, l = ns.map Obj.node ∧ (ns.map Node.id).Nodup := by
  obtain ⟨x, G, _, hG, rfl⟩ := flat_graph_entry hi hf hn hl
  have hk : ∀ L : List Node, (L.map Node.id).Nodup →
      ∃ ns : List Node, L.filterMap filterSubGraph = ns.map Obj.node ∧ (ns.map Node.id).Nodup ∧
        ∀ i ∈ ns.map Node.id, i ∈ L.map Node.id := by
    intro L hL
    induction L with
    | nil => exact ⟨[], rfl, List.nodup_nil, by simp⟩
    | cons a L ih =>
      simp only [List.map_cons, List.nodup_cons] at hL
      obtain ⟨ns, h1, h2, h3⟩ := ih hL.2
      cases ha : filterSubGraph a with
      | none =>
        refine ⟨ns, by simp [ha, h1], h2, fun i hi => ?_⟩
        rw [List.map_cons]
        exact List.mem_cons_of_mem _ (h3 i hi)
      | some o =>
        obtain ⟨b, rfl, hb⟩ := filterSubGraph_id ha
        refine ⟨b :: ns, by simp [ha, h1], ?_, ?_⟩
        · simp only [List.map_cons, List.nodup_cons, hb]
          exact ⟨fun h => hL.1 (h3 _ h), h2⟩
        · intro i hi
          simp only [List.map_cons, hb] at hi ⊢
          rcases List.mem_cons.1 hi with rfl | hi
          · exact List.mem_cons_self
          · exact List.mem_cons_of_mem _ (h3 i hi)
  obtain ⟨ns, h1, h2, _⟩ := hk _ (ids_nodup hi hG)
  have hp := hf.ent_perm x G
  rw [h1] at hp
  -- reorder the nodes in the same way
  have : ∀ o ∈ ent x G, ∃ n, o = Obj.node n := by
    intro o ho
    obtain ⟨n, _, rfl⟩ := List.mem_map.1 (hp.mem_iff.1 ho)
    exact ⟨n, rfl⟩
  have hex : ∀ l : List Obj, (∀ o ∈ l, ∃ n, o = Obj.node n) → ∃ ns : List Node, l = ns.map Obj.node := by
    intro l
    induction l with
    | nil => intro _; exact ⟨[], rfl⟩
    | cons o l ih =>
      intro h
      obtain ⟨n, rfl⟩ := h _ List.mem_cons_self
      obtain ⟨ns, rfl⟩ := ih fun o ho => h o (List.mem_cons_of_mem _ ho)
      exact ⟨n :: ns, rfl⟩
  obtain ⟨ns', h'⟩ := hex _ this
  refine ⟨ns', h', ?_⟩
  rw [h'] at hp
  have hp' : ns'.Perm ns := (List.map_perm_map_iff (fun a b h => by cases h; rfl)).1 hp
  exact ((hp'.map Node.id).nodup_iff).2 h2

end

end JsonLd
