import Verif.Proofs.FlattenRdf
import Verif.Proofs.FlattenAgain
import Verif.Proofs.LdWf
import Verif.Proofs.Quads
import Verif.Spec.NodeMap
import Verif.Model.NodeMapApi
/-!
# Statements of a node map
-/

namespace JsonLd
open Spec Props

theorem inMap_iff {m : NodeMap} (hk : m.KeysOk) {g : Option Id} {n : Node} :
    InMap m g n ↔ ∃ x, m.get g x = some n := by
  have key : ∀ G, m.graph g = some G → ((∃ i, (i, n) ∈ G) ↔ ∃ x, m.get g x = some n) := by
    intro G hG
    unfold NodeMap.get
    rw [hG]
    exact ⟨fun ⟨i, h⟩ => ⟨i, (lookupProp_iff (hk.2 g G hG)).2 h⟩, fun ⟨i, h⟩ => ⟨i, lookupProp_mem h⟩⟩
  cases g with
  | none => exact key _ rfl
  | some g =>
    constructor
    · rintro ⟨G, hG, h⟩
      exact (key G ((lookupProp_iff hk.1).2 hG)).1 h
    · rintro ⟨x, h⟩
      cases hG : m.graph (some g) with
      | none => simp [NodeMap.get, hG] at h
      | some G => exact ⟨G, lookupProp_mem hG, (key G hG).2 ⟨x, h⟩⟩

/-- A mere reference states nothing. -/
theorem flat_noQuads : (∀ o : Obj, FlatValue o → ∀ g q, q ∉ objQuads g o) ∧ (∀ _ : Node, True) := by
  apply Doc.ind
  · intro i v _ g q h; cases h
  · intro i l ih h g q hq
    obtain ⟨o, ho, hq⟩ := mem_objsQuads.1 hq
    exact ih o ho (flatValues_mem h ho) g q hq
  · rintro n _ ⟨i, e⟩ g q hq
    cases e
    obtain ⟨s, _, ⟨_, _, h, _⟩ | ⟨_, h, _⟩ | ⟨_, h, _⟩ | ⟨_, h, _⟩ | ⟨_, h, _⟩⟩ := mem_nodeQuads.1 hq <;> cases h
  · intros; trivial

/-- The members of a graph entry of a node map come from the updates. -/
theorem nstep_graph {P : Obj → Prop} {g : Option Id} {x : Id} (es : List Ev) (n : Node)
    (hn : ∀ l, n.graph = some l → ∀ o ∈ l, P o) (he : ∀ os, Ev.gadd g x os ∈ es → ∀ o ∈ os, P o) :
    ∀ l, (es.foldl (Again.nstep g x) n).graph = some l → ∀ o ∈ l, P o := by
  induction es generalizing n with
  | nil => exact hn
  | cons e es ih =>
    rw [List.foldl_cons]
    refine ih _ ?_ fun os h => he os (List.mem_cons_of_mem _ h)
    obtain ⟨i, id, ty, gr, inc, ps, rv⟩ := n
    cases e with
    | declare g' x' j =>
      simp only [Again.nstep]
      split
      · cases i <;> cases j <;> exact hn
      · exact hn
    | types g' x' ts =>
      simp only [Again.nstep]
      split <;> exact hn
    | decl => exact hn
    | props g' x' k os =>
      simp only [Again.nstep]
      split <;> exact hn
    | gadd g' x' os =>
      simp only [Again.nstep]
      split
      · rename_i h
        obtain ⟨rfl, rfl⟩ := h
        have ho := he os List.mem_cons_self
        have hc : ∀ o ∈ setCollect Obj.eq os, P o := (setCollect_spec os ho).2
        have fold : ∀ (a b : List Obj), (∀ o ∈ a, P o) → (∀ o ∈ b, P o) → ∀ o ∈ a.foldl (setInsert Obj.eq) b, P o := by
          intro a
          induction a with
          | nil => intro b _ hb; exact hb
          | cons y a iha =>
            intro b ha hb
            refine iha _ (fun o ho => ha o (List.mem_cons_of_mem _ ho)) fun o ho => ?_
            rcases mem_setInsert ho with h | rfl
            · exact hb o h
            · exact ha o List.mem_cons_self
        intro l hl
        cases gr with
        | none => cases hl; exact hc
        | some l0 => cases hl; exact fold _ _ hc (hn l0 rfl)
      · exact hn

section
variable {gen : Nat → Id} {d : Doc}

/-- What is known of the nodes of a node map. -/
theorem nodeMap_nodes (h : Relabelable gen d) {n : Nat} {m : NodeMap} (hm : d.nodeMap gen n = .ok m) :
    MapInv (osEvs none (d.relabel gen n).1) m ∧ ∀ g p, InMap m g p →
      p.included = none ∧ p.rev = none ∧ (∀ l, p.graph = some l → ∀ o ∈ l, FlatValue o) ∧
      ∀ k os, (k, os) ∈ p.props → ∀ o ∈ os, FlatValue o := by
  have hn := allNamed h n
  have hi : MapInv (osEvs none (d.relabel gen n).1) m := by
    rcases nodeMap_run h n with ⟨m', hm', hi⟩ | ⟨_, _, _, he, _⟩
    · rw [hm] at hm'; cases hm'; exact hi
    · rw [hm] at he; cases he
  refine ⟨hi, fun g p hp => ?_⟩
  obtain ⟨x, hx⟩ := (inMap_iff hi.keys).1 hp
  have ni := hi.nodes g x p hx
  refine ⟨ni.included, ni.rev, ?_, ?_⟩
  · have hm' := hm
    rw [nodeMap_eq, pwalk_relabel gen h.injective d h.wf h.fresh n] at hm'
    have := Again.applyAll_norm mapInv_empty.keys hm' g x
    rw [show Again.norm m g x = p by simp [Again.norm, hx]] at this
    rw [this]
    refine nstep_graph _ _ ?_ ?_
    · intro l hl
      have e : Again.norm ⟨[], []⟩ g x = Node.withId x none := by
        cases g <;> rfl
      rw [e] at hl
      cases hl
    · intro os hos o ho
      obtain ⟨q, l, h1, h2, h3, rfl⟩ := doc_evs_sound hn _ hos
      rw [references_eq] at ho
      obtain ⟨o', ho', rfl⟩ := List.mem_map.1 ho
      exact (flatValue_of_named hn).1 o' _ (h1.graph h2 h3 ho')
  · intro k os hk o ho
    obtain ⟨_, hs⟩ := ni.sound k os ((lookupProp_iff ni.keys).2 hk)
    obtain ⟨vs, hv, hov⟩ := hs o ho
    exact (props_states hn hv hov).2

end

/-- The statements of the iterator on a node map. -/
def mapQuads (o : Orders) (m : NodeMap) : List Quad :=
  (m.iter o).reverse.flatMap fun G => nodesQuads G.1 (nodesInOrder o G)

theorem quadsInit_eq (o : Orders) (m : NodeMap) :
    m.quadsInit o = (m.iter o).reverse.map fun G => Frame.nodes G.1 (nodesInOrder o G) := by
  have key : ∀ (l : List (Option Id × NMGraph)) (st : List Frame),
      l.foldl (fun st G => Frame.nodes G.1 (nodesInOrder o G) :: st) st =
        (l.reverse.map fun G => Frame.nodes G.1 (nodesInOrder o G)) ++ st := by
    intro l
    induction l with
    | nil => intro st; rfl
    | cons G l ih => intro st; rw [List.foldl_cons, ih]; simp
  unfold NodeMap.quadsInit
  rw [key, List.append_nil]

theorem map_steps (o : Orders) (m : NodeMap) : Steps QuadLoop (m.quadsInit o) (mapQuads o m) [] := by
  rw [quadsInit_eq]
  unfold mapQuads
  induction (m.iter o).reverse with
  | nil => exact .refl
  | cons G l ih => exact (steps_nodes (fun n _ => steps_all.2 n) G.1 _).trans ih

theorem mem_mapQuads {o : Orders} {m : NodeMap} {q : Quad} :
    q ∈ mapQuads o m ↔ ∃ g p, InMap m g p ∧ q ∈ nodeQuads g p := by
  have hmem : ∀ g G p, p ∈ nodesInOrder o (g, G) ↔ ∃ i, (i, p) ∈ G := by
    intro g G p
    unfold nodesInOrder
    rw [List.mem_map]
    constructor
    · rintro ⟨⟨i, n⟩, h, rfl⟩
      exact ⟨i, (o.nodes_perm g G).mem_iff.1 h⟩
    · rintro ⟨i, h⟩
      exact ⟨(i, p), (o.nodes_perm g G).mem_iff.2 h, rfl⟩
  unfold mapQuads
  rw [List.mem_flatMap]
  constructor
  · rintro ⟨⟨g, G⟩, hG, hq⟩
    obtain ⟨p, hp, hq⟩ := mem_nodesQuads.1 hq
    have hp' := (hmem g G p).1 hp
    rw [List.mem_reverse] at hG
    refine ⟨g, p, ?_, hq⟩
    rcases List.mem_cons.1 hG with e | hG
    · cases e; exact hp'
    · obtain ⟨⟨i, H⟩, hH, e⟩ := List.mem_map.1 hG
      cases e
      exact ⟨_, (o.graphs_perm _).mem_iff.1 hH, hp'⟩
  · rintro ⟨g, p, hp, hq⟩
    cases g with
    | none =>
      exact ⟨(none, m.default), by simp [NodeMap.iter], mem_nodesQuads.2 ⟨p, (hmem none _ p).2 hp, hq⟩⟩
    | some g =>
      obtain ⟨G, hG, hp⟩ := hp
      refine ⟨(some g, G), ?_, mem_nodesQuads.2 ⟨p, (hmem (some g) _ p).2 hp, hq⟩⟩
      rw [List.mem_reverse]
      exact List.mem_cons_of_mem _ (List.mem_map.2 ⟨(g, G), (o.graphs_perm _).mem_iff.2 hG, rfl⟩)

/-- The statements of flat nodes are their types and properties. -/
theorem mem_mapQuads_flat {o : Orders} {m : NodeMap} (hf : ∀ g p, InMap m g p →
      p.included = none ∧ p.rev = none ∧ (∀ l, p.graph = some l → ∀ o ∈ l, FlatValue o) ∧
      ∀ k os, (k, os) ∈ p.props → ∀ o ∈ os, FlatValue o) {q : Quad} :
    q ∈ mapQuads o m ↔ MapStates m q := by
  rw [mem_mapQuads]
  constructor
  · rintro ⟨g, p, hp, hq⟩
    obtain ⟨h1, h2, h3, h4⟩ := hf g p hp
    obtain ⟨s, hs, ⟨ts, t, ht, htm, rfl⟩ | ⟨⟨k, os⟩, hk, hq⟩ | ⟨r, hr, _⟩ | ⟨l, hl, _⟩ | ⟨l, hl, x, hx, hq⟩⟩ :=
      mem_nodeQuads.1 hq
    · exact .type hp hs ht htm
    · obtain ⟨x, hx, rfl | hq⟩ := mem_valsQuads.1 hq
      · exact .property hp hs hk hx
      · exact absurd hq (flat_noQuads.1 x (h4 k os hk x hx) _ _)
    · rw [h2] at hr; cases hr
    · rw [h1] at hl; cases hl
    · exact absurd hq (flat_noQuads.1 x (h3 l hl x hx) _ _)
  · intro h
    cases h with
    | type hp hs ht htm => exact ⟨_, _, hp, mem_nodeQuads.2 ⟨_, hs, .inl ⟨_, _, ht, htm, rfl⟩⟩⟩
    | property hp hs hk hx =>
      exact ⟨_, _, hp, mem_nodeQuads.2 ⟨_, hs, .inr (.inl ⟨_, hk, mem_valsQuads.2 ⟨_, hx, .inl rfl⟩⟩)⟩⟩

end JsonLd
