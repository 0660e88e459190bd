import Verif.Proofs.Canonical
import Verif.Spec.Rdf
/-!
# Equal documents make the same statements
-/

namespace JsonLd
open Spec

/-- Equal items, both keeping the invariants. -/
def ItemSame : Item → Item → Prop
  | .obj a, .obj b => a.WF ∧ b.WF ∧ a.eq b = true
  | .node a, .node b => a.WF ∧ b.WF ∧ a.eq b = true
  | _, _ => False

theorem optRel_some {α β : Type} {R : α → β → Prop} {a : Option α} {b : Option β} {x : α}
    (h : OptRel R a b) (ha : a = some x) : ∃ y, b = some y ∧ R x y := by
  subst ha
  cases b with
  | none => exact h.elim
  | some y => exact ⟨y, rfl, h⟩

theorem gWF_mem {l : List Obj} (h : gWF (some l)) {o : Obj} (ho : o ∈ l) : o.WF :=
  objsWF_iff.1 h.2 o ho

theorem incWF_mem {l : List Node} (h : incWF (some l)) {o : Node} (ho : o ∈ l) : o.WF :=
  nodesWF_iff.1 h.2 o ho

theorem node_graph_wf {n : Node} (h : n.WF) {l : List Obj} (hl : n.graph = some l) {o : Obj}
    (ho : o ∈ l) : o.WF := by
  obtain ⟨i, id, ty, g, inc, ps, rv⟩ := n
  have hl : g = some l := hl
  subst hl
  exact gWF_mem h.1 ho

theorem node_inc_wf {n : Node} (h : n.WF) {l : List Node} (hl : n.included = some l) {o : Node}
    (ho : o ∈ l) : o.WF := by
  obtain ⟨i, id, ty, g, inc, ps, rv⟩ := n
  have hl : inc = some l := hl
  subst hl
  exact incWF_mem h.2.1 ho

theorem node_props_wf {n : Node} (h : n.WF) {p : Id × List Obj} (hp : p ∈ n.props) {o : Obj}
    (ho : o ∈ p.2) : o.WF := by
  obtain ⟨i, id, ty, g, inc, ps, rv⟩ := n
  exact psWF_iff.1 h.2.2.2.1 p hp o ho

theorem node_rev_wf {n : Node} (h : n.WF) {l : List (Id × List Node)} (hl : n.rev = some l)
    {p : Id × List Node} (hp : p ∈ l) {o : Node} (ho : o ∈ p.2) : o.WF := by
  obtain ⟨i, id, ty, g, inc, ps, rv⟩ := n
  have hl : rv = some l := hl
  subst hl
  exact rpsWF_iff.1 h.2.2.2.2.2 p hp o ho

/-- What is reached in a document is reached in any document that covers it. -/
theorem reached_same {d e : Doc} (hd : ∀ o ∈ d, o.WF) (he : ∀ o ∈ e, o.WF)
    (hc : ∀ x ∈ d, ∃ y ∈ e, x.eq y = true) {g : Option Id} {x : Item} (h : Reached d g x) :
    ∃ y, Reached e g y ∧ ItemSame x y := by
  induction h with
  | top ho =>
    obtain ⟨y, hy, h⟩ := hc _ ho
    exact ⟨.obj y, .top hy, hd _ ho, he _ hy, h⟩
  | self _ ih =>
    obtain ⟨y, hy, hs⟩ := ih
    cases y with
    | node => exact hs.elim
    | obj y =>
      obtain ⟨h1, h2, h3⟩ := hs
      cases y <;> simp only [Obj.eq, Bool.false_eq_true] at h3
      exact ⟨_, .self hy, h1, h2, h3⟩
  | item _ ho ih =>
    obtain ⟨y, hy, hs⟩ := ih
    cases y with
    | node => exact hs.elim
    | obj y =>
      obtain ⟨h1, h2, h3⟩ := hs
      cases y <;> simp only [Obj.eq, Bool.false_eq_true, Bool.and_eq_true, objsListEq_iff] at h3
      obtain ⟨o', ho', h⟩ := forall₂_exists_right h3.2 ho
      exact ⟨_, .item hy ho', objsWF_iff.1 h1 _ ho, objsWF_iff.1 h2 _ ho', h⟩
  | graph _ hid hg ho ih =>
    obtain ⟨y, hy, hs⟩ := ih
    cases y with
    | obj => exact hs.elim
    | node m =>
      obtain ⟨h1, h2, h3⟩ := hs
      obtain ⟨_, e2, _, e4, _⟩ := (node_eq_iff h1 h2).1 h3
      obtain ⟨l', hl', hp⟩ := optRel_some e4 hg
      obtain ⟨o', ho', h⟩ := hp.exists_right ho
      exact ⟨_, .graph hy (e2 ▸ hid) hl' ho', node_graph_wf h1 hg ho, node_graph_wf h2 hl' ho', h⟩
  | included _ hid hg ho ih =>
    obtain ⟨y, hy, hs⟩ := ih
    cases y with
    | obj => exact hs.elim
    | node m =>
      obtain ⟨h1, h2, h3⟩ := hs
      obtain ⟨_, e2, _, _, e5, _⟩ := (node_eq_iff h1 h2).1 h3
      obtain ⟨l', hl', hp⟩ := optRel_some e5 hg
      obtain ⟨o', ho', h⟩ := hp.exists_right ho
      exact ⟨_, .included hy (e2 ▸ hid) hl' ho', node_inc_wf h1 hg ho, node_inc_wf h2 hl' ho', h⟩
  | property _ hid hp ho ih =>
    obtain ⟨y, hy, hs⟩ := ih
    cases y with
    | obj => exact hs.elim
    | node m =>
      obtain ⟨h1, h2, h3⟩ := hs
      obtain ⟨_, e2, _, _, _, e6, _⟩ := (node_eq_iff h1 h2).1 h3
      obtain ⟨q, hq, _, hpr⟩ := e6.exists_right hp
      obtain ⟨o', ho', h⟩ := hpr.exists_right ho
      exact ⟨_, .property hy (e2 ▸ hid) hq ho', node_props_wf h1 hp ho, node_props_wf h2 hq ho', h⟩
  | reverse _ hid hr hp ho ih =>
    obtain ⟨y, hy, hs⟩ := ih
    cases y with
    | obj => exact hs.elim
    | node m =>
      obtain ⟨h1, h2, h3⟩ := hs
      obtain ⟨_, e2, _, _, _, _, e7⟩ := (node_eq_iff h1 h2).1 h3
      obtain ⟨r', hr', hpr⟩ := optRel_some e7 hr
      obtain ⟨q, hq, _, hpr⟩ := hpr.exists_right hp
      obtain ⟨o', ho', h⟩ := hpr.exists_right ho
      exact ⟨_, .reverse hy (e2 ▸ hid) hr' hq ho', node_rev_wf h1 hr hp ho,
        node_rev_wf h2 hr' hq ho', h⟩

/-- Equal objects of statements. -/
def QObjSame : QObj → QObj → Prop
  | .obj a, .obj b => a.WF ∧ b.WF ∧ a.eq b = true
  | .node a, .node b => a.WF ∧ b.WF ∧ a.eq b = true
  | .ref i, .ref j => i = j
  | _, _ => False

theorem asserts_same {d e : Doc} (hd : ∀ o ∈ d, o.WF) (he : ∀ o ∈ e, o.WF)
    (hc : ∀ x ∈ d, ∃ y ∈ e, x.eq y = true) {q : Quad} (h : Asserts d q) :
    ∃ o, Asserts e ⟨q.graph, q.subject, q.property, o⟩ ∧ QObjSame q.object o := by
  cases h with
  | type hn hid ht hm =>
    obtain ⟨y, hy, hs⟩ := reached_same hd he hc hn
    cases y with
    | obj => exact hs.elim
    | node m =>
      obtain ⟨h1, h2, h3⟩ := hs
      obtain ⟨_, e2, e3, _⟩ := (node_eq_iff h1 h2).1 h3
      obtain ⟨l', hl', hp⟩ := optRel_some e3 ht
      exact ⟨_, .type hy (e2 ▸ hid) hl' (hp.mem_iff.1 hm), rfl⟩
  | property hn hid hp ho =>
    obtain ⟨y, hy, hs⟩ := reached_same hd he hc hn
    cases y with
    | obj => exact hs.elim
    | node m =>
      obtain ⟨h1, h2, h3⟩ := hs
      obtain ⟨_, e2, _, _, _, e6, _⟩ := (node_eq_iff h1 h2).1 h3
      obtain ⟨q', hq, hk, hpr⟩ := e6.exists_right hp
      obtain ⟨o', ho', h⟩ := hpr.exists_right ho
      obtain ⟨k', l'⟩ := q'
      have hk : _ = k' := hk
      subst hk
      exact ⟨_, .property hy (e2 ▸ hid) hq ho', node_props_wf h1 hp ho, node_props_wf h2 hq ho', h⟩
  | reverse hn hid hr hp ho hs' =>
    obtain ⟨y, hy, hs⟩ := reached_same hd he hc hn
    cases y with
    | obj => exact hs.elim
    | node m =>
      obtain ⟨h1, h2, h3⟩ := hs
      obtain ⟨_, e2, _, _, _, _, e7⟩ := (node_eq_iff h1 h2).1 h3
      obtain ⟨r', hr', hpr⟩ := optRel_some e7 hr
      obtain ⟨q', hq, hk, hpr⟩ := hpr.exists_right hp
      obtain ⟨o', ho', h⟩ := hpr.exists_right ho
      obtain ⟨k', l'⟩ := q'
      have hk : _ = k' := hk
      subst hk
      have hw := node_rev_wf h1 hr hp ho
      have hw' := node_rev_wf h2 hr' hq ho'
      have e2' := ((node_eq_iff hw hw').1 h).2.1
      exact ⟨_, .reverse hy (e2 ▸ hid) hr' hq ho' (e2' ▸ hs'), h1, h2, h3⟩

end JsonLd
