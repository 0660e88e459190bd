import Verif.Proofs.MapsProp
/-!
# Graphs under terms with the container `@graph`
-/

namespace JsonLd
open Spec Props Relation

theorem same_graphNode {a b : Obj} (h : Same a b) : Same (graphNode a) (graphNode b) := by
  have wf : ∀ {o : Obj}, o.WF → (graphNode o).WF := by
    intro o ho
    refine ⟨⟨List.pairwise_singleton _ _, objsWF_iff.2 fun x hx => ?_⟩, trivial, .nil, psWF_iff.2 nofun, trivial⟩
    rw [List.mem_singleton.1 hx]
    exact ho
  exact rel_same (wf h.wf') (wf h.wf) ⟨rfl, rfl, trivial, same_eq (.cons h .nil), trivial, .refl_of nofun, trivial⟩

theorem same_isGraph {a b : Node} (h : Same (.node a) (.node b)) : a.isGraph = b.isGraph := by
  obtain ⟨h1, h2, h3, h4, h5, h6, h7⟩ := same_rel h
  cases a; cases b
  have hp : ∀ {α β : Type} {x : List α} {y : List β}, x.length = y.length → x.isEmpty = y.isEmpty := by
    intro α β x y h
    cases x <;> cases y <;> first | rfl | cases h
  have g3 := optRel_isNone h3
  have g4 := optRel_isNone h4
  have g5 := optRel_isNone h5
  have g6 := hp h6.length_eq
  have g7 := optRel_isNone h7
  simp only [Node.types, Node.graph, Node.included, Node.props, Node.rev] at g3 g4 g5 g6 g7
  simp only [Node.isGraph, ← Option.not_isNone, g3, g4, g5, g6, g7]

theorem Same.setId {a b : Node} (h : Same (.node a) (.node b)) (i : Option Id) :
    Same (.node (a.setId i)) (.node (b.setId i)) := by
  have wf : ∀ {n : Node}, n.WF → (n.setId i).WF := by
    intro n hn
    cases n; exact hn
  obtain ⟨h1, h2, h3⟩ := same_rel h
  refine rel_same (wf h.wf') (wf h.wf) ?_
  cases a; cases b
  exact ⟨h1, rfl, h3⟩

/-- A graph with one member. -/
theorem graph_one {n : Node} (hg : n.isGraph = true) {m : Obj} (hm : n.graph = some [m]) :
    n = .mk n.index n.id none (some [m]) none [] none := by
  cases n with
  | mk x i ty g inc ps rv =>
    cases hm
    unfold Node.isGraph at hg
    simp only [Bool.and_eq_true, Option.isSome_iff_exists, Option.isNone_iff_eq_none, List.isEmpty_iff] at hg
    obtain ⟨⟨⟨⟨-, rfl⟩, rfl⟩, rfl⟩, rfl⟩ := hg
    rfl

section
variable {E : CEnv} {X : XEnv} {c : ACtx} (H : MapEnv E X c)
include H

omit H in
/-- Graphs in maps: the member comes back as the graph with the key as index or identifier. -/
theorem graph_inMap {key : Str} (hc : (defContainer (c.get key)).contains .graph = true)
    (hl : (defContainer (c.get key)).contains .language = false) {v : Json} {m : Node} (hm : m.isGraph = false)
    (hs : Shown X c (some key) v (.node m)) {mk : Str} {t : Option CTerm} (ht : expandedIndex X c mk = .ok t) {n : Node}
    (hi : ∀ m', Same (.node m') (graphNode (.node m)) → m'.isGraph = true → m'.index = none → m'.id = none → ∃ o', (match t with
      | none => .ok [.node m']
      | some t => (indexItem X c (defContainer (c.get key)) "@index".toList mk t (.node m')).map Option.toList : Except XErr (List Obj)) = .ok [o'] ∧
        Same o' (.node n)) : InMap X c key mk v (.node n) := by
  refine ⟨hs.notArray, fun hx => (by rw [hl] at hx; cases hx), fun _ => ?_⟩
  obtain ⟨o1, h1, h2⟩ := hs.expand true
  obtain ⟨m', rfl⟩ := same_node h2
  obtain ⟨o', h3, h4⟩ := hi _ (same_graphNode h2) rfl rfl rfl
  refine ⟨_, t, o', h1, ht, ?_, h4⟩
  unfold mapItem
  have hg : (Obj.node m').isGraph = false := (same_isGraph h2).trans hm
  simp only [hc, hg, Bool.not_false, Bool.and_self, if_true]
  cases t with
  | none => exact h3
  | some t => exact h3

/-- Graphs in maps by identifier. -/
theorem graphId_inMap {key : Str} (hk : defContainer (c.get key) = .graphId ∨ defContainer (c.get key) = .graphIdSet)
    {n : Node} (hn : PlacedNode E.toCompEnv c n) (hg : n.isGraph = true) (hx : n.index = none) {m : Node}
    (hgm : n.graph = some [.node m]) (hm : m.isGraph = false) {v : Json} (hs : Shown X c (some key) v (.node m)) {mk : Str}
    (h : graphMapKey E c n = .ok mk) : InMap X c key mk v (.node n) := by
  have hc : (defContainer (c.get key)).contains .graph = true := by rcases hk with hk | hk <;> rw [hk] <;> rfl
  have hl : (defContainer (c.get key)).contains .language = false := by rcases hk with hk | hk <;> rw [hk] <;> rfl
  have hxx : (defContainer (c.get key)).contains .index = false := by rcases hk with hk | hk <;> rw [hk] <;> rfl
  have hid : (defContainer (c.get key)).contains .id = true := by rcases hk with hk | hk <;> rw [hk] <;> rfl
  have hnn := graph_one hg hgm
  rw [hx] at hnn
  unfold graphMapKey at h
  cases hi : n.id with
  | none =>
    rw [hi] at h hnn
    obtain ⟨h3, -⟩ := none_key H h
    refine graph_inMap hc hl hm hs h3 fun m' hm' _ _ _ => ⟨_, rfl, ?_⟩
    rw [hnn]
    exact hm'
  | some i =>
    rw [hi] at h hnn
    have hci : cIri E c (.id i) false = .ok (some mk) := by
      unfold cIriU at h
      dsimp only at h
      split at h
      · rename_i s hs; cases h; exact hs
      · cases h
      · cases h
    obtain ⟨s', h1, hb⟩ := cIri_id H.toBaseEnv (hn.id i hi) hci
    cases h1
    obtain ⟨t, h3, -⟩ := index_term H (notNone_id H.ctx.typeDef hb)
    refine graph_inMap hc hl hm hs h3 fun m' hm' _ h4 h5 => ⟨.node (m'.setId (some i)), ?_, ?_⟩
    · unfold indexItem indexId xIri
      simp only [hxx, hid, Bool.false_and, Bool.false_eq_true, if_false, Bool.true_and, Obj.nodeId, h5,
        Option.isNone_none, if_true, hb, Except.map, Option.toList]
      rfl
    · rw [hnn]
      exact hm'.setId (some i)

/-- Graphs in maps by index. -/
theorem graphIndex_inMap {key : Str} (hk : defContainer (c.get key) = .graphIndex ∨ defContainer (c.get key) = .graphIndexSet)
    {n : Node} (hn : PlacedNode E.toCompEnv c n) (hg : n.isGraph = true) (hx : n.id = none) {m : Node}
    (hgm : n.graph = some [.node m]) (hm : m.isGraph = false) {v : Json} (hs : Shown X c (some key) v (.node m)) :
    InMap X c key (n.index.getD "@none".toList) v (.node n) := by
  have hc : (defContainer (c.get key)).contains .graph = true := by rcases hk with hk | hk <;> rw [hk] <;> rfl
  have hl : (defContainer (c.get key)).contains .language = false := by rcases hk with hk | hk <;> rw [hk] <;> rfl
  have hxx : (defContainer (c.get key)).contains .index = true := by rcases hk with hk | hk <;> rw [hk] <;> rfl
  have hnn := graph_one hg hgm
  rw [hx] at hnn
  cases hi : n.index with
  | none =>
    rw [hi] at hnn
    have h3 : expandedIndex X c "@none".toList = .ok none := by
      unfold expandedIndex
      rw [show xKey X c "@none".toList = xKey X c Keyword.none.intoStr from rfl, xKey_kw]
      rfl
    refine graph_inMap hc hl hm hs h3 fun m' hm' _ _ _ => ⟨_, rfl, ?_⟩
    rw [hnn]
    exact hm'
  | some i =>
    rw [hi] at hnn
    obtain ⟨t, h3, -⟩ := index_term H (hn.index i hi)
    refine graph_inMap hc hl hm hs h3 fun m' hm' _ h4 h5 => ⟨.node (m'.setIndex (some i)), ?_, ?_⟩
    · unfold indexItem
      simp only [hxx, Bool.true_and, ne_eq, not_true, decide_false, Bool.false_eq_true, if_false, Obj.index, h4,
        Option.isNone_none, if_true, Except.map, Option.toList]
      rfl
    · rw [hnn]
      exact hm'.setIndex (some i)

/-- The member of a graph under a term. -/
theorem graph_value {R : CRec} (hR : RecShown E X c R) {key : Str} (hg : key ≠ "@graph".toList) (hr : key ≠ "@reverse".toList)
    {n : Node} (ho : PlacedObj E.toCompEnv c (.node n)) {o : Obj} (hgm : n.graph = some [o])
    (hx : (defContainer (c.get key)).contains .index = true → o.index = none) {v : Json}
    (h : compactCollection (R c c (some key)) c (some key) E.opts (n.graph.getD []) = .ok v) :
    ∃ m w a, o = .node m ∧ v = pack a [w] ∧ Shown X c (some key) w (.node m) := by
  obtain ⟨m, rfl, -⟩ := ho.placed.graph _ hgm o (by simp)
  rw [hgm] at h
  have one : ∀ w, R c c (some key) (.node m) = .ok w → Shown X c (some key) w (.node m) := by
    intro w hw
    have hsh := (hR.node _ _ _ (ho.graph hgm _ (by simp)) hw).shows H hg hr
    refine ⟨hsh.notArray, hsh.notNull, fun fm => ?_⟩
    obtain ⟨o', h1, h2⟩ := hsh.expand fm
    refine ⟨o', h1, ?_⟩
    have : Obj.unindexed ((defContainer (c.get key)).contains .index) (.node m) = .node m := by
      unfold Obj.unindexed
      split
      · rename_i hxx
        exact setIndex_same (hx hxx)
      · rfl
    rw [this] at h2
    exact h2
  obtain ⟨vs, a, rfl, hvs⟩ := collection_forall (S := Shown X c (some key)) (items := [.node m]) (fun v o h => h.notNull)
    (fun o ho w hw => by
      cases List.mem_singleton.1 ho
      exact one w hw) h
  cases hvs with
  | cons h1 h2 =>
    cases h2
    exact ⟨m, _, a, rfl, rfl, h1⟩

end

end JsonLd
