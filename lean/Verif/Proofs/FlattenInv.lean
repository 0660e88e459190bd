import Verif.Proofs.FlattenEvents
import Verif.Proofs.DocEq
/-!
# What a sequence of updates makes of the empty node map
-/

namespace JsonLd
open Spec

/-! ## Association lists -/

theorem lookupProp_setKey {α : Type} (k k' : Id) (v : α) (l : List (Id × α)) :
    lookupProp k' (setKey k v l) =
      if k' = k then (lookupProp k l).map (fun _ => v) else lookupProp k' l := by
  induction l with
  | nil => simp [setKey, lookupProp]
  | cons p ps ih =>
    obtain ⟨a, x⟩ := p
    simp only [setKey]
    by_cases h : a = k
    · subst h
      by_cases h' : k' = a
      · subst h'; simp [lookupProp]
      · simp [lookupProp, h', Ne.symm h']
    · by_cases h' : a = k'
      · subst h'; simp [lookupProp, h]
      · simp [lookupProp, h, h', ih]

theorem setKey_keys {α : Type} (k : Id) (v : α) (l : List (Id × α)) :
    (setKey k v l).map Prod.fst = l.map Prod.fst := by
  induction l with
  | nil => rfl
  | cons p ps ih =>
    obtain ⟨a, x⟩ := p
    simp only [setKey]
    split <;> simp [ih]

theorem lookupProp_append {α : Type} (k : Id) (l r : List (Id × α)) :
    lookupProp k (l ++ r) = (lookupProp k l).or (lookupProp k r) := by
  induction l with
  | nil => rfl
  | cons p ps ih =>
    obtain ⟨a, x⟩ := p
    simp only [List.cons_append, lookupProp]
    split <;> simp [ih]

theorem lookupProp_eq_none {α : Type} {k : Id} {l : List (Id × α)} :
    lookupProp k l = none ↔ k ∉ l.map Prod.fst := by
  induction l with
  | nil => simp [lookupProp]
  | cons p ps ih =>
    obtain ⟨a, x⟩ := p
    simp only [lookupProp]
    split
    · rename_i h; simp [h]
    · rename_i h; simp [ih, Ne.symm h]

theorem lookupProp_iff {α : Type} {k : Id} {l : List (Id × α)} {v : α}
    (hn : (l.map Prod.fst).Nodup) : lookupProp k l = some v ↔ (k, v) ∈ l :=
  ⟨lookupProp_mem, lookupProp_of_mem hn⟩

/-! ## Access to a node map -/

/-- The node `id` of graph `g`. -/
def NodeMap.get (m : NodeMap) (g : Option Id) (id : Id) : Option Node :=
  (m.graph g).bind (lookupProp id)

/-- The keys of all maps are distinct. -/
def NodeMap.KeysOk (m : NodeMap) : Prop :=
  (m.graphs.map Prod.fst).Nodup ∧ ∀ g G, m.graph g = some G → (G.map Prod.fst).Nodup

theorem graph_setGraph {m : NodeMap} {g : Option Id} {G : NMGraph} (hg : m.graph g = some G)
    (G' : NMGraph) (g' : Option Id) :
    (m.setGraph g G').graph g' = if g' = g then some G' else m.graph g' := by
  cases g with
  | none =>
    cases g' with
    | none => simp [NodeMap.setGraph, NodeMap.graph]
    | some g' => simp [NodeMap.setGraph, NodeMap.graph]
  | some g =>
    cases g' with
    | none => simp [NodeMap.setGraph, NodeMap.graph]
    | some g' =>
      simp only [NodeMap.setGraph, NodeMap.graph, lookupProp_setKey, Option.some.injEq]
      simp only [NodeMap.graph] at hg
      split <;> simp [hg]

theorem setGraph_keysOk {m : NodeMap} {g : Option Id} {G : NMGraph} (hg : m.graph g = some G)
    {G' : NMGraph} (hm : m.KeysOk) (hG : (G'.map Prod.fst).Nodup) : (m.setGraph g G').KeysOk := by
  refine ⟨?_, ?_⟩
  · cases g with
    | none => exact hm.1
    | some g => simp only [NodeMap.setGraph, setKey_keys]; exact hm.1
  · intro g' G'' h
    rw [graph_setGraph hg] at h
    split at h
    · cases h; exact hG
    · exact hm.2 _ _ h

theorem modify_ok {m m' : NodeMap} {g : Option Id} {id : Id} {f : Node → Node} (hm : m.KeysOk)
    (h : m.modify g id f = .ok m') :
    ∃ n, m.get g id = some n ∧ m'.KeysOk ∧ (∀ g', (m'.graph g').isSome = (m.graph g').isSome) ∧
      ∀ g' id', m'.get g' id' = if g' = g ∧ id' = id then some (f n) else m.get g' id' := by
  unfold NodeMap.modify at h
  split at h
  · cases h
  · rename_i G hG
    split at h
    · cases h
    · rename_i n hn
      cases h
      refine ⟨n, by simp [NodeMap.get, hG, hn], ?_, ?_, ?_⟩
      · exact setGraph_keysOk hG hm (by rw [setKey_keys]; exact hm.2 _ _ hG)
      · intro g'
        rw [graph_setGraph hG]
        split
        · rename_i e; simp [e, hG]
        · rfl
      · intro g' id'
        simp only [NodeMap.get, graph_setGraph hG]
        by_cases e : g' = g
        · subst e
          simp only [if_true, Option.bind_some, true_and, lookupProp_setKey, hn, Option.map_some, hG]
        · simp [e]

/-- Effect of a declaration on the entry of the node. -/
def declEffect (id : Id) (i : Option Str) : Option Node → Node
  | none => Node.withId id i
  | some n => match n.index, i with
    | none, some b => n.setIndex (some b)
    | _, _ => n

theorem declareNode_ok {G G' : NMGraph} {id : Id} {i : Option Str} (hn : (G.map Prod.fst).Nodup)
    (h : declareNode G id i = .ok G') :
    (G'.map Prod.fst).Nodup ∧
      (∀ n a b, lookupProp id G = some n → n.index = some a → i = some b → a = b) ∧
      ∀ id', lookupProp id' G' =
        if id' = id then some (declEffect id i (lookupProp id G)) else lookupProp id' G := by
  unfold declareNode at h
  cases hl : lookupProp id G with
  | none =>
    rw [hl] at h
    cases h
    refine ⟨?_, by simp, ?_⟩
    · rw [List.map_append, List.nodup_append]
      refine ⟨hn, by simp, ?_⟩
      rintro a ha b hb rfl
      simp at hb
      exact lookupProp_eq_none.1 hl (hb ▸ ha)
    · intro id'
      rw [lookupProp_append]
      by_cases e : id' = id
      · subst e; simp [hl, lookupProp, declEffect]
      · simp [lookupProp, e, Ne.symm e]
  | some n =>
    rw [hl] at h
    simp only at h
    split at h
    · rename_i a b ha
      split at h
      · cases h
      · rename_i hab
        cases h
        simp only [ne_eq, not_not] at hab
        refine ⟨hn, ?_, ?_⟩
        · rintro n a' b' ⟨⟩ ha' ⟨⟩
          rw [ha] at ha'; cases ha'; exact hab
        · intro id'
          by_cases e : id' = id
          · subst e; simp [hl, declEffect, ha]
          · simp [e]
    · rename_i b ha
      cases h
      refine ⟨by rw [setKey_keys]; exact hn, ?_, ?_⟩
      · rintro n a' b' ⟨⟩ ha' ⟨⟩
        rw [ha] at ha'; cases ha'
      · intro id'
        rw [lookupProp_setKey]
        by_cases e : id' = id
        · subst e; simp [hl, declEffect, ha]
        · simp [e]
    · cases h
      refine ⟨hn, by simp, ?_⟩
      intro id'
      by_cases e : id' = id
      · subst e
        simp only [hl, if_true, declEffect]
        cases n.index <;> rfl
      · simp [e]

theorem declare_ok {m m' : NodeMap} {g : Option Id} {id : Id} {i : Option Str} (hm : m.KeysOk)
    (h : m.declare g id i = .ok m') :
    m'.KeysOk ∧ (∀ g', (m'.graph g').isSome = (m.graph g').isSome) ∧
      (∀ n a b, m.get g id = some n → n.index = some a → i = some b → a = b) ∧
      ∀ g' id', m'.get g' id' =
        if g' = g ∧ id' = id then some (declEffect id i (m.get g id)) else m.get g' id' := by
  unfold NodeMap.declare at h
  split at h
  · cases h
  · rename_i G hG
    cases hd : declareNode G id i with
    | error e => rw [hd] at h; cases h
    | ok G' =>
      rw [hd] at h
      cases h
      obtain ⟨h1, h2, h3⟩ := declareNode_ok (hm.2 _ _ hG) hd
      refine ⟨setGraph_keysOk hG hm h1, ?_, ?_, ?_⟩
      · intro g'
        rw [graph_setGraph hG]
        split
        · rename_i e; simp [e, hG]
        · rfl
      · simpa [NodeMap.get, hG] using h2
      · intro g' id'
        simp only [NodeMap.get, graph_setGraph hG]
        by_cases e : g' = g
        · subst e
          simp only [if_true, Option.bind_some, true_and, h3, hG]
        · simp [e]

theorem declareGraph_ok {m : NodeMap} {g : Id} (hm : m.KeysOk) :
    (m.declareGraph g).KeysOk ∧
      (∀ g', ((m.declareGraph g).graph g').isSome = ((m.graph g').isSome || decide (g' = some g))) ∧
      ∀ g' id, (m.declareGraph g).get g' id = m.get g' id := by
  unfold NodeMap.declareGraph
  split
  · rename_i G hG
    refine ⟨hm, ?_, fun _ _ => rfl⟩
    intro g'
    by_cases e : g' = some g
    · subst e; simp [NodeMap.graph, hG]
    · simp [e]
  · rename_i hG
    have hgr : ∀ g', ({ m with graphs := m.graphs ++ [(g, [])] } : NodeMap).graph g' =
        if g' = some g then some [] else m.graph g' := by
      intro g'
      cases g' with
      | none => simp [NodeMap.graph]
      | some g' =>
        simp only [NodeMap.graph, lookupProp_append, Option.some.injEq]
        by_cases e : g' = g
        · subst e; simp [hG, lookupProp]
        · simp [e, Ne.symm e, lookupProp]
    refine ⟨⟨?_, ?_⟩, ?_, ?_⟩
    · rw [List.map_append, List.nodup_append]
      refine ⟨hm.1, by simp, ?_⟩
      rintro a ha b hb rfl
      simp at hb
      exact lookupProp_eq_none.1 hG (hb ▸ ha)
    · intro g' G' h
      rw [hgr] at h
      split at h
      · cases h; exact List.nodup_nil
      · exact hm.2 _ _ h
    · intro g'
      rw [hgr]
      split <;> simp [*]
    · intro g' id
      simp only [NodeMap.get, hgr]
      by_cases e : g' = some g
      · subst e; simp [NodeMap.graph, hG, lookupProp]
      · simp [e]

/-! ## Adding values -/

theorem addUnique_spec (os vs : List Obj) :
    (∀ o ∈ os, o ∈ addUnique os vs) ∧ (∀ o ∈ addUnique os vs, o ∈ os ∨ o ∈ vs) ∧
    (∀ v ∈ vs, ∃ o ∈ addUnique os vs, o = v ∨ o.equiv v = true) ∧
    (os.Pairwise (fun a b => a.equiv b = false) →
      (addUnique os vs).Pairwise fun a b => a.equiv b = false) := by
  induction vs generalizing os with
  | nil => simp [addUnique]
  | cons v vs ih =>
    simp only [addUnique]
    split
    · rename_i h
      simp only [List.all_eq_true, Bool.not_eq_true'] at h
      obtain ⟨h1, h2, h3, h4⟩ := ih (os ++ [v])
      refine ⟨fun o ho => h1 o (List.mem_append_left _ ho), ?_, ?_, ?_⟩
      · intro o ho
        rcases h2 o ho with h | h
        · rcases List.mem_append.1 h with h | h
          · exact Or.inl h
          · exact Or.inr (by rw [List.mem_singleton.1 h]; exact List.mem_cons_self)
        · exact Or.inr (List.mem_cons_of_mem _ h)
      · intro w hw
        rcases List.mem_cons.1 hw with rfl | hw
        · exact ⟨w, h1 w (by simp), Or.inl rfl⟩
        · exact h3 w hw
      · intro hp
        apply h4
        rw [List.pairwise_append]
        refine ⟨hp, by simp, ?_⟩
        intro a ha b hb
        rw [List.mem_singleton.1 hb]
        exact h a ha
    · rename_i h
      obtain ⟨h1, h2, h3, h4⟩ := ih os
      refine ⟨h1, ?_, ?_, h4⟩
      · intro o ho
        rcases h2 o ho with h | h
        · exact Or.inl h
        · exact Or.inr (List.mem_cons_of_mem _ h)
      · intro w hw
        rcases List.mem_cons.1 hw with rfl | hw
        · simp only [List.all_eq_true, Bool.not_eq_true', not_forall, Bool.not_eq_false] at h
          obtain ⟨o, ho, he⟩ := h
          exact ⟨o, h1 o ho, Or.inr he⟩
        · exact h3 w hw

theorem insertAllUnique_lookup (ps : List (Id × List Obj)) (k : Id) (vs : List Obj) (k' : Id) :
    lookupProp k' (insertAllUnique ps k vs) =
      if k' = k then some (addUnique ((lookupProp k ps).getD []) vs) else lookupProp k' ps := by
  unfold insertAllUnique
  split
  · rename_i os h
    rw [lookupProp_setKey]
    split <;> simp [h]
  · rename_i h
    rw [lookupProp_append]
    by_cases e : k' = k
    · subst e; simp [h, lookupProp]
    · simp [e, Ne.symm e, lookupProp]

theorem insertAllUnique_keys (ps : List (Id × List Obj)) (k : Id) (vs : List Obj)
    (h : (ps.map Prod.fst).Nodup) : ((insertAllUnique ps k vs).map Prod.fst).Nodup := by
  unfold insertAllUnique
  split
  · rw [setKey_keys]; exact h
  · rename_i hk
    rw [List.map_append, List.nodup_append]
    refine ⟨h, by simp, ?_⟩
    rintro a ha b hb rfl
    simp at hb
    exact lookupProp_eq_none.1 hk (hb ▸ ha)

/-! ## The invariant -/

/-- The update concerns something declared before. -/
def EvOk (P : List Ev) : Ev → Prop
  | .declare g _ _ => g = none ∨ ∃ i, g = some i ∧ Ev.decl i ∈ P
  | .types g id _ => ∃ i, Ev.declare g id i ∈ P
  | .decl _ => True
  | .gadd g id _ => (∃ i, Ev.declare g id i ∈ P) ∧ Ev.decl id ∈ P
  | .props g id _ _ => ∃ i, Ev.declare g id i ∈ P

theorem EvOk.mono {P Q : List Ev} (h : ∀ e ∈ P, e ∈ Q) {e : Ev} (he : EvOk P e) : EvOk Q e := by
  cases e with
  | declare g id i =>
    rcases he with he | ⟨i, hi, hd⟩
    · exact Or.inl he
    · exact Or.inr ⟨i, hi, h _ hd⟩
  | types g id ts => obtain ⟨i, hi⟩ := he; exact ⟨i, h _ hi⟩
  | decl id => trivial
  | gadd g id os => obtain ⟨⟨i, hi⟩, hd⟩ := he; exact ⟨⟨i, h _ hi⟩, h _ hd⟩
  | props g id k os => obtain ⟨i, hi⟩ := he; exact ⟨i, h _ hi⟩

/-- What the node `x` of the graph `g` is after the updates `E`. -/
structure NodeInv (E : List Ev) (g : Option Id) (x : Id) (n : Node) : Prop where
  hid : n.id = some x
  included : n.included = none
  rev : n.rev = none
  declared : ∃ i, Ev.declare g x i ∈ E
  index : ∀ a, n.index = some a ↔ Ev.declare g x (some a) ∈ E
  types : ∀ ts, n.types = some ts → Ev.types g x ts ∈ E
  types_some : ∀ ts, Ev.types g x ts ∈ E → n.types.isSome = true
  keys : (n.props.map Prod.fst).Nodup
  sound : ∀ k os, lookupProp k n.props = some os →
    os.Pairwise (fun a b => a.equiv b = false) ∧ ∀ o ∈ os, ∃ vs, Ev.props g x k vs ∈ E ∧ o ∈ vs
  complete : ∀ k vs, Ev.props g x k vs ∈ E → ∃ os, lookupProp k n.props = some os ∧
    ∀ v ∈ vs, ∃ o ∈ os, o = v ∨ o.equiv v = true
  graph : n.graph.isSome = true → ∃ os, Ev.gadd g x os ∈ E
  source : ∀ k os, lookupProp k n.props = some os → ∃ vs, Ev.props g x k vs ∈ E

/-- What the node map is after the updates `E`. -/
structure MapInv (E : List Ev) (m : NodeMap) : Prop where
  keys : m.KeysOk
  graphs : ∀ g, (m.graph g).isSome = true ↔ g = none ∨ ∃ i, g = some i ∧ Ev.decl i ∈ E
  nodes : ∀ g id n, m.get g id = some n → NodeInv E g id n
  exists_node : ∀ g id i, Ev.declare g id i ∈ E → (m.get g id).isSome = true
  evOk : ∀ e ∈ E, EvOk E e

/-- An update of another node keeps what is known of a node. -/
theorem NodeInv.other {E : List Ev} {g : Option Id} {id : Id} {n : Node} (h : NodeInv E g id n)
    {e : Ev}
    (h1 : ∀ i, e ≠ .declare g id i) (h2 : ∀ ts, e ≠ .types g id ts)
    (h3 : ∀ k vs, e ≠ .props g id k vs) : NodeInv (E ++ [e]) g id n := by
  have hm : ∀ x, x ≠ e → (x ∈ E ++ [e] ↔ x ∈ E) := by
    intro x hx; simp [hx]
  constructor
  · exact h.hid
  · exact h.included
  · exact h.rev
  · obtain ⟨i, hi⟩ := h.declared; exact ⟨i, List.mem_append_left _ hi⟩
  · intro a; rw [h.index a, hm _ (Ne.symm (h1 _))]
  · intro ts hts; exact List.mem_append_left _ (h.types ts hts)
  · intro ts hts; rw [hm _ (Ne.symm (h2 _))] at hts; exact h.types_some ts hts
  · exact h.keys
  · intro k os hk
    obtain ⟨h5, h6⟩ := h.sound k os hk
    refine ⟨h5, fun o ho => ?_⟩
    obtain ⟨vs, h7, h8⟩ := h6 o ho
    exact ⟨vs, List.mem_append_left _ h7, h8⟩
  · intro k vs hv
    rw [hm _ (Ne.symm (h3 _ _))] at hv
    exact h.complete k vs hv
  · intro hg
    obtain ⟨os, ho⟩ := h.graph hg
    exact ⟨os, List.mem_append_left _ ho⟩
  · intro k os hk
    obtain ⟨vs, hv⟩ := h.source k os hk
    exact ⟨vs, List.mem_append_left _ hv⟩

section
variable {E : List Ev} {m m' : NodeMap}

theorem MapInv.graphs_of (hi : MapInv E m) {e : Ev} (he : ∀ i, e ≠ .decl i)
    (h : ∀ g', (m'.graph g').isSome = (m.graph g').isSome) (g : Option Id) :
    (m'.graph g).isSome = true ↔ g = none ∨ ∃ i, g = some i ∧ Ev.decl i ∈ E ++ [e] := by
  rw [h, hi.graphs]
  simp only [List.mem_append, List.mem_singleton, (fun i => Ne.symm (he i) : ∀ i, Ev.decl i ≠ e),
    or_false]

theorem MapInv.scoped_of (hi : MapInv E m) {e : Ev} (he : EvOk E e) :
    ∀ x ∈ E ++ [e], EvOk (E ++ [e]) x := by
  intro x hx
  have : EvOk E x := by
    rcases List.mem_append.1 hx with hx | hx
    · exact hi.evOk x hx
    · rw [List.mem_singleton.1 hx]; exact he
  exact this.mono fun _ h => List.mem_append_left _ h

theorem inv_declare (hi : MapInv E m) {g : Option Id} {id : Id} {i : Option Str}
    (hok : EvOk E (.declare g id i))
    (h : m.declare g id i = .ok m') : MapInv (E ++ [.declare g id i]) m' := by
  obtain ⟨h1, h2, h3, h4⟩ := declare_ok hi.keys h
  refine ⟨h1, hi.graphs_of (by simp) h2, ?_, ?_, hi.scoped_of hok⟩
  · intro g' id' n hn
    rw [h4] at hn
    split at hn
    · rename_i e
      obtain ⟨rfl, rfl⟩ := e
      cases hn
      cases hg : m.get g' id' with
      | none =>
        have hnd : ∀ j, Ev.declare g' id' j ∉ E := by
          intro j hj
          have := hi.exists_node _ _ _ hj
          rw [hg] at this; cases this
        constructor
        · rfl
        · rfl
        · rfl
        · exact ⟨i, by simp⟩
        · intro a
          simp only [declEffect, Node.withId, Node.index, List.mem_append, hnd, false_or,
            List.mem_singleton, Ev.declare.injEq, true_and]
          exact eq_comm
        · intro ts hts; cases hts
        · intro ts hts
          simp only [List.mem_append, List.mem_singleton, reduceCtorEq, or_false] at hts
          obtain ⟨j, hj⟩ := hi.evOk _ hts
          exact absurd hj (hnd j)
        · exact List.nodup_nil
        · intro k os hk; cases hk
        · intro k vs hv
          simp only [List.mem_append, List.mem_singleton, reduceCtorEq, or_false] at hv
          obtain ⟨j, hj⟩ := hi.evOk _ hv
          exact absurd hj (hnd j)
        · intro hk; cases hk
        · intro k os hk; cases hk
      | some n =>
        have hn := hi.nodes _ _ _ hg
        have h3 := fun a b => h3 n a b hg
        have hm : ∀ x, x ≠ Ev.declare g' id' i → (x ∈ E ++ [Ev.declare g' id' i] ↔ x ∈ E) := by
          intro x hx; simp [hx]
        have hsame : ∃ j, declEffect id' i (some n) = n.setIndex j ∧
            ∀ a, j = some a ↔ Ev.declare g' id' (some a) ∈ E ++ [.declare g' id' i] := by
          obtain ⟨ni, nid, nt, ng, ninc, nps, nrv⟩ := n
          have hx := hn.index
          simp only [Node.index] at hx h3
          cases ni with
          | none =>
            cases i with
            | none =>
              refine ⟨none, rfl, ?_⟩
              intro a; rw [hm _ (by simp), ← hx]
            | some b =>
              refine ⟨some b, rfl, ?_⟩
              intro a
              simp only [List.mem_append, List.mem_singleton, ← hx a, Ev.declare.injEq, true_and]
              simp only [reduceCtorEq, false_or]
              exact eq_comm
          | some c =>
            refine ⟨some c, by cases i <;> rfl, ?_⟩
            intro a
            simp only [List.mem_append, List.mem_singleton, ← hx a, Ev.declare.injEq, true_and]
            constructor
            · exact Or.inl
            · rintro (h | h)
              · exact h
              · rw [h3 c a rfl h.symm]
        obtain ⟨j, hj, hj'⟩ := hsame
        rw [hj]
        obtain ⟨ni, nid, nt, ng, ninc, nps, nrv⟩ := n
        constructor
        · exact hn.hid
        · exact hn.included
        · exact hn.rev
        · exact ⟨i, by simp⟩
        · exact hj'
        · intro ts hts; exact List.mem_append_left _ (hn.types ts hts)
        · intro ts hts; rw [hm _ (by simp)] at hts; exact hn.types_some ts hts
        · exact hn.keys
        · intro k os hk
          obtain ⟨h5, h6⟩ := hn.sound k os hk
          refine ⟨h5, fun o ho => ?_⟩
          obtain ⟨vs, h7, h8⟩ := h6 o ho
          exact ⟨vs, List.mem_append_left _ h7, h8⟩
        · intro k vs hv
          rw [hm _ (by simp)] at hv
          exact hn.complete k vs hv
        · intro hg
          obtain ⟨os, ho⟩ := hn.graph hg
          exact ⟨os, List.mem_append_left _ ho⟩
        · intro k os hk
          obtain ⟨vs, hv⟩ := hn.source k os hk
          exact ⟨vs, List.mem_append_left _ hv⟩
    · rename_i e
      exact (hi.nodes _ _ _ hn).other (by rintro i ⟨⟩; exact e ⟨rfl, rfl⟩) (by simp) (by simp)
  · intro g' id' j hj
    rw [h4]
    split
    · rfl
    · rename_i e
      rcases List.mem_append.1 hj with hj | hj
      · exact hi.exists_node _ _ _ hj
      · simp at hj; exact absurd ⟨hj.1, hj.2.1⟩ e

/-- An update of a node. -/
theorem inv_modify (hi : MapInv E m) {e : Ev} {g : Option Id} {id : Id} {f : Node → Node}
    (hok : EvOk E e) (hd : ∀ i, e ≠ .decl i) (hde : ∀ g id i, e ≠ .declare g id i)
    (hty : ∀ g' id' ts, e = .types g' id' ts → g' = g ∧ id' = id)
    (hpr : ∀ g' id' k vs, e = .props g' id' k vs → g' = g ∧ id' = id)
    (hf : ∀ n, NodeInv E g id n → NodeInv (E ++ [e]) g id (f n))
    (h : m.modify g id f = .ok m') : MapInv (E ++ [e]) m' := by
  obtain ⟨n, h0, h1, h2, h4⟩ := modify_ok hi.keys h
  refine ⟨h1, hi.graphs_of hd h2, ?_, ?_, hi.scoped_of hok⟩
  · intro g' id' n' hn
    rw [h4] at hn
    split at hn
    · rename_i e
      obtain ⟨rfl, rfl⟩ := e
      cases hn
      exact hf _ (hi.nodes _ _ _ h0)
    · rename_i hne
      refine (hi.nodes _ _ _ hn).other (fun i => hde _ _ i) ?_ ?_
      · intro ts h; exact hne (hty _ _ _ h)
      · intro k vs h; exact hne (hpr _ _ _ _ h)
  · intro g' id' j hj
    rw [h4]
    split
    · rfl
    · simp only [List.mem_append, List.mem_singleton, Ne.symm (hde g' id' j), or_false] at hj
      exact hi.exists_node _ _ _ hj

theorem inv_types {n : Node} {g : Option Id} {id : Id} {ts : List Id} (hn : NodeInv E g id n) :
    NodeInv (E ++ [.types g id ts]) g id (n.setTypes (some ts)) := by
  have hm : ∀ x, x ≠ Ev.types g id ts → (x ∈ E ++ [Ev.types g id ts] ↔ x ∈ E) := by
    intro x hx; simp [hx]
  obtain ⟨ni, nid, nt, ng, ninc, nps, nrv⟩ := n
  constructor
  · exact hn.hid
  · exact hn.included
  · exact hn.rev
  · obtain ⟨i, hi⟩ := hn.declared; exact ⟨i, List.mem_append_left _ hi⟩
  · intro a; rw [hm _ (by simp)]; exact hn.index a
  · rintro ts ⟨⟩; simp
  · intro ts hts; rfl
  · exact hn.keys
  · intro k os hk
    obtain ⟨h5, h6⟩ := hn.sound k os hk
    refine ⟨h5, fun o ho => ?_⟩
    obtain ⟨vs, h7, h8⟩ := h6 o ho
    exact ⟨vs, List.mem_append_left _ h7, h8⟩
  · intro k vs hv
    rw [hm _ (by simp)] at hv
    exact hn.complete k vs hv
  · intro hg
    obtain ⟨os, ho⟩ := hn.graph hg
    exact ⟨os, List.mem_append_left _ ho⟩
  · intro k os hk
    obtain ⟨vs, hv⟩ := hn.source k os hk
    exact ⟨vs, List.mem_append_left _ hv⟩

theorem inv_gadd {n : Node} {g : Option Id} {id : Id} {vs : List Obj} (hn : NodeInv E g id n) :
    NodeInv (E ++ [.gadd g id vs]) g id (extendGraphEntry vs n) := by
  have hm : ∀ x, x ≠ Ev.gadd g id vs → (x ∈ E ++ [Ev.gadd g id vs] ↔ x ∈ E) := by
    intro x hx; simp [hx]
  have hs : ∃ l, extendGraphEntry vs n = n.setGraphEntry l := by
    unfold extendGraphEntry; split <;> exact ⟨_, rfl⟩
  obtain ⟨l, hl⟩ := hs
  rw [hl]
  obtain ⟨ni, nid, nt, ng, ninc, nps, nrv⟩ := n
  constructor
  · exact hn.hid
  · exact hn.included
  · exact hn.rev
  · obtain ⟨i, hi⟩ := hn.declared; exact ⟨i, List.mem_append_left _ hi⟩
  · intro a; rw [hm _ (by simp)]; exact hn.index a
  · intro ts hts; exact List.mem_append_left _ (hn.types ts hts)
  · intro ts hts; rw [hm _ (by simp)] at hts; exact hn.types_some ts hts
  · exact hn.keys
  · intro k os hk
    obtain ⟨h5, h6⟩ := hn.sound k os hk
    refine ⟨h5, fun o ho => ?_⟩
    obtain ⟨vs, h7, h8⟩ := h6 o ho
    exact ⟨vs, List.mem_append_left _ h7, h8⟩
  · intro k vs hv
    rw [hm _ (by simp)] at hv
    exact hn.complete k vs hv
  · intro _; exact ⟨vs, by simp⟩
  · intro k os hk
    obtain ⟨vs, hv⟩ := hn.source k os hk
    exact ⟨vs, List.mem_append_left _ hv⟩

theorem inv_props {n : Node} {g : Option Id} {id k : Id} {vs : List Obj} (hn : NodeInv E g id n) :
    NodeInv (E ++ [.props g id k vs]) g id (n.setProps (insertAllUnique n.props k vs)) := by
  have hm : ∀ x, x ≠ Ev.props g id k vs → (x ∈ E ++ [Ev.props g id k vs] ↔ x ∈ E) := by
    intro x hx; simp [hx]
  obtain ⟨ni, nid, nt, ng, ninc, nps, nrv⟩ := n
  have hs := hn.sound
  have hc := hn.complete
  obtain ⟨a1, a2, a3, a4⟩ := addUnique_spec ((lookupProp k nps).getD []) vs
  simp only [Node.props] at hs hc
  constructor
  · exact hn.hid
  · exact hn.included
  · exact hn.rev
  · obtain ⟨i, hi⟩ := hn.declared; exact ⟨i, List.mem_append_left _ hi⟩
  · intro a; rw [hm _ (by simp)]; exact hn.index a
  · intro ts hts; exact List.mem_append_left _ (hn.types ts hts)
  · intro ts hts; rw [hm _ (by simp)] at hts; exact hn.types_some ts hts
  · exact insertAllUnique_keys _ _ _ hn.keys
  · intro k' os hk
    simp only [Node.setProps, Node.props, insertAllUnique_lookup] at hk
    split at hk
    · rename_i e
      subst e
      cases hk
      refine ⟨a4 ?_, fun o ho => ?_⟩
      · cases hl : lookupProp k' nps with
        | none => simp
        | some os => exact (hs _ _ hl).1
      · rcases a2 o ho with h | h
        · cases hl : lookupProp k' nps with
          | none => rw [hl] at h; simp at h
          | some os =>
            rw [hl] at h
            obtain ⟨ws, h1, h2⟩ := (hs _ _ hl).2 o h
            exact ⟨ws, List.mem_append_left _ h1, h2⟩
        · exact ⟨vs, by simp, h⟩
    · obtain ⟨h5, h6⟩ := hs k' os hk
      refine ⟨h5, fun o ho => ?_⟩
      obtain ⟨vs, h7, h8⟩ := h6 o ho
      exact ⟨vs, List.mem_append_left _ h7, h8⟩
  · intro k' ws hv
    simp only [Node.setProps, Node.props, insertAllUnique_lookup]
    by_cases e : k' = k
    · subst e
      refine ⟨_, if_pos rfl, ?_⟩
      intro v hvv
      rcases List.mem_append.1 hv with hv | hv
      · obtain ⟨os, h1, h2⟩ := hc _ _ hv
        obtain ⟨o, ho, ho'⟩ := h2 v hvv
        exact ⟨o, a1 o (by rw [h1]; exact ho), ho'⟩
      · simp at hv
        exact a3 v (hv ▸ hvv)
    · rw [if_neg e]
      rw [hm _ (by simp [e])] at hv
      exact hc _ _ hv
  · intro hg
    obtain ⟨os, ho⟩ := hn.graph hg
    exact ⟨os, List.mem_append_left _ ho⟩
  · intro k' os hk
    simp only [Node.setProps, Node.props, insertAllUnique_lookup] at hk
    split at hk
    · rename_i e
      subst e
      exact ⟨vs, by simp⟩
    · obtain ⟨ws, hv⟩ := hn.source k' os hk
      exact ⟨ws, List.mem_append_left _ hv⟩

/-- Two declarations that contradict each other. -/
def EvConflict (E : List Ev) (id : Id) (a b : Str) : Prop :=
  ∃ g, Ev.declare g id (some a) ∈ E ∧ Ev.declare g id (some b) ∈ E ∧ a ≠ b

theorem modify_exists {g : Option Id} {id : Id} {f : Node → Node} (h : (m.get g id).isSome = true) :
    ∃ m', m.modify g id f = .ok m' := by
  unfold NodeMap.get at h
  unfold NodeMap.modify
  cases hg : m.graph g with
  | none => rw [hg] at h; cases h
  | some G =>
    rw [hg] at h
    cases hn : lookupProp id G with
    | none => simp [hn] at h
    | some n => exact ⟨_, by simp only [hn]; rfl⟩

theorem apply_step (hi : MapInv E m) {e : Ev} (hok : EvOk E e) :
    (∃ m', m.apply e = .ok m' ∧ MapInv (E ++ [e]) m') ∨
      ∃ id a b, m.apply e = .error (.conflict id a b) ∧ EvConflict (E ++ [e]) id a b := by
  cases e with
  | declare g id i =>
    have hg := (hi.graphs g).2 hok
    obtain ⟨G, hG⟩ := Option.isSome_iff_exists.1 hg
    simp only [NodeMap.apply]
    cases hd : m.declare g id i with
    | ok m' => exact Or.inl ⟨m', rfl, inv_declare hi hok hd⟩
    | error err =>
      right
      simp only [NodeMap.declare, hG] at hd
      cases hdn : declareNode G id i with
      | ok G' => rw [hdn] at hd; cases hd
      | error err' =>
        rw [hdn] at hd
        cases hd
        unfold declareNode at hdn
        split at hdn
        · rename_i n hn
          split at hdn
          · rename_i a b ha
            split at hdn
            · rename_i hab
              cases hdn
              have := (hi.nodes g id n (by simp [NodeMap.get, hG, hn])).index a
              exact ⟨_, _, _, rfl, g, List.mem_append_left _ (this.1 ha), by simp, hab⟩
            · cases hdn
          · cases hdn
          · cases hdn
        · cases hdn
  | types g id ts =>
    obtain ⟨i, hi'⟩ := hok
    obtain ⟨m', hm'⟩ := modify_exists (f := Node.setTypes (some ts)) (hi.exists_node _ _ _ hi')
    exact Or.inl ⟨m', hm', inv_modify hi ⟨i, hi'⟩ (by simp) (by simp)
      (by rintro _ _ _ ⟨⟩; exact ⟨rfl, rfl⟩) (by simp) (fun n hn => inv_types hn) hm'⟩
  | decl id =>
    left
    obtain ⟨h1, h2, h3⟩ := declareGraph_ok (g := id) hi.keys
    refine ⟨_, rfl, h1, ?_, ?_, ?_, hi.scoped_of hok⟩
    · intro g
      rw [h2, Bool.or_eq_true, hi.graphs]
      simp only [List.mem_append, List.mem_singleton, Ev.decl.injEq, decide_eq_true_eq]
      constructor
      · rintro ((h | ⟨i, h, h'⟩) | h)
        · exact Or.inl h
        · exact Or.inr ⟨i, h, Or.inl h'⟩
        · exact Or.inr ⟨id, h, Or.inr rfl⟩
      · rintro (h | ⟨i, h, h' | h'⟩)
        · exact Or.inl (Or.inl h)
        · exact Or.inl (Or.inr ⟨i, h, h'⟩)
        · exact Or.inr (h' ▸ h)
    · intro g x n hn
      rw [h3] at hn
      exact (hi.nodes _ _ _ hn).other (by simp) (by simp) (by simp)
    · intro g x i hx
      rw [h3]
      simp at hx
      exact hi.exists_node _ _ _ hx
  | gadd g id os =>
    obtain ⟨⟨i, hi'⟩, hd⟩ := hok
    obtain ⟨m', hm'⟩ := modify_exists (f := extendGraphEntry os) (hi.exists_node _ _ _ hi')
    exact Or.inl ⟨m', hm', inv_modify hi ⟨⟨i, hi'⟩, hd⟩ (by simp) (by simp)
      (by simp) (by simp) (fun n hn => inv_gadd hn) hm'⟩
  | props g id k os =>
    obtain ⟨i, hi'⟩ := hok
    obtain ⟨m', hm'⟩ := modify_exists (f := fun n => n.setProps (insertAllUnique n.props k os))
      (hi.exists_node _ _ _ hi')
    exact Or.inl ⟨m', hm', inv_modify hi ⟨i, hi'⟩ (by simp) (by simp) (by simp)
      (by rintro _ _ _ _ ⟨⟩; exact ⟨rfl, rfl⟩) (fun n hn => inv_props hn) hm'⟩

/-- Each update concerns something declared before. -/
def Scoped : List Ev → List Ev → Prop
  | _, [] => True
  | P, e :: es => EvOk P e ∧ Scoped (P ++ [e]) es

theorem Scoped.mono {P Q es : List Ev} (hs : Scoped P es) (h : ∀ e ∈ P, e ∈ Q) : Scoped Q es := by
  induction es generalizing P Q with
  | nil => trivial
  | cons e es ih =>
    refine ⟨hs.1.mono h, ih hs.2 ?_⟩
    intro x hx
    rcases List.mem_append.1 hx with hx | hx
    · exact List.mem_append_left _ (h x hx)
    · exact List.mem_append_right _ hx

theorem scoped_append {P a b : List Ev} : Scoped P (a ++ b) ↔ Scoped P a ∧ Scoped (P ++ a) b := by
  induction a generalizing P with
  | nil => simp [Scoped]
  | cons e a ih => simp [Scoped, ih, and_assoc]

theorem applyAll_run (hi : MapInv E m) {es : List Ev} (hs : Scoped E es) :
    (∃ m', m.applyAll es = .ok m' ∧ MapInv (E ++ es) m') ∨
      ∃ id a b, m.applyAll es = .error (.conflict id a b) ∧ EvConflict (E ++ es) id a b := by
  induction es generalizing E m with
  | nil => exact Or.inl ⟨m, rfl, by simpa using hi⟩
  | cons e es ih =>
    rw [applyAll_cons]
    rcases apply_step hi hs.1 with ⟨m1, h1, h2⟩ | ⟨id, a, b, h1, g, h2, h3, h4⟩
    · rw [h1]
      have := ih h2 hs.2
      rw [List.append_assoc] at this
      exact this
    · rw [h1]
      have hsub : ∀ v ∈ E ++ [e], v ∈ E ++ e :: es := by
        intro v hv; simp at hv ⊢; rcases hv with h | h <;> simp [h]
      exact Or.inr ⟨id, a, b, rfl, g, hsub _ h2, hsub _ h3, h4⟩

theorem mapInv_empty : MapInv [] ⟨[], []⟩ := by
  refine ⟨⟨List.nodup_nil, ?_⟩, ?_, ?_, ?_, ?_⟩
  · rintro (_ | g) G h
    · cases h; exact List.nodup_nil
    · cases h
  · rintro (_ | g) <;> simp [NodeMap.graph, lookupProp]
  · rintro (_ | g) id n h <;> simp [NodeMap.get, NodeMap.graph, lookupProp] at h
  · intro g id i h; cases h
  · intro e h; cases h

end

end JsonLd
