import Verif.Proofs.LinkedData
/-!
# Documents that survive as linked data: nodes
-/

namespace JsonLd
open Spec

variable {E : LdEnv}

theorem intoType_none {o : Obj} : (intoType o).isNone = true ↔ ¬ IsRef o := by
  match o with
  | .value _ _ => simp [intoType, IsRef]
  | .list _ _ => simp [intoType, IsRef]
  | .node (.mk x id ty g inc ps rv) =>
    cases x <;> cases id <;> cases ty <;> cases g <;> cases inc <;> cases ps <;> cases rv <;>
      simp [intoType, IsRef, Node.index, Node.isEmpty, Node.id]

/-- One property that comes back. -/
def gP (E : LdEnv) (p : Id × List Obj) : Option (Id × List Obj) :=
  if p.1.isValid then
    if p.1 = rdfType then
      if (nonTypeObjs (p.2.map (bO E))).isEmpty then none else some (p.1, nonTypeObjs (p.2.map (bO E)))
    else some (p.1, p.2.map (bO E))
  else none

theorem pProps_eq (ps acc : List (Id × List Obj)) (h : ((acc ++ ps).map Prod.fst).Nodup) :
    pProps E ps acc = acc ++ ps.filterMap (gP E) := by
  induction ps generalizing acc with
  | nil => simp [pProps]
  | cons p ps ih =>
    have hn : p.1 ∉ acc.map Prod.fst := by
      simp only [List.map_append, List.map_cons] at h
      intro hm
      exact (List.nodup_append.1 h).2.2 _ hm _ List.mem_cons_self rfl
    have hs : ((acc ++ ps).map Prod.fst).Nodup := by
      refine h.sublist ?_
      simp
    have hi : ∀ v, (((acc ++ [(p.1, v)]) ++ ps).map Prod.fst).Nodup := by
      intro v
      simpa using h
    have step : pProps E (p :: ps) acc = pProps E ps
        (if p.1.isValid then propStep p.1 (p.2.map (bO E)) acc else acc) := rfl
    rw [step]
    by_cases hp : p.1.isValid = true
    · rw [if_pos hp, propStep]
      by_cases ht : p.1 = rdfType
      · rw [if_pos ht]
        by_cases he : (nonTypeObjs (p.2.map (bO E))).isEmpty = true
        · rw [if_pos he, ih acc hs, List.filterMap_cons_none]
          rw [gP, if_pos hp, if_pos ht, if_pos he]
        · rw [if_neg he, setProp_new hn, ih _ (hi _),
            List.filterMap_cons_some (f := gP E) (b := (p.1, nonTypeObjs (p.2.map (bO E))))]
          · simp
          · rw [gP, if_pos hp, if_pos ht, if_neg he]
      · rw [if_neg ht, setProp_new hn, ih _ (hi _),
          List.filterMap_cons_some (f := gP E) (b := (p.1, p.2.map (bO E)))]
        · simp
        · rw [gP, if_pos hp, if_neg ht]
    · rw [if_neg hp, ih acc hs, List.filterMap_cons_none]
      rw [gP, if_neg hp]

/-- One reverse property that comes back. -/
def gR (E : LdEnv) (p : Id × List Node) : Option (Id × List Node) :=
  if p.1.isValid then some (p.1, p.2.map (bN E)) else none

theorem pRev_eq (ps acc : List (Id × List Node)) (h : ((acc ++ ps).map Prod.fst).Nodup) :
    pRev E ps acc = acc ++ ps.filterMap (gR E) := by
  induction ps generalizing acc with
  | nil => simp [pRev]
  | cons p ps ih =>
    have hn : p.1 ∉ acc.map Prod.fst := by
      simp only [List.map_append, List.map_cons] at h
      intro hm
      exact (List.nodup_append.1 h).2.2 _ hm _ List.mem_cons_self rfl
    have hs : ((acc ++ ps).map Prod.fst).Nodup := by
      refine h.sublist ?_
      simp
    have hi : ∀ v, (((acc ++ [(p.1, v)]) ++ ps).map Prod.fst).Nodup := by
      intro v
      simpa using h
    have step : pRev E (p :: ps) acc = pRev E ps
        (if p.1.isValid then setProp p.1 (p.2.map (bN E)) acc else acc) := rfl
    rw [step]
    by_cases hp : p.1.isValid = true
    · rw [if_pos hp, setProp_new hn, ih _ (hi _),
        List.filterMap_cons_some (f := gR E) (b := (p.1, p.2.map (bN E)))]
      · simp
      · rw [gR, if_pos hp]
    · rw [if_neg hp, ih acc hs, List.filterMap_cons_none]
      rw [gR, if_neg hp]

theorem unlessEmpty_eq {l : List α} {o : Option (List α)} (h : unlessEmpty l = o) :
    o ≠ some [] ∧ o.getD [] = l := by
  subst h
  cases l <;> simp [unlessEmpty]

theorem unlessEmpty_of {l : List α} {o : Option (List α)} (h : o ≠ some []) (hl : o.getD [] = l) :
    unlessEmpty l = o := by
  subst hl
  match o with
  | none => rfl
  | some [] => exact absurd rfl h
  | some (x :: l) => rfl

theorem gP_self {p : Id × List Obj} (h : gP E p = some p) : p.1.isValid = true ∧
    (∀ o ∈ p.2, bO E o = o) ∧ (p.1 = rdfType → p.2 ≠ [] ∧ ∀ o ∈ p.2, ¬ IsRef o) := by
  obtain ⟨p, os⟩ := p
  unfold gP at h
  split at h
  · rename_i hv
    refine ⟨hv, ?_⟩
    split at h
    · split at h
      · cases h
      · rename_i he
        have h2 : nonTypeObjs (os.map (bO E)) = os := (Prod.mk.inj (Option.some.inj h)).2
        obtain ⟨h3, h4⟩ := filter_map_self (p := fun o => (intoType o).isNone) h2
        refine ⟨h3, fun _ => ⟨fun hn => ?_, fun o ho => intoType_none.1 (h4 o ho)⟩⟩
        simp only [h2] at he
        rw [show os = [] from hn] at he
        exact he rfl
    · rename_i ht
      have h2 : os.map (bO E) = os := (Prod.mk.inj (Option.some.inj h)).2
      exact ⟨map_self h2, fun h => absurd h ht⟩
  · cases h

theorem map_of_self {f : α → α} {l : List α} (h : ∀ x ∈ l, f x = x) : l.map f = l := by
  conv_rhs => rw [← List.map_id l]
  exact List.map_congr_left h

theorem gP_of {p : Id × List Obj} (hv : p.1.isValid = true) (ho : ∀ o ∈ p.2, bO E o = o)
    (ht : p.1 = rdfType → p.2 ≠ [] ∧ ∀ o ∈ p.2, ¬ IsRef o) : gP E p = some p := by
  rw [gP, if_pos hv, map_of_self ho]
  split
  · rename_i h
    have : nonTypeObjs p.2 = p.2 := List.filter_eq_self.2 fun o hm => intoType_none.2 ((ht h).2 o hm)
    rw [this, if_neg]
    simpa using (ht h).1
  · rfl

theorem filterMap_of_self {α : Type} {f : α → Option α} {l : List α} (h : ∀ x ∈ l, f x = some x) :
    l.filterMap f = l := by
  induction l with
  | nil => rfl
  | cons x l ih =>
    rw [List.filterMap_cons_some (h x List.mem_cons_self),
      ih fun y hy => h y (List.mem_cons_of_mem _ hy)]

theorem pTypes_nil {ps : List (Id × List Obj)} (ho : ∀ p ∈ ps, ∀ o ∈ p.2, bO E o = o)
    (ht : ∀ p ∈ ps, p.1 = rdfType → p.2 ≠ [] ∧ ∀ o ∈ p.2, ¬ IsRef o) : pTypes E ps = [] := by
  unfold pTypes
  rw [List.flatMap_eq_nil_iff]
  intro p hp
  split
  · rename_i h
    rw [map_of_self (ho p hp)]
    unfold typeObjs
    rw [List.filterMap_eq_nil_iff]
    intro o hm
    exact Option.isNone_iff_eq_none.1 (intoType_none.2 ((ht p hp h.2).2 o hm))
  · rfl

/-- What it takes for a node to come back. -/
structure Fixed (E : LdEnv) (x : Option Str) (ty : Option (List Id)) (g : Option (List Obj))
    (inc : Option (List Node)) (ps : List (Id × List Obj)) (rv : Option (List (Id × List Node))) :
    Prop where
  index : x = none
  types : ty ≠ some [] ∧ ∀ t ∈ ty.getD [], t.isValid = true
  graph : g.isSome = (Node.mk none none ty g inc ps rv).isGraph ∧ ∀ o ∈ g.getD [], bO E o = o
  inc : inc ≠ some [] ∧ ∀ m ∈ inc.getD [], bN E m = m
  props : ∀ p ∈ ps, p.1.isValid = true ∧ (∀ o ∈ p.2, bO E o = o) ∧
    (p.1 = rdfType → p.2 ≠ [] ∧ ∀ o ∈ p.2, ¬ IsRef o)
  rev : rv ≠ some [] ∧ ∀ p ∈ rv.getD [], p.1.isValid = true ∧ ∀ m ∈ p.2, bN E m = m

theorem back_iff {x : Option Str} {i id : Option Id} {ty : Option (List Id)} {g : Option (List Obj)}
    {inc : Option (List Node)} {ps : List (Id × List Obj)} {rv : Option (List (Id × List Node))}
    (hw : (Node.mk x id ty g inc ps rv).WF) :
    back E i ty g inc ps rv = .mk x id ty g inc ps rv ↔ i = id ∧ Fixed E x ty g inc ps rv := by
  obtain ⟨wg, wi, wk, -, wr⟩ := hw
  have wk : (([] ++ ps).map Prod.fst).Nodup := wk
  have wr : (([] ++ rv.getD []).map Prod.fst).Nodup := by
    match rv with
    | none => simp
    | some l => exact wr.1
  unfold back
  rw [pProps_eq ps [] wk, pRev_eq _ [] wr, List.nil_append, List.nil_append]
  constructor
  · intro h
    injection h with h1 h2 h3 h4 h5 h6 h7
    have hp := fun p hp => gP_self (filterMap_self h6 p hp)
    rw [pTypes_nil (fun p hm => (hp p hm).2.1) (fun p hm => (hp p hm).2.2), List.append_nil] at h3
    refine ⟨h2, h1.symm, ?_, ?_, ?_, hp, ?_⟩
    · obtain ⟨a, b⟩ := unlessEmpty_eq h3
      exact ⟨a, List.filter_eq_self.1 b.symm⟩
    · split at h4
      · rename_i hb
        match g with
        | none => cases h4
        | some g => exact ⟨hb.symm, setFold_map_self (Option.some.inj h4)⟩
      · rename_i hb
        subst h4
        exact ⟨by simpa using hb, by simp⟩
    · obtain ⟨a, b⟩ := unlessEmpty_eq h5
      exact ⟨a, setFold_map_self b.symm⟩
    · obtain ⟨a, b⟩ := unlessEmpty_eq h7
      refine ⟨a, fun p hm => ?_⟩
      have := filterMap_self b.symm p hm
      unfold gR at this
      split at this
      · rename_i hv
        exact ⟨hv, map_self (Prod.ext_iff.1 (Option.some.inj this)).2⟩
      · cases this
  · rintro ⟨rfl, h⟩
    obtain rfl := h.index
    rw [filterMap_of_self fun p hp => gP_of (h.props p hp).1 (h.props p hp).2.1 (h.props p hp).2.2,
      pTypes_nil (fun p hm => (h.props p hm).2.1) (fun p hm => (h.props p hm).2.2), List.append_nil,
      List.filter_eq_self.2 h.types.2, unlessEmpty_of h.types.1 rfl, map_of_self h.inc.2,
      map_of_self h.graph.2,
      filterMap_of_self (l := rv.getD []) fun p hp => by
        rw [gR, if_pos (h.rev.2 p hp).1, map_of_self (h.rev.2 p hp).2],
      unlessEmpty_of h.rev.1 rfl]
    congr 1
    · rw [← h.graph.1]
      match g with
      | none => rfl
      | some g =>
        have := setFold_distinct (eq := Obj.eq) g [] wg.1
        simpa using this
    · match inc with
      | none => rfl
      | some l =>
        have := setFold_distinct (eq := Node.eq) l [] wi.1
        refine unlessEmpty_of h.inc.1 ?_
        simpa using this.symm

/-! ### Resources that are not identified -/

/-- The node built so far. -/
def LObjState.asNode (s : LObjState) : Node :=
  .mk none none (unlessEmpty s.types) s.graph (unlessEmpty s.included) s.props (unlessEmpty s.rev)

theorem predicate_asNode {s : LObjState} {p : Id} {os : List Obj} :
    nodePredicate p os s.asNode = (s.predicate p os).asNode := by
  unfold LObjState.asNode
  rw [nodePredicate_mk]
  unfold LObjState.predicate propStep
  split
  · split <;> rfl
  · simp

theorem objVisit_node {v : LVisit} {s s' : LObjState} (h : objVisit E v s = .ok s') :
    nodeVisit E v s.asNode = .ok s'.asNode := by
  cases v with
  | predicate p os =>
    unfold objVisit at h
    unfold nodeVisit
    split at h
    · rename_i i
      split at h
      · cases h
      · rename_i t ht
        have ha : t.asNode = s.asNode := by
          split at ht
          · cases hs : serFirst E os none <;> rw [hs] at ht <;> cases ht
            rfl
          · split at ht
            · cases hs : serRest E os [] <;> rw [hs] at ht <;> cases ht
              rfl
            · cases ht
              rfl
        cases hs : serObjects E os with
        | error e => rw [hs] at h; cases h
        | ok os' =>
          rw [hs] at h
          cases h
          simp only [Except.map]
          rw [← ha, predicate_asNode]
    · cases h
  | reverse p os =>
    unfold objVisit at h
    unfold nodeVisit
    split at h
    · cases hs : serNodes E os with
      | error e => rw [hs] at h; cases h
      | ok os' =>
        rw [hs] at h
        cases h
        simp only [Except.map, LObjState.asNode, Node.setRev, unlessEmpty_getD,
          unlessEmpty_ne setProp_ne]
    · cases h
  | graph os =>
    rw [objVisit] at h
    rw [nodeVisit]
    cases hs : serObjects E os with
    | error e => rw [hs] at h; cases h
    | ok os' =>
      rw [hs] at h
      cases h
      rfl
  | included o =>
    rw [objVisit] at h
    rw [nodeVisit]
    cases hs : serNode E o with
    | error e => rw [hs] at h; cases h
    | ok os' =>
      rw [hs] at h
      cases h
      simp only [Except.map, LObjState.asNode, Node.insertIncluded, unlessEmpty_getD,
        unlessEmpty_ne setInsert_ne]

theorem objVisits_node {vs : List LVisit} {s s' : LObjState} (h : objVisits E vs s = .ok s') :
    nodeVisits E vs s.asNode = .ok s'.asNode := by
  induction vs generalizing s with
  | nil => cases h; rfl
  | cons v vs ih =>
    rw [objVisits] at h
    rw [nodeVisits]
    split at h
    · cases h
    · rename_i t ht
      rw [objVisit_node ht]
      exact ih h

end JsonLd
