import Verif.Proofs.LdWf
/-!
# What is in a serialized node
-/

namespace JsonLd
open Spec

variable {E : LdEnv}

theorem lookupProp_setProp {α : Type} {k k' : Id} {v : α} {l : List (Id × α)} :
    lookupProp k' (setProp k v l) = if k' = k then some v else lookupProp k' l := by
  induction l with
  | nil =>
    simp only [setProp, lookupProp]
    by_cases h : k' = k
    · simp [h]
    · rw [if_neg (fun e => h e.symm), if_neg h]
  | cons p l ih =>
    obtain ⟨q, w⟩ := p
    rw [setProp]
    by_cases hq : q = k
    · rw [if_pos hq, lookupProp, lookupProp]
      by_cases h : k' = k
      · rw [if_pos (by rw [hq, h]), if_pos h]
      · rw [if_neg (by rw [hq]; exact fun e => h e.symm), if_neg h,
          if_neg (by rw [hq]; exact fun e => h e.symm)]
    · rw [if_neg hq, lookupProp, lookupProp, ih]
      by_cases h : q = k'
      · rw [if_pos h, if_pos h, if_neg (by rw [← h]; exact hq)]
      · rw [if_neg h, if_neg h]

theorem intoType_ref {o : Obj} {t : Id} : intoType o = some t ↔ o = refTo t := by
  match o with
  | .value _ _ => simp [intoType, refTo]
  | .list _ _ => simp [intoType, refTo]
  | .node (.mk x id ty g inc ps rv) =>
    cases x <;> cases id <;> cases ty <;> cases g <;> cases inc <;> cases ps <;> cases rv <;>
      simp [intoType, refTo, Node.index, Node.isEmpty, Node.id]

theorem serObjects_mem {vs : List LD} {os : List Obj} (h : serObjects E vs = .ok os) {o : Obj} :
    o ∈ os ↔ ∃ v ∈ vs, serObject E v = .ok o := by
  induction vs generalizing os with
  | nil => cases h; simp
  | cons v vs ih =>
    rw [serObjects] at h
    split at h
    · cases h
    · rename_i o' ho'
      cases hs : serObjects E vs with
      | error e => rw [hs] at h; cases h
      | ok os' =>
        rw [hs] at h
        obtain rfl : o' :: os' = os := Except.ok.inj h
        simp only [List.mem_cons, ih hs, exists_eq_or_imp]
        rw [ho']
        simp only [Except.ok.injEq]
        exact or_congr_left eq_comm

/-- The effect of the visits on every entry. -/
structure Content (E : LdEnv) (vs : List LVisit) (n r : Node) : Prop where
  index : r.index = n.index
  id : r.id = n.id
  props : ∀ p, p ≠ rdfType → match lastObjects p vs with
    | none => lookupProp p r.props = lookupProp p n.props
    | some os => ∃ os', serObjects E os = .ok os' ∧ lookupProp p r.props = some os'
  types : ∀ t, t ∈ r.types.getD [] ↔ t ∈ n.types.getD [] ∨
    ∃ os, .predicate (some (.id rdfType)) os ∈ vs ∧ ∃ o ∈ os, serObject E o = .ok (refTo t)
  rev : ∀ p, match lastSubjects p vs with
    | none => lookupProp p (r.rev.getD []) = lookupProp p (n.rev.getD [])
    | some os => ∃ os', serNodes E os = .ok os' ∧ lookupProp p (r.rev.getD []) = some os'
  graph : match lastGraph vs with
    | none => r.graph = n.graph
    | some os => ∃ os', serObjects E os = .ok os' ∧ r.graph = some (setCollect Obj.eq os')
  inc : ∀ m, m ∈ r.included.getD [] → m ∈ n.included.getD [] ∨
    ∃ o, .included o ∈ vs ∧ serNode E o = .ok m
  keep : ∀ m ∈ n.included.getD [], m ∈ r.included.getD []
  inc' : ∀ m o, .included o ∈ vs → serNode E o = .ok m →
    ∃ m' ∈ r.included.getD [], m' = m ∨ m.eq m' = true

theorem pushTypes_fields {n : Node} (l : List Id) :
    let r := l.foldl (fun n t => Node.pushType t n) n
    r.index = n.index ∧ r.id = n.id ∧ r.types.getD [] = n.types.getD [] ++ l ∧ r.graph = n.graph ∧
    r.included = n.included ∧ r.props = n.props ∧ r.rev = n.rev := by
  induction l generalizing n with
  | nil => simp
  | cons t l ih =>
    obtain ⟨h1, h2, h3, h4, h5, h6, h7⟩ := ih (n := n.pushType t)
    cases n
    refine ⟨h1, h2, ?_, h4, h5, h6, h7⟩
    rw [List.foldl_cons, h3]
    simp [Node.pushType, Node.types]

theorem nodePredicate_fields {n : Node} {p : Id} {os : List Obj} :
    let r := nodePredicate p os n
    r.index = n.index ∧ r.id = n.id ∧
    r.types.getD [] = n.types.getD [] ++ (if p = rdfType then typeObjs os else []) ∧
    r.graph = n.graph ∧ r.included = n.included ∧
    (∀ q, q ≠ rdfType → lookupProp q r.props = if q = p then some os else lookupProp q n.props) ∧
    r.rev = n.rev := by
  have setp : ∀ (n : Node) (l : List (Id × List Obj)), (n.setProps l).index = n.index ∧
      (n.setProps l).id = n.id ∧ (n.setProps l).types = n.types ∧ (n.setProps l).graph = n.graph ∧
      (n.setProps l).included = n.included ∧ (n.setProps l).props = l ∧ (n.setProps l).rev = n.rev := by
    intro n l
    cases n
    exact ⟨rfl, rfl, rfl, rfl, rfl, rfl, rfl⟩
  unfold nodePredicate
  by_cases hp : p = rdfType
  · subst hp
    simp only [if_true]
    obtain ⟨h1, h2, h3, h4, h5, h6, h7⟩ := pushTypes_fields (n := n) (typeObjs os)
    split
    · refine ⟨h1, h2, h3, h4, h5, fun q hq => ?_, h7⟩
      rw [if_neg hq, h6]
    · obtain ⟨s1, s2, s3, s4, s5, s6, s7⟩ := setp (List.foldl (fun n t => Node.pushType t n) n (typeObjs os))
        (setProp rdfType (nonTypeObjs os) (List.foldl (fun n t => Node.pushType t n) n (typeObjs os)).props)
      refine ⟨s1.trans h1, s2.trans h2, by rw [s3]; exact h3, s4.trans h4, s5.trans h5, fun q hq => ?_,
        s7.trans h7⟩
      rw [s6, lookupProp_setProp, if_neg hq, if_neg hq, h6]
  · rw [if_neg hp]
    obtain ⟨s1, s2, s3, s4, s5, s6, s7⟩ := setp n (setProp p os n.props)
    refine ⟨s1, s2, by rw [s3, if_neg hp]; simp, s4, s5, fun q hq => ?_, s7⟩
    rw [s6, lookupProp_setProp]

theorem content_refl (n : Node) : Content E [] n n where
  index := rfl
  id := rfl
  props := fun _ _ => rfl
  types := by simp
  rev := fun _ => rfl
  graph := rfl
  inc := fun m h => .inl h
  keep := fun _ h => h
  inc' := fun _ _ h => nomatch h

theorem visit_content {v : LVisit} {n r : Node} (h : nodeVisit E v n = .ok r) : Content E [v] n r := by
  cases v with
  | predicate p os =>
    unfold nodeVisit at h
    split at h
    · rename_i i
      cases hs : serObjects E os with
      | error e => rw [hs] at h; cases h
      | ok os' =>
        rw [hs] at h
        obtain rfl : _ = r := Except.ok.inj h
        obtain ⟨h1, h2, h3, h4, h5, h6, h7⟩ := nodePredicate_fields (n := n) (p := i) (os := os')
        refine ⟨h1, h2, fun q hq => ?_, fun t => ?_, fun q => ?_, ?_, fun m hm => ?_, fun m hm => ?_,
          fun m o hm => nomatch List.mem_singleton.1 hm⟩
        · simp only [lastObjects]
          rw [h6 q hq]
          by_cases hi : i = q
          · rw [if_pos hi]
            exact ⟨os', hs, by rw [if_pos hi.symm]⟩
          · rw [if_neg hi]
            dsimp only
            rw [if_neg (fun e => hi e.symm)]
        · rw [h3, List.mem_append]
          refine or_congr_right ?_
          by_cases hi : i = rdfType
          · rw [if_pos hi]
            unfold typeObjs
            rw [List.mem_filterMap]
            constructor
            · rintro ⟨o, ho, ht⟩
              obtain ⟨v, hv, hvo⟩ := (serObjects_mem hs).1 ho
              exact ⟨os, by rw [hi]; exact List.mem_cons_self, v, hv, by rw [hvo, intoType_ref.1 ht]⟩
            · rintro ⟨os2, hm, o, ho, hr⟩
              rw [List.mem_singleton] at hm
              injection hm with _ hm
              subst hm
              exact ⟨_, (serObjects_mem hs).2 ⟨o, ho, hr⟩, intoType_ref.2 rfl⟩
          · rw [if_neg hi]
            simp only [List.not_mem_nil, false_iff]
            rintro ⟨os2, hm, -⟩
            rw [List.mem_singleton] at hm
            injection hm with hm
            injection hm with hm
            injection hm with hm
            exact hi hm.symm
        · simp only [lastSubjects]
          rw [h7]
        · simp only [lastGraph]
          exact h4
        · rw [h5] at hm
          exact .inl hm
        · rw [h5]
          exact hm
    · cases h
  | reverse p os =>
    unfold nodeVisit at h
    split at h
    · rename_i i
      cases hs : serNodes E os with
      | error e => rw [hs] at h; cases h
      | ok os' =>
        rw [hs] at h
        obtain rfl : _ = r := Except.ok.inj h
        cases n with
        | mk x id ty g inc ps rv =>
          refine ⟨rfl, rfl, fun q hq => rfl, fun t => ?_, fun q => ?_, rfl, fun m hm => .inl hm,
            fun m hm => hm, fun m o hm => nomatch List.mem_singleton.1 hm⟩
          · simp [Node.setRev, Node.types]
          · simp only [lastSubjects, Node.setRev, Node.rev, Option.getD_some]
            rw [lookupProp_setProp]
            by_cases hi : i = q
            · rw [if_pos hi]
              exact ⟨os', hs, by rw [if_pos hi.symm]⟩
            · rw [if_neg hi]
              dsimp only
              rw [if_neg (fun e => hi e.symm)]
    · cases h
  | graph os =>
    rw [nodeVisit] at h
    cases hs : serObjects E os with
    | error e => rw [hs] at h; cases h
    | ok os' =>
      rw [hs] at h
      obtain rfl : _ = r := Except.ok.inj h
      cases n with
      | mk x id ty g inc ps rv =>
        refine ⟨rfl, rfl, fun q hq => rfl, fun t => ?_, fun q => rfl, ⟨os', hs, rfl⟩, fun m hm => .inl hm,
          fun m hm => hm, fun m o hm => nomatch List.mem_singleton.1 hm⟩
        simp [Node.setGraphEntry, Node.types]
  | included o =>
    rw [nodeVisit] at h
    cases hs : serNode E o with
    | error e => rw [hs] at h; cases h
    | ok m =>
      rw [hs] at h
      obtain rfl : _ = r := Except.ok.inj h
      cases n with
      | mk x id ty g inc ps rv =>
        refine ⟨rfl, rfl, fun q hq => rfl, fun t => ?_, fun q => rfl, rfl, fun m' hm => ?_, ?_, ?_⟩
        · simp [Node.insertIncluded, Node.types]
        · simp only [Node.insertIncluded, Node.included, Option.getD_some] at hm ⊢
          rcases mem_setInsert hm with hm | rfl
          · exact .inl hm
          · exact .inr ⟨o, List.mem_cons_self, hs⟩
        · intro m' hm
          simp only [Node.insertIncluded, Node.included, Option.getD_some] at hm ⊢
          unfold setInsert
          split
          · exact hm
          · exact List.mem_append_left _ hm
        · intro m' o' ho' hm
          simp only [Node.insertIncluded, Node.included, Option.getD_some]
          rw [List.mem_singleton] at ho'
          injection ho' with ho'
          subst ho'
          rw [hs] at hm
          obtain rfl : m = m' := Except.ok.inj hm
          unfold setInsert
          split
          · rename_i hany
            obtain ⟨m2, h2, he⟩ := List.any_eq_true.1 hany
            exact ⟨m2, h2, .inr he⟩
          · exact ⟨m, by simp, .inl rfl⟩

theorem Content.trans {v : LVisit} {vs : List LVisit} {n m r : Node} (h1 : Content E [v] n m)
    (h2 : Content E vs m r) : Content E (v :: vs) n r where
  index := h2.index.trans h1.index
  id := h2.id.trans h1.id
  props := by
    intro p hp
    have a := h1.props p hp
    have b := h2.props p hp
    cases hl : lastObjects p vs with
    | some os =>
      rw [hl] at b
      simp only [lastObjects, hl]
      exact b
    | none =>
      rw [hl] at b
      simp only at b
      rw [b]
      have e : lastObjects p (v :: vs) = lastObjects p [v] := by
        simp only [lastObjects, hl]
      rw [e]
      exact a
  types := by
    intro t
    rw [h2.types t, h1.types t]
    constructor
    · rintro ((h | ⟨os, hm, h⟩) | ⟨os, hm, h⟩)
      · exact .inl h
      · exact .inr ⟨os, by rw [List.mem_singleton.1 hm]; exact List.mem_cons_self, h⟩
      · exact .inr ⟨os, List.mem_cons_of_mem _ hm, h⟩
    · rintro (h | ⟨os, hm, h⟩)
      · exact .inl (.inl h)
      · rcases List.mem_cons.1 hm with hm | hm
        · exact .inl (.inr ⟨os, by rw [hm]; exact List.mem_cons_self, h⟩)
        · exact .inr ⟨os, hm, h⟩
  rev := by
    intro p
    have a := h1.rev p
    have b := h2.rev p
    cases hl : lastSubjects p vs with
    | some os =>
      rw [hl] at b
      simp only [lastSubjects, hl]
      exact b
    | none =>
      rw [hl] at b
      simp only at b
      rw [b]
      have e : lastSubjects p (v :: vs) = lastSubjects p [v] := by
        simp only [lastSubjects, hl]
      rw [e]
      exact a
  graph := by
    have a := h1.graph
    have b := h2.graph
    cases hl : lastGraph vs with
    | some os =>
      rw [hl] at b
      simp only [lastGraph, hl]
      exact b
    | none =>
      rw [hl] at b
      simp only at b
      rw [b]
      have e : lastGraph (v :: vs) = lastGraph [v] := by
        simp only [lastGraph, hl]
      rw [e]
      exact a
  inc := by
    intro m' hm
    rcases h2.inc m' hm with hm | ⟨o, ho, hm⟩
    · rcases h1.inc m' hm with hm | ⟨o, ho, hm⟩
      · exact .inl hm
      · rw [List.mem_singleton] at ho
        exact .inr ⟨o, by rw [ho]; exact List.mem_cons_self, hm⟩
    · exact .inr ⟨o, List.mem_cons_of_mem _ ho, hm⟩
  keep := fun m hm => h2.keep m (h1.keep m hm)
  inc' := by
    intro x o ho hx
    rcases List.mem_cons.1 ho with ho | ho
    · obtain ⟨m', hm', he⟩ := h1.inc' x o (by rw [ho]; exact List.mem_cons_self) hx
      exact ⟨m', h2.keep m' hm', he⟩
    · exact h2.inc' x o ho hx

theorem visits_content {vs : List LVisit} {n r : Node} (h : nodeVisits E vs n = .ok r) :
    Content E vs n r := by
  induction vs generalizing n with
  | nil => obtain rfl : n = r := Except.ok.inj h; exact content_refl n
  | cons v vs ih =>
    rw [nodeVisits] at h
    split at h
    · cases h
    · rename_i m hm
      exact (visit_content hm).trans (ih h)

theorem lookupProp_insertAll_ne {α : Type} {k q : Id} {vs : List α} (h : q ≠ k) (l : List (Id × List α)) :
    lookupProp q (insertAll k vs l) = lookupProp q l := by
  induction l with
  | nil => simp only [insertAll, lookupProp]; rw [if_neg (Ne.symm h)]
  | cons p l ih =>
    rw [insertAll]
    split
    · rename_i hk
      rw [lookupProp, lookupProp, if_neg (by rw [hk]; exact fun e => h e.symm),
        if_neg (by rw [hk]; exact fun e => h e.symm)]
    · rw [lookupProp, lookupProp, ih]

theorem ext_other {s : LObjState} {q : Id} (h1 : q ≠ rdfFirst) (h2 : q ≠ rdfRest) :
    lookupProp q s.ext = lookupProp q s.props := by
  unfold LObjState.ext
  cases s.first <;> cases s.rest <;> simp only [lookupProp_insertAll_ne h1, lookupProp_insertAll_ne h2]

theorem visits_included {vs : List LVisit} {o : LD} {e : LdErr} (ho : .included o ∈ vs)
    (he : serNode E o = .error e) (n : Node) : ∃ e', nodeVisits E vs n = .error e' := by
  induction vs generalizing n with
  | nil => cases ho
  | cons v vs ih =>
    rw [nodeVisits]
    rcases List.mem_cons.1 ho with rfl | ho
    · rw [nodeVisit, he]
      exact ⟨e, rfl⟩
    · cases nodeVisit E v n with
      | error e' => exact ⟨e', rfl⟩
      | ok n' => exact ih ho n'

end JsonLd
