import Verif.Proofs.LinkedDataBack
/-!
# Documents that survive as linked data: documents
-/

namespace JsonLd
open Spec

variable {E : LdEnv}

/-! ### First and rest -/

theorem objVisits_append_ok {a b : List LVisit} {n r : LObjState} :
    objVisits E (a ++ b) n = .ok r ↔ ∃ m, objVisits E a n = .ok m ∧ objVisits E b m = .ok r := by
  induction a generalizing n with
  | nil => simp [objVisits]
  | cons v a ih =>
    rw [List.cons_append, objVisits, objVisits]
    cases objVisit E v n with
    | error e => simp
    | ok m => exact ih

theorem predicate_first {s : LObjState} {p : Id} {os : List Obj} :
    (s.predicate p os).first = s.first ∧ (s.predicate p os).rest = s.rest := by
  unfold LObjState.predicate
  split
  · split <;> exact ⟨rfl, rfl⟩
  · exact ⟨rfl, rfl⟩

/-- What a visit does with `first` and `rest`. -/
theorem objVisit_first {v : LVisit} {s s' : LObjState} (h : objVisit E v s = .ok s') :
    ((∃ os, v = .predicate (some (.id rdfFirst)) os ∧ serFirst E os none = .ok s'.first) ∨
      (∀ os, v ≠ .predicate (some (.id rdfFirst)) os) ∧ s'.first = s.first) ∧
    ((∃ os, v = .predicate (some (.id rdfRest)) os ∧ s'.rest.isSome) ∨
      (∀ os, v ≠ .predicate (some (.id rdfRest)) os) ∧ s'.rest = s.rest) := by
  cases v with
  | predicate p os =>
    unfold objVisit at h
    split at h
    · rename_i i
      split at h
      · cases h
      · rename_i t ht
        cases hs : serObjects E os with
        | error e => rw [hs] at h; cases h
        | ok os' =>
          rw [hs] at h
          obtain rfl : _ = s' := Except.ok.inj h
          rw [predicate_first.1, predicate_first.2]
          split at ht
          · rename_i hi
            subst hi
            cases hs : serFirst E os none with
            | error e => rw [hs] at ht; cases ht
            | ok f =>
              rw [hs] at ht
              obtain rfl : _ = t := Except.ok.inj ht
              exact ⟨.inl ⟨os, rfl, hs⟩, .inr ⟨fun os h => by
                injection h with h
                injection h with h
                injection h with h
                exact absurd h (by decide), rfl⟩⟩
          · rename_i hi
            split at ht
            · rename_i hr
              subst hr
              cases hs : serRest E os [] with
              | error e => rw [hs] at ht; cases ht
              | ok f =>
                rw [hs] at ht
                obtain rfl : _ = t := Except.ok.inj ht
                exact ⟨.inr ⟨fun os h => by
                  injection h with h
                  injection h with h
                  injection h with h
                  exact absurd h (by decide), rfl⟩, .inl ⟨os, rfl, rfl⟩⟩
            · rename_i hr
              obtain rfl : s = t := Except.ok.inj ht
              exact ⟨.inr ⟨fun os h => by
                  injection h with h
                  injection h with h
                  injection h with h
                  exact hi h, rfl⟩, .inr ⟨fun os h => by
                  injection h with h
                  injection h with h
                  injection h with h
                  exact hr h, rfl⟩⟩
    · cases h
  | reverse p os =>
    unfold objVisit at h
    split at h
    · cases hs : serNodes E os with
      | error e => rw [hs] at h; cases h
      | ok os' =>
        rw [hs] at h
        obtain rfl : _ = s' := Except.ok.inj h
        exact ⟨.inr ⟨by nofun, rfl⟩, .inr ⟨by nofun, rfl⟩⟩
    · cases h
  | graph os =>
    rw [objVisit] at h
    cases hs : serObjects E os with
    | error e => rw [hs] at h; cases h
    | ok os' =>
      rw [hs] at h
      obtain rfl : _ = s' := Except.ok.inj h
      exact ⟨.inr ⟨by nofun, rfl⟩, .inr ⟨by nofun, rfl⟩⟩
  | included o =>
    rw [objVisit] at h
    cases hs : serNode E o with
    | error e => rw [hs] at h; cases h
    | ok os' =>
      rw [hs] at h
      obtain rfl : _ = s' := Except.ok.inj h
      exact ⟨.inr ⟨by nofun, rfl⟩, .inr ⟨by nofun, rfl⟩⟩

theorem objVisits_keep {vs : List LVisit} {s s' : LObjState} (h : objVisits E vs s = .ok s')
    (hv : ∀ os, .predicate (some (.id rdfFirst)) os ∉ vs) : s'.first = s.first := by
  induction vs generalizing s with
  | nil => cases h; rfl
  | cons v vs ih =>
    rw [objVisits] at h
    split at h
    · cases h
    · rename_i t ht
      rw [ih h fun os hm => hv os (List.mem_cons_of_mem _ hm)]
      rcases (objVisit_first ht).1 with ⟨os, rfl, -⟩ | ⟨-, h⟩
      · exact absurd List.mem_cons_self (hv os)
      · exact h

theorem objVisits_rest {vs : List LVisit} {s s' : LObjState} (h : objVisits E vs s = .ok s') :
    s'.rest = none ↔ s.rest = none ∧ ∀ os, .predicate (some (.id rdfRest)) os ∉ vs := by
  induction vs generalizing s with
  | nil => cases h; simp
  | cons v vs ih =>
    rw [objVisits] at h
    split at h
    · cases h
    · rename_i t ht
      rw [ih h]
      rcases (objVisit_first ht).2 with ⟨os, rfl, hs⟩ | ⟨hn, hs⟩
      · constructor
        · rintro ⟨h, -⟩
          rw [h] at hs
          cases hs
        · rintro ⟨-, h⟩
          exact absurd List.mem_cons_self (h os)
      · rw [hs]
        refine and_congr_right fun _ => forall_congr' fun os => ?_
        simp only [List.mem_cons, not_or]
        exact ⟨fun h => ⟨fun e => hn os e.symm, h⟩, fun h => h.2⟩

theorem objVisits_none {vs : List LVisit} {s s' : LObjState} (h : objVisits E vs s = .ok s')
    (hs : s.first = none) (hv : ∀ os, .predicate (some (.id rdfFirst)) os ∈ vs → os = []) :
    s'.first = none := by
  induction vs generalizing s with
  | nil => cases h; exact hs
  | cons v vs ih =>
    rw [objVisits] at h
    split at h
    · cases h
    · rename_i t ht
      refine ih h ?_ fun os hm => hv os (List.mem_cons_of_mem _ hm)
      rcases (objVisit_first ht).1 with ⟨os, rfl, hf⟩ | ⟨-, hf⟩
      · rw [hv os List.mem_cons_self] at hf
        exact (Except.ok.inj hf).symm
      · rw [hf, hs]

theorem serFirst_some {vs : List LD} {f : Option Obj} {r : Option Obj} (hv : vs ≠ [] ∨ f.isSome)
    (h : serFirst E vs f = .ok r) : r.isSome := by
  induction vs generalizing f with
  | nil =>
    cases h
    simpa using hv
  | cons v vs ih =>
    rw [serFirst] at h
    split at h
    · cases h
    · exact ih (.inr rfl) h

theorem propsLD_append (a b : List (Id × List Obj)) :
    propsLD E (a ++ b) = propsLD E a ++ propsLD E b := by
  induction a with
  | nil => rfl
  | cons p a ih =>
    obtain ⟨p, os⟩ := p
    rw [List.cons_append, propsLD, propsLD, ih]
    split <;> rfl

theorem mem_propsLD {t : Option LTerm} {os' : List LD} {ps : List (Id × List Obj)} :
    .predicate t os' ∈ propsLD E ps ↔
      ∃ p os, (p, os) ∈ ps ∧ p.isValid = true ∧ t = some (.id p) ∧ os' = objsLD E os := by
  induction ps with
  | nil => simp [propsLD]
  | cons q ps ih =>
    obtain ⟨q, qs⟩ := q
    by_cases hq : q.isValid = true
    · rw [propsLD, Id.ldTerm_valid hq]
      simp only [List.mem_cons, ih, LVisit.predicate.injEq, Prod.mk.injEq]
      constructor
      · rintro (⟨rfl, rfl⟩ | ⟨p, os, hm, h⟩)
        · exact ⟨q, qs, .inl ⟨rfl, rfl⟩, hq, rfl, rfl⟩
        · exact ⟨p, os, .inr hm, h⟩
      · rintro ⟨p, os, ⟨rfl, rfl⟩ | hm, h⟩
        · exact .inl h.2
        · exact .inr ⟨p, os, hm, h⟩
    · rw [propsLD, Id.ldTerm_invalid hq]
      simp only [List.mem_cons, ih, Prod.mk.injEq]
      constructor
      · rintro ⟨p, os, hm, h⟩
        exact ⟨p, os, .inr hm, h⟩
      · rintro ⟨p, os, ⟨rfl, rfl⟩ | hm, h⟩
        · exact absurd h.1 hq
        · exact ⟨p, os, hm, h⟩

/-- No predicate in the rest of what is told. -/
theorem not_mem_revs {t : Option LTerm} {os' : List LD} (rv : List (Id × List Node)) :
    .predicate t os' ∉ revsLD E rv := by
  induction rv with
  | nil => simp [revsLD]
  | cons q ps ih =>
    obtain ⟨q, qs⟩ := q
    rw [revsLD]
    split
    · simp [ih]
    · exact ih

theorem not_mem_includes {t : Option LTerm} {os' : List LD} (rv : List Node) :
    .predicate t os' ∉ includesLD E rv := by
  induction rv with
  | nil => simp [includesLD]
  | cons q ps ih =>
    rw [includesLD]
    simp [ih]

theorem not_mem_graph {t : Option LTerm} {os' : List LD} (b : Bool) (g : Option (List Obj)) :
    .predicate t os' ∉ graphLD E b g := by
  cases b <;> cases g <;> simp [graphLD]

theorem mem_typesVisit {t : Option LTerm} {os' : List LD} {ty : Option (List Id)}
    (h : .predicate t os' ∈ typesVisit ty) : t = some (.id rdfType) := by
  match ty with
  | none => cases h
  | some [] => cases h
  | some (_ :: _) =>
    rw [typesVisit, List.mem_singleton] at h
    · cases h
      rfl
    · nofun

theorem mem_told {p : Id} {os' : List LD} {n : Node} (hp : p ≠ rdfType) :
    .predicate (some (.id p)) os' ∈ n.told E ↔
      p.isValid = true ∧ ∃ os, (p, os) ∈ n.props ∧ os' = objsLD E os := by
  cases n with
  | mk x id ty g inc ps rv =>
    rw [Node.told, revLD_eq, includedLD_eq]
    simp only [List.mem_append, not_mem_revs, not_mem_includes, not_mem_graph, or_false, mem_propsLD]
    constructor
    · rintro (h | ⟨q, os, hm, hv, ht, ho⟩)
      · have := mem_typesVisit h
        injection this with this
        injection this with this
        exact absurd this hp
      · injection ht with ht
        injection ht with ht
        subst ht
        exact ⟨hv, os, hm, ho⟩
    · rintro ⟨hv, os, hm, ho⟩
      exact .inr ⟨p, os, hm, hv, rfl, ho⟩

theorem objsLD_nil {os : List Obj} : objsLD E os = [] ↔ os = [] := by
  rw [objsLD_eq, List.map_eq_nil_iff]

/-- `first` is set by a value of `rdf:first`. -/
theorem told_first {x : Option Str} {id : Option Id} {ty : Option (List Id)} {g : Option (List Obj)}
    {inc : Option (List Node)} {ps : List (Id × List Obj)} {rv : Option (List (Id × List Node))}
    (hk : (ps.map Prod.fst).Nodup) {s : LObjState}
    (h : objVisits E ((Node.mk x id ty g inc ps rv).told E) {} = .ok s) (hs : s.first = none)
    {os : List Obj} (hm : (rdfFirst, os) ∈ ps) : os = [] := by
  obtain ⟨a, b, rfl⟩ := List.append_of_mem hm
  by_contra hne
  rw [Node.told, revLD_eq, includedLD_eq, propsLD_append, propsLD, Id.ldTerm_valid (by decide)] at h
  obtain ⟨m4, h, hi⟩ := objVisits_append_ok.1 h
  obtain ⟨m3, h, hg⟩ := objVisits_append_ok.1 h
  obtain ⟨m2, h, hr⟩ := objVisits_append_ok.1 h
  obtain ⟨m1, h, hp⟩ := objVisits_append_ok.1 h
  obtain ⟨m0, hp, hc⟩ := objVisits_append_ok.1 hp
  rw [objVisits] at hc
  split at hc
  · cases hc
  · rename_i t ht
    have hb : ∀ os, .predicate (some (.id rdfFirst)) os ∉ propsLD E b := by
      intro os' hm'
      obtain ⟨p, os, hm', -, hp, -⟩ := mem_propsLD.1 hm'
      injection hp with hp
      injection hp with hp
      subst hp
      simp only [List.map_append, List.map_cons] at hk
      have := (List.nodup_cons.1 (List.nodup_append.1 hk).2.1).1
      exact this (List.mem_map.2 ⟨_, hm', rfl⟩)
    have e1 := objVisits_keep hc hb
    have e2 := objVisits_keep hr fun os => not_mem_revs _
    have e3 := objVisits_keep hg fun os => not_mem_graph _ _
    have e4 := objVisits_keep hi fun os => not_mem_includes _
    rcases (objVisit_first ht).1 with ⟨os', he, hf⟩ | ⟨hn, -⟩
    · injection he with _ he
      subst he
      have := serFirst_some (.inl fun h => hne (objsLD_nil.1 h)) hf
      rw [← e1, ← e2, ← e3, ← e4, hs] at this
      cases this
    · exact hn _ rfl

/-! ### Appending to `rdf:first` and `rdf:rest` -/

/-- How many objects a property has. -/
def total (p : Id) (ps : List (Id × List Obj)) : Nat :=
  (ps.map fun q => if q.1 = p then q.2.length else 0).sum

theorem total_insert {p q : Id} {v : Obj} (ps : List (Id × List Obj)) :
    total p (insertAll q [v] ps) = total p ps + if q = p then 1 else 0 := by
  induction ps with
  | nil => simp [total, insertAll]
  | cons r ps ih =>
    obtain ⟨r, rs⟩ := r
    rw [insertAll]
    split
    · rename_i h
      subst h
      simp only [total, List.map_cons, List.sum_cons]
      split
      · simp only [List.length_append, List.length_singleton]
        omega
      · rfl
    · simp only [total, List.map_cons, List.sum_cons] at ih ⊢
      rw [ih]
      omega

theorem total_back {p : Id} (hv : p.isValid = true) (ht : p ≠ rdfType) (ps : List (Id × List Obj)) :
    total p (ps.filterMap (gP E)) = total p ps := by
  induction ps with
  | nil => rfl
  | cons q ps ih =>
    unfold total at ih ⊢
    by_cases hq : q.1 = p
    · rw [List.filterMap_cons_some (f := gP E) (b := (q.1, q.2.map (bO E)))]
      · simp only [List.map_cons, List.sum_cons, ih, List.length_map]
      · rw [gP, hq, if_pos hv, if_neg ht]
    · cases hg : gP E q with
      | none =>
        rw [List.filterMap_cons_none hg, ih, List.map_cons, List.sum_cons, if_neg hq, Nat.zero_add]
      | some r =>
        have hr : r.1 = q.1 := by
          unfold gP at hg
          split at hg
          · split at hg
            · split at hg
              · cases hg
              · rw [← Option.some.inj hg]
            · rw [← Option.some.inj hg]
          · cases hg
        rw [List.filterMap_cons_some hg, List.map_cons, List.map_cons, List.sum_cons, List.sum_cons, ih,
          if_neg hq, if_neg (by rw [hr]; exact hq)]

/-- The properties at the end. -/
def LObjState.ext (s : LObjState) : List (Id × List Obj) :=
  let ps := match s.first with
    | some f => insertAll rdfFirst [f] s.props
    | none => s.props
  match s.rest with
  | some r => insertAll rdfRest [.list none r] ps
  | none => ps

theorem total_ext {s : LObjState} :
    total rdfFirst s.ext = total rdfFirst s.props + (if s.first.isSome then 1 else 0) ∧
    total rdfRest s.ext = total rdfRest s.props + (if s.rest.isSome then 1 else 0) := by
  have h1 : ¬ rdfFirst = rdfRest := by decide
  have h2 : ¬ rdfRest = rdfFirst := by decide
  unfold LObjState.ext
  cases s.first <;> cases s.rest <;> simp [total_insert, h1, h2]

/-- Keys are in the properties as soon as `first` or `rest` is set. -/
def LObjState.Inv (s : LObjState) : Prop := (s.first.isSome ∨ s.rest.isSome) → s.props ≠ []

theorem predicate_props {s : LObjState} {p : Id} {os : List Obj} (h : p ≠ rdfType ∨ s.props ≠ []) :
    (s.predicate p os).props ≠ [] := by
  unfold LObjState.predicate
  split
  · rename_i hp
    split
    · exact h.resolve_left (fun hn => hn hp)
    · exact setProp_ne
  · exact setProp_ne

theorem objVisit_inv {v : LVisit} {s s' : LObjState} (hi : s.Inv) (h : objVisit E v s = .ok s') :
    s'.Inv := by
  intro hs
  obtain ⟨h1, h2⟩ := objVisit_first h
  by_cases hp : s.props = []
  · have hn : ¬ (s.first.isSome ∨ s.rest.isSome) := fun h => hi h hp
    simp only [not_or, Bool.not_eq_true, Option.isSome_eq_false_iff, Option.isNone_iff_eq_none] at hn
    have : (∃ os, v = .predicate (some (.id rdfFirst)) os) ∨
        ∃ os, v = .predicate (some (.id rdfRest)) os := by
      rcases hs with hs | hs
      · rcases h1 with ⟨os, hv, -⟩ | ⟨-, h1⟩
        · exact .inl ⟨os, hv⟩
        · rw [h1, hn.1] at hs
          cases hs
      · rcases h2 with ⟨os, hv, -⟩ | ⟨-, h2⟩
        · exact .inr ⟨os, hv⟩
        · rw [h2, hn.2] at hs
          cases hs
    have key : ∀ i os, i ≠ rdfType → v = .predicate (some (.id i)) os → s'.props ≠ [] := by
      rintro i os hi rfl
      rw [objVisit] at h
      · split at h
        · cases h
        · cases hs : serObjects E os with
          | error e => rw [hs] at h; cases h
          | ok os' =>
            rw [hs] at h
            obtain rfl : _ = s' := Except.ok.inj h
            exact predicate_props (.inl hi)
    rcases this with ⟨os, rfl⟩ | ⟨os, rfl⟩
    · exact key _ _ (by decide) rfl
    · exact key _ _ (by decide) rfl
  · cases v with
    | predicate p os =>
      unfold objVisit at h
      split at h
      · split at h
        · cases h
        · rename_i t ht
          cases hs : serObjects E os with
          | error e => rw [hs] at h; cases h
          | ok os' =>
            rw [hs] at h
            obtain rfl : _ = s' := Except.ok.inj h
            refine predicate_props (.inr ?_)
            split at ht
            · cases hs : serFirst E os none <;> rw [hs] at ht <;> cases ht
              exact hp
            · split at ht
              · cases hs : serRest E os [] <;> rw [hs] at ht <;> cases ht
                exact hp
              · cases ht
                exact hp
      · cases h
    | reverse p os =>
      unfold objVisit at h
      split at h
      · cases hs : serNodes E os <;> rw [hs] at h <;> cases h
        exact hp
      · cases h
    | graph os =>
      rw [objVisit] at h
      cases hs : serObjects E os <;> rw [hs] at h <;> cases h
      exact hp
    | included o =>
      rw [objVisit] at h
      cases hs : serNode E o <;> rw [hs] at h <;> cases h
      exact hp

theorem objVisits_inv {vs : List LVisit} {s s' : LObjState} (hi : s.Inv)
    (h : objVisits E vs s = .ok s') : s'.Inv := by
  induction vs generalizing s with
  | nil => cases h; exact hi
  | cons v vs ih =>
    rw [objVisits] at h
    split at h
    · cases h
    · rename_i t ht
      exact ih (objVisit_inv hi ht) h

theorem inv_start : LObjState.Inv {} := by
  rintro (h | h) <;> cases h

/-- No list. -/
theorem finish_eq {s : LObjState} (hi : s.Inv) : s.finish =
    .node (.mk none none (unlessEmpty s.types) s.graph (unlessEmpty s.included) s.ext (unlessEmpty s.rev)) := by
  unfold LObjState.finish LObjState.ext
  cases hf : s.first with
  | none => cases hr : s.rest <;> rfl
  | some f =>
    have : s.props.isEmpty = false := by
      have := hi (.inl (by rw [hf]; rfl))
      cases hp : s.props with
      | nil => exact absurd hp this
      | cons _ _ => rfl
    cases hr : s.rest with
    | none => rfl
    | some r =>
      dsimp only
      rw [if_neg]
      simp [this]

/-! ### Objects and nodes -/

theorem objVisits_of_node {vs : List LVisit} {n r : Node} (h : nodeVisits E vs n = .ok r)
    (hr : ∀ os, .predicate (some (.id rdfRest)) os ∉ vs) : ∃ s, objVisits E vs {} = .ok s := by
  cases ho : objVisits E vs {} with
  | ok s => exact ⟨s, rfl⟩
  | error e =>
    obtain ⟨v, hv, s, hs⟩ := objVisits_error ho
    rcases (objVisit_fault fun o _ => faults o).1 s e hs with hf | ⟨os, rfl, -⟩
    · obtain ⟨e', he⟩ := nodeVisits_failed hv ((nodeVisit_fault (E := E) fun o _ => faults o).2 e hf) n
      rw [h] at he
      cases he
    · exact absurd hv (hr os)

theorem start_asNode : (LObjState.asNode {}) = startNode none := rfl

/-- An object without identifier comes back. -/
theorem anon_iff {x : Option Str} {ty : Option (List Id)} {g : Option (List Obj)}
    {inc : Option (List Node)} {ps : List (Id × List Obj)} {rv : Option (List (Id × List Node))}
    (hw : (Node.mk x none ty g inc ps rv).WF) :
    serObject E ((Node.mk x none ty g inc ps rv).toLD E) = .ok (.node (.mk x none ty g inc ps rv)) ↔
      (nodeVisits E ((Node.mk x none ty g inc ps rv).told E) (startNode none) =
        .ok (.mk x none ty g inc ps rv) ∧ (∀ os, (rdfFirst, os) ∈ ps → os = []) ∧
        ∀ os, (rdfRest, os) ∉ ps) := by
  have hf : rdfFirst ≠ rdfType := by decide
  have hr : rdfRest ≠ rdfType := by decide
  rw [Node.toLD_eq, Node.id, Option.bind_none, serObject]
  constructor
  · intro h
    cases hs : objVisits E ((Node.mk x none ty g inc ps rv).told E) {} with
    | error e => rw [hs] at h; cases h
    | ok s =>
      rw [hs] at h
      have h : s.finish = _ := Except.ok.inj h
      have hn := objVisits_node hs
      rw [start_asNode, told_ok (told_good hn)] at hn
      have hn := Except.ok.inj hn
      rw [finish_eq (objVisits_inv inv_start hs)] at h
      have h := Obj.node.inj h
      unfold LObjState.asNode back at hn
      injection hn with n1 n2 n3 n4 n5 n6 n7
      injection h with h1 h2 h3 h4 h5 h6 h7
      rw [pProps_eq ps [] hw.2.2.1, List.nil_append] at n6
      have t1 := total_ext (s := s)
      rw [h6, ← n6, total_back (by decide) (by decide), total_back (by decide) (by decide)] at t1
      have f0 : s.first = none := by
        cases hc : s.first with
        | none => rfl
        | some f => rw [hc] at t1; simp at t1
      have r0 : s.rest = none := by
        cases hc : s.rest with
        | none => rfl
        | some f => rw [hc] at t1; simp at t1
      refine ⟨?_, fun os hm => told_first hw.2.2.1 hs f0 hm, fun os hm => ?_⟩
      · rw [told_ok (told_good (objVisits_node hs))]
        unfold back
        rw [n3, n4, n5, n7, h3, h4, h5, h7, pProps_eq ps [] hw.2.2.1, List.nil_append, n6]
        unfold LObjState.ext at h6
        rw [f0, r0] at h6
        rw [show s.props = ps from h6, ← h1]
      · exact ((objVisits_rest hs).1 r0).2 (objsLD E os)
          ((mem_told hr).2 ⟨by decide, os, hm, rfl⟩)
  · rintro ⟨h, h1, h2⟩
    have hnr : ∀ os, .predicate (some (.id rdfRest)) os ∉ (Node.mk x none ty g inc ps rv).told E := by
      intro os hm
      obtain ⟨-, os, hm, -⟩ := (mem_told hr).1 hm
      exact h2 os hm
    obtain ⟨s, hs⟩ := objVisits_of_node h hnr
    have hn := objVisits_node hs
    rw [start_asNode, h] at hn
    have f0 : s.first = none := by
      refine objVisits_none hs rfl fun os' hm => ?_
      obtain ⟨-, os, hp, rfl⟩ := (mem_told hf).1 hm
      rw [h1 os hp]
      rfl
    have r0 : s.rest = none := (objVisits_rest hs).2 ⟨rfl, hnr⟩
    rw [hs]
    have : s.finish = .node s.asNode := by
      rw [finish_eq (objVisits_inv inv_start hs)]
      unfold LObjState.ext
      rw [f0, r0]
      rfl
    show Except.ok s.finish = _
    rw [this, ← Except.ok.inj hn]

theorem value_iff {v : Value} : literalToValue E (v.ldTerm E) = v ↔ LdValue E v := by
  constructor
  · intro h
    match v with
    | .literal .null ty => simp [Value.ldTerm, literalToValue, xsdToValue] at h
    | .literal (.bool b) none => exact .bool b
    | .literal (.bool b) (some ty) => simp [Value.ldTerm, literalToValue, xsdToValue] at h
    | .literal (.num n) (some ty) =>
      simp only [Value.ldTerm, numTerm] at h
      split at h
      · rename_i v _
        cases v with
        | bool b => simp [literalToValue, xsdToValue] at h
        | str s => simp [literalToValue, xsdToValue] at h
        | num t s =>
          rw [literalToValue, xsdToValue] at h
          split at h <;> simp at h
        | other t s => simp [literalToValue, xsdToValue] at h
      · simp [literalToValue] at h
    | .literal (.num n) none =>
      simp only [Value.ldTerm, numTerm] at h
      split at h
      · rename_i i hi
        rw [literalToValue, xsdToValue] at h
        split at h
        · rename_i hn
          injection h with h
          injection h with h
          subst h
          exact .int hi hn
        · simp at h
      · simp [literalToValue, xsdToValue] at h
    | .literal (.str s) (some ty) =>
      rw [Value.ldTerm, literalToValue] at h
      split at h
      · simp at h
      · rename_i hn
        exact .typed hn
    | .literal (.str s) none => exact .str s
    | .langString s =>
      simp only [Value.ldTerm] at h
      split at h
      · rename_i tag hl
        split at h
        · rename_i hw
          rw [literalToValue] at h
          have h := Value.langString.inj h
          rw [← h]
          exact .lang hw
        · simp [literalToValue, xsdToValue] at h
      · simp [literalToValue, xsdToValue] at h
    | .json j => exact .json j
  · intro h
    cases h with
    | bool b => rfl
    | str s => rfl
    | typed h => rw [Value.ldTerm, literalToValue, if_neg h]
    | int hi hn => simp [Value.ldTerm, numTerm, hi, literalToValue, xsdToValue, hn]
    | lang h => simp [Value.ldTerm, h, literalToValue]
    | json j => rfl

theorem isGraph_iff {x : Option Str} {id : Option Id} {ty : Option (List Id)} {g : Option (List Obj)}
    {inc : Option (List Node)} {ps : List (Id × List Obj)} {rv : Option (List (Id × List Node))} :
    (Node.mk x id ty g inc ps rv).isGraph = true ↔
      g.isSome ∧ ty = none ∧ inc = none ∧ ps = [] ∧ rv = none := by
  simp [Node.isGraph, and_assoc]

theorem told_iff {x : Option Str} {i id : Option Id} {ty : Option (List Id)} {g : Option (List Obj)}
    {inc : Option (List Node)} {ps : List (Id × List Obj)} {rv : Option (List (Id × List Node))}
    (hw : (Node.mk x id ty g inc ps rv).WF) :
    nodeVisits E ((Node.mk x id ty g inc ps rv).told E) (startNode i) = .ok (.mk x id ty g inc ps rv) ↔
      GoodParts E ty g inc ps rv ∧ i = id ∧ Fixed E x ty g inc ps rv := by
  constructor
  · intro h
    have hg := told_good h
    rw [told_ok hg] at h
    exact ⟨hg, (back_iff hw).1 (Except.ok.inj h)⟩
  · rintro ⟨hg, h⟩
    rw [told_ok hg, (back_iff hw).2 h]

theorem serNode_iff {n : Node} (hw : n.WF) : serNode E (n.toLD E) = .ok n ↔
    (∀ i, n.id = some i → i.isValid = true) ∧ nodeVisits E (n.told E) (startNode n.id) = .ok n := by
  rw [Node.toLD_eq]
  match hn : n.id with
  | none => simp [serNode]
  | some i =>
    by_cases hi : i.isValid = true
    · rw [Option.bind_some, Id.ldTerm_valid hi, serNode]
      simp [hi]
    · rw [Option.bind_some, Id.ldTerm_invalid hi, serNode]
      refine ⟨fun h => ?_, fun h => absurd (h.1 i rfl) hi⟩
      exfalso
      cases n with
      | mk x id ty g inc ps rv =>
        have := ((told_iff hw).1 h).2.1
        rw [← this] at hn
        cases hn

theorem good_fixed_O {o : Obj} : GoodO E o ∧ bO E o = o ↔ serObject E (o.toLD E) = .ok o :=
  ⟨fun ⟨h, hb⟩ => by rw [h, hb], fun h => ⟨goodO h, bO_ok h⟩⟩

theorem good_fixed_N {o : Node} : GoodN E o ∧ bN E o = o ↔ serNode E (o.toLD E) = .ok o :=
  ⟨fun ⟨h, hb⟩ => by rw [h, hb], fun h => ⟨goodN h, bN_ok h⟩⟩

theorem notList {l : List Obj} {i : Option Str} : serObject E (restLD E l) ≠ .ok (.list i l) := by
  intro h
  have : ∃ vs, restLD E l = .mk none vs := by
    cases l <;> exact ⟨_, by rw [restLD]⟩
  obtain ⟨vs, hv⟩ := this
  rw [hv, serObject] at h
  cases hs : objVisits E vs {} with
  | error e => rw [hs] at h; cases h
  | ok s =>
    rw [hs] at h
    have h : s.finish = _ := Except.ok.inj h
    rw [finish_eq (objVisits_inv inv_start hs)] at h
    cases h

theorem survives : (∀ o : Obj, o.WF → (serObject E (o.toLD E) = .ok o ↔ LdObj E o)) ∧
    ∀ n : Node, n.WF → (serNode E (n.toLD E) = .ok n ↔ LdNode E n) := by
  refine Doc.ind ?_ ?_ ?_ ?_
  · intro i v _
    rw [Obj.toLD, serObject]
    constructor
    · intro h
      have h := Except.ok.inj h
      injection h with h1 h2
      subst h1
      exact .value (value_iff.1 h2)
    · rintro ⟨h⟩
      rw [value_iff.2 h]
  · intro i l _ _
    rw [Obj.toLD]
    exact ⟨fun h => absurd h notList, nofun⟩
  · intro n ih hw
    have hw : n.WF := hw
    rw [Obj.toLD]
    have key : ∀ h : LdNode E n, ∀ i, n.id = some i → i.isValid = true := by
      rintro (⟨hid, -⟩ | ⟨hid, -⟩) <;> exact hid
    match hn : n.id with
    | some i =>
      have e : (serObject E (n.toLD E) = .ok (.node n) ∧ i.isValid = true) ↔
          serNode E (n.toLD E) = .ok n := by
        rw [serNode_iff hw, Node.toLD_eq, hn, Option.bind_some]
        simp only [Option.some.injEq, forall_eq']
        constructor
        · rintro ⟨h, hv⟩
          rw [Id.ldTerm_valid hv, serObject] at h
          refine ⟨hv, ?_⟩
          cases hs : nodeVisits E (n.told E) (startNode (some i)) with
          | error e => rw [hs] at h; cases h
          | ok s =>
            rw [hs] at h
            rw [Obj.node.inj (Except.ok.inj h)]
        · rintro ⟨hv, h⟩
          rw [Id.ldTerm_valid hv, serObject, h]
          exact ⟨rfl, hv⟩
      constructor
      · intro h
        by_cases hv : i.isValid = true
        · exact .node ((ih hw).1 (e.1 ⟨h, hv⟩)) (by rw [hn]; nofun) (by rw [hn]; nofun)
        · exfalso
          rw [Node.toLD_eq, hn, Option.bind_some, Id.ldTerm_invalid hv, serObject] at h
          cases hs : objVisits E (n.told E) {} with
          | error e => rw [hs] at h; cases h
          | ok s =>
            rw [hs] at h
            have h : s.finish = _ := Except.ok.inj h
            rw [finish_eq (objVisits_inv inv_start hs)] at h
            rw [← Obj.node.inj h] at hn
            cases hn
      · rintro (_ | ⟨h, -, -⟩)
        exact (e.2 ((ih hw).2 h)).1
    | none =>
      cases n with
      | mk x id ty g inc ps rv =>
        have hn : id = none := hn
        subst hn
        rw [anon_iff hw]
        have e := serNode_iff (E := E) hw
        constructor
        · rintro ⟨h, h1, h2⟩
          exact .node ((ih hw).1 (e.2 ⟨nofun, h⟩)) (fun _ => h1) (fun _ => h2)
        · rintro (_ | ⟨h, h1, h2⟩)
          exact ⟨(e.1 ((ih hw).2 h)).2, h1 rfl, h2 rfl⟩
  · intro x id ty g inc ps rv hg hi hp hr hw
    have w := hw
    obtain ⟨wg, wi, -, wp, wr⟩ := w
    have hg : ∀ o ∈ g.getD [], serObject E (o.toLD E) = .ok o ↔ LdObj E o := by
      match g with
      | none => simp
      | some l => exact fun o ho => hg l rfl o ho (objsWF_iff.1 wg.2 o ho)
    have hi : ∀ o ∈ inc.getD [], serNode E (o.toLD E) = .ok o ↔ LdNode E o := by
      match inc with
      | none => simp
      | some l => exact fun o ho => hi l rfl o ho (nodesWF_iff.1 wi.2 o ho)
    have hp : ∀ p ∈ ps, ∀ o ∈ p.2, serObject E (o.toLD E) = .ok o ↔ LdObj E o :=
      fun p hm o ho => hp p hm o ho (psWF_iff.1 wp p hm o ho)
    have hr : ∀ p ∈ rv.getD [], ∀ o ∈ p.2, serNode E (o.toLD E) = .ok o ↔ LdNode E o := by
      match rv with
      | none => simp
      | some l => exact fun p hm o ho => hr l rfl p hm o ho (rpsWF_iff.1 wr.2 p hm o ho)
    rw [serNode_iff hw, told_iff hw]
    constructor
    · rintro ⟨hid, hgp, -, hf⟩
      obtain rfl := hf.index
      have io : ∀ m ∈ inc.getD [], LdNode E m := fun m hm =>
        (hi m hm).1 (good_fixed_N.1 ⟨hgp.inc m hm, hf.inc.2 m hm⟩)
      have po : ∀ p ∈ ps, ∀ o ∈ p.2, LdObj E o := fun p hm o ho =>
        (hp p hm o ho).1 (good_fixed_O.1 ⟨hgp.props p hm (hf.props p hm).1 o ho, (hf.props p hm).2.1 o ho⟩)
      have ro : ∀ p ∈ rv.getD [], ∀ o ∈ p.2, LdNode E o := fun p hm o ho =>
        (hr p hm o ho).1 (good_fixed_N.1 ⟨hgp.rev p hm (hf.rev.2 p hm).1 o ho, (hf.rev.2 p hm).2 o ho⟩)
      match g with
      | some l =>
        have hb := hf.graph.1.symm
        have go : ∀ o ∈ l, LdObj E o := fun o ho =>
          (hg o ho).1 (good_fixed_O.1 ⟨hgp.graph hb o ho, hf.graph.2 o ho⟩)
        obtain ⟨-, rfl, rfl, rfl, rfl⟩ := isGraph_iff.1 hb
        exact .graph hid go
      | none =>
        refine .node hid hf.types.1 ?_ hf.inc.1 ?_ (fun p hm => (hf.props p hm).1) po
          (fun p hm => (hf.props p hm).2.2) hf.rev.1 ?_ ?_
        · rintro l rfl
          exact hf.types.2
        · rintro l rfl
          exact io
        · rintro l rfl
          exact fun p hm => (hf.rev.2 p hm).1
        · rintro l rfl
          exact ro
    · intro h
      cases h with
      | @graph _ g hid hgo =>
        refine ⟨hid, ⟨fun _ o ho => (good_fixed_O.2 ((hg o ho).2 (hgo o ho))).1, by simp, by simp,
          by simp⟩, rfl, rfl, by simp, ⟨rfl, fun o ho => (good_fixed_O.2 ((hg o ho).2 (hgo o ho))).2⟩,
          by simp, by simp, by simp⟩
      | node hid hty htys hinc hincs hk hps ht hrv hrk hrs =>
        have io : ∀ m ∈ inc.getD [], GoodN E m ∧ bN E m = m := fun m hm =>
          good_fixed_N.2 ((hi m hm).2 (by
            match inc, hincs with
            | some l, hincs => exact hincs l rfl m hm))
        have po : ∀ p ∈ ps, ∀ o ∈ p.2, GoodO E o ∧ bO E o = o := fun p hm o ho =>
          good_fixed_O.2 ((hp p hm o ho).2 (hps p hm o ho))
        have ro : ∀ p ∈ rv.getD [], ∀ o ∈ p.2, GoodN E o ∧ bN E o = o := fun p hm o ho =>
          good_fixed_N.2 ((hr p hm o ho).2 (by
            match rv, hrs with
            | some l, hrs => exact hrs l rfl p hm o ho))
        refine ⟨hid, ⟨fun hb => ?_, fun m hm => (io m hm).1, fun p hm _ o ho => (po p hm o ho).1,
          fun p hm _ o ho => (ro p hm o ho).1⟩, rfl, rfl, ⟨hty, ?_⟩, ⟨rfl, by simp⟩,
          ⟨hinc, fun m hm => (io m hm).2⟩,
          fun p hm => ⟨hk p hm, fun o ho => (po p hm o ho).2, ht p hm⟩,
          ⟨hrv, fun p hm => ⟨?_, fun o ho => (ro p hm o ho).2⟩⟩⟩
        · simp
        · match ty, htys with
          | none, _ => simp
          | some l, htys => exact htys l rfl
        · match rv, hrk with
          | some l, hrk => exact hrk l rfl p hm

/-! ### Documents -/

theorem serSubject_iff {o : Obj} (hw : o.WF) :
    serSubject E (o.toLD E) = .ok o ↔ LdTop E o := by
  match o with
  | .value i v =>
    rw [Obj.toLD, serSubject]
    constructor
    · intro h
      have h := Except.ok.inj h
      injection h with h1 h2
      subst h1
      exact .value (value_iff.1 h2)
    · rintro ⟨h⟩
      rw [value_iff.2 h]
  | .list i l =>
    rw [Obj.toLD]
    refine ⟨fun h => ?_, nofun⟩
    have : ∃ vs, restLD E l = .mk none vs := by
      cases l <;> exact ⟨_, by rw [restLD]⟩
    obtain ⟨vs, hv⟩ := this
    rw [hv, serSubject] at h
    cases hs : nodeVisits E vs (startNode none) with
    | error e => rw [hs] at h; cases h
    | ok s => rw [hs] at h; cases h
  | .node n =>
    have hw : n.WF := hw
    have e : serSubject E (n.toLD E) = .ok (.node n) ↔ serNode E (n.toLD E) = .ok n := by
      rw [Node.toLD_eq]
      have key : ∀ x : Except LdErr Node, x.map Obj.node = .ok (.node n) ↔ x = .ok n := by
        intro x
        cases x <;> simp [Except.map]
      match hn : n.id with
      | none => rw [Option.bind_none, serSubject, serNode, key]
      | some i =>
        by_cases hi : i.isValid = true
        · rw [Option.bind_some, Id.ldTerm_valid hi, serSubject, serNode, key]
        · rw [Option.bind_some, Id.ldTerm_invalid hi, serSubject, serNode, key]
    rw [Obj.toLD, e, survives.2 n hw]
    exact ⟨.node, fun h => by cases h; assumption⟩

theorem serDefault_length {ss : List LD} {d r : Doc} (h : serDefault E d ss = .ok r) :
    r.length ≤ d.length + ss.length := by
  induction ss generalizing d with
  | nil => cases h; simp
  | cons s ss ih =>
    rw [serDefault] at h
    split at h
    · cases h
    · rename_i o _
      have := ih h
      have h2 : (setInsert Obj.eq d o).length ≤ d.length + 1 := by
        unfold setInsert
        split <;> simp
      rw [List.length_cons]
      omega

theorem serDefault_prefix {ss : List LD} {d r : Doc} (h : serDefault E d ss = .ok r) : d <+: r := by
  induction ss generalizing d with
  | nil => cases h; exact List.prefix_refl _
  | cons s ss ih =>
    rw [serDefault] at h
    split at h
    · cases h
    · refine List.IsPrefix.trans ?_ (ih h)
      unfold setInsert
      split
      · exact List.prefix_refl _
      · exact List.prefix_append _ _

theorem serDefault_iff {l d : List Obj} (hw : ∀ o ∈ l, o.WF)
    (hd : (d ++ l).Pairwise fun a b => b.eq a = false) :
    serDefault E d (objsLD E l) = .ok (d ++ l) ↔ ∀ o ∈ l, LdTop E o := by
  induction l generalizing d with
  | nil => simp [objsLD, serDefault]
  | cons o l ih =>
    have hn : setInsert Obj.eq d o = d ++ [o] := by
      have := setFold_distinct (eq := Obj.eq) [o] d (hd.sublist (by simp))
      simpa using this
    have ih := ih (d := d ++ [o]) (fun o ho => hw o (List.mem_cons_of_mem _ ho)) (by simpa using hd)
    rw [List.append_assoc, List.singleton_append] at ih
    have hs := serSubject_iff (E := E) (hw o List.mem_cons_self)
    rw [objsLD, serDefault]
    constructor
    · intro h
      split at h
      · cases h
      · rename_i o' ho'
        have : setInsert Obj.eq d o' = d ++ [o] := by
          have hp := serDefault_prefix h
          have hl := serDefault_length h
          rw [objsLD_eq, List.length_map, List.length_append, List.length_cons] at hl
          unfold setInsert at hp hl ⊢
          split at hp
          · rename_i hc
            rw [if_pos hc] at hl
            omega
          · rename_i hc
            rw [if_neg hc]
            have := (List.prefix_append_right_inj d).1 hp
            obtain ⟨k, hk⟩ := this
            rw [List.singleton_append] at hk
            injection hk with hk
            rw [hk]
        rw [this] at h
        have ho : o' = o := by
          unfold setInsert at this
          split at this
          · have := congrArg List.length this
            simp at this
          · simpa using this
        rw [ho] at ho'
        intro x hx
        rcases List.mem_cons.1 hx with rfl | hx
        · exact hs.1 ho'
        · exact ih.1 h x hx
    · intro h
      rw [hs.2 (h o List.mem_cons_self)]
      dsimp only
      rw [hn]
      exact ih.2 fun x hx => h x (List.mem_cons_of_mem _ hx)

theorem doc_survives {d : Doc} (hw : d.WF) :
    ldSerialize E (d.toLD E) = .ok d ↔ ∀ o ∈ d, LdTop E o := by
  have := serDefault_iff (E := E) (l := d) (d := []) (objsWF_iff.1 hw.2) hw.1
  rw [← this]
  unfold ldSerialize Doc.toLD
  simp only [List.foldlM_cons, List.foldlM_nil, serGraph]
  cases serDefault E [] (objsLD E d) <;> exact Iff.rfl

end JsonLd
