import Verif.Model.Canonical
import Verif.Spec.Canonical
import Verif.Proofs.Relabel
/-!
# Canonical literals: what changes and what does not
-/

namespace JsonLd
open Spec

variable (c : CanonEnv)

/-- The effect on one value. -/
def canonFlag (p : Bool × Value) : Bool × Value := (p.1, if p.1 then p.2 else p.2.canon c)

theorem canonFlag_true (l : List (Bool × Value)) (h : ∀ p ∈ l, p.1 = true) :
    l.map (canonFlag c) = l := by
  conv_rhs => rw [← List.map_id l]
  apply List.map_congr_left
  intro p hp
  have := h p hp
  obtain ⟨b, v⟩ := p
  simp only at this
  subst this
  rfl

mutual
theorem objVals_flag : ∀ (o : Obj), ∀ p ∈ objVals true o, p.1 = true
  | .value _ v => by simp [objVals]
  | .list _ l => by simp only [objVals]; exact objsVals_flag l
  | .node n => by simp only [objVals]; exact nodeVals_flag n
theorem nodeVals_flag : ∀ (n : Node), ∀ p ∈ nodeVals true n, p.1 = true
  | .mk _ _ _ g inc ps rv => by
    simp only [nodeVals, List.mem_append]
    rintro p (((h | h) | h) | h)
    · exact gVals_flag g p h
    · exact incVals_flag inc p h
    · exact psVals_flag ps p h
    · exact rvVals_flag rv p h
theorem gVals_flag : ∀ (g : Option (List Obj)), ∀ p ∈ gVals g, p.1 = true
  | none => by simp [gVals]
  | some l => by simp only [gVals]; exact objsVals_flag l
theorem incVals_flag : ∀ (g : Option (List Node)), ∀ p ∈ incVals g, p.1 = true
  | none => by simp [incVals]
  | some l => by simp only [incVals]; exact nodesVals_flag l
theorem rvVals_flag : ∀ (g : Option (List (Id × List Node))), ∀ p ∈ rvVals true g, p.1 = true
  | none => by simp [rvVals]
  | some l => by simp only [rvVals]; exact rpsVals_flag l
theorem objsVals_flag : ∀ (l : List Obj), ∀ p ∈ objsVals true l, p.1 = true
  | [] => by simp [objsVals]
  | o :: os => by
    simp only [objsVals, List.mem_append]
    rintro p (h | h)
    · exact objVals_flag o p h
    · exact objsVals_flag os p h
theorem nodesVals_flag : ∀ (l : List Node), ∀ p ∈ nodesVals true l, p.1 = true
  | [] => by simp [nodesVals]
  | o :: os => by
    simp only [nodesVals, List.mem_append]
    rintro p (h | h)
    · exact nodeVals_flag o p h
    · exact nodesVals_flag os p h
theorem psVals_flag : ∀ (l : List (Id × List Obj)), ∀ p ∈ psVals true l, p.1 = true
  | [] => by simp [psVals]
  | (_, l) :: ps => by
    simp only [psVals, List.mem_append]
    rintro p (h | h)
    · exact objsVals_flag l p h
    · exact psVals_flag ps p h
theorem rpsVals_flag : ∀ (l : List (Id × List Node)), ∀ p ∈ rpsVals true l, p.1 = true
  | [] => by simp [rpsVals]
  | (_, l) :: ps => by
    simp only [rpsVals, List.mem_append]
    rintro p (h | h)
    · exact nodesVals_flag l p h
    · exact rpsVals_flag ps p h
end

mutual
theorem objVals_canon : ∀ (o : Obj), objVals false (o.canon c) = (objVals false o).map (canonFlag c)
  | .value _ v => by simp [objVals, Obj.canon, canonFlag]
  | .list _ l => by simp only [objVals, Obj.canon]; exact objsVals_canon l
  | .node n => by simp only [objVals, Obj.canon]; exact nodeVals_canon n
theorem nodeVals_canon : ∀ (n : Node), nodeVals false (n.canon c) = (nodeVals false n).map (canonFlag c)
  | .mk _ _ _ g inc ps rv => by
    simp only [nodeVals, Node.canon, List.map_append, psVals_canon ps, rvVals_canon rv,
      canonFlag_true c _ (gVals_flag g), canonFlag_true c _ (incVals_flag inc)]
theorem rvVals_canon : ∀ (g : Option (List (Id × List Node))),
    rvVals false (rvCanon c g) = (rvVals false g).map (canonFlag c)
  | none => by simp [rvVals, rvCanon]
  | some l => by simp only [rvVals, rvCanon]; exact rpsVals_canon l
theorem objsVals_canon : ∀ (l : List Obj),
    objsVals false (objsCanon c l) = (objsVals false l).map (canonFlag c)
  | [] => by simp [objsVals, objsCanon]
  | o :: os => by
    simp only [objsVals, objsCanon, List.map_append, objVals_canon o, objsVals_canon os]
theorem nodesVals_canon : ∀ (l : List Node),
    nodesVals false (nodesCanon c l) = (nodesVals false l).map (canonFlag c)
  | [] => by simp [nodesVals, nodesCanon]
  | o :: os => by
    simp only [nodesVals, nodesCanon, List.map_append, nodeVals_canon o, nodesVals_canon os]
theorem psVals_canon : ∀ (l : List (Id × List Obj)),
    psVals false (psCanon c l) = (psVals false l).map (canonFlag c)
  | [] => by simp [psVals, psCanon]
  | (_, l) :: ps => by
    simp only [psVals, psCanon, List.map_append, objsVals_canon l, psVals_canon ps]
theorem rpsVals_canon : ∀ (l : List (Id × List Node)),
    rpsVals false (rpsCanon c l) = (rpsVals false l).map (canonFlag c)
  | [] => by simp [rpsVals, rpsCanon]
  | (_, l) :: ps => by
    simp only [rpsVals, rpsCanon, List.map_append, nodesVals_canon l, rpsVals_canon ps]
end

mutual
theorem objBare_canon : ∀ (o : Obj), objBare (o.canon c) = objBare o
  | .value _ v => by simp [objBare, Obj.canon]
  | .list _ l => by simp only [objBare, Obj.canon, objsBare_canon l]
  | .node n => by simp only [objBare, Obj.canon, nodeBare_canon n]
theorem nodeBare_canon : ∀ (n : Node), nodeBare (n.canon c) = nodeBare n
  | .mk _ _ _ g inc ps rv => by
    simp only [nodeBare, Node.canon, psBare_canon ps, rvBare_canon rv]
theorem rvBare_canon : ∀ (g : Option (List (Id × List Node))), rvBare (rvCanon c g) = rvBare g
  | none => by simp [rvBare, rvCanon]
  | some l => by simp only [rvBare, rvCanon, rpsBare_canon l]
theorem objsBare_canon : ∀ (l : List Obj), objsBare (objsCanon c l) = objsBare l
  | [] => by simp [objsBare, objsCanon]
  | o :: os => by simp only [objsBare, objsCanon, objBare_canon o, objsBare_canon os]
theorem nodesBare_canon : ∀ (l : List Node), nodesBare (nodesCanon c l) = nodesBare l
  | [] => by simp [nodesBare, nodesCanon]
  | o :: os => by simp only [nodesBare, nodesCanon, nodeBare_canon o, nodesBare_canon os]
theorem psBare_canon : ∀ (l : List (Id × List Obj)), psBare (psCanon c l) = psBare l
  | [] => by simp [psBare, psCanon]
  | (_, l) :: ps => by simp only [psBare, psCanon, objsBare_canon l, psBare_canon ps]
theorem rpsBare_canon : ∀ (l : List (Id × List Node)), rpsBare (rpsCanon c l) = rpsBare l
  | [] => by simp [rpsBare, rpsCanon]
  | (_, l) :: ps => by simp only [rpsBare, rpsCanon, nodesBare_canon l, rpsBare_canon ps]
end

theorem objsCanon_eq (l : List Obj) : objsCanon c l = l.map (Obj.canon c) := by
  induction l with
  | nil => rfl
  | cons o os ih => simp [objsCanon, ih]

theorem nodesCanon_eq (l : List Node) : nodesCanon c l = l.map (Node.canon c) := by
  induction l with
  | nil => rfl
  | cons o os ih => simp [nodesCanon, ih]

theorem psCanon_eq (l : List (Id × List Obj)) :
    psCanon c l = l.map fun p => (p.1, p.2.map (Obj.canon c)) := by
  induction l with
  | nil => rfl
  | cons o os ih => obtain ⟨k, v⟩ := o; simp [psCanon, ih, objsCanon_eq]

theorem rpsCanon_eq (l : List (Id × List Node)) :
    rpsCanon c l = l.map fun p => (p.1, p.2.map (Node.canon c)) := by
  induction l with
  | nil => rfl
  | cons o os ih => obtain ⟨k, v⟩ := o; simp [rpsCanon, ih, nodesCanon_eq]

theorem rvCanon_eq (g : Option (List (Id × List Node))) :
    rvCanon c g = g.map (List.map fun p => (p.1, p.2.map (Node.canon c))) := by
  cases g <;> simp [rvCanon, rpsCanon_eq]

theorem value_canon_canonical (v : Value) : Canonical c.num c.json v (v.canon c) := by
  cases v with
  | json j => exact .json
  | langString s => exact .string
  | literal l t =>
    cases l with
    | num n => exact .number
    | null => exact .other nofun
    | bool b => exact .other nofun
    | str s => exact .other nofun

/-! ## Sets of the result -/

theorem setCollect_mem {α : Type} {eq : α → α → Bool} {l : List α} {x : α}
    (h : x ∈ setCollect eq l) : x ∈ l := by
  have key : ∀ (l acc : List α), x ∈ l.foldl (setInsert eq) acc → x ∈ acc ∨ x ∈ l := by
    intro l
    induction l with
    | nil => intro acc h; exact .inl h
    | cons y ys ih =>
      intro acc h
      rcases ih _ h with h | h
      · simp only [setInsert] at h
        split at h
        · exact .inl h
        · rcases List.mem_append.1 h with h | h
          · exact .inl h
          · exact .inr (by rw [List.mem_singleton.1 h]; exact List.mem_cons_self)
      · exact .inr (List.mem_cons_of_mem _ h)
  rcases key l [] h with h | h
  · cases h
  · exact h

theorem setInsert_mono {α : Type} {eq : α → α → Bool} {acc : List α} {x y : α} (h : y ∈ acc) :
    y ∈ setInsert eq acc x := by
  simp only [setInsert]
  split
  · exact h
  · exact List.mem_append_left _ h

theorem foldl_setInsert_mono {α : Type} {eq : α → α → Bool} {y : α} (l : List α) (acc : List α)
    (h : y ∈ acc) : y ∈ l.foldl (setInsert eq) acc := by
  induction l generalizing acc with
  | nil => exact h
  | cons x xs ih => exact ih _ (setInsert_mono h)

/-- Every element is in the set, up to equality. -/
theorem setCollect_covers {α : Type} {eq : α → α → Bool} {l : List α} {x : α}
    (hr : eq x x = true) (h : x ∈ l) : ∃ y ∈ setCollect eq l, eq x y = true := by
  have key : ∀ (l acc : List α), x ∈ l → ∃ y ∈ l.foldl (setInsert eq) acc, eq x y = true := by
    intro l
    induction l with
    | nil => intro acc h; cases h
    | cons z zs ih =>
      intro acc h
      rcases List.mem_cons.1 h with rfl | h
      · simp only [List.foldl_cons]
        by_cases ha : acc.any (eq x) = true
        · obtain ⟨y, hy, hxy⟩ := List.any_eq_true.1 ha
          exact ⟨y, foldl_setInsert_mono _ _ (setInsert_mono hy), hxy⟩
        · refine ⟨x, foldl_setInsert_mono _ _ ?_, hr⟩
          simp only [setInsert, ha, Bool.false_eq_true, if_false]
          exact List.mem_append_right _ (List.mem_singleton.2 rfl)
      · exact ih _ h
  exact key l [] h

theorem setCollect_pairwise {α : Type} {eq : α → α → Bool} (l : List α) :
    (setCollect eq l).Pairwise fun a b => eq b a = false := by
  have key : ∀ (l acc : List α), acc.Pairwise (fun a b => eq b a = false) →
      (l.foldl (setInsert eq) acc).Pairwise fun a b => eq b a = false := by
    intro l
    induction l with
    | nil => intro acc h; exact h
    | cons z zs ih =>
      intro acc h
      refine ih _ ?_
      simp only [setInsert]
      split
      · exact h
      · rename_i hn
        rw [List.pairwise_append]
        refine ⟨h, List.pairwise_singleton _ _, ?_⟩
        intro a ha b hb
        rw [List.mem_singleton.1 hb]
        by_contra hc
        exact hn (List.any_eq_true.2 ⟨a, ha, by simpa using hc⟩)
  exact key l [] List.Pairwise.nil

/-- Canonical forms keep the invariants of the containers. -/
theorem wf_canon :
    (∀ o : Obj, o.WF → (o.canon c).WF) ∧ (∀ n : Node, n.WF → (n.canon c).WF) := by
  apply Doc.ind
  · intro i v _; trivial
  · intro i l ih h
    simp only [Obj.WF, objsWF_iff] at h
    simp only [Obj.canon, Obj.WF, objsWF_iff, objsCanon_eq, List.forall_mem_map]
    exact fun o ho => ih o ho (h o ho)
  · intro n ih h; exact ih h
  · intro i id ty g inc ps rv _ _ ihp ihr h
    obtain ⟨h1, h2, h3, h4, h5⟩ := h
    refine ⟨h1, h2, ?_, ?_, ?_⟩
    · rw [psCanon_eq, List.map_map]; exact h3
    · rw [psWF_iff] at h4
      simp only [psWF_iff, psCanon_eq, List.forall_mem_map]
      exact fun p hp o ho => ihp p hp o ho (h4 p hp o ho)
    · cases rv with
      | none => trivial
      | some l =>
        obtain ⟨h5, h6⟩ := h5
        rw [rpsWF_iff] at h6
        refine ⟨?_, ?_⟩
        · rw [rpsCanon_eq, List.map_map]; exact h5
        · simp only [rpsWF_iff, rpsCanon_eq, List.forall_mem_map]
          exact fun p hp o ho => ihr l rfl p hp o ho (h6 p hp o ho)

theorem doc_canon_wf {l : List Obj} (h : ∀ o ∈ l, o.WF) :
    Doc.WF (setCollect Obj.eq (objsCanon c l)) := by
  refine ⟨setCollect_pairwise _, ?_⟩
  rw [objsWF_iff]
  intro o ho
  have := setCollect_mem ho
  rw [objsCanon_eq] at this
  obtain ⟨x, hx, rfl⟩ := List.mem_map.1 this
  exact (wf_canon c).1 x (h x hx)

end JsonLd

namespace JsonLd
open Spec

theorem value_canon_eq (c : CanonEnv) {v w : Value} (h : v.eq w = true) :
    (v.canon c).eq (w.canon c) = true := by
  cases v <;> cases w <;> simp only [Value.eq, Bool.false_eq_true] at h
  · simp only [Bool.and_eq_true, decide_eq_true_eq] at h
    simp [Value.canon, Value.eq, h.1, h.2]
  · exact h
  · simp only [decide_eq_true_eq] at h
    simp [Value.canon, Value.eq, h]

/-- Canonical forms of equal objects are equal. -/
theorem eq_canon (c : CanonEnv) :
    (∀ a b : Obj, a.WF → b.WF → a.eq b = true → (a.canon c).eq (b.canon c) = true) ∧
    (∀ a b : Node, a.WF → b.WF → a.eq b = true → (a.canon c).eq (b.canon c) = true) := by
  apply Doc.ind
  · intro i v b _ _ h
    cases b <;> simp only [Obj.eq, Bool.false_eq_true, Bool.and_eq_true, decide_eq_true_eq] at h
    simp only [Obj.canon, Obj.eq, Bool.and_eq_true, decide_eq_true_eq]
    exact ⟨h.1, value_canon_eq c h.2⟩
  · intro i l ih b hw hw' h
    cases b <;> simp only [Obj.eq, Bool.false_eq_true, Bool.and_eq_true, objsListEq_iff,
      decide_eq_true_eq] at h
    simp only [Obj.WF, objsWF_iff] at hw hw'
    simp only [Obj.canon, Obj.eq, Bool.and_eq_true, decide_eq_true_eq, objsListEq_iff, objsCanon_eq]
    exact ⟨h.1, forall₂_map_both h.2 fun a ha b hb => ih a ha b (hw a ha) (hw' b hb)⟩
  · intro n ih b hw hw' h
    cases b <;> simp only [Obj.eq, Bool.false_eq_true] at h
    simp only [Obj.canon, Obj.eq]
    exact ih _ hw hw' h
  · intro i id ty g inc ps rv ihg ihi ihp ihr b hw hw' h
    have hcw := (wf_canon c).2 _ hw
    have hcw' := (wf_canon c).2 _ hw'
    rw [node_eq_iff hcw hcw']
    rw [node_eq_iff hw hw'] at h
    obtain ⟨i', id', ty', g', inc', ps', rv'⟩ := b
    obtain ⟨h1, h2, h3, h4, h5, h6, h7⟩ := h
    obtain ⟨wg, winc, wk, wps, wrv⟩ := hw
    obtain ⟨wg', winc', wk', wps', wrv'⟩ := hw'
    rw [psWF_iff] at wps wps'
    refine ⟨h1, h2, h3, h4, h5, ?_, ?_⟩
    · show PermRel _ (psCanon c ps) (psCanon c ps')
      rw [psCanon_eq, psCanon_eq]
      refine PermRel.map_both h6 ?_
      rintro p hp q hq ⟨hk, hv⟩
      refine ⟨hk, PermRel.map_both hv ?_⟩
      intro a ha b hb hab
      exact ihp p hp a ha b (wps p hp a ha) (wps' q hq b hb) hab
    · show OptRel _ (rvCanon c rv) (rvCanon c rv')
      cases rv with
      | none => cases rv' with
        | none => trivial
        | some => exact h7
      | some l => cases rv' with
        | none => exact h7
        | some l' =>
          simp only [Node.rev, OptRel] at h7
          show PermRel _ (rpsCanon c l) (rpsCanon c l')
          obtain ⟨_, wrv⟩ := wrv
          obtain ⟨_, wrv'⟩ := wrv'
          rw [rpsWF_iff] at wrv wrv'
          rw [rpsCanon_eq, rpsCanon_eq]
          refine PermRel.map_both h7 ?_
          rintro p hp q hq ⟨hk, hv⟩
          refine ⟨hk, PermRel.map_both hv ?_⟩
          intro a ha b hb hab
          exact ihr l rfl p hp a ha b (wrv p hp a ha) (wrv' q hq b hb) hab

/-- Canonical forms are kept as they are. -/
theorem canon_canon (c : CanonEnv) (hn : ∀ n, c.num (c.num n) = c.num n)
    (hj : ∀ j, c.json (c.json j) = c.json j) :
    (∀ o : Obj, (o.canon c).canon c = o.canon c) ∧ (∀ n : Node, (n.canon c).canon c = n.canon c) := by
  apply Doc.ind
  · intro i v
    cases v with
    | json j => simp [Obj.canon, Value.canon, hj]
    | langString s => rfl
    | literal l t => cases l <;> simp [Obj.canon, Value.canon, Literal.canon, hn]
  · intro i l ih
    simp only [Obj.canon, objsCanon_eq, List.map_map, Obj.list.injEq, true_and]
    exact List.map_congr_left ih
  · intro n ih; simp only [Obj.canon, ih]
  · intro i id ty g inc ps rv _ _ ihp ihr
    simp only [Node.canon, Node.mk.injEq, true_and, psCanon_eq, rvCanon_eq, List.map_map,
      Option.map_map]
    constructor
    · apply List.map_congr_left
      intro p hp
      simp only [Function.comp_apply, List.map_map, Prod.mk.injEq, true_and]
      exact List.map_congr_left (ihp p hp)
    · cases rv with
      | none => rfl
      | some l =>
        simp only [Option.map_some, Function.comp_apply, List.map_map, Option.some.injEq]
        apply List.map_congr_left
        intro p hp
        simp only [Function.comp_apply, List.map_map, Prod.mk.injEq, true_and]
        exact List.map_congr_left (ihr l rfl p hp)

/-! ## Equality of documents -/

theorem doc_eq_iff {d e : Doc} (hd : d.WF) (he : e.WF) :
    d.eq e = true ↔ PermRel (fun x y => x.eq y = true) d e := by
  have wf : ∀ d : Doc, d.WF → (Node.mk none none none (some d) none [] none).WF := by
    intro d hd
    exact ⟨hd, trivial, List.nodup_nil, trivial, trivial⟩
  have key : d.eq e = true ↔ (Node.mk none none none (some d) none [] none).eq
        (Node.mk none none none (some e) none [] none) = true := by
    simp [Doc.eq, Node.eq, idsOptEq, nodesOptEq, rpropsOptEq, propsEq_eq, propsSub]
  rw [key, node_eq_iff (wf d hd) (wf e he)]
  constructor
  · intro h; exact h.2.2.2.1
  · intro h; exact ⟨rfl, rfl, trivial, h, trivial, ⟨[], .refl _, .nil⟩, trivial⟩

/-- Two sets built from lists that cover each other up to equality are equal. -/
theorem doc_eq_of_covers {d e : Doc} (hd : d.WF) (he : e.WF)
    (h1 : ∀ x ∈ d, ∃ y ∈ e, x.eq y = true) (h2 : ∀ y ∈ e, ∃ x ∈ d, y.eq x = true) :
    d.eq e = true := by
  have hd' := objsWF_iff.1 hd.2
  have he' := objsWF_iff.1 he.2
  have le : ∀ d e : Doc, d.WF → e.WF → (∀ x ∈ d, ∃ y ∈ e, x.eq y = true) → d.length ≤ e.length := by
    intro d e hd he h
    have hd' := objsWF_iff.1 hd.2
    have he' := objsWF_iff.1 he.2
    choose! f hf using h
    have hinj : (d.map f).Nodup := by
      rw [List.nodup_iff_pairwise_ne, List.pairwise_map]
      have hm : d.Pairwise fun a b => a ∈ d ∧ b ∈ d :=
        List.pairwise_of_forall_mem_list fun a ha b hb => ⟨ha, hb⟩
      refine (hm.and hd.1).imp ?_
      rintro a b ⟨⟨ha, hb⟩, hne⟩ heq
      have e1 := (hf a ha).2
      have e2 := (hf b hb).2
      rw [heq] at e1
      have e3 := (Obj.eqOk (hd' a ha)).2.1 _ (he' _ (hf b hb).1) e1
      have := (Obj.eqOk (hd' b hb)).2.2 _ _ (he' _ (hf b hb).1) (hd' a ha) e2 e3
      simp [this] at hne
    have hsub : d.map f ⊆ e := by
      intro y hy
      obtain ⟨x, hx, rfl⟩ := List.mem_map.1 hy
      exact (hf x hx).1
    have := (List.subperm_of_subset hinj hsub).length_le
    simpa using this
  have hl : d.length = e.length := Nat.le_antisymm (le d e hd he h1) (le e d he hd h2)
  rw [doc_eq_iff hd he]
  exact (set_iff_of_ok (WF := Obj.WF) (fun a ha => Obj.eqOk (hd' a ha)) hd' he' hd.1).1 ⟨hl, h1⟩

end JsonLd
