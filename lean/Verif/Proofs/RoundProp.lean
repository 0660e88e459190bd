import Verif.Proofs.RoundNode
/-!
# Expanding compacted nodes: properties, reverse properties and the whole node
-/

namespace JsonLd
open Spec Props Relation

section
variable {E : CEnv} {X : XEnv} {c : ACtx} (H : RoundEnv E X c)
include H

/-! ## Properties -/

omit H in
theorem inNest_plain (hc : PlainCtx c) (key : Str) (m : JMap) (f : JMap → Except CompErr JMap) : inNest c key m f = f m := by
  unfold inNest
  cases h : c.get key with
  | none => rfl
  | some d =>
    dsimp only [Option.bind]
    rw [(get_plain hc h).nest]

omit H in
theorem itemKey_some {p : CTerm} (hp : p ≠ .null) {k : Option Str} (hk : plainKey E c p = .ok k) : ∃ s, k = some s := by
  unfold plainKey at hk
  rw [if_neg hp] at hk
  split at hk
  · exact ⟨_, (Except.ok.inj hk).symm⟩
  · obtain ⟨s, -, rfl⟩ := exMap_ok hk
    exact ⟨s, rfl⟩

/-- The loop over the values adds them under the same key. -/
theorem propertyStep_fold {R : CRec} (hR : RecBack E X c R) {p : CTerm} {rev : Bool} {key : Str}
    (hk : plainKey E c p = .ok (some key)) {items : List Obj} (hi : ∀ o ∈ items, Carried E.toCompEnv c o) :
    ∀ {m m' : JMap}, items.foldlM (propertyStep E R c p rev) m = .ok m' →
    ∃ vs, List.Forall₂ (Back X c) vs items ∧
      vs.foldlM (fun m v => addValue m key v (asArray E c key)) m = .ok m' := by
  induction items with
  | nil => intro m m' h; cases h; exact ⟨[], .nil, rfl⟩
  | cons o os ih =>
    intro m m' h
    rw [List.foldlM_cons] at h
    obtain ⟨m1, h1, h2⟩ := bindOk.1 h
    obtain ⟨vs, h3, h4⟩ := ih (fun o ho => hi o (List.mem_cons_of_mem _ ho)) h2
    unfold propertyStep at h1
    obtain ⟨k, hk1, h1⟩ := exBind_ok h1
    have := itemKey_plain H.plain hk1
    rw [hk] at this
    cases this
    dsimp only at h1
    rw [inNest_plain H.plain, propertyItem_plain H.plain] at h1
    obtain ⟨v, h5, h6⟩ := exBind_ok h1
    refine ⟨v :: vs, .cons (itemJson_back H hR (hi o (by simp)) h5) h3, ?_⟩
    rw [List.foldlM_cons]
    exact bindOk.2 ⟨m1, h6, h4⟩

omit H in
theorem forall₂_notArray {vs : List Json} {os : List Obj} (h : List.Forall₂ (Back X c) vs os) : ∀ v ∈ vs, NotArray v := by
  induction h with
  | nil => nofun
  | cons h _ ih =>
    intro v hv
    rcases List.mem_cons.1 hv with rfl | hv
    · exact h.notArray
    · exact ih v hv

/-- The values of a property are one new entry. -/
theorem property_in {R : CRec} (hR : RecBack E X c R) {p : CTerm} (hp : p ≠ .null) {rev : Bool}
    (hb : ∀ o s, itemKey E c p rev o = .ok (some s) → xKey X c s = .ok (some p))
    {es : List XEntry} (hes : Keyed X c es) (hf : p ∉ es.map XEntry.term) {items : List Obj}
    (hi : ∀ o ∈ items, Carried E.toCompEnv c o) {m' : JMap}
    (h : compactProperty E R c p rev items (xObj es) = .ok m') :
    ∃ key vs a, xKey X c key = .ok (some p) ∧ m' = xObj (es ++ [⟨key, p, pack a vs⟩]) ∧
      List.Forall₂ (Back X c) vs items := by
  unfold compactProperty at h
  cases items with
  | nil =>
    simp only [List.isEmpty_nil, if_true] at h
    unfold propertyEmpty at h
    obtain ⟨k, h1, h⟩ := exBind_ok h
    obtain ⟨key, rfl⟩ := itemKey_some hp (itemKey_plain H.plain h1)
    have hk := hb _ _ h1
    dsimp only at h
    rw [inNest_plain H.plain, addEmpty_fresh (keyed_fresh hes hk hf)] at h
    cases h
    exact ⟨key, [], true, hk, by rw [xObj_append]; rfl, .nil⟩
  | cons o os =>
    simp only [List.isEmpty_cons, Bool.false_eq_true, if_false] at h
    have hk : ∃ key, plainKey E c p = .ok (some key) ∧ xKey X c key = .ok (some p) := by
      rw [List.foldlM_cons] at h
      obtain ⟨m1, h1, -⟩ := bindOk.1 h
      unfold propertyStep at h1
      obtain ⟨k, hk1, -⟩ := exBind_ok h1
      have hk2 := itemKey_plain H.plain hk1
      obtain ⟨key, rfl⟩ := itemKey_some hp hk2
      exact ⟨key, hk2, hb _ _ hk1⟩
    obtain ⟨key, hk1, hk2⟩ := hk
    obtain ⟨vs, h1, h2⟩ := propertyStep_fold H hR hk1 hi h
    rw [addAll_fresh (keyed_fresh hes hk2 hf) (forall₂_notArray h1) (by cases h1; simp)] at h2
    cases h2
    exact ⟨key, vs, asArray E c key, hk2, by rw [xObj_append]; rfl, h1⟩

omit H in
theorem key_notKeyword {key : Str} {p : Id} (h : xKey X c key = .ok (some (.id p))) (k : Keyword) : key ≠ k.intoStr := by
  rintro rfl
  rw [xKey_kw] at h
  cases h

/-- The entry for a property. -/
theorem steps_prop {key : Str} {p : Id} (hp : Nameable E.toCompEnv c true p) {vs : List Json} {os : List Obj} {a : Bool}
    (hk : xKey X c key = .ok (some (.id p))) (hv : List.Forall₂ (Back X c) vs os) {x i ty g inc ps rv}
    (hf : p ∉ ps.map Prod.fst) : KeySteps X c [⟨key, .id p, pack a vs⟩] (.mk x i ty g inc ps rv)
      (.mk x i ty g inc (ps ++ [(p, os)]) rv) := by
  refine ⟨fun e he => by rw [List.mem_singleton.1 he]; exact hk,
    fun e he => by rw [List.mem_singleton.1 he]; simp, fun prop _ => ?_⟩
  obtain ⟨h1, h2⟩ := valid_form H.toBaseEnv hp
  have hn : noProp (some key) = false := by
    have := key_notKeyword hk .graph
    unfold noProp
    rw [Option.isNone_some, Bool.false_or, decide_eq_false_iff_not]
    exact fun h => this (Option.some.inj h)
  obtain ⟨y, h3, h4, h5⟩ := pack_back H hv a (prop := some key)
    (fun h => key_notKeyword hk .reverse (Option.some.inj h)) (by rw [hn]; nofun) false
  have hd : ∀ j, propValue X (unlimited X) c (c.get key) key j = expandElement X c (some key) j false := by
    intro j
    unfold propValue
    have h6 : (c.get key).bind (·.typ) = none := typ_plain H.plain (some key)
    have h7 : containerOf (c.get key) = .none := containerOf_plain H.plain (some key)
    rw [h6, h7]
    cases j <;> rfl
  have hprop : propEntry X (unlimited X) c key p (pack a vs) ⟨.mk x i ty g inc ps rv, false⟩ =
      .ok ⟨.mk x i ty g inc (ps ++ [(p, os)]) rv, false⟩ := by
    unfold propEntry
    dsimp only
    rw [hd, h3]
    have h7 : containerOf (c.get key) = .none := containerOf_plain H.plain (some key)
    have h8 : reverseOf (c.get key) = false := reverseOf_plain H.plain (some key)
    show addProp (c.get key) p (wrapGraph (containerOf (c.get key)) (wrapList (containerOf (c.get key)) y)) _ = _
    rw [h7]
    show addProp (c.get key) p y _ = _
    unfold addProp
    rw [h5, h8, h4]
    simp only [Bool.false_eq_true, if_false, Node.insertProp, insertAll_fresh hf]
  rw [List.foldlM_cons]
  have : entryStep X (unlimited X) c c prop ⟨.mk x i ty g inc ps rv, false⟩ ⟨key, .id p, pack a vs⟩ =
      .ok ⟨.mk x i ty g inc (ps ++ [(p, os)]) rv, false⟩ := by
    unfold entryStep
    dsimp only
    rw [if_pos h1]
    unfold idEntry
    cases p with
    | invalid s => cases h2
    | _ => exact hprop
  rw [this]
  rfl

/-- All properties. -/
theorem props_in {R : CRec} (hR : RecBack E X c R) {x i ty g inc rv} : ∀ {ps0 ps : List (Id × List Obj)},
    (∀ p ∈ ps, Nameable E.toCompEnv c true p.1) → (∀ p ∈ ps, ∀ o ∈ p.2, Carried E.toCompEnv c o) →
    ((ps0 ++ ps).map Prod.fst).Nodup →
    ∀ {es : List XEntry}, Keyed X c es → (∀ p ∈ ps, .id p.1 ∉ es.map XEntry.term) → ∀ {m' : JMap},
    ps.foldlM (fun m p => compactProperty E R c (.id p.1) false p.2 m) (xObj es) = .ok m' →
    ∃ es', m' = xObj (es ++ es') ∧ KeySteps X c es' (.mk x i ty g inc ps0 rv) (.mk x i ty g inc (ps0 ++ ps) rv) ∧
      ∀ e ∈ es', ∀ k, e.term ≠ .keyword k := by
  intro ps0 ps
  induction ps generalizing ps0 with
  | nil =>
    intro _ _ _ es _ _ m' h
    cases h
    exact ⟨[], by simp, by simpa using KeySteps.nil _, nofun⟩
  | cons p ps ih =>
    intro hn hi hd es hes hf m' h
    rw [List.foldlM_cons] at h
    obtain ⟨m1, h1, h2⟩ := bindOk.1 h
    obtain ⟨key, vs, a, hk, rfl, hvs⟩ := property_in H hR (by simp) (fun o s => id_with H.toBaseEnv (hn p (by simp))) hes
      (hf p (by simp)) (hi p (by simp)) h1
    have hp0 : p.1 ∉ ps0.map Prod.fst := by
      rw [List.map_append, List.nodup_append] at hd
      exact fun h => hd.2.2 _ h _ (by simp) rfl
    have hs := steps_prop H (hn p (by simp)) (a := a) hk hvs (x := x) (i := i) (ty := ty) (g := g) (inc := inc) (rv := rv) hp0
    obtain ⟨es', rfl, hs', ht⟩ := ih (ps0 := ps0 ++ [p]) (fun q hq => hn q (List.mem_cons_of_mem _ hq))
      (fun q hq => hi q (List.mem_cons_of_mem _ hq)) (by simpa using hd) (hes.append hs.keyed)
      (fun q hq => by
        rw [List.map_append, List.mem_append, not_or]
        refine ⟨hf q (List.mem_cons_of_mem _ hq), ?_⟩
        simp only [List.map_cons, List.map_nil, List.mem_singleton, CTerm.id.injEq]
        intro heq
        rw [List.map_append, List.map_cons, List.nodup_append, List.nodup_cons] at hd
        exact hd.2.1.1 (List.mem_map.2 ⟨q, hq, heq⟩)) h2
    refine ⟨⟨key, .id p.1, pack a vs⟩ :: es', by simp, ?_, ?_⟩
    · have := hs.append hs'
      simpa using this
    · intro e he
      rcases List.mem_cons.1 he with rfl | he
      · simp
      · exact ht e he

/-! ## Reverse properties -/

/-- The entries of `@reverse`. -/
theorem reverse_fold {R : CRec} (hR : RecBack E X c R) {x i ty g inc ps} : ∀ {r0 r : List (Id × List Node)} {rv},
    rv.getD [] = r0 → (rv = none → r ≠ []) →
    (∀ p ∈ r, Nameable E.toCompEnv c true p.1) → (∀ p ∈ r, ∀ n ∈ p.2, Carried E.toCompEnv c (.node n)) →
    ((r0 ++ r).map Prod.fst).Nodup →
    ∀ {es : List XEntry}, Keyed X c es → (∀ p ∈ r, .id p.1 ∉ es.map XEntry.term) → ∀ {m' : JMap},
    r.foldlM (fun m p => compactProperty E R c (.id p.1) true (p.2.map Obj.node) m) (xObj es) = .ok m' →
    ∃ es', m' = xObj (es ++ es') ∧ Keyed X c es' ∧ (r ≠ [] → es' ≠ []) ∧ es'.map XEntry.term = r.map (fun p => .id p.1) ∧
      (xObj es').foldlM (reverseStep X (unlimited X) c) ⟨.mk x i ty g inc ps rv, false⟩ =
        .ok ⟨.mk x i ty g inc ps (some (r0 ++ r)), false⟩ := by
  intro r0 r
  induction r generalizing r0 with
  | nil =>
    intro rv hrv hne _ _ _ es _ _ m' h
    cases h
    refine ⟨[], by simp, nofun, fun h => absurd rfl h, rfl, ?_⟩
    cases rv with
    | none => exact absurd rfl (hne rfl)
    | some r =>
      cases hrv
      rw [List.append_nil]
      rfl
  | cons p r ih =>
    intro rv hrv _ hn hi hd es hes hf m' h
    rw [List.foldlM_cons] at h
    obtain ⟨m1, h1, h2⟩ := bindOk.1 h
    obtain ⟨key, vs, a, hk, rfl, hvs⟩ := property_in H hR (by simp) (fun o s => id_with H.toBaseEnv (hn p (by simp))) hes
      (hf p (by simp)) (fun o ho => by
        obtain ⟨n, hn', rfl⟩ := List.mem_map.1 ho
        exact hi p (by simp) n hn') h1
    have hp0 : p.1 ∉ r0.map Prod.fst := by
      rw [List.map_append, List.nodup_append] at hd
      exact fun h => hd.2.2 _ h _ (by simp) rfl
    have hke : Keyed X c [⟨key, .id p.1, pack a vs⟩] := fun e he => by rw [List.mem_singleton.1 he]; exact hk
    obtain ⟨es', rfl, hes', -, hterms, hs'⟩ := ih (r0 := r0 ++ [p]) (rv := some (r0 ++ [p])) rfl nofun
      (fun q hq => hn q (List.mem_cons_of_mem _ hq))
      (fun q hq => hi q (List.mem_cons_of_mem _ hq)) (by simpa using hd) (hes.append hke)
      (fun q hq => by
        rw [List.map_append, List.mem_append, not_or]
        refine ⟨hf q (List.mem_cons_of_mem _ hq), ?_⟩
        simp only [List.map_cons, List.map_nil, List.mem_singleton, CTerm.id.injEq]
        intro heq
        rw [List.map_append, List.map_cons, List.nodup_append, List.nodup_cons] at hd
        exact hd.2.1.1 (List.mem_map.2 ⟨q, hq, heq⟩)) h2
    refine ⟨⟨key, .id p.1, pack a vs⟩ :: es', by simp, ?_, by simp, by simp [hterms], ?_⟩
    · exact hke.append hes'
    · show List.foldlM _ _ ((key, pack a vs) :: xObj es') = _
      rw [List.foldlM_cons]
      have hstep : reverseStep X (unlimited X) c ⟨.mk x i ty g inc ps rv, false⟩ (key, pack a vs) =
          .ok ⟨.mk x i ty g inc ps (some (r0 ++ [p])), false⟩ := by
        obtain ⟨g1, g2⟩ := valid_form H.toBaseEnv (hn p (by simp))
        have hnp : noProp (some key) = false := by
          have := key_notKeyword hk .graph
          unfold noProp
          rw [Option.isNone_some, Bool.false_or, decide_eq_false_iff_not]
          exact fun h => this (Option.some.inj h)
        obtain ⟨y, h3, h4, h5⟩ := pack_back H hvs a (prop := some key)
          (fun h => key_notKeyword hk .reverse (Option.some.inj h)) (by rw [hnp]; nofun) false
        unfold reverseStep
        rw [hk]
        show (if p.1.str.contains ':' = true then _ else _) = _
        rw [if_pos g1, if_pos g2]
        unfold reverseProp
        rw [show (unlimited X).elem c (some key) (pack a vs) false = _ from h3]
        have h8 : reverseOf (c.get key) = false := reverseOf_plain H.plain (some key)
        show (if reverseOf (c.get key) = true then _ else _) = _
        rw [h8, if_neg (by simp)]
        unfold addReverse
        rw [h4, asNodes_map]
        show Except.ok _ = _
        simp only [Node.insertRev, hrv, insertAll_fresh hp0]
      rw [hstep]
      show List.foldlM _ _ _ = _
      rw [hs']
      simp

end

end JsonLd
