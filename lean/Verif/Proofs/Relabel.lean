import Verif.Model.Relabel
import Verif.Spec.Doc
import Verif.Proofs.DocEq
/-!
# Walks rewrite identifiers and nothing else
-/

namespace JsonLd
open Spec

theorem mapObjs_eq (f t) (l : List Obj) : mapObjs f t l = l.map (mapObj f t) := by
  induction l with
  | nil => rfl
  | cons o os ih => simp [mapObjs, ih]

theorem mapNodes_eq (f t) (l : List Node) : mapNodes f t l = l.map (mapNode f t) := by
  induction l with
  | nil => rfl
  | cons o os ih => simp [mapNodes, ih]

theorem mapPs_eq (f t) (l : List (Id × List Obj)) :
    mapPs f t l = l.map fun p => (p.1, p.2.map (mapObj f t)) := by
  induction l with
  | nil => rfl
  | cons o os ih => obtain ⟨k, v⟩ := o; simp [mapPs, ih, mapObjs_eq]

theorem mapRps_eq (f t) (l : List (Id × List Node)) :
    mapRps f t l = l.map fun p => (p.1, p.2.map (mapNode f t)) := by
  induction l with
  | nil => rfl
  | cons o os ih => obtain ⟨k, v⟩ := o; simp [mapRps, ih, mapNodes_eq]

theorem mapG_eq (f t) (g : Option (List Obj)) : mapG f t g = g.map (List.map (mapObj f t)) := by
  cases g <;> simp [mapG, mapObjs_eq]

theorem mapInc_eq (f t) (g : Option (List Node)) :
    mapInc f t g = g.map (List.map (mapNode f t)) := by
  cases g <;> simp [mapInc, mapNodes_eq]

theorem mapRv_eq (f t) (g : Option (List (Id × List Node))) :
    mapRv f t g = g.map (List.map fun p => (p.1, p.2.map (mapNode f t))) := by
  cases g <;> simp [mapRv, mapRps_eq]

/-- Rewriting twice. -/
theorem map_map (f f' t t') :
    (∀ o, mapObj f t (mapObj f' t' o) = mapObj (f ∘ f') (t ∘ t') o) ∧
    (∀ n, mapNode f t (mapNode f' t' n) = mapNode (f ∘ f') (t ∘ t') n) := by
  apply Doc.ind
  · intro i v; rfl
  · intro i l ih
    simp only [mapObj, mapObjs_eq, List.map_map, Obj.list.injEq, true_and]
    exact List.map_congr_left ih
  · intro n ih; simp only [mapObj, ih]
  · intro i id ty g inc ps rv ihg ihi ihp ihr
    simp only [mapNode, mapG_eq, mapInc_eq, mapPs_eq, mapRv_eq, Node.mk.injEq, true_and,
      Option.map_map, List.map_map, Function.comp_apply]
    refine ⟨?_, ?_, ?_, ?_, ?_⟩
    · cases ty <;> simp
    · cases g with
      | none => rfl
      | some l => simp; exact ihg l rfl
    · cases inc with
      | none => rfl
      | some l => simp; exact ihi l rfl
    · apply List.map_congr_left
      intro p hp
      simp only [Function.comp_apply, List.map_map, Prod.mk.injEq, true_and]
      exact List.map_congr_left (ihp p hp)
    · cases rv with
      | none => rfl
      | some l =>
        simp only [Option.map_some, Function.comp_apply, List.map_map, Option.some.injEq]
        apply List.map_congr_left
        intro p hp
        simp only [Function.comp_apply, List.map_map, Prod.mk.injEq, true_and]
        exact List.map_congr_left (ihr l rfl p hp)

theorem mapDoc_mapDoc (f f' t t') (d : Doc) :
    mapDoc f t (mapDoc f' t' d) = mapDoc (f ∘ f') (t ∘ t') d := by
  simp only [mapDoc, mapObjs_eq, List.map_map]
  exact List.map_congr_left fun o _ => (map_map f f' t t').1 o

theorem ms_map_of {α : Type} {eq : α → α → Bool} {WF : α → Prop} {F : α → α} {as bs : List α}
    (hok : ∀ a, WF a → EqOkG eq WF a) (h : unorderedEq eq as bs = true)
    (hwa : ∀ a ∈ as, WF (F a)) (hwb : ∀ b ∈ bs, WF (F b))
    (ih : ∀ a ∈ as, ∀ b ∈ bs, eq a b = true → eq (F a) (F b) = true) :
    unorderedEq eq (as.map F) (bs.map F) = true := by
  have hp : PermRel (fun x y => eq x y = true) as bs := unorderedEq_sound h
  have hp' : PermRel (fun x y => eq x y = true) (as.map F) (bs.map F) := hp.map_both ih
  refine (ms_iff_of_ok (WF := WF) ?_ ?_ ?_).2 hp'
  · intro a ha; obtain ⟨x, hx, rfl⟩ := List.mem_map.1 ha; exact hok _ (hwa x hx)
  · intro a ha; obtain ⟨x, hx, rfl⟩ := List.mem_map.1 ha; exact hwa x hx
  · intro a ha; obtain ⟨x, hx, rfl⟩ := List.mem_map.1 ha; exact hwb x hx

theorem subset_map_of {α : Type} {eq : α → α → Bool} {F : α → α} {as bs : List α}
    (h : ∀ x ∈ as, ∃ y ∈ bs, eq x y = true)
    (ih : ∀ a ∈ as, ∀ b ∈ bs, eq a b = true → eq (F a) (F b) = true) :
    ∀ x ∈ as.map F, ∃ y ∈ bs.map F, eq x y = true := by
  intro x hx
  obtain ⟨a, ha, rfl⟩ := List.mem_map.1 hx
  obtain ⟨b, hb, hab⟩ := h a ha
  exact ⟨F b, List.mem_map_of_mem hb, ih a ha b hb hab⟩

theorem props_map_of {α : Type} {eq : α → α → Bool} {WF : α → Prop} {F : α → α}
    {as bs : List (Id × List α)} (hok : ∀ a, WF a → EqOkG eq WF a)
    (h : ∀ p ∈ as, ∃ v, lookupProp p.1 bs = some v ∧ unorderedEq eq p.2 v = true)
    (hwa : ∀ p ∈ as, ∀ a ∈ p.2, WF (F a)) (hwb : ∀ p ∈ bs, ∀ b ∈ p.2, WF (F b))
    (ih : ∀ p ∈ as, ∀ a ∈ p.2, ∀ q ∈ bs, ∀ b ∈ q.2, eq a b = true → eq (F a) (F b) = true) :
    ∀ p ∈ as.map (fun p => (p.1, p.2.map F)), ∃ v,
      lookupProp p.1 (bs.map fun p => (p.1, p.2.map F)) = some v ∧
        unorderedEq eq p.2 v = true := by
  intro p' hp'
  obtain ⟨p, hp, rfl⟩ := List.mem_map.1 hp'
  obtain ⟨v, hv, hu⟩ := h p hp
  have hm := lookupProp_mem hv
  refine ⟨v.map F, ?_, ?_⟩
  · rw [lookupProp_map (List.map F), hv]; rfl
  · exact ms_map_of hok hu (hwa p hp) (hwb _ hm)
      (fun a ha b hb => ih p hp a ha _ hm b hb)

/-- Rewriting identifiers and types respects equality, as long as it keeps the invariants. -/
theorem eq_map (f t) :
    (∀ a b, (mapObj f t a).WF → (mapObj f t b).WF → a.eq b = true →
      (mapObj f t a).eq (mapObj f t b) = true) ∧
    (∀ a b, (mapNode f t a).WF → (mapNode f t b).WF → a.eq b = true →
      (mapNode f t a).eq (mapNode f t b) = true) := by
  apply Doc.ind
  · intro i v b _ _ h
    cases b <;> simp only [Obj.eq, Bool.false_eq_true] at h
    simpa only [mapObj, Obj.eq] using h
  · intro i l ih b hw hw' h
    cases b <;> simp only [Obj.eq, Bool.false_eq_true, Bool.and_eq_true, objsListEq_iff,
      decide_eq_true_eq] at h
    simp only [mapObj, Obj.WF, objsWF_iff, mapObjs_eq, List.forall_mem_map] at hw hw'
    simp only [mapObj, Obj.eq, Bool.and_eq_true, decide_eq_true_eq, objsListEq_iff, mapObjs_eq]
    exact ⟨h.1, forall₂_map_both h.2 fun a ha b hb => ih a ha b (hw a ha) (hw' b hb)⟩
  · intro n ih b hw hw' h
    cases b <;> simp only [Obj.eq, Bool.false_eq_true] at h
    simp only [mapObj, Obj.eq]
    exact ih _ hw hw' h
  · intro i id ty g inc ps rv ihg ihi ihp ihr b hw hw' h
    obtain ⟨i', id', ty', g', inc', ps', rv'⟩ := b
    simp only [Node.eq, Bool.and_eq_true, decide_eq_true_eq, and_assoc] at h
    obtain ⟨h1, h2, h3, h4, h5, h6, h7⟩ := h
    obtain ⟨wg, winc, wk, wps, wrv⟩ := hw
    obtain ⟨wg', winc', wk', wps', wrv'⟩ := hw'
    simp only [mapNode, Node.eq, Bool.and_eq_true, decide_eq_true_eq, and_assoc]
    refine ⟨h1, by rw [h2], ?_, ?_, ?_, ?_, ?_⟩
    · rw [idsOptEq_iff] at h3 ⊢
      cases ty <;> cases ty' <;> simp only [OptRel, Option.map_none, Option.map_some] at h3 ⊢
      exact h3.map t
    · cases g <;> cases g' <;> simp only [objsOptEq, Bool.false_eq_true, mapG_eq,
        Option.map_none, Option.map_some] at h4 ⊢
      rename_i a b
      simp only [mapG_eq, Option.map_some, gWF, objsWF_iff, List.forall_mem_map] at wg wg'
      simp only [Bool.and_eq_true, decide_eq_true_eq, objsSubset_iff, List.length_map] at h4 ⊢
      exact ⟨h4.1, subset_map_of h4.2 fun x hx y hy =>
        ihg a rfl x hx y (wg.2 x hx) (wg'.2 y hy)⟩
    · cases inc <;> cases inc' <;> simp only [nodesOptEq, Bool.false_eq_true, mapInc_eq,
        Option.map_none, Option.map_some] at h5 ⊢
      rename_i a b
      simp only [mapInc_eq, Option.map_some, incWF, nodesWF_iff, List.forall_mem_map] at winc winc'
      simp only [Bool.and_eq_true, decide_eq_true_eq, nodesSubset_iff, List.length_map] at h5 ⊢
      exact ⟨h5.1, subset_map_of h5.2 fun x hx y hy =>
        ihi a rfl x hx y (winc.2 x hx) (winc'.2 y hy)⟩
    · simp only [propsEq_eq, Bool.and_eq_true, decide_eq_true_eq, propsSub_iff, mapPs_eq,
        List.length_map] at h6 ⊢
      simp only [psWF_iff, mapPs_eq, List.forall_mem_map] at wps wps'
      exact ⟨h6.1, props_map_of (WF := Obj.WF) (fun a ha => Obj.eqOk ha) h6.2 wps wps'
        fun p hp a ha q hq b hb => ihp p hp a ha b (wps p hp a ha) (wps' q hq b hb)⟩
    · cases rv <;> cases rv' <;> simp only [rpropsOptEq, Bool.false_eq_true, mapRv_eq,
        Option.map_none, Option.map_some] at h7 ⊢
      rename_i a b
      simp only [mapRv_eq, Option.map_some, rvWF, rpsWF_iff, List.forall_mem_map] at wrv wrv'
      simp only [Bool.and_eq_true, decide_eq_true_eq, rpropsSub_iff, List.length_map] at h7 ⊢
      exact ⟨h7.1, props_map_of (WF := Node.WF) (fun a ha => Node.eqOk ha) h7.2 wrv.2 wrv'.2
        fun p hp a ha q hq b hb =>
          ihr _ rfl p hp a ha b (wrv.2 p hp a ha) (wrv'.2 q hq b hb)⟩

theorem setCollect_of_pairwise {α : Type} {eq : α → α → Bool} {l : List α}
    (h : l.Pairwise fun a b => eq b a = false) : setCollect eq l = l := by
  have key : ∀ (acc l : List α), (acc ++ l).Pairwise (fun a b => eq b a = false) →
      l.foldl (setInsert eq) acc = acc ++ l := by
    intro acc l
    induction l generalizing acc with
    | nil => simp
    | cons x xs ih =>
      intro hp
      have hx : acc.any (eq x) = false := by
        rw [List.any_eq_false]
        intro a ha
        have := (List.pairwise_append.1 hp).2.2 a ha x List.mem_cons_self
        simp [this]
      simp only [List.foldl_cons, setInsert, hx, Bool.false_eq_true, if_false]
      rw [ih]
      · simp
      · simpa using hp
  have := key [] l (by simpa using h)
  simpa [setCollect] using this

/-! ## Running the step along the headers -/

section run
variable {σ : Type} (f : Header → σ → Header × σ)

/-- The step, applied to a sequence of headers. -/
def runH : List Header → σ → List Header × σ
  | [], s => ([], s)
  | h :: hs, s => let r := f h s; let rs := runH hs r.2; (r.1 :: rs.1, rs.2)

theorem runH_append (a b : List Header) (s : σ) :
    runH f (a ++ b) s = ((runH f a s).1 ++ (runH f b (runH f a s).2).1,
      (runH f b (runH f a s).2).2) := by
  induction a generalizing s with
  | nil => simp [runH]
  | cons h hs ih => simp [runH, ih]

/-- The walk changes the state as running along the headers does. -/
theorem walk_state :
    (∀ o : Obj, ∀ s, (o.walk f s).2 = (runH f (objHeaders o) s).2) ∧
    (∀ n : Node, ∀ s, (n.walk f s).2 = (runH f (nodeHeaders n) s).2) := by
  have hobjs : ∀ l : List Obj, (∀ o ∈ l, ∀ s, (o.walk f s).2 = (runH f (objHeaders o) s).2) →
      ∀ s, (objsWalk f l s).2 = (runH f (objsHeaders l) s).2 := by
    intro l
    induction l with
    | nil => intro _ s; rfl
    | cons o os ih =>
      intro h s
      simp only [objsWalk, objsHeaders, runH_append]
      rw [ih fun o ho => h o (List.mem_cons_of_mem _ ho), h o List.mem_cons_self]
  have hnodes : ∀ l : List Node, (∀ o ∈ l, ∀ s, (o.walk f s).2 = (runH f (nodeHeaders o) s).2) →
      ∀ s, (nodesWalk f l s).2 = (runH f (nodesHeaders l) s).2 := by
    intro l
    induction l with
    | nil => intro _ s; rfl
    | cons o os ih =>
      intro h s
      simp only [nodesWalk, nodesHeaders, runH_append]
      rw [ih fun o ho => h o (List.mem_cons_of_mem _ ho), h o List.mem_cons_self]
  have hps : ∀ l : List (Id × List Obj),
      (∀ p ∈ l, ∀ o ∈ p.2, ∀ s, (o.walk f s).2 = (runH f (objHeaders o) s).2) →
      ∀ s, (psWalk f l s).2 = (runH f (psHeaders l) s).2 := by
    intro l
    induction l with
    | nil => intro _ s; rfl
    | cons o os ih =>
      intro h s
      obtain ⟨k, v⟩ := o
      simp only [psWalk, psHeaders, runH_append]
      rw [ih fun o ho => h o (List.mem_cons_of_mem _ ho), hobjs v (h _ List.mem_cons_self)]
  have hrps : ∀ l : List (Id × List Node),
      (∀ p ∈ l, ∀ o ∈ p.2, ∀ s, (o.walk f s).2 = (runH f (nodeHeaders o) s).2) →
      ∀ s, (rpsWalk f l s).2 = (runH f (rpsHeaders l) s).2 := by
    intro l
    induction l with
    | nil => intro _ s; rfl
    | cons o os ih =>
      intro h s
      obtain ⟨k, v⟩ := o
      simp only [rpsWalk, rpsHeaders, runH_append]
      rw [ih fun o ho => h o (List.mem_cons_of_mem _ ho), hnodes v (h _ List.mem_cons_self)]
  apply Doc.ind
  · intro i v s; rfl
  · intro i l ih s
    simp only [Obj.walk, objHeaders]; exact hobjs l ih s
  · intro n ih s; simp only [Obj.walk, objHeaders]; exact ih s
  · intro i id ty g inc ps rv ihg ihi ihp ihr s
    have e1 : ∀ s, (gWalk f g s).2 = (runH f (gHeaders g) s).2 := by
      intro s
      cases g with
      | none => rfl
      | some l => simp only [gWalk, gHeaders]; exact hobjs l (ihg l rfl) s
    have e2 : ∀ s, (incWalk f inc s).2 = (runH f (incHeaders inc) s).2 := by
      intro s
      cases inc with
      | none => rfl
      | some l => simp only [incWalk, incHeaders]; exact hnodes l (ihi l rfl) s
    have e3 := hps ps ihp
    have e4 : ∀ s, (rvWalk f rv s).2 = (runH f (rvHeaders rv) s).2 := by
      intro s
      cases rv with
      | none => rfl
      | some l => simp only [rvWalk, rvHeaders]; exact hrps l (ihr l rfl) s
    simp only [Node.walk, nodeHeaders, runH, runH_append, e1, e2, e3, e4]

end run

section ok
variable {σ : Type} {f : Header → σ → Header × σ} {fi : Option Id → Option Id} {ti : Id → Id}
  {le : σ → σ → Prop} {I : σ → Prop} {P : Header → Prop} {fin : σ}

/-- The step can be undone, knowing the final state. -/
structure StepOk (f : Header → σ → Header × σ) (fi : Option Id → Option Id) (ti : Id → Id)
    (le : σ → σ → Prop) (I : σ → Prop) (P : Header → Prop) (fin : σ) : Prop where
  refl : ∀ s, le s s
  trans : ∀ s t u, le s t → le t u → le s u
  infl : ∀ h s, le s (f h s).2
  pres : ∀ h s, I s → I (f h s).2
  inv : ∀ h s, I s → P h → le (f h s).2 fin →
    (fi (f h s).1.1, (f h s).1.2.map (List.map ti)) = h

theorem runH_le (ok : StepOk f fi ti le I P fin) (hs : List Header) (s : σ) :
    le s (runH f hs s).2 := by
  induction hs generalizing s with
  | nil => exact ok.refl s
  | cons h hs ih => exact ok.trans _ _ _ (ok.infl h s) (ih _)

theorem runH_I (ok : StepOk f fi ti le I P fin) (hs : List Header) (s : σ) (h : I s) :
    I (runH f hs s).2 := by
  induction hs generalizing s with
  | nil => exact h
  | cons x hs ih => exact ih _ (ok.pres x s h)

/-- What a walk does to a part of a document. -/
def ObjWalkOk (f : Header → σ → Header × σ) (fi : Option Id → Option Id) (ti : Id → Id)
    (le : σ → σ → Prop) (I : σ → Prop) (fin : σ) (o : Obj) : Prop :=
  ∀ s, I s → le (o.walk f s).2 fin → mapObj fi ti (o.walk f s).1 = o ∧
    objHeaders (o.walk f s).1 = (runH f (objHeaders o) s).1

/-- What a walk does to a part of a document. -/
def NodeWalkOk (f : Header → σ → Header × σ) (fi : Option Id → Option Id) (ti : Id → Id)
    (le : σ → σ → Prop) (I : σ → Prop) (fin : σ) (o : Node) : Prop :=
  ∀ s, I s → le (o.walk f s).2 fin → mapNode fi ti (o.walk f s).1 = o ∧
    nodeHeaders (o.walk f s).1 = (runH f (nodeHeaders o) s).1

theorem objsWalk_state (l : List Obj) (s : σ) :
    (objsWalk f l s).2 = (runH f (objsHeaders l) s).2 := by
  induction l generalizing s with
  | nil => rfl
  | cons o os ih =>
    simp only [objsWalk, objsHeaders, runH_append, ih, (walk_state f).1]

theorem nodesWalk_state (l : List Node) (s : σ) :
    (nodesWalk f l s).2 = (runH f (nodesHeaders l) s).2 := by
  induction l generalizing s with
  | nil => rfl
  | cons o os ih =>
    simp only [nodesWalk, nodesHeaders, runH_append, ih, (walk_state f).2]

theorem psWalk_state (l : List (Id × List Obj)) (s : σ) :
    (psWalk f l s).2 = (runH f (psHeaders l) s).2 := by
  induction l generalizing s with
  | nil => rfl
  | cons o os ih =>
    obtain ⟨k, v⟩ := o
    simp only [psWalk, psHeaders, runH_append, ih, objsWalk_state]

theorem rpsWalk_state (l : List (Id × List Node)) (s : σ) :
    (rpsWalk f l s).2 = (runH f (rpsHeaders l) s).2 := by
  induction l generalizing s with
  | nil => rfl
  | cons o os ih =>
    obtain ⟨k, v⟩ := o
    simp only [rpsWalk, rpsHeaders, runH_append, ih, nodesWalk_state]

theorem gWalk_state (g : Option (List Obj)) (s : σ) :
    (gWalk f g s).2 = (runH f (gHeaders g) s).2 := by
  cases g with
  | none => rfl
  | some l => simp only [gWalk, gHeaders, objsWalk_state]

theorem incWalk_state (g : Option (List Node)) (s : σ) :
    (incWalk f g s).2 = (runH f (incHeaders g) s).2 := by
  cases g with
  | none => rfl
  | some l => simp only [incWalk, incHeaders, nodesWalk_state]

theorem rvWalk_state (g : Option (List (Id × List Node))) (s : σ) :
    (rvWalk f g s).2 = (runH f (rvHeaders g) s).2 := by
  cases g with
  | none => rfl
  | some l => simp only [rvWalk, rvHeaders, rpsWalk_state]

theorem objsWalk_ok (ok : StepOk f fi ti le I P fin) {l : List Obj}
    (h : ∀ o ∈ l, ObjWalkOk f fi ti le I fin o) (s : σ) (hI : I s) (hle : le (objsWalk f l s).2 fin) :
    mapObjs fi ti (objsWalk f l s).1 = l ∧
      objsHeaders (objsWalk f l s).1 = (runH f (objsHeaders l) s).1 := by
  induction l generalizing s with
  | nil => exact ⟨rfl, rfl⟩
  | cons o os ih =>
    have hle1 : le (objsWalk f os (o.walk f s).2).2 fin := hle
    have h1 := h o List.mem_cons_self s hI (ok.trans _ _ _
      (by rw [objsWalk_state]; exact runH_le ok _ _) hle1)
    have h2 := ih (fun o ho => h o (List.mem_cons_of_mem _ ho)) _ (by
      rw [(walk_state f).1]; exact runH_I ok _ _ hI) hle1
    simp only [(walk_state f).1] at h1 h2
    simp only [objsWalk, mapObjs, objsHeaders, runH_append, (walk_state f).1, h1, h2, and_self]

theorem nodesWalk_ok (ok : StepOk f fi ti le I P fin) {l : List Node}
    (h : ∀ o ∈ l, NodeWalkOk f fi ti le I fin o) (s : σ) (hI : I s) (hle : le (nodesWalk f l s).2 fin) :
    mapNodes fi ti (nodesWalk f l s).1 = l ∧
      nodesHeaders (nodesWalk f l s).1 = (runH f (nodesHeaders l) s).1 := by
  induction l generalizing s with
  | nil => exact ⟨rfl, rfl⟩
  | cons o os ih =>
    have hle1 : le (nodesWalk f os (o.walk f s).2).2 fin := hle
    have h1 := h o List.mem_cons_self s hI (ok.trans _ _ _
      (by rw [nodesWalk_state]; exact runH_le ok _ _) hle1)
    have h2 := ih (fun o ho => h o (List.mem_cons_of_mem _ ho)) _ (by
      rw [(walk_state f).2]; exact runH_I ok _ _ hI) hle1
    simp only [(walk_state f).2] at h1 h2
    simp only [nodesWalk, mapNodes, nodesHeaders, runH_append, (walk_state f).2, h1, h2, and_self]

theorem psWalk_ok (ok : StepOk f fi ti le I P fin) {l : List (Id × List Obj)}
    (h : ∀ p ∈ l, ∀ o ∈ p.2, ObjWalkOk f fi ti le I fin o) (s : σ)
    (hI : I s) (hle : le (psWalk f l s).2 fin) :
    mapPs fi ti (psWalk f l s).1 = l ∧
      psHeaders (psWalk f l s).1 = (runH f (psHeaders l) s).1 := by
  induction l generalizing s with
  | nil => exact ⟨rfl, rfl⟩
  | cons o os ih =>
    obtain ⟨k, v⟩ := o
    have hle1 : le (psWalk f os (objsWalk f v s).2).2 fin := hle
    have h1 := objsWalk_ok ok (h _ List.mem_cons_self) s hI (ok.trans _ _ _
      (by rw [psWalk_state]; exact runH_le ok _ _) hle1)
    have h2 := ih (fun o ho => h o (List.mem_cons_of_mem _ ho)) _ (by
      rw [objsWalk_state]; exact runH_I ok _ _ hI) hle1
    simp only [objsWalk_state] at h1 h2
    simp only [psWalk, mapPs, psHeaders, runH_append, objsWalk_state, h1, h2, and_self]

theorem rpsWalk_ok (ok : StepOk f fi ti le I P fin) {l : List (Id × List Node)}
    (h : ∀ p ∈ l, ∀ o ∈ p.2, NodeWalkOk f fi ti le I fin o) (s : σ)
    (hI : I s) (hle : le (rpsWalk f l s).2 fin) :
    mapRps fi ti (rpsWalk f l s).1 = l ∧
      rpsHeaders (rpsWalk f l s).1 = (runH f (rpsHeaders l) s).1 := by
  induction l generalizing s with
  | nil => exact ⟨rfl, rfl⟩
  | cons o os ih =>
    obtain ⟨k, v⟩ := o
    have hle1 : le (rpsWalk f os (nodesWalk f v s).2).2 fin := hle
    have h1 := nodesWalk_ok ok (h _ List.mem_cons_self) s hI (ok.trans _ _ _
      (by rw [rpsWalk_state]; exact runH_le ok _ _) hle1)
    have h2 := ih (fun o ho => h o (List.mem_cons_of_mem _ ho)) _ (by
      rw [nodesWalk_state]; exact runH_I ok _ _ hI) hle1
    simp only [nodesWalk_state] at h1 h2
    simp only [rpsWalk, mapRps, rpsHeaders, runH_append, nodesWalk_state, h1, h2, and_self]

/-- Nothing collapses when the rewritten set can be mapped back. -/
theorem collect_objs {l r : List Obj} (hm : mapObjs fi ti r = l) (hw : gWF (some l)) :
    setCollect Obj.eq r = r := by
  apply setCollect_of_pairwise
  rw [mapObjs_eq] at hm
  subst hm
  simp only [gWF, objsWF_iff, List.pairwise_map, List.forall_mem_map] at hw
  have hmem : r.Pairwise fun a b => a ∈ r ∧ b ∈ r :=
    List.pairwise_of_forall_mem_list fun a ha b hb => ⟨ha, hb⟩
  refine (hmem.and hw.1).imp ?_
  rintro a b ⟨⟨ha, hb⟩, hne⟩
  cases hab : b.eq a with
  | false => rfl
  | true =>
    have := (eq_map fi ti).1 b a (hw.2 b hb) (hw.2 a ha) hab
    simp [this] at hne

/-- Nothing collapses when the rewritten set can be mapped back. -/
theorem collect_nodes {l r : List Node} (hm : mapNodes fi ti r = l) (hw : incWF (some l)) :
    setCollect Node.eq r = r := by
  apply setCollect_of_pairwise
  rw [mapNodes_eq] at hm
  subst hm
  simp only [incWF, nodesWF_iff, List.pairwise_map, List.forall_mem_map] at hw
  have hmem : r.Pairwise fun a b => a ∈ r ∧ b ∈ r :=
    List.pairwise_of_forall_mem_list fun a ha b hb => ⟨ha, hb⟩
  refine (hmem.and hw.1).imp ?_
  rintro a b ⟨⟨ha, hb⟩, hne⟩
  cases hab : b.eq a with
  | false => rfl
  | true =>
    have := (eq_map fi ti).2 b a (hw.2 b hb) (hw.2 a ha) hab
    simp [this] at hne

theorem mem_objsHeaders {h : Header} {l : List Obj} {o : Obj} (ho : o ∈ l)
    (hh : h ∈ objHeaders o) : h ∈ objsHeaders l := by
  induction l with
  | nil => cases ho
  | cons x xs ih =>
    simp only [objsHeaders, List.mem_append]
    rcases List.mem_cons.1 ho with rfl | ho
    · exact .inl hh
    · exact .inr (ih ho)

theorem mem_nodesHeaders {h : Header} {l : List Node} {o : Node} (ho : o ∈ l)
    (hh : h ∈ nodeHeaders o) : h ∈ nodesHeaders l := by
  induction l with
  | nil => cases ho
  | cons x xs ih =>
    simp only [nodesHeaders, List.mem_append]
    rcases List.mem_cons.1 ho with rfl | ho
    · exact .inl hh
    · exact .inr (ih ho)

theorem mem_psHeaders {h : Header} {l : List (Id × List Obj)} {p} {o : Obj} (hp : p ∈ l)
    (ho : o ∈ p.2) (hh : h ∈ objHeaders o) : h ∈ psHeaders l := by
  induction l with
  | nil => cases hp
  | cons x xs ih =>
    obtain ⟨k, v⟩ := x
    simp only [psHeaders, List.mem_append]
    rcases List.mem_cons.1 hp with rfl | hp
    · exact .inl (mem_objsHeaders ho hh)
    · exact .inr (ih hp)

theorem mem_rpsHeaders {h : Header} {l : List (Id × List Node)} {p} {o : Node} (hp : p ∈ l)
    (ho : o ∈ p.2) (hh : h ∈ nodeHeaders o) : h ∈ rpsHeaders l := by
  induction l with
  | nil => cases hp
  | cons x xs ih =>
    obtain ⟨k, v⟩ := x
    simp only [rpsHeaders, List.mem_append]
    rcases List.mem_cons.1 hp with rfl | hp
    · exact .inl (mem_nodesHeaders ho hh)
    · exact .inr (ih hp)

theorem walk_ok (ok : StepOk f fi ti le I P fin) :
    (∀ o : Obj, o.WF → (∀ h ∈ objHeaders o, P h) → ObjWalkOk f fi ti le I fin o) ∧
    (∀ n : Node, n.WF → (∀ h ∈ nodeHeaders n, P h) → NodeWalkOk f fi ti le I fin n) := by
  apply Doc.ind
  · intro i v _ _ s _ _; exact ⟨rfl, rfl⟩
  · intro i l ih hw hP s hI hle
    simp only [Obj.WF, objsWF_iff] at hw
    have := objsWalk_ok ok (fun o ho => ih o ho (hw o ho) fun h hh =>
      hP h (mem_objsHeaders ho hh)) s hI hle
    simp only [Obj.walk, mapObj, objHeaders, this, and_self]
  · intro n ih hw hP s hI hle
    have := ih hw hP s hI hle
    simp only [Obj.walk, mapObj, objHeaders, this, and_self]
  · intro i id ty g inc ps rv ihg ihi ihp ihr hw hP s hI hle
    obtain ⟨wg, winc, wk, wps, wrv⟩ := hw
    simp only [nodeHeaders, List.forall_mem_cons, List.forall_mem_append] at hP
    obtain ⟨hP0, ⟨⟨hPg, hPi⟩, hPp⟩, hPr⟩ := hP
    have l4 : le (rvWalk f rv (psWalk f ps (incWalk f inc (gWalk f g
      (f (id, ty) s).2).2).2).2).2 fin := hle
    have l3 : le (psWalk f ps (incWalk f inc (gWalk f g (f (id, ty) s).2).2).2).2 fin :=
      ok.trans _ _ _ (by rw [rvWalk_state]; exact runH_le ok _ _) l4
    have l2 : le (incWalk f inc (gWalk f g (f (id, ty) s).2).2).2 fin :=
      ok.trans _ _ _ (by rw [psWalk_state]; exact runH_le ok _ _) l3
    have l1 : le (gWalk f g (f (id, ty) s).2).2 fin :=
      ok.trans _ _ _ (by rw [incWalk_state]; exact runH_le ok _ _) l2
    have l0 : le (f (id, ty) s).2 fin :=
      ok.trans _ _ _ (by rw [gWalk_state]; exact runH_le ok _ _) l1
    have h0 := ok.inv (id, ty) s hI hP0 l0
    have i0 := ok.pres (id, ty) s hI
    have i1 : I (gWalk f g (f (id, ty) s).2).2 := by
      rw [gWalk_state]; exact runH_I ok _ _ i0
    have i2 : I (incWalk f inc (gWalk f g (f (id, ty) s).2).2).2 := by
      rw [incWalk_state]; exact runH_I ok _ _ i1
    have i3 : I (psWalk f ps (incWalk f inc (gWalk f g (f (id, ty) s).2).2).2).2 := by
      rw [psWalk_state]; exact runH_I ok _ _ i2
    have h1 : mapG fi ti (gWalk f g (f (id, ty) s).2).1 = g ∧
        gHeaders (gWalk f g (f (id, ty) s).2).1 = (runH f (gHeaders g) (f (id, ty) s).2).1 := by
      cases g with
      | none => exact ⟨rfl, rfl⟩
      | some l =>
        have := objsWalk_ok ok (fun o ho => ihg l rfl o ho (objsWF_iff.1 wg.2 o ho) fun h hh =>
          hPg h (mem_objsHeaders ho hh)) (f (id, ty) s).2 i0 l1
        have hc := collect_objs this.1 wg
        simp only [gWalk, mapG, gHeaders, hc, this, and_self]
    have h2 : ∀ s', I s' → le (incWalk f inc s').2 fin → mapInc fi ti (incWalk f inc s').1 = inc ∧
        incHeaders (incWalk f inc s').1 = (runH f (incHeaders inc) s').1 := by
      intro s' hI' l2
      cases inc with
      | none => exact ⟨rfl, rfl⟩
      | some l =>
        have := nodesWalk_ok ok (fun o ho => ihi l rfl o ho (nodesWF_iff.1 winc.2 o ho) fun h hh =>
          hPi h (mem_nodesHeaders ho hh)) s' hI' l2
        have hc := collect_nodes this.1 winc
        simp only [incWalk, mapInc, incHeaders, hc, this, and_self]
    have h3 := fun s' hI' l3 => psWalk_ok ok (fun p hp o ho => ihp p hp o ho
      (psWF_iff.1 wps p hp o ho) fun h hh => hPp h (mem_psHeaders hp ho hh)) s' hI' l3
    have h4 : ∀ s', I s' → le (rvWalk f rv s').2 fin → mapRv fi ti (rvWalk f rv s').1 = rv ∧
        rvHeaders (rvWalk f rv s').1 = (runH f (rvHeaders rv) s').1 := by
      intro s' hI' l4
      cases rv with
      | none => exact ⟨rfl, rfl⟩
      | some l =>
        have := rpsWalk_ok ok (fun p hp o ho => ihr l rfl p hp o ho
          (rpsWF_iff.1 wrv.2 p hp o ho) fun h hh => hPr h (mem_rpsHeaders hp ho hh)) s' hI' l4
        simp only [rvWalk, mapRv, rvHeaders, this, and_self]
    have h2' := h2 _ i1 l2
    have h3' := h3 _ i2 l3
    have h4' := h4 _ i3 l4
    simp only [Prod.mk.injEq] at h0
    constructor
    · simp only [Node.walk, mapNode, h0, h1, h2', h3', h4']
    · simp only [gWalk_state, incWalk_state, psWalk_state] at h1 h2' h3' h4'
      simp only [Node.walk, nodeHeaders, runH, runH_append, gWalk_state, incWalk_state,
        psWalk_state, h1, h2', h3', h4']

/-- A reversible walk rewrites identifiers and types, and nothing else. -/
theorem doc_walk_ok (ok : StepOk f fi ti le I P fin) {d : Doc} (hw : d.WF)
    (hP : ∀ h ∈ docHeaders d, P h) (s : σ) (hI : I s) (hle : le (runH f (docHeaders d) s).2 fin) :
    mapDoc fi ti (d.walk f s).1 = d ∧ docHeaders (d.walk f s).1 = (runH f (docHeaders d) s).1 ∧
      (d.walk f s).2 = (runH f (docHeaders d) s).2 := by
  have hw' := objsWF_iff.1 hw.2
  have h1 := objsWalk_ok ok (l := d) (fun o ho => (walk_ok ok).1 o (hw' o ho) fun h hh =>
    hP h (mem_objsHeaders ho hh)) s hI (by rw [objsWalk_state]; exact hle)
  have hc := collect_objs h1.1 hw
  simp only [Doc.walk, hc]
  exact ⟨h1.1, h1.2, objsWalk_state d s⟩

end ok

end JsonLd
