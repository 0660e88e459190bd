import Verif.Model.MapIds
import Verif.Spec.MapIds
import Verif.Proofs.PropMap
import Verif.Proofs.MappedEq
import Verif.Proofs.Canonical
/-!
# `map_ids`: lemmas
-/

namespace JsonLd
open Spec

section
variable {f : Id → Id} {g : Str → Str}

theorem objsMapIds_map (l : List Obj) : objsMapIds f g l = l.map (Obj.mapIds f g) := by
  induction l with
  | nil => rfl
  | cons o l ih => simp [objsMapIds, ih]

theorem nodesMapIds_map (l : List Node) : nodesMapIds f g l = l.map (Node.mapIds f g) := by
  induction l with
  | nil => rfl
  | cons o l ih => simp [nodesMapIds, ih]

theorem psMapIds_map (l : List (Id × List Obj)) :
    psMapIds f g l = l.map fun p => (f p.1, p.2.map (Obj.mapIds f g)) := by
  induction l with
  | nil => rfl
  | cons o l ih => obtain ⟨k, os⟩ := o; simp [psMapIds, ih, objsMapIds_map]

theorem rpsMapIds_map (l : List (Id × List Node)) :
    rpsMapIds f g l = l.map fun p => (f p.1, p.2.map (Node.mapIds f g)) := by
  induction l with
  | nil => rfl
  | cons o l ih => obtain ⟨k, os⟩ := o; simp [rpsMapIds, ih, nodesMapIds_map]

theorem replaceObjs_map (l : List Obj) : replaceObjs f g l = l.map (replaceObj f g) := by
  induction l with
  | nil => rfl
  | cons o l ih => simp [replaceObjs, ih]

theorem replaceNodes_map (l : List Node) : replaceNodes f g l = l.map (replaceNode f g) := by
  induction l with
  | nil => rfl
  | cons o l ih => simp [replaceNodes, ih]

theorem replacePs_map (l : List (Id × List Obj)) :
    replacePs f g l = l.map fun p => (f p.1, p.2.map (replaceObj f g)) := by
  induction l with
  | nil => rfl
  | cons o l ih => obtain ⟨k, os⟩ := o; simp [replacePs, ih, replaceObjs_map]

theorem replaceRps_map (l : List (Id × List Node)) :
    replaceRps f g l = l.map fun p => (f p.1, p.2.map (replaceNode f g)) := by
  induction l with
  | nil => rfl
  | cons o l ih => obtain ⟨k, os⟩ := o; simp [replaceRps, ih, replaceNodes_map]

theorem replaceG_map (o : Option (List Obj)) :
    replaceG f g o = o.map (List.map (replaceObj f g)) := by
  cases o <;> simp [replaceG, replaceObjs_map]

theorem replaceInc_map (o : Option (List Node)) :
    replaceInc f g o = o.map (List.map (replaceNode f g)) := by
  cases o <;> simp [replaceInc, replaceNodes_map]

theorem replaceRv_map (o : Option (List (Id × List Node))) :
    replaceRv f g o = o.map (List.map fun p => (f p.1, p.2.map (replaceNode f g))) := by
  cases o <;> simp [replaceRv, replaceRps_map]

theorem retype_mapIds (v : Value) : v.mapIds g = retypeValue g v := by
  cases v with
  | literal l t => cases t <;> rfl
  | langString s => rfl
  | json j => rfl

/-! ## Replacing different identifiers by different identifiers -/

/-- The identifiers and the types in the item belong to the given sets. -/
def ItemIn (S : Id → Prop) (T : Str → Prop) (x : Item) : Prop :=
  (∀ n i, Relation.ReflTransGen PartL (.node n) x → WritesId n i → S i) ∧
  (∀ i l t, Relation.ReflTransGen PartL (.obj (.value i (.literal l (some t)))) x → T t)

theorem ItemIn.part {S : Id → Prop} {T : Str → Prop} {x y : Item} (h : ItemIn S T x)
    (hp : PartL y x) : ItemIn S T y :=
  ⟨fun n i hr => h.1 n i (hr.tail hp), fun i l t hr => h.2 i l t (hr.tail hp)⟩

/-- The function is injective on the set. -/
def InjIn {α β : Type} (S : α → Prop) (f : α → β) : Prop := ∀ a b, S a → S b → f a = f b → a = b

theorem InjIn.iff {α β : Type} {S : α → Prop} {f : α → β} (h : InjIn S f) {a b : α} (ha : S a)
    (hb : S b) : f a = f b ↔ a = b := ⟨h a b ha hb, fun e => by rw [e]⟩

theorem retype_eq {T : Str → Prop} (hg : InjIn T g) {i j : Option Str} {v w : Value}
    (hv : ItemIn (fun _ => True) T (.obj (.value i v))) (hw : ItemIn (fun _ => True) T (.obj (.value j w))) :
    (retypeValue g v).eq (retypeValue g w) = v.eq w := by
  cases v with
  | literal l t =>
    cases w with
    | literal l' t' =>
      cases t with
      | none => cases t' <;> simp [retypeValue, Value.eq]
      | some t =>
        cases t' with
        | none => simp [retypeValue, Value.eq]
        | some t' =>
          simp only [retypeValue, Value.eq]
          have := hg.iff (hv.2 i l t .refl) (hw.2 j l' t' .refl)
          simp [this]
    | langString s => cases t <;> simp [retypeValue, Value.eq]
    | json s => cases t <;> simp [retypeValue, Value.eq]
  | langString s => cases w with
    | literal l t => cases t <;> simp [retypeValue, Value.eq]
    | _ => rfl
  | json s => cases w with
    | literal l t => cases t <;> simp [retypeValue, Value.eq]
    | _ => rfl

theorem lookupProp_replace {S : Id → Prop} (hf : InjIn S f) {α β : Type} (h : α → β) {k : Id}
    (hk : S k) {l : List (Id × α)} (hl : ∀ p ∈ l, S p.1) :
    lookupProp (f k) (l.map fun p => (f p.1, h p.2)) = (lookupProp k l).map h := by
  induction l with
  | nil => rfl
  | cons p l ih =>
    obtain ⟨k', a⟩ := p
    have hk' : S k' := hl _ List.mem_cons_self
    simp only [List.map_cons, lookupProp, hf.iff hk' hk]
    split
    · rfl
    · exact ih fun p hp => hl p (List.mem_cons_of_mem _ hp)

theorem unordered_replace {α : Type} {eq : α → α → Bool} {r : α → α} {as bs : List α}
    (h : ∀ a ∈ as, ∀ b ∈ bs, eq (r a) (r b) = eq a b) :
    unorderedEq eq (as.map r) (bs.map r) = unorderedEq eq as bs := by
  rw [unorderedEq_map_left, unorderedEq_map_right]
  exact unorderedEq_congr h

theorem ids_replace {S : Id → Prop} (hf : InjIn S f) {as bs : Option (List Id)}
    (ha : ∀ l, as = some l → ∀ i ∈ l, S i) (hb : ∀ l, bs = some l → ∀ i ∈ l, S i) :
    idsOptEq (as.map (List.map f)) (bs.map (List.map f)) = idsOptEq as bs := by
  cases as with
  | none => cases bs <;> rfl
  | some as =>
    cases bs with
    | none => rfl
    | some bs =>
      simp only [Option.map_some, idsOptEq, idsEq]
      apply unordered_replace
      intro a h b h'
      simp [hf.iff (ha as rfl a h) (hb bs rfl b h')]

theorem subset_replace {α : Type} {eq : α → α → Bool} {r : α → α} {as bs : List α}
    (h : ∀ a ∈ as, ∀ b ∈ bs, eq (r a) (r b) = eq a b) :
    (∀ x ∈ as.map r, ∃ y ∈ bs.map r, eq x y = true) ↔ ∀ x ∈ as, ∃ y ∈ bs, eq x y = true := by
  simp only [List.mem_map, forall_exists_index, and_imp, forall_apply_eq_imp_iff₂,
    exists_exists_and_eq_and]
  constructor
  · intro hh a ha
    obtain ⟨b, hb, he⟩ := hh a ha
    exact ⟨b, hb, by rw [← h a ha b hb]; exact he⟩
  · intro hh a ha
    obtain ⟨b, hb, he⟩ := hh a ha
    exact ⟨b, hb, by rw [h a ha b hb]; exact he⟩

theorem map_replace {S : Id → Prop} (hf : InjIn S f) {α : Type} {eq : α → α → Bool} {r : α → α}
    {as bs : List (Id × List α)} (ha : ∀ p ∈ as, S p.1) (hb : ∀ p ∈ bs, S p.1)
    (h : ∀ p ∈ as, ∀ q ∈ bs, ∀ a ∈ p.2, ∀ b ∈ q.2, eq (r a) (r b) = eq a b) :
    (∀ p ∈ as.map fun p => (f p.1, p.2.map r), ∃ v,
        lookupProp p.1 (bs.map fun p => (f p.1, p.2.map r)) = some v ∧
        unorderedEq eq p.2 v = true) ↔
      ∀ p ∈ as, ∃ v, lookupProp p.1 bs = some v ∧ unorderedEq eq p.2 v = true := by
  simp only [List.mem_map, forall_exists_index, and_imp, forall_apply_eq_imp_iff₂]
  constructor
  · intro hh p hp
    obtain ⟨v, hv, he⟩ := hh p hp
    rw [lookupProp_replace hf (List.map r) (ha p hp) hb] at hv
    obtain ⟨w, hw, rfl⟩ := Option.map_eq_some_iff.1 hv
    refine ⟨w, hw, ?_⟩
    rw [← unordered_replace (h p hp (p.1, w) (lookupProp_mem hw))]
    exact he
  · intro hh p hp
    obtain ⟨w, hw, he⟩ := hh p hp
    refine ⟨w.map r, ?_, ?_⟩
    · rw [lookupProp_replace hf (List.map r) (ha p hp) hb, hw]; rfl
    · rw [unordered_replace (h p hp (p.1, w) (lookupProp_mem hw))]
      exact he

theorem itemIn_true {S : Id → Prop} {T : Str → Prop} {x : Item} (h : ItemIn S T x) :
    ItemIn (fun _ => True) T x := ⟨fun _ _ _ _ => trivial, h.2⟩

theorem replace_eq {S : Id → Prop} {T : Str → Prop} (hf : InjIn S f) (hg : InjIn T g) :
    (∀ a : Obj, ItemIn S T (.obj a) → ∀ b : Obj, ItemIn S T (.obj b) →
      (replaceObj f g a).eq (replaceObj f g b) = a.eq b) ∧
    (∀ n : Node, ItemIn S T (.node n) → ∀ m : Node, ItemIn S T (.node m) →
      (replaceNode f g n).eq (replaceNode f g m) = n.eq m) := by
  refine Doc.ind ?_ ?_ ?_ ?_
  · intro i v ha b hb
    cases b with
    | value j w =>
      simp only [replaceObj, Obj.eq]
      rw [retype_eq hg (itemIn_true ha) (itemIn_true hb)]
    | list j l => simp [replaceObj, Obj.eq]
    | node m => simp [replaceObj, Obj.eq]
  · intro i l ih ha b hb
    cases b with
    | value j w => simp [replaceObj, Obj.eq]
    | node m => simp [replaceObj, Obj.eq]
    | list j m =>
      simp only [replaceObj, Obj.eq, replaceObjs_map]
      congr 1
      have ha' : ∀ o ∈ l, ItemIn S T (.obj o) := fun o ho => ha.part (.item ho)
      have hb' : ∀ o ∈ m, ItemIn S T (.obj o) := fun o ho => hb.part (.item ho)
      clear ha hb
      induction l generalizing m with
      | nil => cases m <;> simp [objsListEq]
      | cons x l ihl =>
        cases m with
        | nil => simp [objsListEq]
        | cons y m =>
          simp only [List.map_cons, objsListEq]
          rw [ih x List.mem_cons_self (ha' x List.mem_cons_self) y (hb' y List.mem_cons_self),
            ihl (fun o ho => ih o (List.mem_cons_of_mem _ ho)) m
              (fun o ho => ha' o (List.mem_cons_of_mem _ ho))
              (fun o ho => hb' o (List.mem_cons_of_mem _ ho))]
  · intro n ih ha b hb
    cases b with
    | value j w => simp [replaceObj, Obj.eq]
    | list j l => simp [replaceObj, Obj.eq]
    | node m =>
      simp only [replaceObj, Obj.eq]
      exact ih (ha.part (.part (.self n))) m (hb.part (.part (.self m)))
  · intro i id ty gr inc ps rv ihg ihi ihp ihr ha m hb
    obtain ⟨i', id', ty', gr', inc', ps', rv'⟩ := m
    have hid : (decide (id.map f = id'.map f)) = decide (id = id') := by
      cases id with
      | none => cases id' <;> simp
      | some x =>
        cases id' with
        | none => simp
        | some y =>
          have := hf.iff (ha.1 _ x .refl (.inl rfl)) (hb.1 _ y .refl (.inl rfl))
          simp [this]
    have hty := ids_replace hf (as := ty) (bs := ty')
      (fun l hl i hi => ha.1 _ i .refl (.inr (.inl ⟨l, hl, hi⟩)))
      (fun l hl i hi => hb.1 _ i .refl (.inr (.inl ⟨l, hl, hi⟩)))
    have hgr : objsOptEq (gr.map (List.map (replaceObj f g))) (gr'.map (List.map (replaceObj f g))) =
        objsOptEq gr gr' := by
      cases gr with
      | none => cases gr' <;> simp [objsOptEq]
      | some l =>
        cases gr' with
        | none => simp [objsOptEq]
        | some l' =>
          simp only [Option.map_some, objsOptEq, List.length_map]
          congr 1
          rw [Bool.eq_iff_iff, objsSubset_iff, objsSubset_iff]
          exact subset_replace fun a h b h' => ihg l rfl a h (ha.part (.part (.graph rfl h))) b
            (hb.part (.part (.graph rfl h')))
    have hinc : nodesOptEq (inc.map (List.map (replaceNode f g))) (inc'.map (List.map (replaceNode f g))) =
        nodesOptEq inc inc' := by
      cases inc with
      | none => cases inc' <;> simp [nodesOptEq]
      | some l =>
        cases inc' with
        | none => simp [nodesOptEq]
        | some l' =>
          simp only [Option.map_some, nodesOptEq, List.length_map]
          congr 1
          rw [Bool.eq_iff_iff, nodesSubset_iff, nodesSubset_iff]
          exact subset_replace fun a h b h' => ihi l rfl a h (ha.part (.part (.included rfl h))) b
            (hb.part (.part (.included rfl h')))
    have hps : propsEq (ps.map fun p => (f p.1, p.2.map (replaceObj f g)))
        (ps'.map fun p => (f p.1, p.2.map (replaceObj f g))) = propsEq ps ps' := by
      simp only [propsEq_eq, List.length_map]
      congr 1
      rw [Bool.eq_iff_iff, propsSub_iff, propsSub_iff]
      exact map_replace hf
        (fun p hp => ha.1 _ p.1 .refl (.inr (.inr (.inl ⟨p.2, hp⟩))))
        (fun p hp => hb.1 _ p.1 .refl (.inr (.inr (.inl ⟨p.2, hp⟩))))
        (fun p hp q hq a h b h' => ihp p hp a h (ha.part (.part (.property (k := p.1) hp h))) b
          (hb.part (.part (.property (k := q.1) hq h'))))
    have hrv : rpropsOptEq (rv.map (List.map fun p => (f p.1, p.2.map (replaceNode f g))))
        (rv'.map (List.map fun p => (f p.1, p.2.map (replaceNode f g)))) = rpropsOptEq rv rv' := by
      cases rv with
      | none => cases rv' <;> simp [rpropsOptEq]
      | some r =>
        cases rv' with
        | none => simp [rpropsOptEq]
        | some r' =>
          simp only [Option.map_some, rpropsOptEq, List.length_map]
          congr 1
          rw [Bool.eq_iff_iff, rpropsSub_iff, rpropsSub_iff]
          exact map_replace hf
            (fun p hp => ha.1 _ p.1 .refl (.inr (.inr (.inr ⟨r, p.2, rfl, hp⟩))))
            (fun p hp => hb.1 _ p.1 .refl (.inr (.inr (.inr ⟨r', p.2, rfl, hp⟩))))
            (fun p hp q hq a h b h' => ihr r rfl p hp a h
              (ha.part (.part (.reverse (k := p.1) rfl hp h))) b
              (hb.part (.part (.reverse (k := q.1) rfl hq h'))))
    simp only [replaceNode, replaceG_map, replaceInc_map, replacePs_map, replaceRv_map, Node.eq]
    rw [hty, hgr, hinc, hps, hrv]
    congr 6

theorem fromIter_nodup {α : Type} {es : List (Id × List α)} (h : (es.map Prod.fst).Nodup) :
    PropMap.fromIter es = es := by
  have key : ∀ (es acc : List (Id × List α)), ((acc ++ es).map Prod.fst).Nodup →
      PropMap.extend acc es = acc ++ es := by
    intro es
    induction es with
    | nil => intro acc _; simp [PropMap.extend]
    | cons e es ih =>
      intro acc h
      have hk : e.1 ∉ acc.map Prod.fst := by
        rw [List.map_append, List.nodup_append] at h
        intro hm
        exact h.2.2 _ hm _ (by simp) rfl
      have e1 : PropMap.extend acc (e :: es) = PropMap.extend (PropMap.insertAll acc e.1 e.2) es := rfl
      have e2 : PropMap.insertAll acc e.1 e.2 = acc ++ [e] := by
        unfold PropMap.insertAll
        rw [lookupProp_eq_none.2 hk]
      rw [e1, e2, ih]
      · simp
      · simpa using h
  exact key es [] h

theorem nodup_replace {S : Id → Prop} (hf : InjIn S f) {α β : Type} {r : α → β}
    {ps : List (Id × α)} (hs : ∀ p ∈ ps, S p.1) (h : (ps.map Prod.fst).Nodup) :
    ((ps.map fun p => (f p.1, r p.2)).map Prod.fst).Nodup := by
  rw [List.map_map]
  have : (Prod.fst ∘ fun p : Id × α => (f p.1, r p.2)) = f ∘ Prod.fst := rfl
  rw [this, ← List.map_map]
  refine List.Nodup.map_on ?_ h
  intro a ha b hb
  obtain ⟨p, hp, rfl⟩ := List.mem_map.1 ha
  obtain ⟨q, hq, rfl⟩ := List.mem_map.1 hb
  exact hf _ _ (hs p hp) (hs q hq)

theorem set_replace {α : Type} {eq : α → α → Bool} {r : α → α} {l : List α}
    (h : ∀ a ∈ l, ∀ b ∈ l, eq (r a) (r b) = eq a b) (hp : l.Pairwise fun a b => eq b a = false) :
    setCollect eq (l.map r) = l.map r := by
  apply setCollect_of_pairwise
  rw [List.pairwise_map]
  exact hp.imp_of_mem fun ha hb hn => by rw [h _ hb _ ha]; exact hn

/-- With a function that is injective on the identifiers of the object, nothing is merged. -/
theorem mapIds_exact {S : Id → Prop} {T : Str → Prop} (hf : InjIn S f) (hg : InjIn T g) :
    (∀ o : Obj, ItemIn S T (.obj o) → o.WF → o.mapIds f g = replaceObj f g o) ∧
    (∀ n : Node, ItemIn S T (.node n) → n.WF → n.mapIds f g = replaceNode f g n) := by
  obtain ⟨eo, en⟩ := replace_eq hf hg
  refine Doc.ind ?_ ?_ ?_ ?_
  · intro i v _ _
    simp [Obj.mapIds, replaceObj, retype_mapIds]
  · intro i l ih ha hw
    simp only [Obj.mapIds, replaceObj, objsMapIds_map, replaceObjs_map]
    rw [List.map_congr_left fun o ho => ih o ho (ha.part (.item ho)) (objsWF_iff.1 hw o ho)]
  · intro n ih ha hw
    simp only [Obj.mapIds, replaceObj, ih (ha.part (.part (.self n))) hw]
  · intro i id ty gr inc ps rv ihg ihi ihp ihr ha hw
    obtain ⟨wg, wi, wk, wp, wr⟩ := hw
    have hgr : gMapIds f g gr = replaceG f g gr := by
      cases gr with
      | none => rfl
      | some l =>
        have hin : ∀ o ∈ l, ItemIn S T (.obj o) := fun o ho => ha.part (.part (.graph rfl ho))
        simp only [gMapIds, replaceG, objsMapIds_map, replaceObjs_map]
        rw [List.map_congr_left fun o ho => ihg l rfl o ho (hin o ho) (objsWF_iff.1 wg.2 o ho),
          set_replace (fun a h b h' => eo a (hin a h) b (hin b h')) wg.1]
    have hinc : incMapIds f g inc = replaceInc f g inc := by
      cases inc with
      | none => rfl
      | some l =>
        have hin : ∀ o ∈ l, ItemIn S T (.node o) := fun o ho => ha.part (.part (.included rfl ho))
        simp only [incMapIds, replaceInc, nodesMapIds_map, replaceNodes_map]
        rw [List.map_congr_left fun o ho => ihi l rfl o ho (hin o ho) (nodesWF_iff.1 wi.2 o ho),
          set_replace (fun a h b h' => en a (hin a h) b (hin b h')) wi.1]
    have hps : PropMap.fromIter (psMapIds f g ps) = replacePs f g ps := by
      have e : psMapIds f g ps = replacePs f g ps := by
        rw [psMapIds_map, replacePs_map]
        refine List.map_congr_left fun p hp => ?_
        rw [List.map_congr_left fun o ho => ihp p hp o ho
          (ha.part (.part (.property (k := p.1) hp ho))) (psWF_iff.1 wp p hp o ho)]
      rw [e, fromIter_nodup]
      rw [replacePs_map]
      exact nodup_replace hf (fun p hp => ha.1 _ p.1 .refl (.inr (.inr (.inl ⟨p.2, hp⟩)))) wk
    have hrv : rvMapIds f g rv = replaceRv f g rv := by
      cases rv with
      | none => rfl
      | some r =>
        simp only [rvMapIds, replaceRv]
        have e : rpsMapIds f g r = replaceRps f g r := by
          rw [rpsMapIds_map, replaceRps_map]
          refine List.map_congr_left fun p hp => ?_
          rw [List.map_congr_left fun o ho => ihr r rfl p hp o ho
            (ha.part (.part (.reverse (k := p.1) rfl hp ho))) (rpsWF_iff.1 wr.2 p hp o ho)]
        rw [e, fromIter_nodup]
        rw [replaceRps_map]
        exact nodup_replace hf
          (fun p hp => ha.1 _ p.1 .refl (.inr (.inr (.inr ⟨r, p.2, rfl, hp⟩)))) wr.1
    simp only [Node.mapIds, replaceNode, hgr, hinc, hps, hrv]

/-! ## Any functions -/

theorem fromIter_keys {α : Type} (es : List (Id × List α)) :
    ((PropMap.fromIter es).map Prod.fst).Nodup :=
  PropMap.nodup_run (fun _ _ => false) [.extend es]

theorem fromIter_mem {α : Type} {es : List (Id × List α)} {k : Id} {l : List α} :
    (k, l) ∈ PropMap.fromIter es ↔ boundIn k es = some l := by
  rw [← lookupProp_iff (fromIter_keys es), PropMap.fromIter, PropMap.lookup_extend]
  cases boundIn k es <;> simp [lookupProp]

theorem boundIn_mem {α : Type} {es : List (Id × List α)} {k : Id} {l : List α}
    (h : boundIn k es = some l) {x : α} : x ∈ l ↔ ∃ vs, (k, vs) ∈ es ∧ x ∈ vs := by
  unfold boundIn at h
  split at h
  · cases h
  · rename_i l' he
    cases h
    simp only [List.mem_flatMap, Prod.exists]
    constructor
    · rintro ⟨a, vs, hm, hx⟩
      rw [List.mem_filter] at hm
      have := of_decide_eq_true hm.2
      subst this
      exact ⟨vs, hm.1, hx⟩
    · rintro ⟨vs, hm, hx⟩
      exact ⟨k, vs, List.mem_filter.2 ⟨hm, by simp⟩, hx⟩

theorem boundIn_some {α : Type} {es : List (Id × List α)} {k : Id} :
    (∃ l, boundIn k es = some l) ↔ ∃ vs, (k, vs) ∈ es := by
  unfold boundIn
  constructor
  · rintro ⟨l, h⟩
    split at h
    · cases h
    · rename_i l' hne
      obtain ⟨e, he⟩ := List.exists_mem_of_ne_nil _ (fun h => hne h)
      rw [List.mem_filter] at he
      have := of_decide_eq_true he.2
      exact ⟨e.2, by rw [← this]; exact he.1⟩
  · rintro ⟨vs, h⟩
    split
    · rename_i h'
      have : (k, vs) ∈ es.filter fun e => decide (e.1 = k) := List.mem_filter.2 ⟨h, by simp⟩
      rw [h'] at this; cases this
    · exact ⟨_, rfl⟩

theorem mapIds_wf :
    (∀ o : Obj, (o.mapIds f g).WF) ∧ (∀ n : Node, (n.mapIds f g).WF) := by
  refine Doc.ind ?_ ?_ ?_ ?_
  · intro i v; simp [Obj.mapIds, Obj.WF]
  · intro i l ih
    simp only [Obj.mapIds, Obj.WF, objsWF_iff, objsMapIds_map, List.mem_map]
    rintro _ ⟨o, ho, rfl⟩
    exact ih o ho
  · intro n ih; simpa [Obj.mapIds, Obj.WF] using ih
  · intro i id ty gr inc ps rv ihg ihi ihp ihr
    simp only [Node.mapIds, Node.WF]
    refine ⟨?_, ?_, fromIter_keys _, ?_, ?_⟩
    · cases gr with
      | none => trivial
      | some l =>
        refine ⟨setCollect_pairwise _, objsWF_iff.2 fun o ho => ?_⟩
        have := setCollect_mem ho
        rw [objsMapIds_map] at this
        obtain ⟨x, hx, rfl⟩ := List.mem_map.1 this
        exact ihg l rfl x hx
    · cases inc with
      | none => trivial
      | some l =>
        refine ⟨setCollect_pairwise _, nodesWF_iff.2 fun o ho => ?_⟩
        have := setCollect_mem ho
        rw [nodesMapIds_map] at this
        obtain ⟨x, hx, rfl⟩ := List.mem_map.1 this
        exact ihi l rfl x hx
    · rw [psWF_iff]
      rintro ⟨k, l⟩ hp o ho
      rw [fromIter_mem] at hp
      obtain ⟨vs, hm, hx⟩ := (boundIn_mem hp).1 ho
      rw [psMapIds_map] at hm
      obtain ⟨p, hp', he⟩ := List.mem_map.1 hm
      cases he
      obtain ⟨x, hx', rfl⟩ := List.mem_map.1 hx
      exact ihp p hp' x hx'
    · cases rv with
      | none => trivial
      | some r =>
        refine ⟨fromIter_keys _, rpsWF_iff.2 ?_⟩
        rintro ⟨k, l⟩ hp o ho
        rw [fromIter_mem] at hp
        obtain ⟨vs, hm, hx⟩ := (boundIn_mem hp).1 ho
        rw [rpsMapIds_map] at hm
        obtain ⟨p, hp', he⟩ := List.mem_map.1 hm
        cases he
        obtain ⟨x, hx', rfl⟩ := List.mem_map.1 hx
        exact ihr r rfl p hp' x hx'

end

end JsonLd
