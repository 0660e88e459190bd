import Verif.Spec.Syntax
import Verif.Model.Compare
import Verif.Base.Greedy
import Mathlib.Data.List.Perm.Subperm
/-!
# Lemmas about structural comparison
-/

namespace JsonLd
open Spec

theorem jsonEquiv_arr_iff {a b : List Json} :
    JsonEquiv (.arr a) (.arr b) ↔ ∃ b', b'.Perm b ∧ List.Forall₂ JsonEquiv a b' := by
  constructor
  · intro h
    cases h with
    | arr hp hl h =>
      rename_i b'
      refine ⟨b', hp, ?_⟩
      rw [List.forall₂_iff_get]
      exact ⟨hl, fun i h1 h2 => h i h1 h2⟩
  · rintro ⟨b', hp, hf⟩
    rw [List.forall₂_iff_get] at hf
    exact .arr hp hf.1 (fun i h1 h2 => hf.2 i h1 h2)

theorem jsonEquiv_obj_iff {a b : List (Str × Json)} :
    JsonEquiv (.obj a) (.obj b) ↔
      ∃ b', b'.Perm b ∧ List.Forall₂ (fun x y => x.1 = y.1 ∧ JsonEquiv x.2 y.2) a b' := by
  constructor
  · intro h
    cases h with
    | obj hp hl hk h =>
      rename_i b'
      refine ⟨b', hp, ?_⟩
      rw [List.forall₂_iff_get]
      exact ⟨hl, fun i h1 h2 => ⟨hk i h1 h2, h i h1 h2⟩⟩
  · rintro ⟨b', hp, hf⟩
    rw [List.forall₂_iff_get] at hf
    exact .obj hp hf.1 (fun i h1 h2 => (hf.2 i h1 h2).1) (fun i h1 h2 => (hf.2 i h1 h2).2)

theorem forall₂_flip_of {α β : Type} {R : α → β → Prop} {S : β → α → Prop} {as : List α}
    {bs : List β} (h : List.Forall₂ R as bs) (hrs : ∀ a ∈ as, ∀ b ∈ bs, R a b → S b a) :
    List.Forall₂ S bs as := by
  induction h with
  | nil => exact .nil
  | cons hab _ ih =>
    refine .cons (hrs _ (by simp) _ (by simp) hab) (ih ?_)
    intro a ha b hb
    exact hrs a (by simp [ha]) b (by simp [hb])

theorem forall₂_trans_of {α β γ : Type} {R : α → β → Prop} {S : β → γ → Prop} {T : α → γ → Prop}
    {as : List α} {bs : List β} {cs : List γ} (h1 : List.Forall₂ R as bs)
    (h2 : List.Forall₂ S bs cs) (ht : ∀ a ∈ as, ∀ b c, R a b → S b c → T a c) :
    List.Forall₂ T as cs := by
  induction h1 generalizing cs with
  | nil => cases h2; exact .nil
  | cons hab _ ih =>
    cases h2 with
    | cons hbc h2 =>
      exact .cons (ht _ (by simp) _ _ hab hbc) (ih h2 fun a ha => ht a (by simp [ha]))

theorem jsonEquiv_refl (a : Json) : JsonEquiv a a := by
  induction a using Json.ind with
  | hnull => exact .null
  | hbool b => exact .bool b
  | hnum n => exact .num n
  | hstr s => exact .str s
  | harr l ih =>
    exact .arr (List.Perm.refl l) rfl fun i h1 _ => ih _ (List.getElem_mem h1)
  | hobj m ih =>
    exact .obj (List.Perm.refl m) rfl (fun i _ _ => rfl) fun i h1 _ =>
      ih _ _ (List.getElem_mem h1)

theorem jsonEquiv_symm {a b : Json} (h : JsonEquiv a b) : JsonEquiv b a := by
  induction a using Json.ind generalizing b with
  | hnull => cases h; exact .null
  | hbool => cases h; exact .bool _
  | hnum => cases h; exact .num _
  | hstr => cases h; exact .str _
  | harr l ih =>
    cases b with
    | arr b =>
      rw [jsonEquiv_arr_iff] at h ⊢
      obtain ⟨b', hp, hf⟩ := h
      have hf' : List.Forall₂ JsonEquiv b' l := forall₂_flip_of hf fun a ha b _ h => ih a ha h
      obtain ⟨l', h1, h2⟩ := List.perm_comp_forall₂ hp.symm hf'
      exact ⟨l', h2, h1⟩
    | _ => cases h
  | hobj m ih =>
    cases b with
    | obj b =>
      rw [jsonEquiv_obj_iff] at h ⊢
      obtain ⟨b', hp, hf⟩ := h
      have hf' : List.Forall₂ (fun x y => x.1 = y.1 ∧ JsonEquiv x.2 y.2) b' m :=
        forall₂_flip_of hf fun a ha b _ h => ⟨h.1.symm, ih a.1 a.2 ha h.2⟩
      obtain ⟨l', h1, h2⟩ := List.perm_comp_forall₂ hp.symm hf'
      exact ⟨l', h2, h1⟩
    | _ => cases h

theorem jsonEquiv_trans {a b c : Json} (h1 : JsonEquiv a b) (h2 : JsonEquiv b c) :
    JsonEquiv a c := by
  induction a using Json.ind generalizing b c with
  | hnull => cases h1; exact h2
  | hbool => cases h1; exact h2
  | hnum => cases h1; exact h2
  | hstr => cases h1; exact h2
  | harr l ih =>
    cases b with
    | arr b =>
      cases c with
      | arr c =>
        rw [jsonEquiv_arr_iff] at h1 h2 ⊢
        obtain ⟨b', hp, hf⟩ := h1
        obtain ⟨c', hp', hf'⟩ := h2
        obtain ⟨c'', h3, h4⟩ := List.perm_comp_forall₂ hp hf'
        exact ⟨c'', h4.trans hp', forall₂_trans_of hf h3 fun a ha b c hab hbc => ih a ha hab hbc⟩
      | _ => cases h2
    | _ => cases h1
  | hobj m ih =>
    cases b with
    | obj b =>
      cases c with
      | obj c =>
        rw [jsonEquiv_obj_iff] at h1 h2 ⊢
        obtain ⟨b', hp, hf⟩ := h1
        obtain ⟨c', hp', hf'⟩ := h2
        obtain ⟨c'', h3, h4⟩ := List.perm_comp_forall₂ hp hf'
        exact ⟨c'', h4.trans hp', forall₂_trans_of hf h3 fun a ha b c hab hbc =>
          ⟨hab.1.trans hbc.1, ih a.1 a.2 ha hab.2 hbc.2⟩⟩
      | _ => cases h2
    | _ => cases h1

/-- Without panics inside, `selectFirst` is `removeFirst`. -/
theorem selectFirst_eq {p : Json → Option Bool} {q : Json → Bool} {bs : List Json}
    (h : ∀ b ∈ bs, p b = some (q b)) : selectFirst p bs = some (removeFirst q bs) := by
  induction bs with
  | nil => rfl
  | cons b bs ih =>
    have hb := h b (by simp)
    have ih := ih fun x hx => h x (by simp [hx])
    simp only [selectFirst, hb, removeFirst, ih]
    cases q b <;> simp
    cases removeFirst q bs <;> simp

theorem removeFirst_mem {β : Type} {p : β → Bool} {bs bs' : List β}
    (h : removeFirst p bs = some bs') : ∀ x ∈ bs', x ∈ bs := by
  obtain ⟨b, _, hp⟩ := removeFirst_some h
  exact fun x hx => hp.symm.subset (by simp [hx])

theorem compareItems_eq {q : Json → Json → Bool} {as bs : List Json}
    (h : ∀ a ∈ as, ∀ b ∈ bs, Json.compare a b = some (q a b)) :
    compareItems as bs = some (greedy q as bs) := by
  induction as generalizing bs with
  | nil => simp [compareItems, greedy]
  | cons a as ih =>
    simp only [compareItems, greedy]
    rw [selectFirst_eq (q := q a) fun b hb => h a (by simp) b hb]
    cases hr : removeFirst (q a) bs with
    | none => rfl
    | some bs' =>
      exact ih fun x hx b hb => h x (by simp [hx]) b (removeFirst_mem hr b hb)

theorem getUnique_nodup {m : List (Str × Json)} (hd : (m.map (·.1)).Nodup) {k : Str} {v : Json}
    (h : (k, v) ∈ m) : getUnique m k = some (some v) := by
  have : m.filter (fun e => decide (e.1 = k)) = [(k, v)] := by
    induction m with
    | nil => simp at h
    | cons e m ih =>
      simp only [List.map_cons, List.nodup_cons] at hd
      rcases List.mem_cons.1 h with rfl | h
      · have : m.filter (fun e => decide (e.1 = k)) = [] := by
          rw [List.filter_eq_nil_iff]
          intro x hx
          simp only [decide_eq_true_eq]
          rintro rfl
          exact hd.1 (List.mem_map_of_mem (f := (·.1)) hx)
        simp [this]
      · have hne : e.1 ≠ k := fun e' => hd.1 (e' ▸ List.mem_map_of_mem (f := (·.1)) h)
        simp [hne, ih hd.2 h]
  simp [getUnique, this]

theorem getUnique_mem {m : List (Str × Json)} {k : Str} {v : Json}
    (h : getUnique m k = some (some v)) : (k, v) ∈ m := by
  unfold getUnique at h
  split at h
  · simp at h
  · rename_i e he
    simp only [Option.some.injEq] at h
    have : e ∈ m.filter (fun e => decide (e.1 = k)) := by rw [he]; simp
    simp only [List.mem_filter, decide_eq_true_eq] at this
    obtain ⟨h1, h2⟩ := this
    subst h h2
    exact h1
  · cases h

theorem getUnique_nodup_ne_none {m : List (Str × Json)} (hd : (m.map (·.1)).Nodup) (k : Str) :
    ∃ r, getUnique m k = some r := by
  by_cases h : ∃ v, (k, v) ∈ m
  · obtain ⟨v, hv⟩ := h
    exact ⟨_, getUnique_nodup hd hv⟩
  · refine ⟨none, ?_⟩
    have : m.filter (fun e => decide (e.1 = k)) = [] := by
      rw [List.filter_eq_nil_iff]
      intro x hx
      simp only [decide_eq_true_eq]
      rintro rfl
      exact h ⟨x.2, hx⟩
    simp [getUnique, this]

/-- The entry loop answers `true` exactly if every entry has a matching partner. -/
theorem compareEntries_spec {q : Json → Json → Bool} {es m : List (Str × Json)}
    (hd : (m.map (·.1)).Nodup)
    (h : ∀ e ∈ es, ∀ f ∈ m, Json.compare e.2 f.2 = some (q e.2 f.2)) :
    ∃ r, compareEntries es m = some r ∧
      (r = true ↔ ∀ e ∈ es, ∃ w, (e.1, w) ∈ m ∧ q e.2 w = true) := by
  induction es with
  | nil => exact ⟨true, by simp [compareEntries], by simp⟩
  | cons e es ih =>
    obtain ⟨k, v⟩ := e
    obtain ⟨r, hr1, hr2⟩ := ih fun e he => h e (by simp [he])
    obtain ⟨u, hu⟩ := getUnique_nodup_ne_none hd k
    simp only [compareEntries, hu]
    cases u with
    | none =>
      refine ⟨false, rfl, ?_⟩
      simp only [Bool.false_eq_true, false_iff]
      intro hall
      obtain ⟨w, hw, _⟩ := hall (k, v) (by simp)
      rw [getUnique_nodup hd hw] at hu
      simp at hu
    | some w =>
      have hmem := getUnique_mem hu
      simp only [h (k, v) (by simp) (k, w) hmem]
      cases hq : q v w with
      | false =>
        refine ⟨false, rfl, ?_⟩
        simp only [Bool.false_eq_true, false_iff]
        intro hall
        obtain ⟨w', hw', hq'⟩ := hall (k, v) (by simp)
        have := getUnique_nodup hd hw'
        rw [hu] at this
        simp only [Option.some.injEq] at this
        subst this
        simp [hq] at hq'
      | true =>
        refine ⟨r, hr1, ?_⟩
        rw [hr2]
        simp only [List.mem_cons, forall_eq_or_imp]
        constructor
        · intro h; exact ⟨⟨w, hmem, hq⟩, h⟩
        · intro h; exact h.2

theorem compare_spec (a b : Json) (ha : NoDupKeys a) (hb : NoDupKeys b) :
    ∃ r, Json.compare a b = some r ∧ (r = true ↔ JsonEquiv a b) := by
  induction a using Json.ind generalizing b with
  | hnull =>
    cases b with
    | null => exact ⟨true, by simp [Json.compare], by simp [JsonEquiv.null]⟩
    | _ => exact ⟨false, by simp [Json.compare], by simp; intro h; cases h⟩
  | hbool x =>
    cases b with
    | bool y =>
      refine ⟨x == y, by simp [Json.compare], ?_⟩
      simp only [beq_iff_eq]
      constructor
      · rintro rfl; exact .bool _
      · intro h; cases h; rfl
    | _ => exact ⟨false, by simp [Json.compare], by simp; intro h; cases h⟩
  | hnum x =>
    cases b with
    | num y =>
      refine ⟨x == y, by simp [Json.compare], ?_⟩
      simp only [beq_iff_eq]
      constructor
      · rintro rfl; exact .num _
      · intro h; cases h; rfl
    | _ => exact ⟨false, by simp [Json.compare], by simp; intro h; cases h⟩
  | hstr x =>
    cases b with
    | str y =>
      refine ⟨x == y, by simp [Json.compare], ?_⟩
      simp only [beq_iff_eq]
      constructor
      · rintro rfl; exact .str _
      · intro h; cases h; rfl
    | _ => exact ⟨false, by simp [Json.compare], by simp; intro h; cases h⟩
  | harr l ih =>
    cases b with
    | arr l' =>
      cases ha with | arr ha =>
      cases hb with | arr hb =>
      have hcmp : ∀ x ∈ l, ∀ y ∈ l', Json.compare x y =
          some (decide (Json.compare x y = some true)) := by
        intro x hx y hy
        obtain ⟨r, h1, _⟩ := ih x hx y (ha x hx) (hb y hy)
        rw [h1]; cases r <;> simp
      have heq : ∀ x ∈ l, ∀ y ∈ l', decide (Json.compare x y = some true) = true ↔
          JsonEquiv x y := by
        intro x hx y hy
        obtain ⟨r, h1, h2⟩ := ih x hx y (ha x hx) (hb y hy)
        rw [h1]; simp [h2]
      refine ⟨unorderedEq (fun x y => decide (Json.compare x y = some true)) l l', ?_, ?_⟩
      · simp only [Json.compare, unorderedEq]
        by_cases hlen : l.length = l'.length
        · simp only [hlen, if_true, beq_self_eq_true, Bool.true_and]
          exact compareItems_eq hcmp
        · simp [hlen]
      · rw [jsonEquiv_arr_iff]
        constructor
        · intro h
          obtain ⟨b', hp, hf⟩ := unorderedEq_sound h
          refine ⟨b', hp, ?_⟩
          have hsub : ∀ y ∈ b', y ∈ l' := fun y hy => hp.subset hy
          rw [List.forall₂_iff_get] at hf ⊢
          refine ⟨hf.1, fun i h1 h2 => ?_⟩
          exact (heq _ (List.getElem_mem h1) _ (hsub _ (List.getElem_mem h2))).1 (hf.2 i h1 h2)
        · rintro ⟨b', hp, hf⟩
          refine unorderedEq_complete (bs' := b') ?_ hp ?_
          · intro x hx x' hx' y hy y' hy' h1 h2 h3
            rw [heq _ hx _ hy] at h1
            rw [heq _ hx' _ hy] at h2
            rw [heq _ hx _ hy'] at h3
            rw [heq _ hx' _ hy']
            exact jsonEquiv_trans h2 (jsonEquiv_trans (jsonEquiv_symm h1) h3)
          · have hsub : ∀ y ∈ b', y ∈ l' := fun y hy => hp.subset hy
            rw [List.forall₂_iff_get] at hf ⊢
            refine ⟨hf.1, fun i h1 h2 => ?_⟩
            exact (heq _ (List.getElem_mem h1) _ (hsub _ (List.getElem_mem h2))).2 (hf.2 i h1 h2)
    | _ => exact ⟨false, by simp [Json.compare], by simp; intro h; cases h⟩
  | hobj m ih =>
    cases b with
    | obj m' =>
      cases ha with | obj had ha =>
      cases hb with | obj hbd hb =>
      have hcmp : ∀ x ∈ m, ∀ y ∈ m', Json.compare x.2 y.2 =
          some (decide (Json.compare x.2 y.2 = some true)) := by
        intro x hx y hy
        obtain ⟨r, h1, _⟩ := ih x.1 x.2 hx y.2 (ha x hx) (hb y hy)
        rw [h1]; cases r <;> simp
      have heq : ∀ x ∈ m, ∀ y ∈ m', decide (Json.compare x.2 y.2 = some true) = true ↔
          JsonEquiv x.2 y.2 := by
        intro x hx y hy
        obtain ⟨r, h1, h2⟩ := ih x.1 x.2 hx y.2 (ha x hx) (hb y hy)
        rw [h1]; simp [h2]
      simp only [Json.compare]
      by_cases hlen : m.length = m'.length
      · simp only [hlen, if_true]
        obtain ⟨r, hr1, hr2⟩ := compareEntries_spec hbd
          (q := fun v w => decide (Json.compare v w = some true)) hcmp
        refine ⟨r, hr1, ?_⟩
        rw [hr2, jsonEquiv_obj_iff]
        constructor
        · intro h
          have hch : ∀ e : Str × Json, ∃ w, e ∈ m → (e.1, w) ∈ m' ∧ JsonEquiv e.2 w := by
            intro e
            by_cases he : e ∈ m
            · obtain ⟨w, hw, hq⟩ := h e he
              exact ⟨w, fun _ => ⟨hw, (heq e he (e.1, w) hw).1 hq⟩⟩
            · exact ⟨e.2, fun h => absurd h he⟩
          choose f hf using hch
          refine ⟨m.map fun e => (e.1, f e), ?_, ?_⟩
          · have hnd : (m.map fun e => (e.1, f e)).Nodup := by
              refine List.Pairwise.of_map (S := (· ≠ ·)) (·.1) (fun a b h e => h (e ▸ rfl)) ?_
              rw [List.map_map]; exact had
            refine (List.subperm_of_subset hnd ?_).perm_of_length_le (by simp [hlen])
            intro x hx
            obtain ⟨e, he, rfl⟩ := List.mem_map.1 hx
            exact (hf e he).1
          · rw [List.forall₂_map_right_iff, List.forall₂_same]
            intro e he
            exact ⟨rfl, (hf e he).2⟩
        · rintro ⟨b', hp, hf⟩ e he
          have : ∃ y ∈ b', e.1 = y.1 ∧ JsonEquiv e.2 y.2 := by
            clear hr2 hr1 hlen hcmp heq ih had ha
            induction hf with
            | nil => simp at he
            | cons hab hf ihf =>
              rcases List.mem_cons.1 he with rfl | he
              · exact ⟨_, by simp, hab⟩
              · rename_i x y as bs
                have key : ∀ {as bs : List (Str × Json)}, List.Forall₂
                    (fun x y => x.1 = y.1 ∧ JsonEquiv x.2 y.2) as bs → ∀ e ∈ as,
                    ∃ y ∈ bs, e.1 = y.1 ∧ JsonEquiv e.2 y.2 := by
                  intro as bs h
                  induction h with
                  | nil => simp
                  | cons hab _ ih =>
                    intro e he
                    rcases List.mem_cons.1 he with rfl | he
                    · exact ⟨_, by simp, hab⟩
                    · obtain ⟨y, hy, h⟩ := ih e he
                      exact ⟨y, by simp [hy], h⟩
                obtain ⟨y, hy, h⟩ := key hf e he
                exact ⟨y, by simp [hy], h⟩
          obtain ⟨y, hy, hk, hj⟩ := this
          have hy' := hp.subset hy
          refine ⟨y.2, by rw [hk]; exact hy', (heq e he y hy').2 hj⟩
      · refine ⟨false, by simp [hlen], ?_⟩
        simp only [Bool.false_eq_true, false_iff]
        intro h
        rw [jsonEquiv_obj_iff] at h
        obtain ⟨b', hp, hf⟩ := h
        exact hlen (hf.length_eq.trans hp.length_eq)
    | _ => exact ⟨false, by simp [Json.compare], by simp; intro h; cases h⟩

end JsonLd
