import Verif.Model.SimpleEq
import Verif.Spec.LdEquiv
import Verif.Proofs.Compare
/-!
# Lemmas about the comparison of JSON-LD documents
-/

namespace JsonLd.Simple
open JsonLd Spec

theorem set_iff {a b : List Json} :
    LdEquiv false (.arr a) (.arr b) ↔ ∃ b', b'.Perm b ∧ List.Forall₂ (LdEquiv false) a b' := by
  constructor
  · intro h
    cases h with
    | set hp hl h => exact ⟨_, hp, List.forall₂_iff_get.2 ⟨hl, fun i h1 h2 => h i h1 h2⟩⟩
  · rintro ⟨b', hp, hf⟩
    rw [List.forall₂_iff_get] at hf
    exact .set hp hf.1 (fun i h1 h2 => hf.2 i h1 h2)

theorem list_iff {a b : List Json} : LdEquiv true (.arr a) (.arr b) ↔ List.Forall₂ (LdEquiv false) a b := by
  rw [List.forall₂_iff_get]
  constructor
  · intro h
    cases h with
    | list hl h => exact ⟨hl, fun i h1 h2 => h i h1 h2⟩
  · rintro ⟨hl, h⟩
    exact .list hl fun i h1 h2 => h i h1 h2

/-- Entries with the same key and equivalent values. -/
def EntryEquiv (x y : Str × Json) : Prop := x.1 = y.1 ∧ LdEquiv (decide (x.1 = "@list".toList)) x.2 y.2

theorem obj_iff {f : Bool} {a b : List (Str × Json)} :
    LdEquiv f (.obj a) (.obj b) ↔ ∃ b', b'.Perm b ∧ List.Forall₂ EntryEquiv a b' := by
  constructor
  · intro h
    cases h with
    | obj _ hp hl hk h => exact ⟨_, hp, List.forall₂_iff_get.2 ⟨hl, fun i h1 h2 => ⟨hk i h1 h2, h i h1 h2⟩⟩⟩
  · rintro ⟨b', hp, hf⟩
    rw [List.forall₂_iff_get] at hf
    exact .obj f hp hf.1 (fun i h1 h2 => (hf.2 i h1 h2).1) (fun i h1 h2 => (hf.2 i h1 h2).2)

theorem ldEquiv_refl (a : Json) (f : Bool) : LdEquiv f a a := by
  induction a using Json.ind generalizing f with
  | hnull => exact .null f
  | hbool b => exact .bool f b
  | hnum n => exact .num f n
  | hstr s => exact .str f s
  | harr l ih =>
    cases f with
    | false => exact .set (List.Perm.refl l) rfl fun i h1 _ => ih _ (List.getElem_mem h1) false
    | true => exact .list rfl fun i h1 _ => ih _ (List.getElem_mem h1) false
  | hobj m ih =>
    exact .obj f (List.Perm.refl m) rfl (fun i _ _ => rfl) fun i h1 _ => ih _ _ (List.getElem_mem h1) _

theorem ldEquiv_symm {a b : Json} {f : Bool} (h : LdEquiv f a b) : LdEquiv f b a := by
  induction a using Json.ind generalizing b f with
  | hnull => cases h; exact .null f
  | hbool => cases h; exact .bool f _
  | hnum => cases h; exact .num f _
  | hstr => cases h; exact .str f _
  | harr l ih =>
    cases b with
    | arr b =>
      cases f with
      | false =>
        rw [set_iff] at h ⊢
        obtain ⟨b', hp, hf⟩ := h
        have hf' : List.Forall₂ (LdEquiv false) b' l := forall₂_flip_of hf fun a ha b _ h => ih a ha h
        obtain ⟨l', h1, h2⟩ := List.perm_comp_forall₂ hp.symm hf'
        exact ⟨l', h2, h1⟩
      | true =>
        rw [list_iff] at h ⊢
        exact forall₂_flip_of h fun a ha b _ h => ih a ha h
    | _ => cases h
  | hobj m ih =>
    cases b with
    | obj b =>
      rw [obj_iff] at h ⊢
      obtain ⟨b', hp, hf⟩ := h
      have hf' : List.Forall₂ EntryEquiv b' m :=
        forall₂_flip_of hf fun a ha b _ h => ⟨h.1.symm, by rw [← h.1]; exact ih a.1 a.2 ha h.2⟩
      obtain ⟨l', h1, h2⟩ := List.perm_comp_forall₂ hp.symm hf'
      exact ⟨l', h2, h1⟩
    | _ => cases h

theorem ldEquiv_trans {a b c : Json} {f : Bool} (h1 : LdEquiv f a b) (h2 : LdEquiv f b c) : LdEquiv f a c := by
  induction a using Json.ind generalizing b c f with
  | hnull => cases h1; exact h2
  | hbool => cases h1; exact h2
  | hnum => cases h1; exact h2
  | hstr => cases h1; exact h2
  | harr l ih =>
    cases b with
    | arr b =>
      cases c with
      | arr c =>
        cases f with
        | false =>
          rw [set_iff] at h1 h2 ⊢
          obtain ⟨b', hp, hf⟩ := h1
          obtain ⟨c', hp', hf'⟩ := h2
          obtain ⟨c'', h3, h4⟩ := List.perm_comp_forall₂ hp hf'
          exact ⟨c'', h4.trans hp', forall₂_trans_of hf h3 fun a ha b c hab hbc => ih a ha hab hbc⟩
        | true =>
          rw [list_iff] at h1 h2 ⊢
          exact forall₂_trans_of h1 h2 fun a ha b c hab hbc => ih a ha hab hbc
      | _ => cases h2
    | _ => cases h1
  | hobj m ih =>
    cases b with
    | obj b =>
      cases c with
      | obj c =>
        rw [obj_iff] at h1 h2 ⊢
        obtain ⟨b', hp, hf⟩ := h1
        obtain ⟨c', hp', hf'⟩ := h2
        obtain ⟨c'', h3, h4⟩ := List.perm_comp_forall₂ hp hf'
        refine ⟨c'', h4.trans hp', forall₂_trans_of hf h3 fun a ha b c hab hbc => ⟨hab.1.trans hbc.1, ?_⟩⟩
        have := hbc.2
        rw [← hab.1] at this
        exact ih a.1 a.2 ha hab.2 this
      | _ => cases h2
    | _ => cases h1

/-- Comparison of the values of an entry. -/
def valueEq (f : Bool) (v w : Json) : Bool :=
  if f = true ∧ sameLength v w = true then simpleOrdered v w else simpleEq v w

theorem items_greedy (as bs : List Json) : simpleItems as bs = greedy simpleEq as bs := by
  induction as generalizing bs with
  | nil => simp only [simpleItems, greedy]
  | cons a as ih =>
    simp only [simpleItems, greedy]
    cases removeFirst (simpleEq a) bs with
    | none => rfl
    | some bs' => exact ih bs'

theorem zip_iff {as bs : List Json} (hl : as.length = bs.length) :
    simpleZip as bs = true ↔ List.Forall₂ (fun a b => simpleEq a b = true) as bs := by
  induction as generalizing bs with
  | nil => cases bs with
    | nil => simp [simpleZip]
    | cons => cases hl
  | cons a as ih => cases bs with
    | nil => cases hl
    | cons b bs =>
      simp only [simpleZip, Bool.and_eq_true, List.forall₂_cons, ih (Nat.succ.inj hl)]

theorem entries_iff {es m : List (Str × Json)} : simpleEntries es m = true ↔
    ∀ e ∈ es, ∃ w, firstOf m e.1 = some w ∧ valueEq (decide (e.1 = "@list".toList)) e.2 w = true := by
  induction es with
  | nil => simp [simpleEntries]
  | cons e es ih =>
    obtain ⟨k, v⟩ := e
    have : simpleEntries ((k, v) :: es) m = match firstOf m k with
        | none => false
        | some w => valueEq (decide (k = "@list".toList)) v w && simpleEntries es m := by
      simp only [simpleEntries, valueEq, decide_eq_true_eq]
      cases firstOf m k <;> rfl
    rw [this, List.forall_mem_cons, ← ih]
    cases hv : firstOf m k with
    | none => simp
    | some w => simp

theorem firstValue_iff {m : List (Str × Json)} (hd : (m.map (·.1)).Nodup) {k : Str} {w : Json} :
    firstOf m k = some w ↔ (k, w) ∈ m := by
  induction m with
  | nil => simp [firstOf]
  | cons e m ih =>
    obtain ⟨k', v⟩ := e
    simp only [List.map_cons, List.nodup_cons] at hd
    by_cases he : k' = k
    · subst he
      have h1 : firstOf ((k', v) :: m) k' = some v := by simp [firstOf]
      have h2 : (k', w) ∉ m := fun h => hd.1 (List.mem_map_of_mem (f := (·.1)) h)
      rw [h1]
      simp only [List.mem_cons, h2, or_false, Option.some.injEq, Prod.mk.injEq, true_and]
      exact eq_comm
    · have h1 : firstOf ((k', v) :: m) k = firstOf m k := by simp [firstOf, he]
      rw [h1, ih hd.2]
      simp [Ne.symm he]

theorem valueEq_scalar {f : Bool} {v w : Json} (h : sameLength v w = false) : valueEq f v w = simpleEq v w := by
  unfold valueEq
  rw [if_neg]
  rw [h]
  rintro ⟨_, h⟩
  cases h

theorem valueEq_iff (a b : Json) (f : Bool) (ha : NoDupKeys a) (hb : NoDupKeys b) :
    valueEq f a b = true ↔ LdEquiv f a b := by
  induction a using Json.ind generalizing b f with
  | hnull =>
    rw [valueEq_scalar (by cases b <;> rfl)]
    cases b with
    | null => simp [simpleEq, LdEquiv.null]
    | _ => simp only [simpleEq, Bool.false_eq_true, false_iff]; intro h; cases h
  | hbool x =>
    rw [valueEq_scalar (by cases b <;> rfl)]
    cases b with
    | bool y =>
      simp only [simpleEq, beq_iff_eq]
      exact ⟨fun h => h ▸ .bool f _, fun h => by cases h; rfl⟩
    | _ => simp only [simpleEq, Bool.false_eq_true, false_iff]; intro h; cases h
  | hnum x =>
    rw [valueEq_scalar (by cases b <;> rfl)]
    cases b with
    | num y =>
      simp only [simpleEq, beq_iff_eq]
      exact ⟨fun h => h ▸ .num f _, fun h => by cases h; rfl⟩
    | _ => simp only [simpleEq, Bool.false_eq_true, false_iff]; intro h; cases h
  | hstr x =>
    rw [valueEq_scalar (by cases b <;> rfl)]
    cases b with
    | str y =>
      simp only [simpleEq, beq_iff_eq]
      exact ⟨fun h => h ▸ .str f _, fun h => by cases h; rfl⟩
    | _ => simp only [simpleEq, Bool.false_eq_true, false_iff]; intro h; cases h
  | harr l ih =>
    cases b with
    | arr l' =>
      cases ha with | arr ha =>
      cases hb with | arr hb =>
      have heq : ∀ x ∈ l, ∀ y ∈ l', simpleEq x y = true ↔ LdEquiv false x y := by
        intro x hx y hy
        have := ih x hx y false (ha x hx) (hb y hy)
        simpa [valueEq] using this
      have hset : simpleEq (.arr l) (.arr l') = unorderedEq simpleEq l l' := by
        simp only [simpleEq, unorderedEq, items_greedy]
        by_cases hlen : l.length = l'.length <;> simp [hlen]
      cases f with
      | false =>
        have : valueEq false (.arr l) (.arr l') = simpleEq (.arr l) (.arr l') := by simp [valueEq]
        rw [this, hset, set_iff]
        constructor
        · intro h
          obtain ⟨b', hp, hf⟩ := unorderedEq_sound h
          refine ⟨b', hp, ?_⟩
          rw [List.forall₂_iff_get] at hf ⊢
          refine ⟨hf.1, fun i h1 h2 => ?_⟩
          exact (heq _ (List.getElem_mem h1) _ (hp.subset (List.getElem_mem h2))).1 (hf.2 i h1 h2)
        · rintro ⟨b', hp, hf⟩
          refine unorderedEq_complete (bs' := b') ?_ hp ?_
          · intro x hx x' hx' y hy y' hy' h1 h2 h3
            rw [heq _ hx _ hy] at h1
            rw [heq _ hx' _ hy] at h2
            rw [heq _ hx _ hy'] at h3
            rw [heq _ hx' _ hy']
            exact ldEquiv_trans h2 (ldEquiv_trans (ldEquiv_symm h1) h3)
          · rw [List.forall₂_iff_get] at hf ⊢
            refine ⟨hf.1, fun i h1 h2 => ?_⟩
            exact (heq _ (List.getElem_mem h1) _ (hp.subset (List.getElem_mem h2))).2 (hf.2 i h1 h2)
      | true =>
        rw [list_iff]
        by_cases hlen : l.length = l'.length
        · have : valueEq true (.arr l) (.arr l') = simpleZip l l' := by
            simp [valueEq, sameLength, hlen, simpleOrdered]
          rw [this, zip_iff hlen, List.forall₂_iff_get, List.forall₂_iff_get]
          constructor
          · rintro ⟨h0, h⟩
            exact ⟨h0, fun i h1 h2 => (heq _ (List.getElem_mem h1) _ (List.getElem_mem h2)).1 (h i h1 h2)⟩
          · rintro ⟨h0, h⟩
            exact ⟨h0, fun i h1 h2 => (heq _ (List.getElem_mem h1) _ (List.getElem_mem h2)).2 (h i h1 h2)⟩
        · have : valueEq true (.arr l) (.arr l') = false := by
            simp [valueEq, sameLength, hlen, simpleEq]
          rw [this]
          exact ⟨nofun, fun h => absurd h.length_eq hlen⟩
    | _ =>
      rw [valueEq_scalar rfl]
      simp only [simpleEq, Bool.false_eq_true, false_iff]
      intro h; cases h
  | hobj m ih =>
    rw [valueEq_scalar (by cases b <;> rfl)]
    cases b with
    | obj m' =>
      cases ha with | obj had ha =>
      cases hb with | obj hbd hb =>
      simp only [simpleEq]
      rw [obj_iff]
      by_cases hlen : m.length = m'.length
      · rw [if_pos hlen, entries_iff]
        constructor
        · intro h
          have hch : ∀ e : Str × Json, ∃ w, e ∈ m → (e.1, w) ∈ m' ∧ LdEquiv (decide (e.1 = "@list".toList)) e.2 w := by
            intro e
            by_cases he : e ∈ m
            · obtain ⟨w, hw, hq⟩ := h e he
              rw [firstValue_iff hbd] at hw
              exact ⟨w, fun _ => ⟨hw, (ih e.1 e.2 he w _ (ha e he) (hb _ hw)).1 hq⟩⟩
            · exact ⟨e.2, fun h => absurd h he⟩
          choose f hf using hch
          refine ⟨m.map fun e => (e.1, f e), ?_, ?_⟩
          · have hnd : (m.map fun e => (e.1, f e)).Nodup := by
              refine List.Pairwise.of_map (S := (· ≠ ·)) (·.1) (fun a b h e => h (e ▸ rfl)) ?_
              rw [List.map_map]; exact had
            refine (List.subperm_of_subset hnd ?_).perm_of_length_le (by simp [hlen])
            intro x hx
            obtain ⟨e, he, rfl⟩ := List.mem_map.1 hx
            exact (hf e he).1
          · rw [List.forall₂_map_right_iff, List.forall₂_same]
            intro e he
            exact ⟨rfl, (hf e he).2⟩
        · rintro ⟨b', hp, hf⟩ e he
          have : ∃ y ∈ b', EntryEquiv e y := by
            obtain ⟨i, hi, rfl⟩ := List.getElem_of_mem he
            rw [List.forall₂_iff_get] at hf
            have hi' : i < b'.length := hf.1 ▸ hi
            exact ⟨b'[i], List.getElem_mem hi', hf.2 i hi hi'⟩
          obtain ⟨y, hy, hk, hj⟩ := this
          have hy' := hp.subset hy
          refine ⟨y.2, ?_, (ih e.1 e.2 he y.2 _ (ha e he) (hb y hy')).2 hj⟩
          rw [firstValue_iff hbd, hk]
          exact hy'
      · rw [if_neg hlen]
        simp only [Bool.false_eq_true, false_iff]
        rintro ⟨b', hp, hf⟩
        exact hlen (hf.length_eq.trans hp.length_eq)
    | _ => simp only [simpleEq, Bool.false_eq_true, false_iff]; intro h; cases h

/-- Keeping the order of lists is stricter. -/
theorem ldEquiv_jsonEquiv {a b : Json} {f : Bool} (h : LdEquiv f a b) : JsonEquiv a b := by
  induction h with
  | null => exact .null
  | bool _ b => exact .bool b
  | num _ n => exact .num n
  | str _ s => exact .str s
  | set hp hl _ ih => exact .arr hp hl ih
  | list hl _ ih => exact .arr (List.Perm.refl _) hl ih
  | obj _ hp hl hk _ ih => exact .obj hp hl hk ih

end JsonLd.Simple
