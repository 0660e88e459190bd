import Mathlib.Data.List.Forall2
import Mathlib.Data.List.Perm.Basic
/-!
# Greedy unordered matching

Several functions of the code compare two collections without regard to order by the same loop:
for each item on the left take the first not yet selected item on the right that matches.
The `selected` flags are modelled by removing the selected item from the right-hand list.
-/

namespace JsonLd

variable {α β : Type}

/-- Remove the first item satisfying `p`; `none` when there is none. -/
def removeFirst (p : β → Bool) : List β → Option (List β)
  | [] => none
  | b :: bs => if p b then some bs else (removeFirst p bs).map (b :: ·)

/-- Greedy matching: every left item selects the first remaining right item it matches. -/
def greedy (r : α → β → Bool) : List α → List β → Bool
  | [], _ => true
  | a :: as, bs => match removeFirst (r a) bs with
    | none => false
    | some bs' => greedy r as bs'

/-- `a.len() == b.len()` followed by greedy matching. -/
def unorderedEq (r : α → β → Bool) (as : List α) (bs : List β) : Bool :=
  as.length == bs.length && greedy r as bs

theorem removeFirst_some {p : β → Bool} {bs bs' : List β} (h : removeFirst p bs = some bs') :
    ∃ b, p b = true ∧ bs.Perm (b :: bs') := by
  induction bs generalizing bs' with
  | nil => simp [removeFirst] at h
  | cons x xs ih =>
    simp only [removeFirst] at h
    split at h
    · rename_i hp
      cases h
      exact ⟨x, hp, List.Perm.refl _⟩
    · cases hx : removeFirst p xs with
      | none => simp [hx] at h
      | some r =>
        simp [hx] at h
        obtain ⟨b, hb, hperm⟩ := ih hx
        refine ⟨b, hb, ?_⟩
        subst h
        exact (hperm.cons x).trans (List.Perm.swap b x r)

theorem removeFirst_none {p : β → Bool} {bs : List β} :
    removeFirst p bs = none ↔ ∀ b ∈ bs, p b = false := by
  induction bs with
  | nil => simp [removeFirst]
  | cons x xs ih =>
    simp only [removeFirst]
    split
    · rename_i hp; simp [hp]
    · rename_i hp; simp [ih]; intro _; simpa using hp

/-- The greedy loop finds a matching: `as` is related pointwise to some reordering of `bs`. -/
theorem unorderedEq_sound {r : α → β → Bool} {as : List α} {bs : List β}
    (h : unorderedEq r as bs = true) :
    ∃ bs', bs'.Perm bs ∧ List.Forall₂ (fun a b => r a b = true) as bs' := by
  simp only [unorderedEq, Bool.and_eq_true, beq_iff_eq] at h
  obtain ⟨hl, hg⟩ := h
  induction as generalizing bs with
  | nil =>
    cases bs with
    | nil => exact ⟨[], List.Perm.refl _, .nil⟩
    | cons => simp at hl
  | cons a as ih =>
    simp only [greedy] at hg
    split at hg
    · cases hg
    · rename_i bs1 hr
      obtain ⟨b, hb, hp⟩ := removeFirst_some hr
      have hlen := hp.length_eq
      simp at hl hlen
      obtain ⟨bs2, hp2, hf⟩ := ih (by omega) hg
      exact ⟨b :: bs2, (hp2.cons b).trans hp.symm, .cons hb hf⟩

theorem forall₂_replace {R : α → β → Prop} {as : List α} {bs c : List β} {b b' : β}
    (hf : List.Forall₂ R as bs) (hp : bs.Perm (b :: c))
    (hr : ∀ a ∈ as, R a b → R a b') :
    ∃ bs', bs'.Perm (b' :: c) ∧ List.Forall₂ R as bs' := by
  have hmem : b ∈ bs := hp.symm.subset (by simp)
  obtain ⟨l1, l2, rfl⟩ := List.append_of_mem hmem
  have hp' : (l1 ++ l2).Perm c := by
    have := (List.perm_middle (a := b) (l₁ := l1) (l₂ := l2)).symm.trans hp
    exact List.Perm.cons_inv this
  refine ⟨l1 ++ b' :: l2, List.perm_middle.trans (hp'.cons b'), ?_⟩
  obtain ⟨as1, as2, h1, h2, rfl⟩ : ∃ as1 as2, List.Forall₂ R as1 l1 ∧
      List.Forall₂ R as2 (b :: l2) ∧ as = as1 ++ as2 := by
    have := List.forall₂_iff_zip.1 hf
    refine ⟨as.take l1.length, as.drop l1.length, ?_, ?_, (List.take_append_drop _ _).symm⟩
    · have := List.forall₂_take l1.length hf
      simpa using this
    · have := List.forall₂_drop l1.length hf
      simpa using this
  cases h2 with
  | cons hab h2 =>
    rename_i a as2
    exact List.rel_append (R := R) h1 (.cons (hr a (by simp) hab) h2)

/-- If matching is difunctional, the greedy loop succeeds whenever some matching exists. -/
theorem unorderedEq_complete {r : α → β → Bool} {as : List α} {bs bs' : List β}
    (hd : ∀ a ∈ as, ∀ a' ∈ as, ∀ b ∈ bs, ∀ b' ∈ bs, r a b = true → r a' b = true →
      r a b' = true → r a' b' = true)
    (hp : bs'.Perm bs) (hf : List.Forall₂ (fun a b => r a b = true) as bs') :
    unorderedEq r as bs = true := by
  simp only [unorderedEq, Bool.and_eq_true, beq_iff_eq]
  refine ⟨by rw [← hp.length_eq]; exact hf.length_eq, ?_⟩
  induction as generalizing bs bs' with
  | nil => simp [greedy]
  | cons a as ih =>
    cases hf with
    | cons hab hf =>
      rename_i b' bs''
      simp only [greedy]
      split
      · rename_i hn
        have := removeFirst_none.1 hn b' (hp.subset (by simp))
        simp [this] at hab
      · rename_i rest hr
        obtain ⟨b, hb, hpb⟩ := removeFirst_some hr
        have hpp : (b' :: bs'').Perm (b :: rest) := hp.trans hpb
        have hb'mem : b' ∈ bs := hp.subset (by simp)
        have hbmem : b ∈ bs := hpb.symm.subset (by simp)
        have hsub : ∀ x ∈ rest, x ∈ bs := fun x hx => hpb.symm.subset (by simp [hx])
        by_cases hbb : b = b'
        · subst hbb
          exact ih (fun a ha a' ha' b hb b' hb' => hd a (by simp [ha]) a' (by simp [ha']) b
            (hsub b hb) b' (hsub b' hb')) hpp.cons_inv hf
        · have hbin : b ∈ bs'' := by
            have : b ∈ b' :: bs'' := hpp.symm.subset (by simp)
            simpa [hbb] using this
          obtain ⟨l1, l2, e⟩ := List.append_of_mem hbin
          have hperm : bs''.Perm (b :: (l1 ++ l2)) := by rw [e]; exact List.perm_middle
          have hrest : rest.Perm (b' :: (l1 ++ l2)) := by
            have h1 : (b :: rest).Perm (b :: b' :: (l1 ++ l2)) :=
              hpp.symm.trans ((hperm.cons b').trans (List.Perm.swap _ _ _))
            exact h1.cons_inv
          obtain ⟨bs3, hp3, hf3⟩ := forall₂_replace (b' := b') hf hperm
            (fun a' ha' hab' => hd a (by simp) a' (by simp [ha']) b hbmem b' hb'mem hb hab' hab)
          exact ih (fun a ha a' ha' b hb b' hb' => hd a (by simp [ha]) a' (by simp [ha']) b
            (hsub b hb) b' (hsub b' hb')) (hp3.trans hrest.symm) hf3

/-- When matching means "the images agree", the loop decides whether the images of the two lists
are reorderings of each other. -/
theorem unorderedEq_map_iff {γ : Type} {r : α → β → Bool} {f : α → γ} {g : β → γ}
    {as : List α} {bs : List β}
    (hr : ∀ a ∈ as, ∀ b ∈ bs, r a b = true ↔ f a = g b) :
    unorderedEq r as bs = true ↔ (as.map f).Perm (bs.map g) := by
  constructor
  · intro h
    obtain ⟨bs', hp, hf⟩ := unorderedEq_sound h
    refine List.Perm.trans ?_ (hp.map g)
    apply List.Perm.of_eq
    have hsub : ∀ b ∈ bs', b ∈ bs := fun b hb => hp.subset hb
    clear h hp
    induction hf with
    | nil => rfl
    | cons hab hf ih =>
      rename_i a b as bs''
      simp only [List.map_cons, List.cons.injEq]
      refine ⟨(hr a (by simp) b (hsub b (by simp))).1 hab, ih ?_ ?_⟩
      · intro a ha b hb; exact hr a (by simp [ha]) b hb
      · intro b hb; exact hsub b (by simp [hb])
  · intro h
    obtain ⟨bs', he, hp⟩ : ∃ bs' : List β, as.map f = bs'.map g ∧ bs'.Perm bs := by
      have h' := (congrFun (congrFun (List.eq_map_comp_perm g) (as.map f)) bs).symm.mp h
      exact h'
    refine unorderedEq_complete (bs' := bs') ?_ hp ?_
    · intro a ha a' ha' b hb b' hb' h1 h2 h3
      rw [hr _ ha _ hb] at h1
      rw [hr _ ha' _ hb] at h2
      rw [hr _ ha _ hb'] at h3
      rw [hr _ ha' _ hb', h2, ← h1, h3]
    · have hsub : ∀ b ∈ bs', b ∈ bs := fun b hb => hp.subset hb
      clear h hp
      induction as generalizing bs' with
      | nil => cases bs' <;> simp at he ⊢
      | cons a as ih =>
        cases bs' with
        | nil => simp at he
        | cons b bs' =>
          simp at he
          refine .cons ((hr a (by simp) b (hsub b (by simp))).2 he.1) (ih ?_ bs' he.2 ?_)
          · intro a ha b hb; exact hr a (by simp [ha]) b hb
          · intro b hb; exact hsub b (by simp [hb])

end JsonLd
