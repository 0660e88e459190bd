import Verif.Base.Greedy
import Mathlib.Data.List.Perm.Basic
import Mathlib.Data.List.Perm.Subperm
/-!
# Lists related up to reordering
-/

namespace JsonLd

variable {α β γ : Type}

/-- `as` is related pointwise to some reordering of `bs`. -/
def PermRel (R : α → β → Prop) (as : List α) (bs : List β) : Prop :=
  ∃ bs', bs'.Perm bs ∧ List.Forall₂ R as bs'

/-- Both absent, or both present and related. -/
def OptRel (R : α → β → Prop) : Option α → Option β → Prop
  | none, none => True
  | some a, some b => R a b
  | _, _ => False

theorem forall₂_mem_imp {R S : α → β → Prop} {as : List α} {bs : List β}
    (h : List.Forall₂ R as bs) (hrs : ∀ a ∈ as, ∀ b ∈ bs, R a b → S a b) :
    List.Forall₂ S as bs := by
  induction h with
  | nil => exact .nil
  | cons hab _ ih =>
    exact .cons (hrs _ List.mem_cons_self _ List.mem_cons_self hab)
      (ih fun a ha b hb => hrs a (List.mem_cons_of_mem _ ha) b (List.mem_cons_of_mem _ hb))

theorem forall₂_flip_mem {R : α → β → Prop} {S : β → α → Prop} {as : List α} {bs : List β}
    (h : List.Forall₂ R as bs) (hrs : ∀ a ∈ as, ∀ b ∈ bs, R a b → S b a) :
    List.Forall₂ S bs as := by
  induction h with
  | nil => exact .nil
  | cons hab _ ih =>
    exact .cons (hrs _ List.mem_cons_self _ List.mem_cons_self hab)
      (ih fun a ha b hb => hrs a (List.mem_cons_of_mem _ ha) b (List.mem_cons_of_mem _ hb))

theorem forall₂_trans_mem {R : α → β → Prop} {S : β → γ → Prop} {T : α → γ → Prop}
    {as : List α} {bs : List β} {cs : List γ} (h1 : List.Forall₂ R as bs)
    (h2 : List.Forall₂ S bs cs)
    (ht : ∀ a ∈ as, ∀ b ∈ bs, ∀ c ∈ cs, R a b → S b c → T a c) : List.Forall₂ T as cs := by
  induction h1 generalizing cs with
  | nil => cases h2; exact .nil
  | cons hab _ ih =>
    cases h2 with
    | cons hbc h2 =>
      exact .cons (ht _ List.mem_cons_self _ List.mem_cons_self _ List.mem_cons_self hab hbc)
        (ih h2 fun a ha b hb c hc => ht a (List.mem_cons_of_mem _ ha) b (List.mem_cons_of_mem _ hb)
          c (List.mem_cons_of_mem _ hc))

theorem forall₂_refl_mem {R : α → α → Prop} {as : List α} (h : ∀ a ∈ as, R a a) :
    List.Forall₂ R as as := by
  induction as with
  | nil => exact .nil
  | cons a as ih =>
    exact .cons (h a List.mem_cons_self) (ih fun a ha => h a (List.mem_cons_of_mem _ ha))

theorem forall₂_exists_right {R : α → β → Prop} {as : List α} {bs : List β}
    (h : List.Forall₂ R as bs) {a : α} (ha : a ∈ as) : ∃ b ∈ bs, R a b := by
  induction h with
  | nil => cases ha
  | cons hab _ ih =>
    rcases List.mem_cons.1 ha with rfl | ha
    · exact ⟨_, List.mem_cons_self, hab⟩
    · obtain ⟨b, hb, h⟩ := ih ha
      exact ⟨b, List.mem_cons_of_mem _ hb, h⟩

theorem forall₂_map_both {α' β' : Type} {R : α → β → Prop} {S : α' → β' → Prop}
    {f : α → α'} {g : β → β'} {as : List α} {bs : List β} (h : List.Forall₂ R as bs)
    (hrs : ∀ a ∈ as, ∀ b ∈ bs, R a b → S (f a) (g b)) :
    List.Forall₂ S (as.map f) (bs.map g) := by
  induction h with
  | nil => exact .nil
  | cons hab _ ih =>
    exact .cons (hrs _ List.mem_cons_self _ List.mem_cons_self hab)
      (ih fun a ha b hb => hrs a (List.mem_cons_of_mem _ ha) b (List.mem_cons_of_mem _ hb))

namespace PermRel

theorem length_eq {R : α → β → Prop} {as : List α} {bs : List β} (h : PermRel R as bs) :
    as.length = bs.length := by
  obtain ⟨bs', hp, hf⟩ := h
  rw [hf.length_eq, hp.length_eq]

theorem exists_right {R : α → β → Prop} {as : List α} {bs : List β} (h : PermRel R as bs)
    {a : α} (ha : a ∈ as) : ∃ b ∈ bs, R a b := by
  obtain ⟨bs', hp, hf⟩ := h
  obtain ⟨b, hb, h⟩ := forall₂_exists_right hf ha
  exact ⟨b, hp.subset hb, h⟩

theorem refl_of {R : α → α → Prop} {as : List α} (h : ∀ a ∈ as, R a a) : PermRel R as as :=
  ⟨as, List.Perm.refl _, forall₂_refl_mem h⟩

theorem of_forall₂ {R : α → β → Prop} {as : List α} {bs : List β} (h : List.Forall₂ R as bs) :
    PermRel R as bs := ⟨bs, List.Perm.refl _, h⟩

theorem mono {R S : α → β → Prop} {as : List α} {bs : List β} (h : PermRel R as bs)
    (hrs : ∀ a ∈ as, ∀ b ∈ bs, R a b → S a b) : PermRel S as bs := by
  obtain ⟨bs', hp, hf⟩ := h
  exact ⟨bs', hp, forall₂_mem_imp hf fun a ha b hb => hrs a ha b (hp.subset hb)⟩

theorem map_both {α' β' : Type} {R : α → β → Prop} {S : α' → β' → Prop}
    {f : α → α'} {g : β → β'} {as : List α} {bs : List β} (h : PermRel R as bs)
    (hrs : ∀ a ∈ as, ∀ b ∈ bs, R a b → S (f a) (g b)) :
    PermRel S (as.map f) (bs.map g) := by
  obtain ⟨bs', hp, hf⟩ := h
  exact ⟨bs'.map g, hp.map g, forall₂_map_both hf fun a ha b hb => hrs a ha b (hp.subset hb)⟩

theorem perm_left {R : α → β → Prop} {as as' : List α} {bs : List β} (hp : as.Perm as')
    (h : PermRel R as' bs) : PermRel R as bs := by
  obtain ⟨bs', hpb, hf⟩ := h
  obtain ⟨c, hc, hcp⟩ := List.perm_comp_forall₂ hp hf
  exact ⟨c, hcp.trans hpb, hc⟩

theorem symm_of {R : α → β → Prop} {S : β → α → Prop} {as : List α} {bs : List β}
    (h : PermRel R as bs) (hrs : ∀ a ∈ as, ∀ b ∈ bs, R a b → S b a) : PermRel S bs as := by
  obtain ⟨bs', hp, hf⟩ := h
  exact perm_left hp.symm
    (of_forall₂ (forall₂_flip_mem hf fun a ha b hb => hrs a ha b (hp.subset hb)))

theorem trans_of {R : α → β → Prop} {S : β → γ → Prop} {T : α → γ → Prop} {as : List α}
    {bs : List β} {cs : List γ} (h1 : PermRel R as bs) (h2 : PermRel S bs cs)
    (ht : ∀ a ∈ as, ∀ b ∈ bs, ∀ c ∈ cs, R a b → S b c → T a c) : PermRel T as cs := by
  obtain ⟨bs', hp, hf⟩ := h1
  obtain ⟨cs', hp', hf'⟩ := perm_left hp h2
  exact ⟨cs', hp', forall₂_trans_mem hf hf' fun a ha b hb c hc =>
    ht a ha b (hp.subset hb) c (hp'.subset hc)⟩

end PermRel

/-- If every element has a partner and no two elements share one, the elements are related to a
reordering of the partners. -/
theorem permRel_of_inj {R : α → β → Prop} {as : List α} {bs : List β}
    (hl : as.length = bs.length) (hex : ∀ a ∈ as, ∃ b ∈ bs, R a b)
    (hinj : as.Pairwise fun a a' => ∀ b ∈ bs, R a b → R a' b → False) : PermRel R as bs := by
  induction as generalizing bs with
  | nil =>
    cases bs with
    | nil => exact ⟨[], List.Perm.refl _, .nil⟩
    | cons => simp at hl
  | cons a as ih =>
    obtain ⟨b, hb, hab⟩ := hex a List.mem_cons_self
    obtain ⟨l1, l2, rfl⟩ := List.append_of_mem hb
    rw [List.pairwise_cons] at hinj
    have hsub : ∀ x ∈ l1 ++ l2, x ∈ l1 ++ b :: l2 := by
      intro x hx
      rcases List.mem_append.1 hx with h | h
      · exact List.mem_append_left _ h
      · exact List.mem_append_right _ (List.mem_cons_of_mem _ h)
    obtain ⟨bs', hp, hf⟩ := ih (bs := l1 ++ l2) (by simp at hl ⊢; omega)
      (fun a' ha' => by
        obtain ⟨b', hb', h'⟩ := hex a' (List.mem_cons_of_mem _ ha')
        refine ⟨b', ?_, h'⟩
        rcases List.mem_append.1 hb' with h | h
        · exact List.mem_append_left _ h
        · rcases List.mem_cons.1 h with rfl | h
          · exact (hinj.1 a' ha' b' hb hab h').elim
          · exact List.mem_append_right _ h)
      (hinj.2.imp fun {x y} h b hb => h b (hsub b hb))
    exact ⟨b :: bs', (hp.cons b).trans List.perm_middle.symm, .cons hab hf⟩

end JsonLd
