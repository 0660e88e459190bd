import Verif.Proofs.OrderObj
import Verif.Proofs.Canonical
/-!
# Documents in another order
-/

namespace JsonLd
open Spec Props

variable {E : XEnv} {K : ACtx → Prop}

theorem To.comp {α : Type} {Q : α → α → Prop} {r r' r'' : Except XErr α} (htr : ∀ {x y z}, Q x y → Q y z → Q x z)
    (h : To Q r r') (h' : To Q r' r'') : To Q r r'' := by
  intro x hx
  obtain ⟨y, hy, hxy⟩ := h x hx
  obtain ⟨z, hz, hyz⟩ := h' y hy
  exact ⟨z, hz, htr hxy hyz⟩

theorem alikeJ_trans {a b d : Json} (h : AlikeJ a b) (h' : AlikeJ b d) : AlikeJ a d := by
  rcases h with rfl | ⟨h, h1⟩
  · exact h'
  · rcases h' with rfl | ⟨-, h2⟩
    · exact .inr ⟨h, h1⟩
    · exact .inr ⟨h, h2⟩

theorem forall₂_same_trans {a b d : List Obj} (h : List.Forall₂ Same a b) (h' : List.Forall₂ Same b d) : List.Forall₂ Same a d :=
  forall₂_trans_mem h h' fun _ _ _ _ _ _ h h' => h.trans h'

theorem Alike₁.trans {x y z : Expanded} (h : Alike₁ x y) (h' : Alike₁ y z) : Alike₁ x z := by
  cases x <;> cases y <;> first | exact h.elim | skip
  all_goals cases z <;> first | exact h'.elim | trivial | exact Same.trans h h' | exact forall₂_same_trans h h'

theorem Alike₂.trans {x y z : Expanded} (h : Alike₂ x y) (h' : Alike₂ y z) : Alike₂ x z := by
  cases x <;> cases y <;> first | exact h.elim | skip
  all_goals cases z <;> first
    | exact h'.elim
    | trivial
    | exact Same.trans h h'
    | exact PermRel.trans_of h h' fun _ _ _ _ _ _ h h' => Same.trans h h'

theorem VC.trans {a b d : Json} (h : VC E K a b) (h' : VC E K b d) : VC E K a d where
  alike := alikeJ_trans h.alike h'.alike
  items := forall₂_trans_mem h.items h'.items fun _ _ _ _ _ _ h h' => alikeJ_trans h h'
  elem := fun hc => (h.elem hc).comp (fun h h' => Alike₁.trans h h') (h'.elem hc)
  list := fun hc => (h.list hc).comp (fun h h' => forall₂_same_trans h h') (h'.list hc)
  prop := fun {c df key} hc hj => by
    by_cases hd : df.bind (·.typ) = some .json
    · have he := hj hd
      subst he
      unfold propValue
      dsimp only
      rw [if_pos hd]
      exact .ok ⟨Same.refl trivial, fun _ => Same.refl trivial⟩
    · exact (h.prop hc fun hj => absurd hj hd).comp (fun h h' => ⟨h.1.trans h'.1, fun hl => (h.2 hl).trans (h'.2 hl)⟩)
        (h'.prop hc fun hj => absurd hj hd)
  rev := fun hc hs => (h.rev hc hs).comp (fun h h' => h.trans h') (h'.rev hc (hs.symm.trans hs))
  nest := fun hc ht hs => (h.nest hc ht hs).comp (fun h h' => h.trans h') (h'.nest hc ht (hs.symm.trans hs))
  nestAll := fun hc ht hs => (h.nestAll hc ht hs).comp (fun h h' => h.trans h') (h'.nestAll hc ht (hs.symm.trans hs))

theorem locIn_sub {v v' : Json} (h : ∀ w, ContextIn w v' → ContextIn w v) (hl : LocIn E K v) : LocIn E K v' :=
  fun w hw => hl w (h w hw)

theorem contextIn_mem {m m' : List (Str × Json)} (h : ∀ e ∈ m', e ∈ m) {w : Json} (hw : ContextIn w (.obj m')) : ContextIn w (.obj m) := by
  cases hw with
  | here h' => exact .here (h _ h')
  | entry h' h'' => exact .entry (h _ h') h''

/-- Values whose entries have been moved expand to the same. -/
theorem reordered_vc (H : KClosed E K) {j j' : Json} (h : Reordered E K j j') : LocIn E K j → VC E K j j' ∧ LocIn E K j' := by
  induction h with
  | refl j => exact fun hl => ⟨vc_refl H j, hl⟩
  | trans _ _ ih1 ih2 =>
    intro hl
    obtain ⟨h1, hl⟩ := ih1 hl
    obtain ⟨h2, hl⟩ := ih2 hl
    exact ⟨h1.trans h2, hl⟩
  | move hm hp =>
    intro hl
    exact ⟨vc_move H hl hm hp, locIn_sub (fun w hw => contextIn_mem (fun e he => hp.symm.subset he) hw) hl⟩
  | @entry k v v' m m' hu _ ih =>
    intro hl
    obtain ⟨h1, h2⟩ := ih (locIn_sub (fun w hw => .entry (k := k) (by simp) hw) hl)
    refine ⟨vc_pairs H ?_ fun hc => ?_, fun w hw => ?_⟩
    · refine List.rel_append (forall₂_refl_mem fun e _ => ⟨rfl, vc_refl H _, fun _ => rfl⟩) (.cons ⟨rfl, h1, fun h => absurd h hu⟩ ?_)
      exact forall₂_refl_mem fun e _ => ⟨rfl, vc_refl H _, fun _ => rfl⟩
    · rw [elem_obj_eq, elem_obj_eq]
      refine elemObj_to H hc hl ?_
      refine List.rel_append (forall₂_refl_mem fun e _ => ⟨rfl, vc_refl H _, fun _ => rfl⟩) (.cons ⟨rfl, h1, fun h => absurd h hu⟩ ?_)
      exact forall₂_refl_mem fun e _ => ⟨rfl, vc_refl H _, fun _ => rfl⟩
    · cases hw with
      | here hm =>
        rcases List.mem_append.1 hm with hm | hm
        · exact hl w (.here (List.mem_append_left _ hm))
        · rcases List.mem_cons.1 hm with hm | hm
          · cases hm
            exact absurd (.context rfl) hu
          · exact hl w (.here (List.mem_append_right _ (List.mem_cons_of_mem _ hm)))
      | entry hm hw =>
        rcases List.mem_append.1 hm with hm | hm
        · exact hl w (.entry (List.mem_append_left _ hm) hw)
        · rcases List.mem_cons.1 hm with hm | hm
          · cases hm
            exact h2 w hw
          · exact hl w (.entry (List.mem_append_right _ (List.mem_cons_of_mem _ hm)) hw)
  | @item v v' l l' _ ih =>
    intro hl
    obtain ⟨h1, h2⟩ := ih (locIn_sub (fun w hw => .item (by simp) hw) hl)
    refine ⟨vc_arr (List.rel_append (forall₂_refl_mem fun e _ => vc_refl H _)
      (.cons h1 (forall₂_refl_mem fun e _ => vc_refl H _))), fun w hw => ?_⟩
    cases hw with
    | item hm hw =>
      rcases List.mem_append.1 hm with hm | hm
      · exact hl w (.item (List.mem_append_left _ hm) hw)
      · rcases List.mem_cons.1 hm with rfl | hm
        · exact h2 w hw
        · exact hl w (.item (List.mem_append_right _ (List.mem_cons_of_mem _ hm)) hw)

theorem unnamed_to {o o' : Obj} (h : Same o o') : OptRel (PermRel Same) (unnamedGraph o) (unnamedGraph o') := by
  rcases same_kind h with ⟨i, v, i', v', rfl, rfl⟩ | ⟨i, v, i', v', rfl, rfl⟩ | ⟨n, m, rfl, rfl⟩
  · trivial
  · trivial
  · have hg : n.isGraph = m.isGraph := isGraph_same h
    have hp := SameN.parts h
    unfold unnamedGraph
    dsimp only
    rw [hg, hp.id]
    split
    · exact hp.graph
    · trivial

theorem docResult_to {x y : Expanded} (h : Alike₁ x y) : PermRel Same (docResult x) (docResult y) := by
  have hl := h.toList
  unfold docResult
  generalize x.toList = l at hl ⊢
  generalize y.toList = l' at hl ⊢
  have hmany : ∀ {l l' : List Obj}, List.Forall₂ Same l l' →
      PermRel Same (setCollect Obj.eq (l.filter topLevel)) (setCollect Obj.eq (l'.filter topLevel)) :=
    fun h => collect_same (filter_same h)
  match l, l', hl with
  | [], [], _ => exact permRel_nil
  | [o], [o'], .cons h .nil =>
    dsimp only
    have hu := unnamed_to h
    generalize unnamedGraph o = g at hu ⊢
    generalize unnamedGraph o' = g' at hu ⊢
    cases g <;> cases g' <;> first | exact hu.elim | exact hu | skip
    dsimp only
    rw [topLevel_same h]
    split
    · exact .of_forall₂ (.cons h .nil)
    · exact permRel_nil
  | _ :: _ :: _, _ :: _ :: _, h => exact hmany h

theorem active_closed (c : ACtx) (j : Json) : KClosed E (MayBeActive E c j) :=
  ⟨fun h h' => .previous h h', fun h h' hg hc hp => .scopedContext h h' hg hc hp⟩

theorem active_loc (c : ACtx) (j : Json) : LocIn E (MayBeActive E c j) j :=
  fun _ hw _ _ _ _ _ ha hr hp => .embedded ha hw hr hp

/-- The documents. -/
theorem expandDoc_reordered {c : ACtx} {j j' : Json} (h : Reordered E (MayBeActive E c j) j j') :
    To (PermRel Same) (expandDoc E c j) (expandDoc E c j') := by
  have hv := (reordered_vc (active_closed c j) h (active_loc c j)).1
  exact (hv.elem .start).map fun _ _ _ _ h => docResult_to h

end JsonLd
