import Verif.Model.MappedEq
import Verif.Spec.Doc
import Verif.Proofs.DocEq
import Mathlib.Data.List.Nodup
/-!
# Lemmas on comparison up to renaming
-/

namespace JsonLd
open Spec

/-! ## Reading the model with generic combinators -/

section
variable (f : Str → Str)

/-- Entries of properties compared. -/
def pairMeq {α : Type} (r : α → α → Bool) (p q : Id × List α) : Bool :=
  p.1.meq f q.1 && unorderedEq r p.2 q.2

theorem objsGMeq_eq {a b : List Obj} : objsGMeq f a b = greedy (Obj.meq f) a b := by
  induction a generalizing b with
  | nil => simp [objsGMeq, greedy]
  | cons x xs ih =>
    simp only [objsGMeq, greedy]
    cases removeFirst (x.meq f) b <;> simp [ih]

theorem nodesGMeq_eq {a b : List Node} : nodesGMeq f a b = greedy (Node.meq f) a b := by
  induction a generalizing b with
  | nil => simp [nodesGMeq, greedy]
  | cons x xs ih =>
    simp only [nodesGMeq, greedy]
    cases removeFirst (x.meq f) b <;> simp [ih]

theorem objsUMeq_eq {a b : List Obj} :
    (decide (a.length = b.length) && objsGMeq f a b) = unorderedEq (Obj.meq f) a b := by
  simp only [unorderedEq, objsGMeq_eq]; congr 1

theorem nodesUMeq_eq {a b : List Node} :
    (decide (a.length = b.length) && nodesGMeq f a b) = unorderedEq (Node.meq f) a b := by
  simp only [unorderedEq, nodesGMeq_eq]; congr 1

theorem psMeq_eq {a b : List (Id × List Obj)} :
    psMeq f a b = greedy (pairMeq f (Obj.meq f)) a b := by
  induction a generalizing b with
  | nil => simp [psMeq, greedy]
  | cons x xs ih =>
    obtain ⟨k, l⟩ := x
    simp only [psMeq, greedy, objsUMeq_eq]
    have : (fun q : Id × List Obj => k.meq f q.1 && unorderedEq (Obj.meq f) l q.2) =
      pairMeq f (Obj.meq f) (k, l) := rfl
    rw [this]
    cases removeFirst (pairMeq f (Obj.meq f) (k, l)) b <;> simp [ih]

theorem rpsMeq_eq {a b : List (Id × List Node)} :
    rpsMeq f a b = greedy (pairMeq f (Node.meq f)) a b := by
  induction a generalizing b with
  | nil => simp [rpsMeq, greedy]
  | cons x xs ih =>
    obtain ⟨k, l⟩ := x
    simp only [rpsMeq, greedy, nodesUMeq_eq]
    have : (fun q : Id × List Node => k.meq f q.1 && unorderedEq (Node.meq f) l q.2) =
      pairMeq f (Node.meq f) (k, l) := rfl
    rw [this]
    cases removeFirst (pairMeq f (Node.meq f) (k, l)) b <;> simp [ih]

/-- Comparison of options. -/
def optB {α : Type} (r : α → α → Bool) : Option α → Option α → Bool
  | some a, some b => r a b
  | none, none => true
  | _, _ => false

/-- Comparison of sequences. -/
def listB {α : Type} (r : α → α → Bool) : List α → List α → Bool
  | [], [] => true
  | a :: as, b :: bs => r a b && listB r as bs
  | _, _ => false

theorem objsMeq_eq {a b : List Obj} : objsMeq f a b = listB (Obj.meq f) a b := by
  induction a generalizing b with
  | nil => cases b <;> simp [objsMeq, listB]
  | cons x xs ih => cases b <;> simp [objsMeq, listB, ih]

theorem Node.meq_eq (n m : Node) : n.meq f m = (decide (n.index = m.index) &&
    optB (Id.meq f) n.id m.id && optB (unorderedEq (Node.meq f)) n.included m.included &&
    optB (unorderedEq (Obj.meq f)) n.graph m.graph &&
    unorderedEq (pairMeq f (Obj.meq f)) n.props m.props &&
    optB (unorderedEq (pairMeq f (Node.meq f))) n.rev m.rev) := by
  obtain ⟨i, id, ty, g, inc, ps, rv⟩ := n
  obtain ⟨i', id', ty', g', inc', ps', rv'⟩ := m
  simp only [Node.meq, Node.index, Node.id, Node.included, Node.graph, Node.props, Node.rev]
  have h1 : optIdMeq f id id' = optB (Id.meq f) id id' := by
    cases id <;> cases id' <;> simp [optIdMeq, optB]
  have h2 : incMeq f inc inc' = optB (unorderedEq (Node.meq f)) inc inc' := by
    cases inc <;> cases inc' <;> simp only [incMeq, optB, nodesUMeq_eq]
  have h3 : gMeq f g g' = optB (unorderedEq (Obj.meq f)) g g' := by
    cases g <;> cases g' <;> simp only [gMeq, optB, objsUMeq_eq]
  have h4 : (decide (ps.length = ps'.length) && psMeq f ps ps') =
      unorderedEq (pairMeq f (Obj.meq f)) ps ps' := by
    simp only [unorderedEq, psMeq_eq]; congr 1
  have h5 : rvMeq f rv rv' = optB (unorderedEq (pairMeq f (Node.meq f))) rv rv' := by
    cases rv <;> cases rv' <;> simp only [rvMeq, optB, rpsMeq_eq, unorderedEq]
    congr 1
  simp only [h1, h2, h3, h4, h5, Bool.and_assoc]
  rfl

theorem Doc.meq_eq (d e : Doc) : d.meq f e = unorderedEq (Obj.meq f) d e := by
  simp only [Doc.meq, gMeq, objsUMeq_eq]

end

/-! ## Renaming -/

theorem renObjs_eq (f : Str → Str) (l : List Obj) : renObjs f l = l.map (renObj f) := by
  induction l with
  | nil => simp [renObjs]
  | cons x xs ih => simp [renObjs, ih]

theorem renNodes_eq (f : Str → Str) (l : List Node) : renNodes f l = l.map (renNode f) := by
  induction l with
  | nil => simp [renNodes]
  | cons x xs ih => simp [renNodes, ih]

theorem renPs_eq (f : Str → Str) (l : List (Id × List Obj)) :
    renPs f l = l.map fun p => (renLabel f p.1, p.2.map (renObj f)) := by
  induction l with
  | nil => simp [renPs]
  | cons x xs ih => obtain ⟨k, l⟩ := x; simp [renPs, ih, renObjs_eq]

theorem renRps_eq (f : Str → Str) (l : List (Id × List Node)) :
    renRps f l = l.map fun p => (renLabel f p.1, p.2.map (renNode f)) := by
  induction l with
  | nil => simp [renRps]
  | cons x xs ih => obtain ⟨k, l⟩ := x; simp [renRps, ih, renNodes_eq]

theorem renNode_eq (f : Str → Str) (i id ty g inc ps rv) :
    renNode f (.mk i id ty g inc ps rv) = .mk i (id.map (renLabel f))
      (ty.map (List.map (renLabel f))) (g.map (List.map (renObj f)))
      (inc.map (List.map (renNode f))) (ps.map fun p => (renLabel f p.1, p.2.map (renObj f)))
      (rv.map (List.map fun p => (renLabel f p.1, p.2.map (renNode f)))) := by
  have h1 : renG f g = g.map (List.map (renObj f)) := by
    cases g <;> simp [renG, renObjs_eq]
  have h2 : renInc f inc = inc.map (List.map (renNode f)) := by
    cases inc <;> simp [renInc, renNodes_eq]
  have h3 : renRv f rv = rv.map (List.map fun p => (renLabel f p.1, p.2.map (renNode f))) := by
    cases rv <;> simp [renRv, renRps_eq]
  simp only [renNode, h1, h2, h3, renPs_eq]

/-! ## Congruence of the combinators -/

section
variable {α β γ : Type}

theorem greedy_map_left (r : β → γ → Bool) (g : α → β) (as : List α) (bs : List γ) :
    greedy r (as.map g) bs = greedy (fun a b => r (g a) b) as bs := by
  induction as generalizing bs with
  | nil => rfl
  | cons a as ih =>
    simp only [List.map_cons, greedy]
    cases removeFirst (r (g a)) bs <;> simp [ih]

theorem removeFirst_map (p : β → Bool) (g : α → β) (as : List α) :
    removeFirst p (as.map g) = (removeFirst (fun a => p (g a)) as).map (List.map g) := by
  induction as with
  | nil => rfl
  | cons a as ih =>
    simp only [List.map_cons, removeFirst]
    split <;> simp [ih, Function.comp_def]

theorem greedy_map_right (r : α → β → Bool) (g : γ → β) (as : List α) (bs : List γ) :
    greedy r as (bs.map g) = greedy (fun a b => r a (g b)) as bs := by
  induction as generalizing bs with
  | nil => rfl
  | cons a as ih =>
    simp only [greedy, removeFirst_map]
    cases removeFirst (fun x => r a (g x)) bs <;> simp [ih]

theorem removeFirst_congr {p q : β → Bool} {bs : List β} (h : ∀ b ∈ bs, p b = q b) :
    removeFirst p bs = removeFirst q bs := by
  induction bs with
  | nil => rfl
  | cons b bs ih =>
    simp only [removeFirst, h b List.mem_cons_self,
      ih fun b hb => h b (List.mem_cons_of_mem _ hb)]

theorem greedy_congr {r s : α → β → Bool} {as : List α} {bs : List β}
    (h : ∀ a ∈ as, ∀ b ∈ bs, r a b = s a b) : greedy r as bs = greedy s as bs := by
  induction as generalizing bs with
  | nil => rfl
  | cons a as ih =>
    simp only [greedy, removeFirst_congr (h a List.mem_cons_self)]
    cases hr : removeFirst (s a) bs with
    | none => rfl
    | some bs' =>
      obtain ⟨b, -, hp⟩ := removeFirst_some hr
      exact ih fun a ha b hb => h a (List.mem_cons_of_mem _ ha) b
        (hp.symm.subset (List.mem_cons_of_mem _ hb))

theorem unorderedEq_map_left (r : β → γ → Bool) (g : α → β) (as : List α) (bs : List γ) :
    unorderedEq r (as.map g) bs = unorderedEq (fun a b => r (g a) b) as bs := by
  simp [unorderedEq, greedy_map_left]

theorem unorderedEq_map_right (r : α → β → Bool) (g : γ → β) (as : List α) (bs : List γ) :
    unorderedEq r as (bs.map g) = unorderedEq (fun a b => r a (g b)) as bs := by
  simp [unorderedEq, greedy_map_right]

theorem unorderedEq_congr {r s : α → β → Bool} {as : List α} {bs : List β}
    (h : ∀ a ∈ as, ∀ b ∈ bs, r a b = s a b) : unorderedEq r as bs = unorderedEq s as bs := by
  simp only [unorderedEq, greedy_congr h]

theorem listB_congr_map {r s : α → α → Bool} {g k : α → α} {as bs : List α}
    (h : ∀ a ∈ as, ∀ b ∈ bs, r a b = s (g a) (k b)) :
    listB r as bs = listB s (as.map g) (bs.map k) := by
  induction as generalizing bs with
  | nil => cases bs <;> rfl
  | cons a as ih =>
    cases bs with
    | nil => rfl
    | cons b bs =>
      simp only [listB, List.map_cons, h a List.mem_cons_self b List.mem_cons_self]
      rw [ih fun a ha b hb => h a (List.mem_cons_of_mem _ ha) b (List.mem_cons_of_mem _ hb)]

theorem listB_iff {r : α → α → Bool} {as bs : List α} :
    listB r as bs = true ↔ List.Forall₂ (fun a b => r a b = true) as bs := by
  induction as generalizing bs with
  | nil => cases bs <;> simp [listB]
  | cons a as ih => cases bs <;> simp [listB, ih]

end

theorem idMeq_ren (f g : Str → Str) (h : Str → Str) (hfg : ∀ a b, (f a == b) = (g (h a) == b))
    (a b : Id) : a.meq f b = (renLabel h a).meq g b := by
  cases a <;> cases b <;> simp [Id.meq, renLabel, hfg]

/-- Comparing after renaming the left-hand side. -/
theorem meq_ren (f g h : Str → Str) (hfg : ∀ a, f a = g (h a)) :
    (∀ a b : Obj, a.meq f b = (renObj h a).meq g b) ∧
    (∀ a b : Node, a.meq f b = (renNode h a).meq g b) := by
  have hid : ∀ a b : Id, a.meq f b = (renLabel h a).meq g b :=
    idMeq_ren f g h fun a b => by rw [hfg]
  refine Doc.ind ?_ ?_ ?_ ?_
  · intro i v b
    cases b <;> simp [Obj.meq, renObj]
  · intro i l ih b
    cases b <;> simp only [Obj.meq, renObj]
    rename_i j m
    rw [objsMeq_eq, objsMeq_eq, renObjs_eq]
    have := listB_congr_map (r := Obj.meq f) (s := Obj.meq g) (g := renObj h) (k := fun x => x)
      (as := l) (bs := m) (fun a ha b _ => ih a ha b)
    rw [this]; simp
  · intro n ih b
    cases b <;> simp [Obj.meq, renObj, ih]
  · intro i id ty g' inc ps rv h1 h2 h3 h4 b
    rw [renNode_eq, Node.meq_eq, Node.meq_eq]
    obtain ⟨i', id', ty', g'', inc', ps', rv'⟩ := b
    simp only [Node.index, Node.id, Node.included, Node.graph, Node.props, Node.rev]
    congr 1
    · congr 1
      · congr 1
        · congr 1
          · congr 1
            cases id <;> cases id' <;> simp [optB, hid]
          · cases inc <;> cases inc' <;> simp only [optB, Option.map]
            rw [unorderedEq_map_left]
            exact unorderedEq_congr fun a ha b _ => h2 _ rfl a ha b
        · cases g' <;> cases g'' <;> simp only [optB, Option.map]
          rw [unorderedEq_map_left]
          exact unorderedEq_congr fun a ha b _ => h1 _ rfl a ha b
      · rw [unorderedEq_map_left]
        refine unorderedEq_congr fun p hp q _ => ?_
        simp only [pairMeq, hid, unorderedEq_map_left]
        rw [unorderedEq_congr fun a ha b _ => h3 p hp a ha b]
    · cases rv <;> cases rv' <;> simp only [optB, Option.map]
      rw [unorderedEq_map_left]
      refine unorderedEq_congr fun p hp q _ => ?_
      simp only [pairMeq, hid, unorderedEq_map_left]
      rw [unorderedEq_congr fun a ha b _ => h4 _ rfl p hp a ha b]

/-- Renaming both sides injectively changes nothing. -/
theorem meq_ren_inj (h : Str → Str) (hinj : Function.Injective h) :
    (∀ a b : Obj, (renObj h a).meq (fun x => x) (renObj h b) = a.meq (fun x => x) b) ∧
    (∀ a b : Node, (renNode h a).meq (fun x => x) (renNode h b) = a.meq (fun x => x) b) := by
  have hid : ∀ a b : Id, (renLabel h a).meq (fun x => x) (renLabel h b) =
      a.meq (fun x => x) b := by
    intro a b
    cases a <;> cases b <;> simp [Id.meq, renLabel]
    rename_i s t
    exact hinj.eq_iff
  refine Doc.ind ?_ ?_ ?_ ?_
  · intro i v b
    cases b <;> simp [Obj.meq, renObj]
  · intro i l ih b
    cases b <;> simp only [Obj.meq, renObj]
    rename_i j m
    rw [objsMeq_eq, objsMeq_eq, renObjs_eq, renObjs_eq]
    have := listB_congr_map (r := Obj.meq fun x => x) (s := Obj.meq fun x => x) (g := renObj h)
      (k := renObj h) (as := l) (bs := m) (fun a ha b _ => (ih a ha b).symm)
    rw [this]
  · intro n ih b
    cases b <;> simp [Obj.meq, renObj, ih]
  · intro i id ty g' inc ps rv h1 h2 h3 h4 b
    obtain ⟨i', id', ty', g'', inc', ps', rv'⟩ := b
    rw [renNode_eq, renNode_eq, Node.meq_eq, Node.meq_eq]
    simp only [Node.index, Node.id, Node.included, Node.graph, Node.props, Node.rev]
    congr 1
    · congr 1
      · congr 1
        · congr 1
          · congr 1
            cases id <;> cases id' <;> simp [optB, hid]
          · cases inc <;> cases inc' <;> simp only [optB, Option.map]
            rw [unorderedEq_map_left, unorderedEq_map_right]
            exact unorderedEq_congr fun a ha b _ => h2 _ rfl a ha b
        · cases g' <;> cases g'' <;> simp only [optB, Option.map]
          rw [unorderedEq_map_left, unorderedEq_map_right]
          exact unorderedEq_congr fun a ha b _ => h1 _ rfl a ha b
      · rw [unorderedEq_map_left, unorderedEq_map_right]
        refine unorderedEq_congr fun p hp q _ => ?_
        simp only [pairMeq, hid, unorderedEq_map_left, unorderedEq_map_right]
        rw [unorderedEq_congr fun a ha b _ => h3 p hp a ha b]
    · cases rv <;> cases rv' <;> simp only [optB, Option.map]
      rw [unorderedEq_map_left, unorderedEq_map_right]
      refine unorderedEq_congr fun p hp q _ => ?_
      simp only [pairMeq, hid, unorderedEq_map_left, unorderedEq_map_right]
      rw [unorderedEq_congr fun a ha b _ => h4 _ rfl p hp a ha b]

/-! ## Comparison without renaming is an equivalence -/

section
variable {α : Type} {eq : α → α → Bool} {WF : α → Prop}

theorem eqOkG_unordered (h : ∀ a, WF a → EqOkG eq WF a) (l : List α) (hl : ∀ a ∈ l, WF a) :
    EqOkG (unorderedEq eq) (fun l => ∀ a ∈ l, WF a) l := by
  have key : ∀ as bs : List α, (∀ a ∈ as, WF a) → (∀ a ∈ bs, WF a) →
      (unorderedEq eq as bs = true ↔ PermRel (fun x y => eq x y = true) as bs) :=
    fun as bs ha hb => ms_iff_of_ok (WF := WF) (fun a hm => h a (ha a hm)) ha hb
  refine ⟨(key l l hl hl).2 (PermRel.refl_of fun a ha => (h a (hl a ha)).1), ?_, ?_⟩
  · intro b hb e
    exact (key b l hb hl).2 (((key l b hl hb).1 e).symm_of fun x hx y hy =>
      (h x (hl x hx)).2.1 y (hb y hy))
  · intro b c hb hc e e'
    exact (key l c hl hc).2 (((key l b hl hb).1 e).trans_of ((key b c hb hc).1 e')
      fun x hx y hy z hz => (h x (hl x hx)).2.2 y z (hb y hy) (hc z hz))

theorem eqOkG_opt (h : ∀ a, WF a → EqOkG eq WF a) (o : Option α) (ho : ∀ a, o = some a → WF a) :
    EqOkG (optB eq) (fun o => ∀ a, o = some a → WF a) o := by
  cases o with
  | none =>
    refine ⟨rfl, ?_, ?_⟩
    · intro b _ e; cases b <;> simp [optB] at e ⊢
    · intro b c _ _ e e'; cases b <;> cases c <;> simp [optB] at e e' ⊢
  | some x =>
    have hx := h x (ho x rfl)
    refine ⟨hx.1, ?_, ?_⟩
    · intro b hb e
      cases b <;> simp only [optB, Bool.false_eq_true] at e ⊢
      exact hx.2.1 _ (hb _ rfl) e
    · intro b c hb hc e e'
      cases b <;> simp only [optB, Bool.false_eq_true] at e
      cases c <;> simp only [optB, Bool.false_eq_true] at e' ⊢
      exact hx.2.2 _ _ (hb _ rfl) (hc _ rfl) e e'

theorem eqOkG_list (h : ∀ a, WF a → EqOkG eq WF a) (l : List α) (hl : ∀ a ∈ l, WF a) :
    EqOkG (listB eq) (fun l => ∀ a ∈ l, WF a) l := by
  refine ⟨listB_iff.2 (forall₂_refl_mem fun a ha => (h a (hl a ha)).1), ?_, ?_⟩
  · intro b hb e
    exact listB_iff.2 (forall₂_flip_mem (listB_iff.1 e) fun x hx y hy =>
      (h x (hl x hx)).2.1 y (hb y hy))
  · intro b c hb hc e e'
    exact listB_iff.2 (forall₂_trans_mem (listB_iff.1 e) (listB_iff.1 e')
      fun x hx y hy z hz => (h x (hl x hx)).2.2 y z (hb y hy) (hc z hz))

theorem idMeq_id {a b : Id} : a.meq (fun x => x) b = true ↔ a = b := by
  cases a <;> cases b <;> simp [Id.meq]

theorem eqOkG_pair (h : ∀ a, WF a → EqOkG eq WF a) (p : Id × List α) (hp : ∀ a ∈ p.2, WF a) :
    EqOkG (pairMeq (fun x => x) eq) (fun p => ∀ a ∈ p.2, WF a) p := by
  have hu := eqOkG_unordered h p.2 hp
  refine ⟨?_, ?_, ?_⟩
  · simp only [pairMeq, Bool.and_eq_true, idMeq_id, true_and]; exact hu.1
  · intro b hb e
    simp only [pairMeq, Bool.and_eq_true, idMeq_id] at e ⊢
    exact ⟨e.1.symm, hu.2.1 _ hb e.2⟩
  · intro b c hb hc e e'
    simp only [pairMeq, Bool.and_eq_true, idMeq_id] at e e' ⊢
    exact ⟨e.1.trans e'.1, hu.2.2 _ _ hb hc e.2 e'.2⟩

end

/-- Smaller than a bound. -/
def Obj.Lt (d : Nat) (o : Obj) : Prop := sizeOf o < d
/-- Smaller than a bound. -/
def Node.Lt (d : Nat) (n : Node) : Prop := sizeOf n < d

/-- Comparison without renaming is an equivalence on small objects and nodes. -/
def MeqClaim (d : Nat) : Prop :=
  (∀ o : Obj, o.Lt d → EqOkG (Obj.meq fun x => x) (Obj.Lt d) o) ∧
    (∀ n : Node, n.Lt d → EqOkG (Node.meq fun x => x) (Node.Lt d) n)

theorem optId_ok (i : Option Id) :
    EqOkG (optB (Id.meq fun x => x)) (fun o => ∀ a, o = some a → True) i :=
  eqOkG_opt (WF := fun _ => True) (fun _ _ => ⟨idMeq_id.2 rfl, fun _ _ e =>
    idMeq_id.2 (idMeq_id.1 e).symm, fun _ _ _ _ e e' =>
      idMeq_id.2 ((idMeq_id.1 e).trans (idMeq_id.1 e'))⟩) i fun _ _ => trivial

/-- Components of small nodes are smaller. -/
theorem Node.Lt.parts {n : Node} {d : Nat} (hd : n.Lt (d + 1)) :
    (∀ l, n.graph = some l → ∀ o ∈ l, o.Lt d) ∧ (∀ l, n.included = some l → ∀ o ∈ l, o.Lt d) ∧
    (∀ p ∈ n.props, ∀ o ∈ p.2, o.Lt d) ∧
    (∀ l, n.rev = some l → ∀ p ∈ l, ∀ o ∈ p.2, o.Lt d) := by
  obtain ⟨i, id, ty, g, inc, ps, rv⟩ := n
  simp only [Node.Lt] at hd
  refine ⟨?_, ?_, ?_, ?_⟩ <;>
    simp only [Node.graph, Node.included, Node.props, Node.rev, Obj.Lt, Node.Lt]
  · rintro l rfl o ho
    have := List.sizeOf_lt_of_mem ho
    simp at hd; omega
  · rintro l rfl o ho
    have := List.sizeOf_lt_of_mem ho
    simp at hd; omega
  · intro p hp o ho
    have := sizeOf_snd_mem hp ho
    simp at hd; omega
  · rintro l rfl p hp o ho
    have := sizeOf_snd_mem hp ho
    simp at hd; omega

theorem meqClaim (d : Nat) : MeqClaim d := by
  induction d with
  | zero => exact ⟨fun o h => by simp [Obj.Lt] at h, fun o h => by simp [Node.Lt] at h⟩
  | succ d hc =>
    have hnode : ∀ n : Node, n.Lt (d + 1) → EqOkG (Node.meq fun x => x) (Node.Lt (d + 1)) n := by
      intro n hn
      have ki := eqOkG_opt (eqOkG_unordered hc.2) n.included hn.parts.2.1
      have kg := eqOkG_opt (eqOkG_unordered hc.1) n.graph hn.parts.1
      have kp := eqOkG_unordered (eqOkG_pair hc.1) n.props hn.parts.2.2.1
      have kr := eqOkG_opt (eqOkG_unordered (eqOkG_pair hc.2)) n.rev hn.parts.2.2.2
      have kid := optId_ok n.id
      refine ⟨?_, ?_, ?_⟩
      · rw [Node.meq_eq]
        simp only [Bool.and_eq_true, decide_eq_true_eq]
        exact ⟨⟨⟨⟨⟨trivial, kid.1⟩, ki.1⟩, kg.1⟩, kp.1⟩, kr.1⟩
      · intro m hm e
        rw [Node.meq_eq] at e ⊢
        simp only [Bool.and_eq_true, decide_eq_true_eq] at e ⊢
        obtain ⟨⟨⟨⟨⟨e1, e2⟩, e3⟩, e4⟩, e5⟩, e6⟩ := e
        exact ⟨⟨⟨⟨⟨e1.symm, kid.2.1 _ (fun _ _ => trivial) e2⟩, ki.2.1 _ hm.parts.2.1 e3⟩,
          kg.2.1 _ hm.parts.1 e4⟩, kp.2.1 _ hm.parts.2.2.1 e5⟩, kr.2.1 _ hm.parts.2.2.2 e6⟩
      · intro m k hm hk e e'
        rw [Node.meq_eq] at e e' ⊢
        simp only [Bool.and_eq_true, decide_eq_true_eq] at e e' ⊢
        obtain ⟨⟨⟨⟨⟨e1, e2⟩, e3⟩, e4⟩, e5⟩, e6⟩ := e
        obtain ⟨⟨⟨⟨⟨g1, g2⟩, g3⟩, g4⟩, g5⟩, g6⟩ := e'
        exact ⟨⟨⟨⟨⟨e1.trans g1, kid.2.2 _ _ (fun _ _ => trivial) (fun _ _ => trivial) e2 g2⟩,
          ki.2.2 _ _ hm.parts.2.1 hk.parts.2.1 e3 g3⟩,
          kg.2.2 _ _ hm.parts.1 hk.parts.1 e4 g4⟩,
          kp.2.2 _ _ hm.parts.2.2.1 hk.parts.2.2.1 e5 g5⟩,
          kr.2.2 _ _ hm.parts.2.2.2 hk.parts.2.2.2 e6 g6⟩
    refine ⟨?_, hnode⟩
    intro o ho
    have hmem : ∀ i l, (Obj.list i l).Lt (d + 1) → ∀ x ∈ l, x.Lt d := by
      intro i l hl x hx
      have := List.sizeOf_lt_of_mem hx
      simp only [Obj.Lt] at hl ⊢
      simp at hl; omega
    have hn : ∀ n : Node, (Obj.node n).Lt (d + 1) → n.Lt (d + 1) := by
      intro n h
      simp only [Obj.Lt, Node.Lt] at h ⊢
      simp at h; omega
    cases o with
    | value i v =>
      refine ⟨by simp [Obj.meq, Value.eq_iff], ?_, ?_⟩
      · intro b _ h
        cases b <;> simp [Obj.meq, Value.eq_iff] at h ⊢
        exact ⟨h.1.symm, h.2.symm⟩
      · intro b c _ _ h h'
        cases b <;> simp [Obj.meq] at h
        cases c <;> simp [Obj.meq, Value.eq_iff] at h h' ⊢
        exact ⟨h.1.trans h'.1, h.2.trans h'.2⟩
    | list i l =>
      have kl := eqOkG_list hc.1 l (hmem i l ho)
      refine ⟨?_, ?_, ?_⟩
      · simp only [Obj.meq, objsMeq_eq, Bool.and_eq_true, decide_eq_true_eq, true_and]
        exact kl.1
      · intro b hb h
        cases b <;> simp only [Obj.meq, objsMeq_eq, Bool.and_eq_true, decide_eq_true_eq,
          Bool.false_eq_true] at h ⊢
        exact ⟨h.1.symm, kl.2.1 _ (hmem _ _ hb) h.2⟩
      · intro b c hb hcc h h'
        cases b <;> simp only [Obj.meq, objsMeq_eq, Bool.and_eq_true, decide_eq_true_eq,
          Bool.false_eq_true] at h
        cases c <;> simp only [Obj.meq, objsMeq_eq, Bool.and_eq_true, decide_eq_true_eq,
          Bool.false_eq_true] at h' ⊢
        exact ⟨h.1.trans h'.1, kl.2.2 _ _ (hmem _ _ hb) (hmem _ _ hcc) h.2 h'.2⟩
    | node n =>
      have ih := hnode n (hn n ho)
      refine ⟨by simp only [Obj.meq]; exact ih.1, ?_, ?_⟩
      · intro b hb h
        cases b <;> simp only [Obj.meq, Bool.false_eq_true] at h ⊢
        exact ih.2.1 _ (hn _ hb) h
      · intro b c hb hc h h'
        cases b <;> simp only [Obj.meq, Bool.false_eq_true] at h
        cases c <;> simp only [Obj.meq, Bool.false_eq_true] at h' ⊢
        exact ih.2.2 _ _ (hn _ hb) (hn _ hc) h h'

theorem Obj.meqOk (o : Obj) : EqOkG (Obj.meq fun x => x) (fun _ => True) o := by
  refine ⟨((meqClaim (sizeOf o + 1)).1 o (by simp [Obj.Lt])).1, ?_, ?_⟩
  · intro b _
    exact ((meqClaim (sizeOf o + sizeOf b + 1)).1 o (by simp [Obj.Lt]; omega)).2.1 b
      (by simp [Obj.Lt]; omega)
  · intro b c _ _
    exact ((meqClaim (sizeOf o + sizeOf b + sizeOf c + 1)).1 o (by simp [Obj.Lt]; omega)).2.2 b c
      (by simp [Obj.Lt]; omega) (by simp [Obj.Lt]; omega)

theorem Node.meqOk (o : Node) : EqOkG (Node.meq fun x => x) (fun _ => True) o := by
  refine ⟨((meqClaim (sizeOf o + 1)).2 o (by simp [Node.Lt])).1, ?_, ?_⟩
  · intro b _
    exact ((meqClaim (sizeOf o + sizeOf b + 1)).2 o (by simp [Node.Lt]; omega)).2.1 b
      (by simp [Node.Lt]; omega)
  · intro b c _ _
    exact ((meqClaim (sizeOf o + sizeOf b + sizeOf c + 1)).2 o (by simp [Node.Lt]; omega)).2.2 b c
      (by simp [Node.Lt]; omega) (by simp [Node.Lt]; omega)

/-- The matching loops find a matching whenever there is one. -/
theorem unorderedEq_meq_iff {α : Type} {r s : α → α → Bool} {ren : α → α}
    (hr : ∀ a b, r a b = s (ren a) b) (hs : ∀ a, EqOkG s (fun _ => True) a) (as bs : List α) :
    unorderedEq r as bs = true ↔ PermRel (fun x y => r x y = true) as bs := by
  constructor
  · exact unorderedEq_sound
  · rintro ⟨bs', hp, hf⟩
    refine unorderedEq_complete ?_ hp hf
    intro a _ a' _ b _ b' _ h1 h2 h3
    rw [hr] at h1 h2 h3 ⊢
    have hba := (hs (ren a)).2.1 b trivial h1
    have h4 := (hs (ren a')).2.2 b (ren a) trivial trivial h2 hba
    exact (hs (ren a')).2.2 (ren a) b' trivial trivial h4 h3

theorem pairMeq_ok {α : Type} {s : α → α → Bool} (hs : ∀ a, EqOkG s (fun _ => True) a)
    (p : Id × List α) : EqOkG (pairMeq (fun x => x) s) (fun _ => True) p := by
  have := eqOkG_pair (WF := fun _ => True) (fun a _ => hs a) p (fun _ _ => trivial)
  exact ⟨this.1, fun b _ => this.2.1 b (fun _ _ => trivial), fun b c _ _ =>
    this.2.2 b c (fun _ _ => trivial) (fun _ _ => trivial)⟩

theorem optB_iff {α : Type} {r : α → α → Bool} {R : α → α → Prop}
    (h : ∀ a b, r a b = true ↔ R a b) (a b : Option α) : optB r a b = true ↔ OptRel R a b := by
  cases a <;> cases b <;> simp [optB, OptRel, h]

theorem idMeq_iff (f : Str → Str) {a b : Id} : a.meq f b = true ↔ renLabel f a = b := by
  cases a <;> cases b <;> simp [Id.meq, renLabel]

/-- Comparison of nodes spelled out. -/
theorem Node.meq_iff (f : Str → Str) (n m : Node) : n.meq f m = true ↔
    n.index = m.index ∧ n.id.map (renLabel f) = m.id ∧
    OptRel (PermRel fun x y => x.meq f y = true) n.included m.included ∧
    OptRel (PermRel fun x y => x.meq f y = true) n.graph m.graph ∧
    PermRel (fun p q => renLabel f p.1 = q.1 ∧ PermRel (fun x y => x.meq f y = true) p.2 q.2)
      n.props m.props ∧
    OptRel (PermRel fun p q => renLabel f p.1 = q.1 ∧ PermRel (fun x y => x.meq f y = true) p.2 q.2)
      n.rev m.rev := by
  have ho := (meq_ren f (fun x => x) f fun _ => rfl).1
  have hn := (meq_ren f (fun x => x) f fun _ => rfl).2
  have hu := unorderedEq_meq_iff ho Obj.meqOk
  have hv := unorderedEq_meq_iff hn Node.meqOk
  have hpo : ∀ p q : Id × List Obj, pairMeq f (Obj.meq f) p q =
      pairMeq (fun x => x) (Obj.meq fun x => x) (renLabel f p.1, p.2.map (renObj f)) q := by
    intro p q
    simp only [pairMeq, unorderedEq_map_left]
    rw [idMeq_ren f (fun x => x) f (fun _ _ => rfl), unorderedEq_congr fun a _ b _ => ho a b]
  have hpn : ∀ p q : Id × List Node, pairMeq f (Node.meq f) p q =
      pairMeq (fun x => x) (Node.meq fun x => x) (renLabel f p.1, p.2.map (renNode f)) q := by
    intro p q
    simp only [pairMeq, unorderedEq_map_left]
    rw [idMeq_ren f (fun x => x) f (fun _ _ => rfl), unorderedEq_congr fun a _ b _ => hn a b]
  have hpu := unorderedEq_meq_iff (ren := fun p => (renLabel f p.1, p.2.map (renObj f))) hpo
    (pairMeq_ok Obj.meqOk)
  have hpv := unorderedEq_meq_iff (ren := fun p => (renLabel f p.1, p.2.map (renNode f))) hpn
    (pairMeq_ok Node.meqOk)
  have e1 : ∀ p q : Id × List Obj, pairMeq f (Obj.meq f) p q = true ↔
      renLabel f p.1 = q.1 ∧ PermRel (fun x y => x.meq f y = true) p.2 q.2 := by
    intro p q; simp only [pairMeq, Bool.and_eq_true, idMeq_iff, hu]
  have e2 : ∀ p q : Id × List Node, pairMeq f (Node.meq f) p q = true ↔
      renLabel f p.1 = q.1 ∧ PermRel (fun x y => x.meq f y = true) p.2 q.2 := by
    intro p q; simp only [pairMeq, Bool.and_eq_true, idMeq_iff, hv]
  rw [Node.meq_eq]
  simp only [Bool.and_eq_true, decide_eq_true_eq, and_assoc, optB_iff hu, optB_iff hv,
    optB_iff hpv, hpu, e1, e2]
  have : optB (Id.meq f) n.id m.id = true ↔ n.id.map (renLabel f) = m.id := by
    cases n.id <;> cases m.id <;> simp [optB, idMeq_iff]
  rw [this]

/-! ## Comparison without renaming against equality -/

/-- No node has types. -/
def noTypes (o : Obj) : Prop := ∀ h ∈ objHeaders o, h.2 = none
/-- No node has types. -/
def noTypesN (o : Node) : Prop := ∀ h ∈ nodeHeaders o, h.2 = none

theorem objsHeaders_eq (l : List Obj) : objsHeaders l = l.flatMap objHeaders := by
  induction l with
  | nil => simp [objsHeaders]
  | cons x xs ih => simp [objsHeaders, ih]

theorem nodesHeaders_eq (l : List Node) : nodesHeaders l = l.flatMap nodeHeaders := by
  induction l with
  | nil => simp [nodesHeaders]
  | cons x xs ih => simp [nodesHeaders, ih]

theorem psHeaders_eq (l : List (Id × List Obj)) :
    psHeaders l = l.flatMap fun p => p.2.flatMap objHeaders := by
  induction l with
  | nil => simp [psHeaders]
  | cons x xs ih => obtain ⟨k, l⟩ := x; simp [psHeaders, ih, objsHeaders_eq]

theorem rpsHeaders_eq (l : List (Id × List Node)) :
    rpsHeaders l = l.flatMap fun p => p.2.flatMap nodeHeaders := by
  induction l with
  | nil => simp [rpsHeaders]
  | cons x xs ih => obtain ⟨k, l⟩ := x; simp [rpsHeaders, ih, nodesHeaders_eq]

theorem noTypesN_iff {i id ty g inc ps rv} : noTypesN (.mk i id ty g inc ps rv) ↔
    ty = none ∧ (∀ l, g = some l → ∀ o ∈ l, noTypes o) ∧
    (∀ l, inc = some l → ∀ o ∈ l, noTypesN o) ∧ (∀ p ∈ ps, ∀ o ∈ p.2, noTypes o) ∧
    (∀ l, rv = some l → ∀ p ∈ l, ∀ o ∈ p.2, noTypesN o) := by
  have hg : (∀ h ∈ gHeaders g, h.2 = none) ↔ (∀ l, g = some l → ∀ o ∈ l, noTypes o) := by
    cases g with
    | none => simp [gHeaders]
    | some l =>
      simp only [gHeaders, objsHeaders_eq, List.mem_flatMap, noTypes]
      constructor
      · rintro h l' ⟨⟩ o ho x hx; exact h x ⟨o, ho, hx⟩
      · rintro h x ⟨o, ho, hx⟩; exact h l rfl o ho x hx
  have hi : (∀ h ∈ incHeaders inc, h.2 = none) ↔ (∀ l, inc = some l → ∀ o ∈ l, noTypesN o) := by
    cases inc with
    | none => simp [incHeaders]
    | some l =>
      simp only [incHeaders, nodesHeaders_eq, List.mem_flatMap, noTypesN]
      constructor
      · rintro h l' ⟨⟩ o ho x hx; exact h x ⟨o, ho, hx⟩
      · rintro h x ⟨o, ho, hx⟩; exact h l rfl o ho x hx
  have hp : (∀ h ∈ psHeaders ps, h.2 = none) ↔ (∀ p ∈ ps, ∀ o ∈ p.2, noTypes o) := by
    simp only [psHeaders_eq, List.mem_flatMap, noTypes]
    constructor
    · intro h p hp o ho x hx; exact h x ⟨p, hp, o, ho, hx⟩
    · rintro h x ⟨p, hp, o, ho, hx⟩; exact h p hp o ho x hx
  have hr : (∀ h ∈ rvHeaders rv, h.2 = none) ↔
      (∀ l, rv = some l → ∀ p ∈ l, ∀ o ∈ p.2, noTypesN o) := by
    cases rv with
    | none => simp [rvHeaders]
    | some l =>
      simp only [rvHeaders, rpsHeaders_eq, List.mem_flatMap, noTypesN]
      constructor
      · rintro h l' ⟨⟩ p hp o ho x hx; exact h x ⟨p, hp, o, ho, hx⟩
      · rintro h x ⟨p, hp, o, ho, hx⟩; exact h l rfl p hp o ho x hx
  rw [← hg, ← hi, ← hp, ← hr]
  simp only [noTypesN, nodeHeaders, List.mem_cons, List.mem_append]
  constructor
  · intro h
    exact ⟨h _ (Or.inl rfl), fun x hx => h x (by tauto), fun x hx => h x (by tauto),
      fun x hx => h x (by tauto), fun x hx => h x (by tauto)⟩
  · rintro ⟨h1, h2, h3, h4, h5⟩ x (rfl | ((hx | hx) | hx) | hx)
    · exact h1
    · exact h2 x hx
    · exact h3 x hx
    · exact h4 x hx
    · exact h5 x hx

theorem OptRel.imp {α β : Type} {R S : α → β → Prop} {a : Option α} {b : Option β}
    (h : OptRel R a b) (hrs : ∀ x y, a = some x → b = some y → R x y → S x y) : OptRel S a b := by
  cases a <;> cases b <;> simp only [OptRel] at h ⊢
  exact hrs _ _ rfl rfl h

theorem renLabel_id (i : Id) : renLabel (fun x => x) i = i := by cases i <;> rfl

/-- Equal documents compare equal. -/
theorem eq_meq :
    (∀ a : Obj, ∀ b : Obj, a.WF → b.WF → a.eq b = true → a.meq (fun x => x) b = true) ∧
    (∀ a : Node, ∀ b : Node, a.WF → b.WF → a.eq b = true → a.meq (fun x => x) b = true) := by
  refine Doc.ind ?_ ?_ ?_ ?_
  · intro i v b _ _ h
    cases b <;> simpa [Obj.eq, Obj.meq] using h
  · intro i l ih b wa wb h
    cases b <;> simp only [Obj.eq, Obj.meq, Bool.and_eq_true, decide_eq_true_eq, objsListEq_iff,
      objsMeq_eq, listB_iff, Bool.false_eq_true] at h ⊢
    simp only [Obj.WF] at wa wb
    exact ⟨h.1, forall₂_mem_imp h.2 fun a ha b hb => ih a ha b (objsWF_iff.1 wa a ha)
      (objsWF_iff.1 wb b hb)⟩
  · intro n ih b wa wb h
    cases b <;> simp only [Obj.eq, Obj.meq, Bool.false_eq_true] at h ⊢
    exact ih _ wa wb h
  · intro i id ty g inc ps rv h1 h2 h3 h4 m wn wm h
    have hr := (node_eq_iff wn wm).1 h
    obtain ⟨i', id', ty', g', inc', ps', rv'⟩ := m
    rw [Node.meq_iff]
    obtain ⟨e1, e2, e3, e4, e5, e6, e7⟩ := hr
    obtain ⟨wg, winc, wk, wps, wrv⟩ := wn
    obtain ⟨wg', winc', wk', wps', wrv'⟩ := wm
    simp only [Node.index, Node.id, Node.included, Node.graph, Node.props, Node.rev] at *
    refine ⟨e1, ?_, ?_, ?_, ?_, ?_⟩
    · rw [e2]; cases id' <;> simp [renLabel_id]
    · refine e5.imp fun x y hx hy h => h.mono fun a ha b hb => ?_
      subst hx hy
      exact h2 _ rfl a ha b (nodesWF_iff.1 winc.2 a ha) (nodesWF_iff.1 winc'.2 b hb)
    · refine e4.imp fun x y hx hy h => h.mono fun a ha b hb => ?_
      subst hx hy
      exact h1 _ rfl a ha b (objsWF_iff.1 wg.2 a ha) (objsWF_iff.1 wg'.2 b hb)
    · refine e6.mono fun p hp q hq h => ⟨by rw [renLabel_id]; exact h.1, h.2.mono
        fun a ha b hb => ?_⟩
      exact h3 p hp a ha b (psWF_iff.1 wps p hp a ha) (psWF_iff.1 wps' q hq b hb)
    · refine e7.imp fun x y hx hy h => h.mono fun p hp q hq h => ⟨by rw [renLabel_id]; exact h.1,
        h.2.mono fun a ha b hb => ?_⟩
      subst hx hy
      exact h4 _ rfl p hp a ha b (rpsWF_iff.1 wrv.2 p hp a ha) (rpsWF_iff.1 wrv'.2 q hq b hb)

/-- Without types, documents that compare equal are equal. -/
theorem meq_eq :
    (∀ a : Obj, ∀ b : Obj, a.WF → b.WF → noTypes a → noTypes b →
      a.meq (fun x => x) b = true → a.eq b = true) ∧
    (∀ a : Node, ∀ b : Node, a.WF → b.WF → noTypesN a → noTypesN b →
      a.meq (fun x => x) b = true → a.eq b = true) := by
  refine Doc.ind ?_ ?_ ?_ ?_
  · intro i v b _ _ _ _ h
    cases b <;> simpa [Obj.eq, Obj.meq] using h
  · intro i l ih b wa wb ta tb h
    cases b <;> simp only [Obj.eq, Obj.meq, Bool.and_eq_true, decide_eq_true_eq, objsListEq_iff,
      objsMeq_eq, listB_iff, Bool.false_eq_true] at h ⊢
    simp only [Obj.WF] at wa wb
    simp only [noTypes, objHeaders, objsHeaders_eq, List.mem_flatMap] at ta tb
    exact ⟨h.1, forall₂_mem_imp h.2 fun a ha b hb => ih a ha b (objsWF_iff.1 wa a ha)
      (objsWF_iff.1 wb b hb) (fun x hx => ta x ⟨a, ha, hx⟩) (fun x hx => tb x ⟨b, hb, hx⟩)⟩
  · intro n ih b wa wb ta tb h
    cases b <;> simp only [Obj.eq, Obj.meq, Bool.false_eq_true] at h ⊢
    exact ih _ wa wb ta tb h
  · intro i id ty g inc ps rv h1 h2 h3 h4 m wn wm tn tm h
    rw [node_eq_iff wn wm]
    obtain ⟨i', id', ty', g', inc', ps', rv'⟩ := m
    rw [Node.meq_iff] at h
    rw [noTypesN_iff] at tn tm
    obtain ⟨e1, e2, e3, e4, e5, e6⟩ := h
    obtain ⟨wg, winc, wk, wps, wrv⟩ := wn
    obtain ⟨wg', winc', wk', wps', wrv'⟩ := wm
    obtain ⟨tt, tg, ti, tp, tr⟩ := tn
    obtain ⟨tt', tg', ti', tp', tr'⟩ := tm
    simp only [Node.index, Node.id, Node.included, Node.graph, Node.props, Node.rev,
      renLabel_id] at e1 e2 e3 e4 e5 e6
    refine ⟨e1, ?_, ?_, ?_, ?_, ?_, ?_⟩ <;>
      simp only [Node.id, Node.types, Node.included, Node.graph, Node.props, Node.rev]
    · rw [← e2]; cases id <;> simp [renLabel_id]
    · subst tt tt'; trivial
    · refine e4.imp fun x y hx hy h => h.mono fun a ha b hb => ?_
      subst hx hy
      exact h1 _ rfl a ha b (objsWF_iff.1 wg.2 a ha) (objsWF_iff.1 wg'.2 b hb)
        (tg _ rfl a ha) (tg' _ rfl b hb)
    · refine e3.imp fun x y hx hy h => h.mono fun a ha b hb => ?_
      subst hx hy
      exact h2 _ rfl a ha b (nodesWF_iff.1 winc.2 a ha) (nodesWF_iff.1 winc'.2 b hb)
        (ti _ rfl a ha) (ti' _ rfl b hb)
    · refine e5.mono fun p hp q hq h => ⟨h.1, h.2.mono fun a ha b hb => ?_⟩
      exact h3 p hp a ha b (psWF_iff.1 wps p hp a ha) (psWF_iff.1 wps' q hq b hb)
        (tp p hp a ha) (tp' q hq b hb)
    · refine e6.imp fun x y hx hy h => h.mono fun p hp q hq h => ⟨h.1,
        h.2.mono fun a ha b hb => ?_⟩
      subst hx hy
      exact h4 _ rfl p hp a ha b (rpsWF_iff.1 wrv.2 p hp a ha) (rpsWF_iff.1 wrv'.2 q hq b hb)
        (tr _ rfl p hp a ha) (tr' _ rfl q hq b hb)

/-- Renaming keeps documents without types so. -/
theorem ren_noTypes (f : Str → Str) :
    (∀ a : Obj, noTypes a → noTypes (renObj f a)) ∧
    (∀ a : Node, noTypesN a → noTypesN (renNode f a)) := by
  refine Doc.ind ?_ ?_ ?_ ?_
  · intro i v h; exact h
  · intro i l ih h
    simp only [noTypes, objHeaders, renObj, objsHeaders_eq, renObjs_eq, List.mem_flatMap,
      List.mem_map] at h ⊢
    rintro x ⟨_, ⟨o, ho, rfl⟩, hx⟩
    exact ih o ho (fun x hx => h x ⟨o, ho, hx⟩) x hx
  · intro n ih h; exact ih h
  · intro i id ty g inc ps rv h1 h2 h3 h4 h
    rw [renNode_eq]
    rw [noTypesN_iff] at h ⊢
    obtain ⟨t, tg, ti, tp, tr⟩ := h
    refine ⟨by rw [t]; rfl, ?_, ?_, ?_, ?_⟩
    · intro l hl o ho
      cases g <;> simp only [Option.map, Option.some.injEq, reduceCtorEq] at hl
      subst hl
      obtain ⟨a, ha, rfl⟩ := List.mem_map.1 ho
      exact h1 _ rfl a ha (tg _ rfl a ha)
    · intro l hl o ho
      cases inc <;> simp only [Option.map, Option.some.injEq, reduceCtorEq] at hl
      subst hl
      obtain ⟨a, ha, rfl⟩ := List.mem_map.1 ho
      exact h2 _ rfl a ha (ti _ rfl a ha)
    · intro p hp o ho
      obtain ⟨q, hq, rfl⟩ := List.mem_map.1 hp
      obtain ⟨a, ha, rfl⟩ := List.mem_map.1 ho
      exact h3 q hq a ha (tp q hq a ha)
    · intro l hl p hp o ho
      cases rv <;> simp only [Option.map, Option.some.injEq, reduceCtorEq] at hl
      subst hl
      obtain ⟨q, hq, rfl⟩ := List.mem_map.1 hp
      obtain ⟨a, ha, rfl⟩ := List.mem_map.1 ho
      exact h4 _ rfl q hq a ha (tr _ rfl q hq a ha)

theorem renLabel_inj {f : Str → Str} (hf : Function.Injective f) :
    Function.Injective (renLabel f) := by
  intro a b h
  cases a <;> cases b <;> simp_all [renLabel]
  exact hf h

/-- Renaming injectively keeps the invariants of documents without types. -/
theorem ren_wf (f : Str → Str) (hf : Function.Injective f) :
    (∀ a : Obj, a.WF → noTypes a → (renObj f a).WF) ∧
    (∀ a : Node, a.WF → noTypesN a → (renNode f a).WF) := by
  refine Doc.ind ?_ ?_ ?_ ?_
  · intro i v h _; exact h
  · intro i l ih w h
    simp only [noTypes, objHeaders, objsHeaders_eq, List.mem_flatMap] at h
    simp only [renObj, Obj.WF, objsWF_iff, renObjs_eq, List.mem_map] at w ⊢
    rintro x ⟨o, ho, rfl⟩
    exact ih o ho (w o ho) (fun x hx => h x ⟨o, ho, hx⟩)
  · intro n ih w h; exact ih w h
  · intro i id ty g inc ps rv h1 h2 h3 h4 w h
    rw [renNode_eq]
    rw [noTypesN_iff] at h
    obtain ⟨t, tg, ti, tp, tr⟩ := h
    obtain ⟨wg, winc, wk, wps, wrv⟩ := w
    have key : ∀ l : List Obj, (∀ o ∈ l, (renObj f o).WF) → (∀ o ∈ l, o.WF) →
        (∀ o ∈ l, noTypes o) → l.Pairwise (fun a b => b.eq a = false) →
        (l.map (renObj f)).Pairwise (fun a b => b.eq a = false) := by
      intro l hw hw' ht hp
      rw [List.pairwise_map]
      have h2 : l.Pairwise fun a b => a ∈ l ∧ b ∈ l := List.pairwise_of_forall_mem_list
        (fun a ha b hb => ⟨ha, hb⟩)
      refine (h2.and hp).imp ?_
      rintro a b ⟨⟨ha, hb⟩, hne⟩
      by_contra hc
      rw [Bool.not_eq_false] at hc
      have := eq_meq.1 _ _ (hw b hb) (hw a ha) hc
      rw [(meq_ren_inj f hf).1] at this
      have := meq_eq.1 _ _ (hw' b hb) (hw' a ha) (ht b hb) (ht a ha) this
      simp [this] at hne
    have keyN : ∀ l : List Node, (∀ o ∈ l, (renNode f o).WF) → (∀ o ∈ l, o.WF) →
        (∀ o ∈ l, noTypesN o) → l.Pairwise (fun a b => b.eq a = false) →
        (l.map (renNode f)).Pairwise (fun a b => b.eq a = false) := by
      intro l hw hw' ht hp
      rw [List.pairwise_map]
      have h2 : l.Pairwise fun a b => a ∈ l ∧ b ∈ l := List.pairwise_of_forall_mem_list
        (fun a ha b hb => ⟨ha, hb⟩)
      refine (h2.and hp).imp ?_
      rintro a b ⟨⟨ha, hb⟩, hne⟩
      by_contra hc
      rw [Bool.not_eq_false] at hc
      have := eq_meq.2 _ _ (hw b hb) (hw a ha) hc
      rw [(meq_ren_inj f hf).2] at this
      have := meq_eq.2 _ _ (hw' b hb) (hw' a ha) (ht b hb) (ht a ha) this
      simp [this] at hne
    refine ⟨?_, ?_, ?_, ?_, ?_⟩
    · cases g with
      | none => trivial
      | some l =>
        have hw := fun o ho => h1 l rfl o ho (objsWF_iff.1 wg.2 o ho) (tg l rfl o ho)
        refine ⟨key l hw (objsWF_iff.1 wg.2) (tg l rfl) wg.1, ?_⟩
        rw [objsWF_iff]
        intro o ho
        obtain ⟨a, ha, rfl⟩ := List.mem_map.1 ho
        exact hw a ha
    · cases inc with
      | none => trivial
      | some l =>
        have hw := fun o ho => h2 l rfl o ho (nodesWF_iff.1 winc.2 o ho) (ti l rfl o ho)
        refine ⟨keyN l hw (nodesWF_iff.1 winc.2) (ti l rfl) winc.1, ?_⟩
        rw [nodesWF_iff]
        intro o ho
        obtain ⟨a, ha, rfl⟩ := List.mem_map.1 ho
        exact hw a ha
    · rw [List.map_map]
      have : (Prod.fst ∘ fun p : Id × List Obj => (renLabel f p.1, p.2.map (renObj f))) =
        renLabel f ∘ Prod.fst := rfl
      rw [this, ← List.map_map]
      exact List.Nodup.map (renLabel_inj hf) wk
    · rw [psWF_iff]
      intro p hp o ho
      obtain ⟨q, hq, rfl⟩ := List.mem_map.1 hp
      obtain ⟨a, ha, rfl⟩ := List.mem_map.1 ho
      exact h3 q hq a ha (psWF_iff.1 wps q hq a ha) (tp q hq a ha)
    · cases rv with
      | none => trivial
      | some l =>
        refine ⟨?_, ?_⟩
        · rw [List.map_map]
          have : (Prod.fst ∘ fun p : Id × List Node => (renLabel f p.1, p.2.map (renNode f))) =
            renLabel f ∘ Prod.fst := rfl
          rw [this, ← List.map_map]
          exact List.Nodup.map (renLabel_inj hf) wrv.1
        · rw [rpsWF_iff]
          intro p hp o ho
          obtain ⟨q, hq, rfl⟩ := List.mem_map.1 hp
          obtain ⟨a, ha, rfl⟩ := List.mem_map.1 ho
          exact h4 l rfl q hq a ha (rpsWF_iff.1 wrv.2 q hq a ha) (tr l rfl q hq a ha)

end JsonLd
