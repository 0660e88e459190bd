import Verif.Proofs.MapsEntry
import Verif.Proofs.FlattenOut
/-!
# Building equal nodes

Operations on nodes give equal nodes when they are applied to equal nodes, and most of them commute.
-/

namespace JsonLd
open Spec Props

/-- Equal well-formed nodes. -/
def SameN (a b : Node) : Prop := Same (.node a) (.node b)

theorem SameN.symm {a b : Node} (h : SameN a b) : SameN b a := Same.symm h
theorem SameN.trans {a b d : Node} (h : SameN a b) (h' : SameN b d) : SameN a d := Same.trans h h'

/-- Keys with values that are the same up to their order. -/
def LikeProps {α : Type} (S : α → α → Prop) (ps qs : List (Id × List α)) : Prop :=
  ∀ k, OptRel (PermRel S) (lookupProp k ps) (lookupProp k qs)

theorem lookupProp_insertAll {α : Type} {k : Id} {vs : List α} {ps : List (Id × List α)} {k' : Id} :
    lookupProp k' (insertAll k vs ps) =
      if k' = k then some ((lookupProp k ps).getD [] ++ vs) else lookupProp k' ps := by
  induction ps with
  | nil =>
    by_cases h : k' = k
    · simp [insertAll, lookupProp, h]
    · have h' : ¬ k = k' := fun h' => h h'.symm
      simp [insertAll, lookupProp, h, h']
  | cons p ps ih =>
    obtain ⟨k₀, ws⟩ := p
    rw [insertAll]
    by_cases h0 : k₀ = k
    · rw [if_pos h0]
      subst h0
      by_cases h : k' = k₀
      · subst h; simp [lookupProp]
      · have h' : ¬ k₀ = k' := fun h' => h h'.symm
        simp [lookupProp, h, h']
    · rw [if_neg h0]
      by_cases h : k' = k
      · subst h
        simp only [lookupProp, if_neg h0, ih, if_pos]
      · simp only [lookupProp, ih, if_neg h]

section
variable {α : Type} {S : α → α → Prop}

theorem likeProps_of_rel {ps qs : List (Id × List α)} (hq : (qs.map Prod.fst).Nodup)
    (h : PermRel (fun p q => p.1 = q.1 ∧ PermRel S p.2 q.2) ps qs) : LikeProps S ps qs := by
  intro k
  obtain ⟨qs', h1, h2⟩ := h
  rw [← lookupProp_perm h1 hq]
  clear h1 hq
  induction h2 with
  | nil => trivial
  | @cons p q ps qs h _ ih =>
    obtain ⟨k1, a⟩ := p
    obtain ⟨k2, b⟩ := q
    obtain ⟨rfl, h⟩ := h
    simp only [lookupProp]
    split
    · exact h
    · exact ih

theorem rel_of_likeProps {ps qs : List (Id × List α)} (hp : (ps.map Prod.fst).Nodup) (hq : (qs.map Prod.fst).Nodup)
    (h : LikeProps S ps qs) : PermRel (fun p q => p.1 = q.1 ∧ PermRel S p.2 q.2) ps qs := by
  have hk : (ps.map Prod.fst).Perm (qs.map Prod.fst) := by
    rw [List.perm_ext_iff_of_nodup hp hq]
    intro k
    have := h k
    rw [← not_iff_not, ← lookupProp_eq_none, ← lookupProp_eq_none]
    constructor
    · intro h'; rw [h'] at this; cases hx : lookupProp k qs with
      | none => rfl
      | some => rw [hx] at this; cases this
    · intro h'; rw [h'] at this; cases hx : lookupProp k ps with
      | none => rfl
      | some => rw [hx] at this; cases this
  refine permRel_of_inj ?_ ?_ ?_
  · simpa using hk.length_eq
  · rintro ⟨k, a⟩ hm
    have h1 := h k
    rw [lookupProp_of_mem hp hm] at h1
    cases hx : lookupProp k qs with
    | none => rw [hx] at h1; cases h1
    | some b => rw [hx] at h1; exact ⟨(k, b), lookupProp_mem hx, rfl, h1⟩
  · refine (List.pairwise_map.1 hp).imp ?_
    rintro p q hne r _ ⟨h1, _⟩ ⟨h2, _⟩
    exact hne (h1.trans h2.symm)

theorem permRel_app {a a' b b' : List α} (h : PermRel S a b) (h' : PermRel S a' b') :
    PermRel S (a ++ a') (b ++ b') := by
  obtain ⟨x, h1, h2⟩ := h
  obtain ⟨y, h3, h4⟩ := h'
  exact ⟨x ++ y, h1.append h3, List.rel_append h2 h4⟩

theorem permRel_nil : PermRel S [] [] := ⟨[], .refl _, .nil⟩

theorem optRel_getD {a b : Option (List α)} (h : OptRel (PermRel S) a b) : PermRel S (a.getD []) (b.getD []) := by
  cases a <;> cases b <;> first | exact permRel_nil | exact h | cases h

theorem LikeProps.insert {ps qs : List (Id × List α)} (h : LikeProps S ps qs) {k : Id} {vs ws : List α}
    (hv : PermRel S vs ws) : LikeProps S (insertAll k vs ps) (insertAll k ws qs) := by
  intro k'
  rw [lookupProp_insertAll, lookupProp_insertAll]
  split
  · exact permRel_app (optRel_getD (h k)) hv
  · exact h k'

theorem LikeProps.swap {ps : List (Id × List α)} (h : LikeProps S ps ps) {k k' : Id} {vs ws : List α}
    (hv : PermRel S vs vs) (hw : PermRel S ws ws) :
    LikeProps S (insertAll k vs (insertAll k' ws ps)) (insertAll k' ws (insertAll k vs ps)) := by
  intro x
  simp only [lookupProp_insertAll]
  by_cases h1 : x = k
  · by_cases h2 : x = k'
    · subst h1; subst h2
      simp only [if_true]
      have h3 := permRel_app (permRel_app (optRel_getD (h x)) hv) hw
      refine PermRel.perm_left ?_ h3
      simp only [Option.getD_some, List.append_assoc]
      exact List.Perm.append_left _ List.perm_append_comm
    · subst h1
      simp only [if_true, if_neg h2]
      exact permRel_app (optRel_getD (h x)) hv
  · by_cases h2 : x = k'
    · subst h2
      simp only [if_true, if_neg h1]
      exact permRel_app (optRel_getD (h x)) hw
    · simp only [if_neg h1, if_neg h2]
      exact h x

end

/-! ## The parts of nodes -/

/-- The parts of equal nodes. -/
structure NodeParts (a b : Node) : Prop where
  index : a.index = b.index
  id : a.id = b.id
  types : OptRel List.Perm a.types b.types
  graph : OptRel (PermRel Same) a.graph b.graph
  graphL : ∀ l, a.graph = some l → l.Pairwise fun a b => b.eq a = false
  graphR : ∀ l, b.graph = some l → l.Pairwise fun a b => b.eq a = false
  included : OptRel (PermRel SameN) a.included b.included
  includedL : ∀ l, a.included = some l → l.Pairwise fun a b => b.eq a = false
  includedR : ∀ l, b.included = some l → l.Pairwise fun a b => b.eq a = false
  props : LikeProps Same a.props b.props
  propsL : (a.props.map Prod.fst).Nodup
  propsR : (b.props.map Prod.fst).Nodup
  rev : a.rev.isSome = b.rev.isSome
  revs : LikeProps SameN (a.rev.getD []) (b.rev.getD [])
  revL : ((a.rev.getD []).map Prod.fst).Nodup
  revR : ((b.rev.getD []).map Prod.fst).Nodup

theorem Node.WF.graph {n : Node} (h : n.WF) {l : List Obj} (hl : n.graph = some l) :
    (l.Pairwise fun a b => b.eq a = false) ∧ ∀ o ∈ l, o.WF := by
  cases n; cases hl; exact ⟨h.1.1, objsWF_iff.1 h.1.2⟩

theorem Node.WF.included {n : Node} (h : n.WF) {l : List Node} (hl : n.included = some l) :
    (l.Pairwise fun a b => b.eq a = false) ∧ ∀ o ∈ l, o.WF := by
  cases n; cases hl; exact ⟨h.2.1.1, nodesWF_iff.1 h.2.1.2⟩

theorem Node.WF.props {n : Node} (h : n.WF) : (n.props.map Prod.fst).Nodup ∧ ∀ p ∈ n.props, ∀ o ∈ p.2, o.WF := by
  cases n; exact ⟨h.2.2.1, psWF_iff.1 h.2.2.2.1⟩

theorem Node.WF.rev {n : Node} (h : n.WF) {l : List (Id × List Node)} (hl : n.rev = some l) :
    (l.map Prod.fst).Nodup ∧ ∀ p ∈ l, ∀ o ∈ p.2, o.WF := by
  cases n; cases hl; exact ⟨h.2.2.2.2.1, rpsWF_iff.1 h.2.2.2.2.2⟩

theorem sameN_iff {a b : Node} : SameN a b ↔ a.WF ∧ b.WF ∧ a.eq b = true := by
  constructor
  · intro h
    have he := h.eq
    simp only [Obj.eq] at he
    exact ⟨h.wf', h.wf, he⟩
  · rintro ⟨h1, h2, h3⟩
    exact ⟨h1, h2, by simp only [Obj.eq]; exact h3⟩

theorem SameN.parts {a b : Node} (h : SameN a b) : NodeParts a b := by
  have ha : a.WF := h.wf'
  have hb : b.WF := h.wf
  obtain ⟨h1, h2, h3, h4, h5, h6, h7⟩ := same_rel h
  have h6' : PermRel (fun p q => p.1 = q.1 ∧ PermRel Same p.2 q.2) a.props b.props :=
    h6.mono fun p hp q hq hr => ⟨hr.1, hr.2.mono fun x hx y hy he => ⟨ha.props.2 p hp x hx, hb.props.2 q hq y hy, he⟩⟩
  refine ⟨h1, h2, h3, ?_, fun l hl => (ha.graph hl).1, fun l hl => (hb.graph hl).1, ?_,
    fun l hl => (ha.included hl).1, fun l hl => (hb.included hl).1,
    likeProps_of_rel hb.props.1 h6', ha.props.1, hb.props.1, ?_, ?_, ?_, ?_⟩
  · cases hx : a.graph <;> cases hy : b.graph <;> rw [hx, hy] at h4 <;> first | trivial | exact h4.elim | skip
    exact PermRel.mono h4 fun x hx' y hy' he => ⟨(ha.graph hx).2 x hx', (hb.graph hy).2 y hy', he⟩
  · cases hx : a.included <;> cases hy : b.included <;> rw [hx, hy] at h5 <;> first | trivial | exact h5.elim | skip
    exact PermRel.mono h5 fun x hx' y hy' he => sameN_iff.2 ⟨(ha.included hx).2 x hx', (hb.included hy).2 y hy', he⟩
  · cases hx : a.rev <;> cases hy : b.rev <;> rw [hx, hy] at h7 <;> first | rfl | cases h7
  · cases hx : a.rev with
    | none =>
      cases hy : b.rev with
      | none => intro k; trivial
      | some => rw [hx, hy] at h7; cases h7
    | some l =>
      cases hy : b.rev with
      | none => rw [hx, hy] at h7; cases h7
      | some l' =>
        rw [hx, hy] at h7
        refine likeProps_of_rel (hb.rev hy).1 (PermRel.mono h7 fun p hp q hq hr => ⟨hr.1, hr.2.mono ?_⟩)
        exact fun x hx' y hy' he => sameN_iff.2 ⟨(ha.rev hx).2 p hp x hx', (hb.rev hy).2 q hq y hy', he⟩
  · cases hx : a.rev with
    | none => exact .nil
    | some l => exact (ha.rev hx).1
  · cases hx : b.rev with
    | none => exact .nil
    | some l => exact (hb.rev hx).1

theorem permRel_left {α : Type} {S : α → α → Prop} {P : α → Prop} {as bs : List α} (h : PermRel S as bs)
    (hp : ∀ a b, S a b → P a) : ∀ a ∈ as, P a := by
  intro a ha
  obtain ⟨b, -, hab⟩ := h.exists_right ha
  exact hp a b hab

theorem optRel_mono {α β : Type} {R S : α → β → Prop} {a : Option α} {b : Option β} (h : OptRel R a b)
    (hrs : ∀ x y, R x y → S x y) : OptRel S a b := by
  cases a <;> cases b <;> first | trivial | exact h.elim | skip
  exact hrs _ _ h

theorem likeProps_left {α : Type} {S : α → α → Prop} {P : α → Prop} {ps qs : List (Id × List α)}
    (h : LikeProps S ps qs) (hp : (ps.map Prod.fst).Nodup) (hS : ∀ a b, S a b → P a) :
    ∀ p ∈ ps, ∀ a ∈ p.2, P a := by
  rintro ⟨k, l⟩ hm a ha
  have := h k
  rw [lookupProp_of_mem hp hm] at this
  cases hx : lookupProp k qs with
  | none => rw [hx] at this; cases this
  | some l' => rw [hx] at this; exact permRel_left this hS a ha

theorem optRel_flip {α : Type} {S : α → α → Prop} (hS : ∀ a b, S a b → S b a) {a b : Option (List α)}
    (h : OptRel (PermRel S) a b) : OptRel (PermRel S) b a := by
  cases a <;> cases b <;> first | trivial | exact h.elim | skip
  exact PermRel.symm_of h fun _ _ _ _ h => hS _ _ h

theorem likeProps_flip {α : Type} {S : α → α → Prop} (hS : ∀ a b, S a b → S b a) {ps qs : List (Id × List α)}
    (h : LikeProps S ps qs) : LikeProps S qs ps := fun k => optRel_flip hS (h k)

theorem NodeParts.flip {a b : Node} (h : NodeParts a b) : NodeParts b a where
  index := h.index.symm
  id := h.id.symm
  types := optRel_symm_of h.types fun _ _ _ _ h => h.symm
  graph := optRel_flip (fun _ _ => Same.symm) h.graph
  graphL := h.graphR
  graphR := h.graphL
  included := optRel_flip (fun _ _ => SameN.symm) h.included
  includedL := h.includedR
  includedR := h.includedL
  props := likeProps_flip (fun _ _ => Same.symm) h.props
  propsL := h.propsR
  propsR := h.propsL
  rev := h.rev.symm
  revs := likeProps_flip (fun _ _ => SameN.symm) h.revs
  revL := h.revR
  revR := h.revL

theorem NodeParts.wf {a b : Node} (h : NodeParts a b) : a.WF := by
  obtain ⟨i, id, ty, g, inc, ps, rv⟩ := a
  refine ⟨?_, ?_, h.propsL, psWF_iff.2 (likeProps_left h.props h.propsL fun _ _ h => h.wf'), ?_⟩
  · cases g with
    | none => trivial
    | some l =>
      refine ⟨h.graphL l rfl, objsWF_iff.2 ?_⟩
      have := h.graph
      cases hx : b.graph with
      | none => rw [hx] at this; cases this
      | some l' =>
        rw [hx] at this
        exact permRel_left this fun _ _ h => h.wf'
  · cases inc with
    | none => trivial
    | some l =>
      refine ⟨h.includedL l rfl, nodesWF_iff.2 ?_⟩
      have := h.included
      cases hx : b.included with
      | none => rw [hx] at this; cases this
      | some l' =>
        rw [hx] at this
        exact permRel_left this fun _ _ h => h.wf'
  · cases rv with
    | none => trivial
    | some l => exact ⟨h.revL, rpsWF_iff.2 (likeProps_left h.revs h.revL fun _ _ h => h.wf')⟩

theorem NodeParts.same {a b : Node} (h : NodeParts a b) : SameN a b := by
  refine rel_same h.wf h.flip.wf ⟨h.index, h.id, h.types, ?_, ?_, ?_, ?_⟩
  · exact optRel_mono h.graph fun _ _ h => h.mono fun _ _ _ _ h => h.eq
  · exact optRel_mono h.included fun _ _ h => h.mono fun _ _ _ _ h => (sameN_iff.1 h).2.2
  · exact (rel_of_likeProps h.propsL h.propsR h.props).mono fun _ _ _ _ h =>
      ⟨h.1, h.2.mono fun _ _ _ _ h => h.eq⟩
  · have h1 := h.rev
    have h2 := rel_of_likeProps h.revL h.revR h.revs
    cases hx : a.rev <;> cases hy : b.rev <;> rw [hx, hy] at h1 <;> first | trivial | cases h1
    rw [hx, hy] at h2
    exact h2.mono fun _ _ _ _ h => ⟨h.1, h.2.mono fun _ _ _ _ h => (sameN_iff.1 h).2.2⟩

theorem sameN_parts {a b : Node} : SameN a b ↔ NodeParts a b := ⟨SameN.parts, NodeParts.same⟩

/-! ## Operations -/

variable {a b : Node}

theorem sameN_empty : SameN (.mk none none none none none [] none) (.mk none none none none none [] none) :=
  .refl (by simp [Obj.WF, Node.WF, gWF, incWF, psWF, rvWF])

theorem SameN.setId (h : SameN a b) (i : Option Id) : SameN (a.setId i) (b.setId i) := by
  have h := h.parts
  cases a; cases b
  exact NodeParts.same { h with id := rfl }

theorem SameN.setIndex (h : SameN a b) (i : Option Str) : SameN (a.setIndex i) (b.setIndex i) := by
  have h := h.parts
  cases a; cases b
  exact NodeParts.same { h with index := rfl }

theorem SameN.pushType (h : SameN a b) (t : Id) : SameN (a.pushType t) (b.pushType t) := by
  have h := h.parts
  cases a with
  | mk _ _ ta => cases b with
    | mk _ _ tb =>
      refine NodeParts.same { h with types := ?_ }
      have := h.types
      cases ta <;> cases tb <;> first | exact this.elim | skip
      · exact List.Perm.refl _
      · exact List.Perm.append_right _ this

theorem SameN.setGraph (h : SameN a b) {g g' : List Obj} (hg : PermRel Same g g')
    (h1 : g.Pairwise fun a b => b.eq a = false) (h2 : g'.Pairwise fun a b => b.eq a = false) :
    SameN (a.setGraphEntry (some g)) (b.setGraphEntry (some g')) := by
  have h := h.parts
  cases a; cases b
  exact NodeParts.same { h with graph := hg, graphL := fun l hl => by cases hl; exact h1, graphR := fun l hl => by cases hl; exact h2 }

theorem SameN.setIncluded (h : SameN a b) {g g' : List Node} (hg : PermRel SameN g g')
    (h1 : g.Pairwise fun a b => b.eq a = false) (h2 : g'.Pairwise fun a b => b.eq a = false) :
    SameN (a.setIncluded (some g)) (b.setIncluded (some g')) := by
  have h := h.parts
  cases a; cases b
  exact NodeParts.same { h with included := hg, includedL := fun l hl => by cases hl; exact h1, includedR := fun l hl => by cases hl; exact h2 }

theorem SameN.insertProp (h : SameN a b) {p : Id} {os os' : List Obj} (ho : PermRel Same os os') :
    SameN (a.insertProp p os) (b.insertProp p os') := by
  have h := h.parts
  cases a; cases b
  exact NodeParts.same { h with props := h.props.insert ho, propsL := keys_insertAll h.propsL, propsR := keys_insertAll h.propsR }

theorem SameN.insertRev (h : SameN a b) {p : Id} {os os' : List Node} (ho : PermRel SameN os os') :
    SameN (a.insertRev p os) (b.insertRev p os') := by
  have h := h.parts
  cases a; cases b
  exact NodeParts.same { h with
    rev := rfl
    revs := h.revs.insert ho
    revL := keys_insertAll h.revL
    revR := keys_insertAll h.revR }

theorem SameN.hasKeyword (h : SameN a b) (k : Keyword) : a.hasKeyword k = b.hasKeyword k := by
  have h := h.parts
  have ho : ∀ {α β : Type} {R : α → β → Prop} {x : Option α} {y : Option β}, OptRel R x y → x.isSome = y.isSome := by
    intro α β R x y h
    cases x <;> cases y <;> first | rfl | cases h
  unfold Node.hasKeyword
  cases k <;> first | rfl | skip
  · exact ho h.graph
  · simp only [h.id]
  · exact ho h.included
  · exact h.rev
  · exact ho h.types

theorem SameN.isEmpty (h : SameN a b) : a.isEmpty = b.isEmpty := same_empty h

/-! ## Exchange -/

theorem swap_insertProp (h : SameN a a) {p q : Id} {os os' : List Obj} (h1 : PermRel Same os os) (h2 : PermRel Same os' os') :
    SameN ((a.insertProp p os).insertProp q os') ((a.insertProp q os').insertProp p os) := by
  have h := h.parts
  cases a
  exact NodeParts.same { h with
    props := h.props.swap h2 h1
    propsL := keys_insertAll (keys_insertAll h.propsL)
    propsR := keys_insertAll (keys_insertAll h.propsL) }

theorem swap_insertRev (h : SameN a a) {p q : Id} {os os' : List Node} (h1 : PermRel SameN os os) (h2 : PermRel SameN os' os') :
    SameN ((a.insertRev p os).insertRev q os') ((a.insertRev q os').insertRev p os) := by
  have h := h.parts
  cases a
  exact NodeParts.same { h with
    rev := rfl
    revs := h.revs.swap h2 h1
    revL := keys_insertAll (keys_insertAll h.revL)
    revR := keys_insertAll (keys_insertAll h.revL) }

/-! ## Sets -/

section
variable {α : Type} {eq : α → α → Bool} {S : α → α → Prop}

theorem setInsert_same (hS : ∀ a b a' b', S a a' → S b b' → eq a b = eq a' b') {l l' : List α} (h : PermRel S l l')
    (hf : ∀ a b, S a b → S b a) {x x' : α} (hx : S x x') : PermRel S (setInsert eq l x) (setInsert eq l' x') := by
  have : l.any (eq x) = l'.any (eq x') := by
    rw [Bool.eq_iff_iff, List.any_eq_true, List.any_eq_true]
    constructor
    · rintro ⟨y, hy, he⟩
      obtain ⟨y', hy', hs⟩ := h.exists_right hy
      exact ⟨y', hy', by rw [← hS _ _ _ _ hx hs]; exact he⟩
    · rintro ⟨y, hy, he⟩
      obtain ⟨y', hy', hs⟩ := (h.symm_of (S := S) fun _ _ _ _ h => hf _ _ h).exists_right hy
      exact ⟨y', hy', by rw [hS _ _ _ _ hx (hf _ _ hs)]; exact he⟩
  unfold setInsert
  rw [this]
  split
  · exact h
  · exact permRel_app h (PermRel.of_forall₂ (.cons hx .nil))

theorem setFold_same (hS : ∀ a b a' b', S a a' → S b b' → eq a b = eq a' b') (hf : ∀ a b, S a b → S b a) {xs xs' : List α}
    (hx : List.Forall₂ S xs xs') {l l' : List α} (h : PermRel S l l') :
    PermRel S (xs.foldl (setInsert eq) l) (xs'.foldl (setInsert eq) l') := by
  induction hx generalizing l l' with
  | nil => exact h
  | cons hx _ ih => exact ih (setInsert_same hS h hf hx)

end

theorem same_congr {x y x' y' : Obj} (h : Same x x') (h' : Same y y') : x.eq y = x'.eq y' := by
  rw [Bool.eq_iff_iff]
  constructor
  · intro he
    exact ((h.symm.trans ⟨h.wf', h'.wf', he⟩).trans h').eq
  · intro he
    exact ((h.trans ⟨h.wf, h'.wf, he⟩).trans h'.symm).eq

theorem sameN_congr {x y x' y' : Node} (h : SameN x x') (h' : SameN y y') : x.eq y = x'.eq y' := by
  have := same_congr h h'
  simpa only [Obj.eq] using this

theorem collect_same {xs xs' : List Obj} (h : List.Forall₂ Same xs xs') :
    PermRel Same (setCollect Obj.eq xs) (setCollect Obj.eq xs') :=
  setFold_same (eq := Obj.eq) (S := Same) (fun _ _ _ _ h h' => same_congr h h') (fun _ _ h => h.symm) h permRel_nil

end JsonLd
