import Verif.Model.DocEq
import Verif.Base.PermRel
/-!
# Document equality is an equivalence
-/

namespace JsonLd

mutual
/-- The invariants of the Rust containers: sets have no two equal elements (`IndexSet`) and maps no
two equal keys (`IndexMap`), at every depth. -/
def Obj.WF : Obj → Prop
  | .value _ _ => True
  | .list _ l => objsWF l
  | .node n => n.WF
/-- See `Obj.WF`. -/
def Node.WF : Node → Prop
  | .mk _ _ _ g inc ps rv => gWF g ∧ incWF inc ∧ (ps.map Prod.fst).Nodup ∧ psWF ps ∧ rvWF rv
/-- See `Obj.WF`. -/
def gWF : Option (List Obj) → Prop
  | none => True
  | some l => l.Pairwise (fun a b => b.eq a = false) ∧ objsWF l
/-- See `Obj.WF`. -/
def incWF : Option (List Node) → Prop
  | none => True
  | some l => l.Pairwise (fun a b => b.eq a = false) ∧ nodesWF l
/-- See `Obj.WF`. -/
def rvWF : Option (List (Id × List Node)) → Prop
  | none => True
  | some l => (l.map Prod.fst).Nodup ∧ rpsWF l
/-- See `Obj.WF`. -/
def objsWF : List Obj → Prop
  | [] => True
  | o :: os => o.WF ∧ objsWF os
/-- See `Obj.WF`. -/
def nodesWF : List Node → Prop
  | [] => True
  | o :: os => o.WF ∧ nodesWF os
/-- See `Obj.WF`. -/
def psWF : List (Id × List Obj) → Prop
  | [] => True
  | (_, l) :: ps => objsWF l ∧ psWF ps
/-- See `Obj.WF`. -/
def rpsWF : List (Id × List Node) → Prop
  | [] => True
  | (_, l) :: ps => nodesWF l ∧ rpsWF ps
end

/-- The invariants of an expanded document (an `IndexSet` of objects). -/
def Doc.WF (d : Doc) : Prop := gWF (some d)

theorem objsWF_iff {l : List Obj} : objsWF l ↔ ∀ o ∈ l, o.WF := by
  induction l with
  | nil => simp [objsWF]
  | cons o os ih => simp [objsWF, ih]

theorem nodesWF_iff {l : List Node} : nodesWF l ↔ ∀ o ∈ l, o.WF := by
  induction l with
  | nil => simp [nodesWF]
  | cons o os ih => simp [nodesWF, ih]

theorem psWF_iff {l : List (Id × List Obj)} : psWF l ↔ ∀ p ∈ l, ∀ o ∈ p.2, o.WF := by
  induction l with
  | nil => simp [psWF]
  | cons o os ih => simp [psWF, ih, objsWF_iff]

theorem rpsWF_iff {l : List (Id × List Node)} : rpsWF l ↔ ∀ p ∈ l, ∀ o ∈ p.2, o.WF := by
  induction l with
  | nil => simp [rpsWF]
  | cons o os ih => simp [rpsWF, ih, nodesWF_iff]

theorem objsListEq_iff {a b : List Obj} :
    objsListEq a b = true ↔ List.Forall₂ (fun x y => x.eq y = true) a b := by
  induction a generalizing b with
  | nil => cases b <;> simp [objsListEq]
  | cons x xs ih => cases b <;> simp [objsListEq, ih]

theorem objsSubset_iff {a b : List Obj} :
    objsSubset a b = true ↔ ∀ x ∈ a, ∃ y ∈ b, x.eq y = true := by
  induction a with
  | nil => simp [objsSubset]
  | cons x xs ih => simp [objsSubset, ih]

theorem nodesSubset_iff {a b : List Node} :
    nodesSubset a b = true ↔ ∀ x ∈ a, ∃ y ∈ b, x.eq y = true := by
  induction a with
  | nil => simp [nodesSubset]
  | cons x xs ih => simp [nodesSubset, ih]

theorem objsGreedy_eq {a b : List Obj} : objsGreedy a b = greedy Obj.eq a b := by
  induction a generalizing b with
  | nil => simp [objsGreedy, greedy]
  | cons x xs ih =>
    simp only [objsGreedy, greedy]
    cases removeFirst x.eq b <;> simp [ih]

theorem nodesGreedy_eq {a b : List Node} : nodesGreedy a b = greedy Node.eq a b := by
  induction a generalizing b with
  | nil => simp [nodesGreedy, greedy]
  | cons x xs ih =>
    simp only [nodesGreedy, greedy]
    cases removeFirst x.eq b <;> simp [ih]

theorem objsMs_eq {a b : List Obj} :
    (decide (a.length = b.length) && objsGreedy a b) = unorderedEq Obj.eq a b := by
  simp only [unorderedEq, objsGreedy_eq]; congr 1

theorem nodesMs_eq {a b : List Node} :
    (decide (a.length = b.length) && nodesGreedy a b) = unorderedEq Node.eq a b := by
  simp only [unorderedEq, nodesGreedy_eq]; congr 1

theorem propsSub_iff {a b : List (Id × List Obj)} :
    propsSub a b = true ↔
      ∀ p ∈ a, ∃ v, lookupProp p.1 b = some v ∧ unorderedEq Obj.eq p.2 v = true := by
  induction a with
  | nil => simp [propsSub]
  | cons x xs ih =>
    obtain ⟨k, v⟩ := x
    simp only [propsSub, Bool.and_eq_true, ih, objsMs_eq, List.forall_mem_cons]
    cases lookupProp k b <;> simp

theorem rpropsSub_iff {a b : List (Id × List Node)} :
    rpropsSub a b = true ↔
      ∀ p ∈ a, ∃ v, lookupProp p.1 b = some v ∧ unorderedEq Node.eq p.2 v = true := by
  induction a with
  | nil => simp [rpropsSub]
  | cons x xs ih =>
    obtain ⟨k, v⟩ := x
    simp only [rpropsSub, Bool.and_eq_true, ih, nodesMs_eq, List.forall_mem_cons]
    cases lookupProp k b <;> simp

theorem lookupProp_mem {α : Type} {k : Id} {l : List (Id × α)} {v : α}
    (h : lookupProp k l = some v) : (k, v) ∈ l := by
  induction l with
  | nil => simp [lookupProp] at h
  | cons p ps ih =>
    obtain ⟨k', a⟩ := p
    simp only [lookupProp] at h
    split at h
    · rename_i he; cases h; subst he; exact List.mem_cons_self
    · exact List.mem_cons_of_mem _ (ih h)

theorem lookupProp_of_mem {α : Type} {k : Id} {l : List (Id × α)} {v : α}
    (hn : (l.map Prod.fst).Nodup) (h : (k, v) ∈ l) : lookupProp k l = some v := by
  induction l with
  | nil => cases h
  | cons p ps ih =>
    obtain ⟨k', a⟩ := p
    simp only [List.map_cons, List.nodup_cons] at hn
    simp only [lookupProp]
    rcases List.mem_cons.1 h with h | h
    · cases h; simp
    · have : k' ≠ k := by
        rintro rfl
        exact hn.1 (List.mem_map.2 ⟨_, h, rfl⟩)
      simp [this, ih hn.2 h]

theorem lookupProp_map {α β : Type} (f : α → β) (k : Id) (l : List (Id × α)) :
    lookupProp k (l.map fun p => (p.1, f p.2)) = (lookupProp k l).map f := by
  induction l with
  | nil => rfl
  | cons p ps ih =>
    obtain ⟨k', a⟩ := p
    simp only [List.map_cons, lookupProp]
    split <;> simp [ih]

theorem idsEq_iff {a b : List Id} : idsEq a b = true ↔ a.Perm b := by
  unfold idsEq
  rw [unorderedEq_map_iff (f := _root_.id) (g := _root_.id)]
  · simp
  · intro a _ b _; simp

theorem idsOptEq_iff {a b : Option (List Id)} : idsOptEq a b = true ↔ OptRel List.Perm a b := by
  cases a <;> cases b <;> simp [idsOptEq, OptRel, idsEq_iff]

section generic
variable {α : Type} {eq : α → α → Bool} {WF : α → Prop}

/-- Abstract form of `EqOk`. -/
def EqOkG (eq : α → α → Bool) (WF : α → Prop) (a : α) : Prop :=
  eq a a = true ∧ (∀ b : α, WF b → eq a b = true → eq b a = true) ∧
    ∀ b c : α, WF b → WF c → eq a b = true → eq b c = true → eq a c = true

theorem ms_iff_of_ok {as bs : List α} (ha : ∀ a ∈ as, EqOkG eq WF a) (hwa : ∀ a ∈ as, WF a)
    (hwb : ∀ b ∈ bs, WF b) :
    unorderedEq eq as bs = true ↔ PermRel (fun x y => eq x y = true) as bs := by
  constructor
  · exact unorderedEq_sound
  · rintro ⟨bs', hp, hf⟩
    refine unorderedEq_complete ?_ hp hf
    intro a ham a' ham' b hb b' hb' h1 h2 h3
    have hba : eq b a = true := (ha a ham).2.1 b (hwb b hb) h1
    have h4 : eq a' a = true := (ha a' ham').2.2 b a (hwb b hb) (hwa a ham) h2 hba
    exact (ha a' ham').2.2 a b' (hwa a ham) (hwb b' hb') h4 h3

theorem set_iff_of_ok {as bs : List α} (ha : ∀ a ∈ as, EqOkG eq WF a) (hwa : ∀ a ∈ as, WF a)
    (hwb : ∀ b ∈ bs, WF b) (hn : as.Pairwise fun a b => eq b a = false) :
    (as.length = bs.length ∧ ∀ x ∈ as, ∃ y ∈ bs, eq x y = true) ↔
      PermRel (fun x y => eq x y = true) as bs := by
  constructor
  · rintro ⟨hl, hs⟩
    refine permRel_of_inj hl hs ?_
    have : as.Pairwise fun a b => a ∈ as ∧ b ∈ as ∧ eq b a = false := by
      have h2 : as.Pairwise fun a b => a ∈ as ∧ b ∈ as := List.pairwise_of_forall_mem_list
        (fun a ha b hb => ⟨ha, hb⟩)
      exact (h2.and hn).imp fun h => ⟨h.1.1, h.1.2, h.2⟩
    refine this.imp ?_
    rintro a a' ⟨ham, ham', hne⟩ b hb h1 h2
    have hba : eq b a = true := (ha a ham).2.1 b (hwb b hb) h1
    have h4 : eq a' a = true := (ha a' ham').2.2 b a (hwb b hb) (hwa a ham) h2 hba
    simp [h4] at hne
  · intro h
    exact ⟨h.length_eq, fun x hx => h.exists_right hx⟩

theorem map_iff_of_ok {as bs : List (Id × List α)} (ha : ∀ p ∈ as, ∀ a ∈ p.2, EqOkG eq WF a)
    (hwa : ∀ p ∈ as, ∀ a ∈ p.2, WF a) (hwb : ∀ p ∈ bs, ∀ a ∈ p.2, WF a)
    (hna : (as.map Prod.fst).Nodup) (hnb : (bs.map Prod.fst).Nodup) :
    (as.length = bs.length ∧
      ∀ p ∈ as, ∃ v, lookupProp p.1 bs = some v ∧ unorderedEq eq p.2 v = true) ↔
      PermRel (fun p q => p.1 = q.1 ∧ PermRel (fun x y => eq x y = true) p.2 q.2) as bs := by
  constructor
  · rintro ⟨hl, hs⟩
    refine permRel_of_inj hl ?_ ?_
    · intro p hp
      obtain ⟨v, hv, hu⟩ := hs p hp
      exact ⟨_, lookupProp_mem hv, rfl, unorderedEq_sound hu⟩
    · have := List.pairwise_map.1 hna
      refine this.imp ?_
      rintro p q hne r _ ⟨h1, _⟩ ⟨h2, _⟩
      exact hne (h1.trans h2.symm)
  · intro h
    refine ⟨h.length_eq, fun p hp => ?_⟩
    obtain ⟨q, hq, hk, hv⟩ := h.exists_right hp
    refine ⟨q.2, ?_, ?_⟩
    · rw [hk]; exact lookupProp_of_mem hnb hq
    · exact (ms_iff_of_ok (ha p hp) (hwa p hp) (hwb q hq)).2 hv

end generic

/-- Equality of nodes, spelled out up to reordering. -/
def NodeRel (n m : Node) : Prop :=
  n.index = m.index ∧ n.id = m.id ∧ OptRel List.Perm n.types m.types ∧
    OptRel (PermRel fun x y => x.eq y = true) n.graph m.graph ∧
    OptRel (PermRel fun x y => x.eq y = true) n.included m.included ∧
    PermRel (fun p q => p.1 = q.1 ∧ PermRel (fun x y => x.eq y = true) p.2 q.2) n.props m.props ∧
    OptRel (PermRel fun p q => p.1 = q.1 ∧ PermRel (fun x y => x.eq y = true) p.2 q.2) n.rev m.rev

theorem optRel_refl_of {α : Type} {R : α → α → Prop} {a : Option α}
    (h : ∀ x, a = some x → R x x) : OptRel R a a := by
  cases a with
  | none => trivial
  | some x => exact h x rfl

theorem optRel_symm_of {α : Type} {R S : α → α → Prop} {a b : Option α} (h : OptRel R a b)
    (hrs : ∀ x y, a = some x → b = some y → R x y → S y x) : OptRel S b a := by
  cases a <;> cases b <;> simp only [OptRel] at h ⊢
  exact hrs _ _ rfl rfl h

theorem optRel_trans_of {α : Type} {R S T : α → α → Prop} {a b c : Option α} (h : OptRel R a b)
    (h' : OptRel S b c)
    (ht : ∀ x y z, a = some x → b = some y → c = some z → R x y → S y z → T x z) :
    OptRel T a c := by
  cases a <;> cases b <;> cases c <;> simp only [OptRel] at h h' ⊢
  exact ht _ _ _ rfl rfl rfl h h'

theorem langEq_refl (a : Str) : langEq a a = true := by simp [langEq]

theorem langOptEq_iff {a b : Option Str} :
    langOptEq a b = true ↔ a.map (List.map lowerChar) = b.map (List.map lowerChar) := by
  cases a <;> cases b <;> simp [langOptEq, langEq]

theorem LangString.eq_iff {a b : LangString} : a.eq b = true ↔
    a.data = b.data ∧ a.language.map (List.map lowerChar) = b.language.map (List.map lowerChar) ∧
      a.direction = b.direction := by
  simp [LangString.eq, langOptEq_iff, and_assoc]

/-- The value with its language tag in lower case. -/
def Value.key : Value → Value
  | .langString s => .langString { s with language := s.language.map (List.map lowerChar) }
  | v => v

theorem Value.eq_iff {a b : Value} : a.eq b = true ↔ a.key = b.key := by
  cases a <;> cases b <;> simp [Value.eq, Value.key, LangString.eq_iff]


/-- Well-formed and smaller than a bound. -/
def Obj.WFd (d : Nat) (o : Obj) : Prop := o.WF ∧ sizeOf o < d
/-- Well-formed and smaller than a bound. -/
def Node.WFd (d : Nat) (n : Node) : Prop := n.WF ∧ sizeOf n < d

/-- Equality is an equivalence on small objects and nodes. -/
def EqClaim (d : Nat) : Prop :=
  (∀ o : Obj, o.WFd d → EqOkG Obj.eq (Obj.WFd d) o) ∧
    (∀ n : Node, n.WFd d → EqOkG Node.eq (Node.WFd d) n)

theorem sizeOf_snd_mem {α : Type} [SizeOf α] {ps : List (Id × List α)} {p : Id × List α} {o : α}
    (hp : p ∈ ps) (ho : o ∈ p.2) : sizeOf o < sizeOf ps := by
  have h1 := List.sizeOf_lt_of_mem hp
  have h2 := List.sizeOf_lt_of_mem ho
  obtain ⟨k, l⟩ := p
  simp at h1 h2
  omega

/-- All components of a node satisfy the invariants and are smaller. -/
structure Node.PartsWF (d : Nat) (n : Node) : Prop where
  g : ∀ l, n.graph = some l → ∀ o ∈ l, o.WFd d
  inc : ∀ l, n.included = some l → ∀ o ∈ l, o.WFd d
  ps : ∀ p ∈ n.props, ∀ o ∈ p.2, o.WFd d
  rv : ∀ l, n.rev = some l → ∀ p ∈ l, ∀ o ∈ p.2, o.WFd d

theorem Node.WFd.parts {n : Node} {d : Nat} (hn : n.WFd (d + 1)) : n.PartsWF d := by
  obtain ⟨i, id, ty, g, inc, ps, rv⟩ := n
  obtain ⟨⟨wg, winc, wk, wps, wrv⟩, hd⟩ := hn
  constructor <;> simp only [Node.graph, Node.included, Node.props, Node.rev]
  · rintro l rfl o ho
    refine ⟨objsWF_iff.1 wg.2 o ho, ?_⟩
    have := List.sizeOf_lt_of_mem ho
    simp at hd; omega
  · rintro l rfl o ho
    refine ⟨nodesWF_iff.1 winc.2 o ho, ?_⟩
    have := List.sizeOf_lt_of_mem ho
    simp at hd; omega
  · intro p hp o ho
    refine ⟨psWF_iff.1 wps p hp o ho, ?_⟩
    have := sizeOf_snd_mem hp ho
    simp at hd; omega
  · rintro l rfl p hp o ho
    refine ⟨rpsWF_iff.1 wrv.2 p hp o ho, ?_⟩
    have := sizeOf_snd_mem hp ho
    simp at hd; omega

theorem node_eq_iff_d {d : Nat} (hc : EqClaim d) {n m : Node} (hn : n.WFd (d + 1))
    (hm : m.WFd (d + 1)) : n.eq m = true ↔ NodeRel n m := by
  obtain ⟨kg, kinc, kps, krv⟩ := hn.parts
  obtain ⟨kg', kinc', kps', krv'⟩ := hm.parts
  obtain ⟨i, id, ty, g, inc, ps, rv⟩ := n
  obtain ⟨i', id', ty', g', inc', ps', rv'⟩ := m
  obtain ⟨⟨wg, winc, wk, wps, wrv⟩, -⟩ := hn
  obtain ⟨⟨wg', winc', wk', wps', wrv'⟩, -⟩ := hm
  simp only [Node.eq, Bool.and_eq_true, decide_eq_true_eq, NodeRel, Node.index, Node.id,
    Node.types, Node.graph, Node.included, Node.props, Node.rev, idsOptEq_iff, and_assoc]
  simp only [Node.graph, Node.included, Node.props, Node.rev] at kg kinc kps krv
  simp only [Node.graph, Node.included, Node.props, Node.rev] at kg' kinc' kps' krv'
  refine and_congr Iff.rfl (and_congr Iff.rfl (and_congr Iff.rfl (and_congr ?_ (and_congr ?_
    (and_congr ?_ ?_)))))
  · cases g <;> cases g' <;> simp only [objsOptEq, OptRel, Bool.false_eq_true]
    · rename_i a b
      rw [Bool.and_eq_true, decide_eq_true_eq, objsSubset_iff]
      exact set_iff_of_ok (WF := Obj.WFd d) (fun o ho => hc.1 o (kg a rfl o ho)) (kg a rfl)
        (kg' b rfl) wg.1
  · cases inc <;> cases inc' <;> simp only [nodesOptEq, OptRel, Bool.false_eq_true]
    · rename_i a b
      rw [Bool.and_eq_true, decide_eq_true_eq, nodesSubset_iff]
      exact set_iff_of_ok (WF := Node.WFd d) (fun o ho => hc.2 o (kinc a rfl o ho)) (kinc a rfl)
        (kinc' b rfl) winc.1
  · rw [propsEq_eq, Bool.and_eq_true, decide_eq_true_eq, propsSub_iff]
    exact map_iff_of_ok (WF := Obj.WFd d) (fun p hp o ho => hc.1 o (kps p hp o ho)) kps kps' wk wk'
  · cases rv <;> cases rv' <;> simp only [rpropsOptEq, OptRel, Bool.false_eq_true]
    · rename_i a b
      rw [Bool.and_eq_true, decide_eq_true_eq, rpropsSub_iff]
      exact map_iff_of_ok (WF := Node.WFd d) (fun p hp o ho => hc.2 o (krv a rfl p hp o ho))
        (krv a rfl) (krv' b rfl) wrv.1 wrv'.1

theorem optPerm_symm {a b : Option (List Id)} (h : OptRel List.Perm a b) : OptRel List.Perm b a :=
  optRel_symm_of h fun _ _ _ _ h => h.symm

theorem nodeRel_refl {d : Nat} (hc : EqClaim d) {n : Node} (h : n.PartsWF d) : NodeRel n n := by
  obtain ⟨kg, kinc, kps, krv⟩ := h
  refine ⟨rfl, rfl, optRel_refl_of fun _ _ => List.Perm.refl _, ?_, ?_, ?_, ?_⟩
  · exact optRel_refl_of fun l hl => PermRel.refl_of fun o ho => (hc.1 o (kg l hl o ho)).1
  · exact optRel_refl_of fun l hl => PermRel.refl_of fun o ho => (hc.2 o (kinc l hl o ho)).1
  · exact PermRel.refl_of fun p hp => ⟨rfl, PermRel.refl_of fun o ho =>
      (hc.1 o (kps p hp o ho)).1⟩
  · exact optRel_refl_of fun l hl => PermRel.refl_of fun p hp =>
      ⟨rfl, PermRel.refl_of fun o ho => (hc.2 o (krv l hl p hp o ho)).1⟩

theorem nodeRel_symm {d : Nat} (hc : EqClaim d) {n m : Node} (h : n.PartsWF d) (hm : m.PartsWF d)
    (hr : NodeRel n m) : NodeRel m n := by
  obtain ⟨kg, kinc, kps, krv⟩ := h
  obtain ⟨wg, winc, wps, wrv⟩ := hm
  obtain ⟨h1, h2, h3, h4, h5, h6, h7⟩ := hr
  refine ⟨h1.symm, h2.symm, optPerm_symm h3, ?_, ?_, ?_, ?_⟩
  · exact optRel_symm_of h4 fun x y hx hy h => h.symm_of fun a ha b hb =>
      (hc.1 a (kg x hx a ha)).2.1 b (wg y hy b hb)
  · exact optRel_symm_of h5 fun x y hx hy h => h.symm_of fun a ha b hb =>
      (hc.2 a (kinc x hx a ha)).2.1 b (winc y hy b hb)
  · exact h6.symm_of fun p hp q hq h => ⟨h.1.symm, h.2.symm_of fun a ha b hb =>
      (hc.1 a (kps p hp a ha)).2.1 b (wps q hq b hb)⟩
  · exact optRel_symm_of h7 fun x y hx hy h => h.symm_of fun p hp q hq h =>
      ⟨h.1.symm, h.2.symm_of fun a ha b hb =>
        (hc.2 a (krv x hx p hp a ha)).2.1 b (wrv y hy q hq b hb)⟩

theorem nodeRel_trans {d : Nat} (hc : EqClaim d) {n m k : Node} (h : n.PartsWF d)
    (hm : m.PartsWF d) (hk : k.PartsWF d) (hr : NodeRel n m) (hr' : NodeRel m k) :
    NodeRel n k := by
  obtain ⟨kg, kinc, kps, krv⟩ := h
  obtain ⟨wg, winc, wps, wrv⟩ := hm
  obtain ⟨vg, vinc, vps, vrv⟩ := hk
  obtain ⟨h1, h2, h3, h4, h5, h6, h7⟩ := hr
  obtain ⟨j1, j2, j3, j4, j5, j6, j7⟩ := hr'
  refine ⟨h1.trans j1, h2.trans j2, optRel_trans_of h3 j3 fun _ _ _ _ _ _ a b => a.trans b,
    ?_, ?_, ?_, ?_⟩
  · exact optRel_trans_of h4 j4 fun x y z hx hy hz h j => h.trans_of j fun a ha b hb c hc' =>
      (hc.1 a (kg x hx a ha)).2.2 b c (wg y hy b hb) (vg z hz c hc')
  · exact optRel_trans_of h5 j5 fun x y z hx hy hz h j => h.trans_of j fun a ha b hb c hc' =>
      (hc.2 a (kinc x hx a ha)).2.2 b c (winc y hy b hb) (vinc z hz c hc')
  · exact h6.trans_of j6 fun p hp q hq r hr h j => ⟨h.1.trans j.1,
      h.2.trans_of j.2 fun a ha b hb c hc' =>
        (hc.1 a (kps p hp a ha)).2.2 b c (wps q hq b hb) (vps r hr c hc')⟩
  · exact optRel_trans_of h7 j7 fun x y z hx hy hz h j => h.trans_of j fun p hp q hq r hr h j =>
      ⟨h.1.trans j.1, h.2.trans_of j.2 fun a ha b hb c hc' =>
        (hc.2 a (krv x hx p hp a ha)).2.2 b c (wrv y hy q hq b hb) (vrv z hz r hr c hc')⟩

theorem eqClaim_obj {d : Nat} (hc : EqClaim d) (hnode : ∀ n : Node, n.WFd (d + 1) →
    EqOkG Node.eq (Node.WFd (d + 1)) n) (o : Obj) (ho : o.WFd (d + 1)) :
    EqOkG Obj.eq (Obj.WFd (d + 1)) o := by
  have hmem : ∀ i l, (Obj.list i l).WFd (d + 1) → ∀ x ∈ l, x.WFd d := by
    intro i l hl x hx
    refine ⟨objsWF_iff.1 hl.1 x hx, ?_⟩
    have := List.sizeOf_lt_of_mem hx
    have := hl.2
    simp at this; omega
  have hn : ∀ n : Node, (Obj.node n).WFd (d + 1) → n.WFd (d + 1) := by
    intro n h
    refine ⟨h.1, ?_⟩
    have := h.2
    simp at this; omega
  cases o with
  | value i v =>
    refine ⟨by simp [Obj.eq, Value.eq_iff], ?_, ?_⟩
    · intro b _ h
      cases b <;> simp [Obj.eq, Value.eq_iff] at h ⊢
      exact ⟨h.1.symm, h.2.symm⟩
    · intro b c _ _ h h'
      cases b <;> simp [Obj.eq] at h
      cases c <;> simp [Obj.eq, Value.eq_iff] at h h' ⊢
      exact ⟨h.1.trans h'.1, h.2.trans h'.2⟩
  | list i l =>
    have hw' := hmem i l ho
    refine ⟨?_, ?_, ?_⟩
    · simp only [Obj.eq, Bool.and_eq_true, decide_eq_true_eq, true_and, objsListEq_iff]
      exact forall₂_refl_mem fun o ho => (hc.1 o (hw' o ho)).1
    · intro b hb h
      cases b <;> simp only [Obj.eq, Bool.and_eq_true, decide_eq_true_eq, objsListEq_iff,
        Bool.false_eq_true] at h ⊢
      have hb' := hmem _ _ hb
      exact ⟨h.1.symm, forall₂_flip_mem h.2 fun a ha b hb => (hc.1 a (hw' a ha)).2.1 b (hb' b hb)⟩
    · intro b c hb hcc h h'
      cases b <;> simp only [Obj.eq, Bool.and_eq_true, decide_eq_true_eq, objsListEq_iff,
        Bool.false_eq_true] at h
      cases c <;> simp only [Obj.eq, Bool.and_eq_true, decide_eq_true_eq, objsListEq_iff,
        Bool.false_eq_true] at h' ⊢
      have hb' := hmem _ _ hb
      have hc' := hmem _ _ hcc
      exact ⟨h.1.trans h'.1, forall₂_trans_mem h.2 h'.2 fun a ha b hb c hcc =>
        (hc.1 a (hw' a ha)).2.2 b c (hb' b hb) (hc' c hcc)⟩
  | node n =>
    have ih := hnode n (hn n ho)
    refine ⟨by simp only [Obj.eq]; exact ih.1, ?_, ?_⟩
    · intro b hb h
      cases b <;> simp only [Obj.eq, Bool.false_eq_true] at h ⊢
      exact ih.2.1 _ (hn _ hb) h
    · intro b c hb hc h h'
      cases b <;> simp only [Obj.eq, Bool.false_eq_true] at h
      cases c <;> simp only [Obj.eq, Bool.false_eq_true] at h' ⊢
      exact ih.2.2 _ _ (hn _ hb) (hn _ hc) h h'

theorem eqClaim (d : Nat) : EqClaim d := by
  induction d with
  | zero => exact ⟨fun o h => by have := h.2; omega, fun o h => by have := h.2; omega⟩
  | succ d hc =>
    have hnode : ∀ n : Node, n.WFd (d + 1) → EqOkG Node.eq (Node.WFd (d + 1)) n := by
      intro n hn
      refine ⟨(node_eq_iff_d hc hn hn).2 (nodeRel_refl hc hn.parts), ?_, ?_⟩
      · intro b hb h
        exact (node_eq_iff_d hc hb hn).2
          (nodeRel_symm hc hn.parts hb.parts ((node_eq_iff_d hc hn hb).1 h))
      · intro b c hb hcc h h'
        exact (node_eq_iff_d hc hn hcc).2 (nodeRel_trans hc hn.parts hb.parts hcc.parts
          ((node_eq_iff_d hc hn hb).1 h) ((node_eq_iff_d hc hb hcc).1 h'))
    exact ⟨eqClaim_obj hc hnode, hnode⟩

theorem Obj.eqOk {o : Obj} (h : o.WF) : EqOkG Obj.eq Obj.WF o := by
  refine ⟨((eqClaim (sizeOf o + 1)).1 o ⟨h, by omega⟩).1, ?_, ?_⟩
  · intro b hb
    exact ((eqClaim (sizeOf o + sizeOf b + 1)).1 o ⟨h, by omega⟩).2.1 b ⟨hb, by omega⟩
  · intro b c hb hc
    exact ((eqClaim (sizeOf o + sizeOf b + sizeOf c + 1)).1 o ⟨h, by omega⟩).2.2 b c
      ⟨hb, by omega⟩ ⟨hc, by omega⟩

theorem Node.eqOk {o : Node} (h : o.WF) : EqOkG Node.eq Node.WF o := by
  refine ⟨((eqClaim (sizeOf o + 1)).2 o ⟨h, by omega⟩).1, ?_, ?_⟩
  · intro b hb
    exact ((eqClaim (sizeOf o + sizeOf b + 1)).2 o ⟨h, by omega⟩).2.1 b ⟨hb, by omega⟩
  · intro b c hb hc
    exact ((eqClaim (sizeOf o + sizeOf b + sizeOf c + 1)).2 o ⟨h, by omega⟩).2.2 b c
      ⟨hb, by omega⟩ ⟨hc, by omega⟩

theorem node_eq_iff {n m : Node} (hn : n.WF) (hm : m.WF) : n.eq m = true ↔ NodeRel n m :=
  node_eq_iff_d (eqClaim (sizeOf n + sizeOf m)) ⟨hn, by omega⟩ ⟨hm, by omega⟩

end JsonLd
