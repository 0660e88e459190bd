import Verif.Model.Compact
/-!
# Compaction only looks at smaller objects
-/

namespace JsonLd

/-! ## Depth -/

theorem depth_mem {o : Obj} {l : List Obj} (h : o ∈ l) : o.depth ≤ objsDepth l := by
  induction l with
  | nil => cases h
  | cons a l ih =>
    rw [objsDepth]
    rcases List.mem_cons.1 h with rfl | h
    · exact Nat.le_max_left ..
    · exact Nat.le_trans (ih h) (Nat.le_max_right ..)

theorem nodeDepth_mem {n : Node} {l : List Node} (h : n ∈ l) : n.depth ≤ nodesDepth l := by
  induction l with
  | nil => cases h
  | cons a l ih =>
    rw [nodesDepth]
    rcases List.mem_cons.1 h with rfl | h
    · exact Nat.le_max_left ..
    · exact Nat.le_trans (ih h) (Nat.le_max_right ..)

theorem propDepth_mem {p : Id × List Obj} {l : List (Id × List Obj)} (h : p ∈ l) :
    objsDepth p.2 ≤ propsDepth l := by
  induction l with
  | nil => cases h
  | cons a l ih =>
    obtain ⟨i, x⟩ := a
    rw [propsDepth]
    rcases List.mem_cons.1 h with rfl | h
    · exact Nat.le_max_left ..
    · exact Nat.le_trans (ih h) (Nat.le_max_right ..)

theorem revDepth_mem {p : Id × List Node} {l : List (Id × List Node)} (h : p ∈ l) :
    nodesDepth p.2 ≤ revDepth l := by
  induction l with
  | nil => cases h
  | cons a l ih =>
    obtain ⟨i, x⟩ := a
    rw [revDepth]
    rcases List.mem_cons.1 h with rfl | h
    · exact Nat.le_max_left ..
    · exact Nat.le_trans (ih h) (Nat.le_max_right ..)

theorem depth_nodes {l : List Node} : objsDepth (l.map Obj.node) = nodesDepth l := by
  induction l with
  | nil => rfl
  | cons n l ih => simp only [List.map_cons, objsDepth, nodesDepth, ih]; rfl

theorem Node.depth_pos (n : Node) : 0 < n.depth := by
  cases n; rw [Node.depth]; omega

theorem Obj.depth_pos (o : Obj) : 0 < o.depth := by
  cases o with
  | value => rw [Obj.depth]; omega
  | list => rw [Obj.depth]; omega
  | node n => rw [Obj.depth]; exact n.depth_pos

/-! ## Congruence -/

theorem foldlM_congr {α σ : Type} {ε : Type} {f g : σ → α → Except ε σ} {l : List α}
    (h : ∀ a ∈ l, ∀ s, f s a = g s a) (s : σ) : l.foldlM f s = l.foldlM g s := by
  induction l generalizing s with
  | nil => rfl
  | cons a l ih =>
    rw [List.foldlM_cons, List.foldlM_cons, h a (by simp) s]
    congr 1
    funext s'
    exact ih (fun b hb => h b (by simp [hb])) s'

theorem compactItems_congr {α : Type} {f g : α → Except CompErr Json} {l : List α}
    (h : ∀ a ∈ l, f a = g a) : compactItems f l = compactItems g l := by
  induction l with
  | nil => rfl
  | cons a l ih => rw [compactItems, compactItems, h a (by simp), ih fun b hb => h b (by simp [hb])]

theorem compactCollection_congr {α : Type} {f g : α → Except CompErr Json} {c : ACtx} {prop : Option Str}
    {o : CompOpts} {l : List α} (h : ∀ a ∈ l, f a = g a) :
    compactCollection f c prop o l = compactCollection g c prop o l := by
  rw [compactCollection, compactCollection, compactItems_congr h]

/-- The recursive calls agree on the objects that are at most this deep. -/
def Agree (n : Nat) (R₁ R₂ : CRec) : Prop :=
  ∀ c tsc prop o, o.depth ≤ n → R₁ c tsc prop o = R₂ c tsc prop o

variable {E : CEnv} {R₁ R₂ : CRec} {n : Nat}

theorem addItem_congr (h : Agree n R₁ R₂) (hn : 0 < n) (c : ACtx) (key : Str) (o : Obj) (v : Json) (m : JMap) :
    addItem E R₁ c key o v m = addItem E R₂ c key o v m := by
  have ht : ∀ ck, cTypeItem R₁ c key ck o v = cTypeItem R₂ c key ck o v := by
    intro ck
    unfold cTypeItem
    congr 1
    funext r
    split
    · split
      · rw [h]
        exact hn
      · rfl
    · rfl
  have hm : cMapItem E R₁ c key o v = cMapItem E R₂ c key o v := by
    unfold cMapItem
    simp only
    congr 1
    funext ck
    split
    · rfl
    · rfl
    · rfl
    · exact ht ck
  unfold addItem
  rw [hm]

theorem propertyList_congr (h : Agree n R₁ R₂) {l : List Obj} (hl : objsDepth l ≤ n) (c : ACtx) (key : Str)
    (index : Option Str) (m : JMap) :
    propertyList E R₁ c key index l m = propertyList E R₂ c key index l m := by
  unfold propertyList
  rw [compactCollection_congr (g := R₂ c c (some key)) fun o ho =>
    h _ _ _ _ (Nat.le_trans (depth_mem ho) hl)]

theorem propertyGraph_congr (h : Agree n R₁ R₂) {x : Node} (hl : objsDepth (x.graph.getD []) ≤ n) (c : ACtx)
    (key : Str) (m : JMap) : propertyGraph E R₁ c key x m = propertyGraph E R₂ c key x m := by
  unfold propertyGraph
  rw [compactCollection_congr (g := R₂ c c (some key)) fun o ho =>
    h _ _ _ _ (Nat.le_trans (depth_mem ho) hl)]

theorem graph_depth (x : Node) : objsDepth (x.graph.getD []) < x.depth := by
  obtain ⟨i, id, t, g, inc, p, r⟩ := x
  rw [Node.depth]
  cases g with
  | none => simp [Node.graph, objsDepth]
  | some g =>
    simp only [Node.graph, Option.getD_some, optObjsDepth]
    omega

theorem propertyItem_congr (h : Agree n R₁ R₂) {o : Obj} (ho : o.depth ≤ n) (c : ACtx) (key : Str) (m : JMap) :
    propertyItem E R₁ c key o m = propertyItem E R₂ c key o m := by
  have hn : 0 < n := Nat.lt_of_lt_of_le o.depth_pos ho
  cases o with
  | list i l =>
    rw [propertyItem, propertyItem]
    rw [Obj.depth] at ho
    exact propertyList_congr h (by omega) ..
  | node x =>
    rw [propertyItem, propertyItem]
    split
    · rw [Obj.depth] at ho
      exact propertyGraph_congr h (by have := graph_depth x; omega) ..
    · rw [h _ _ _ _ ho]
      congr 1
      funext v
      exact addItem_congr h hn ..
  | value i v =>
    rw [propertyItem, propertyItem, h _ _ _ _ ho]
    exact congrArg _ (funext fun v => addItem_congr h hn ..)

theorem inNest_congr {c : ACtx} {key : Str} {m : JMap} {f g : JMap → Except CompErr JMap}
    (h : ∀ m, f m = g m) : inNest c key m f = inNest c key m g := by
  have : f = g := funext h
  rw [this]

theorem compactProperty_congr (h : Agree n R₁ R₂) {l : List Obj} (hl : objsDepth l ≤ n) (c : ACtx) (p : CTerm)
    (rev : Bool) (m : JMap) : compactProperty E R₁ c p rev l m = compactProperty E R₂ c p rev l m := by
  unfold compactProperty
  split
  · rfl
  · refine foldlM_congr (fun o ho m => ?_) m
    unfold propertyStep
    congr 1
    funext k
    cases k with
    | none => rfl
    | some key =>
      exact inNest_congr fun m => propertyItem_congr h (Nat.le_trans (depth_mem ho) hl) ..

theorem nodeIn_congr (h : Agree n R₁ R₂) {x : Node} (hx : x.depth ≤ n + 1) (c tsc : ACtx) (prop : Option Str) :
    nodeIn E R₁ c tsc prop x = nodeIn E R₂ c tsc prop x := by
  obtain ⟨i, id, t, g, inc, ps, rv⟩ := x
  rw [Node.depth] at hx
  have hr : ∀ c m, compactReverse E R₁ c rv m = compactReverse E R₂ c rv m := by
    intro c m
    cases rv with
    | none => rfl
    | some l =>
      rw [optRevDepth] at hx
      have hi : ∀ c, reverseIn E R₁ c l m = reverseIn E R₂ c l m := by
        intro c
        unfold reverseIn
        rw [foldlM_congr (g := fun m p => compactProperty E R₂ c (.id p.1) true (p.2.map Obj.node) m)]
        intro p hp m
        exact compactProperty_congr h (by rw [depth_nodes]; have := revDepth_mem hp; omega) ..
      cases l with
      | nil => rfl
      | cons p l =>
        rw [compactReverse, compactReverse]
        simp only [hi]
        all_goals nofun
  have ho : ∀ c k l m, optObjsDepth l ≤ n → compactOpt E R₁ c k l m = compactOpt E R₂ c k l m := by
    intro c k l m hl
    cases l with
    | none => rfl
    | some l => exact compactProperty_congr h hl ..
  have hp : ∀ c m, compactProps E R₁ c ps m = compactProps E R₂ c ps m := by
    intro c m
    unfold compactProps
    refine foldlM_congr (fun p hp m => ?_) m
    have hmem : p ∈ ps := by
      unfold sortIf sortByKey at hp
      split at hp
      · exact (List.mem_insertionSort _).1 hp
      · exact hp
    exact compactProperty_congr h (by have := propDepth_mem hmem; omega) ..
  have hinc : optObjsDepth (inc.map fun l => l.map Obj.node) ≤ n := by
    cases inc with
    | none => simp [optObjsDepth]
    | some l =>
      rw [optNodesDepth] at hx
      simp only [Option.map_some, optObjsDepth, depth_nodes]
      omega
  unfold nodeIn
  simp only [Node.rev, Node.graph, Node.props, Node.included]
  congr 1
  funext m
  congr 1
  funext m
  rw [hr]
  congr 1
  funext s
  congr 1
  funext m
  rw [ho _ _ _ _ (by omega)]
  congr 1
  funext m
  rw [hp]
  congr 1
  funext m
  rw [ho _ _ _ _ hinc]

theorem compactBody_congr (h : Agree n R₁ R₂) : Agree (n + 1) (compactBody E R₁) (compactBody E R₂) := by
  intro c tsc prop o ho
  cases o with
  | value i v => rfl
  | node x =>
    show compactNode E R₁ c tsc prop x = compactNode E R₂ c tsc prop x
    unfold compactNode
    congr 1
    funext c
    split
    · rfl
    · exact nodeIn_congr h ho ..
  | list i l =>
    rw [Obj.depth] at ho
    show compactList E R₁ c tsc prop i l = compactList E R₂ c tsc prop i l
    unfold compactList
    congr 1
    funext c
    rw [compactProperty_congr h (by omega), compactCollection_congr (g := R₂ c c prop) fun o ho' =>
      h _ _ _ _ (by have := depth_mem ho'; omega)]

theorem crecN_agree (E : CEnv) : ∀ n m, n ≤ m → Agree n (crecN E n) (crecN E m) := by
  intro n
  induction n with
  | zero => intro m _ c tsc prop o ho; exact absurd o.depth_pos (by omega)
  | succ n ih =>
    intro m hm
    obtain ⟨k, rfl⟩ : ∃ k, m = k + 1 := ⟨m - 1, by omega⟩
    exact compactBody_congr (ih k (by omega))

theorem crecN_eq (E : CEnv) {n : Nat} {o : Obj} (h : o.depth ≤ n) (c tsc : ACtx) (prop : Option Str) :
    crecN E n c tsc prop o = compactObject E c tsc prop o :=
  ((crecN_agree E _ _ h) c tsc prop o (Nat.le_refl _)).symm

theorem compactObject_eq (E : CEnv) (c tsc : ACtx) (prop : Option Str) (o : Obj) :
    compactObject E c tsc prop o = compactBody E (compactObject E) c tsc prop o := by
  obtain ⟨n, hn⟩ : ∃ n, o.depth = n + 1 := ⟨o.depth - 1, by have := o.depth_pos; omega⟩
  unfold compactObject
  rw [hn]
  exact compactBody_congr (n := n) (fun c tsc prop x hx => crecN_eq E hx c tsc prop) c tsc prop o (Nat.le_of_eq hn)

end JsonLd
