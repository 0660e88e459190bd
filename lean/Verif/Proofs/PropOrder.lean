import Verif.Spec.PropOrder
import Verif.Proofs.CompactRec
import Verif.Proofs.OrderPerm
/-!
# Proofs: ordered compaction of reordered objects
-/

namespace JsonLd.Props
open JsonLd.Spec

/-! ## The relation, list by list -/

theorem objsReordered_iff {l l' : List Obj} : ObjsReordered l l' ↔ List.Forall₂ PropsReordered l l' := by
  induction l generalizing l' with
  | nil => cases l' <;> simp [ObjsReordered]
  | cons o l ih => cases l' <;> simp [ObjsReordered, ih]

theorem nodesReordered_iff {l l' : List Node} :
    NodesReordered l l' ↔ List.Forall₂ PropsReordered (l.map Obj.node) (l'.map Obj.node) := by
  induction l generalizing l' with
  | nil => cases l' <;> simp [NodesReordered]
  | cons o l ih => cases l' <;> simp [NodesReordered, ih, PropsReordered]

/-- The same property with reordered objects. -/
def PropReordered (p q : Id × List Obj) : Prop := p.1 = q.1 ∧ List.Forall₂ PropsReordered p.2 q.2

theorem eachProp_iff {l l' : List (Id × List Obj)} : EachPropReordered l l' ↔ List.Forall₂ PropReordered l l' := by
  induction l generalizing l' with
  | nil => cases l' <;> simp [EachPropReordered]
  | cons p l ih =>
    obtain ⟨i, x⟩ := p
    cases l' with
    | nil => simp [EachPropReordered]
    | cons q l' =>
      obtain ⟨i', x'⟩ := q
      simp [EachPropReordered, ih, PropReordered, objsReordered_iff, and_assoc]

theorem eachRev_iff {l l' : List (Id × List Node)} : EachRevReordered l l' ↔
    List.Forall₂ (fun p q => p.1 = q.1 ∧ List.Forall₂ PropsReordered (p.2.map Obj.node) (q.2.map Obj.node)) l l' := by
  induction l generalizing l' with
  | nil => cases l' <;> simp [EachRevReordered]
  | cons p l ih =>
    obtain ⟨i, x⟩ := p
    cases l' with
    | nil => simp [EachRevReordered]
    | cons q l' =>
      obtain ⟨i', x'⟩ := q
      simp [EachRevReordered, ih, nodesReordered_iff, and_assoc]

/-! ## What is the same of reordered objects -/

theorem props_empty {ps ps' qs : List (Id × List Obj)} (h : ps'.Perm qs) (h' : EachPropReordered ps qs) :
    ps.isEmpty = ps'.isEmpty := by
  have h1 := (eachProp_iff.1 h').length_eq
  have h2 := h.length_eq
  rw [Bool.eq_iff_iff, List.isEmpty_iff_length_eq_zero, List.isEmpty_iff_length_eq_zero]
  omega

theorem optObjs_none {g g' : Option (List Obj)} (h : OptObjsReordered g g') : g.isSome = g'.isSome := by
  cases g <;> cases g' <;> simp_all [OptObjsReordered]

theorem optNodes_none {g g' : Option (List Node)} (h : OptNodesReordered g g') : g.isSome = g'.isSome := by
  cases g <;> cases g' <;> simp_all [OptNodesReordered]

theorem optRev_none {g g' : Option (List (Id × List Node))} (h : OptRevReordered g g') : g.isSome = g'.isSome := by
  cases g <;> cases g' <;> simp_all [OptRevReordered]

private theorem isNone_of {α : Type} {g g' : Option α} (h : g.isSome = g'.isSome) : g.isNone = g'.isNone := by
  cases g <;> cases g' <;> simp_all

/-- The parts of a node that are not reordered. -/
theorem reordered_shape {n n' : Node} (h : NodeReordered n n') :
    n.index = n'.index ∧ n.id = n'.id ∧ n.types = n'.types ∧ n.isEmpty = n'.isEmpty ∧ n.isGraph = n'.isGraph := by
  obtain ⟨x, i, t, g, inc, ps, r⟩ := n
  obtain ⟨x', i', t', g', inc', ps', r'⟩ := n'
  rw [NodeReordered] at h
  obtain ⟨rfl, rfl, rfl, hg, hi, -, ⟨qs, h1, h2⟩, hr⟩ := h
  refine ⟨rfl, rfl, rfl, ?_, ?_⟩
  · show (_ && _ && _ && _ && _) = (_ && _ && _ && _ && _)
    rw [isNone_of (optObjs_none hg), isNone_of (optNodes_none hi), isNone_of (optRev_none hr), props_empty h1 h2]
  · show (_ && _ && _ && _ && _) = (_ && _ && _ && _ && _)
    rw [optObjs_none hg, isNone_of (optNodes_none hi), isNone_of (optRev_none hr), props_empty h1 h2]

theorem reordered_cases {P : Obj → Obj → Prop} {o o' : Obj} (h : PropsReordered o o') (hv : ∀ i v, P (.value i v) (.value i v))
    (hl : ∀ i l l', List.Forall₂ PropsReordered l l' → P (.list i l) (.list i l'))
    (hn : ∀ n n', NodeReordered n n' → P (.node n) (.node n')) : P o o' := by
  cases o with
  | value i v =>
    cases o' with
    | value i' v' =>
      simp only [PropsReordered] at h
      obtain ⟨rfl, rfl⟩ := h
      exact hv i v
    | list | node => simp only [PropsReordered] at h
  | list i l =>
    cases o' with
    | list i' l' =>
      simp only [PropsReordered] at h
      obtain ⟨rfl, h⟩ := h
      exact hl i l l' (objsReordered_iff.1 h)
    | value | node => simp only [PropsReordered] at h
  | node n =>
    cases o' with
    | node n' =>
      simp only [PropsReordered] at h
      exact hn n n' h
    | value | list => simp only [PropsReordered] at h

theorem reordered_node {n n' : Node} (h : NodeReordered n n') : PropsReordered (.node n) (.node n') := by
  simp only [PropsReordered]
  exact h

theorem reordered_graph {n n' : Node} (h : NodeReordered n n') :
    List.Forall₂ PropsReordered (n.graph.getD []) (n'.graph.getD []) := by
  obtain ⟨x, i, t, g, inc, ps, r⟩ := n
  obtain ⟨x', i', t', g', inc', ps', r'⟩ := n'
  rw [NodeReordered] at h
  have hg := h.2.2.2.1
  cases g <;> cases g' <;> simp only [OptObjsReordered] at hg
  · exact .nil
  · exact objsReordered_iff.1 hg

theorem reordered_item {o o' : Obj} (h : PropsReordered o o') :
    itemType o = itemType o' ∧ itemLang o = itemLang o' ∧ o.isVal = o'.isVal := by
  cases o <;> cases o' <;> simp_all [PropsReordered, itemType, itemLang, Obj.isVal]

theorem reordered_loop {l l' : List Obj} (h : List.Forall₂ PropsReordered l l') :
    ∀ t x, commonLoop l t x = commonLoop l' t x := by
  induction h with
  | nil => intro t x; rfl
  | @cons a b _ _ ho _ ih =>
    intro t x
    obtain ⟨h1, h2, h3⟩ := reordered_item ho
    have e1 : ∀ x, commonLang a x = commonLang b x := fun x => by
      unfold commonLang
      rw [h2, h3]
    have e2 : ∀ x, commonType a x = commonType b x := fun x => by
      unfold commonType
      rw [h1]
    rw [commonLoop, commonLoop, e1, e2, ih]

theorem reordered_isEmpty {l l' : List Obj} (h : List.Forall₂ PropsReordered l l') : l.isEmpty = l'.isEmpty := by
  cases h <;> rfl

theorem reordered_key (E : CEnv) (c : ACtx) (p : CTerm) (rev : Bool) {o o' : Obj} (h : PropsReordered o o') :
    itemKey E c p rev o = itemKey E c p rev o' := by
  have key : compactTermWith E.toCompEnv c p o rev E.opts = compactTermWith E.toCompEnv c p o' rev E.opts := by
    unfold compactTermWith
    have h1 : fullSelection E.toCompEnv c E.opts o rev = fullSelection E.toCompEnv c E.opts o' rev := by
      refine reordered_cases (P := fun o o' => fullSelection E.toCompEnv c E.opts o rev = fullSelection E.toCompEnv c E.opts o' rev) h
        (fun _ _ => rfl) (fun i l l' hl => ?_) (fun n n' h => ?_)
      · have e : isEmptyList (some (.list i l)) = isEmptyList (some (.list i l')) := reordered_isEmpty hl
        have e2 : valueTypeLang c (some (.list i l)) = valueTypeLang c (some (.list i l')) := by
          simp only [valueTypeLang, listTypeLang, reordered_isEmpty hl, reordered_loop hl]
        unfold fullSelection
        rw [e, e2]
        rfl
      · have hs := reordered_shape h
        unfold fullSelection idHasTerm
        simp only [Obj.nodeId, hs.2.1]
        rfl
    have h2 : allContainers E.opts.mode (some o) rev = allContainers E.opts.mode (some o') rev := by
      refine reordered_cases (P := fun o o' => allContainers E.opts.mode (some o) rev = allContainers E.opts.mode (some o') rev) h
        (fun _ _ => rfl) (fun i l l' _ => rfl) (fun n n' h => ?_)
      have hs := reordered_shape h
      simp only [allContainers, valueContainers, hasIndex, Option.bind_some, Obj.index, Obj.isGraph, graphContainers,
        hs.1, hs.2.1, hs.2.2.2.2]
      rfl
    rw [h1, h2]
  unfold itemKey compactIriWith
  rw [key]

/-! ## The functions -/

/-- The recursive call gives the same for reordered objects. -/
def SameRec (R : CRec) : Prop := ∀ c tsc prop o o', PropsReordered o o' → R c tsc prop o = R c tsc prop o'

theorem compactItems_rel {α : Type} {S : α → α → Prop} {f : α → Except CompErr Json} {l l' : List α}
    (h : List.Forall₂ S l l') (hf : ∀ a b, S a b → f a = f b) : compactItems f l = compactItems f l' := by
  induction h with
  | nil => rfl
  | cons ho _ ih => rw [compactItems, compactItems, hf _ _ ho, ih]

theorem compactCollection_rel {α : Type} {S : α → α → Prop} {f : α → Except CompErr Json} {l l' : List α}
    {c : ACtx} {prop : Option Str} {o : CompOpts} (h : List.Forall₂ S l l') (hf : ∀ a b, S a b → f a = f b) :
    compactCollection f c prop o l = compactCollection f c prop o l' := by
  rw [compactCollection, compactCollection, compactItems_rel h hf]

theorem foldlM_rel {α σ ε : Type} {S : α → α → Prop} {f : σ → α → Except ε σ} {l l' : List α}
    (h : List.Forall₂ S l l') (hf : ∀ a b, S a b → ∀ s, f s a = f s b) (s : σ) : l.foldlM f s = l'.foldlM f s := by
  induction h generalizing s with
  | nil => rfl
  | cons ho _ ih =>
    rw [List.foldlM_cons, List.foldlM_cons, hf _ _ ho]
    congr 1
    funext s'
    exact ih s'

private theorem ordIns_rel {α : Type} {S : α → α → Prop} {key : α → Str} (hk : ∀ a b, S a b → key a = key b) {a b : α}
    (hab : S a b) {l l' : List α} (h : List.Forall₂ S l l') :
    List.Forall₂ S (l.orderedInsert (fun a b => key a ≤ key b) a) (l'.orderedInsert (fun a b => key a ≤ key b) b) := by
  induction h with
  | nil => exact .cons hab .nil
  | @cons x y l l' hxy hl ih =>
    rw [List.orderedInsert_cons, List.orderedInsert_cons, hk _ _ hab, hk _ _ hxy]
    split
    · exact .cons hab (.cons hxy hl)
    · exact .cons hxy ih

theorem sortByKey_rel {α : Type} {S : α → α → Prop} {key : α → Str} (hk : ∀ a b, S a b → key a = key b) {l l' : List α}
    (h : List.Forall₂ S l l') : List.Forall₂ S (sortByKey key l) (sortByKey key l') := by
  unfold sortByKey
  induction h with
  | nil => exact .nil
  | cons hab _ ih => exact ordIns_rel hk hab ih

variable {E : CEnv} {R : CRec}

theorem addItem_same (c : ACtx) (key : Str) {n n' : Node} (h : NodeReordered n n') (v : Json) (m : JMap) :
    addItem E R c key (.node n) v m = addItem E R c key (.node n') v m := by
  have hs := reordered_shape h
  have e : cMapItem E R c key (.node n) v = cMapItem E R c key (.node n') v := by
    unfold cMapItem
    simp only [cIndexItem, cTypeItem, Obj.index, Obj.nodeId, hs.1, hs.2.1]
    congr 1
    funext ck
    cases mapKind (defContainer (c.get key)) <;> rfl
  unfold addItem
  rw [e]

theorem propertyItem_same (hR : SameRec R) (c : ACtx) (key : Str) {o o' : Obj} (h : PropsReordered o o') (m : JMap) :
    propertyItem E R c key o m = propertyItem E R c key o' m := by
  refine reordered_cases (P := fun o o' => propertyItem E R c key o m = propertyItem E R c key o' m) h
    (fun _ _ => rfl) (fun i l l' hl => ?_) (fun n n' h => ?_)
  · simp only [propertyItem, propertyList]
    rw [compactCollection_rel hl (hR c c (some key))]
  · have hs := reordered_shape h
    have hg : propertyGraph E R c key n m = propertyGraph E R c key n' m := by
      unfold propertyGraph
      rw [compactCollection_rel (reordered_graph h) (hR c c (some key))]
      have e1 : n.isSimpleGraph = n'.isSimpleGraph := by
        unfold Node.isSimpleGraph
        rw [hs.2.1, hs.2.2.2.2]
      have e2 : graphMapKey E c n = graphMapKey E c n' := by
        unfold graphMapKey
        rw [hs.2.1]
      have e3 : ∀ v, graphObject E c n v = graphObject E c n' v := by
        intro v
        unfold graphObject graphId
        rw [hs.2.1, hs.1]
      congr 1
      funext v
      unfold addGraph
      rw [e1, e2, e3, hs.1]
    rw [propertyItem, propertyItem, hs.2.2.2.2, hR c c (some key) _ _ (reordered_node h),
      funext fun v => addItem_same c key h v m, hg]

theorem compactProperty_same (hR : SameRec R) (c : ACtx) (p : CTerm) (rev : Bool) {l l' : List Obj}
    (h : List.Forall₂ PropsReordered l l') (m : JMap) :
    compactProperty E R c p rev l m = compactProperty E R c p rev l' m := by
  unfold compactProperty
  rw [reordered_isEmpty h]
  split
  · rfl
  · refine foldlM_rel h (fun o o' ho m => ?_) m
    unfold propertyStep
    rw [reordered_key E c p rev ho]
    congr 1
    funext k
    cases k with
    | none => rfl
    | some key => exact inNest_congr fun m => propertyItem_same hR c key ho m

theorem compactOpt_same (hR : SameRec R) (c : ACtx) (k : Keyword) {g g' : Option (List Obj)} (h : OptObjsReordered g g')
    (m : JMap) : compactOpt E R c k g m = compactOpt E R c k g' m := by
  cases g <;> cases g' <;> simp only [OptObjsReordered] at h
  · rfl
  · rename_i l l'
    exact compactProperty_same hR c _ _ (objsReordered_iff.1 h) m

theorem compactProps_same (hR : SameRec R) (ho : E.opts.ordered = true) (c : ACtx) {ps ps' qs : List (Id × List Obj)}
    (hn : (ps.map fun p => p.1.str).Nodup) (h1 : ps'.Perm qs) (h2 : EachPropReordered ps qs) (m : JMap) :
    compactProps E R c ps m = compactProps E R c ps' m := by
  rw [eachProp_iff] at h2
  unfold compactProps sortIf
  rw [if_pos ho, if_pos ho]
  have hmap : ∀ {l l' : List (Id × List Obj)}, List.Forall₂ PropReordered l l' →
      l.map (fun p => p.1.str) = l'.map fun p => p.1.str := by
    intro l l' h
    induction h with
    | nil => rfl
    | cons hab _ ih => rw [List.map_cons, List.map_cons, ih, hab.1]
  have hq : sortByKey (fun p : Id × List Obj => p.1.str) ps' = sortByKey (fun p => p.1.str) qs := by
    refine sortByKey_eq h1 ?_
    rw [hmap h2] at hn
    exact (h1.map _).nodup_iff.2 hn
  rw [hq]
  refine foldlM_rel (sortByKey_rel (fun a b h => by rw [h.1]) h2) (fun p q h m => ?_) m
  rw [h.1]
  exact compactProperty_same hR c _ _ h.2 m

theorem compactReverse_same (hR : SameRec R) (c : ACtx) {r r' : Option (List (Id × List Node))} (h : OptRevReordered r r')
    (m : JMap) : compactReverse E R c r m = compactReverse E R c r' m := by
  cases r <;> cases r' <;> simp only [OptRevReordered] at h
  · rfl
  · rename_i l l'
    replace h := eachRev_iff.1 h
    have hi : ∀ c, reverseIn E R c l m = reverseIn E R c l' m := by
      intro c
      unfold reverseIn
      rw [foldlM_rel h fun p q h m => by rw [h.1]; exact compactProperty_same hR c _ _ h.2 m]
    cases h with
    | nil => rfl
    | cons =>
      rw [compactReverse, compactReverse]
      simp only [hi]
      all_goals nofun

theorem nodeIn_same (hR : SameRec R) (ho : E.opts.ordered = true) (c tsc : ACtx) (prop : Option Str) {n n' : Node}
    (h : NodeReordered n n') : nodeIn E R c tsc prop n = nodeIn E R c tsc prop n' := by
  obtain ⟨x, i, t, g, inc, ps, r⟩ := n
  obtain ⟨x', i', t', g', inc', ps', r'⟩ := n'
  rw [NodeReordered] at h
  obtain ⟨rfl, rfl, rfl, hg, hi, hn, ⟨qs, h1, h2⟩, hr⟩ := h
  have hinc : OptObjsReordered (inc.map fun l => l.map Obj.node) (inc'.map fun l => l.map Obj.node) := by
    cases inc <;> cases inc' <;> simp only [OptNodesReordered] at hi
    · simp only [Option.map_none, OptObjsReordered]
    · simp only [Option.map_some, OptObjsReordered]
      exact objsReordered_iff.2 (nodesReordered_iff.1 hi)
  unfold nodeIn
  simp only [Node.rev, Node.graph, Node.props, Node.included, Node.types, Node.index]
  congr 1
  funext m
  congr 1
  funext m
  rw [compactReverse_same hR c hr]
  congr 1
  funext s
  congr 1
  funext m
  rw [compactOpt_same hR _ _ hg]
  congr 1
  funext m
  rw [compactProps_same hR ho _ hn h1 h2]
  congr 1
  funext m
  rw [compactOpt_same hR _ _ hinc]

theorem compactBody_same (hR : SameRec R) (ho : E.opts.ordered = true) : SameRec (compactBody E R) := by
  intro c tsc prop o o' h
  refine reordered_cases (P := fun o o' => compactBody E R c tsc prop o = compactBody E R c tsc prop o') h
    (fun _ _ => rfl) (fun i l l' hl => ?_) (fun n n' h => ?_)
  · show compactList E R c tsc prop i l = compactList E R c tsc prop i l'
    unfold compactList
    congr 1
    funext c
    rw [compactCollection_rel hl (hR c c prop), compactProperty_same hR c _ _ hl]
  · have hs := reordered_shape h
    show compactNode E R c tsc prop n = compactNode E R c tsc prop n'
    unfold compactNode
    have e1 : nodeContext E c tsc prop n = nodeContext E c tsc prop n' := by
      unfold nodeContext nodeStart
      rw [hs.2.1, hs.2.2.1, hs.2.2.2.1]
    rw [e1]
    congr 1
    funext c
    have e2 : nodeString E c prop n = nodeString E c prop n' := by
      unfold nodeString
      rw [hs.2.1, hs.2.2.2.1]
    rw [e2, nodeIn_same hR ho c tsc prop h]

theorem crecN_same (ho : E.opts.ordered = true) : ∀ n, SameRec (crecN E n)
  | 0 => fun _ _ _ _ _ _ => rfl
  | n + 1 => compactBody_same (crecN_same ho n) ho

theorem compactObject_same (ho : E.opts.ordered = true) : SameRec (compactObject E) := by
  intro c tsc prop o o' h
  rw [← crecN_eq E (Nat.le_max_left o.depth o'.depth), ← crecN_eq E (Nat.le_max_right o.depth o'.depth)]
  exact crecN_same ho _ c tsc prop o o' h

theorem compactDoc_same (ho : E.opts.ordered = true) (c : ACtx) (l : SCtx) {d d' : Doc} (h : ObjsReordered d d') :
    compactDoc E c l d = compactDoc E c l d' := by
  unfold compactDoc
  rw [compactCollection_rel (objsReordered_iff.1 h) (compactObject_same ho c c none)]

end JsonLd.Props
