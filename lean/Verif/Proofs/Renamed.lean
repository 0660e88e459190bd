import Verif.Spec.Renamed
import Verif.Model.Canonical
import Verif.Model.Flatten
/-!
# Relabelling and flattening of renamed documents
-/

set_option linter.unusedSectionVars false

namespace JsonLd

open Spec

/-- The labels met so far correspond to each other and have the same new names. -/
def StRen (R : Str → Str → Prop) (s s' : Relabeling) : Prop :=
  s.count = s'.count ∧ List.Forall₂ (fun p q => R p.1 q.1 ∧ p.2 = q.2) s.map s'.map

section
variable {R : Str → Str → Prop} (hR : OneToOne R) (gen : Nat → Id)

theorem lookup_ren {a b : Str} (hR : OneToOne R) (hab : R a b) {l m : List (Str × Id)}
    (h : List.Forall₂ (fun p q => R p.1 q.1 ∧ p.2 = q.2) l m) : l.lookup a = m.lookup b := by
  induction h with
  | nil => rfl
  | @cons p q l m hpq _ ih =>
    obtain ⟨x, i⟩ := p
    obtain ⟨y, j⟩ := q
    obtain ⟨h1, rfl⟩ := hpq
    rw [List.lookup_cons, List.lookup_cons, ih]
    have : (a == x) = (b == y) := by
      rw [Bool.eq_iff_iff, beq_iff_eq, beq_iff_eq]
      constructor
      · rintro rfl; exact hR.1 _ _ _ hab h1
      · rintro rfl; exact hR.2 _ _ _ hab h1
    rw [this]

include hR

theorem relabelBlank_ren {a b : Str} (hab : R a b) {s s' : Relabeling} (hs : StRen R s s') :
    (relabelBlank gen a s).1 = (relabelBlank gen b s').1 ∧
      StRen R (relabelBlank gen a s).2 (relabelBlank gen b s').2 := by
  have hl := lookup_ren hR hab hs.2
  unfold relabelBlank Relabeling.get
  rw [← hl]
  cases s.map.lookup a with
  | some v => exact ⟨rfl, hs⟩
  | none =>
    refine ⟨by rw [hs.1], by rw [hs.1], ?_⟩
    exact .cons ⟨hab, by rw [hs.1]⟩ hs.2

theorem assignNodeId_ren {i j : Option Id} (h : OptRen (IdRen R) i j) {s s' : Relabeling}
    (hs : StRen R s s') :
    (assignNodeId gen i s).1 = (assignNodeId gen j s').1 ∧
      StRen R (assignNodeId gen i s).2 (assignNodeId gen j s').2 := by
  cases h with
  | none => exact ⟨congrArg gen hs.1, congrArg (· + 1) hs.1, hs.2⟩
  | some a b h =>
    cases h with
    | iri i => exact ⟨rfl, hs⟩
    | invalid i => exact ⟨rfl, hs⟩
    | blank a b h => exact relabelBlank_ren hR gen h hs

theorem relabelNodeId_ren {i j : Option Id} (h : OptRen (IdRen R) i j) {s s' : Relabeling}
    (hs : StRen R s s') :
    (relabelNodeId gen i s).1 = (relabelNodeId gen j s').1 ∧
      StRen R (relabelNodeId gen i s).2 (relabelNodeId gen j s').2 := by
  cases h with
  | none => exact ⟨congrArg (fun n => some (gen n)) hs.1, congrArg (· + 1) hs.1, hs.2⟩
  | some a b h =>
    cases h with
    | iri i => exact ⟨rfl, hs⟩
    | invalid i => exact ⟨rfl, hs⟩
    | blank a b h =>
      have := relabelBlank_ren hR gen h hs
      exact ⟨congrArg some this.1, this.2⟩

theorem assignTypes_ren {l m : List Id} (h : List.Forall₂ (IdRen R) l m) {s s' : Relabeling}
    (hs : StRen R s s') :
    (assignTypes gen l s).1 = (assignTypes gen m s').1 ∧
      StRen R (assignTypes gen l s).2 (assignTypes gen m s').2 := by
  induction h generalizing s s' with
  | nil => exact ⟨rfl, hs⟩
  | cons h _ ih =>
    obtain ⟨h1, h2⟩ := assignNodeId_ren hR gen (.some _ _ h) hs
    obtain ⟨h3, h4⟩ := ih h2
    exact ⟨by simp only [assignTypes]; rw [h1, h3], h4⟩

theorem relabelTypes_ren {l m : List Id} (h : List.Forall₂ (IdRen R) l m) {s s' : Relabeling}
    (hs : StRen R s s') :
    (relabelTypes gen l s).1 = (relabelTypes gen m s').1 ∧
      StRen R (relabelTypes gen l s).2 (relabelTypes gen m s').2 := by
  induction h generalizing s s' with
  | nil => exact ⟨rfl, hs⟩
  | cons h _ ih =>
    cases h with
    | iri i => exact ⟨by simp only [relabelTypes]; rw [(ih hs).1], (ih hs).2⟩
    | invalid i => exact ⟨by simp only [relabelTypes]; rw [(ih hs).1], (ih hs).2⟩
    | blank a b h =>
      obtain ⟨h1, h2⟩ := relabelBlank_ren hR gen h hs
      obtain ⟨h3, h4⟩ := ih h2
      exact ⟨by simp only [relabelTypes]; rw [h1, h3], h4⟩

theorem relabelHeader_ren {i j : Option Id} (h : OptRen (IdRen R) i j) {l m : Option (List Id)}
    (ht : OptRen (List.Forall₂ (IdRen R)) l m) {s s' : Relabeling} (hs : StRen R s s') :
    (relabelHeader gen (i, l) s).1 = (relabelHeader gen (j, m) s').1 ∧
      StRen R (relabelHeader gen (i, l) s).2 (relabelHeader gen (j, m) s').2 := by
  obtain ⟨h1, h2⟩ := relabelNodeId_ren hR gen h hs
  cases ht with
  | none => exact ⟨by simp only [relabelHeader, relabelTypesOpt]; rw [h1], h2⟩
  | some a b ht =>
    obtain ⟨h3, h4⟩ := relabelTypes_ren hR gen ht h2
    exact ⟨by simp only [relabelHeader, relabelTypesOpt]; rw [h1, h3], h4⟩

/-! ## Relabelling -/

mutual
theorem objWalk_ren : ∀ {o o' : Obj} (_ : ObjRen R o o') {s s' : Relabeling} (_ : StRen R s s'),
    (o.walk (relabelHeader gen) s).1 = (o'.walk (relabelHeader gen) s').1 ∧
      StRen R (o.walk (relabelHeader gen) s).2 (o'.walk (relabelHeader gen) s').2
  | .value i v, .value j w, h, s, s', hs => by
    simp only [ObjRen] at h
    simp only [Obj.walk]
    exact ⟨by rw [h.1, h.2], hs⟩
  | .list i l, .list j m, h, s, s', hs => by
    simp only [ObjRen] at h
    obtain ⟨h1, h2⟩ := objsWalk_ren h.2 hs
    simp only [Obj.walk]
    exact ⟨by rw [h.1, h1], h2⟩
  | .node n, .node m, h, s, s', hs => by
    simp only [ObjRen] at h
    obtain ⟨h1, h2⟩ := nodeWalk_ren h hs
    simp only [Obj.walk]
    exact ⟨by rw [h1], h2⟩
  | .value .., .list .., h, _, _, _ => by simp [ObjRen] at h
  | .value .., .node .., h, _, _, _ => by simp [ObjRen] at h
  | .list .., .value .., h, _, _, _ => by simp [ObjRen] at h
  | .list .., .node .., h, _, _, _ => by simp [ObjRen] at h
  | .node .., .value .., h, _, _, _ => by simp [ObjRen] at h
  | .node .., .list .., h, _, _, _ => by simp [ObjRen] at h
theorem nodeWalk_ren : ∀ {o o' : Node} (_ : NodeRen R o o') {s s' : Relabeling} (_ : StRen R s s'),
    (o.walk (relabelHeader gen) s).1 = (o'.walk (relabelHeader gen) s').1 ∧
      StRen R (o.walk (relabelHeader gen) s).2 (o'.walk (relabelHeader gen) s').2
  | .mk i id ty gr inc ps rv, .mk i' id' ty' gr' inc' ps' rv', h, s, s', hs => by
    simp only [NodeRen] at h
    obtain ⟨e, h1, h2, h3, h4, h5, h6⟩ := h
    obtain ⟨a1, a2⟩ := relabelHeader_ren hR gen h1 h2 hs
    obtain ⟨b1, b2⟩ := gWalk_ren h3 a2
    obtain ⟨c1, c2⟩ := incWalk_ren h4 b2
    obtain ⟨d1, d2⟩ := psWalk_ren h5 c2
    obtain ⟨e1, e2⟩ := rvWalk_ren h6 d2
    simp only [Node.walk]
    exact ⟨by rw [e, a1, b1, c1, d1, e1], e2⟩
theorem gWalk_ren : ∀ {o o' : Option (List Obj)} (_ : GraphRen R o o') {s s' : Relabeling} (_ : StRen R s s'),
    (gWalk (relabelHeader gen) o s).1 = (gWalk (relabelHeader gen) o' s').1 ∧
      StRen R (gWalk (relabelHeader gen) o s).2 (gWalk (relabelHeader gen) o' s').2
  | none, none, _, _, _, hs => ⟨rfl, hs⟩
  | some l, some m, h, s, s', hs => by
    simp only [GraphRen] at h
    obtain ⟨h1, h2⟩ := objsWalk_ren h hs
    simp only [gWalk]
    exact ⟨by rw [h1], h2⟩
  | none, some _, h, _, _, _ => by simp [GraphRen] at h
  | some _, none, h, _, _, _ => by simp [GraphRen] at h
theorem incWalk_ren : ∀ {o o' : Option (List Node)} (_ : IncRen R o o') {s s' : Relabeling} (_ : StRen R s s'),
    (incWalk (relabelHeader gen) o s).1 = (incWalk (relabelHeader gen) o' s').1 ∧
      StRen R (incWalk (relabelHeader gen) o s).2 (incWalk (relabelHeader gen) o' s').2
  | none, none, _, _, _, hs => ⟨rfl, hs⟩
  | some l, some m, h, s, s', hs => by
    simp only [IncRen] at h
    obtain ⟨h1, h2⟩ := nodesWalk_ren h hs
    simp only [incWalk]
    exact ⟨by rw [h1], h2⟩
  | none, some _, h, _, _, _ => by simp [IncRen] at h
  | some _, none, h, _, _, _ => by simp [IncRen] at h
theorem rvWalk_ren : ∀ {o o' : Option (List (Id × List Node))} (_ : RevRen R o o') {s s' : Relabeling}
    (_ : StRen R s s'),
    (rvWalk (relabelHeader gen) o s).1 = (rvWalk (relabelHeader gen) o' s').1 ∧
      StRen R (rvWalk (relabelHeader gen) o s).2 (rvWalk (relabelHeader gen) o' s').2
  | none, none, _, _, _, hs => ⟨rfl, hs⟩
  | some l, some m, h, s, s', hs => by
    simp only [RevRen] at h
    obtain ⟨h1, h2⟩ := rpsWalk_ren h hs
    simp only [rvWalk]
    exact ⟨by rw [h1], h2⟩
  | none, some _, h, _, _, _ => by simp [RevRen] at h
  | some _, none, h, _, _, _ => by simp [RevRen] at h
theorem objsWalk_ren : ∀ {o o' : List Obj} (_ : ObjsRen R o o') {s s' : Relabeling} (_ : StRen R s s'),
    (objsWalk (relabelHeader gen) o s).1 = (objsWalk (relabelHeader gen) o' s').1 ∧
      StRen R (objsWalk (relabelHeader gen) o s).2 (objsWalk (relabelHeader gen) o' s').2
  | [], [], _, _, _, hs => ⟨rfl, hs⟩
  | a :: l, b :: m, h, s, s', hs => by
    simp only [ObjsRen] at h
    obtain ⟨h1, h2⟩ := objWalk_ren h.1 hs
    obtain ⟨h3, h4⟩ := objsWalk_ren h.2 h2
    simp only [objsWalk]
    exact ⟨by rw [h1, h3], h4⟩
  | [], _ :: _, h, _, _, _ => by simp [ObjsRen] at h
  | _ :: _, [], h, _, _, _ => by simp [ObjsRen] at h
theorem nodesWalk_ren : ∀ {o o' : List Node} (_ : NodesRen R o o') {s s' : Relabeling} (_ : StRen R s s'),
    (nodesWalk (relabelHeader gen) o s).1 = (nodesWalk (relabelHeader gen) o' s').1 ∧
      StRen R (nodesWalk (relabelHeader gen) o s).2 (nodesWalk (relabelHeader gen) o' s').2
  | [], [], _, _, _, hs => ⟨rfl, hs⟩
  | a :: l, b :: m, h, s, s', hs => by
    simp only [NodesRen] at h
    obtain ⟨h1, h2⟩ := nodeWalk_ren h.1 hs
    obtain ⟨h3, h4⟩ := nodesWalk_ren h.2 h2
    simp only [nodesWalk]
    exact ⟨by rw [h1, h3], h4⟩
  | [], _ :: _, h, _, _, _ => by simp [NodesRen] at h
  | _ :: _, [], h, _, _, _ => by simp [NodesRen] at h
theorem psWalk_ren : ∀ {o o' : List (Id × List Obj)} (_ : PropsRen R o o') {s s' : Relabeling} (_ : StRen R s s'),
    (psWalk (relabelHeader gen) o s).1 = (psWalk (relabelHeader gen) o' s').1 ∧
      StRen R (psWalk (relabelHeader gen) o s).2 (psWalk (relabelHeader gen) o' s').2
  | [], [], _, _, _, hs => ⟨rfl, hs⟩
  | (k, a) :: l, (k', b) :: m, h, s, s', hs => by
    simp only [PropsRen] at h
    obtain ⟨h1, h2⟩ := objsWalk_ren h.2.1 hs
    obtain ⟨h3, h4⟩ := psWalk_ren h.2.2 h2
    simp only [psWalk]
    exact ⟨by rw [h.1, h1, h3], h4⟩
  | [], _ :: _, h, _, _, _ => by simp [PropsRen] at h
  | _ :: _, [], h, _, _, _ => by simp [PropsRen] at h
theorem rpsWalk_ren : ∀ {o o' : List (Id × List Node)} (_ : RpsRen R o o') {s s' : Relabeling} (_ : StRen R s s'),
    (rpsWalk (relabelHeader gen) o s).1 = (rpsWalk (relabelHeader gen) o' s').1 ∧
      StRen R (rpsWalk (relabelHeader gen) o s).2 (rpsWalk (relabelHeader gen) o' s').2
  | [], [], _, _, _, hs => ⟨rfl, hs⟩
  | (k, a) :: l, (k', b) :: m, h, s, s', hs => by
    simp only [RpsRen] at h
    obtain ⟨h1, h2⟩ := nodesWalk_ren h.2.1 hs
    obtain ⟨h3, h4⟩ := rpsWalk_ren h.2.2 h2
    simp only [rpsWalk]
    exact ⟨by rw [h.1, h1, h3], h4⟩
  | [], _ :: _, h, _, _, _ => by simp [RpsRen] at h
  | _ :: _, [], h, _, _, _ => by simp [RpsRen] at h
end

theorem relabelCanonObjs_ren (c : CanonEnv) {l m : List Obj} (h : ObjsRen R l m) {s s' : Relabeling}
    (hs : StRen R s s') :
    (relabelCanonObjs c gen l s).1 = (relabelCanonObjs c gen m s').1 ∧
      StRen R (relabelCanonObjs c gen l s).2 (relabelCanonObjs c gen m s').2 := by
  induction l generalizing m s s' with
  | nil => cases m with
    | nil => exact ⟨rfl, hs⟩
    | cons => simp [ObjsRen] at h
  | cons a l ih => cases m with
    | nil => simp [ObjsRen] at h
    | cons b m =>
      simp only [ObjsRen] at h
      obtain ⟨h1, h2⟩ := objWalk_ren hR gen h.1 hs
      obtain ⟨h3, h4⟩ := ih h.2 h2
      simp only [relabelCanonObjs]
      exact ⟨by rw [h1, h3], h4⟩

/-! ## Flattening -/

/-- The same result, the same node map, and corresponding labels; or the same error. -/
def SameOut {α : Type} (R : Str → Str → Prop) (x y : Except FlatErr (α × FlatState)) : Prop :=
  (∃ e, x = .error e ∧ y = .error e) ∨
  ∃ a s s' m, x = .ok (a, s, m) ∧ y = .ok (a, s', m) ∧ StRen R s s'

/-- The same without result. -/
def SameSt (R : Str → Str → Prop) (x y : Except FlatErr FlatState) : Prop :=
  (∃ e, x = .error e ∧ y = .error e) ∨
  ∃ s s' m, x = .ok (s, m) ∧ y = .ok (s', m) ∧ StRen R s s'

omit hR in
theorem sameOut_out {α β : Type} {x y : Except FlatErr (α × FlatState)} (h : SameOut R x y)
    {f g : α × FlatState → Except FlatErr (β × FlatState)}
    (hf : ∀ a s s' m, StRen R s s' → SameOut R (f (a, s, m)) (g (a, s', m))) : SameOut R (x >>= f) (y >>= g) := by
  rcases h with ⟨e, rfl, rfl⟩ | ⟨a, s, s', m, rfl, rfl, h⟩
  · exact .inl ⟨e, rfl, rfl⟩
  · exact hf a s s' m h

omit hR in
theorem sameOut_st {α : Type} {x y : Except FlatErr (α × FlatState)} (h : SameOut R x y)
    {f g : α × FlatState → Except FlatErr FlatState}
    (hf : ∀ a s s' m, StRen R s s' → SameSt R (f (a, s, m)) (g (a, s', m))) : SameSt R (x >>= f) (y >>= g) := by
  rcases h with ⟨e, rfl, rfl⟩ | ⟨a, s, s', m, rfl, rfl, h⟩
  · exact .inl ⟨e, rfl, rfl⟩
  · exact hf a s s' m h

omit hR in
theorem sameSt_out {β : Type} {x y : Except FlatErr FlatState} (h : SameSt R x y)
    {f g : FlatState → Except FlatErr (β × FlatState)}
    (hf : ∀ s s' m, StRen R s s' → SameOut R (f (s, m)) (g (s', m))) : SameOut R (x >>= f) (y >>= g) := by
  rcases h with ⟨e, rfl, rfl⟩ | ⟨s, s', m, rfl, rfl, h⟩
  · exact .inl ⟨e, rfl, rfl⟩
  · exact hf s s' m h

omit hR in
theorem sameSt_st {x y : Except FlatErr FlatState} (h : SameSt R x y)
    {f g : FlatState → Except FlatErr FlatState}
    (hf : ∀ s s' m, StRen R s s' → SameSt R (f (s, m)) (g (s', m))) : SameSt R (x >>= f) (y >>= g) := by
  rcases h with ⟨e, rfl, rfl⟩ | ⟨s, s', m, rfl, rfl, h⟩
  · exact .inl ⟨e, rfl, rfl⟩
  · exact hf s s' m h

omit hR in
theorem same_bind_st (x : Except FlatErr NodeMap) {f g : NodeMap → Except FlatErr FlatState}
    (hf : ∀ m, SameSt R (f m) (g m)) : SameSt R (x >>= f) (x >>= g) := by
  cases x with
  | error e => exact .inl ⟨e, rfl, rfl⟩
  | ok m => exact hf m

omit hR in
theorem same_bind_out {β : Type} (x : Except FlatErr NodeMap) {f g : NodeMap → Except FlatErr (β × FlatState)}
    (hf : ∀ m, SameOut R (f m) (g m)) : SameOut R (x >>= f) (x >>= g) := by
  cases x with
  | error e => exact .inl ⟨e, rfl, rfl⟩
  | ok m => exact hf m

theorem extendTypes_ren (g : Option Id) (id : Id) {l l' : Option (List Id)}
    (h : OptRen (List.Forall₂ (IdRen R)) l l') {s s' : Relabeling} (hs : StRen R s s') (m : NodeMap) :
    SameSt R (extendTypes gen g id l (s, m)) (extendTypes gen g id l' (s', m)) := by
  cases h with
  | none => exact .inr ⟨s, s', m, rfl, rfl, hs⟩
  | some a b h =>
    obtain ⟨h1, h2⟩ := assignTypes_ren hR gen h hs
    simp only [extendTypes, h1]
    exact same_bind_st _ fun m => .inr ⟨_, _, m, rfl, rfl, h2⟩

mutual
theorem extendObj_ren : ∀ {o o' : Obj} (_ : ObjRen R o o') (g : Option Id) {s s' : Relabeling}
    (_ : StRen R s s') (m : NodeMap), SameOut R (extendObj gen g o (s, m)) (extendObj gen g o' (s', m))
  | .value i v, .value j w, h, g, s, s', hs, m => by
    simp only [ObjRen] at h
    simp only [extendObj]
    obtain ⟨rfl, rfl⟩ := h
    exact .inr ⟨_, s, s', m, rfl, rfl, hs⟩
  | .list i l, .list j l', h, g, s, s', hs, m => by
    simp only [ObjRen] at h
    obtain ⟨rfl, h⟩ := h
    simp only [extendObj]
    exact sameOut_out (extendObjs_ren h g hs m) fun a s s' m hs => .inr ⟨_, s, s', m, rfl, rfl, hs⟩
  | .node n, .node n', h, g, s, s', hs, m => by
    simp only [ObjRen] at h
    simp only [extendObj]
    exact sameOut_out (extendNode_ren h g hs m) fun a s s' m hs => .inr ⟨_, s, s', m, rfl, rfl, hs⟩
  | .value .., .list .., h, _, _, _, _, _ => by simp [ObjRen] at h
  | .value .., .node .., h, _, _, _, _, _ => by simp [ObjRen] at h
  | .list .., .value .., h, _, _, _, _, _ => by simp [ObjRen] at h
  | .list .., .node .., h, _, _, _, _, _ => by simp [ObjRen] at h
  | .node .., .value .., h, _, _, _, _, _ => by simp [ObjRen] at h
  | .node .., .list .., h, _, _, _, _, _ => by simp [ObjRen] at h
theorem extendNode_ren : ∀ {o o' : Node} (_ : NodeRen R o o') (g : Option Id) {s s' : Relabeling}
    (_ : StRen R s s') (m : NodeMap), SameOut R (extendNode gen g o (s, m)) (extendNode gen g o' (s', m))
  | .mk i id ty gr inc ps rv, .mk i' id' ty' gr' inc' ps' rv', h, g, s, s', hs, m => by
    simp only [NodeRen] at h
    obtain ⟨rfl, h1, h2, h3, h4, h5, h6⟩ := h
    obtain ⟨a1, a2⟩ := assignNodeId_ren hR gen h1 hs
    simp only [extendNode, a1]
    refine same_bind_out _ fun m => ?_
    refine sameSt_out (extendTypes_ren hR gen g _ h2 a2 m) fun s s' m hs => ?_
    refine sameSt_out (extendGraph_ren h3 g _ hs m) fun s s' m hs => ?_
    refine sameSt_out (extendIncluded_ren h4 g hs m) fun s s' m hs => ?_
    refine sameSt_out (extendProps_ren h5 g _ hs m) fun s s' m hs => ?_
    refine sameSt_out (extendRev_ren h6 g _ hs m) fun s s' m hs => ?_
    exact .inr ⟨_, s, s', m, rfl, rfl, hs⟩
theorem extendGraph_ren : ∀ {o o' : Option (List Obj)} (_ : GraphRen R o o') (g : Option Id) (id : Id)
    {s s' : Relabeling} (_ : StRen R s s') (m : NodeMap),
    SameSt R (extendGraph gen g id o (s, m)) (extendGraph gen g id o' (s', m))
  | none, none, _, g, id, s, s', hs, m => by simp only [extendGraph]; exact .inr ⟨s, s', m, rfl, rfl, hs⟩
  | some l, some l', h, g, id, s, s', hs, m => by
    simp only [GraphRen] at h
    simp only [extendGraph]
    refine sameOut_st (extendObjs_ren h (some id) hs _) fun a s s' m hs => ?_
    exact same_bind_st _ fun m => .inr ⟨s, s', m, rfl, rfl, hs⟩
  | none, some _, h, _, _, _, _, _, _ => by simp [GraphRen] at h
  | some _, none, h, _, _, _, _, _, _ => by simp [GraphRen] at h
theorem extendIncluded_ren : ∀ {o o' : Option (List Node)} (_ : IncRen R o o') (g : Option Id)
    {s s' : Relabeling} (_ : StRen R s s') (m : NodeMap),
    SameSt R (extendIncluded gen g o (s, m)) (extendIncluded gen g o' (s', m))
  | none, none, _, g, s, s', hs, m => by simp only [extendIncluded]; exact .inr ⟨s, s', m, rfl, rfl, hs⟩
  | some l, some l', h, g, s, s', hs, m => by
    simp only [IncRen] at h
    simp only [extendIncluded]
    exact extendNodes_ren h g hs m
  | none, some _, h, _, _, _, _, _ => by simp [IncRen] at h
  | some _, none, h, _, _, _, _, _ => by simp [IncRen] at h
theorem extendRev_ren : ∀ {o o' : Option (List (Id × List Node))} (_ : RevRen R o o') (g : Option Id) (id : Id)
    {s s' : Relabeling} (_ : StRen R s s') (m : NodeMap),
    SameSt R (extendRev gen g id o (s, m)) (extendRev gen g id o' (s', m))
  | none, none, _, g, id, s, s', hs, m => by simp only [extendRev]; exact .inr ⟨s, s', m, rfl, rfl, hs⟩
  | some l, some l', h, g, id, s, s', hs, m => by
    simp only [RevRen] at h
    simp only [extendRev]
    exact extendRps_ren h g id hs m
  | none, some _, h, _, _, _, _, _, _ => by simp [RevRen] at h
  | some _, none, h, _, _, _, _, _, _ => by simp [RevRen] at h
theorem extendObjs_ren : ∀ {o o' : List Obj} (_ : ObjsRen R o o') (g : Option Id) {s s' : Relabeling}
    (_ : StRen R s s') (m : NodeMap), SameOut R (extendObjs gen g o (s, m)) (extendObjs gen g o' (s', m))
  | [], [], _, g, s, s', hs, m => by simp only [extendObjs]; exact .inr ⟨_, s, s', m, rfl, rfl, hs⟩
  | a :: l, b :: l', h, g, s, s', hs, m => by
    simp only [ObjsRen] at h
    simp only [extendObjs]
    refine sameOut_out (extendObj_ren h.1 g hs m) fun a s s' m hs => ?_
    refine sameOut_out (extendObjs_ren h.2 g hs m) fun a s s' m hs => ?_
    exact .inr ⟨_, s, s', m, rfl, rfl, hs⟩
  | [], _ :: _, h, _, _, _, _, _ => by simp [ObjsRen] at h
  | _ :: _, [], h, _, _, _, _, _ => by simp [ObjsRen] at h
theorem extendNodes_ren : ∀ {o o' : List Node} (_ : NodesRen R o o') (g : Option Id) {s s' : Relabeling}
    (_ : StRen R s s') (m : NodeMap), SameSt R (extendNodes gen g o (s, m)) (extendNodes gen g o' (s', m))
  | [], [], _, g, s, s', hs, m => by simp only [extendNodes]; exact .inr ⟨s, s', m, rfl, rfl, hs⟩
  | a :: l, b :: l', h, g, s, s', hs, m => by
    simp only [NodesRen] at h
    simp only [extendNodes]
    exact sameOut_st (extendNode_ren h.1 g hs m) fun a s s' m hs => extendNodes_ren h.2 g hs m
  | [], _ :: _, h, _, _, _, _, _ => by simp [NodesRen] at h
  | _ :: _, [], h, _, _, _, _, _ => by simp [NodesRen] at h
theorem extendProps_ren : ∀ {o o' : List (Id × List Obj)} (_ : PropsRen R o o') (g : Option Id) (id : Id)
    {s s' : Relabeling} (_ : StRen R s s') (m : NodeMap),
    SameSt R (extendProps gen g id o (s, m)) (extendProps gen g id o' (s', m))
  | [], [], _, g, id, s, s', hs, m => by simp only [extendProps]; exact .inr ⟨s, s', m, rfl, rfl, hs⟩
  | (k, a) :: l, (k', b) :: l', h, g, id, s, s', hs, m => by
    simp only [PropsRen] at h
    obtain ⟨rfl, h1, h2⟩ := h
    simp only [extendProps]
    refine sameOut_st (extendObjs_ren h1 g hs m) fun a s s' m hs => ?_
    exact same_bind_st _ fun m => extendProps_ren h2 g id hs m
  | [], _ :: _, h, _, _, _, _, _, _ => by simp [PropsRen] at h
  | _ :: _, [], h, _, _, _, _, _, _ => by simp [PropsRen] at h
theorem extendRps_ren : ∀ {o o' : List (Id × List Node)} (_ : RpsRen R o o') (g : Option Id) (id : Id)
    {s s' : Relabeling} (_ : StRen R s s') (m : NodeMap),
    SameSt R (extendRps gen g id o (s, m)) (extendRps gen g id o' (s', m))
  | [], [], _, g, id, s, s', hs, m => by simp only [extendRps]; exact .inr ⟨s, s', m, rfl, rfl, hs⟩
  | (k, a) :: l, (k', b) :: l', h, g, id, s, s', hs, m => by
    simp only [RpsRen] at h
    obtain ⟨rfl, h1, h2⟩ := h
    simp only [extendRps]
    exact sameSt_st (extendSubjects_ren h1 g id k hs m) fun s s' m hs => extendRps_ren h2 g id hs m
  | [], _ :: _, h, _, _, _, _, _, _ => by simp [RpsRen] at h
  | _ :: _, [], h, _, _, _, _, _, _ => by simp [RpsRen] at h
theorem extendSubjects_ren : ∀ {o o' : List Node} (_ : NodesRen R o o') (g : Option Id) (id k : Id)
    {s s' : Relabeling} (_ : StRen R s s') (m : NodeMap),
    SameSt R (extendSubjects gen g id k o (s, m)) (extendSubjects gen g id k o' (s', m))
  | [], [], _, g, id, k, s, s', hs, m => by simp only [extendSubjects]; exact .inr ⟨s, s', m, rfl, rfl, hs⟩
  | a :: l, b :: l', h, g, id, k, s, s', hs, m => by
    simp only [NodesRen] at h
    simp only [extendSubjects]
    refine sameOut_st (extendNode_ren h.1 g hs m) fun a s s' m hs => ?_
    exact same_bind_st _ fun m => extendSubjects_ren h.2 g id k hs m
  | [], _ :: _, h, _, _, _, _, _, _, _ => by simp [NodesRen] at h
  | _ :: _, [], h, _, _, _, _, _, _, _ => by simp [NodesRen] at h
end

end
end JsonLd
