import Verif.Proofs.OrderNode
import Verif.Proofs.ExpandMaps
import Verif.Spec.KeyOrder
/-!
# Expansion of related values
-/

namespace JsonLd
open Spec Props

/-- If the first run succeeds, so does the second, with a related result. -/
def To {α β : Type} (Q : α → β → Prop) (r : Except XErr α) (r' : Except XErr β) : Prop :=
  ∀ x, r = .ok x → ∃ x', r' = .ok x' ∧ Q x x'

namespace To
variable {α β γ δ σ : Type} {Q : α → β → Prop}

theorem ok {x : α} {y : β} (h : Q x y) : To Q (.ok x) (.ok y) := by
  intro z hz; cases hz; exact ⟨y, rfl, h⟩

theorem err {e : XErr} {r : Except XErr β} : To Q (.error e) r := nofun

theorem same {Q : α → α → Prop} {r : Except XErr α} (h : ∀ x, r = .ok x → Q x x) : To Q r r :=
  fun x hx => ⟨x, hx, h x hx⟩

theorem mono {Q' : α → β → Prop} {r : Except XErr α} {r' : Except XErr β} (h : To Q r r')
    (hq : ∀ x y, r = .ok x → r' = .ok y → Q x y → Q' x y) : To Q' r r' := by
  intro x hx
  obtain ⟨y, hy, h⟩ := h x hx
  exact ⟨y, hy, hq x y hx hy h⟩

theorem bind {Q' : γ → δ → Prop} {r : Except XErr α} {r' : Except XErr β} {f : α → Except XErr γ} {g : β → Except XErr δ}
    (h : To Q r r') (hf : ∀ x y, r = .ok x → r' = .ok y → Q x y → To Q' (f x) (g y)) : To Q' (r.bind f) (r'.bind g) := by
  intro z hz
  obtain ⟨x, hx, hz⟩ := exBind_ok hz
  obtain ⟨y, hy, h⟩ := h x hx
  obtain ⟨z', hz', h'⟩ := hf x y hx hy h z hz
  exact ⟨z', by rw [hy]; exact hz', h'⟩

theorem map {Q' : γ → δ → Prop} {r : Except XErr α} {r' : Except XErr β} {f : α → γ} {g : β → δ}
    (h : To Q r r') (hf : ∀ x y, r = .ok x → r' = .ok y → Q x y → Q' (f x) (g y)) : To Q' (r.map f) (r'.map g) := by
  intro z hz
  obtain ⟨x, hx, rfl⟩ := exMap_ok hz
  obtain ⟨y, hy, h⟩ := h x hx
  exact ⟨g y, by rw [hy]; rfl, hf x y hx hy h⟩

/-- The same computation first, then related ones. -/
theorem after {Q' : γ → δ → Prop} {r : Except XErr α} {f : α → Except XErr γ} {g : α → Except XErr δ}
    (hf : ∀ x, r = .ok x → To Q' (f x) (g x)) : To Q' (r.bind f) (r.bind g) := by
  refine bind (Q := fun x y => x = y) (same fun _ _ => rfl) ?_
  rintro x _ hx _ rfl
  exact hf x hx

theorem after_map {Q' : γ → δ → Prop} {r : Except XErr α} {f : α → γ} {g : α → δ}
    (hf : ∀ x, r = .ok x → Q' (f x) (g x)) : To Q' (r.map f) (r.map g) := by
  refine map (Q := fun x y => x = y) (same fun _ _ => rfl) ?_
  rintro x _ hx _ rfl
  exact hf x hx

theorem foldlM {P : σ → σ → Prop} {T : α → β → Prop} {f : σ → α → Except XErr σ} {g : σ → β → Except XErr σ} {l : List α}
    {l' : List β} (hl : List.Forall₂ T l l') (hf : ∀ a b s s', a ∈ l → T a b → P s s' → To P (f s a) (g s' b)) :
    ∀ {s s' : σ}, P s s' → To P (l.foldlM f s) (l'.foldlM g s') := by
  induction hl with
  | nil => intro s s' h; exact ok h
  | @cons a b l l' hab _ ih =>
    intro s s' h
    rw [List.foldlM_cons, List.foldlM_cons]
    exact bind (hf a b s s' (by simp) hab h) fun x y _ _ hxy => ih (fun a b s s' ha => hf a b s s' (by simp [ha])) hxy

theorem collectM {Q : List γ → List δ → Prop} {T : α → β → Prop} {f : α → Except XErr (List γ)}
    {g : β → Except XErr (List δ)} (h0 : Q [] []) (happ : ∀ {a b a' b'}, Q a b → Q a' b' → Q (a ++ a') (b ++ b')) {l : List α}
    {l' : List β} (hl : List.Forall₂ T l l') (hf : ∀ a b, a ∈ l → T a b → To Q (f a) (g b)) :
    To Q (collectM f l) (collectM g l') := by
  induction hl with
  | nil => exact ok h0
  | @cons a b l l' hab _ ih =>
    exact bind (hf a b (by simp) hab) fun x y _ _ hxy => (ih fun a b ha => hf a b (by simp [ha])).map
      fun x' y' _ _ h' => happ hxy h'

end To

/-! ## Relations -/

/-- The same result, in the same order. -/
def Alike₁ : Expanded → Expanded → Prop
  | .null, .null => True
  | .object o, .object o' => Same o o'
  | .array l, .array l' => List.Forall₂ Same l l'
  | _, _ => False

/-- The same result up to order. -/
def Alike₂ : Expanded → Expanded → Prop
  | .null, .null => True
  | .object o, .object o' => Same o o'
  | .array l, .array l' => PermRel Same l l'
  | _, _ => False

theorem Alike₁.weak {x y : Expanded} (h : Alike₁ x y) : Alike₂ x y := by
  cases x <;> cases y <;> first | exact h.elim | exact h | exact PermRel.of_forall₂ h

theorem Alike₁.toList {x y : Expanded} (h : Alike₁ x y) : List.Forall₂ Same x.toList y.toList := by
  cases x <;> cases y <;> first | exact h.elim | exact h | exact .nil | exact .cons h .nil

theorem Alike₂.toList {x y : Expanded} (h : Alike₂ x y) : PermRel Same x.toList y.toList := by
  cases x <;> cases y <;> first | exact h.elim | exact h | exact permRel_nil | exact .of_forall₂ (.cons h .nil)

theorem Alike₁.refl {x : Expanded} (h : ∀ o ∈ x.toList, o.WF) : Alike₁ x x := by
  cases x with
  | null => trivial
  | object o => exact Same.refl (h o (by simp [Expanded.toList]))
  | array l => exact forall₂_refl_mem fun o ho => Same.refl (h o ho)

theorem Alike₂.isNull {x y : Expanded} (h : Alike₂ x y) : x.isNull = y.isNull := by
  cases x <;> cases y <;> first | exact h.elim | rfl

theorem same_kind {o o' : Obj} (h : Same o o') :
    (∃ i v i' v', o = .value i v ∧ o' = .value i' v') ∨ (∃ i v i' v', o = .list i v ∧ o' = .list i' v') ∨
      ∃ n m, o = .node n ∧ o' = .node m := by
  have he := h.eq
  cases o <;> cases o' <;> simp only [Obj.eq, Bool.false_eq_true] at he
  · exact .inl ⟨_, _, _, _, rfl, rfl⟩
  · exact .inr (.inl ⟨_, _, _, _, rfl, rfl⟩)
  · exact .inr (.inr ⟨_, _, rfl, rfl⟩)

theorem Alike₂.isList {x y : Expanded} (h : Alike₂ x y) : x.isList = y.isList := by
  cases x <;> cases y <;> first | exact h.elim | rfl | skip
  rename_i o o'
  rcases same_kind h with ⟨i, v, i', v', rfl, rfl⟩ | ⟨i, v, i', v', rfl, rfl⟩ | ⟨n, m, rfl, rfl⟩ <;> rfl

/-- The same state. -/
structure SimSt (s s' : XState) : Prop where
  flag : s.hasValue = s'.hasValue
  node : SameN s.node s'.node

theorem SimSt.symm {s s' : XState} (h : SimSt s s') : SimSt s' s := ⟨h.flag.symm, h.node.symm⟩
theorem SimSt.trans {s s' t : XState} (h : SimSt s s') (h' : SimSt s' t) : SimSt s t :=
  ⟨h.flag.trans h'.flag, h.node.trans h'.node⟩

/-- Arrays and objects. -/
inductive Box : Json → Prop
  | arr (l : List Json) : Box (.arr l)
  | obj (m : List (Str × Json)) : Box (.obj m)

/-- The same, or both are arrays or objects. -/
def AlikeJ (v v' : Json) : Prop := v = v' ∨ Box v ∧ Box v'

/-- The contexts are closed under scoped contexts and previous contexts. -/
structure KClosed (E : XEnv) (K : ACtx → Prop) : Prop where
  prev : ∀ {a b}, K a → a.previous = some b → K b
  proc : ∀ {a a' b t d l base o}, K a → K a' → a'.get t = some d → d.context = some l →
    E.process a l base o = .ok b → K b

/-- The contexts are closed under the contexts inside the value. -/
def LocIn (E : XEnv) (K : ACtx → Prop) (v : Json) : Prop :=
  ∀ w, ContextIn w v → ∀ a l base o b, K a → readCtx E.isRef w = .ok l → E.process a l base o = .ok b → K b

/-- What is needed of related values. -/
structure VC (E : XEnv) (K : ACtx → Prop) (v v' : Json) : Prop where
  alike : AlikeJ v v'
  items : List.Forall₂ AlikeJ (forceArray v) (forceArray v')
  elem : ∀ {c prop fm}, K c → To Alike₁ (expandElement E c prop v fm) (expandElement E c prop v' fm)
  list : ∀ {c prop fm}, K c → To (List.Forall₂ Same) (xItems (unlimited E) c prop fm (forceArray v))
    (xItems (unlimited E) c prop fm (forceArray v'))
  prop : ∀ {c d key}, K c → (d.bind (·.typ) = some .json → v = v') →
    To (fun x y => Alike₂ x y ∧ ((containerOf d).contains .list → Alike₁ x y))
      (propValue E (unlimited E) c d key v) (propValue E (unlimited E) c d key v')
  rev : ∀ {c s s'}, K c → SimSt s s' → To SimSt (keyReverse E (unlimited E) c v s) (keyReverse E (unlimited E) c v' s')
  nest : ∀ {c tsc prop key s s'}, K c → K tsc → SimSt s s' →
    To SimSt (nestStep E (unlimited E) c tsc prop key s v) (nestStep E (unlimited E) c tsc prop key s' v')
  nestAll : ∀ {c tsc prop key s s'}, K c → K tsc → SimSt s s' →
    To SimSt ((forceArray v).foldlM (nestStep E (unlimited E) c tsc prop key) s)
      ((forceArray v').foldlM (nestStep E (unlimited E) c tsc prop key) s')

variable {E : XEnv} {K : ACtx → Prop}

theorem KClosed.scoped (H : KClosed E K) {a a' b : ACtx} (ha : K a) (ha' : K a') {t : Str} {o : Opts}
    (h : scopedCtx E (a'.get t) a o = .ok b) : K b := by
  unfold scopedCtx at h
  split at h
  · rename_i d hd
    split at h
    · rename_i l hl
      unfold xProcess at h
      split at h
      · rename_i c hc
        cases h
        exact H.proc ha ha' hd hl hc
      · cases h
    · cases h; exact ha
  · cases h; exact ha

theorem KClosed.scopedProp (H : KClosed E K) {a a' b : ACtx} (ha : K a) (ha' : K a') {prop : Option Str} {o : Opts}
    (h : scopedCtx E (prop.bind a'.get) a o = .ok b) : K b := by
  cases prop with
  | none => cases h; exact ha
  | some t => exact H.scoped ha ha' h

theorem KClosed.map (H : KClosed E K) {c c' : ACtx} (hc : K c) {cm : Container} {i : Str} (h : mapContext E c cm i = .ok c') :
    K c' := by
  unfold mapContext at h
  have h1 : K (if cm.contains .type || cm.contains .id then c.previous.getD c else c) := by
    split
    · cases hp : c.previous with
      | none => exact hc
      | some p => exact H.prev hc hp
    · exact hc
  dsimp only at h
  split at h
  · exact H.scoped h1 h1 h
  · cases h; exact h1

/-! ## Keywords -/

theorem keyId_to {c : ACtx} {v v' : Json} (h : AlikeJ v v') {s s' : XState} (hs : SimSt s s') :
    To SimSt (keyId E c v s) (keyId E c v' s') := by
  rcases h with rfl | ⟨h, h'⟩
  · unfold keyId
    split
    · exact To.after_map fun t _ => ⟨hs.flag, hs.node.setId _⟩
    · exact .err
  · cases h <;> exact .err

theorem keyType1_to {c : ACtx} {v v' : Json} (h : AlikeJ v v') {s s' : XState} (hs : SimSt s s') :
    To SimSt (keyType1 E c s v) (keyType1 E c s' v') := by
  rcases h with rfl | ⟨h, h'⟩
  · unfold keyType1
    split
    · refine To.after fun t _ => ?_
      split
      · exact .ok hs
      · split
        · exact .ok ⟨hs.flag, hs.node.pushType _⟩
        · exact .ok hs
        · exact .err
      · exact .ok ⟨hs.flag, hs.node.pushType _⟩
      · exact .err
    · exact .err
  · cases h <;> exact .err

theorem keyType_to {c : ACtx} {v v' : Json} (h : List.Forall₂ AlikeJ (forceArray v) (forceArray v')) {s s' : XState}
    (hs : SimSt s s') :
    To SimSt ((forceArray v).foldlM (keyType1 E c) s) ((forceArray v').foldlM (keyType1 E c) s') :=
  To.foldlM h (fun _ _ _ _ _ h hs => keyType1_to h hs) hs

theorem keyIndex_to {v v' : Json} (h : AlikeJ v v') {s s' : XState} (hs : SimSt s s') :
    To SimSt (keyIndex v s) (keyIndex v' s') := by
  rcases h with rfl | ⟨h, h'⟩
  · unfold keyIndex
    split
    · exact .ok ⟨hs.flag, hs.node.setIndex _⟩
    · exact .err
  · cases h <;> exact .err

theorem topLevel_same {o o' : Obj} (h : Same o o') : topLevel o = topLevel o' := by
  rcases same_kind h with ⟨i, v, i', v', rfl, rfl⟩ | ⟨i, v, i', v', rfl, rfl⟩ | ⟨n, m, rfl, rfl⟩ <;> rfl

theorem filter_same {l l' : List Obj} (h : List.Forall₂ Same l l') :
    List.Forall₂ Same (l.filter topLevel) (l'.filter topLevel) := by
  induction h with
  | nil => exact .nil
  | cons h _ ih =>
    rw [List.filter_cons, List.filter_cons, topLevel_same h]
    split
    · exact .cons h ih
    · exact ih

theorem keyGraph_to {c : ACtx} (hc : K c) {v v' : Json} (h : VC E K v v') {s s' : XState} (hs : SimSt s s') :
    To SimSt (keyGraph (unlimited E) c v s) (keyGraph (unlimited E) c v' s') := by
  refine To.map (h.elem hc) fun x y _ _ hxy => ⟨hs.flag, ?_⟩
  exact hs.node.setGraph (collect_same (filter_same hxy.toList)) (setFold_pairwise _ _ .nil) (setFold_pairwise _ _ .nil)

theorem asNodes_to {e : XErr} {l l' : List Obj} (h : List.Forall₂ Same l l') :
    To (List.Forall₂ SameN) (asNodes e l) (asNodes e l') := by
  induction h with
  | nil => exact .ok .nil
  | cons h _ ih =>
    rcases same_kind h with ⟨i, v, i', v', rfl, rfl⟩ | ⟨i, v, i', v', rfl, rfl⟩ | ⟨n, m, rfl, rfl⟩
    · exact .err
    · exact .err
    · exact ih.map fun x y _ _ hxy => .cons h hxy

theorem asNodes_eq {e : XErr} {l : List Obj} {ns : List Node} : asNodes e l = .ok ns ↔ l = ns.map .node := by
  induction l generalizing ns with
  | nil =>
    constructor
    · intro h; cases h; rfl
    · intro h; cases ns with
      | nil => rfl
      | cons => cases h
  | cons o l ih =>
    cases o with
    | node n =>
      constructor
      · intro h
        obtain ⟨x, hx, rfl⟩ := exMap_ok h
        rw [ih.1 hx]; rfl
      · intro h
        cases ns with
        | nil => cases h
        | cons a ns =>
          rw [List.map_cons, List.cons.injEq] at h
          obtain ⟨h1, h2⟩ := h
          cases h1
          show (asNodes e l).map _ = _
          rw [ih.2 h2]
          rfl
    | value i v =>
      refine ⟨nofun, fun h => ?_⟩
      cases ns with
      | nil => cases h
      | cons => rw [List.map_cons, List.cons.injEq] at h; cases h.1
    | list i v =>
      refine ⟨nofun, fun h => ?_⟩
      cases ns with
      | nil => cases h
      | cons => rw [List.map_cons, List.cons.injEq] at h; cases h.1

theorem asNodes_perm {e : XErr} {l l' : List Obj} (h : PermRel Same l l') :
    To (PermRel SameN) (asNodes e l) (asNodes e l') := by
  obtain ⟨l₁, h1, h2⟩ := h
  intro ns hns
  obtain ⟨ms, hms, h3⟩ := asNodes_to (e := e) h2 ns hns
  rw [asNodes_eq.1 hms] at h1
  have : ∀ o ∈ l', ∃ n, o = Obj.node n := fun o ho => by
    obtain ⟨n, -, rfl⟩ := List.mem_map.1 (h1.symm.subset ho)
    exact ⟨n, rfl⟩
  obtain ⟨ms', hms'⟩ : ∃ ms' : List Node, l' = ms'.map .node := by
    clear h1
    induction l' with
    | nil => exact ⟨[], rfl⟩
    | cons o l ih =>
      obtain ⟨n, rfl⟩ := this o (by simp)
      obtain ⟨ms', rfl⟩ := ih fun o ho => this o (by simp [ho])
      exact ⟨n :: ms', rfl⟩
  subst hms'
  refine ⟨ms', asNodes_eq.2 rfl, ms, ?_, h3⟩
  exact (List.map_perm_map_iff (fun a b h => by cases h; rfl)).1 h1

theorem keyIncluded_to {c : ACtx} (hc : K c) {v v' : Json} (h : VC E K v v') {s s' : XState} (hs : SimSt s s') :
    To SimSt (keyIncluded E (unlimited E) c v s) (keyIncluded E (unlimited E) c v' s') := by
  unfold keyIncluded
  split
  · exact .ok hs
  · refine To.bind (h.elem hc) fun x y _ _ hxy => To.map (asNodes_to hxy.toList) fun ns ms _ _ hn => ⟨hs.flag, ?_⟩
    have hp := hs.node.parts
    have h1 : PermRel SameN (s.node.included.getD []) (s'.node.included.getD []) := optRel_getD hp.included
    refine hs.node.setIncluded (setFold_same (eq := Node.eq) (S := SameN) (fun _ _ _ _ h h' => sameN_congr h h')
      (fun _ _ h => h.symm) hn h1) (setFold_pairwise _ _ ?_) (setFold_pairwise _ _ ?_)
    · cases hi : s.node.included with
      | none => exact .nil
      | some l => exact hp.includedL l hi
    · cases hi : s'.node.included with
      | none => exact .nil
      | some l => exact hp.includedR l hi

/-! ## Properties -/

theorem addReverse_to {p : Id} {l l' : List Obj} (h : PermRel Same l l') {s s' : XState} (hs : SimSt s s') :
    To SimSt (addReverse p l s) (addReverse p l' s') :=
  (asNodes_perm h).map fun _ _ _ _ hn => ⟨hs.flag, hs.node.insertRev hn⟩

theorem addProp_to {d : Option TermDef} {p : Id} {x y : Expanded} (h : Alike₂ x y) {s s' : XState} (hs : SimSt s s') :
    To SimSt (addProp d p x s) (addProp d p y s') := by
  unfold addProp
  rw [h.isNull]
  split
  · exact .ok hs
  · split
    · exact addReverse_to h.toList hs
    · exact .ok ⟨hs.flag, hs.node.insertProp h.toList⟩

theorem graphNode_same {o o' : Obj} (h : Same o o') : Same (graphNode o) (graphNode o') := by
  refine NodeParts.same (a := .mk none none none (some [o]) none [] none) (b := .mk none none none (some [o']) none [] none) ?_
  refine ⟨rfl, rfl, trivial, .of_forall₂ (.cons h .nil), ?_, ?_, trivial, nofun, nofun, ?_, .nil, .nil, rfl, ?_, .nil, .nil⟩
  · intro l hl; cases hl; exact List.pairwise_singleton ..
  · intro l hl; cases hl; exact List.pairwise_singleton ..
  · intro k; trivial
  · intro k; trivial

theorem wrapList_to {cm : Container} {x y : Expanded} (h : Alike₂ x y ∧ (cm.contains .list → Alike₁ x y)) :
    Alike₂ (wrapList cm x) (wrapList cm y) := by
  unfold wrapList
  rw [h.1.isList]
  split
  · rename_i hc
    rw [Bool.and_eq_true] at hc
    exact same_list (h.2 hc.1).toList
  · exact h.1

theorem wrapGraph_to {cm : Container} {x y : Expanded} (h : Alike₂ x y) : Alike₂ (wrapGraph cm x) (wrapGraph cm y) := by
  unfold wrapGraph
  split
  · exact h.toList.map_both fun _ _ _ _ h => graphNode_same h
  · exact h

theorem propEntry_to {c : ACtx} (hc : K c) {key : Str} {p : Id} {v v' : Json} (h : VC E K v v')
    (hu : Untouched E K key → v = v') {s s' : XState} (hs : SimSt s s') :
    To SimSt (propEntry E (unlimited E) c key p v s) (propEntry E (unlimited E) c key p v' s') := by
  unfold propEntry
  refine To.bind (h.prop hc fun hj => ?_) fun x y _ _ hxy => addProp_to (wrapGraph_to (wrapList_to hxy)) hs
  cases hd : c.get key with
  | none => rw [hd] at hj; cases hj
  | some d => rw [hd] at hj; exact hu (.json hc hd hj)

theorem idEntry_to {c : ACtx} (hc : K c) {key : Str} {p : Id} {v v' : Json} (h : VC E K v v')
    (hu : Untouched E K key → v = v') {s s' : XState} (hs : SimSt s s') :
    To SimSt (idEntry E (unlimited E) c key p v s) (idEntry E (unlimited E) c key p v' s') := by
  unfold idEntry
  split
  · split
    · exact propEntry_to hc h hu hs
    · exact .ok hs
    · exact .err
  · exact propEntry_to hc h hu hs

theorem plainEntry_to {p : Id} {s s' : XState} (hs : SimSt s s') : To SimSt (plainEntry E p s) (plainEntry E p s') := by
  unfold plainEntry
  split
  · exact .err
  · split
    · exact .err
    · exact .ok hs

/-! ## Entries -/

/-- Related entries. -/
structure EntryRel (E : XEnv) (K : ACtx → Prop) (e e' : XEntry) : Prop where
  key : e.key = e'.key
  term : e.term = e'.term
  value : VC E K e.value e'.value
  untouched : Untouched E K e.key → e.value = e'.value

theorem keywordEntry_to {c tsc : ACtx} (hc : K c) (ht : K tsc) {prop : Option Str} {key : Str} {k : Keyword} {v v' : Json}
    (h : VC E K v v') {s s' : XState} (hs : SimSt s s') :
    To SimSt (keywordEntry E (unlimited E) c tsc prop key k v s) (keywordEntry E (unlimited E) c tsc prop key k v' s') := by
  unfold keywordEntry
  split
  · exact keyId_to h.alike hs
  · exact keyType_to h.items hs
  · exact keyGraph_to hc h hs
  · exact keyIncluded_to hc h hs
  · exact .ok ⟨rfl, hs.node⟩
  · exact .ok ⟨rfl, hs.node⟩
  · exact keyIndex_to h.alike hs
  · exact h.rev hc hs
  · exact h.nestAll hc ht hs
  · exact .err
  · exact .ok hs

theorem entryStep_to {c tsc : ACtx} (hc : K c) (ht : K tsc) {prop : Option Str} {e e' : XEntry} (h : EntryRel E K e e')
    {s s' : XState} (hs : SimSt s s') :
    To SimSt (entryStep E (unlimited E) c tsc prop s e) (entryStep E (unlimited E) c tsc prop s' e') := by
  obtain ⟨key, term, v⟩ := e
  obtain ⟨key', term', v'⟩ := e'
  obtain ⟨h1, h2, h3, h4⟩ := h
  dsimp only at h1 h2 h3 h4
  subst h1; subst h2
  unfold entryStep
  dsimp only
  split
  · exact .ok hs
  · exact .ok hs
  · split
    · exact .err
    · rw [hs.node.hasKeyword]
      split
      · exact .err
      · exact keywordEntry_to hc ht h3 hs
  · split
    · exact idEntry_to hc h3 h4 hs
    · exact plainEntry_to hs

theorem entries_to {c tsc : ACtx} (hc : K c) (ht : K tsc) {prop : Option Str} {es es' : List XEntry}
    (h : List.Forall₂ (EntryRel E K) es es') {s s' : XState} (hs : SimSt s s') :
    To SimSt (entriesBody E (unlimited E) s c tsc prop es) (entriesBody E (unlimited E) s' c tsc prop es') :=
  To.foldlM h (fun _ _ _ _ _ h hs => entryStep_to hc ht h hs) hs

end JsonLd
