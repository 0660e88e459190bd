import Verif.Spec.Idle
import Verif.Proofs.OrderDoc
/-!
# Entries that mean nothing can be removed
-/

namespace JsonLd
open Spec Props

variable {E : XEnv} {K : ACtx → Prop}

/-! ## Results with related parts -/

/-- The same error, or related results. -/
def Both {α β : Type} (Q : α → β → Prop) (r : Except XErr α) (r' : Except XErr β) : Prop :=
  (∃ e, r = .error e ∧ r' = .error e) ∨ ∃ x y, r = .ok x ∧ r' = .ok y ∧ Q x y

theorem Both.bind {α β γ : Type} {Q : α → β → Prop} {r : Except XErr α} {r' : Except XErr β} {f : α → Except XErr γ}
    {g : β → Except XErr γ} (h : Both Q r r') (hf : ∀ x y, r = .ok x → Q x y → f x = g y) : r.bind f = r'.bind g := by
  rcases h with ⟨e, rfl, rfl⟩ | ⟨x, y, rfl, rfl, h⟩
  · rfl
  · exact hf x y rfl h

theorem Both.map {α β γ δ : Type} {Q : α → β → Prop} {Q' : γ → δ → Prop} {r : Except XErr α} {r' : Except XErr β} {f : α → γ}
    {g : β → δ} (h : Both Q r r') (hf : ∀ x y, Q x y → Q' (f x) (g y)) : Both Q' (r.map f) (r'.map g) := by
  rcases h with ⟨e, rfl, rfl⟩ | ⟨x, y, rfl, rfl, h⟩
  · exact .inl ⟨e, rfl, rfl⟩
  · exact .inr ⟨_, _, rfl, rfl, hf x y h⟩

theorem bind_on {α β : Type} {r : Except XErr α} {f g : α → Except XErr β} (h : ∀ x, r = .ok x → f x = g x) :
    r.bind f = r.bind g := by
  cases r with
  | error => rfl
  | ok x => exact h x rfl

theorem collectM_eq {α β γ : Type} {T : α → β → Prop} {f : α → Except XErr (List γ)} {g : β → Except XErr (List γ)} {l : List α}
    {l' : List β} (h : List.Forall₂ T l l') (hf : ∀ a b, T a b → f a = g b) : collectM f l = collectM g l' := by
  induction h with
  | nil => rfl
  | cons hab _ ih =>
    unfold collectM
    rw [hf _ _ hab, ih]

theorem collectM_both {α β γ δ : Type} {T : α → β → Prop} {S : γ → δ → Prop} {f : α → Except XErr (List γ)}
    {g : β → Except XErr (List δ)} {l : List α} {l' : List β} (h : List.Forall₂ T l l')
    (hf : ∀ a b, T a b → Both (List.Forall₂ S) (f a) (g b)) : Both (List.Forall₂ S) (collectM f l) (collectM g l') := by
  induction h with
  | nil => exact .inr ⟨_, _, rfl, rfl, .nil⟩
  | cons hab _ ih =>
    unfold collectM
    rcases hf _ _ hab with ⟨e, h1, h2⟩ | ⟨x, y, h1, h2, h3⟩
    · rw [h1, h2]; exact .inl ⟨e, rfl, rfl⟩
    · rw [h1, h2]
      exact ih.map fun _ _ h => List.rel_append h3 h

theorem foldlM_eq {α β σ ε : Type} {T : α → β → Prop} {f : σ → α → Except ε σ} {g : σ → β → Except ε σ} {l : List α}
    {l' : List β} (h : List.Forall₂ T l l') (hf : ∀ s a b, T a b → f s a = g s b) (s : σ) : l.foldlM f s = l'.foldlM g s := by
  induction h generalizing s with
  | nil => rfl
  | cons hab _ ih =>
    rw [List.foldlM_cons, List.foldlM_cons, hf s _ _ hab]
    exact congrArg _ (funext fun s => ih s)

/-! ## Values that expand alike -/

structure SameX (E : XEnv) (K : ACtx → Prop) (v v' : Json) : Prop where
  alike : AlikeJ v v'
  items : List.Forall₂ AlikeJ (forceArray v) (forceArray v')
  elem : ∀ {c prop fm}, K c → expandElement E c prop v fm = expandElement E c prop v' fm
  list : ∀ {c prop fm}, K c → xItems (unlimited E) c prop fm (forceArray v) = xItems (unlimited E) c prop fm (forceArray v')
  rev : ∀ {c s}, K c → keyReverse E (unlimited E) c v s = keyReverse E (unlimited E) c v' s
  nest : ∀ {c tsc prop key s}, K c → K tsc →
    nestStep E (unlimited E) c tsc prop key s v = nestStep E (unlimited E) c tsc prop key s v'
  nestAll : ∀ {c tsc prop key s}, K c → K tsc →
    (forceArray v).foldlM (nestStep E (unlimited E) c tsc prop key) s =
      (forceArray v').foldlM (nestStep E (unlimited E) c tsc prop key) s

theorem forall₂_alike_refl {l : List Json} : List.Forall₂ AlikeJ l l := forall₂_refl_mem fun _ _ => .inl rfl

theorem sameX_refl (v : Json) : SameX E K v v :=
  ⟨.inl rfl, forall₂_alike_refl, fun _ => rfl, fun _ => rfl, fun _ => rfl, fun _ _ => rfl, fun _ _ => rfl⟩

theorem SameX.trans {a b d : Json} (h : SameX E K a b) (h' : SameX E K b d) : SameX E K a d where
  alike := alikeJ_trans h.alike h'.alike
  items := forall₂_trans_mem h.items h'.items fun _ _ _ _ _ _ h h' => alikeJ_trans h h'
  elem := fun hc => (h.elem hc).trans (h'.elem hc)
  list := fun hc => (h.list hc).trans (h'.list hc)
  rev := fun hc => (h.rev hc).trans (h'.rev hc)
  nest := fun hc ht => (h.nest hc ht).trans (h'.nest hc ht)
  nestAll := fun hc ht => (h.nestAll hc ht).trans (h'.nestAll hc ht)

/-- The claim for objects, from the parts of it. -/
theorem sameX_obj {m m' : List (Str × Json)}
    (he : ∀ {c prop fm}, K c → elemObj E (unlimited E) c prop m fm = elemObj E (unlimited E) c prop m' fm)
    (hrev : ∀ {c s}, K c → keyReverse E (unlimited E) c (.obj m) s = keyReverse E (unlimited E) c (.obj m') s)
    (hnest : ∀ {c tsc prop key s}, K c → K tsc →
      nestStep E (unlimited E) c tsc prop key s (.obj m) = nestStep E (unlimited E) c tsc prop key s (.obj m')) :
    SameX E K (.obj m) (.obj m') where
  alike := .inr ⟨.obj m, .obj m'⟩
  items := .cons (.inr ⟨.obj m, .obj m'⟩) .nil
  elem := fun hc => by rw [elem_obj_eq, elem_obj_eq]; exact he hc
  list := fun {c prop fm} hc => by
    refine collectM_eq (T := fun a b => a = .obj m ∧ b = .obj m') (.cons ⟨rfl, rfl⟩ .nil) ?_
    rintro a b ⟨rfl, rfl⟩
    show (expandElement E c prop (.obj m) fm).map _ = (expandElement E c prop (.obj m') fm).map _
    rw [elem_obj_eq, elem_obj_eq, he hc]
  rev := hrev
  nest := hnest
  nestAll := fun {c tsc prop key s} hc ht =>
    foldlM_eq (T := fun a b => a = .obj m ∧ b = .obj m') (.cons ⟨rfl, rfl⟩ .nil)
      (fun s a b hab => by obtain ⟨rfl, rfl⟩ := hab; exact hnest hc ht) s

theorem sameX_arr {l l' : List Json} (h : List.Forall₂ (SameX E K) l l') : SameX E K (.arr l) (.arr l') := by
  have hx : ∀ {c prop fm}, K c → xItems (unlimited E) c prop fm l = xItems (unlimited E) c prop fm l' :=
    fun {c prop fm} hc => collectM_eq h fun a b hab => by
      show (expandElement E c prop a fm).map _ = (expandElement E c prop b fm).map _
      rw [hab.elem hc]
  refine ⟨.inr ⟨.arr l, .arr l'⟩, h.imp fun _ _ h => h.alike, fun {c prop fm} hc => ?_, hx, fun _ => rfl, fun _ _ => ?_, ?_⟩
  · rw [elem_arr_eq, elem_arr_eq]
    unfold elemArr
    rw [hx hc]
  · rfl
  · intro c tsc prop key s hc ht
    exact foldlM_eq (f := nestStep E (unlimited E) c tsc prop key) (g := nestStep E (unlimited E) c tsc prop key) h
      (fun s a b hab => hab.nest hc ht) s

/-! ## Objects with related entries -/

structure PairX (E : XEnv) (K : ACtx → Prop) (e e' : Str × Json) : Prop where
  key : e.1 = e'.1
  value : SameX E K e.2 e'.2
  prop : ∀ {c}, K c → propValue E (unlimited E) c (c.get e.1) e.1 e.2 = propValue E (unlimited E) c (c.get e.1) e.1 e'.2
  context : e.1 = "@context".toList → e.2 = e'.2
  kept : ∀ {c}, K c → KeyFor E c e.1 .value → e.2 = e'.2

theorem pairX_refl (e : Str × Json) : PairX E K e e := ⟨rfl, sameX_refl _, fun _ => rfl, fun _ => rfl, fun _ _ => rfl⟩

structure EntryX (E : XEnv) (K : ACtx → Prop) (c : ACtx) (e e' : XEntry) : Prop where
  key : e.key = e'.key
  term : e.term = e'.term
  value : SameX E K e.value e'.value
  prop : propValue E (unlimited E) c (c.get e.key) e.key e.value = propValue E (unlimited E) c (c.get e.key) e.key e'.value
  kept : e.term = .keyword .value → e.value = e'.value

theorem pairsX_keys {m m' : List (Str × Json)} (h : List.Forall₂ (PairX E K) m m') : m.map Prod.fst = m'.map Prod.fst := by
  induction h with
  | nil => rfl
  | cons h _ ih => rw [List.map_cons, List.map_cons, h.key, ih]

theorem localContext_pairsX {c : ACtx} {m m' : List (Str × Json)} (h : List.Forall₂ (PairX E K) m m') :
    localContext E c m = localContext E c m' := by
  have : m.filter (fun e => decide (e.1 = "@context".toList)) = m'.filter (fun e => decide (e.1 = "@context".toList)) := by
    induction h with
    | nil => rfl
    | @cons e e' _ _ h _ ih =>
      rw [List.filter_cons, List.filter_cons, h.key, ih]
      by_cases hk : e'.1 = "@context".toList
      · have : e = e' := Prod.ext h.key (h.context (h.key.trans hk))
        rw [this]
      · rw [decide_eq_false hk]
        rfl
  unfold localContext
  rw [this]

theorem objContext_pairsX {c : ACtx} {prop : Option Str} {fm : Bool} {m m' : List (Str × Json)}
    (h : List.Forall₂ (PairX E K) m m') : objContext E c prop m fm = objContext E c prop m' fm := by
  unfold objContext
  rw [prelim_keys (pairsX_keys h)]
  have h1 : ∀ r, revert c m fm r = revert c m' fm r := fun r => by
    unfold revert
    rw [h.length_eq]
  refine congrArg _ (funext fun r => ?_)
  rw [h1 r]
  exact congrArg _ (funext fun c' => localContext_pairsX h)

theorem typeEntries_both {c : ACtx} {m m' : List (Str × Json)} (h : List.Forall₂ (PairX E K) m m') :
    Both (List.Forall₂ (PairX E K)) (typeEntries E c m) (typeEntries E c m') := by
  unfold typeEntries
  refine Both.map (Q := List.Forall₂ (PairX E K)) (collectM_both h fun a b hab => ?_)
    fun x y hxy => insertionSort_rel (fun a b h => h.key) hxy
  rw [hab.key]
  cases xKey E c b.1 with
  | error e => exact .inl ⟨e, rfl, rfl⟩
  | ok t =>
    refine .inr ⟨_, _, rfl, rfl, ?_⟩
    dsimp only
    split
    · exact .cons hab .nil
    · exact .nil

theorem scopedTypes_pairsX {tes tes' : List (Str × Json)} (h : List.Forall₂ (PairX E K) tes tes') :
    scopedTypes tes = scopedTypes tes' := by
  unfold scopedTypes
  induction h with
  | nil => rfl
  | cons h _ ih => rw [List.flatMap_cons, List.flatMap_cons, ih, strings_alike h.value.items]

theorem inputType_pairsX {c : ACtx} {tes tes' : List (Str × Json)} (h : List.Forall₂ (PairX E K) tes tes') :
    inputType E c tes = inputType E c tes' := by
  unfold inputType
  cases h with
  | nil => rfl
  | cons h _ =>
    dsimp only
    have := getLast_alike h.value.items
    generalize (forceArray _).getLast? = x at this ⊢
    generalize (forceArray _).getLast? = y at this ⊢
    cases x <;> cases y <;> first | rfl | exact this.elim | skip
    rcases this with rfl | ⟨h, h'⟩
    · rfl
    · cases h <;> cases h' <;> rfl

theorem xEntries_both {c : ACtx} (hc : K c) {m m' : List (Str × Json)} (h : List.Forall₂ (PairX E K) m m') :
    Both (List.Forall₂ (EntryX E K c)) (xEntries E c m) (xEntries E c m') := by
  induction h with
  | nil => exact .inr ⟨_, _, rfl, rfl, .nil⟩
  | @cons e e' m m' h _ ih =>
    obtain ⟨k, v⟩ := e
    obtain ⟨k', v'⟩ := e'
    obtain ⟨h1, h2, h3, -, h5⟩ := h
    dsimp only at h1 h2 h3 h5
    subst h1
    unfold xEntries
    cases ht : xKey E c k with
    | error x => exact .inl ⟨x, rfl, rfl⟩
    | ok t =>
      refine Both.map ih fun x y hxy => ?_
      cases t with
      | none => exact hxy
      | some t =>
        refine .cons ⟨rfl, rfl, h2, h3 hc, fun hk => h5 hc (keyFor_iff.2 ?_)⟩ hxy
        dsimp only at hk
        rw [ht, hk]

theorem lastEntry_x {c : ACtx} {k : Keyword} {es es' : List XEntry} (h : List.Forall₂ (EntryX E K c) es es') :
    OptRel (fun v v' => SameX E K v v' ∧ (k = .value → v = v')) (lastEntry k es) (lastEntry k es') := by
  unfold lastEntry
  have hf : List.Forall₂ (fun e e' => EntryX E K c e e' ∧ e.term = .keyword k)
      (es.filter fun e => decide (e.term = .keyword k)) (es'.filter fun e => decide (e.term = .keyword k)) := by
    induction h with
    | nil => exact .nil
    | @cons e e' _ _ h _ ih =>
      rw [List.filter_cons, List.filter_cons, h.term]
      by_cases hk : e'.term = .keyword k
      · rw [decide_eq_true hk]
        exact .cons ⟨h, h.term.trans hk⟩ ih
      · rw [decide_eq_false hk]
        exact ih
  generalize es.filter _ = x at hf
  generalize es'.filter _ = y at hf
  clear h
  induction hf with
  | nil => trivial
  | @cons e e' _ _ h hl ih =>
    cases hl with
    | nil => exact ⟨h.1.value, fun hk => h.1.kept (hk ▸ h.2)⟩
    | cons h1 h2 => simpa [List.getLast?_cons_cons] using ih

theorem listIndex_x {c : ACtx} {es es' : List XEntry} (h : List.Forall₂ (EntryX E K c) es es') {i : Option Str} :
    listIndex i es = listIndex i es' := by
  induction h generalizing i with
  | nil => rfl
  | @cons e e' _ _ h _ ih =>
    unfold listIndex
    rw [← h.term]
    split
    · rcases h.value.alike with h | ⟨h, h'⟩
      · rw [← h]
        split
        · exact ih
        · rfl
      · generalize e.value = v at h
        generalize e'.value = v' at h'
        cases h <;> cases h' <;> rfl
    · exact ih
    · rfl

theorem setEntries_x {c : ACtx} {es es' : List XEntry} (h : List.Forall₂ (EntryX E K c) es es') : setEntries es = setEntries es' := by
  unfold setEntries
  have : es.all (fun e => decide (e.term = .keyword .index) || decide (e.term = .keyword .set)) =
      es'.all (fun e => decide (e.term = .keyword .index) || decide (e.term = .keyword .set)) := by
    induction h with
    | nil => rfl
    | cons h _ ih => rw [List.all_cons, List.all_cons, h.term, ih]
  rw [this]

theorem valueStep_x {env : IriEnv} {vocab : Action} {c tsc : ACtx} {s : ValueState} {e e' : XEntry} (h : EntryX E K c e e') :
    valueStep env vocab tsc s e = valueStep env vocab tsc s e' := by
  unfold valueStep
  rw [← h.term]
  rcases h.value.alike with hv | ⟨hv, hv'⟩
  · rw [← hv]
  · generalize e.value = v at hv
    generalize e'.value = v' at hv'
    split <;> first | rfl | (cases hv <;> cases hv' <;> rfl)

theorem alike_eq {α : Type} {f : Json → α} (hf : ∀ v v', Box v → Box v' → f v = f v') {v v' : Json} (h : AlikeJ v v') :
    f v = f v' := by
  rcases h with rfl | ⟨h, h'⟩
  · rfl
  · exact hf _ _ h h'

theorem keywordEntry_x {c tsc : ACtx} (hc : K c) (ht : K tsc) {prop : Option Str} {key : Str} {k : Keyword} {v v' : Json}
    (h : SameX E K v v') {s : XState} :
    keywordEntry E (unlimited E) c tsc prop key k v s = keywordEntry E (unlimited E) c tsc prop key k v' s := by
  unfold keywordEntry
  split
  · exact alike_eq (f := fun v => keyId E c v s) (by rintro _ _ (_ | _) (_ | _) <;> rfl) h.alike
  · exact foldlM_eq h.items (fun s a b hab =>
      alike_eq (f := fun v => keyType1 E tsc s v) (by rintro _ _ (_ | _) (_ | _) <;> rfl) hab) s
  · show (expandElement E c _ v false).map _ = (expandElement E c _ v' false).map _
    rw [h.elem hc]
  · unfold keyIncluded
    split
    · rfl
    · show (expandElement E c _ v false).bind _ = (expandElement E c _ v' false).bind _
      rw [h.elem hc]
  · rfl
  · rfl
  · exact alike_eq (f := fun v => keyIndex v s) (by rintro _ _ (_ | _) (_ | _) <;> rfl) h.alike
  · exact h.rev hc
  · exact h.nestAll hc ht
  · rfl
  · rfl

theorem entryStep_x {c tsc : ACtx} (hc : K c) (ht : K tsc) {prop : Option Str} {e e' : XEntry} (h : EntryX E K c e e')
    {s : XState} : entryStep E (unlimited E) c tsc prop s e = entryStep E (unlimited E) c tsc prop s e' := by
  obtain ⟨key, term, v⟩ := e
  obtain ⟨key', term', v'⟩ := e'
  obtain ⟨h1, h2, h3, h4, -⟩ := h
  dsimp only at h1 h2 h3 h4
  subst h1; subst h2
  unfold entryStep
  dsimp only
  split
  · rfl
  · rfl
  · rw [keywordEntry_x hc ht h3]
  · have : ∀ p, propEntry E (unlimited E) c key p v s = propEntry E (unlimited E) c key p v' s := fun p => by
      unfold propEntry
      dsimp only
      rw [h4]
    unfold idEntry
    split
    · split
      · rw [this]
      · exact this _
    · rfl

theorem entries_x {c tsc : ACtx} (hc : K c) (ht : K tsc) {prop : Option Str} {es es' : List XEntry}
    (h : List.Forall₂ (EntryX E K c) es es') {s : XState} :
    entriesBody E (unlimited E) s c tsc prop es = entriesBody E (unlimited E) s c tsc prop es' :=
  foldlM_eq (f := entryStep E (unlimited E) c tsc prop) (g := entryStep E (unlimited E) c tsc prop) h
    (fun _ _ _ h => entryStep_x hc ht h) s

theorem elemKind_x {c tsc : ACtx} (hc : K c) (ht : K tsc) {prop : Option Str} {it : Option CTerm} {es es' : List XEntry}
    (h : List.Forall₂ (EntryX E K c) es es') :
    elemKind E (unlimited E) c tsc prop it es = elemKind E (unlimited E) c tsc prop it es' := by
  unfold elemKind
  have h1 : OptRel (fun v v' => SameX E K v v' ∧ (Keyword.list = .value → v = v'))
      (if noProp prop then none else lastEntry .list es) (if noProp prop then none else lastEntry .list es') := by
    split
    · trivial
    · exact lastEntry_x h
  have h2 := lastEntry_x (k := .set) h
  have h3 := lastEntry_x (k := .value) h
  generalize (if noProp prop then none else lastEntry .list es) = a at h1 ⊢
  generalize (if noProp prop then none else lastEntry .list es') = a' at h1 ⊢
  generalize lastEntry .set es = b at h2 ⊢
  generalize lastEntry .set es' = b' at h2 ⊢
  generalize lastEntry .value es = d at h3 ⊢
  generalize lastEntry .value es' = d' at h3 ⊢
  cases a with
  | some v =>
    cases a' with
    | none => exact h1.elim
    | some v' =>
      dsimp only
      unfold elemList
      rw [listIndex_x h, h1.1.list hc]
  | none =>
    cases a' with
    | some => exact h1.elim
    | none =>
      cases b with
      | some v =>
        cases b' with
        | none => exact h2.elim
        | some v' =>
          dsimp only
          rw [setEntries_x h]
          exact congrArg _ (funext fun _ => h2.1.elem hc)
      | none =>
        cases b' with
        | some => exact h2.elim
        | none =>
          cases d with
          | some v =>
            cases d' with
            | none => exact h3.elim
            | some v' =>
              obtain rfl : v = v' := h3.2 rfl
              dsimp only
              unfold elemValue expandValue
              rw [foldlM_eq (f := valueStep E.toIriEnv E.opts.vocab tsc) (g := valueStep E.toIriEnv E.opts.vocab tsc) h
                fun _ _ _ h => valueStep_x h]
          | none =>
            cases d' with
            | some => exact h3.elim
            | none =>
              dsimp only
              unfold expandNode
              rw [entries_x hc ht h]

/-- Objects with related entries. -/
theorem elemObj_x (H : KClosed E K) {c : ACtx} (hc : K c) {prop : Option Str} {fm : Bool} {m m' : List (Str × Json)}
    (hl : LocIn E K (.obj m)) (h : List.Forall₂ (PairX E K) m m') :
    elemObj E (unlimited E) c prop m fm = elemObj E (unlimited E) c prop m' fm := by
  unfold elemObj
  rw [← objContext_pairsX h]
  refine bind_on fun tsc ht => ?_
  have hK := objContext_K H hc hl ht
  refine (typeEntries_both h).bind fun tes tes' _ hte => ?_
  have hts : typeScoped E tsc tes = typeScoped E tsc tes' := by
    unfold typeScoped
    rw [scopedTypes_pairsX hte]
  rw [← hts]
  refine bind_on fun c' hc' => ?_
  have hc'' := typeScoped_K H hK hc'
  rw [inputType_pairsX hte]
  exact bind_on fun it _ => (xEntries_both hc'' h).bind fun es es' _ hes => elemKind_x hc'' hK hes

theorem sortIf_x {b : Bool} {m m' : List (Str × Json)} (h : List.Forall₂ (PairX E K) m m') :
    List.Forall₂ (PairX E K) (sortIf b Prod.fst m) (sortIf b Prod.fst m') := by
  unfold sortIf
  split
  · exact insertionSort_rel (fun _ _ h => h.key) h
  · exact h

theorem reverseStep_x {c : ACtx} (hc : K c) {e e' : Str × Json} (h : PairX E K e e') {s : XState} :
    reverseStep E (unlimited E) c s e = reverseStep E (unlimited E) c s e' := by
  have : ∀ p, reverseProp (unlimited E) c p e'.1 e.2 s = reverseProp (unlimited E) c p e'.1 e'.2 s := fun p => by
    show (expandElement E c _ e.2 false).bind _ = (expandElement E c _ e'.2 false).bind _
    rw [h.value.elem hc]
  unfold reverseStep
  rw [h.key]
  refine congrArg _ (funext fun t => ?_)
  split
  · rfl
  · rw [this]
  · rfl

/-- Objects with related entries. -/
theorem sameX_pairs (H : KClosed E K) {m m' : List (Str × Json)} (hl : LocIn E K (.obj m)) (h : List.Forall₂ (PairX E K) m m') :
    SameX E K (.obj m) (.obj m') := by
  refine sameX_obj (fun hc => elemObj_x H hc hl h) (fun {c s} hc => ?_) (fun {c tsc prop key s} hc ht => ?_)
  · exact foldlM_eq (f := reverseStep E (unlimited E) c) (g := reverseStep E (unlimited E) c) (sortIf_x h)
      (fun _ _ _ h => reverseStep_x hc h) s
  · unfold nestStep
    refine bind_on fun c' hc' => ?_
    have hK := H.scoped hc hc hc'
    refine (xEntries_both hK (sortIf_x h)).bind fun es es' _ hes => ?_
    rw [C49_unfold_entries, C49_unfold_entries]
    exact entries_x hK ht hes

/-- Values of properties that are no maps and no JSON literals. -/
theorem propValue_x {c : ACtx} (hc : K c) {key : Str} (hu : ¬ Untouched E K key) {v v' : Json}
    (hm : MapKey K key → (∀ o, v ≠ .obj o) ∧ ∀ o, v' ≠ .obj o) (h : SameX E K v v') :
    propValue E (unlimited E) c (c.get key) key v = propValue E (unlimited E) c (c.get key) key v' := by
  have hp : ∀ w, (MapKey K key → ∀ o, w ≠ .obj o) → propValue E (unlimited E) c (c.get key) key w = expandElement E c (some key) w false := by
    intro w hm
    unfold propValue
    dsimp only
    rw [if_neg fun hj => ?_]
    · cases w with
      | obj o => ?_
      | _ => rfl
      have hno : ((containerOf (c.get key)).contains .language = false) ∧
          ((containerOf (c.get key)).contains .index || (containerOf (c.get key)).contains .type ||
            (containerOf (c.get key)).contains .id) = false := by
        cases hg : c.get key with
        | none => exact ⟨rfl, rfl⟩
        | some d =>
          have : ¬ (d.container.contains .language || d.container.contains .index ||
            d.container.contains .type || d.container.contains .id) = true := fun h => hm ⟨c, d, hc, hg, h⟩ o rfl
          simp only [Bool.or_eq_true, not_or, Bool.not_eq_true] at this
          obtain ⟨⟨⟨h1, h2⟩, h3⟩, h4⟩ := this
          simp [containerOf, h1, h2, h3, h4]
      rw [hno.1, hno.2]
      rfl
    · cases hg : c.get key with
      | none => rw [hg] at hj; cases hj
      | some d => exact hu (.json hc hg (by rw [hg] at hj; exact hj))
  rw [hp v fun h => (hm h).1, hp v' fun h => (hm h).2, h.elem hc]

/-- Maps with related entries. -/
theorem propMap_x (H : KClosed E K) {c : ACtx} (hc : K c) {key : Str} (hu : ¬ Untouched E K key) {m m' : List (Str × Json)}
    (hs : SameX E K (.obj m) (.obj m')) (h : List.Forall₂ (PairX E K) m m') :
    propValue E (unlimited E) c (c.get key) key (.obj m) = propValue E (unlimited E) c (c.get key) key (.obj m') := by
  unfold propValue
  dsimp only
  have hj : ¬ (c.get key).bind (·.typ) = some .json := fun hj => by
    cases hg : c.get key with
    | none => rw [hg] at hj; cases hj
    | some d => exact hu (.json hc hg (by rw [hg] at hj; exact hj))
  rw [if_neg hj, if_neg hj]
  have h1 : langMap E c (c.get key) m = langMap E c (c.get key) m' := by
    unfold langMap
    refine collectM_eq (sortIf_x h) fun a b hab => ?_
    rw [hab.key]
    exact collectM_eq hab.value.items fun _ _ h =>
      alike_eq (f := fun v => langMapItem E c _ b.1 v) (by rintro _ _ (_ | _) (_ | _) <;> rfl) h
  have h2 : collectM (xMapEntry E (unlimited E) c (containerOf (c.get key)) (indexKeyOf (c.get key)) key)
        (sortIf E.opts.ordered Prod.fst m) =
      collectM (xMapEntry E (unlimited E) c (containerOf (c.get key)) (indexKeyOf (c.get key)) key)
        (sortIf E.opts.ordered Prod.fst m') := by
    refine collectM_eq (sortIf_x h) fun a b hab => ?_
    unfold xMapEntry
    rw [hab.key]
    refine bind_on fun c' hc' => congrArg _ (funext fun t => ?_)
    show (expandElement E c' _ a.2 true).bind _ = (expandElement E c' _ b.2 true).bind _
    rw [hab.value.elem (H.map hc hc')]
  rw [h1, h2]
  split
  · rfl
  · split
    · rfl
    · exact hs.elem hc

/-! ## An entry that means nothing -/

theorem nothing_key {c : ACtx} {key : Str} (h : MeansNothing E c key) : ∃ t, xKey E c key = .ok t ∧
    (t = none ∨ t = some .null ∨ (∃ p, t = some (.id p) ∧ ':' ∉ p.str) ∨
      ∃ s, t = some (.id (.invalid s)) ∧ E.opts.invalid = .drop) := by
  unfold xKey xIri
  cases h with
  | dropped h => rw [h]; exact ⟨_, rfl, .inl rfl⟩
  | null h => rw [h]; exact ⟨_, rfl, .inr (.inl rfl)⟩
  | undefined h hp => rw [h]; exact ⟨_, rfl, .inr (.inr (.inl ⟨_, rfl, hp⟩))⟩
  | invalid h hd => rw [h]; exact ⟨_, rfl, .inr (.inr (.inr ⟨_, rfl, hd⟩))⟩

theorem idle_key {c : ACtx} (hc : K c) {key : Str} (h : Idle E K key) : ∃ t, xKey E c key = .ok t ∧
    ∀ k, t ≠ some (.keyword k) := by
  obtain ⟨t, ht, h⟩ := nothing_key (h.nothing c hc)
  refine ⟨t, ht, fun k hk => ?_⟩
  subst hk
  rcases h with h | h | ⟨p, h, -⟩ | ⟨s, h, -⟩ <;> cases h

/-- A step for such an entry does nothing. -/
theorem entryStep_idle {c tsc : ACtx} (hc : K c) {key : Str} (h : Idle E K key) {t : CTerm} (ht : xKey E c key = .ok (some t))
    {prop : Option Str} {v : Json} {s : XState} : entryStep E (unlimited E) c tsc prop s ⟨key, t, v⟩ = .ok s := by
  obtain ⟨t', ht', h'⟩ := nothing_key (h.nothing c hc)
  rw [ht] at ht'
  cases ht'
  have hpl : ∀ p : Id, plainEntry E p s = .ok s := fun p => by
    unfold plainEntry
    rw [if_neg, if_neg]
    · rw [h.undefinedAllowed]; exact nofun
    · simp [h.notRejected]
  rcases h' with h' | h' | ⟨p, h', hp⟩ | ⟨x, h', hd⟩ <;> cases h'
  · rfl
  · unfold entryStep
    dsimp only
    rw [if_neg (by simpa using hp)]
    exact hpl p
  · unfold entryStep
    dsimp only
    split
    · unfold idEntry
      dsimp only
      rw [hd]
    · exact hpl _

theorem reverseStep_idle {c : ACtx} (hc : K c) {key : Str} (h : Idle E K key) {v : Json} {s : XState} :
    reverseStep E (unlimited E) c s (key, v) = .ok s := by
  obtain ⟨t, ht, h'⟩ := nothing_key (h.nothing c hc)
  have hno : ¬ (decide (E.opts.invalid = .reject) || !E.opts.allowUndefined) = true := by
    simp [h.notRejected, h.undefinedAllowed]
  unfold reverseStep
  rw [ht]
  rcases h' with rfl | rfl | ⟨p, rfl, hp⟩ | ⟨x, rfl, hd⟩
  · exact if_neg hno
  · exact if_neg hno
  · show (if p.str.contains ':' = true then _ else _) = _
    rw [if_neg (by simpa using hp)]
    exact if_neg hno
  · show (if (Id.invalid x).str.contains ':' = true then _ else _) = _
    split
    · rw [if_neg (by simp [Id.isValid]), hd]
    · simp

theorem sort_split {α : Type} (key : α → Str) (e : α) (m' : List α) : ∀ m : List α, ∃ a b,
    sortByKey key (m ++ e :: m') = a ++ e :: b ∧ sortByKey key (m ++ m') = a ++ b := by
  let r : α → α → Prop := fun a b => key a ≤ key b
  have : Std.Total r := ⟨fun a b => List.le_total (key a) (key b)⟩
  have htr : ∀ {a b c : α}, r a b → r b c → r a c := fun h h' => List.le_trans h h'
  have : IsTrans α r := ⟨fun a b c h h' => htr h h'⟩
  have ins : ∀ (x : α) (a b : List α), (a ++ e :: b).Pairwise r → ∃ a' b',
      (a ++ e :: b).orderedInsert r x = a' ++ e :: b' ∧ (a ++ b).orderedInsert r x = a' ++ b' := by
    intro x a
    induction a with
    | nil =>
      intro b h
      by_cases hx : r x e
      · refine ⟨[x], b, List.orderedInsert_cons_of_le r _ hx, ?_⟩
        cases b with
        | nil => rfl
        | cons y b =>
          exact List.orderedInsert_cons_of_le r _ (htr hx ((List.pairwise_cons.1 h).1 y List.mem_cons_self))
      · exact ⟨[], b.orderedInsert r x, List.orderedInsert_of_not_le r _ hx, rfl⟩
    | cons y a ih =>
      intro b h
      by_cases hx : r x y
      · exact ⟨x :: y :: a, b, List.orderedInsert_cons_of_le r _ hx, List.orderedInsert_cons_of_le r _ hx⟩
      · obtain ⟨a', b', h1, h2⟩ := ih b (List.pairwise_cons.1 h).2
        refine ⟨y :: a', b', ?_, ?_⟩
        · rw [List.cons_append, List.orderedInsert_of_not_le r _ hx, h1]; rfl
        · rw [List.cons_append, List.orderedInsert_of_not_le r _ hx, h2]; rfl
  intro m
  induction m with
  | nil =>
    exact ⟨_, _, List.orderedInsert_eq_take_drop r e (sortByKey key m'),
      (List.takeWhile_append_dropWhile).symm⟩
  | cons x m ih =>
    obtain ⟨a, b, h1, h2⟩ := ih
    have hs : (a ++ e :: b).Pairwise r := by
      rw [← h1]
      exact List.pairwise_insertionSort r _
    obtain ⟨a', b', h3, h4⟩ := ins x a b hs
    refine ⟨a', b', ?_, ?_⟩
    · show (sortByKey key (m ++ e :: m')).orderedInsert r x = _
      rw [h1, h3]
    · show (sortByKey key (m ++ m')).orderedInsert r x = _
      rw [h2, h4]

theorem sortIf_split {α : Type} (o : Bool) (key : α → Str) (e : α) (m m' : List α) : ∃ a b,
    sortIf o key (m ++ e :: m') = a ++ e :: b ∧ sortIf o key (m ++ m') = a ++ b := by
  unfold sortIf
  split
  · exact sort_split key e m' m
  · exact ⟨m, m', rfl, rfl⟩

theorem foldlM_drop {α σ ε : Type} {f : σ → α → Except ε σ} {e : α} (he : ∀ s, f s e = .ok s) (a b : List α) (s : σ) :
    (a ++ e :: b).foldlM f s = (a ++ b).foldlM f s := by
  rw [List.foldlM_append, List.foldlM_append]
  refine congrArg _ (funext fun s => ?_)
  rw [List.foldlM_cons, he]
  rfl

theorem xEntries_drop {c : ACtx} {k : Str} {t : Option CTerm} (ht : xKey E c k = .ok t) {v : Json} {β : Type}
    {m' : List (Str × Json)} : ∀ {m : List (Str × Json)} {F : List XEntry → Except XErr β},
    (∀ x y, xEntries E c (m ++ m') = .ok (x ++ y) → ∀ t', t = some t' → F (x ++ ⟨k, t', v⟩ :: y) = F (x ++ y)) →
    (xEntries E c (m ++ (k, v) :: m')).bind F = (xEntries E c (m ++ m')).bind F := by
  intro m
  induction m with
  | nil =>
    intro F hF
    show Except.bind ((xKey E c k).bind _) F = _
    rw [ht]
    show Except.bind ((xEntries E c m').map _) F = (xEntries E c m').bind F
    cases hm : xEntries E c m' with
    | error => rfl
    | ok es =>
      cases t with
      | none => rfl
      | some t => exact hF [] es hm t rfl
  | cons e m ih =>
    intro F hF
    obtain ⟨k', v'⟩ := e
    show Except.bind ((xKey E c k').bind _) F = Except.bind ((xKey E c k').bind _) F
    cases hk : xKey E c k' with
    | error => rfl
    | ok t₁ =>
      show Except.bind ((xEntries E c (m ++ (k, v) :: m')).map _) F = Except.bind ((xEntries E c (m ++ m')).map _) F
      have hb : ∀ {r : Except XErr (List XEntry)} {g : List XEntry → List XEntry}, Except.bind (r.map g) F = r.bind fun x => F (g x) := by
        intro r g
        cases r <;> rfl
      rw [hb, hb]
      refine ih fun x y hxy t' ht' => ?_
      have hx : ∀ t₂, xKey E c k' = .ok t₂ → xEntries E c ((k', v') :: m ++ m') =
          (xEntries E c (m ++ m')).map fun es => match t₂ with
            | some t => ⟨k', t, v'⟩ :: es
            | none => es := by
        intro t₂ h₂
        show (xKey E c k').bind _ = _
        rw [h₂]
        cases t₂ <;> rfl
      have hx := hx t₁ hk
      rw [hxy] at hx
      cases t₁ with
      | none => exact hF x y hx t' ht'
      | some t₁ => exact hF (⟨k', t₁, v'⟩ :: x) y hx t' ht'

theorem prelim_drop {c : ACtx} {k : Str} {t : Option CTerm} (ht : xKey E c k = .ok t) (hk : ∀ k, t ≠ some (.keyword k)) {v : Json}
    {m' : List (Str × Json)} : ∀ m, prelim E c (m ++ (k, v) :: m') = prelim E c (m ++ m') := by
  intro m
  induction m with
  | nil =>
    show (xKey E c k).bind _ = prelim E c m'
    rw [ht]
    show (prelim E c m').map _ = _
    rw [decide_eq_false (hk _), decide_eq_false (hk _)]
    cases prelim E c m' with
    | error => rfl
    | ok r => obtain ⟨a, b⟩ := r; simp [Except.map]
  | cons e m ih =>
    obtain ⟨k', v'⟩ := e
    show (xKey E c k').bind (fun t => (prelim E c (m ++ (k, v) :: m')).map _) =
      (xKey E c k').bind (fun t => (prelim E c (m ++ m')).map _)
    rw [ih]

/-- An entry for `@id` found by the preliminary expansion. -/
theorem prelim_id {c : ACtx} {e : Str × Json} {r : Bool × Bool} (h : prelim E c [e] = .ok r) (hr : r.2 = true) :
    KeyFor E c e.1 .id := by
  obtain ⟨k, v⟩ := e
  obtain ⟨t, ht, h⟩ := exBind_ok h
  cases h
  rw [keyFor_iff, ht]
  simp only [Bool.false_or, decide_eq_true_eq] at hr
  rw [hr]

theorem collectM_drop {α β : Type} {f : α → Except XErr (List β)} {e : α} (he : f e = .ok []) {m' : List α} :
    ∀ m, collectM f (m ++ e :: m') = collectM f (m ++ m') := by
  intro m
  induction m with
  | nil =>
    show (f e).bind _ = collectM f m'
    rw [he]
    show (collectM f m').map _ = _
    cases collectM f m' <;> rfl
  | cons a m ih =>
    show (f a).bind (fun x => (collectM f (m ++ e :: m')).map _) = (f a).bind (fun x => (collectM f (m ++ m')).map _)
    rw [ih]

theorem xEntries_from {c : ACtx} {m : List (Str × Json)} {es : List XEntry} (h : xEntries E c m = .ok es) {e : XEntry} (he : e ∈ es)
    {k : Keyword} (hk : e.term = .keyword k) : ∃ e' ∈ m, KeyFor E c e'.1 k := by
  refine ⟨_, xEntries_mem h he, ?_⟩
  rw [keyFor_iff, xEntries_term h he, hk]

/-- An object without an entry that means nothing. -/
theorem elemObj_drop (H : KClosed E K) {c : ACtx} (hc : K c) {prop : Option Str} {fm : Bool} {k : Str} {v : Json}
    {m m' : List (Str × Json)} (hl : LocIn E K (.obj (m ++ (k, v) :: m'))) (hi : Idle E K k) (hn : NodeEntries E K (m ++ m'))
    (hr : ∀ e, m ++ m' = [e] → ∀ c, K c → c.previous ≠ none → ¬ KeyFor E c e.1 .id) :
    elemObj E (unlimited E) c prop (m ++ (k, v) :: m') fm = elemObj E (unlimited E) c prop (m ++ m') fm := by
  have hctx : objContext E c prop (m ++ (k, v) :: m') fm = objContext E c prop (m ++ m') fm := by
    obtain ⟨t, ht, hk⟩ := idle_key hc hi
    unfold objContext
    rw [prelim_drop ht hk]
    refine bind_on fun r hpr => ?_
    have h1 : revert c (m ++ (k, v) :: m') fm r = revert c (m ++ m') fm r := by
      unfold revert
      cases hp : c.previous with
      | none => rfl
      | some p =>
        dsimp only
        by_cases hr2 : r.2 = true
        · have h2 : (m ++ m').length ≠ 1 := by
            intro h
            obtain ⟨e, he⟩ := List.length_eq_one_iff.1 h
            rw [he] at hpr
            exact hr e he c hc (by rw [hp]; exact nofun) (prelim_id hpr hr2)
          have h3 : (m ++ (k, v) :: m').length ≠ 1 := by
            intro h
            have h0 : (m ++ m') = [] := by
              apply List.length_eq_zero_iff.1
              simp only [List.length_append, List.length_cons] at h ⊢
              omega
            rw [h0] at hpr
            cases hpr
            cases hr2
          rw [decide_eq_false h2, decide_eq_false h3]
        · rw [Bool.not_eq_true] at hr2
          rw [hr2, Bool.and_false, Bool.and_false]
    rw [h1]
    refine congrArg _ (funext fun c' => ?_)
    have hne : k ≠ "@context".toList := by
      rintro rfl
      have : xKey E c "@context".toList = .ok (some (.keyword .context)) := rfl
      rw [this] at ht
      cases ht
      exact hk _ rfl
    unfold localContext
    rw [List.filter_append, List.filter_cons, decide_eq_false hne, List.filter_append]
    rfl
  unfold elemObj
  rw [hctx]
  refine bind_on fun tsc ht => ?_
  have hK : K tsc := by
    rw [← hctx] at ht
    exact objContext_K H hc hl ht
  have hty : typeEntries E tsc (m ++ (k, v) :: m') = typeEntries E tsc (m ++ m') := by
    obtain ⟨t, ht, hk⟩ := idle_key hK hi
    unfold typeEntries
    rw [collectM_drop]
    dsimp only
    rw [ht]
    exact congrArg _ (if_neg (hk _))
  rw [hty]
  refine bind_on fun tes _ => bind_on fun c' hc' => bind_on fun it _ => ?_
  have hc'' := typeScoped_K H hK hc'
  obtain ⟨t, ht, hk⟩ := idle_key hc'' hi
  refine xEntries_drop ht fun x y hxy t' ht' => ?_
  subst ht'
  have h1 : ∀ k, (k = .value ∨ k = .list ∨ k = .set) → ∀ e ∈ x ++ y, e.term ≠ .keyword k := by
    intro k hk e he het
    obtain ⟨e', he', hf⟩ := xEntries_from hxy he het
    obtain ⟨n1, n2, n3⟩ := hn c' hc'' e' he'
    rcases hk with rfl | rfl | rfl
    · exact n1 hf
    · exact n2 hf
    · exact n3 hf
  have h2 : ∀ k', (k' = .value ∨ k' = .list ∨ k' = .set) → ∀ e ∈ x ++ ⟨k, t', v⟩ :: y, e.term ≠ .keyword k' := by
    intro k' hk' e he
    rcases List.mem_append.1 he with he | he
    · exact h1 k' hk' e (List.mem_append_left _ he)
    · rcases List.mem_cons.1 he with rfl | he
      · intro h
        dsimp only at h
        subst h
        exact hk _ rfl
      · exact h1 k' hk' e (List.mem_append_right _ he)
  unfold elemKind
  rw [lastEntry_none (h1 .value (by simp)), lastEntry_none (h1 .list (by simp)), lastEntry_none (h1 .set (by simp)),
    lastEntry_none (h2 .value (by simp)), lastEntry_none (h2 .list (by simp)), lastEntry_none (h2 .set (by simp)), ite_self]
  dsimp only
  unfold expandNode entriesBody
  rw [foldlM_drop fun s => entryStep_idle hc'' hi ht]

theorem sameX_drop (H : KClosed E K) {k : Str} {v : Json} {m m' : List (Str × Json)} (hl : LocIn E K (.obj (m ++ (k, v) :: m')))
    (hi : Idle E K k) (hn : NodeEntries E K (m ++ m'))
    (hr : ∀ e, m ++ m' = [e] → ∀ c, K c → c.previous ≠ none → ¬ KeyFor E c e.1 .id) :
    SameX E K (.obj (m ++ (k, v) :: m')) (.obj (m ++ m')) := by
  refine sameX_obj (fun hc => elemObj_drop H hc hl hi hn hr) (fun {c s} hc => ?_) (fun {c tsc prop key s} hc ht => ?_)
  · obtain ⟨a, b, h1, h2⟩ := sortIf_split E.opts.ordered Prod.fst (k, v) m m'
    unfold keyReverse
    dsimp only
    rw [h1, h2]
    exact foldlM_drop (fun s => reverseStep_idle hc hi) a b s
  · unfold nestStep
    refine bind_on fun c' hc' => ?_
    have hK := H.scoped hc hc hc'
    obtain ⟨a, b, h1, h2⟩ := sortIf_split E.opts.ordered Prod.fst (k, v) m m'
    dsimp only
    rw [h1, h2]
    obtain ⟨t, hk, -⟩ := idle_key hK hi
    refine xEntries_drop hk fun x y _ t' ht' => ?_
    subst ht'
    rw [C49_unfold_entries, C49_unfold_entries]
    exact foldlM_drop (fun s => entryStep_idle hK hi hk) x y s

/-! ## Documents -/

theorem locIn_entry {k : Str} {v v' : Json} {m m' : List (Str × Json)} (hk : k ≠ "@context".toList)
    (hl : LocIn E K (.obj (m ++ (k, v) :: m'))) (h2 : LocIn E K v') : LocIn E K (.obj (m ++ (k, v') :: m')) := by
  intro w hw
  cases hw with
  | here hm =>
    rcases List.mem_append.1 hm with hm | hm
    · exact hl w (.here (List.mem_append_left _ hm))
    · rcases List.mem_cons.1 hm with hm | hm
      · cases hm
        exact absurd rfl hk
      · exact hl w (.here (List.mem_append_right _ (List.mem_cons_of_mem _ hm)))
  | entry hm hw =>
    rcases List.mem_append.1 hm with hm | hm
    · exact hl w (.entry (List.mem_append_left _ hm) hw)
    · rcases List.mem_cons.1 hm with hm | hm
      · cases hm
        exact h2 w hw
      · exact hl w (.entry (List.mem_append_right _ (List.mem_cons_of_mem _ hm)) hw)

theorem pairsX_one {k : Str} {v v' : Json} (m m' : List (Str × Json)) (h : PairX E K (k, v) (k, v')) :
    List.Forall₂ (PairX E K) (m ++ (k, v) :: m') (m ++ (k, v') :: m') :=
  List.rel_append (forall₂_refl_mem fun e _ => pairX_refl e) (.cons h (forall₂_refl_mem fun e _ => pairX_refl e))

/-- Arrays stay arrays, objects stay objects. -/
theorem pruned_obj {j j' : Json} (h : Pruned E K j j') : ∀ o', j' = .obj o' → ∃ o, j = .obj o := by
  induction h with
  | refl j => exact fun o' h => ⟨o', h⟩
  | trans _ _ ih1 ih2 =>
    intro o' h
    obtain ⟨o, h⟩ := ih2 o' h
    exact ih1 o h
  | item => exact fun _ h => nomatch h
  | _ => exact fun _ _ => ⟨_, rfl⟩

theorem pruned_map {k : Str} {j j' : Json} (h : Pruned E K j j') (hm : MapKey K k → ∀ o, j ≠ .obj o) :
    MapKey K k → (∀ o, j ≠ .obj o) ∧ ∀ o, j' ≠ .obj o := fun hk =>
  ⟨hm hk, fun o' h' => by
    obtain ⟨o, ho⟩ := pruned_obj h o' h'
    exact hm hk o ho⟩

theorem pruned_x (H : KClosed E K) {j j' : Json} (h : Pruned E K j j') : LocIn E K j → SameX E K j j' ∧ LocIn E K j' := by
  induction h with
  | refl j => exact fun hl => ⟨sameX_refl j, hl⟩
  | trans _ _ ih1 ih2 =>
    intro hl
    obtain ⟨h1, hl⟩ := ih1 hl
    obtain ⟨h2, hl⟩ := ih2 hl
    exact ⟨h1.trans h2, hl⟩
  | @drop k v m m' hi hn hr =>
    intro hl
    refine ⟨sameX_drop H hl hi hn hr, locIn_sub (fun w hw => contextIn_mem (fun e he => ?_) hw) hl⟩
    rcases List.mem_append.1 he with he | he
    · exact List.mem_append_left _ he
    · exact List.mem_append_right _ (List.mem_cons_of_mem _ he)
  | @entry k v v' m m' hu hm hp ih =>
    intro hl
    obtain ⟨h1, h2⟩ := ih (locIn_sub (fun w hw => .entry (k := k) (by simp) hw) hl)
    have hk : k ≠ "@context".toList := fun h => hu (.context h)
    refine ⟨sameX_pairs H hl (pairsX_one m m' ⟨rfl, h1, fun hc => propValue_x hc hu (pruned_map hp hm) h1, fun h => absurd h hk, fun hc h => ?_⟩),
      locIn_entry hk hl h2⟩
    exact absurd (.value hc h) hu
  | @map k i v v' m m' p p' hu hi hm hp' ih =>
    intro hl
    have hl' : LocIn E K (.obj (p ++ (i, v) :: p')) := locIn_sub (fun w hw => .entry (k := k) (by simp) hw) hl
    obtain ⟨h1, h2⟩ := ih (locIn_sub (fun w hw => .entry (k := i) (by simp) hw) hl')
    have hk : k ≠ "@context".toList := fun h => hu (.context h)
    have hki : i ≠ "@context".toList := fun h => hi (.context h)
    have hp := pairsX_one (v := v) (v' := v') p p' ⟨rfl, h1, fun hc => propValue_x hc hi (pruned_map hp' hm) h1, fun h => absurd h hki, fun hc h => absurd (.value hc h) hi⟩
    have hs := sameX_pairs H hl' hp
    refine ⟨sameX_pairs H hl (pairsX_one m m' ⟨rfl, hs, fun hc => propMap_x H hc hu hs hp, fun h => absurd h hk, fun hc h => ?_⟩),
      locIn_entry hk hl (locIn_entry hki hl' h2)⟩
    exact absurd (.value hc h) hu
  | @item v v' l l' _ ih =>
    intro hl
    obtain ⟨h1, h2⟩ := ih (locIn_sub (fun w hw => .item (by simp) hw) hl)
    refine ⟨sameX_arr (List.rel_append (forall₂_refl_mem fun e _ => sameX_refl _)
      (.cons h1 (forall₂_refl_mem fun e _ => sameX_refl _))), fun w hw => ?_⟩
    cases hw with
    | item hm hw =>
      rcases List.mem_append.1 hm with hm | hm
      · exact hl w (.item (List.mem_append_left _ hm) hw)
      · rcases List.mem_cons.1 hm with rfl | hm
        · exact h2 w hw
        · exact hl w (.item (List.mem_append_right _ (List.mem_cons_of_mem _ hm)) hw)

end JsonLd
