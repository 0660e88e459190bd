import Verif.Proofs.OrderStep
/-!
# Values with related parts expand to the same
-/

namespace JsonLd
open Spec Props

variable {E : XEnv} {K : ACtx → Prop}

theorem keyFor_iff {c : ACtx} {key : Str} {k : Keyword} : KeyFor E c key k ↔ xKey E c key = .ok (some (.keyword k)) := by
  unfold KeyFor xKey xIri
  constructor
  · intro h; rw [h]
  · intro h
    split at h
    · rename_i t ht
      cases h
      exact ht
    · cases h

theorem To.collectF {α β γ δ : Type} {S : γ → δ → Prop} {T : α → β → Prop} {f : α → Except XErr (List γ)}
    {g : β → Except XErr (List δ)} {l : List α} {l' : List β} (hl : List.Forall₂ T l l')
    (hf : ∀ a b, a ∈ l → T a b → To (List.Forall₂ S) (f a) (g b)) :
    To (List.Forall₂ S) (JsonLd.collectM f l) (JsonLd.collectM g l') :=
  To.collectM .nil (fun h h' => List.rel_append h h') hl hf

/-- Related entries of objects. -/
structure PairRel (E : XEnv) (K : ACtx → Prop) (e e' : Str × Json) : Prop where
  key : e.1 = e'.1
  value : VC E K e.2 e'.2
  untouched : Untouched E K e.1 → e.2 = e'.2

theorem pairs_keys {m m' : List (Str × Json)} (h : List.Forall₂ (PairRel E K) m m') : m.map Prod.fst = m'.map Prod.fst := by
  induction h with
  | nil => rfl
  | cons h _ ih => rw [List.map_cons, List.map_cons, h.key, ih]

theorem prelim_keys {c : ACtx} {m m' : List (Str × Json)} (h : m.map Prod.fst = m'.map Prod.fst) :
    prelim E c m = prelim E c m' := by
  induction m generalizing m' with
  | nil => cases m' with
    | nil => rfl
    | cons => cases h
  | cons e m ih =>
    cases m' with
    | nil => cases h
    | cons e' m' =>
      rw [List.map_cons, List.map_cons, List.cons.injEq] at h
      obtain ⟨k, v⟩ := e
      obtain ⟨k', v'⟩ := e'
      obtain ⟨h1, h2⟩ := h
      dsimp only at h1
      subst h1
      show (xKey E c k).bind _ = (xKey E c k).bind _
      rw [ih h2]

theorem localContext_pairs {c : ACtx} {m m' : List (Str × Json)} (h : List.Forall₂ (PairRel E K) m m') :
    localContext E c m = localContext E c m' := by
  have : m.filter (fun e => decide (e.1 = "@context".toList)) = m'.filter (fun e => decide (e.1 = "@context".toList)) := by
    induction h with
    | nil => rfl
    | @cons e e' _ _ h _ ih =>
      rw [List.filter_cons, List.filter_cons, h.key, ih]
      by_cases hk : e'.1 = "@context".toList
      · have : e = e' := Prod.ext h.key (h.untouched (.context (h.key.trans hk)))
        rw [this]
      · rw [decide_eq_false hk]
        rfl
  unfold localContext
  rw [this]

theorem objContext_pairs {c : ACtx} {prop : Option Str} {fm : Bool} {m m' : List (Str × Json)}
    (h : List.Forall₂ (PairRel E K) m m') : objContext E c prop m fm = objContext E c prop m' fm := by
  unfold objContext
  rw [prelim_keys (pairs_keys h)]
  have h1 : ∀ r, revert c m fm r = revert c m' fm r := fun r => by
    unfold revert
    rw [h.length_eq]
  refine congrArg _ (funext fun r => ?_)
  rw [h1 r]
  exact congrArg _ (funext fun c' => localContext_pairs h)

theorem localContext_K {c c' : ACtx} (hc : K c) {m : List (Str × Json)} (hl : LocIn E K (.obj m))
    (h : localContext E c m = .ok c') : K c' := by
  unfold localContext at h
  split at h
  · cases h; exact hc
  · rename_i e he
    split at h
    · cases h
    · rename_i l hr
      unfold xProcess at h
      split at h
      · rename_i b hb
        cases h
        have hm : e ∈ m ∧ e.1 = "@context".toList := by
          have : e ∈ m.filter (fun e => decide (e.1 = "@context".toList)) := by rw [he]; exact List.mem_singleton_self _
          exact ⟨(List.mem_filter.1 this).1, of_decide_eq_true (List.mem_filter.1 this).2⟩
        refine hl e.2 (.here ?_) c l _ _ c' hc hr hb
        rw [← hm.2]
        exact hm.1
      · cases h
  · cases h

theorem objContext_K (H : KClosed E K) {c c' : ACtx} (hc : K c) {prop : Option Str} {fm : Bool} {m : List (Str × Json)}
    (hl : LocIn E K (.obj m)) (h : objContext E c prop m fm = .ok c') : K c' := by
  unfold objContext at h
  obtain ⟨r, -, h⟩ := exBind_ok h
  obtain ⟨c₁, h1, h⟩ := exBind_ok h
  refine localContext_K (H.scopedProp ?_ hc h1) hl h
  unfold revert
  split
  · rename_i p hp
    split
    · exact H.prev hc hp
    · exact hc
  · exact hc

theorem typeScoped_K (H : KClosed E K) {c c' : ACtx} (hc : K c) {tes : List (Str × Json)}
    (h : typeScoped E c tes = .ok c') : K c' := by
  unfold typeScoped at h
  have : ∀ (l : List Str) (a : ACtx), K a →
      l.foldlM (fun a t => scopedCtx E (c.get t) a E.opts.proc.withoutPropagation) a = .ok c' → K c' := by
    intro l
    induction l with
    | nil => intro a ha h; cases h; exact ha
    | cons t l ih =>
      intro a ha h
      rw [List.foldlM_cons] at h
      obtain ⟨b, hb, h⟩ := exBind_ok h
      exact ih b (H.scoped ha hc hb) h
  exact this _ c hc h

theorem insertionSort_rel {α : Type} {key : α → Str} {T : α → α → Prop} (hk : ∀ a b, T a b → key a = key b) {l l' : List α}
    (h : List.Forall₂ T l l') : List.Forall₂ T (sortByKey key l) (sortByKey key l') := by
  have ins : ∀ {a b : α} {l l' : List α}, T a b → List.Forall₂ T l l' →
      List.Forall₂ T (l.orderedInsert (fun a b => key a ≤ key b) a) (l'.orderedInsert (fun a b => key a ≤ key b) b) := by
    intro a b l l' hab h
    induction h with
    | nil => exact .cons hab .nil
    | @cons x y _ _ hxy hl ih =>
      have hk1 := hk _ _ hab
      have hk2 := hk _ _ hxy
      by_cases hle : key a ≤ key x
      · rw [List.orderedInsert_cons_of_le (fun a b => key a ≤ key b) _ hle,
          List.orderedInsert_cons_of_le (fun a b => key a ≤ key b) _ (show key b ≤ key y by rw [← hk1, ← hk2]; exact hle)]
        exact .cons hab (.cons hxy hl)
      · rw [List.orderedInsert_of_not_le (fun a b => key a ≤ key b) _ hle,
          List.orderedInsert_of_not_le (fun a b => key a ≤ key b) _ (show ¬ key b ≤ key y by rw [← hk1, ← hk2]; exact hle)]
        exact .cons hxy ih
  unfold sortByKey
  induction h with
  | nil => exact .nil
  | cons hab _ ih => exact ins hab ih

theorem typeEntries_to {c : ACtx} {m m' : List (Str × Json)} (h : List.Forall₂ (PairRel E K) m m') :
    To (List.Forall₂ (PairRel E K)) (typeEntries E c m) (typeEntries E c m') := by
  unfold typeEntries
  refine To.map (Q := List.Forall₂ (PairRel E K)) (To.collectF h fun a b _ hab => ?_)
    fun x y _ _ hxy => insertionSort_rel (fun a b h => h.key) hxy
  rw [hab.key]
  refine To.after_map fun t _ => ?_
  split
  · exact .cons hab .nil
  · exact .nil

theorem strings_alike {l l' : List Json} (h : List.Forall₂ AlikeJ l l') : strings l = strings l' := by
  unfold strings
  induction h with
  | nil => rfl
  | cons h _ ih =>
    rcases h with rfl | ⟨h, h'⟩
    · rw [List.filterMap_cons, List.filterMap_cons, ih]
    · cases h <;> cases h' <;> exact ih

theorem scopedTypes_pairs {tes tes' : List (Str × Json)} (h : List.Forall₂ (PairRel E K) tes tes') :
    scopedTypes tes = scopedTypes tes' := by
  unfold scopedTypes
  induction h with
  | nil => rfl
  | cons h _ ih => rw [List.flatMap_cons, List.flatMap_cons, ih, strings_alike h.value.items]

theorem getLast_alike {l l' : List Json} (h : List.Forall₂ AlikeJ l l') : OptRel AlikeJ l.getLast? l'.getLast? := by
  induction h with
  | nil => trivial
  | @cons a b l l' h hl ih =>
    cases hl with
    | nil => exact h
    | cons h1 h2 => simpa [List.getLast?_cons_cons] using ih

theorem inputType_pairs {c : ACtx} {tes tes' : List (Str × Json)} (h : List.Forall₂ (PairRel E K) tes tes') :
    inputType E c tes = inputType E c tes' := by
  unfold inputType
  cases h with
  | nil => rfl
  | cons h _ =>
    dsimp only
    have := getLast_alike h.value.items
    generalize (forceArray _).getLast? = x at this ⊢
    generalize (forceArray _).getLast? = y at this ⊢
    cases x <;> cases y <;> first | rfl | exact this.elim | skip
    rcases this with rfl | ⟨h, h'⟩
    · rfl
    · cases h <;> cases h' <;> rfl

theorem xEntries_to {c : ACtx} {m m' : List (Str × Json)} (h : List.Forall₂ (PairRel E K) m m') :
    To (List.Forall₂ fun e e' => EntryRel E K e e' ∧ xKey E c e.key = .ok (some e.term)) (xEntries E c m) (xEntries E c m') := by
  induction h with
  | nil => exact .ok .nil
  | @cons e e' m m' h _ ih =>
    obtain ⟨k, v⟩ := e
    obtain ⟨k', v'⟩ := e'
    obtain ⟨h1, h2, h3⟩ := h
    dsimp only at h1 h2 h3
    subst h1
    refine To.after fun t ht => ih.map fun x y _ _ hxy => ?_
    cases t with
    | none => exact hxy
    | some t => exact .cons ⟨⟨rfl, rfl, h2, h3⟩, ht⟩ hxy

theorem lastEntry_to {c : ACtx} {k : Keyword} {es es' : List XEntry}
    (h : List.Forall₂ (fun e e' => EntryRel E K e e' ∧ xKey E c e.key = .ok (some e.term)) es es') :
    OptRel (fun v v' => VC E K v v' ∧ (k = .value → K c → v = v')) (lastEntry k es) (lastEntry k es') := by
  unfold lastEntry
  have hf : List.Forall₂ (fun e e' => (EntryRel E K e e' ∧ xKey E c e.key = .ok (some e.term)) ∧ e.term = .keyword k)
      (es.filter fun e => decide (e.term = .keyword k)) (es'.filter fun e => decide (e.term = .keyword k)) := by
    induction h with
    | nil => exact .nil
    | @cons e e' _ _ h _ ih =>
      rw [List.filter_cons, List.filter_cons, h.1.term]
      by_cases hk : e'.term = .keyword k
      · rw [decide_eq_true hk]
        exact .cons ⟨h, h.1.term.trans hk⟩ ih
      · rw [decide_eq_false hk]
        exact ih
  generalize es.filter _ = x at hf
  generalize es'.filter _ = y at hf
  clear h
  induction hf with
  | nil => trivial
  | @cons e e' _ _ h hl ih =>
    cases hl with
    | nil =>
      refine ⟨h.1.1.value, fun hk hK => ?_⟩
      subst hk
      refine h.1.1.untouched (.value hK (keyFor_iff.2 ?_))
      rw [h.1.2, h.2]
    | cons h1 h2 => simpa [List.getLast?_cons_cons] using ih

theorem listIndex_to {es es' : List XEntry} (h : List.Forall₂ (EntryRel E K) es es') {i : Option Str} :
    To Eq (listIndex i es) (listIndex i es') := by
  induction h generalizing i with
  | nil => exact .ok rfl
  | @cons e e' _ _ h _ ih =>
    unfold listIndex
    rw [← h.term]
    split
    · rcases h.value.alike with h | ⟨h, h'⟩
      · rw [← h]
        split
        · exact ih
        · exact .err
      · generalize e.value = v at h
        cases h <;> exact .err
    · exact ih
    · exact .err

theorem setEntries_pairs {es es' : List XEntry} (h : List.Forall₂ (EntryRel E K) es es') : setEntries es = setEntries es' := by
  unfold setEntries
  have : es.all (fun e => decide (e.term = .keyword .index) || decide (e.term = .keyword .set)) =
      es'.all (fun e => decide (e.term = .keyword .index) || decide (e.term = .keyword .set)) := by
    induction h with
    | nil => rfl
    | cons h _ ih => rw [List.all_cons, List.all_cons, h.term, ih]
  rw [this]

theorem valueStep_alike {env : IriEnv} {vocab : Action} {tsc : ACtx} {s t : ValueState} {e e' : XEntry} (ht : e.term = e'.term)
    (hv : AlikeJ e.value e'.value) (h : valueStep env vocab tsc s e = .ok t) : valueStep env vocab tsc s e' = .ok t := by
  rcases hv with hv | ⟨hv, -⟩
  · unfold valueStep at h ⊢
    rw [← ht, ← hv]
    exact h
  · unfold valueStep at h
    generalize e.value = v at hv h
    unfold valueStep
    rw [← ht]
    split at h <;> first | exact h | (cases hv <;> cases h)

theorem values_alike {env : IriEnv} {vocab : Action} {tsc : ACtx} {es es' : List XEntry} (h : List.Forall₂ (EntryRel E K) es es') :
    ∀ {s t : ValueState}, es.foldlM (valueStep env vocab tsc) s = .ok t → es'.foldlM (valueStep env vocab tsc) s = .ok t := by
  induction h with
  | nil => exact fun h => h
  | cons h _ ih =>
    intro s t hs
    rw [List.foldlM_cons] at hs ⊢
    obtain ⟨s₁, h1, hs⟩ := exBind_ok hs
    show Except.bind _ _ = _
    rw [valueStep_alike h.term h.value.alike h1]
    exact ih hs

theorem value_wf {env : IriEnv} {vocab : Action} {it : Option CTerm} {tsc : ACtx} {es : List XEntry} {v : Json} {o : Obj}
    (h : expandValue env vocab it tsc es v = .ok (some o)) : ∃ i w, o = .value i w := by
  unfold expandValue at h
  split at h
  · cases h
  · unfold valueResult at h
    split at h
    · split at h
      · cases h
      · cases h; exact ⟨_, _, rfl⟩
    · split at h
      · cases h
      · cases h
      · split at h
        · unfold langValue at h
          split at h
          · cases h
          · split at h
            · split at h
              · cases h; exact ⟨_, _, rfl⟩
              · cases h
            · cases h
        · cases h; exact ⟨_, _, rfl⟩

theorem elemValue_refl {tsc : ACtx} {it : Option CTerm} {es : List XEntry} {v : Json} {x : Expanded}
    (h : elemValue E tsc it es v = .ok x) : Alike₁ x x := by
  unfold elemValue at h
  split at h
  · cases h
  · rename_i o ho
    obtain ⟨i, w, rfl⟩ := value_wf ho
    cases h
    exact Same.refl trivial
  · cases h; trivial

theorem elemValue_to {tsc : ACtx} {it : Option CTerm} {es es' : List XEntry} (h : List.Forall₂ (EntryRel E K) es es') {v : Json} :
    To Alike₁ (elemValue E tsc it es v) (elemValue E tsc it es' v) := by
  intro x hx
  refine ⟨x, ?_, elemValue_refl hx⟩
  unfold elemValue expandValue at hx ⊢
  cases hf : es.foldlM (valueStep E.toIriEnv E.opts.vocab tsc) { isJson := decide (it = some (.keyword .json)) } with
  | error e => rw [hf] at hx; cases hx
  | ok s =>
    rw [hf] at hx
    rw [values_alike h hf]
    exact hx

theorem nodeResult_to {prop : Option Str} {s s' : XState} (h : SimSt s s') : Alike₁ (nodeResult prop s) (nodeResult prop s') := by
  have hp := h.node.parts
  unfold nodeResult
  rw [h.flag, h.node.isEmpty, hp.id, hp.index]
  split
  · trivial
  · split
    · trivial
    · exact h.node

theorem expandNode_to {c tsc : ACtx} (hc : K c) (ht : K tsc) {prop : Option Str} {es es' : List XEntry}
    (h : List.Forall₂ (EntryRel E K) es es') :
    To Alike₁ (expandNode E (unlimited E) c tsc prop es) (expandNode E (unlimited E) c tsc prop es') :=
  (entries_to hc ht h ⟨rfl, sameN_empty⟩).map fun _ _ _ _ h => nodeResult_to h

theorem elemKind_to {c tsc : ACtx} (hc : K c) (ht : K tsc) {prop : Option Str} {it : Option CTerm} {es es' : List XEntry}
    (h : List.Forall₂ (fun e e' => EntryRel E K e e' ∧ xKey E c e.key = .ok (some e.term)) es es') :
    To Alike₁ (elemKind E (unlimited E) c tsc prop it es) (elemKind E (unlimited E) c tsc prop it es') := by
  have hr : List.Forall₂ (EntryRel E K) es es' := h.imp fun _ _ h => h.1
  unfold elemKind
  have h1 : OptRel (fun v v' => VC E K v v' ∧ (Keyword.list = .value → K c → v = v'))
      (if noProp prop then none else lastEntry .list es) (if noProp prop then none else lastEntry .list es') := by
    split
    · trivial
    · exact lastEntry_to h
  have h2 := lastEntry_to (k := .set) h
  have h3 := lastEntry_to (k := .value) h
  generalize (if noProp prop then none else lastEntry .list es) = a at h1 ⊢
  generalize (if noProp prop then none else lastEntry .list es') = a' at h1 ⊢
  generalize lastEntry .set es = b at h2 ⊢
  generalize lastEntry .set es' = b' at h2 ⊢
  generalize lastEntry .value es = d at h3 ⊢
  generalize lastEntry .value es' = d' at h3 ⊢
  cases a with
  | some v =>
    cases a' with
    | none => exact h1.elim
    | some v' =>
      dsimp only
      unfold elemList
      refine To.bind (listIndex_to hr) ?_
      rintro i _ _ _ rfl
      exact (h1.1.list hc).map fun _ _ _ _ h => same_list h
  | none =>
    cases a' with
    | some => exact h1.elim
    | none =>
      cases b with
      | some v =>
        cases b' with
        | none => exact h2.elim
        | some v' =>
          dsimp only
          rw [setEntries_pairs hr]
          exact To.after fun _ _ => h2.1.elem hc
      | none =>
        cases b' with
        | some => exact h2.elim
        | none =>
          cases d with
          | some v =>
            cases d' with
            | none => exact h3.elim
            | some v' =>
              obtain rfl : v = v' := h3.2 rfl hc
              exact elemValue_to hr
          | none =>
            cases d' with
            | some => exact h3.elim
            | none => exact expandNode_to hc ht hr

/-- Objects with related entries. -/
theorem elemObj_to (H : KClosed E K) {c : ACtx} (hc : K c) {prop : Option Str} {fm : Bool} {m m' : List (Str × Json)}
    (hl : LocIn E K (.obj m)) (h : List.Forall₂ (PairRel E K) m m') :
    To Alike₁ (elemObj E (unlimited E) c prop m fm) (elemObj E (unlimited E) c prop m' fm) := by
  unfold elemObj
  rw [← objContext_pairs h]
  refine To.after fun tsc ht => ?_
  have hK := objContext_K H hc hl ht
  refine To.bind (typeEntries_to h) fun tes tes' _ _ hte => ?_
  have hts : typeScoped E tsc tes = typeScoped E tsc tes' := by
    unfold typeScoped
    rw [scopedTypes_pairs hte]
  rw [← hts]
  refine To.after fun c' hc' => ?_
  rw [inputType_pairs hte]
  refine To.after fun it _ => ?_
  exact (xEntries_to h).bind fun es es' _ _ hes => elemKind_to (typeScoped_K H hK hc') hK hes

/-! ## Properties -/

theorem wf_langItem {s : Str} {l : Option Str} {d : Option Direction} : Same (langItem s l d) (langItem s l d) := by
  unfold langItem
  split <;> exact Same.refl trivial

theorem langMapItem_to {c : ACtx} {d : Option Direction} {l : Str} {v v' : Json} (h : AlikeJ v v') :
    To (List.Forall₂ Same) (langMapItem E c d l v) (langMapItem E c d l v') := by
  rcases h with rfl | ⟨h, -⟩
  · unfold langMapItem
    split
    · exact .ok .nil
    · exact To.after_map fun t _ => .cons wf_langItem .nil
    · exact .err
  · cases h <;> exact .err

theorem sortIf_rel {b : Bool} {m m' : List (Str × Json)} (h : List.Forall₂ (PairRel E K) m m') :
    List.Forall₂ (PairRel E K) (sortIf b Prod.fst m) (sortIf b Prod.fst m') := by
  unfold sortIf
  split
  · exact insertionSort_rel (fun _ _ h => h.key) h
  · exact h

theorem langEntry_to {c : ACtx} {d : Option Direction} {e e' : Str × Json} (h : PairRel E K e e') :
    To (List.Forall₂ Same) (collectM (langMapItem E c d e.1) (forceArray e.2)) (collectM (langMapItem E c d e'.1) (forceArray e'.2)) := by
  rw [h.key]
  exact To.collectF h.value.items fun _ _ _ h => langMapItem_to h

theorem langMap_to {c : ACtx} {d : Option TermDef} {m m' : List (Str × Json)} (h : List.Forall₂ (PairRel E K) m m') :
    To (List.Forall₂ Same) (langMap E c d m) (langMap E c d m') := by
  unfold langMap
  exact To.collectF (sortIf_rel h) fun a b _ hab => langEntry_to hab

theorem isGraph_same {o o' : Obj} (h : Same o o') : o.isGraph = o'.isGraph := by
  rcases same_kind h with ⟨i, v, i', v', rfl, rfl⟩ | ⟨i, v, i', v', rfl, rfl⟩ | ⟨n, m, rfl, rfl⟩
  · rfl
  · rfl
  · have hp := NodeParts.flip (SameN.parts h)
    obtain ⟨-, -, h3, h4, h5, h6, h7⟩ := same_rel h
    have g3 := optRel_isNone h3
    have g4 := optRel_isNone h4
    have g5 := optRel_isNone h5
    have g6 := h6.length_eq
    have g7 := optRel_isNone h7
    cases n; cases m
    simp only [Node.types, Node.graph, Node.included, Node.props, Node.rev] at g3 g4 g5 g6 g7
    rename_i ps _ _ _ _ _ _ qs _
    have g6' : ps.isEmpty = qs.isEmpty := by
      cases ps <;> cases qs <;> first | rfl | cases g6
    have iz : ∀ {α : Type} (o : Option α), o.isSome = !o.isNone := fun o => by cases o <;> rfl
    simp only [Obj.isGraph, Node.isGraph, iz, g3, g4, g5, g6', g7]

theorem nodeId_same {o o' : Obj} (h : Same o o') : o.nodeId = o'.nodeId := by
  rcases same_kind h with ⟨i, v, i', v', rfl, rfl⟩ | ⟨i, v, i', v', rfl, rfl⟩ | ⟨n, m, rfl, rfl⟩
  · rfl
  · rfl
  · exact (SameN.parts h).id

theorem literal_wf {env : IriEnv} {vocab : Action} {c : ACtx} {prop : Option Str} {l : Literal} {o : Obj}
    (h : expandLiteral env vocab c prop l = .ok o) : Same o o := by
  have hid : ∀ i, Same (idNode i) (idNode i) := fun i => Same.refl (by simp [idNode, Obj.WF, Node.WF, gWF, incWF, psWF, rvWF])
  unfold expandLiteral at h
  dsimp only at h
  split at h
  · split at h
    · cases h; exact hid _
    · cases h
  · split at h
    · cases h
    · cases h; exact hid _
  · cases h
  · cases h; exact Same.refl trivial
  · cases h
    unfold untypedLiteral
    split
    · unfold untypedString
      split <;> exact Same.refl trivial
    · exact Same.refl trivial

theorem indexProp_to {c : ACtx} {k i : Str} {o o' : Obj} (h : Same o o') :
    To (OptRel Same) (indexProp E c k i o) (indexProp E c k i o') := by
  unfold indexProp
  split
  · exact .err
  · rename_i r hr
    refine To.after fun t _ => ?_
    split
    · rcases same_kind h with ⟨i, v, i', v', rfl, rfl⟩ | ⟨i, v, i', v', rfl, rfl⟩ | ⟨n, m, rfl, rfl⟩
      · exact .err
      · exact .err
      · exact .ok (SameN.insertProp h (.of_forall₂ (.cons (literal_wf hr) .nil)))
    · exact .ok trivial

theorem indexId_to {c : ACtx} {i : Str} {o o' : Obj} (h : Same o o') : To Same (indexId E c i o) (indexId E c i o') := by
  rcases same_kind h with ⟨i, v, i', v', rfl, rfl⟩ | ⟨i, v, i', v', rfl, rfl⟩ | ⟨n, m, rfl, rfl⟩
  · exact .ok h
  · exact .ok h
  · exact To.after_map fun t _ => SameN.setId h _

theorem indexType_to {t : CTerm} {o o' : Obj} (h : Same o o') : To Same (indexType t o) (indexType t o') := by
  unfold indexType
  split
  · rcases same_kind h with ⟨i, v, i', v', rfl, rfl⟩ | ⟨i, v, i', v', rfl, rfl⟩ | ⟨n, m, rfl, rfl⟩
    · exact .ok h
    · exact .ok h
    · exact .ok (Same.unshift h _)
  · exact .err

theorem indexItem_to {c : ACtx} {cm : Container} {k i : Str} {t : CTerm} {o o' : Obj} (h : Same o o') :
    To (OptRel Same) (indexItem E c cm k i t o) (indexItem E c cm k i t o') := by
  unfold indexItem
  rw [same_index h, nodeId_same h]
  split
  · exact indexProp_to h
  · split
    · exact .ok (h.setIndex _)
    · split
      · exact (indexId_to h).map fun _ _ _ _ h => h
      · split
        · exact (indexType_to h).map fun _ _ _ _ h => h
        · exact .ok h

theorem mapItem_to {c : ACtx} {cm : Container} {k i : Str} {t : Option CTerm} {o o' : Obj} (h : Same o o') :
    To (List.Forall₂ Same) (mapItem E c cm k i t o) (mapItem E c cm k i t o') := by
  unfold mapItem
  rw [isGraph_same h]
  have h' : Same (if cm.contains .graph && !o'.isGraph then graphNode o else o)
      (if cm.contains .graph && !o'.isGraph then graphNode o' else o') := by
    split
    · exact graphNode_same h
    · exact h
  dsimp only
  split
  · exact .ok (.cons h' .nil)
  · refine (indexItem_to h').map fun x y _ _ hxy => ?_
    cases x <;> cases y <;> first | exact hxy.elim | exact .nil | exact .cons hxy .nil

theorem xMapEntry_to (H : KClosed E K) {c : ACtx} (hc : K c) {cm : Container} {k key : Str} {e e' : Str × Json}
    (h : PairRel E K e e') :
    To (List.Forall₂ Same) (xMapEntry E (unlimited E) c cm k key e) (xMapEntry E (unlimited E) c cm k key e') := by
  unfold xMapEntry
  rw [h.key]
  refine To.after fun c' hc' => To.after fun t _ => ?_
  refine To.bind (h.value.elem (H.map hc hc')) fun x y _ _ hxy => ?_
  exact To.collectF hxy.toList fun _ _ _ h => mapItem_to h

theorem list_only {cm : Container} (h : cm.contains .list = true) :
    cm.contains .language = false ∧ cm.contains .index = false ∧ cm.contains .type = false ∧ cm.contains .id = false := by
  revert h
  cases cm <;> simp [Container.contains, Container.asSlice]

theorem elem_obj_eq (c : ACtx) (prop : Option Str) (m : List (Str × Json)) (fm : Bool) :
    expandElement E c prop (.obj m) fm = elemObj E (unlimited E) c prop m fm := C49_unfold ..

theorem elem_arr_eq (c : ACtx) (prop : Option Str) (l : List Json) (fm : Bool) :
    expandElement E c prop (.arr l) fm = elemArr (unlimited E) c prop l fm := C49_unfold ..

/-- The value of a property that is an object, from what is known of maps and of the element. -/
theorem propObj_to {c : ACtx} {d : Option TermDef} {key : Str} {m m' : List (Str × Json)}
    (he : To Alike₁ (expandElement E c (some key) (.obj m) false) (expandElement E c (some key) (.obj m') false))
    (hlm : To (PermRel Same) (langMap E c d m) (langMap E c d m'))
    (hmap : To (PermRel Same)
      (collectM (xMapEntry E (unlimited E) c (containerOf d) (indexKeyOf d) key) (sortIf E.opts.ordered Prod.fst m))
      (collectM (xMapEntry E (unlimited E) c (containerOf d) (indexKeyOf d) key) (sortIf E.opts.ordered Prod.fst m')))
    (hj : d.bind (·.typ) = some .json → Json.obj m = .obj m') :
    To (fun x y => Alike₂ x y ∧ ((containerOf d).contains .list → Alike₁ x y))
      (propValue E (unlimited E) c d key (.obj m)) (propValue E (unlimited E) c d key (.obj m')) := by
  unfold propValue
  dsimp only
  by_cases hjs : d.bind (·.typ) = some .json
  · rw [if_pos hjs, if_pos hjs]
    have := hj hjs
    rw [this]
    exact .ok ⟨Same.refl trivial, fun _ => Same.refl trivial⟩
  · rw [if_neg hjs, if_neg hjs]
    have hno : ∀ {x y : List Obj}, PermRel Same x y → (containerOf d).contains .language = true ∨
        ((containerOf d).contains .index || (containerOf d).contains .type || (containerOf d).contains .id) = true →
        Alike₂ (.array x) (.array y) ∧ ((containerOf d).contains .list → Alike₁ (.array x) (.array y)) := by
      intro x y h hk
      refine ⟨h, fun hl => ?_⟩
      obtain ⟨h1, h2, h3, h4⟩ := list_only hl
      rw [h1, h2, h3, h4] at hk
      simp at hk
    split
    · rename_i hk
      exact hlm.map fun _ _ _ _ h => hno h (.inl hk)
    · split
      · rename_i hk
        exact hmap.map fun _ _ _ _ h => hno h (.inr hk)
      · exact he.mono fun _ _ _ _ h => ⟨h.weak, fun _ => h⟩

/-! ## Reverse and nested properties -/

theorem reverseProp_to {c : ACtx} (hc : K c) {p : Id} {k : Str} {v v' : Json} (h : VC E K v v') {s s' : XState} (hs : SimSt s s') :
    To SimSt (reverseProp (unlimited E) c p k v s) (reverseProp (unlimited E) c p k v' s') := by
  unfold reverseProp
  refine To.bind (h.elem hc) fun x y _ _ hxy => ?_
  split
  · exact .ok ⟨hs.flag, hs.node.insertProp (.of_forall₂ hxy.toList)⟩
  · exact addReverse_to (.of_forall₂ hxy.toList) hs

theorem reverseStep_to {c : ACtx} (hc : K c) {e e' : Str × Json} (h : PairRel E K e e') {s s' : XState} (hs : SimSt s s') :
    To SimSt (reverseStep E (unlimited E) c s e) (reverseStep E (unlimited E) c s' e') := by
  unfold reverseStep
  rw [h.key]
  refine To.after fun t _ => ?_
  split
  · exact .err
  · split
    · split
      · exact reverseProp_to hc h.value hs
      · split
        · exact reverseProp_to hc h.value hs
        · exact .ok hs
        · exact .err
    · split
      · exact .err
      · exact .ok hs
  · split
    · exact .err
    · exact .ok hs

theorem keyReverse_to {c : ACtx} (hc : K c) {m m' : List (Str × Json)} (h : List.Forall₂ (PairRel E K) m m') {s s' : XState}
    (hs : SimSt s s') :
    To SimSt (keyReverse E (unlimited E) c (.obj m) s) (keyReverse E (unlimited E) c (.obj m') s') :=
  To.foldlM (sortIf_rel h) (fun _ _ _ _ _ h hs => reverseStep_to hc h hs) hs

theorem nestStep_to (H : KClosed E K) {c tsc : ACtx} (hc : K c) (ht : K tsc) {prop : Option Str} {key : Str}
    {m m' : List (Str × Json)} (h : List.Forall₂ (PairRel E K) m m') {s s' : XState} (hs : SimSt s s') :
    To SimSt (nestStep E (unlimited E) c tsc prop key s (.obj m)) (nestStep E (unlimited E) c tsc prop key s' (.obj m')) := by
  unfold nestStep
  refine To.after fun c' hc' => ?_
  refine To.bind (xEntries_to (sortIf_rel h)) fun es es' _ _ hes => ?_
  rw [C49_unfold_entries, C49_unfold_entries]
  exact entries_to (H.scoped hc hc hc') ht (hes.imp fun _ _ h => h.1) hs

/-! ## Values -/

/-- The claim for objects, from the parts of it. -/
theorem vc_obj {m m' : List (Str × Json)}
    (he : ∀ {c prop fm}, K c → To Alike₁ (expandElement E c prop (.obj m) fm) (expandElement E c prop (.obj m') fm))
    (hlm : ∀ {c d}, K c → To (PermRel Same) (langMap E c d m) (langMap E c d m'))
    (hmap : ∀ {c d key}, K c → To (PermRel Same)
      (collectM (xMapEntry E (unlimited E) c (containerOf d) (indexKeyOf d) key) (sortIf E.opts.ordered Prod.fst m))
      (collectM (xMapEntry E (unlimited E) c (containerOf d) (indexKeyOf d) key) (sortIf E.opts.ordered Prod.fst m')))
    (hrev : ∀ {c s s'}, K c → SimSt s s' →
      To SimSt (keyReverse E (unlimited E) c (.obj m) s) (keyReverse E (unlimited E) c (.obj m') s'))
    (hnest : ∀ {c tsc prop key s s'}, K c → K tsc → SimSt s s' →
      To SimSt (nestStep E (unlimited E) c tsc prop key s (.obj m)) (nestStep E (unlimited E) c tsc prop key s' (.obj m'))) :
    VC E K (.obj m) (.obj m') where
  alike := .inr ⟨.obj m, .obj m'⟩
  items := .cons (.inr ⟨.obj m, .obj m'⟩) .nil
  elem := he
  list := fun {c prop fm} hc => by
    refine To.collectF (T := fun a b => a = .obj m ∧ b = .obj m') (.cons ⟨rfl, rfl⟩ .nil) ?_
    rintro a b - ⟨rfl, rfl⟩
    exact (he hc).map fun _ _ _ _ h => h.toList
  prop := fun {c d key} hc hj => propObj_to (he hc) (hlm hc) (hmap hc) hj
  rev := hrev
  nest := hnest
  nestAll := fun {c tsc prop key s s'} hc ht hs =>
    To.foldlM (T := fun a b => a = .obj m ∧ b = .obj m') (.cons ⟨rfl, rfl⟩ .nil)
      (fun a b s s' _ hab hs => by obtain ⟨rfl, rfl⟩ := hab; exact hnest hc ht hs) hs

/-- Objects with related entries. -/
theorem vc_pairs (H : KClosed E K) {m m' : List (Str × Json)} (h : List.Forall₂ (PairRel E K) m m')
    (he : ∀ {c prop fm}, K c → To Alike₁ (expandElement E c prop (.obj m) fm) (expandElement E c prop (.obj m') fm)) :
    VC E K (.obj m) (.obj m') :=
  vc_obj he (fun _ => (langMap_to h).mono fun _ _ _ _ h => .of_forall₂ h)
    (fun hc => To.mono (To.collectF (sortIf_rel h) fun _ _ _ h => xMapEntry_to H hc h)
      fun _ _ _ _ h => .of_forall₂ h)
    (fun hc hs => keyReverse_to hc h hs) (fun hc ht hs => nestStep_to H hc ht h hs)

/-- Values that are neither arrays nor objects. -/
theorem vc_scalar {v : Json} (h : ¬ Box v) : VC E K v v := by
  have hf : forceArray v = [v] := by
    cases v <;> first | rfl | exact absurd (.arr _) h
  have hp : ∀ {c : ACtx} {d : Option TermDef} {key : Str}, d.bind (·.typ) ≠ some .json →
      propValue E (unlimited E) c d key v = expandElement E c (some key) v false := by
    intro c d key hd
    unfold propValue
    dsimp only
    rw [if_neg hd]
    cases v <;> first | rfl | exact absurd (.obj _) h
  refine ⟨.inl rfl, ?_, fun hc => ?_, fun hc => ?_, fun {c d key} hc hj => ?_, ?_, ?_, ?_⟩
  · rw [hf]; exact .cons (.inl rfl) .nil
  · exact To.same fun x hx => .refl (element_wf hx)
  · refine To.collectF (T := Eq) (forall₂_refl_mem fun _ _ => rfl) ?_
    rintro a _ - rfl
    exact To.after_map fun x hx => (Alike₁.refl (element_wf hx)).toList
  · by_cases hd : d.bind (·.typ) = some .json
    · unfold propValue
      dsimp only
      rw [if_pos hd]
      exact .ok ⟨Same.refl trivial, fun _ => Same.refl trivial⟩
    · rw [hp hd]
      exact To.same fun x hx => ⟨(Alike₁.refl (element_wf hx)).weak, fun _ => .refl (element_wf hx)⟩
  · intro c s s' _ _
    unfold keyReverse
    cases v <;> first | exact .err | exact absurd (.obj _) h
  · intro c tsc prop key s s' _ _ _
    unfold nestStep
    refine To.after fun c' _ => ?_
    cases v <;> first | exact .err | exact absurd (.obj _) h
  · intro c tsc prop key s s' _ _ hs
    rw [hf]
    refine To.foldlM (T := Eq) (P := SimSt) (forall₂_refl_mem fun _ _ => rfl) ?_ hs
    rintro a _ s s' ha rfl -
    rw [List.mem_singleton] at ha
    subst ha
    unfold nestStep
    refine To.after fun c' _ => ?_
    cases a <;> first | exact .err | exact absurd (.obj _) h

/-- Arrays with related items. -/
theorem vc_arr {l l' : List Json} (h : List.Forall₂ (VC E K) l l') : VC E K (.arr l) (.arr l') := by
  have hx : ∀ {c prop fm}, K c → To (List.Forall₂ Same) (xItems (unlimited E) c prop fm l) (xItems (unlimited E) c prop fm l') :=
    fun hc => To.collectF h fun a b _ hab => (hab.elem hc).map fun _ _ _ _ h => h.toList
  have he : ∀ {c prop fm}, K c → To Alike₁ (expandElement E c prop (.arr l) fm) (expandElement E c prop (.arr l') fm) := by
    intro c prop fm hc
    rw [elem_arr_eq, elem_arr_eq]
    unfold elemArr
    refine (hx hc).map fun x y _ _ hxy => ?_
    split
    · exact same_list hxy
    · exact hxy
  refine ⟨.inr ⟨.arr l, .arr l'⟩, h.imp fun _ _ h => h.alike, he, hx, fun {c d key} hc hj => ?_, fun _ _ => .err, ?_, ?_⟩
  · unfold propValue
    dsimp only
    by_cases hd : d.bind (·.typ) = some .json
    · rw [if_pos hd, if_pos hd, hj hd]
      exact .ok ⟨Same.refl trivial, fun _ => Same.refl trivial⟩
    · rw [if_neg hd, if_neg hd]
      exact (he hc).mono fun _ _ _ _ h => ⟨h.weak, fun _ => h⟩
  · intro c tsc prop key s s' _ _ _
    unfold nestStep
    exact To.after fun c' _ => .err
  · intro c tsc prop key s s' hc ht hs
    exact To.foldlM h (fun _ _ _ _ _ h hs => h.nest hc ht hs) hs

/-- Every value is related to itself. -/
theorem vc_refl (H : KClosed E K) (v : Json) : VC E K v v := by
  induction v using Json.ind with
  | harr l ih => exact vc_arr (forall₂_refl_mem fun v hv => ih v hv)
  | hobj m ih =>
    exact vc_pairs H (forall₂_refl_mem fun e he => ⟨rfl, ih e.1 e.2 he, fun _ => rfl⟩)
      fun _ => To.same fun x hx => .refl (element_wf hx)
  | _ => exact vc_scalar nofun

end JsonLd
