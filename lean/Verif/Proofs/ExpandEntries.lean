import Verif.Proofs.ExpandTerms
/-!
# Objects entry by entry, and the contexts of objects
-/

namespace JsonLd
open Spec Props

section
variable {E : XEnv} {c : ACtx}

/-- The state for the empty node. -/
abbrev startState : XState := ⟨.mk none none none none none [] none, false⟩

theorem start_shape : PropNode startState := ⟨[], none, rfl⟩

theorem nodeResult_prop {q : Str} (hq : q ≠ "@graph".toList) {st : XState} (h : PropNode st) :
    nodeResult (some q) st = .object (.node st.node) := by
  obtain ⟨ps, rv, rfl⟩ := h
  have hn : noProp (some q) = false := by
    unfold noProp
    simp only [Option.isNone_some, Bool.false_or, Option.some.injEq]
    exact decide_eq_false hq
  unfold nodeResult
  rw [hn]
  rfl

theorem keyword_key (k : Keyword) : xKey E c k.intoStr = .ok (some (.keyword k)) := by
  have := C01_roundtrip k
  unfold xKey xIri Expandable.ofStr
  rw [this]
  rfl

theorem propEntry_together {key : Str} {p : Id} {v : Json} {st st' : XState} (h : PropNode st) :
    propEntry E (unlimited E) c key p v st = .ok st' ↔
      ∃ st1, propEntry E (unlimited E) c key p v startState = .ok st1 ∧
        PutTogether st.node st1.node st'.node ∧ PropNode st' := by
  unfold propEntry
  simp only [exBind_iff, addProp_together h]
  constructor
  · rintro ⟨y, hy, st1, h1, h2, h3⟩; exact ⟨st1, ⟨y, hy, h1⟩, h2, h3⟩
  · rintro ⟨st1, ⟨y, hy, h1⟩, h2, h3⟩; exact ⟨y, hy, st1, h1, h2, h3⟩

/-- Folding over properties does not depend on the type-scoped context or the active property. -/
theorem fold_props {es : List XEntry} (hk : ∀ e ∈ es, ∃ p, e.term = .id p ∧ IsProperty E c e.key p) {tsc tsc' : ACtx}
    {prop prop' : Option Str} {st : XState} :
    es.foldlM (entryStep E (unlimited E) c tsc prop) st = es.foldlM (entryStep E (unlimited E) c tsc' prop') st := by
  induction es generalizing st with
  | nil => rfl
  | cons e es ih =>
    obtain ⟨p, hp, hp'⟩ := hk e (by simp)
    obtain ⟨k, t, v⟩ := e
    subst hp
    rw [List.foldlM_cons, List.foldlM_cons, step_prop hp', step_prop hp']
    congr 1
    funext st
    exact ih fun e he => hk e (by simp [he])

theorem last_props {es : List XEntry} (hk : ∀ e ∈ es, ∃ p, e.term = .id p) (k : Keyword) : lastEntry k es = none := by
  unfold lastEntry
  rw [List.filter_eq_nil_iff.2]
  · rfl
  · intro e he
    obtain ⟨p, hp⟩ := hk e he
    rw [hp]
    simp

/-- An object that is no list, set or value object is a node object. -/
theorem kind_node {es : List XEntry} (h : ∀ e ∈ es, e.term ≠ .keyword .list ∧ e.term ≠ .keyword .set ∧
    e.term ≠ .keyword .value) {R : XRec} {tsc : ACtx} {prop : Option Str} {it : Option CTerm} :
    elemKind E R c tsc prop it es = expandNode E R c tsc prop es := by
  have last : ∀ k, k = .list ∨ k = .set ∨ k = .value → lastEntry k es = none := by
    intro k hk
    unfold lastEntry
    rw [List.filter_eq_nil_iff.2]
    · rfl
    · intro e he
      have := h e he
      rcases hk with rfl | rfl | rfl
      · simpa using this.1
      · simpa using this.2.1
      · simpa using this.2.2
  unfold elemKind
  rw [last _ (.inl rfl), last _ (.inr (.inl rfl)), last _ (.inr (.inr rfl))]
  have : (if noProp prop = true then (none : Option Json) else none) = none := by split <;> rfl
  rw [this]

theorem foldlM_flatten {α : Type} {f : XState → α → Except XErr XState} (ls : List (List α)) (st : XState) :
    ls.flatten.foldlM f st = ls.foldlM (fun s l => l.foldlM f s) st := by
  induction ls generalizing st with
  | nil => rfl
  | cons l ls ih =>
    rw [List.flatten_cons, List.foldlM_append, List.foldlM_cons]
    congr 1
    funext s
    exact ih s

theorem foldlM_congr_rel {α β : Type} {f : XState → α → Except XErr XState} {g : XState → β → Except XErr XState}
    {r : α → β → Prop} (h : ∀ a b s, r a b → f s a = g s b) {l : List α} {l' : List β}
    (hl : List.Forall₂ r l l') (st : XState) : l.foldlM f st = l'.foldlM g st := by
  induction hl generalizing st with
  | nil => rfl
  | cons h1 _ ih =>
    rw [List.foldlM_cons, List.foldlM_cons, h _ _ _ h1]
    congr 1
    funext s
    exact ih s

/-- Sorting the entries of an object. -/
theorem sortIf_perm_entries {α : Type} (b : Bool) (key : α → Str) (l : List α) : (sortIf b key l).Perm l := by
  unfold sortIf
  split
  · exact List.perm_insertionSort _ _
  · exact .refl _

theorem propertyKeys_perm {m m' : List (Str × Json)} (h : m.Perm m') (hm : PropertyKeys E c m') : PropertyKeys E c m :=
  fun e he => hm e (h.subset he)

/-- Keys expand to something if the vocabulary policy rejects nothing. -/
theorem xKey_total (h : E.opts.vocab ≠ .reject) (c : ACtx) (s : Str) : ∃ t, xKey E c s = .ok t := by
  have tail : ∀ s, ∃ t, expandTail E.toIriEnv c s false (some E.opts.vocab) = .ok t := by
    intro s
    unfold expandTail
    split
    · rename_i a _ h' _
      split
      · exact ⟨_, rfl⟩
      · exact ⟨_, rfl⟩
      · exact absurd (Option.some.inj h') h
    · exact ⟨_, rfl⟩
    · exact ⟨_, rfl⟩
  have : ∃ t, expandIri E.toIriEnv c (some (.ofStr s)) false (some E.opts.vocab) = .ok t := by
    unfold expandIri
    split
    · exact ⟨_, rfl⟩
    · exact ⟨_, rfl⟩
    · unfold expandStr
      split
      · exact ⟨_, rfl⟩
      · split
        · exact ⟨_, rfl⟩
        · split
          · split
            · exact ⟨_, rfl⟩
            · split
              · exact ⟨_, rfl⟩
              · split
                · exact ⟨_, rfl⟩
                · split
                  · exact ⟨_, rfl⟩
                  · exact tail _
          · exact tail _
  obtain ⟨t, ht⟩ := this
  exact ⟨t, xKey_iff.2 ht⟩

theorem prelim_total (h : E.opts.vocab ≠ .reject) (c : ACtx) (m : List (Str × Json)) :
    ∃ r, prelim E c m = .ok r ∧
      (r.1 = true ↔ ∃ e ∈ m, xKey E c e.1 = .ok (some (.keyword .value))) ∧
      (r.2 = true ↔ ∃ e ∈ m, xKey E c e.1 = .ok (some (.keyword .id))) := by
  induction m with
  | nil => exact ⟨_, rfl, by simp, by simp⟩
  | cons e m ih =>
    obtain ⟨k, v⟩ := e
    obtain ⟨r, hr, h1, h2⟩ := ih
    obtain ⟨t, ht⟩ := xKey_total h c k
    refine ⟨(r.1 || decide (t = some (.keyword .value)), r.2 || decide (t = some (.keyword .id))), ?_, ?_, ?_⟩
    · show (xKey E c k).bind _ = _
      rw [ht]
      show (prelim E c m).map _ = _
      rw [hr]
      rfl
    · simp only [Bool.or_eq_true, h1, decide_eq_true_eq, List.mem_cons, exists_eq_or_imp, ht, Except.ok.injEq]
      exact or_comm
    · simp only [Bool.or_eq_true, h2, decide_eq_true_eq, List.mem_cons, exists_eq_or_imp, ht, Except.ok.injEq]
      exact or_comm

theorem scopedCtx_plain {d : Option TermDef} (h : ∀ x, d = some x → x.context = none) (c' : ACtx) (o : Opts) :
    scopedCtx E d c' o = .ok c' := by
  unfold scopedCtx
  cases d with
  | none => rfl
  | some d => dsimp only; rw [h d rfl]

theorem scopedCtx_within {d : TermDef} {l : SCtx} (h : d.context = some l) {c' : ACtx} {o : Opts} {r : ACtx}
    (hp : E.process c' l d.baseUrl o = .ok r) : scopedCtx E (some d) c' o = .ok r := by
  unfold scopedCtx xProcess
  dsimp only
  rw [h]
  dsimp only
  rw [hp]

/-- The types of an object, if only one key stands for `@type`. -/
theorem typeEntries_props {m : List (Str × Json)} (h : ∀ e ∈ m, ∃ t, xKey E c e.1 = .ok t ∧ t ≠ some (.keyword .type)) :
    collectM (fun e : Str × Json => (xKey E c e.1).map fun t =>
      if t = some (.keyword .type) then [e] else []) m = .ok [] := by
  induction m with
  | nil => rfl
  | cons e m ih =>
    obtain ⟨t, ht, hn⟩ := h e (by simp)
    refine collectM_cons.2 ⟨[], [], ?_, ih fun e he => h e (by simp [he]), rfl⟩
    rw [ht]
    show Except.ok (if t = _ then _ else _) = _
    rw [if_neg hn]

end

end JsonLd
