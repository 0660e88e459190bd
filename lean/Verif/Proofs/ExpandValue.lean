import Verif.Spec.Expand
import Verif.Props.Iri
/-!
# Lemmas about the expansion of values
-/

namespace JsonLd
open Spec

/-- An invariant of a loop. -/
theorem foldlM_inv {α σ ε : Type} {f : σ → α → Except ε σ} {P : σ → Prop} :
    ∀ {l : List α} {s s' : σ}, (∀ a ∈ l, ∀ s s', P s → f s a = .ok s' → P s') → P s →
      l.foldlM f s = .ok s' → P s' := by
  intro l
  induction l with
  | nil => intro s s' _ hp h; cases h; exact hp
  | cons a l ih =>
    intro s s' hs hp h
    rw [List.foldlM_cons] at h
    cases h1 : f s a with
    | error e => rw [h1] at h; cases h
    | ok s1 =>
      rw [h1] at h
      exact ih (fun b hb => hs b (by simp [hb])) (hs a (by simp) s s1 hp h1) h

theorem entriesFor_cons_eq {k : Keyword} {e : XEntry} {es : List XEntry} (h : e.term = .keyword k) :
    entriesFor k (e :: es) = e.value :: entriesFor k es := by
  simp [entriesFor, h]

theorem entriesFor_cons_ne {k : Keyword} {e : XEntry} {es : List XEntry} (h : e.term ≠ .keyword k) :
    entriesFor k (e :: es) = entriesFor k es := by
  simp [entriesFor, h]

/-- How the loop changes the language. -/
def LangRel (es : List XEntry) (a b : Option Str) : Prop :=
  (entriesFor .language es = [] ∧ b = a) ∨
  ∃ x, entriesFor .language es = [.str x] ∧ b = if x = "@none".toList then a else some x

/-- How the loop changes the index. -/
def IndexRel (es : List XEntry) (a b : Option Str) : Prop :=
  (entriesFor .index es = [] ∧ b = a) ∨ ∃ x, entriesFor .index es = [.str x] ∧ b = some x

/-- How the loop changes the direction. -/
def DirRel (es : List XEntry) (a b : Option Direction) : Prop :=
  (entriesFor .direction es = [] ∧ b = a) ∨
  ∃ x d, entriesFor .direction es = [.str x] ∧ Direction.tryFrom x = some d ∧ b = some d

/-- How the loop changes the type. -/
def TypeRel (env : IriEnv) (vocab : Action) (tsc : ACtx) (es : List XEntry) (a b : Bool × Option Str) :
    Prop :=
  (entriesFor .type es = [] ∧ b = a) ∨
  ∃ x, entriesFor .type es = [.str x] ∧
    ((expandIri env tsc (some (.ofStr x)) true (some vocab) = .ok (some (.keyword .json)) ∧
      b = (true, a.2)) ∨
    ∃ t, expandIri env tsc (some (.ofStr x)) true (some vocab) = .ok (some (.id (.iri t))) ∧
      b = (false, some t))

theorem valueType_ok {env : IriEnv} {vocab : Action} {tsc : ACtx} {s s' : ValueState} {v : Json} :
    valueType env vocab tsc s v = .ok s' ↔ ∃ x, v = .str x ∧
      ((expandIri env tsc (some (.ofStr x)) true (some vocab) = .ok (some (.keyword .json)) ∧
        s' = { s with isJson := true }) ∨
      ∃ t, expandIri env tsc (some (.ofStr x)) true (some vocab) = .ok (some (.id (.iri t))) ∧
        s' = { s with isJson := false, ty := some t }) := by
  constructor
  · intro h
    unfold valueType at h
    split at h
    · rename_i t
      refine ⟨t, rfl, ?_⟩
      split at h
      · cases h
      · rename_i he; cases h; exact .inl ⟨he, rfl⟩
      · rename_i i he; cases h; exact .inr ⟨i, he, rfl⟩
      · cases h
    · cases h
  · rintro ⟨x, rfl, ⟨h, rfl⟩ | ⟨t, h, rfl⟩⟩ <;> simp [valueType, h]

theorem valueLanguage_ok {s s' : ValueState} {v : Json} : valueLanguage s v = .ok s' ↔
    ∃ x, v = .str x ∧ s' = if x = "@none".toList then s else { s with language := some x } := by
  unfold valueLanguage
  split
  · rename_i l
    simp only [Except.ok.injEq, Json.str.injEq, exists_eq_left', eq_comm]
  · rename_i hne
    constructor
    · intro h; cases h
    · rintro ⟨x, rfl, _⟩; exact absurd rfl (hne x)

theorem valueDirection_ok {s s' : ValueState} {v : Json} : valueDirection s v = .ok s' ↔
    ∃ x d, v = .str x ∧ Direction.tryFrom x = some d ∧ s' = { s with direction := some d } := by
  unfold valueDirection
  split
  · rename_i l
    constructor
    · intro h
      split at h
      · rename_i d hd; cases h; exact ⟨l, d, rfl, hd, rfl⟩
      · cases h
    · rintro ⟨x, d, hx, hd, rfl⟩
      cases hx
      rw [hd]
  · rename_i hne
    constructor
    · intro h; cases h
    · rintro ⟨x, d, rfl, _⟩; exact absurd rfl (hne x)

theorem valueIndex_ok {s s' : ValueState} {v : Json} : valueIndex s v = .ok s' ↔
    ∃ x, v = .str x ∧ s' = { s with index := some x } := by
  unfold valueIndex
  split
  · simp only [Except.ok.injEq, Json.str.injEq, exists_eq_left', eq_comm]
  · rename_i hne
    constructor
    · intro h; cases h
    · rintro ⟨x, rfl, _⟩; exact absurd rfl (hne x)

theorem foldlM_cons_ok {α σ ε : Type} {f : σ → α → Except ε σ} {a : α} {l : List α} {s s' : σ} :
    (a :: l).foldlM f s = .ok s' ↔ ∃ s1, f s a = .ok s1 ∧ l.foldlM f s1 = .ok s' := by
  rw [List.foldlM_cons]
  cases h : f s a with
  | error e => constructor
               · intro h'; cases h'
               · rintro ⟨_, h', _⟩; cases h'
  | ok s1 => constructor
             · intro h'; exact ⟨s1, rfl, h'⟩
             · rintro ⟨_, h', h2⟩; cases h'; exact h2

theorem once_tail {k : Keyword} {e : XEntry} {es : List XEntry} (h : e.term = .keyword k)
    (ho : (entriesFor k (e :: es)).length ≤ 1) : entriesFor k es = [] := by
  rw [entriesFor_cons_eq h] at ho
  simpa using ho

/-- The loop of `expand_value`. -/
theorem valueFold_ok {env : IriEnv} {vocab : Action} {tsc : ACtx} {es : List XEntry} :
    ∀ {s s' : ValueState}, (∀ k, (entriesFor k es).length ≤ 1) →
    (es.foldlM (valueStep env vocab tsc) s = .ok s' ↔
      (∀ e ∈ es, ∃ k ∈ valueKeywords, e.term = .keyword k) ∧ LangRel es s.language s'.language ∧
      DirRel es s.direction s'.direction ∧ IndexRel es s.index s'.index ∧
      TypeRel env vocab tsc es (s.isJson, s.ty) (s'.isJson, s'.ty)) := by
  induction es with
  | nil =>
    intro s s' _
    show (Except.ok s = .ok s') ↔ _
    simp only [LangRel, DirRel, IndexRel, TypeRel, entriesFor, List.filter_nil, List.map_nil,
      List.not_mem_nil, false_imp_iff, implies_true, true_and, List.nil_eq, reduceCtorEq, false_and,
      exists_false, or_false, Except.ok.injEq, Prod.mk.injEq]
    cases s; cases s'
    simp only [ValueState.mk.injEq]
    constructor
    · rintro ⟨rfl, rfl, rfl, rfl, rfl⟩; simp
    · rintro ⟨rfl, rfl, rfl, rfl, rfl⟩; simp
  | cons e es ih =>
    intro s s' ho
    have ho' : ∀ k, (entriesFor k es).length ≤ 1 := by
      intro k
      refine Nat.le_trans ?_ (ho k)
      by_cases h : e.term = .keyword k
      · rw [entriesFor_cons_eq h]; simp
      · rw [entriesFor_cons_ne h]; exact Nat.le_refl _
    rw [foldlM_cons_ok]
    have hall : (∀ e' ∈ e :: es, ∃ k ∈ valueKeywords, e'.term = .keyword k) ↔
        (∃ k ∈ valueKeywords, e.term = .keyword k) ∧
        ∀ e' ∈ es, ∃ k ∈ valueKeywords, e'.term = .keyword k := by simp
    rw [hall]
    simp only [ih ho']
    unfold valueStep
    split
    · rename_i ht
      have hn := once_tail ht (ho .language)
      have h1 : ∃ k ∈ valueKeywords, e.term = .keyword k := ⟨.language, by decide, ht⟩
      simp only [LangRel, DirRel, IndexRel, TypeRel, entriesFor_cons_eq ht, hn, valueLanguage_ok,
        entriesFor_cons_ne (k := .direction) (by rw [ht]; decide),
        entriesFor_cons_ne (k := .index) (by rw [ht]; decide),
        entriesFor_cons_ne (k := .type) (by rw [ht]; decide), h1, true_and, reduceCtorEq, false_and,
        exists_false, or_false, false_or, List.cons.injEq, and_true]
      constructor
      · rintro ⟨s1, ⟨x, hx, rfl⟩, ha, hl, hd, hi, hty⟩
        refine ⟨ha, ⟨x, hx, ?_⟩, ?_, ?_, ?_⟩
        · rw [hl]; split <;> rfl
        · split at hd <;> exact hd
        · split at hi <;> exact hi
        · split at hty <;> exact hty
      · rintro ⟨ha, ⟨x, hx, hl⟩, hd, hi, hty⟩
        refine ⟨_, ⟨x, hx, rfl⟩, ha, ?_, ?_, ?_, ?_⟩
        · rw [hl]; split <;> rfl
        · split <;> exact hd
        · split <;> exact hi
        · split <;> exact hty
    · rename_i ht
      have hn := once_tail ht (ho .direction)
      have h1 : ∃ k ∈ valueKeywords, e.term = .keyword k := ⟨.direction, by decide, ht⟩
      simp only [LangRel, DirRel, IndexRel, TypeRel, entriesFor_cons_eq ht, hn, valueDirection_ok,
        entriesFor_cons_ne (k := .language) (by rw [ht]; decide),
        entriesFor_cons_ne (k := .index) (by rw [ht]; decide),
        entriesFor_cons_ne (k := .type) (by rw [ht]; decide), h1, true_and, reduceCtorEq, false_and,
        exists_false, or_false, false_or, List.cons.injEq, and_true]
      constructor
      · rintro ⟨s1, ⟨x, d, hx, hd', rfl⟩, ha, hl, hd, hi, hty⟩
        exact ⟨ha, hl, ⟨x, d, hx, hd', hd⟩, hi, hty⟩
      · rintro ⟨ha, hl, ⟨x, d, hx, hd', hd⟩, hi, hty⟩
        exact ⟨_, ⟨x, d, hx, hd', rfl⟩, ha, hl, hd, hi, hty⟩
    · rename_i ht
      have hn := once_tail ht (ho .index)
      have h1 : ∃ k ∈ valueKeywords, e.term = .keyword k := ⟨.index, by decide, ht⟩
      simp only [LangRel, DirRel, IndexRel, TypeRel, entriesFor_cons_eq ht, hn, valueIndex_ok,
        entriesFor_cons_ne (k := .language) (by rw [ht]; decide),
        entriesFor_cons_ne (k := .direction) (by rw [ht]; decide),
        entriesFor_cons_ne (k := .type) (by rw [ht]; decide), h1, true_and, reduceCtorEq, false_and,
        exists_false, or_false, false_or, List.cons.injEq, and_true]
      constructor
      · rintro ⟨s1, ⟨x, hx, rfl⟩, ha, hl, hd, hi, hty⟩
        exact ⟨ha, hl, hd, ⟨x, hx, hi⟩, hty⟩
      · rintro ⟨ha, hl, hd, ⟨x, hx, hi⟩, hty⟩
        exact ⟨_, ⟨x, hx, rfl⟩, ha, hl, hd, hi, hty⟩
    · rename_i ht
      have hn := once_tail ht (ho .type)
      have h1 : ∃ k ∈ valueKeywords, e.term = .keyword k := ⟨.type, by decide, ht⟩
      simp only [LangRel, DirRel, IndexRel, TypeRel, entriesFor_cons_eq ht, hn, valueType_ok,
        entriesFor_cons_ne (k := .language) (by rw [ht]; decide),
        entriesFor_cons_ne (k := .direction) (by rw [ht]; decide),
        entriesFor_cons_ne (k := .index) (by rw [ht]; decide), h1, true_and, reduceCtorEq, false_and,
        exists_false, or_false, false_or, List.cons.injEq, and_true]
      constructor
      · rintro ⟨s1, ⟨x, hx, ⟨he, rfl⟩ | ⟨t, he, rfl⟩⟩, ha, hl, hd, hi, hty⟩
        · exact ⟨ha, hl, hd, hi, x, hx, .inl ⟨he, hty⟩⟩
        · exact ⟨ha, hl, hd, hi, x, hx, .inr ⟨t, he, hty⟩⟩
      · rintro ⟨ha, hl, hd, hi, x, hx, ⟨he, hty⟩ | ⟨t, he, hty⟩⟩
        · exact ⟨_, ⟨x, hx, .inl ⟨he, rfl⟩⟩, ha, hl, hd, hi, hty⟩
        · exact ⟨_, ⟨x, hx, .inr ⟨t, he, rfl⟩⟩, ha, hl, hd, hi, hty⟩
    · rename_i ht
      have h1 : ∃ k ∈ valueKeywords, e.term = .keyword k := ⟨.value, by decide, ht⟩
      simp only [LangRel, DirRel, IndexRel, TypeRel,
        entriesFor_cons_ne (k := .language) (by rw [ht]; decide),
        entriesFor_cons_ne (k := .direction) (by rw [ht]; decide),
        entriesFor_cons_ne (k := .type) (by rw [ht]; decide),
        entriesFor_cons_ne (k := .index) (by rw [ht]; decide), h1, true_and, Except.ok.injEq,
        exists_eq_left']
    · rename_i h1 h2 h3 h4 h5
      constructor
      · rintro ⟨_, h, _⟩; cases h
      · rintro ⟨⟨⟨k, hk, he⟩, _⟩, _⟩
        simp only [valueKeywords, List.mem_cons, List.not_mem_nil, or_false] at hk
        rcases hk with rfl | rfl | rfl | rfl | rfl <;> contradiction

end JsonLd
