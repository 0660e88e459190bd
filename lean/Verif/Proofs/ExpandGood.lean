import Verif.Proofs.ExpandValue
import Verif.Props.ExpandValue
/-!
# The identifiers and values expansion produces are well formed
-/

namespace JsonLd
open Spec Props

variable {env : IriEnv}

theorem notBlank_of_iri (f : EnvFacts env) {s : Str} (h : env.isIri s = true) :
    env.isBlank s = false := by
  rw [← Bool.not_eq_true]
  intro hb
  obtain ⟨x, rfl⟩ := f.blank s hb
  obtain ⟨p, y, hs, hc, h0, _, h1⟩ := f.scheme _ h
  cases p with
  | nil => exact h0 rfl
  | cons a p =>
    cases p with
    | nil =>
      rw [List.cons_append, List.nil_append, List.cons.injEq] at hs
      exact h1 (by rw [← hs.1])
    | cons b p =>
      simp only [List.cons_append, List.cons.injEq] at hs
      exact hc (by simp [← hs.2.1])

theorem goodId_classify (s : Str) : GoodId env (Id.classify env s) := by
  unfold Id.classify
  split
  · assumption
  · rename_i h
    rw [Bool.not_eq_true] at h
    split
    · exact ⟨h, by assumption⟩
    · rename_i h'
      rw [Bool.not_eq_true] at h'
      exact ⟨h, h'⟩

theorem goodId_noColon (f : EnvFacts env) {s : Str}
    (h : HasColon s → env.isIri s = false ∧ env.isBlank s = false) : GoodId env (.invalid s) := by
  by_cases hc : HasColon s
  · exact h hc
  · constructor
    · rw [← Bool.not_eq_true]
      intro hi
      obtain ⟨p, x, hs, h1, h2, _⟩ := f.scheme s hi
      exact hc ⟨p, x, hs, h1, h2⟩
    · rw [← Bool.not_eq_true]
      intro hi
      obtain ⟨x, rfl⟩ := f.blank s hi
      exact hc ⟨['_'], x, rfl, by decide, by decide⟩

theorem goodId_keyword (f : EnvFacts env) (k : Keyword) : GoodId env (.invalid k.intoStr) := by
  refine goodId_noColon f fun hc => ?_
  obtain ⟨p, x, hs, h1, h2⟩ := hc
  exfalso
  have : ':' ∉ k.intoStr := by cases k <;> decide
  exact this (by rw [hs]; simp)

theorem expandStr_good (f : EnvFacts env) {c : ACtx} (hc : GoodCtx env c) {s : Str} {docRel : Bool}
    {voc : Option Action} {i : Id}
    (h : expandStr env c s docRel voc = .ok (some (.id i))) : GoodId env i := by
  rcases hc with ⟨_, hid, _, _⟩
  have h := C33_sound env c s docRel voc _ h
  generalize ht : CTerm.id i = t at h
  have rel : Relative env c s → GoodId env (.invalid s) := fun hr =>
    goodId_noColon f fun hco => ⟨(hr hco).2.2.1, (hr hco).1⟩
  cases h with
  | keywordLike => cases ht
  | term d h1 h2 =>
    cases hv : d.value with
    | none => rw [hv] at ht; cases ht
    | some v => rw [hv] at ht; exact hid s d i h2.1 (by rw [hv, ht]; rfl)
  | blank h1 h2 h3 =>
    cases ht
    refine ⟨?_, h3⟩
    rw [← Bool.not_eq_true]
    intro hi
    rw [notBlank_of_iri f hi] at h3
    cases h3
  | emptyBlank h1 h2 h3 =>
    cases ht
    refine ⟨?_, h2⟩
    rw [← Bool.not_eq_true]
    intro hi
    obtain ⟨p, x, hs, hc, h0, _, hne⟩ := f.scheme _ hi
    subst h3
    cases p with
    | nil => exact h0 rfl
    | cons a p =>
      cases p with
      | nil => simp only [List.cons_append, List.nil_append, List.cons.injEq] at hs; exact hne (by rw [← hs.1])
      | cons b p =>
        simp only [List.cons_append, List.cons.injEq] at hs
        exact hc (by simp [← hs.2.1])
  | compact p x m h1 h2 h3 h4 => cases ht; exact goodId_classify _
  | absolute h1 h2 h3 h4 h5 h6 => cases ht; exact h6
  | vocab j h1 h2 h3 h4 => cases ht; exact goodId_classify _
  | oddVocab t h1 h2 h3 h4 h5 => cases ht; exact rel h2
  | base b h1 h2 h3 h4 h5 h6 => cases ht; exact f.resolve _ _
  | noBase h1 h2 h3 h4 h5 h6 h7 => cases ht; exact h7
  | unknown h1 h2 h3 h4 => cases ht; exact rel h2

theorem expandIri_good (f : EnvFacts env) {c : ACtx} (hc : GoodCtx env c) {s : Str} {docRel : Bool}
    {voc : Option Action} {i : Id}
    (h : expandIri env c (some (.ofStr s)) docRel voc = .ok (some (.id i))) : GoodId env i := by
  unfold Expandable.ofStr at h
  split at h
  · cases h
  · exact expandStr_good f hc h

theorem nodeId_good (f : EnvFacts env) {c : ACtx} (hc : GoodCtx env c) {s : Str} {docRel : Bool}
    {voc : Option Action} {t : CTerm} {i : Id}
    (h : expandIri env c (some (.ofStr s)) docRel voc = .ok (some t)) (hi : nodeIdOfTerm t = some i) :
    GoodId env i := by
  cases t with
  | null => cases hi
  | id j => cases hi; exact expandIri_good f hc h
  | keyword k => cases hi; exact goodId_keyword f k

/-- A value a value object may stand for. -/
def ValueGood (env : IriEnv) (o : Obj) : Prop := ∃ i v, o = .value i v ∧ GoodValue env v

theorem valueResult_good {s : ValueState} (hs : ∀ t, s.ty = some t → env.isIri t = true) {v : Json}
    {o : Obj} (h : valueResult s v = .ok (some o)) : ValueGood env o := by
  unfold valueResult at h
  split at h
  · split at h
    · cases h
    · cases h; exact ⟨_, _, rfl, trivial⟩
  · split at h
    · cases h
    · cases h
    · rename_i l hn hl
      split at h
      · rename_i hld
        unfold langValue at h
        split at h
        · cases h
        · split at h
          · simp only [LangString.new, hld, if_true] at h
            cases h
            exact ⟨_, _, rfl, by simpa [GoodValue, Option.isSome_iff_ne_none] using hld⟩
          · cases h
      · cases h
        exact ⟨_, _, rfl, hn, hs⟩

theorem valueStep_good (f : EnvFacts env) {vocab : Action} {tsc : ACtx} (hc : GoodCtx env tsc)
    {s s' : ValueState} {e : XEntry} (hs : ∀ t, s.ty = some t → env.isIri t = true)
    (h : valueStep env vocab tsc s e = .ok s') : ∀ t, s'.ty = some t → env.isIri t = true := by
  unfold valueStep at h
  split at h
  · unfold valueLanguage at h
    split at h
    · cases h; split <;> exact hs
    · cases h
  · unfold valueDirection at h
    split at h
    · split at h
      · cases h; exact hs
      · cases h
    · cases h
  · unfold valueIndex at h
    split at h
    · cases h; exact hs
    · cases h
  · unfold valueType at h
    split at h
    · split at h
      · cases h
      · cases h; exact hs
      · rename_i i hi
        cases h
        intro t ht
        cases ht
        exact expandIri_good f hc hi
      · cases h
    · cases h
  · cases h; exact hs
  · cases h

theorem expandValue_good (f : EnvFacts env) {vocab : Action} {it : Option CTerm} {tsc : ACtx}
    (hc : GoodCtx env tsc) {es : List XEntry} {v : Json} {o : Obj}
    (h : expandValue env vocab it tsc es v = .ok (some o)) : ValueGood env o := by
  unfold expandValue at h
  split at h
  · cases h
  · rename_i s hs
    refine valueResult_good ?_ h
    exact foldlM_inv (P := fun s : ValueState => ∀ t, s.ty = some t → env.isIri t = true)
      (fun a _ s s' hp h => valueStep_good f hc hp h) (by simp) hs

/-- What a scalar may stand for: a value, or a node with only an identifier. -/
def LiteralGood (env : IriEnv) (o : Obj) : Prop :=
  ValueGood env o ∨ ∃ i, o = idOnly i ∧ ∀ j, i = some j → GoodId env j

theorem goodCtx_typ {c : ACtx} (hc : GoodCtx env c) {k : Str} {d : TermDef} (h : c.get k = some d)
    {t : Str} (ht : d.typ = some (.iri t)) : env.isIri t = true := by
  rcases hc with ⟨_, _, hty, _⟩
  unfold ACtx.get at h
  split at h
  · cases hd : c.typeDef with
    | none => rw [hd] at h; cases h
    | some p => rw [hd] at h; cases h; cases ht
  · exact hty k d t h ht

theorem expandLiteral_good (f : EnvFacts env) {vocab : Action} {c : ACtx} (hc : GoodCtx env c)
    {prop : Option Str} {l : Literal} (hl : l ≠ .null) {o : Obj}
    (h : expandLiteral env vocab c prop l = .ok o) : LiteralGood env o := by
  have ids : ∀ {s voc t i}, expandIri env c (some (.ofStr s)) true voc = .ok (some t) → TermId t i →
      ∀ j, i = some j → GoodId env j := by
    intro s voc t i he hi j hj
    subst hj
    cases hi with
    | id i => exact expandIri_good f hc he
    | keyword k => exact goodId_keyword f k
  have h := (C40_scalar env vocab c prop l o).1 h
  cases h with
  | id s t i ht he hi => exact .inr ⟨i, rfl, ids he hi⟩
  | vocab s t i ht he hi => exact .inr ⟨i, rfl, ids he hi⟩
  | vocabDropped s ht he => exact .inr ⟨none, rfl, nofun⟩
  | typed l t ht =>
    refine .inl ⟨_, _, rfl, hl, ?_⟩
    intro t' ht'
    cases ht'
    rcases ht with ⟨_, h⟩ | ⟨d, hd, ht⟩
    · cases h
    · cases prop with
      | none => cases hd
      | some k => exact goodCtx_typ hc hd ht
  | plain l ty ht hm hs => exact .inl ⟨_, _, rfl, hl, nofun⟩
  | string s ty ht hm h1 h2 => exact .inl ⟨_, _, rfl, hl, nofun⟩
  | langString s ty la r ht hm h1 h2 hld => exact .inl ⟨_, _, rfl, hld⟩

theorem expandLiteral_no_panic {vocab : Action} {c : ACtx} {prop : Option Str} {l : Literal} :
    expandLiteral env vocab c prop l ≠ .error .panic := by
  intro h
  unfold expandLiteral at h
  dsimp only at h
  split at h
  · rename_i s _
    obtain ⟨t, ht⟩ := C32_total env c (some (.ofStr s)) true none (.inr (.inl rfl))
    rw [ht] at h
    cases h
  · split at h <;> cases h
  · cases h
  · cases h
  · cases h

end JsonLd
