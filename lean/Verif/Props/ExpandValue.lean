import Verif.Proofs.ExpandValue
/-!
# C40: expanded values
-/

namespace JsonLd.Props
open JsonLd.Spec

private theorem tryFrom_asStr {x : Str} {d : Direction} : Direction.tryFrom x = some d ↔ x = d.asStr := by
  constructor
  · intro h
    unfold Direction.tryFrom at h
    split at h
    · cases h; assumption
    · split at h
      · cases h; assumption
      · cases h
  · rintro rfl
    cases d <;> decide

private theorem relLang {es : List XEntry} {b : Option Str} : LangRel es none b ↔ languageOf es b := by
  unfold LangRel languageOf textEntry
  generalize "@none".toList = N
  constructor
  · rintro (⟨h1, h2⟩ | ⟨x, h1, h2⟩)
    · exact ⟨none, .inl ⟨h1, rfl⟩, by simp [h2]⟩
    · refine ⟨some x, .inr ⟨x, h1, rfl⟩, ?_⟩
      rw [h2]
      by_cases hx : x = N <;> simp [hx]
  · rintro ⟨s, ⟨h1, rfl⟩ | ⟨x, h1, rfl⟩, h2⟩
    · exact .inl ⟨h1, by simpa using h2⟩
    · refine .inr ⟨x, h1, ?_⟩
      rw [h2]
      by_cases hx : x = N <;> simp [hx]

private theorem relDir {es : List XEntry} {b : Option Direction} :
    DirRel es none b ↔ directionOf es b := by
  unfold DirRel directionOf
  constructor
  · rintro (⟨h1, h2⟩ | ⟨x, d, h1, h2, h3⟩)
    · exact .inl ⟨h1, h2⟩
    · exact .inr ⟨d, h3, by rw [h1, tryFrom_asStr.1 h2]⟩
  · rintro (⟨h1, h2⟩ | ⟨d, h1, h2⟩)
    · exact .inl ⟨h1, h2⟩
    · exact .inr ⟨_, d, h2, tryFrom_asStr.2 rfl, h1⟩

private def vtPair : VType → Bool × Option Str
  | .none => (false, none)
  | .json => (true, none)
  | .iri t => (false, some t)

private theorem relType {env : IriEnv} {vocab : Action} {it : Option CTerm} {tsc : ACtx}
    {es : List XEntry} {b : Bool × Option Str} :
    TypeRel env vocab tsc es (decide (it = some (.keyword .json)), none) b ↔
      ∃ t, typeOf env vocab it tsc es t ∧
        b = vtPair t := by
  unfold TypeRel
  constructor
  · rintro (⟨h1, rfl⟩ | ⟨x, h1, ⟨h2, rfl⟩ | ⟨t, h2, rfl⟩⟩)
    · by_cases h : it = some (.keyword .json)
      · exact ⟨.json, .inl ⟨h1, h⟩, by simp [h, vtPair]⟩
      · exact ⟨.none, ⟨h1, h⟩, by simp [h, vtPair]⟩
    · exact ⟨.json, .inr ⟨x, h1, h2⟩, rfl⟩
    · exact ⟨.iri t, ⟨x, h1, h2⟩, rfl⟩
  · rintro ⟨t, ht, rfl⟩
    cases t with
    | none => exact .inl ⟨ht.1, by simp [ht.2, vtPair]⟩
    | json =>
      rcases ht with ⟨h1, h2⟩ | ⟨x, h1, h2⟩
      · exact .inl ⟨h1, by simp [h2, vtPair]⟩
      · exact .inr ⟨x, h1, .inl ⟨h2, rfl⟩⟩
    | iri t =>
      obtain ⟨x, h1, h2⟩ := ht
      exact .inr ⟨x, h1, .inr ⟨t, h2, rfl⟩⟩

private theorem result_means {s : ValueState} {v : Json} {t : VType} {r : Option Obj}
    (h : (s.isJson, s.ty) =
      vtPair t) :
    valueResult s v = .ok r ↔ ValueMeans v s.index t s.language s.direction r := by
  obtain ⟨j, ty, i, l, d⟩ := s
  have hsc : ∀ x, scalar v = some x → scalarOf v = .ok x ∧ x ≠ .null := by
    intro x hx; cases v <;> simp [scalar] at hx <;> subst hx <;> simp [scalarOf]
  have hsc' : ∀ x, scalarOf v = .ok x → x ≠ .null → scalar v = some x := by
    intro x hx hn
    cases v <;> simp [scalarOf] at hx <;> subst hx <;> simp [scalar] at hn ⊢
  have hnull : scalarOf v = .ok .null ↔ v = .null := by cases v <;> simp [scalarOf]
  cases t with
  | json =>
    simp only [vtPair, Prod.mk.injEq] at h
    obtain ⟨rfl, rfl⟩ := h
    simp only [valueResult, if_true]
    constructor
    · intro h
      split at h
      · cases h
      · rename_i hld
        simp only [Bool.or_eq_true, not_or, Bool.not_eq_true, Option.isSome_eq_false_iff, Option.isNone_iff_eq_none] at hld
        obtain ⟨rfl, rfl⟩ := hld
        cases h
        exact .json
    · intro h
      cases h with
      | json => rfl
      | null t l d h => rcases h with h | ⟨x, h⟩ <;> cases h
  | none =>
    simp only [vtPair, Prod.mk.injEq] at h
    obtain ⟨rfl, rfl⟩ := h
    simp only [valueResult, Bool.false_eq_true, if_false]
    constructor
    · intro h
      split at h
      · cases h
      · rename_i hs; cases h; exact .null _ _ _ (.inl rfl) (hnull.1 hs)
      · rename_i x hn hs
        split at h
        · rename_i hld
          simp only [langValue, Option.isSome_none, Bool.false_eq_true, if_false] at h
          have hx : ∃ s, x = .str s := by
            cases x <;> first | exact ⟨_, rfl⟩ | cases h
          obtain ⟨s, rfl⟩ := hx
          have hv : v = .str s := by cases v <;> simp [scalarOf] at hs; rw [hs]
          have hld' : l ≠ none ∨ d ≠ none := by
            simpa [Option.isSome_iff_ne_none] using hld
          simp only [LangString.new, hld, if_true, Except.ok.injEq] at h
          rw [← h]
          exact .string s l d hv hld'
        · rename_i hld
          simp only [Bool.or_eq_true, not_or, Bool.not_eq_true, Option.isSome_eq_false_iff, Option.isNone_iff_eq_none] at hld
          obtain ⟨rfl, rfl⟩ := hld
          cases h
          exact .plain x (hsc' x hs hn)
    · intro h
      cases h with
      | null t l d h hv => rw [hnull.2 hv]
      | plain x hx =>
        obtain ⟨h1, h2⟩ := hsc x hx
        rw [h1]
        cases x <;> simp at h2 ⊢
      | string s l d hv hld =>
        subst hv
        have : (l.isSome || d.isSome) = true := by
          simpa [Option.isSome_iff_ne_none] using hld
        simp [scalarOf, langValue, LangString.new, this]
  | iri t =>
    simp only [vtPair, Prod.mk.injEq] at h
    obtain ⟨rfl, rfl⟩ := h
    simp only [valueResult, Bool.false_eq_true, if_false]
    constructor
    · intro h
      split at h
      · cases h
      · rename_i hs; cases h; exact .null _ _ _ (.inr ⟨t, rfl⟩) (hnull.1 hs)
      · rename_i x hn hs
        split at h
        · simp [langValue] at h
        · rename_i hld
          simp only [Bool.or_eq_true, not_or, Bool.not_eq_true, Option.isSome_eq_false_iff, Option.isNone_iff_eq_none] at hld
          obtain ⟨rfl, rfl⟩ := hld
          cases h
          exact .typed t x (hsc' x hs hn)
    · intro h
      cases h with
      | null t l d h hv => rw [hnull.2 hv]
      | typed t x hx =>
        obtain ⟨h1, h2⟩ := hsc x hx
        rw [h1]
        cases x <;> simp at h2 ⊢

/-- C40: a value object with at most one entry for each keyword is expanded exactly according to its
entries: nothing but `@value`, `@type`, `@language`, `@direction` and `@index` is accepted; language
and direction only on strings and not together with a type; `null` stands for nothing. -/
theorem C40_value_object (env : IriEnv) (vocab : Action) (expected : Option CTerm) (tsc : ACtx)
    (es : List XEntry) (v : Json) (r : Option Obj) (ho : ∀ k, (entriesFor k es).length ≤ 1) :
    expandValue env vocab expected tsc es v = .ok r ↔
      ValueObject es ∧ ∃ i t l d, textEntry .index es i ∧ typeOf env vocab expected tsc es t ∧
        languageOf es l ∧ directionOf es d ∧ ValueMeans v i t l d r := by
  unfold expandValue
  constructor
  · intro h
    split at h
    · cases h
    · rename_i s hs
      obtain ⟨hk, hl, hd, hi, hty⟩ := (valueFold_ok ho).1 hs
      obtain ⟨t, ht, hb⟩ := relType.1 hty
      exact ⟨⟨hk, ho⟩, s.index, t, s.language, s.direction, hi, ht, relLang.1 hl, relDir.1 hd,
        (result_means hb).1 h⟩
  · rintro ⟨⟨hk, _⟩, i, t, l, d, hi, ht, hl, hd, hm⟩
    obtain ⟨b, hb⟩ : ∃ b : Bool × Option Str, b = vtPair t := ⟨_, rfl⟩
    have hs := (valueFold_ok (env := env) (vocab := vocab) (tsc := tsc)
      (s := { isJson := decide (expected = some (.keyword .json)) })
      (s' := ⟨b.1, b.2, i, l, d⟩) ho).2 ⟨hk, relLang.2 hl, relDir.2 hd, hi, relType.2 ⟨t, ht, hb⟩⟩
    rw [hs]
    exact (result_means hb).2 hm

private theorem langFor {c : ACtx} {d : Option TermDef} : LanguageFor c d (literalLanguage c d) := by
  unfold LanguageFor literalLanguage
  cases d with
  | none => simp
  | some t =>
    cases ht : t.language with
    | none => simp [ht]
    | some l => simp [ht]

private theorem langFor_unique {c : ACtx} {d : Option TermDef} {l : Option Str}
    (h : LanguageFor c d l) : literalLanguage c d = l := by
  unfold literalLanguage
  rcases h with ⟨t, rfl, h⟩ | ⟨h, rfl⟩
  · simp [h]
  · cases d with
    | none => rfl
    | some t => simp [h t rfl]

private theorem dirFor {c : ACtx} {d : Option TermDef} : DirectionFor c d (literalDirection c d) := by
  unfold DirectionFor literalDirection
  cases d with
  | none => simp
  | some t =>
    cases ht : t.direction with
    | none => simp [ht]
    | some l => simp [ht]

private theorem dirFor_unique {c : ACtx} {d : Option TermDef} {l : Option Direction}
    (h : DirectionFor c d l) : literalDirection c d = l := by
  unfold literalDirection
  rcases h with ⟨t, rfl, h⟩ | ⟨h, rfl⟩
  · simp [h]
  · cases d with
    | none => rfl
    | some t => simp [h t rfl]

private theorem typeFor_iff {d : Option TermDef} {t : Option TypeMap} :
    TypeFor d t ↔ d.bind (·.typ) = t := by
  cases d <;> simp [TypeFor, eq_comm]

private theorem termId (t : CTerm) : TermId t (nodeIdOfTerm t) := by
  cases t
  · exact .null
  · exact .id _
  · exact .keyword _

private theorem termId_unique {t : CTerm} {i : Option Id} (h : TermId t i) : nodeIdOfTerm t = i := by
  cases h <;> rfl

private theorem string_means {env : IriEnv} {vocab : Action} {c : ACtx} {d : Option TermDef}
    {ty : Option TypeMap} (ht : TypeFor d ty) (hm : ty ∈ [none, some .none]) (s : Str) :
    ScalarMeans env vocab c d (.str s) (untypedString c d s) := by
  unfold untypedString
  by_cases hld : ((literalLanguage c d).isSome || (literalDirection c d).isSome) = true
  · simp only [LangString.new, hld, if_true]
    exact .langString s ty _ _ ht hm langFor dirFor (by simpa [Option.isSome_iff_ne_none] using hld)
  · simp only [LangString.new, hld]
    simp only [Bool.or_eq_true, not_or, Bool.not_eq_true, Option.isSome_eq_false_iff, Option.isNone_iff_eq_none] at hld
    exact .string s ty ht hm (hld.1 ▸ langFor) (hld.2 ▸ dirFor)

/-- C40: a scalar is expanded exactly as the definition of its property says. -/
theorem C40_scalar (env : IriEnv) (vocab : Action) (c : ACtx) (prop : Option Str) (l : Literal) (o : Obj) :
    expandLiteral env vocab c prop l = .ok o ↔ ScalarMeans env vocab c (prop.bind c.get) l o := by
  have key : ∀ d : Option TermDef, (match d.bind (·.typ), l with
      | some .id, .str s =>
        match expandIri env c (some (.ofStr s)) true none with
        | .ok (some t) => (.ok (idNode (nodeIdOfTerm t)) : Except LitErr Obj)
        | _ => .error .panic
      | some .vocab, .str s =>
        match expandIri env c (some (.ofStr s)) true (some vocab) with
        | .error _ => .error .forbiddenVocab
        | .ok t => .ok (idNode (t.bind nodeIdOfTerm))
      | some .json, _ => .error .invalidTypeValue
      | some (.iri t), l => .ok (.value none (.literal l (some t)))
      | _, l => .ok (untypedLiteral c d l)) = .ok o ↔ ScalarMeans env vocab c d l o := by
    intro d
    constructor
    · intro h
      split at h
      · rename_i s ht
        split at h
        · rename_i t he; cases h; exact .id s t _ (typeFor_iff.2 ht) he (termId t)
        · cases h
      · rename_i s ht
        split at h
        · cases h
        · rename_i t he
          cases h
          cases t with
          | none => exact .vocabDropped s (typeFor_iff.2 ht) he
          | some t => exact .vocab s t _ (typeFor_iff.2 ht) he (termId t)
      · cases h
      · rename_i t ht; cases h; exact .typed _ t (typeFor_iff.2 ht)
      · rename_i l' _ _ hj hiri hid hvo
        cases h
        cases l' with
        | str s =>
          refine string_means (ty := d.bind (·.typ)) (typeFor_iff.2 rfl) ?_ s
          cases ht : d.bind (·.typ) with
          | none => simp
          | some t =>
            cases t with
            | id => exact (hid s ht rfl).elim
            | json => exact (hj ht).elim
            | none => simp
            | vocab => exact (hvo s ht rfl).elim
            | iri t => exact (hiri t ht).elim
        | _ =>
          refine .plain _ (d.bind (·.typ)) (typeFor_iff.2 rfl) ?_ nofun
          cases ht : d.bind (·.typ) with
          | none => simp
          | some t =>
            cases t with
            | id => simp
            | json => exact (hj ht).elim
            | none => simp
            | vocab => simp
            | iri t => exact (hiri t ht).elim
    · intro h
      cases h with
      | id s t i ht he hi => rw [typeFor_iff.1 ht]; simp only [he, termId_unique hi]; rfl
      | vocab s t i ht he hi =>
        rw [typeFor_iff.1 ht]; simp only [he, Option.bind_some, termId_unique hi]; rfl
      | vocabDropped s ht he => rw [typeFor_iff.1 ht]; simp only [he, Option.bind_none]; rfl
      | typed l t ht => rw [typeFor_iff.1 ht]
      | plain l ty ht hm hs =>
        rw [typeFor_iff.1 ht]
        simp only [List.mem_cons, List.not_mem_nil, or_false] at hm
        cases l with
        | str s => exact absurd rfl (hs s)
        | _ => rcases hm with rfl | rfl | rfl | rfl <;> rfl
      | string s ty ht hm hl hd =>
        rw [typeFor_iff.1 ht]
        have : untypedLiteral c d (.str s) = .value none (.literal (.str s) none) := by
          simp [untypedLiteral, untypedString, langFor_unique hl, dirFor_unique hd, LangString.new]
        simp only [List.mem_cons, List.not_mem_nil, or_false] at hm
        rcases hm with rfl | rfl <;> simp [this]
      | langString s ty la r ht hm hl hd hld =>
        rw [typeFor_iff.1 ht]
        have hld' : (la.isSome || r.isSome) = true := by simpa [Option.isSome_iff_ne_none] using hld
        have : untypedLiteral c d (.str s) = .value none (.langString ⟨s, la, r⟩) := by
          simp [untypedLiteral, untypedString, langFor_unique hl, dirFor_unique hd, LangString.new, hld']
        simp only [List.mem_cons, List.not_mem_nil, or_false] at hm
        rcases hm with rfl | rfl <;> simp [this]
  exact key (prop.bind c.get)

end JsonLd.Props
