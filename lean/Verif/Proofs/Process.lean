import Verif.Model.Process
/-!
# What a successful run of context processing consists of
-/

namespace JsonLd

theorem bindOk {ε α β : Type} {x : Except ε α} {f : α → Except ε β} {b : β} :
    (x >>= f) = .ok b ↔ ∃ a, x = .ok a ∧ f a = .ok b := by
  cases x with
  | error e => simp [bind, Except.bind]
  | ok a => simp [bind, Except.bind]

section
variable {R : Rec} {E : ProcEnv}

/-- `s'` is reached from `s` by recursive calls of `define`, as made by `expand_iri_with`. -/
inductive Calls (R : Rec) (m : Merged) (rc : List Str) (o : Opts) : DState → DState → Prop
  | refl (s) : Calls R m rc o s s
  | step {s s1 s2} (x : Str) : Calls R m rc o s s1 →
      R.define s1 m (.key x) rc none false o.noOverride = .ok s2 → Calls R m rc o s s2

theorem Calls.trans {m : Merged} {rc : List Str} {o : Opts} {a b c : DState}
    (h : Calls R m rc o a b) (h' : Calls R m rc o b c) : Calls R m rc o a c := by
  induction h' with
  | refl => exact h
  | step x _ hd ih => exact .step x ih hd

theorem Calls.one {m : Merged} {rc : List Str} {o : Opts} {s s' : DState} {x : Str}
    (h : R.define s m (.key x) rc none false o.noOverride = .ok s') : Calls R m rc o s s' :=
  .step x (.refl s) h

theorem expandRest_ok {s : DState} {x : Str} {docRel : Bool} {voc : Option Action}
    {r : DState × Option CTerm} (h : expandRest E s x docRel voc = .ok r) :
    r.1 = s ∧ expandTail E.toIriEnv s.ctx x docRel voc = .ok r.2 := by
  unfold expandRest at h
  split at h
  · rename_i t ht
    cases h
    exact ⟨rfl, ht⟩
  · cases h

theorem expandAbs_ok {s : DState} {x : Str} {docRel : Bool} {voc : Option Action}
    {r : DState × Option CTerm} (h : expandAbs E s x docRel voc = .ok r) :
    r.1 = s ∧ ((E.isIri x = true ∧ r.2 = some (.id (.iri x))) ∨
      (E.isIri x = false ∧ expandTail E.toIriEnv s.ctx x docRel voc = .ok r.2)) := by
  unfold expandAbs at h
  split at h
  · rename_i hi
    cases h
    exact ⟨rfl, .inl ⟨hi, rfl⟩⟩
  · rename_i hi
    obtain ⟨h1, h2⟩ := expandRest_ok h
    exact ⟨h1, .inr ⟨by simpa using hi, h2⟩⟩

/-- The outcomes of `expand_iri_with` after the string itself was defined. -/
theorem expandAfter_ok {s : DState} {x : Str} {docRel : Bool} {voc : Option Action} {m : Merged}
    {rc : List Str} {o : Opts} {r : DState × Option CTerm}
    (h : expandAfter R E s x docRel voc m rc o = .ok r) :
    (r.1 = s ∧ ∃ t, expandTerm s.ctx x voc = some t ∧ r.2 = some t) ∨
    (expandTerm s.ctx x voc = none ∧
      ((r.1 = s ∧ colonInside x = true ∧ E.isBlank x = true ∧ r.2 = some (.id (.blank x))) ∨
       (r.1 = s ∧ E.isBlank x = false ∧ x = ['_', ':'] ∧ r.2 = some (.id (.invalid x))) ∨
       (r.1 = s ∧ (colonInside x = true → E.isBlank x = false ∧ x ≠ ['_', ':'] ∧
          compactIri E.toIriEnv x = none ∧ E.isIri x = false) ∧
          expandTail E.toIriEnv s.ctx x docRel voc = .ok r.2) ∨
       (r.1 = s ∧ colonInside x = true ∧ E.isBlank x = false ∧ x ≠ ['_', ':'] ∧
          compactIri E.toIriEnv x = none ∧ E.isIri x = true ∧ r.2 = some (.id (.iri x))) ∨
       (colonInside x = true ∧ E.isBlank x = false ∧ x ≠ ['_', ':'] ∧ ∃ p y,
          compactIri E.toIriEnv x = some (p, y) ∧
          R.define s m (.key p) rc none false o.noOverride = .ok r.1 ∧
          ((∃ t, expandPrefix E.toIriEnv r.1.ctx p y = some t ∧ r.2 = some t) ∨
           (expandPrefix E.toIriEnv r.1.ctx p y = none ∧
            ((E.isIri x = true ∧ r.2 = some (.id (.iri x))) ∨
             (E.isIri x = false ∧ expandTail E.toIriEnv r.1.ctx x docRel voc = .ok r.2))))))) := by
  unfold expandAfter at h
  split at h
  · rename_i t ht
    cases h
    exact .inl ⟨rfl, t, ht, rfl⟩
  · rename_i hn
    refine .inr ⟨hn, ?_⟩
    split at h
    · rename_i hc
      split at h
      · rename_i hb
        cases h
        exact .inl ⟨rfl, hc, hb, rfl⟩
      · rename_i hb
        rw [Bool.not_eq_true] at hb
        split at h
        · rename_i he
          cases h
          exact .inr (.inl ⟨rfl, hb, he, rfl⟩)
        · rename_i he
          unfold expandCompact at h
          split at h
          · rename_i hq
            obtain ⟨h1, h2 | h2⟩ := expandAbs_ok h
            · exact .inr (.inr (.inr (.inl ⟨h1, hc, hb, he, hq, h2.1, h2.2⟩)))
            · exact .inr (.inr (.inl ⟨h1, fun _ => ⟨hb, he, hq, h2.1⟩, h2.2⟩))
          · rename_i p y hq
            refine .inr (.inr (.inr (.inr ⟨hc, hb, he, p, y, hq, ?_⟩)))
            rw [bindOk] at h
            obtain ⟨s1, h1, h2⟩ := h
            split at h2
            · rename_i t ht
              cases h2
              exact ⟨h1, .inl ⟨t, ht, rfl⟩⟩
            · rename_i ht
              obtain ⟨h3, h4⟩ := expandAbs_ok h2
              rw [h3]
              exact ⟨h1, .inr ⟨ht, h4⟩⟩
    · rename_i hc
      obtain ⟨h1, h2⟩ := expandRest_ok h
      exact .inr (.inr (.inl ⟨h1, fun hc' => absurd hc' hc, h2⟩))

theorem expandAfter_calls {s : DState} {x : Str} {docRel : Bool} {voc : Option Action} {m : Merged}
    {rc : List Str} {o : Opts} {r : DState × Option CTerm}
    (h : expandAfter R E s x docRel voc m rc o = .ok r) : Calls R m rc o s r.1 := by
  rcases expandAfter_ok h with ⟨h, _⟩ | ⟨_, ⟨h, _⟩ | ⟨h, _⟩ | ⟨h, _⟩ | ⟨h, _⟩ | h⟩
  · rw [h]; exact .refl _
  · rw [h]; exact .refl _
  · rw [h]; exact .refl _
  · rw [h]; exact .refl _
  · rw [h]; exact .refl _
  · obtain ⟨_, _, _, p, y, _, h, _⟩ := h
    exact .one h

/-- The outcomes of `expand_iri_with`. -/
theorem expandWith_ok {s : DState} {v : Option Expandable} {docRel : Bool} {voc : Option Action}
    {m : Merged} {rc : List Str} {o : Opts} {r : DState × Option CTerm}
    (h : expandWith R E s v docRel voc m rc o = .ok r) :
    (r.1 = s ∧ ((v = none ∧ r.2 = some .null) ∨ (∃ k, v = some (.keyword k) ∧ r.2 = some (.keyword k)) ∨
      (∃ x, v = some (.string x) ∧ isKeywordLike x = true ∧ r.2 = some .null))) ∨
    (∃ x s1, v = some (.string x) ∧ isKeywordLike x = false ∧
      R.define s m (.key x) rc none false o.noOverride = .ok s1 ∧
      expandAfter R E s1 x docRel voc m rc o = .ok r) := by
  unfold expandWith at h
  split at h
  · cases h; exact .inl ⟨rfl, .inl ⟨rfl, rfl⟩⟩
  · cases h; exact .inl ⟨rfl, .inr (.inl ⟨_, rfl, rfl⟩)⟩
  · rename_i x
    split at h
    · rename_i hk
      cases h
      exact .inl ⟨rfl, .inr (.inr ⟨x, rfl, hk, rfl⟩)⟩
    · rename_i hk
      rw [bindOk] at h
      obtain ⟨s1, h1, h2⟩ := h
      exact .inr ⟨x, s1, rfl, by simpa using hk, h1, h2⟩

theorem expandWith_calls {s : DState} {v : Option Expandable} {docRel : Bool} {voc : Option Action}
    {m : Merged} {rc : List Str} {o : Opts} {r : DState × Option CTerm}
    (h : expandWith R E s v docRel voc m rc o = .ok r) : Calls R m rc o s r.1 := by
  rcases expandWith_ok h with ⟨h, _⟩ | ⟨x, s1, _, _, h1, h2⟩
  · rw [h]; exact .refl _
  · exact (Calls.one h1).trans (expandAfter_calls h2)

theorem stepType_ok {s : DState} {m : Merged} {x : SExp} {rc : List Str} {o : Opts} {d : TermDef}
    {r : DState × TermDef} (h : stepType R E s m x rc o d = .ok r) :
    (x.type = none ∧ r = (s, d)) ∨ (∃ t q, x.type = some t ∧
      expandWith R E s (t.map SType.expandable) false (some o.vocab) m rc o = .ok q ∧
      typeMapping o q.2 d = .ok r.2 ∧ r.1 = q.1) := by
  unfold stepType at h
  split at h
  · cases h; exact .inl ⟨by assumption, rfl⟩
  · rename_i t ht
    simp only [bindOk] at h
    obtain ⟨q, h1, d', h2, h3⟩ := h
    cases h3
    exact .inr ⟨t, q, ht, h1, h2, rfl⟩

theorem stepType_calls {s : DState} {m : Merged} {x : SExp} {rc : List Str} {o : Opts} {d : TermDef}
    {r : DState × TermDef} (h : stepType R E s m x rc o d = .ok r) : Calls R m rc o s r.1 := by
  rcases stepType_ok h with ⟨_, rfl⟩ | ⟨t, q, _, h1, _, h2⟩
  · exact .refl _
  · rw [h2]; exact expandWith_calls h1

theorem stepReverse_ok {s s' : DState} {m : Merged} {k : Str} {x : SExp} {v : Str} {rc : List Str}
    {o : Opts} {d : TermDef} (h : stepReverse R E s m k x v rc o d = .ok s') :
    x.id = none ∧ x.nest = none ∧ ((isKeywordLike v = true ∧ s' = s) ∨
      (isKeywordLike v = false ∧ ∃ q d1 d2,
        expandWith R E s (some (Expandable.ofStr v)) false (some o.vocab) m rc o = .ok q ∧
        reverseValue q.2 d = .ok d1 ∧ reverseContainer x d1 = .ok d2 ∧
        s' = { q.1 with ctx := q.1.ctx.setNormal k { d2 with reverse := true } }.finish (.key k))) := by
  unfold stepReverse at h
  split at h
  · cases h
  · rename_i hi
    rw [not_or, Option.not_isSome_iff_eq_none, Option.not_isSome_iff_eq_none] at hi
    refine ⟨hi.1, hi.2, ?_⟩
    split at h
    · rename_i hk
      cases h
      exact .inl ⟨hk, rfl⟩
    · rename_i hk
      simp only [bindOk] at h
      obtain ⟨q, h1, d1, h2, d2, h3, h4⟩ := h
      cases h4
      exact .inr ⟨by simpa using hk, q, d1, d2, h1, h2, h3, rfl⟩

/-- Like `Calls`, but the term `k` may also be marked as done. -/
inductive DSteps (R : Rec) (m : Merged) (k : Str) (rc : List Str) (o : Opts) : DState → DState → Prop
  | refl (s) : DSteps R m k rc o s s
  | step {s s1 s2} (x : Str) : DSteps R m k rc o s s1 →
      R.define s1 m (.key x) rc none false o.noOverride = .ok s2 → DSteps R m k rc o s s2
  | finish {s s1} : DSteps R m k rc o s s1 → DSteps R m k rc o s (s1.finish (.key k))

theorem Calls.steps {m : Merged} {k : Str} {rc : List Str} {o : Opts} {a b : DState}
    (h : Calls R m rc o a b) : DSteps R m k rc o a b := by
  induction h with
  | refl => exact .refl _
  | step x _ hd ih => exact .step x ih hd

theorem DSteps.trans {m : Merged} {k : Str} {rc : List Str} {o : Opts} {a b c : DState}
    (h : DSteps R m k rc o a b) (h' : DSteps R m k rc o b c) : DSteps R m k rc o a c := by
  induction h' with
  | refl => exact h
  | step x _ hd ih => exact .step x ih hd
  | finish _ ih => exact .finish ih

theorem checkTerm_ok {s s' : DState} {m : Merged} {k : Str} {rc : List Str} {o : Opts} {d : TermDef}
    (h : checkTerm R E s m k rc o d = .ok s') :
    ((betweenBoundaries k ':' = false ∧ '/' ∉ k) ∧ s' = s) ∨
    ((betweenBoundaries k ':' = true ∨ '/' ∈ k) ∧ ∃ t,
      expandWith R E (s.finish (.key k)) (some (.string k)) false (some o.vocab) m rc o =
        .ok (s', t) ∧ d.value = t) := by
  unfold checkTerm at h
  split at h
  · rename_i hk
    rw [bindOk] at h
    obtain ⟨r, h1, h2⟩ := h
    split at h2
    · cases h2
    · rename_i hv
      cases h2
      exact .inr ⟨hk, r.2, h1, by simpa using hv⟩
  · rename_i hk
    cases h
    rw [not_or] at hk
    exact .inl ⟨⟨by simpa using hk.1, hk.2⟩, rfl⟩

theorem checkTerm_steps {s s' : DState} {m : Merged} {k : Str} {rc : List Str} {o : Opts} {d : TermDef}
    (h : checkTerm R E s m k rc o d = .ok s') : DSteps R m k rc o s s' := by
  rcases checkTerm_ok h with ⟨_, rfl⟩ | ⟨_, t, h, _⟩
  · exact .refl _
  · exact (DSteps.finish (.refl s)).trans (expandWith_calls h).steps

theorem explicitId_ok {s : DState} {m : Merged} {k : Str} {i : SId} {simple : Bool} {rc : List Str}
    {o : Opts} {d : TermDef} {r : DState × Option TermDef}
    (h : explicitId R E s m k i simple rc o d = .ok r) :
    (isKeywordLike i.str = true ∧ i.isKeyword = false ∧ r = (s, none)) ∨
    (¬ (isKeywordLike i.str = true ∧ i.isKeyword = false) ∧ ∃ q v d',
      expandWith R E s (some i.expandable) false (some o.vocab) m rc o = .ok q ∧
      checkMapping q.2 = .ok v ∧ checkTerm R E q.1 m k rc o { d with value := v } = .ok r.1 ∧
      simplePrefix k simple { d with value := v } = .ok d' ∧ r.2 = some d') := by
  unfold explicitId at h
  split at h
  · rename_i hk
    cases h
    exact .inl ⟨hk.1, hk.2, rfl⟩
  · rename_i hk
    simp only [bindOk] at h
    obtain ⟨q, h1, v, h2, s', h3, d', h4, h5⟩ := h
    cases h5
    exact .inr ⟨hk, q, v, d', h1, h2, h3, h4, rfl⟩

theorem implicitPrefix_ok {s : DState} {m : Merged} {k : Str} {rc : List Str} {o : Opts}
    {r : DState × Option CTerm} (h : implicitPrefix R E s m k rc o = .ok r) :
    (compactIri E.toIriEnv k = none ∧ r = (s, none)) ∨
    (∃ p y, compactIri E.toIriEnv k = some (p, y) ∧
      R.define s m (.key p) rc none false o.noOverride = .ok r.1 ∧
      ((r.1.ctx.getValue p = none ∧ r.2 = none) ∨
       (∃ v, r.1.ctx.getValue p = some v ∧ E.isIri ((v.bind (·.asIri)).getD [] ++ y) = true ∧
         r.2 = some (.id (.iri ((v.bind (·.asIri)).getD [] ++ y)))))) := by
  unfold implicitPrefix at h
  split at h
  · cases h; exact .inl ⟨by assumption, rfl⟩
  · rename_i p y hq
    rw [bindOk] at h
    obtain ⟨s1, h1, h2⟩ := h
    refine .inr ⟨p, y, hq, ?_⟩
    split at h2
    · cases h2; exact ⟨h1, .inl ⟨by assumption, rfl⟩⟩
    · rename_i v hv
      simp only at h2
      split at h2
      · rename_i hi
        cases h2
        exact ⟨h1, .inr ⟨v, hv, hi, rfl⟩⟩
      · cases h2

theorem implicitRef_ok {c : ACtx} {k : Str} {o : Opts} {w : Option CTerm}
    (h : implicitRef E c k o = .ok w) :
    w = none ∨ (E.isBlank k = true ∧ w = some (.id (.blank k))) ∨
    (E.isIri k = true ∧ w = some (.id (.iri k))) ∨
    (∃ i, expandStr E.toIriEnv c k false (some o.vocab) = .ok (some (.id (.iri i))) ∧
      w = some (.id (.iri i))) := by
  unfold implicitRef at h
  split at h
  · cases h; exact .inr (.inl ⟨by assumption, rfl⟩)
  · split at h
    · split at h
      · cases h; exact .inr (.inr (.inl ⟨by assumption, rfl⟩))
      · split at h
        · split at h
          · cases h
          · rename_i i hi
            cases h
            exact .inr (.inr (.inr ⟨i, hi, rfl⟩))
          · cases h
        · cases h; exact .inl rfl
    · cases h; exact .inl rfl

theorem implicitVocab_ok {c : ACtx} {k : Str} {v : CTerm} (h : implicitVocab E c k = .ok v) :
    ∃ u, c.vocab.bind (·.asIri) = some u ∧ E.isIri (u ++ k) = true ∧ v = .id (.iri (u ++ k)) := by
  unfold implicitVocab at h
  split at h
  · rename_i u hu
    split at h
    · cases h
      exact ⟨u, hu, by assumption, rfl⟩
    · cases h
  · cases h

theorem implicitId_ok {s : DState} {m : Merged} {k : Str} {rc : List Str} {o : Opts} {d : TermDef}
    {r : DState × TermDef} (h : implicitId R E s m k rc o d = .ok r) :
    ∃ q v, implicitPrefix R E s m k rc o = .ok q ∧ r = (q.1, { d with value := some v }) ∧
      (q.2 = some v ∨ (q.2 = none ∧ (implicitRef E q.1.ctx k o = .ok (some v) ∨
        (implicitRef E q.1.ctx k o = .ok none ∧ implicitVocab E q.1.ctx k = .ok v)))) := by
  unfold implicitId at h
  rw [bindOk] at h
  obtain ⟨q, h1, h2⟩ := h
  split at h2
  · rename_i v hv
    cases h2
    exact ⟨q, v, h1, rfl, .inl hv⟩
  · rename_i hn
    rw [bindOk] at h2
    obtain ⟨w, h3, h4⟩ := h2
    split at h4
    · rename_i v
      cases h4
      exact ⟨q, v, h1, rfl, .inr ⟨hn, .inl h3⟩⟩
    · rw [bindOk] at h4
      obtain ⟨v, h5, h6⟩ := h4
      cases h6
      exact ⟨q, v, h1, rfl, .inr ⟨hn, .inr ⟨h3, h5⟩⟩⟩

theorem implicitId_calls {s : DState} {m : Merged} {k : Str} {rc : List Str} {o : Opts} {d : TermDef}
    {r : DState × TermDef} (h : implicitId R E s m k rc o d = .ok r) : Calls R m rc o s r.1 := by
  obtain ⟨q, v, h1, rfl, _⟩ := implicitId_ok h
  rcases implicitPrefix_ok h1 with ⟨_, rfl⟩ | ⟨p, y, _, h2, _⟩
  · exact .refl _
  · exact .one h2

theorem stepId_ok {s : DState} {m : Merged} {k : Str} {x : SExp} {simple : Bool} {rc : List Str}
    {o : Opts} {d : TermDef} {r : DState × Option TermDef}
    (h : stepId R E s m k x simple rc o d = .ok r) :
    (x.id = some none ∧ r = (s, some d)) ∨
    ((x.id = none ∨ x.id = some (some (.term k))) ∧ ∃ d', implicitId R E s m k rc o d = .ok (r.1, d') ∧
      r.2 = some d') ∨
    (∃ i, x.id = some (some i) ∧ i ≠ .term k ∧ explicitId R E s m k i simple rc o d = .ok r) := by
  unfold stepId at h
  split at h
  · cases h; exact .inl ⟨by assumption, rfl⟩
  · rename_i i hi
    split at h
    · rename_i he
      rw [bindOk] at h
      obtain ⟨q, h1, h2⟩ := h
      cases h2
      exact .inr (.inl ⟨.inr (by rw [hi, he]), q.2, h1, rfl⟩)
    · rename_i he
      exact .inr (.inr ⟨i, hi, he, h⟩)
  · rename_i hi
    rw [bindOk] at h
    obtain ⟨q, h1, h2⟩ := h
    cases h2
    exact .inr (.inl ⟨.inl hi, q.2, h1, rfl⟩)

theorem stepId_steps {s : DState} {m : Merged} {k : Str} {x : SExp} {simple : Bool} {rc : List Str}
    {o : Opts} {d : TermDef} {r : DState × Option TermDef}
    (h : stepId R E s m k x simple rc o d = .ok r) : DSteps R m k rc o s r.1 := by
  rcases stepId_ok h with ⟨_, rfl⟩ | ⟨_, d', h, _⟩ | ⟨i, _, _, h⟩
  · exact .refl _
  · exact (implicitId_calls h).steps
  · rcases explicitId_ok h with ⟨_, _, rfl⟩ | ⟨_, q, v, d', h1, _, h2, _⟩
    · exact .refl _
    · exact (expandWith_calls h1).steps.trans (checkTerm_steps h2)

theorem finishTerm_ok {s s' : DState} {m : Merged} {k : Str} {x : SExp} {simple : Bool}
    {prev : Option TermDef} {rc : List Str} {base : Option Str} {o : Opts} {d : TermDef}
    (h : finishTerm R E s m k x simple prev rc base o d = .ok s') :
    stepId R E s m k x simple rc o d = .ok (s', none) ∨
    (∃ s1 d1 d2 d3, stepId R E s m k x simple rc o d = .ok (s1, some d1) ∧
      stepRest R E s1.ctx k x rc base o d1 = .ok d2 ∧ stepKeep o prev d2 = .ok d3 ∧
      s' = { s1 with ctx := s1.ctx.setNormal k d3 }.finish (.key k)) := by
  unfold finishTerm at h
  rw [bindOk] at h
  obtain ⟨⟨s1, w⟩, h1, h2⟩ := h
  cases w with
  | none => cases h2; exact .inl h1
  | some d1 =>
    simp only [bindOk] at h2
    obtain ⟨d2, h3, d3, h4, h5⟩ := h2
    cases h5
    exact .inr ⟨s1, d1, d2, d3, h1, h3, h4, rfl⟩

/-- A term definition returns early only for keyword-like `@id` values. -/
theorem stepId_none {s s' : DState} {m : Merged} {k : Str} {x : SExp} {simple : Bool} {rc : List Str}
    {o : Opts} {d : TermDef} (h : stepId R E s m k x simple rc o d = .ok (s', none)) :
    s' = s ∧ ∃ i, x.id = some (some i) ∧ isKeywordLike i.str = true ∧ i.isKeyword = false ∧ i ≠ .term k := by
  rcases stepId_ok h with ⟨_, h⟩ | ⟨_, d', _, h⟩ | ⟨i, h0, h0', h⟩
  · cases h
  · cases h
  · rcases explicitId_ok h with ⟨h1, h2, h⟩ | ⟨_, q, v, d', _, _, _, _, h⟩
    · cases h
      exact ⟨rfl, i, h0, h1, h2, h0'⟩
    · cases h

/-- The ways in which the definition of a term succeeds. -/
inductive TermRun (R : Rec) (E : ProcEnv) (s : DState) (m : Merged) (k : Str) (b : Option STerm)
    (rc : List Str) (base : Option Str) (prot : Bool) (o : Opts) : DState → Prop
  /-- a keyword-like `@reverse` -/
  | reverseKeyword (d0 s1 d1 v) : stepProtected o (STerm.exp b) prot = .ok d0 →
      stepType R E { s with ctx := s.ctx.eraseNormal k } m (STerm.exp b) rc o d0 = .ok (s1, d1) →
      (STerm.exp b).reverse = some v → (STerm.exp b).id = none → (STerm.exp b).nest = none →
      isKeywordLike v = true → TermRun R E s m k b rc base prot o s1
  /-- a reverse property -/
  | reverse (d0 s1 d1 v s2 t d2 d3) : stepProtected o (STerm.exp b) prot = .ok d0 →
      stepType R E { s with ctx := s.ctx.eraseNormal k } m (STerm.exp b) rc o d0 = .ok (s1, d1) →
      (STerm.exp b).reverse = some v → (STerm.exp b).id = none → (STerm.exp b).nest = none →
      isKeywordLike v = false →
      expandWith R E s1 (some (Expandable.ofStr v)) false (some o.vocab) m rc o = .ok (s2, t) →
      reverseValue t d1 = .ok d2 → reverseContainer (STerm.exp b) d2 = .ok d3 →
      TermRun R E s m k b rc base prot o
        ({ s2 with ctx := s2.ctx.setNormal k { d3 with reverse := true } }.finish (.key k))
  /-- a keyword-like `@id` -/
  | idKeyword (d0 s1 d1 i) : stepProtected o (STerm.exp b) prot = .ok d0 →
      stepType R E { s with ctx := s.ctx.eraseNormal k } m (STerm.exp b) rc o d0 = .ok (s1, d1) →
      (STerm.exp b).reverse = none → (STerm.exp b).id = some (some i) → isKeywordLike i.str = true →
      i.isKeyword = false → i ≠ .term k → TermRun R E s m k b rc base prot o s1
  /-- a complete definition -/
  | full (d0 s1 d1 s2 d2 d3 d4) : stepProtected o (STerm.exp b) prot = .ok d0 →
      stepType R E { s with ctx := s.ctx.eraseNormal k } m (STerm.exp b) rc o d0 = .ok (s1, d1) →
      (STerm.exp b).reverse = none →
      stepId R E s1 m k (STerm.exp b) (STerm.isSimple b) rc o d1 = .ok (s2, some d2) →
      stepRest R E s2.ctx k (STerm.exp b) rc base o d2 = .ok d3 →
      stepKeep o (s.ctx.getNormal k) d3 = .ok d4 →
      TermRun R E s m k b rc base prot o ({ s2 with ctx := s2.ctx.setNormal k d4 }.finish (.key k))

theorem defineTerm_ok {s s' : DState} {m : Merged} {k : Str} {b : Option STerm} {rc : List Str}
    {base : Option Str} {prot : Bool} {o : Opts}
    (h : defineTerm R E s m k b rc base prot o = .ok s') : TermRun R E s m k b rc base prot o s' := by
  unfold defineTerm at h
  simp only [bindOk] at h
  obtain ⟨d0, h0, ⟨s1, d1⟩, h1, h2⟩ := h
  split at h2
  · rename_i v hv
    obtain ⟨h3, h4, ⟨h5, rfl⟩ | ⟨h5, ⟨s2, t⟩, d2, d3, h6, h7, h8, rfl⟩⟩ := stepReverse_ok h2
    · exact .reverseKeyword d0 _ d1 v h0 h1 hv h3 h4 h5
    · exact .reverse d0 s1 d1 v s2 t d2 d3 h0 h1 hv h3 h4 h5 h6 h7 h8
  · rename_i hv
    rcases finishTerm_ok h2 with h3 | ⟨s2, d2, d3, d4, h3, h4, h5, rfl⟩
    · obtain ⟨rfl, i, h4, h5, h6, h7⟩ := stepId_none h3
      exact .idKeyword d0 _ d1 i h0 h1 hv h4 h5 h6 h7
    · exact .full d0 s1 d1 s2 d2 d3 d4 h0 h1 hv h3 h4 h5

/-- The ways in which `define` succeeds. -/
inductive DefineRun (R : Rec) (E : ProcEnv) (s : DState) (m : Merged) (rc : List Str)
    (base : Option Str) (prot : Bool) (o : Opts) : DKey → DState → Prop
  | done (t) : lookupDef t s.defd = some false → DefineRun R E s m rc base prot o t s
  | noType : lookupDef .type s.defd = none → m.type = none →
      DefineRun R E s m rc base prot o .type
        (DState.finish { s with defd := (.type, true) :: s.defd } .type)
  | type (p) : lookupDef .type s.defd = none → m.type = some p → o.mode = .v11 →
      DefineRun R E s m rc base prot o .type
        (DState.finish ⟨{ s.ctx with typeDef := some (if !o.override && s.ctx.typeDef == some true
          then true else p.getD false) }, (.type, true) :: s.defd⟩ .type)
  | absent (k) : lookupDef (.key k) s.defd = none → k ≠ [] → m.binding k = none →
      DefineRun R E s m rc base prot o (.key k)
        (DState.finish { s with defd := (.key k, true) :: s.defd } (.key k))
  | term (k b s') : lookupDef (.key k) s.defd = none → k ≠ [] → m.binding k = some b →
      TermRun R E { s with defd := (.key k, true) :: s.defd } m k b rc base prot o s' →
      DefineRun R E s m rc base prot o (.key k) s'

theorem defineBody_ok {s s' : DState} {m : Merged} {t : DKey} {rc : List Str} {base : Option Str}
    {prot : Bool} {o : Opts} (h : defineBody R E s m t rc base prot o = .ok s') :
    DefineRun R E s m rc base prot o t s' := by
  unfold defineBody at h
  split at h
  · cases h
  · rename_i hs
    cases h
    refine .done t ?_
    unfold DState.start at hs
    split at hs
    · cases hs
    · assumption
    · cases hs
  · rename_i s1 hs
    have hl : lookupDef t s.defd = none ∧ s1 = { s with defd := (t, true) :: s.defd } := by
      unfold DState.start at hs
      split at hs
      · cases hs
      · cases hs
      · cases hs; exact ⟨by assumption, rfl⟩
    obtain ⟨hl, rfl⟩ := hl
    unfold defineNew at h
    split at h
    · split at h
      · cases h
        exact .noType hl (by assumption)
      · rename_i p hp
        rw [bindOk] at h
        obtain ⟨c, h1, h2⟩ := h
        cases h2
        unfold defineType at h1
        split at h1
        · cases h1
        · rename_i hm
          cases h1
          refine .type p hl hp ?_
          cases hmo : o.mode with
          | v10 => exact absurd hmo hm
          | v11 => rfl
    · rename_i k
      split at h
      · cases h
      · rename_i hk
        split at h
        · cases h
          exact .absent k hl hk (by assumption)
        · rename_i b hb
          exact .term k b s' hl hk hb (defineTerm_ok h)

end

/-! ## Processing -/

section
variable {R : Rec} {E : ProcEnv}

theorem processBody_ok {c c' : ACtx} {l : SCtx} {rc : List Str} {base : Option Str} {o : Opts}
    (h : processBody R E c l rc base o = .ok c') : ∃ o', stepPropagation l o = .ok o' ∧
      processEntries R E c.originalBase base o' l.entries (startContext c o') rc = .ok c' := by
  unfold processBody at h
  rwa [bindOk] at h

theorem stepPropagation_ok {l : SCtx} {o o' : Opts} (h : stepPropagation l o = .ok o') :
    o'.mode = o.mode ∧ o'.override = o.override ∧ o'.vocab = o.vocab ∧
    ((o' = o ∧ ∀ d, l = .one (.defn d) → d.propagate = none) ∨
      ∃ d p, l = .one (.defn d) ∧ d.propagate = some p ∧ o'.propagate = p) := by
  unfold stepPropagation at h
  split at h
  · rename_i d
    split at h
    · rename_i hp
      cases h
      exact ⟨rfl, rfl, rfl, .inl ⟨rfl, fun d' hd => by cases hd; exact hp⟩⟩
    · rename_i p hp
      split at h
      · cases h
      · cases h
        exact ⟨rfl, rfl, rfl, .inr ⟨d, p, rfl, hp, rfl⟩⟩
  · rename_i hn
    cases h
    exact ⟨rfl, rfl, rfl, .inl ⟨rfl, fun d' hd => absurd hd (hn d')⟩⟩

theorem processDef_ok {c c' : ACtx} {d : SDef} {rc : List Str} {base : Option Str} {o : Opts}
    (h : processDef R E c d rc base o = .ok c') :
    ∃ i c1 c2 c3 s1 s2, importOf E d base o = .ok i ∧ stepBase E ⟨d, i⟩ rc c = .ok c1 ∧
      stepVocab E ⟨d, i⟩ o c1 = .ok c2 ∧
      stepDefaultDirection ⟨d, i⟩ o (stepDefaultLanguage ⟨d, i⟩ c2) = .ok c3 ∧
      defineTypeEntry R ⟨d, i⟩ rc base o ⟨c3, []⟩ = .ok s1 ∧
      defineAll R ⟨d, i⟩ rc base ((Merged.protected_ ⟨d, i⟩).getD false) o
        (Merged.bindings ⟨d, i⟩) s1 = .ok s2 ∧ c' = s2.ctx := by
  unfold processDef at h
  split at h
  · cases h
  · simp only [bindOk] at h
    obtain ⟨i, h1, c1, h2, c2, h3, c3, h4, s1, h5, s2, h6, h7⟩ := h
    cases h7
    exact ⟨i, c1, c2, c3, s1, s2, h1, h2, h3, h4, h5, h6, rfl⟩

/-- The import is a context definition without import, loaded from the resolved URL. -/
theorem importOf_ok {d : SDef} {base : Option Str} {o : Opts} {i : Option SDef}
    (h : importOf E d base o = .ok i) : (i = none ∧ d.import_ = none) ∨
      ∃ r u i', i = some i' ∧ d.import_ = some r ∧ resolveIri E.toIriEnv r base = some u ∧
        E.load u = .ok (.one (.defn i')) ∧ i'.import_ = none := by
  unfold importOf at h
  split at h
  · cases h; exact .inl ⟨rfl, by assumption⟩
  · rename_i r hr
    split at h
    · cases h
    · split at h
      · cases h
      · rename_i u hu
        rw [bindOk] at h
        obtain ⟨l, h1, h2⟩ := h
        split at h2
        · rename_i _ i'
          replace h1 : E.load u = .ok (.one (.defn i')) := by
            unfold ProcEnv.fetch at h1
            split at h1
            · cases h1; assumption
            · cases h1
            · cases h1
          split at h2
          · cases h2
          · rename_i hi
            cases h2
            exact .inr ⟨r, u, i', rfl, hr, hu, h1, by simpa using hi⟩
        · cases h2

theorem fetch_ok {u : Str} {l : SCtx} : E.fetch u = .ok l ↔ E.load u = .ok l := by
  unfold ProcEnv.fetch
  split
  · rename_i c hc
    rw [hc]
    rw [Except.ok.injEq, Except.ok.injEq]
  · rename_i h
    rw [h]
    simp
  · rename_i h
    rw [h]
    simp

/-- The ways in which an entry of a context is processed. -/
inductive EntryRun (R : Rec) (E : ProcEnv) (ob base : Option Str) (o : Opts) (c : ACtx)
    (rc : List Str) : SEntry → ACtx → List Str → Prop
  | null : (o.override = true ∨ c.hasProtected = false) → EntryRun R E ob base o c rc .null
      { ACtx.new ob with previous := if o.propagate then none else some c } rc
  | skip (r u) : resolveIri E.toIriEnv r base = some u → u ∈ rc →
      EntryRun R E ob base o c rc (.ref r) c rc
  | ref (r u l c') : resolveIri E.toIriEnv r base = some u → u ∉ rc → E.load u = .ok l →
      R.process c l (u :: rc) (some u) ⟨o.mode, false, true, o.vocab⟩ = .ok c' →
      EntryRun R E ob base o c rc (.ref r) c' (u :: rc)
  | defn (d c') : processDef R E c d rc base o = .ok c' → EntryRun R E ob base o c rc (.defn d) c' rc

theorem processEntry_ok {ob base : Option Str} {o : Opts} {c : ACtx} {rc : List Str} {e : SEntry}
    {r : ACtx × List Str} (h : processEntry R E ob base o c rc e = .ok r) :
    EntryRun R E ob base o c rc e r.1 r.2 := by
  cases e with
  | null =>
    simp only [processEntry] at h
    split at h
    · cases h
    · rename_i hc
      cases h
      refine .null ?_
      cases ho : o.override with
      | true => exact .inl rfl
      | false =>
        cases hp : c.hasProtected with
        | true => exact absurd ⟨ho, hp⟩ hc
        | false => exact .inr rfl
  | ref r' =>
    unfold processEntry at h
    simp only at h
    split at h
    · cases h
    · rename_i u hu
      split at h
      · cases h
        exact .skip r' u hu (by assumption)
      · rename_i hn
        simp only [bindOk] at h
        obtain ⟨l, h1, c', h2, h3⟩ := h
        cases h3
        exact .ref r' u l c' hu hn (fetch_ok.1 h1) h2
  | defn d =>
    unfold processEntry at h
    simp only [bindOk] at h
    obtain ⟨c', h1, h2⟩ := h
    cases h2
    exact .defn d c' h1

end

end JsonLd
