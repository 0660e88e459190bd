import Verif.Proofs.Process
/-!
# What context processing leaves alone
-/

namespace JsonLd

theorem lookupKey_erase {α : Type} (k k' : Str) (m : List (Str × α)) :
    lookupKey k' (mapErase k m) = if k = k' then none else lookupKey k' m := by
  induction m with
  | nil => simp [mapErase, lookupKey]
  | cons p m ih =>
    obtain ⟨a, v⟩ := p
    unfold mapErase at ih ⊢
    rw [List.filter_cons]
    by_cases ha : a = k
    · subst ha
      simp only [ne_eq, not_true_eq_false, decide_false, Bool.false_eq_true, if_false, ih, lookupKey]
      by_cases h : a = k' <;> simp [h]
    · simp only [ne_eq, ha, not_false_eq_true, decide_true, if_true, lookupKey, ih]
      by_cases h : a = k'
      · subst h
        simp [Ne.symm ha]
      · simp [h]

theorem lookupKey_insert {α : Type} (k k' : Str) (v : α) (m : List (Str × α)) :
    lookupKey k' (mapInsert k v m) = if k = k' then some v else lookupKey k' m := by
  unfold mapInsert
  simp only [lookupKey, lookupKey_erase]
  by_cases h : k = k' <;> simp [h]

theorem getNormal_set (c : ACtx) (k k' : Str) (d : TermDef) :
    (c.setNormal k d).getNormal k' = if k = k' then some d else c.getNormal k' :=
  lookupKey_insert ..

theorem getNormal_erase (c : ACtx) (k k' : Str) :
    (c.eraseNormal k).getNormal k' = if k = k' then none else c.getNormal k' :=
  lookupKey_erase ..

/-- `c'` differs from `c` at most in the definitions of terms bound in `m` and of `@type`. -/
structure Framed (m : Merged) (c c' : ACtx) : Prop where
  originalBase : c'.originalBase = c.originalBase
  base : c'.base = c.base
  vocab : c'.vocab = c.vocab
  language : c'.language = c.language
  direction : c'.direction = c.direction
  previous : c'.previous = c.previous
  defs : ∀ k, m.binding k = none → c'.getNormal k = c.getNormal k

theorem Framed.refl (m : Merged) (c : ACtx) : Framed m c c := ⟨rfl, rfl, rfl, rfl, rfl, rfl, fun _ _ => rfl⟩

theorem Framed.trans {m : Merged} {a b c : ACtx} (h : Framed m a b) (h' : Framed m b c) :
    Framed m a c :=
  ⟨h'.1.trans h.1, h'.2.trans h.2, h'.3.trans h.3, h'.4.trans h.4, h'.5.trans h.5, h'.6.trans h.6,
    fun k hk => (h'.7 k hk).trans (h.7 k hk)⟩

theorem Framed.set {m : Merged} (c : ACtx) {k : Str} {b : Option STerm} (hb : m.binding k = some b)
    (d : TermDef) : Framed m c (c.setNormal k d) := by
  refine ⟨rfl, rfl, rfl, rfl, rfl, rfl, fun k' hk => ?_⟩
  rw [getNormal_set, if_neg]
  rintro rfl
  rw [hb] at hk
  cases hk

theorem Framed.erase {m : Merged} (c : ACtx) {k : Str} {b : Option STerm} (hb : m.binding k = some b) :
    Framed m c (c.eraseNormal k) := by
  refine ⟨rfl, rfl, rfl, rfl, rfl, rfl, fun k' hk => ?_⟩
  rw [getNormal_erase, if_neg]
  rintro rfl
  rw [hb] at hk
  cases hk

/-- A property of pairs of contexts which every definition of a term has. -/
structure DefRel (P : ACtx → ACtx → Prop) : Prop where
  refl : ∀ c, P c c
  trans : ∀ a b c, P a b → P b c → P a c

section
variable {R : Rec} {E : ProcEnv} {P : ACtx → ACtx → Prop}

theorem Calls.rel (hP : DefRel P) {m : Merged} {rc : List Str} {o : Opts}
    (hR : ∀ s s' x, R.define s m (.key x) rc none false o.noOverride = .ok s' → P s.ctx s'.ctx)
    {s s' : DState} (h : Calls R m rc o s s') : P s.ctx s'.ctx := by
  induction h with
  | refl => exact hP.refl _
  | step x _ hd ih => exact hP.trans _ _ _ ih (hR _ _ _ hd)

theorem DSteps.rel (hP : DefRel P) {m : Merged} {k : Str} {rc : List Str} {o : Opts}
    (hR : ∀ s s' x, R.define s m (.key x) rc none false o.noOverride = .ok s' → P s.ctx s'.ctx)
    {s s' : DState} (h : DSteps R m k rc o s s') : P s.ctx s'.ctx := by
  induction h with
  | refl => exact hP.refl _
  | step x _ hd ih => exact hP.trans _ _ _ ih (hR _ _ _ hd)
  | finish _ ih => exact ih

end

theorem framed_rel (m : Merged) : DefRel (Framed m) := ⟨Framed.refl m, fun _ _ _ => Framed.trans⟩

theorem define_framed (E : ProcEnv) (n : Nat) : ∀ (s s' : DState) (m : Merged) (t : DKey)
    (rc : List Str) (base : Option Str) (prot : Bool) (o : Opts),
    (recN E n).define s m t rc base prot o = .ok s' → Framed m s.ctx s'.ctx := by
  induction n with
  | zero => intro s s' m t rc base prot o h; cases h
  | succ n ih =>
    intro s s' m t rc base prot o h
    have hR (o : Opts) : ∀ s s' x, (recN E n).define s m (.key x) rc none false o.noOverride = .ok s' →
        Framed m s.ctx s'.ctx := fun s s' x h => ih s s' m (.key x) rc none false _ h
    cases defineBody_ok h with
    | done => exact .refl _ _
    | noType => exact .refl _ _
    | type => exact ⟨rfl, rfl, rfl, rfl, rfl, rfl, fun _ _ => rfl⟩
    | absent => exact .refl _ _
    | term k b s' hl hk hb hr =>
      have he := Framed.erase s.ctx hb
      cases hr with
      | reverseKeyword d0 s1 d1 v h0 h1 => exact he.trans ((stepType_calls h1).rel (framed_rel m) (hR o))
      | reverse d0 s1 d1 v s2 t d2 d3 h0 h1 _ _ _ _ h2 =>
        have h3 := he.trans ((stepType_calls h1).rel (framed_rel m) (hR o))
        have h4 := h3.trans ((expandWith_calls h2).rel (framed_rel m) (hR o))
        exact h4.trans (.set _ hb _)
      | idKeyword d0 s1 d1 i h0 h1 => exact he.trans ((stepType_calls h1).rel (framed_rel m) (hR o))
      | full d0 s1 d1 s2 d2 d3 d4 h0 h1 _ h2 =>
        have h3 := he.trans ((stepType_calls h1).rel (framed_rel m) (hR o))
        have h4 := h3.trans ((stepId_steps h2).rel (framed_rel m) (hR o))
        exact h4.trans (.set _ hb _)

theorem defineAll_rel {R : Rec} {P : ACtx → ACtx → Prop} (hP : DefRel P) {m : Merged} {rc : List Str}
    {base : Option Str} {prot : Bool} {o : Opts}
    (hR : ∀ s s' t, R.define s m t rc base prot o = .ok s' → P s.ctx s'.ctx) :
    ∀ (bs : List (Str × Option STerm)) (s s' : DState),
      defineAll R m rc base prot o bs s = .ok s' → P s.ctx s'.ctx := by
  intro bs
  induction bs with
  | nil => intro s s' h; cases h; exact hP.refl _
  | cons b bs ih =>
    intro s s' h
    unfold defineAll at h
    rw [bindOk] at h
    obtain ⟨s1, h1, h2⟩ := h
    exact hP.trans _ _ _ (hR _ _ _ h1) (ih _ _ h2)

theorem defineTypeEntry_rel {R : Rec} {P : ACtx → ACtx → Prop} (hP : DefRel P) {m : Merged}
    {rc : List Str} {base : Option Str} {o : Opts}
    (hR : ∀ s s' t prot, R.define s m t rc base prot o = .ok s' → P s.ctx s'.ctx) {s s' : DState}
    (h : defineTypeEntry R m rc base o s = .ok s') : P s.ctx s'.ctx := by
  unfold defineTypeEntry at h
  split at h
  · exact hR _ _ _ _ h
  · cases h; exact hP.refl _

theorem stepBase_defs {E : ProcEnv} {m : Merged} {rc : List Str} {c c' : ACtx}
    (h : stepBase E m rc c = .ok c') : ∃ b, c' = { c with base := b } := by
  unfold stepBase at h
  split at h
  · split at h
    · cases h; exact ⟨c.base, by cases c; rfl⟩
    · cases h; exact ⟨_, rfl⟩
    · split at h
      · cases h; exact ⟨_, rfl⟩
      · split at h
        · cases h
        · cases h; exact ⟨_, rfl⟩
  · cases h; exact ⟨c.base, by cases c; rfl⟩

/-- Remote contexts do not set the base IRI. -/
theorem stepBase_remote {E : ProcEnv} {m : Merged} {rc : List Str} {c c' : ACtx} (hr : rc ≠ [])
    (h : stepBase E m rc c = .ok c') : c' = c := by
  unfold stepBase at h
  rw [if_neg (by simpa using hr)] at h
  cases h
  rfl

theorem stepBase_none {E : ProcEnv} {m : Merged} {rc : List Str} {c c' : ACtx}
    (hm : m.baseValue = none) (h : stepBase E m rc c = .ok c') : c' = c := by
  unfold stepBase at h
  rw [hm] at h
  split at h <;> cases h <;> rfl

theorem stepVocab_defs {E : ProcEnv} {m : Merged} {o : Opts} {c c' : ACtx}
    (h : stepVocab E m o c = .ok c') : ∃ v, c' = { c with vocab := v } := by
  unfold stepVocab at h
  split at h
  · cases h; exact ⟨c.vocab, by cases c; rfl⟩
  · cases h; exact ⟨_, rfl⟩
  · split at h
    · cases h
    · cases h; exact ⟨_, rfl⟩
    · cases h

theorem stepLang_defs {m : Merged} {o : Opts} {c c' : ACtx}
    (h : stepDefaultDirection m o (stepDefaultLanguage m c) = .ok c') :
    ∃ l d, c' = { c with language := l, direction := d } := by
  have h1 : ∃ l, stepDefaultLanguage m c = { c with language := l } := by
    unfold stepDefaultLanguage
    split
    · exact ⟨c.language, by cases c; rfl⟩
    · exact ⟨_, rfl⟩
  obtain ⟨l, hl⟩ := h1
  rw [hl] at h
  unfold stepDefaultDirection at h
  split at h
  · cases h; exact ⟨l, _, rfl⟩
  · split at h
    · cases h
    · cases h; exact ⟨l, _, rfl⟩

/-- The context in which the terms of a definition are processed, and the result. -/
theorem processDef_rel {R : Rec} {E : ProcEnv} {c c' : ACtx} {d : SDef} {rc : List Str}
    {base : Option Str} {o : Opts} (h : processDef R E c d rc base o = .ok c') :
    ∃ i bse v l dir, importOf E d base o = .ok i ∧
      stepBase E ⟨d, i⟩ rc c = .ok { c with base := bse } ∧
      ∀ {P : ACtx → ACtx → Prop}, DefRel P →
        (∀ s s' t prot, R.define s ⟨d, i⟩ t rc base prot o = .ok s' → P s.ctx s'.ctx) →
        P { c with base := bse, vocab := v, language := l, direction := dir } c' := by
  obtain ⟨i, c1, c2, c3, s1, s2, h1, h2, h3, h4, h5, h6, rfl⟩ := processDef_ok h
  obtain ⟨bse, rfl⟩ := stepBase_defs h2
  obtain ⟨v, rfl⟩ := stepVocab_defs h3
  obtain ⟨l, dir, rfl⟩ := stepLang_defs h4
  refine ⟨i, bse, v, l, dir, h1, h2, fun hP hR => ?_⟩
  have h7 := defineTypeEntry_rel hP hR h5
  exact hP.trans _ _ _ h7 (defineAll_rel hP (fun s s' t h => hR s s' t _ h) _ _ _ h6)

end JsonLd
