import Verif.Proofs.Cyclic
/-!
# When a cyclic IRI mapping is reported
-/

namespace JsonLd
open Spec Props

/-- No cyclic IRI mapping is reported. -/
structure NoCycle {α : Type} (a : Except CtxErr α) : Prop where
  out : a ≠ .error .cyclicIriMapping

theorem bindErr {ε α β : Type} {x : Except ε α} {f : α → Except ε β} {e : ε} :
    (x >>= f) = .error e ↔ x = .error e ∨ ∃ a, x = .ok a ∧ f a = .error e := by
  cases x with
  | error e => simp [bind, Except.bind]
  | ok a => simp [bind, Except.bind]

theorem NoCycle.bind {α β : Type} {x : Except CtxErr α} {f : α → Except CtxErr β} (h : NoCycle x)
    (hf : ∀ a, NoCycle (f a)) : NoCycle (x >>= f) :=
  ⟨fun he => by
    rcases bindErr.1 he with he | ⟨a, _, he⟩
    · exact h.out he
    · exact (hf a).out he⟩

theorem NoCycle.absurd {α : Type} {a : Except CtxErr α} (h : NoCycle a) {P : Prop}
    (he : a = .error .cyclicIriMapping) : P := (h.out he).elim

/-! ## Functions without calls -/

theorem expandRest_nocycle (E : ProcEnv) (s x docRel voc) : NoCycle (expandRest E s x docRel voc) := by
  unfold expandRest; (repeat' split) <;> exact ⟨nofun⟩

theorem expandAbs_nocycle (E : ProcEnv) (s x docRel voc) : NoCycle (expandAbs E s x docRel voc) := by
  unfold expandAbs; split
  · exact ⟨nofun⟩
  · exact expandRest_nocycle ..

theorem stepProtected_nocycle (o x prot) : NoCycle (stepProtected o x prot) := by
  unfold stepProtected; (repeat' split) <;> exact ⟨nofun⟩

theorem typeMapping_nocycle (o t d) : NoCycle (typeMapping o t d) := by
  unfold typeMapping; (repeat' split) <;> exact ⟨nofun⟩

theorem reverseValue_nocycle (t d) : NoCycle (reverseValue t d) := by
  unfold reverseValue; (repeat' split) <;> exact ⟨nofun⟩

theorem reverseContainer_nocycle (x d) : NoCycle (reverseContainer x d) := by
  unfold reverseContainer; (repeat' split) <;> exact ⟨nofun⟩

theorem checkMapping_nocycle (t) : NoCycle (checkMapping t) := by
  unfold checkMapping; (repeat' split) <;> exact ⟨nofun⟩

theorem simplePrefix_nocycle (k b d) : NoCycle (simplePrefix k b d) := by
  unfold simplePrefix; (repeat' split) <;> exact ⟨nofun⟩

theorem implicitRef_nocycle (E : ProcEnv) (c k o) : NoCycle (implicitRef E c k o) := by
  unfold implicitRef; (repeat' split) <;> exact ⟨nofun⟩

theorem implicitVocab_nocycle (E : ProcEnv) (c k) : NoCycle (implicitVocab E c k) := by
  unfold implicitVocab; (repeat' split) <;> exact ⟨nofun⟩

theorem stepKeep_nocycle (o p d) : NoCycle (stepKeep o p d) := by
  unfold stepKeep; (repeat' split) <;> exact ⟨nofun⟩

theorem stepRest_nocycle (R : Rec) (E : ProcEnv) (c k x rc base o d) : NoCycle (stepRest R E c k x rc base o d) := by
  unfold stepRest
  refine NoCycle.bind ?_ fun d => NoCycle.bind ?_ fun d => NoCycle.bind ?_ fun d => NoCycle.bind ?_ fun d =>
    NoCycle.bind ?_ fun d => ?_
  · unfold stepContainer typeContainer; (repeat' split) <;> exact ⟨nofun⟩
  · unfold stepIndex; (repeat' split) <;> exact ⟨nofun⟩
  · unfold stepContext
    split
    · exact ⟨nofun⟩
    · split
      · exact ⟨nofun⟩
      · split
        · rename_i e _
          cases e <;> exact ⟨nofun⟩
        · exact ⟨nofun⟩
  · unfold stepNest; (repeat' split) <;> exact ⟨nofun⟩
  · unfold stepPrefix; (repeat' split) <;> exact ⟨nofun⟩
  · unfold stepPropagate; (repeat' split) <;> exact ⟨nofun⟩

theorem fetch_nocycle (E : ProcEnv) (u) : NoCycle (E.fetch u) := by
  unfold ProcEnv.fetch; (repeat' split) <;> exact ⟨nofun⟩

theorem importOf_nocycle (E : ProcEnv) (d base o) : NoCycle (importOf E d base o) := by
  unfold importOf
  split
  · exact ⟨nofun⟩
  · split
    · exact ⟨nofun⟩
    · split
      · exact ⟨nofun⟩
      · refine (fetch_nocycle ..).bind fun l => ?_
        (repeat' split) <;> exact ⟨nofun⟩

theorem stepBase_nocycle (E : ProcEnv) (m rc c) : NoCycle (stepBase E m rc c) := by
  unfold stepBase; (repeat' split) <;> exact ⟨nofun⟩

theorem stepVocab_nocycle (E : ProcEnv) (m o c) : NoCycle (stepVocab E m o c) := by
  unfold stepVocab; (repeat' split) <;> exact ⟨nofun⟩

theorem stepDefaultDirection_nocycle (m o c) : NoCycle (stepDefaultDirection m o c) := by
  unfold stepDefaultDirection; (repeat' split) <;> exact ⟨nofun⟩

theorem stepPropagation_nocycle (l o) : NoCycle (stepPropagation l o) := by
  unfold stepPropagation; (repeat' split) <;> exact ⟨nofun⟩

/-! ## Terms in progress -/

/-- All terms in progress in the second state are so in the first one. -/
def Shrinks (s s' : DState) : Prop := ∀ t, lookupDef t s'.defd = some true → lookupDef t s.defd = some true

theorem Shrinks.refl (s : DState) : Shrinks s s := fun _ h => h

theorem Shrinks.trans {a b c : DState} (h : Shrinks a b) (h' : Shrinks b c) : Shrinks a c :=
  fun t ht => h t (h' t ht)

theorem shrinks_finish (s : DState) (t : DKey) : Shrinks s (s.finish t) := by
  intro t' ht
  rw [DState.finish, lookupDef_cons] at ht
  split at ht
  · cases ht
  · exact ht

theorem shrinks_done (s : DState) {s' : DState} {t : DKey} (h : Shrinks { s with defd := (t, true) :: s.defd } s') :
    Shrinks s (s'.finish t) := by
  intro t' ht
  rw [DState.finish, lookupDef_cons] at ht
  split at ht
  · cases ht
  · rename_i hne
    have := h t' ht
    rw [lookupDef_cons, if_neg hne] at this
    exact this

theorem Calls.shrinks {R : Rec} {m : Merged} {rc : List Str} {o : Opts}
    (hR : ∀ s s' x, R.define s m (.key x) rc none false o.noOverride = .ok s' → Shrinks s s')
    {s s' : DState} (h : Calls R m rc o s s') : Shrinks s s' := by
  induction h with
  | refl => exact .refl _
  | step x _ hd ih => exact ih.trans (hR _ _ _ hd)

theorem DSteps.shrinks {R : Rec} {m : Merged} {k : Str} {rc : List Str} {o : Opts}
    (hR : ∀ s s' x, R.define s m (.key x) rc none false o.noOverride = .ok s' → Shrinks s s')
    {s s' : DState} (h : DSteps R m k rc o s s') : Shrinks s s' := by
  induction h with
  | refl => exact .refl _
  | step x _ hd ih => exact ih.trans (hR _ _ _ hd)
  | finish _ ih => exact ih.trans (shrinks_finish _ _)

theorem ignored_reverse {b : Option STerm} {v : Str} (h : (STerm.exp b).reverse = some v)
    (hk : isKeywordLike v = true) : Ignored b := by
  cases b with
  | none => cases h
  | some t =>
    cases t with
    | simple s => cases h
    | expanded x => exact .inr ⟨x, v, rfl, h, (C01_form _).1 hk⟩

theorem ignored_id {b : Option STerm} {i : SId} (h : (STerm.exp b).id = some (some i))
    (hk : isKeywordLike i.str = true) (hi : i.isKeyword = false) : Ignored b := by
  cases b with
  | none => cases h
  | some t =>
    cases t with
    | simple s =>
      simp only [STerm.exp, Option.some.injEq] at h
      subst h
      cases hs : SId.ofStr s with
      | keyword k => rw [hs] at hi; cases hi
      | term x =>
        rw [hs] at hk
        have := ofStr_eq_term hs
        subst this
        refine .inl (.inl ⟨s, rfl, (C01_form _).1 hk, ?_⟩)
        intro hm
        unfold SId.ofStr at hs
        split at hs
        · cases hs
        · rename_i hn
          have := (C01_accepts s).2 ⟨_, hm, by simp⟩
          unfold isKeyword at this
          rw [hn] at this
          cases this
    | expanded x =>
      cases i with
      | keyword k => cases hi
      | term s => exact .inl (.inr ⟨x, s, rfl, h, (C01_form _).1 hk⟩)

/-- Nothing is ignored. -/
def NothingIgnored (d : SDef) : Prop := ∀ b ∈ d.bindings, ¬ Ignored b.2

theorem define_shrinks {E : ProcEnv} {d : SDef} (hd : NothingIgnored d) (n : Nat) : ∀ (s s' : DState) (t : DKey)
    (rc : List Str) (base : Option Str) (prot : Bool) (o : Opts),
    (recN E n).define s ⟨d, none⟩ t rc base prot o = .ok s' → Shrinks s s' := by
  induction n with
  | zero => intro s s' t rc base prot o h; cases h
  | succ n ih =>
    intro s s' t rc base prot o h
    have hR : ∀ s s' x, (recN E n).define s ⟨d, none⟩ (.key x) rc none false o.noOverride = .ok s' →
        Shrinks s s' := fun s s' x h => ih s s' (.key x) rc none false _ h
    cases defineBody_ok h with
    | done => exact .refl _
    | noType => exact shrinks_done s (.refl _)
    | type => exact shrinks_done s (s' := ⟨_, (.type, true) :: s.defd⟩) fun _ h => h
    | absent k => exact shrinks_done s (.refl _)
    | term k b s' hl hk hb hr =>
      rw [binding_local] at hb
      have hn := hd _ (lookupKey_mem hb)
      cases hr with
      | reverseKeyword d0 s1 d1 v h0 h1 hv _ _ hk => exact absurd (ignored_reverse hv hk) hn
      | reverse d0 s1 d1 v s2 t d2 d3 h0 h1 _ _ _ _ h2 =>
        exact shrinks_done s (s' := ⟨_, s2.defd⟩) (((stepType_calls h1).shrinks hR).trans
          ((expandWith_calls h2).shrinks hR))
      | idKeyword d0 s1 d1 i h0 h1 _ hi hk hkw => exact absurd (ignored_id hi hk hkw) hn
      | full d0 s1 d1 s2 d2 d3 d4 h0 h1 _ h2 =>
        exact shrinks_done s (s' := ⟨_, s2.defd⟩) (((stepType_calls h1).shrinks hR).trans
          ((stepId_steps h2).shrinks hR))

/-! ## The origin of the error -/

section
variable {E : ProcEnv} {d : SDef} {R : Rec} {rc : List Str} {o : Opts}

/-- The error comes from a call for a term in `P`. -/
def CycleAt (R : Rec) (d : SDef) (rc : List Str) (o : Opts) (s : DState) (P : Str → Prop) : Prop :=
  ∃ s1 u, P u ∧ Shrinks s s1 ∧ R.define s1 ⟨d, none⟩ (.key u) rc none false o.noOverride = .error .cyclicIriMapping

theorem CycleAt.mono {s s' : DState} {P Q : Str → Prop} (h : CycleAt R d rc o s' P) (hs : Shrinks s s')
    (hPQ : ∀ u, P u → Q u) : CycleAt R d rc o s Q := by
  obtain ⟨s1, u, h1, h2, h3⟩ := h
  exact ⟨s1, u, hPQ u h1, hs.trans h2, h3⟩

/-- The calls do not add terms in progress. -/
def Keeps (R : Rec) (d : SDef) (rc : List Str) (o : Opts) : Prop :=
  ∀ s s' x, R.define s ⟨d, none⟩ (.key x) rc none false o.noOverride = .ok s' → Shrinks s s'

theorem expandAfter_error {s : DState} {x : Str} {docRel : Bool} {voc : Option Action}
    (h : expandAfter R E s x docRel voc ⟨d, none⟩ rc o = .error .cyclicIriMapping) :
    CycleAt R d rc o s (HasPrefix E x) := by
  unfold expandAfter at h
  split at h
  · cases h
  · split at h
    · split at h
      · cases h
      · split at h
        · cases h
        · unfold expandCompact at h
          split at h
          · exact (expandAbs_nocycle ..).absurd h
          · rename_i p y hp
            rcases bindErr.1 h with h | ⟨s1, _, h⟩
            · exact ⟨s, p, hasPrefix_iff.2 ⟨y, hp⟩, .refl _, h⟩
            · split at h
              · cases h
              · exact (expandAbs_nocycle ..).absurd h
    · exact (expandRest_nocycle ..).absurd h

theorem expandWith_error (hR : Keeps R d rc o) {s : DState} {v : Option Expandable} {docRel : Bool}
    {voc : Option Action} (h : expandWith R E s v docRel voc ⟨d, none⟩ rc o = .error .cyclicIriMapping) :
    CycleAt R d rc o s fun u => ∃ x, v = some (.string x) ∧ ¬ KeywordForm x ∧ (u = x ∨ HasPrefix E x u) := by
  unfold expandWith at h
  split at h
  · cases h
  · cases h
  · rename_i x
    split at h
    · cases h
    · rename_i hk
      rw [Bool.not_eq_true] at hk
      rcases bindErr.1 h with h | ⟨s1, h1, h⟩
      · exact ⟨s, x, ⟨x, rfl, not_keywordForm.1 hk, .inl rfl⟩, .refl _, h⟩
      · exact (expandAfter_error h).mono (hR _ _ _ h1) fun u hu => ⟨x, rfl, not_keywordForm.1 hk, .inr hu⟩

theorem stepType_error (hR : Keeps R d rc o) {s : DState} {x : SExp} {a : TermDef}
    (h : stepType R E s ⟨d, none⟩ x rc o a = .error .cyclicIriMapping) :
    CycleAt R d rc o s fun u => ∃ y, x.type = some (some (.term y)) ∧ ¬ KeywordForm y ∧ (u = y ∨ HasPrefix E y u) := by
  unfold stepType at h
  split at h
  · cases h
  · rename_i t ht
    rcases bindErr.1 h with h | ⟨r, _, h⟩
    · refine (expandWith_error hR h).mono (.refl _) fun u hu => ?_
      obtain ⟨y, h1, h2⟩ := hu
      refine ⟨y, ?_, h2⟩
      rw [ht]
      cases t with
      | none => cases h1
      | some t =>
        cases t with
        | keyword k => cases h1
        | term z => cases h1; rfl
    · rcases bindErr.1 h with h | ⟨_, _, h⟩
      · exact (typeMapping_nocycle ..).absurd h
      · cases h

theorem stepReverse_error (hR : Keeps R d rc o) {s : DState} {k : Str} {x : SExp} {v : Str} {a : TermDef}
    (h : stepReverse R E s ⟨d, none⟩ k x v rc o a = .error .cyclicIriMapping) :
    CycleAt R d rc o s fun u => ¬ KeywordForm v ∧ (u = v ∨ HasPrefix E v u) := by
  unfold stepReverse at h
  split at h
  · cases h
  · split at h
    · cases h
    · rename_i hk
      rw [Bool.not_eq_true] at hk
      rw [expandable_ofStr hk] at h
      rcases bindErr.1 h with h | ⟨r, _, h⟩
      · refine (expandWith_error hR h).mono (.refl _) fun u hu => ?_
        obtain ⟨y, h1, h2⟩ := hu
        cases h1
        exact h2
      · rcases bindErr.1 h with h | ⟨_, _, h⟩
        · exact (reverseValue_nocycle ..).absurd h
        · rcases bindErr.1 h with h | ⟨_, _, h⟩
          · exact (reverseContainer_nocycle ..).absurd h
          · cases h

theorem implicitId_error {s : DState} {k : Str} {a : TermDef}
    (h : implicitId R E s ⟨d, none⟩ k rc o a = .error .cyclicIriMapping) :
    CycleAt R d rc o s (HasPrefix E k) := by
  unfold implicitId at h
  rcases bindErr.1 h with h | ⟨r, _, h⟩
  · unfold implicitPrefix at h
    split at h
    · cases h
    · rename_i p y hp
      rcases bindErr.1 h with h | ⟨s1, _, h⟩
      · exact ⟨s, p, hasPrefix_iff.2 ⟨y, hp⟩, .refl _, h⟩
      · split at h
        · cases h
        · simp only at h
          split at h <;> cases h
  · split at h
    · cases h
    · rcases bindErr.1 h with h | ⟨w, _, h⟩
      · exact (implicitRef_nocycle ..).absurd h
      · split at h
        · cases h
        · rcases bindErr.1 h with h | ⟨_, _, h⟩
          · exact (implicitVocab_nocycle ..).absurd h
          · cases h

/-- Terms that are done are not reported. -/
def SkipsDone (R : Rec) (d : SDef) (rc : List Str) (o : Opts) : Prop :=
  ∀ s x, lookupDef (.key x) s.defd = some false →
    NoCycle (R.define s ⟨d, none⟩ (.key x) rc none false o.noOverride)

theorem checkTerm_error (hR : Keeps R d rc o) (hD : SkipsDone R d rc o) {s : DState} {k : Str} {a : TermDef}
    (h : checkTerm R E s ⟨d, none⟩ k rc o a = .error .cyclicIriMapping) :
    CycleAt R d rc o s (HasPrefix E k) := by
  unfold checkTerm at h
  split at h
  · rcases bindErr.1 h with h | ⟨r, _, h⟩
    · unfold expandWith at h
      simp only at h
      split at h
      · cases h
      · rcases bindErr.1 h with h | ⟨s1, h1, h⟩
        · exact (hD _ _ (by rw [DState.finish, lookupDef_cons, if_pos rfl])).absurd h
        · exact (expandAfter_error h).mono ((shrinks_finish _ _).trans (hR _ _ _ h1)) fun _ hu => hu
    · split at h <;> cases h
  · cases h

theorem stepId_error (hR : Keeps R d rc o) (hD : SkipsDone R d rc o) {s : DState} {k : Str} {x : SExp}
    {simple : Bool} {a : TermDef} (h : stepId R E s ⟨d, none⟩ k x simple rc o a = .error .cyclicIriMapping) :
    CycleAt R d rc o s fun u => HasPrefix E k u ∨
      ∃ y, x.id = some (some (.term y)) ∧ y ≠ k ∧ ¬ KeywordForm y ∧ (u = y ∨ HasPrefix E y u) := by
  unfold stepId at h
  split at h
  · cases h
  · rename_i i hi
    split at h
    · rcases bindErr.1 h with h | ⟨r, _, h⟩
      · exact (implicitId_error h).mono (.refl _) fun _ hu => .inl hu
      · cases h
    · rename_i hne
      unfold explicitId at h
      split at h
      · cases h
      · rcases bindErr.1 h with h | ⟨r, h1, h⟩
        · refine (expandWith_error hR h).mono (.refl _) fun u hu => .inr ?_
          obtain ⟨y, h1, h2⟩ := hu
          cases i with
          | keyword k => cases h1
          | term z => cases h1; exact ⟨_, hi, fun he => hne (by rw [he]), h2⟩
        · rcases bindErr.1 h with h | ⟨v, _, h⟩
          · exact (checkMapping_nocycle ..).absurd h
          · rcases bindErr.1 h with h | ⟨s', _, h⟩
            · exact (checkTerm_error hR hD h).mono ((expandWith_calls h1).shrinks hR) fun _ hu => .inl hu
            · rcases bindErr.1 h with h | ⟨_, _, h⟩
              · exact (simplePrefix_nocycle ..).absurd h
              · cases h
  · rcases bindErr.1 h with h | ⟨r, _, h⟩
    · exact (implicitId_error h).mono (.refl _) fun _ hu => .inl hu
    · cases h

theorem exp_mentions {k : Str} {b : Option STerm} {y : Str} (hk : ¬ KeywordForm y)
    (h : (STerm.exp b).type = some (some (.term y)) ∨ (STerm.exp b).reverse = some y ∨
      ((STerm.exp b).id = some (some (.term y)) ∧ y ≠ k)) : Mentions k b y := by
  refine ⟨hk, ?_⟩
  cases b with
  | none => rcases h with h | h | ⟨h, _⟩ <;> cases h
  | some t =>
    cases t with
    | expanded x => exact .inr ⟨x, rfl, h⟩
    | simple s =>
      rcases h with h | h | ⟨h, h'⟩
      · cases h
      · cases h
      · simp only [STerm.exp, Option.some.injEq] at h
        exact .inl ⟨by rw [ofStr_eq_term h], h'⟩

theorem defineTerm_error (hR : Keeps R d rc o) (hD : SkipsDone R d rc o) {s : DState} {k : Str} {b : Option STerm}
    {base : Option Str} {prot : Bool} (hb : lookupKey k d.bindings = some b)
    (h : defineTerm R E s ⟨d, none⟩ k b rc base prot o = .error .cyclicIriMapping) :
    CycleAt R d rc o s (RefersTo E d k) := by
  have refers {y u : Str} (hk : ¬ KeywordForm y) (h : (STerm.exp b).type = some (some (.term y)) ∨
      (STerm.exp b).reverse = some y ∨ ((STerm.exp b).id = some (some (.term y)) ∧ y ≠ k))
      (hu : u = y ∨ HasPrefix E y u) : RefersTo E d k u := by
    rcases hu with rfl | hu
    · exact .term b hb (exp_mentions hk h)
    · exact .pre b y hb (exp_mentions hk h) hu
  unfold defineTerm at h
  simp only at h
  rcases bindErr.1 h with h | ⟨d0, _, h⟩
  · exact (stepProtected_nocycle ..).absurd h
  rcases bindErr.1 h with h | ⟨r, h1, h⟩
  · refine CycleAt.mono (stepType_error hR h) (fun _ h => h) fun u hu => ?_
    obtain ⟨y, h1, h2, h3⟩ := hu
    exact refers h2 (.inl h1) h3
  have hs : Shrinks s r.1 := (stepType_calls h1).shrinks hR
  split at h
  · rename_i v hv
    refine (stepReverse_error hR h).mono hs fun u hu => refers hu.1 (.inr (.inl hv)) hu.2
  · unfold finishTerm at h
    rcases bindErr.1 h with h | ⟨q, _, h⟩
    · refine (stepId_error hR hD h).mono hs fun u hu => ?_
      rcases hu with hu | ⟨y, h1, h2, h3, h4⟩
      · exact .name b hb hu
      · exact refers h3 (.inr (.inr ⟨h1, h2⟩)) h4
    · split at h
      · cases h
      · rcases bindErr.1 h with h | ⟨_, _, h⟩
        · exact (stepRest_nocycle ..).absurd h
        · rcases bindErr.1 h with h | ⟨_, _, h⟩
          · exact (stepKeep_nocycle ..).absurd h
          · cases h

end

theorem Chain.snoc {α : Type} {r : α → α → Prop} {a b c : α} (h : Chain r a b) (h' : r b c) : Chain r a c := by
  induction h with
  | one h => exact .step h (.one h')
  | step h _ ih => exact .step h (ih h')

theorem recN_skips (E : ProcEnv) (d : SDef) (rc : List Str) (o : Opts) (n : Nat) : SkipsDone (recN E n) d rc o := by
  intro s x hx
  cases n with
  | zero => exact ⟨nofun⟩
  | succ n =>
    refine ⟨fun h => ?_⟩
    change defineBody _ _ _ _ _ _ _ _ _ = _ at h
    unfold defineBody DState.start at h
    rw [hx] at h
    cases h

/-- A cyclic IRI mapping is reported only for a term on a cycle or with a chain to a term in progress. -/
theorem define_error {E : ProcEnv} {d : SDef} (hd : NothingIgnored d) (n : Nat) : ∀ (s : DState) (t : DKey)
    (rc : List Str) (base : Option Str) (prot : Bool) (o : Opts), lookupDef .type s.defd ≠ some true →
    (recN E n).define s ⟨d, none⟩ t rc base prot o = .error .cyclicIriMapping →
    (∃ a, Chain (RefersTo E d) a a) ∨ ∃ k p, t = .key k ∧ lookupDef (.key p) s.defd = some true ∧
      (k = p ∨ Chain (RefersTo E d) k p) := by
  induction n with
  | zero => intro s t rc base prot o _ h; cases h
  | succ n ih =>
    intro s t rc base prot o ht h
    change defineBody _ _ _ _ _ _ _ _ _ = _ at h
    unfold defineBody DState.start at h
    cases hl : lookupDef t s.defd with
    | some b =>
      rw [hl] at h
      cases b with
      | false => cases h
      | true =>
        cases t with
        | type => exact absurd hl ht
        | key k => exact .inr ⟨k, k, rfl, hl, .inl rfl⟩
    | none =>
      rw [hl] at h
      simp only at h
      unfold defineNew at h
      cases t with
      | type =>
        simp only at h
        split at h
        · cases h
        · rcases bindErr.1 h with h | ⟨_, _, h⟩
          · unfold defineType at h
            split at h <;> cases h
          · cases h
      | key k =>
        simp only at h
        split at h
        · cases h
        · split at h
          · cases h
          · rename_i b hb
            rw [binding_local] at hb
            have hR : Keeps (recN E n) d rc o := fun s s' x h => define_shrinks hd n _ _ _ _ _ _ _ h
            obtain ⟨s1, u, h1, h2, h3⟩ := defineTerm_error hR (recN_skips E d rc o n) hb h
            have ht' : lookupDef .type s1.defd ≠ some true := by
              intro hc
              have := h2 _ hc
              rw [lookupDef_cons, if_neg nofun] at this
              exact ht this
            rcases ih s1 (.key u) rc none false _ ht' h3 with h4 | ⟨k', p, h4, h5, h6⟩
            · exact .inl h4
            · cases h4
              have h7 : Chain (RefersTo E d) k p := by
                rcases h6 with rfl | h6
                · exact .one h1
                · exact .step h1 h6
              have h8 := h2 _ h5
              rw [lookupDef_cons] at h8
              split at h8
              · rename_i he
                cases he
                exact .inl ⟨k, h7⟩
              · exact .inr ⟨k, p, rfl, h8, .inr h7⟩

theorem defineAll_error {E : ProcEnv} {d : SDef} (hd : NothingIgnored d) {n : Nat} {rc : List Str}
    {base : Option Str} {prot : Bool} {o : Opts} : ∀ (bs : List (Str × Option STerm)) (s : DState),
    (∀ t, lookupDef t s.defd ≠ some true) →
    defineAll (recN E n) ⟨d, none⟩ rc base prot o bs s = .error .cyclicIriMapping →
    ∃ a, Chain (RefersTo E d) a a := by
  intro bs
  induction bs with
  | nil => intro s _ h; cases h
  | cons b bs ih =>
    intro s hs h
    unfold defineAll at h
    rcases bindErr.1 h with h | ⟨s1, h1, h⟩
    · rcases define_error hd n _ _ _ _ _ _ (hs _) h with h | ⟨k, p, _, h2, _⟩
      · exact h
      · exact absurd h2 (hs _)
    · exact ih s1 (fun t ht => hs t (define_shrinks hd n _ _ _ _ _ _ _ h1 t ht)) h

theorem processDef_error {E : ProcEnv} {c : ACtx} {d : SDef} {n : Nat} {rc : List Str} {base : Option Str} {o : Opts}
    (hi : d.import_ = none) (hd : NothingIgnored d)
    (h : processDef (recN E n) E c d rc base o = .error .cyclicIriMapping) : ∃ a, Chain (RefersTo E d) a a := by
  unfold processDef at h
  split at h
  · cases h
  · rcases bindErr.1 h with h | ⟨i, h1, h⟩
    · exact (importOf_nocycle ..).absurd h
    have hi' : i = none := by
      rcases importOf_ok h1 with ⟨h, _⟩ | ⟨r, _, _, _, h, _⟩
      · exact h
      · rw [hi] at h; cases h
    subst hi'
    simp only at h
    rcases bindErr.1 h with h | ⟨c1, _, h⟩
    · exact (stepBase_nocycle ..).absurd h
    rcases bindErr.1 h with h | ⟨c2, _, h⟩
    · exact (stepVocab_nocycle ..).absurd h
    rcases bindErr.1 h with h | ⟨c3, _, h⟩
    · exact (stepDefaultDirection_nocycle ..).absurd h
    rcases bindErr.1 h with h | ⟨s1, h5, h⟩
    · unfold defineTypeEntry at h
      split at h
      · rcases define_error hd n _ _ _ _ _ _ (fun hc => by cases hc) h with h | ⟨k, p, _, h2, _⟩
        · exact h
        · cases h2
      · cases h
    rcases bindErr.1 h with h | ⟨s2, _, h⟩
    · refine defineAll_error hd _ _ (fun t ht => ?_) h
      unfold defineTypeEntry at h5
      split at h5
      · have := define_shrinks hd n _ _ _ _ _ _ _ h5 t ht
        cases this
      · cases h5
        cases ht
    · cases h

end JsonLd
