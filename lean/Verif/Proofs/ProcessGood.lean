import Verif.Props.ProcessWf
import Verif.Proofs.ExpandGood
/-!
# Context processing keeps identifiers of the kind their texts say
-/

namespace JsonLd
open JsonLd.Spec JsonLd.Props

/-- The identifiers of a term definition are of the kind their texts say. -/
structure DefGood (env : IriEnv) (d : TermDef) : Prop where
  value : ∀ i, d.value = some (.id i) → GoodId env i
  typ : ∀ t, d.typ = some (.iri t) → env.isIri t = true

theorem goodCtx_def {env : IriEnv} {c : ACtx} (h : GoodCtx env c) {k : Str} {d : TermDef}
    (hk : c.getNormal k = some d) : DefGood env d := by
  cases h with
  | intro _ h1 h2 h3 => exact ⟨fun i hi => h1 k d i hk hi, fun t ht => h2 k d t hk ht⟩

theorem goodCtx_previous {env : IriEnv} {c p : ACtx} (h : GoodCtx env c) (hp : c.previous = some p) :
    GoodCtx env p := by
  cases h with
  | intro _ h1 h2 h3 => exact h3 p hp

theorem goodCtx_of {env : IriEnv} {c : ACtx} (h : ∀ k d, c.getNormal k = some d → DefGood env d)
    (hp : ∀ p, c.previous = some p → GoodCtx env p) : GoodCtx env c :=
  .intro c (fun k d i hk hi => (h k d hk).value i hi) (fun k d t hk ht => (h k d hk).typ t ht) hp

theorem goodCtx_set {env : IriEnv} {c : ACtx} {k : Str} {d : TermDef} (hc : GoodCtx env c)
    (hd : DefGood env d) : GoodCtx env (c.setNormal k d) := by
  refine goodCtx_of (fun k' d' h => ?_) fun p hp => goodCtx_previous hc hp
  rw [getNormal_set] at h
  split at h
  · cases h; exact hd
  · exact goodCtx_def hc h

theorem goodCtx_erase {env : IriEnv} {c : ACtx} {k : Str} (hc : GoodCtx env c) :
    GoodCtx env (c.eraseNormal k) := by
  refine goodCtx_of (fun k' d' h => ?_) fun p hp => goodCtx_previous hc hp
  rw [getNormal_erase] at h
  split at h
  · cases h
  · exact goodCtx_def hc h

theorem goodCtx_new (env : IriEnv) (base : Option Str) : GoodCtx env (ACtx.new base) :=
  goodCtx_of (fun k d h => by simp [ACtx.getNormal, ACtx.new, lookupKey] at h) nofun

theorem goodId_blank {env : IriEnv} (f : EnvFacts env) {s : Str} (h : env.isBlank s = true) :
    GoodId env (.blank s) := by
  refine ⟨?_, h⟩
  rw [← Bool.not_eq_true]
  intro hi
  rw [notBlank_of_iri f hi] at h
  cases h

theorem goodCtx_rel (env : IriEnv) : DefRel fun c c' => GoodCtx env c → GoodCtx env c' :=
  ⟨fun _ h => h, fun _ _ _ h h' hc => h' (h hc)⟩

section
variable {R : Rec} {E : ProcEnv}

theorem expandTerm_good {c : ACtx} (hc : GoodCtx E.toIriEnv c) {x : Str} {voc : Option Action} {i : Id}
    (h : expandTerm c x voc = some (.id i)) : GoodId E.toIriEnv i := by
  unfold expandTerm at h
  split at h
  · cases h
  · rename_i v hv
    split at h
    · rename_i t
      split at h
      · cases h
        unfold ACtx.getValue at hv
        split at hv
        · cases htd : c.typeDef with
          | none => rw [htd] at hv; cases hv
          | some b => rw [htd] at hv; cases hv
        · cases hd : c.getNormal x with
          | none => rw [hd] at hv; cases hv
          | some d =>
            rw [hd] at hv
            exact (goodCtx_def hc hd).value i (Option.some.inj hv)
      · cases h
    · split at h <;> cases h

theorem expandTail_good (f : EnvFacts E.toIriEnv) {c : ACtx} {x : Str} {docRel : Bool}
    {voc : Option Action} {i : Id} (hx : colonInside x = true → E.isBlank x = false ∧ E.isIri x = false)
    (h : expandTail E.toIriEnv c x docRel voc = .ok (some (.id i))) : GoodId E.toIriEnv i := by
  have hinv : GoodId E.toIriEnv (.invalid x) := goodId_noColon f fun hc => by
    have := hx (by
      obtain ⟨p, y, hs, h1, h2⟩ := hc
      unfold colonInside
      rw [splitOnce_eq_some.2 ⟨hs, h1⟩]
      simpa using h2)
    exact ⟨this.2, this.1⟩
  unfold expandTail at h
  split at h
  · split at h
    · cases h; exact goodId_classify _
    · cases h
    · cases h
  · cases h; exact hinv
  · split at h
    · split at h
      · rename_i iri hr
        cases h
        unfold resolveIri at hr
        split at hr
        · cases hr; exact f.resolve _ _
        · split at hr
          · cases hr; assumption
          · cases hr
      · cases h; exact hinv
    · cases h; exact hinv

theorem expandPrefix_good {c : ACtx} {p y : Str} {i : Id}
    (h : expandPrefix E.toIriEnv c p y = some (.id i)) : GoodId E.toIriEnv i := by
  unfold expandPrefix at h
  split at h
  · cases h
  · split at h
    · rename_i d hd hp
      cases hv : d.value with
      | none => rw [hv] at h; cases h
      | some v =>
        rw [hv] at h
        cases h
        exact goodId_classify _
    · cases h

theorem expandAfter_good (f : EnvFacts E.toIriEnv) {s : DState} {x : Str} {docRel : Bool}
    {voc : Option Action} {m : Merged} {rc : List Str} {o : Opts} {s' : DState} {i : Id}
    (hc : GoodCtx E.toIriEnv s'.ctx)
    (h : expandAfter R E s x docRel voc m rc o = .ok (s', some (.id i))) : GoodId E.toIriEnv i := by
  rcases expandAfter_ok h with ⟨h1, t, ht, h2⟩ | ⟨_, ⟨h1, hx, hb, h2⟩ | ⟨h1, hb, hx, h2⟩ | ⟨h1, hx, h2⟩ |
    ⟨h1, _, _, _, _, hi, h2⟩ | ⟨hx, hb, he, p, y, hq, h1, ⟨t, ht, h2⟩ | ⟨_, ⟨hi, h2⟩ | ⟨hi, h2⟩⟩⟩⟩
  · simp only at h1 h2
    subst h1
    cases h2
    exact expandTerm_good hc ht
  · cases h2; exact goodId_blank f hb
  · cases h2
    refine ⟨?_, hb⟩
    rw [← Bool.not_eq_true]
    intro hi
    subst hx
    obtain ⟨p, x, hs, hc, h0, _, hne⟩ := f.scheme _ hi
    cases p with
    | nil => exact h0 rfl
    | cons a p =>
      cases p with
      | nil => simp only [List.cons_append, List.nil_append, List.cons.injEq] at hs; exact hne (by rw [← hs.1])
      | cons b p =>
        simp only [List.cons_append, List.cons.injEq] at hs
        exact hc (by simp [← hs.2.1])
  · exact expandTail_good f (fun hc => ⟨(hx hc).1, (hx hc).2.2.2⟩) h2
  · cases h2; exact hi
  · cases h2; exact expandPrefix_good ht
  · cases h2; exact hi
  · exact expandTail_good f (fun _ => ⟨hb, hi⟩) h2

theorem expandWith_good (f : EnvFacts E.toIriEnv) {s : DState} {v : Option Expandable} {docRel : Bool}
    {voc : Option Action} {m : Merged} {rc : List Str} {o : Opts} {s' : DState} {i : Id}
    (hc : GoodCtx E.toIriEnv s'.ctx)
    (h : expandWith R E s v docRel voc m rc o = .ok (s', some (.id i))) : GoodId E.toIriEnv i := by
  rcases expandWith_ok h with ⟨h1, ⟨_, h2⟩ | ⟨k, _, h2⟩ | ⟨x, _, _, h2⟩⟩ | ⟨x, s1, _, _, _, h2⟩
  · cases h2
  · cases h2
  · cases h2
  · exact expandAfter_good f hc h2

theorem typeMapping_good {o : Opts} {t : Option CTerm} {d d' : TermDef}
    (ht : ∀ i, t = some (.id i) → GoodId E.toIriEnv i) (hd : DefGood E.toIriEnv d)
    (h : typeMapping o t d = .ok d') : DefGood E.toIriEnv d' := by
  unfold typeMapping at h
  split at h
  · cases h; exact hd
  · split at h
    · cases h
    · split at h
      · rename_i x _ _ hx
        cases h
        refine ⟨hd.value, fun u hu => ?_⟩
        cases hu
        have : ∀ t : CTerm, TypeMap.ofTerm t = some (.iri u) → t = .id (.iri u) := by
          intro t
          unfold TypeMap.ofTerm
          split <;> intro h <;> cases h
          rfl
        rw [this _ hx] at ht
        exact ht _ rfl
      · cases h

theorem stepType_good (f : EnvFacts E.toIriEnv) {s s' : DState} {m : Merged} {x : SExp}
    {rc : List Str} {o : Opts} {d d' : TermDef} (hc : GoodCtx E.toIriEnv s'.ctx)
    (hd : DefGood E.toIriEnv d) (h : stepType R E s m x rc o d = .ok (s', d')) :
    DefGood E.toIriEnv d' := by
  rcases stepType_ok h with ⟨h1, h2⟩ | ⟨t, ⟨s1, q⟩, h1, h2, h3, h4⟩
  · cases h2; exact hd
  · simp only at h4
    subst h4
    refine typeMapping_good (fun i hi => ?_) hd h3
    simp only at hi
    subst hi
    exact expandWith_good f hc h2

theorem defGood_setValue {env : IriEnv} {d : TermDef} {v : Option CTerm} (hd : DefGood env d)
    (hv : ∀ i, v = some (.id i) → GoodId env i) : DefGood env { d with value := v } :=
  ⟨hv, hd.typ⟩

theorem checkMapping_eq {t v : Option CTerm} (h : checkMapping t = .ok v) : t = v := by
  unfold checkMapping at h
  split at h
  · cases h
  · split at h
    · cases h; rfl
    · cases h
  · cases h; rfl

theorem stepId_goodId (f : EnvFacts E.toIriEnv) {s s' : DState} {m : Merged} {k : Str} {x : SExp}
    {simple : Bool} {rc : List Str} {o : Opts} {d d' : TermDef}
    (hR : ∀ s s' x, R.define s m (.key x) rc none false o.noOverride = .ok s' →
      GoodCtx E.toIriEnv s.ctx → GoodCtx E.toIriEnv s'.ctx)
    (hc : GoodCtx E.toIriEnv s.ctx) (hd : DefGood E.toIriEnv d)
    (h : stepId R E s m k x simple rc o d = .ok (s', some d')) : DefGood E.toIriEnv d' := by
  rcases stepId_ok h with ⟨_, h⟩ | ⟨_, d1, h, h1⟩ | ⟨i, _, _, h⟩
  · cases h; exact hd
  · cases h1
    obtain ⟨⟨s1, q⟩, v, h1, h2, h3⟩ := implicitId_ok h
    cases h2
    refine defGood_setValue hd fun i hi => ?_
    cases hi
    rcases h3 with h3 | ⟨_, h3 | ⟨_, h3⟩⟩
    · rcases implicitPrefix_ok h1 with ⟨_, h4⟩ | ⟨p, y, _, _, ⟨_, h4⟩ | ⟨_, _, hi, h4⟩⟩
      · cases h4; cases h3
      · rw [h3] at h4; cases h4
      · rw [h3] at h4; cases h4; exact hi
    · rcases implicitRef_ok h3 with h4 | ⟨hb, h4⟩ | ⟨hi, h4⟩ | ⟨u, h5, h4⟩
      · cases h4
      · cases h4; exact goodId_blank f hb
      · cases h4; exact hi
      · cases h4
        refine expandStr_good f ?_ h5
        rcases implicitPrefix_ok h1 with ⟨_, h4⟩ | ⟨p, y, _, hd, _⟩
        · cases h4; exact hc
        · exact hR _ _ _ hd hc
    · obtain ⟨_, _, hi, h4⟩ := implicitVocab_ok h3
      cases h4
      exact hi
  · rcases explicitId_ok h with ⟨_, _, h⟩ | ⟨_, ⟨s1, q⟩, v, d1, h1, h2, _, h3, h4⟩
    · cases h
    · cases h4
      have hs1 : GoodCtx E.toIriEnv s1.ctx := (expandWith_calls h1).rel (goodCtx_rel _) hR hc
      have hv : ∀ i, v = some (.id i) → GoodId E.toIriEnv i := by
        intro i hi
        subst hi
        have := checkMapping_eq h2
        simp only at this
        subst this
        exact expandWith_good f hs1 h1
      unfold simplePrefix at h3
      split at h3
      · split at h3
        · cases h3
        · split at h3
          · cases h3; exact ⟨hv, hd.typ⟩
          · cases h3; exact ⟨hv, hd.typ⟩
      · cases h3; exact ⟨hv, hd.typ⟩

theorem stepContainer_good {o : Opts} {x : SExp} {d d' : TermDef} (hd : DefGood E.toIriEnv d)
    (h : stepContainer o x d = .ok d') : DefGood E.toIriEnv d' := by
  unfold stepContainer at h
  split at h
  · cases h; exact hd
  · split at h
    · cases h
    · split at h
      · cases h
      · rename_i c _
        have hd1 : DefGood E.toIriEnv { d with container := c } := ⟨hd.value, hd.typ⟩
        obtain ⟨t, rfl, h1, h2⟩ := typeContainer_form h
        refine ⟨hd.value, fun u hu => ?_⟩
        by_cases hT : HasType c
        · rcases h1 hT with h1 | h1 <;> rw [h1] at hu <;> cases hu
        · exact hd.typ u ((h2 hT).symm.trans hu)

theorem stepIndex_good {c : ACtx} {o : Opts} {x : SExp} {d d' : TermDef} (hd : DefGood E.toIriEnv d)
    (h : stepIndex E c o x d = .ok d') : DefGood E.toIriEnv d' := by
  unfold stepIndex at h
  split at h
  · cases h; exact hd
  · split at h
    · cases h
    · split at h
      · cases h
      · cases h; exact ⟨hd.value, hd.typ⟩
      · cases h

theorem stepPrefix_good {o : Opts} {k : Str} {x : SExp} {d d' : TermDef} (hd : DefGood E.toIriEnv d)
    (h : stepPrefix o k x d = .ok d') : DefGood E.toIriEnv d' := by
  unfold stepPrefix at h
  split at h
  · cases h; exact hd
  · split at h
    · cases h
    · split at h
      · split at h
        · cases h
        · split at h
          · cases h
          · cases h; exact ⟨hd.value, hd.typ⟩
      · cases h; exact ⟨hd.value, hd.typ⟩

theorem stepRest_good {c : ACtx} {k : Str} {x : SExp} {rc : List Str} {base : Option Str} {o : Opts}
    {d d' : TermDef} (hd : DefGood E.toIriEnv d) (h : stepRest R E c k x rc base o d = .ok d') :
    DefGood E.toIriEnv d' := by
  unfold stepRest at h
  simp only [bindOk] at h
  obtain ⟨e1, g1, e2, g2, e3, g3, e4, g4, e5, g5, g6⟩ := h
  have hd := stepContainer_good hd g1
  have hd := stepIndex_good hd g2
  obtain ⟨l, bu, rfl⟩ := stepContext_form g3
  obtain ⟨lg, dr, hl, -⟩ := stepLanguage_form x { e2 with context := l, baseUrl := bu }
  rw [hl] at g4
  obtain ⟨n, rfl⟩ := stepNest_form g4
  have hd := stepPrefix_good (E := E) (by exact ⟨hd.value, hd.typ⟩) g5
  have h5 : stepPropagate x e5 = .ok d' := g6
  unfold stepPropagate at h5
  split at h5
  · cases h5
  · cases h5; exact hd

theorem reverse_good {x : SExp} {d d2 d3 : TermDef} {t : Option CTerm}
    (hd : DefGood E.toIriEnv d) (ht : ∀ i, t = some (.id i) → GoodId E.toIriEnv i)
    (h1 : reverseValue t d = .ok d2) (h2 : reverseContainer x d2 = .ok d3) :
    DefGood E.toIriEnv { d3 with reverse := true } := by
  have hd2 : DefGood E.toIriEnv d2 := by
    unfold reverseValue at h1
    split at h1
    · split at h1
      · cases h1
        exact ⟨fun i hi => ht i hi, hd.typ⟩
      · cases h1
    · cases h1
  unfold reverseContainer at h2
  split at h2
  · cases h2; exact ⟨hd2.value, hd2.typ⟩
  · cases h2; exact ⟨hd2.value, hd2.typ⟩
  · split at h2
    · cases h2; exact ⟨hd2.value, hd2.typ⟩
    · cases h2; exact ⟨hd2.value, hd2.typ⟩
    · cases h2

end

theorem define_good (E : ProcEnv) (f : EnvFacts E.toIriEnv) (n : Nat) : ∀ (s s' : DState) (m : Merged)
    (t : DKey) (rc : List Str) (base : Option Str) (prot : Bool) (o : Opts),
    (recN E n).define s m t rc base prot o = .ok s' → GoodCtx E.toIriEnv s.ctx →
      GoodCtx E.toIriEnv s'.ctx := by
  induction n with
  | zero => intro s s' m t rc base prot o h; cases h
  | succ n ih =>
    intro s s' m t rc base prot o h hs
    have hR : ∀ s s' x, (recN E n).define s m (.key x) rc none false o.noOverride = .ok s' →
        GoodCtx E.toIriEnv s.ctx → GoodCtx E.toIriEnv s'.ctx :=
      fun s s' x h => ih s s' m (.key x) rc none false _ h
    cases defineBody_ok h with
    | done => exact hs
    | noType => exact hs
    | type => exact goodCtx_of (fun k d h => goodCtx_def hs h) fun p hp => goodCtx_previous hs hp
    | absent => exact hs
    | term k' b s' hl hk hb hr =>
      have he := goodCtx_erase (k := k') hs
      have h0d : ∀ {d0}, stepProtected o (STerm.exp b) prot = .ok d0 → DefGood E.toIriEnv d0 := by
        intro d0 h0
        obtain ⟨p0, rfl⟩ := stepProtected_form h0
        exact ⟨nofun, nofun⟩
      cases hr with
      | reverseKeyword d0 s1 d1 v h0 h1 => exact (stepType_calls h1).rel (goodCtx_rel _) hR he
      | reverse d0 s1 d1 v s2 t d2 d3 h0 h1 _ _ _ _ h2 h3 h4 =>
        have hs1 := (stepType_calls h1).rel (goodCtx_rel _) hR he
        have hs2 := (expandWith_calls h2).rel (goodCtx_rel _) hR hs1
        exact goodCtx_set hs2 (reverse_good (stepType_good f hs1 (h0d h0) h1)
          (fun i hi => by subst hi; exact expandWith_good f hs2 h2) h3 h4)
      | idKeyword d0 s1 d1 i h0 h1 => exact (stepType_calls h1).rel (goodCtx_rel _) hR he
      | full d0 s1 d1 s2 d2 d3 d4 h0 h1 _ h2 h3 h4 =>
        have hs1 := (stepType_calls h1).rel (goodCtx_rel _) hR he
        have hs2 := (stepId_steps h2).rel (goodCtx_rel _) hR hs1
        have hd := stepRest_good (stepId_goodId f hR hs1 (stepType_good f hs1 (h0d h0) h1) h2) h3
        obtain ⟨pr, rfl⟩ := stepKeep_form h4
        exact goodCtx_set hs2 ⟨hd.value, hd.typ⟩

theorem process_good (E : ProcEnv) (f : EnvFacts E.toIriEnv) (n : Nat) :
    ∀ (c c' : ACtx) (l : SCtx) (rc : List Str) (base : Option Str) (o : Opts),
    (recN E n).process c l rc base o = .ok c' → GoodCtx E.toIriEnv c → GoodCtx E.toIriEnv c' := by
  induction n with
  | zero => intro c c' l rc base o h; cases h
  | succ n ih =>
    intro c c' l rc base o h hc
    obtain ⟨o', h1, h2⟩ := processBody_ok h
    have hs : GoodCtx E.toIriEnv (startContext c o') := by
      unfold startContext
      split
      · exact goodCtx_of (fun k d h => goodCtx_def hc h) fun p hp => by cases hp; exact hc
      · exact hc
    obtain ⟨_, hI⟩ := entries_inv (I := fun c1 _ => GoodCtx E.toIriEnv c1) l.entries _ _ rc hs
      (fun e he c1 c2 rc1 rc2 hI hr => by
        cases hr with
        | null =>
          refine goodCtx_of (fun k d h => by simp [ACtx.getNormal, ACtx.new, lookupKey] at h) fun p hp => ?_
          simp only at hp
          split at hp
          · cases hp
          · cases hp; exact hI
        | skip => exact hI
        | ref r u l' _ _ _ h8 h9 => exact ih _ _ _ _ _ _ h9 hI
        | defn d' _ h6 =>
          obtain ⟨i, b1, v, lg, dir, h7, _, h8⟩ := processDef_rel h6
          refine h8 (goodCtx_rel _)
            (fun s s' t prot h => define_good E f n s s' _ t _ base prot o' h) ?_
          exact goodCtx_of (fun k d h => goodCtx_def hI h) fun p hp => goodCtx_previous hI hp) h2
    exact hI

/-- Context processing keeps the identifiers in the context of the kind their texts say. -/
theorem processed_good {E : ProcEnv} (f : EnvFacts E.toIriEnv) {c c' : ACtx} {l : SCtx}
    {base : Option Str} {o : Opts} (hc : GoodCtx E.toIriEnv c)
    (h : Processed E c l base o (.ok c')) : GoodCtx E.toIriEnv c' := by
  obtain ⟨_, n, h⟩ := h
  exact process_good E f n c c' l [] base o h hc

end JsonLd
