import Verif.Props.ProcessBase
/-!
# C28: definitions are well formed
-/

namespace JsonLd.Props
open JsonLd.Spec

private theorem contains_index (c : Container) : c.contains .index = true ↔ HasIndex c := by
  cases c <;> simp [Container.contains, Container.asSlice, HasIndex]

private theorem contains_type (c : Container) : c.contains .type = true ↔ HasType c := by
  cases c <;> simp [Container.contains, Container.asSlice, HasType]

theorem stepProtected_form {o : Opts} {x : SExp} {prot : Bool} {d : TermDef}
    (h : stepProtected o x prot = .ok d) : ∃ p, d = { protected_ := p } := by
  unfold stepProtected at h
  split at h
  · split at h
    · cases h
    · cases h; exact ⟨_, rfl⟩
  · cases h; exact ⟨_, rfl⟩

theorem typeMapping_form {o : Opts} {t : Option CTerm} {d d' : TermDef}
    (h : typeMapping o t d = .ok d') : ∃ t, d' = { d with typ := t } := by
  unfold typeMapping at h
  split at h
  · cases h; exact ⟨d.typ, rfl⟩
  · split at h
    · cases h
    · split at h
      · cases h; exact ⟨_, rfl⟩
      · cases h

theorem stepType_form {R : Rec} {E : ProcEnv} {s s' : DState} {m : Merged} {x : SExp}
    {rc : List Str} {o : Opts} {d d' : TermDef} (h : stepType R E s m x rc o d = .ok (s', d'))
    (hd : d.typ = none) : ∃ t, d' = { d with typ := t } ∧ (x.type = none → t = none) := by
  rcases stepType_ok h with ⟨h1, h2⟩ | ⟨t, q, h1, _, h2, _⟩
  · cases h2
    exact ⟨d.typ, rfl, fun _ => hd⟩
  · obtain ⟨t', rfl⟩ := typeMapping_form h2
    exact ⟨t', rfl, fun h => by rw [h] at h1; cases h1⟩

/-- What the IRI mapping step gives. -/
private def GoodValue (k : Str) (v : Option CTerm) (p : Bool) : Prop :=
  (∀ s, v ≠ some (.id (.invalid s))) ∧ v ≠ some (.keyword .context) ∧
  (p = true → (':' ∉ k ∧ '/' ∉ k) ∧ ∃ t, v = some t ∧ ∀ w, t ≠ .keyword w)

private theorem checkMapping_good {t v : Option CTerm} (h : checkMapping t = .ok v) :
    (∀ s, v ≠ some (.id (.invalid s))) ∧ v ≠ some (.keyword .context) := by
  unfold checkMapping at h
  split at h
  · cases h
  · rename_i i
    split at h
    · rename_i hi
      cases h
      refine ⟨fun s hs => ?_, nofun⟩
      cases hs
      cases hi
    · cases h
  · rename_i h1 h2
    cases h
    exact ⟨fun s hs => h2 _ hs, fun hs => h1 hs⟩

private theorem stepId_good {R : Rec} {E : ProcEnv} {s s' : DState} {m : Merged} {k : Str} {x : SExp}
    {simple : Bool} {rc : List Str} {o : Opts} {d d' : TermDef} (hv : d.value = none)
    (hp : d.prefix_ = false) (h : stepId R E s m k x simple rc o d = .ok (s', some d')) :
    ∃ v p, d' = { d with value := v, prefix_ := p } ∧ GoodValue k v p := by
  rcases stepId_ok h with ⟨_, h⟩ | ⟨_, d1, h, h1⟩ | ⟨i, _, _, h⟩
  · cases h
    exact ⟨none, false, by cases d; simp_all, nofun, nofun, nofun⟩
  · cases h1
    obtain ⟨q, v, h1, h2, h3⟩ := implicitId_ok h
    cases h2
    refine ⟨some v, false, by cases d; simp_all, ?_⟩
    have : (∃ i, v = .id (.iri i)) ∨ ∃ i, v = .id (.blank i) := by
      rcases h3 with h3 | ⟨_, h3 | ⟨_, h3⟩⟩
      · rcases implicitPrefix_ok h1 with ⟨_, rfl⟩ | ⟨p, y, _, _, ⟨_, h4⟩ | ⟨_, _, _, h4⟩⟩
        · cases h3
        · rw [h3] at h4; cases h4
        · rw [h3] at h4; cases h4; exact .inl ⟨_, rfl⟩
      · rcases implicitRef_ok h3 with h4 | ⟨_, h4⟩ | ⟨_, h4⟩ | ⟨_, _, h4⟩
        · cases h4
        · cases h4; exact .inr ⟨_, rfl⟩
        · cases h4; exact .inl ⟨_, rfl⟩
        · cases h4; exact .inl ⟨_, rfl⟩
      · obtain ⟨_, _, _, rfl⟩ := implicitVocab_ok h3
        exact .inl ⟨_, rfl⟩
    rcases this with ⟨i, rfl⟩ | ⟨i, rfl⟩ <;> exact ⟨nofun, nofun, nofun⟩
  · rcases explicitId_ok h with ⟨_, _, h⟩ | ⟨_, q, v, d1, _, h2, _, h3, h4⟩
    · cases h
    · cases h4
      obtain ⟨h5, h6⟩ := checkMapping_good h2
      unfold simplePrefix at h3
      split at h3
      · rename_i hk
        split at h3
        · cases h3
        · rename_i t ht
          simp only at ht
          split at h3
          · rename_i hg
            cases h3
            refine ⟨v, true, rfl, h5, h6, fun _ => ⟨⟨hk.1, hk.2.1⟩, t, ht, ?_⟩⟩
            rintro w rfl
            cases hg
          · cases h3
            exact ⟨v, false, by cases d; simp_all, h5, h6, nofun⟩
      · cases h3
        exact ⟨v, false, by cases d; simp_all, h5, h6, nofun⟩

theorem typeContainer_form {d d' : TermDef} (h : typeContainer d = .ok d') :
    ∃ t, d' = { d with typ := t } ∧ (HasType d.container → t = some .id ∨ t = some .vocab) ∧
      (¬ HasType d.container → t = d.typ) := by
  unfold typeContainer at h
  split at h
  · rename_i hc
    rw [contains_type] at hc
    split at h
    · cases h; exact ⟨_, rfl, fun _ => .inl rfl, fun hn => absurd hc hn⟩
    · rename_i ht
      cases h; exact ⟨d.typ, rfl, fun _ => .inl ht, fun hn => absurd hc hn⟩
    · rename_i ht
      cases h; exact ⟨d.typ, rfl, fun _ => .inr ht, fun hn => absurd hc hn⟩
    · cases h
  · rename_i hc
    rw [contains_type] at hc
    cases h
    exact ⟨d.typ, rfl, fun hn => absurd hn hc, fun _ => rfl⟩

theorem stepContainer_form {o : Opts} {x : SExp} {d d' : TermDef} (hd : d.container = .none)
    (h : stepContainer o x d = .ok d') :
    ∃ c t, d' = { d with container := c, typ := t } ∧ (HasType c → t = some .id ∨ t = some .vocab) ∧
      (¬ HasType c → t = d.typ) := by
  unfold stepContainer at h
  split at h
  · cases h
    exact ⟨.none, d.typ, by cases d; simp_all, by simp [HasType], fun _ => rfl⟩
  · split at h
    · cases h
    · split at h
      · cases h
      · obtain ⟨t, rfl, h1, h2⟩ := typeContainer_form h
        exact ⟨_, t, rfl, h1, h2⟩

theorem stepIndex_form {E : ProcEnv} {c : ACtx} {o : Opts} {x : SExp} {d d' : TermDef}
    (hd : d.index = none) (h : stepIndex E c o x d = .ok d') :
    ∃ i, d' = { d with index := i } ∧ (i.isSome = true → HasIndex d.container) := by
  unfold stepIndex at h
  split at h
  · cases h
    exact ⟨none, by cases d; simp_all, nofun⟩
  · split at h
    · cases h
    · rename_i hc
      rw [not_or] at hc
      split at h
      · cases h
      · cases h
        exact ⟨_, rfl, fun _ => (contains_index _).1 (by simpa using hc.1)⟩
      · cases h

theorem stepContext_form {R : Rec} {c : ACtx} {o : Opts} {x : SExp} {rc : List Str}
    {base : Option Str} {d d' : TermDef} (h : stepContext R c o x rc base d = .ok d') :
    ∃ l b, d' = { d with context := l, baseUrl := b } := by
  unfold stepContext at h
  split at h
  · cases h; exact ⟨d.context, d.baseUrl, rfl⟩
  · split at h
    · cases h
    · split at h
      · cases h
      · cases h; exact ⟨_, _, rfl⟩

theorem stepLanguage_form (x : SExp) (d : TermDef) :
    ∃ lg dr, stepLanguage x d = { d with language := lg, direction := dr } ∧
      (d.language = none → d.direction = none →
        lg.isSome = true ∨ dr.isSome = true → x.type = none) := by
  unfold stepLanguage
  split
  · exact ⟨d.language, d.direction, rfl, fun h1 h2 h => by simp [h1, h2] at h⟩
  · rename_i ht
    exact ⟨_, _, rfl, fun _ _ _ => by simpa using ht⟩

theorem stepNest_form {o : Opts} {x : SExp} {d d' : TermDef} (h : stepNest o x d = .ok d') :
    ∃ n, d' = { d with nest := n } := by
  unfold stepNest at h
  split at h
  · cases h; exact ⟨d.nest, rfl⟩
  · split at h
    · cases h
    · cases h; exact ⟨_, rfl⟩

private theorem stepPrefix_form {o : Opts} {k : Str} {x : SExp} {d d' : TermDef}
    (hg : GoodValue k d.value d.prefix_) (h : stepPrefix o k x d = .ok d') :
    ∃ p, d' = { d with prefix_ := p } ∧ GoodValue k d.value p := by
  unfold stepPrefix at h
  split at h
  · cases h; exact ⟨d.prefix_, rfl, hg⟩
  · split at h
    · cases h
    · rename_i hk
      simp only [not_or] at hk
      split at h
      · split at h
        · cases h
        · rename_i t ht
          split at h
          · cases h
          · rename_i hw
            cases h
            refine ⟨true, rfl, hg.1, hg.2.1, fun _ => ⟨⟨hk.1, hk.2.1⟩, t, ht, ?_⟩⟩
            rintro w rfl
            exact hw rfl
      · cases h
        exact ⟨false, rfl, hg.1, hg.2.1, nofun⟩

theorem stepKeep_form {o : Opts} {p : Option TermDef} {d d' : TermDef}
    (h : stepKeep o p d = .ok d') : ∃ pr, d' = { d with protected_ := pr } := by
  unfold stepKeep at h
  split at h
  · cases h; exact ⟨d.protected_, rfl⟩
  · split at h
    · cases h; exact ⟨d.protected_, rfl⟩
    · split at h
      · split at h
        · cases h; exact ⟨_, rfl⟩
        · cases h
      · cases h; exact ⟨d.protected_, rfl⟩

private theorem termRun_wf {R : Rec} {E : ProcEnv} {s s2 : DState} {m : Merged} {k : Str}
    {b : Option STerm} {rc : List Str} {base : Option Str} {prot : Bool} {o : Opts}
    {d0 : TermDef} {s1 : DState} {d1 d2 d3 d4 : TermDef}
    (h0 : stepProtected o (STerm.exp b) prot = .ok d0)
    (h1 : stepType R E { s with ctx := s.ctx.eraseNormal k } m (STerm.exp b) rc o d0 = .ok (s1, d1))
    (h2 : stepId R E s1 m k (STerm.exp b) (STerm.isSimple b) rc o d1 = .ok (s2, some d2))
    (h3 : stepRest R E s2.ctx k (STerm.exp b) rc base o d2 = .ok d3)
    (h4 : stepKeep o (s.ctx.getNormal k) d3 = .ok d4) : WellFormed k d4 := by
  obtain ⟨p0, rfl⟩ := stepProtected_form h0
  obtain ⟨t1, rfl, ht1⟩ := stepType_form h1 rfl
  obtain ⟨v, p1, rfl, hv⟩ := stepId_good rfl rfl h2
  unfold stepRest at h3
  simp only [bindOk] at h3
  obtain ⟨e1, g1, e2, g2, e3, g3, e4, g4, e5, g5, g6⟩ := h3
  obtain ⟨lg, dr, hl, hlt⟩ := stepLanguage_form (STerm.exp b) e3
  rw [hl] at g4
  obtain ⟨c, t2, rfl, hc1, hc2⟩ := stepContainer_form rfl g1
  obtain ⟨i, rfl, hi⟩ := stepIndex_form rfl g2
  obtain ⟨l, bu, rfl⟩ := stepContext_form g3
  obtain ⟨n, rfl⟩ := stepNest_form g4
  have h5 : stepPropagate (STerm.exp b) e5 = .ok d3 := g6
  have h6 : d3 = e5 := by
    unfold stepPropagate at h5
    split at h5
    · cases h5
    · cases h5; rfl
  subst h6
  obtain ⟨p2, rfl, hp2⟩ := stepPrefix_form (by exact hv) g5
  obtain ⟨pr, rfl⟩ := stepKeep_form h4
  refine ⟨hp2.1, hp2.2.1, nofun, nofun, nofun, hi, hc1, fun h => (hp2.2.2 h).1, fun h => (hp2.2.2 h).2, ?_⟩
  intro h
  by_cases hc : HasType c
  · exact .inr hc
  · left
    have := hc2 hc
    show t2 = none
    rw [this]
    exact ht1 (hlt rfl rfl h)

private theorem reverse_wf {k : Str} {x : SExp} {p : Bool} {t1 : Option TypeMap} {t : Option CTerm}
    {d2 d3 : TermDef} (h1 : reverseValue t { protected_ := p, typ := t1 } = .ok d2)
    (h2 : reverseContainer x d2 = .ok d3) : WellFormed k { d3 with reverse := true } := by
  unfold reverseValue at h1
  split at h1
  · rename_i i
    split at h1
    · rename_i hi
      cases h1
      have hv : ∀ s, some (CTerm.id i) ≠ some (.id (.invalid s)) := by
        intro s hs
        cases hs
        cases hi
      have hc : ∃ c, d3 = { value := some (.id i), protected_ := p, typ := t1, container := c } ∧
          (c = .none ∨ c = .set ∨ c = .index) := by
        unfold reverseContainer at h2
        split at h2
        · cases h2; exact ⟨.none, rfl, .inl rfl⟩
        · cases h2; exact ⟨.none, rfl, .inl rfl⟩
        · split at h2
          · cases h2; exact ⟨.set, rfl, .inr (.inl rfl)⟩
          · cases h2; exact ⟨.index, rfl, .inr (.inr rfl)⟩
          · cases h2
      obtain ⟨c, rfl, hc⟩ := hc
      refine ⟨hv, nofun, fun _ => hc, fun _ => ⟨i, rfl⟩, fun _ => rfl, nofun, ?_, nofun, nofun, ?_⟩
      · rintro (h | h) <;> rcases hc with rfl | rfl | rfl <;> cases h
      · rintro (h | h) <;> cases h
    · cases h1
  · cases h1

private theorem wf_set {c : ACtx} {k : Str} {d : TermDef} (hc : WellFormedCtx c) (hd : WellFormed k d) :
    WellFormedCtx (c.setNormal k d) := by
  intro k' d' h
  have h : (c.setNormal k d).getNormal k' = some d' := h
  rw [getNormal_set] at h
  split at h
  · rename_i hk
    cases h
    subst hk
    exact hd
  · exact hc k' d' h

private theorem wf_erase {c : ACtx} {k : Str} (hc : WellFormedCtx c) : WellFormedCtx (c.eraseNormal k) := by
  intro k' d' h
  have h : (c.eraseNormal k).getNormal k' = some d' := h
  rw [getNormal_erase] at h
  split at h
  · cases h
  · exact hc k' d' h

private theorem wf_rel : DefRel fun c c' => WellFormedCtx c → WellFormedCtx c' :=
  ⟨fun _ h => h, fun _ _ _ h h' hc => h' (h hc)⟩

private theorem define_wf (E : ProcEnv) (n : Nat) : ∀ (s s' : DState) (m : Merged)
    (t : DKey) (rc : List Str) (base : Option Str) (prot : Bool) (o : Opts),
    (recN E n).define s m t rc base prot o = .ok s' → WellFormedCtx s.ctx → WellFormedCtx s'.ctx := by
  induction n with
  | zero => intro s s' m t rc base prot o h; cases h
  | succ n ih =>
    intro s s' m t rc base prot o h hs
    have hR : ∀ s s' x, (recN E n).define s m (.key x) rc none false o.noOverride = .ok s' →
        WellFormedCtx s.ctx → WellFormedCtx s'.ctx :=
      fun s s' x h => ih s s' m (.key x) rc none false _ h
    cases defineBody_ok h with
    | done => exact hs
    | noType => exact hs
    | type => exact hs
    | absent => exact hs
    | term k' b s' hl hk hb hr =>
      have he := wf_erase (k := k') hs
      cases hr with
      | reverseKeyword d0 s1 d1 v h0 h1 => exact (stepType_calls h1).rel wf_rel hR he
      | reverse d0 s1 d1 v s2 t d2 d3 h0 h1 _ _ _ _ h2 h3 h4 =>
        obtain ⟨p0, rfl⟩ := stepProtected_form h0
        have h5 := (expandWith_calls h2).rel wf_rel hR ((stepType_calls h1).rel wf_rel hR he)
        obtain ⟨t1, rfl, _⟩ := stepType_form h1 rfl
        exact wf_set h5 (reverse_wf h3 h4)
      | idKeyword d0 s1 d1 i h0 h1 => exact (stepType_calls h1).rel wf_rel hR he
      | full d0 s1 d1 s2 d2 d3 d4 h0 h1 _ h2 h3 h4 =>
        have h5 := (stepId_steps h2).rel wf_rel hR ((stepType_calls h1).rel wf_rel hR he)
        exact wf_set h5 (termRun_wf h0 h1 h2 h3 h4)

private theorem wf_new (base : Option Str) : WellFormedCtx (ACtx.new base) := by
  intro k d h
  have h : lookupKey k ([] : List (Str × TermDef)) = some d := h
  simp [lookupKey] at h

private theorem process_wf (E : ProcEnv) (n : Nat) :
    ∀ (c c' : ACtx) (l : SCtx) (rc : List Str) (base : Option Str) (o : Opts),
    (recN E n).process c l rc base o = .ok c' → WellFormedCtx c → WellFormedCtx c' := by
  induction n with
  | zero => intro c c' l rc base o h; cases h
  | succ n ih =>
    intro c c' l rc base o h hc
    obtain ⟨o', h1, h2⟩ := processBody_ok h
    have hs : WellFormedCtx (startContext c o') := by unfold startContext; split <;> exact hc
    obtain ⟨_, hI⟩ := entries_inv (I := fun c1 _ => WellFormedCtx c1) l.entries _ _ rc hs
      (fun e he c1 c2 rc1 rc2 hI hr => by
        cases hr with
        | null => exact wf_new c1.originalBase
        | skip => exact hI
        | ref r u l' _ _ _ h8 h9 => exact ih _ _ _ _ _ _ h9 hI
        | defn d' _ h6 =>
          obtain ⟨i, b1, v, lg, dir, h7, _, h8⟩ := processDef_rel h6
          exact h8 wf_rel (fun s s' t prot h => define_wf E n s s' _ t _ base prot o' h) hI) h2
    exact hI

/-- C28: processing keeps all term definitions well formed, from any context (in particular from the
initial one), for any local context. -/
theorem C28_wellFormed (E : ProcEnv) (c c' : ACtx) (l : SCtx) (base : Option Str) (o : Opts)
    (hc : WellFormedCtx c) (h : Processed E c l base o (.ok c')) : WellFormedCtx c' := by
  obtain ⟨_, n, h⟩ := h
  exact process_wf E n c c' l [] base o h hc

/-- The initial context is well formed. -/
theorem C28_initial (base : Option Str) : WellFormedCtx (ACtx.new base) := wf_new base

/-- C28 fails for keywords: a context may bind one, e.g. `{"@graph": "http:x"}` (the entry is
accepted; it has no effect on the expansion of `@graph`, see `C33_keywords`). -/
theorem C28_keyword_bound :
    ((recN exProcEnv 9).process {} (.one (.defn { SDef.empty with bindings :=
        [("@graph".toList, some (.simple "http:x".toList))] })) [] none {}).map
      (fun c => (c.getNormal "@graph".toList).map (·.value)) =
      .ok (some (some (.id (.iri "http:x".toList)))) := by
  decide +kernel

/-- An index map. -/
def exIndexMap : SExp :=
  { SExp.empty with id := some (some (.term "p:i".toList)), container := some (some (.one .index)), index := some "p:j".toList }

/-- A prefix, an index map and a reverse property. -/
def exKinds : SDef := { SDef.empty with bindings := [("p".toList, some (.simple "http:x/".toList)),
  ("i".toList, some (.expanded exIndexMap)),
  ("r".toList, some (.expanded { SExp.empty with reverse := some "p:r".toList }))] }

/-- They are accepted. -/
example : ((recN exProcEnv 9).process {} (.one (.defn exKinds)) [] none {}).map
      (fun c => c.defs.map fun b => (b.2.value, b.2.prefix_, b.2.reverse)) =
    .ok [(some (.id (.iri "http:x/r".toList)), false, true),
      (some (.id (.iri "http:x/i".toList)), false, false),
      (some (.id (.iri "http:x/".toList)), true, false)] := by
  decide +kernel

end JsonLd.Props
