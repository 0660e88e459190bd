import Verif.Proofs.SaysUnique
import Verif.Proofs.SaysIgnored
import Verif.Props.Says
/-!
# C89: the order of terms
-/

namespace JsonLd.Props

open Spec Say

/-- What there is after the type entry and before the terms. -/
theorem defineTypeEntry_ctx {E : ProcEnv} {m : Merged} {n : Nat} {rc : List Str} {base : Option Str} {o : Opts}
    {c : ACtx} {s : DState} (h : defineTypeEntry (recN E n) m rc base o ⟨c, []⟩ = .ok s) :
    (m.type = none ∧ s.ctx = c) ∨ ∃ p, m.type = some p ∧
      s.ctx = { c with typeDef := some (if !o.override && c.typeDef == some true then true else p.getD false) } := by
  unfold defineTypeEntry at h
  split at h
  · cases n with
    | zero => cases h
    | succ n =>
      have h' : defineBody (recN E n) E ⟨c, []⟩ m .type rc base (m.protected_.getD false) o = .ok s := h
      cases defineBody_ok h' with
      | done _ hd => cases hd
      | noType _ h1 => exact .inl ⟨h1, rfl⟩
      | type p _ h1 => exact .inr ⟨p, h1, rfl⟩
  · rename_i hm
    cases h
    exact .inl ⟨by simpa using hm, rfl⟩

theorem stepBase_env {E E' : ProcEnv} (hE : E'.toIriEnv = E.toIriEnv) {m : Merged} {rc : List Str} {c : ACtx} :
    stepBase E' m rc c = stepBase E m rc c := by
  unfold stepBase
  rw [hE]

theorem stepVocab_env {E E' : ProcEnv} (hE : E'.toIriEnv = E.toIriEnv) {m : Merged} {o : Opts} {c : ACtx} :
    stepVocab E' m o c = stepVocab E m o c := by
  unfold stepVocab
  rw [hE]

theorem processDef_on {E E' : ProcEnv} (hE : E'.toIriEnv = E.toIriEnv) {n1 n2 : Nat} {c c1 c2 : ACtx} {d : SDef}
    {bs : List (Str × Option STerm)} {rc : List Str} {base : Option Str} {o : Opts} (hi : d.import_ = none)
    {K : Str → Prop} (hK : ∀ k u, K k → DependsOn E c d k u → K u)
    (hbs : ∀ k, K k → lookupKey k bs = lookupKey k d.bindings)
    (h1 : processDef (recN E n1) E c d rc base o = .ok c1)
    (h2 : processDef (recN E' n2) E' c { d with bindings := bs } rc base o = .ok c2) :
    { c1 with defs := [] } = { c2 with defs := [] } ∧ ∀ k, K k → SameDef c1 c2 k := by
  have hg := processDef_ground hi h1
  obtain ⟨i1, hi1, o1, _⟩ := processDef_says h1
  obtain ⟨i2, hi2, o2, _⟩ := processDef_says h2
  obtain ⟨j1, a1, a2, a3, s1, s1', x1, x2, x3, x4, x5, x6, rfl⟩ := processDef_ok h1
  obtain ⟨j2, b1, b2, b3, s2, s2', y1, y2, y3, y4, y5, y6, rfl⟩ := processDef_ok h2
  have im : ∀ {E : ProcEnv} {d' : SDef} {j}, d'.import_ = none → importOf E d' base o = .ok j → j = none := by
    intro E d' j hd hj
    rcases importOf_ok hj with ⟨h, _⟩ | ⟨r, _, _, _, h, _⟩
    · exact h
    · rw [hd] at h; cases h
  obtain rfl := im hi hi1
  obtain rfl := im (d' := { d with bindings := bs }) hi hi2
  obtain rfl := im hi x1
  obtain rfl := im (d' := { d with bindings := bs }) hi y1
  -- the contexts before the terms are the same
  have e1 : a1 = b1 := Except.ok.inj (x2.symm.trans ((stepBase_env hE).symm.trans y2))
  subst e1
  have e2 : a2 = b2 := Except.ok.inj (x3.symm.trans ((stepVocab_env hE).symm.trans y3))
  subst e2
  have e3 : a3 = b3 := Except.ok.inj (x4.symm.trans y4)
  subst e3
  have e4 : s1.ctx = s2.ctx := by
    rcases defineTypeEntry_ctx x5 with ⟨p1, p2⟩ | ⟨p, p1, p2⟩ <;> rcases defineTypeEntry_ctx y5 with ⟨q1, q2⟩ | ⟨q, q1, q2⟩
    · rw [p2, q2]
    · have q1' : Merged.type ⟨d, none⟩ = some q := q1
      rw [p1] at q1'; cases q1'
    · have q1' : Merged.type ⟨d, none⟩ = none := q1
      rw [p1] at q1'; cases q1'
    · have q1' : Merged.type ⟨d, none⟩ = some q := q1
      rw [p1] at q1'
      cases q1'
      rw [p2, q2]
  have f1 := defineAll_rel (framed_rel _) (fun s s' t h => define_framed E n1 s s' _ t rc base _ o h) _ _ _ x6
  have f2 := defineAll_rel (framed_rel _) (fun s s' t h => define_framed E' n2 s s' _ t rc base _ o h) _ _ _ y6
  have start : ∀ {E : ProcEnv} {n' m' c'} {s : DState}, defineTypeEntry (recN E n') m' rc base o ⟨c', []⟩ = .ok s →
      Inv E o.vocab m' s.ctx base ((Merged.protected_ m').getD false) o.override [] s := by
    intro E n' m' c' s hs
    obtain ⟨l1, _⟩ := defineTypeEntry_start hs
    exact ⟨fun x _ => rfl, fun k b _ hk _ => absurd (l1 k) hk⟩
  have k1 := (defineAll_inv _ _ _ (start x5) x6).2.1
  have k2 := (defineAll_inv _ _ _ (start y5) y6).2.1
  have tv : s1'.ctx.vocab = s2'.ctx.vocab := by rw [f1.vocab, f2.vocab, e4]
  have tb : s1'.ctx.base = s2'.ctx.base := by rw [f1.base, f2.base, e4]
  have tt : s1'.ctx.typeDef = s2'.ctx.typeDef := by rw [k1.typeDef, k2.typeDef, e4]
  have hds : ∀ k, s1.ctx.getNormal k = c.getNormal k := by
    intro k
    rw [(defineTypeEntry_start x5).2 k]
    obtain ⟨_, rfl⟩ := stepBase_defs x2
    obtain ⟨_, rfl⟩ := stepVocab_defs x3
    obtain ⟨_, _, rfl⟩ := stepLang_defs x4
    rfl
  have bl : ∀ k, Merged.binding ⟨{ d with bindings := bs }, none⟩ k = lookupKey k bs := by
    intro k
    rw [binding_local]
  refine ⟨?_, fun k hk₀ => ?_⟩
  · have q1 := f1.originalBase; have q2 := f2.originalBase
    have q3 := f1.language; have q4 := f2.language
    have q5 := f1.direction; have q6 := f2.direction
    have q7 := f1.previous; have q8 := f2.previous
    rw [e4] at q1 q3 q5 q7
    have r1 := q1.trans q2.symm
    have r2 := q3.trans q4.symm
    have r3 := q5.trans q6.symm
    have r4 := q7.trans q8.symm
    cases h : s1'.ctx
    cases h' : s2'.ctx
    rw [h, h'] at r1 r2 r3 r4 tv tb tt
    simp only at r1 r2 r3 r4 tv tb tt
    simp only [ACtx.mk.injEq]
    exact ⟨r1, tb, tv, r2, r3, r4, trivial, tt⟩
  · refine defs_unique_on (E := E) (voc := o.vocab) (c := c) (d := d) tv tb tt hK (fun k hk => ?_)
      (fun k hkK hk => ?_) (fun k b x hk hm b' hb' => ?_) (fun k b hk => ?_) (fun k b hkK hk => ?_) hk₀ (hg k)
    · rw [f1.defs k (by rw [binding_local]; exact hk), hds]
    · rw [f2.defs k (by rw [bl, hbs k hkK]; exact hk), ← e4, hds]
    · have hni := defineAll_ign (defineTypeEntry_start x5).1 x6 ⟨b, hk, hm⟩
      have out : ∃ ba pr kp, Outcome E.toIriEnv o.vocab ba pr kp x b' s1'.ctx := by
        rcases o1 x b' (by rw [binding_local]; exact hb') with h | h
        · exact ⟨_, _, _, h⟩
        · exact ⟨_, _, _, h⟩
      obtain ⟨ba, pr, kp, out⟩ := out
      cases hr : (STerm.exp b').reverse with
      | some v =>
        by_cases hkw : KeywordForm v
        · exact absurd ⟨b', hb', .inl ⟨v, hr, hkw⟩⟩ hni
        · obtain ⟨t, g, _⟩ := out.reverse v hr hkw
          rw [g]; exact nofun
      | none =>
        obtain ⟨t, g, _⟩ := out.defined hr (fun s hs hkw => by
          by_contra hne
          exact hni ⟨b', hb', .inr ⟨hr, s, hs, hkw, hne⟩⟩)
        rw [g]; exact nofun
    · rcases o1 k b (by rw [binding_local]; exact hk) with h | h
      · exact ⟨_, _, _, h⟩
      · exact ⟨_, _, _, h⟩
    · rcases o2 k b (by rw [bl, hbs k hkK]; exact hk) with h | h
      · exact ⟨_, _, _, hE ▸ h⟩
      · exact ⟨_, _, _, hE ▸ h⟩

theorem processDef_order {E : ProcEnv} {n1 n2 : Nat} {c c1 c2 : ACtx} {d : SDef} {bs : List (Str × Option STerm)}
    {rc : List Str} {base : Option Str} {o : Opts} (hi : d.import_ = none)
    (hbs : ∀ k, lookupKey k bs = lookupKey k d.bindings)
    (h1 : processDef (recN E n1) E c d rc base o = .ok c1)
    (h2 : processDef (recN E n2) E c { d with bindings := bs } rc base o = .ok c2) :
    { c1 with defs := [] } = { c2 with defs := [] } ∧ ∀ k, SameDef c1 c2 k := by
  obtain ⟨x, y⟩ := processDef_on rfl hi (K := fun _ => True) (fun _ _ _ _ => trivial) (fun k _ => hbs k) h1 h2
  exact ⟨x, fun k => y k trivial⟩

/-- If two context definitions have the same bindings in different order, and both are accepted, then the resulting
contexts are the same up to the order of their terms, the base URLs of scoped contexts and the protection of terms. -/
theorem C89_order_partial (E : ProcEnv) (c : ACtx) (d : SDef) (bs : List (Str × Option STerm)) (base : Option Str)
    (o : Opts) (hi : d.import_ = none) (hbs : ∀ k, lookupKey k bs = lookupKey k d.bindings) (c1 c2 : ACtx)
    (h1 : Processed E c (.one (.defn d)) base o (.ok c1))
    (h2 : Processed E c (.one (.defn { d with bindings := bs })) base o (.ok c2)) :
    { c1 with defs := [] } = { c2 with defs := [] } ∧
    ∀ k, (c1.getNormal k).map forget = (c2.getNormal k).map forget := by
  obtain ⟨_, n1, h1⟩ := h1
  obtain ⟨_, n2, h2⟩ := h2
  cases n1 with
  | zero => cases h1
  | succ n1 =>
    cases n2 with
    | zero => cases h2
    | succ n2 =>
      obtain ⟨o1, ho1, x2⟩ := processBody_ok h1
      obtain ⟨o2, ho2, y2⟩ := processBody_ok h2
      have eo : o1 = o2 := Except.ok.inj (ho1.symm.trans ho2)
      subst eo
      unfold SCtx.entries processEntries at x2 y2
      rw [bindOk] at x2 y2
      obtain ⟨⟨r1, q1⟩, x3, x4⟩ := x2
      obtain ⟨⟨r2, q2⟩, y3, y4⟩ := y2
      cases x4
      cases y4
      cases processEntry_ok x3 with
      | defn _ _ x5 =>
        cases processEntry_ok y3 with
        | defn _ _ y5 => exact processDef_order hi hbs x5 y5

/-! ## Examples -/

/-- `{"@protected": true, "b": {"@id": "http:b/", "@context": {}}}` and `exSays'`, one after the other, with base
URL. -/
def exTwice (d : SDef) : Bool :=
  match (recN exProcEnv 9).process {} (.many [.defn { exSays with bindings := [("b".toList, some exSaysScoped)] },
    .defn d]) [] (some "http:base".toList) {} with
  | .ok _ => true
  | .error _ => false

/-- Whether a context is accepted may depend on the order: a protected term may be defined again as long as the
definition is the same, but without the base URL it is not. -/
theorem C89_accepted : exTwice exSays = true ∧ exTwice exSays' = false := by
  decide +kernel

/-- The hypotheses of `C89_order_partial` are met. -/
example : exSays'.bindings ≠ exSays.bindings ∧ (∀ k, lookupKey k exSays'.bindings = lookupKey k exSays.bindings) ∧
    exSays.import_ = none ∧ exSays' = { exSays with bindings := exSays'.bindings } ∧
    (exSaysRun exSays).isOk = true ∧ (exSaysRun exSays').isOk = true := by
  refine ⟨fun h => ?_, fun k => ?_, rfl, rfl, by decide +kernel, by decide +kernel⟩
  · have := congrArg (fun l => l.map (·.1)) h
    revert this
    decide
  · show lookupKey k [_, _] = lookupKey k [_, _]
    by_cases h1 : k = "a".toList
    · subst h1; rfl
    · by_cases h2 : k = "b".toList
      · subst h2; rfl
      · simp only [lookupKey, if_neg (Ne.symm h1), if_neg (Ne.symm h2)]

end JsonLd.Props
