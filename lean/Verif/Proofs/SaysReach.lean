import Verif.Proofs.SaysInv
import Verif.Proofs.CyclicError
/-!
# What a term definition says: which terms are met
-/

namespace JsonLd.Say

open Spec

/-- Only terms with `Q` are started. -/
def Adds (Q : Str → Prop) (s s' : DState) : Prop :=
  ∀ x, lookupDef (.key x) s'.defd ≠ none → lookupDef (.key x) s.defd ≠ none ∨ Q x

theorem Adds.refl (Q : Str → Prop) (s : DState) : Adds Q s s := fun _ h => .inl h

theorem Adds.trans {Q : Str → Prop} {a b c : DState} (h : Adds Q a b) (h' : Adds Q b c) : Adds Q a c :=
  fun x hx => (h' x hx).elim (h x) .inr

theorem Adds.mono {Q Q' : Str → Prop} {a b : DState} (h : Adds Q a b) (hQ : ∀ x, Q x → Q' x) : Adds Q' a b :=
  fun x hx => (h x hx).imp_right (hQ x)

theorem adds_finish {Q : Str → Prop} {s : DState} {t : Str} (ht : lookupDef (.key t) s.defd ≠ none ∨ Q t) :
    Adds Q s (s.finish (.key t)) := by
  intro x hx
  by_cases h : x = t
  · subst h; exact ht
  · rw [DState.finish, lookupDef_cons, if_neg (by rintro ⟨⟩; exact h rfl)] at hx
    exact .inl hx

section
variable {R : Rec} {E : ProcEnv} {d : SDef} {rc : List Str} {o : Opts}
  (hR : ∀ s s' x, R.define s ⟨d, none⟩ (.key x) rc none false o.noOverride = .ok s' →
    Adds (fun y => y = x ∨ Chain (RefersTo E d) x y) s s')
include hR

theorem expandWith_adds {s : DState} {v : Option Expandable} {dr : Bool} {voc : Option Action}
    {r : DState × Option CTerm} (h : expandWith R E s v dr voc ⟨d, none⟩ rc o = .ok r) :
    Adds (fun y => ∃ z u, v = some (.string z) ∧ ¬ KeywordForm z ∧ (u = z ∨ HasPrefix E z u) ∧
      (y = u ∨ Chain (RefersTo E d) u y)) s r.1 := by
  rcases expandWith_ok h with ⟨h1, _⟩ | ⟨x, s1, rfl, hk, h1, h2⟩
  · rw [h1]; exact .refl _ _
  · have hk' := not_keywordForm.1 hk
    refine ((hR _ _ _ h1).mono fun y hy => ⟨x, x, rfl, hk', .inl rfl, hy⟩).trans ?_
    rcases expandAfter_ok h2 with ⟨h5, _⟩ | ⟨_, ⟨h5, _⟩ | ⟨h5, _⟩ | ⟨h5, _⟩ | ⟨h5, _⟩ | ⟨_, _, _, p, y, hq, hd, _⟩⟩
    · rw [h5]; exact .refl _ _
    · rw [h5]; exact .refl _ _
    · rw [h5]; exact .refl _ _
    · rw [h5]; exact .refl _ _
    · rw [h5]; exact .refl _ _
    · exact (hR _ _ _ hd).mono fun z hz => ⟨x, p, rfl, hk', .inr (hasPrefix_iff.2 ⟨y, hq⟩), hz⟩

theorem term_adds {s s' : DState} {t : Str} {b : Option STerm} {base : Option Str} {prot : Bool}
    (hb : lookupKey t d.bindings = some b)
    (h : TermRun R E s ⟨d, none⟩ t b rc base prot o s') :
    Adds (fun y => y = t ∨ Chain (RefersTo E d) t y) s s' := by
  have chain : ∀ {u y : Str}, RefersTo E d t u → (y = u ∨ Chain (RefersTo E d) u y) →
      (y = t ∨ Chain (RefersTo E d) t y) := by
    rintro u y h (rfl | h')
    · exact .inr (.one h)
    · exact .inr (.step h h')
  have refers {y u : Str} (hk : ¬ KeywordForm y) (h : (STerm.exp b).type = some (some (.term y)) ∨
      (STerm.exp b).reverse = some y ∨ ((STerm.exp b).id = some (some (.term y)) ∧ y ≠ t))
      (hu : u = y ∨ HasPrefix E y u) : RefersTo E d t u := by
    rcases hu with rfl | hu
    · exact .term b hb (exp_mentions hk h)
    · exact .pre b y hb (exp_mentions hk h) hu
  have type : ∀ {s1 d0 d1}, stepType R E { s with ctx := s.ctx.eraseNormal t } ⟨d, none⟩ (STerm.exp b) rc o d0 = .ok (s1, d1) →
      Adds (fun y => y = t ∨ Chain (RefersTo E d) t y) s s1 := by
    intro s1 d0 d1 h
    rcases stepType_ok h with ⟨_, h1⟩ | ⟨ty, q, h1, h2, _, h4⟩
    · cases h1; exact .refl _ _
    · simp only at h4
      subst h4
      refine fun x hx => (expandWith_adds hR h2 x hx).imp id fun ⟨z, u, g1, g2, g3, g4⟩ => chain (refers g2 (.inl ?_) g3) g4
      cases ty with
      | none => cases g1
      | some ty =>
        cases ty with
        | keyword k => cases g1
        | term w => cases g1; exact h1
  cases h with
  | reverseKeyword d0 _ d1 v h0 h1 => exact type h1
  | reverse d0 s1 d1 v s2 r d2 d3 h0 h1 hr _ _ hv h2 =>
    have a2 := (expandWith_adds hR h2).mono (Q' := fun y => y = t ∨ Chain (RefersTo E d) t y) (by
      rintro y ⟨z, u, g1, g2, g3, g4⟩
      refine chain (refers g2 (.inr (.inl ?_)) g3) g4
      unfold Expandable.ofStr at g1
      split at g1
      · cases g1
      · cases g1; exact hr)
    exact ((type h1).trans a2).trans (adds_finish (s := { s2 with ctx := _ }) (.inr (.inl rfl)))
  | idKeyword d0 _ d1 i h0 h1 => exact type h1
  | full d0 s1 d1 s2 d2 d3 d4 h0 h1 hr h2 h3 h4 =>
    refine Adds.trans ((type h1).trans ?_) (adds_finish (s := { s2 with ctx := _ }) (.inr (.inl rfl)))
    rcases stepId_ok h2 with ⟨hi, h3⟩ | ⟨hi, d', h3, _⟩ | ⟨i, hi, hne, h3⟩
    · cases h3; exact .refl _ _
    · obtain ⟨q, v, h5, h6, _⟩ := implicitId_ok h3
      cases h6
      rcases implicitPrefix_ok h5 with ⟨_, rfl⟩ | ⟨p, y, h7, h8, _⟩
      · exact .refl _ _
      · exact (hR _ _ _ h8).mono fun z hz => chain (.name b hb (hasPrefix_iff.2 ⟨y, h7⟩)) hz
    · rcases explicitId_ok h3 with ⟨_, _, h4⟩ | ⟨_, q, v, d', h4, _, h5, _⟩
      · cases h4
      · refine Adds.trans ((expandWith_adds hR h4).mono fun y => ?_) ?_
        · rintro ⟨z, u, g1, g2, g3, g4⟩
          cases i with
          | keyword k => cases g1
          | term w =>
            cases g1
            exact chain (refers g2 (.inr (.inr ⟨hi, fun e => hne (by rw [e])⟩)) g3) g4
        · rcases checkTerm_ok h5 with ⟨_, h6⟩ | ⟨_, r, h6, _⟩
          · simp only at h6; rw [h6]; exact .refl _ _
          · refine (adds_finish (.inr (.inl rfl))).trans ((expandWith_adds hR h6).mono fun y => ?_)
            rintro ⟨z, u, g1, g2, rfl | g3, g4⟩
            · cases g1; exact g4
            · cases g1
              exact chain (.name b hb g3) g4

end

/-- Only terms are started to which the term refers. -/
theorem define_adds (E : ProcEnv) (d : SDef) (n : Nat) : ∀ (s s' : DState) (t : Str)
    (rc : List Str) (base : Option Str) (prot : Bool) (o : Opts),
    (recN E n).define s ⟨d, none⟩ (.key t) rc base prot o = .ok s' →
    Adds (fun y => y = t ∨ Chain (RefersTo E d) t y) s s' := by
  induction n with
  | zero => intro s s' t rc base prot o h; cases h
  | succ n ih =>
    intro s s' t rc base prot o h
    have start : Adds (fun y => y = t ∨ Chain (RefersTo E d) t y) s { s with defd := (.key t, true) :: s.defd } := by
      intro x hx
      by_cases h : x = t
      · exact .inr (.inl h)
      · rw [lookupDef_cons, if_neg (by rintro ⟨⟩; exact h rfl)] at hx
        exact .inl hx
    cases defineBody_ok h with
    | done _ hd => exact .refl _ _
    | absent k hl _ hb => exact start.trans (adds_finish (.inr (.inl rfl)))
    | term k b s' hl hk hb hr =>
      rw [binding_local] at hb
      exact start.trans (term_adds (fun s s' x h => ih s s' x rc none false _ h) hb hr)

/-! ## A context definition -/

section
variable {E : ProcEnv} {m : Merged} {c0 : ACtx} {base : Option Str} {prot : Bool} {o : Opts} {n : Nat} {rc : List Str}

theorem defineAll_inv : ∀ (bs : List (Str × Option STerm)) (s s' : DState),
    Inv E o.vocab m c0 base prot o.override [] s → defineAll (recN E n) m rc base prot o bs s = .ok s' →
    Inv E o.vocab m c0 base prot o.override [] s' ∧ Kept [] s s' ∧ ∀ b ∈ bs, lookupDef (.key b.1) s'.defd ≠ none := by
  intro bs
  induction bs with
  | nil => intro s s' hs h; cases h; exact ⟨hs, .refl _ _, nofun⟩
  | cons b bs ih =>
    intro s s' hs h
    unfold defineAll at h
    rw [bindOk] at h
    obtain ⟨s1, h1, h2⟩ := h
    have k1 := define_keeps E n _ _ _ _ _ _ _ _ h1
    have i1 := (define_inv n [] s s1 b.1 rc base prot o rfl (.inl ⟨rfl, rfl, rfl⟩) hs nofun h1).1
    obtain ⟨i2, k2, l2⟩ := ih s1 s' i1 h2
    refine ⟨i2, k1.1.trans k2, fun x hx => ?_⟩
    rcases List.mem_cons.1 hx with rfl | hx
    · rw [k2.look _ nofun k1.2.1]; exact k1.2.1
    · exact l2 x hx

theorem defineAll_append {R : Rec} : ∀ (bs bs' : List (Str × Option STerm)) (s s' : DState),
    defineAll R m rc base prot o (bs ++ bs') s = .ok s' →
    ∃ s1, defineAll R m rc base prot o bs s = .ok s1 ∧ defineAll R m rc base prot o bs' s1 = .ok s' := by
  intro bs bs'
  induction bs with
  | nil => intro s s' h; exact ⟨s, rfl, h⟩
  | cons b bs ih =>
    intro s s' h
    rw [List.cons_append, defineAll, bindOk] at h
    obtain ⟨s1, h1, h2⟩ := h
    obtain ⟨s2, h3, h4⟩ := ih s1 s' h2
    refine ⟨s2, ?_, h4⟩
    rw [defineAll, bindOk]
    exact ⟨s1, h1, h3⟩

theorem defineAll_adds {d : SDef} : ∀ (bs : List (Str × Option STerm)) (s s' : DState),
    defineAll (recN E n) ⟨d, none⟩ rc base prot o bs s = .ok s' →
    Adds (fun y => ∃ b ∈ bs, y = b.1 ∨ Chain (RefersTo E d) b.1 y) s s' := by
  intro bs
  induction bs with
  | nil => intro s s' h; cases h; exact .refl _ _
  | cons b bs ih =>
    intro s s' h
    rw [defineAll, bindOk] at h
    obtain ⟨s1, h1, h2⟩ := h
    exact ((define_adds E d n _ _ _ _ _ _ _ h1).mono fun y hy => ⟨b, by simp, hy⟩).trans
      ((ih s1 s' h2).mono fun y ⟨b', hb', hy⟩ => ⟨b', by simp [hb'], hy⟩)

end

theorem lookupKey_bindings {d : SDef} {i : Option SDef} {k : Str} {b : Option STerm} (h : Merged.binding ⟨d, i⟩ k = some b) :
    ∃ q ∈ Merged.bindings ⟨d, i⟩, q.1 = k := by
  unfold Merged.binding at h
  unfold Merged.bindings
  simp only at h ⊢
  cases h1 : lookupKey k d.bindings with
  | some b' => exact ⟨(k, b'), by simp [lookupKey_mem h1], rfl⟩
  | none =>
    rw [h1] at h
    cases i with
    | none => cases h
    | some i =>
      have h2 : lookupKey k i.bindings = some b := h
      refine ⟨(k, b), ?_, rfl⟩
      simp only [List.mem_append, List.mem_filter]
      exact .inl ⟨lookupKey_mem h2, by simp [h1]⟩

/-- The state in which the terms of a context definition are defined. -/
theorem defineTypeEntry_start {E : ProcEnv} {m : Merged} {n : Nat} {rc : List Str} {base : Option Str} {o : Opts}
    {c : ACtx} {s : DState} (h : defineTypeEntry (recN E n) m rc base o ⟨c, []⟩ = .ok s) :
    (∀ x, lookupDef (.key x) s.defd = none) ∧ ∀ x, s.ctx.getNormal x = c.getNormal x := by
  unfold defineTypeEntry at h
  split at h
  · cases n with
    | zero => cases h
    | succ n =>
      have h' : defineBody (recN E n) E ⟨c, []⟩ m .type rc base (m.protected_.getD false) o = .ok s := h
      cases defineBody_ok h' with
      | done _ hd => cases hd
      | noType => exact ⟨fun x => rfl, fun x => rfl⟩
      | type p => exact ⟨fun x => rfl, fun x => rfl⟩
  · cases h; exact ⟨fun _ => rfl, fun _ => rfl⟩

theorem processDef_says {E : ProcEnv} {c c' : ACtx} {d : SDef} {n : Nat} {rc : List Str} {base : Option Str}
    {o : Opts} (h : processDef (recN E n) E c d rc base o = .ok c') :
    ∃ i, importOf E d base o = .ok i ∧
      (∀ k b, Merged.binding ⟨d, i⟩ k = some b →
        Outcome E.toIriEnv o.vocab base ((Merged.protected_ ⟨d, i⟩).getD false) (!o.override && keepOf c k) k b c' ∨
        Outcome E.toIriEnv o.vocab none false (keepOf c k) k b c') ∧
      (i = none → ∀ pre k b post, d.bindings = pre ++ (k, b) :: post →
        (∀ q ∈ pre, q.1 ≠ k ∧ ¬ Chain (RefersTo E d) q.1 k) →
        Outcome E.toIriEnv o.vocab base (d.protected_.getD false) (!o.override && keepOf c k) k b c') := by
  obtain ⟨i, c1, c2, c3, s1, s2, h1, h2, h3, h4, h5, h6, rfl⟩ := processDef_ok h
  have hd : c3.defs = c.defs := by
    obtain ⟨_, rfl⟩ := stepBase_defs h2
    obtain ⟨_, rfl⟩ := stepVocab_defs h3
    obtain ⟨_, _, rfl⟩ := stepLang_defs h4
    rfl
  obtain ⟨l1, g1⟩ := defineTypeEntry_start h5
  have g1' : ∀ x, s1.ctx.getNormal x = c.getNormal x := by
    intro x
    rw [g1]
    unfold ACtx.getNormal
    rw [hd]
  have i1 : Inv E o.vocab ⟨d, i⟩ c base ((Merged.protected_ ⟨d, i⟩).getD false) o.override [] s1 :=
    ⟨fun x _ => g1' x, fun k b _ hk _ => absurd (l1 k) hk⟩
  refine ⟨i, h1, fun k b hb => ?_, ?_⟩
  · obtain ⟨i2, _, l2⟩ := defineAll_inv _ _ _ i1 h6
    obtain ⟨q, hq, rfl⟩ := lookupKey_bindings hb
    have refl : Agree [] s2 s2.ctx := ⟨rfl, rfl, rfl, fun _ _ _ => rfl⟩
    rcases i2.done _ b hb (l2 q hq) nofun with h | h
    · exact .inl (h _ refl)
    · exact .inr (h _ refl)
  · rintro rfl pre k b post hbs hpre
    have hm : Merged.bindings ⟨d, none⟩ = pre ++ (k, b) :: post := by
      unfold Merged.bindings
      simp only [hbs]; rfl
    have hp : Merged.protected_ ⟨d, none⟩ = d.protected_ := by
      unfold Merged.protected_
      cases d.protected_ <;> rfl
    rw [hm] at h6
    obtain ⟨s3, h7, h8⟩ := defineAll_append _ _ _ _ h6
    rw [defineAll, bindOk] at h8
    obtain ⟨s4, h9, h10⟩ := h8
    obtain ⟨i3, _, _⟩ := defineAll_inv _ _ _ i1 h7
    have hk3 : lookupDef (.key k) s3.defd = none := by
      by_contra hk
      rcases defineAll_adds _ _ _ h7 k hk with h | ⟨q, hq, h⟩
      · exact h (l1 k)
      · rcases h with h | h
        · exact (hpre q hq).1 h.symm
        · exact (hpre q hq).2 h
    have hb : Merged.binding ⟨d, none⟩ k = some b := by
      rw [binding_local, hbs]
      clear * - hpre
      induction pre with
      | nil => simp [lookupKey]
      | cons q qs ih =>
        have := (hpre q (by simp)).1
        rw [List.cons_append, lookupKey, if_neg this]
        exact ih fun q' hq' => hpre q' (by simp [hq'])
    obtain ⟨i4, hst⟩ := define_inv n [] s3 s4 k rc base _ o rfl (.inl ⟨rfl, rfl, rfl⟩) i3 nofun h9
    obtain ⟨_, k5, _⟩ := defineAll_inv _ _ _ i4 h10
    rw [← hp]
    exact (hst hk3 b hb).after k5 nofun _ ⟨rfl, rfl, rfl, fun _ _ _ => rfl⟩

end JsonLd.Say
