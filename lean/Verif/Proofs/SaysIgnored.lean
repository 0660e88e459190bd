import Verif.Proofs.SaysReach
/-!
# Terms that are ignored are not mentioned
-/

namespace JsonLd.Say

open Spec

/-- The term `k` of `d` mentions `x`. -/
def Ment (d : SDef) (k x : Str) : Prop := ∃ b, lookupKey k d.bindings = some b ∧ Mentions k b x

/-- The binding does not define the term. -/
def IgnoredAt (k : Str) (b : Option STerm) : Prop :=
  (∃ v, (STerm.exp b).reverse = some v ∧ KeywordForm v) ∨
  ((STerm.exp b).reverse = none ∧ ∃ s, (STerm.exp b).id = some (some (.term s)) ∧ KeywordForm s ∧ s ≠ k)

def Ign (d : SDef) (x : Str) : Prop := ∃ b, lookupKey x d.bindings = some b ∧ IgnoredAt x b

/-- The terms started between the two states found the terms they mention not under way, and those are started. -/
def Good (d : SDef) (t : Option Str) (s s' : DState) : Prop :=
  ∀ k x, Ment d k x → lookupDef (.key k) s.defd = none → lookupDef (.key k) s'.defd ≠ none →
    (some x ≠ t → lookupDef (.key x) s.defd ≠ some true) ∧ lookupDef (.key x) s'.defd ≠ none

theorem Good.refl (d : SDef) (t : Option Str) (s : DState) : Good d t s s := fun _ _ _ h h' => absurd h h'

theorem Kept.started {X : List Str} {s s' : DState} (h : Kept X s s') {x : Str} (hX : x ∉ X)
    (hx : lookupDef (.key x) s.defd ≠ none) : lookupDef (.key x) s'.defd ≠ none := by
  rw [h.look x hX hx]; exact hx

theorem Good.trans {d : SDef} {t : Str} {a b c : DState} (h : Good d (some t) a b) (h' : Good d (some t) b c)
    (hk : Kept [t] a b) (hk' : Kept [t] b c) (ht : lookupDef (.key t) c.defd ≠ none) : Good d (some t) a c := by
  intro k x hm hka hkc
  by_cases hkb : lookupDef (.key k) b.defd = none
  · obtain ⟨h1, h2⟩ := h' k x hm hkb hkc
    refine ⟨fun hx hp => ?_, h2⟩
    have hxt : x ∉ [t] := by simpa using hx
    exact h1 hx (by rw [hk.look x hxt (by rw [hp]; exact nofun), hp])
  · obtain ⟨h1, h2⟩ := h k x hm hka hkb
    refine ⟨h1, ?_⟩
    by_cases hxt : x = t
    · subst hxt; exact ht
    · exact hk'.started (by simpa using hxt) h2

theorem Good.trans' {d : SDef} {a b c : DState} (h : Good d none a b) (h' : Good d none b c)
    (hk : Kept [] a b) (hk' : Kept [] b c) : Good d none a c := by
  intro k x hm hka hkc
  by_cases hkb : lookupDef (.key k) b.defd = none
  · obtain ⟨h1, h2⟩ := h' k x hm hkb hkc
    exact ⟨fun hx hp => h1 hx (by rw [hk.look x nofun (by rw [hp]; exact nofun), hp]), h2⟩
  · obtain ⟨h1, h2⟩ := h k x hm hka hkb
    exact ⟨h1, hk'.started nofun h2⟩

theorem Good.weak {d : SDef} {t : Str} {a b : DState} (h : Good d none a b) : Good d (some t) a b :=
  fun k x hm h1 h2 => ⟨fun _ => (h k x hm h1 h2).1 nofun, (h k x hm h1 h2).2⟩

/-- Terms that are ignored are never done. -/
def NotDone (d : SDef) (s : DState) : Prop := ∀ x, Ign d x → lookupDef (.key x) s.defd ≠ some false

theorem NotDone.finish {d : SDef} {s : DState} {t : Str} (h : NotDone d s) (ht : ¬ Ign d t) :
    NotDone d (s.finish (.key t)) := by
  intro x hx
  rw [DState.finish, lookupDef_cons]
  split
  · rename_i he
    cases he
    exact absurd hx ht
  · exact h x hx

/-- What is to be shown of `define`. -/
structure IgnInv (d : SDef) (s s' : DState) (t : Str) : Prop where
  good : Good d none s s'
  notDone : NotDone d s → NotDone d s'
  ign : Ign d t → lookupDef (.key t) s.defd = none → ∀ k, Ment d k t → lookupDef (.key k) s.defd = none →
    lookupDef (.key k) s'.defd = none

section
variable {E : ProcEnv} {n : Nat} {d : SDef} {rc : List Str} {o : Opts}
  (ih : ∀ s s' t, (recN E n).define s ⟨d, none⟩ (.key t) rc none false o.noOverride = .ok s' → IgnInv d s s' t)
include ih

theorem calls_good {s s' : DState} (h : Calls (recN E n) ⟨d, none⟩ rc o s s') :
    Good d none s s' ∧ (NotDone d s → NotDone d s') ∧ Kept [] s s' := by
  induction h with
  | refl => exact ⟨.refl _ _ _, id, .refl _ _⟩
  | step x _ hd ih' =>
    have hk := (define_keeps E n _ _ _ _ _ _ _ _ hd).1
    exact ⟨ih'.1.trans' (ih _ _ _ hd).good ih'.2.2 hk, fun h => (ih _ _ _ hd).notDone (ih'.2.1 h), ih'.2.2.trans hk⟩

theorem steps_good {k : Str} {s s' : DState} (h : DSteps (recN E n) ⟨d, none⟩ k rc o s s')
    (hk : lookupDef (.key k) s.defd ≠ none) (hi : ¬ Ign d k) :
    Good d (some k) s s' ∧ (NotDone d s → NotDone d s') ∧ Kept [k] s s' ∧ lookupDef (.key k) s'.defd ≠ none := by
  induction h with
  | refl => exact ⟨.refl _ _ _, id, .refl _ _, hk⟩
  | step x _ hd ih' =>
    have hk' := (define_keeps E n _ _ _ _ _ _ _ _ hd).1
    have hs := hk'.started nofun ih'.2.2.2
    exact ⟨ih'.1.trans (ih _ _ _ hd).good.weak ih'.2.2.1 (hk'.mono nofun) hs,
      fun h => (ih _ _ _ hd).notDone (ih'.2.1 h), ih'.2.2.1.trans (hk'.mono nofun), hs⟩
  | finish _ ih' =>
    rename_i s1 _
    have hs : lookupDef (.key k) (s1.finish (.key k)).defd ≠ none := by
      rw [DState.finish, lookupDef_cons, if_pos rfl]; exact nofun
    refine ⟨ih'.1.trans (fun j x _ h1 h2 => ?_) ih'.2.2.1 (kept_finish _ _) hs, fun h => (ih'.2.1 h).finish hi,
      ih'.2.2.1.trans (kept_finish _ _), hs⟩
    exfalso
    rw [DState.finish, lookupDef_cons] at h2
    split at h2
    · rename_i he
      cases he
      exact ih'.2.2.2 h1
    · exact h2 h1

omit ih in
theorem expandWith_met {s : DState} {y : Str} {dr : Bool} {voc : Option Action} {r : DState × Option CTerm}
    (hy : ¬ KeywordForm y) (h : expandWith (recN E n) E s (some (.string y)) dr voc ⟨d, none⟩ rc o = .ok r) :
    lookupDef (.key y) s.defd ≠ some true ∧ lookupDef (.key y) r.1.defd ≠ none := by
  have hR : ∀ s s' x, (recN E n).define s ⟨d, none⟩ (.key x) rc none false o.noOverride = .ok s' → Kept [] s s' :=
    fun s s' x h => (define_keeps E n _ _ _ _ _ _ _ _ h).1
  rcases expandWith_ok h with ⟨_, h1 | ⟨k, h1, _⟩ | ⟨x, h1, h2, _⟩⟩ | ⟨x, s1, h1, hk, h2, h3⟩
  · cases h1.1
  · cases h1
  · cases h1
    rw [not_keywordForm.2 hy] at h2
    cases h2
  · cases h1
    have := define_keeps E n _ _ _ _ _ _ _ _ h2
    exact ⟨this.2.2.1, (kept_calls hR (expandAfter_calls h3)).started nofun this.2.1⟩

theorem term_ign {s s' : DState} {t : Str} {b : Option STerm} {base : Option Str} {prot : Bool}
    (hb : lookupKey t d.bindings = some b) (hl : lookupDef (.key t) s.defd = none)
    (h : TermRun (recN E n) E { s with defd := (.key t, true) :: s.defd } ⟨d, none⟩ t b rc base prot o s') :
    IgnInv d s s' t := by
  have k0 := kept_start s t hl
  have l0 : lookupDef (.key t) (⟨s.ctx.eraseNormal t, (.key t, true) :: s.defd⟩ : DState).defd = some true := by
    rw [lookupDef_cons, if_pos rfl]
  have nd0 : NotDone d s → NotDone d ⟨s.ctx.eraseNormal t, (.key t, true) :: s.defd⟩ := by
    intro h x hx
    rw [lookupDef_cons]
    split
    · exact nofun
    · exact h x hx
  -- the conclusion from what happens after the start
  have fin : Good d (some t) ⟨s.ctx.eraseNormal t, (.key t, true) :: s.defd⟩ s' →
      (Ign d t → Good d none ⟨s.ctx.eraseNormal t, (.key t, true) :: s.defd⟩ s') →
      (∀ x, Mentions t b x → lookupDef (.key x) ((.key t, true) :: s.defd) ≠ some true ∧
        lookupDef (.key x) s'.defd ≠ none) →
      (NotDone d ⟨s.ctx.eraseNormal t, (.key t, true) :: s.defd⟩ → NotDone d s') → IgnInv d s s' t := by
    intro g1 g2 g3 g4
    have un : ∀ k, k ≠ t → lookupDef (.key k) s.defd = none →
        lookupDef (.key k) (⟨s.ctx.eraseNormal t, (.key t, true) :: s.defd⟩ : DState).defd = none := by
      intro k hk h
      rw [lookupDef_cons, if_neg (by rintro ⟨⟩; exact hk rfl), h]
    refine ⟨fun k x hm hk hk' => ?_, fun h => g4 (nd0 h), fun hi _ k hm hk => ?_⟩
    · have hpend : lookupDef (.key x) s.defd = some true → lookupDef (.key x) ((.key t, true) :: s.defd) = some true := by
        intro hp
        rw [lookupDef_cons]
        split
        · rfl
        · exact hp
      by_cases hkt : k = t
      · subst hkt
        obtain ⟨b', hb', hm⟩ := hm
        rw [hb] at hb'
        cases hb'
        obtain ⟨h1, h2⟩ := g3 x hm
        exact ⟨fun _ hp => h1 (hpend hp), h2⟩
      · obtain ⟨h1, h2⟩ := g1 k x hm (un k hkt hk) hk'
        refine ⟨fun _ hp => ?_, h2⟩
        by_cases hxt : x = t
        · subst hxt; rw [hl] at hp; cases hp
        · exact h1 (by simpa using hxt) (hpend hp)
    · by_contra hk'
      by_cases hkt : k = t
      · subst hkt
        obtain ⟨b', hb', hm⟩ := hm
        rw [hb] at hb'
        cases hb'
        exact (g3 k hm).1 l0
      · exact (g2 hi k t hm (un k hkt hk) hk').1 nofun l0
  -- the types
  have type : ∀ {s1 d0 d1}, stepType (recN E n) E ⟨s.ctx.eraseNormal t, (.key t, true) :: s.defd⟩ ⟨d, none⟩ (STerm.exp b) rc o d0 =
      .ok (s1, d1) → ∀ x, ¬ KeywordForm x → (STerm.exp b).type = some (some (.term x)) →
      lookupDef (.key x) ((.key t, true) :: s.defd) ≠ some true ∧ lookupDef (.key x) s1.defd ≠ none := by
    intro s1 d0 d1 h x hx ht
    rcases stepType_ok h with ⟨h1, _⟩ | ⟨ty, q, h1, h2, _, h4⟩
    · rw [ht] at h1; cases h1
    · rw [ht] at h1
      cases h1
      simp only at h4
      subst h4
      exact expandWith_met hx h2
  have ment : ∀ x, Mentions t b x → ¬ KeywordForm x ∧ ((STerm.exp b).type = some (some (.term x)) ∨
      (STerm.exp b).reverse = some x ∨ ((STerm.exp b).id = some (some (.term x)) ∧ x ≠ t)) :=
    fun x hx => mentions_exp hx
  cases h with
  | reverseKeyword d0 _ d1 v h0 h1 hr hi _ hv =>
    obtain ⟨g, nd, k1⟩ := calls_good ih (stepType_calls h1)
    refine fin g.weak (fun _ => g) (fun x hx => ?_) nd
    obtain ⟨hkw, h | h | ⟨h, _⟩⟩ := ment x hx
    · exact type h1 x hkw h
    · rw [hr] at h
      cases h
      rw [not_keywordForm.2 hkw] at hv
      cases hv
    · rw [hi] at h; cases h
  | reverse d0 s1 d1 v s2 r d2 d3 h0 h1 hr hi _ hv h2 =>
    obtain ⟨g1, nd1, k1⟩ := calls_good ih (stepType_calls h1)
    obtain ⟨g2, nd2, k2⟩ := calls_good ih (expandWith_calls h2)
    have hni : ¬ Ign d t := by
      rintro ⟨b', hb', h⟩
      rw [hb] at hb'
      cases hb'
      rcases h with ⟨w, hw, hk⟩ | ⟨hw, _⟩
      · rw [hr] at hw
        cases hw
        exact not_keywordForm.1 hv hk
      · rw [hr] at hw; cases hw
    have l2 : lookupDef (.key t) s2.defd ≠ none :=
      k2.started nofun (k1.started nofun (by rw [l0]; exact nofun))
    have kf : ∀ d, Kept [t] s2 ({ s2 with ctx := s2.ctx.setNormal t d }.finish (.key t)) := kept_set s2 t
    have lf : ∀ d, lookupDef (.key t) ({ s2 with ctx := s2.ctx.setNormal t d }.finish (.key t)).defd ≠ none := by
      intro d
      rw [DState.finish, lookupDef_cons, if_pos rfl]; exact nofun
    have gf : ∀ e, Good d (some t) s2 ({ s2 with ctx := s2.ctx.setNormal t e }.finish (.key t)) := by
      intro e j x _ h1 h2
      exfalso
      rw [DState.finish, lookupDef_cons] at h2
      split at h2
      · rename_i he
        cases he
        exact l2 h1
      · exact h2 h1
    have st : ∀ e x, lookupDef (.key x) s2.defd ≠ none →
        lookupDef (.key x) ({ s2 with ctx := s2.ctx.setNormal t e }.finish (.key t)).defd ≠ none := by
      intro e x hx
      rw [DState.finish, lookupDef_cons]
      split
      · exact nofun
      · exact hx
    refine fin ((g1.trans' g2 k1 k2).weak.trans (gf _) ((k1.trans k2).mono nofun) (kf _) (lf _))
      (fun hi => absurd hi hni) (fun x hx => ?_) (fun h => ?_)
    · obtain ⟨hkw, h | h | ⟨h, _⟩⟩ := ment x hx
      · exact ⟨(type h1 x hkw h).1, st _ x (k2.started nofun (type h1 x hkw h).2)⟩
      · rw [hr] at h
        cases h
        have he : Expandable.ofStr v = .string v := by
          unfold Expandable.ofStr
          split
          · rename_i k hk
            rw [(Props.C01_exact v k).1 hk] at hkw
            exact absurd (keyword_form k) hkw
          · rfl
        rw [he] at h2
        have := expandWith_met hkw h2
        refine ⟨fun hp => this.1 ?_, st _ v this.2⟩
        have hp' : lookupDef (.key v) (⟨s.ctx.eraseNormal t, (.key t, true) :: s.defd⟩ : DState).defd = some true := hp
        rw [k1.look v nofun (by rw [hp']; exact nofun), hp']
      · rw [hi] at h; cases h
    · exact NotDone.finish (s := { s2 with ctx := _ }) (nd2 (nd1 h)) hni
  | idKeyword d0 _ d1 i h0 h1 hr hi hk1 hk2 hne =>
    obtain ⟨g, nd, k1⟩ := calls_good ih (stepType_calls h1)
    refine fin g.weak (fun _ => g) (fun x hx => ?_) nd
    obtain ⟨hkw, h | h | ⟨h, _⟩⟩ := ment x hx
    · exact type h1 x hkw h
    · rw [hr] at h; cases h
    · rw [hi] at h
      cases h
      rw [show (SId.term x).str = x from rfl, not_keywordForm.2 hkw] at hk1
      cases hk1
  | full d0 s1 d1 s2 d2 d3 d4 h0 h1 hr h2 =>
    obtain ⟨g1, nd1, k1⟩ := calls_good ih (stepType_calls h1)
    have l1 : lookupDef (.key t) s1.defd ≠ none := k1.started nofun (by rw [l0]; exact nofun)
    have hni : ¬ Ign d t := by
      rintro ⟨b', hb', h⟩
      rw [hb] at hb'
      cases hb'
      rcases h with ⟨w, hw, _⟩ | ⟨_, y, hx, hk, hne⟩
      · rw [hr] at hw; cases hw
      · rcases stepId_ok h2 with ⟨g, _⟩ | ⟨g | g, _⟩ | ⟨i, g, _, g'⟩
        · rw [hx] at g; cases g
        · rw [hx] at g; cases g
        · rw [hx] at g; cases g; exact absurd rfl hne
        · rw [hx] at g
          cases g
          rcases explicitId_ok g' with ⟨_, _, g⟩ | ⟨g, _⟩
          · cases g
          · refine absurd ⟨?_, rfl⟩ g
            by_contra hk'
            rw [Bool.not_eq_true] at hk'
            exact not_keywordForm.1 hk' hk
    obtain ⟨g2, nd2, k2, l2⟩ := steps_good ih (stepId_steps h2) l1 hni
    simp only at g2 nd2 k2 l2
    have kf : ∀ d, Kept [t] s2 ({ s2 with ctx := s2.ctx.setNormal t d }.finish (.key t)) := kept_set s2 t
    have lf : ∀ d, lookupDef (.key t) ({ s2 with ctx := s2.ctx.setNormal t d }.finish (.key t)).defd ≠ none := by
      intro d
      rw [DState.finish, lookupDef_cons, if_pos rfl]; exact nofun
    have gf : ∀ e, Good d (some t) s2 ({ s2 with ctx := s2.ctx.setNormal t e }.finish (.key t)) := by
      intro e j x _ h1 h2
      exfalso
      rw [DState.finish, lookupDef_cons] at h2
      split at h2
      · rename_i he
        cases he
        exact l2 h1
      · exact h2 h1
    have st : ∀ e x, lookupDef (.key x) s1.defd ≠ none →
        lookupDef (.key x) ({ s2 with ctx := s2.ctx.setNormal t e }.finish (.key t)).defd ≠ none := by
      intro e x hx
      rw [DState.finish, lookupDef_cons]
      split
      · exact nofun
      · rename_i hxt
        exact k2.started (by simp; rintro rfl; exact hxt rfl) hx
    refine fin ((g1.weak.trans g2 (k1.mono nofun) k2 l2).trans (gf _) ((k1.mono nofun).trans k2) (kf _) (lf _))
      (fun hi => absurd hi hni) (fun x hx => ?_) (fun h => ?_)
    · obtain ⟨hkw, h | h | ⟨h, hxt⟩⟩ := ment x hx
      · exact ⟨(type h1 x hkw h).1, st _ x (type h1 x hkw h).2⟩
      · rw [hr] at h; cases h
      · rcases stepId_ok h2 with ⟨g, _⟩ | ⟨g | g, _⟩ | ⟨i, g, _, g'⟩
        · rw [h] at g; cases g
        · rw [h] at g; cases g
        · rw [h] at g; cases g; exact absurd rfl hxt
        · rw [h] at g
          cases g
          rcases explicitId_ok g' with ⟨_, _, g⟩ | ⟨_, q, v, d', g1', _, g2', _⟩
          · cases g
          · have := expandWith_met hkw g1'
            refine ⟨fun hp => this.1 ?_, ?_⟩
            · have hp' : lookupDef (.key x) (⟨s.ctx.eraseNormal t, (.key t, true) :: s.defd⟩ : DState).defd = some true := hp
              rw [k1.look x nofun (by rw [hp']; exact nofun), hp']
            · have l3 : lookupDef (.key t) q.1.defd ≠ none := (calls_good ih (expandWith_calls g1')).2.2.started nofun l1
              have k3 := (steps_good ih (checkTerm_steps g2') l3 hni).2.2.1
              rw [DState.finish, lookupDef_cons]
              split
              · exact nofun
              · exact k3.started (by simpa using hxt) this.2
    · exact NotDone.finish (s := { s2 with ctx := _ }) (nd2 (nd1 h)) hni

end

theorem define_ign (E : ProcEnv) (d : SDef) (n : Nat) : ∀ (s s' : DState) (t : Str)
    (rc : List Str) (base : Option Str) (prot : Bool) (o : Opts),
    (recN E n).define s ⟨d, none⟩ (.key t) rc base prot o = .ok s' → IgnInv d s s' t := by
  induction n with
  | zero => intro s s' t rc base prot o h; cases h
  | succ n ih =>
    intro s s' t rc base prot o h
    cases defineBody_ok h with
    | done _ hd => exact ⟨.refl _ _ _, id, fun _ _ _ _ h => h⟩
    | absent k hl _ hb =>
      rw [binding_local] at hb
      have un : ∀ k', k' ≠ t → lookupDef (.key k') (DState.finish { s with defd := (.key t, true) :: s.defd } (.key t)).defd =
          lookupDef (.key k') s.defd := by
        intro k' hk
        rw [DState.finish, lookupDef_cons, if_neg (by rintro ⟨⟩; exact hk rfl), lookupDef_cons,
          if_neg (by rintro ⟨⟩; exact hk rfl)]
      have nb : ∀ {k' x}, Ment d k' x → k' ≠ t := by
        rintro k' x ⟨b, hb', _⟩ rfl
        rw [hb] at hb'; cases hb'
      refine ⟨fun k' x hm h1 h2 => ?_, fun h x hx => ?_, fun ⟨b, hb', _⟩ => ?_⟩
      · rw [un k' (nb hm)] at h2
        exact absurd h1 h2
      · have : x ≠ t := by
          rintro rfl
          obtain ⟨b, hb', _⟩ := hx
          rw [hb] at hb'; cases hb'
        rw [un x this]
        exact h x hx
      · rw [hb] at hb'; cases hb'
    | term k b s' hl hk hb hr =>
      rw [binding_local] at hb
      exact term_ign (fun s s' t h => ih s s' t rc none false _ h) hb hl hr

theorem defineAll_good {E : ProcEnv} {d : SDef} {n : Nat} {rc : List Str} {base : Option Str} {prot : Bool} {o : Opts} :
    ∀ (bs : List (Str × Option STerm)) (s s' : DState),
    defineAll (recN E n) ⟨d, none⟩ rc base prot o bs s = .ok s' →
    Good d none s s' ∧ (NotDone d s → NotDone d s') ∧ Kept [] s s' ∧ ∀ b ∈ bs, lookupDef (.key b.1) s'.defd ≠ none := by
  intro bs
  induction bs with
  | nil => intro s s' h; cases h; exact ⟨.refl _ _ _, id, .refl _ _, nofun⟩
  | cons b bs ih =>
    intro s s' h
    rw [defineAll, bindOk] at h
    obtain ⟨s1, h1, h2⟩ := h
    have k1 := define_keeps E n _ _ _ _ _ _ _ _ h1
    have i1 := define_ign E d n _ _ _ _ _ _ _ h1
    obtain ⟨g2, nd2, k2, l2⟩ := ih s1 s' h2
    refine ⟨i1.good.trans' g2 k1.1 k2, fun h => nd2 (i1.notDone h), k1.1.trans k2, fun x hx => ?_⟩
    rcases List.mem_cons.1 hx with rfl | hx
    · exact k2.started nofun k1.2.1
    · exact l2 x hx

/-- If the terms of a definition were defined, then no term mentions one that is ignored. -/
theorem defineAll_ign {E : ProcEnv} {d : SDef} {n : Nat} {rc : List Str} {base : Option Str} {prot : Bool} {o : Opts}
    {s s' : DState} (hs : ∀ x, lookupDef (.key x) s.defd = none)
    (h : defineAll (recN E n) ⟨d, none⟩ rc base prot o d.bindings s = .ok s') {k x : Str} (hm : Ment d k x) :
    ¬ Ign d x := by
  intro hi
  have hx : ∃ b, (x, b) ∈ d.bindings := by
    obtain ⟨b, hb, _⟩ := hi
    exact ⟨b, lookupKey_mem hb⟩
  obtain ⟨b, hx⟩ := hx
  obtain ⟨pre, post, hbs⟩ := List.append_of_mem hx
  have hk : lookupDef (.key k) s'.defd ≠ none := by
    obtain ⟨b', hb', _⟩ := hm
    exact (defineAll_good _ _ _ h).2.2.2 (k, b') (lookupKey_mem hb')
  rw [hbs] at h
  obtain ⟨s1, h1, h2⟩ := defineAll_append _ _ _ _ h
  rw [defineAll, bindOk] at h2
  obtain ⟨s2, h2, h3⟩ := h2
  obtain ⟨g1, nd1, k1, _⟩ := defineAll_good _ _ _ h1
  obtain ⟨g3, nd3, k3, _⟩ := defineAll_good _ _ _ h3
  have kx := define_keeps E n _ _ _ _ _ _ _ _ h2
  have ix := define_ign E d n _ _ _ _ _ _ _ h2
  simp only at kx ix
  have nd0 : NotDone d s := fun y _ => by rw [hs y]; exact nofun
  have fresh : lookupDef (.key x) s1.defd = none := by
    cases hl : lookupDef (.key x) s1.defd with
    | none => rfl
    | some w =>
      cases w with
      | true => exact absurd hl kx.2.2.1
      | false => exact absurd hl (nd1 nd0 x hi)
  have pend : lookupDef (.key x) s2.defd = some true := by
    cases hl : lookupDef (.key x) s2.defd with
    | none => exact absurd hl kx.2.1
    | some w =>
      cases w with
      | true => rfl
      | false => exact absurd hl (ix.notDone (nd1 nd0) x hi)
  by_cases hk1 : lookupDef (.key k) s1.defd = none
  · have hk2 := ix.ign hi fresh k hm hk1
    exact (g3 k x hm hk2 hk).1 nofun pend
  · exact (g1 k x hm (hs k) hk1).2 fresh

end JsonLd.Say
