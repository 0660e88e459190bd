import Verif.Proofs.SaysTerm
/-!
# What a term definition says: the definitions of a context
-/

namespace JsonLd.Say

open Spec

/-- The terms that were not met are as in `c0`; those that were met say what they should, in every context that
agrees with the state. -/
structure Inv (E : ProcEnv) (voc : Action) (m : Merged) (c0 : ACtx) (base0 : Option Str) (prot0 ov0 : Bool)
    (P : List Str) (s : DState) : Prop where
  fresh : ∀ x, lookupDef (.key x) s.defd = none → s.ctx.getNormal x = c0.getNormal x
  done : ∀ k b, m.binding k = some b → lookupDef (.key k) s.defd ≠ none → k ∉ P →
    Stable P s (Outcome E.toIriEnv voc base0 prot0 (!ov0 && keepOf c0 k) k b) ∨
    Stable P s (Outcome E.toIriEnv voc none false (keepOf c0 k) k b)

theorem Stable.start {P : List Str} {s s' : DState} {Q : ACtx → Prop} {t : Str} (h : Stable P s Q)
    (ht : lookupDef (.key t) s.defd = none) (hk : Kept [] s s') : Stable (t :: P) s' Q := by
  intro c hc
  refine h c ⟨hc.vocab.trans hk.vocab, hc.base.trans hk.base, hc.typeDef.trans hk.typeDef, fun x hx hP => ?_⟩
  have hxt : x ≠ t := by rintro rfl; exact hx ht
  rw [hc.defs x (by rw [hk.look x nofun hx]; exact hx) (by simp [hxt, hP]), hk.defs x nofun hx]

theorem Stable.stop {P : List Str} {s s' : DState} {Q : ACtx → Prop} {t : Str} (h : Stable (t :: P) s Q)
    (hk : Kept [t] s s') : Stable P s' Q := by
  intro c hc
  have : Agree (t :: P) s' c := ⟨hc.vocab, hc.base, hc.typeDef, fun x hx hP => hc.defs x hx fun h => hP (by simp [h])⟩
  exact h c (this.back hk (by simp))

theorem not_started_finish {s : DState} {t x : Str} (h : lookupDef (.key x) (s.finish (.key t)).defd = none) :
    x ≠ t ∧ lookupDef (.key x) s.defd = none := by
  rw [DState.finish, lookupDef_cons] at h
  split at h
  · cases h
  · rename_i hx
    exact ⟨by rintro rfl; exact hx rfl, h⟩

/-- What the type of a term is. -/
theorem stepType_says {R : Rec} {E : ProcEnv} {m : Merged} {P : List Str} {rc : List Str} {o : Opts} {voc : Action}
    (hK : ∀ s s' x, R.define s m (.key x) rc none false o.noOverride = .ok s' → Kept [] s s' ∧
      lookupDef (.key x) s'.defd ≠ none ∧ lookupDef (.key x) s.defd ≠ some true ∧
        (lookupDef (.key x) s.defd = some false → s' = s))
    {s s' : DState} {x : SExp} {pr : Bool} {d' : TermDef} (hB : ∀ x ∈ P, Busy E.toIriEnv s x) (ho : o.vocab = voc)
    (h : stepType R E s m x rc o { protected_ := pr } = .ok (s', d')) :
    ∃ ty, d' = { protected_ := pr, typ := ty } ∧ Stable P s' fun c => TypeSays E.toIriEnv voc x c ty := by
  rcases stepType_ok h with ⟨h1, h2⟩ | ⟨t, q, h1, h2, h3, h4⟩
  · cases h2
    exact ⟨none, rfl, fun c _ => .inl ⟨h1, rfl⟩⟩
  · simp only at h3 h4
    subst h4
    rw [ho] at h2
    have hs := expandWith_stable hK hB h2
    unfold typeMapping at h3
    split at h3
    · rename_i hq
      cases h3
      refine ⟨none, rfl, fun c hc => .inr ⟨t, none, h1, ?_, .inl ⟨rfl, rfl⟩⟩⟩
      have := hs c hc
      rw [hq] at this
      exact this
    · rename_i w hq
      split at h3
      · cases h3
      · split at h3
        · rename_i ty hty
          cases h3
          refine ⟨some ty, rfl, fun c hc => .inr ⟨t, some w, h1, ?_, .inr ⟨w, ty, rfl, rfl, hty⟩⟩⟩
          have := hs c hc
          rw [hq] at this
          exact this
        · cases h3

/-- What the IRI mapping of a term is. -/
theorem stepId_says {R : Rec} {E : ProcEnv} {m : Merged} {P : List Str} {rc : List Str} {o : Opts} {voc : Action}
    (hK : ∀ s s' x, R.define s m (.key x) rc none false o.noOverride = .ok s' → Kept [] s s' ∧
      lookupDef (.key x) s'.defd ≠ none ∧ lookupDef (.key x) s.defd ≠ some true ∧
        (lookupDef (.key x) s.defd = some false → s' = s))
    {s s' : DState} {x : SExp} {k : Str} {simple pr : Bool} {ty : Option TypeMap} {d' : TermDef}
    (hsi : simple = true → x.id ≠ none) (hB : ∀ x ∈ P, Busy E.toIriEnv s x) (hk : k ∈ P)
    (hs : lookupDef (.key k) s.defd ≠ none) (hn : s.ctx.getNormal k = none) (ho : o.vocab = voc)
    (h : stepId R E s m k x simple rc o { protected_ := pr, typ := ty } = .ok (s', some d')) :
    ∃ v p, d' = { value := v, prefix_ := p, protected_ := pr, typ := ty } ∧
      Stable P s' (fun c => IdSays E.toIriEnv voc x k c v) ∧
      (p = true ↔ simple = true ∧ ':' ∉ k ∧ '/' ∉ k ∧ x.id ≠ some (some (.term k)) ∧ ∃ w, v = some w ∧ PrefixLike w) := by
  rcases stepId_ok h with ⟨h1, h2⟩ | ⟨h1, d, h2, h3⟩ | ⟨i, h1, h2, h3⟩
  · cases h2
    refine ⟨none, false, rfl, fun c _ => ⟨fun _ => rfl, fun i hi => ?_, fun hi => ?_⟩, by simp⟩
    · rw [h1] at hi; cases hi
    · rw [h1] at hi; rcases hi with hi | hi <;> cases hi
  · cases h3
    obtain ⟨v, h4, h5⟩ := implicitId_stable hK hB hk hs hn ho h2
    refine ⟨some v, false, h4, fun c hc => ⟨fun hi => ?_, fun i hi hne => ?_, fun _ => ⟨v, rfl, h5 c hc⟩⟩, ?_⟩
    · rw [hi] at h1; rcases h1 with h1 | h1 <;> cases h1
    · rw [hi] at h1
      rcases h1 with h1 | h1
      · cases h1
      · cases h1; exact absurd rfl hne
    · refine ⟨nofun, fun ⟨g1, _, _, g2, _⟩ => ?_⟩
      rcases h1 with h1 | h1
      · exact absurd h1 (hsi g1)
      · exact absurd h1 g2
  · rcases explicitId_ok h3 with ⟨_, _, h4⟩ | ⟨_, q, v, d, h4, h5, h6, h7, h8⟩
    · cases h4
    · cases h8
      rw [checkMapping_exact h5] at h7 h6
      obtain ⟨p, rfl, hp⟩ := simplePrefix_exact rfl h7
      rw [ho] at h4
      have hst := (expandWith_stable hK hB h4).after
        (kept_steps (fun _ _ _ h => (hK _ _ _ h).1) (checkTerm_steps h6)) (by simpa using hk)
      refine ⟨q.2, p, rfl, fun c hc => ⟨fun hi => ?_, fun j hj _ => ?_, fun hi => ?_⟩, ?_⟩
      · rw [h1] at hi; cases hi
      · rw [h1] at hj; cases hj; exact hst c hc
      · rw [h1] at hi
        rcases hi with hi | hi
        · cases hi
        · cases hi; exact absurd rfl h2
      · rw [hp, h1]
        have : some (some i) ≠ some (some (SId.term k)) := by simpa using h2
        simp [this]

section
variable {E : ProcEnv} {voc : Action} {m : Merged} {c0 : ACtx} {base0 : Option Str} {prot0 ov0 : Bool}

/-- What is to be shown of `define`. -/
def DefInv (E : ProcEnv) (voc : Action) (m : Merged) (c0 : ACtx) (base0 : Option Str) (prot0 ov0 : Bool) (n : Nat) :
    Prop :=
  ∀ (P : List Str) (s s' : DState) (t : Str) (rc : List Str) (base : Option Str) (prot : Bool) (o : Opts),
    o.vocab = voc → ((base = base0 ∧ prot = prot0 ∧ o.override = ov0) ∨ (base = none ∧ prot = false ∧ o.override = false)) →
    Inv E voc m c0 base0 prot0 ov0 P s → (∀ x ∈ P, Busy E.toIriEnv s x ∨ Via E.toIriEnv t s x) →
    (recN E n).define s m (.key t) rc base prot o = .ok s' →
    Inv E voc m c0 base0 prot0 ov0 P s' ∧ (lookupDef (.key t) s.defd = none → ∀ b, m.binding t = some b →
      Stable P s' (Outcome E.toIriEnv voc base prot (!o.override && keepOf c0 t) t b))

theorem calls_inv {n : Nat} (ih : DefInv E voc m c0 base0 prot0 ov0 n) {P : List Str} {rc : List Str} {o : Opts}
    (ho : o.vocab = voc) {s s' : DState} (h : Calls (recN E n) m rc o s s') (hs : Inv E voc m c0 base0 prot0 ov0 P s)
    (hB : ∀ x ∈ P, Busy E.toIriEnv s x) :
    Inv E voc m c0 base0 prot0 ov0 P s' ∧ ∀ x ∈ P, Busy E.toIriEnv s' x := by
  induction h with
  | refl => exact ⟨hs, hB⟩
  | step x _ hd ih' =>
    exact ⟨(ih P _ _ x rc none false o.noOverride ho (.inr ⟨rfl, rfl, rfl⟩) ih'.1
        (fun y hy => .inl (ih'.2 y hy)) hd).1,
      fun y hy => (ih'.2 y hy).kept (define_keeps E n _ _ _ _ _ _ _ _ hd).1⟩

theorem inv_finish {P : List Str} {s : DState} {t : Str} (ht : t ∈ P) (hs : Inv E voc m c0 base0 prot0 ov0 P s) :
    Inv E voc m c0 base0 prot0 ov0 P (s.finish (.key t)) := by
  refine ⟨fun x hx => hs.fresh x (not_started_finish hx).2, fun k b hb hk hP => ?_⟩
  have hkt : k ≠ t := by rintro rfl; exact hP ht
  have hk' : lookupDef (.key k) s.defd ≠ none := by
    rw [DState.finish, lookupDef_cons, if_neg (by rintro ⟨⟩; exact hkt rfl)] at hk
    exact hk
  rcases hs.done k b hb hk' hP with h | h
  · exact .inl (h.after (kept_finish s t) (by simpa using ht))
  · exact .inr (h.after (kept_finish s t) (by simpa using ht))

/-- While the term is checked against its prefix, the latter may be defined. -/
theorem checkTerm_inv {n : Nat} (ih : DefInv E voc m c0 base0 prot0 ov0 n) {P : List Str} {rc : List Str} {o : Opts}
    (ho : o.vocab = voc) {s s' : DState} {t : Str} {d : TermDef} (ht : t ∉ P)
    (hn : s.ctx.getNormal t = none) (h : checkTerm (recN E n) E s m t rc o d = .ok s')
    (hs : Inv E voc m c0 base0 prot0 ov0 (t :: P) s) (hB : ∀ x ∈ P, Busy E.toIriEnv s x) :
    Inv E voc m c0 base0 prot0 ov0 (t :: P) s' := by
  rcases checkTerm_ok h with ⟨_, rfl⟩ | ⟨_, r, h1, _⟩
  · exact hs
  · have hf := inv_finish (t := t) (by simp) hs
    have hlt : lookupDef (.key t) (s.finish (.key t)).defd = some false := by
      rw [DState.finish, lookupDef_cons, if_pos rfl]
    rcases expandWith_ok h1 with ⟨h2, _⟩ | ⟨x, s1, h2, _, h3, h4⟩
    · simp only at h2; rw [h2]; exact hf
    · cases h2
      have hs1 := (define_keeps E n _ _ _ _ _ _ _ _ h3).2.2.2 hlt
      subst hs1
      rcases expandAfter_ok h4 with ⟨h5, _⟩ | ⟨_, ⟨h5, _⟩ | ⟨h5, _⟩ | ⟨h5, _⟩ | ⟨h5, _⟩ | ⟨hc, hb, _, p, y, hq, hd, _⟩⟩
      · simp only at h5; rw [h5]; exact hf
      · simp only at h5; rw [h5]; exact hf
      · simp only at h5; rw [h5]; exact hf
      · simp only at h5; rw [h5]; exact hf
      · simp only at h5; rw [h5]; exact hf
      · simp only at hd
        have hk := define_keeps E n _ _ _ _ _ _ _ _ hd
        cases hp : lookupDef (.key p) (s.finish (.key t)).defd with
        | some w =>
          cases w with
          | true => exact absurd hp hk.2.2.1
          | false => rw [hk.2.2.2 hp]; exact hf
        | none =>
          refine (ih (t :: P) _ _ p rc none false o.noOverride ho (.inr ⟨rfl, rfl, rfl⟩) hf (fun x hx => ?_) hd).1
          rw [List.mem_cons] at hx
          rcases hx with rfl | hx
          · exact .inr ⟨by rw [hlt]; exact nofun, hn, ⟨hc, hb, y, hq⟩, hp⟩
          · have hxt : x ≠ t := by rintro rfl; exact ht hx
            have lk : ∀ z, z ≠ t → lookupDef (.key z) (s.finish (.key t)).defd = lookupDef (.key z) s.defd := by
              intro z hz
              rw [DState.finish, lookupDef_cons, if_neg (by rintro ⟨⟩; exact hz rfl)]
            left
            rcases hB x hx with h6 | ⟨h6, h7, p', h8, h9⟩
            · exact .inl (by rw [lk x hxt, h6])
            · refine .inr ⟨by rw [lk x hxt]; exact h6, h7, p', h8, ?_⟩
              rw [lk p', h9]
              rintro rfl
              obtain ⟨_, _, y', hy'⟩ := h8
              exact (compactIri_colon hy').1 (colonInside_colon hc)

theorem stepId_inv {n : Nat} (ih : DefInv E voc m c0 base0 prot0 ov0 n) {P : List Str} {rc : List Str} {o : Opts}
    (ho : o.vocab = voc) {s : DState} {t : Str} {x : SExp} {simple : Bool} {d : TermDef} {r : DState × Option TermDef}
    (ht : t ∉ P) (hl : lookupDef (.key t) s.defd ≠ none) (hn : s.ctx.getNormal t = none)
    (h : stepId (recN E n) E s m t x simple rc o d = .ok r)
    (hs : Inv E voc m c0 base0 prot0 ov0 (t :: P) s) (hB : ∀ x ∈ t :: P, Busy E.toIriEnv s x) :
    Inv E voc m c0 base0 prot0 ov0 (t :: P) r.1 := by
  have hkc : ∀ {a b}, Calls (recN E n) m rc o a b → Kept [] a b :=
    fun h => kept_calls (fun _ _ _ h => (define_keeps E n _ _ _ _ _ _ _ _ h).1) h
  rcases stepId_ok h with ⟨_, rfl⟩ | ⟨_, d', h, _⟩ | ⟨i, _, _, h⟩
  · exact hs
  · exact (calls_inv ih ho (implicitId_calls h) hs hB).1
  · rcases explicitId_ok h with ⟨_, _, rfl⟩ | ⟨_, q, v, d', h1, _, h2, _⟩
    · exact hs
    · have h3 := calls_inv ih ho (expandWith_calls h1) hs hB
      refine checkTerm_inv ih ho ht ?_ h2 h3.1 fun x hx => h3.2 x (by simp [hx])
      rw [(hkc (expandWith_calls h1)).defs t nofun hl, hn]

theorem term_inv {n : Nat} (ih : DefInv E voc m c0 base0 prot0 ov0 n) {P : List Str} {s s' : DState} {t : Str}
    {rc : List Str} {base : Option Str} {prot : Bool} {o : Opts} (ho : o.vocab = voc) {b : Option STerm}
    (hs : Inv E voc m c0 base0 prot0 ov0 P s) (hB : ∀ x ∈ P, Busy E.toIriEnv s x ∨ Via E.toIriEnv t s x)
    (hl : lookupDef (.key t) s.defd = none)
    (h : TermRun (recN E n) E { s with defd := (.key t, true) :: s.defd } m t b rc base prot o s') :
    ∃ s2, Inv E voc m c0 base0 prot0 ov0 (t :: P) s2 ∧ Kept [t] s2 s' ∧
      (∀ x, lookupDef (.key x) s'.defd = none → s'.ctx.getNormal x = s2.ctx.getNormal x) ∧
      (∀ x, x ≠ t → lookupDef (.key x) s'.defd = lookupDef (.key x) s2.defd) ∧
      lookupDef (.key t) s'.defd ≠ none ∧
      Stable P s' (Outcome E.toIriEnv voc base prot (!o.override && keepOf c0 t) t b) := by
  have hK : ∀ s s' x, (recN E n).define s m (.key x) rc none false o.noOverride = .ok s' → Kept [] s s' ∧
      lookupDef (.key x) s'.defd ≠ none ∧ lookupDef (.key x) s.defd ≠ some true ∧
        (lookupDef (.key x) s.defd = some false → s' = s) :=
    fun s s' x h => define_keeps E n s s' m x rc none false _ h
  have hkc : ∀ {a b}, Calls (recN E n) m rc o a b → Kept [] a b :=
    fun h => kept_calls (fun _ _ _ h => (hK _ _ _ h).1) h
  have htP : t ∉ P := by
    intro ht
    rcases hB t ht with h | h
    · exact h.started hl
    · exact h.1 hl
  -- the state in which the definition starts
  have k0 := kept_start s t hl
  have l0 : lookupDef (.key t) (⟨s.ctx.eraseNormal t, (.key t, true) :: s.defd⟩ : DState).defd = some true := by
    rw [lookupDef_cons, if_pos rfl]
  have n0 : (s.ctx.eraseNormal t).getNormal t = none := by rw [getNormal_erase, if_pos rfl]
  have i0 : Inv E voc m c0 base0 prot0 ov0 (t :: P) ⟨s.ctx.eraseNormal t, (.key t, true) :: s.defd⟩ := by
    refine ⟨fun x hx => ?_, fun k b hb hk hP => ?_⟩
    · have hxt : x ≠ t := by rintro rfl; rw [l0] at hx; cases hx
      rw [lookupDef_cons, if_neg (by rintro ⟨⟩; exact hxt rfl)] at hx
      show (s.ctx.eraseNormal t).getNormal x = _
      rw [getNormal_erase, if_neg (by intro e; exact hxt e.symm), hs.fresh x hx]
    · rw [List.mem_cons, not_or] at hP
      rw [lookupDef_cons, if_neg (by rintro ⟨⟩; exact hP.1 rfl)] at hk
      rcases hs.done k b hb hk hP.2 with h | h
      · exact .inl (h.start hl k0)
      · exact .inr (h.start hl k0)
  have b0 : ∀ x ∈ t :: P, Busy E.toIriEnv ⟨s.ctx.eraseNormal t, (.key t, true) :: s.defd⟩ x := by
    intro x hx
    rw [List.mem_cons] at hx
    rcases hx with rfl | hx
    · exact .inl l0
    · rcases hB x hx with h | ⟨h1, h2, h3, h4⟩
      · exact h.kept k0
      · exact .inr ⟨by rw [k0.look x nofun h1]; exact h1, by rw [k0.defs x nofun h1]; exact h2, t, h3, l0⟩
  have look : ∀ (a : DState) x, x ≠ t → lookupDef (.key x) (a.finish (.key t)).defd = lookupDef (.key x) a.defd := by
    intro a x hx
    rw [DState.finish, lookupDef_cons, if_neg (by rintro ⟨⟩; exact hx rfl)]
  have setf : ∀ (a : DState) (d : TermDef) x,
      lookupDef (.key x) ({ a with ctx := a.ctx.setNormal t d }.finish (.key t)).defd = none →
      ({ a with ctx := a.ctx.setNormal t d }.finish (.key t)).ctx.getNormal x = a.ctx.getNormal x := by
    intro a d x hx
    have := (not_started_finish hx).1
    show (a.ctx.setNormal t d).getNormal x = _
    rw [getNormal_set, if_neg (by intro e; exact this e.symm)]
  have fin : ∀ (a : DState) (d : TermDef), lookupDef (.key t) ({ a with ctx := a.ctx.setNormal t d }.finish (.key t)).defd ≠ none := by
    intro a d
    rw [DState.finish, lookupDef_cons, if_pos rfl]; exact nofun
  cases h with
  | reverseKeyword d0 _ d1 v h0 h1 hr _ _ hv =>
    have i1 := calls_inv ih ho (stepType_calls h1) i0 b0
    have k1 := hkc (stepType_calls h1)
    have hlk : lookupDef (.key t) s'.defd ≠ none := by
      rw [k1.look t nofun (by rw [l0]; exact nofun), l0]; exact nofun
    refine ⟨s', i1.1, .refl _ _, fun _ _ => rfl, fun _ _ => rfl, hlk, fun c hc => ?_⟩
    have hn : c.getNormal t = none := by
      rw [hc.defs t hlk htP, k1.defs t nofun (by rw [l0]; exact nofun)]; exact n0
    refine ⟨fun _ _ _ => hn, fun w hw hk => ?_, fun _ _ _ _ _ => hn, fun h => ?_⟩
    · rw [hr] at hw
      cases hw
      rw [not_keywordForm.2 hk] at hv
      cases hv
    · rw [hr] at h; cases h
  | reverse d0 s1 d1 v s2 r d2 d3 h0 h1 hr _ _ hv h2 h3 h4 =>
    have hd0 := stepProtected_exact h0
    subst hd0
    obtain ⟨ty, rfl, hty⟩ := stepType_says hK b0 ho h1
    have i1 := calls_inv ih ho (stepType_calls h1) i0 b0
    have i2 := calls_inv ih ho (expandWith_calls h2) i1.1 i1.2
    have k2 := hkc (expandWith_calls h2)
    rw [ho] at h2
    have hv2 := expandWith_stable hK i1.2 h2
    obtain ⟨i, cn, rfl, hi, rfl, hcn⟩ := reverse_exact h3 h4
    refine ⟨s2, i2.1, kept_set _ _ _, setf _ _, look _, fin _ _, fun c hc => ?_⟩
    have hn := hc.defs t (fin _ _) htP
    replace hn := hn.trans (getNormal_set _ _ _ _)
    rw [if_pos rfl] at hn
    refine ⟨fun w hw hk => ?_, fun w hw hk => ⟨_, hn, ?_⟩, fun h => ?_, fun h => ?_⟩
    · rw [hr] at hw
      cases hw
      rw [not_keywordForm] at hv
      exact absurd hk hv
    · rw [hr] at hw
      cases hw
      exact ⟨⟨i, rfl, hi, (hv2.stop (kept_set s2 t _)) c hc⟩,
        ((hty.after k2 nofun).stop (kept_set s2 t _)) c hc, hcn, ⟨rfl, rfl, rfl, rfl, rfl, rfl, rfl⟩, rfl, rfl⟩
    · rw [hr] at h; cases h
    · rw [hr] at h; cases h
  | idKeyword d0 _ d1 i h0 h1 hr hi hk1 hk2 hne =>
    have i1 := calls_inv ih ho (stepType_calls h1) i0 b0
    have k1 := hkc (stepType_calls h1)
    have hlk : lookupDef (.key t) s'.defd ≠ none := by
      rw [k1.look t nofun (by rw [l0]; exact nofun), l0]; exact nofun
    refine ⟨s', i1.1, .refl _ _, fun _ _ => rfl, fun _ _ => rfl, hlk, fun c hc => ?_⟩
    have hn : c.getNormal t = none := by
      rw [hc.defs t hlk htP, k1.defs t nofun (by rw [l0]; exact nofun)]; exact n0
    refine ⟨fun _ _ _ => hn, fun w hw => ?_, fun _ _ _ _ _ => hn, fun _ h => ?_⟩
    · rw [hr] at hw; cases hw
    · cases i with
      | keyword k => cases hk2
      | term x =>
        have := h x hi (by
          by_contra hx
          rw [← not_keywordForm] at hx
          rw [show (SId.term x).str = x from rfl, hx] at hk1
          cases hk1)
        exact absurd (by rw [this]) hne
  | full d0 s1 d1 s2 d2 d3 d4 h0 h1 hr h2 h3 h4 =>
    have hd0 := stepProtected_exact h0
    subst hd0
    obtain ⟨ty, rfl, hty⟩ := stepType_says hK b0 ho h1
    have i1 := calls_inv ih ho (stepType_calls h1) i0 b0
    have k1 := hkc (stepType_calls h1)
    have l1 : lookupDef (.key t) s1.defd ≠ none := by
      rw [k1.look t nofun (by rw [l0]; exact nofun), l0]; exact nofun
    have n1 : s1.ctx.getNormal t = none := by
      rw [k1.defs t nofun (by rw [l0]; exact nofun)]; exact n0
    have i2 := stepId_inv ih ho htP l1 n1 h2 i1.1 i1.2
    have k2 := kept_steps (fun _ _ _ h => (hK _ _ _ h).1) (stepId_steps h2)
    obtain ⟨v, p, rfl, hv, hp⟩ := stepId_says hK simple_id i1.2 (by simp) l1 n1 ho h2
    obtain ⟨cn, ty', rfl, ht1, ht2, hcn⟩ := stepRest_exact h3
    have hd4 := stepKeep_exact h4
    have hkeep : s.ctx.getNormal t = c0.getNormal t := hs.fresh t hl
    simp only at hd4
    rw [hkeep] at hd4
    subst hd4
    refine ⟨s2, i2, kept_set _ _ _, setf _ _, look _, fin _ _, fun c hc => ?_⟩
    have hn := hc.defs t (fin _ _) htP
    replace hn := hn.trans (getNormal_set _ _ _ _)
    rw [if_pos rfl] at hn
    refine ⟨fun w hw => ?_, fun w hw => ?_, fun _ x hx hk hne => ?_, fun _ _ => ⟨_, hn, ?_⟩⟩
    · rw [hr] at hw; cases hw
    · rw [hr] at hw; cases hw
    · rcases stepId_ok h2 with ⟨g, _⟩ | ⟨g | g, _⟩ | ⟨i, g, _, g'⟩
      · rw [hx] at g; cases g
      · rw [hx] at g; cases g
      · rw [hx] at g; cases g; exact absurd rfl hne
      · rw [hx] at g
        cases g
        rcases explicitId_ok g' with ⟨_, _, g⟩ | ⟨g, _⟩
        · cases g
        · refine absurd ⟨?_, rfl⟩ g
          by_contra hk'
          rw [Bool.not_eq_true] at hk'
          exact not_keywordForm.1 hk' hk
    · exact {
        id := (hv.stop (kept_set s2 t _)) c hc
        type := ⟨ty, ((hty.after k2 (by simp)).stop (kept_set s2 t _)) c hc, ht1, ht2⟩
        container := hcn
        index := rfl
        context := rfl
        nest := rfl
        language := rfl
        direction := rfl
        prefix_ := fun q hq => by simp [hq]
        simplePrefix := fun hq => by simp only [hq, Option.getD_none]; exact hp
        reverse := rfl
        baseUrl := rfl
        protected_ := rfl }

theorem define_inv (n : Nat) : DefInv E voc m c0 base0 prot0 ov0 n := by
  induction n with
  | zero => intro P s s' t rc base prot o _ _ _ _ h; cases h
  | succ n ih =>
    intro P s s' t rc base prot o ho hbp hs hB h
    have hkeep := define_keeps E (n + 1) _ _ _ _ _ _ _ _ h
    cases defineBody_ok h with
    | done _ hd => exact ⟨hs, fun hn => by rw [hd] at hn; cases hn⟩
    | absent k hl _ hb =>
      refine ⟨⟨fun x hx => ?_, fun k b hb' hk hP => ?_⟩, fun _ b hb' => by rw [hb] at hb'; cases hb'⟩
      · obtain ⟨h1, h2⟩ := not_started_finish hx
        simp only at h2
        rw [lookupDef_cons, if_neg (by rintro ⟨⟩; exact h1 rfl)] at h2
        exact hs.fresh x h2
      · have hkt : k ≠ t := by rintro rfl; rw [hb] at hb'; cases hb'
        rw [DState.finish, lookupDef_cons, if_neg (by rintro ⟨⟩; exact hkt rfl), lookupDef_cons,
          if_neg (by rintro ⟨⟩; exact hkt rfl)] at hk
        rcases hs.done k b hb' hk hP with h | h
        · exact .inl (h.after hkeep.1 nofun)
        · exact .inr (h.after hkeep.1 nofun)
    | term k b s' hl hk hb hr =>
      obtain ⟨s2, i2, k2, f2, l2, _, hst⟩ := term_inv ih ho hs hB hl hr
      refine ⟨⟨fun x hx => ?_, fun k b' hb' hk hP => ?_⟩, fun _ b' hb' => ?_⟩
      · have hxt : x ≠ t := by rintro rfl; exact hkeep.2.1 hx
        rw [f2 x hx, i2.fresh x (by rw [← l2 x hxt]; exact hx)]
      · by_cases hkt : k = t
        · subst hkt
          rw [hb] at hb'
          cases hb'
          rcases hbp with ⟨rfl, rfl, rfl⟩ | ⟨rfl, rfl, h0⟩
          · exact .inl hst
          · refine .inr ?_
            rw [h0] at hst
            exact hst
        · rw [l2 k hkt] at hk
          rcases i2.done k b' hb' hk (by simp [hkt, hP]) with h | h
          · exact .inl (h.stop k2)
          · exact .inr (h.stop k2)
      · rw [hb] at hb'
        cases hb'
        exact hst

end

end JsonLd.Say
