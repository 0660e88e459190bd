import Verif.Proofs.Cyclic
import Verif.Proofs.ProcessFrame
import Verif.Spec.Says
/-!
# What a term definition says: the invariant
-/

namespace JsonLd.Say

open Spec

/-! ## Expansion looks at few definitions -/

theorem getValue_congr {c c' : ACtx} {x : Str} (h : c.getNormal x = c'.getNormal x) (ht : c.typeDef = c'.typeDef) :
    c.getValue x = c'.getValue x := by
  unfold ACtx.getValue
  rw [h, ht]

theorem expandTerm_congr {c c' : ACtx} {x : Str} (h : c.getNormal x = c'.getNormal x) (ht : c.typeDef = c'.typeDef)
    (voc : Option Action) : expandTerm c x voc = expandTerm c' x voc := by
  unfold expandTerm
  rw [getValue_congr h ht]

theorem expandPrefix_congr (E : IriEnv) {c c' : ACtx} {p : Str} (h : c.getNormal p = c'.getNormal p) (y : Str) :
    expandPrefix E c p y = expandPrefix E c' p y := by
  unfold expandPrefix
  rw [h]

theorem expandTail_congr (E : IriEnv) {c c' : ACtx} (hv : c.vocab = c'.vocab) (hb : c.base = c'.base) (x : Str)
    (dr : Bool) (voc : Option Action) : expandTail E c x dr voc = expandTail E c' x dr voc := by
  unfold expandTail
  rw [hv, hb]

theorem splitOnce_colon {x p y : Str} (h : splitOnce ':' x = some (p, y)) : ':' ∉ p ∧ ':' ∈ x := by
  obtain ⟨rfl, h2⟩ := splitOnce_eq_some.1 h
  exact ⟨h2, by simp⟩

theorem compactIri_colon {E : IriEnv} {x p y : Str} (h : compactIri E x = some (p, y)) : ':' ∉ p ∧ p ≠ ['_'] := by
  unfold compactIri at h
  split at h
  · rename_i p' y' hs
    split at h
    · rename_i hc
      split at h
      · cases h; exact ⟨(splitOnce_colon hs).1, hc.1⟩
      · cases h
    · cases h
  · cases h

theorem colonInside_colon {x : Str} (h : colonInside x = true) : ':' ∈ x := by
  unfold colonInside at h
  split at h
  · rename_i hs; exact (splitOnce_colon hs).2
  · cases h

/-! ## What stays -/

/-- `c` agrees with the state on everything that is settled: the definitions of terms that were started, those in
`P` aside. -/
structure Agree (P : List Str) (s : DState) (c : ACtx) : Prop where
  vocab : c.vocab = s.ctx.vocab
  base : c.base = s.ctx.base
  typeDef : c.typeDef = s.ctx.typeDef
  defs : ∀ x, lookupDef (.key x) s.defd ≠ none → x ∉ P → c.getNormal x = s.ctx.getNormal x

/-- Whatever was started is as it was, the terms in `X` aside. -/
structure Kept (X : List Str) (s s' : DState) : Prop where
  vocab : s'.ctx.vocab = s.ctx.vocab
  base : s'.ctx.base = s.ctx.base
  typeDef : s'.ctx.typeDef = s.ctx.typeDef
  look : ∀ x, x ∉ X → lookupDef (.key x) s.defd ≠ none → lookupDef (.key x) s'.defd = lookupDef (.key x) s.defd
  defs : ∀ x, x ∉ X → lookupDef (.key x) s.defd ≠ none → s'.ctx.getNormal x = s.ctx.getNormal x

theorem Kept.refl (X : List Str) (s : DState) : Kept X s s := ⟨rfl, rfl, rfl, fun _ _ _ => rfl, fun _ _ _ => rfl⟩

theorem Kept.trans {X : List Str} {a b c : DState} (h : Kept X a b) (h' : Kept X b c) : Kept X a c :=
  ⟨h'.vocab.trans h.vocab, h'.base.trans h.base, h'.typeDef.trans h.typeDef,
    fun x hX hx => (h'.look x hX (by rw [h.look x hX hx]; exact hx)).trans (h.look x hX hx),
    fun x hX hx => (h'.defs x hX (by rw [h.look x hX hx]; exact hx)).trans (h.defs x hX hx)⟩

theorem Kept.mono {X Y : List Str} {a b : DState} (h : Kept X a b) (hXY : ∀ x ∈ X, x ∈ Y) : Kept Y a b :=
  ⟨h.vocab, h.base, h.typeDef, fun x hx => h.look x fun h' => hx (hXY x h'),
    fun x hx => h.defs x fun h' => hx (hXY x h')⟩

theorem Agree.back {X P : List Str} {s s' : DState} {c : ACtx} (h : Agree P s' c) (hk : Kept X s s')
    (hX : ∀ x ∈ X, x ∈ P) : Agree P s c :=
  ⟨h.vocab.trans hk.vocab, h.base.trans hk.base, h.typeDef.trans hk.typeDef, fun x hx hP => by
    have hn : x ∉ X := fun h' => hP (hX x h')
    exact (h.defs x (by rw [hk.look x hn hx]; exact hx) hP).trans (hk.defs x hn hx)⟩

theorem kept_finish (s : DState) (k : Str) : Kept [k] s (s.finish (.key k)) :=
  ⟨rfl, rfl, rfl, fun x hx _ => by
    rw [DState.finish, lookupDef_cons, if_neg]
    rintro ⟨⟩
    exact hx (by simp), fun _ _ _ => rfl⟩

theorem kept_set (s : DState) (k : Str) (d : TermDef) :
    Kept [k] s ({ s with ctx := s.ctx.setNormal k d }.finish (.key k)) := by
  refine ⟨rfl, rfl, rfl, fun x hx _ => ?_, fun x hx _ => ?_⟩
  · rw [DState.finish, lookupDef_cons, if_neg]
    rintro ⟨⟩
    exact hx (by simp)
  · show (s.ctx.setNormal k d).getNormal x = _
    rw [getNormal_set, if_neg]
    rintro rfl
    exact hx (by simp)

theorem kept_start (s : DState) (k : Str) (hk : lookupDef (.key k) s.defd = none) :
    Kept [] s ⟨s.ctx.eraseNormal k, (.key k, true) :: s.defd⟩ := by
  refine ⟨rfl, rfl, rfl, fun x _ hx => ?_, fun x _ hx => ?_⟩
  · rw [lookupDef_cons, if_neg]
    rintro ⟨⟩
    exact hx hk
  · show (s.ctx.eraseNormal k).getNormal x = _
    rw [getNormal_erase, if_neg]
    rintro rfl
    exact hx hk

/-- Exceptions that were not started before do not count. -/
theorem Kept.drop {s s' : DState} {k : Str} (h : Kept [k] s s') (hk : lookupDef (.key k) s.defd = none) : Kept [] s s' :=
  ⟨h.vocab, h.base, h.typeDef, fun x _ hx => h.look x (by simp; rintro rfl; exact hx hk) hx,
    fun x _ hx => h.defs x (by simp; rintro rfl; exact hx hk) hx⟩

section
variable {R : Rec} {m : Merged} {rc : List Str} {o : Opts} {X : List Str}
  (hR : ∀ s s' x, R.define s m (.key x) rc none false o.noOverride = .ok s' → Kept [] s s')
include hR

theorem kept_calls {s s' : DState} (h : Calls R m rc o s s') : Kept [] s s' := by
  induction h with
  | refl => exact .refl _ _
  | step x _ hd ih => exact ih.trans (hR _ _ _ hd)

theorem kept_steps {k : Str} {s s' : DState} (h : DSteps R m k rc o s s') : Kept [k] s s' := by
  induction h with
  | refl => exact .refl _ _
  | step x _ hd ih => exact ih.trans ((hR _ _ _ hd).mono nofun)
  | finish _ ih => exact ih.trans (kept_finish _ _)

end

/-- `define` leaves what was started before, and starts its term. -/
theorem define_keeps (E : ProcEnv) (n : Nat) : ∀ (s s' : DState) (m : Merged) (t : Str)
    (rc : List Str) (base : Option Str) (prot : Bool) (o : Opts),
    (recN E n).define s m (.key t) rc base prot o = .ok s' →
    Kept [] s s' ∧ lookupDef (.key t) s'.defd ≠ none ∧ lookupDef (.key t) s.defd ≠ some true ∧
      (lookupDef (.key t) s.defd = some false → s' = s) := by
  induction n with
  | zero => intro s s' m t rc base prot o h; cases h
  | succ n ih =>
    intro s s' m t rc base prot o h
    have hR : ∀ s s' x, (recN E n).define s m (.key x) rc none false o.noOverride = .ok s' → Kept [] s s' :=
      fun s s' x h => (ih s s' m x rc none false _ h).1
    cases defineBody_ok h with
    | done _ hd => exact ⟨.refl _ _, by simp [hd], by simp [hd], fun _ => rfl⟩
    | absent k hl _ hb =>
      refine ⟨⟨rfl, rfl, rfl, fun x _ hx => ?_, fun _ _ _ => rfl⟩, ?_, by simp [hl], by simp [hl]⟩
      · rw [DState.finish, lookupDef_cons, if_neg, lookupDef_cons, if_neg]
        · rintro ⟨⟩; exact hx hl
        · rintro ⟨⟩; exact hx hl
      · rw [DState.finish, lookupDef_cons, if_pos rfl]; exact nofun
    | term k b s' hl hk hb hr =>
      have h0 := kept_start s t hl
      have ht : lookupDef (.key t) (⟨s.ctx.eraseNormal t, (.key t, true) :: s.defd⟩ : DState).defd ≠ none := by
        rw [lookupDef_cons, if_pos rfl]; exact nofun
      suffices h : Kept [] s s' ∧ lookupDef (.key t) s'.defd ≠ none from ⟨h.1, h.2, by simp [hl], by simp [hl]⟩
      cases hr with
      | reverseKeyword d0 s1 d1 v _ h1 =>
        have h2 := kept_calls hR (stepType_calls h1)
        exact ⟨h0.trans h2, by rw [h2.look t nofun ht]; exact ht⟩
      | reverse d0 s1 d1 v s2 q d2 d3 _ h1 _ _ _ _ h2 =>
        refine ⟨(((h0.trans (kept_calls hR (stepType_calls h1))).trans (kept_calls hR (expandWith_calls h2))).mono
          nofun |>.trans (kept_set _ t _)).drop hl, ?_⟩
        rw [DState.finish, lookupDef_cons, if_pos rfl]; exact nofun
      | idKeyword d0 _ d1 i _ h1 =>
        have h2 := kept_calls hR (stepType_calls h1)
        exact ⟨h0.trans h2, by rw [h2.look t nofun ht]; exact ht⟩
      | full d0 s1 d1 s2 d2 d3 d4 _ h1 _ h2 =>
        refine ⟨((((h0.trans (kept_calls hR (stepType_calls h1))).mono nofun).trans
          (kept_steps hR (stepId_steps h2))).trans (kept_set _ t _)).drop hl, ?_⟩
        rw [DState.finish, lookupDef_cons, if_pos rfl]; exact nofun

end JsonLd.Say
