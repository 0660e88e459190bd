import Verif.Proofs.Says
/-!
# What a term definition says: expansion within a definition
-/

namespace JsonLd.Say

open Spec

/-- True of every context that agrees with the state. -/
def Stable (P : List Str) (s : DState) (Q : ACtx → Prop) : Prop := ∀ c, Agree P s c → Q c

theorem Stable.after {X P : List Str} {s s' : DState} {Q : ACtx → Prop} (h : Stable P s Q) (hk : Kept X s s')
    (hX : ∀ x ∈ X, x ∈ P) : Stable P s' Q := fun c hc => h c (hc.back hk hX)

/-- The term has the form of a compact IRI, and its prefix is `p`. -/
def Prefixed (E : IriEnv) (x p : Str) : Prop :=
  colonInside x = true ∧ E.isBlank x = false ∧ ∃ y, compactIri E x = some (p, y)

/-- The definition of the term `x` is under way. It may be marked as done already while it is checked against its
prefix. -/
def Busy (E : IriEnv) (s : DState) (x : Str) : Prop :=
  lookupDef (.key x) s.defd = some true ∨
  (lookupDef (.key x) s.defd ≠ none ∧ s.ctx.getNormal x = none ∧
    ∃ p, Prefixed E x p ∧ lookupDef (.key p) s.defd = some true)

/-- The same, while the prefix `p` is about to be defined. -/
def Via (E : IriEnv) (p : Str) (s : DState) (x : Str) : Prop :=
  lookupDef (.key x) s.defd ≠ none ∧ s.ctx.getNormal x = none ∧ Prefixed E x p ∧ lookupDef (.key p) s.defd = none

theorem Busy.started {E : IriEnv} {s : DState} {x : Str} (h : Busy E s x) : lookupDef (.key x) s.defd ≠ none := by
  rcases h with h | h
  · rw [h]; exact nofun
  · exact h.1

theorem Busy.kept {E : IriEnv} {s s' : DState} {x : Str} (h : Busy E s x) (hk : Kept [] s s') : Busy E s' x := by
  rcases h with h | ⟨h1, h2, p, h3, h4⟩
  · exact .inl (by rw [hk.look x nofun (by rw [h]; exact nofun), h])
  · exact .inr ⟨by rw [hk.look x nofun h1]; exact h1, by rw [hk.defs x nofun h1, h2], p, h3,
      by rw [hk.look p nofun (by rw [h4]; exact nofun), h4]⟩

section
variable {R : Rec} {E : ProcEnv} {m : Merged} {P : List Str} {rc : List Str} {o : Opts} {voc : Action}
  (hK : ∀ s s' x, R.define s m (.key x) rc none false o.noOverride = .ok s' → Kept [] s s' ∧
    lookupDef (.key x) s'.defd ≠ none ∧ lookupDef (.key x) s.defd ≠ some true ∧
      (lookupDef (.key x) s.defd = some false → s' = s))
include hK

theorem not_busy_prefix {s s' : DState} {x p y : Str} (hB : ∀ x ∈ P, Busy E.toIriEnv s x)
    (hq : compactIri E.toIriEnv x = some (p, y)) (h : R.define s m (.key p) rc none false o.noOverride = .ok s') :
    p ∉ P := by
  intro hp
  rcases hB p hp with h1 | ⟨_, _, q, h1, _⟩
  · exact (hK _ _ _ h).2.2.1 h1
  · exact (compactIri_colon hq).1 (colonInside_colon h1.1)

theorem not_busy {s s1 : DState} {x : Str} {r : DState × Option CTerm} (hB : ∀ x ∈ P, Busy E.toIriEnv s x)
    (hk : isKeywordLike x = false) (h : R.define s m (.key x) rc none false o.noOverride = .ok s1)
    (h' : expandAfter R E s1 x false (some voc) m rc o = .ok r) : x ∉ P := by
  intro hx
  obtain ⟨k1, k2, k3, k4⟩ := hK _ _ _ h
  rcases hB x hx with h1 | ⟨h1, h2, p, ⟨hc, hb, y, hq⟩, h4⟩
  · exact k3 h1
  · have hxt : x ≠ "@type".toList := by
      rintro rfl
      revert hk
      decide
    have hn : expandTerm s1.ctx x (some voc) = none := by
      unfold expandTerm ACtx.getValue
      rw [if_neg hxt, k1.defs x nofun h1, h2]
      rfl
    have hp : lookupDef (.key p) s1.defd = some true := by
      rw [k1.look p nofun (by rw [h4]; exact nofun), h4]
    rcases expandAfter_ok h' with ⟨_, t, h5, _⟩ | ⟨_, h5 | h5 | h5 | h5 | h5⟩
    · rw [hn] at h5; cases h5
    · rw [hb] at h5; exact nomatch h5.2.2.1
    · have := h5.2.2.1
      subst this
      revert hq
      unfold compactIri
      simp [splitOnce]
    · rw [hq] at h5; exact nomatch (h5.2.1 hc).2.2.1
    · rw [hq] at h5; exact nomatch h5.2.2.2.2.1
    · obtain ⟨_, _, _, p', y', h6, h7, _⟩ := h5
      rw [hq] at h6
      cases h6
      exact (hK _ _ _ h7).2.2.1 hp

/-- What `expand_iri_with` finds while a context is processed is what expansion finds in every context that agrees. -/
theorem expandWith_stable {s : DState} {v : Option Expandable} {r : DState × Option CTerm}
    (hB : ∀ x ∈ P, Busy E.toIriEnv s x) (h : expandWith R E s v false (some voc) m rc o = .ok r) :
    Stable P r.1 fun c => expandIri E.toIriEnv c v false (some voc) = .ok r.2 := by
  obtain ⟨s', t⟩ := r
  intro c hc
  rcases expandWith_ok h with ⟨_, ⟨rfl, h1⟩ | ⟨k, rfl, h1⟩ | ⟨x, rfl, hx, h1⟩⟩ | ⟨x, s1, rfl, hk, h1, h2⟩
  · simp only at h1; rw [h1]; rfl
  · simp only at h1; rw [h1]; rfl
  · simp only at h1
    rw [h1]
    show expandStr E.toIriEnv c x false (some voc) = _
    unfold expandStr
    rw [if_pos hx]
  · have hx : x ∉ P := not_busy hK hB hk h1 h2
    obtain ⟨k1, k2, _⟩ := hK _ _ _ h1
    have hB1 : ∀ x ∈ P, Busy E.toIriEnv s1 x := fun x hx => (hB x hx).kept k1
    have hs : Kept [] s1 s' := kept_calls (fun _ _ _ h => (hK _ _ _ h).1) (expandAfter_calls h2)
    have hc1 : Agree P s1 c := hc.back hs nofun
    have ht : expandTerm c x (some voc) = expandTerm s1.ctx x (some voc) :=
      expandTerm_congr (hc1.defs x k2 hx) hc1.typeDef _
    have tail : expandTail E.toIriEnv c x false (some voc) = expandTail E.toIriEnv s'.ctx x false (some voc) :=
      expandTail_congr _ hc.vocab hc.base _ _ _
    show expandStr E.toIriEnv c x false (some voc) = .ok t
    unfold expandStr
    rw [if_neg (by simp [hk]), ht]
    rcases expandAfter_ok h2 with ⟨_, t', h5, h6⟩ | ⟨hn, h5 | h5 | h5 | h5 | h5⟩
    · rw [h5]; simp only at h6 ⊢; rw [h6]
    · obtain ⟨_, hc, hb, h6⟩ := h5
      simp only at h6
      simp only [hn, hc, hb, if_true, h6]
    · obtain ⟨_, hb, rfl, h6⟩ := h5
      simp only at h6
      simp only [hn, hb, h6, show colonInside ['_', ':'] = true from by decide, if_true, Bool.false_eq_true, if_false]
    · obtain ⟨h3, h6, h7⟩ := h5
      simp only at h3 h7
      subst h3
      rw [← tail] at h7
      simp only [hn]
      split
      · rename_i hc'
        obtain ⟨hb, he, hq, hi⟩ := h6 hc'
        simp only [hb, he, hq, hi, Bool.false_eq_true, if_false, Option.bind_none, h7]
      · exact h7
    · obtain ⟨_, hc', hb, he, hq, hi, h6⟩ := h5
      simp only at h6
      simp only [hn, hc', hb, he, hq, hi, if_true, Bool.false_eq_true, if_false, Option.bind_none, h6]
    · obtain ⟨hc', hb, he, p, y, hq, hd, h6⟩ := h5
      simp only at hd h6
      have hp : expandPrefix E.toIriEnv c p y = expandPrefix E.toIriEnv s'.ctx p y :=
        expandPrefix_congr _ (hc.defs p (hK _ _ _ hd).2.1 (not_busy_prefix hK hB1 hq hd)) _
      simp only [hn, hc', hb, he, hq, if_true, Bool.false_eq_true, if_false, Option.bind_some, hp]
      rcases h6 with ⟨t', h7, h8⟩ | ⟨h7, ⟨hi, h8⟩ | ⟨hi, h8⟩⟩
      · rw [h7, h8]
      · simp only [h7, hi, if_true, h8]
      · simp only [h7, hi, Bool.false_eq_true, if_false, tail, h8]

/-- The same for the implicit IRI mapping of the term `k`. -/
theorem implicitId_stable {s : DState} {k : Str} {d : TermDef} {r : DState × TermDef}
    (hB : ∀ x ∈ P, Busy E.toIriEnv s x) (hk : k ∈ P) (hs : lookupDef (.key k) s.defd ≠ none)
    (hn : s.ctx.getNormal k = none) (ho : o.vocab = voc) (h : implicitId R E s m k rc o d = .ok r) :
    ∃ v, r.2 = { d with value := some v } ∧ Stable P r.1 fun c => Implicit E.toIriEnv voc c k v := by
  obtain ⟨q, v, h1, rfl, h2⟩ := implicitId_ok h
  refine ⟨v, rfl, fun c hc => ?_⟩
  simp only at hc
  have hv : c.vocab = q.1.ctx.vocab := hc.vocab
  -- the value of the prefix, and the expansion without the definition of `k`
  have facts : (∀ p y, compactIri E.toIriEnv k = some (p, y) → c.getValue p = q.1.ctx.getValue p ∧
      (c.eraseNormal k).getNormal p = q.1.ctx.getNormal p) ∧ q.1.ctx.getNormal k = none := by
    rcases implicitPrefix_ok h1 with ⟨h3, rfl⟩ | ⟨p, y, h3, h4, _⟩
    · refine ⟨fun p y h => ?_, hn⟩
      rw [h3] at h; cases h
    · have hp := not_busy_prefix hK hB h3 h4
      obtain ⟨k1, k2, _⟩ := hK _ _ _ h4
      refine ⟨fun p' y' h => ?_, ?_⟩
      · rw [h3] at h
        cases h
        refine ⟨getValue_congr (hc.defs p k2 hp) hc.typeDef, ?_⟩
        rw [getNormal_erase, if_neg, hc.defs p k2 hp]
        rintro rfl
        exact hp hk
      · rw [k1.defs k nofun hs, hn]
  have none_ : q.2 = none → ∀ p y, compactIri E.toIriEnv k = some (p, y) → c.getValue p = none := by
    intro hq p y h
    rw [(facts.1 p y h).1]
    rcases implicitPrefix_ok h1 with ⟨h3, _⟩ | ⟨p', y', h3, _, ⟨h5, _⟩ | ⟨v', _, _, h5⟩⟩
    · rw [h3] at h; cases h
    · rw [h3] at h; cases h; exact h5
    · rw [hq] at h5; cases h5
  have same : expandStr E.toIriEnv (c.eraseNormal k) k false (some voc) =
      expandStr E.toIriEnv q.1.ctx k false (some voc) := by
    have e1 : expandTerm (c.eraseNormal k) k (some voc) = expandTerm q.1.ctx k (some voc) :=
      expandTerm_congr (c := c.eraseNormal k) (by rw [getNormal_erase, if_pos rfl, facts.2]) hc.typeDef _
    have e2 : expandTail E.toIriEnv (c.eraseNormal k) k false (some voc) = expandTail E.toIriEnv q.1.ctx k false (some voc) :=
      expandTail_congr _ (c := c.eraseNormal k) hv hc.base _ _ _
    have e3 : ((compactIri E.toIriEnv k).bind fun q' => expandPrefix E.toIriEnv (c.eraseNormal k) q'.1 q'.2) =
        (compactIri E.toIriEnv k).bind fun q' => expandPrefix E.toIriEnv q.1.ctx q'.1 q'.2 := by
      cases hq : compactIri E.toIriEnv k with
      | none => rfl
      | some w => exact expandPrefix_congr _ (facts.1 w.1 w.2 hq).2 _
    unfold expandStr
    rw [e1, e2, e3]
  rcases h2 with h2 | ⟨h2, h3 | ⟨h3, h4⟩⟩
  · rcases implicitPrefix_ok h1 with ⟨_, rfl⟩ | ⟨p, y, h3, _, ⟨_, h5⟩ | ⟨w, h5, _, h6⟩⟩
    · cases h2
    · rw [h2] at h5; cases h5
    · rw [h2] at h6
      cases h6
      exact .pre p y w h3 (by rw [(facts.1 p y h3).1, h5])
  · unfold implicitRef at h3
    split at h3
    · rename_i hb
      cases h3
      exact .blank (none_ h2) hb
    · rename_i hb
      rw [Bool.not_eq_true] at hb
      split at h3
      · rename_i hr
        split at h3
        · rename_i hi
          cases h3
          exact .iri (none_ h2) hb hr hi
        · rename_i hi
          rw [Bool.not_eq_true] at hi
          split at h3
          · rename_i hsl
            rw [ho] at h3
            split at h3
            · cases h3
            · rename_i i he
              cases h3
              exact .path i (none_ h2) hb hr hi hsl (by rw [same, he])
            · cases h3
          · cases h3
      · cases h3
  · obtain ⟨u, hu, _, rfl⟩ := implicitVocab_ok h4
    have : E.isBlank k = false ∧ (E.isRef k = true → E.isIri k = false ∧ '/' ∉ k) := by
      unfold implicitRef at h3
      split at h3
      · cases h3
      · rename_i hb
        refine ⟨by simpa using hb, fun hr => ?_⟩
        rw [if_pos hr] at h3
        split at h3
        · cases h3
        · rename_i hi
          refine ⟨by simpa using hi, fun hsl => ?_⟩
          rw [if_pos hsl] at h3
          split at h3 <;> cases h3
    exact .vocab u (none_ h2) this.1 this.2 (by rw [hv, hu])

end

end JsonLd.Say
