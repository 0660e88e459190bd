import Verif.Proofs.SaysReach
/-!
# What was written determines the definitions
-/

namespace JsonLd.Say

open Spec

/-- Both contexts define the term in the same way. -/
def SameDef (c1 c2 : ACtx) (k : Str) : Prop := (c1.getNormal k).map forget = (c2.getNormal k).map forget

theorem SameDef.value {c1 c2 : ACtx} {k : Str} (h : SameDef c1 c2 k) (ht : c1.typeDef = c2.typeDef) :
    c1.getValue k = c2.getValue k := by
  unfold SameDef at h
  unfold ACtx.getValue
  rw [ht]
  split
  · rfl
  · cases h1 : c1.getNormal k <;> cases h2 : c2.getNormal k <;> rw [h1, h2] at h
    · exact nomatch h
    · exact nomatch h
    · simp only [Option.map_some, Option.some.injEq] at h
      have := congrArg TermDef.value h
      simpa [forget] using this

theorem SameDef.prefix {c1 c2 : ACtx} {k : Str} (h : SameDef c1 c2 k) (E : IriEnv) (y : Str) :
    expandPrefix E c1 k y = expandPrefix E c2 k y := by
  unfold SameDef at h
  unfold expandPrefix
  cases h1 : c1.getNormal k <;> cases h2 : c2.getNormal k <;> rw [h1, h2] at h
  · exact nomatch h
  · exact nomatch h
  · simp only [Option.map_some, Option.some.injEq] at h
    have e1 := congrArg TermDef.value h
    have e2 := congrArg TermDef.prefix_ h
    simp only [forget] at e1 e2
    simp only [e1, e2]

section
variable {E : ProcEnv} {voc : Action} {c c1 c2 : ACtx} {d : SDef}
  (hv : c1.vocab = c2.vocab) (hb : c1.base = c2.base) (ht : c1.typeDef = c2.typeDef)

include hv hb ht in
theorem implicit_unique {k : Str} (hp : ∀ p, HasPrefix E k p → SameDef c1 c2 p) {w1 w2 : CTerm}
    (h1 : Implicit E.toIriEnv voc c1 k w1) (h2 : Implicit E.toIriEnv voc c2 k w2) : w1 = w2 := by
  have hval : ∀ p y, compactIri E.toIriEnv k = some (p, y) → c1.getValue p = c2.getValue p :=
    fun p y h => (hp p (hasPrefix_iff.2 ⟨y, h⟩)).value ht
  have hex : expandStr E.toIriEnv (c1.eraseNormal k) k false (some voc) =
      expandStr E.toIriEnv (c2.eraseNormal k) k false (some voc) := by
    have e1 : expandTerm (c1.eraseNormal k) k (some voc) = expandTerm (c2.eraseNormal k) k (some voc) :=
      expandTerm_congr (c := c1.eraseNormal k) (c' := c2.eraseNormal k) (by rw [getNormal_erase, getNormal_erase, if_pos rfl, if_pos rfl]) ht _
    have e2 : expandTail E.toIriEnv (c1.eraseNormal k) k false (some voc) =
        expandTail E.toIriEnv (c2.eraseNormal k) k false (some voc) :=
      expandTail_congr _ (c := c1.eraseNormal k) hv hb _ _ _
    have e3 : ((compactIri E.toIriEnv k).bind fun q => expandPrefix E.toIriEnv (c1.eraseNormal k) q.1 q.2) =
        (compactIri E.toIriEnv k).bind fun q => expandPrefix E.toIriEnv (c2.eraseNormal k) q.1 q.2 := by
      cases hq : compactIri E.toIriEnv k with
      | none => rfl
      | some q =>
        have hq' : compactIri E.toIriEnv k = some (q.1, q.2) := hq
        refine SameDef.prefix ?_ _ _
        unfold SameDef
        rw [getNormal_erase, getNormal_erase]
        split
        · rfl
        · exact hp _ (hasPrefix_iff.2 ⟨_, hq'⟩)
    unfold expandStr
    rw [e1, e2, e3]
  cases h1 with
  | pre p y v a1 a2 =>
    cases h2 with
    | pre p' y' v' b1 b2 =>
      rw [a1] at b1
      cases b1
      rw [hval _ _ a1, b2] at a2
      cases a2
      rfl
    | blank b1 => rw [hval _ _ a1, b1 _ _ a1] at a2; cases a2
    | iri b1 => rw [hval _ _ a1, b1 _ _ a1] at a2; cases a2
    | path i b1 => rw [hval _ _ a1, b1 _ _ a1] at a2; cases a2
    | vocab u b1 => rw [hval _ _ a1, b1 _ _ a1] at a2; cases a2
  | blank a1 a2 =>
    cases h2 with
    | pre p y v b1 b2 => rw [← hval _ _ b1, a1 _ _ b1] at b2; cases b2
    | blank => rfl
    | iri _ b2 => rw [a2] at b2; cases b2
    | path i _ b2 => rw [a2] at b2; cases b2
    | vocab u _ b2 => rw [a2] at b2; cases b2
  | iri a1 a2 a0 a3 =>
    cases h2 with
    | pre p y v b1 b2 => rw [← hval _ _ b1, a1 _ _ b1] at b2; cases b2
    | blank _ b2 => rw [a2] at b2; cases b2
    | iri => rfl
    | path i _ _ _ b3 => rw [a3] at b3; cases b3
    | vocab u _ _ b3 => rw [(b3 a0).1] at a3; cases a3
  | path i a1 a2 a0 a3 a4 a5 =>
    cases h2 with
    | pre p y v b1 b2 => rw [← hval _ _ b1, a1 _ _ b1] at b2; cases b2
    | blank _ b2 => rw [a2] at b2; cases b2
    | iri _ _ _ b3 => rw [a3] at b3; cases b3
    | path j _ _ _ _ _ b5 => rw [hex, b5] at a5; cases a5; rfl
    | vocab u _ _ b3 => exact absurd a4 (b3 a0).2
  | vocab u a1 a2 a3 a4 =>
    cases h2 with
    | pre p y v b1 b2 => rw [← hval _ _ b1, a1 _ _ b1] at b2; cases b2
    | blank _ b2 => rw [a2] at b2; cases b2
    | iri _ _ b0 b3 => rw [(a3 b0).1] at b3; cases b3
    | path i _ _ b0 _ b4 => exact absurd b4 (a3 b0).2
    | vocab u' _ _ _ b4 => rw [hv, b4] at a4; cases a4; rfl

include hv hb ht in
theorem mentioned_same {k x : Str} {b : Option STerm}
    (hun : ∀ k, lookupKey k d.bindings = none → c1.getNormal k = c.getNormal k)
    (hk : lookupKey k d.bindings = some b) (hm : Mentions k b x)
    (hdef : ∀ b', lookupKey x d.bindings = some b' → c1.getNormal x ≠ none)
    (ih : ∀ u, DependsOn E c d k u → SameDef c1 c2 u) :
    expandStr E.toIriEnv c1 x false (some voc) = expandStr E.toIriEnv c2 x false (some voc) := by
  have hx : SameDef c1 c2 x := ih x (.term b hk hm)
  have hkw := not_keywordForm.2 hm.1
  have hxt : x ≠ "@type".toList := by
    rintro rfl
    revert hkw
    decide
  have e1 : expandTerm c1 x (some voc) = expandTerm c2 x (some voc) := by
    unfold expandTerm
    rw [hx.value ht]
  have e2 : expandTail E.toIriEnv c1 x false (some voc) = expandTail E.toIriEnv c2 x false (some voc) :=
    expandTail_congr _ hv hb _ _ _
  have hkw1 : ¬ isKeywordLike x = true := by simp [hkw]
  unfold expandStr
  rw [if_neg hkw1, if_neg hkw1, e1, e2]
  cases ht' : expandTerm c2 x (some voc) with
  | some t => rfl
  | none =>
    simp only
    split
    · rename_i hc
      split
      · rfl
      · rename_i hbl
        split
        · rfl
        · cases hq : compactIri E.toIriEnv x with
          | none => rfl
          | some q =>
            have hq' : compactIri E.toIriEnv x = some (q.1, q.2) := hq
            have hn : c1.getNormal x = none := by
              rw [← e1] at ht'
              unfold expandTerm ACtx.getValue at ht'
              rw [if_neg hxt] at ht'
              cases h : c1.getNormal x with
              | none => rfl
              | some t =>
                rw [h] at ht'
                simp only [Option.map_some] at ht'
                cases hw : t.value with
                | none => rw [hw] at ht'; cases ht'
                | some w => rw [hw] at ht'; simp at ht'
            have hl : lookupKey x d.bindings = none := by
              cases h : lookupKey x d.bindings with
              | none => rfl
              | some b' => exact absurd hn (hdef b' h)
            have hp : SameDef c1 c2 q.1 := by
              refine ih _ (.pre b x hk hm hl ?_ (by simpa using hbl) (hasPrefix_iff.2 ⟨_, hq'⟩) ?_)
              · rw [hun x hl] at hn; exact hn
              · intro he
                have hs : splitOnce ':' x = some (q.1, q.2) := by
                  unfold compactIri at hq'
                  split at hq'
                  · rename_i p y hs
                    split at hq'
                    · split at hq'
                      · cases hq'; exact hs
                      · cases hq'
                    · cases hq'
                  · cases hq'
                unfold colonInside at hc
                rw [hs, he] at hc
                cases hc
            simp only [Option.bind_some, hp.prefix]
    · rfl

/-- Equal terms apart from what `forget` drops. -/
theorem says_unique {voc : Action} {base1 base2 : Option Str} {pr1 pr2 kp1 kp2 : Bool} {k : Str}
    {b : Option STerm} {t1 t2 : TermDef} (hval : t1.value = t2.value)
    (hty : ∀ a a', TypeSays E.toIriEnv voc (STerm.exp b) c1 a → TypeSays E.toIriEnv voc (STerm.exp b) c2 a' → a = a')
    (h1 : TermSays E.toIriEnv voc base1 pr1 kp1 k b c1 t1) (h2 : TermSays E.toIriEnv voc base2 pr2 kp2 k b c2 t2) :
    forget t1 = forget t2 := by
  have hcn : t1.container = t2.container := by
    rcases h1.container with ⟨a, a'⟩ | ⟨q, a, a'⟩ <;> rcases h2.container with ⟨e, e'⟩ | ⟨r, e, e'⟩
    · rw [a', e']
    · rw [a] at e; cases e
    · rw [a] at e; cases e
    · rw [a] at e
      cases e
      rw [a'] at e'
      exact Option.some.inj e'
  have htyp : t1.typ = t2.typ := by
    obtain ⟨a, a1, a2, a3⟩ := h1.type
    obtain ⟨e, e1, e2, e3⟩ := h2.type
    have := hty a e a1 e1
    subst this
    rw [hcn] at a2 a3
    by_cases hc : HasType t2.container
    · by_cases ha : a = none
      · rw [a2 hc ha, e2 hc ha]
      · rw [a3 (.inr ha), e3 (.inr ha)]
    · rw [a3 (.inl hc), e3 (.inl hc)]
  have hpre : t1.prefix_ = t2.prefix_ := by
    cases hp : (STerm.exp b).prefix_ with
    | some p => rw [h1.prefix_ p hp, h2.prefix_ p hp]
    | none =>
      have := h1.simplePrefix hp
      rw [hval] at this
      exact Bool.eq_iff_iff.2 (this.trans (h2.simplePrefix hp).symm)
  have e1 := h1.index.trans h2.index.symm
  have e2 := h1.context.trans h2.context.symm
  have e3 := h1.nest.trans h2.nest.symm
  have e4 := h1.language.trans h2.language.symm
  have e5 := h1.direction.trans h2.direction.symm
  have e6 := h1.reverse.trans h2.reverse.symm
  unfold forget
  cases t1
  cases t2
  simp_all

theorem reverse_unique {voc : Action} {pr1 pr2 : Bool} {x : SExp} {v : Str} {t1 t2 : TermDef}
    (hval : expandIri E.toIriEnv c1 (some (Expandable.ofStr v)) false (some voc) =
      expandIri E.toIriEnv c2 (some (Expandable.ofStr v)) false (some voc))
    (hty : ∀ a a', TypeSays E.toIriEnv voc x c1 a → TypeSays E.toIriEnv voc x c2 a' → a = a')
    (h1 : SaysReverse E.toIriEnv voc pr1 x v c1 t1) (h2 : SaysReverse E.toIriEnv voc pr2 x v c2 t2) :
    forget t1 = forget t2 := by
  have hv : t1.value = t2.value := by
    obtain ⟨i, a1, _, a2⟩ := h1.value
    obtain ⟨j, e1, _, e2⟩ := h2.value
    rw [hval, e2] at a2
    cases a2
    rw [a1, e1]
  have hcn : t1.container = t2.container := by
    rcases h1.container with ⟨a, a'⟩ | ⟨q, a, a', _⟩ <;> rcases h2.container with ⟨e, e'⟩ | ⟨r, e, e', _⟩
    · rw [a', e']
    · rw [e] at a; rcases a with a | a <;> cases a
    · rw [a] at e; rcases e with e | e <;> cases e
    · rw [a] at e
      cases e
      rw [a'] at e'
      exact Option.some.inj e'
  have htyp := hty _ _ h1.type h2.type
  have e6 := h1.reverse.trans h2.reverse.symm
  obtain ⟨a1, a2, a3, a4, a5, a6, a7⟩ := h1.rest
  obtain ⟨b1, b2, b3, b4, b5, b6, b7⟩ := h2.rest
  unfold forget
  cases t1
  cases t2
  simp_all

include hv hb ht in
/-- Contexts in which the terms of a set say the same are the same for these, if the set contains what its members depend
on. -/
theorem defs_unique_on {K : Str → Prop} (hK : ∀ k u, K k → DependsOn E c d k u → K u)
    (hun1 : ∀ k, lookupKey k d.bindings = none → c1.getNormal k = c.getNormal k)
    (hun2 : ∀ k, K k → lookupKey k d.bindings = none → c2.getNormal k = c.getNormal k)
    (hdef : ∀ k b x, lookupKey k d.bindings = some b → Mentions k b x → ∀ b', lookupKey x d.bindings = some b' →
      c1.getNormal x ≠ none)
    (h1 : ∀ k b, lookupKey k d.bindings = some b → ∃ base pr kp, Outcome E.toIriEnv voc base pr kp k b c1)
    (h2 : ∀ k b, K k → lookupKey k d.bindings = some b → ∃ base pr kp, Outcome E.toIriEnv voc base pr kp k b c2)
    {k : Str} (hk₀ : K k) (hg : Grounded E c d k) : SameDef c1 c2 k := by
  unfold Grounded at hg
  induction hg with
  | intro k _ ih =>
    have ih := fun u hu => ih u hu (hK k u hk₀ hu)
    cases hk : lookupKey k d.bindings with
    | none => unfold SameDef; rw [hun1 k hk, hun2 k hk₀ hk]
    | some b =>
      obtain ⟨ba1, pr1, kp1, o1⟩ := h1 k b hk
      obtain ⟨ba2, pr2, kp2, o2⟩ := h2 k b hk₀ hk
      have str : ∀ x, ((STerm.exp b).type = some (some (.term x)) ∨ (STerm.exp b).reverse = some x ∨
          ((STerm.exp b).id = some (some (.term x)) ∧ x ≠ k)) →
          expandStr E.toIriEnv c1 x false (some voc) = expandStr E.toIriEnv c2 x false (some voc) := by
        intro x hx
        by_cases hkw : KeywordForm x
        · have hkw' : isKeywordLike x = true := by
            by_contra h
            rw [Bool.not_eq_true] at h
            exact not_keywordForm.1 h hkw
          unfold expandStr
          rw [if_pos hkw', if_pos hkw']
        · have hm : Mentions k b x := exp_mentions hkw hx
          exact mentioned_same hv hb ht hun1 hk hm (hdef k b x hk hm) ih
      have hty : ∀ a a', TypeSays E.toIriEnv voc (STerm.exp b) c1 a → TypeSays E.toIriEnv voc (STerm.exp b) c2 a' →
          a = a' := by
        intro a a' ha ha'
        rcases ha with ⟨x1, x2⟩ | ⟨s, r, x1, x2, x3⟩ <;> rcases ha' with ⟨y1, y2⟩ | ⟨s', r', y1, y2, y3⟩
        · rw [x2, y2]
        · rw [x1] at y1; cases y1
        · rw [x1] at y1; cases y1
        · rw [x1] at y1
          cases y1
          have hr : r = r' := by
            have : expandIri E.toIriEnv c1 (s.map SType.expandable) false (some voc) =
                expandIri E.toIriEnv c2 (s.map SType.expandable) false (some voc) := by
              cases s with
              | none => rfl
              | some s =>
                cases s with
                | keyword w => rfl
                | term x => exact str x (.inl x1)
            rw [this, y2] at x2
            cases x2
            rfl
          subst hr
          rcases x3 with ⟨x3, x4⟩ | ⟨w, q, x3, x4, x5⟩ <;> rcases y3 with ⟨y3, y4⟩ | ⟨w', q', y3, y4, y5⟩
          · rw [x4, y4]
          · rw [x3] at y3; cases y3
          · rw [x3] at y3; cases y3
          · rw [x3] at y3
            cases y3
            rw [x5] at y5
            rw [x4, y4, y5]
      unfold SameDef
      cases hr : (STerm.exp b).reverse with
      | some v =>
        by_cases hkw : KeywordForm v
        · rw [o1.reverseIgnored v hr hkw, o2.reverseIgnored v hr hkw]
        · obtain ⟨t1, g1, s1⟩ := o1.reverse v hr hkw
          obtain ⟨t2, g2, s2⟩ := o2.reverse v hr hkw
          rw [g1, g2]
          simp only [Option.map_some]
          refine congrArg some (reverse_unique ?_ hty s1 s2)
          unfold Expandable.ofStr
          split
          · rfl
          · exact str v (.inr (.inl hr))
      | none =>
        by_cases hig : ∃ s, (STerm.exp b).id = some (some (.term s)) ∧ KeywordForm s ∧ s ≠ k
        · obtain ⟨s, i1, i2, i3⟩ := hig
          rw [o1.ignored hr s i1 i2 i3, o2.ignored hr s i1 i2 i3]
        · have hig' : ∀ s, (STerm.exp b).id = some (some (.term s)) → KeywordForm s → s = k := by
            intro s i1 i2
            by_contra i3
            exact hig ⟨s, i1, i2, i3⟩
          obtain ⟨t1, g1, s1⟩ := o1.defined hr hig'
          obtain ⟨t2, g2, s2⟩ := o2.defined hr hig'
          rw [g1, g2]
          simp only [Option.map_some]
          refine congrArg some (says_unique ?_ hty s1 s2)
          have imp : (STerm.exp b).id = none ∨ (STerm.exp b).id = some (some (.term k)) → t1.value = t2.value := by
            intro hi
            obtain ⟨w1, e1, m1⟩ := s1.id.implicit hi
            obtain ⟨w2, e2, m2⟩ := s2.id.implicit hi
            rw [e1, e2, implicit_unique hv hb ht (fun p hp => ih p (.name b hk ?_ hp)) m1 m2]
            cases b with
            | none => rcases hi with hi | hi <;> cases hi
            | some b =>
              cases b with
              | expanded x => exact .inr ⟨x, rfl, hr, hi⟩
              | simple s =>
                rcases hi with hi | hi
                · cases hi
                · simp only [STerm.exp, Option.some.injEq] at hi
                  exact .inl (by rw [ofStr_eq_term hi])
          cases hi : (STerm.exp b).id with
          | none => exact imp (.inl hi)
          | some i =>
            cases i with
            | none => rw [s1.id.null hi, s2.id.null hi]
            | some i =>
              by_cases hik : i = .term k
              · subst hik; exact imp (.inr hi)
              · have e1 := s1.id.given i hi hik
                have e2 := s2.id.given i hi hik
                have : expandIri E.toIriEnv c1 (some i.expandable) false (some voc) =
                    expandIri E.toIriEnv c2 (some i.expandable) false (some voc) := by
                  cases i with
                  | keyword w => rfl
                  | term x => exact str x (.inr (.inr ⟨hi, fun h => hik (by rw [h])⟩))
                rw [this, e2] at e1
                exact (Except.ok.inj e1).symm

include hv hb ht in
/-- Contexts in which all terms say the same are the same. -/
theorem defs_unique (hun1 : ∀ k, lookupKey k d.bindings = none → c1.getNormal k = c.getNormal k)
    (hun2 : ∀ k, lookupKey k d.bindings = none → c2.getNormal k = c.getNormal k)
    (hdef : ∀ k b x, lookupKey k d.bindings = some b → Mentions k b x → ∀ b', lookupKey x d.bindings = some b' →
      c1.getNormal x ≠ none)
    (h1 : ∀ k b, lookupKey k d.bindings = some b → ∃ base pr kp, Outcome E.toIriEnv voc base pr kp k b c1)
    (h2 : ∀ k b, lookupKey k d.bindings = some b → ∃ base pr kp, Outcome E.toIriEnv voc base pr kp k b c2)
    {k : Str} (hg : Grounded E c d k) : SameDef c1 c2 k :=
  defs_unique_on hv hb ht (K := fun _ => True) (fun _ _ _ _ => trivial) hun1 (fun k _ => hun2 k) hdef h1
    (fun k b _ => h2 k b) trivial hg

end

end JsonLd.Say
