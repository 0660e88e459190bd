import Verif.Props.Syntax
import Verif.Spec.Iri
/-!
# C32, C33: IRI expansion
-/

namespace JsonLd.Props
open JsonLd.Spec

theorem colon_iff (s : Str) : colonInside s = true ↔ HasColon s := by
  unfold colonInside HasColon
  cases h : splitOnce ':' s with
  | none =>
    rw [splitOnce_eq_none] at h
    simp only [Bool.false_eq_true, false_iff]
    rintro ⟨p, x, rfl, _⟩
    simp at h
  | some q =>
    obtain ⟨p, x⟩ := q
    rw [splitOnce_eq_some] at h
    constructor
    · intro hp
      exact ⟨p, x, h.1, h.2, by rintro rfl; simp at hp⟩
    · rintro ⟨p', x', he, hn, hp⟩
      have h1 := splitOnce_eq_some.2 ⟨he, hn⟩
      rw [splitOnce_eq_some.2 h] at h1
      simp only [Option.some.injEq, Prod.mk.injEq] at h1
      cases p with
      | nil => exact absurd h1.1.symm hp
      | cons => rfl

private theorem take_two (x : Str) : x.take 2 ≠ ['/', '/'] ↔ ¬ ['/', '/'] <+: x := by
  rw [not_iff_not, List.prefix_iff_eq_take]
  exact eq_comm

/-- The compact IRIs of the code are the strings of the form of the specification (with a possibly
empty prefix). -/
private theorem compact_iff {env : IriEnv} {s p x : Str} (hp : p ≠ []) :
    compactIri env s = some (p, x) ↔ CompactForm env s p x := by
  unfold compactIri CompactForm
  cases h : splitOnce ':' s with
  | none =>
    rw [splitOnce_eq_none] at h
    simp only [reduceCtorEq, false_iff]
    rintro ⟨rfl, _⟩
    simp at h
  | some q =>
    obtain ⟨p', x'⟩ := q
    have h0 := splitOnce_eq_some.1 h
    simp only
    by_cases hc : p' ≠ ['_'] ∧ x'.take 2 ≠ ['/', '/']
    · rw [if_pos hc]
      by_cases hr : env.isRef s = true
      · simp only [hr, if_true, Option.some.injEq, Prod.mk.injEq]
        constructor
        · rintro ⟨rfl, rfl⟩
          exact ⟨h0.1, h0.2, hp, hc.1, (take_two _).1 hc.2, trivial⟩
        · rintro ⟨he, hn, _⟩
          have h1 := splitOnce_eq_some.2 ⟨he, hn⟩
          rw [h] at h1
          simpa using h1
      · simp [hr]
    · rw [if_neg hc]
      simp only [reduceCtorEq, false_iff]
      rintro ⟨he, hn, _, h1, h2, _⟩
      have h3 := splitOnce_eq_some.2 ⟨he, hn⟩
      rw [h] at h3
      simp only [Option.some.injEq, Prod.mk.injEq] at h3
      obtain ⟨rfl, rfl⟩ := h3
      exact hc ⟨h1, (take_two _).2 h2⟩

private theorem not_type {s : Str} (h : ¬ KeywordForm s) : s ≠ "@type".toList := by
  rintro rfl
  exact h ((C01_form _).1 (by decide))

private theorem getValue_eq {c : ACtx} {s : Str} (h : ¬ KeywordForm s) :
    c.getValue s = (lookupKey s c.defs).map (·.value) := by
  unfold ACtx.getValue ACtx.getNormal
  rw [if_neg (not_type h)]

/-- The term lookup of the code. -/
private theorem expandTerm_iff {c : ACtx} {s : Str} {voc : Option Action} (h : ¬ KeywordForm s)
    (t : CTerm) :
    expandTerm c s voc = some t ↔ ∃ d, UsedTerm c s voc.isSome d ∧ t = d.value.getD .null := by
  unfold expandTerm UsedTerm
  rw [getValue_eq h]
  cases hl : lookupKey s c.defs with
  | none => simp
  | some d =>
    simp only [Option.map_some, Option.some.injEq]
    cases hv : d.value with
    | none =>
      simp only
      constructor
      · intro ht
        split at ht
        · rename_i hvoc
          cases ht
          exact ⟨d, ⟨rfl, .inl hvoc⟩, by simp [hv]⟩
        · cases ht
      · rintro ⟨_, ⟨rfl, hk⟩, rfl⟩
        rcases hk with hk | ⟨k, hk⟩
        · simp [hk, hv]
        · rw [hv] at hk; cases hk
    | some m =>
      simp only
      constructor
      · intro ht
        split at ht
        · rename_i hvoc
          cases ht
          refine ⟨d, ⟨rfl, ?_⟩, by simp [hv]⟩
          cases hs : voc.isSome with
          | true => exact .inl rfl
          | false =>
            cases t with
            | keyword k => exact .inr ⟨k, hv⟩
            | _ => simp [hs, CTerm.isKeyword] at hvoc
        · cases ht
      · rintro ⟨_, ⟨rfl, hk⟩, rfl⟩
        rcases hk with hk | ⟨k, hk⟩
        · simp [hk, hv]
        · rw [hv] at hk
          cases hk
          simp [hv, CTerm.isKeyword]

theorem expandTerm_none {c : ACtx} {s : Str} {voc : Option Action} (h : ¬ KeywordForm s) :
    expandTerm c s voc = none ↔ ∀ d, ¬ UsedTerm c s voc.isSome d := by
  rw [Option.eq_none_iff_forall_ne_some]
  constructor
  · intro hn d hd
    exact hn _ ((expandTerm_iff h _).2 ⟨d, hd, rfl⟩)
  · rintro hn t ht
    obtain ⟨d, hd, _⟩ := (expandTerm_iff h _).1 ht
    exact hn d hd

private theorem expandPrefix_iff {env : IriEnv} {c : ACtx} {p x : Str} {t : CTerm} :
    expandPrefix env c p x = some t ↔
      ∃ m, PrefixFor c p m ∧ t = .id (Id.classify env (m.str ++ x)) := by
  unfold expandPrefix PrefixFor ACtx.getNormal
  cases hl : lookupKey p c.defs with
  | none => simp
  | some d =>
    simp only [Option.some.injEq]
    cases hp : d.prefix_ with
    | false =>
      simp only [Bool.false_eq_true, if_false, reduceCtorEq, false_iff]
      rintro ⟨m, ⟨_, rfl, h, _⟩, _⟩
      rw [hp] at h
      cases h
    | true =>
      simp only [if_true, Option.map_eq_some_iff]
      constructor
      · rintro ⟨m, hm, rfl⟩
        exact ⟨m, ⟨d, rfl, hp, hm⟩, rfl⟩
      · rintro ⟨m, ⟨_, rfl, _, hm⟩, rfl⟩
        exact ⟨m, hm, rfl⟩

private theorem colon_prefix {s p x : Str} (h : HasColon s) (he : s = p ++ ':' :: x) (hn : ':' ∉ p) :
    p ≠ [] := by
  obtain ⟨p', x', he', hn', hp⟩ := h
  have h1 := splitOnce_eq_some.2 ⟨he, hn⟩
  rw [splitOnce_eq_some.2 ⟨he', hn'⟩] at h1
  simp only [Option.some.injEq, Prod.mk.injEq] at h1
  rw [← h1.1]
  exact hp

/-- The compact IRI lookup of the code. -/
private theorem compactStep_iff {env : IriEnv} {c : ACtx} {s : Str} {t : CTerm} (hc : HasColon s) :
    ((compactIri env s).bind fun q => expandPrefix env c q.1 q.2) = some t ↔
      ∃ p x m, CompactForm env s p x ∧ PrefixFor c p m ∧ t = .id (Id.classify env (m.str ++ x)) := by
  rw [Option.bind_eq_some_iff]
  constructor
  · rintro ⟨⟨p, x⟩, h1, h2⟩
    have hp : p ≠ [] := by
      unfold compactIri at h1
      split at h1
      · rename_i p' x' hs
        split at h1
        · split at h1
          · cases h1
            have := splitOnce_eq_some.1 hs
            exact colon_prefix hc this.1 this.2
          · cases h1
        · cases h1
      · cases h1
    obtain ⟨m, h3, h4⟩ := expandPrefix_iff.1 h2
    exact ⟨p, x, m, (compact_iff hp).1 h1, h3, h4⟩
  · rintro ⟨p, x, m, h1, h2, rfl⟩
    exact ⟨(p, x), (compact_iff h1.2.2.1).2 h1, expandPrefix_iff.2 ⟨m, h2, rfl⟩⟩

theorem compactStep_none {env : IriEnv} {c : ACtx} {s : Str} (hc : HasColon s) :
    ((compactIri env s).bind fun q => expandPrefix env c q.1 q.2) = none ↔
      ∀ p x m, CompactForm env s p x → ¬ PrefixFor c p m := by
  rw [Option.eq_none_iff_forall_ne_some]
  constructor
  · intro hn p x m h1 h2
    exact hn _ ((compactStep_iff hc).2 ⟨p, x, m, h1, h2, rfl⟩)
  · rintro hn t ht
    obtain ⟨p, x, m, h1, h2, _⟩ := (compactStep_iff hc).1 ht
    exact hn p x m h1 h2

/-- What is left once the string is known to be relative. -/
private theorem expandTail_sound {env : IriEnv} {c : ACtx} {s : Str} {docRel : Bool}
    {voc : Option Action} {t : CTerm} (h1 : NoTerm c s voc.isSome) (h2 : Relative env c s)
    (h : expandTail env c s docRel voc = .ok (some t)) : Expands env c docRel voc s t := by
  unfold expandTail at h
  split at h
  · rename_i a i hv
    cases a with
    | keep => cases h; exact .vocab i h1 h2 rfl hv
    | drop => cases h
    | reject => cases h
  · rename_i a t' hv ha
    cases h
    exact .oddVocab _ h1 h2 rfl ha fun i hi => hv i hi
  · rename_i voc _ _ hn1 hn2
    have hv : voc = none ∨ c.vocab = none := by
      rcases hvo : voc with _ | a
      · exact .inl rfl
      · rcases hc : c.vocab with _ | t'
        · exact .inr rfl
        · exact absurd hc (hn2 a t' hvo)
    split at h
    · rename_i hd
      rw [Bool.and_eq_true] at hd
      unfold resolveIri at h
      cases hb : c.base with
      | some b =>
        rw [hb] at h
        cases h
        exact .base b h1 h2 hv hd.1 hd.2 hb
      | none =>
        rw [hb] at h
        simp only at h
        cases hi : env.isIri s with
        | true =>
          rw [hi] at h
          cases h
          exact .noBase h1 h2 hv hd.1 hd.2 hb hi
        | false =>
          rw [hi] at h
          cases h
          exact .unknown h1 h2 hv fun _ _ => ⟨hb, hi⟩
    · rename_i hd
      cases h
      refine .unknown h1 h2 hv fun h3 h4 => absurd (by rw [h3, h4]; rfl) hd

/-- C33: every term returned is the one the rules give. -/
theorem C33_sound (env : IriEnv) (c : ACtx) (s : Str) (docRel : Bool) (voc : Option Action)
    (t : CTerm) (h : expandStr env c s docRel voc = .ok (some t)) : Expands env c docRel voc s t := by
  unfold expandStr at h
  split at h
  · rename_i hk
    cases h
    exact .keywordLike ((C01_form s).1 hk)
  · rename_i hk
    rw [C01_form] at hk
    split at h
    · rename_i t' ht
      cases h
      obtain ⟨d, hd, rfl⟩ := (expandTerm_iff hk _).1 ht
      exact .term d hk hd
    · rename_i hn
      have h1 : NoTerm c s voc.isSome := ⟨hk, (expandTerm_none hk).1 hn⟩
      split at h
      · rename_i hc
        rw [colon_iff] at hc
        split at h
        · rename_i hb
          cases h
          exact .blank h1 hc hb
        · rename_i hb
          rw [Bool.not_eq_true] at hb
          split at h
          · rename_i he
            cases h
            exact .emptyBlank h1 hb he
          · rename_i he
            split at h
            · rename_i t' ht
              cases h
              obtain ⟨p, x, m, h2, h3, rfl⟩ := (compactStep_iff hc).1 ht
              exact .compact p x m h1 hb h2 h3
            · rename_i hq
              have hq := (compactStep_none hc).1 hq
              split at h
              · rename_i hi
                cases h
                exact .absolute h1 hc hb he hq hi
              · rename_i hi
                rw [Bool.not_eq_true] at hi
                exact expandTail_sound h1 (fun _ => ⟨hb, he, hi, hq⟩) h
      · rename_i hc
        rw [colon_iff] at hc
        exact expandTail_sound h1 (fun h => absurd h hc) h

/-- At most one rule result is possible. -/
private theorem expands_unique {env : IriEnv} {c : ACtx} {s : Str} {docRel : Bool}
    {voc : Option Action} {t : CTerm} (h : Expands env c docRel voc s t) :
    expandStr env c s docRel voc = .ok (some t) := by
  have notLike (h : ¬ KeywordForm s) : isKeywordLike s = false := by
    rw [← Bool.not_eq_true, C01_form]; exact h
  have start (h1 : NoTerm c s voc.isSome) : expandStr env c s docRel voc =
      if colonInside s then
        if env.isBlank s then .ok (some (.id (.blank s)))
        else if s = ['_', ':'] then .ok (some (.id (.invalid s)))
        else match (compactIri env s).bind fun q => expandPrefix env c q.1 q.2 with
          | some t => .ok (some t)
          | none =>
            if env.isIri s then .ok (some (.id (.iri s))) else expandTail env c s docRel voc
      else expandTail env c s docRel voc := by
    unfold expandStr
    simp only [notLike h1.1, (expandTerm_none h1.1).2 h1.2, Bool.false_eq_true, if_false]
    rfl
  have tail (h1 : NoTerm c s voc.isSome) (h2 : Relative env c s) :
      expandStr env c s docRel voc = expandTail env c s docRel voc := by
    rw [start h1]
    by_cases hc : HasColon s
    · obtain ⟨hb, he, hi, hq⟩ := h2 hc
      rw [if_pos ((colon_iff s).2 hc), hb, if_neg he, (compactStep_none hc).2 hq, hi]
      rfl
    · rw [if_neg (by rw [colon_iff]; exact hc)]
  cases h with
  | keywordLike h => unfold expandStr; rw [if_pos ((C01_form s).2 h)]
  | term d hk hd =>
    unfold expandStr
    simp only [notLike hk, (expandTerm_iff hk _).2 ⟨d, hd, rfl⟩, Bool.false_eq_true, if_false]
  | blank h1 hc hb => rw [start h1, if_pos ((colon_iff s).2 hc), if_pos hb]
  | emptyBlank h1 hb he =>
    rw [start h1, hb, he]
    rfl
  | compact p x m h1 hb h2 h3 =>
    have hc : HasColon s := ⟨p, x, h2.1, h2.2.1, h2.2.2.1⟩
    have he : s ≠ ['_', ':'] := by
      intro he
      have h4 := splitOnce_eq_some.2 ⟨h2.1, h2.2.1⟩
      rw [he] at h4
      have h5 : p = ['_'] := by
        have : splitOnce ':' ['_', ':'] = some (['_'], []) := by decide
        rw [this] at h4
        simp only [Option.some.injEq, Prod.mk.injEq] at h4
        exact h4.1.symm
      exact h2.2.2.2.1 h5
    rw [start h1, if_pos ((colon_iff s).2 hc), hb, if_neg he,
      (compactStep_iff hc).2 ⟨p, x, m, h2, h3, rfl⟩]
    rfl
  | absolute h1 hc hb he hq hi =>
    rw [start h1, if_pos ((colon_iff s).2 hc), hb, if_neg he, (compactStep_none hc).2 hq, hi]
    rfl
  | vocab i h1 h2 hv hc => rw [tail h1 h2]; unfold expandTail; simp only [hv, hc]
  | oddVocab t h1 h2 hv hc ht =>
    rw [tail h1 h2]
    obtain ⟨a, rfl⟩ := Option.isSome_iff_exists.1 hv
    unfold expandTail
    rw [hc]
    cases t with
    | id i => exact absurd rfl (ht i)
    | null => rfl
    | keyword k => rfl
  | base b h1 h2 hv hd hr hb =>
    rw [tail h1 h2]
    unfold expandTail
    rcases hv with hv | hv
    · simp only [hv, hd, hr, hb, resolveIri]; rfl
    · simp only [hv, hd, hr, hb, resolveIri]; cases voc <;> rfl
  | noBase h1 h2 hv hd hr hb hi =>
    rw [tail h1 h2]
    unfold expandTail
    rcases hv with hv | hv
    · simp only [hv, hd, hr, hb, hi, resolveIri]; rfl
    · simp only [hv, hd, hr, hb, hi, resolveIri]; cases voc <;> rfl
  | unknown h1 h2 hv hx =>
    rw [tail h1 h2]
    unfold expandTail
    have hx' : (if docRel && env.isRef s then
      match resolveIri env s c.base with
      | some iri => Except.ok (some (CTerm.id (.iri iri)))
      | none => .ok (some (.id (.invalid s)))
      else .ok (some (.id (.invalid s))) : Except Unit (Option CTerm)) =
        .ok (some (.id (.invalid s))) := by
      split
      · rename_i hd
        rw [Bool.and_eq_true] at hd
        obtain ⟨hb, hi⟩ := hx hd.1 hd.2
        rw [hb]
        simp [resolveIri, hi]
      · rfl
    rcases hv with hv | hv
    · rw [hv]; exact hx'
    · rw [hv]; cases voc <;> exact hx'

/-- C33: IRI expansion returns exactly what the rules give. In particular the rules contradict each
other nowhere. -/
theorem C33_exact (env : IriEnv) (c : ACtx) (s : Str) (docRel : Bool) (voc : Option Action)
    (t : CTerm) :
    expandStr env c s docRel voc = .ok (some t) ↔ Expands env c docRel voc s t :=
  ⟨C33_sound env c s docRel voc t, expands_unique⟩

/-- C33: keywords expand to themselves, other strings of that form to nothing; here the string is
the one written by the user (`Expandable.ofStr`). -/
theorem C33_keywords (env : IriEnv) (c : ACtx) (docRel : Bool) (voc : Option Action) (s : Str)
    (h : KeywordForm s) :
    expandIri env c (some (Expandable.ofStr s)) docRel voc = .ok (some
      (match Keyword.tryFrom s with | some k => .keyword k | none => .null)) := by
  unfold Expandable.ofStr
  cases Keyword.tryFrom s with
  | some k => rfl
  | none => exact (C33_exact env c s docRel voc .null).2 (.keywordLike h)

/-- C33: an absolute IRI that is no term and whose scheme is no term expands to itself. -/
theorem C33_absolute (env : IriEnv) (c : ACtx) (docRel : Bool) (voc : Option Action) (p x : Str)
    (hk : ¬ KeywordForm (p ++ ':' :: x)) (hp : ':' ∉ p) (hp0 : p ≠ [])
    (hi : env.isIri (p ++ ':' :: x) = true) (hb : env.isBlank (p ++ ':' :: x) = false)
    (hu : p ++ ':' :: x ≠ ['_', ':']) (ht : lookupKey (p ++ ':' :: x) c.defs = none)
    (hs : lookupKey p c.defs = none) :
    expandStr env c (p ++ ':' :: x) docRel voc = .ok (some (.id (.iri (p ++ ':' :: x)))) := by
  refine (C33_exact ..).2 (.absolute ⟨hk, ?_⟩ ⟨p, x, rfl, hp, hp0⟩ hb hu ?_ hi)
  · rintro d ⟨hd, _⟩
    rw [ht] at hd
    cases hd
  · rintro p' x' m hf ⟨d, hd, _⟩
    have h1 := splitOnce_eq_some.2 ⟨hf.1, hf.2.1⟩
    rw [splitOnce_eq_some.2 ⟨rfl, hp⟩] at h1
    simp only [Option.some.injEq, Prod.mk.injEq] at h1
    rw [← h1.1, hs] at hd
    cases hd

/-- C33: expanding twice is expanding once: if a string expands to an IRI that is no term itself and
whose scheme is no term, this IRI expands to itself, in any position. -/
theorem C33_idempotent (env : IriEnv) (f : IriFacts env) (c : ACtx) (docRel docRel' : Bool)
    (voc voc' : Option Action) (s i : Str)
    (hd : ∀ k d j, lookupKey k c.defs = some d → d.value = some (.id (.iri j)) → env.isIri j = true)
    (h : expandStr env c s docRel voc = .ok (some (.id (.iri i))))
    (ht : lookupKey i c.defs = none)
    (hs : ∀ p x, i = p ++ ':' :: x → ':' ∉ p → lookupKey p c.defs = none) :
    expandStr env c i docRel' voc' = .ok (some (.id (.iri i))) := by
  have hof (u : Str) (h : Id.classify env u = .iri i) : env.isIri i = true := by
    unfold Id.classify at h
    split at h
    · cases h; assumption
    · split at h <;> cases h
  have hi : env.isIri i = true := by
    rw [C33_exact] at h
    generalize ht' : CTerm.id (.iri i) = t at h
    cases h with
    | term d hk hu =>
      refine hd s d i hu.1 ?_
      cases hv : d.value with
      | none => rw [hv] at ht'; cases ht'
      | some m => rw [hv] at ht'; rw [ht']; rfl
    | compact p x m => exact hof _ (CTerm.id.inj ht').symm
    | absolute => cases ht'; assumption
    | vocab j => exact hof _ (CTerm.id.inj ht').symm
    | base b => cases ht'; exact f.resolve _ _
    | noBase => cases ht'; assumption
    | _ => cases ht'
  obtain ⟨p, x, rfl, hp, hp0, hat, hu⟩ := f.scheme i hi
  refine C33_absolute env c docRel' voc' p x ?_ hp hp0 hi (f.noBlank _ hi) ?_ ht (hs p x rfl hp)
  · rintro ⟨n, hn, _⟩
    cases p with
    | nil => exact hp0 rfl
    | cons a p =>
      simp only [List.cons_append, List.cons.injEq] at hn
      exact hat (by simp [hn.1])
  · intro h
    have h1 := splitOnce_eq_some.2 ⟨h.symm, hp⟩
    have h2 : splitOnce ':' ['_', ':'] = some (['_'], []) := by decide
    rw [h2] at h1
    simp only [Option.some.injEq, Prod.mk.injEq] at h1
    exact hu h1.1.symm

/-- C32: without vocabulary mapping, or if vocabulary-relative strings are to be kept, expansion
always returns a term. -/
theorem C32_total (env : IriEnv) (c : ACtx) (v : Option Expandable) (docRel : Bool)
    (voc : Option Action) (h : c.vocab = none ∨ voc = none ∨ voc = some .keep) :
    ∃ t, expandIri env c v docRel voc = .ok (some t) := by
  have tail (s : Str) : ∃ t, expandTail env c s docRel voc = .ok (some t) := by
    unfold expandTail
    split
    · rename_i a i hv
      rcases h with h | h | h
      · rw [h] at hv; cases hv
      · cases h
      · cases h; exact ⟨_, rfl⟩
    · exact ⟨_, rfl⟩
    · split
      · split <;> exact ⟨_, rfl⟩
      · exact ⟨_, rfl⟩
  cases v with
  | none => exact ⟨_, rfl⟩
  | some v =>
    cases v with
    | keyword k => exact ⟨_, rfl⟩
    | string s =>
      show ∃ t, expandStr env c s docRel voc = .ok (some t)
      unfold expandStr
      split
      · exact ⟨_, rfl⟩
      · split
        · exact ⟨_, rfl⟩
        · split
          · split
            · exact ⟨_, rfl⟩
            · split
              · exact ⟨_, rfl⟩
              · split
                · exact ⟨_, rfl⟩
                · split
                  · exact ⟨_, rfl⟩
                  · exact tail s
          · exact tail s

/-- C32: a rejection or a missing value occurs only for a string relative to an existing vocabulary
mapping under the corresponding policy, and then always. -/
theorem C32_policy (env : IriEnv) (c : ACtx) (s : Str) (docRel : Bool) (voc : Option Action)
    (t : Except Unit (Option CTerm)) (ht : t = .error () ∨ t = .ok none) :
    expandStr env c s docRel voc = t ↔
      NoTerm c s voc.isSome ∧ Relative env c s ∧ (∃ i, c.vocab = some (.id i)) ∧
      ((t = .error () ∧ voc = some .reject) ∨ (t = .ok none ∧ voc = some .drop)) := by
  have hne : ∀ t', t ≠ .ok (some t') := by rcases ht with rfl | rfl <;> simp
  have tail : expandTail env c s docRel voc = t ↔ (∃ i, c.vocab = some (.id i)) ∧
      ((t = .error () ∧ voc = some .reject) ∨ (t = .ok none ∧ voc = some .drop)) := by
    constructor
    · intro h
      unfold expandTail at h
      split at h
      · rename_i a i hv
        refine ⟨⟨i, hv⟩, ?_⟩
        cases a with
        | keep => exact absurd h.symm (hne _)
        | drop => exact .inr ⟨h.symm, rfl⟩
        | reject => exact .inl ⟨h.symm, rfl⟩
      · exact absurd h.symm (hne _)
      · split at h
        · split at h <;> exact absurd h.symm (hne _)
        · exact absurd h.symm (hne _)
    · rintro ⟨⟨i, hi⟩, ⟨rfl, rfl⟩ | ⟨rfl, rfl⟩⟩ <;> simp [expandTail, hi]
  constructor
  · intro h
    unfold expandStr at h
    split at h
    · exact absurd h.symm (hne _)
    · rename_i hk
      rw [C01_form] at hk
      split at h
      · exact absurd h.symm (hne _)
      · rename_i hn
        have h1 : NoTerm c s voc.isSome := ⟨hk, (expandTerm_none hk).1 hn⟩
        split at h
        · rename_i hc
          rw [colon_iff] at hc
          split at h
          · exact absurd h.symm (hne _)
          · rename_i hb
            rw [Bool.not_eq_true] at hb
            split at h
            · exact absurd h.symm (hne _)
            · rename_i he
              split at h
              · exact absurd h.symm (hne _)
              · rename_i hq
                have hq := (compactStep_none hc).1 hq
                split at h
                · exact absurd h.symm (hne _)
                · rename_i hi
                  rw [Bool.not_eq_true] at hi
                  exact ⟨h1, fun _ => ⟨hb, he, hi, hq⟩, tail.1 h⟩
        · rename_i hc
          rw [colon_iff] at hc
          exact ⟨h1, fun h => absurd h hc, tail.1 h⟩
  · rintro ⟨h1, h2, h3⟩
    rw [← tail] at h3
    have hl : isKeywordLike s = false := by rw [← Bool.not_eq_true, C01_form]; exact h1.1
    unfold expandStr
    simp only [hl, (expandTerm_none h1.1).2 h1.2, Bool.false_eq_true, if_false]
    by_cases hc : HasColon s
    · obtain ⟨hb, he, hi, hq⟩ := h2 hc
      rw [if_pos ((colon_iff s).2 hc), hb, if_neg he, (compactStep_none hc).2 hq, hi]
      exact h3
    · rw [if_neg (by rw [colon_iff]; exact hc)]
      exact h3

/-- An example environment: IRIs are the strings that start with `http:`, every string is a
reference. -/
def exIriEnv : IriEnv where
  isIri s := decide (s.take 5 = ['h', 't', 't', 'p', ':'])
  isRef _ := true
  isBlank s := decide (s.take 2 = ['_', ':'] ∧ s.length > 2)
  resolve r b :=
    if r.take 5 = ['h', 't', 't', 'p', ':'] then r
    else if b.take 5 = ['h', 't', 't', 'p', ':'] then b ++ r else ['h', 't', 't', 'p', ':'] ++ r

private theorem exIri_form {i : Str} (h : exIriEnv.isIri i = true) :
    ∃ x, i = ['h', 't', 't', 'p'] ++ ':' :: x := by
  have h : i.take 5 = ['h', 't', 't', 'p', ':'] := by simpa [exIriEnv] using h
  refine ⟨i.drop 5, ?_⟩
  have := List.take_append_drop 5 i
  rw [h] at this
  exact this.symm

/-- It meets the hypotheses of `C33_idempotent`. -/
theorem exIriEnv_facts : IriFacts exIriEnv where
  scheme i h := by
    obtain ⟨x, rfl⟩ := exIri_form h
    exact ⟨_, x, rfl, by decide, by decide, by decide, by decide⟩
  noBlank i h := by
    obtain ⟨x, rfl⟩ := exIri_form h
    simp [exIriEnv]
  resolve r b := by
    show decide (List.take 5 (if _ then _ else if _ then _ else _) = _) = true
    split
    · rename_i h
      simpa using h
    split
    · rename_i h
      rw [List.take_append_of_le_length]
      · simpa using h
      · have := congrArg List.length h
        simp only [List.length_take, List.length_cons, List.length_nil] at this
        omega
    · simp

/-- A context with a prefix, a term and a vocabulary. -/
def exCtx : ACtx :=
  { base := some "http://b/".toList, vocab := some (.id (.iri "http://v/".toList)),
    defs := [("ex".toList, { value := some (.id (.iri "http://e/".toList)), prefix_ := true }),
      ("name".toList, { value := some (.id (.iri "http://n/".toList)) }),
      ("kind".toList, { value := some (.keyword .type) })] }

/-- The rules at work: a term, a compact IRI, an alias, a vocabulary-relative and a base-relative
string. -/
example : expandStr exIriEnv exCtx "name".toList false (some .keep) =
      .ok (some (.id (.iri "http://n/".toList))) ∧
    expandStr exIriEnv exCtx "ex:a".toList false none = .ok (some (.id (.iri "http://e/a".toList))) ∧
    expandStr exIriEnv exCtx "kind".toList true none = .ok (some (.keyword .type)) ∧
    expandStr exIriEnv exCtx "z".toList false (some .keep) =
      .ok (some (.id (.iri "http://v/z".toList))) ∧
    expandStr exIriEnv exCtx "name".toList true none =
      .ok (some (.id (.iri "http://b/name".toList))) ∧
    expandStr exIriEnv exCtx "http://x".toList true none =
      .ok (some (.id (.iri "http://x".toList))) ∧
    expandStr exIriEnv exCtx "z".toList false (some .reject) = .error () := by
  decide +kernel

end JsonLd.Props
