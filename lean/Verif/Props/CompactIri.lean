import Verif.Proofs.CompactIri
import Verif.Props.Protected
/-!
# C35, C36: IRI compaction
-/

namespace JsonLd.Props
open JsonLd.Spec

theorem ofStr_plain {s : Str} (h : ¬ KeywordForm s) : Expandable.ofStr s = .string s := by
  unfold Expandable.ofStr
  cases hk : Keyword.tryFrom s with
  | none => rfl
  | some k => exact absurd ((C01_form s).1 (C01_keyword_has_form s (by simp [isKeyword, hk]))) h

private theorem expands_back {env : CompEnv} (f : IriFacts env.toIriEnv) (g : CompactFacts env) {c : ACtx}
    (hc : CleanTerms env c) {j : Id} (hj : Id.classify env.toIriEnv j.str = j)
    (hv : env.isIri j.str = true ∨ env.isBlank j.str = true) {noValue vocab : Bool} {s : Str}
    (hm : NotMisled env c j vocab) (h : CompactedBy env c (.id j) noValue vocab s) :
    ¬ KeywordForm s ∧
    Expands env.toIriEnv c (!vocab) (if vocab then some .keep else none) s (.id j) := by
  have hcol : HasColon j.str := by
    rcases hv with h | h
    · obtain ⟨p, x, h1, h2, h3, _⟩ := f.scheme _ h
      exact ⟨p, x, h1, h2, h3⟩
    · obtain ⟨x, h1⟩ := g.blank _ h
      exact ⟨['_'], x, h1, by decide, by simp⟩
  have hnk : ¬ KeywordForm j.str := by
    obtain ⟨p, x, h1, _⟩ := hcol
    rw [h1]
    exact keywordForm_colon
  have self (hs : ∀ i p x, CTerm.id j = .id (.iri i) → i = p ++ ':' :: x → ':' ∉ p → ¬ KeywordForm p →
      lookupKey p c.defs = none) :
      Expands env.toIriEnv c (!vocab) (if vocab then some .keep else none) j.str (.id j) := by
    by_cases hu : ∃ d, UsedTerm c j.str (if vocab then some Action.keep else none).isSome d
    · obtain ⟨d, hd⟩ := hu
      have h1 := Expands.term (env := env.toIriEnv) (docRel := !vocab) d hnk hd
      rwa [hc.ids _ d hd.1 hv, hj] at h1
    · have hno : NoTerm c j.str (if vocab then some Action.keep else none).isSome :=
        ⟨hnk, fun d hd => hu ⟨d, hd⟩⟩
      by_cases hb : env.isBlank j.str = true
      · have hi : ¬ env.isIri j.str = true := fun h => by rw [f.noBlank _ h] at hb; cases hb
        have h1 : j = .blank j.str := by
          rw [← hj]
          simp only [Id.classify, if_neg hi, if_pos hb]
          rfl
        have := Expands.blank (docRel := !vocab) hno hcol hb
        rwa [← h1] at this
      · have hi := hv.resolve_right hb
        have h1 : j = .iri j.str := by
          rw [← hj]
          simp only [Id.classify, if_pos hi]
          rfl
        obtain ⟨p, x, h2, h3, _, h4, h5⟩ := f.scheme _ hi
        have := Expands.absolute (docRel := !vocab) hno hcol (by simpa using hb) ?_ ?_ hi
        · rwa [← h1] at this
        · intro h
          rw [h] at h2
          have h6 := splitOnce_eq_some.2 ⟨h2, h3⟩
          rw [show splitOnce ':' ['_', ':'] = some (['_'], []) by decide] at h6
          simp only [Option.some.injEq, Prod.mk.injEq] at h6
          exact h5 h6.1.symm
        · rintro p' x' m h6 ⟨d, h7, _⟩
          have h8 := hs j.str p' x' (by rw [← h1]) h6.1 h6.2.1 (hc.terms p' d h7)
          rw [h7] at h8
          cases h8
  cases h with
  | term d h1 h2 h3 =>
    refine ⟨hc.terms s d h2, ?_⟩
    have := Expands.term (env := env.toIriEnv) (docRel := !vocab) (voc := if vocab then some .keep else none)
      d (hc.terms s d h2) ⟨h2, .inl (by simp [h1])⟩
    rwa [h3] at this
  | vocab v h1 h2 h3 h4 h5 =>
    obtain ⟨h6, h7⟩ := hm.vocab h1 v s h2 h3
    refine ⟨h6, ?_⟩
    obtain ⟨i, rfl⟩ := hc.vocab v h2
    have := Expands.vocab (env := env.toIriEnv) (docRel := !vocab) (voc := if vocab then some .keep else none)
      (s := s) i ⟨h6, fun d hd => by have := hd.1; rw [h5 h6] at this; cases this⟩ (fun h => absurd h h7) (by simp [h1]) h2
    have h8 : i.str ++ s = j.str := h3.symm
    rwa [h8, hj] at this
  | prefixed h1 =>
    obtain ⟨p, m, x, h2, h3, h4, rfl, h5⟩ := h1
    refine ⟨keywordForm_colon, ?_⟩
    obtain ⟨h6, h7⟩ := hm.prefixes p m x h2 h4
    obtain ⟨h8, h9, h10⟩ := hc.prefixes p m h2
    by_cases hu : ∃ d, UsedTerm c (p ++ ':' :: x) (if vocab then some Action.keep else none).isSome d
    · obtain ⟨d, hd⟩ := hu
      have h1 := Expands.term (env := env.toIriEnv) (docRel := !vocab) d keywordForm_colon hd
      rwa [(h5 d hd.1).1] at h1
    · have h11 := Expands.compact (env := env.toIriEnv) (docRel := !vocab) p x m
        ⟨keywordForm_colon, fun d hd => hu ⟨d, hd⟩⟩ ?_ ⟨rfl, h10, h8, h9, h6, h7⟩ h2
      · have h12 : m.str ++ x = j.str := h4.symm
        rwa [h12, hj] at h11
      · rw [← Bool.not_eq_true]
        intro hb
        obtain ⟨y, hy⟩ := g.blank _ hb
        have h12 : splitOnce ':' (p ++ ':' :: x) = some (p, x) := splitOnce_eq_some.2 ⟨rfl, h10⟩
        rw [hy, show splitOnce ':' ('_' :: ':' :: y) = some (['_'], y) from
          splitOnce_eq_some.2 ⟨rfl, by decide⟩] at h12
        simp only [Option.some.injEq, Prod.mk.injEq] at h12
        exact h9 h12.1.symm
  | relative i b h1 h2 h3 h4 h5 h6 =>
    cases h3
    have hi : env.isIri i = true := by
      rcases hv with h | h
      · exact h
      · unfold Id.classify at hj
        split at hj
        · assumption
        · cases hj
    obtain ⟨h7, h8⟩ := hm.relative h1 i b rfl h4
    rcases g.relative i b hi (hc.base b h4) with h9 | ⟨h9, h10, h11⟩
    · have h12 : s = i := by
        rw [h5, h9, if_neg]
        rintro ⟨h13, _⟩
        exact hnk ((C01_form _).1 h13)
      rw [h12]
      exact ⟨hnk, self fun i' p x he => by cases he; exact h6 p x⟩
    · subst h1
      have key : ∀ r, s = r → (r = env.relativeTo i b ∨ r = '.' :: '/' :: env.relativeTo i b) →
          ¬ KeywordForm r → ¬ HasColon r → env.isRef r = true → env.resolve r b = i →
          ¬ KeywordForm s ∧ Expands env.toIriEnv c true none s (.id (.iri i)) := by
        rintro r rfl k1 k2 k3 k4 k5
        refine ⟨k2, ?_⟩
        have := Expands.base (env := env.toIriEnv) (c := c) (s := s) (docRel := true) (voc := none) b
          ⟨k2, fun d hd => ?_⟩ (fun h => absurd h k3) (.inl rfl) rfl k4 h4
        · rwa [k5] at this
        · rcases hd.2 with hd2 | ⟨k, hd2⟩
          · cases hd2
          · exact h8 s d k k1 hd.1 hd2
      by_cases hk : KeywordForm (env.relativeTo i b)
      · rw [if_pos ⟨(C01_form _).2 hk, by rw [h7]; rfl⟩] at h5
        refine key _ h5 (.inr rfl) ?_ ?_ (g.dot _ b hk).1 ((g.dot _ b hk).2.trans h11)
        · rintro ⟨n, hn, _⟩
          simp at hn
        · rintro ⟨p, x, h12, h13, h14⟩
          obtain ⟨n, hn, _, hl⟩ := hk
          rw [hn] at h12
          have : ':' ∈ ['.', '/'] ++ '@' :: n := by rw [h12]; simp
          simp only [List.cons_append, List.nil_append, List.mem_cons] at this
          rcases this with h | h | h | h
          · revert h; decide
          · revert h; decide
          · revert h; decide
          · have := hl _ h
            revert this
            simp [AsciiLetter]
      · rw [if_neg fun h => hk ((C01_form _).1 h.1)] at h5
        exact key _ h5 (.inl rfl) hk h9 h10 h11
  | itself h1 h2 h3 =>
    rw [h2]
    exact ⟨hnk, self h3⟩

/-- C35: an IRI or blank node identifier compacted to a string (without value) is what that string
expands to, in the same position: vocabulary-relative or document-relative. Provided the context and
the identifier are not among the cases for which this is false. -/
theorem C35_plain_partial (env : CompEnv) (f : IriFacts env.toIriEnv) (g : CompactFacts env) (c : ACtx)
    (hc : CleanTerms env c) (j : Id) (hj : Id.classify env.toIriEnv j.str = j)
    (hv : env.isIri j.str = true ∨ env.isBlank j.str = true) (vocab reverse : Bool) (o : CompOpts)
    (hm : NotMisled env c j vocab) (s : Str)
    (h : compactIriPlain env c (.id j) vocab reverse o = .ok (some s)) :
    expandIri env.toIriEnv c (some (Expandable.ofStr s)) (!vocab) (if vocab then some .keep else none) =
      .ok (some (.id j)) := by
  obtain ⟨h1, h2⟩ := expands_back f g hc hj hv hm (compactIriPlain_by hc.distinct h)
  rw [ofStr_plain h1]
  exact (C33_exact ..).2 h2

/-- C35: the same considering a value of the property that is compacted. -/
theorem C35_value_partial (env : CompEnv) (f : IriFacts env.toIriEnv) (g : CompactFacts env) (c : ACtx)
    (hc : CleanTerms env c) (j : Id) (hj : Id.classify env.toIriEnv j.str = j)
    (hv : env.isIri j.str = true ∨ env.isBlank j.str = true) (value : Obj) (vocab reverse : Bool)
    (o : CompOpts) (hm : NotMisled env c j vocab) (s : Str)
    (h : compactIriWith env c (.id j) value vocab reverse o = .ok (some s)) :
    expandIri env.toIriEnv c (some (Expandable.ofStr s)) (!vocab) (if vocab then some .keep else none) =
      .ok (some (.id j)) := by
  obtain ⟨h1, h2⟩ := expands_back f g hc hj hv hm (compactIriWith_by hc.distinct h)
  rw [ofStr_plain h1]
  exact (C33_exact ..).2 h2

/-- C35 for keywords: a keyword is compacted to itself or to an alias, which expands to the keyword.
Provided that no prefix and no vocabulary mapping is a prefix of the keyword. -/
theorem C35_keyword_partial (env : CompEnv) (c : ACtx) (hc : CleanTerms env c) (k : Keyword)
    (hp : ∀ p m, PrefixFor c p m → ¬ m.str <+: k.intoStr)
    (hv : ∀ v, c.vocab = some v → ¬ v.str <+: k.intoStr) (reverse : Bool) (o : CompOpts) (s : Str)
    (h : compactIriPlain env c (.keyword k) true reverse o = .ok (some s)) :
    expandIri env.toIriEnv c (some (Expandable.ofStr s)) false (some .keep) = .ok (some (.keyword k)) := by
  cases compactIriPlain_by hc.distinct h with
  | term d h1 h2 h3 =>
    rw [ofStr_plain (hc.terms s d h2)]
    have := Expands.term (env := env.toIriEnv) (docRel := false) (voc := some .keep) d (hc.terms s d h2)
      ⟨h2, .inl rfl⟩
    rw [h3] at this
    exact (C33_exact ..).2 this
  | vocab v h1 h2 h3 => exact absurd ⟨s, h3.symm⟩ (hv v h2)
  | prefixed h1 =>
    obtain ⟨p, m, x, h2, h3, h4, _⟩ := h1
    exact absurd ⟨x, h4.symm⟩ (hp p m h2)
  | relative i b h1 => cases h1
  | itself h1 h2 =>
    have h2 : s = k.intoStr := h2
    rw [h2]
    unfold Expandable.ofStr
    rw [C01_roundtrip]
    rfl

/-! ## C36 -/

private theorem prefix_choice {c : ACtx} (hn : (c.defs.map Prod.fst).Nodup) {var : CTerm} {noValue : Bool}
    (hs : ∃ s', PrefixCandidate c var noValue s') :
    PrefixCandidate c var noValue (compactPrefix c var noValue c.defs []) ∧
      ∀ s', PrefixCandidate c var noValue s' → ¬ Better s' (compactPrefix c var noValue c.defs []) := by
  obtain ⟨i1, _, i3, i4⟩ := compactPrefix_spec c var noValue c.defs []
  obtain ⟨s', hs'⟩ := hs
  have h1 := i3 (List.ne_nil_of_mem ((mem_candidates hn).2 hs'))
  exact ⟨(mem_candidates hn).1 (i1.resolve_left h1), fun x hx => i4 x ((mem_candidates hn).2 hx)⟩

private theorem prefix_none {c : ACtx} (hn : (c.defs.map Prod.fst).Nodup) {var : CTerm} {noValue : Bool}
    (hs : ¬ ∃ s', PrefixCandidate c var noValue s') : compactPrefix c var noValue c.defs [] = [] := by
  obtain ⟨i1, _⟩ := compactPrefix_spec c var noValue c.defs []
  rcases i1 with h | h
  · exact h
  · exact absurd ⟨_, (mem_candidates hn).1 h⟩ hs

/-- C36: the compact IRI chosen for a document-relative IRI is one of the candidates, and no candidate
is better: at most as long and lexicographically before. -/
theorem C36_choice_partial (env : CompEnv) (c : ACtx) (hn : (c.defs.map Prod.fst).Nodup) (var : CTerm)
    (hvar : var ≠ .null) (reverse : Bool) (o : CompOpts) (hs : ∃ s', PrefixCandidate c var true s') :
    ∃ s, compactIriPlain env c var false reverse o = .ok (some s) ∧ PrefixCandidate c var true s ∧
      ∀ s', PrefixCandidate c var true s' → ¬ Better s' s := by
  obtain ⟨h1, h2⟩ := prefix_choice hn hs
  refine ⟨_, ?_, h1, h2⟩
  obtain ⟨p, m, x, _, _, _, h3, _⟩ := h1
  have hne : compactPrefix c var true c.defs [] ≠ [] := by rw [h3]; simp
  simp [compactIriPlain, hvar, compactNoTerm, hne, Except.map]

/-- Any two compact IRIs for the same identifier are comparable: there are no two of them of which the
longer one is lexicographically first. For instance, if there is only one prefix, or if all prefixes
have the same IRI mapping and the same length. -/
def Comparable (c : ACtx) : Prop :=
  ∀ var noValue s s', PrefixCandidate c var noValue s → PrefixCandidate c var noValue s' →
    s = s' ∨ Better s s' ∨ Better s' s

section
variable {c : ACtx} (hn : (c.defs.map Prod.fst).Nodup) {defs : List (Str × TermDef)}
  (hp : defs.Perm c.defs) (hc : Comparable c)
include hn hp

private theorem order_nodup : (({ c with defs := defs } : ACtx).defs.map Prod.fst).Nodup :=
  (hp.map Prod.fst).nodup_iff.2 hn

private theorem order_lookup (k : Str) : lookupKey k defs = lookupKey k c.defs := by
  apply Option.ext
  intro d
  rw [lookupKey_iff_mem ((hp.map Prod.fst).nodup_iff.2 hn), lookupKey_iff_mem hn, hp.mem_iff]

private theorem order_getValue (k : Str) : ({ c with defs := defs } : ACtx).getValue k = c.getValue k := by
  unfold ACtx.getValue ACtx.getNormal
  simp only [order_lookup hn hp]

private theorem order_candidate (var : CTerm) (noValue : Bool) (s : Str) :
    PrefixCandidate { c with defs := defs } var noValue s ↔ PrefixCandidate c var noValue s := by
  unfold PrefixCandidate PrefixFor
  simp only [order_lookup hn hp]

include hc

private theorem order_prefix (var : CTerm) (noValue : Bool) :
    compactPrefix { c with defs := defs } var noValue defs [] = compactPrefix c var noValue c.defs [] := by
  have hn' := order_nodup hn hp
  by_cases hs : ∃ s', PrefixCandidate c var noValue s'
  · obtain ⟨h1, h2⟩ := prefix_choice hn hs
    have hs' : ∃ s', PrefixCandidate { c with defs := defs } var noValue s' := by
      obtain ⟨s', h⟩ := hs
      exact ⟨s', (order_candidate hn hp ..).2 h⟩
    obtain ⟨h3, h4⟩ := prefix_choice hn' hs'
    rw [order_candidate hn hp] at h3
    rcases hc _ _ _ _ h3 h1 with h | h | h
    · exact h
    · exact absurd h (h2 _ h3)
    · exact absurd h (h4 _ ((order_candidate hn hp ..).2 h1))
  · rw [prefix_none hn hs]
    refine prefix_none hn' ?_
    rintro ⟨s, h⟩
    exact hs ⟨s, (order_candidate hn hp ..).1 h⟩

private theorem order_noTerm (env : CompEnv) (var : CTerm) (noValue vocab : Bool) :
    compactNoTerm env { c with defs := defs } var noValue vocab = compactNoTerm env c var noValue vocab := by
  unfold compactNoTerm compactVocab compactRest ACtx.containsTerm
  simp only [order_prefix hn hp hc, order_getValue hn hp]

private theorem order_plain (env : CompEnv) (var : CTerm) (vocab reverse : Bool) (o : CompOpts) :
    compactIriPlain env { c with defs := defs } var vocab reverse o =
      compactIriPlain env c var vocab reverse o := by
  unfold compactIriPlain
  simp only [order_noTerm hn hp hc, C34_order c hn defs hp]

private theorem order_selection (env : CompEnv) (o : CompOpts) (value : Obj) (reverse : Bool) :
    fullSelection env { c with defs := defs } o value reverse = fullSelection env c o value reverse := by
  unfold fullSelection idHasTerm
  simp only [order_plain hn hp hc, order_getValue hn hp]
  rfl

private theorem order_termWith (env : CompEnv) (var : CTerm) (value : Obj) (reverse : Bool) (o : CompOpts) :
    compactTermWith env { c with defs := defs } var value reverse o =
      compactTermWith env c var value reverse o := by
  have h1 := C34_order c hn defs hp var
  have h2 : (assocGet var ({ c with defs := defs } : ACtx).inverse).isSome =
      (assocGet var c.inverse).isSome := by
    rw [Bool.eq_iff_iff, inverse_isSome, inverse_isSome]
    simp only [hp.mem_iff]
  unfold compactTermWith
  rw [order_selection hn hp hc]
  unfold InvCtx.select at h1
  cases hl : assocGet var ({ c with defs := defs } : ACtx).inverse with
  | none =>
    rw [hl] at h2
    cases hr : assocGet var c.inverse with
    | none => rfl
    | some m => rw [hr] at h2; cases h2
  | some m =>
    rw [hl] at h2 h1
    cases hr : assocGet var c.inverse with
    | none => rw [hr] at h2; cases h2
    | some m' =>
      rw [hr] at h1
      simp only [Option.bind_some] at h1
      simp only [h1]

end

/-- C36: the result of compacting an identifier or keyword does not depend on the order in which the
definitions are stored, provided that compact IRIs are comparable. -/
theorem C36_order_partial (env : CompEnv) (c : ACtx) (hn : (c.defs.map Prod.fst).Nodup)
    (hc : Comparable c) (defs : List (Str × TermDef)) (hp : defs.Perm c.defs) (var : CTerm)
    (vocab reverse : Bool) (o : CompOpts) :
    compactIriPlain env { c with defs := defs } var vocab reverse o =
      compactIriPlain env c var vocab reverse o ∧
    ∀ value, compactIriWith env { c with defs := defs } var value vocab reverse o =
      compactIriWith env c var value vocab reverse o := by
  refine ⟨order_plain hn hp hc .., fun value => ?_⟩
  unfold compactIriWith
  simp only [order_termWith hn hp hc, order_noTerm hn hp hc]

/-! ## Examples, and cases for which the properties are false -/

/-- Whether the string starts with `http:`. -/
def exHttp (s : Str) : Bool := decide (s.take 5 = "http:".toList)

/-- References are appended to the base IRI; `./` is skipped. -/
def exResolve (r b : Str) : Str :=
  if exHttp r then r
  else (if exHttp b then b else "http:".toList) ++ (if r.take 2 = "./".toList then r.drop 2 else r)

/-- The part after the base IRI, if unambiguous. -/
def exRelativeTo (i b : Str) : Str :=
  if b <+: i ∧ ':' ∉ i.drop b.length ∧ (i.drop b.length).take 2 ≠ "./".toList then i.drop b.length else i

/-- An example environment: IRIs are the strings that start with `http:`. -/
def exCompEnv : CompEnv :=
  { exProcEnv with isIri := exHttp, resolve := exResolve, relativeTo := exRelativeTo }

private theorem exHttp_form {i : Str} (h : exHttp i = true) : ∃ x, i = "http".toList ++ ':' :: x := by
  have h : i.take 5 = "http:".toList := by simpa [exHttp] using h
  refine ⟨i.drop 5, ?_⟩
  have := List.take_append_drop 5 i
  rw [h] at this
  exact this.symm

private theorem exHttp_colon {i : Str} (h : ':' ∉ i) : exHttp i = false := by
  rw [← Bool.not_eq_true]
  intro h'
  obtain ⟨x, rfl⟩ := exHttp_form h'
  simp at h

private theorem exHttp_append {b x : Str} (h : exHttp b = true) : exHttp (b ++ x) = true := by
  obtain ⟨y, rfl⟩ := exHttp_form h
  rfl

/-- It meets the hypotheses of C35. -/
theorem exComp_facts : IriFacts exCompEnv.toIriEnv ∧ CompactFacts exCompEnv := by
  refine ⟨⟨fun i h => ?_, fun i h => ?_, fun r b => ?_⟩, ⟨fun s h => ?_, fun i b hi hb => ?_, fun r b h => ?_⟩⟩
  · obtain ⟨x, rfl⟩ := exHttp_form h
    exact ⟨"http".toList, x, rfl, by decide, by decide, by decide, by decide⟩
  · obtain ⟨x, rfl⟩ := exHttp_form h
    simp [exCompEnv, exProcEnv, exIriEnv]
  · show exHttp (exResolve r b) = true
    unfold exResolve
    split
    · assumption
    · split
      · rename_i h; exact exHttp_append h
      · rfl
  · have h : s.take 2 = ['_', ':'] ∧ s.length > 2 := by simpa [exCompEnv, exProcEnv, exIriEnv] using h
    refine ⟨s.drop 2, ?_⟩
    have := List.take_append_drop 2 s
    rw [h.1] at this
    exact this.symm
  · show exRelativeTo i b = i ∨ _ ∧ _ ∧ exResolve (exRelativeTo i b) b = i
    unfold exRelativeTo
    split
    · rename_i h
      obtain ⟨h1, h2, h3⟩ := h
      obtain ⟨x, rfl⟩ := h1
      simp only [List.drop_left] at *
      refine .inr ⟨?_, rfl, ?_⟩
      · rintro ⟨p, y, h4, _⟩
        have : ':' ∈ x := by
          have h5 : exCompEnv.relativeTo (b ++ x) b = x := by
            show exRelativeTo (b ++ x) b = x
            unfold exRelativeTo
            rw [if_pos ⟨⟨x, rfl⟩, by simpa using h2, by simpa using h3⟩]
            simp
          rw [← h5, h4]
          simp
        exact h2 this
      · unfold exResolve
        have hb : exHttp b = true := hb
        rw [exHttp_colon h2, hb, if_neg h3]
        rfl
    · exact .inl rfl
  · refine ⟨rfl, ?_⟩
    obtain ⟨n, rfl, _, _⟩ := h
    rfl

/-- A context with a prefix, a term, an alias of a keyword and a vocabulary. -/
def exCompCtx : ACtx :=
  { base := some "http:b".toList, vocab := some (.id (.iri "http:v".toList)),
    defs := [("p".toList, { value := some (.id (.iri "http:p".toList)), prefix_ := true }),
      ("t".toList, { value := some (.id (.iri "http:t".toList)) }),
      ("kind".toList, { value := some (.keyword .type) })] }

theorem exComp_lookup {k : Str} {d : TermDef} (h : lookupKey k exCompCtx.defs = some d) :
    (k, d) ∈ exCompCtx.defs := (lookupKey_iff_mem (by decide)).1 h

theorem exComp_prefix {p : Str} {m : CTerm} (h : PrefixFor exCompCtx p m) :
    p = "p".toList ∧ m = .id (.iri "http:p".toList) := by
  obtain ⟨d, h1, h2, h3⟩ := h
  have := exComp_lookup h1
  simp only [exCompCtx, List.mem_cons, Prod.mk.injEq, List.not_mem_nil, or_false] at this
  rcases this with ⟨rfl, rfl⟩ | ⟨rfl, rfl⟩ | ⟨rfl, rfl⟩
  · cases h3; exact ⟨rfl, rfl⟩
  · cases h2
  · cases h2

theorem exComp_clean : CleanTerms exCompEnv exCompCtx where
  distinct := by decide
  terms k d h := by
    rw [← C01_form, Bool.not_eq_true]
    have := exComp_lookup h
    simp only [exCompCtx, List.mem_cons, Prod.mk.injEq, List.not_mem_nil, or_false] at this
    rcases this with ⟨rfl, rfl⟩ | ⟨rfl, rfl⟩ | ⟨rfl, rfl⟩ <;> decide
  prefixes p m h := by
    obtain ⟨rfl, _⟩ := exComp_prefix h
    decide
  ids k d h h' := by
    have := exComp_lookup h
    simp only [exCompCtx, List.mem_cons, Prod.mk.injEq, List.not_mem_nil, or_false] at this
    rcases this with ⟨rfl, rfl⟩ | ⟨rfl, rfl⟩ | ⟨rfl, rfl⟩ <;> revert h' <;> decide
  vocab t h := by cases h; exact ⟨_, rfl⟩
  base b h := by cases h; rfl

/-- The hypotheses of C35 are met by the IRI `http:px`, which is compacted to `p:x`. -/
example : NotMisled exCompEnv exCompCtx (.iri "http:px".toList) true ∧
    compactIriPlain exCompEnv exCompCtx (.id (.iri "http:px".toList)) true false {} =
      .ok (some "p:x".toList) := by
  refine ⟨⟨fun _ v x h1 h2 => ?_, fun p m x h1 h2 => ?_, nofun⟩, by decide +kernel⟩
  · cases h1
    simp [Id.str, CTerm.str] at h2
  · obtain ⟨rfl, rfl⟩ := exComp_prefix h1
    simp [Id.str, CTerm.str] at h2
    subst h2
    exact ⟨by decide, rfl⟩

/-- A term, a vocabulary-relative, a base-relative IRI, and an alias. -/
example : compactIriPlain exCompEnv exCompCtx (.id (.iri "http:t".toList)) true false {} =
      .ok (some "t".toList) ∧
    compactIriPlain exCompEnv exCompCtx (.id (.iri "http:vx".toList)) true false {} =
      .ok (some "x".toList) ∧
    compactIriPlain exCompEnv exCompCtx (.id (.iri "http:bx".toList)) false false {} =
      .ok (some "x".toList) ∧
    compactIriPlain exCompEnv exCompCtx (.keyword .type) true false {} = .ok (some "kind".toList) := by
  decide +kernel

/-- C35 is false if the part after the vocabulary mapping has a colon: `http:vhttp:x` is compacted to
`http:x`, which is another IRI. -/
theorem C35_vocab_colon :
    compactIriPlain exCompEnv exCompCtx (.id (.iri "http:vhttp:x".toList)) true false {} =
      .ok (some "http:x".toList) ∧
    expandIri exCompEnv.toIriEnv exCompCtx (some (Expandable.ofStr "http:x".toList)) false (some .keep) =
      .ok (some (.id (.iri "http:x".toList))) := by
  decide +kernel

/-- C35 is false if the relative reference is a keyword: `disambiguate_keyword` (iri.rs:499-505) only
changes strings that look like keywords but are none. -/
theorem C35_relative_keyword :
    compactIriPlain exCompEnv exCompCtx (.id (.iri "http:b@type".toList)) false false {} =
      .ok (some "@type".toList) ∧
    expandIri exCompEnv.toIriEnv exCompCtx (some (Expandable.ofStr "@type".toList)) true none =
      .ok (some (.keyword .type)) := by
  decide +kernel

/-- C35 is false if the relative reference is an alias of a keyword. -/
theorem C35_relative_alias :
    compactIriPlain exCompEnv exCompCtx (.id (.iri "http:bkind".toList)) false false {} =
      .ok (some "kind".toList) ∧
    expandIri exCompEnv.toIriEnv exCompCtx (some (Expandable.ofStr "kind".toList)) true none =
      .ok (some (.keyword .type)) := by
  decide +kernel

/-- C35 is false if the part after a prefix starts with `//`: the result is no compact IRI. -/
theorem C35_slashes :
    compactIriPlain exCompEnv exCompCtx (.id (.iri "http:p//x".toList)) true false {} =
      .ok (some "p://x".toList) ∧
    expandIri exCompEnv.toIriEnv exCompCtx (some (Expandable.ofStr "p://x".toList)) false (some .keep) =
      .ok (some (.id (.iri "http:vp://x".toList))) := by
  decide +kernel

/-- `{"t": null, "p": {"@id": "t", "@prefix": true}}` -/
def exNullPrefix : SDef :=
  { SDef.empty with bindings := [("t".toList, none),
    ("p".toList, some (.expanded { SExp.empty with id := some (some (.term "t".toList)), prefix_ := some true }))] }

/-- C35 is false for keywords if a prefix stands for null, which context processing allows: `@value` is
compacted to `p:@value`, which does not expand to a keyword. -/
theorem C35_null_prefix : ∃ c, Processed exProcEnv {} (.one (.defn exNullPrefix)) none {} (.ok c) ∧
    compactIriPlain exCompEnv c (.keyword .value) true false {} = .ok (some "p:@value".toList) ∧
    expandIri exCompEnv.toIriEnv c (some (Expandable.ofStr "p:@value".toList)) false (some .keep) =
      .ok (some (.id (.invalid "@value".toList))) := by
  refine ⟨_, ⟨nofun, 9, rfl⟩, ?_⟩
  decide +kernel

/-- Two prefixes for the same IRI. -/
def exPrefixB : Str × TermDef := ("b".toList, { value := some (.id (.iri "http:e".toList)), prefix_ := true })
def exPrefixAa : Str × TermDef := ("aa".toList, { value := some (.id (.iri "http:e".toList)), prefix_ := true })

/-- C36 is false: of `b:x` and `aa:x` the one whose prefix is stored first is chosen. (A candidate
replaces another one only if it is at most as long and lexicographically before, iri.rs:452-455.) -/
theorem C36_order_dependent :
    compactIriPlain exCompEnv { defs := [exPrefixB, exPrefixAa] } (.id (.iri "http:ex".toList)) true false {} =
      .ok (some "b:x".toList) ∧
    compactIriPlain exCompEnv { defs := [exPrefixAa, exPrefixB] } (.id (.iri "http:ex".toList)) true false {} =
      .ok (some "aa:x".toList) := by
  decide +kernel

/-- The hypothesis of `C36_order_partial` is met by a context with one prefix. -/
example : Comparable exCompCtx := by
  rintro var noValue s s' ⟨p, m, x, h1, _, h3, h4, _⟩ ⟨p', m', x', h1', _, h3', h4', _⟩
  obtain ⟨rfl, rfl⟩ := exComp_prefix h1
  obtain ⟨rfl, rfl⟩ := exComp_prefix h1'
  rw [h3] at h3'
  have := List.append_cancel_left h3'
  subst this
  exact .inl (h4.trans h4'.symm)

/-- And by the two prefixes of the same length `ab` and `aa`. -/
example : (∃ s s', PrefixCandidate { defs := [("ab".toList, exPrefixB.2), exPrefixAa] }
      (.id (.iri "http:ex".toList)) true s ∧ PrefixCandidate { defs := [("ab".toList, exPrefixB.2), exPrefixAa] }
      (.id (.iri "http:ex".toList)) true s' ∧ Better s s') := by
  refine ⟨"aa:x".toList, "ab:x".toList, ⟨"aa".toList, _, "x".toList, ⟨_, rfl, rfl, rfl⟩, nofun, rfl, rfl, ?_⟩,
    ⟨"ab".toList, _, "x".toList, ⟨_, rfl, rfl, rfl⟩, nofun, rfl, rfl, ?_⟩, by decide, strLt_iff.1 (by decide)⟩
  · intro d h; revert h; simp [lookupKey, exPrefixAa]
  · intro d h; revert h; simp [lookupKey, exPrefixAa]

end JsonLd.Props
