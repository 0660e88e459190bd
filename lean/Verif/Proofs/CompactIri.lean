import Verif.Spec.Compact
import Verif.Proofs.Inverse
import Verif.Props.Inverse
import Verif.Props.Iri
/-!
# IRI compaction
-/

namespace JsonLd
open JsonLd.Spec JsonLd.Props

theorem lexLt_trans {a b c : Str} (h : LexLt a b) (h' : LexLt b c) : LexLt a c := by
  rw [← strLt_iff] at *
  exact strLt_trans h h'

theorem lexLt_irrefl (a : Str) : ¬ LexLt a a := by
  rw [← strLt_iff, strLt_irrefl]
  simp

theorem better_trans {a b c : Str} (h : Better a b) (h' : Better b c) : Better a c :=
  ⟨Nat.le_trans h.1 h'.1, lexLt_trans h.2 h'.2⟩

theorem better_irrefl (a : Str) : ¬ Better a a := fun h => lexLt_irrefl a h.2

theorem keywordForm_colon {p x : Str} : ¬ KeywordForm (p ++ ':' :: x) := by
  rintro ⟨n, hn, _, hc⟩
  have hm : ':' ∈ n := by
    cases p with
    | nil => simp at hn
    | cons a p =>
      simp only [List.cons_append, List.cons.injEq] at hn
      rw [← hn.2]
      simp
  have := hc _ hm
  revert this
  simp [AsciiLetter]

/-- The candidates of a list of definitions. -/
def candidates (c : ACtx) (var : CTerm) (noValue : Bool) (bs : List (Str × TermDef)) : List Str :=
  (bs.filterMap (candidate var)).filter (candidateFree c var noValue)

theorem candidate_some {var : CTerm} {b : Str × TermDef} {s : Str} :
    candidate var b = some s ↔ ∃ m x, b.2.value = some m ∧ b.2.prefix_ = true ∧ x ≠ [] ∧
      var.str = m.str ++ x ∧ s = b.1 ++ ':' :: x := by
  unfold candidate
  cases hv : b.2.value with
  | none => simp
  | some m =>
    simp only
    constructor
    · intro h
      split at h
      · rename_i h1
        obtain ⟨x, hx⟩ := h1.2.1
        have hd : var.str.drop m.str.length = x := by rw [← hx]; simp
        rw [hd] at h h1
        exact ⟨m, x, rfl, h1.1, h1.2.2, hx.symm, (Option.some.inj h).symm⟩
      · cases h
    · rintro ⟨m', x, h1, h2, h3, h4, h5⟩
      cases h1
      have hd : var.str.drop m.str.length = x := by rw [h4]; simp
      rw [hd, if_pos ⟨h2, ⟨x, h4.symm⟩, h3⟩, h5]

theorem compactPrefix_spec (c : ACtx) (var : CTerm) (noValue : Bool) (bs : List (Str × TermDef))
    (best : Str) :
    (compactPrefix c var noValue bs best = best ∨
      compactPrefix c var noValue bs best ∈ candidates c var noValue bs) ∧
    (best ≠ [] → compactPrefix c var noValue bs best = best ∨
      Better (compactPrefix c var noValue bs best) best) ∧
    (candidates c var noValue bs ≠ [] → compactPrefix c var noValue bs best ≠ []) ∧
    ∀ x ∈ candidates c var noValue bs, ¬ Better x (compactPrefix c var noValue bs best) := by
  induction bs generalizing best with
  | nil =>
    refine ⟨.inl rfl, fun _ => .inl rfl, fun h => absurd rfl h, fun x hx => ?_⟩
    simp [candidates] at hx
  | cons b bs ih =>
    unfold compactPrefix
    cases hc : candidate var b with
    | none =>
      have : candidates c var noValue (b :: bs) = candidates c var noValue bs := by
        simp [candidates, hc]
      rw [this]
      exact ih best
    | some cand =>
      simp only
      obtain ⟨i1, i2, i3, i4⟩ := ih (betterCandidate c var noValue best cand)
      have hne : cand ≠ [] := by
        obtain ⟨m, x, _, _, _, _, rfl⟩ := candidate_some.1 hc
        simp
      cases hf : candidateFree c var noValue cand with
      | false =>
        have h1 : betterCandidate c var noValue best cand = best := by simp [betterCandidate, hf]
        have h2 : candidates c var noValue (b :: bs) = candidates c var noValue bs := by
          simp [candidates, hc, hf]
        rw [h2]
        rw [h1] at i1 i2 i3 i4 ⊢
        exact ⟨i1, i2, i3, i4⟩
      | true =>
        have h2 : candidates c var noValue (b :: bs) = cand :: candidates c var noValue bs := by
          simp [candidates, hc, hf]
        rw [h2]
        by_cases hb : best = [] ∨ Better cand best
        · have h1 : betterCandidate c var noValue best cand = cand := by
            unfold betterCandidate
            exact if_pos ⟨hb.imp id fun h => ⟨h.1, strLt_iff.2 h.2⟩, hf⟩
          rw [h1] at i1 i2 i3 i4 ⊢
          refine ⟨.inr ?_, fun hb' => ?_, fun _ => ?_, fun x hx => ?_⟩
          · rcases i1 with i1 | i1
            · rw [i1]; exact List.mem_cons_self ..
            · exact List.mem_cons_of_mem _ i1
          · have hb := hb.resolve_left hb'
            rcases i2 hne with e | e
            · rw [e]; exact .inr hb
            · exact .inr (better_trans e hb)
          · intro h
            rcases i2 hne with e | e
            · exact hne (e ▸ h)
            · by_cases hcs : candidates c var noValue bs = []
              · rw [hcs] at i1
                rcases i1 with i1 | i1
                · exact hne (i1 ▸ h)
                · cases i1
              · exact i3 hcs h
          · rcases List.mem_cons.1 hx with rfl | hx
            · rcases i2 hne with e | e
              · rw [e]; exact better_irrefl _
              · exact fun h => better_irrefl _ (better_trans e h)
            · exact i4 x hx
        · have h1 : betterCandidate c var noValue best cand = best := by
            unfold betterCandidate
            exact if_neg fun h => hb (h.1.imp id fun h => ⟨h.1, strLt_iff.1 h.2⟩)
          rw [h1] at i1 i2 i3 i4 ⊢
          obtain ⟨hb1, hb2⟩ := not_or.1 hb
          refine ⟨i1.imp id (List.mem_cons_of_mem _), i2, fun _ => ?_, fun x hx => ?_⟩
          · intro h
            rcases i1 with i1 | i1
            · exact hb1 (i1 ▸ h)
            · by_cases hcs : candidates c var noValue bs = []
              · rw [hcs] at i1; cases i1
              · exact i3 hcs h
          · rcases List.mem_cons.1 hx with rfl | hx
            · rcases i2 hb1 with e | e
              · rw [e]; exact hb2
              · exact fun h => hb2 (better_trans h e)
            · exact i4 x hx

theorem getValue_colon {c : ACtx} {p x : Str} :
    c.getValue (p ++ ':' :: x) = (lookupKey (p ++ ':' :: x) c.defs).map (·.value) := by
  unfold ACtx.getValue ACtx.getNormal
  rw [if_neg]
  intro h
  have : ':' ∈ "@type".toList := by rw [← h]; simp
  revert this
  decide

theorem candidateFree_iff {c : ACtx} {var : CTerm} {noValue : Bool} {p x : Str} :
    candidateFree c var noValue (p ++ ':' :: x) = true ↔
      ∀ d, lookupKey (p ++ ':' :: x) c.defs = some d → d.value = some var ∧ noValue = true := by
  unfold candidateFree
  rw [getValue_colon]
  cases lookupKey (p ++ ':' :: x) c.defs with
  | none => simp
  | some d => simp

theorem mem_candidates {c : ACtx} (hn : (c.defs.map Prod.fst).Nodup) {var : CTerm} {noValue : Bool}
    {s : Str} : s ∈ candidates c var noValue c.defs ↔ PrefixCandidate c var noValue s := by
  unfold candidates PrefixCandidate PrefixFor
  rw [List.mem_filter, List.mem_filterMap]
  constructor
  · rintro ⟨⟨⟨p, d⟩, h1, h2⟩, h3⟩
    obtain ⟨m, x, h4, h5, h6, h7, rfl⟩ := candidate_some.1 h2
    exact ⟨p, m, x, ⟨d, (lookupKey_iff_mem hn).2 h1, h5, h4⟩, h6, h7, rfl, candidateFree_iff.1 h3⟩
  · rintro ⟨p, m, x, ⟨d, h1, h2, h3⟩, h4, h5, rfl, h6⟩
    exact ⟨⟨(p, d), (lookupKey_iff_mem hn).1 h1, candidate_some.2 ⟨m, x, h3, h2, h4, h5, rfl⟩⟩,
      candidateFree_iff.2 h6⟩

theorem containsTerm_eq {c : ACtx} {s : Str} (h : ¬ KeywordForm s) :
    c.containsTerm s = (lookupKey s c.defs).isSome := by
  have : s ≠ "@type".toList := by
    rintro rfl
    exact h ((C01_form _).1 (by decide))
  unfold ACtx.containsTerm ACtx.getValue ACtx.getNormal
  rw [if_neg this, Option.isSome_map]

theorem compactNoTerm_by {env : CompEnv} {c : ACtx} (hn : (c.defs.map Prod.fst).Nodup) {var : CTerm}
    {noValue vocab : Bool} {s : Str} (h : compactNoTerm env c var noValue vocab = .ok s) :
    CompactedBy env c var noValue vocab s := by
  unfold compactNoTerm at h
  split at h
  · rename_i s' hs
    cases h
    split at hs
    · rename_i hv
      unfold compactVocab at hs
      split at hs
      · cases hs
      · rename_i v hcv
        split at hs
        · rename_i hp
          obtain ⟨x, hx⟩ := hp
          have hd : var.str.drop v.str.length = x := by rw [← hx]; simp
          simp only [hd] at hs
          split at hs
          · rename_i h1
            cases hs
            refine .vocab v hv hcv hx.symm h1.1 fun hk => ?_
            have := h1.2
            rw [containsTerm_eq hk] at this
            cases hl : lookupKey s c.defs with
            | none => rfl
            | some d => rw [hl] at this; cases this
          · cases hs
        · cases hs
    · cases hs
  · obtain ⟨i1, _, i3, _⟩ := compactPrefix_spec c var noValue c.defs []
    simp only at h
    split at h
    · rename_i hne
      cases h
      exact .prefixed ((mem_candidates hn).1 (i1.resolve_left hne))
    · rename_i he
      rw [ne_eq, not_not] at he
      have hno : ∀ s', ¬ PrefixCandidate c var noValue s' := by
        intro s' hs'
        refine i3 ?_ he
        intro h
        have := (mem_candidates hn).2 hs'
        rw [h] at this
        cases this
      unfold compactRest at h
      split at h
      · rename_i i hi
        have hvar : var = .id (.iri i) := by
          cases var with
          | id j => cases j with
            | iri j => cases hi; rfl
            | blank j => cases hi
            | invalid j => cases hi
          | _ => cases hi
        split at h
        · cases h
        · rename_i hct
          have hsch : ∀ i p x, var = .id (.iri i) → i = p ++ ':' :: x → ':' ∉ p → ¬ KeywordForm p →
              lookupKey p c.defs = none := by
            rintro i' p x hv' rfl hp hk
            rw [hvar] at hv'
            cases hv'
            rw [Bool.not_eq_true] at hct
            unfold iriScheme at hct
            rw [splitOnce_eq_some.2 ⟨rfl, hp⟩] at hct
            simp only at hct
            rw [containsTerm_eq hk] at hct
            cases hl : lookupKey p c.defs with
            | none => rfl
            | some d => rw [hl] at hct; cases hct
          split at h
          · cases h
            exact .relative i _ rfl hno hvar (by assumption) rfl fun p x => hsch i p x hvar
          · cases h
            exact .itself hno (by rw [hvar]; rfl) hsch
      · rename_i hi
        cases h
        refine .itself hno rfl ?_
        rintro i p x rfl
        cases hi

theorem select_term {c : ACtx} (hn : (c.defs.map Prod.fst).Nodup) {var : CTerm}
    {cs : List Container} {sel : Selection} {s : Str} (h : c.inverse.select var cs sel = some s) :
    ∃ d, lookupKey s c.defs = some d ∧ d.value = some var := by
  obtain ⟨_, w, _, _, _, ⟨d, h1, h2, _⟩, _⟩ := (C34_selected c hn var cs sel s).1 h
  exact ⟨d, h1, h2⟩

theorem mapOk {ε α β : Type} {f : α → β} {x : Except ε α} {y : β} (h : x.map f = .ok y) :
    ∃ a, x = .ok a ∧ f a = y := by
  cases x with
  | error e => cases h
  | ok a => cases h; exact ⟨a, rfl, rfl⟩

theorem compactIriPlain_by {env : CompEnv} {c : ACtx} (hn : (c.defs.map Prod.fst).Nodup) {var : CTerm}
    {vocab reverse : Bool} {o : CompOpts} {s : Str}
    (h : compactIriPlain env c var vocab reverse o = .ok (some s)) :
    CompactedBy env c var true vocab s := by
  unfold compactIriPlain at h
  split at h
  · cases h
  · split at h
    · rename_i t ht
      cases h
      split at ht
      · rename_i hv
        obtain ⟨d, h1, h2⟩ := select_term hn ht
        exact .term d hv h1 h2
      · cases ht
    · obtain ⟨a, h1, h2⟩ := mapOk h
      cases h2
      exact compactNoTerm_by hn h1

theorem compactIriWith_by {env : CompEnv} {c : ACtx} (hn : (c.defs.map Prod.fst).Nodup) {var : CTerm}
    {value : Obj} {vocab reverse : Bool} {o : CompOpts} {s : Str}
    (h : compactIriWith env c var value vocab reverse o = .ok (some s)) :
    CompactedBy env c var false vocab s := by
  unfold compactIriWith at h
  split at h
  · cases h
  · split at h
    · cases h
    · rename_i t ht
      cases h
      split at ht
      · rename_i hv
        unfold compactTermWith at ht
        split at ht
        · cases ht
        · rename_i m hm
          split at ht
          · cases ht
          · rename_i sel _
            have h2 : c.inverse.select var (allContainers o.mode (some value) reverse) sel = some s := by
              unfold InvCtx.select
              rw [hm]
              exact Except.ok.inj ht
            obtain ⟨d, h1, h2⟩ := select_term hn h2
            exact .term d hv h1 h2
      · cases ht
    · obtain ⟨a, h1, h2⟩ := mapOk h
      cases h2
      exact compactNoTerm_by hn h1

theorem inverse_isSome (c : ACtx) (var : CTerm) :
    (assocGet var c.inverse).isSome = true ↔ ∃ b ∈ c.defs, b.2.value = some var := by
  have key (l : List (Str × TermDef)) : ∀ I : InvCtx, (assocGet var (l.foldl (InvCtx.add c) I)).isSome = true ↔
      (assocGet var I).isSome = true ∨ ∃ b ∈ l, b.2.value = some var := by
    induction l with
    | nil => simp
    | cons b l ih =>
      intro I
      rw [List.foldl_cons, ih]
      have : (assocGet var (InvCtx.add c I b)).isSome = true ↔
          (assocGet var I).isSome = true ∨ b.2.value = some var := by
        unfold InvCtx.add
        cases hv : b.2.value with
        | none => simp
        | some v =>
          simp only [assocGet_upd]
          by_cases h : v = var
          · subst h; simp
          · simp [h]
      rw [this]
      simp [or_assoc]
  unfold ACtx.inverse
  rw [key]
  simp only [assocGet, Option.isSome_none, Bool.false_eq_true, false_or, (sortTerms_perm c.defs).mem_iff]

end JsonLd
