import Verif.Props.Choice
/-!
# C71: the term chosen without a value
-/

namespace JsonLd.Props
open JsonLd.Spec

/-- The containers of a term that stands for itself, in order of preference. -/
def plainContainers (mode : ProcMode) (reverse : Bool) : List Container :=
  (if reverse then [.set] else [.id, .idSet, .type, .setType, .set]) ++ [.none] ++
    onlyNew mode [.index, .indexSet]

/-- What the definition of such a term should be, in order of preference: it is a term for references,
or a reverse property. -/
def plainWants (reverse : Bool) : List (TermDef → Prop) :=
  if reverse then [fun d => TypeMatch d .reverse, fun d => TypeMatch d (.type .none), fun d => TypeMatch d .any]
  else typeWants .id

private theorem plainContainers_eq (mode : ProcMode) (reverse : Bool) :
    allContainers mode none reverse = plainContainers mode reverse := by
  cases mode <;> cases reverse <;> rfl

private theorem plain_same (c : ACtx) (var : CTerm) (cs : List Container) (reverse : Bool) :
    SameChoice c var (allWishes cs (selWants c (plainSelection reverse))) (allWishes cs (plainWants reverse)) := by
  cases reverse with
  | false => exact sameChoice_refl _ _ _
  | true => exact sameChoice_dup

private theorem plain_rest {env : CompEnv} {c : ACtx} (hn : (c.defs.map Prod.fst).Nodup) {var : CTerm} {s : Str}
    (hs : compactNoTerm env c var true true = .ok s) :
    KeywordForm s ∨ lookupKey s c.defs = none ∨ s = var.str ∨
      ∃ d, lookupKey s c.defs = some d ∧ d.value = some var := by
  unfold compactNoTerm at hs
  split at hs
  · rename_i s' h1
    obtain rfl : s' = s := Except.ok.inj hs
    simp only [if_true] at h1
    unfold compactVocab at h1
    split at h1
    · cases h1
    · split at h1
      · dsimp only at h1
        split at h1
        · rename_i h2
          have h3 := h2.2
          rw [Option.some.inj h1] at h3
          by_cases hk : KeywordForm s'
          · exact .inl hk
          · right; left
            rw [containsTerm_eq hk] at h3
            simpa using h3
        · cases h1
      · cases h1
  · dsimp only at hs
    split at hs
    · cases hs
      rename_i h1
      obtain ⟨i1, _⟩ := compactPrefix_spec c var true c.defs []
      have h2 := (mem_candidates hn).1 (i1.resolve_left h1)
      obtain ⟨p, m, x, _, _, _, _, h3⟩ := h2
      right
      cases h4 : lookupKey (compactPrefix c var true c.defs []) c.defs with
      | none => exact .inl rfl
      | some d => exact .inr (.inr ⟨d, rfl, (h3 d h4).1⟩)
    · unfold compactRest at hs
      split at hs
      · rename_i i hi
        split at hs
        · cases hs
        · split at hs
          · rename_i h4 _
            cases h4
          · cases hs
            right; right; left
            cases var with
            | id j =>
              cases j with
              | iri x => cases hi; rfl
              | blank x => cases hi
              | invalid x => cases hi
            | null => cases hi
            | keyword k => cases hi
      · cases hs
        exact .inr (.inr (.inl rfl))

/-- C71: without a value, as for types, the key is the shortest term with the most preferred container
and, among those, the most preferred type. If there is no such term, a term is used only if its
name is made of a prefix and the rest of the IRI. -/
theorem C71_plain (env : CompEnv) (c : ACtx) (hn : (c.defs.map Prod.fst).Nodup) (var : CTerm)
    (reverse : Bool) (o : CompOpts) (k : Str)
    (h : compactIriPlain env c var true reverse o = .ok (some k)) :
    Selected c var (allWishes (plainContainers o.mode reverse) (plainWants reverse)) k ∨
      ((∀ w ∈ allWishes (plainContainers o.mode reverse) (plainWants reverse), ∀ k', ¬ Candidate c var w k') ∧
        (KeywordForm k ∨ lookupKey k c.defs = none ∨ k = var.str ∨
          ∃ d, lookupKey k c.defs = some d ∧ d.value = some var)) := by
  unfold compactIriPlain at h
  split at h
  · cases h
  · simp only [if_true, plainContainers_eq] at h
    have hs := plain_same c var (plainContainers o.mode reverse) reverse
    cases hsel : c.inverse.select var (plainContainers o.mode reverse) (plainSelection reverse) with
    | some t =>
      rw [hsel] at h
      cases h
      left
      have h2 := (C34_selected c hn var _ _ _).1 hsel
      rw [wishes_eq] at h2
      exact (hs.1 _).1 h2
    | none =>
      rw [hsel] at h
      right
      have h2 := (C34_none c hn var _ _).1 hsel
      rw [wishes_eq] at h2
      refine ⟨hs.2.1 h2, ?_⟩
      obtain ⟨a, h3, h4⟩ := mapOk h
      cases h4
      exact plain_rest hn h3

/-- C71: the term selected without a value is determined by the context alone: it is used whatever the
other options are. -/
theorem C71_plain_selected (env : CompEnv) (c : ACtx) (hn : (c.defs.map Prod.fst).Nodup) (var : CTerm)
    (hv : var ≠ .null) (reverse : Bool) (o : CompOpts) (k : Str)
    (h : Selected c var (allWishes (plainContainers o.mode reverse) (plainWants reverse)) k) :
    compactIriPlain env c var true reverse o = .ok (some k) := by
  have h1 := ((plain_same c var (plainContainers o.mode reverse) reverse).1 k).2 h
  rw [← wishes_eq] at h1
  have h2 := (C34_selected c hn var _ _ _).2 h1
  unfold compactIriPlain
  rw [if_neg hv]
  simp only [if_true, plainContainers_eq, h2]

/-- Without a value: a term for references is preferred, and a reverse property if it is one. -/
example : (compactIriPlain exCompEnv exChoice (.id (.iri "http:x".toList)) true false {}).toOption.join =
      some "ref".toList ∧
    (compactIriPlain exCompEnv exChoice (.id (.iri "http:x".toList)) true true {}).toOption.join =
      some "back".toList := by
  decide +kernel

end JsonLd.Props
