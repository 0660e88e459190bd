import Verif.Props.ProcessBase
import Verif.Props.Iri
/-!
# C31, C48: the settings of a context definition
-/

namespace JsonLd.Props
open JsonLd.Spec

private theorem stepBase_sets {E : ProcEnv} {m : Merged} {c c' : ACtx}
    (h : stepBase E m [] c = .ok c') : SetsBase E c.base m.baseValue c'.base := by
  unfold stepBase at h
  rw [if_pos (show List.isEmpty [] = true from rfl)] at h
  unfold SetsBase
  split at h
  · rename_i hm; cases h; exact .inl ⟨hm, rfl⟩
  · rename_i hm; cases h; exact .inr (.inl ⟨hm, rfl⟩)
  · rename_i r hm
    split at h
    · rename_i hi; cases h; exact .inr (.inr (.inl ⟨r, hm, hi, rfl⟩))
    · rename_i hi
      split at h
      · cases h
      · rename_i b hb
        cases h
        unfold resolveIri at hb
        split at hb
        · rename_i b' hb'
          cases hb
          exact .inr (.inr (.inr ⟨r, b', hm, by simpa using hi, hb', rfl⟩))
        · rw [if_neg hi] at hb; cases hb

private theorem stepVocab_sets {E : ProcEnv} {m : Merged} {o : Opts} {c c' : ACtx}
    (h : stepVocab E m o c = .ok c') : SetsVocab E c o.vocab m.vocab c'.vocab := by
  unfold stepVocab at h
  unfold SetsVocab
  split at h
  · rename_i hm; cases h; exact .inl ⟨hm, rfl⟩
  · rename_i hm; cases h; exact .inr (.inl ⟨hm, rfl⟩)
  · rename_i v hm
    split at h
    · cases h
    · rename_i i hi
      cases h
      exact .inr (.inr ⟨v, i, hm, C33_sound _ _ _ _ _ _ hi, rfl⟩)
    · cases h

private theorem stepLang_sets {m : Merged} {o : Opts} {c c' : ACtx}
    (h : stepDefaultDirection m o (stepDefaultLanguage m c) = .ok c') :
    c'.language = m.language.getD c.language ∧ c'.direction = m.direction.getD c.direction := by
  unfold stepDefaultDirection at h
  have h1 : (stepDefaultLanguage m c).language = m.language.getD c.language ∧
      (stepDefaultLanguage m c).direction = c.direction := by
    unfold stepDefaultLanguage
    split
    · rename_i hm; simp [hm]
    · rename_i hm; simp [hm]
  split at h
  · rename_i hm; cases h; simpa [hm] using h1
  · rename_i d hm
    split at h
    · cases h
    · cases h; simpa [hm] using h1.1

private theorem expandStr_previous (env : IriEnv) (c : ACtx) (b : Option Str) (p : Option ACtx) (s : Str)
    (docRel : Bool) (voc : Option Action) :
    expandStr env { c with base := b, previous := p } s docRel voc =
      expandStr env { c with base := b } s docRel voc := by
  rfl

/-- C48: a context definition without `@import` sets the base IRI, the vocabulary mapping, the default
language and the default direction as its entries say, whatever its terms, and nothing else of the
context outside of its terms and `@type`. -/
theorem C48_settings (E : ProcEnv) (c c' : ACtx) (d : SDef) (base : Option Str) (o : Opts)
    (hi : d.import_ = none) (h : Processed E c (.one (.defn d)) base o (.ok c')) :
    SetsBase E c.base d.base c'.base ∧
    SetsVocab E { c with base := c'.base } o.vocab d.vocab c'.vocab ∧
    c'.language = d.language.getD c.language ∧ c'.direction = d.direction.getD c.direction ∧
    c'.originalBase = c.originalBase ∧
    ∀ k, (∀ b ∈ d.bindings, b.1 ≠ k) → lookupKey k c'.defs = lookupKey k c.defs := by
  obtain ⟨_, n, h⟩ := h
  cases n with
  | zero => cases h
  | succ n =>
    obtain ⟨o', h1, h2⟩ := processBody_ok h
    obtain ⟨_, _, hv, _⟩ := stepPropagation_ok h1
    simp only [SCtx.entries, processEntries, bindOk] at h2
    obtain ⟨r, h3, h4⟩ := h2
    cases h4
    generalize hr : r.1 = c' at h3
    have h5 := processEntry_ok h3
    rw [hr] at h5
    generalize r.2 = rc1 at h5
    cases h5 with
    | defn _ _ h6 =>
      obtain ⟨i, c1, c2, c3, s1, s2, h7, h8, h9, h10, h11, h12, rfl⟩ := processDef_ok h6
      have : i = none := by
        rcases importOf_ok h7 with ⟨rfl, _⟩ | ⟨r, u, i', rfl, h12, _⟩
        · rfl
        · rw [hi] at h12; cases h12
      subst this
      have hf (s s' t prot) (h : (recN E n).define s ⟨d, none⟩ t [] base prot o' = .ok s') :=
        define_framed E n s s' _ t _ base prot o' h
      have h13 := (framed_rel ⟨d, none⟩).trans _ _ _
        (defineTypeEntry_rel (framed_rel ⟨d, none⟩) hf h11)
        (defineAll_rel (framed_rel ⟨d, none⟩) (fun s s' t h => hf s s' t _ h) _ _ _ h12)
      have a1 := stepBase_sets h8
      have a2 := stepVocab_sets h9
      have a3 := stepLang_sets h10
      obtain ⟨b, rfl⟩ := stepBase_defs h8
      obtain ⟨v, rfl⟩ := stepVocab_defs h9
      obtain ⟨l, dir, rfl⟩ := stepLang_defs h10
      generalize s2.ctx = c' at h13 h3 ⊢
      rw [hv] at a2
      have hp : ∃ p, startContext c o' = { c with previous := p } := by
        unfold startContext
        split
        · exact ⟨_, rfl⟩
        · exact ⟨c.previous, by cases c; rfl⟩
      obtain ⟨p, hp⟩ := hp
      rw [hp] at a1 a2 a3 h13
      rw [show Merged.baseValue ⟨d, none⟩ = d.base by simp [Merged.baseValue]] at a1
      refine ⟨by rw [h13.base]; exact a1, ?_, by rw [h13.language]; simpa [Merged.language] using a3.1,
        by rw [h13.direction]; simpa [Merged.direction] using a3.2, h13.originalBase, fun k hk => ?_⟩
      · rw [h13.vocab, h13.base]
        rcases a2 with ⟨e1, e2⟩ | ⟨e1, e2⟩ | ⟨w, j, e1, e2, e3⟩
        · exact .inl ⟨by simpa [Merged.vocab] using e1, e2⟩
        · exact .inr (.inl ⟨by simpa [Merged.vocab] using e1, e2⟩)
        · exact .inr (.inr ⟨w, j, by simpa [Merged.vocab] using e1,
            (C33_exact ..).1 (((C33_exact ..).2 e2).symm.trans (expandStr_previous ..)).symm, e3⟩)
      · refine h13.defs k ?_
        simp only [Merged.binding, Option.bind_none, Option.or_none]
        cases hl : lookupKey k d.bindings with
        | none => rfl
        | some b => exact absurd rfl (hk _ (lookupKey_mem hl))

/-- C31: an inline `@base` sets the base IRI, relative to the one before. -/
theorem C31_inline (E : ProcEnv) (c c' : ACtx) (d : SDef) (base : Option Str) (o : Opts)
    (hi : d.import_ = none) (h : Processed E c (.one (.defn d)) base o (.ok c')) :
    SetsBase E c.base d.base c'.base :=
  (C48_settings E c c' d base o hi h).1

/-- Settings and a term. -/
def exSettings : SDef :=
  { SDef.empty with
    base := some (some "x".toList), vocab := some (some "http:v".toList),
    language := some (some "en".toList), direction := some (some .rtl),
    bindings := [("t".toList, some (.simple "u".toList))] }

example : ∃ c', Processed exProcEnv { base := some "http:b".toList } (.one (.defn exSettings)) none {}
      (.ok c') ∧ (c'.base, c'.vocab) = (some "http:bx".toList, some (.id (.iri "http:v".toList))) ∧
      (c'.language, c'.direction) = (some "en".toList, some .rtl) ∧
      (lookupKey "t".toList c'.defs).bind (·.value) = some (.id (.iri "http:vu".toList)) := by
  refine ⟨_, ⟨nofun, 9, rfl⟩, ?_⟩
  decide +kernel

end JsonLd.Props
