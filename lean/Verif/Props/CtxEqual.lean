import Verif.Model.IntoSyntax
import Verif.Props.Protected
/-!
# C62: equality of active contexts
-/

namespace JsonLd.Spec

/-- Two contexts with the same settings: base IRIs, vocabulary mapping, default language (however it is
capitalised), default direction, and the same for the previous contexts. Nothing is said about terms. -/
inductive SameSettings : ACtx → ACtx → Prop
  | last (c c' : ACtx) : c.originalBase = c'.originalBase → c.base = c'.base → c.vocab = c'.vocab →
      c.language.map (·.map lowerChar) = c'.language.map (·.map lowerChar) → c.direction = c'.direction →
      c.previous = none → c'.previous = none → SameSettings c c'
  | more (c c' p p' : ACtx) : c.originalBase = c'.originalBase → c.base = c'.base → c.vocab = c'.vocab →
      c.language.map (·.map lowerChar) = c'.language.map (·.map lowerChar) → c.direction = c'.direction →
      c.previous = some p → c'.previous = some p' → SameSettings p p' → SameSettings c c'

end JsonLd.Spec

namespace JsonLd.Props
open JsonLd.Spec

private theorem langOptEq_iff {a b : Option Str} :
    langOptEq a b = true ↔ a.map (·.map lowerChar) = b.map (·.map lowerChar) := by
  cases a <;> cases b <;> simp [langOptEq, langEq]

/-- C62: two active contexts are equal exactly if they have the same settings: whatever their terms are. -/
theorem C62_settings_partial : ∀ (c c' : ACtx), c.eqv c' = true ↔ SameSettings c c'
  | ⟨ob, b, v, l, d, none, ds, t⟩, ⟨ob', b', v', l', d', none, ds', t'⟩ => by
    unfold ACtx.eqv
    simp only [Bool.and_eq_true, decide_eq_true_eq, langOptEq_iff, and_true]
    constructor
    · rintro ⟨⟨⟨⟨h1, h2⟩, h3⟩, h4⟩, h5⟩
      exact .last _ _ h1 h2 h3 h4 h5 rfl rfl
    · intro h
      cases h with
      | last _ _ h1 h2 h3 h4 h5 => exact ⟨⟨⟨⟨h1, h2⟩, h3⟩, h4⟩, h5⟩
      | more _ _ p p' _ _ _ _ _ h _ _ => cases h
  | ⟨ob, b, v, l, d, some p, ds, t⟩, ⟨ob', b', v', l', d', some p', ds', t'⟩ => by
    have ih := C62_settings_partial p p'
    unfold ACtx.eqv
    simp only [Bool.and_eq_true, decide_eq_true_eq, langOptEq_iff, ih]
    constructor
    · rintro ⟨⟨⟨⟨⟨h1, h2⟩, h3⟩, h4⟩, h5⟩, h6⟩
      exact .more _ _ _ _ h1 h2 h3 h4 h5 rfl rfl h6
    · intro h
      cases h with
      | last _ _ h1 h2 h3 h4 h5 h _ => cases h
      | more _ _ p p' h1 h2 h3 h4 h5 e e' h => cases e; cases e'; exact ⟨⟨⟨⟨⟨h1, h2⟩, h3⟩, h4⟩, h5⟩, h⟩
  | ⟨ob, b, v, l, d, some p, ds, t⟩, ⟨ob', b', v', l', d', none, ds', t'⟩ => by
    unfold ACtx.eqv
    simp only [Bool.and_false, Bool.false_eq_true, false_iff]
    intro h
    cases h with
    | last _ _ h1 h2 h3 h4 h5 h _ => cases h
    | more _ _ p p' _ _ _ _ _ _ h _ => cases h
  | ⟨ob, b, v, l, d, none, ds, t⟩, ⟨ob', b', v', l', d', some p', ds', t'⟩ => by
    unfold ACtx.eqv
    simp only [Bool.and_false, Bool.false_eq_true, false_iff]
    intro h
    cases h with
    | last _ _ h1 h2 h3 h4 h5 h h' => cases h'
    | more _ _ p p' _ _ _ _ _ h _ _ => cases h

/-- C62 is false: the initial context and the one with `{"t": "http:a"}` are equal, but expand `t` differently. -/
theorem C62_terms : ∃ c, Processed exProcEnv (ACtx.new none) (.one (.defn { SDef.empty with bindings :=
      [("t".toList, some (.simple "http:a".toList))] })) none {} (.ok c) ∧
    (ACtx.new none).eqv c = true ∧
    expandIri exProcEnv.toIriEnv (ACtx.new none) (some (Expandable.ofStr "t".toList)) false (some .keep) =
      .ok (some (.id (.invalid "t".toList))) ∧
    expandIri exProcEnv.toIriEnv c (some (Expandable.ofStr "t".toList)) false (some .keep) =
      .ok (some (.id (.iri "http:a".toList))) := by
  exact ⟨_, ⟨nofun, 9, rfl⟩, rfl, rfl, rfl⟩

/-- C62: for contexts that are equal and have the same terms, IRIs are the same. -/
theorem C62_iris_partial (E : IriEnv) (c c' : ACtx) (h : c.eqv c' = true)
    (hd : ∀ k, lookupKey k c.defs = lookupKey k c'.defs) (ht : c.typeDef = c'.typeDef) (v : Option Expandable)
    (docRel : Bool) (a : Option Action) : expandIri E c v docRel a = expandIri E c' v docRel a := by
  rw [C62_settings_partial] at h
  obtain ⟨hb, hv⟩ : c.base = c'.base ∧ c.vocab = c'.vocab := by cases h <;> exact ⟨by assumption, by assumption⟩
  have h1 : ∀ s, c.getValue s = c'.getValue s := by
    intro s
    unfold ACtx.getValue ACtx.getNormal
    rw [hd, ht]
  have h2 : ∀ p x, expandPrefix E c p x = expandPrefix E c' p x := by
    intro p x
    unfold expandPrefix ACtx.getNormal
    rw [hd]
  unfold expandIri expandStr expandTerm expandTail
  simp only [h1, h2, hb, hv]

/-- Equal contexts of which one has another spelling of the language. -/
example : ∃ c c' : ACtx, c.eqv c' = true ∧ c.language ≠ c'.language :=
  ⟨{ language := some "en".toList }, { language := some "EN".toList }, rfl, by decide⟩

end JsonLd.Props
