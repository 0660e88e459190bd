import Verif.Proofs.Inverse
/-!
# C34: the inverse context
-/

namespace JsonLd.Props
open JsonLd.Spec

/-- C34: the selected term is the first candidate (shortest, then lexicographically least) for the
first wish (container and type, language or direction) that has candidates. -/
theorem C34_selected (c : ACtx) (h : (c.defs.map Prod.fst).Nodup) (var : CTerm)
    (containers : List Container) (s : Selection) (k : Str) :
    c.inverse.select var containers s = some k ↔ Selected c var (wishes c containers s) k := by
  have h1 := selected_of_results _ _ (wishResults_ok h var containers s)
  rw [select_eq]
  constructor
  · exact h1.1 k
  · rintro ⟨pre, w, post, h2, h3, h4, h5⟩
    cases hr : (wishResults c var containers s).findSome? id with
    | none => exact absurd h4 (h1.2 hr w (by rw [h2]; simp) k)
    | some k' =>
      obtain ⟨pre', w', post', h2', h3', h4', h5'⟩ := h1.1 k' hr
      have hw : w = w' := by
        rw [h2] at h2'
        rcases List.append_eq_append_iff.1 h2' with ⟨l, h6, h7⟩ | ⟨l, h6, h7⟩
        · cases l with
          | nil => simp at h7; exact h7.1
          | cons v l =>
            simp only [List.cons_append, List.cons.injEq] at h7
            exact absurd h4 (h3' w (by rw [h6, h7.1]; simp) k)
        · cases l with
          | nil => simp at h7; exact h7.1.symm
          | cons v l =>
            simp only [List.cons_append, List.cons.injEq] at h7
            exact absurd h4' (h3 w' (by rw [h6, h7.1]; simp) k')
      subst hw
      rcases h5 k' h4' with h6 | h6
      · rw [h6]
      · rcases h5' k h4 with h7 | h7
        · rw [h7]
        · exact absurd (before_trans h6 h7) (before_irrefl k)

/-- C34: no term is selected only if no wish has candidates. -/
theorem C34_none (c : ACtx) (h : (c.defs.map Prod.fst).Nodup) (var : CTerm)
    (containers : List Container) (s : Selection) :
    c.inverse.select var containers s = none ↔
      ∀ w ∈ wishes c containers s, ∀ k, ¬ Candidate c var w k := by
  have h1 := selected_of_results _ _ (wishResults_ok h var containers s)
  constructor
  · intro h2
    rw [select_eq] at h2
    exact h1.2 h2
  · intro h2
    cases hr : c.inverse.select var containers s with
    | none => rfl
    | some k =>
      obtain ⟨pre, w, post, h3, _, h4, _⟩ := (C34_selected c h var containers s k).1 hr
      exact absurd h4 (h2 w (by rw [h3]; simp) k)

/-- C34: the result does not depend on the order in which definitions are stored. -/
theorem C34_order (c : ACtx) (h : (c.defs.map Prod.fst).Nodup) (defs : List (Str × TermDef))
    (hp : defs.Perm c.defs) (var : CTerm) (containers : List Container) (s : Selection) :
    ({ c with defs := defs } : ACtx).inverse.select var containers s =
      c.inverse.select var containers s := by
  have h' : (defs.map Prod.fst).Nodup := (hp.map Prod.fst).nodup_iff.2 h
  have hl : ∀ k, lookupKey k defs = lookupKey k c.defs := by
    intro k
    apply Option.ext
    intro d
    rw [lookupKey_iff_mem h', lookupKey_iff_mem h, hp.mem_iff]
  have hw : wishes { c with defs := defs } containers s = wishes c containers s := by
    unfold wishes
    cases s <;> rfl
  apply Option.ext
  intro k
  rw [C34_selected _ h', C34_selected _ h, hw]
  simp only [Selected, Candidate, hl]

/-- A context with two terms for `http:x` of the same length, one for an index map and one for German
strings. -/
def exInverse : ACtx :=
  { defs := [
    ("tb".toList, { value := some (.id (.iri "http:x".toList)) }),
    ("ta".toList, { value := some (.id (.iri "http:x".toList)) }),
    ("i".toList, { value := some (.id (.iri "http:x".toList)), container := .index }),
    ("de".toList, { value := some (.id (.iri "http:x".toList)), language := some (some "de".toList) })] }

example : exInverse.inverse.select (.id (.iri "http:x".toList)) [.none]
      (.lang [.lang (some (none, none))]) = some "ta".toList ∧
    exInverse.inverse.select (.id (.iri "http:x".toList)) [.index, .none] .any = some "i".toList ∧
    exInverse.inverse.select (.id (.iri "http:x".toList)) [.set, .none]
      (.lang [.lang (some (some "DE".toList, none)), .any]) = some "de".toList ∧
    exInverse.inverse.select (.id (.iri "http:x".toList)) [.none] (.type [.reverse, .type .id]) = none := by
  decide +kernel

end JsonLd.Props
