/-!
# Strings

The model represents a Rust `str`/`String` by the list of its characters.
The byte encoding is not modelled; the code only ever cuts strings at ASCII delimiters.
-/

namespace JsonLd

/-- A string, as the list of its Unicode scalar values. -/
abbrev Str := List Char

/-- `str::split_once(c)`: the part before and the part after the first `c`. -/
def splitOnce (c : Char) : Str → Option (Str × Str)
  | [] => none
  | x :: xs =>
    if x = c then some ([], xs)
    else match splitOnce c xs with
      | none => none
      | some (a, b) => some (x :: a, b)

theorem splitOnce_eq_some {c : Char} {s a b : Str} :
    splitOnce c s = some (a, b) ↔ s = a ++ c :: b ∧ c ∉ a := by
  induction s generalizing a b with
  | nil => simp [splitOnce]
  | cons x xs ih =>
    unfold splitOnce
    by_cases h : x = c
    · subst h
      simp only [if_true]
      constructor
      · rintro h
        cases h
        simp
      · rintro ⟨h1, h2⟩
        cases a with
        | nil => simp at h1; simp [h1]
        | cons y ys => simp at h1 h2; simp [h1.1] at h2
    · simp only [h, if_false]
      cases h' : splitOnce c xs with
      | none =>
        simp only [reduceCtorEq, false_iff, not_and, Classical.not_not]
        intro h1
        cases a with
        | nil => simp at h1; exact absurd h1.1 h
        | cons y ys =>
          simp at h1
          refine List.mem_cons_of_mem _ (Classical.byContradiction fun hc => ?_)
          have := (ih (a := ys) (b := b)).2 ⟨h1.2, hc⟩
          rw [h'] at this
          cases this
      | some p =>
        obtain ⟨p1, p2⟩ := p
        have := (ih (a := p1) (b := p2)).1 h'
        constructor
        · intro e
          cases e
          refine ⟨by simp [this.1], ?_⟩
          simp only [List.mem_cons, not_or]
          exact ⟨fun e => h e.symm, this.2⟩
        · rintro ⟨h1, h2⟩
          cases a with
          | nil => simp at h1; exact absurd h1.1 h
          | cons y ys =>
            simp at h1 h2
            have h3 := (ih (a := ys) (b := b)).2 ⟨h1.2, h2.2⟩
            rw [h'] at h3
            cases h3
            simp [h1.1]

theorem splitOnce_eq_none {c : Char} {s : Str} : splitOnce c s = none ↔ c ∉ s := by
  induction s with
  | nil => simp [splitOnce]
  | cons x xs ih =>
    unfold splitOnce
    by_cases h : x = c
    · simp [h]
    · simp only [h, if_false, List.mem_cons, not_or]
      cases h' : splitOnce c xs with
      | none => simp only [true_iff]; exact ⟨fun e => h e.symm, ih.1 h'⟩
      | some p =>
        obtain ⟨p1, p2⟩ := p
        simp only [reduceCtorEq, false_iff, not_and, Classical.not_not]
        intro _
        have := (splitOnce_eq_some.1 h').1
        simp [this]

end JsonLd
