/-!
# Iterators

The meaning of Rust iterators written as a `loop` or `while let` over a state: `Next` is one call of
`next()`, `Collects` the sequence of the items returned until the first `None`.
-/

namespace JsonLd

/-- How one turn of the loop ends. -/
inductive Outcome (σ α : Type) where
  /-- `break None` -/
  | stop (s : σ)
  /-- `return Some(a)` -/
  | emit (a : α) (s : σ)
  /-- the loop goes on -/
  | again (s : σ)

/-- One call of `next()`: what it returns and the state it leaves. `step` is one turn of its loop. -/
inductive Next {σ α : Type} (step : σ → Outcome σ α → Prop) : σ → Option α → σ → Prop where
  | stop {s s' : σ} : step s (.stop s') → Next step s none s'
  | emit {s s' : σ} {a : α} : step s (.emit a s') → Next step s (some a) s'
  | again {s s' s'' : σ} {r : Option α} : step s (.again s') → Next step s' r s'' → Next step s r s''

/-- All calls of `next()` until it returns `None`: the items and the state left. That such a sequence
exists means that every call returns and that there are finitely many items. -/
inductive Collects {σ α : Type} (step : σ → Outcome σ α → Prop) : σ → List α → σ → Prop where
  | nil {s s' : σ} : Next step s none s' → Collects step s [] s'
  | cons {s s' s'' : σ} {a : α} {l : List α} :
      Next step s (some a) s' → Collects step s' l s'' → Collects step s (a :: l) s''

/-- The loop is a function of the state. -/
def Det {σ α : Type} (step : σ → Outcome σ α → Prop) : Prop := ∀ s o o', step s o → step s o' → o = o'

section
variable {σ α : Type} {step : σ → Outcome σ α → Prop}

theorem Next.det (hd : Det step) {s s1 s2 : σ} {r1 r2 : Option α} (h1 : Next step s r1 s1)
    (h2 : Next step s r2 s2) : r1 = r2 ∧ s1 = s2 := by
  induction h1 with
  | stop h =>
    cases h2 with
    | stop h' => cases hd _ _ _ h h'; exact ⟨rfl, rfl⟩
    | emit h' => cases hd _ _ _ h h'
    | again h' _ => cases hd _ _ _ h h'
  | emit h =>
    cases h2 with
    | stop h' => cases hd _ _ _ h h'
    | emit h' => cases hd _ _ _ h h'; exact ⟨rfl, rfl⟩
    | again h' _ => cases hd _ _ _ h h'
  | again h _ ih =>
    cases h2 with
    | stop h' => cases hd _ _ _ h h'
    | emit h' => cases hd _ _ _ h h'
    | again h' hn => cases hd _ _ _ h h'; exact ih hn

/-- The items are determined by the state. -/
theorem Collects.det (hd : Det step) {s s1 s2 : σ} {l1 l2 : List α} (h1 : Collects step s l1 s1)
    (h2 : Collects step s l2 s2) : l1 = l2 ∧ s1 = s2 := by
  induction h1 generalizing l2 s2 with
  | nil h =>
    cases h2 with
    | nil h' => exact ⟨rfl, (Next.det hd h h').2⟩
    | cons h' _ => exact absurd (Next.det hd h h').1 (by simp)
  | cons h _ ih =>
    cases h2 with
    | nil h' => exact absurd (Next.det hd h h').1 (by simp)
    | cons h' hc =>
      obtain ⟨e, rfl⟩ := Next.det hd h h'
      cases e
      obtain ⟨rfl, rfl⟩ := ih hc
      exact ⟨rfl, rfl⟩

/-- Some turns of the loop, over any number of calls. -/
inductive Steps (step : σ → Outcome σ α → Prop) : σ → List α → σ → Prop where
  | refl {s : σ} : Steps step s [] s
  | emit {s s' s'' : σ} {a : α} {l : List α} :
      step s (.emit a s') → Steps step s' l s'' → Steps step s (a :: l) s''
  | again {s s' s'' : σ} {l : List α} :
      step s (.again s') → Steps step s' l s'' → Steps step s l s''

theorem Steps.trans {s s' s'' : σ} {l l' : List α} (h : Steps step s l s') (h' : Steps step s' l' s'') :
    Steps step s (l ++ l') s'' := by
  induction h with
  | refl => exact h'
  | emit h _ ih => exact .emit h (ih h')
  | again h _ ih => exact .again h (ih h')

theorem Collects.again {s s' s'' : σ} {l : List α} (h : step s (.again s'))
    (h' : Collects step s' l s'') : Collects step s l s'' := by
  cases h' with
  | nil hn => exact .nil (.again h hn)
  | cons hn hc => exact .cons (.again h hn) hc

theorem Collects.of_steps {s s' s'' : σ} {l l' : List α} (h : Steps step s l s')
    (h' : Collects step s' l' s'') : Collects step s (l ++ l') s'' := by
  induction h with
  | refl => exact h'
  | emit h _ ih => exact .cons (.emit h) (ih h')
  | again h _ ih => exact (ih h').again h

end
end JsonLd
