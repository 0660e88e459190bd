import Verif.Proofs.AddValue
/-!
# C38, C39: objects and arrays built by compaction
-/

namespace JsonLd.Props
open JsonLd.Spec

/-- C38. After any sequence of additions to an object with distinct keys (for example an empty one),
under every key there are the values that were there, followed by the values in the additions to that
key, in order. The keys are still distinct, and the entries whose key was not added to are the same, in
the same order. There is no panic. -/
theorem C38_values (m : List (Str × Json)) (hm : (m.map Prod.fst).Nodup) (as : List Addition) :
    ∃ m', addSeq m as = .ok m' ∧ (m'.map Prod.fst).Nodup ∧
      (∀ k, held (lookupKey k m') = held (lookupKey k m) ++ added (additionsTo k as)) ∧
      m'.filter (fun e => as.all fun a => decide (a.key ≠ e.1)) =
        m.filter (fun e => as.all fun a => decide (a.key ≠ e.1)) := by
  obtain ⟨m', h1, h2, h3, h4⟩ := addSeq_entries as m hm
  exact ⟨m', h1, h2, fun k => by rw [h3, held_seqOn], h4⟩

/-- C38. The form of the value of a key that was not in the object before: there is none if there is
none in the additions and no array was requested. If it is no array, it is the only value in the
additions, and no array was requested. -/
theorem C38_form (m : List (Str × Json)) (hm : (m.map Prod.fst).Nodup) (as : List Addition)
    (m' : List (Str × Json)) (h : addSeq m as = .ok m') (k : Str) (hk : lookupKey k m = none) :
    (lookupKey k m' = none ↔ (∀ a ∈ additionsTo k as, a.asArray = false) ∧ added (additionsTo k as) = []) ∧
    (∀ w, lookupKey k m' = some w → NotArray w →
      (∀ a ∈ additionsTo k as, a.asArray = false) ∧ added (additionsTo k as) = [w]) := by
  obtain ⟨m2, h1, _, h3, _⟩ := addSeq_entries as m hm
  rw [h] at h1
  cases h1
  rw [h3 k, hk]
  exact ⟨by rw [seqOn_none]; simp, fun w hw hn => seqOn_single hw hn⟩

/-- C38. A single addition of a value that is no array, without requesting an array, stores the value
itself if the key is new. -/
theorem C38_single (m : List (Str × Json)) (hm : (m.map Prod.fst).Nodup) (k : Str) (v : Json)
    (hv : NotArray v) (hk : lookupKey k m = none) :
    ∃ m', addValue m k v false = .ok m' ∧ lookupKey k m' = some v := by
  obtain ⟨m', h1, h2⟩ := addValue_entry k v m false hm
  refine ⟨m', h1, ?_⟩
  rw [h2.value, hk]
  cases v with
  | arr l => exact absurd rfl (hv l)
  | _ => simp [addOn, startOn, leafOn]

/-- A sequence of additions: the entry `a` becomes an array and moves to the end, nested arrays are
flattened, `b` is not touched. -/
example : addSeq [("a".toList, .num "1".toList), ("b".toList, .null)]
    [⟨"a".toList, .arr [.arr [.num "2".toList], .null], false⟩, ⟨"c".toList, .str "x".toList, false⟩,
     ⟨"d".toList, .arr [], true⟩, ⟨"d".toList, .bool true, false⟩] =
    .ok [("b".toList, .null), ("a".toList, .arr [.num "1".toList, .num "2".toList, .null]),
      ("c".toList, .str "x".toList), ("d".toList, .arr [.bool true])] := by decide +kernel

/-- The structure of JSON literals that are arrays is lost when they are added: `[x]` and `x` leave the
same object. -/
theorem C38_json_array (m : List (Str × Json)) (hm : (m.map Prod.fst).Nodup) (k : Str)
    (hk : lookupKey k m = none) (x : Json) :
    addValue m k (.arr [x]) false = addValue m k x false := by
  have hs : addStart m k false = .ok m := by
    simp [addStart, jGet_eq hm, hk, bind, Except.bind]
  have : ∀ a, addValues a k [x] = addValue a k x false := by
    intro a
    rw [addValues]
    cases addValue a k x false with
    | error e => rfl
    | ok b => simp only [Except.bind]; rw [addValues]
  rw [addValue, hs]
  exact this m

/-- C39. Compacting a collection compacts every item once and in order and leaves out those that become
null. The result is the array of the others, unless there is exactly one and arrays are not kept: then it
is that one. -/
theorem C39_collection {α : Type} (f : α → Except CompErr Json) (c : ACtx) (prop : Option Str)
    (o : CompOpts) (items : List α) (r : Json) (h : compactCollection f c prop o items = .ok r) :
    ∃ vs : List Json, items.map f = vs.map .ok ∧
      ((r = .arr (vs.filter fun v => decide (v ≠ .null)) ∧
          (KeepsArrays c prop o.compactArrays ∨ (vs.filter fun v => decide (v ≠ .null)).length ≠ 1)) ∨
       (vs.filter (fun v => decide (v ≠ .null)) = [r] ∧ ¬ KeepsArrays c prop o.compactArrays)) := by
  simp only [compactCollection, bind, Except.bind] at h
  cases hi : compactItems f items with
  | error e => rw [hi] at h; cases h
  | ok l =>
    rw [hi] at h
    injection h with h
    obtain ⟨vs, h1, h2⟩ := compactItems_ok hi
    refine ⟨vs, h1, ?_⟩
    have hn : (vs.filter fun v => decide (v ≠ .null)) = l := by
      rw [h2]
      congr 1
      funext v
      cases v <;> rfl
    rw [hn]
    clear hn h2 h1 hi vs
    have hk : (!o.compactArrays || prop == some "@graph".toList || prop == some "@set".toList ||
        listOrSet c prop) = true ↔ KeepsArrays c prop o.compactArrays := by
      simp only [Bool.or_eq_true, Bool.not_eq_true', beq_iff_eq, KeepsArrays, or_assoc]
      refine or_congr Iff.rfl (or_congr Iff.rfl (or_congr Iff.rfl ?_))
      unfold listOrSet
      cases prop with
      | none => simp
      | some p =>
        simp only [Option.bind_some, ACtx.get, ACtx.getNormal, Option.some.injEq]
        by_cases hp : p = "@type".toList
        · subst hp
          cases c.typeDef with
          | none => simp
          | some b => simp [Container.contains, Container.asSlice]
        · simp only [hp, if_false, false_and, false_or]
          cases hl : lookupKey p c.defs with
          | none => simp [hl]
          | some d =>
            simp [Container.contains, hl]
            exact fun _ => hp
    unfold collect at h
    split at h
    · rename_i v
      split at h
      · exact .inl ⟨h.symm, .inl (hk.1 (by assumption))⟩
      · rw [h]
        exact .inr ⟨rfl, fun hc => absurd (hk.2 hc) (by assumption)⟩
    · rename_i hne
      refine .inl ⟨h.symm, .inr fun hl => ?_⟩
      obtain ⟨v, rfl⟩ := List.length_eq_one_iff.1 hl
      exact hne v rfl

/-- C39. If compacting a collection fails, then with the error of the first item that cannot be
compacted. -/
theorem C39_error {α : Type} (f : α → Except CompErr Json) (c : ACtx) (prop : Option Str)
    (o : CompOpts) (items : List α) (e : CompErr) (h : compactCollection f c prop o items = .error e) :
    ∃ pre x post, ∃ vs : List Json, items = pre ++ x :: post ∧ pre.map f = vs.map .ok ∧ f x = .error e := by
  simp only [compactCollection, bind, Except.bind] at h
  cases hi : compactItems f items with
  | ok l => rw [hi] at h; cases h
  | error e' =>
    rw [hi] at h
    injection h with h
    exact compactItems_error (by rw [hi, h])

example : compactCollection (fun v => .ok v) {} (some "p".toList) {} [Json.null, .num "1".toList] =
    .ok (.num "1".toList) := by decide +kernel
example : compactCollection (fun v => .ok v) { defs := [("p".toList, { container := .set })] }
    (some "p".toList) {} [Json.null, .num "1".toList] = .ok (.arr [.num "1".toList]) := by decide +kernel

end JsonLd.Props
