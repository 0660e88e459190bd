import Verif.Proofs.SimpleEq
/-!
# C91: comparison of JSON-LD documents
-/

namespace JsonLd.Props
open JsonLd Spec Simple

/-- C91. On documents without duplicate keys the comparison decides equality up to the order of entries and items, the
items of `@list` excepted. -/
theorem C91_iff (a b : Json) (ha : NoDupKeys a) (hb : NoDupKeys b) : simpleEq a b = true ↔ LdEquiv false a b := by
  have := valueEq_iff a b false ha hb
  simpa [valueEq] using this

/-- C91. It is reflexive, symmetric and transitive. -/
theorem C91_equivalence (a b c : Json) (ha : NoDupKeys a) (hb : NoDupKeys b) (hc : NoDupKeys c) :
    simpleEq a a = true ∧ simpleEq a b = simpleEq b a ∧
    (simpleEq a b = true → simpleEq b c = true → simpleEq a c = true) := by
  refine ⟨(C91_iff a a ha ha).2 (ldEquiv_refl a false), ?_, ?_⟩
  · rw [Bool.eq_iff_iff, C91_iff a b ha hb, C91_iff b a hb ha]
    exact ⟨ldEquiv_symm, ldEquiv_symm⟩
  · rw [C91_iff a b ha hb, C91_iff b c hb hc, C91_iff a c ha hc]
    exact ldEquiv_trans

/-- C91. It is stricter than the comparison of JSON (C04). -/
theorem C91_stricter (a b : Json) (ha : NoDupKeys a) (hb : NoDupKeys b) (h : simpleEq a b = true) :
    Json.compare a b = some true := by
  obtain ⟨r, hr, hrb⟩ := compare_spec a b ha hb
  rw [hr, hrb.2 (ldEquiv_jsonEquiv ((C91_iff a b ha hb).1 h))]

/-- C91. Objects with a list are equal only if the lists have equal items in the same order. -/
theorem C91_lists (l l' : List Json) (ha : ∀ x ∈ l, NoDupKeys x) (hb : ∀ x ∈ l', NoDupKeys x) :
    simpleEq (.obj [("@list".toList, .arr l)]) (.obj [("@list".toList, .arr l')]) = true ↔
      List.Forall₂ (fun x y => simpleEq x y = true) l l' := by
  have nd : ∀ l : List Json, (∀ x ∈ l, NoDupKeys x) → NoDupKeys (.obj [("@list".toList, .arr l)]) := by
    intro l h
    refine .obj (by simp) fun e he => ?_
    rw [List.mem_singleton.1 he]
    exact .arr h
  rw [C91_iff _ _ (nd l ha) (nd l' hb), obj_iff]
  have key : LdEquiv true (.arr l) (.arr l') ↔ List.Forall₂ (fun x y => simpleEq x y = true) l l' := by
    rw [list_iff, List.forall₂_iff_get, List.forall₂_iff_get]
    constructor
    · rintro ⟨h0, h⟩
      exact ⟨h0, fun i h1 h2 =>
        (C91_iff _ _ (ha _ (List.getElem_mem h1)) (hb _ (List.getElem_mem h2))).2 (h i h1 h2)⟩
    · rintro ⟨h0, h⟩
      exact ⟨h0, fun i h1 h2 =>
        (C91_iff _ _ (ha _ (List.getElem_mem h1)) (hb _ (List.getElem_mem h2))).1 (h i h1 h2)⟩
  rw [← key]
  constructor
  · rintro ⟨b', hp, hf⟩
    rw [List.perm_singleton.1 hp] at hf
    have := (List.forall₂_cons.1 hf).1.2
    simpa using this
  · intro h
    refine ⟨_, List.Perm.refl _, .cons ⟨rfl, ?_⟩ .nil⟩
    simpa using h

/-- C91: a list of lists written with nested arrays is compared without regard to the order of the inner ones. -/
theorem C91_nested_arrays :
    simpleEq (.obj [("@list".toList, .arr [.arr [.bool true, .null]])])
      (.obj [("@list".toList, .arr [.arr [.null, .bool true]])]) = true := by
  decide

/-- C91: with duplicate keys the comparison is not symmetric, and not reflexive. -/
theorem C91_duplicate_keys :
    let dup : Json := .obj [("a".toList, .null), ("a".toList, .null)]
    let ok : Json := .obj [("a".toList, .null), ("b".toList, .null)]
    let dup' : Json := .obj [("a".toList, .null), ("a".toList, .bool true)]
    simpleEq dup ok = true ∧ simpleEq ok dup = false ∧ simpleEq dup' dup' = false := by
  decide

/-- The order of a set does not matter, that of a list does. -/
example : simpleEq (.obj [("@set".toList, .arr [.null, .bool true]), ("@id".toList, .null)])
      (.obj [("@id".toList, .null), ("@set".toList, .arr [.bool true, .null])]) = true ∧
    simpleEq (.obj [("@list".toList, .arr [.null, .bool true])])
      (.obj [("@list".toList, .arr [.bool true, .null])]) = false := by decide

end JsonLd.Props
