import Verif.Proofs.Compare
/-!
# C04: structural JSON comparison ignores order
-/

namespace JsonLd.Props
open Spec

/-- C04: on JSON without duplicate keys the comparison never panics. -/
theorem C04_no_panic (a b : Json) (ha : NoDupKeys a) (hb : NoDupKeys b) :
    (Json.compare a b).isSome := by
  obtain ⟨r, hr, _⟩ := compare_spec a b ha hb
  simp [hr]

/-- C04: on JSON without duplicate keys the comparison decides equality up to the order of members
and items, at every depth. -/
theorem C04_iff (a b : Json) (ha : NoDupKeys a) (hb : NoDupKeys b) :
    Json.compare a b = some true ↔ JsonEquiv a b := by
  obtain ⟨r, hr, h⟩ := compare_spec a b ha hb
  simp [hr, h]

/-- C04: reflexivity, symmetry and transitivity. -/
theorem C04_equivalence (a b c : Json) (ha : NoDupKeys a) (hb : NoDupKeys b) (hc : NoDupKeys c) :
    Json.compare a a = some true ∧ Json.compare a b = Json.compare b a ∧
    (Json.compare a b = some true → Json.compare b c = some true →
      Json.compare a c = some true) := by
  refine ⟨(C04_iff a a ha ha).2 (jsonEquiv_refl a), ?_, ?_⟩
  · obtain ⟨r, hr, h⟩ := compare_spec a b ha hb
    obtain ⟨s, hs, h'⟩ := compare_spec b a hb ha
    rw [hr, hs]
    have : r = true ↔ s = true := by
      rw [h, h']; exact ⟨jsonEquiv_symm, jsonEquiv_symm⟩
    cases r <;> cases s <;> simp_all
  · rw [C04_iff a b ha hb, C04_iff b c hb hc, C04_iff a c ha hc]
    exact jsonEquiv_trans

/-- C04: with duplicate keys the comparison can panic, even of a document with itself, and is not
symmetric: the hypotheses above are needed. -/
theorem C04_duplicate_keys :
    let dup : Json := .obj [("a".toList, .null), ("a".toList, .null)]
    let ok : Json := .obj [("a".toList, .null), ("b".toList, .null)]
    Json.compare dup dup = none ∧ Json.compare ok dup = none ∧
    Json.compare dup ok = some true := by
  decide

/-- A pair differing in order at two depths. -/
example : Json.compare
    (.obj [("a".toList, .arr [.num "1".toList, .obj [("x".toList, .null), ("y".toList, .null)]]),
           ("b".toList, .bool true)])
    (.obj [("b".toList, .bool true),
           ("a".toList, .arr [.obj [("y".toList, .null), ("x".toList, .null)], .num "1".toList])])
    = some true := by decide

/-- The hypothesis of the theorems is met by a nested document. -/
example : NoDupKeys (.obj [("a".toList, .arr [.obj [("x".toList, .null)]]), ("b".toList, .null)]) :=
  .obj (by decide) (by
    intro e he
    simp only [List.mem_cons, List.not_mem_nil, or_false] at he
    rcases he with rfl | rfl
    · refine .arr fun x hx => ?_
      simp only [List.mem_cons, List.not_mem_nil, or_false] at hx
      subst hx
      exact .obj (by decide) (by simp; exact .null)
    · exact .null)

end JsonLd.Props
