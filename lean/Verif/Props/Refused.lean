import Verif.Proofs.Refused
import Verif.Props.Faults
/-!
# C78: invalid documents are refused
-/

namespace JsonLd.Props
open JsonLd.Spec Relation

/-- C78: if something is wrong at a place of the document that is visited, expansion fails. -/
theorem C78_refused (E : XEnv) (c : ACtx) (j : Json) (h : Invalid E c j) : ∃ e, expandDoc E c j = .error e := by
  obtain ⟨pl, hr, hw⟩ := h
  cases hx : expandDoc E c j with
  | error e => exact ⟨e, rfl⟩
  | ok d =>
    obtain ⟨x, hx', _⟩ := exMap_ok hx
    have hd : Done E pl := by
      clear hw
      induction hr with
      | refl => exact ⟨x, hx'⟩
      | tail _ hv ih => exact visits_done hv ih
    exact (wrong_done hd hw).elim

/-- C78: in a document that was expanded, nothing is wrong at any place that is visited. -/
theorem C78_checked (E : XEnv) (c : ACtx) (j : Json) (d : Doc) (h : expandDoc E c j = .ok d) : ¬ Invalid E c j := by
  intro hi
  obtain ⟨e, he⟩ := C78_refused E c j hi
  rw [h] at he
  cases he

/-- C78: expansion fails because of a fault (C76), and what is wrong is a fault: an invalid document is faulty. -/
theorem C78_faulty (E : XEnv) (c : ACtx) (j : Json) (h : Invalid E c j) : ∃ e, Faulty E c j e := by
  obtain ⟨e, he⟩ := C78_refused E c j h
  exact ⟨e, C76_cause E c j e he⟩

/-! ## An invalid document -/

theorem bare_starts {E : XEnv} {c : ACtx} (h : Bare c) (p : Option Str) (m : List (Str × Json)) (fm : Bool)
    (hm : ∀ v, ("@context".toList, v) ∉ m) : BeforeTypes E c p m fm c := by
  refine ⟨c, c, .stay (.inl h.previous), .plain fun t ht => ?_, .plain hm⟩
  cases p with
  | none => cases ht
  | some k => rw [Option.bind_some, bare_get h] at ht; cases ht

theorem single_not_twice {E : XEnv} {c : ACtx} {e : Str × Json} {kw : Keyword} : ¬ Twice E c [e] kw := by
  rintro ⟨a, b, l, hp, _⟩
  have := hp.length_eq
  rw [List.length_cons, List.length_cons, List.length_cons, List.length_nil] at this
  omega

/-- An object with a single entry, for something else than a type or a context. -/
theorem single_visited {E : XEnv} {c : ACtx} (h : Bare c) (p : Option Str) (k : Str) (v : Json) (fm : Bool) {t : CTerm}
    (hk : KeyMeans E c k t) (ht : t ≠ .keyword .type) (hc : k ≠ "@context".toList) :
    Visits E (.value c p (.obj [(k, v)]) fm) (.object c c p [(k, v)] false) where
  under := .object (ts := []) (bare_starts h p _ fm fun v hv => hc (congrArg Prod.fst (List.mem_singleton.1 hv)).symm)
    (fun _ h => by cases h) (.nil _)
  types := by
    intro _ _ _ _ _ _ h1 h2
    cases h1
    cases h2
    refine ⟨[], ⟨[], [(k, v)], [], .refl _, (fun _ h => by cases h), (fun e he => ?_), .nil, .nil, rfl⟩, .nil _⟩
    rw [List.mem_singleton.1 he]
    exact fun hx => ht (keyMeans_unique hk hx)
  single := nofun

theorem property_visited {E : XEnv} {c : ACtx} (h : Bare c) (p : Option Str) (k : Str) (v : Json) {q : Id}
    (hk : KeyMeans E c k (.id q)) (hu : IsUsed E q) :
    Visits E (.object c c p [(k, v)] false) (.value c (some k) v false) where
  under := .property (List.mem_singleton.2 rfl) hk hu
    (fun ⟨d, hd, _⟩ => by rw [bare_get h] at hd; cases hd) fun _ _ => ⟨bare_map h, bare_container h⟩
  types := by
    intro _ _ _ _ _ _ h1
    cases h1
  single := by
    intro _ _ _ _ h1
    cases h1
    exact ⟨single_not_twice, single_not_twice⟩

/-- `{"http:p": {"@id": 1}}` is invalid. -/
theorem exBadId_invalid : Invalid exXEnv {} (.obj [("http:p".toList, .obj [("@id".toList, .num "1".toList)])]) := by
  have hb : Bare {} := ⟨rfl, rfl, rfl, rfl⟩
  have hp : KeyMeans exXEnv {} "http:p".toList (.id (.iri "http:p".toList)) := by with_unfolding_all rfl
  have hi : KeyMeans exXEnv {} "@id".toList (.keyword .id) := by with_unfolding_all rfl
  refine ⟨.object {} {} (some "http:p".toList) [("@id".toList, .num "1".toList)] false,
    .tail (.tail (.tail .refl (single_visited hb none _ _ false hp nofun (by decide)))
      (property_visited hb none _ _ hp ⟨by decide, nofun⟩))
      (single_visited hb _ _ _ false hi nofun (by decide)), ?_⟩
  exact .id (List.mem_singleton.2 rfl) hi nofun

/-- It is refused. -/
example : ∃ e, expandDoc exXEnv {} (.obj [("http:p".toList, .obj [("@id".toList, .num "1".toList)])]) = .error e :=
  C78_refused _ _ _ exBadId_invalid

/-- The scoped contexts of types are applied in the order of the names: with `b` protecting `x`, and `a`
defining it otherwise, the types `["b", "a"]` are fine, whereas with the names exchanged they are refused. -/
example :
    let ctx := fun a b : Str => [(a, Json.obj [("@id".toList, .str "http:a".toList), ("@context".toList,
        .obj [("x".toList, .str "http:x1".toList)])]),
      (b, .obj [("@id".toList, .str "http:b".toList), ("@context".toList,
        .obj [("@protected".toList, .bool true), ("x".toList, .str "http:x2".toList)])])]
    (expandDoc exXEnv {} (exCtxDoc (ctx "a".toList "b".toList)
      [("@type".toList, .arr [.str "b".toList, .str "a".toList])])).toOption.isSome = true ∧
    (expandDoc exXEnv {} (exCtxDoc (ctx "b".toList "a".toList)
      [("@type".toList, .arr [.str "b".toList, .str "a".toList])])).toOption.isSome = false := by
  decide +kernel

end JsonLd.Props
