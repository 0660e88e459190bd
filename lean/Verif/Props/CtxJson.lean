import Verif.Proofs.CtxJsonRead
/-!
# C41 and C43: contexts written as JSON, contexts extracted from documents
-/

namespace JsonLd.Props

open Spec

variable {isRef : Str → Bool}

/-- C41: writing a context as JSON and reading it back gives the same context. The hypothesis says that
the texts in the context are what their place requires (see `CtxOk`); the reader only produces such
contexts (`C41_read`). -/
theorem C41_roundtrip (c : SCtx) (h : CtxOk isRef c) : readCtx isRef c.toJson = .ok c :=
  readCtx_toJson c h

/-- C41: whatever the reader returns meets the hypothesis of `C41_roundtrip`. -/
theorem C41_read {j : Json} {c : SCtx} (h : readCtx isRef j = .ok c) : CtxOk isRef c :=
  readCtx_ok j c h

/-- C41: a context that was read can be written and read again, any number of times. -/
theorem C41_reread {j : Json} {c : SCtx} (h : readCtx isRef j = .ok c) :
    readCtx isRef c.toJson = .ok c :=
  readCtx_toJson c (readCtx_ok j c h)

/-- C41: different contexts are written differently. -/
theorem C41_injective {c c' : SCtx} (h : CtxOk isRef c) (h' : CtxOk isRef c')
    (e : c.toJson = c'.toJson) : c = c' := by
  have h1 := readCtx_toJson c h
  rw [e, readCtx_toJson c' h'] at h1
  injection h1 with h1
  exact h1.symm

theorem readDef_keys (m : List (Str × Json)) : ∀ d d' : SDef, readDef isRef d m = .ok d' →
    d'.bindings.map Prod.fst =
      d.bindings.map Prod.fst ++ (m.map Prod.fst).filter (fun k => decide (k ∉ contextKeys)) := by
  induction m with
  | nil => intro d d' h; simp only [readDef] at h; cases h; simp
  | cons e m ih =>
    obtain ⟨k, v⟩ := e
    intro d d' h
    rw [readDef] at h
    split at h
    · rename_i r hr
      obtain ⟨x, hx, h⟩ := exBind_ok h
      subst hx
      rw [ih x d' h]
      cases hk : Keyword.tryFrom k with
      | none => rw [hk] at hr; cases hr
      | some w =>
        rw [hk] at hr
        have hs := kw_of_tryFrom hk
        subst hs
        have hb : x.bindings = d.bindings := by
          simp only [Option.bind_some] at hr
          unfold readDefKey at hr
          split at hr
          all_goals first
            | cases hr
            | (obtain ⟨y, -, e⟩ := exMap_ok (Option.some.inj hr); subst e; rfl)
        have hm : w.intoStr ∈ contextKeys := by
          simp only [Option.bind_some] at hr
          cases w <;> first | (simp only [readDefKey] at hr; cases hr) | decide
        rw [hb]
        simp [hm]
    · rename_i hr
      obtain ⟨t, ht, h⟩ := exBind_ok h
      split at h
      · cases h
      · rw [ih _ d' h]
        simp [not_contextKey hr]

/-- C41: a definition that was read has the terms of the object, in their order, once each. -/
theorem C41_terms {m : List (Str × Json)} {c : SCtx} (h : readCtx isRef (.obj m) = .ok c) :
    ∃ d, c = .one (.defn d) ∧
      d.bindings.map Prod.fst = (m.map Prod.fst).filter (fun k => decide (k ∉ contextKeys)) ∧
      (d.bindings.map Prod.fst).Nodup := by
  have hok := readCtx_ok _ _ h
  simp only [readCtx] at h
  obtain ⟨d, hd, rfl⟩ := exMap_ok h
  refine ⟨d, rfl, by simpa [SDef.empty] using readDef_keys m .empty d hd, ?_⟩
  obtain ⟨b, i, l, dr, pg, pt, t, ve, vo, bs⟩ := d
  simp only [CtxOk, EntryOk, DefOk] at hok
  exact hok.2.2.1

/-- C43: a document yields a context exactly if it is an object with one `@context` entry and that
entry is a context; the context is that of the entry. -/
theorem C43_extract (j : Json) (c : SCtx) : extractContext isRef j = .ok c ↔
    ∃ m v, j = .obj m ∧ valuesOf "@context".toList m = [v] ∧ readCtx isRef v = .ok c := by
  constructor
  · intro h
    cases j with
    | obj m =>
      refine ⟨m, ?_⟩
      simp only [extractContext] at h
      rcases removeUnique_values "@context".toList m with ⟨hv, r, hr⟩ | ⟨v, hv, r, hr⟩ | ⟨hv, hr⟩
      · rw [hr] at h; cases h
      · rw [hr] at h
        refine ⟨v, rfl, hv, ?_⟩
        revert h
        dsimp only
        cases readCtx isRef v with
        | ok x => intro h; cases h; rfl
        | error e => intro h; cases h
      · rw [hr] at h; cases h
    | _ => simp only [extractContext] at h; cases h
  · rintro ⟨m, v, rfl, hv, hc⟩
    simp only [extractContext]
    rcases removeUnique_values "@context".toList m with ⟨hv', r, hr⟩ | ⟨w, hv', r, hr⟩ | ⟨hv', hr⟩
    · rw [hv] at hv'; cases hv'
    · rw [hv] at hv'
      cases hv'
      rw [hr]
      dsimp only
      rw [hc]
    · rw [hv] at hv'; simp at hv'

/-- C43: every other document is rejected, and the error tells why. -/
theorem C43_errors (j : Json) :
    (extractContext isRef j = .error .unexpected ↔ ∀ m, j ≠ .obj m) ∧
    (extractContext isRef j = .error .noContext ↔
      ∃ m, j = .obj m ∧ valuesOf "@context".toList m = []) ∧
    (extractContext isRef j = .error .duplicateContext ↔
      ∃ m, j = .obj m ∧ 2 ≤ (valuesOf "@context".toList m).length) ∧
    (∀ e, extractContext isRef j = .error (.syntax e) ↔
      ∃ m v, j = .obj m ∧ valuesOf "@context".toList m = [v] ∧ readCtx isRef v = .error e) := by
  cases j with
  | obj m =>
    simp only [extractContext]
    generalize "@context".toList = K
    rcases removeUnique_values K m with ⟨hv, r, hr⟩ | ⟨v, hv, r, hr⟩ | ⟨hv, hr⟩
    · rw [hr]
      simp [hv]
    · rw [hr]
      dsimp only
      cases hc : readCtx isRef v with
      | ok x => simp [hv, hc]
      | error e => simp [hv, hc]
    · rw [hr]
      have h0 : valuesOf K m ≠ [] := by intro e; rw [e] at hv; simp at hv
      have h1 : ∀ v, valuesOf K m ≠ [v] := by intro v e; rw [e] at hv; simp at hv
      simp [h0, h1, hv]
  | _ => simp [extractContext]

/-! ## Cases -/

/-- A context with settings, a scoped context and all kinds of term definitions. -/
def sampleCtx : SCtx :=
  .many [.null, .ref "http://a/b".toList,
    .defn { SDef.empty with
      base := some none
      language := some (some "en".toList)
      version := true
      type := some (some true)
      bindings := [("x".toList, none), ("y".toList, some (.simple "z".toList)),
        ("t".toList, some (.expanded { SExp.empty with
          id := some (some (.keyword .type))
          type := some (some (.term "@list".toList))
          container := some (some (.many [.graph, .set]))
          nest := some (.term "n".toList)
          context := some (.one (.defn { SDef.empty with
            vocab := some (some "v".toList)
            bindings := [("x".toList, some (.simple "w".toList))] })) }))] }]

example : CtxOk (fun _ => true) sampleCtx ∧
    readCtx (fun _ => true) sampleCtx.toJson = .ok sampleCtx := by
  have h : CtxOk (fun _ => true) sampleCtx := by
    simp [sampleCtx, CtxOk, EntriesOk, EntryOk, SDef.empty, SExp.empty, DefOk, BindingsOk, TermOk, ExpOk,
      ScopedOk, IdText, TypeText, NestText]
    decide
  exact ⟨h, C41_roundtrip _ h⟩

example : ∃ c, extractContext (fun _ => true) (.obj [("a".toList, .null), ("@context".toList, .null)]) =
    .ok c := ⟨_, (C43_extract _ _).2 ⟨_, _, rfl, rfl, rfl⟩⟩

example : extractContext (fun _ => true)
    (.obj [("@context".toList, .null), ("@context".toList, .null)]) = .error .duplicateContext :=
  (C43_errors _).2.2.1.2 ⟨_, rfl, by decide⟩

end JsonLd.Props
