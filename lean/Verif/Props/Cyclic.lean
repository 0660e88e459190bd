import Verif.Proofs.CyclicError
import Verif.Props.ProcessBase
/-!
# C27: cyclic term definitions
-/

namespace JsonLd.Props
open JsonLd.Spec

private theorem start_defs (c : ACtx) (o : Opts) : (startContext c o).defs = c.defs := by
  unfold startContext
  split <;> rfl

/-- C27: in an accepted context definition no term depends on itself, neither directly nor by way of others. -/
theorem C27_acyclic (E : ProcEnv) (c r : ACtx) (d : SDef) (base : Option Str) (o : Opts) (hd : d.import_ = none)
    (h : Processed E c (.one (.defn d)) base o (.ok r)) (k : Str) : ¬ Chain (DependsOn E c d) k k := by
  obtain ⟨_, n, h⟩ := h
  cases n with
  | zero => cases h
  | succ n =>
    obtain ⟨o', _, h2⟩ := processBody_ok h
    unfold SCtx.entries processEntries at h2
    rw [bindOk] at h2
    obtain ⟨q, h3, _⟩ := h2
    have h4 := processEntry_ok h3
    generalize q.1 = c1 at h4
    generalize q.2 = rc1 at h4
    cases h4 with
    | defn d c' h4 =>
      rw [← dependsOn_defs (start_defs c o')]
      exact acc_no_chain (processDef_ground hd h4 k)

/-- C27: the same for a definition with an import. -/
theorem C27_acyclic_import (E : ProcEnv) (c r : ACtx) (d i : SDef) (base : Option Str) (o : Opts)
    (ho : o.mode = .v11) (hd : Imports E base d i) (hi : i.import_ = none)
    (h : Processed E c (.one (.defn d)) base o (.ok r)) (k : Str) :
    ¬ Chain (DependsOn E c (mergeDefs d i)) k k :=
  C27_acyclic E c r (mergeDefs d i) base o rfl ((C42_merge_one E c d i base o ho hd hi _).1 h) k

/-- C27: a context definition in which a term depends on itself is rejected. -/
theorem C27_rejected (E : ProcEnv) (c : ACtx) (d : SDef) (base : Option Str) (o : Opts) (hd : d.import_ = none)
    (k : Str) (hk : Chain (DependsOn E c d) k k) (r : Except CtxErr ACtx)
    (h : Processed E c (.one (.defn d)) base o r) : ∃ e, r = .error e := by
  cases r with
  | error e => exact ⟨e, rfl⟩
  | ok r => exact absurd hk (C27_acyclic E c r d base o hd h k)

private theorem entries_ground {E : ProcEnv} {n : Nat} {ob base : Option Str} {o : Opts} {d : SDef}
    (hd : d.import_ = none) : ∀ (es : List SEntry) (c c' : ACtx) (rc : List Str), .defn d ∈ es →
      processEntries (recN E n) E ob base o es c rc = .ok c' → ∃ c0, ∀ k, Grounded E c0 d k := by
  intro es
  induction es with
  | nil => intro c c' rc hm _; cases hm
  | cons e es ih =>
    intro c c' rc hm h
    unfold processEntries at h
    rw [bindOk] at h
    obtain ⟨q, h1, h2⟩ := h
    rcases List.mem_cons.1 hm with he | hm
    · subst he
      cases processEntry_ok h1 with
      | defn d c' h4 => exact ⟨c, processDef_ground hd h4⟩
    · exact ih _ _ _ hm h2

/-- C27: wherever the definition occurs in an accepted local context, its terms do not mention each other, nor are
they prefixes of each other, in a cycle. -/
theorem C27_acyclic_list (E : ProcEnv) (c r : ACtx) (l : SCtx) (d : SDef) (base : Option Str) (o : Opts)
    (hd : d.import_ = none) (hl : .defn d ∈ l.entries) (h : Processed E c l base o (.ok r)) (k : Str) :
    ¬ Chain (fun k u => ∃ b, lookupKey k d.bindings = some b ∧
      (Mentions k b u ∨ (ByName k b ∧ HasPrefix E k u))) k k := by
  obtain ⟨_, n, h⟩ := h
  cases n with
  | zero => cases h
  | succ n =>
    obtain ⟨o', _, h2⟩ := processBody_ok h
    obtain ⟨c0, h3⟩ := entries_ground hd _ _ _ _ hl h2
    have mono : ∀ {a b}, Chain (fun k u => ∃ b, lookupKey k d.bindings = some b ∧
        (Mentions k b u ∨ (ByName k b ∧ HasPrefix E k u))) a b → Chain (DependsOn E c0 d) a b := by
      have one : ∀ {a b}, (∃ x, lookupKey a d.bindings = some x ∧
          (Mentions a x b ∨ (ByName a x ∧ HasPrefix E a b))) → DependsOn E c0 d a b := by
        rintro a b ⟨x, h1, h2 | ⟨h2, h3⟩⟩
        · exact .term x h1 h2
        · exact .name x h1 h2 h3
      intro a b hab
      induction hab with
      | one h => exact .one (one h)
      | step h _ ih => exact .step (one h) ih
    exact fun hc => acc_no_chain (h3 k) (mono hc)

/-- C27: a cyclic IRI mapping is reported only if some terms refer to each other in a cycle, provided that no
definition is ignored. Without the latter it is false: `C27_ignored`. -/
theorem C27_reported (E : ProcEnv) (c : ACtx) (d : SDef) (base : Option Str) (o : Opts) (hd : d.import_ = none)
    (hb : ∀ b ∈ d.bindings, ¬ Ignored b.2)
    (h : Processed E c (.one (.defn d)) base o (.error .cyclicIriMapping)) :
    ∃ k, Chain (RefersTo E d) k k := by
  obtain ⟨_, n, h⟩ := h
  cases n with
  | zero => cases h
  | succ n =>
    change processBody _ _ _ _ _ _ _ = _ at h
    unfold processBody at h
    rcases bindErr.1 h with h | ⟨o', _, h⟩
    · exact (stepPropagation_nocycle ..).absurd h
    · unfold SCtx.entries processEntries at h
      rcases bindErr.1 h with h | ⟨_, _, h⟩
      · unfold processEntry at h
        rcases bindErr.1 h with h | ⟨_, _, h⟩
        · exact processDef_error hd hb h
        · cases h
      · cases h

/-! ## Examples -/

/-- `{"a": x, "b": y}` -/
def exTwo (x y : STerm) : SDef := { SDef.empty with bindings := [("a".toList, some x), ("b".toList, some y)] }

/-- The outcome with the initial context. -/
def exTwoRun (x y : STerm) : Except CtxErr (List (Str × Option CTerm)) :=
  ((recN exProcEnv 9).process {} (.one (.defn (exTwo x y))) [] none {}).map fun c =>
    c.defs.map fun b => (b.1, b.2.value)

/-- `{"a": "b:x", "b": "http:b"}` is accepted, whichever comes first. -/
example : exTwoRun (.simple "b:x".toList) (.simple "http:b/".toList) =
    .ok [("a".toList, some (.id (.iri "http:b/x".toList))), ("b".toList, some (.id (.iri "http:b/".toList)))] := by
  decide +kernel

/-- `{"a": "b:x", "b": "a:y"}`: each term is the prefix of the other one. -/
theorem C27_cycle : exTwoRun (.simple "b:x".toList) (.simple "a:y".toList) = .error .cyclicIriMapping := by
  decide +kernel

/-- `{"a": {"@id": "http:a", "@type": "b"}, "b": {"@id": "http:b", "@type": "a"}}`: the types count. -/
theorem C27_cycle_type : exTwoRun
    (.expanded { SExp.empty with id := some (some (.term "http:a".toList)), type := some (some (.term "b".toList)) })
    (.expanded { SExp.empty with id := some (some (.term "http:b".toList)), type := some (some (.term "a".toList)) }) =
      .error .cyclicIriMapping := by
  decide +kernel

/-- The first example meets the hypothesis of `C27_rejected`. -/
example : Chain (DependsOn exProcEnv {} (exTwo (.simple "b:x".toList) (.simple "a:y".toList))) "a".toList "a".toList := by
  refine .step (b := "b".toList) (.pre _ "b:x".toList rfl ?_ rfl rfl rfl ?_ (by decide))
    (.one (.pre _ "a:y".toList rfl ?_ rfl rfl rfl ?_ (by decide)))
  · exact ⟨not_keywordForm.1 (by decide), .inl ⟨rfl, by decide⟩⟩
  · exact ⟨"x".toList, by decide, by decide, by decide, by decide, rfl⟩
  · exact ⟨not_keywordForm.1 (by decide), .inl ⟨rfl, by decide⟩⟩
  · exact ⟨"y".toList, by decide, by decide, by decide, by decide, rfl⟩

/-- A cyclic IRI mapping may be reported although there is no cycle: in `{"a": "@foo", "b": "a"}` the definition of
`a` is ignored because of its form, and the term stays marked as in progress (define.rs:329-339 returns before
`DefinedTerms::end`). -/
theorem C27_ignored : exTwoRun (.simple "@foo".toList) (.simple "a".toList) = .error .cyclicIriMapping := by
  decide +kernel

/-- In this example there is no cycle. -/
theorem C27_ignored_acyclic (k : Str) :
    ¬ Chain (RefersTo exProcEnv (exTwo (.simple "@foo".toList) (.simple "a".toList))) k k := by
  have key : ∀ {x y}, RefersTo exProcEnv (exTwo (.simple "@foo".toList) (.simple "a".toList)) x y →
      x = "b".toList ∧ y = "a".toList := by
    have names : ∀ {x b}, lookupKey x (exTwo (.simple "@foo".toList) (.simple "a".toList)).bindings = some b →
        (x = "a".toList ∧ b = some (.simple "@foo".toList)) ∨ (x = "b".toList ∧ b = some (.simple "a".toList)) := by
      intro x b h
      rcases List.mem_cons.1 (lookupKey_mem h) with h | h
      · cases h
        exact .inl ⟨rfl, rfl⟩
      · cases List.mem_singleton.1 h
        exact .inr ⟨rfl, rfl⟩
    have told : ∀ {x b z}, lookupKey x (exTwo (.simple "@foo".toList) (.simple "a".toList)).bindings = some b →
        Mentions x b z → x = "b".toList ∧ z = "a".toList := by
      intro x b z hb hm
      obtain ⟨hk, ⟨rfl, _⟩ | ⟨w, rfl, _⟩⟩ := hm
      · rcases names hb with ⟨_, h⟩ | ⟨h1, h⟩
        · cases h
          exact absurd ((C01_form _).1 (by decide)) hk
        · cases h
          exact ⟨h1, rfl⟩
      · rcases names hb with ⟨_, h⟩ | ⟨_, h⟩ <;> cases h
    have colon : ∀ {x p}, HasPrefix exProcEnv x p → ':' ∈ x := by
      rintro x p ⟨y, rfl, _⟩
      simp
    intro x y h
    cases h with
    | term b hb hm => exact told hb hm
    | pre b z hb hm hp =>
      obtain ⟨_, rfl⟩ := told hb hm
      exact absurd (colon hp) (by decide)
    | name b hb hp =>
      rcases names hb with ⟨rfl, _⟩ | ⟨rfl, _⟩ <;> exact absurd (colon hp) (by decide)
  have : ∀ {x y}, Chain (RefersTo exProcEnv (exTwo (.simple "@foo".toList) (.simple "a".toList))) x y →
      x = "b".toList ∧ y = "a".toList := by
    intro x y h
    induction h with
    | one h => exact key h
    | step h _ ih => exact ⟨(key h).1, ih.2⟩
  intro h
  have h1 := this h
  rw [h1.1] at h1
  exact absurd h1.2 (by decide)

end JsonLd.Props
