import Verif.Proofs.SaysReach
import Verif.Props.Cyclic
/-!
# C88: a term definition says what was written
-/

namespace JsonLd.Props

open Spec Say

theorem startContext_normal (c : ACtx) (o : Opts) (k : Str) : (startContext c o).getNormal k = c.getNormal k := by
  unfold startContext
  split <;> rfl

/-- Every term of a context definition or its import becomes what its binding says in the resulting context. The base
URL for its scoped context and the `@protected` of the whole definition may not have reached it. -/
theorem C88_says_partial (E : ProcEnv) (c : ACtx) (d : SDef) (base : Option Str) (o : Opts) (c' : ACtx)
    (h : Processed E c (.one (.defn d)) base o (.ok c')) : ∃ i, ImportOf E base d i ∧ ∀ k b, BoundIn d i k b →
      Outcome E.toIriEnv o.vocab base (ProtectedBy d i) (!o.override && keepOf c k) k b c' ∨
      Outcome E.toIriEnv o.vocab none false (keepOf c k) k b c' := by
  obtain ⟨_, n, h⟩ := h
  cases n with
  | zero => cases h
  | succ n =>
    obtain ⟨o', ho, h2⟩ := processBody_ok h
    obtain ⟨_, hov, hvo, _⟩ := stepPropagation_ok ho
    unfold SCtx.entries processEntries at h2
    rw [bindOk] at h2
    obtain ⟨⟨r1, r2⟩, h3, h4⟩ := h2
    cases h4
    cases processEntry_ok h3 with
    | defn _ c'' h5 =>
      obtain ⟨i, hi, hs, _⟩ := processDef_says h5
      rw [hov, hvo] at hs
      have hp : (Merged.protected_ ⟨d, i⟩).getD false = ProtectedBy d i := by
        unfold Merged.protected_ ProtectedBy
        cases d.protected_ <;> cases i <;> rfl
      refine ⟨i, ?_, fun k b hb => ?_⟩
      · rcases importOf_ok hi with ⟨rfl, h⟩ | ⟨r, u, i', rfl, h1, h2, h3, _⟩
        · exact .nothing h
        · exact .context r u i' h1 h2 h3
      · have hb' : Merged.binding ⟨d, i⟩ k = some b := by
          unfold Merged.binding
          cases hb with
          | here h => simp only [h]; rfl
          | imported i' hi' h1 h2 => subst hi'; simp only [h1, Option.bind_some, h2]; rfl
        have := hs k b hb'
        rw [hp] at this
        have hk : keepOf (startContext c o') k = keepOf c k := by unfold keepOf; rw [startContext_normal]
        rw [hk] at this
        exact this

/-- They do, if none of the terms before refers to it. -/
theorem C88_exact (E : ProcEnv) (c : ACtx) (d : SDef) (base : Option Str) (o : Opts) (c' : ACtx)
    (h : Processed E c (.one (.defn d)) base o (.ok c')) (hi : d.import_ = none) (before : List (Str × Option STerm))
    (k : Str) (b : Option STerm) (after : List (Str × Option STerm)) (hd : d.bindings = before ++ (k, b) :: after)
    (hb : ∀ q ∈ before, q.1 ≠ k ∧ ¬ Chain (RefersTo E d) q.1 k) :
    Outcome E.toIriEnv o.vocab base (d.protected_.getD false) (!o.override && keepOf c k) k b c' := by
  obtain ⟨_, n, h⟩ := h
  cases n with
  | zero => cases h
  | succ n =>
    obtain ⟨o', ho, h2⟩ := processBody_ok h
    obtain ⟨_, hov, hvo, _⟩ := stepPropagation_ok ho
    unfold SCtx.entries processEntries at h2
    rw [bindOk] at h2
    obtain ⟨⟨r1, r2⟩, h3, h4⟩ := h2
    cases h4
    cases processEntry_ok h3 with
    | defn _ c'' h5 =>
      obtain ⟨i, hi', _, hs⟩ := processDef_says h5
      rw [hov, hvo] at hs
      have hin : i = none := by
        rcases importOf_ok hi' with ⟨rfl, _⟩ | ⟨r, u, i', _, h1, _⟩
        · rfl
        · rw [hi] at h1; cases h1
      have := hs hin before k b after hd hb
      have hk : keepOf (startContext c o') k = keepOf c k := by unfold keepOf; rw [startContext_normal]
      rw [hk] at this
      exact this

/-- The first term of a definition is met first. -/
theorem C88_first (E : ProcEnv) (c : ACtx) (d : SDef) (base : Option Str) (o : Opts) (c' : ACtx)
    (h : Processed E c (.one (.defn d)) base o (.ok c')) (hi : d.import_ = none) (k : Str) (b : Option STerm)
    (after : List (Str × Option STerm)) (hd : d.bindings = (k, b) :: after) :
    Outcome E.toIriEnv o.vocab base (d.protected_.getD false) (!o.override && keepOf c k) k b c' :=
  C88_exact E c d base o c' h hi [] k b after hd nofun

/-! ## Examples -/

/-- What is observable of the terms here: whether there is a base URL, and protection. -/
def exSaysRun (d : SDef) : Except CtxErr (List (Str × Bool × Bool)) :=
  ((recN exProcEnv 9).process {} (.one (.defn d)) [] (some "http:base".toList) {}).map fun c =>
    c.defs.map fun b => (b.1, b.2.baseUrl.isSome, b.2.protected_)

/-- `{"@id": "http:b/", "@context": {}}` -/
def exSaysScoped : STerm :=
  .expanded { SExp.empty with id := some (some (.term "http:b/".toList)), context := some (.one (.defn SDef.empty)),
                              prefix_ := some true }

/-- `{"@protected": true, "b": {"@id": "http:b/", "@context": {}}, "a": "b:x"}` -/
def exSays : SDef :=
  { SDef.empty with
    protected_ := some true
    bindings := [("b".toList, some exSaysScoped), ("a".toList, some (.simple "b:x".toList))] }

/-- The same, the other way round. -/
def exSays' : SDef :=
  { SDef.empty with
    protected_ := some true
    bindings := [("a".toList, some (.simple "b:x".toList)), ("b".toList, some exSaysScoped)] }

/-- In the first context all terms are protected and `b` has the base URL for its context. In the second one `b` is
neither protected, nor does it have the base URL: `b` is defined while `a` is, and algorithm/iri.rs:59-74 and 112-127
pass neither on. -/
theorem C88_order :
    exSaysRun exSays = .ok [("a".toList, false, true), ("b".toList, true, true)] ∧
    exSaysRun exSays' = .ok [("a".toList, false, true), ("b".toList, false, false)] := by
  decide +kernel

/-- The hypotheses of C88 are met: `a` refers to `b`, and `b` to nothing. -/
example : (∃ c', Processed exProcEnv {} (.one (.defn exSays)) (some "http:base".toList) {} (.ok c')) ∧
    BoundIn exSays none "a".toList (some (.simple "b:x".toList)) ∧
    exSays.bindings = [("b".toList, some exSaysScoped)] ++ [("a".toList, some (.simple "b:x".toList))] ∧
    Chain (RefersTo exProcEnv exSays) "a".toList "b".toList ∧ ¬ Chain (RefersTo exProcEnv exSays) "b".toList "a".toList := by
  have h : ((recN exProcEnv 9).process {} (.one (.defn exSays)) [] (some "http:base".toList) {}).isOk = true := by
    decide +kernel
  refine ⟨?_, .here rfl, rfl, .one (.pre _ "b:x".toList rfl ⟨not_keywordForm.1 (by decide), .inl ⟨rfl, by decide⟩⟩
    ⟨"x".toList, by decide, by decide, by decide, by decide, rfl⟩), fun hc => ?_⟩
  · cases hr : (recN exProcEnv 9).process {} (.one (.defn exSays)) [] (some "http:base".toList) {} with
    | error e => rw [hr] at h; cases h
    | ok c' => exact ⟨c', nofun, 9, hr⟩
  · -- `b` refers to `http:b/` and `http` only
    have hb : ∀ y, RefersTo exProcEnv exSays "b".toList y → y = "http:b/".toList ∨ y = "http".toList := by
      have only : ∀ b s, lookupKey "b".toList exSays.bindings = some b → Mentions "b".toList b s → s = "http:b/".toList := by
        rintro b s hb ⟨_, ⟨h, _⟩ | ⟨x, h, h' | h' | ⟨h', _⟩⟩⟩
        · cases hb; cases h
        · cases hb; cases h; cases h'
        · cases hb; cases h; cases h'
        · cases hb; cases h; cases h'; rfl
      intro y hy
      cases hy with
      | term b hb hm => exact .inl (only b y hb hm)
      | pre b s hb hm hp =>
        have := only b s hb hm
        subst this
        exact .inr (hasPrefix_unique hp ⟨"b/".toList, by decide, by decide, by decide, by decide, rfl⟩)
      | name b _ hp =>
        obtain ⟨y', h1, _⟩ := hp
        have : ':' ∈ "b".toList := by rw [h1]; simp
        exact absurd this (by decide)
    have stop : ∀ x y, (x = "http:b/".toList ∨ x = "http".toList) → ¬ RefersTo exProcEnv exSays x y := by
      intro x y hx hr
      have : lookupKey x exSays.bindings = none := by rcases hx with rfl | rfl <;> rfl
      cases hr with
      | term b hb => rw [this] at hb; cases hb
      | pre b s hb => rw [this] at hb; cases hb
      | name b hb => rw [this] at hb; cases hb
    cases hc with
    | one h => rcases hb _ h with h | h <;> exact absurd h (by decide)
    | step h h' =>
      cases h' with
      | one h' => exact stop _ _ (hb _ h) h'
      | step h' _ => exact stop _ _ (hb _ h) h'

end JsonLd.Props
