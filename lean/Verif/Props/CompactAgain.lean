import Verif.Props.Processor
import Verif.Props.RoundTrip
import Verif.Props.ScopedDoc
/-!
# C110: Compacting again changes nothing
-/

namespace JsonLd.Props
open JsonLd.Spec

/-- What a compaction by the processor is made of. -/
private theorem compacted_parts {E : PEnv} {r : Remote} {x : ContextRef} {o : POpts} {d : Doc}
    (hd : expandFull E r o.unordered = .ok d) {l : SCtx} (hx : E.loadContext x = .ok l) {c' : ACtx}
    (hc : E.process (ACtx.new none) l (r.url.or o.base) o.proc = .ok c') {j : Json}
    (h : compactFull E r x o = .ok j) :
    compactExpanded E d r.url x o = .ok j ∧
      compactDoc (E.compaction o) (compactBase o r.url c') l d = .ok j := by
  unfold compactFull at h
  rw [hd] at h
  replace h : compactExpanded E d r.url x o = .ok j := h
  refine ⟨h, ?_⟩
  unfold compactExpanded at h
  rw [hx] at h
  replace h : (mapErr PErr.contextProcessing (E.process (ACtx.new none) l (r.url.or o.base) o.proc)).bind _ = .ok j := h
  rw [hc] at h
  replace h : mapErr PErr.compaction (compactDoc (E.compaction o) (compactBase o r.url c') l d) = .ok j := h
  cases hj : compactDoc (E.compaction o) (compactBase o r.url c') l d with
  | error e => rw [hj] at h; cases h
  | ok j' => rw [hj] at h; cases h; rfl

private theorem again {E : PEnv} {r : Remote} {x : ContextRef} {o : POpts} {d : Doc} {j : Json}
    (h : compactExpanded E d r.url x o = .ok j)
    (hj : expandDoc (E.expansion (r.url.or o.base) o.unordered) (ACtx.new (o.base.or r.url)) j = .ok d) :
    compactFull E { url := r.url, document := j } x { o with expandContext := none } = .ok j := by
  have he : expandFull E { url := r.url, document := j } (POpts.unordered { o with expandContext := none }) = .ok d := by
    show mapErr PErr.expansion (expandDoc (E.expansion (r.url.or o.base) o.unordered) (ACtx.new (o.base.or r.url)) j) = _
    rw [hj]
    rfl
  unfold compactFull
  rw [he]
  exact h

/-- **C110.** Compacting a compacted document again, with the same context and options, gives exactly the same
JSON, if the terms of the context are only names and the document can be expressed (as in C55). The first document may
have been read with an `expand_context`. -/
theorem C110_again (E : PEnv) (r : Remote) (x : ContextRef) (o : POpts) (l : SCtx)
    (hx : E.loadContext x = .ok l) (hl : CtxOk E.isRef l) (c' : ACtx)
    (hc : E.process (ACtx.new none) l (r.url.or o.base) o.proc = .ok c')
    (hw : WrittenContext (E.expansion (r.url.or o.base) o.unordered) (ACtx.new (o.base.or r.url)) (compactBase o r.url c') l)
    (H : RoundEnv (E.compaction o) (E.expansion (r.url.or o.base) o.unordered) (compactBase o r.url c'))
    (d : Doc) (hd : expandFull E r o.unordered = .ok d) (hp : CarriedDoc E.toCompEnv (compactBase o r.url c') d)
    (hg : o.compactArrays = true → ∀ x g, d ≠ [.node (.mk x none none (some g) none [] none)])
    (j : Json) (h : compactFull E r x o = .ok j) :
    compactFull E { url := r.url, document := j } x { o with expandContext := none } = .ok j := by
  obtain ⟨h1, h2⟩ := compacted_parts hd hx hc h
  exact again h1 (C55_document (E.compaction o) (E.expansion (r.url.or o.base) o.unordered) _ H
    (ACtx.new (o.base.or r.url)) rfl l hl hw d (expandFull_wf hd) hp hg j h2)

/-- **C110.** The same with scoped contexts (as in C70). -/
theorem C110_scoped (E : PEnv) (r : Remote) (x : ContextRef) (o : POpts) (l : SCtx)
    (hx : E.loadContext x = .ok l) (hl : CtxOk E.isRef l) (c' : ACtx)
    (hc : E.process (ACtx.new none) l (r.url.or o.base) o.proc = .ok c')
    (hw : WrittenContext (E.expansion (r.url.or o.base) o.unordered) (ACtx.new (o.base.or r.url)) (compactBase o r.url c') l)
    (H : NamedEnv (E.compaction o) (E.expansion (r.url.or o.base) o.unordered) (compactBase o r.url c'))
    (hv : (compactBase o r.url c').previous = none)
    (d : Doc) (hd : expandFull E r o.unordered = .ok d) (hs : ∀ y ∈ d, Says y)
    (hp : ∀ y ∈ d, Carries (E.compaction o) (E.expansion (r.url.or o.base) o.unordered) (compactBase o r.url c') none y)
    (hg : o.compactArrays = true → ∀ x g, d ≠ [.node (.mk x none none (some g) none [] none)])
    (j : Json) (h : compactFull E r x o = .ok j) :
    compactFull E { url := r.url, document := j } x { o with expandContext := none } = .ok j := by
  obtain ⟨h1, h2⟩ := compacted_parts hd hx hc h
  exact again h1 (C70_document (E.compaction o) (E.expansion (r.url.or o.base) o.unordered) _ H hv
    (ACtx.new (o.base.or r.url)) rfl l hl hw d (expandFull_wf hd) hs hp hg j h2)

/-! ## Examples -/

/-- The processor with a context processing that gives `exBackCtx`. -/
def exAgainE : PEnv := { exCompEnv with process := fun _ _ _ _ => .ok exBackCtx }

theorem exAgain_env : RoundEnv (exAgainE.compaction {}) (exAgainE.expansion none {}) exBackCtx where
  env := rfl
  vocab := rfl
  sorted := ⟨rfl, rfl⟩
  mode := rfl
  iris := exRound_env.iris
  facts := exRound_env.facts
  clean := exRound_env.clean
  keywords := exRound_env.keywords
  plain := exRound_env.plain

theorem exAgain_read : expandFull exAgainE { document := exRoundJson } {} = .ok exRoundDoc := by
  have h : (expandFull exAgainE { document := exRoundJson } {}).toOption = some exRoundDoc := by decide +kernel
  cases he : expandFull exAgainE { document := exRoundJson } {} with
  | error e => rw [he] at h; cases h
  | ok d => rw [he] at h; cases h; rfl

/-- The hypotheses of `C110_again` are met, and the result is the document itself. -/
example : compactFull exAgainE { document := exRoundJson } (.loaded exRoundCtx) {} = .ok exRoundJson := by
  refine C110_again exAgainE { document := exRoundJson } (.loaded exRoundCtx) {} exRoundCtx rfl ?_ exBackCtx rfl ?_
    exAgain_env exRoundDoc exAgain_read exRound_carried (fun _ => by simp [exRoundDoc]) exRoundJson ?_
  · simp [exRoundCtx, CtxOk, EntryOk, DefOk, BindingsOk, SDef.empty]
  · unfold WrittenContext
    rw [if_neg (by decide)]
    rfl
  · unfold compactFull
    have h : expandFull exAgainE { document := exRoundJson } (POpts.unordered {}) = .ok exRoundDoc := exAgain_read
    rw [h]
    have h2 : (compactExpanded exAgainE exRoundDoc none (.loaded exRoundCtx) {}).toOption = some exRoundJson := by
      decide +kernel
    show compactExpanded exAgainE exRoundDoc none (.loaded exRoundCtx) {} = _
    cases he : compactExpanded exAgainE exRoundDoc none (.loaded exRoundCtx) {} with
    | error e => rw [he] at h2; cases h2
    | ok j => rw [he] at h2; cases h2; rfl

/-- With scoped contexts and the actual context processing (see C70 for the hypotheses): the document is compacted
twice. -/
example : ((compactExpanded exPEnv [.node exScopedTop] none (.loaded exScopedSyntax) {}).bind fun j =>
      compactFull exPEnv { document := j } (.loaded exScopedSyntax) {}).toOption =
    (compactExpanded exPEnv [.node exScopedTop] none (.loaded exScopedSyntax) {}).toOption ∧
    (compactExpanded exPEnv [.node exScopedTop] none (.loaded exScopedSyntax) {}).toOption.isSome = true := by
  decide +kernel

end JsonLd.Props
