import Verif.Model.Processor
import Verif.Props.CompactMaps
import Verif.Props.Compare
import Verif.Props.DocEq
import Verif.Props.Expand
/-!
# C67: comparing, and expanding what was compacted, through the processor
-/

namespace JsonLd.Props
open JsonLd.Spec

/-! ## Comparison -/

theorem expandFull_wf {E : PEnv} {r : Remote} {o : POpts} {d : Doc} (h : expandFull E r o = .ok d) : d.WF := by
  unfold expandFull at h
  obtain ⟨c, -, h⟩ := exBind_ok h
  obtain ⟨c', -, h⟩ := exBind_ok h
  cases he : expandDoc (E.expansion (r.url.or o.base) o) c' r.document with
  | error e => rw [he] at h; cases h
  | ok d' =>
    rw [he] at h
    cases h
    exact (C44_sets _ _ _ _ he).1

/-- **C67.** Two documents compare equal if and only if they are the same JSON up to the order of members and items,
and both expand to equal documents. -/
theorem C67_compare (E : PEnv) (a b : Remote) (o : POpts) (ha : NoDupKeys a.document) (hb : NoDupKeys b.document) :
    compareFull E a b o = .ok true ↔ JsonEquiv a.document b.document ∧
      ∃ d e, expandFull E a o = .ok d ∧ expandFull E b o = .ok e ∧ d.eq e = true := by
  rw [← C04_iff _ _ ha hb]
  unfold compareFull
  cases h : Json.compare a.document b.document with
  | none => simp
  | some x => cases x with
    | false => simp
    | true =>
      cases h1 : expandFull E a o with
      | error e => simp [Except.bind]
      | ok d => cases h2 : expandFull E b o with
        | error e => simp [Except.bind, Except.map]
        | ok e => simp [Except.bind, Except.map]

/-- **C67.** Comparison is an equivalence on the documents that can be expanded. -/
theorem C67_compare_equivalence (E : PEnv) (o : POpts) :
    (∀ a : Remote, NoDupKeys a.document → ∀ d, expandFull E a o = .ok d → compareFull E a a o = .ok true) ∧
    (∀ a b : Remote, NoDupKeys a.document → NoDupKeys b.document →
      compareFull E a b o = .ok true → compareFull E b a o = .ok true) ∧
    (∀ a b c : Remote, NoDupKeys a.document → NoDupKeys b.document → NoDupKeys c.document →
      compareFull E a b o = .ok true → compareFull E b c o = .ok true → compareFull E a c o = .ok true) := by
  refine ⟨fun a ha d hd => ?_, fun a b ha hb h => ?_, fun a b c ha hb hc h h' => ?_⟩
  · exact (C67_compare E a a o ha ha).2
      ⟨(C04_iff _ _ ha ha).1 (C04_equivalence _ _ _ ha ha ha).1, d, d, hd, hd, C46_equivalence.1 d (expandFull_wf hd)⟩
  · obtain ⟨h1, d, e, hd, he, h2⟩ := (C67_compare E a b o ha hb).1 h
    refine (C67_compare E b a o hb ha).2 ⟨?_, e, d, he, hd, C46_equivalence.2.1 d e (expandFull_wf hd) (expandFull_wf he) h2⟩
    rw [← C04_iff _ _ hb ha, ← (C04_equivalence _ _ _ ha hb ha).2.1]
    exact (C04_iff _ _ ha hb).2 h1
  · obtain ⟨h1, d, e, hd, he, h2⟩ := (C67_compare E a b o ha hb).1 h
    obtain ⟨h1', e', f, he', hf, h2'⟩ := (C67_compare E b c o hb hc).1 h'
    rw [he] at he'
    cases he'
    refine (C67_compare E a c o ha hc).2 ⟨?_, d, f, hd, hf,
      C46_equivalence.2.2 d e f (expandFull_wf hd) (expandFull_wf he) (expandFull_wf hf) h2 h2'⟩
    rw [← C04_iff _ _ ha hc]
    exact (C04_equivalence _ _ _ ha hb hc).2.2 ((C04_iff _ _ ha hb).2 h1) ((C04_iff _ _ hb hc).2 h1')

/-! ## Compaction -/

/-- **C67.** Expanding what was compacted gives an equal document: the document `r` expands to `d`, and it is compacted
with the context `l`, given itself or by a URL. Then the compacted document, expanded with the same options at the
same URL, gives a document equal to `d`, whether the output is sorted or not. Here `c` is the context of the compaction; reading `l` in the
compacted document must lead to the same context, and the context and the document must be such as in C66. -/
theorem C67_round_trip (E : PEnv) (r : Remote) (x : ContextRef) (o : POpts) (l : SCtx)
    (hx : E.loadContext x = .ok l) (hl : CtxOk E.isRef l) (c' : ACtx)
    (hc : E.process (ACtx.new none) l (r.url.or o.base) o.proc = .ok c')
    (hw : WrittenContext (E.expansion (r.url.or o.base) o) (ACtx.new (o.base.or r.url)) (compactBase o r.url c') l)
    (H : MapEnv (E.compaction o) (E.expansion (r.url.or o.base) o) (compactBase o r.url c'))
    (d : Doc) (hd : expandFull E r o.unordered = .ok d) (hp : PlacedDoc E.toCompEnv (compactBase o r.url c') d)
    (hg : o.compactArrays = true → ∀ x g, d ≠ [.node (.mk x none none (some g) none [] none)])
    (j : Json) (h : compactFull E r x o = .ok j) :
    ∃ d', expandFull E { url := r.url, document := j } { o with expandContext := none } = .ok d' ∧ d'.eq d = true := by
  unfold compactFull at h
  rw [hd] at h
  replace h : compactExpanded E d r.url x o = .ok j := h
  unfold compactExpanded at h
  rw [hx] at h
  replace h : (mapErr PErr.contextProcessing (E.process (ACtx.new none) l (r.url.or o.base) o.proc)).bind _ = .ok j := h
  rw [hc] at h
  replace h : mapErr PErr.compaction (compactDoc (E.compaction o) (compactBase o r.url c') l d) = .ok j := h
  cases hj : compactDoc (E.compaction o) (compactBase o r.url c') l d with
  | error e => rw [hj] at h; cases h
  | ok j' =>
    rw [hj] at h
    cases h
    obtain ⟨d', h1, -, h2⟩ := C66_document (E.compaction o) (E.expansion (r.url.or o.base) o) _ H
      (ACtx.new (o.base.or r.url)) rfl l hl hw d (expandFull_wf hd) hp hg j hj
    refine ⟨d', ?_, h2⟩
    show mapErr PErr.expansion (expandDoc (E.expansion (r.url.or o.base) o) (ACtx.new (o.base.or r.url)) j) = _
    rw [h1]
    rfl

/-! ## An example -/

/-- Expansion and compaction with the actual context processing. -/
def exPEnv : PEnv := { exCompEnv with process := fun c l b o => (recN exCompEnv.toProcEnv 9).process c l [] b o }

/-- An expanded term definition. -/
def exSTerm (i : String) (k : ContainerKind) (t : Option STypeKeyword) : Option STerm :=
  some (.expanded { SExp.empty with
    id := some (some (.term i.toList)), container := some (some (.one k)), type := t.map fun k => some (.keyword k) })

/-- The context that is processed to `exMapsCtx`. -/
def exMapsSyntax : SCtx :=
  .one (.defn { SDef.empty with
    bindings := [("as".toList, exSTerm "http:as" .type none),
      ("by".toList, exSTerm "http:by" .id none),
      ("at".toList, exSTerm "http:at" .index none),
      ("knows".toList, exSTerm "http:knows" .set (some .id)),
      ("label".toList, exSTerm "http:label" .language none),
      ("list".toList, exSTerm "http:list" .list (some .id)),
      ("kind".toList, some (.simple "@type".toList))] })

theorem exMaps_processed : exPEnv.process (ACtx.new none) exMapsSyntax none {} = .ok exMapsCtx := by
  rfl

/-- The environments are those of C66. -/
theorem exMaps_full : MapEnv (exPEnv.compaction {}) (exPEnv.expansion none {}) exMapsCtx where
  env := rfl
  vocab := rfl
  mode := rfl
  iris := exComp_facts.1
  facts := exComp_facts.2
  clean := exMaps_env.clean
  keywords := exMaps_env.keywords
  ctx := exMaps_env.ctx

/-- A document that expands to `exMapsDoc`. -/
def exMapsRemote : Remote := { document := exMapsDoc.toJson }

/-- The hypotheses of C67 are met. -/
example : CtxOk exPEnv.isRef exMapsSyntax ∧
    WrittenContext (exPEnv.expansion none {}) (ACtx.new none) exMapsCtx exMapsSyntax ∧
    (expandFull exPEnv exMapsRemote {}).toOption = some exMapsDoc := by
  refine ⟨?_, ?_, by decide +kernel⟩
  · simp [exMapsSyntax, exSTerm, CtxOk, EntryOk, DefOk, BindingsOk, TermOk, ExpOk, SDef.empty, SExp.empty,
      ScopedOk, IdText, TypeText]
    decide
  · unfold WrittenContext
    rw [if_neg (by decide +kernel)]
    rfl

/-- The compacted document, and an equal document as its expansion. -/
example :
    (((compactFull exPEnv exMapsRemote (.loaded exMapsSyntax) {}).bind fun j =>
      expandFull exPEnv { document := j } {}).toOption.map fun d => d.eq exMapsDoc) = some true := by
  decide +kernel

/-! ## Where the code differs -/

/-- A document with one property. -/
def exOneProp (v : Json) : Remote := { document := .obj [("http:p".toList, v)] }

/-- `compare` is not equality of what is said: `{"http:p": "x"}` and `{"http:p": ["x"]}` expand alike, but
compare as different. -/
theorem C67_compare_syntax :
    (compareFull exPEnv (exOneProp (.str "x".toList)) (exOneProp (.arr [.str "x".toList])) {}).toOption = some false ∧
    (expandFull exPEnv (exOneProp (.str "x".toList)) {}).toOption =
      (expandFull exPEnv (exOneProp (.arr [.str "x".toList])) {}).toOption := by
  decide +kernel

/-- `{"@id": "http:b/x", "http:p": []}` -/
def exRelDoc : Remote := { document := .obj [("@id".toList, .str "http:b/x".toList), ("http:p".toList, .arr [])] }

/-- With `compact_to_relative` off, IRIs are still written relative to the option `base`. -/
theorem C67_relative : (compactFull exPEnv exRelDoc (.loaded (.one .null))
      { base := some "http:b/".toList, compactToRelative := false }).toOption =
    some (.obj [("@id".toList, .str "x".toList), ("http:p".toList, .arr [])]) := by
  decide +kernel

/-- A context with a base IRI. -/
def exBaseSyntax (b : String) : SCtx := .one (.defn { SDef.empty with base := some (some b.toList) })

/-- C67 is false if both the context and the options have a base IRI: IRIs are written relative to that of the options,
but read relative to that of the context. -/
theorem C67_two_bases :
    (compactFull exPEnv exRelDoc (.loaded (exBaseSyntax "http:c/")) { base := some "http:b/".toList }).toOption =
      some (.obj [("@context".toList, .obj [("@base".toList, .str "http:c/".toList)]),
        ("@id".toList, .str "x".toList), ("http:p".toList, .arr [])]) ∧
    ((compactFull exPEnv exRelDoc (.loaded (exBaseSyntax "http:c/")) { base := some "http:b/".toList }).bind fun j =>
      expandFull exPEnv { document := j } { base := some "http:b/".toList }).toOption =
      some [.node (.mk none (some (.iri "http:c/x".toList)) none none none [(.iri "http:p".toList, [])] none)] := by
  decide +kernel

/-- Compaction with a relative `@base` in the context fails, even if there is a base IRI to resolve it, although the
same context can be used in documents. -/
theorem C67_relative_base :
    compactFull exPEnv exRelDoc (.loaded (exBaseSyntax "a/")) { base := some "http:b/".toList } =
      .error (.contextProcessing .invalidBaseIri) ∧
    (expandFull exPEnv { document := .obj [("@context".toList, (exBaseSyntax "a/").toJson),
        ("@id".toList, .str "x".toList), ("http:p".toList, .arr [])] } { base := some "http:b/".toList }).toOption =
      some [.node (.mk none (some (.iri "http:b/a/x".toList)) none none none [(.iri "http:p".toList, [])] none)] := by
  exact ⟨rfl, by decide +kernel⟩

/-- A context at `http:c/` that refers to another context by the relative reference `t`. -/
def exLoad (u : Str) : Except LoadFail SCtx :=
  if u = "http:c/".toList then .ok (.one (.ref "t".toList))
  else if u = "http:c/t".toList then .ok (exBind (.simple "http:p".toList))
  else .error .loading

/-- The environment with this loader. -/
def exLoadEnv : PEnv :=
  { exCompEnv with
    load := exLoad
    process := fun c l b o => (recN { exCompEnv.toProcEnv with load := exLoad } 9).process c l [] b o }

/-- A context given by its URL is not read as a context that refers to the URL: references inside are not resolved
against its own URL, but against that of the document. -/
theorem C67_context_url :
    (compactFull exLoadEnv exRelDoc (.loaded (.one (.ref "http:c/".toList))) {}).toOption =
      some (.obj [("@context".toList, .str "http:c/".toList), ("@id".toList, .str "http:b/x".toList),
        ("t".toList, .arr [])]) ∧
    compactFull exLoadEnv exRelDoc (.iri "http:c/".toList) {} =
      .error (.contextProcessing .loadingDocumentFailed) := by
  exact ⟨by decide +kernel, rfl⟩

end JsonLd.Props
