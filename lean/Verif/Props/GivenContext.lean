import Verif.Props.Processor
import Verif.Props.KeyOrder
import Verif.Proofs.OrderValue
/-!
# C82: a context means the same in the document and next to it
-/

namespace JsonLd.Props
open JsonLd.Spec

theorem xKey_context (E : XEnv) (c : ACtx) : xKey E c "@context".toList = .ok (some (.keyword .context)) :=
  xKey_kw .context

section
variable {E : XEnv} {c : ACtx} {v : Json} {m m' : List (Str × Json)}

theorem prelim_noVocab (hc : c.vocab = none) (m : List (Str × Json)) : ∃ r, prelim E c m = .ok r := by
  induction m with
  | nil => exact ⟨_, rfl⟩
  | cons e m ih =>
    obtain ⟨t, ht⟩ : ∃ t, xKey E c e.1 = .ok t := by
      obtain ⟨t, ht⟩ := C32_total E.toIriEnv c (some (.ofStr e.1)) false (some E.opts.vocab) (.inl hc)
      exact ⟨some t, by unfold xKey xIri; rw [ht]⟩
    obtain ⟨r, hr⟩ := ih
    exact ⟨_, by unfold prelim; rw [ht, hr]; rfl⟩

/-- The keys can be expanded. -/
theorem prelim_error (c : ACtx) (m : List (Str × Json)) :
    (∃ r, prelim E c m = .ok r) ∨
      prelim E c m = .error .forbiddenVocab ∧ typeEntries E c m = .error .forbiddenVocab := by
  unfold typeEntries
  induction m with
  | nil => exact .inl ⟨_, rfl⟩
  | cons e m ih =>
    cases ht : xKey E c e.1 with
    | error x =>
      right
      have : x = .forbiddenVocab := by
        unfold xKey xIri at ht
        split at ht
        · cases ht
        · cases ht; rfl
      subst this
      exact ⟨by unfold prelim; rw [ht]; rfl, by unfold collectM; rw [ht]; rfl⟩
    | ok t =>
      rcases ih with ⟨r, hr⟩ | ⟨h1, h2⟩
      · exact .inl ⟨_, by unfold prelim; rw [ht, hr]; rfl⟩
      · refine .inr ⟨by unfold prelim; rw [ht, h1]; rfl, ?_⟩
        unfold collectM
        rw [ht]
        cases hc : collectM (fun e => (xKey E c e.1).map fun t => if t = some (.keyword .type) then [e] else []) m with
        | ok x => rw [hc] at h2; cases h2
        | error x => rw [hc] at h2; cases h2; rfl

theorem typeEntries_context (c : ACtx) :
    typeEntries E c (m ++ ("@context".toList, v) :: m') = typeEntries E c (m ++ m') := by
  unfold typeEntries
  congr 1
  induction m with
  | nil =>
    simp only [List.nil_append]
    conv => lhs; unfold collectM
    rw [xKey_context]
    show Except.bind (.ok []) _ = _
    show (collectM _ m').map _ = _
    cases collectM (fun e => (xKey E c e.1).map fun t => if t = some (.keyword .type) then [e] else []) m' <;> rfl
  | cons e m ih =>
    simp only [List.cons_append, collectM, ih]

theorem xEntries_context (c : ACtx) :
    (∃ es es', xEntries E c (m ++ m') = .ok (es ++ es') ∧
      xEntries E c (m ++ ("@context".toList, v) :: m') =
        .ok (es ++ ⟨"@context".toList, .keyword .context, v⟩ :: es')) ∨
    ∃ x, xEntries E c (m ++ m') = .error x ∧
      xEntries E c (m ++ ("@context".toList, v) :: m') = .error x := by
  induction m with
  | nil =>
    simp only [List.nil_append]
    cases h : xEntries E c m' with
    | error x => exact .inr ⟨x, rfl, by unfold xEntries; rw [xKey_context, h]; rfl⟩
    | ok es => exact .inl ⟨[], es, rfl, by unfold xEntries; rw [xKey_context, h]; rfl⟩
  | cons e m ih =>
    simp only [List.cons_append]
    obtain ⟨k, w⟩ := e
    unfold xEntries
    cases xKey E c k with
    | error x => exact .inr ⟨x, rfl, rfl⟩
    | ok t =>
      rcases ih with ⟨es, es', h1, h2⟩ | ⟨x, h1, h2⟩
      · rw [h1, h2]
        cases t with
        | none => exact .inl ⟨es, es', rfl, rfl⟩
        | some t => exact .inl ⟨⟨k, t, w⟩ :: es, es', rfl, rfl⟩
      · rw [h1, h2]
        exact .inr ⟨x, rfl, rfl⟩

theorem lastEntry_context {k : Keyword} (hk : k ≠ .context) (es es' : List XEntry) :
    lastEntry k (es ++ ⟨"@context".toList, .keyword .context, v⟩ :: es') = lastEntry k (es ++ es') := by
  unfold lastEntry
  rw [List.filter_append, List.filter_append, List.filter_cons_of_neg]
  simp [Ne.symm hk]

theorem mem_xEntries {c : ACtx} {es : List XEntry} (h : xEntries E c m = .ok es) {e : XEntry} (he : e ∈ es) :
    (e.key, e.value) ∈ m ∧ xKey E c e.key = .ok (some e.term) := by
  induction m generalizing es with
  | nil => cases h; cases he
  | cons x m ih =>
    obtain ⟨k, w⟩ := x
    unfold xEntries at h
    obtain ⟨t, ht, h⟩ := exBind_ok h
    obtain ⟨es0, h0, h⟩ := exMap_ok h
    subst h
    cases t with
    | none => exact ⟨List.mem_cons_of_mem _ (ih h0 he).1, (ih h0 he).2⟩
    | some t =>
      rcases List.mem_cons.1 he with rfl | he
      · exact ⟨List.mem_cons_self, ht⟩
      · exact ⟨List.mem_cons_of_mem _ (ih h0 he).1, (ih h0 he).2⟩

/-- **C82.** A context in the object at the top of a document means the same as if the document had been expanded with
that context: the entry may stand anywhere, errors are the same. Set objects and value objects are excepted
(`C82_value`, `C82_set`), and contexts that are not to be propagated (`C82_propagate`). -/
theorem C82_top (E : XEnv) (c c' : ACtx) (v : Json) (l : SCtx) (m m' : List (Str × Json))
    (hc : c.vocab = none ∧ c.previous = none) (hm : ∀ w, ("@context".toList, w) ∉ m ++ m')
    (hv : readCtx E.isRef v = .ok l) (hp : E.process c l E.base E.opts.proc = .ok c') (hc' : c'.previous = none)
    (hk : ∀ a, MayBeActive E c' (.obj (m ++ m')) a → ∀ e ∈ m ++ m', ¬ KeyFor E a e.1 .set ∧ ¬ KeyFor E a e.1 .value) :
    expandDoc E c (.obj (m ++ ("@context".toList, v) :: m')) = expandDoc E c' (.obj (m ++ m')) := by
  unfold expandDoc
  rw [C49_unfold, C49_unfold]
  congr 1
  show elemObj E _ c none _ false = elemObj E _ c' none _ false
  have hf : ∀ l : List (Str × Json), (∀ w, ("@context".toList, w) ∉ l) →
      l.filter (fun e => decide (e.1 = "@context".toList)) = [] := by
    intro l hl
    rw [List.filter_eq_nil_iff]
    rintro ⟨k, w⟩ he hk
    have := of_decide_eq_true hk
    subst this
    exact hl w he
  have hm1 := hf m fun w h => hm w (List.mem_append_left _ h)
  have hm2 := hf m' fun w h => hm w (List.mem_append_right _ h)
  have h1 : objContext E c none (m ++ ("@context".toList, v) :: m') false = .ok c' := by
    unfold objContext
    obtain ⟨r, hr⟩ := prelim_noVocab (E := E) hc.1 (m ++ ("@context".toList, v) :: m')
    rw [hr]
    show localContext E (revert c _ false r) _ = _
    have h2 : revert c (m ++ ("@context".toList, v) :: m') false r = c := by unfold revert; rw [hc.2]
    rw [h2]
    unfold localContext
    rw [List.filter_append, hm1, List.nil_append, List.filter_cons_of_pos (by simp), hm2]
    simp only [hv]
    unfold xProcess
    rw [hp]
  unfold elemObj
  rw [h1]
  show (typeEntries E c' _).bind _ = _
  rw [typeEntries_context]
  have h2 : ∀ r, prelim E c' (m ++ m') = .ok r → objContext E c' none (m ++ m') false = .ok c' := by
    intro r hr
    unfold objContext
    rw [hr]
    show localContext E (revert c' _ false r) _ = _
    have h2 : revert c' (m ++ m') false r = c' := by unfold revert; rw [hc']
    rw [h2]
    unfold localContext
    rw [List.filter_append, hm1, hm2]
    rfl
  rcases prelim_error (E := E) c' (m ++ m') with ⟨r, hr⟩ | ⟨hr, ht⟩
  · rw [h2 r hr]
    show _ = (typeEntries E c' _).bind _
    cases typeEntries E c' (m ++ m') with
    | error x => rfl
    | ok tes =>
      show (typeScoped E c' tes).bind _ = (typeScoped E c' tes).bind _
      cases hts : typeScoped E c' tes with
      | error x => rfl
      | ok a =>
        have ha : MayBeActive E c' (.obj (m ++ m')) a := typeScoped_K (active_closed _ _) .start hts
        show (inputType E a tes).bind _ = (inputType E a tes).bind _
        cases inputType E a tes with
        | error x => rfl
        | ok it =>
          show (xEntries E a _).bind _ = (xEntries E a _).bind _
          rcases xEntries_context (E := E) (v := v) (m := m) (m' := m') a with ⟨es, es', e1, e2⟩ | ⟨x, e1, e2⟩
          · rw [e1, e2]
            show elemKind E _ a c' none it _ = elemKind E _ a c' none it _
            have hno : ∀ k, k = .set ∨ k = .value → lastEntry k (es ++ es') = none := by
              intro k hk0
              apply lastEntry_none
              intro e he ht
              obtain ⟨hmem, hkey⟩ := mem_xEntries e1 he
              have hfor : KeyFor E a e.key k := by
                unfold KeyFor
                unfold xKey xIri at hkey
                split at hkey
                · cases hkey; rw [← ht]; assumption
                · cases hkey
              rcases hk0 with rfl | rfl
              · exact (hk a ha _ hmem).1 hfor
              · exact (hk a ha _ hmem).2 hfor
            unfold elemKind
            rw [lastEntry_context (by decide), lastEntry_context (by decide), lastEntry_context (by decide),
              hno .set (.inl rfl), hno .value (.inr rfl)]
            simp only [noProp, Option.isNone_none, Bool.true_or, if_true]
            unfold expandNode entriesBody
            rw [List.foldlM_append, List.foldlM_append]
            rfl
          · rw [e1, e2]
  · rw [ht]
    unfold objContext
    rw [hr]
    rfl
end

/-- **C82.** The context given as `expand_context` means the same as a context in the document. Here `l` is that
context, `c'` what it is processed to. -/
theorem C82_expand_context (E : PEnv) (r : Remote) (o : POpts) (x : ContextRef) (l : SCtx) (c' : ACtx)
    (m m' : List (Str × Json)) (hx : E.loadContext x = .ok l) (hl : CtxOk E.isRef l)
    (hb : o.base.or r.url = r.url.or o.base) (hu : r.contextUrl = none)
    (hm : ∀ w, ("@context".toList, w) ∉ m ++ m')
    (hp : E.process (ACtx.new (o.base.or r.url)) l (o.base.or r.url) { mode := o.mode } = .ok c') (hc' : c'.previous = none)
    (hk : ∀ a, MayBeActive (E.expansion (r.url.or o.base) o) c' (.obj (m ++ m')) a → ∀ e ∈ m ++ m',
      ¬ KeyFor (E.expansion (r.url.or o.base) o) a e.1 .set ∧ ¬ KeyFor (E.expansion (r.url.or o.base) o) a e.1 .value) :
    expandFull E { r with document := .obj (m ++ m') } { o with expandContext := some x } =
      expandFull E { r with document := .obj (m ++ ("@context".toList, l.toJson) :: m') }
        { o with expandContext := none } := by
  have h := C82_top (E.expansion (r.url.or o.base) o) (ACtx.new (o.base.or r.url)) c' l.toJson l m m' ⟨rfl, rfl⟩ hm
    (readCtx_toJson l hl) (by rw [hb] at hp ⊢; exact hp) hc' hk
  have e1 : expandFull E { r with document := .obj (m ++ ("@context".toList, l.toJson) :: m') }
        { o with expandContext := none } = mapErr .expansion
      (expandDoc (E.expansion (r.url.or o.base) o) (ACtx.new (o.base.or r.url))
        (.obj (m ++ ("@context".toList, l.toJson) :: m'))) := by
    unfold expandFull PEnv.linkContext
    simp only [hu]
    rfl
  rw [e1, h]
  unfold expandFull PEnv.linkContext PEnv.expandContext PEnv.addContext
  simp only [hu, hx]
  have hp' : E.process (ACtx.new (o.base.or r.url)) l (ACtx.new (o.base.or r.url)).originalBase
      (POpts.proc { o with expandContext := some x }) = .ok c' := hp
  show (Except.bind (mapErr PErr.contextProcessing (E.process (ACtx.new (o.base.or r.url)) l
    (ACtx.new (o.base.or r.url)).originalBase (POpts.proc { o with expandContext := some x }))) _) = _
  rw [hp']
  rfl

/-- **C82.** The context linked to a document (by an HTTP header) means the same as a reference to it in the document,
if context processing takes such a reference for the context that is loaded, with the URL it is loaded from as base. -/
theorem C82_link (E : PEnv) (r : Remote) (o : POpts) (u : Str) (l : SCtx) (c' : ACtx)
    (m m' : List (Str × Json)) (hx : E.load u = .ok l) (hl : E.isRef u = true)
    (hu : r.contextUrl = none) (ho : o.expandContext = none)
    (hm : ∀ w, ("@context".toList, w) ∉ m ++ m')
    (hp : E.process (ACtx.new (o.base.or r.url)) l (some u) { mode := o.mode } = .ok c')
    (href : E.process (ACtx.new (o.base.or r.url)) (.one (.ref u)) (r.url.or o.base) { mode := o.mode } = .ok c')
    (hc' : c'.previous = none)
    (hk : ∀ a, MayBeActive (E.expansion (r.url.or o.base) o) c' (.obj (m ++ m')) a → ∀ e ∈ m ++ m',
      ¬ KeyFor (E.expansion (r.url.or o.base) o) a e.1 .set ∧ ¬ KeyFor (E.expansion (r.url.or o.base) o) a e.1 .value) :
    expandFull E { r with document := .obj (m ++ m'), contextUrl := some u } o =
      expandFull E { r with document := .obj (m ++ ("@context".toList, .str u) :: m') } o := by
  have hread : readCtx (E.expansion (r.url.or o.base) o).isRef (.str u) = .ok (.one (.ref u)) :=
    readCtx_toJson (.one (.ref u)) (by simp only [CtxOk, EntryOk]; exact hl)
  have h := C82_top (E.expansion (r.url.or o.base) o) (ACtx.new (o.base.or r.url)) c' (.str u) (.one (.ref u)) m m'
    ⟨rfl, rfl⟩ hm hread href hc' hk
  have e1 : expandFull E { r with document := .obj (m ++ ("@context".toList, .str u) :: m') } o = mapErr .expansion
      (expandDoc (E.expansion (r.url.or o.base) o) (ACtx.new (o.base.or r.url))
        (.obj (m ++ ("@context".toList, .str u) :: m'))) := by
    unfold expandFull PEnv.linkContext PEnv.expandContext
    simp only [hu, ho]
    rfl
  rw [e1, h]
  unfold expandFull PEnv.linkContext PEnv.expandContext PEnv.addContext PEnv.loadContext
  simp only [ho, hx]
  have hp' : E.process (ACtx.new (o.base.or r.url)) l (some u) o.proc = .ok c' := hp
  show (Except.bind (mapErr PErr.contextProcessing (E.process (ACtx.new (o.base.or r.url)) l (some u) o.proc)) _) = _
  rw [hp']
  rfl

/-! ## Cases -/

/-- `{"@context": {"t": "http:p"}}`, with or without `"@propagate": false`. -/
def exGiven (p : Option Bool) : SCtx :=
  .one (.defn { SDef.empty with propagate := p, bindings := [("t".toList, some (.simple "http:p".toList))] })

/-- A document that uses the term. -/
def exGivenEntries : List (Str × Json) := [("@id".toList, .str "http:a".toList), ("t".toList, .bool true)]

/-- Its expansion. -/
def exGivenDoc : Doc :=
  [.node (.mk none (some (.iri "http:a".toList)) none none none
    [(.iri "http:p".toList, [.value none (.literal (.bool true) none)])] none)]

/-- The context it is processed to. -/
def exGivenCtx : ACtx := { defs := [("t".toList, { value := some (.id (.iri "http:p".toList)) })] }

theorem exGiven_processed : exPEnv.process (ACtx.new none) (exGiven none) none {} = .ok exGivenCtx := by
  rfl

/-- The hypotheses of C82 are met. -/
example : expandFull exPEnv { document := .obj exGivenEntries } { expandContext := some (.loaded (exGiven none)) } =
    expandFull exPEnv { document := .obj ([("@id".toList, .str "http:a".toList)] ++
      ("@context".toList, (exGiven none).toJson) :: [("t".toList, .bool true)]) } {} := by
  refine C82_expand_context exPEnv { document := .null } {} (.loaded (exGiven none)) (exGiven none) exGivenCtx
    [("@id".toList, .str "http:a".toList)] [("t".toList, .bool true)] rfl ?_ rfl rfl ?_ exGiven_processed rfl ?_
  · simp [exGiven, CtxOk, EntryOk, DefOk, BindingsOk, TermOk, SDef.empty]
    decide
  · intro w h
    simp at h
  · intro a ha e he
    rw [C68_active] at ha
    · subst ha
      simp only [List.cons_append, List.nil_append, List.mem_cons, List.not_mem_nil, or_false] at he
      rcases he with rfl | rfl <;> exact ⟨nofun, nofun⟩
    · rfl
    · intro t d h
      unfold ACtx.get at h
      split at h
      · cases h
      · have := List.mem_singleton.1 (lookupKey_mem (show lookupKey t exGivenCtx.defs = some d from h))
        cases this
        rfl
    · intro v h
      cases h with
      | here h => simp at h
      | entry h h' =>
        simp only [List.cons_append, List.nil_append, List.mem_cons, List.not_mem_nil, or_false] at h
        rcases h with h | h <;> cases h <;> cases h'

/-- The document with the context, and the context apart. -/
example : (expandFull exPEnv { document := .obj exGivenEntries }
      { expandContext := some (.loaded (exGiven none)) }).toOption = some exGivenDoc ∧
    (expandFull exPEnv { document := .obj (("@context".toList, (exGiven none).toJson) :: exGivenEntries) } {}).toOption =
      some exGivenDoc := by
  decide +kernel

/-- A context given as `expand_context` that is not to be propagated is not used at all. -/
theorem C82_propagate :
    (expandFull exPEnv { document := .obj (("@context".toList, (exGiven (some false)).toJson) :: exGivenEntries) }
      {}).toOption = some exGivenDoc ∧
    (expandFull exPEnv { document := .obj exGivenEntries }
      { expandContext := some (.loaded (exGiven (some false))) }).toOption ≠ some exGivenDoc := by
  decide +kernel

/-- A value object may not have a context, although JSON-LD allows it. -/
theorem C82_value :
    (match expandFull exPEnv { document := .obj [("http:q".toList, .obj [("@context".toList, .obj []),
        ("@value".toList, .bool true)])] } {} with
      | .error (.expansion (.value .valueObject)) => true
      | _ => false) = true := by
  decide +kernel

/-- Nor may a set object, not even at the top. -/
theorem C82_set :
    (match expandFull exPEnv { document := .obj [("@context".toList, .obj []), ("@set".toList, .arr [])] } {} with
      | .error (.expansion .invalidSetOrListObject) => true
      | _ => false) = true ∧
    (expandFull exPEnv { document := .obj [("@set".toList, .arr [])] } {}).toOption = some [] := by
  decide +kernel

end JsonLd.Props
