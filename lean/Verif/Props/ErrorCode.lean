import Verif.Spec.ErrorCode
import Verif.Props.Faults
/-!
# C77: error codes
-/

namespace JsonLd.Props
open JsonLd.Spec Relation

/-- All the codes. -/
private def allCodes : List ErrorCode :=
  [.collidingKeywords, .conflictingIndexes, .contextOverflow, .cyclicIriMapping, .invalidIdValue,
   .invalidImportValue, .invalidIncludedValue, .invalidIndexValue, .invalidNestValue, .invalidPrefixValue,
   .invalidPropagateValue, .invalidProtectedValue, .invalidReverseValue, .invalidVersionValue,
   .invalidBaseDirection, .invalidBaseIri, .invalidContainerMapping, .invalidContextEntry,
   .invalidContextNullification, .invalidDefaultLanguage, .invalidIriMapping, .invalidJsonLiteral,
   .invalidKeywordAlias, .invalidLanguageMapValue, .invalidLanguageMapping, .invalidLanguageTaggedString,
   .invalidLanguageTaggedValue, .invalidLocalContext, .invalidRemoteContext, .invalidReverseProperty,
   .invalidReversePropertyMap, .invalidReversePropertyValue, .invalidScopedContext, .invalidScriptElement,
   .invalidSetOrListObject, .invalidTermDefinition, .invalidTypeMapping, .invalidTypeValue, .invalidTypedValue,
   .invalidValueObject, .invalidValueObjectValue, .invalidVocabMapping, .iriConfusedWithPrefix,
   .keyExpansionFailed, .keywordRedefinition, .loadingDocumentFailed, .loadingRemoteContextFailed,
   .multipleContextLinkHeaders, .processingModeConflict, .protectedTermRedefinition, .duplicateKey]

private theorem mem_allCodes (c : ErrorCode) : c ∈ allCodes := by
  cases c <;> decide

/-- C77: different codes have different texts. -/
theorem C77_injective (a b : ErrorCode) (h : a.asStr = b.asStr) : a = b := by
  have key : ∀ a ∈ allCodes, ∀ b ∈ allCodes, a.asStr = b.asStr → a = b := by decide +kernel
  exact key a (mem_allCodes a) b (mem_allCodes b) h

/-- C77: a text is read as a code exactly if it is the text of the code, except for "duplicate key". -/
theorem C77_read_partial (s : Str) (c : ErrorCode) :
    ErrorCode.tryFrom s = some c ↔ s = c.asStr ∧ c ≠ .duplicateKey := by
  constructor
  · intro h
    have key : ∀ e ∈ errorCodeTable, e.1 = e.2.asStr ∧ e.2 ≠ .duplicateKey := by decide +kernel
    exact key (s, c) (lookupKey_mem h)
  · rintro ⟨rfl, h⟩
    have key : ∀ c ∈ allCodes, c ≠ .duplicateKey → ErrorCode.tryFrom c.asStr = some c := by decide +kernel
    exact key c (mem_allCodes c) h

/-- C77: the code `DuplicateKey` is not read back from its text. -/
theorem C77_duplicate : ErrorCode.tryFrom ErrorCode.duplicateKey.asStr = none := by decide +kernel

/-- C77: every error of `expand` has a code, unless context processing gives an error without one (a panic). -/
theorem C77_code (E : PEnv) (r : Remote) (o : POpts) (e : PErr) (h : expandFull E r o = .error e)
    (hp : ∀ c l b o x, E.process c l b o = .error x → ∃ k, x.code = some k) : ∃ k, e.code = some k := by
  have add : ∀ {c x b e}, E.addContext o c x b = .error e → ∃ k, e.code = some k := by
    intro c x b e h
    unfold PEnv.addContext at h
    cases hl : E.loadContext x with
    | error e' =>
      rw [hl] at h
      cases h
      unfold PEnv.loadContext at hl
      split at hl
      · rename_i u
        cases hu : E.load u with
        | ok l => rw [hu] at hl; cases hl
        | error y => rw [hu] at hl; cases hl; exact ⟨_, rfl⟩
      · cases hl
    | ok l =>
      rw [hl] at h
      change mapErr PErr.contextProcessing (E.process c l b o.proc) = _ at h
      cases hx : E.process c l b o.proc with
      | ok c' => rw [hx] at h; cases h
      | error x => rw [hx] at h; cases h; exact hp _ _ _ _ _ hx
  unfold expandFull at h
  cases h1 : E.expandContext o (ACtx.new (o.base.or r.url)) with
  | error x =>
    rw [h1] at h
    cases h
    unfold PEnv.expandContext at h1
    split at h1
    · exact add h1
    · cases h1
  | ok c =>
    rw [h1] at h
    change (E.linkContext o r.contextUrl c).bind _ = _ at h
    cases h2 : E.linkContext o r.contextUrl c with
    | error x =>
      rw [h2] at h
      cases h
      unfold PEnv.linkContext at h2
      split at h2
      · exact add h2
      · cases h2
    | ok c' =>
      rw [h2] at h
      change mapErr PErr.expansion (expandDoc (E.expansion (r.url.or o.base) o) c' r.document) = _ at h
      cases h3 : expandDoc (E.expansion (r.url.or o.base) o) c' r.document with
      | ok d => rw [h3] at h; cases h
      | error x =>
        rw [h3] at h
        cases h
        obtain ⟨pl, _, hf⟩ := C76_cause _ _ _ _ h3
        cases hf with
        | process _ hx => exact hp _ _ _ _ _ hx
        | _ => exact ⟨_, rfl⟩

/-- C77: the code of an error of expansion says what is wrong: with each of the texts of `explainedTexts`, there
is an object in the document with the entry the text is about. -/
theorem C77_texts (E : XEnv) (c : ACtx) (j : Json) (e : XErr) (k : ErrorCode) (h : expandDoc E c j = .error e)
    (hk : e.code = some k) (ht : k.asStr ∈ explainedTexts) :
    Somewhere E c j fun pl => TextMeans E pl k.asStr := by
  obtain ⟨pl, hr, hf⟩ := C76_cause E c j e h
  refine ⟨pl, hr, ?_⟩
  have other : ∀ {k' : ErrorCode}, e.code = some k' → k'.asStr ∉ explainedTexts → TextMeans E pl k.asStr := by
    intro k' h1 h2
    rw [hk] at h1
    cases h1
    exact absurd ht h2
  have ctx : ∀ x : CtxErr, e = .contextProcessing x → TextMeans E pl k.asStr := by
    rintro x rfl
    cases x <;> first | exact other rfl (by decide +kernel) | cases hk
  have this : ∀ {k' : ErrorCode}, e.code = some k' → k' = k := by
    intro k' h1
    rw [hk] at h1
    cases h1
    rfl
  cases hf with
  | context _ _ =>
    rename_i x _ _
    cases x <;> exact other rfl (by dsimp only [CtxReadErr.code]; decide +kernel)
  | contexts _ => exact other rfl (by decide +kernel)
  | process _ _ => exact ctx _ rfl
  | id h1 h2 h3 => rw [← this rfl]; exact .id ⟨_, _, _, _, _, _, _, rfl, h1, h2, h3⟩
  | index h1 h2 h3 => rw [← this rfl]; exact .index ⟨_, _, _, _, _, _, _, rfl, h1, h2, h3⟩
  | reverse h1 h2 h3 => rw [← this rfl]; exact .reverse ⟨_, _, _, _, _, _, _, rfl, h1, h2, h3⟩
  | colliding h1 h2 => rw [← this rfl]; exact .colliding rfl h1 h2
  | languageMap h1 _ _ h2 _ h3 h4 h5 h6 =>
    rw [← this rfl]; exact .languageMap ⟨_, _, _, _, _, _, _, _, _, _, rfl, h1, h2, h3, h4, h5, h6⟩
  | value h1 h2 hv =>
    cases hv with
    | language h3 h4 h5 => rw [← this rfl]; exact .language ⟨_, _, _, _, _, _, _, rfl, h3, h4, h5⟩
    | index h3 h4 h5 => rw [← this rfl]; exact .index ⟨_, _, _, _, _, _, _, rfl, h3, h4, h5⟩
    | value h3 h4 h5 _ => rw [← this rfl]; exact .value ⟨_, _, _, _, _, _, _, rfl, h3, h4, h5⟩
    | _ => exact other rfl (by decide +kernel)
  | _ => exact other rfl (by decide +kernel)

/-- The code of the result, if it is an error. -/
def codeOf {α : Type} : Except XErr α → Option ErrorCode
  | .error e => e.code
  | .ok _ => none

/-- An index that is not a string, in a value object inside a list: "invalid @index value". -/
example : (codeOf (expandDoc exXEnv {} (.obj [("http:p".toList, .obj [("@list".toList,
    .obj [("@value".toList, .str ['x']), ("@index".toList, .num "1".toList)])])]))).map ErrorCode.asStr =
    some "invalid @index value".toList := by decide +kernel

end JsonLd.Props
