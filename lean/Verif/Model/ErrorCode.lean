import Verif.Model.Processor
/-!
# Error codes (`crates/syntax/src/error.rs`, and the methods `code` of the errors)
-/

namespace JsonLd

/-- `enum ErrorCode`, crates/syntax/src/error.rs:6-170. -/
inductive ErrorCode where
  | collidingKeywords | conflictingIndexes | contextOverflow | cyclicIriMapping | invalidIdValue
  | invalidImportValue | invalidIncludedValue | invalidIndexValue | invalidNestValue
  | invalidPrefixValue | invalidPropagateValue | invalidProtectedValue | invalidReverseValue
  | invalidVersionValue | invalidBaseDirection | invalidBaseIri | invalidContainerMapping
  | invalidContextEntry | invalidContextNullification | invalidDefaultLanguage | invalidIriMapping
  | invalidJsonLiteral | invalidKeywordAlias | invalidLanguageMapValue | invalidLanguageMapping
  | invalidLanguageTaggedString | invalidLanguageTaggedValue | invalidLocalContext
  | invalidRemoteContext | invalidReverseProperty | invalidReversePropertyMap
  | invalidReversePropertyValue | invalidScopedContext | invalidScriptElement | invalidSetOrListObject
  | invalidTermDefinition | invalidTypeMapping | invalidTypeValue | invalidTypedValue
  | invalidValueObject | invalidValueObjectValue | invalidVocabMapping | iriConfusedWithPrefix
  | keyExpansionFailed | keywordRedefinition | loadingDocumentFailed | loadingRemoteContextFailed
  | multipleContextLinkHeaders | processingModeConflict | protectedTermRedefinition | duplicateKey
  deriving DecidableEq, Repr

/-- `ErrorCode::as_str` and `Display`, error.rs:174-230 and 295-299. -/
def ErrorCode.asStr : ErrorCode → Str
  | .collidingKeywords => "colliding keywords".toList
  | .conflictingIndexes => "conflicting indexes".toList
  | .contextOverflow => "context overflow".toList
  | .cyclicIriMapping => "cyclic IRI mapping".toList
  | .invalidIdValue => "invalid @id value".toList
  | .invalidImportValue => "invalid @import value".toList
  | .invalidIncludedValue => "invalid @included value".toList
  | .invalidIndexValue => "invalid @index value".toList
  | .invalidNestValue => "invalid @nest value".toList
  | .invalidPrefixValue => "invalid @prefix value".toList
  | .invalidPropagateValue => "invalid @propagate value".toList
  | .invalidProtectedValue => "invalid @protected value".toList
  | .invalidReverseValue => "invalid @reverse value".toList
  | .invalidVersionValue => "invalid @version value".toList
  | .invalidBaseDirection => "invalid base direction".toList
  | .invalidBaseIri => "invalid base IRI".toList
  | .invalidContainerMapping => "invalid container mapping".toList
  | .invalidContextEntry => "invalid context entry".toList
  | .invalidContextNullification => "invalid context nullification".toList
  | .invalidDefaultLanguage => "invalid default language".toList
  | .invalidIriMapping => "invalid IRI mapping".toList
  | .invalidJsonLiteral => "invalid JSON literal".toList
  | .invalidKeywordAlias => "invalid keyword alias".toList
  | .invalidLanguageMapValue => "invalid language map value".toList
  | .invalidLanguageMapping => "invalid language mapping".toList
  | .invalidLanguageTaggedString => "invalid language-tagged string".toList
  | .invalidLanguageTaggedValue => "invalid language-tagged value".toList
  | .invalidLocalContext => "invalid local context".toList
  | .invalidRemoteContext => "invalid remote context".toList
  | .invalidReverseProperty => "invalid reverse property".toList
  | .invalidReversePropertyMap => "invalid reverse property map".toList
  | .invalidReversePropertyValue => "invalid reverse property value".toList
  | .invalidScopedContext => "invalid scoped context".toList
  | .invalidScriptElement => "invalid script element".toList
  | .invalidSetOrListObject => "invalid set or list object".toList
  | .invalidTermDefinition => "invalid term definition".toList
  | .invalidTypeMapping => "invalid type mapping".toList
  | .invalidTypeValue => "invalid type value".toList
  | .invalidTypedValue => "invalid typed value".toList
  | .invalidValueObject => "invalid value object".toList
  | .invalidValueObjectValue => "invalid value object value".toList
  | .invalidVocabMapping => "invalid vocab mapping".toList
  | .iriConfusedWithPrefix => "IRI confused with prefix".toList
  | .keyExpansionFailed => "key expansion failed".toList
  | .keywordRedefinition => "keyword redefinition".toList
  | .loadingDocumentFailed => "loading document failed".toList
  | .loadingRemoteContextFailed => "loading remote context failed".toList
  | .multipleContextLinkHeaders => "multiple context link headers".toList
  | .processingModeConflict => "processing mode conflict".toList
  | .protectedTermRedefinition => "protected term redefinition".toList
  | .duplicateKey => "duplicate key".toList

/-- The arms of `TryFrom<&str>`, error.rs:233-293. -/
def errorCodeTable : List (Str × ErrorCode) :=
  [("colliding keywords".toList, .collidingKeywords),
   ("conflicting indexes".toList, .conflictingIndexes),
   ("context overflow".toList, .contextOverflow),
   ("cyclic IRI mapping".toList, .cyclicIriMapping),
   ("invalid @id value".toList, .invalidIdValue),
   ("invalid @import value".toList, .invalidImportValue),
   ("invalid @included value".toList, .invalidIncludedValue),
   ("invalid @index value".toList, .invalidIndexValue),
   ("invalid @nest value".toList, .invalidNestValue),
   ("invalid @prefix value".toList, .invalidPrefixValue),
   ("invalid @propagate value".toList, .invalidPropagateValue),
   ("invalid @protected value".toList, .invalidProtectedValue),
   ("invalid @reverse value".toList, .invalidReverseValue),
   ("invalid @version value".toList, .invalidVersionValue),
   ("invalid base direction".toList, .invalidBaseDirection),
   ("invalid base IRI".toList, .invalidBaseIri),
   ("invalid container mapping".toList, .invalidContainerMapping),
   ("invalid context entry".toList, .invalidContextEntry),
   ("invalid context nullification".toList, .invalidContextNullification),
   ("invalid default language".toList, .invalidDefaultLanguage),
   ("invalid IRI mapping".toList, .invalidIriMapping),
   ("invalid JSON literal".toList, .invalidJsonLiteral),
   ("invalid keyword alias".toList, .invalidKeywordAlias),
   ("invalid language map value".toList, .invalidLanguageMapValue),
   ("invalid language mapping".toList, .invalidLanguageMapping),
   ("invalid language-tagged string".toList, .invalidLanguageTaggedString),
   ("invalid language-tagged value".toList, .invalidLanguageTaggedValue),
   ("invalid local context".toList, .invalidLocalContext),
   ("invalid remote context".toList, .invalidRemoteContext),
   ("invalid reverse property".toList, .invalidReverseProperty),
   ("invalid reverse property map".toList, .invalidReversePropertyMap),
   ("invalid reverse property value".toList, .invalidReversePropertyValue),
   ("invalid scoped context".toList, .invalidScopedContext),
   ("invalid script element".toList, .invalidScriptElement),
   ("invalid set or list object".toList, .invalidSetOrListObject),
   ("invalid term definition".toList, .invalidTermDefinition),
   ("invalid type mapping".toList, .invalidTypeMapping),
   ("invalid type value".toList, .invalidTypeValue),
   ("invalid typed value".toList, .invalidTypedValue),
   ("invalid value object".toList, .invalidValueObject),
   ("invalid value object value".toList, .invalidValueObjectValue),
   ("invalid vocab mapping".toList, .invalidVocabMapping),
   ("IRI confused with prefix".toList, .iriConfusedWithPrefix),
   ("key expansion failed".toList, .keyExpansionFailed),
   ("keyword redefinition".toList, .keywordRedefinition),
   ("loading document failed".toList, .loadingDocumentFailed),
   ("loading remote context failed".toList, .loadingRemoteContextFailed),
   ("multiple context link headers".toList, .multipleContextLinkHeaders),
   ("processing mode conflict".toList, .processingModeConflict),
   ("protected term redefinition".toList, .protectedTermRedefinition)]

/-- `TryFrom<&str> for ErrorCode`, error.rs:233-293. -/
def ErrorCode.tryFrom (s : Str) : Option ErrorCode := lookupKey s errorCodeTable

/-! ## The codes of errors

Panics and the bound on nested calls have no code. -/

/-- `Error::code`, crates/context-processing/src/lib.rs:119-146. (`InvalidProtectedValue`, whose code is
`InvalidPropagateValue`, is not returned anywhere and left out of `CtxErr`.) -/
def CtxErr.code : CtxErr → Option ErrorCode
  | .invalidContextNullification => some .invalidContextNullification
  | .loadingDocumentFailed => some .loadingDocumentFailed
  | .processingModeConflict => some .processingModeConflict
  | .invalidContextEntry => some .invalidContextEntry
  | .invalidImportValue => some .invalidImportValue
  | .invalidRemoteContext => some .invalidRemoteContext
  | .invalidBaseIri => some .invalidBaseIri
  | .invalidVocabMapping => some .invalidVocabMapping
  | .cyclicIriMapping => some .cyclicIriMapping
  | .invalidTermDefinition => some .invalidTermDefinition
  | .keywordRedefinition => some .keywordRedefinition
  | .invalidTypeMapping => some .invalidTypeMapping
  | .invalidReverseProperty => some .invalidReverseProperty
  | .invalidIriMapping => some .invalidIriMapping
  | .invalidKeywordAlias => some .invalidKeywordAlias
  | .invalidContainerMapping => some .invalidContainerMapping
  | .invalidScopedContext => some .invalidScopedContext
  | .protectedTermRedefinition => some .protectedTermRedefinition
  | .contextLoadingFailed => some .loadingRemoteContextFailed
  | .contextExtractionFailed => some .loadingRemoteContextFailed
  | .forbiddenVocab => some .invalidVocabMapping
  | .panic => none
  | .fuel => none

/-- `InvalidContext::code`, crates/syntax/src/context/try_from_json.rs:30-41. -/
def CtxReadErr.code : CtxReadErr → ErrorCode
  | .invalidIriRef _ => .invalidIriMapping
  | .unexpected => .invalidContextEntry
  | .invalidDirection => .invalidBaseDirection
  | .duplicateKey => .duplicateKey
  | .invalidTermDefinition => .invalidTermDefinition
  | .invalidNestValue _ => .invalidNestValue

/-- `InvalidValue::code`, crates/expansion/src/value.rs:37-50. -/
def ValueErr.code : ValueErr → ErrorCode
  | .languageTaggedString => .invalidLanguageTaggedString
  | .baseDirection => .invalidBaseDirection
  | .indexValue => .invalidIndexValue
  | .typedValue => .invalidTypedValue
  | .valueObject => .invalidValueObject
  | .valueObjectValue => .invalidValueObjectValue
  | .languageTaggedValue => .invalidLanguageTaggedValue
  | .forbiddenVocab => .invalidTypeValue

/-- `LiteralExpansionError::code`, crates/expansion/src/literal.rs:71-78. -/
def LitErr.code : LitErr → Option ErrorCode
  | .invalidTypeValue => some .invalidTypeValue
  | .forbiddenVocab => some .invalidTypeValue
  | .panic => none

/-- `Error::code`, crates/expansion/src/error.rs:67-90. -/
def XErr.code : XErr → Option ErrorCode
  | .contextSyntax e => some e.code
  | .contextProcessing e => e.code
  | .invalidIndexValue => some .invalidIndexValue
  | .invalidSetOrListObject => some .invalidSetOrListObject
  | .invalidReversePropertyMap => some .invalidReversePropertyMap
  | .invalidTypeValue => some .invalidTypeValue
  | .keyExpansionFailed _ => some .keyExpansionFailed
  | .invalidReversePropertyValue => some .invalidReversePropertyValue
  | .invalidLanguageMapValue => some .invalidLanguageMapValue
  | .collidingKeywords => some .collidingKeywords
  | .invalidIdValue => some .invalidIdValue
  | .invalidIncludedValue => some .invalidIncludedValue
  | .invalidReverseValue => some .invalidReverseValue
  | .invalidNestValue => some .invalidNestValue
  | .duplicateKey _ => some .duplicateKey
  | .literal e => e.code
  | .value e => some e.code
  | .forbiddenVocab => some .invalidVocabMapping
  | .fuel => none

/-- `Error::code`, crates/compaction/src/lib.rs:44-52. -/
def CompErr.code : CompErr → Option ErrorCode
  | .iriConfusedWithPrefix => some .iriConfusedWithPrefix
  | .invalidNestValue => some .invalidNestValue
  | .context e => e.code
  | .panic => none
  | .fuel => none

/-- `ExpandError::code`, `CompactError::code` and `FlattenError::code`, src/processor/mod.rs:166-176, 206-217
and 243-254. -/
def PErr.code : PErr → Option ErrorCode
  | .contextLoading => some .loadingRemoteContextFailed
  | .contextProcessing e => e.code
  | .expansion e => e.code
  | .compaction e => e.code
  | .conflictingIndexes (.conflict ..) => some .conflictingIndexes
  | .conflictingIndexes .panic => none
  | .panic => none

end JsonLd
