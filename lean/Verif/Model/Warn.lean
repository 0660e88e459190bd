import Verif.Model.Expand
/-!
# Warnings

What is given to the warning handler (`env.warnings.handle`) by IRI expansion
(`crates/context-processing/src/algorithm/iri.rs:231-364`), by the loop over the keys of an object
(`crates/expansion/src/element.rs:316-351`) and by the expansion of value objects
(`crates/expansion/src/value.rs:61-245`). Every function returns its result together with the
warnings in the order in which they are handled. The handler has no other effect
(`crates/core/src/warning.rs:8-11`, it does not return a value).

Not modelled: the warnings of context processing, and those of the other parts of the expansion of
nodes (which call the functions below; language maps are in `Verif.Model.WarnMap`, literals,
identifiers and types in `Verif.Model.WarnNode`).
-/

namespace JsonLd

/-- `Warning`, crates/expansion/src/warning.rs:7-13. The reason in `MalformedLanguageTag` is left
out. -/
inductive Warn where
  | malformedIri (s : Str)
  | emptyTerm
  | blankProperty (b : Str)
  | malformedTag (s : Str)
  deriving DecidableEq, Repr

/-- A result and the warnings handled before it was returned. -/
abbrev Warned (ε α : Type) := Except ε α × List Warn

/-- `?`: an error ends the function, the warnings stay. -/
def Warned.andThen {ε α β : Type} (x : Warned ε α) (f : α → Warned ε β) : Warned ε β :=
  match x.1 with
  | .ok a => ((f a).1, x.2 ++ (f a).2)
  | .error e => (.error e, x.2)

/-- `invalid_iri_simple`, iri.rs:353-364. -/
def invalidIriW (s : Str) : Warned Unit (Option CTerm) :=
  (.ok (some (.id (.invalid s))), [.malformedIri s])

/-- The vocabulary mapping and the base IRI, iri.rs:303-349. -/
def expandTailW (env : IriEnv) (c : ACtx) (s : Str) (docRel : Bool) (vocab : Option Action) :
    Warned Unit (Option CTerm) :=
  match vocab, c.vocab with
  | some a, some (.id m) =>
    match a with
    | .keep => (.ok (some (.id (Id.classify env (m.str ++ s)))), [])
    | .drop => (.ok none, [])
    | .reject => (.error (), [])
  | some _, some _ => invalidIriW s
  | _, _ =>
    if docRel && env.isRef s then
      match resolveIri env s c.base with
      | some iri => (.ok (some (.id (.iri iri))), [])
      | none => invalidIriW s
    else invalidIriW s

/-- `expand_iri_simple` on a string, iri.rs:245-350. -/
def expandStrW (env : IriEnv) (c : ACtx) (s : Str) (docRel : Bool) (vocab : Option Action) :
    Warned Unit (Option CTerm) :=
  if isKeywordLike s then (.ok (some .null), [])
  else match expandTerm c s vocab with
    | some t => (.ok (some t), [])
    | none =>
      if colonInside s then
        if env.isBlank s then (.ok (some (.id (.blank s))), [])
        else if s = ['_', ':'] then (.ok (some (.id (.invalid s))), [])
        else match (compactIri env s).bind fun q => expandPrefix env c q.1 q.2 with
          | some t => (.ok (some t), [])
          | none =>
            if env.isIri s then (.ok (some (.id (.iri s))), [])
            else expandTailW env c s docRel vocab
      else expandTailW env c s docRel vocab

/-- `expand_iri_simple`, iri.rs:231-351. -/
def expandIriW (env : IriEnv) (c : ACtx) (v : Option Expandable) (docRel : Bool)
    (vocab : Option Action) : Warned Unit (Option CTerm) :=
  match v with
  | none => (.ok (some .null), [])
  | some (.keyword k) => (.ok (some (.keyword k)), [])
  | some (.string s) => expandStrW env c s docRel vocab

/-- `expand_iri(env, context, key, false, Some(options.policy.vocab))?`, element.rs:325-331. -/
def xKeyW (E : XEnv) (c : ACtx) (s : Str) : Warned XErr (Option CTerm) :=
  match expandIriW E.toIriEnv c (some (.ofStr s)) false (some E.opts.vocab) with
  | (.ok t, w) => (.ok t, w)
  | (.error _, w) => (.error .forbiddenVocab, w)

/-- The warning for a key that stands for a blank node, element.rs:342-345. -/
def blankWarn : Option CTerm → List Warn
  | some (.id (.blank b)) => [.blankProperty b]
  | _ => []

/-- The loop over the entries of an object, element.rs:320-351. -/
def xEntriesW (E : XEnv) (c : ACtx) : List (Str × Json) → Warned XErr (List XEntry)
  | [] => (.ok [], [])
  | (k, v) :: m =>
    Warned.andThen (.ok (), if k.isEmpty then [.emptyTerm] else []) fun _ =>
      (xKeyW E c k).andThen fun t =>
        Warned.andThen (.ok (), blankWarn t) fun _ =>
          (xEntriesW E c m).andThen fun es =>
            (.ok (match t with
              | some t => ⟨k, t, v⟩ :: es
              | none => es), [])

/-- The entry `@type` of a value object, value.rs:132-155. -/
def valueTypeW (env : IriEnv) (vocab : Action) (tsc : ACtx) (s : ValueState) :
    Json → Warned ValueErr ValueState
  | .str t =>
    match expandIriW env tsc (some (.ofStr t)) true (some vocab) with
    | (.error _, w) => (.error .forbiddenVocab, w)
    | (.ok (some (.keyword .json)), w) => (.ok { s with isJson := true }, w)
    | (.ok (some (.id (.iri i))), w) => (.ok { s with isJson := false, ty := some i }, w)
    | (.ok _, w) => (.error .typedValue, w)
  | _ => (.error .typedValue, [])

/-- The body of the loop of `expand_value`, value.rs:84-161. -/
def valueStepW (env : IriEnv) (vocab : Action) (tsc : ACtx) (s : ValueState) (e : XEntry) :
    Warned ValueErr ValueState :=
  match e.term with
  | .keyword .language => (valueLanguage s e.value, [])
  | .keyword .direction => (valueDirection s e.value, [])
  | .keyword .index => (valueIndex s e.value, [])
  | .keyword .type => valueTypeW env vocab tsc s e.value
  | .keyword .value => (.ok s, [])
  | _ => (.error .valueObject, [])

/-- The loop of `expand_value`, value.rs:84-161. -/
def valueLoopW (env : IriEnv) (vocab : Action) (tsc : ACtx) :
    List XEntry → ValueState → Warned ValueErr ValueState
  | [], s => (.ok s, [])
  | e :: es, s => (valueStepW env vocab tsc s e).andThen (valueLoopW env vocab tsc es)

/-- The language of a value: `LenientLangTagBuf::new` and the warning, value.rs:207-222. The
argument `tagOk` is whether `LangTag::new` accepts the text. -/
def tagWarn (tagOk : Str → Bool) : Option Str → List Warn
  | some l => if tagOk l then [] else [.malformedTag l]
  | none => []

/-- The part of `expand_value` for values with a language or a direction, value.rs:202-234. -/
def langValueW (tagOk : Str → Bool) (s : ValueState) (l : Literal) : Warned ValueErr (Option Obj) :=
  if s.ty.isSome then (.error .valueObject, [])
  else match l with
    | .str x =>
      match LangString.new x s.language s.direction with
      | .ok r => (.ok (some (.value s.index (.langString r))), tagWarn tagOk s.language)
      | .error _ => (.error .languageTaggedValue, tagWarn tagOk s.language)
    | _ => (.error .languageTaggedValue, [])

/-- The part of `expand_value` after the loop, value.rs:163-244. -/
def valueResultW (tagOk : Str → Bool) (s : ValueState) (v : Json) : Warned ValueErr (Option Obj) :=
  if s.isJson then
    if s.language.isSome || s.direction.isSome then (.error .valueObject, [])
    else (.ok (some (.value s.index (.json v))), [])
  else match scalarOf v with
    | .error e => (.error e, [])
    | .ok .null => (.ok none, [])
    | .ok l =>
      if s.language.isSome || s.direction.isSome then langValueW tagOk s l
      else (.ok (some (.value s.index (.literal l s.ty))), [])

/-- `expand_value`, value.rs:61-245. -/
def expandValueW (env : IriEnv) (tagOk : Str → Bool) (vocab : Action) (inputType : Option CTerm)
    (tsc : ACtx) (es : List XEntry) (v : Json) : Warned ValueErr (Option Obj) :=
  (valueLoopW env vocab tsc es { isJson := decide (inputType = some (.keyword .json)) }).andThen
    fun s => valueResultW tagOk s v

end JsonLd
