import Verif.Model.AddValue
/-!
# Expansion of values (`crates/expansion/src/{value,literal}.rs`)

Warnings are left out. Language tags are kept as their texts.
-/

namespace JsonLd

/-- `InvalidValue`, crates/expansion/src/value.rs:9-35. -/
inductive ValueErr where
  | languageTaggedString | baseDirection | indexValue | typedValue | valueObject | valueObjectValue
  | languageTaggedValue | forbiddenVocab
  deriving DecidableEq, Repr

/-- `LiteralExpansionError`, literal.rs:62-69, with `panic` for the `unwrap`s of lines 126 and 127. -/
inductive LitErr where
  | invalidTypeValue | forbiddenVocab | panic
  deriving DecidableEq, Repr

/-- `ExpandedEntry`, element.rs:13: the key, what it expands to, and the value. -/
structure XEntry where
  key : Str
  term : CTerm
  value : Json

/-- The local variables of `expand_value`, value.rs:75-82. -/
structure ValueState where
  isJson : Bool
  ty : Option Str := none
  index : Option Str := none
  language : Option Str := none
  direction : Option Direction := none

/-- The entry `@type` of a value object, value.rs:132-155. -/
def valueType (env : IriEnv) (vocab : Action) (tsc : ACtx) (s : ValueState) :
    Json → Except ValueErr ValueState
  | .str t =>
    match expandIri env tsc (some (.ofStr t)) true (some vocab) with
    | .error _ => .error .forbiddenVocab
    | .ok (some (.keyword .json)) => .ok { s with isJson := true }
    | .ok (some (.id (.iri i))) => .ok { s with isJson := false, ty := some i }
    | .ok _ => .error .typedValue
  | _ => .error .typedValue

/-- The entry `@language` of a value object, value.rs:87-102. -/
def valueLanguage (s : ValueState) : Json → Except ValueErr ValueState
  | .str l => .ok (if l = "@none".toList then s else { s with language := some l })
  | _ => .error .languageTaggedString

/-- The entry `@direction` of a value object, value.rs:104-120. -/
def valueDirection (s : ValueState) : Json → Except ValueErr ValueState
  | .str d =>
    match Direction.tryFrom d with
    | some d => .ok { s with direction := some d }
    | none => .error .baseDirection
  | _ => .error .baseDirection

/-- The entry `@index` of a value object, value.rs:122-130. -/
def valueIndex (s : ValueState) : Json → Except ValueErr ValueState
  | .str i => .ok { s with index := some i }
  | _ => .error .indexValue

/-- The body of the loop of `expand_value`, value.rs:84-161. -/
def valueStep (env : IriEnv) (vocab : Action) (tsc : ACtx) (s : ValueState) (e : XEntry) :
    Except ValueErr ValueState :=
  match e.term with
  | .keyword .language => valueLanguage s e.value
  | .keyword .direction => valueDirection s e.value
  | .keyword .index => valueIndex s e.value
  | .keyword .type => valueType env vocab tsc s e.value
  | .keyword .value => .ok s
  | _ => .error .valueObject

/-- The conversion of scalars, value.rs:178-186. -/
def scalarOf : Json → Except ValueErr Literal
  | .null => .ok .null
  | .str s => .ok (.str s)
  | .num n => .ok (.num n)
  | .bool b => .ok (.bool b)
  | _ => .error .valueObjectValue

/-- The part of `expand_value` for values with a language or a direction, value.rs:202-234. -/
def langValue (s : ValueState) (l : Literal) : Except ValueErr (Option Obj) :=
  if s.ty.isSome then .error .valueObject
  else match l with
    | .str x =>
      match LangString.new x s.language s.direction with
      | .ok r => .ok (some (.value s.index (.langString r)))
      | .error _ => .error .languageTaggedValue
    | _ => .error .languageTaggedValue

/-- The part of `expand_value` after the loop, value.rs:163-244. -/
def valueResult (s : ValueState) (v : Json) : Except ValueErr (Option Obj) :=
  if s.isJson then
    if s.language.isSome || s.direction.isSome then .error .valueObject
    else .ok (some (.value s.index (.json v)))
  else match scalarOf v with
    | .error e => .error e
    | .ok .null => .ok none
    | .ok l =>
      if s.language.isSome || s.direction.isSome then langValue s l
      else .ok (some (.value s.index (.literal l s.ty)))

/-- `expand_value`, value.rs:61-245. -/
def expandValue (env : IriEnv) (vocab : Action) (inputType : Option CTerm) (tsc : ACtx)
    (es : List XEntry) (v : Json) : Except ValueErr (Option Obj) :=
  match es.foldlM (valueStep env vocab tsc) { isJson := decide (inputType = some (.keyword .json)) } with
  | .error e => .error e
  | .ok s => valueResult s v

/-- `node_id_of_term`, node.rs:20-26. -/
def nodeIdOfTerm : CTerm → Option Id
  | .null => none
  | .id i => some i
  | .keyword k => some (.invalid k.intoStr)

/-- `Node::new` and `node.id = …`. -/
def idNode (i : Option Id) : Obj := .node (.mk none i none none none [] none)

/-- The language of a string, literal.rs:182-195. -/
def literalLanguage (c : ACtx) (d : Option TermDef) : Option Str :=
  match d.bind (·.language) with
  | some l => l
  | none => c.language

/-- The direction of a string, literal.rs:200-209. -/
def literalDirection (c : ACtx) (d : Option TermDef) : Option Direction :=
  match d.bind (·.direction) with
  | some l => l
  | none => c.direction

/-- A string without type, literal.rs:178-221. -/
def untypedString (c : ACtx) (d : Option TermDef) (s : Str) : Obj :=
  match LangString.new s (literalLanguage c d) (literalDirection c d) with
  | .ok l => .value none (.langString l)
  | .error s => .value none (.literal (.str s) none)

/-- A literal without type, literal.rs:176-222 and 233. -/
def untypedLiteral (c : ACtx) (d : Option TermDef) : Literal → Obj
  | .str s => untypedString c d s
  | l => .value none (.literal l none)

/-- `expand_literal`, literal.rs:90-236. The value is not `null`. -/
def expandLiteral (env : IriEnv) (vocab : Action) (c : ACtx) (prop : Option Str) (l : Literal) :
    Except LitErr Obj :=
  let d := prop.bind c.get
  match d.bind (·.typ), l with
  | some .id, .str s =>
    match expandIri env c (some (.ofStr s)) true none with
    | .ok (some t) => .ok (idNode (nodeIdOfTerm t))
    | _ => .error .panic
  | some .vocab, .str s =>
    match expandIri env c (some (.ofStr s)) true (some vocab) with
    | .error _ => .error .forbiddenVocab
    | .ok t => .ok (idNode (t.bind nodeIdOfTerm))
  | some .json, _ => .error .invalidTypeValue
  | some (.iri t), l => .ok (.value none (.literal l (some t)))
  | _, l => .ok (untypedLiteral c d l)

end JsonLd
