import Verif.Model.Ctx
import Verif.Model.DocJson
/-!
# Reading contexts from JSON and writing them

(`crates/syntax/src/try_from_json.rs`, `context/try_from_json.rs`, `into_json.rs`, and
`crates/core/src/loader/mod.rs`.)

`isRef` stands for `IriRef::new(s).is_ok()` of an external crate.
-/

namespace JsonLd

/-- `InvalidContext`, context/try_from_json.rs:9-28 (the kinds in `Unexpected` are left out). -/
inductive CtxReadErr where
  | invalidIriRef (s : Str)
  | unexpected
  | invalidDirection
  | duplicateKey
  | invalidTermDefinition
  | invalidNestValue (s : Str)
  deriving DecidableEq, Repr

/-! ## Reading -/

/-- `Nullable::try_from_json`, syntax/src/try_from_json.rs:82-91. -/
def readNullable {α : Type} (f : Json → Except CtxReadErr α) : Json → Except CtxReadErr (Option α)
  | .null => .ok none
  | j => (f j).map some

/-- `bool::try_from_json`, syntax/src/try_from_json.rs:12-24. -/
def readBool : Json → Except CtxReadErr Bool
  | .bool b => .ok b
  | _ => .error .unexpected

/-- A text: `LenientLangTagBuf::try_from_json`, syntax/src/try_from_json.rs:43-58 (any text is
accepted), and for `Vocab`, `Key` and `Index`, context/try_from_json.rs:199-211, 227-253. -/
def readText : Json → Except CtxReadErr Str
  | .str s => .ok s
  | _ => .error .unexpected

/-- `Direction::try_from_json`, syntax/src/try_from_json.rs:60-80. -/
def readDir : Json → Except CtxReadErr Direction
  | .str s => match Direction.tryFrom s with
    | some d => .ok d
    | none => .error .invalidDirection
  | _ => .error .unexpected

/-- `ContainerKind::try_from_json`, syntax/src/try_from_json.rs:115-130. -/
def readKind : Json → Except CtxReadErr ContainerKind
  | .str s => match ContainerKind.tryFrom s with
    | some k => .ok k
    | none => .error .invalidTermDefinition
  | _ => .error .unexpected

/-- `Container::try_from_json`, syntax/src/try_from_json.rs:96-113. -/
def readContainer : Json → Except CtxReadErr SynContainer
  | .arr l => (l.mapM readKind).map .many
  | j => (readKind j).map .one

/-- `TryFrom<&str> for TypeKeyword`, term_definition/type_.rs:128-150. -/
def STypeKeyword.tryFrom (s : Str) : Option STypeKeyword :=
  match Keyword.tryFrom s with
  | some .id => some .id
  | some .json => some .json
  | some .none => some .none
  | some .vocab => some .vocab
  | _ => Option.none

/-- `From<String> for Type`, term_definition/type_.rs:68-75. -/
def SType.ofStr (s : Str) : SType :=
  match STypeKeyword.tryFrom s with
  | some k => .keyword k
  | none => .term s

/-- `Type::as_str`, term_definition/type_.rs:36-41. -/
def SType.str : SType → Str
  | .keyword k => k.keyword.intoStr
  | .term s => s

/-- `Nest::as_str`, term_definition/nest.rs:14-19. -/
def SNest.str : SNest → Str
  | .nest => "@nest".toList
  | .term s => s

/-- `Id::try_from_json`, context/try_from_json.rs:213-225. -/
def readSId (j : Json) : Except CtxReadErr SId := (readText j).map SId.ofStr

/-- `Type::try_from_json`, context/try_from_json.rs:107-119. -/
def readSType (j : Json) : Except CtxReadErr SType := (readText j).map SType.ofStr

/-- `TryFrom<String> for Nest`, term_definition/nest.rs:51-63. -/
def SNest.ofStr (s : Str) : Except CtxReadErr SNest :=
  if s = "@nest".toList then .ok .nest
  else if isKeyword s then .error (.invalidNestValue s)
  else .ok (.term s)

/-- `Nest::try_from_json`, context/try_from_json.rs:255-269. -/
def readNest (j : Json) : Except CtxReadErr SNest := (readText j).bind SNest.ofStr

/-- `TypeContainer::try_from_json`, context/try_from_json.rs:121-136. -/
def readTypeContainer : Json → Except CtxReadErr Unit
  | .str s => if Keyword.tryFrom s = some .set then .ok () else .error .invalidTermDefinition
  | _ => .error .unexpected

/-- The loop of `definition::Type::try_from_json`, context/try_from_json.rs:147-165. -/
def readTypeEntries (container : Option Unit) (prot : Option Bool) :
    List (Str × Json) → Except CtxReadErr (Option Unit × Option Bool)
  | [] => .ok (container, prot)
  | (k, v) :: m => match Keyword.tryFrom k with
    | some .container => (readTypeContainer v).bind fun c =>
      if container.isSome then .error .duplicateKey else readTypeEntries (some c) prot m
    | some .protected_ => (readBool v).bind fun b =>
      if prot.isSome then .error .duplicateKey else readTypeEntries container (some b) m
    | _ => .error .invalidTermDefinition

/-- `definition::Type::try_from_json`, context/try_from_json.rs:138-181. -/
def readTypeDef : Json → Except CtxReadErr (Option Bool)
  | .obj m => (readTypeEntries none none m).bind fun r =>
    if r.1.isSome then .ok r.2 else .error .invalidTermDefinition
  | _ => .error .unexpected

/-- `Version::try_from_json`, context/try_from_json.rs:183-197. -/
def readVersion : Json → Except CtxReadErr Unit
  | .num n => if n = "1.1".toList then .ok () else .error .invalidTermDefinition
  | _ => .error .unexpected

section
variable (isRef : Str → Bool)

/-- `IriRefBuf::new`, external, and the error made of its, context/try_from_json.rs:298-301. -/
def refOfStr (s : Str) : Except CtxReadErr Str :=
  if isRef s then .ok s else .error (.invalidIriRef s)

/-- `IriRefBuf::try_from_json`, syntax/src/try_from_json.rs:26-41. -/
def readRef (j : Json) : Except CtxReadErr Str := (readText j).bind (refOfStr isRef)

/-- An entry of a context definition that is no term definition, context/try_from_json.rs:306-325;
`none` for other keys. -/
def readDefKey (v : Json) (d : SDef) : Keyword → Option (Except CtxReadErr SDef)
  | .base => some ((readNullable (readRef isRef) v).map fun x => { d with base := some x })
  | .import_ => some ((readRef isRef v).map fun x => { d with import_ := some x })
  | .language => some ((readNullable readText v).map fun x => { d with language := some x })
  | .direction => some ((readNullable readDir v).map fun x => { d with direction := some x })
  | .propagate => some ((readBool v).map fun x => { d with propagate := some x })
  | .protected_ => some ((readBool v).map fun x => { d with protected_ := some x })
  | .type => some ((readTypeDef v).map fun x => { d with type := some x })
  | .version => some ((readVersion v).map fun _ => { d with version := true })
  | .vocab => some ((readNullable readText v).map fun x => { d with vocab := some x })
  | _ => none

/-- An entry of an expanded term definition other than `@context`, context/try_from_json.rs:61-91. -/
def readExpKey (v : Json) (x : SExp) : Keyword → Except CtxReadErr SExp
  | .id => (readNullable readSId v).map fun y => { x with id := some y }
  | .type => (readNullable readSType v).map fun y => { x with type := some y }
  | .reverse => (readText v).map fun y => { x with reverse := some y }
  | .index => (readText v).map fun y => { x with index := some y }
  | .language => (readNullable readText v).map fun y => { x with language := some y }
  | .direction => (readNullable readDir v).map fun y => { x with direction := some y }
  | .container => (readNullable readContainer v).map fun y => { x with container := some y }
  | .nest => (readNest v).map fun y => { x with nest := some y }
  | .prefix_ => (readBool v).map fun y => { x with prefix_ := some y }
  | .propagate => (readBool v).map fun y => { x with propagate := some y }
  | .protected_ => (readBool v).map fun y => { x with protected_ := some y }
  | _ => .error .invalidTermDefinition

mutual
/-- `Context::try_from_json`, context/try_from_json.rs:271-289. -/
def readCtx : Json → Except CtxReadErr SCtx
  | .arr l => (readEntries l).map .many
  | .null => .ok (.one .null)
  | .str s => (refOfStr isRef s).map fun r => .one (.ref r)
  | .obj m => (readDef .empty m).map fun d => .one (.defn d)
  | _ => .error .unexpected
/-- The items of an array, context/try_from_json.rs:277-284. -/
def readEntries : List Json → Except CtxReadErr (List SEntry)
  | [] => .ok []
  | j :: l => (readEntry j).bind fun e => (readEntries l).map (e :: ·)
/-- `ContextEntry::try_from_json`, context/try_from_json.rs:291-355. -/
def readEntry : Json → Except CtxReadErr SEntry
  | .null => .ok .null
  | .str s => (refOfStr isRef s).map .ref
  | .obj m => (readDef .empty m).map .defn
  | _ => .error .unexpected
/-- The entries of a context definition, context/try_from_json.rs:305-339. -/
def readDef (d : SDef) : List (Str × Json) → Except CtxReadErr SDef
  | [] => .ok d
  | (k, v) :: m => match (Keyword.tryFrom k).bind (readDefKey isRef v d) with
    | some r => r.bind fun d' => readDef d' m
    | none => (readTerm v).bind fun t =>
      if (lookupKey k d.bindings).isSome then .error .duplicateKey
      else readDef { d with bindings := d.bindings ++ [(k, t)] } m
/-- A term definition or null, context/try_from_json.rs:328-331 and 48-105. -/
def readTerm : Json → Except CtxReadErr (Option STerm)
  | .null => .ok none
  | .str s => .ok (some (.simple s))
  | .obj m => (readExp .empty m).map fun x => some (.expanded x)
  | _ => .error .unexpected
/-- The entries of an expanded term definition, context/try_from_json.rs:59-94. -/
def readExp (x : SExp) : List (Str × Json) → Except CtxReadErr SExp
  | [] => .ok x
  | (k, v) :: m => match Keyword.tryFrom k with
    | some .context => (readCtx v).bind fun c => readExp { x with context := some c } m
    | some k => (readExpKey v x k).bind fun x' => readExp x' m
    | none => .error .invalidTermDefinition
end

/-! ## Extracting the context of a document -/

/-- `ExtractContextError`, loader/mod.rs:500-518. -/
inductive ExtractErr where
  | unexpected | noContext | duplicateContext
  | syntax (e : CtxReadErr)
  deriving DecidableEq, Repr

/-- `ExtractContext for json_syntax::Value`, loader/mod.rs:534-552. -/
def extractContext : Json → Except ExtractErr SCtx
  | .obj m => match removeUnique "@context".toList m with
    | .error _ => .error .duplicateContext
    | .ok (some j, _) => match readCtx isRef j with
      | .ok c => .ok c
      | .error e => .error (.syntax e)
    | .ok (none, _) => .error .noContext
  | _ => .error .unexpected
end

/-! ## Writing -/

/-- `Nullable::into_json`, into_json.rs:66-73. -/
def nullableJson {α : Type} (f : α → Json) : Option α → Json
  | none => .null
  | some a => f a

/-- `if let Some(x) = .. { object.insert(key, x.into_json()) }`. -/
def entryJson {α : Type} (k : Str) (f : α → Json) : Option α → List (Str × Json)
  | none => []
  | some a => [(k, f a)]

/-- `Container::into_json`, into_json.rs:149-166. -/
def SynContainer.toJson : SynContainer → Json
  | .one k => .str k.asStr
  | .many ks => .arr (ks.map fun k => .str k.asStr)

/-- `definition::Type::into_json`, into_json.rs:99-117. -/
def typeDefJson (prot : Option Bool) : Json :=
  .obj (jObject (("@container".toList, .str "@set".toList) :: entryJson "@protected".toList .bool prot))

/-- `Direction::into_json`, into_json.rs:93-97. -/
def dirJson (d : Direction) : Json := .str d.asStr

mutual
/-- `Context::into_json`, into_json.rs:177-186. -/
def SCtx.toJson : SCtx → Json
  | .one e => e.toJson
  | .many es => .arr (sentriesToJson es)
/-- A list of entries, into_json.rs:182. -/
def sentriesToJson : List SEntry → List Json
  | [] => []
  | e :: es => e.toJson :: sentriesToJson es
/-- `ContextEntry::into_json`, into_json.rs:188-196. -/
def SEntry.toJson : SEntry → Json
  | .null => .null
  | .ref s => .str s
  | .defn d => d.toJson
/-- `Definition::into_json`, into_json.rs:198-244. -/
def SDef.toJson : SDef → Json
  | ⟨base, import_, language, direction, propagate, prot, type, version, vocab, bindings⟩ =>
    .obj (jObject (
      entryJson "@base".toList (nullableJson .str) base ++
      entryJson "@import".toList .str import_ ++
      entryJson "@language".toList (nullableJson .str) language ++
      entryJson "@direction".toList (nullableJson dirJson) direction ++
      entryJson "@propagate".toList .bool propagate ++
      entryJson "@protected".toList .bool prot ++
      entryJson "@type".toList typeDefJson type ++
      (if version then [("@version".toList, .num "1.1".toList)] else []) ++
      entryJson "@vocab".toList (nullableJson .str) vocab ++
      bindingsToJson bindings))
/-- The term definitions, into_json.rs:238-240. -/
def bindingsToJson : List (Str × Option STerm) → List (Str × Json)
  | [] => []
  | (k, none) :: bs => (k, .null) :: bindingsToJson bs
  | (k, some t) :: bs => (k, t.toJson) :: bindingsToJson bs
/-- `TermDefinition::into_json`, into_json.rs:246-259. -/
def STerm.toJson : STerm → Json
  | .simple s => .str s
  | .expanded x => x.toJson
/-- `Expanded::into_json`, into_json.rs:273-330. -/
def SExp.toJson : SExp → Json
  | ⟨id, type, context, reverse, index, language, direction, container, nest, pfx, propagate, prot⟩ =>
    .obj (jObject (
      entryJson "@id".toList (nullableJson fun i => .str i.str) id ++
      entryJson "@type".toList (nullableJson fun t => .str t.str) type ++
      optCtxJson context ++
      entryJson "@reverse".toList .str reverse ++
      entryJson "@index".toList .str index ++
      entryJson "@language".toList (nullableJson .str) language ++
      entryJson "@direction".toList (nullableJson dirJson) direction ++
      entryJson "@container".toList (nullableJson SynContainer.toJson) container ++
      entryJson "@nest".toList (fun n => .str n.str) nest ++
      entryJson "@prefix".toList .bool pfx ++
      entryJson "@propagate".toList .bool propagate ++
      entryJson "@protected".toList .bool prot))
/-- The scoped context, into_json.rs:285-287. -/
def optCtxJson : Option SCtx → List (Str × Json)
  | none => []
  | some c => [("@context".toList, c.toJson)]
end

end JsonLd
