import Verif.Model.Inverse
import Verif.Model.Process
/-!
# IRI compaction (`crates/compaction/src/iri.rs`)

The values considered are objects; nodes under reverse properties are wrapped in `Obj.node`.
-/

namespace JsonLd

/-- The external functions: those of context processing and `Iri::relative_to` (IRI, base). -/
structure CompEnv extends ProcEnv where
  relativeTo : Str → Str → Str

/-- `Error`, crates/compaction/src/lib.rs:32-42, with panics and the bound on the nesting. -/
inductive CompErr where
  | iriConfusedWithPrefix | invalidNestValue
  | context (e : CtxErr)
  | panic | fuel
  deriving DecidableEq, Repr

/-- `Options`, crates/compaction/src/lib.rs:69-86. (`compact_to_relative` is never read.) -/
structure CompOpts where
  mode : ProcMode := .v11
  compactArrays : Bool := true
  ordered : Bool := false
  deriving DecidableEq, Repr

/-- `Indexed::index`. -/
def Obj.index : Obj → Option Str
  | .value i _ => i
  | .list i _ => i
  | .node n => n.index

/-- `Any::is_graph`, crates/core/src/object/mod.rs:60-65. -/
def Obj.isGraph : Obj → Bool
  | .node n => n.isGraph
  | _ => false

/-- `Any::id`, crates/core/src/object/mod.rs:30-35. -/
def Obj.nodeId : Obj → Option Id
  | .node n => n.id
  | _ => none

/-- `TypeLangValue`, crates/compaction/src/lib.rs:187-190. -/
inductive TypeLang where
  | type (t : TypeSel)
  | lang (l : LangSel)
  deriving DecidableEq

/-- The type of a list item, iri.rs:147-173. -/
def itemType : Obj → Option TypeMap
  | .value _ (.literal _ (some t)) => some (.iri t)
  | .value _ (.json _) => some .json
  | .value _ _ => none
  | _ => some .id

/-- The language and direction of a list item, iri.rs:147-173. -/
def itemLang : Obj → Option LangDir
  | .value _ (.langString s) => some (some (s.language, s.direction))
  | .value _ (.literal _ none) => some none
  | _ => none

/-- `is_value`, iri.rs:150. -/
def Obj.isVal : Obj → Bool
  | .value _ _ => true
  | _ => false

/-- The common language and direction after an item, iri.rs:175-179. -/
def commonLang (o : Obj) (l : Option LangDir) : Option LangDir :=
  match l with
  | none => itemLang o
  | some x =>
    if o.isVal ∧ (itemLang o).map LangDir.key ≠ some x.key then some (some (none, none)) else some x

/-- The common type after an item, iri.rs:181-185. -/
def commonType (o : Obj) (t : Option (Option TypeMap)) : Option (Option TypeMap) :=
  match t with
  | none => some (itemType o)
  | some x => if x ≠ itemType o then some none else some x

/-- The loop over the items, iri.rs:145-192. -/
def commonLoop : List Obj → Option (Option TypeMap) → Option LangDir →
    Option (Option TypeMap) × Option LangDir
  | [], t, l => (t, l)
  | o :: os, t, l =>
    let l := commonLang o l
    let t := commonType o t
    if l = some (some (none, none)) ∧ t = some none then (t, l) else commonLoop os t l

/-- What is wanted for a list, iri.rs:136-213. -/
def listTypeLang (c : ACtx) (items : List Obj) : TypeLang :=
  let r := if items.isEmpty then (none, some (some (c.language, c.direction))) else commonLoop items none none
  match r.1.getD none with
  | some t => .type (.type t)
  | none => .lang (.lang (r.2.getD (some (none, none))))

/-- The containers for a graph object, iri.rs:214-258. -/
def graphContainers (n : Node) : List Container :=
  (if n.index.isSome then [.graphIndex, .graphIndexSet] else []) ++
  (if n.id.isSome then [.graphId, .graphIdSet] else []) ++
  [.graph, .graphSet, .set] ++
  (if n.index.isNone then [.graphIndex, .graphIndexSet] else []) ++
  (if n.id.isNone then [.graphId, .graphIdSet] else []) ++
  [.index, .indexSet]

/-- Does the value have a language or direction? iri.rs:261. -/
def hasLangDir : Value → Bool
  | .langString s => s.direction.isSome || s.language.isSome
  | _ => false

/-- `Value::typ` as a type mapping, iri.rs:267-270 and object/value.rs:206-212. -/
def Value.typeMap : Value → Option TypeMap
  | .literal _ (some t) => some (.iri t)
  | .json _ => some .json
  | _ => none

/-- The containers for a value, without those in common, iri.rs:132-291. -/
def valueContainers : Option Obj → List Container
  | some (.list i _) => if i.isNone then [.list] else []
  | some (.node n) => if n.isGraph then graphContainers n else [.id, .idSet, .type, .setType, .set]
  | some (.value i v) => (if hasLangDir v && i.isNone then [.language, .languageSet] else []) ++ [.set]
  | none => [.id, .idSet, .type, .setType, .set]

/-- The language and direction of a value. -/
def Value.langDir : Value → LangDir
  | .langString s => some (s.language, s.direction)
  | _ => some (none, none)

/-- What is wanted for a value, iri.rs:132-291. -/
def valueTypeLang (c : ACtx) : Option Obj → Option TypeLang
  | some (.list _ items) => some (listTypeLang c items)
  | some (.value i v) =>
    if hasLangDir v && i.isNone then some (.lang (.lang v.langDir))
    else v.typeMap.map fun t => .type (.type t)
  | _ => some (.type (.type .id))

/-- `has_index`, iri.rs:122 and 129-132. -/
def hasIndex (value : Option Obj) (reverse : Bool) : Bool :=
  !reverse && (value.bind Obj.index).isSome

/-- `is_simple_value`, iri.rs:123 and 272-275. -/
def isSimpleValue (value : Option Obj) (reverse : Bool) : Bool :=
  match value with
  | some (.value i v) => !reverse && !hasLangDir v && v.typeMap.isNone && i.isNone
  | _ => false

/-- The containers, in order of preference, iri.rs:110-305. -/
def allContainers (mode : ProcMode) (value : Option Obj) (reverse : Bool) : List Container :=
  (match value with
    | some o => if o.index.isSome && !o.isGraph then [.index, .indexSet] else []
    | none => []) ++
  (if reverse then [.set] else valueContainers value) ++
  [.none] ++
  (if mode ≠ .v10 ∧ hasIndex value reverse = false then [.index, .indexSet] else []) ++
  (if mode ≠ .v10 ∧ isSimpleValue value reverse = true then [.language, .languageSet] else [])

/-- `is_empty_list`, iri.rs:307-314. -/
def isEmptyList : Option Obj → Bool
  | some (.list _ items) => items.isEmpty
  | _ => false

/-- The selection for a language and direction, iri.rs:366-387. -/
def langSelection : LangSel → List LangSel
  | .lang (some (some l, some d)) =>
    [.lang (some (some l, some d)), .lang (some (none, none)), .any, .lang (some (none, some d))]
  | l => [l, .lang (some (none, none)), .any]

/-- The selection for a type, iri.rs:320-364. `v` is whether the identifier of the value has a term;
it is given only if the value is a node with identifier. -/
def typeSelection (t : TypeSel) (v : Option Bool) : List TypeSel :=
  (if t = .reverse then [.reverse] else []) ++
  (match v with
    | some v => if t = .type .id ∨ t = .reverse then
        (if v then [.type .vocab, .type .id] else [.type .id, .type .vocab]) ++ [.type .none]
      else [t, .type .none]
    | none => [t, .type .none]) ++
  [.any]

/-- The vocabulary mapping, iri.rs:400-412. -/
def compactVocab (c : ACtx) (var : CTerm) : Option Str :=
  match c.vocab with
  | none => none
  | some v =>
    if v.str <+: var.str then
      let suffix := var.str.drop v.str.length
      if suffix ≠ [] ∧ c.containsTerm suffix = false then some suffix else none
    else none

/-- May the candidate be used? iri.rs:451-455. -/
def candidateFree (c : ACtx) (var : CTerm) (noValue : Bool) (cand : Str) : Bool :=
  match c.getValue cand with
  | none => true
  | some v => decide (v = some var) && noValue

/-- The compact IRI with a definition, iri.rs:430-447. -/
def candidate (var : CTerm) (b : Str × TermDef) : Option Str :=
  match b.2.value with
  | none => none
  | some m =>
    if b.2.prefix_ = true ∧ m.str <+: var.str ∧ var.str.drop m.str.length ≠ [] then
      some (b.1 ++ ':' :: var.str.drop m.str.length)
    else none

/-- The better of the compact IRI found so far and a candidate, iri.rs:452-457. -/
def betterCandidate (c : ACtx) (var : CTerm) (noValue : Bool) (best : Str) (cand : Str) : Str :=
  if (best = [] ∨ (utf8Len cand ≤ utf8Len best ∧ strLt cand best = true)) ∧
      candidateFree c var noValue cand = true then cand
  else best

/-- The loop over the definitions, iri.rs:420-464. (The definition of `@type` has no IRI mapping.) -/
def compactPrefix (c : ACtx) (var : CTerm) (noValue : Bool) : List (Str × TermDef) → Str → Str
  | [], best => best
  | b :: bs, best =>
    match candidate var b with
    | some cand => compactPrefix c var noValue bs (betterCandidate c var noValue best cand)
    | none => compactPrefix c var noValue bs best

/-- `Iri::scheme`. -/
def iriScheme (s : Str) : Str :=
  match splitOnce ':' s with
  | some (p, _) => p
  | none => []

/-- `disambiguate_keyword`, iri.rs:499-505. -/
def disambiguate (s : Str) : Str :=
  if isKeywordLike s ∧ (Keyword.tryFrom s).isNone then '.' :: '/' :: s else s

/-- The end of the function, iri.rs:471-497. -/
def compactRest (env : CompEnv) (c : ACtx) (var : CTerm) (vocab : Bool) : Except CompErr Str :=
  match var.asIri with
  | some i =>
    if c.containsTerm (iriScheme i) then .error .iriConfusedWithPrefix
    else match vocab, c.base with
      | false, some b => .ok (disambiguate (env.relativeTo i b))
      | _, _ => .ok i
  | none => .ok var.str

/-- The end of the function after the terms, iri.rs:395-497. -/
def compactNoTerm (env : CompEnv) (c : ACtx) (var : CTerm) (noValue vocab : Bool) : Except CompErr Str :=
  match (if vocab then compactVocab c var else none) with
  | some s => .ok s
  | none =>
    let s := compactPrefix c var noValue c.defs []
    if s ≠ [] then .ok s else compactRest env c var vocab

/-- The selection without value: `type_lang_value` is `@id` or reverse, iri.rs:317-393. -/
def plainSelection (reverse : Bool) : Selection :=
  .type (typeSelection (if reverse then .reverse else .type .id) none)

/-- `compact_iri`, iri.rs:18-38: compaction of a term without considering any value. -/
def compactIriPlain (env : CompEnv) (c : ACtx) (var : CTerm) (vocab reverse : Bool) (o : CompOpts) :
    Except CompErr (Option Str) :=
  if var = .null then .ok none
  else
    match (if vocab then c.inverse.select var (allContainers o.mode none reverse) (plainSelection reverse)
      else none) with
    | some t => .ok (some t)
    | none => (compactNoTerm env c var true vocab).map some

/-- Whether the identifier of the value has a term, iri.rs:327-348. -/
def idHasTerm (env : CompEnv) (c : ACtx) (o : CompOpts) (t : TypeSel) (value : Obj) :
    Except CompErr (Option Bool) :=
  match value.nodeId with
  | none => .ok none
  | some i =>
    if t = .type .id ∨ t = .reverse then
      match compactIriPlain env c (.id i) true false o with
      | .error e => .error e
      | .ok none => .error .panic
      | .ok (some s) => .ok (some (decide (c.getValue s = some (some (.id i)))))
    else .ok none

/-- The selection, iri.rs:307-393. -/
def fullSelection (env : CompEnv) (c : ACtx) (o : CompOpts) (value : Obj) (reverse : Bool) :
    Except CompErr Selection :=
  if isEmptyList (some value) then .ok .any
  else match (if reverse then some (.type .reverse) else valueTypeLang c (some value)) with
    | some (.type t) =>
      match idHasTerm env c o t value with
      | .error e => .error e
      | .ok v => .ok (.type (typeSelection t v))
    | some (.lang l) => .ok (.lang (langSelection l))
    | none => .ok (.lang [.lang none, .lang (some (none, none)), .any])

/-- The term chosen considering a value, iri.rs:105-393. The selection is computed only if the term
is in the inverse context. -/
def compactTermWith (env : CompEnv) (c : ACtx) (var : CTerm) (value : Obj) (reverse : Bool) (o : CompOpts) :
    Except CompErr (Option Str) :=
  match assocGet var c.inverse with
  | none => .ok none
  | some m =>
    match fullSelection env c o value reverse with
    | .error e => .error e
    | .ok s => .ok (m.select (allContainers o.mode (some value) reverse) s)

/-- `compact_iri_with`, iri.rs:59-85 and 90-497: compaction of a term considering a value. -/
def compactIriWith (env : CompEnv) (c : ACtx) (var : CTerm) (value : Obj) (vocab reverse : Bool)
    (o : CompOpts) : Except CompErr (Option Str) :=
  if var = .null then .ok none
  else
    match (if vocab then compactTermWith env c var value reverse o else .ok none) with
    | .error e => .error e
    | .ok (some t) => .ok (some t)
    | .ok none => (compactNoTerm env c var false vocab).map some

end JsonLd
