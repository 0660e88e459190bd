import Verif.Model.ExpandValue
import Verif.Model.CtxJson
import Verif.Model.Flatten
/-!
# Expansion (`crates/expansion/src/{element,array,node,document}.rs`)

`expand_element` and `expand_node_entries` call each other. They are written with open recursion
(`XRec` gives the recursive calls) and tied together by `xrecN`, which runs out of fuel (error `fuel`)
when the calls are nested more deeply than its argument; `C49_enough` shows that the depth of the
document is enough. Context processing is a parameter (`process`); the loader is hidden in it. The
base URL and the options do not change during the recursion and are part of the environment. Warnings
are left out.
-/

namespace JsonLd

/-- `Policy` and `Options`, crates/expansion/src/options.rs:7-20 and 52-63. -/
structure XOpts where
  mode : ProcMode := .v11
  invalid : Action := .keep
  vocab : Action := .keep
  allowUndefined : Bool := true
  ordered : Bool := false
  deriving DecidableEq, Repr

/-- `From<Options> for json_ld_context_processing::Options`, options.rs:31-38. -/
def XOpts.proc (o : XOpts) : Opts := { mode := o.mode }

/-- The external functions, context processing, the base URL and the options. -/
structure XEnv extends IriEnv where
  process : ACtx → SCtx → Option Str → Opts → Except CtxErr ACtx
  base : Option Str
  opts : XOpts

/-- `Error`, crates/expansion/src/error.rs:7-67, with `panic` and `fuel` added. -/
inductive XErr where
  | contextSyntax (e : CtxReadErr)
  | contextProcessing (e : CtxErr)
  | invalidIndexValue | invalidSetOrListObject | invalidReversePropertyMap | invalidTypeValue
  | keyExpansionFailed (s : Str)
  | invalidReversePropertyValue | invalidLanguageMapValue | collidingKeywords | invalidIdValue
  | invalidIncludedValue | invalidReverseValue | invalidNestValue
  | duplicateKey (s : Str)
  | literal (e : LitErr)
  | value (e : ValueErr)
  | forbiddenVocab
  | fuel

/-- `Expanded`, crates/expansion/src/expanded.rs:4-8. -/
inductive Expanded where
  | null
  | object (o : Obj)
  | array (l : List Obj)

/-- `Expanded::into_iter`, expanded.rs:83-120. -/
def Expanded.toList : Expanded → List Obj
  | .null => []
  | .object o => [o]
  | .array l => l

/-- `Expanded::is_list`, expanded.rs:26-31. -/
def Expanded.isList : Expanded → Bool
  | .object (.list _ _) => true
  | _ => false

/-- `Expanded::is_null`, expanded.rs:19-21. -/
def Expanded.isNull : Expanded → Bool
  | .null => true
  | _ => false

/-- The node being built and the flag for entries of value objects, node.rs:95-100. -/
structure XState where
  node : Node
  hasValue : Bool

/-- The recursive calls: `expand_element` (context, active property, element, `from_map`) and
`expand_node_entries` (state, context, type-scoped context, active property, entries). -/
structure XRec where
  elem : ACtx → Option Str → Json → Bool → Except XErr Expanded
  entries : XState → ACtx → ACtx → Option Str → List XEntry → Except XErr XState

/-- `Value::force_as_array` (external crate json-syntax). -/
def forceArray : Json → List Json
  | .arr l => l
  | j => [j]

/-- `expand_iri(…)?`. -/
def xIri (E : XEnv) (c : ACtx) (s : Str) (docRel : Bool) (vocab : Option Action) :
    Except XErr (Option CTerm) :=
  match expandIri E.toIriEnv c (some (.ofStr s)) docRel vocab with
  | .ok t => .ok t
  | .error _ => .error .forbiddenVocab

/-- Expansion of a key: `expand_iri(env, context, key, false, Some(options.policy.vocab))?`. -/
def xKey (E : XEnv) (c : ACtx) (s : Str) : Except XErr (Option CTerm) :=
  xIri E c s false (some E.opts.vocab)

/-- `context.process_with(…).await?.into_processed()`. -/
def xProcess (E : XEnv) (c : ACtx) (l : SCtx) (base : Option Str) (o : Opts) : Except XErr ACtx :=
  match E.process c l base o with
  | .ok c => .ok c
  | .error e => .error (.contextProcessing e)

/-- The entries of an object whose keys expand to something, element.rs:320-351 and
node.rs:469-486. -/
def xEntries (E : XEnv) (c : ACtx) : List (Str × Json) → Except XErr (List XEntry)
  | [] => .ok []
  | (k, v) :: m =>
    (xKey E c k).bind fun t => (xEntries E c m).map fun es =>
      match t with
      | some t => ⟨k, t, v⟩ :: es
      | none => es

/-- A loop that collects the objects produced from each item. -/
def collectM {α β : Type} (f : α → Except XErr (List β)) : List α → Except XErr (List β)
  | [] => .ok []
  | a :: l => (f a).bind fun x => (collectM f l).map fun y => x ++ y

/-- `expand_element` for each item, array.rs:38-58 and element.rs:373-389. -/
def xItems (R : XRec) (c : ACtx) (prop : Option Str) (fromMap : Bool) (l : List Json) :
    Except XErr (List Obj) :=
  collectM (fun j => (R.elem c prop j fromMap).map Expanded.toList) l

/-- `Obj.node` with only a graph, node.rs:795-799 and 953-957. -/
def graphNode (o : Obj) : Obj := .node (.mk none none none (some [o]) none [] none)

/-- `try_cast::<Node>()` for all objects, e.g. node.rs:273-281. -/
def asNodes (e : XErr) : List Obj → Except XErr (List Node)
  | [] => .ok []
  | .node n :: l => (asNodes e l).map fun ns => n :: ns
  | _ :: _ => .error e

/-- `node.id = …`. -/
def Node.setId (i : Option Id) : Node → Node
  | .mk x _ ty g inc ps rv => .mk x i ty g inc ps rv

/-- `Node::set_included`, object/node/mod.rs. -/
def Node.setIncluded (inc : Option (List Node)) : Node → Node
  | .mk x i ty g _ ps rv => .mk x i ty g inc ps rv

/-- `node.insert_all(prop, objects)`, object/node/mod.rs. -/
def Node.insertProp (p : Id) (os : List Obj) : Node → Node
  | .mk x i ty g inc ps rv => .mk x i ty g inc (insertAll p os ps) rv

/-- `node.reverse_properties_or_default().insert_all(prop, nodes)`, object/node/mod.rs. -/
def Node.insertRev (p : Id) (ns : List Node) : Node → Node
  | .mk x i ty g inc ps rv => .mk x i ty g inc ps (some (insertAll p ns (rv.getD [])))

/-- `node.types_mut_or_default().push(ty)`, object/node/mod.rs:260-262. -/
def Node.pushType (t : Id) : Node → Node
  | .mk x i ty g inc ps rv => .mk x i (some (ty.getD [] ++ [t])) g inc ps rv

/-- `node.types_mut_or_default().insert(0, ty)`, object/node/mod.rs:260-262. -/
def Node.unshiftType (t : Id) : Node → Node
  | .mk x i ty g inc ps rv => .mk x i (some (t :: ty.getD [])) g inc ps rv

/-- `Indexed::set_index`, crates/core/src/indexed.rs. -/
def Obj.setIndex (i : Option Str) : Obj → Obj
  | .value _ v => .value i v
  | .list _ l => .list i l
  | .node n => .node (n.setIndex i)

/-- `Node::has_key` for keywords, object/node/mod.rs. -/
def Node.hasKeyword (n : Node) : Keyword → Bool
  | .id => n.id.isSome
  | .type => n.types.isSome
  | .graph => n.graph.isSome
  | .included => n.included.isSome
  | .reverse => n.rev.isSome
  | _ => false

/-! ## Entries of nodes (node.rs) -/

/-- `@id`, node.rs:160-178. -/
def keyId (E : XEnv) (c : ACtx) (v : Json) (st : XState) : Except XErr XState :=
  match v with
  | .str s => (xIri E c s true none).map fun t =>
      { st with node := st.node.setId (t.bind nodeIdOfTerm) }
  | _ => .error .invalidIdValue

/-- One value of `@type`, node.rs:188-216. -/
def keyType1 (E : XEnv) (tsc : ACtx) (st : XState) (v : Json) : Except XErr XState :=
  match v with
  | .str s => (xIri E tsc s true (some E.opts.vocab)).bind fun t =>
      match t with
      | none => .ok st
      | some (.id (.invalid i)) =>
        match E.opts.invalid with
        | .keep => .ok { st with node := st.node.pushType (.invalid i) }
        | .drop => .ok st
        | .reject => .error .invalidTypeValue
      | some (.id i) => .ok { st with node := st.node.pushType i }
      | some _ => .error .invalidTypeValue
  | _ => .error .invalidTypeValue

/-- `filter_top_level_item`, document.rs:54-57. -/
def topLevel (o : Obj) : Bool := !o.isVal

/-- `@graph`, node.rs:219-246. -/
def keyGraph (R : XRec) (c : ACtx) (v : Json) (st : XState) : Except XErr XState :=
  (R.elem c (some "@graph".toList) v false).map fun x =>
    { st with node := st.node.setGraphEntry (some (setCollect Obj.eq (x.toList.filter topLevel))) }

/-- `@included`, node.rs:248-288. -/
def keyIncluded (E : XEnv) (R : XRec) (c : ACtx) (v : Json) (st : XState) : Except XErr XState :=
  if E.opts.mode = .v10 then .ok st
  else (R.elem c (some "@included".toList) v false).bind fun x =>
    (asNodes .invalidIncludedValue x.toList).map fun ns =>
      { st with node := st.node.setIncluded (some (ns.foldl (setInsert Node.eq) (st.node.included.getD []))) }

/-- `@index`, node.rs:294-302. -/
def keyIndex (v : Json) (st : XState) : Except XErr XState :=
  match v with
  | .str s => .ok { st with node := st.node.setIndex (some s) }
  | _ => .error .invalidIndexValue

/-- Does the definition of the term say that it is a reverse property? node.rs:362-369 and 964-968. -/
def reverseOf : Option TermDef → Bool
  | some d => d.reverse
  | none => false

/-- Add the values of a reverse property, node.rs:377-393 and 967-978. -/
def addReverse (p : Id) (os : List Obj) (st : XState) : Except XErr XState :=
  (asNodes .invalidReversePropertyValue os).map fun ns => { st with node := st.node.insertRev p ns }

/-- An entry of `@reverse` with a property, node.rs:347-394. -/
def reverseProp (R : XRec) (c : ACtx) (p : Id) (k : Str) (v : Json) (st : XState) :
    Except XErr XState :=
  (R.elem c (some k) v false).bind fun x =>
    if reverseOf (c.get k) then .ok { st with node := st.node.insertProp p x.toList }
    else addReverse p x.toList st

/-- An entry of `@reverse`, node.rs:314-412. -/
def reverseStep (E : XEnv) (R : XRec) (c : ACtx) (st : XState) (e : Str × Json) :
    Except XErr XState :=
  (xKey E c e.1).bind fun t =>
    match t with
    | some (.keyword _) => .error .invalidReversePropertyMap
    | some (.id p) =>
      if p.str.contains ':' then
        if p.isValid then reverseProp R c p e.1 e.2 st
        else match E.opts.invalid with
          | .keep => reverseProp R c p e.1 e.2 st
          | .drop => .ok st
          | .reject => .error (.keyExpansionFailed e.1)
      else if E.opts.invalid = .reject || !E.opts.allowUndefined then .error (.keyExpansionFailed e.1)
      else .ok st
    | _ =>
      if E.opts.invalid = .reject || !E.opts.allowUndefined then .error (.keyExpansionFailed e.1)
      else .ok st

/-- `@reverse`, node.rs:304-416. -/
def keyReverse (E : XEnv) (R : XRec) (c : ACtx) (v : Json) (st : XState) : Except XErr XState :=
  match v with
  | .obj m => (sortIf E.opts.ordered Prod.fst m).foldlM (reverseStep E R c) st
  | _ => .error .invalidReverseValue

/-- Process the scoped context of a term, if any, with the base URL of its definition;
element.rs:95-106 and 173-188, node.rs:424-455. -/
def scopedCtx (E : XEnv) (d : Option TermDef) (c : ACtx) (o : Opts) : Except XErr ACtx :=
  match d with
  | some d =>
    match d.context with
    | some l => xProcess E c l d.baseUrl o
    | none => .ok c
  | none => .ok c

/-- A value of `@nest`, node.rs:423-511. -/
def nestStep (E : XEnv) (R : XRec) (c tsc : ACtx) (prop : Option Str) (key : Str) (st : XState)
    (v : Json) : Except XErr XState :=
  (scopedCtx E (c.get key) c E.opts.proc.withOverride).bind fun c' =>
    match v with
    | .obj m => (xEntries E c' (sortIf E.opts.ordered Prod.fst m)).bind fun es =>
        R.entries st c' tsc prop es
    | _ => .error .invalidNestValue

/-- Keywords, node.rs:158-515. -/
def keywordEntry (E : XEnv) (R : XRec) (c tsc : ACtx) (prop : Option Str) (key : Str) (k : Keyword)
    (v : Json) (st : XState) : Except XErr XState :=
  match k with
  | .id => keyId E c v st
  | .type => (forceArray v).foldlM (keyType1 E tsc) st
  | .graph => keyGraph R c v st
  | .included => keyIncluded E R c v st
  | .language => .ok { st with hasValue := true }
  | .direction => .ok { st with hasValue := true }
  | .index => keyIndex v st
  | .reverse => keyReverse E R c v st
  | .nest => (forceArray v).foldlM (nestStep E R c tsc prop key) st
  | .value => .error .invalidNestValue
  | _ => .ok st

/-- A string of a language map, node.rs:628-648. -/
def langItem (s : Str) (language : Option Str) (direction : Option Direction) : Obj :=
  match LangString.new s language direction with
  | .ok l => .value none (.langString l)
  | .error s => .value none (.literal (.str s) none)

/-- An item of a language map, node.rs:590-657. -/
def langMapItem (E : XEnv) (c : ACtx) (dir : Option Direction) (language : Str) :
    Json → Except XErr (List Obj)
  | .null => .ok []
  | .str s => (xKey E c language).map fun t =>
      [langItem s (if t = some (.keyword .none) then none else some language) dir]
  | _ => .error .invalidLanguageMapValue

/-- A language map, node.rs:551-661. -/
def langMap (E : XEnv) (c : ACtx) (d : Option TermDef) (m : List (Str × Json)) :
    Except XErr (List Obj) :=
  collectM (fun e => collectM (langMapItem E c (literalDirection c d) e.1) (forceArray e.2))
    (sortIf E.opts.ordered Prod.fst m)

/-- The context for the values of a map, node.rs:706-743. -/
def mapContext (E : XEnv) (c : ACtx) (cm : Container) (index : Str) : Except XErr ACtx :=
  let c' := if cm.contains .type || cm.contains .id then c.previous.getD c else c
  if cm.contains .type then scopedCtx E (c'.get index) c' E.opts.proc else .ok c'

/-- The term a key of a map expands to, node.rs:750-759. -/
def expandedIndex (E : XEnv) (c : ACtx) (index : Str) : Except XErr (Option CTerm) :=
  (xKey E c index).map fun t => if t = some .null ∨ t = some (.keyword .none) then none else t

/-- The index property of an item, node.rs:814-851. `none`: the item is dropped (`continue`). -/
def indexProp (E : XEnv) (c : ACtx) (indexKey index : Str) (item : Obj) : Except XErr (Option Obj) :=
  match expandLiteral E.toIriEnv E.opts.vocab c (some indexKey) (.str index) with
  | .error e => .error (.literal e)
  | .ok r => (xKey E c indexKey).bind fun t =>
      match t with
      | some (.id p) =>
        match item with
        | .node n => .ok (some (.node (n.insertProp p [r])))
        | _ => .error (.value .valueObject)
      | _ => .ok none

/-- `@id` from the key of a map, node.rs:870-879. -/
def indexId (E : XEnv) (c : ACtx) (index : Str) : Obj → Except XErr Obj
  | .node n => (xIri E c index true none).map fun t => .node (n.setId (t.bind nodeIdOfTerm))
  | o => .ok o

/-- `@type` from the key of a map, node.rs:887-895. -/
def indexType (t : CTerm) (item : Obj) : Except XErr Obj :=
  match t with
  | .id i =>
    match item with
    | .node n => .ok (.node (n.unshiftType i))
    | o => .ok o
  | _ => .error .invalidTypeValue

/-- What the key of a map adds to an item, node.rs:802-897. -/
def indexItem (E : XEnv) (c : ACtx) (cm : Container) (indexKey index : Str) (t : CTerm)
    (item : Obj) : Except XErr (Option Obj) :=
  if cm.contains .index && decide (indexKey ≠ "@index".toList) then indexProp E c indexKey index item
  else if cm.contains .index && item.index.isNone then .ok (some (item.setIndex (some index)))
  else if cm.contains .id && item.nodeId.isNone then (indexId E c index item).map some
  else if cm.contains .type then (indexType t item).map some
  else .ok (some item)

/-- An item of a map, node.rs:786-901. -/
def mapItem (E : XEnv) (c : ACtx) (cm : Container) (indexKey index : Str) (t : Option CTerm)
    (item : Obj) : Except XErr (List Obj) :=
  let item := if cm.contains .graph && !item.isGraph then graphNode item else item
  match t with
  | none => .ok [item]
  | some t => (indexItem E c cm indexKey index t item).map Option.toList

/-- An entry of a map, node.rs:697-902. -/
def xMapEntry (E : XEnv) (R : XRec) (c : ACtx) (cm : Container) (indexKey key : Str)
    (e : Str × Json) : Except XErr (List Obj) :=
  (mapContext E c cm e.1).bind fun c' => (expandedIndex E c e.1).bind fun t =>
    (R.elem c' (some key) e.2 true).bind fun x =>
      collectM (mapItem E c cm indexKey e.1 t) x.toList

/-- The key used for indexing, node.rs:676-684. -/
def indexKeyOf (d : Option TermDef) : Str :=
  match d.bind (·.index) with
  | some i => i
  | none => "@index".toList

/-- The container of a definition, node.rs:527-537. -/
def containerOf (d : Option TermDef) : Container :=
  match d with
  | some d => d.container
  | none => .none

/-- The expanded value of a property, node.rs:547-926. -/
def propValue (E : XEnv) (R : XRec) (c : ACtx) (d : Option TermDef) (key : Str) (v : Json) :
    Except XErr Expanded :=
  let cm := containerOf d
  if d.bind (·.typ) = some .json then .ok (.object (.value none (.json v)))
  else match v with
    | .obj m =>
      if cm.contains .language then (langMap E c d m).map .array
      else if cm.contains .index || cm.contains .type || cm.contains .id then
        (collectM (xMapEntry E R c cm (indexKeyOf d) key) (sortIf E.opts.ordered Prod.fst m)).map .array
      else R.elem c (some key) v false
    | v => R.elem c (some key) v false

/-- List containers, node.rs:934-939. -/
def wrapList (cm : Container) (x : Expanded) : Expanded :=
  if cm.contains .list && !x.isList then .object (.list none x.toList) else x

/-- Graph containers, node.rs:945-961. -/
def wrapGraph (cm : Container) (x : Expanded) : Expanded :=
  if cm.contains .graph && !cm.contains .id && !cm.contains .index then
    .array (x.toList.map graphNode)
  else x

/-- Add the values of a property, node.rs:963-985. -/
def addProp (d : Option TermDef) (p : Id) (x : Expanded) (st : XState) : Except XErr XState :=
  if x.isNull then .ok st
  else if reverseOf d then addReverse p x.toList st
  else .ok { st with node := st.node.insertProp p x.toList }

/-- A property, node.rs:527-985. -/
def propEntry (E : XEnv) (R : XRec) (c : ACtx) (key : Str) (p : Id) (v : Json) (st : XState) :
    Except XErr XState :=
  let d := c.get key
  (propValue E R c d key v).bind fun x =>
    addProp d p (wrapGraph (containerOf d) (wrapList (containerOf d) x)) st

/-- A property that contains a colon, node.rs:518-985. -/
def idEntry (E : XEnv) (R : XRec) (c : ACtx) (key : Str) (p : Id) (v : Json) (st : XState) :
    Except XErr XState :=
  match p with
  | .invalid s =>
    match E.opts.invalid with
    | .keep => propEntry E R c key p v st
    | .drop => .ok st
    | .reject => .error (.keyExpansionFailed s)
  | p => propEntry E R c key p v st

/-- A property that contains no colon, node.rs:988-1002. -/
def plainEntry (E : XEnv) (p : Id) (st : XState) : Except XErr XState :=
  if !p.isValid && decide (E.opts.invalid = .reject) then .error (.keyExpansionFailed p.str)
  else if !E.opts.allowUndefined then .error (.keyExpansionFailed p.str)
  else .ok st

/-- The body of the loop of `expand_node_entries`, node.rs:126-1004. -/
def entryStep (E : XEnv) (R : XRec) (c tsc : ACtx) (prop : Option Str) (st : XState) (e : XEntry) :
    Except XErr XState :=
  match e.term with
  | .null => .ok st
  | .keyword .context => .ok st
  | .keyword k =>
    if prop = some "@reverse".toList then .error .invalidReversePropertyMap
    else if (decide (E.opts.mode = .v10) || (decide (k ≠ .included) && decide (k ≠ .type))) &&
        st.node.hasKeyword k then .error .collidingKeywords
    else keywordEntry E R c tsc prop e.key k e.value st
  | .id p =>
    if p.str.contains ':' then idEntry E R c e.key p e.value st else plainEntry E p st

/-- `expand_node_entries`, node.rs:106-1007. -/
def entriesBody (E : XEnv) (R : XRec) (st : XState) (c tsc : ACtx) (prop : Option Str)
    (es : List XEntry) : Except XErr XState :=
  es.foldlM (entryStep E R c tsc prop) st

/-- Is the active property `null` or `@graph`? element.rs:465, node.rs:81. -/
def noProp (prop : Option Str) : Bool := prop.isNone || decide (prop = some "@graph".toList)

/-- The end of `expand_node`, node.rs:75-92. -/
def nodeResult (prop : Option Str) (st : XState) : Expanded :=
  if st.hasValue && st.node.isEmpty && st.node.id.isNone then .null
  else if noProp prop && (st.node.isEmpty && st.node.index.isNone) then .null
  else .object (.node st.node)

/-- `expand_node`, node.rs:30-93. -/
def expandNode (E : XEnv) (R : XRec) (c tsc : ACtx) (prop : Option Str) (es : List XEntry) :
    Except XErr Expanded :=
  (entriesBody E R ⟨.mk none none none none none [] none, false⟩ c tsc prop es).map (nodeResult prop)

/-! ## Elements (element.rs) -/

/-- The preliminary key expansions, element.rs:131-148: is there an entry for `@value`, and one for
`@id`? -/
def prelim (E : XEnv) (c : ACtx) : List (Str × Json) → Except XErr (Bool × Bool)
  | [] => .ok (false, false)
  | (k, _) :: m =>
    (xKey E c k).bind fun t => (prelim E c m).map fun r =>
      (r.1 || decide (t = some (.keyword .value)), r.2 || decide (t = some (.keyword .id)))

/-- Revert to the previous context, element.rs:153-166. -/
def revert (c : ACtx) (m : List (Str × Json)) (fromMap : Bool) (r : Bool × Bool) : ACtx :=
  match c.previous with
  | some p => if !fromMap && !r.1 && !(decide (m.length = 1) && r.2) then p else c
  | none => c

/-- The entry `@context`, element.rs:193-213. -/
def localContext (E : XEnv) (c : ACtx) (m : List (Str × Json)) : Except XErr ACtx :=
  match m.filter (fun e => decide (e.1 = "@context".toList)) with
  | [] => .ok c
  | [e] =>
    match readCtx E.isRef e.2 with
    | .error x => .error (.contextSyntax x)
    | .ok l => xProcess E c l E.base E.opts.proc
  | _ => .error (.duplicateKey "@context".toList)

/-- The entries for `@type`, sorted by their keys, element.rs:221-236. (The sort is stable here; the
order of entries with equal keys is not specified in the code.) -/
def typeEntries (E : XEnv) (c : ACtx) (m : List (Str × Json)) : Except XErr (List (Str × Json)) :=
  (collectM (fun e => (xKey E c e.1).map fun t =>
    if t = some (.keyword .type) then [e] else []) m).map (sortByKey Prod.fst)

/-- The strings among JSON values. -/
def strings (l : List Json) : List Str :=
  l.filterMap fun j => match j with | .str s => some s | _ => none

/-- `without_propagation`, crates/context-processing/src/lib.rs. -/
def Opts.withoutPropagation (o : Opts) : Opts := { o with propagate := false }

/-- The types whose scoped contexts are processed, in this order; element.rs:246-262. -/
def scopedTypes (tes : List (Str × Json)) : List Str :=
  tes.flatMap fun e => sortByKey id (strings (forceArray e.2))

/-- The type-scoped contexts, element.rs:246-286. -/
def typeScoped (E : XEnv) (c : ACtx) (tes : List (Str × Json)) : Except XErr ACtx :=
  (scopedTypes tes).foldlM
    (fun a t => scopedCtx E (c.get t) a E.opts.proc.withoutPropagation) c

/-- The input type, element.rs:292-313. -/
def inputType (E : XEnv) (c : ACtx) (tes : List (Str × Json)) : Except XErr (Option CTerm) :=
  match tes with
  | [] => .ok none
  | e :: _ =>
    match (forceArray e.2).getLast? with
    | some (.str s) => xKey E c s
    | _ => .ok none

/-- The value of the last entry for a keyword, element.rs:317-346. -/
def lastEntry (k : Keyword) (es : List XEntry) : Option Json :=
  ((es.filter fun e => decide (e.term = .keyword k)).getLast?).map XEntry.value

/-- The index of a list object, element.rs:355-365. -/
def listIndex : Option Str → List XEntry → Except XErr (Option Str)
  | i, [] => .ok i
  | i, e :: es =>
    match e.term with
    | .keyword .index =>
      match e.value with
      | .str s => listIndex (some s) es
      | _ => .error .invalidIndexValue
    | .keyword .list => listIndex i es
    | _ => .error .invalidSetOrListObject

/-- The entries of a set object, element.rs:397-406. -/
def setEntries (es : List XEntry) : Except XErr Unit :=
  if es.all fun e => decide (e.term = .keyword .index) || decide (e.term = .keyword .set) then .ok ()
  else .error .invalidSetOrListObject

/-- A value object, element.rs:421-436. -/
def elemValue (E : XEnv) (tsc : ACtx) (it : Option CTerm) (es : List XEntry) (v : Json) :
    Except XErr Expanded :=
  match expandValue E.toIriEnv E.opts.vocab it tsc es v with
  | .error e => .error (.value e)
  | .ok (some o) => .ok (.object o)
  | .ok none => .ok .null

/-- A list object, element.rs:353-394. -/
def elemList (R : XRec) (c : ACtx) (prop : Option Str) (es : List XEntry) (v : Json) :
    Except XErr Expanded :=
  (listIndex none es).bind fun i =>
    (xItems R c prop false (forceArray v)).map fun os => .object (.list i os)

/-- The distinction of list, set, value and node objects, element.rs:353-456. -/
def elemKind (E : XEnv) (R : XRec) (c tsc : ACtx) (prop : Option Str) (it : Option CTerm)
    (es : List XEntry) : Except XErr Expanded :=
  match (if noProp prop then none else lastEntry .list es), lastEntry .set es,
    lastEntry .value es with
  | some v, _, _ => elemList R c prop es v
  | none, some v, _ => (setEntries es).bind fun _ => R.elem c prop v false
  | none, none, some v => elemValue E tsc it es v
  | none, none, none => expandNode E R c tsc prop es

/-- The context of an object: the previous context if the current one does not apply, then the
property-scoped and the local context; element.rs:131-213. -/
def objContext (E : XEnv) (c : ACtx) (prop : Option Str) (m : List (Str × Json)) (fromMap : Bool) :
    Except XErr ACtx :=
  (prelim E c m).bind fun r =>
    (scopedCtx E (prop.bind c.get) (revert c m fromMap r) E.opts.proc.withOverride).bind fun c' =>
      localContext E c' m

/-- `expand_element` for objects, element.rs:124-457. -/
def elemObj (E : XEnv) (R : XRec) (c : ACtx) (prop : Option Str) (m : List (Str × Json))
    (fromMap : Bool) : Except XErr Expanded :=
  (objContext E c prop m fromMap).bind fun tsc => (typeEntries E tsc m).bind fun tes =>
    (typeScoped E tsc tes).bind fun c' => (inputType E c' tes).bind fun it =>
      (xEntries E c' m).bind fun es => elemKind E R c' tsc prop it es

/-- `expand_element` for scalars, element.rs:459-503. -/
def elemScalar (E : XEnv) (c : ACtx) (prop : Option Str) (l : Literal) : Except XErr Expanded :=
  if noProp prop then .ok .null
  else (scopedCtx E (prop.bind c.get) c E.opts.proc).bind fun c' =>
    match expandLiteral E.toIriEnv E.opts.vocab c' prop l with
    | .error e => .error (.literal e)
    | .ok o => .ok (.object o)

/-- `expand_array`, array.rs:9-68. -/
def elemArr (R : XRec) (c : ACtx) (prop : Option Str) (l : List Json) (fromMap : Bool) :
    Except XErr Expanded :=
  (xItems R c prop fromMap l).map fun os =>
    if (containerOf (prop.bind c.get)).contains .list then .object (.list none os) else .array os

/-- `expand_element`, element.rs:72-505. -/
def elemBody (E : XEnv) (R : XRec) (c : ACtx) (prop : Option Str) (j : Json) (fromMap : Bool) :
    Except XErr Expanded :=
  match j with
  | .null => .ok .null
  | .arr l => elemArr R c prop l fromMap
  | .obj m => elemObj E R c prop m fromMap
  | .str s => elemScalar E c prop (.str s)
  | .num n => elemScalar E c prop (.num n)
  | .bool b => elemScalar E c prop (.bool b)

/-- The algorithms, for calls nested at most `n` deep. -/
def xrecN (E : XEnv) : Nat → XRec
  | 0 => ⟨fun _ _ _ _ => .error .fuel, fun _ _ _ _ _ => .error .fuel⟩
  | n + 1 => ⟨elemBody E (xrecN E n), entriesBody E (xrecN E n)⟩

/-- `expand_element`: the depth of the element is enough. -/
def expandElement (E : XEnv) (c : ACtx) (prop : Option Str) (j : Json) (fromMap : Bool) :
    Except XErr Expanded :=
  (xrecN E j.depth).elem c prop j fromMap

/-- `Node::into_unnamed_graph`, object/node/mod.rs:314-317 and 436-442. -/
def unnamedGraph : Obj → Option (List Obj)
  | .node n => if n.isGraph && n.id.isNone then n.graph else none
  | _ => none

/-- The end of `expand`, document.rs:37-51. -/
def docResult (x : Expanded) : Doc :=
  match x.toList with
  | [o] =>
    match unnamedGraph o with
    | some g => g
    | none => if topLevel o then [o] else []
  | os => setCollect Obj.eq (os.filter topLevel)

/-- `expand`, document.rs:13-52. -/
def expandDoc (E : XEnv) (c : ACtx) (j : Json) : Except XErr Doc :=
  (expandElement E c none j false).map docResult

end JsonLd
