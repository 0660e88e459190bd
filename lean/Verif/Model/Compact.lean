import Verif.Model.AddValue
import Verif.Model.Expand
/-!
# Compaction (`crates/compaction/src/{lib,value,node,property,document}.rs`)

Compacting an object compacts the objects in it. The functions are written with open recursion
(`R : CRec` gives the recursive call) and tied together by `crecN`, which runs out of fuel (error
`fuel`) when the calls are nested more deeply than its argument; `C52_enough` shows that the depth of
the object is enough. Context processing is a parameter (`process`); the loader is hidden in it. The
options do not change during the recursion and are part of the environment.
-/

namespace JsonLd

/-- `From<Options> for json_ld_context_processing::Options`, lib.rs:96-103. -/
def CompOpts.proc (o : CompOpts) : Opts := { mode := o.mode }

/-- The external functions, context processing and the options. -/
structure CEnv extends CompEnv where
  process : ACtx → SCtx → Option Str → Opts → Except CtxErr ACtx
  opts : CompOpts

/-- The recursive call `compact_fragment_full`, lib.rs:126-139: active context, type-scoped context,
active property and object. -/
abbrev CRec := ACtx → ACtx → Option Str → Obj → Except CompErr Json

/-- The entries of a JSON object. -/
abbrev JMap := List (Str × Json)

/-- Process the scoped context of a term, if any, with the base URL of its definition; lib.rs:311-323,
value.rs:28-43, node.rs:49-64, 91-108 and 221-236. -/
def cScoped (E : CEnv) (d : Option TermDef) (c : ACtx) (o : Opts) : Except CompErr ACtx :=
  match d with
  | some d =>
    match d.context with
    | some l => match E.process c l d.baseUrl o with
      | .ok c => .ok c
      | .error e => .error (.context e)
    | none => .ok c
  | none => .ok c

/-- `compact_iri(…, vocab, false, options)?`. -/
def cIri (E : CEnv) (c : ACtx) (t : CTerm) (vocab : Bool) : Except CompErr (Option Str) :=
  compactIriPlain E.toCompEnv c t vocab false E.opts

/-- `compact_iri(…)?.unwrap()`. -/
def cIriU (E : CEnv) (c : ACtx) (t : CTerm) (vocab : Bool) : Except CompErr Str :=
  match cIri E c t vocab with
  | .ok (some s) => .ok s
  | .ok none => .error .panic
  | .error e => .error e

/-- `compact_key(…, Keyword, true, false, options)?.unwrap()`. -/
def cKey (E : CEnv) (c : ACtx) (k : Keyword) : Except CompErr Str := cIriU E c (.keyword k) true

/-- `optional_string`, node.rs:10-13. -/
def optStr : Option Str → Json
  | some s => .str s
  | none => .null

/-- The container mapping of an optional definition. -/
def defContainer (d : Option TermDef) : Container :=
  match d with
  | some d => d.container
  | none => .none

/-! ## Values -/

/-- The language, value.rs:71-77. -/
def defLanguage (c : ACtx) (d : Option TermDef) : Option Str :=
  match d.bind (·.language) with
  | some l => l
  | none => c.language

/-- The direction, value.rs:81-87. -/
def defDirection (c : ACtx) (d : Option TermDef) : Option Direction :=
  match d.bind (·.direction) with
  | some x => x
  | none => c.direction

/-- `remove_index`, value.rs:104-105. -/
def removeIndex (d : Option TermDef) (index : Option Str) : Bool :=
  (index.isSome && (defContainer d).contains .index) || index.isNone

/-- The values returned as they are, value.rs:107-283. -/
def valueBare (c : ACtx) (d : Option TermDef) (v : Value) : Option Json :=
  match v with
  | .literal l ty =>
    if ty.map TypeMap.iri = d.bind (·.typ) then
      match l with
      | .str s =>
        if ty.isSome || ((defLanguage c d).isNone && (defDirection c d).isNone) then some (.str s) else none
      | l => some l.toJson
    else none
  | .langString s =>
    if (s.language.isNone || langOptEq (defLanguage c d) s.language) &&
        (s.direction.isNone || decide (defDirection c d = s.direction)) then some (.str s.data)
    else none
  | .json j => if d.bind (·.typ) = some .json then some j else none

/-- The entries inserted for a value, value.rs:107-283. -/
def valueEntries (E : CEnv) (c : ACtx) (v : Value) : Except CompErr JMap :=
  match v with
  | .literal l none => (cKey E c .value).map fun k => [(k, l.toJson)]
  | .literal l (some t) =>
    (cKey E c .value).bind fun k => (cKey E c .type).bind fun kt =>
      (cIri E c (.id (.iri t)) true).map fun s => [(k, l.toJson), (kt, optStr s)]
  | .langString s =>
    (cKey E c .value).bind fun k =>
      (match s.language with
        | some l => (cKey E c .language).map fun kl => [(kl, Json.str l)]
        | none => .ok []).bind fun el =>
      (match s.direction with
        | some d => (cKey E c .direction).map fun kd => [(kd, Json.str d.asStr)]
        | none => .ok []).map fun ed => (k, .str s.data) :: (el ++ ed)
  | .json j =>
    (cKey E c .value).bind fun k => (cKey E c .type).bind fun kt =>
      (cIri E c (.keyword .json) true).map fun s => [(k, j), (kt, optStr s)]

/-- The `@index` entry of a value object, value.rs:285-300. -/
def cValueIndex (E : CEnv) (c : ACtx) (d : Option TermDef) (index : Option Str) : Except CompErr JMap :=
  match index with
  | some i => if removeIndex d (some i) then .ok [] else (cKey E c .index).map fun k => [(k, .str i)]
  | none => .ok []

/-- Value compaction in the context of the property, value.rs:51-302. -/
def valueIn (E : CEnv) (c : ACtx) (d : Option TermDef) (index : Option Str) (v : Value) :
    Except CompErr Json :=
  match (if removeIndex d index then valueBare c d v else none) with
  | some j => .ok j
  | none => (valueEntries E c v).bind fun es => (cValueIndex E c d index).map fun ei =>
      .obj (jObject (es ++ ei))

/-- `compact_indexed_value_with`, value.rs:10-303. -/
def compactValue (E : CEnv) (c : ACtx) (prop : Option Str) (index : Option Str) (v : Value) :
    Except CompErr Json :=
  (cScoped E (prop.bind c.get) c E.opts.proc.withOverride).bind fun c =>
    valueIn E c (prop.bind c.get) index v

/-! ## Properties -/

/-- The value of the entry `k`, which must be an object (`as_object_mut().unwrap()`), is changed by `f`;
it is created if needed. property.rs:135-152, 176-193, 331-350 and 491-508. -/
def inObject (k : Str) (m : JMap) (f : JMap → Except CompErr JMap) : Except CompErr JMap :=
  (jGet k m).bind fun w =>
    match w with
    | none => (f []).map fun r => jInsert k (.obj r) m
    | some (.obj o) => (f o).map fun r => m.map fun e => if e.1 = k then (e.1, .obj r) else e
    | some _ => .error .panic

/-- Is the nest term allowed? property.rs:321-327. -/
def nestAllowed (c : ACtx) : SNest → Bool
  | .nest => true
  | .term t => decide (c.getValue t = some (some (.keyword .nest)))

/-- `select_nest_result`, property.rs:303-362, followed by `f` on the selected object. -/
def inNest (c : ACtx) (key : Str) (m : JMap) (f : JMap → Except CompErr JMap) : Except CompErr JMap :=
  match (c.get key).bind (·.nest) with
  | some n => if nestAllowed c n then inObject n.str m f else .error .invalidNestValue
  | none => f m

/-- `as_array`, property.rs:369-379. -/
def asArray (E : CEnv) (c : ACtx) (key : Str) : Bool :=
  if (defContainer (c.get key)).contains .set || decide (key = "@graph".toList) ||
      decide (key = "@list".toList) then true
  else !E.opts.compactArrays

/-- `Value::Array(vec![v])` unless `v` is an array, property.rs:48-51. -/
def wrapArray : Json → Json
  | .arr l => .arr l
  | j => .arr [j]

/-- The `@index` entry of a list or graph object, property.rs:73-85 and 281-292. -/
def indexEntries (E : CEnv) (c : ACtx) (index : Option Str) : Except CompErr JMap :=
  match index with
  | some i => (cKey E c .index).map fun k => [(k, .str i)]
  | none => .ok []

/-- `compact_property_list`, property.rs:16-98. -/
def propertyList (E : CEnv) (R : CRec) (c : ACtx) (key : Str) (index : Option Str) (items : List Obj)
    (m : JMap) : Except CompErr JMap :=
  (compactCollection (R c c (some key)) c (some key) E.opts items).bind fun v =>
    if (defContainer (c.get key)).contains .list then .ok (jInsert key (wrapArray v) m)
    else (cKey E c .list).bind fun kl => (indexEntries E c index).bind fun ei =>
      addValue m key (.obj (jObject ((kl, wrapArray v) :: ei))) (asArray E c key)

/-- `Node::is_simple_graph`, crates/core/src/object/node/mod.rs:317-319. -/
def Node.isSimpleGraph (n : Node) : Bool := n.id.isNone && n.isGraph

/-- The key in a map of graphs by identifier, property.rs:158-164. -/
def graphMapKey (E : CEnv) (c : ACtx) (n : Node) : Except CompErr Str :=
  match n.id with
  | some i => cIriU E c (.id i) false
  | none => cKey E c .none

/-- A graph under `@included` if there are several objects, property.rs:213-229. -/
def graphIncluded (E : CEnv) (c : ACtx) (v : Json) : Except CompErr Json :=
  match v with
  | .arr l => if l.length > 1 then (cKey E c .included).map fun k => .obj [(k, .arr l)] else .ok (.arr l)
  | j => .ok j

/-- The `@id` entry of a graph object, property.rs:257-276. -/
def graphId (E : CEnv) (c : ACtx) (n : Node) : Except CompErr JMap :=
  match n.id with
  | some i => (cIriU E c (.keyword .id) false).bind fun k =>
      (cIri E c (.id i) false).map fun s => [(k, optStr s)]
  | none => .ok []

/-- The graph object, property.rs:238-296. -/
def graphObject (E : CEnv) (c : ACtx) (n : Node) (v : Json) : Except CompErr Json :=
  (cKey E c .graph).bind fun k => (graphId E c n).bind fun ei => (indexEntries E c n.index).map fun ex =>
    .obj (jObject ((k, v) :: (ei ++ ex)))

/-- `compact_property_graph` after the objects of the graph are compacted to `v`, property.rs:130-300. -/
def addGraph (E : CEnv) (c : ACtx) (key : Str) (n : Node) (v : Json) (m : JMap) : Except CompErr JMap :=
  let k := defContainer (c.get key)
  if k.contains .graph && k.contains .id then
    inObject key m fun o => (graphMapKey E c n).bind fun mk => addValue o mk v (asArray E c key)
  else if k.contains .graph && k.contains .index && n.isSimpleGraph then
    inObject key m fun o => addValue o (n.index.getD "@none".toList) v (asArray E c key)
  else if k.contains .graph && n.isSimpleGraph then
    (graphIncluded E c v).bind fun v => addValue m key v (asArray E c key)
  else (graphObject E c n v).bind fun v => addValue m key v (asArray E c key)

/-- `compact_property_graph`, property.rs:101-301. -/
def propertyGraph (E : CEnv) (R : CRec) (c : ACtx) (key : Str) (n : Node) (m : JMap) :
    Except CompErr JMap :=
  (compactCollection (R c c (some key)) c (some key) E.opts (n.graph.getD [])).bind fun v =>
    addGraph E c key n v m

/-- Is the value of a property with this container a map? property.rs:482-486. -/
def isMapContainer (k : Container) : Bool :=
  !k.contains .graph && (k.contains .language || k.contains .index || k.contains .id || k.contains .type)

/-- `container_type`, property.rs:512-520. -/
def mapKind (k : Container) : Keyword :=
  if k.contains .language then .language
  else if k.contains .index then .index
  else if k.contains .id then .id
  else .type

/-- `Value::as_str`. -/
def Json.asStr? : Json → Option Str
  | .str s => some s
  | _ => none

/-- The first value of an entry and the others, property.rs:580-597 and 657-672. -/
def firstValue : Json → Option Str × List Json
  | .str s => (some s, [])
  | .arr [] => (none, [])
  | .arr (v :: l) => (v.asStr?, l)
  | j => (none, [j])

/-- `for value in values { add_value(map, key, value, false) }`. -/
def addEach (k : Str) : List Json → JMap → Except CompErr JMap
  | [], m => .ok m
  | v :: l, m => (addValue m k v false).bind (addEach k l)

/-- The first value of an entry is taken out, property.rs:571-620 and 650-695. -/
def takeFirst (k : Str) (v : Json) : Except CompErr (Option Str × Json) :=
  match v with
  | .obj m => (jGet k m).bind fun w =>
    match w with
    | some j => (addEach k (firstValue j).2 (m.filter fun e => decide (e.1 ≠ k))).map fun m =>
        ((firstValue j).1, .obj m)
    | none => .ok (none, v)
  | v => .ok (none, v)

/-- The value of an entry is taken out, property.rs:636-644. -/
def takeId (k : Str) (v : Json) : Except CompErr (Option Str × Json) :=
  match v with
  | .obj m => (jGet k m).map fun w =>
    match w with
    | some j => (j.asStr?, .obj (m.filter fun e => decide (e.1 ≠ k)))
    | none => (none, v)
  | v => .ok (none, v)

/-- Is `@id` the only entry? property.rs:703-704. -/
def onlyId : Json → Bool
  | .obj [(k, _)] => decide (k = "@id".toList)
  | _ => false

/-- `Node::with_id`, crates/core/src/object/node/mod.rs:91-101. -/
def Node.onlyId (i : Id) : Node := .mk none (some i) none none none [] none

/-- A value in a map by type, property.rs:650-721. (It is also used for objects that are not values in
a map by language.) -/
def cTypeItem (R : CRec) (c : ACtx) (key : Str) (ck : Str) (o : Obj) (v : Json) :
    Except CompErr (Option Str × Json) :=
  (takeFirst ck v).bind fun r =>
    if onlyId r.2 then
      match o.nodeId with
      | some i => (R c c (some key) (.node (Node.onlyId i))).map fun v => (r.1, v)
      | none => .error .panic
    else .ok r

/-- The value of a map by language, property.rs:544-551. -/
def cLangItem : Value → Option Str × Json
  | .langString s => (s.language, .str s.data)
  | v => (none, valueValue v)

/-- A value in a map by index, property.rs:552-630. -/
def cIndexItem (E : CEnv) (c : ACtx) (key : Str) (o : Obj) (v : Json) :
    Except CompErr (Option Str × Json) :=
  match (c.get key).bind (·.index) with
  | some ik => (cIriU E c (.id (.invalid ik)) true).bind fun ck => takeFirst ck v
  | none => .ok (o.index, v)

/-- `map_key` and the item of a map, property.rs:522-722. -/
def cMapItem (E : CEnv) (R : CRec) (c : ACtx) (key : Str) (o : Obj) (v : Json) :
    Except CompErr (Option Str × Json) :=
  let kind := mapKind (defContainer (c.get key))
  (cKey E c kind).bind fun ck =>
    match kind, o with
    | .language, .value _ x => .ok (cLangItem x)
    | .index, _ => cIndexItem E c key o v
    | .id, _ => takeId ck v
    | _, _ => cTypeItem R c key ck o v

/-- `map_key` if there is none, property.rs:726-739. -/
def mapKeyOr (E : CEnv) (c : ACtx) : Option Str → Except CompErr Str
  | some k => .ok k
  | none => cKey E c .none

/-- The other objects, property.rs:480-748, compacted to `v`. -/
def addItem (E : CEnv) (R : CRec) (c : ACtx) (key : Str) (o : Obj) (v : Json) (m : JMap) :
    Except CompErr JMap :=
  if isMapContainer (defContainer (c.get key)) then
    inObject key m fun mo => (cMapItem E R c key o v).bind fun r => (mapKeyOr E c r.1).bind fun mk =>
      addValue mo mk r.2 (asArray E c key)
  else addValue m key v (asArray E c key)

/-- An object of a property with its compacted key, property.rs:438-750. -/
def propertyItem (E : CEnv) (R : CRec) (c : ACtx) (key : Str) (o : Obj) (m : JMap) :
    Except CompErr JMap :=
  match o with
  | .list i l => propertyList E R c key i l m
  | .node n =>
    if n.isGraph then propertyGraph E R c key n m
    else (R c c (some key) (.node n)).bind fun v => addItem E R c key (.node n) v m
  | .value i x => (R c c (some key) (.value i x)).bind fun v => addItem E R c key (.value i x) v m

/-- The compacted key for an object. -/
def itemKey (E : CEnv) (c : ACtx) (p : CTerm) (rev : Bool) (o : Obj) : Except CompErr (Option Str) :=
  compactIriWith E.toCompEnv c p o true rev E.opts

/-- One step of the loop, property.rs:407-752. -/
def propertyStep (E : CEnv) (R : CRec) (c : ACtx) (p : CTerm) (rev : Bool) (m : JMap) (o : Obj) :
    Except CompErr JMap :=
  (itemKey E c p rev o).bind fun k =>
    match k with
    | some key => inNest c key m (propertyItem E R c key o)
    | none => .ok m

/-- `Node::new`, crates/core/src/object/node/mod.rs:78-88. -/
def Node.blank : Node := .mk none none none none none [] none

/-- A property without values, property.rs:755-783. -/
def propertyEmpty (E : CEnv) (c : ACtx) (p : CTerm) (rev : Bool) (m : JMap) : Except CompErr JMap :=
  (itemKey E c p rev (.node Node.blank)).bind fun k =>
    match k with
    | some key => inNest c key m fun o => addValue o key (.arr []) true
    | none => .ok m

/-- `compact_property`, property.rs:386-786. -/
def compactProperty (E : CEnv) (R : CRec) (c : ACtx) (p : CTerm) (rev : Bool) (items : List Obj)
    (m : JMap) : Except CompErr JMap :=
  if items.isEmpty then propertyEmpty E c p rev m
  else items.foldlM (propertyStep E R c p rev) m

/-! ## Nodes -/

/-- The context for a node, node.rs:37-42. -/
def nodeStart (c : ACtx) (n : Node) : ACtx :=
  if n.isEmpty && n.id.isSome then c else c.previous.getD c

/-- The compacted types, node.rs:75-88, before they are sorted. -/
def typeTerms (E : CEnv) (tsc : ACtx) : List Id → Except CompErr (List Str)
  | [] => .ok []
  | t :: l => (cIriU E tsc (.id t) true).bind fun s => (typeTerms E tsc l).map fun r => s :: r

/-- The type-scoped contexts, node.rs:70-110. -/
def typeContexts (E : CEnv) (tsc : ACtx) (types : List Id) (c : ACtx) : Except CompErr ACtx :=
  (typeTerms E tsc types).bind fun ts =>
    (sortByKey id ts).foldlM (fun c t => cScoped E (tsc.get t) c E.opts.proc.withoutPropagation) c

/-- The context of a node, node.rs:33-110. -/
def nodeContext (E : CEnv) (c tsc : ACtx) (prop : Option Str) (n : Node) : Except CompErr ACtx :=
  (cScoped E (prop.bind tsc.get) (nodeStart c n) E.opts.proc.withOverride).bind
    (typeContexts E tsc (n.types.getD []))

/-- A node that is only an identifier, under a term of type `@id` or `@vocab`, node.rs:129-175. -/
def nodeString (E : CEnv) (c : ACtx) (prop : Option Str) (n : Node) : Option (Except CompErr Json) :=
  match n.id with
  | some i =>
    if n.isEmpty then
      match (prop.bind c.get).bind (·.typ) with
      | some .id => some ((cIri E c (.id i) false).map optStr)
      | some .vocab => some ((cIri E c (.id i) true).map optStr)
      | _ => none
    else none
  | none => none

/-- The `@id` entry, node.rs:177-203. -/
def nodeIdEntries (E : CEnv) (c : ACtx) (n : Node) : Except CompErr JMap :=
  match n.id with
  | some i => (cIri E c (.id i) false).bind fun s => (cIri E c (.keyword .id) true).map fun k =>
      match k with
      | some k => [(k, optStr s)]
      | none => []
  | none => .ok []

/-- The compacted types as a value, node.rs:392-419. -/
def typesJson (E : CEnv) (tsc : ACtx) (types : List Id) : Except CompErr Json :=
  match types with
  | [t] => (cIri E tsc (.id t) true).map optStr
  | ts => (ts.mapM fun t => (cIri E tsc (.id t) true).map optStr).map .arr

/-- `compact_types`, node.rs:373-449. -/
def compactTypes (E : CEnv) (c tsc : ACtx) (types : Option (List Id)) (m : JMap) : Except CompErr JMap :=
  match types with
  | none => .ok m
  | some [] => .ok m
  | some ts => (typesJson E tsc ts).bind fun v => (cKey E c .type).bind fun k =>
      addValue m k v ((decide (E.opts.mode = .v11) && (defContainer (c.get k)).contains .set) ||
        !E.opts.compactArrays)

/-- An entry of the compacted reverse properties: under a reverse term it goes to the node, otherwise to
the map, node.rs:255-275. -/
def reverseEntry (E : CEnv) (c : ACtx) (s : JMap × JMap) (e : Str × Json) : Except CompErr (JMap × JMap) :=
  match c.get e.1 with
  | some d =>
    if d.reverse then
      (addValue s.1 e.1 e.2 (d.container.contains .set || !E.opts.compactArrays)).map fun m => (m, s.2)
    else .ok (s.1, jInsert e.1 e.2 s.2)
  | none => .ok (s.1, jInsert e.1 e.2 s.2)

/-- The reverse properties, node.rs:238-290. -/
def reverseIn (E : CEnv) (R : CRec) (c : ACtx) (rps : List (Id × List Node)) (m : JMap) :
    Except CompErr JMap :=
  (rps.foldlM (fun m p => compactProperty E R c (.id p.1) true (p.2.map Obj.node) m) []).bind fun rr =>
    (rr.foldlM (reverseEntry E c) (m, [])).bind fun s =>
      if s.2.isEmpty then .ok s.1
      else (cKey E c .reverse).map fun k => jInsert k (.obj s.2) s.1

/-- The reverse properties and the context for the rest of the node, node.rs:215-292. -/
def compactReverse (E : CEnv) (R : CRec) (c : ACtx) (rev : Option (List (Id × List Node))) (m : JMap) :
    Except CompErr (ACtx × JMap) :=
  match rev with
  | none => .ok (c, m)
  | some [] => .ok (c, m)
  | some rps => (cScoped E (c.get "@reverse".toList) c E.opts.proc.withOverride).bind fun c =>
      (reverseIn E R c rps m).map fun m => (c, m)

/-- The `@index` entry, node.rs:296-325 and lib.rs:359-390. -/
def addIndex (E : CEnv) (c : ACtx) (prop : Option Str) (index : Option Str) (m : JMap) :
    Except CompErr JMap :=
  match index with
  | some i =>
    if (defContainer (prop.bind c.get)).contains .index then .ok m
    else (cKey E c .index).map fun k => jInsert k (.str i) m
  | none => .ok m

/-- An optional entry of a node, node.rs:327-339 and 355-367. -/
def compactOpt (E : CEnv) (R : CRec) (c : ACtx) (k : Keyword) (items : Option (List Obj)) (m : JMap) :
    Except CompErr JMap :=
  match items with
  | some l => compactProperty E R c (.keyword k) false l m
  | none => .ok m

/-- The properties, node.rs:112-123 and 341-353. -/
def compactProps (E : CEnv) (R : CRec) (c : ACtx) (ps : List (Id × List Obj)) (m : JMap) :
    Except CompErr JMap :=
  (sortIf E.opts.ordered (fun p => p.1.str) ps).foldlM
    (fun m p => compactProperty E R c (.id p.1) false p.2 m) m

/-- A node that is not compacted to a string, in its context, node.rs:177-369. -/
def nodeIn (E : CEnv) (R : CRec) (c tsc : ACtx) (prop : Option Str) (n : Node) : Except CompErr Json :=
  (nodeIdEntries E c n).bind fun m => (compactTypes E c tsc n.types m).bind fun m =>
    (compactReverse E R c n.rev m).bind fun s => (addIndex E s.1 prop n.index s.2).bind fun m =>
      (compactOpt E R s.1 .graph n.graph m).bind fun m => (compactProps E R s.1 n.props m).bind fun m =>
        (compactOpt E R s.1 .included (n.included.map fun l => l.map Obj.node) m).map Json.obj

/-- `compact_indexed_node_with`, node.rs:17-370. -/
def compactNode (E : CEnv) (R : CRec) (c tsc : ACtx) (prop : Option Str) (n : Node) : Except CompErr Json :=
  (nodeContext E c tsc prop n).bind fun c =>
    match nodeString E c prop n with
    | some r => r
    | none => nodeIn E R c tsc prop n

/-! ## Objects and documents -/

/-- Compaction of a list that is not the value of a property, lib.rs:292-394. -/
def compactList (E : CEnv) (R : CRec) (c tsc : ACtx) (prop : Option Str) (index : Option Str)
    (items : List Obj) : Except CompErr Json :=
  (cScoped E (prop.bind tsc.get) (c.previous.getD c) E.opts.proc.withOverride).bind fun c =>
    if (defContainer (prop.bind tsc.get)).contains .list then
      compactCollection (R c c prop) c prop E.opts items
    else (compactProperty E R c (.keyword .list) false items []).bind fun m =>
      (addIndex E c prop index m).map .obj

/-- `compact_indexed_fragment`, lib.rs:248-397. -/
def compactBody (E : CEnv) (R : CRec) : CRec := fun c tsc prop o =>
  match o with
  | .value i v => compactValue E c prop i v
  | .node n => compactNode E R c tsc prop n
  | .list i l => compactList E R c tsc prop i l

/-- The recursive call with a limit on the nesting. -/
def crecN (E : CEnv) : Nat → CRec
  | 0 => fun _ _ _ _ => .error .fuel
  | n + 1 => compactBody E (crecN E n)

mutual
/-- How deep an object is nested. -/
def Obj.depth : Obj → Nat
  | .value _ _ => 1
  | .list _ l => objsDepth l + 1
  | .node n => n.depth
/-- How deep a node is nested. -/
def Node.depth : Node → Nat
  | .mk _ _ _ g i p r => max (max (optObjsDepth g) (optNodesDepth i)) (max (propsDepth p) (optRevDepth r)) + 1
/-- See `Obj.depth`. -/
def objsDepth : List Obj → Nat
  | [] => 0
  | o :: l => max o.depth (objsDepth l)
/-- See `Obj.depth`. -/
def optObjsDepth : Option (List Obj) → Nat
  | none => 0
  | some l => objsDepth l
/-- See `Obj.depth`. -/
def nodesDepth : List Node → Nat
  | [] => 0
  | n :: l => max n.depth (nodesDepth l)
/-- See `Obj.depth`. -/
def optNodesDepth : Option (List Node) → Nat
  | none => 0
  | some l => nodesDepth l
/-- See `Obj.depth`. -/
def propsDepth : List (Id × List Obj) → Nat
  | [] => 0
  | (_, l) :: ps => max (objsDepth l) (propsDepth ps)
/-- See `Obj.depth`. -/
def revDepth : List (Id × List Node) → Nat
  | [] => 0
  | (_, l) :: ps => max (nodesDepth l) (revDepth ps)
/-- See `Obj.depth`. -/
def optRevDepth : Option (List (Id × List Node)) → Nat
  | none => 0
  | some l => revDepth l
end

/-- `compact_fragment_full` for an indexed object, lib.rs:218-246: the depth of the object is enough. -/
def compactObject (E : CEnv) : CRec := fun c tsc prop o => crecN E o.depth c tsc prop o

/-- The entries of the document, document.rs:164-185; `none` if it is neither an object nor an array. -/
def embedObject (E : CEnv) (c : ACtx) (v : Json) : Except CompErr (Option JMap) :=
  match v with
  | .arr [] => .ok (some [])
  | .arr l => (cKey E c .graph).map fun k => some [(k, .arr l)]
  | .obj m => .ok (some m)
  | _ => .ok none

/-- `Value::is_empty_array_or_object`. -/
def Json.isEmptyCol : Json → Bool
  | .arr l => l.isEmpty
  | .obj m => m.isEmpty
  | _ => false

/-- The context is put in front, document.rs:187-198. -/
def insertContext (ctx : Json) (m : JMap) : JMap :=
  if !m.isEmpty && !ctx.isNull && !ctx.isEmptyCol then
    ("@context".toList, ctx) :: m.filter fun e => decide (e.1 ≠ "@context".toList)
  else m

/-- `embed_context`, document.rs:150-202. -/
def embedContext (E : CEnv) (c : ACtx) (l : SCtx) (v : Json) : Except CompErr Json :=
  (embedObject E c v).map fun m =>
    match m with
    | some m => .obj (insertContext l.toJson m)
    | none => .null

/-- `compact_full` for documents, document.rs:87-148; `c` is the processed and `l` the unprocessed
context. For flattened documents the nodes are the objects. -/
def compactDoc (E : CEnv) (c : ACtx) (l : SCtx) (d : Doc) : Except CompErr Json :=
  (compactCollection (compactObject E c c none) c none E.opts d).bind (embedContext E c l)

end JsonLd
