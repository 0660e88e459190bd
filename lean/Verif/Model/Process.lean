import Verif.Model.ExpandIri
/-!
# Context processing (`crates/context-processing/src/algorithm/{mod,define,iri,merged}.rs`, `stack.rs`)

The algorithms `process_context`, `define` and `expand_iri_with` call each other without a
bound that is visible in the code. They are written here with open recursion (`Rec` gives the
recursive calls) and tied together by `recN`, which runs out of fuel (error `fuel`) when the calls are
nested more deeply than its argument. Warnings are left out. The loader is a function of the URL
(loading the same URL twice gives the same document).
-/

namespace JsonLd

/-- `Error`, crates/context-processing/src/lib.rs:43-111, with two additions: `panic` stands for a
failing `unwrap`, `fuel` for calls nested too deeply. -/
inductive CtxErr where
  | invalidContextNullification | loadingDocumentFailed | processingModeConflict
  | invalidContextEntry | invalidImportValue | invalidRemoteContext | invalidBaseIri
  | invalidVocabMapping | cyclicIriMapping | invalidTermDefinition | keywordRedefinition
  | invalidTypeMapping | invalidReverseProperty | invalidIriMapping | invalidKeywordAlias
  | invalidContainerMapping | invalidScopedContext | protectedTermRedefinition
  | contextLoadingFailed | contextExtractionFailed | forbiddenVocab
  | panic | fuel
  deriving DecidableEq, Repr

/-- `ProcessingMode`, crates/core/src/mode.rs. -/
inductive ProcMode where
  | v10 | v11
  deriving DecidableEq, Repr

/-- `Options`, crates/context-processing/src/lib.rs:215-229. -/
structure Opts where
  mode : ProcMode := .v11
  override : Bool := false
  propagate : Bool := true
  vocab : Action := .keep
  deriving DecidableEq, Repr

/-- `with_no_override`, lib.rs:241-246. -/
def Opts.noOverride (o : Opts) : Opts := { o with override := false }
/-- `with_override`, lib.rs:233-238. -/
def Opts.withOverride (o : Opts) : Opts := { o with override := true }

/-- Why a context could not be loaded: `Error::ContextLoadingFailed`, `ContextExtractionFailed`. -/
inductive LoadFail where
  | loading | extraction
  deriving DecidableEq, Repr

/-- The external functions, with the loader followed by `into_ld_context`. -/
structure ProcEnv extends IriEnv where
  load : Str → Except LoadFail SCtx

/-- Loading with the conversion of errors, algorithm/mod.rs:165-171 and 221-227. -/
def ProcEnv.fetch (E : ProcEnv) (u : Str) : Except CtxErr SCtx :=
  match E.load u with
  | .ok c => .ok c
  | .error .loading => .error .contextLoadingFailed
  | .error .extraction => .error .contextExtractionFailed

/-- `Merged`, merged.rs:5-17. -/
structure Merged where
  base : SDef
  imported : Option SDef

/-- `Merged::base`, merged.rs:28-34. -/
def Merged.baseValue (m : Merged) : Option (Option Str) := m.base.base.or (m.imported.bind (·.base))
/-- `Merged::vocab`, merged.rs:36-42. -/
def Merged.vocab (m : Merged) : Option (Option Str) := m.base.vocab.or (m.imported.bind (·.vocab))
/-- `Merged::language`, merged.rs:44-50. -/
def Merged.language (m : Merged) : Option (Option Str) :=
  m.base.language.or (m.imported.bind (·.language))
/-- `Merged::direction`, merged.rs:52-56. -/
def Merged.direction (m : Merged) : Option (Option Direction) :=
  m.base.direction.or (m.imported.bind (·.direction))
/-- `Merged::protected`, merged.rs:58-62. -/
def Merged.protected_ (m : Merged) : Option Bool :=
  m.base.protected_.or (m.imported.bind (·.protected_))
/-- `Merged::type_`, merged.rs:64-68, and `get` of the keyword `@type`, 78-87. -/
def Merged.type (m : Merged) : Option (Option Bool) := m.base.type.or (m.imported.bind (·.type))
/-- `Merged::get` of a key, merged.rs:78-87. -/
def Merged.binding (m : Merged) (k : Str) : Option (Option STerm) :=
  (lookupKey k m.base.bindings).or (m.imported.bind fun i => lookupKey k i.bindings)
/-- `Merged::bindings`, merged.rs:70-76 and 139-163: the bindings of the imported context without
those the importing one has, then the bindings of the latter. -/
def Merged.bindings (m : Merged) : List (Str × Option STerm) :=
  (match m.imported with
    | some i => i.bindings.filter fun b => (lookupKey b.1 m.base.bindings).isNone
    | none => []) ++ m.base.bindings

/-- `KeyOrKeyword`, crates/syntax/src/context/definition/key.rs:121-125. The only keyword ever passed
to `define` is `@type` (algorithm/mod.rs:370; other strings that reach `define` are keys, see
algorithm/iri.rs:50-65). -/
inductive DKey where
  | type
  | key (s : Str)
  deriving DecidableEq, Repr

/-- What `define` changes: the active context and `DefinedTerms`, define.rs:48-76 (the flag is
`pending`). -/
structure DState where
  ctx : ACtx
  defd : List (DKey × Bool)

/-- The entry of a key in `DefinedTerms`. -/
def lookupDef (t : DKey) : List (DKey × Bool) → Option Bool
  | [] => none
  | (t', b) :: m => if t' = t then some b else lookupDef t m

/-- `DefinedTerms::begin`, define.rs:56-70; `none` is `Ok(false)`. -/
def DState.start (s : DState) (t : DKey) : Except CtxErr (Option DState) :=
  match lookupDef t s.defd with
  | some true => .error .cyclicIriMapping
  | some false => .ok none
  | none => .ok (some { s with defd := (t, true) :: s.defd })

/-- `DefinedTerms::end`, define.rs:72-75. -/
def DState.finish (s : DState) (t : DKey) : DState := { s with defd := (t, false) :: s.defd }

/-- The recursive calls of `define` and `process_context`. -/
structure Rec where
  define : DState → Merged → DKey → List Str → Option Str → Bool → Opts → Except CtxErr DState
  process : ACtx → SCtx → List Str → Option Str → Opts → Except CtxErr ACtx

section
variable (R : Rec) (E : ProcEnv)

/-- The end of `expand_iri_with`, iri.rs:155-194. -/
def expandRest (s : DState) (x : Str) (docRel : Bool) (voc : Option Action) :
    Except CtxErr (DState × Option CTerm) :=
  match expandTail E.toIriEnv s.ctx x docRel voc with
  | .ok t => .ok (s, t)
  | .error () => .error .forbiddenVocab

/-- Absolute IRIs in `expand_iri_with`, iri.rs:150-152. -/
def expandAbs (s : DState) (x : Str) (docRel : Bool) (voc : Option Action) :
    Except CtxErr (DState × Option CTerm) :=
  if E.isIri x then .ok (s, some (.id (.iri x))) else expandRest E s x docRel voc

/-- Compact IRIs in `expand_iri_with`, iri.rs:105-152. -/
def expandCompact (s : DState) (x : Str) (docRel : Bool) (voc : Option Action) (m : Merged)
    (rc : List Str) (o : Opts) : Except CtxErr (DState × Option CTerm) :=
  match compactIri E.toIriEnv x with
  | none => expandAbs E s x docRel voc
  | some (p, y) => do
    let s ← R.define s m (.key p) rc none false o.noOverride
    match expandPrefix E.toIriEnv s.ctx p y with
    | some t => .ok (s, some t)
    | none => expandAbs E s x docRel voc

/-- `expand_iri_with` after the definition of the string itself, iri.rs:76-194. -/
def expandAfter (s : DState) (x : Str) (docRel : Bool) (voc : Option Action) (m : Merged)
    (rc : List Str) (o : Opts) : Except CtxErr (DState × Option CTerm) :=
  match expandTerm s.ctx x voc with
  | some t => .ok (s, some t)
  | none =>
    if colonInside x then
      if E.isBlank x then .ok (s, some (.id (.blank x)))
      else if x = ['_', ':'] then .ok (s, some (.id (.invalid x)))
      else expandCompact R E s x docRel voc m rc o
    else expandRest E s x docRel voc

/-- `expand_iri_with`, iri.rs:28-197. -/
def expandWith (s : DState) (v : Option Expandable) (docRel : Bool) (voc : Option Action)
    (m : Merged) (rc : List Str) (o : Opts) : Except CtxErr (DState × Option CTerm) :=
  match v with
  | none => .ok (s, some .null)
  | some (.keyword k) => .ok (s, some (.keyword k))
  | some (.string x) =>
    if isKeywordLike x then .ok (s, some .null)
    else do
      let s ← R.define s m (.key x) rc none false o.noOverride
      expandAfter R E s x docRel voc m rc o

/-- The `@type` entry of a context, define.rs:115-168. -/
def defineType (o : Opts) (c : ACtx) (p : Option Bool) : Except CtxErr ACtx :=
  if o.mode = .v10 then .error .keywordRedefinition
  else
    let p := p.getD false
    .ok { c with typeDef := some (if !o.override && c.typeDef == some true then true else p) }

/-- `ExpandedRef::from`, crates/syntax/src/context/term_definition/mod.rs:37-45 and 307-317. -/
def STerm.exp : Option STerm → SExp
  | none => { SExp.empty with id := some none }
  | some (.simple s) => { SExp.empty with id := some (some (SId.ofStr s)) }
  | some (.expanded x) => x

/-- `simple_term`, define.rs:175. -/
def STerm.isSimple : Option STerm → Bool
  | some (.expanded _) => false
  | _ => true

/-- `From<IdRef> for ExpandableRef`, term_definition/id.rs:166-173. -/
def SId.expandable : SId → Expandable
  | .keyword k => .keyword k
  | .term s => .string s

/-- `IdRef::is_keyword`, term_definition/id.rs:139-141. -/
def SId.isKeyword : SId → Bool
  | .keyword _ => true
  | .term _ => false

/-- `From<&Type> for ExpandableRef`, term_definition/type_.rs. -/
def SType.expandable : SType → Expandable
  | .keyword k => .keyword k.keyword
  | .term s => .string s

/-- The initial definition and `@protected`, define.rs:178-196. -/
def stepProtected (o : Opts) (x : SExp) (prot : Bool) : Except CtxErr TermDef :=
  match x.protected_ with
  | some p => if o.mode = .v10 then .error .invalidTermDefinition else .ok { protected_ := p }
  | none => .ok { protected_ := prot }

/-- The type mapping, define.rs:217-237. -/
def typeMapping (o : Opts) (t : Option CTerm) (d : TermDef) : Except CtxErr TermDef :=
  match t with
  | none => .ok d
  | some t =>
    if o.mode = .v10 ∧ (t = .keyword .json ∨ t = .keyword .none) then .error .invalidTypeMapping
    else match TypeMap.ofTerm t with
      | some t => .ok { d with typ := some t }
      | none => .error .invalidTypeMapping

/-- `@type`, define.rs:198-238. -/
def stepType (s : DState) (m : Merged) (x : SExp) (rc : List Str) (o : Opts) (d : TermDef) :
    Except CtxErr (DState × TermDef) :=
  match x.type with
  | none => .ok (s, d)
  | some t => do
    let r ← expandWith R E s (t.map SType.expandable) false (some o.vocab) m rc o
    let d ← typeMapping o r.2 d
    .ok (r.1, d)

/-- The container of a reverse property, define.rs:288-307. -/
def reverseContainer (x : SExp) (d : TermDef) : Except CtxErr TermDef :=
  match x.container with
  | none => .ok d
  | some none => .ok d
  | some (some c) =>
    match Container.fromSyntax (some c) with
    | some .set => .ok { d with container := .set }
    | some .index => .ok { d with container := .index }
    | _ => .error .invalidReverseProperty

/-- The value of a reverse property, define.rs:274-279. -/
def reverseValue (t : Option CTerm) (d : TermDef) : Except CtxErr TermDef :=
  match t with
  | some (.id i) => if i.isValid then .ok { d with value := some (.id i) } else .error .invalidIriMapping
  | _ => .error .invalidIriMapping

/-- `@reverse`, define.rs:240-317. -/
def stepReverse (s : DState) (m : Merged) (k : Str) (x : SExp) (r : Str) (rc : List Str) (o : Opts)
    (d : TermDef) : Except CtxErr DState :=
  if x.id.isSome ∨ x.nest.isSome then .error .invalidReverseProperty
  else if isKeywordLike r then .ok s
  else do
    let q ← expandWith R E s (some (Expandable.ofStr r)) false (some o.vocab) m rc o
    let d ← reverseValue q.2 d
    let d ← reverseContainer x d
    let s := q.1
    .ok ({ s with ctx := s.ctx.setNormal k { d with reverse := true } }.finish (.key k))

/-- The check of an explicit IRI mapping, define.rs:363-377. -/
def checkMapping (t : Option CTerm) : Except CtxErr (Option CTerm) :=
  match t with
  | some (.keyword .context) => .error .invalidKeywordAlias
  | some (.id i) => if i.isValid then .ok t else .error .invalidIriMapping
  | t => .ok t

/-- `contains_between_boundaries`, define.rs:40-46. -/
def betweenBoundaries (s : Str) (c : Char) : Bool :=
  decide (c ∈ s ∧ s.head? ≠ some c ∧ s.getLast? ≠ some c)

/-- Terms which look like IRIs have to expand to their IRI mapping, define.rs:383-414. -/
def checkTerm (s : DState) (m : Merged) (k : Str) (rc : List Str) (o : Opts) (d : TermDef) :
    Except CtxErr DState :=
  if betweenBoundaries k ':' = true ∨ '/' ∈ k then do
    let s := s.finish (.key k)
    let r ← expandWith R E s (some (.string k)) false (some o.vocab) m rc o
    if d.value ≠ r.2 then .error .invalidIriMapping else .ok r.1
  else .ok s

/-- `is_gen_delim_or_blank`, define.rs:18-37. -/
def genDelimOrBlank : CTerm → Bool
  | .id (.blank _) => true
  | .id (.iri s) =>
    match s.getLast? with
    | some c => decide (c ∈ [':', '/', '?', '#', '[', ']', '@'])
    | none => false
  | _ => false

/-- The prefix flag of simple terms, define.rs:416-429. -/
def simplePrefix (k : Str) (simple : Bool) (d : TermDef) : Except CtxErr TermDef :=
  if ':' ∉ k ∧ '/' ∉ k ∧ simple = true then
    match d.value with
    | none => .error .panic
    | some t => if genDelimOrBlank t then .ok { d with prefix_ := true } else .ok d
  else .ok d

/-- An `@id` entry that is not the term itself, define.rs:331-431. No definition in the result means
that the function returns. -/
def explicitId (s : DState) (m : Merged) (k : Str) (i : SId) (simple : Bool) (rc : List Str)
    (o : Opts) (d : TermDef) : Except CtxErr (DState × Option TermDef) :=
  if isKeywordLike i.str = true ∧ i.isKeyword = false then .ok (s, none)
  else do
    let r ← expandWith R E s (some i.expandable) false (some o.vocab) m rc o
    let v ← checkMapping r.2
    let d := { d with value := v }
    let s ← checkTerm R E r.1 m k rc o d
    let d ← simplePrefix k simple d
    .ok (s, some d)

/-- The prefix of a term, define.rs:440-487. -/
def implicitPrefix (s : DState) (m : Merged) (k : Str) (rc : List Str) (o : Opts) :
    Except CtxErr (DState × Option CTerm) :=
  match compactIri E.toIriEnv k with
  | none => .ok (s, none)
  | some (p, y) => do
    let s ← R.define s m (.key p) rc none false o.noOverride
    match s.ctx.getValue p with
    | none => .ok (s, none)
    | some v =>
      let i := (v.bind (·.asIri)).getD [] ++ y
      if E.isIri i then .ok (s, some (.id (.iri i))) else .error .invalidIriMapping

/-- Terms that are blank node identifiers, IRIs or relative IRI references, define.rs:490-526. -/
def implicitRef (c : ACtx) (k : Str) (o : Opts) : Except CtxErr (Option CTerm) :=
  if E.isBlank k then .ok (some (.id (.blank k)))
  else if E.isRef k then
    if E.isIri k then .ok (some (.id (.iri k)))
    else if '/' ∈ k then
      match expandStr E.toIriEnv c k false (some o.vocab) with
      | .error () => .error .forbiddenVocab
      | .ok (some (.id (.iri i))) => .ok (some (.id (.iri i)))
      | .ok _ => .error .invalidIriMapping
    else .ok none
  else .ok none

/-- Terms relative to the vocabulary mapping, define.rs:529-563. -/
def implicitVocab (c : ACtx) (k : Str) : Except CtxErr CTerm :=
  match c.vocab.bind (·.asIri) with
  | some v => if E.isIri (v ++ k) then .ok (.id (.iri (v ++ k))) else .error .invalidIriMapping
  | none => .error .invalidIriMapping

/-- No `@id` entry, or one that is the term itself, define.rs:437-566. -/
def implicitId (s : DState) (m : Merged) (k : Str) (rc : List Str) (o : Opts) (d : TermDef) :
    Except CtxErr (DState × TermDef) := do
  let r ← implicitPrefix R E s m k rc o
  match r.2 with
  | some v => .ok (r.1, { d with value := some v })
  | none => do
    let w ← implicitRef E r.1.ctx k o
    match w with
    | some v => .ok (r.1, { d with value := some v })
    | none => do
      let v ← implicitVocab E r.1.ctx k
      .ok (r.1, { d with value := some v })

/-- The IRI mapping, define.rs:319-568. The branch at 432-436 is never taken: it needs an `@id` that
is a keyword and equal to a key, but a keyword differs from every key (key.rs:186-190). -/
def stepId (s : DState) (m : Merged) (k : Str) (x : SExp) (simple : Bool) (rc : List Str) (o : Opts)
    (d : TermDef) : Except CtxErr (DState × Option TermDef) :=
  match x.id with
  | some none => .ok (s, some d)
  | some (some i) =>
    if i = .term k then do
      let r ← implicitId R E s m k rc o d
      .ok (r.1, some r.2)
    else explicitId R E s m k i simple rc o d
  | none => do
    let r ← implicitId R E s m k rc o d
    .ok (r.1, some r.2)

/-- Type mapping of type containers, define.rs:611-626. -/
def typeContainer (d : TermDef) : Except CtxErr TermDef :=
  if d.container.contains .type then
    match d.typ with
    | none => .ok { d with typ := some .id }
    | some .id => .ok d
    | some .vocab => .ok d
    | some _ => .error .invalidTypeMapping
  else .ok d

/-- The containers JSON-LD 1.0 does not have, define.rs:575-588. -/
def container10 : Option SynContainer → Bool
  | none => true
  | some (.many _) => true
  | some (.one k) => decide (k = .graph ∨ k = .id ∨ k = .type)

/-- `@container`, define.rs:570-627. -/
def stepContainer (o : Opts) (x : SExp) (d : TermDef) : Except CtxErr TermDef :=
  match x.container with
  | none => .ok d
  | some c =>
    if o.mode = .v10 ∧ container10 c = true then .error .invalidContainerMapping
    else match Container.fromSyntax c with
      | none => .error .invalidContainerMapping
      | some c => typeContainer { d with container := c }

/-- `@index`, define.rs:629-657. -/
def stepIndex (c : ACtx) (o : Opts) (x : SExp) (d : TermDef) : Except CtxErr TermDef :=
  match x.index with
  | none => .ok d
  | some i =>
    if d.container.contains .index = false ∨ o.mode = .v10 then .error .invalidTermDefinition
    else match expandIri E.toIriEnv c (some (Expandable.ofStr i)) false (some o.vocab) with
      | .error () => .error .forbiddenVocab
      | .ok (some (.id (.iri _))) => .ok { d with index := some i }
      | .ok _ => .error .invalidTermDefinition

/-- The errors of scoped contexts (a panic and a lack of fuel are no errors of the code),
define.rs:687. -/
def scopedError : CtxErr → CtxErr
  | .panic => .panic
  | .fuel => .fuel
  | _ => .invalidScopedContext

/-- `@context`, define.rs:659-692. The processed context is thrown away. -/
def stepContext (c : ACtx) (o : Opts) (x : SExp) (rc : List Str) (base : Option Str) (d : TermDef) :
    Except CtxErr TermDef :=
  match x.context with
  | none => .ok d
  | some l =>
    if o.mode = .v10 then .error .invalidTermDefinition
    else match R.process c l rc base o.withOverride with
      | .error e => .error (scopedError e)
      | .ok _ => .ok { d with context := some l, baseUrl := base }

/-- `@language` and `@direction`, define.rs:694-715. -/
def stepLanguage (x : SExp) (d : TermDef) : TermDef :=
  if x.type.isSome then d
  else { d with language := x.language.or d.language, direction := x.direction.or d.direction }

/-- `@nest`, define.rs:717-726. -/
def stepNest (o : Opts) (x : SExp) (d : TermDef) : Except CtxErr TermDef :=
  match x.nest with
  | none => .ok d
  | some n => if o.mode = .v10 then .error .invalidTermDefinition else .ok { d with nest := some n }

/-- `@prefix`, define.rs:728-753. -/
def stepPrefix (o : Opts) (k : Str) (x : SExp) (d : TermDef) : Except CtxErr TermDef :=
  match x.prefix_ with
  | none => .ok d
  | some p =>
    if ':' ∈ k ∨ '/' ∈ k ∨ o.mode = .v10 then .error .invalidTermDefinition
    else if p then
      match d.value with
      | none => .error .panic
      | some t => if t.isKeyword then .error .invalidTermDefinition else .ok { d with prefix_ := true }
    else .ok { d with prefix_ := false }

/-- `@propagate`, define.rs:755-760. -/
def stepPropagate (x : SExp) (d : TermDef) : Except CtxErr TermDef :=
  if x.propagate.isSome then .error .invalidTermDefinition else .ok d

/-- The steps between the IRI mapping and the protection check, define.rs:570-760. -/
def stepRest (c : ACtx) (k : Str) (x : SExp) (rc : List Str) (base : Option Str) (o : Opts)
    (d : TermDef) : Except CtxErr TermDef := do
  let d ← stepContainer o x d
  let d ← stepIndex E c o x d
  let d ← stepContext R c o x rc base d
  let d ← stepNest o x (stepLanguage x d)
  let d ← stepPrefix o k x d
  stepPropagate x d

/-- The protection check, define.rs:762-781. -/
def stepKeep (o : Opts) (prev : Option TermDef) (d : TermDef) : Except CtxErr TermDef :=
  if o.override then .ok d
  else match prev with
    | none => .ok d
    | some p =>
      if p.protected_ then
        if d.eqModProtected p then .ok { d with protected_ := true }
        else .error .protectedTermRedefinition
      else .ok d

/-- The steps of a definition that has no `@reverse` entry, define.rs:319-785. -/
def finishTerm (s : DState) (m : Merged) (k : Str) (x : SExp) (simple : Bool) (prev : Option TermDef)
    (rc : List Str) (base : Option Str) (o : Opts) (d : TermDef) : Except CtxErr DState := do
  let r ← stepId R E s m k x simple rc o d
  match r.2 with
  | none => .ok r.1
  | some d => do
    let d ← stepRest R E r.1.ctx k x rc base o d
    let d ← stepKeep o prev d
    .ok ({ r.1 with ctx := r.1.ctx.setNormal k d }.finish (.key k))

/-- The definition of a term, define.rs:169-785. -/
def defineTerm (s : DState) (m : Merged) (k : Str) (b : Option STerm) (rc : List Str)
    (base : Option Str) (prot : Bool) (o : Opts) : Except CtxErr DState := do
  let prev := s.ctx.getNormal k
  let s := { s with ctx := s.ctx.eraseNormal k }
  let x := STerm.exp b
  let d ← stepProtected o x prot
  let r ← stepType R E s m x rc o d
  match x.reverse with
  | some v => stepReverse R E r.1 m k x v rc o r.2
  | none => finishTerm R E r.1 m k x (STerm.isSimple b) prev rc base o r.2

/-- `define` for a term that was not started before, define.rs:105-786. -/
def defineNew (s : DState) (m : Merged) (t : DKey) (rc : List Str) (base : Option Str) (prot : Bool)
    (o : Opts) : Except CtxErr DState :=
  match t with
  | .type =>
    match m.type with
    | none => .ok (s.finish .type)
    | some p => do
      let c ← defineType o s.ctx p
      .ok ({ s with ctx := c }.finish .type)
  | .key k =>
    if k = [] then .error .invalidTermDefinition
    else match m.binding k with
      | none => .ok (s.finish (.key k))
      | some b => defineTerm R E s m k b rc base prot o

/-- `define`, define.rs:85-788. -/
def defineBody (s : DState) (m : Merged) (t : DKey) (rc : List Str) (base : Option Str) (prot : Bool)
    (o : Opts) : Except CtxErr DState :=
  match s.start t with
  | .error e => .error e
  | .ok none => .ok s
  | .ok (some s) => defineNew R E s m t rc base prot o

/-- The loop over the bindings, algorithm/mod.rs:388-406. -/
def defineAll (m : Merged) (rc : List Str) (base : Option Str) (prot : Bool) (o : Opts) :
    List (Str × Option STerm) → DState → Except CtxErr DState
  | [], s => .ok s
  | b :: bs, s => do
    let s ← R.define s m (.key b.1) rc base prot o
    defineAll m rc base prot o bs s

/-- `@import`, algorithm/mod.rs:204-259. -/
def importOf (d : SDef) (base : Option Str) (o : Opts) : Except CtxErr (Option SDef) :=
  match d.import_ with
  | none => .ok none
  | some r =>
    if o.mode = .v10 then .error .invalidContextEntry
    else match resolveIri E.toIriEnv r base with
      | none => .error .invalidImportValue
      | some u => do
        let l ← E.fetch u
        match l with
        | .one (.defn i) => if i.import_.isSome then .error .invalidContextEntry else .ok (some i)
        | _ => .error .invalidRemoteContext

/-- `@base`, algorithm/mod.rs:263-284. -/
def stepBase (m : Merged) (rc : List Str) (c : ACtx) : Except CtxErr ACtx :=
  if rc.isEmpty then
    match m.baseValue with
    | none => .ok c
    | some none => .ok { c with base := none }
    | some (some r) =>
      if E.isIri r then .ok { c with base := some r }
      else match resolveIri E.toIriEnv r c.base with
        | none => .error .invalidBaseIri
        | some b => .ok { c with base := some b }
  else .ok c

/-- `@vocab`, algorithm/mod.rs:286-317. -/
def stepVocab (m : Merged) (o : Opts) (c : ACtx) : Except CtxErr ACtx :=
  match m.vocab with
  | none => .ok c
  | some none => .ok { c with vocab := none }
  | some (some v) =>
    match expandStr E.toIriEnv c v true (some o.vocab) with
    | .error () => .error .forbiddenVocab
    | .ok (some (.id i)) => .ok { c with vocab := some (.id i) }
    | .ok _ => .error .invalidVocabMapping

/-- `@language`, algorithm/mod.rs:319-330. -/
def stepDefaultLanguage (m : Merged) (c : ACtx) : ACtx :=
  match m.language with
  | none => c
  | some l => { c with language := l }

/-- `@direction`, algorithm/mod.rs:332-349. -/
def stepDefaultDirection (m : Merged) (o : Opts) (c : ACtx) : Except CtxErr ACtx :=
  match m.direction with
  | none => .ok c
  | some d => if o.mode = .v10 then .error .invalidContextEntry else .ok { c with direction := d }

/-- The call of `define` for `@type`, algorithm/mod.rs:366-386. -/
def defineTypeEntry (m : Merged) (rc : List Str) (base : Option Str) (o : Opts) (s : DState) :
    Except CtxErr DState :=
  if m.type.isSome then R.define s m .type rc base (m.protected_.getD false) o else .ok s

/-- A context definition, algorithm/mod.rs:193-407. -/
def processDef (c : ACtx) (d : SDef) (rc : List Str) (base : Option Str) (o : Opts) :
    Except CtxErr ACtx :=
  if d.version = true ∧ o.mode = .v10 then .error .processingModeConflict
  else do
    let i ← importOf E d base o
    let m : Merged := ⟨d, i⟩
    let c ← stepBase E m rc c
    let c ← stepVocab E m o c
    let c ← stepDefaultDirection m o (stepDefaultLanguage m c)
    let s ← defineTypeEntry R m rc base o ⟨c, []⟩
    let s ← defineAll R m rc base (m.protected_.getD false) o m.bindings s
    .ok s.ctx

/-- One item of the local context, algorithm/mod.rs:108-410: the new result and remote contexts.
`ob` is the original base URL of the active context. -/
def processEntry (ob : Option Str) (base : Option Str) (o : Opts) (c : ACtx) (rc : List Str) :
    SEntry → Except CtxErr (ACtx × List Str)
  | .null =>
    if o.override = false ∧ c.hasProtected = true then .error .invalidContextNullification
    else .ok ({ ACtx.new ob with previous := if o.propagate then none else some c }, rc)
  | .ref r =>
    match resolveIri E.toIriEnv r base with
    | none => .error .loadingDocumentFailed
    | some u =>
      if u ∈ rc then .ok (c, rc)
      else do
        let l ← E.fetch u
        let c ← R.process c l (u :: rc) (some u)
          { mode := o.mode, override := false, propagate := true, vocab := o.vocab }
        .ok (c, u :: rc)
  | .defn d => do
    let c ← processDef R E c d rc base o
    .ok (c, rc)

/-- The loop over the items, algorithm/mod.rs:107-411. -/
def processEntries (ob : Option Str) (base : Option Str) (o : Opts) :
    List SEntry → ACtx → List Str → Except CtxErr ACtx
  | [], c, _ => .ok c
  | e :: es, c, rc => do
    let r ← processEntry R E ob base o c rc e
    processEntries ob base o es r.1 r.2

/-- `@propagate`, algorithm/mod.rs:90-101. -/
def stepPropagation (l : SCtx) (o : Opts) : Except CtxErr Opts :=
  match l with
  | .one (.defn d) =>
    match d.propagate with
    | none => .ok o
    | some p => if o.mode = .v10 then .error .invalidContextEntry else .ok { o with propagate := p }
  | _ => .ok o

/-- The initial result, algorithm/mod.rs:87 and 103-107. -/
def startContext (c : ACtx) (o : Opts) : ACtx :=
  if o.propagate = false ∧ c.previous.isNone = true then { c with previous := some c } else c

/-- `process_context`, algorithm/mod.rs:73-414. -/
def processBody (c : ACtx) (l : SCtx) (rc : List Str) (base : Option Str) (o : Opts) :
    Except CtxErr ACtx := do
  let o ← stepPropagation l o
  processEntries R E c.originalBase base o l.entries (startContext c o) rc

end

/-- The recursion with at most `n` nested calls. -/
def recN (E : ProcEnv) : Nat → Rec
  | 0 => ⟨fun _ _ _ _ _ _ _ => .error .fuel, fun _ _ _ _ _ => .error .fuel⟩
  | n + 1 => ⟨defineBody (recN E n) E, processBody (recN E n) E⟩

/-- `Process::process_full`, algorithm/mod.rs:20-51: the outcome of processing, if the calls end.
-/
def Processed (E : ProcEnv) (c : ACtx) (l : SCtx) (base : Option Str) (o : Opts)
    (r : Except CtxErr ACtx) : Prop :=
  r ≠ .error .fuel ∧ ∃ n, (recN E n).process c l [] base o = r

end JsonLd
