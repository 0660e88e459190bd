import Verif.Model.Quads
import Verif.Model.Keyword
/-!
# Conversion to RDF (`crates/core/src/rdf`)

`CompoundLiteralTriples` (rdf/mod.rs:97-131) is never built by the code: every `CompoundLiteral` has
`triples: None` (rdf/mod.rs:150-285), so the branches for it are left out.
-/

namespace JsonLd

/-- `enum RdfDirection`, rdf/mod.rs:46-68. -/
inductive RdfDirection where
  | i18nDatatype
  | compoundLiteral
  deriving DecidableEq, Repr

/-- `rdf_types::LiteralType` (external crate). -/
inductive LitType where
  | any (iri : Str)
  | lang (tag : Str)
  deriving DecidableEq, Repr

/-- RDF terms: `type Value`, rdf/mod.rs:637. -/
inductive Term where
  | id (i : Id)
  | lit (text : Str) (ty : LitType)
  deriving DecidableEq, Repr

/-- RDF triples, rdf/mod.rs:34. -/
structure Triple where
  subject : Id
  property : Id
  object : Term
  deriving DecidableEq, Repr

/-- RDF quads, rdf/quad.rs:12-20. -/
structure RQuad where
  subject : Id
  property : Id
  object : Term
  graph : Option Id
  deriving DecidableEq, Repr

/-- The IRIs of rdf/mod.rs:18-31. -/
def rdfNs (s : String) : Str := "http://www.w3.org/1999/02/22-rdf-syntax-ns#".toList ++ s.toList
/-- See `rdfNs`. -/
def xsdNs (s : String) : Str := "http://www.w3.org/2001/XMLSchema#".toList ++ s.toList
/-- `RDF_TYPE` -/
def rdfType : Id := .iri (rdfNs "type")
/-- `RDF_FIRST` -/
def rdfFirst : Id := .iri (rdfNs "first")
/-- `RDF_REST` -/
def rdfRest : Id := .iri (rdfNs "rest")
/-- `RDF_NIL` -/
def rdfNil : Id := .iri (rdfNs "nil")

/-- External functions: `LenientLangTag::as_well_formed`, compact printing of JSON,
`NumberBuf::is_i64`, `pretty_dtoa::dtoa` of the number, and the successive results of the generator. -/
structure RdfEnv where
  wellFormed : Str → Bool
  printJson : Json → Str
  isI64 : Str → Bool
  dtoa : Str → Str
  gen : Nat → Id

/-- The options of `rdf_quads_full`, rdf/quad.rs:157-164. -/
structure RdfOpts where
  direction : Option RdfDirection
  generalized : Bool

/-- `Id::rdf_value`, rdf/mod.rs:36-43. -/
def Id.rdfValue : Id → Option Term
  | .invalid _ => none
  | i => some (.id i)

/-- `Node::rdf_value`, rdf/mod.rs:294-298. -/
def Node.rdfValue (n : Node) : Option Term := n.id.bind Id.rdfValue

/-- The prefix of i18n datatypes, rdf/mod.rs:630-632. -/
def i18nNs : Str := "https://www.w3.org/ns/i18n#".toList

/-- `i18n`, rdf/mod.rs:628-635. The text is always an IRI when the tag is well-formed. -/
def i18n (language : Option Str) (d : Direction) : Str :=
  match language with
  | some l => i18nNs ++ l ++ ['_'] ++ d.asStr
  | none => i18nNs ++ d.asStr

/-- A string with or without language, rdf/mod.rs:187-229. -/
def langLit (s : Str) : Option Str → Term
  | some tag => .lit s (.lang tag)
  | none => .lit s (.any (xsdNs "string"))

/-- A language string whose tag is well-formed, if any, rdf/mod.rs:167-231; `n` counts the calls of
the generator. -/
def langRdf (env : RdfEnv) (dir : Option RdfDirection) (n : Nat) (s : LangString) : Term × Nat :=
  match s.direction with
  | some d => match dir with
    | some .i18nDatatype => (.lit s.data (.any (i18n s.language d)), n)
    | some .compoundLiteral => (.id (env.gen n), n + 1)
    | none => (langLit s.data s.language, n)
  | none => (langLit s.data s.language, n)

/-- A literal, rdf/mod.rs:232-286. -/
def litRdf (env : RdfEnv) (l : Literal) (ty : Option Str) : Term :=
  let (text, preferred) : Str × Option Str := match l with
    | .bool b => (if b then "true".toList else "false".toList, some (xsdNs "boolean"))
    | .null => ("null".toList, none)
    | .num t =>
      if env.isI64 t && !(ty == some (xsdNs "double")) then (t, some (xsdNs "integer"))
      else (env.dtoa t, some (xsdNs "double"))
    | .str s => (s, none)
  .lit text (.any ((ty.or preferred).getD (xsdNs "string")))

/-- `Value::rdf_value_with`, rdf/mod.rs:134-287. -/
def Value.rdf (env : RdfEnv) (dir : Option RdfDirection) (n : Nat) : Value → Option (Term × Nat)
  | .json j => some (.lit (env.printJson j) (.any (rdfNs "JSON")), n)
  | .langString s =>
    if s.language.all env.wellFormed then some (langRdf env dir n s) else none
  | .literal l ty => some (litRdf env l ty, n)

/-- `NestedListTriples`, rdf/mod.rs:377-424: a frame of the stack of `ListTriples`. -/
structure ListFrame where
  headRef : Option Id
  previous : Option Id
  items : List Obj

/-- `ListTriples`, rdf/mod.rs:488-491, with the number of identifiers generated so far. -/
structure ListState where
  stack : List ListFrame
  pending : Option Triple
  n : Nat

/-- `Object::rdf_value_with`, rdf/mod.rs:301-341: the term, the list whose triples have to be given,
and the number of identifiers generated. -/
def Obj.rdf (env : RdfEnv) (dir : Option RdfDirection) (n : Nat) :
    Obj → Option (Term × Option ListFrame × Nat)
  | .value _ v => (v.rdf env dir n).map fun r => (r.1, none, r.2)
  | .node m => m.rdfValue.map fun t => (t, none, n)
  | .list _ [] => some (.id rdfNil, none, n)
  | .list _ (o :: l) => some (.id (env.gen n), some ⟨some (env.gen n), none, o :: l⟩, n + 1)

/-- One turn of the loop of `ListTriples::next`, rdf/mod.rs:527-602; `NestedListTriples::next` is
rdf/mod.rs:404-424. -/
def listStep (env : RdfEnv) (dir : Option RdfDirection) (s : ListState) : Outcome ListState Triple :=
  match s.pending with
  | some t => .emit t { s with pending := none }
  | none => match s.stack with
    | [] => .stop s
    | ⟨_, previous, []⟩ :: st => match previous with
      | some p => .emit ⟨p, rdfRest, .id rdfNil⟩ { s with stack := st }
      | none => .again { s with stack := st }
    | ⟨head, previous, o :: l⟩ :: st =>
      let (id, n) : Id × Nat := match head with
        | some id => (id, s.n)
        | none => (env.gen s.n, s.n + 1)
      match o.rdf env dir n with
      | none => .again ⟨⟨none, some id, l⟩ :: st, none, n⟩
      | some (t, sub, n') =>
        let s' : ListState := ⟨sub.toList ++ ⟨none, some id, l⟩ :: st, some ⟨id, rdfFirst, t⟩, n'⟩
        match previous with
        | some p => .emit ⟨p, rdfRest, .id id⟩ s'
        | none => .again s'

/-- The loop of `ListTriples::next`. -/
def ListLoop (env : RdfEnv) (dir : Option RdfDirection) (s : ListState) (o : Outcome ListState Triple) :
    Prop := listStep env dir s = o

/-- `ListTriples::new`, rdf/mod.rs:494-504. -/
def ListFrame.start (f : ListFrame) (n : Nat) : ListState := ⟨[f], none, n⟩

/-- `Quads`, rdf/quad.rs:35-42: the compound value being given, the iterator over the statements, and
the number of identifiers generated so far. -/
structure RdfState where
  compound : Option (Option Id × List ListFrame × Option Triple)
  stack : List Frame
  n : Nat

/-- `ValidId::try_from(&Id)` (id.rs): an identifier that is not invalid. -/
def Id.valid : Id → Bool
  | .invalid _ => false
  | _ => true

/-- `ValidId::is_blank`. -/
def Id.isBlank : Id → Bool
  | .blank _ => true
  | _ => false

/-- The predicate, rdf/quad.rs:92-100. -/
def QProp.rdf : QProp → Option Id
  | .type => some rdfType
  | .ref i => if i.valid then some i else none

/-- `ObjectRef::rdf_value_with`, rdf/mod.rs:348-370. -/
def QObj.rdf (env : RdfEnv) (dir : Option RdfDirection) (n : Nat) :
    QObj → Option (Term × Option ListFrame × Nat)
  | .obj o => o.rdf env dir n
  | .node m => m.rdfValue.map fun t => (t, none, n)
  | .ref i => i.rdfValue.map fun t => (t, none, n)

/-- What is done with a statement, rdf/quad.rs:80-126: skipped or converted. -/
def convert (env : RdfEnv) (opts : RdfOpts) (n : Nat) (q : Quad) :
    Option (RQuad × Option ListFrame × Nat) :=
  if q.graph.all Id.valid && q.subject.valid then
    match q.property.rdf with
    | none => none
    | some p =>
      if !opts.generalized && p.isBlank then none
      else match q.object.rdf env opts.direction n with
        | none => none
        | some (t, sub, n') => some (⟨q.subject, p, t, q.graph⟩, sub, n')
  else none

/-- The second half of the loop of `Quads::next`, rdf/quad.rs:79-127, from the next statement on. -/
inductive RdfRest (env : RdfEnv) (opts : RdfOpts) : RdfState → Outcome RdfState RQuad → Prop where
  | done {s : RdfState} {st : List Frame} : Next QuadLoop s.stack none st →
      RdfRest env opts s (.stop { s with stack := st })
  | skip {s : RdfState} {st : List Frame} {q : Quad} : Next QuadLoop s.stack (some q) st →
      convert env opts s.n q = none → RdfRest env opts s (.again { s with stack := st })
  | emit {s : RdfState} {st : List Frame} {q : Quad} {r : RQuad} {n : Nat} :
      Next QuadLoop s.stack (some q) st → convert env opts s.n q = some (r, none, n) →
      RdfRest env opts s (.emit r ⟨s.compound, st, n⟩)
  | emitCompound {s : RdfState} {st : List Frame} {q : Quad} {r : RQuad} {f : ListFrame} {n : Nat} :
      Next QuadLoop s.stack (some q) st → convert env opts s.n q = some (r, some f, n) →
      RdfRest env opts s (.emit r ⟨some (r.graph, [f], none), st, n⟩)

/-- The loop of `Quads::next`, rdf/quad.rs:57-129: first the compound value, then the next statement.
After the last triple of a compound value the next statement is taken in the same turn. -/
inductive RdfLoop (env : RdfEnv) (opts : RdfOpts) : RdfState → Outcome RdfState RQuad → Prop where
  | none {s : RdfState} {o : Outcome RdfState RQuad} : s.compound = none → RdfRest env opts s o →
      RdfLoop env opts s o
  | triple {s : RdfState} {g : Option Id} {st : List ListFrame} {p : Option Triple} {t : Triple}
      {ls : ListState} : s.compound = some (g, st, p) →
      Next (ListLoop env opts.direction) ⟨st, p, s.n⟩ (some t) ls →
      (opts.generalized || !t.property.isBlank) = true →
      RdfLoop env opts s (.emit ⟨t.subject, t.property, t.object, g⟩
        ⟨some (g, ls.stack, ls.pending), s.stack, ls.n⟩)
  | skipped {s : RdfState} {g : Option Id} {st : List ListFrame} {p : Option Triple} {t : Triple}
      {ls : ListState} {o : Outcome RdfState RQuad} : s.compound = some (g, st, p) →
      Next (ListLoop env opts.direction) ⟨st, p, s.n⟩ (some t) ls →
      (opts.generalized || !t.property.isBlank) = false →
      RdfRest env opts ⟨some (g, ls.stack, ls.pending), s.stack, ls.n⟩ o → RdfLoop env opts s o
  | finished {s : RdfState} {g : Option Id} {st : List ListFrame} {p : Option Triple}
      {ls : ListState} {o : Outcome RdfState RQuad} : s.compound = some (g, st, p) →
      Next (ListLoop env opts.direction) ⟨st, p, s.n⟩ none ls →
      RdfRest env opts ⟨none, s.stack, ls.n⟩ o → RdfLoop env opts s o

/-- `RdfQuads::rdf_quads_full` for expanded documents, rdf/quad.rs:189-207. -/
def Doc.rdfInit (d : Doc) : RdfState := ⟨none, d.quadsInit, 0⟩

/-- `RdfQuads::rdf_quads_full` for flattened documents, rdf/quad.rs:209-227. -/
def flatRdfInit (f : List Node) : RdfState := ⟨none, flatQuadsInit f, 0⟩

end JsonLd
