import Verif.Model.Expand
import Verif.Model.Compact
import Verif.Model.Flatten
import Verif.Model.Compare
import Verif.Model.DocEq
import Verif.Model.DocJson
/-!
# The processor (`src/processor/mod.rs`, `src/processor/remote_document.rs`)

The trait `JsonLdProcessor` for loaded documents. (The implementation for references, remote_document.rs:216-312,
loads the document and calls this one.) Loading is as in `ProcEnv`, the outcome of context processing is given by a
function. Warnings are left out.
-/

namespace JsonLd

/-- `RemoteDocument`, crates/core/src/loader/mod.rs:155-178, without content type and profile. -/
structure Remote where
  url : Option Str := none
  contextUrl : Option Str := none
  document : Json

/-- `RemoteContextReference`, loader/mod.rs:25 and 31-37. -/
inductive ContextRef where
  | iri (u : Str)
  | loaded (l : SCtx)

/-- `Options`, src/processor/mod.rs:17-84. (The options about RDF are not used here.) -/
structure POpts where
  base : Option Str := none
  compactArrays : Bool := true
  compactToRelative : Bool := true
  expandContext : Option ContextRef := none
  ordered : Bool := false
  mode : ProcMode := .v11
  invalid : Action := .keep
  vocab : Action := .keep
  allowUndefined : Bool := true

/-- `Options::unordered`, mod.rs:87-92. -/
def POpts.unordered (o : POpts) : POpts := { o with ordered := false }

/-- `Options::context_processing_options`, mod.rs:104-109. -/
def POpts.proc (o : POpts) : Opts := { mode := o.mode }

/-- `Options::expansion_options`, mod.rs:112-118. -/
def POpts.expansion (o : POpts) : XOpts :=
  { mode := o.mode, ordered := o.ordered, invalid := o.invalid, vocab := o.vocab, allowUndefined := o.allowUndefined }

/-- `Options::compaction_options`, mod.rs:121-128. -/
def POpts.compaction (o : POpts) : CompOpts := { mode := o.mode, compactArrays := o.compactArrays, ordered := o.ordered }

/-- The external functions and context processing. -/
structure PEnv extends CompEnv where
  process : ACtx → SCtx → Option Str → Opts → Except CtxErr ACtx

/-- The environment of expansion. -/
def PEnv.expansion (E : PEnv) (base : Option Str) (o : POpts) : XEnv :=
  { E.toIriEnv with process := E.process, base := base, opts := o.expansion }

/-- The environment of compaction. -/
def PEnv.compaction (E : PEnv) (o : POpts) : CEnv := { E.toCompEnv with process := E.process, opts := o.compaction }

/-- `ExpandError`, mod.rs:149-162, `CompactError`, mod.rs:186-202, `FlattenError`, mod.rs:225-241, with panics. -/
inductive PErr where
  | contextLoading
  | contextProcessing (e : CtxErr)
  | expansion (e : XErr)
  | compaction (e : CompErr)
  | conflictingIndexes (e : FlatErr)
  | panic

/-- `map_err`. -/
def mapErr {ε ε' α : Type} (f : ε → ε') : Except ε α → Except ε' α
  | .ok a => .ok a
  | .error e => .error (f e)

/-- `load_context_with`, loader/mod.rs:106-123. -/
def PEnv.loadContext (E : PEnv) : ContextRef → Except PErr SCtx
  | .iri u => mapErr (fun _ => .contextLoading) (E.load u)
  | .loaded l => .ok l

/-- Load and process a context, remote_document.rs:62-77 and 81-96. -/
def PEnv.addContext (E : PEnv) (o : POpts) (c : ACtx) (x : ContextRef) (base : Option Str) : Except PErr ACtx :=
  (E.loadContext x).bind fun l => mapErr .contextProcessing (E.process c l base o.proc)

/-- The context of `expand_context`, remote_document.rs:61-78. -/
def PEnv.expandContext (E : PEnv) (o : POpts) (c : ACtx) : Except PErr ACtx :=
  match o.expandContext with
  | some x => E.addContext o c x c.originalBase
  | none => .ok c

/-- The context of the document's context URL, remote_document.rs:80-97. -/
def PEnv.linkContext (E : PEnv) (o : POpts) (u : Option Str) (c : ACtx) : Except PErr ACtx :=
  match u with
  | some u => E.addContext o c (.iri u) (some u)
  | none => .ok c

/-- `expand_full`, remote_document.rs:46-110. -/
def expandFull (E : PEnv) (r : Remote) (o : POpts) : Except PErr Doc :=
  (E.expandContext o (ACtx.new (o.base.or r.url))).bind fun c =>
    (E.linkContext o r.contextUrl c).bind fun c =>
      mapErr .expansion (expandDoc (E.expansion (r.url.or o.base) o) c r.document)

/-- The base IRI of the context of a compaction, mod.rs:1912-1919. -/
def compactBase (o : POpts) (url : Option Str) (c : ACtx) : ACtx :=
  match o.base with
  | some b => { c with base := some b }
  | none => if o.compactToRelative && c.base.isNone then { c with base := url } else c

/-- `compact_expanded_full`, mod.rs:1876-1930. -/
def compactExpanded (E : PEnv) (d : Doc) (url : Option Str) (x : ContextRef) (o : POpts) : Except PErr Json :=
  (E.loadContext x).bind fun l =>
    (mapErr .contextProcessing (E.process (ACtx.new none) l (url.or o.base) o.proc)).bind fun c =>
      mapErr .compaction (compactDoc (E.compaction o) (compactBase o url c) l d)

/-- `compact_full`, remote_document.rs:129-163. -/
def compactFull (E : PEnv) (r : Remote) (x : ContextRef) (o : POpts) : Except PErr Json :=
  (expandFull E r o.unordered).bind fun d => compactExpanded E d r.url x o

/-- `flatten_full`, remote_document.rs:165-213, with the generator and the iteration orders of `Doc.flatten`. -/
def flattenFull (E : PEnv) (gen : Nat → Id) (i : Orders) (n : Nat) (r : Remote) (x : Option ContextRef) (o : POpts) :
    Except PErr Json :=
  (expandFull E r o.unordered).bind fun d =>
    (mapErr .conflictingIndexes (d.flatten gen i o.ordered n)).bind fun ns =>
      match x with
      | some x => compactExpanded E (ns.map .node) r.url x o
      | none => .ok (Doc.toJson (ns.map .node))

/-- `compare_full`, remote_document.rs:16-44. -/
def compareFull (E : PEnv) (a b : Remote) (o : POpts) : Except PErr Bool :=
  match Json.compare a.document b.document with
  | none => .error .panic
  | some false => .ok false
  | some true => (expandFull E a o).bind fun d => (expandFull E b o).map fun e => d.eq e

end JsonLd
