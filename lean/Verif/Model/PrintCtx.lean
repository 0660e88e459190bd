import Verif.Model.Print
import Verif.Model.CtxJson
/-!
# Printing contexts, and the iterators over their entries

(`crates/syntax/src/context/print.rs`, `print_ld.rs`, `context/definition/reference.rs`,
`context/term_definition/mod.rs`, `context/definition/type_.rs`.) See `Model/Print.lean` for the two
passes.
-/

namespace JsonLd

/-! ## Iterators -/

/-- `definition::EntryRef`, definition/reference.rs:150-161. -/
inductive DEntry where
  | base (v : Option Str)
  | import_ (v : Str)
  | language (v : Option Str)
  | direction (v : Option Direction)
  | propagate (v : Bool)
  | protected_ (v : Bool)
  | type (v : Option Bool)
  | version
  | vocab (v : Option Str)
  | definition (k : Str) (v : Option STerm)

namespace SDef

/-- `Entries::size_hint`, definition/reference.rs:39-79. The iterator has the fields of the definition
(6-21). -/
def len (d : SDef) : Nat :=
  let n := d.bindings.length
  let n := if d.base.isSome then n + 1 else n
  let n := if d.import_.isSome then n + 1 else n
  let n := if d.language.isSome then n + 1 else n
  let n := if d.direction.isSome then n + 1 else n
  let n := if d.propagate.isSome then n + 1 else n
  let n := if d.protected_.isSome then n + 1 else n
  let n := if d.type.isSome then n + 1 else n
  let n := if d.version then n + 1 else n
  if d.vocab.isSome then n + 1 else n

/-- `Entries::next`, definition/reference.rs:81-112. -/
def next (d : SDef) : Option DEntry × SDef :=
  match d.base with
  | some v => (some (.base v), { d with base := none })
  | none => match d.import_ with
  | some v => (some (.import_ v), { d with import_ := none })
  | none => match d.language with
  | some v => (some (.language v), { d with language := none })
  | none => match d.direction with
  | some v => (some (.direction v), { d with direction := none })
  | none => match d.propagate with
  | some v => (some (.propagate v), { d with propagate := none })
  | none => match d.protected_ with
  | some v => (some (.protected_ v), { d with protected_ := none })
  | none => match d.type with
  | some v => (some (.type v), { d with type := none })
  | none => match d.version with
  | true => (some .version, { d with version := false })
  | false => match d.vocab with
  | some v => (some (.vocab v), { d with vocab := none })
  | none => match d.bindings with
  | (k, v) :: bs => (some (.definition k v), { d with bindings := bs })
  | [] => (none, d)

end SDef

/-- `EntryKeyRef::as_str`, definition/reference.rs:178-192, of `key`, 210-223. -/
def DEntry.key : DEntry → Str
  | .base _ => "@base".toList
  | .import_ _ => "@import".toList
  | .language _ => "@language".toList
  | .direction _ => "@direction".toList
  | .propagate _ => "@propagate".toList
  | .protected_ _ => "@protected".toList
  | .type _ => "@type".toList
  | .version => "@version".toList
  | .vocab _ => "@vocab".toList
  | .definition k _ => k

/-- `term_definition::EntryRef`, term_definition/mod.rs:341-354. -/
inductive TEntry where
  | id (v : Option SId)
  | type (v : Option SType)
  | context (v : SCtx)
  | reverse (v : Str)
  | index (v : Str)
  | language (v : Option Str)
  | direction (v : Option Direction)
  | container (v : Option SynContainer)
  | nest (v : SNest)
  | prefix_ (v : Bool)
  | propagate (v : Bool)
  | protected_ (v : Bool)

namespace SExp

/-- `Entries::size_hint`, term_definition/mod.rs:506-558. The iterator has the fields of the definition
(254-269). -/
def len (x : SExp) : Nat :=
  let n := 0
  let n := if x.id.isSome then n + 1 else n
  let n := if x.type.isSome then n + 1 else n
  let n := if x.context.isSome then n + 1 else n
  let n := if x.reverse.isSome then n + 1 else n
  let n := if x.index.isSome then n + 1 else n
  let n := if x.language.isSome then n + 1 else n
  let n := if x.direction.isSome then n + 1 else n
  let n := if x.container.isSome then n + 1 else n
  let n := if x.nest.isSome then n + 1 else n
  let n := if x.prefix_.isSome then n + 1 else n
  let n := if x.propagate.isSome then n + 1 else n
  if x.protected_.isSome then n + 1 else n

/-- `Entries::next`, term_definition/mod.rs:560-598. -/
def next (x : SExp) : Option TEntry × SExp :=
  match x.id with
  | some v => (some (.id v), { x with id := none })
  | none => match x.type with
  | some v => (some (.type v), { x with type := none })
  | none => match x.context with
  | some v => (some (.context v), { x with context := none })
  | none => match x.reverse with
  | some v => (some (.reverse v), { x with reverse := none })
  | none => match x.index with
  | some v => (some (.index v), { x with index := none })
  | none => match x.language with
  | some v => (some (.language v), { x with language := none })
  | none => match x.direction with
  | some v => (some (.direction v), { x with direction := none })
  | none => match x.container with
  | some v => (some (.container v), { x with container := none })
  | none => match x.nest with
  | some v => (some (.nest v), { x with nest := none })
  | none => match x.prefix_ with
  | some v => (some (.prefix_ v), { x with prefix_ := none })
  | none => match x.propagate with
  | some v => (some (.propagate v), { x with propagate := none })
  | none => (x.protected_.map .protected_, { x with protected_ := none })

end SExp

/-- `EntryKey::as_str`, term_definition/mod.rs:448-469, of `key`, 374-389. -/
def TEntry.key : TEntry → Str
  | .id _ => "@id".toList
  | .type _ => "@type".toList
  | .context _ => "@context".toList
  | .reverse _ => "@reverse".toList
  | .index _ => "@index".toList
  | .language _ => "@language".toList
  | .direction _ => "@direction".toList
  | .container _ => "@container".toList
  | .nest _ => "@nest".toList
  | .prefix_ _ => "@prefix".toList
  | .propagate _ => "@propagate".toList
  | .protected_ _ => "@protected".toList

/-- The items left in an iterator over the entries of a context definition: what
`next` yields (`C85_definition`). -/
def SDef.left (d : SDef) : List DEntry :=
  (d.base.map DEntry.base).toList ++ (d.import_.map DEntry.import_).toList ++
    (d.language.map DEntry.language).toList ++ (d.direction.map DEntry.direction).toList ++
    (d.propagate.map DEntry.propagate).toList ++ (d.protected_.map DEntry.protected_).toList ++
    (d.type.map DEntry.type).toList ++ (if d.version then [DEntry.version] else []) ++
    (d.vocab.map DEntry.vocab).toList ++ d.bindings.map fun b => DEntry.definition b.1 b.2

/-- The items left in an iterator over the entries of a term definition: what `next`
yields (`C85_term`). -/
def SExp.left (x : SExp) : List TEntry :=
  (x.id.map TEntry.id).toList ++ (x.type.map TEntry.type).toList ++
    (x.context.map TEntry.context).toList ++ (x.reverse.map TEntry.reverse).toList ++
    (x.index.map TEntry.index).toList ++ (x.language.map TEntry.language).toList ++
    (x.direction.map TEntry.direction).toList ++ (x.container.map TEntry.container).toList ++
    (x.nest.map TEntry.nest).toList ++ (x.prefix_.map TEntry.prefix_).toList ++
    (x.propagate.map TEntry.propagate).toList ++ (x.protected_.map TEntry.protected_).toList

/-! ## Printing -/

/-- An entry that may be there. -/
def optMember {α β : Type} (k : Str) (f : α → β) (o : Option α) : List (Str × β) :=
  match o with
  | some a => [(k, f a)]
  | none => []

section
variable (P : Printer)

/-- The size of a boolean, external. -/
def preBool (b : Bool) : Pre := (.width (if b then 4 else 5), [])

/-- A boolean, external. -/
def fmtBool (b : Bool) : Fmt := fmtText (if b then "true".toList else "false".toList)

/-- A nullable text: print_ld.rs:44-51, 98-105 and 116-123, context/print.rs:240-247, 407-414 and
437-444. -/
def preNullable {α : Type} (f : α → Str) : Option α → Pre
  | none => (.width 4, [])
  | some a => preStr P (f a)

/-- A nullable text: print_ld.rs:53-60, 107-114 and 125-132, context/print.rs:249-256, 416-423 and
446-453. -/
def fmtNullable {α : Type} (f : α → Str) : Option α → Fmt
  | none => fmtText "null".toList
  | some a => fmtStr P (f a)

/-- `Container::pre_compute_size`, context/print.rs:528-535; for a null container 503-510. -/
def preContainer : Option SynContainer → Pre
  | none => (.width 4, [])
  | some (.one k) => preStr P k.asStr
  | some (.many ks) => preArr P (ks.map fun k => preStr P k.asStr)

/-- `Container::fmt_with_size`, context/print.rs:537-551; for a null container 512-526. -/
def fmtContainer : Option SynContainer → Fmt
  | none => fmtText "null".toList
  | some (.one k) => fmtStr P k.asStr
  | some (.many ks) => fmtArr P (ks.map fun k => fmtStr P k.asStr)

/-- `definition::Type::pre_compute_size`, context/print.rs:145-153, and its entries, 175-182, in the
order of definition/type_.rs:44-49. -/
def preTypeDef (prot : Option Bool) : Pre :=
  preObj P (("@container".toList, preStr P "@set".toList) :: optMember "@protected".toList preBool prot)

/-- `definition::Type::fmt_with_size`, context/print.rs:155-173, and its entries, 184-198. -/
def fmtTypeDef (prot : Option Bool) : Fmt :=
  fmtObj P (("@container".toList, fmtStr P "@set".toList) :: optMember "@protected".toList fmtBool prot)

mutual
/-- `Context::pre_compute_size`, context/print.rs:19-28. -/
def SCtx.pre : SCtx → Pre
  | .one e => e.pre
  | .many es => preArr P (sentriesPre es)
/-- The contexts one after the other. -/
def sentriesPre : List SEntry → List Pre
  | [] => []
  | e :: es => e.pre :: sentriesPre es
/-- `ContextEntry::pre_compute_size`, context/print.rs:58-75. -/
def SEntry.pre : SEntry → Pre
  | .null => (.width 4, [])
  | .ref s => preStr P s
  | .defn d => d.pre
/-- A definition, with the entries of `EntryValueRef`, context/print.rs:104-119, in the order of
definition/reference.rs:81-112. -/
def SDef.pre : SDef → Pre
  | ⟨base, import_, language, direction, propagate, prot, type, version, vocab, bindings⟩ =>
    preObj P (
      optMember "@base".toList (preNullable P fun s => s) base ++
      optMember "@import".toList (preStr P) import_ ++
      optMember "@language".toList (preNullable P fun s => s) language ++
      optMember "@direction".toList (preNullable P Direction.asStr) direction ++
      optMember "@propagate".toList preBool propagate ++
      optMember "@protected".toList preBool prot ++
      optMember "@type".toList (preTypeDef P) type ++
      (if version then [("@version".toList, (.width 3, []))] else []) ++
      optMember "@vocab".toList (preNullable P fun s => s) vocab ++
      bindingsPre bindings)
/-- The term definitions, context/print.rs:258-265. -/
def bindingsPre : List (Str × Option STerm) → List (Str × Pre)
  | [] => []
  | (k, none) :: bs => (k, (.width 4, [])) :: bindingsPre bs
  | (k, some t) :: bs => (k, t.pre) :: bindingsPre bs
/-- `TermDefinition::pre_compute_size`, context/print.rs:267-280. -/
def STerm.pre : STerm → Pre
  | .simple s => preStr P s
  | .expanded x => x.pre
/-- `Expanded::pre_compute_size`, context/print.rs:320-328, with the entries of 350-367, in the order of
term_definition/mod.rs:560-598. -/
def SExp.pre : SExp → Pre
  | ⟨id, type, context, reverse, index, language, direction, container, nest, pfx, propagate, prot⟩ =>
    preObj P (
      optMember "@id".toList (preNullable P SId.str) id ++
      optMember "@type".toList (preNullable P SType.str) type ++
      optCtxPre context ++
      optMember "@reverse".toList (preStr P) reverse ++
      optMember "@index".toList (preStr P) index ++
      optMember "@language".toList (preNullable P fun s => s) language ++
      optMember "@direction".toList (preNullable P Direction.asStr) direction ++
      optMember "@container".toList (preContainer P) container ++
      optMember "@nest".toList (fun n => preStr P n.str) nest ++
      optMember "@prefix".toList preBool pfx ++
      optMember "@propagate".toList preBool propagate ++
      optMember "@protected".toList preBool prot)
/-- The scoped context, context/print.rs:355. -/
def optCtxPre : Option SCtx → List (Str × Pre)
  | none => []
  | some c => [("@context".toList, c.pre)]
end

mutual
/-- `Context::fmt_with_size`, context/print.rs:30-46. -/
def SCtx.fmt : SCtx → Fmt
  | .one e => e.fmt
  | .many es => fmtArr P (sentriesFmt es)
/-- The contexts one after the other. -/
def sentriesFmt : List SEntry → List Fmt
  | [] => []
  | e :: es => e.fmt :: sentriesFmt es
/-- `ContextEntry::fmt_with_size`, context/print.rs:77-102. -/
def SEntry.fmt : SEntry → Fmt
  | .null => fmtText "null".toList
  | .ref s => fmtStr P s
  | .defn d => d.fmt
/-- A definition, context/print.rs:89-99 and 121-143. -/
def SDef.fmt : SDef → Fmt
  | ⟨base, import_, language, direction, propagate, prot, type, version, vocab, bindings⟩ =>
    fmtObj P (
      optMember "@base".toList (fmtNullable P fun s => s) base ++
      optMember "@import".toList (fmtStr P) import_ ++
      optMember "@language".toList (fmtNullable P fun s => s) language ++
      optMember "@direction".toList (fmtNullable P Direction.asStr) direction ++
      optMember "@propagate".toList fmtBool propagate ++
      optMember "@protected".toList fmtBool prot ++
      optMember "@type".toList (fmtTypeDef P) type ++
      (if version then [("@version".toList, fmtText "1.1".toList)] else []) ++
      optMember "@vocab".toList (fmtNullable P fun s => s) vocab ++
      bindingsFmt bindings)
/-- The term definitions, context/print.rs:304-318. -/
def bindingsFmt : List (Str × Option STerm) → List (Str × Fmt)
  | [] => []
  | (k, none) :: bs => (k, fmtText "null".toList) :: bindingsFmt bs
  | (k, some t) :: bs => (k, t.fmt) :: bindingsFmt bs
/-- `TermDefinition::fmt_with_size`, context/print.rs:282-302. -/
def STerm.fmt : STerm → Fmt
  | .simple s => fmtStr P s
  | .expanded x => x.fmt
/-- `Expanded::fmt_with_size`, context/print.rs:330-348 and 369-393. -/
def SExp.fmt : SExp → Fmt
  | ⟨id, type, context, reverse, index, language, direction, container, nest, pfx, propagate, prot⟩ =>
    fmtObj P (
      optMember "@id".toList (fmtNullable P SId.str) id ++
      optMember "@type".toList (fmtNullable P SType.str) type ++
      optCtxFmt context ++
      optMember "@reverse".toList (fmtStr P) reverse ++
      optMember "@index".toList (fmtStr P) index ++
      optMember "@language".toList (fmtNullable P fun s => s) language ++
      optMember "@direction".toList (fmtNullable P Direction.asStr) direction ++
      optMember "@container".toList (fmtContainer P) container ++
      optMember "@nest".toList (fun n => fmtStr P n.str) nest ++
      optMember "@prefix".toList fmtBool pfx ++
      optMember "@propagate".toList fmtBool propagate ++
      optMember "@protected".toList fmtBool prot)
/-- The scoped context, context/print.rs:381. -/
def optCtxFmt : Option SCtx → List (Str × Fmt)
  | none => []
  | some c => [("@context".toList, c.fmt)]
end

/-- `Context::fmt_with`, context/print.rs:6-17: both passes. `none` is a panic; the sizes that are not
used are returned too. -/
def SCtx.print (ind : Nat) (c : SCtx) : Option (Str × List PSize) := c.fmt P ind (c.pre P).2

end
end JsonLd
