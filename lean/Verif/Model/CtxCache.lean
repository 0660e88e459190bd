import Verif.Model.Inverse
/-!
# Contexts with their cached inverse (`crates/core/src/context/mod.rs`)
-/

namespace JsonLd

/-- `Context`, crates/core/src/context/mod.rs:29-38, with the cell for its inverse. `defs` and `typeDef`
are `definitions` (definition.rs:74-78), as in `ACtx`. -/
structure CCtx where
  originalBase : Option Str := none
  base : Option Str := none
  vocab : Option CTerm := none
  language : Option Str := none
  direction : Option Direction := none
  previous : Option CCtx := none
  defs : List (Str × TermDef) := []
  typeDef : Option Bool := none
  cell : Option InvCtx := none

instance : Inhabited CCtx := ⟨{}⟩

namespace CCtx

/-- The context without the cells. (No function of the code: it relates the two models of `Context`.) -/
def plain : CCtx → ACtx
  | ⟨ob, b, v, l, d, p, ds, t, _⟩ =>
    { originalBase := ob, base := b, vocab := v, language := l, direction := d,
      previous := match p with
        | none => none
        | some q => some q.plain
      defs := ds, typeDef := t }

/-- `Context::new`, context/mod.rs:58-72. -/
def new (base : Option Str) : CCtx := { originalBase := base, base := base }

/-- `Context::get_normal`, context/mod.rs:84-91. -/
def getNormal (c : CCtx) (k : Str) : Option TermDef := lookupKey k c.defs

/-- `Context::contains_term`, context/mod.rs:98-106, definition.rs:142-153. -/
def containsTerm (c : CCtx) (k : Str) : Bool :=
  if k = "@type".toList then c.typeDef.isSome else (lookupKey k c.defs).isSome

/-- `Context::len`, context/mod.rs:148-150, definition.rs:101-107. -/
def len (c : CCtx) : Nat := if c.typeDef.isSome then c.defs.length + 1 else c.defs.length

/-- `Context::is_empty`, context/mod.rs:153-155, definition.rs:110-112. -/
def isEmpty (c : CCtx) : Bool := c.typeDef.isNone && c.defs.isEmpty

/-- `Context::has_protected_items`, context/mod.rs:163-171. -/
def hasProtected (c : CCtx) : Bool := c.typeDef == some true || c.defs.any (·.2.protected_)

/-- `Context::inverse`, context/mod.rs:174-180: the context afterwards, and the inverse. -/
def inverse (c : CCtx) : CCtx × InvCtx :=
  match c.cell with
  | some i => (c, i)
  | none => ({ c with cell := some c.plain.inverse }, c.plain.inverse)

/-- `Context::set_normal`, context/mod.rs:183-190, definition.rs:180-189: the context afterwards, and the
definition replaced. -/
def setNormal (c : CCtx) (k : Str) (d : Option TermDef) : CCtx × Option TermDef :=
  ({ c with
      cell := none
      defs := match d with
        | some d => mapInsert k d c.defs
        | none => mapErase k c.defs },
    lookupKey k c.defs)

/-- `Context::set_type`, context/mod.rs:193-195. The cell is not emptied. -/
def setType (c : CCtx) (t : Option Bool) : CCtx × Option Bool := ({ c with typeDef := t }, c.typeDef)

/-- `Context::set_base_iri`, context/mod.rs:198-201. -/
def setBase (c : CCtx) (b : Option Str) : CCtx := { c with cell := none, base := b }

/-- `Context::set_vocabulary`, context/mod.rs:204-207. -/
def setVocab (c : CCtx) (v : Option CTerm) : CCtx := { c with cell := none, vocab := v }

/-- `Context::set_default_language`, context/mod.rs:210-213. -/
def setLanguage (c : CCtx) (l : Option Str) : CCtx := { c with cell := none, language := l }

/-- `Context::set_default_base_direction`, context/mod.rs:216-219. -/
def setDirection (c : CCtx) (d : Option Direction) : CCtx := { c with cell := none, direction := d }

/-- `Context::set_previous_context`, context/mod.rs:222-225. -/
def setPrevious (c p : CCtx) : CCtx := { c with cell := none, previous := some p }

/-- `Clone for Context`, context/mod.rs:312-325. -/
def clone : CCtx → CCtx
  | ⟨ob, b, v, l, d, p, ds, t, _⟩ =>
    { originalBase := ob, base := b, vocab := v, language := l, direction := d,
      previous := match p with
        | none => none
        | some q => some q.clone
      defs := ds, typeDef := t, cell := none }

end CCtx
end JsonLd
