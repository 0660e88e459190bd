import Verif.Model.Ctx
/-!
# Active contexts back into syntax (`crates/core/src/context/{mod,definition}.rs`,
`crates/syntax/src/context/term_definition/mod.rs`), and equality of active contexts

A panic is `none`.
-/

namespace JsonLd

/-- The entries other than `@id`, in `is_null` and `is_simple_definition`,
crates/syntax/src/context/term_definition/mod.rs:211-240. -/
def SExp.noOthers (x : SExp) : Bool :=
  x.type.isNone && x.context.isNone && x.reverse.isNone && x.index.isNone && x.language.isNone &&
    x.direction.isNone && x.container.isNone && x.nest.isNone && x.prefix_.isNone && x.propagate.isNone &&
    x.protected_.isNone

/-- `Expanded::simplify`, term_definition/mod.rs:242-252. -/
def SExp.simplify (x : SExp) : Option STerm :=
  match x.id with
  | none => if x.noOthers then none else some (.expanded x)
  | some none => if x.noOthers then none else some (.expanded x)
  | some (some i) => if x.noOthers then some (.simple i.str) else some (.expanded x)

/-- `term_into_id`, crates/core/src/context/definition.rs:581-590. -/
def CTerm.syntaxId : CTerm → Option SId
  | .null => none
  | .keyword k => some (.keyword k)
  | .id i => some (.term i.str)

/-- `term_into_key`, definition.rs:592-601. -/
def CTerm.syntaxKey : CTerm → Option Str
  | .null => none
  | .keyword k => some k.intoStr
  | .id i => some i.str

/-- `type_into_syntax`, definition.rs:603-614. -/
def TypeMap.intoSyntax : TypeMap → SType
  | .id => .keyword .id
  | .json => .keyword .json
  | .none => .keyword .none
  | .vocab => .keyword .vocab
  | .iri s => .term s

/-- The entries other than `@id` and `@reverse`, definition.rs:622-639. -/
def TermDef.syntaxRest (d : TermDef) (id : Option (Option SId)) (reverse : Option Str) : SExp :=
  { id := id
    type := d.typ.map fun t => some t.intoSyntax
    context := d.context
    reverse := reverse
    index := d.index
    language := d.language
    direction := d.direction
    container := d.container.intoSyntax.map some
    nest := d.nest
    prefix_ := if d.prefix_ then some true else none
    propagate := none
    protected_ := if d.protected_ then some true else none }

/-- `NormalTermDefinition::into_syntax_definition`, definition.rs:575-641. -/
def TermDef.intoSyntax (d : TermDef) : Option (Option STerm) :=
  if d.reverse then
    match d.value with
    | none => some (d.syntaxRest none none).simplify
    | some t => t.syntaxKey.map fun r => (d.syntaxRest none (some r)).simplify
  else some (d.syntaxRest (d.value.map CTerm.syntaxId) none).simplify

/-- The vocabulary mapping, context/mod.rs:245-249. -/
def vocabIntoSyntax : Option CTerm → Option (Option (Option Str))
  | none => some none
  | some .null => some (some none)
  | some (.id i) => some (some (some i.str))
  | some (.keyword _) => none

/-- The bindings, context/mod.rs:250-253. -/
def bindingsIntoSyntax : List (Str × TermDef) → Option (List (Str × Option STerm))
  | [] => some []
  | (k, d) :: l => d.intoSyntax.bind fun b => (bindingsIntoSyntax l).map fun bs => (k, b) :: bs

/-- `Context::into_syntax_definition`, context/mod.rs:228-255, and `TypeTermDefinition::into_syntax_definition`,
definition.rs:303-308. The bindings come in the order of a `HashMap`. -/
def ACtx.intoSyntax (c : ACtx) : Option SDef :=
  (vocabIntoSyntax c.vocab).bind fun v => (bindingsIntoSyntax c.defs).map fun bs =>
    { base := c.base.map some
      import_ := none
      language := c.language.map some
      direction := c.direction.map some
      propagate := none
      protected_ := none
      type := c.typeDef.map fun p => if p then some true else none
      version := false
      vocab := v
      bindings := bs }

/-- `PartialEq for Context`, context/mod.rs:328-337. -/
def ACtx.eqv : ACtx → ACtx → Bool
  | ⟨ob, b, v, l, d, p, _, _⟩, ⟨ob', b', v', l', d', p', _, _⟩ =>
    decide (ob = ob') && decide (b = b') && decide (v = v') && langOptEq l l' && decide (d = d') &&
      (match p, p' with
        | none, none => true
        | some p, some p' => p.eqv p'
        | _, _ => false)

end JsonLd
