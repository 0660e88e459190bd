import Verif.Model.Warn
/-!
# Warnings of literals, identifiers and types

What is given to the warning handler by the expansion of literals
(`crates/expansion/src/literal.rs:90-236`) and of the entries `@id` and `@type` of nodes
(`crates/expansion/src/node.rs:160-217`), with the same conventions as in `Verif.Model.Warn`.
-/

namespace JsonLd

/-- `expand_literal`, literal.rs:90-236. -/
def expandLiteralW (env : IriEnv) (vocab : Action) (c : ACtx) (prop : Option Str) (l : Literal) :
    Warned LitErr Obj :=
  let d := prop.bind c.get
  match d.bind (·.typ), l with
  | some .id, .str s =>
    match expandIriW env c (some (.ofStr s)) true none with
    | (.ok (some t), w) => (.ok (idNode (nodeIdOfTerm t)), w)
    | (_, w) => (.error .panic, w)
  | some .vocab, .str s =>
    match expandIriW env c (some (.ofStr s)) true (some vocab) with
    | (.error _, w) => (.error .forbiddenVocab, w)
    | (.ok t, w) => (.ok (idNode (t.bind nodeIdOfTerm)), w)
  | some .json, _ => (.error .invalidTypeValue, [])
  | some (.iri t), l => (.ok (.value none (.literal l (some t))), [])
  | _, l => (.ok (untypedLiteral c d l), [])

/-- `expand_iri(…)?`. -/
def xIriW (E : XEnv) (c : ACtx) (s : Str) (docRel : Bool) (vocab : Option Action) :
    Warned XErr (Option CTerm) :=
  match expandIriW E.toIriEnv c (some (.ofStr s)) docRel vocab with
  | (.ok t, w) => (.ok t, w)
  | (.error _, w) => (.error .forbiddenVocab, w)

/-- `@id`, node.rs:160-178. -/
def keyIdW (E : XEnv) (c : ACtx) (v : Json) (st : XState) : Warned XErr XState :=
  match v with
  | .str s => (xIriW E c s true none).andThen fun t =>
      (.ok { st with node := st.node.setId (t.bind nodeIdOfTerm) }, [])
  | _ => (.error .invalidIdValue, [])

/-- One value of `@type`, node.rs:188-216. -/
def keyType1W (E : XEnv) (tsc : ACtx) (st : XState) (v : Json) : Warned XErr XState :=
  match v with
  | .str s => (xIriW E tsc s true (some E.opts.vocab)).andThen fun t =>
      match t with
      | none => (.ok st, [])
      | some (.id (.invalid i)) =>
        match E.opts.invalid with
        | .keep => (.ok { st with node := st.node.pushType (.invalid i) }, [])
        | .drop => (.ok st, [])
        | .reject => (.error .invalidTypeValue, [])
      | some (.id i) => (.ok { st with node := st.node.pushType i }, [])
      | some _ => (.error .invalidTypeValue, [])
  | _ => (.error .invalidTypeValue, [])

/-- `@type`, node.rs:180-217. -/
def keyTypesW (E : XEnv) (tsc : ACtx) : List Json → XState → Warned XErr XState
  | [], st => (.ok st, [])
  | v :: l, st => (keyType1W E tsc st v).andThen (keyTypesW E tsc l)

end JsonLd
