import Verif.Model.Ctx
/-!
# IRI expansion (`crates/context-processing/src/algorithm/iri.rs`)

Warnings are left out.
-/

namespace JsonLd

/-- External functions: `Iri::new`, `IriRef::new`, `BlankId::new` (is the string accepted?) and
`IriRef::resolved` (reference, base). -/
structure IriEnv where
  isIri : Str → Bool
  isRef : Str → Bool
  isBlank : Str → Bool
  resolve : Str → Str → Str

/-- `CompactIri::new`, `prefix` and `suffix`, crates/syntax/src/compact_iri.rs:9-47. -/
def compactIri (env : IriEnv) (s : Str) : Option (Str × Str) :=
  match splitOnce ':' s with
  | some (p, x) =>
    if p ≠ ['_'] ∧ x.take 2 ≠ ['/', '/'] then (if env.isRef s then some (p, x) else none) else none
  | none => none

/-- `Id::from_string_in`, crates/core/src/id.rs:138-150. -/
def Id.classify (env : IriEnv) (s : Str) : Id :=
  if env.isIri s then .iri s else if env.isBlank s then .blank s else .invalid s

/-- `ExpandableRef`, crates/syntax/src/expandable.rs:10-16. -/
inductive Expandable where
  | keyword (k : Keyword)
  | string (s : Str)
  deriving DecidableEq, Repr

/-- `From<&str> for ExpandableRef`, expandable.rs:36-43. -/
def Expandable.ofStr (s : Str) : Expandable :=
  match Keyword.tryFrom s with
  | some k => .keyword k
  | none => .string s

/-- `enum Action`, iri.rs:212-218. -/
inductive Action where
  | keep | drop | reject
  deriving DecidableEq, Repr

/-- `resolve_iri`, algorithm/mod.rs:54-66. -/
def resolveIri (env : IriEnv) (ref : Str) (base : Option Str) : Option Str :=
  match base with
  | some b => some (env.resolve ref b)
  | none => if env.isIri ref then some ref else none

/-- `value.find(':').map(|i| i > 0).unwrap_or(false)`, iri.rs:94 and 268. -/
def colonInside (s : Str) : Bool :=
  match splitOnce ':' s with
  | some (p, _) => !p.isEmpty
  | none => false

/-- The term lookup, iri.rs:76-92 and 250-266. -/
def expandTerm (c : ACtx) (s : Str) (vocab : Option Action) : Option CTerm :=
  match c.getValue s with
  | none => none
  | some v =>
    match v with
    | some t => if t.isKeyword || vocab.isSome then some t else none
    | none => if vocab.isSome then some .null else none

/-- The prefix lookup, iri.rs:131-147 and 279-295. -/
def expandPrefix (env : IriEnv) (c : ACtx) (p x : Str) : Option CTerm :=
  match c.getNormal p with
  | none => none
  | some d =>
    if d.prefix_ then d.value.map fun m => .id (Id.classify env (m.str ++ x)) else none

/-- The vocabulary mapping and the base IRI, iri.rs:155-194 and 303-348. The error is `RejectVocab`,
respectively `Error::ForbiddenVocab`. -/
def expandTail (env : IriEnv) (c : ACtx) (s : Str) (docRel : Bool) (vocab : Option Action) :
    Except Unit (Option CTerm) :=
  match vocab, c.vocab with
  | some a, some (.id m) =>
    match a with
    | .keep => .ok (some (.id (Id.classify env (m.str ++ s))))
    | .drop => .ok none
    | .reject => .error ()
  | some _, some _ => .ok (some (.id (.invalid s)))
  | _, _ =>
    if docRel && env.isRef s then
      match resolveIri env s c.base with
      | some iri => .ok (some (.id (.iri iri)))
      | none => .ok (some (.id (.invalid s)))
    else .ok (some (.id (.invalid s)))

/-- `expand_iri_simple` on a string, iri.rs:245-350. -/
def expandStr (env : IriEnv) (c : ACtx) (s : Str) (docRel : Bool) (vocab : Option Action) :
    Except Unit (Option CTerm) :=
  if isKeywordLike s then .ok (some .null)
  else match expandTerm c s vocab with
    | some t => .ok (some t)
    | none =>
      if colonInside s then
        if env.isBlank s then .ok (some (.id (.blank s)))
        else if s = ['_', ':'] then .ok (some (.id (.invalid s)))
        else match (compactIri env s).bind fun q => expandPrefix env c q.1 q.2 with
          | some t => .ok (some t)
          | none =>
            if env.isIri s then .ok (some (.id (.iri s))) else expandTail env c s docRel vocab
      else expandTail env c s docRel vocab

/-- `expand_iri_simple`, iri.rs:231-351. -/
def expandIri (env : IriEnv) (c : ACtx) (v : Option Expandable) (docRel : Bool)
    (vocab : Option Action) : Except Unit (Option CTerm) :=
  match v with
  | none => .ok (some .null)
  | some (.keyword k) => .ok (some (.keyword k))
  | some (.string s) => expandStr env c s docRel vocab

end JsonLd
