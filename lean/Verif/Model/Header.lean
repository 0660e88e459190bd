/-!
# HTTP header parsers (`crates/core/src/loader/reqwest/{link,content_type}.rs`)

Headers are lists of bytes. A `HashMap` of parameters is modelled by the list of insertions, most
recent first; lookup takes the most recent insertion of the key.
-/

namespace JsonLd

/-- Bytes. -/
abbrev Bytes := List UInt8

/-- `HashMap::get` on the insertion history (most recent first). -/
def paramGet (ps : List (Bytes × Bytes)) (k : Bytes) : Option Bytes :=
  match ps with
  | [] => none
  | (k', v) :: ps => if k' = k then some v else paramGet ps k

namespace Link

/-- `enum State`, link.rs:12-20. -/
inductive State where
  | beginHref | href | nextParam | beginKey | key | beginValue | value
  deriving DecidableEq, Repr

/-- Local variables of `Link::new`, link.rs:22-26. `params` holds the insertions, latest first. -/
structure Vars where
  state : State := .beginHref
  href : Bytes := []
  key : Bytes := []
  value : Bytes := []
  params : List (Bytes × Bytes) := []
  deriving DecidableEq, Repr

/-- Result before the validity check of the href. -/
structure Raw where
  href : Bytes
  params : List (Bytes × Bytes)
  deriving DecidableEq, Repr

/-- One iteration of the loop on a byte, link.rs:30-83: `none` is `break None`. -/
def step (v : Vars) (b : UInt8) : Option Vars :=
  match v.state with
  | .beginHref => if b = '<'.toUInt8 then some { v with state := .href } else none
  | .href =>
    if b = '>'.toUInt8 then some { v with state := .nextParam }
    else some { v with href := v.href ++ [b] }
  | .nextParam => if b = ';'.toUInt8 then some { v with state := .beginKey } else none
  | .beginKey =>
    if b = ' '.toUInt8 then some v
    else some { v with key := v.key ++ [b], state := .key }
  | .key =>
    if b = '='.toUInt8 then some { v with state := .beginValue }
    else some { v with key := v.key ++ [b] }
  | .beginValue => if b = '"'.toUInt8 then some { v with state := .value } else none
  | .value =>
    if b = '"'.toUInt8 then
      some { v with params := (v.key, v.value) :: v.params, key := [], value := [],
                    state := .nextParam }
    else some { v with value := v.value ++ [b] }

/-- End of input, link.rs:46-51 and the `None` arms: only `NextParam` succeeds. -/
def finish (v : Vars) : Option Raw :=
  match v.state with
  | .nextParam => some ⟨v.href, v.params⟩
  | _ => none

/-- The loop of `Link::new`. -/
def run (v : Vars) : Bytes → Option Raw
  | [] => finish v
  | b :: bs => match step v b with
    | none => none
    | some v' => run v' bs

/-- `Link::new`, link.rs:11-84; `validRef` stands for `IriRefBuf::from_vec(..).is_ok()`. -/
def new (validRef : Bytes → Bool) (header : Bytes) : Option Raw :=
  match run {} header with
  | none => none
  | some r => if validRef r.href then some r else none

end Link

namespace ContentType

/-- `enum State`, content_type.rs:14-22. -/
inductive State where
  | mime | nextParam | beginKey | key | beginValue | quotedValue | value
  deriving DecidableEq, Repr

/-- Local variables of `ContentType::new`, content_type.rs:24-28. -/
structure Vars where
  state : State := .mime
  mime : Bytes := []
  key : Bytes := []
  value : Bytes := []
  params : List (Bytes × Bytes) := []
  deriving DecidableEq, Repr

/-- Result before the media type is parsed. -/
structure Raw where
  mime : Bytes
  params : List (Bytes × Bytes)
  deriving DecidableEq, Repr

/-- One iteration of the loop on a byte, content_type.rs:32-98: `none` is `return None`. -/
def step (v : Vars) (b : UInt8) : Option Vars :=
  match v.state with
  | .mime =>
    if b = ';'.toUInt8 then some { v with state := .beginKey }
    else some { v with mime := v.mime ++ [b] }
  | .nextParam => if b = ';'.toUInt8 then some { v with state := .beginKey } else none
  | .beginKey =>
    if b = ' '.toUInt8 then some v
    else some { v with key := v.key ++ [b], state := .key }
  | .key =>
    if b = '='.toUInt8 then some { v with state := .beginValue }
    else some { v with key := v.key ++ [b] }
  | .beginValue =>
    if b = '"'.toUInt8 then some { v with state := .quotedValue }
    else some { v with state := .value, value := v.value ++ [b] }
  | .quotedValue =>
    if b = '"'.toUInt8 then
      some { v with params := (v.key, v.value) :: v.params, key := [], value := [],
                    state := .nextParam }
    else some { v with value := v.value ++ [b] }
  | .value =>
    if b = ';'.toUInt8 then
      some { v with params := (v.key, v.value) :: v.params, key := [], value := [],
                    state := .beginKey }
    else some { v with value := v.value ++ [b] }

/-- End of input, content_type.rs: the `None` arms. -/
def finish (v : Vars) : Option Raw :=
  match v.state with
  | .mime => some ⟨v.mime, v.params⟩
  | .nextParam => some ⟨v.mime, v.params⟩
  | .value => some ⟨v.mime, (v.key, v.value) :: v.params⟩
  | _ => none

/-- The loop of `ContentType::new`. -/
def run (v : Vars) : Bytes → Option Raw
  | [] => finish v
  | b :: bs => match step v b with
    | none => none
    | some v' => run v' bs

/-- `ContentType::new`, content_type.rs:13-104; `validMime` stands for UTF-8 decoding followed by
`Mime::from_str` succeeding. -/
def new (validMime : Bytes → Bool) (header : Bytes) : Option Raw :=
  match run {} header with
  | none => none
  | some r => if validMime r.mime then some r else none

end ContentType
end JsonLd
