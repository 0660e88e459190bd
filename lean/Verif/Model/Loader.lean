import Verif.Base.Json
/-!
# Document loaders (`crates/core/src/loader`)

A loader is modelled by the function from URLs to results it computes. Awaiting is sequential in
the code, so asynchrony does not appear.
-/

namespace JsonLd

/-- Causes of load errors. `other` carries any payload. -/
inductive LoadCause where
  | cannotLoad                        -- `NoLoader`, none.rs:14-16
  | notFound                          -- `EntryNotFound`, map.rs:8-10
  | chain (first second : LoadCause)  -- `chain::Error`, chain.rs:42-43
  | other (msg : Str)
  deriving DecidableEq, Repr

/-- `LoadError { target, cause }`, crates/core/src/loader/mod.rs. -/
structure LoadError where
  target : Str
  cause : LoadCause
  deriving DecidableEq, Repr

/-- `Loader::load` as a function of the URL; `D` is the type of remote documents. -/
def Loader (D : Type) := Str → Except LoadError D

namespace Loader
variable {D : Type}

/-- `NoLoader::load`, crates/core/src/loader/none.rs:18-23. -/
def none_ : Loader D := fun url => .error ⟨url, .cannotLoad⟩

/-- `ChainLoader::load`, crates/core/src/loader/chain.rs:30-38. -/
def chain (l1 l2 : Loader D) : Loader D := fun url =>
  match l1 url with
  | .ok doc => .ok doc
  | .error ⟨_, e1⟩ => match l2 url with
    | .ok doc => .ok doc
    | .error ⟨target, e2⟩ => .error ⟨target, .chain e1 e2⟩

/-- A `HashMap`/`BTreeMap` used as loader: its content after a history of `insert`s, most recent
last (`std` maps keep the last value inserted for a key). -/
def mapGet : List (Str × D) → Str → Option D
  | [], _ => Option.none
  | (k, d) :: rest, url => match mapGet rest url with
    | some d' => some d'
    | Option.none => if k = url then some d else Option.none

/-- `Loader for HashMap`, crates/core/src/loader/map.rs:12-19 (and 21-28 for `BTreeMap`). -/
def map (inserts : List (Str × D)) : Loader D := fun url =>
  match mapGet inserts url with
  | some d => .ok d
  | Option.none => .error ⟨url, .notFound⟩

end Loader

/-! ## The redirect loop of the HTTP loader -/

/-- The parts of an HTTP response the loop looks at, crates/core/src/loader/reqwest/mod.rs:161-244.
`sendError` is a failed request; `status` a status other than 200; `invalid` a 200 response whose
content type is not JSON-LD and without alternate link; `alternate` such a response with an
alternate link (already resolved against the current URL); `document` a response which ends the
loop with a document or an error (multiple context links, body or parse errors). -/
inductive Response (D : Type) where
  | sendError
  | status (code : Nat)
  | invalid
  | alternate (url : Str)
  | document (d : Except Str D)

/-- Results of the loop. -/
inductive HttpError where
  | tooManyRedirections (url : Str)
  | send (url : Str)
  | queryFailed (url : Str) (code : Nat)
  | invalidContentType (url : Str)
  | content (url : Str) (msg : Str)
  deriving DecidableEq, Repr

/-- `ReqwestLoader::load`, crates/core/src/loader/reqwest/mod.rs:146-247. `fuel` only makes the
recursion structural: it counts the remaining allowed iterations and `fuel = max + 2 -
redirection_number` never runs out before the check of line 150 fires (theorem
`C09_terminates`); running out is reported as the outer `none`. The second component is the list
of URLs requested, in order. `server n url` is the answer to the request number `n` (from 0), so a
server may answer the same URL differently each time. -/
def httpLoop {D : Type} (server : Nat → Str → Response D) (max : Nat) :
    Nat → Nat → Str → Option (Except HttpError D × List Str)
  | 0, _, _ => none
  | fuel + 1, redirections, url =>
    if redirections > max then some (.error (.tooManyRedirections url), [])
    else match server redirections url with
      | .sendError => some (.error (.send url), [url])
      | .status c => some (.error (.queryFailed url c), [url])
      | .invalid => some (.error (.invalidContentType url), [url])
      | .document (.ok d) => some (.ok d, [url])
      | .document (.error e) => some (.error (.content url e), [url])
      | .alternate url' => match httpLoop server max fuel (redirections + 1) url' with
        | none => none
        | some (r, reqs) => some (r, url :: reqs)

/-- `load` starting at redirection number 0. -/
def httpLoad {D : Type} (server : Nat → Str → Response D) (max : Nat) (url : Str) :
    Option (Except HttpError D × List Str) :=
  httpLoop server max (max + 2) 0 url

end JsonLd
