import Verif.Model.Keyword
/-!
# Language strings (`crates/core/src/lang_string.rs`)
-/

namespace JsonLd

/-- `struct LangString`, crates/core/src/lang_string.rs:10-26. Language tags are kept as their
text. -/
structure LangString where
  data : Str
  language : Option Str
  direction : Option Direction
  deriving DecidableEq, Repr, Inhabited

namespace LangString

/-- `LangString::new`, crates/core/src/lang_string.rs:34-48 (`Except.error` returns the data). -/
def new (data : Str) (language : Option Str) (direction : Option Direction) :
    Except Str LangString :=
  if language.isSome || direction.isSome then .ok ⟨data, language, direction⟩ else .error data

/-- `LangString::set_language`, lang_string.rs:82-92. The Boolean is whether the call was `Ok`. -/
def setLanguage (s : LangString) (language : Option Str) : LangString × Bool :=
  if s.direction.isSome || language.isSome then ({ s with language }, true) else (s, false)

/-- `LangString::set_direction`, lang_string.rs:104-111. -/
def setDirection (s : LangString) (direction : Option Direction) : LangString × Bool :=
  if direction.isSome || s.language.isSome then ({ s with direction }, true) else (s, false)

/-- `LangString::set`, lang_string.rs:117-129. -/
def set (s : LangString) (language : Option Str) (direction : Option Direction) :
    LangString × Bool :=
  if direction.isSome || language.isSome then ({ s with language, direction }, true)
  else (s, false)

/-- A call of one of the setters. -/
inductive Call where
  | setLanguage (l : Option Str)
  | setDirection (d : Option Direction)
  | set (l : Option Str) (d : Option Direction)
  deriving DecidableEq, Repr

/-- Perform one call. -/
def step (s : LangString) : Call → LangString × Bool
  | .setLanguage l => s.setLanguage l
  | .setDirection d => s.setDirection d
  | .set l d => s.set l d

/-- Perform a history of calls, ignoring refusals. -/
def run (s : LangString) : List Call → LangString
  | [] => s
  | c :: cs => run (step s c).1 cs

end LangString
end JsonLd
