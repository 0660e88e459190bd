import Verif.Base.Str
/-!
# Keywords, directions and container kinds (`crates/syntax`)
-/

namespace JsonLd

/-- `enum Keyword`, crates/syntax/src/keyword.rs:11-143. -/
inductive Keyword where
  | base | container | context | direction | graph | id | import_ | included | index | json
  | language | list | nest | none | prefix_ | propagate | protected_ | reverse | set | type
  | value | version | vocab
  deriving DecidableEq, Repr, Inhabited

/-- `Keyword::into_str`, crates/syntax/src/keyword.rs:146-173. -/
def Keyword.intoStr : Keyword → Str
  | .base => "@base".toList
  | .container => "@container".toList
  | .context => "@context".toList
  | .direction => "@direction".toList
  | .graph => "@graph".toList
  | .id => "@id".toList
  | .import_ => "@import".toList
  | .included => "@included".toList
  | .index => "@index".toList
  | .json => "@json".toList
  | .language => "@language".toList
  | .list => "@list".toList
  | .nest => "@nest".toList
  | .none => "@none".toList
  | .prefix_ => "@prefix".toList
  | .propagate => "@propagate".toList
  | .protected_ => "@protected".toList
  | .reverse => "@reverse".toList
  | .set => "@set".toList
  | .type => "@type".toList
  | .value => "@value".toList
  | .version => "@version".toList
  | .vocab => "@vocab".toList

/-- `TryFrom<&str> for Keyword`, crates/syntax/src/keyword.rs:179-207. `none` is the error. -/
def Keyword.tryFrom (s : Str) : Option Keyword :=
  if s = "@base".toList then some .base
  else if s = "@container".toList then some .container
  else if s = "@context".toList then some .context
  else if s = "@direction".toList then some .direction
  else if s = "@graph".toList then some .graph
  else if s = "@id".toList then some .id
  else if s = "@import".toList then some .import_
  else if s = "@included".toList then some .included
  else if s = "@index".toList then some .index
  else if s = "@json".toList then some .json
  else if s = "@language".toList then some .language
  else if s = "@list".toList then some .list
  else if s = "@nest".toList then some .nest
  else if s = "@none".toList then some .none
  else if s = "@prefix".toList then some .prefix_
  else if s = "@propagate".toList then some .propagate
  else if s = "@protected".toList then some .protected_
  else if s = "@reverse".toList then some .reverse
  else if s = "@set".toList then some .set
  else if s = "@type".toList then some .type
  else if s = "@value".toList then some .value
  else if s = "@version".toList then some .version
  else if s = "@vocab".toList then some .vocab
  else Option.none

/-- `is_keyword`, crates/syntax/src/keyword.rs:228-230. -/
def isKeyword (s : Str) : Bool := (Keyword.tryFrom s).isSome

/-- `is_alpha`, crates/syntax/src/keyword.rs:232-235. -/
def isAlpha (c : Char) : Bool :=
  (decide (0x41 ≤ c.toNat) && decide (c.toNat ≤ 0x5a)) ||
    (decide (0x61 ≤ c.toNat) && decide (c.toNat ≤ 0x7a))

/-- `str::len`: number of UTF-8 bytes. -/
def utf8Len (s : Str) : Nat := (s.map Char.utf8Size).sum

/-- The loop of `is_keyword_like` at index `i`, crates/syntax/src/keyword.rs:239-243. -/
def isKeywordLikeFrom : Nat → Str → Bool
  | _, [] => true
  | i, c :: cs =>
    if (i == 0 && c != '@') || (decide (i > 0) && !isAlpha c) then false
    else isKeywordLikeFrom (i + 1) cs

/-- `is_keyword_like`, crates/syntax/src/keyword.rs:237-249. -/
def isKeywordLike (s : Str) : Bool :=
  if utf8Len s > 1 then isKeywordLikeFrom 0 s else false

/-- `enum Direction`, crates/syntax/src/direction.rs. -/
inductive Direction where
  | ltr | rtl
  deriving DecidableEq, Repr, Inhabited

/-- `Direction::as_str`, crates/syntax/src/direction.rs. -/
def Direction.asStr : Direction → Str
  | .ltr => "ltr".toList
  | .rtl => "rtl".toList

/-- `TryFrom<&str> for Direction`, crates/syntax/src/direction.rs. -/
def Direction.tryFrom (s : Str) : Option Direction :=
  if s = "ltr".toList then some .ltr
  else if s = "rtl".toList then some .rtl
  else none

/-- `enum ContainerKind`, crates/syntax/src/container.rs. -/
inductive ContainerKind where
  | graph | id | index | language | list | set | type
  deriving DecidableEq, Repr, Inhabited

/-- `ContainerKind::into_keyword`/`as_str`, crates/syntax/src/container.rs. -/
def ContainerKind.asStr : ContainerKind → Str
  | .graph => "@graph".toList
  | .id => "@id".toList
  | .index => "@index".toList
  | .language => "@language".toList
  | .list => "@list".toList
  | .set => "@set".toList
  | .type => "@type".toList

/-- `TryFrom<&str> for ContainerKind`, crates/syntax/src/container.rs. -/
def ContainerKind.tryFrom (s : Str) : Option ContainerKind :=
  if s = "@graph".toList then some .graph
  else if s = "@id".toList then some .id
  else if s = "@index".toList then some .index
  else if s = "@language".toList then some .language
  else if s = "@list".toList then some .list
  else if s = "@set".toList then some .set
  else if s = "@type".toList then some .type
  else none

end JsonLd
