import Verif.Model.Keyword
/-!
# Containers (`crates/core/src/container.rs`)
-/

namespace JsonLd

/-- `enum Container`, crates/core/src/container.rs:7-29. -/
inductive Container where
  | none | graph | id | index | language | list | set | type
  | graphSet | graphId | graphIndex | idSet | indexSet | languageSet | setType
  | graphIdSet | graphIndexSet
  deriving DecidableEq, Repr, Inhabited

namespace Container

/-- `From<ContainerKind> for Container`, crates/core/src/container.rs:193-205. -/
def ofKind : ContainerKind → Container
  | .graph => graph
  | .id => id
  | .index => index
  | .language => language
  | .list => list
  | .set => set
  | .type => type

/-- `Container::as_slice`, crates/core/src/container.rs:73-98. -/
def asSlice : Container → List ContainerKind
  | none => []
  | graph => [.graph]
  | id => [.id]
  | index => [.index]
  | language => [.language]
  | list => [.list]
  | set => [.set]
  | type => [.type]
  | graphSet => [.graph, .set]
  | graphId => [.graph, .id]
  | graphIndex => [.graph, .index]
  | idSet => [.id, .set]
  | indexSet => [.index, .set]
  | languageSet => [.language, .set]
  | setType => [.type, .set]
  | graphIdSet => [.graph, .id, .set]
  | graphIndexSet => [.graph, .index, .set]

/-- `Container::contains`, crates/core/src/container.rs:112-114. -/
def contains (c : Container) (k : ContainerKind) : Bool := c.asSlice.contains k

/-- `Container::with`, crates/core/src/container.rs:116-170, including line 143 as written. -/
def with_ : Container → ContainerKind → Option Container
  | none, c => some (ofKind c)
  | graph, .graph => some graph
  | graph, .set => some graphSet
  | graph, .id => some graphId
  | graph, .index => some graphIndex
  | id, .id => some id
  | id, .graph => some graphId
  | id, .set => some idSet
  | index, .index => some index
  | index, .graph => some graphIndex
  | index, .set => some indexSet
  | language, .language => some language
  | language, .set => some languageSet
  | list, .list => some list
  | set, .set => some set
  | set, .graph => some graphSet
  | set, .id => some idSet
  | set, .index => some indexSet
  | set, .language => some languageSet
  | set, .type => some setType
  | type, .type => some type
  | type, .set => some setType
  | graphSet, .graph => some graphSet
  | graphSet, .set => some graphSet
  | graphSet, .id => some graphIdSet
  | graphSet, .index => some graphIdSet
  | graphId, .graph => some graphId
  | graphId, .id => some graphId
  | graphId, .set => some graphIdSet
  | graphIndex, .graph => some graphIndex
  | graphIndex, .index => some graphIndex
  | graphIndex, .set => some graphIndexSet
  | idSet, .id => some idSet
  | idSet, .set => some idSet
  | idSet, .graph => some graphIdSet
  | indexSet, .index => some indexSet
  | indexSet, .set => some indexSet
  | indexSet, .graph => some graphIndexSet
  | languageSet, .language => some languageSet
  | languageSet, .set => some languageSet
  | setType, .set => some setType
  | setType, .type => some setType
  | graphIdSet, .graph => some graphIdSet
  | graphIdSet, .id => some graphIdSet
  | graphIdSet, .set => some graphIdSet
  | graphIndexSet, .graph => some graphIndexSet
  | graphIndexSet, .index => some graphIndexSet
  | graphIndexSet, .set => some graphIndexSet
  | _, _ => Option.none

/-- The loop of `Container::from_syntax` on an array (`add` in sequence, stopping at the first
refusal), crates/core/src/container.rs:46-56 and 172-180. -/
def addAll : Container → List ContainerKind → Option Container
  | c, [] => some c
  | c, k :: ks => match c.with_ k with
    | some c' => addAll c' ks
    | Option.none => Option.none

end Container

/-- `json_ld_syntax::Container`, crates/syntax/src/container.rs: one kind or an array. -/
inductive SynContainer where
  | one (k : ContainerKind)
  | many (ks : List ContainerKind)
  deriving DecidableEq, Repr, Inhabited

namespace Container

/-- `Container::from_syntax`, crates/core/src/container.rs:42-58. The outer `Option` argument is
`Nullable`; the result `none` is `InvalidContainer`. -/
def fromSyntax : Option SynContainer → Option Container
  | Option.none => some none
  | some (.one k) => some (ofKind k)
  | some (.many ks) => addAll none ks

/-- `Container::into_syntax`, crates/core/src/container.rs:182-190. -/
def intoSyntax (c : Container) : Option SynContainer :=
  match c.asSlice with
  | [] => Option.none
  | [k] => some (.one k)
  | ks => some (.many ks)

end Container
end JsonLd
