import Verif.Base.Json
import Verif.Model.Keyword
/-!
# Specifications for the syntax-level properties

Nothing here refers to the functions of the model, only to its data types.
-/

namespace JsonLd.Spec

/-- The keywords of JSON-LD 1.1 known to the library, spelled out. -/
def keywords : List String :=
  ["@base", "@container", "@context", "@direction", "@graph", "@id", "@import", "@included",
   "@index", "@json", "@language", "@list", "@nest", "@none", "@prefix", "@propagate",
   "@protected", "@reverse", "@set", "@type", "@value", "@version", "@vocab"]

/-- ASCII letters. -/
def AsciiLetter (c : Char) : Prop := ('A' ≤ c ∧ c ≤ 'Z') ∨ ('a' ≤ c ∧ c ≤ 'z')

/-- `"@" 1*ALPHA`. -/
def KeywordForm (s : Str) : Prop := ∃ name : Str, s = '@' :: name ∧ name ≠ [] ∧
  ∀ c ∈ name, AsciiLetter c

/-- The sets of container kinds a term may have (JSON-LD 1.1, `@container` in term definitions):
at most one kind that is not `@set` and not `@graph`, `@list` stands alone, and `@graph` only
combines with `@id`, `@index` and `@set`. -/
def allowedContainers : List (List ContainerKind) :=
  [[], [.graph], [.id], [.index], [.language], [.list], [.set], [.type],
   [.graph, .set], [.graph, .id], [.graph, .index], [.id, .set], [.index, .set],
   [.language, .set], [.type, .set], [.graph, .id, .set], [.graph, .index, .set]]

/-- `ks` lists exactly the kinds of `l`, in any order and with any repetitions. -/
def SameKinds (ks l : List ContainerKind) : Prop := ∀ k, k ∈ ks ↔ k ∈ l

/-- Equality of JSON values up to the order of object members and array items. -/
inductive JsonEquiv : Json → Json → Prop
  | null : JsonEquiv .null .null
  | bool (b) : JsonEquiv (.bool b) (.bool b)
  | num (n) : JsonEquiv (.num n) (.num n)
  | str (s) : JsonEquiv (.str s) (.str s)
  | arr {a b b' : List Json} (hp : b'.Perm b) (hl : a.length = b'.length)
      (h : ∀ i (h1 : i < a.length) (h2 : i < b'.length), JsonEquiv a[i] b'[i]) :
      JsonEquiv (.arr a) (.arr b)
  | obj {a b b' : List (Str × Json)} (hp : b'.Perm b) (hl : a.length = b'.length)
      (hk : ∀ i (h1 : i < a.length) (h2 : i < b'.length), a[i].1 = b'[i].1)
      (h : ∀ i (h1 : i < a.length) (h2 : i < b'.length), JsonEquiv a[i].2 b'[i].2) :
      JsonEquiv (.obj a) (.obj b)

/-- No object inside the value has two members with the same key. -/
inductive NoDupKeys : Json → Prop
  | null : NoDupKeys .null
  | bool (b) : NoDupKeys (.bool b)
  | num (n) : NoDupKeys (.num n)
  | str (s) : NoDupKeys (.str s)
  | arr {l : List Json} (h : ∀ x ∈ l, NoDupKeys x) : NoDupKeys (.arr l)
  | obj {m : List (Str × Json)} (hd : (m.map (·.1)).Nodup) (h : ∀ e ∈ m, NoDupKeys e.2) :
      NoDupKeys (.obj m)

end JsonLd.Spec
