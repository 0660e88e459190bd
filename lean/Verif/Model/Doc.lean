import Verif.Base.Json
import Verif.Base.Greedy
import Verif.Model.LangString
/-!
# Expanded documents (`crates/core/src/{id,object,indexed}.rs`, `crates/core/src/object/**`)

IRIs and blank node identifiers are their texts. `Indexed<T>` (indexed.rs:14-20) is merged into its
content: the first field of every constructor is the index. Sets (`IndexSet`), maps (`IndexMap`) and
multisets are lists in insertion order.
-/

namespace JsonLd

/-- `enum Id`, crates/core/src/id.rs:35-41, with `rdf_types::Id` inlined. -/
inductive Id where
  | iri (s : Str)
  | blank (s : Str)
  | invalid (s : Str)
  deriving DecidableEq, Repr, Inhabited

/-- `Id::as_str`, id.rs:216-222. -/
def Id.str : Id → Str
  | .iri s => s
  | .blank s => s
  | .invalid s => s

/-- `Id::is_valid`, id.rs:149-151. -/
def Id.isValid : Id → Bool
  | .invalid _ => false
  | _ => true

/-- `Id::as_blank`, id.rs:166-171. -/
def Id.asBlank : Id → Option Str
  | .blank s => some s
  | _ => none

/-- `enum Literal`, crates/core/src/object/value.rs:51-63. Numbers are their text. -/
inductive Literal where
  | null
  | bool (b : Bool)
  | num (n : Str)
  | str (s : Str)
  deriving DecidableEq, Repr, Inhabited

/-- `enum Value`, object/value.rs:117-126. -/
inductive Value where
  | literal (l : Literal) (ty : Option Str)
  | langString (s : LangString)
  | json (j : Json)
  deriving DecidableEq, Inhabited

mutual
/-- `Indexed<Object>`, object/mod.rs:102-111. -/
inductive Obj where
  | value (index : Option Str) (v : Value)
  | list (index : Option Str) (items : List Obj)
  | node (n : Node)
/-- `Indexed<Node>`, object/node/mod.rs:36-66. -/
inductive Node where
  | mk (index : Option Str) (id : Option Id) (types : Option (List Id))
      (graph : Option (List Obj)) (included : Option (List Node))
      (props : List (Id × List Obj)) (rev : Option (List (Id × List Node)))
end

instance : Inhabited Obj := ⟨.value none (.literal .null none)⟩
instance : Inhabited Node := ⟨.mk none none none none none [] none⟩

namespace Node
/-- Field access. -/
def index : Node → Option Str | .mk i _ _ _ _ _ _ => i
/-- Field access. -/
def id : Node → Option Id | .mk _ i _ _ _ _ _ => i
/-- Field access. -/
def types : Node → Option (List Id) | .mk _ _ t _ _ _ _ => t
/-- Field access. -/
def graph : Node → Option (List Obj) | .mk _ _ _ g _ _ _ => g
/-- Field access. -/
def included : Node → Option (List Node) | .mk _ _ _ _ i _ _ => i
/-- Field access. -/
def props : Node → List (Id × List Obj) | .mk _ _ _ _ _ p _ => p
/-- Field access. -/
def rev : Node → Option (List (Id × List Node)) | .mk _ _ _ _ _ _ r => r

/-- `Node::is_empty`, object/node/mod.rs:294-300. -/
def isEmpty : Node → Bool
  | .mk _ _ t g i p r => t.isNone && g.isNone && i.isNone && p.isEmpty && r.isNone

/-- `Node::is_graph`, object/node/mod.rs:306-312. -/
def isGraph : Node → Bool
  | .mk _ _ t g i p r => g.isSome && t.isNone && i.isNone && p.isEmpty && r.isNone
end Node

/-- The documents: `ExpandedDocument`, document/expanded.rs:14. -/
abbrev Doc := List Obj

/-- Induction over objects and nodes with membership hypotheses. -/
theorem Doc.ind {P : Obj → Prop} {Q : Node → Prop}
    (hvalue : ∀ i v, P (.value i v))
    (hlist : ∀ i l, (∀ o ∈ l, P o) → P (.list i l))
    (hnode : ∀ n, Q n → P (.node n))
    (hmk : ∀ i id ty g inc ps rv, (∀ l, g = some l → ∀ o ∈ l, P o) →
      (∀ l, inc = some l → ∀ n ∈ l, Q n) → (∀ p ∈ ps, ∀ o ∈ p.2, P o) →
      (∀ l, rv = some l → ∀ p ∈ l, ∀ n ∈ p.2, Q n) → Q (.mk i id ty g inc ps rv)) :
    (∀ o, P o) ∧ (∀ n, Q n) := by
  have key : ∀ o, P o := fun o => Obj.rec (motive_1 := P) (motive_2 := Q)
    (motive_3 := fun l => ∀ o ∈ l, P o)
    (motive_4 := fun g => ∀ l, g = some l → ∀ o ∈ l, P o)
    (motive_5 := fun g => ∀ l, g = some l → ∀ n ∈ l, Q n)
    (motive_6 := fun ps => ∀ p ∈ ps, ∀ o ∈ p.2, P o)
    (motive_7 := fun g => ∀ l, g = some l → ∀ p ∈ l, ∀ n ∈ p.2, Q n)
    (motive_8 := fun l => ∀ n ∈ l, Q n)
    (motive_9 := fun p => ∀ o ∈ p.2, P o)
    (motive_10 := fun ps => ∀ p ∈ ps, ∀ n ∈ p.2, Q n)
    (motive_11 := fun p => ∀ n ∈ p.2, Q n)
    hvalue hlist hnode hmk
    (by simp) (by intro o os ho hos x hx; rcases List.mem_cons.1 hx with rfl | hx; exacts [ho, hos x hx])
    (by simp) (by intro l hl x hx; cases hx; exact hl)
    (by simp) (by intro l hl x hx; cases hx; exact hl)
    (by simp) (by intro o os ho hos x hx; rcases List.mem_cons.1 hx with rfl | hx; exacts [ho, hos x hx])
    (by simp) (by intro l hl x hx; cases hx; exact hl)
    (by simp) (by intro o os ho hos x hx; rcases List.mem_cons.1 hx with rfl | hx; exacts [ho, hos x hx])
    (by intro a b h; exact h)
    (by simp) (by intro o os ho hos x hx; rcases List.mem_cons.1 hx with rfl | hx; exacts [ho, hos x hx])
    (by intro a b h; exact h) o
  refine ⟨key, fun n => ?_⟩
  cases n with
  | mk i id ty g inc ps rv =>
    have : ∀ n, Q n := fun n => Node.rec (motive_1 := P) (motive_2 := Q)
      (motive_3 := fun l => ∀ o ∈ l, P o)
      (motive_4 := fun g => ∀ l, g = some l → ∀ o ∈ l, P o)
      (motive_5 := fun g => ∀ l, g = some l → ∀ n ∈ l, Q n)
      (motive_6 := fun ps => ∀ p ∈ ps, ∀ o ∈ p.2, P o)
      (motive_7 := fun g => ∀ l, g = some l → ∀ p ∈ l, ∀ n ∈ p.2, Q n)
      (motive_8 := fun l => ∀ n ∈ l, Q n)
      (motive_9 := fun p => ∀ o ∈ p.2, P o)
      (motive_10 := fun ps => ∀ p ∈ ps, ∀ n ∈ p.2, Q n)
      (motive_11 := fun p => ∀ n ∈ p.2, Q n)
      hvalue hlist hnode hmk
      (by simp) (by intro o os ho hos x hx; rcases List.mem_cons.1 hx with rfl | hx; exacts [ho, hos x hx])
      (by simp) (by intro l hl x hx; cases hx; exact hl)
      (by simp) (by intro l hl x hx; cases hx; exact hl)
      (by simp) (by intro o os ho hos x hx; rcases List.mem_cons.1 hx with rfl | hx; exacts [ho, hos x hx])
      (by simp) (by intro l hl x hx; cases hx; exact hl)
      (by simp) (by intro o os ho hos x hx; rcases List.mem_cons.1 hx with rfl | hx; exacts [ho, hos x hx])
      (by intro a b h; exact h)
      (by simp) (by intro o os ho hos x hx; rcases List.mem_cons.1 hx with rfl | hx; exacts [ho, hos x hx])
      (by intro a b h; exact h) n
    exact this _

end JsonLd
