import Verif.Spec.Process
/-!
# Specifications for dependencies between term definitions
-/

namespace JsonLd.Spec

/-- `p` is the prefix of `s` as a compact IRI. -/
def HasPrefix (E : ProcEnv) (s p : Str) : Prop :=
  ∃ y, s = p ++ ':' :: y ∧ ':' ∉ p ∧ p ≠ ['_'] ∧ y.take 2 ≠ ['/', '/'] ∧ E.isRef s = true

/-- The definition of the term `k` mentions `s`: as its type, as a reverse property, or as its identifier unless
that is the term itself. What looks like a keyword is not meant. -/
def Mentions (k : Str) (b : Option STerm) (s : Str) : Prop :=
  ¬ KeywordForm s ∧ ((b = some (.simple s) ∧ s ≠ k) ∨ ∃ x, b = some (.expanded x) ∧
    (x.type = some (some (.term s)) ∨ x.reverse = some s ∨ (x.id = some (some (.term s)) ∧ s ≠ k)))

/-- The definition of the term `k` has no identifier other than the term itself. -/
def ByName (k : Str) (b : Option STerm) : Prop :=
  b = some (.simple k) ∨ ∃ x, b = some (.expanded x) ∧ x.reverse = none ∧
    (x.id = none ∨ x.id = some (some (.term k)))

/-- In the context definition `d` the term `k` depends on the term `u`: it mentions `u`, or it mentions a compact
IRI with the prefix `u` that is no term itself (neither in `d` nor in the context `c`), or it is such a compact IRI
and has no other identifier. -/
inductive DependsOn (E : ProcEnv) (c : ACtx) (d : SDef) (k u : Str) : Prop
  | term (b) : lookupKey k d.bindings = some b → Mentions k b u → DependsOn E c d k u
  | pre (b s) : lookupKey k d.bindings = some b → Mentions k b s → lookupKey s d.bindings = none →
      lookupKey s c.defs = none → E.isBlank s = false → HasPrefix E s u → u ≠ [] → DependsOn E c d k u
  | name (b) : lookupKey k d.bindings = some b → ByName k b → HasPrefix E k u → DependsOn E c d k u

/-- A chain of one or more steps. -/
inductive Chain {α : Type} (r : α → α → Prop) : α → α → Prop
  | one {a b} : r a b → Chain r a b
  | step {a b c} : r a b → Chain r b c → Chain r a c

/-- In the context definition `d` the term `k` may refer to the term `u`: it mentions `u` or a compact IRI with the
prefix `u`, or it is a compact IRI with the prefix `u`. -/
inductive RefersTo (E : ProcEnv) (d : SDef) (k u : Str) : Prop
  | term (b) : lookupKey k d.bindings = some b → Mentions k b u → RefersTo E d k u
  | pre (b s) : lookupKey k d.bindings = some b → Mentions k b s → HasPrefix E s u → RefersTo E d k u
  | name (b) : lookupKey k d.bindings = some b → HasPrefix E k u → RefersTo E d k u

/-- The binding is ignored: its identifier or reverse property has the form of a keyword, but is none. -/
def Ignored (b : Option STerm) : Prop :=
  IdLooksLikeKeyword b ∨ ∃ x s, b = some (.expanded x) ∧ x.reverse = some s ∧ KeywordForm s

end JsonLd.Spec
