import Verif.Model.Inverse
/-!
# Specification of term selection
-/

namespace JsonLd.Spec

/-- `a` is before `b` in the order of dictionaries. -/
def LexLt (a b : Str) : Prop :=
  (∃ t, t ≠ [] ∧ b = a ++ t) ∨
  ∃ p x y s t, a = p ++ x :: s ∧ b = p ++ y :: t ∧ x.toNat < y.toNat

/-- The order of terms: shorter first, then lexicographic. -/
def Before (a b : Str) : Prop :=
  utf8Len a < utf8Len b ∨ (utf8Len a = utf8Len b ∧ LexLt a b)

/-- The definition has the requested type mapping. -/
def TypeMatch (d : TermDef) : TypeSel → Prop
  | .reverse => d.reverse = true
  | .any => d.reverse = false ∧ d.typ = some .none
  | .type .none => d.reverse = false ∧ d.typ = none ∧ d.language = none ∧ d.direction = none
  | .type t => d.reverse = false ∧ d.typ = some t

/-- The language tags are equal up to case, the directions are equal. -/
def SameLang (a b : LangDir) : Prop :=
  (a = none ∧ b = none) ∨ ∃ l d l', a = some (l, d) ∧ b = some (l', d) ∧ langOptEq l l' = true

/-- A term stands for language and direction `l`: for those of its definition if it has any (null
for none), otherwise for the defaults and also for none at all. -/
def TermLang (c : ACtx) (d : TermDef) (l : LangDir) : Prop :=
  (d.language = none ∧ d.direction = none ∧ (l = some (c.language, c.direction) ∨ l = some (none, none))) ∨
  (d.language = some none ∧ (d.direction = none ∨ d.direction = some none) ∧ l = none) ∨
  (¬ (d.language = none ∧ d.direction = none) ∧
    ¬ (d.language = some none ∧ (d.direction = none ∨ d.direction = some none)) ∧
    l = some (d.language.join, d.direction.join))

/-- The definition has the requested language and direction. -/
def LangMatch (c : ACtx) (d : TermDef) : LangSel → Prop
  | .any => d.reverse = false ∧ d.typ = some .none
  | .lang l => d.reverse = false ∧ d.typ = none ∧ ∃ l', TermLang c d l' ∧ SameLang l l'

/-- What is asked for, in order of preference: a container and a condition on the definition. -/
def wishes (c : ACtx) (containers : List Container) (s : Selection) :
    List (Container × (TermDef → Prop)) :=
  containers.flatMap fun cont =>
    match s with
    | .any => [(cont, fun _ => True)]
    | .type l => l.map fun x => (cont, fun d => TypeMatch d x)
    | .lang l => l.map fun x => (cont, fun d => LangMatch c d x)

/-- The term `k` is defined as `var` and satisfies the wish `w`. -/
def Candidate (c : ACtx) (var : CTerm) (w : Container × (TermDef → Prop)) (k : Str) : Prop :=
  ∃ d, lookupKey k c.defs = some d ∧ d.value = some var ∧ d.container = w.1 ∧ w.2 d

/-- `k` is the first candidate for the first wish that has candidates. -/
def Selected (c : ACtx) (var : CTerm) (ws : List (Container × (TermDef → Prop))) (k : Str) : Prop :=
  ∃ pre w post, ws = pre ++ w :: post ∧ (∀ v ∈ pre, ∀ k', ¬ Candidate c var v k') ∧
    Candidate c var w k ∧ ∀ k', Candidate c var w k' → k' = k ∨ Before k k'

end JsonLd.Spec
