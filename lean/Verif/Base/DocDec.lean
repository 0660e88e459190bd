import Verif.Model.Doc
/-!
# Decidable (strict, order sensitive) equality of the document types

Only used to make examples decidable; the code's equality is in `Verif/Model/DocEq.lean`.
-/

namespace JsonLd

mutual
/-- Strict equality of objects. -/
def Obj.beq : Obj → Obj → Bool
  | .value i v, .value j w => i == j && decide (v = w)
  | .list i l, .list j m => i == j && objsBeq l m
  | .node n, .node m => n.beq m
  | _, _ => false
/-- Strict equality of nodes. -/
def Node.beq : Node → Node → Bool
  | .mk i id ty g inc ps rv, .mk i' id' ty' g' inc' ps' rv' =>
    i == i' && decide (id = id') && decide (ty = ty') &&
    objsOptBeq g g' && nodesOptBeq inc inc' && propsBeq ps ps' && rpropsOptBeq rv rv'
/-- Strict equality of optional sets of objects. -/
def objsOptBeq : Option (List Obj) → Option (List Obj) → Bool
  | none, none => true
  | some a, some b => objsBeq a b
  | _, _ => false
/-- Strict equality of optional sets of nodes. -/
def nodesOptBeq : Option (List Node) → Option (List Node) → Bool
  | none, none => true
  | some a, some b => nodesBeq a b
  | _, _ => false
/-- Strict equality of optional reverse properties. -/
def rpropsOptBeq : Option (List (Id × List Node)) → Option (List (Id × List Node)) → Bool
  | none, none => true
  | some a, some b => rpropsBeq a b
  | _, _ => false
/-- Strict equality of lists of objects. -/
def objsBeq : List Obj → List Obj → Bool
  | [], [] => true
  | a :: as, b :: bs => a.beq b && objsBeq as bs
  | _, _ => false
/-- Strict equality of lists of nodes. -/
def nodesBeq : List Node → List Node → Bool
  | [], [] => true
  | a :: as, b :: bs => a.beq b && nodesBeq as bs
  | _, _ => false
/-- Strict equality of properties. -/
def propsBeq : List (Id × List Obj) → List (Id × List Obj) → Bool
  | [], [] => true
  | (k, a) :: as, (k', b) :: bs => decide (k = k') && objsBeq a b && propsBeq as bs
  | _, _ => false
/-- Strict equality of reverse properties. -/
def rpropsBeq : List (Id × List Node) → List (Id × List Node) → Bool
  | [], [] => true
  | (k, a) :: as, (k', b) :: bs => decide (k = k') && nodesBeq a b && rpropsBeq as bs
  | _, _ => false
end

theorem objsBeq_iff {l m : List Obj} (h : ∀ o ∈ l, ∀ b, o.beq b = true ↔ o = b) :
    objsBeq l m = true ↔ l = m := by
  induction l generalizing m with
  | nil => cases m <;> simp [objsBeq]
  | cons a as ih =>
    cases m with
    | nil => simp [objsBeq]
    | cons b bs =>
      simp only [objsBeq, Bool.and_eq_true, List.cons.injEq]
      rw [h a (by simp), ih fun o ho => h o (by simp [ho])]

theorem nodesBeq_iff {l m : List Node} (h : ∀ o ∈ l, ∀ b, o.beq b = true ↔ o = b) :
    nodesBeq l m = true ↔ l = m := by
  induction l generalizing m with
  | nil => cases m <;> simp [nodesBeq]
  | cons a as ih =>
    cases m with
    | nil => simp [nodesBeq]
    | cons b bs =>
      simp only [nodesBeq, Bool.and_eq_true, List.cons.injEq]
      rw [h a (by simp), ih fun o ho => h o (by simp [ho])]

theorem propsBeq_iff {l m : List (Id × List Obj)}
    (h : ∀ p ∈ l, ∀ o ∈ p.2, ∀ b, o.beq b = true ↔ o = b) : propsBeq l m = true ↔ l = m := by
  induction l generalizing m with
  | nil => cases m <;> simp [propsBeq]
  | cons a as ih =>
    obtain ⟨k, a⟩ := a
    cases m with
    | nil => simp [propsBeq]
    | cons b bs =>
      obtain ⟨k', b⟩ := b
      simp only [propsBeq, Bool.and_eq_true, List.cons.injEq, decide_eq_true_eq, Prod.mk.injEq]
      rw [objsBeq_iff (h (k, a) (by simp)), ih fun o ho => h o (by simp [ho])]

theorem rpropsBeq_iff {l m : List (Id × List Node)}
    (h : ∀ p ∈ l, ∀ o ∈ p.2, ∀ b, o.beq b = true ↔ o = b) : rpropsBeq l m = true ↔ l = m := by
  induction l generalizing m with
  | nil => cases m <;> simp [rpropsBeq]
  | cons a as ih =>
    obtain ⟨k, a⟩ := a
    cases m with
    | nil => simp [rpropsBeq]
    | cons b bs =>
      obtain ⟨k', b⟩ := b
      simp only [rpropsBeq, Bool.and_eq_true, List.cons.injEq, decide_eq_true_eq, Prod.mk.injEq]
      rw [nodesBeq_iff (h (k, a) (by simp)), ih fun o ho => h o (by simp [ho])]

theorem Doc.beq_iff : (∀ a b : Obj, a.beq b = true ↔ a = b) ∧
    (∀ a b : Node, a.beq b = true ↔ a = b) := by
  apply Doc.ind (P := fun a => ∀ b, a.beq b = true ↔ a = b)
    (Q := fun a => ∀ b, a.beq b = true ↔ a = b)
  · intro i v b; cases b <;> simp [Obj.beq]
  · intro i l ih b
    cases b with
    | list j m => simp [Obj.beq, objsBeq_iff ih]
    | _ => simp [Obj.beq]
  · intro n ih b; cases b <;> simp [Obj.beq, ih]
  · intro i id ty g inc ps rv hg hinc hps hrv b
    obtain ⟨i', id', ty', g', inc', ps', rv'⟩ := b
    simp only [Node.beq, Bool.and_eq_true, beq_iff_eq, decide_eq_true_eq, Node.mk.injEq]
    rw [propsBeq_iff hps]
    have h1 : objsOptBeq g g' = true ↔ g = g' := by
      cases g <;> cases g' <;> simp [objsOptBeq]
      exact objsBeq_iff (hg _ rfl)
    have h2 : nodesOptBeq inc inc' = true ↔ inc = inc' := by
      cases inc <;> cases inc' <;> simp [nodesOptBeq]
      exact nodesBeq_iff (hinc _ rfl)
    have h3 : rpropsOptBeq rv rv' = true ↔ rv = rv' := by
      cases rv <;> cases rv' <;> simp [rpropsOptBeq]
      exact rpropsBeq_iff (hrv _ rfl)
    rw [h1, h2, h3]
    simp only [and_assoc]

instance : DecidableEq Obj := fun a b => decidable_of_iff _ (Doc.beq_iff.1 a b)
instance : DecidableEq Node := fun a b => decidable_of_iff _ (Doc.beq_iff.2 a b)

end JsonLd
