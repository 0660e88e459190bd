import Verif.Model.LdSerialize
/-!
# Linked data that is not a document
-/

namespace JsonLd.Spec

mutual
/-- Why a resource cannot be an object. What is told about a literal is ignored. -/
inductive ObjFault : LdErr → LD → Prop
  | visit {e : LdErr} {t : Option LTerm} {vs : List LVisit} {v : LVisit}
      (ht : ∀ l, t ≠ some (.lit l)) (hv : v ∈ vs) (h : VisitFault e v) : ObjFault e (.mk t vs)
  | rest {e : LdErr} {vs : List LVisit} {os : List LD} {o : LD}
      (hv : .predicate (some (.id rdfRest)) os ∈ vs) (ho : o ∈ os) (h : TailFault e o) :
      ObjFault e (.mk none vs)
/-- Why a resource cannot be a node. -/
inductive NodeFault : LdErr → LD → Prop
  | literal {l : LLit} {vs : List LVisit} : NodeFault .invalidNode (.mk (some (.lit l)) vs)
  | visit {e : LdErr} {t : Option LTerm} {vs : List LVisit} {v : LVisit}
      (ht : ∀ l, t ≠ some (.lit l)) (hv : v ∈ vs) (h : VisitFault e v) : NodeFault e (.mk t vs)
/-- Why something told about a node is not acceptable. -/
inductive VisitFault : LdErr → LVisit → Prop
  | predicate {p : Option LTerm} {os : List LD} (hp : ∀ i, p ≠ some (.id i)) :
      VisitFault .invalidPredicate (.predicate p os)
  | object {e : LdErr} {i : Id} {os : List LD} {o : LD} (ho : o ∈ os) (h : ObjFault e o) :
      VisitFault e (.predicate (some (.id i)) os)
  | reverse {p : Option LTerm} {os : List LD} (hp : ∀ i, p ≠ some (.id i)) :
      VisitFault .invalidPredicate (.reverse p os)
  | subject {e : LdErr} {i : Id} {os : List LD} {o : LD} (ho : o ∈ os) (h : NodeFault e o) :
      VisitFault e (.reverse (some (.id i)) os)
  | graph {e : LdErr} {os : List LD} {o : LD} (ho : o ∈ os) (h : ObjFault e o) :
      VisitFault e (.graph os)
  | included {e : LdErr} {o : LD} (h : NodeFault e o) : VisitFault e (.included o)
/-- Why a resource cannot be the tail of a list: `rdf:rest` of a resource that is not identified. -/
inductive TailFault : LdErr → LD → Prop
  | predicate {t : Option LTerm} {vs : List LVisit} {p : Option LTerm} {os : List LD}
      (hv : .predicate p os ∈ vs) (hp : ∀ i, p ≠ some (.id i)) : TailFault .invalidPredicate (.mk t vs)
  | first {e : LdErr} {t : Option LTerm} {vs : List LVisit} {os : List LD} {o : LD}
      (hv : .predicate (some (.id rdfFirst)) os ∈ vs) (ho : o ∈ os) (h : ObjFault e o) :
      TailFault e (.mk t vs)
  | rest {e : LdErr} {t : Option LTerm} {vs : List LVisit} {os : List LD} {o : LD}
      (hv : .predicate (some (.id rdfRest)) os ∈ vs) (ho : o ∈ os) (h : TailFault e o) :
      TailFault e (.mk t vs)
  | reverse {t : Option LTerm} {vs : List LVisit} {p : Option LTerm} {os : List LD}
      (hv : .reverse p os ∈ vs) : TailFault .listReverseProperty (.mk t vs)
  | included {t : Option LTerm} {vs : List LVisit} {o : LD}
      (hv : .included o ∈ vs) : TailFault .listInclude (.mk t vs)
end

/-- Why a graph is not acceptable. At the top of the default graph, resources that are not
identified are nodes. -/
inductive GraphFault : LdErr → LGraph → Prop
  | subject {e : LdErr} {ss : List LD} {t : Option LTerm} {vs : List LVisit} {v : LVisit}
      (hs : .mk t vs ∈ ss) (ht : ∀ l, t ≠ some (.lit l)) (hv : v ∈ vs) (h : VisitFault e v) :
      GraphFault e (.default ss)
  | name {l : LLit} {ss : List LD} : GraphFault .invalidGraph (.named (some (.lit l)) ss)
  | object {e : LdErr} {t : Option LTerm} {ss : List LD} {o : LD} (ht : ∀ l, t ≠ some (.lit l))
      (ho : o ∈ ss) (h : ObjFault e o) : GraphFault e (.named t ss)

/-- The objects of a predicate: those told last. -/
def lastObjects (p : Id) : List LVisit → Option (List LD)
  | [] => none
  | v :: vs => match lastObjects p vs, v with
    | some os, _ => some os
    | none, .predicate (some (.id q)) os => if q = p then some os else none
    | none, _ => none

/-- The subjects of a reverse predicate: those told last. -/
def lastSubjects (p : Id) : List LVisit → Option (List LD)
  | [] => none
  | v :: vs => match lastSubjects p vs, v with
    | some os, _ => some os
    | none, .reverse (some (.id q)) os => if q = p then some os else none
    | none, _ => none

/-- The graph told last. -/
def lastGraph : List LVisit → Option (List LD)
  | [] => none
  | v :: vs => match lastGraph vs, v with
    | some os, _ => some os
    | none, .graph os => some os
    | none, _ => none

/-- A reference to a node. -/
def refTo (i : Id) : Obj := .node (.mk none (some i) none none none [] none)

end JsonLd.Spec
