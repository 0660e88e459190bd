import Verif.Proofs.Canonical
import Verif.Props.DocEq
import Verif.Model.Rdf
import Verif.Base.DocDec
/-!
# C63: canonical literals
-/

namespace JsonLd.Props
open JsonLd Spec

/-- `o'` is `o` with the values outside `@graph` and `@included` entries in canonical form: same
shape and identifiers, the values outside replaced by their canonical form, those inside kept. -/
def CanonicalVersion (c : CanonEnv) (o o' : Obj) : Prop :=
  objBare o' = objBare o ∧
  List.Forall₂ (fun p q => q.1 = p.1 ∧
      if p.1 = true then q.2 = p.2 else Canonical c.num c.json p.2 q.2) (objVals false o) (objVals false o')

theorem canon_version (c : CanonEnv) (o : Obj) : CanonicalVersion c o (o.canon c) := by
  refine ⟨objBare_canon c o, ?_⟩
  rw [objVals_canon, List.forall₂_map_right_iff]
  refine forall₂_refl_mem ?_
  rintro ⟨b, v⟩ _
  refine ⟨rfl, ?_⟩
  cases b with
  | true => rfl
  | false => exact value_canon_canonical c v

/-- C63. Canonicalizing a document replaces each of its objects by the same object with canonical
literals: nothing else changes, nothing is added, and an object can only disappear because it became
equal to another one. Partial: the values inside `@graph` and `@included` entries are not
canonicalized, see `C63_graph`. -/
theorem C63_literals_partial (c : CanonEnv) (d : Doc) (hd : d.WF) :
    (d.canon c).WF ∧
    (∀ o' ∈ d.canon c, ∃ o ∈ d, CanonicalVersion c o o') ∧
    (∀ o ∈ d, ∃ o₁, CanonicalVersion c o o₁ ∧ ∃ o' ∈ d.canon c, o₁.eq o' = true) := by
  have hw := objsWF_iff.1 hd.2
  refine ⟨doc_canon_wf c hw, ?_, ?_⟩
  · intro o' h
    have := setCollect_mem h
    rw [objsCanon_eq] at this
    obtain ⟨o, ho, rfl⟩ := List.mem_map.1 this
    exact ⟨o, ho, canon_version c o⟩
  · intro o ho
    refine ⟨_, canon_version c o, ?_⟩
    refine setCollect_covers (Obj.eqOk ((wf_canon c).1 o (hw o ho))).1 ?_
    rw [objsCanon_eq]
    exact List.mem_map_of_mem ho

/-- C63. If the canonical form of a canonical form is itself, then canonicalizing twice is the same as
canonicalizing once. -/
theorem C63_idempotent (c : CanonEnv) (hn : ∀ n, c.num (c.num n) = c.num n)
    (hj : ∀ j, c.json (c.json j) = c.json j) (d : Doc) : (d.canon c).canon c = d.canon c := by
  have : objsCanon c (d.canon c) = d.canon c := by
    rw [objsCanon_eq]
    conv_rhs => rw [← List.map_id (d.canon c)]
    apply List.map_congr_left
    intro o' ho'
    have := setCollect_mem ho'
    rw [objsCanon_eq] at this
    obtain ⟨o, _, rfl⟩ := List.mem_map.1 this
    exact (canon_canon c hn hj).1 o
  show setCollect Obj.eq (objsCanon c (d.canon c)) = d.canon c
  rw [this]
  exact setCollect_of_pairwise (setCollect_pairwise _)

/-- C63. Equal documents have equal canonical forms. -/
theorem C63_equal (c : CanonEnv) (d e : Doc) (hd : d.WF) (he : e.WF) (h : d.eq e = true) :
    (d.canon c).eq (e.canon c) = true := by
  have hd' := objsWF_iff.1 hd.2
  have he' := objsWF_iff.1 he.2
  have wd := doc_canon_wf c hd'
  have we := doc_canon_wf c he'
  have cover : ∀ d e : Doc, (∀ o ∈ d, o.WF) → (∀ o ∈ e, o.WF) → Doc.WF (d.canon c) →
      Doc.WF (e.canon c) → (∀ x ∈ d, ∃ y ∈ e, x.eq y = true) →
      ∀ x ∈ d.canon c, ∃ y ∈ e.canon c, x.eq y = true := by
    intro d e hd he wd we hc x hx
    have hm := setCollect_mem hx
    rw [objsCanon_eq] at hm
    obtain ⟨o, ho, rfl⟩ := List.mem_map.1 hm
    obtain ⟨o', ho', h⟩ := hc o ho
    have h1 := (eq_canon c).1 o o' (hd o ho) (he o' ho') h
    have hw' := (wf_canon c).1 o' (he o' ho')
    obtain ⟨y, hy, h2⟩ := setCollect_covers (l := objsCanon c e) (Obj.eqOk hw').1
      (by rw [objsCanon_eq]; exact List.mem_map_of_mem ho')
    exact ⟨y, hy, (Obj.eqOk (objsWF_iff.1 wd.2 _ hx)).2.2 _ _ hw' (objsWF_iff.1 we.2 _ hy) h1 h2⟩
  have hp := (doc_eq_iff hd he).1 h
  have hp' := (doc_eq_iff he hd).1 (C46_equivalence.2.1 d e hd he h)
  exact doc_eq_of_covers wd we
    (cover d e hd' he' wd we fun x hx => hp.exists_right hx)
    (cover e d he' hd' we wd fun y hy => hp'.exists_right hy)

/-- The canonical form of `1.0` is `1`. -/
def exCanon : CanonEnv := ⟨fun n => if n = ['1', '.', '0'] then ['1'] else n, fun j => j⟩

/-- A node with the number `1.0` as value of a property, and the same inside a graph. -/
def exNumbers : Doc :=
  [.node (.mk none (some (.iri ['a'])) none
    (some [.node (.mk none (some (.iri ['b'])) none none none
      [(.iri ['p'], [.value none (.literal (.num ['1', '.', '0']) none)])] none)])
    none [(.iri ['p'], [.value none (.literal (.num ['1', '.', '0']) none)])] none)]

/-- C63, what does not hold of the code: a number inside a `@graph` entry is left as it is, although
the same number outside is put in canonical form. -/
theorem C63_graph : exNumbers.canon exCanon =
    [.node (.mk none (some (.iri ['a'])) none
      (some [.node (.mk none (some (.iri ['b'])) none none none
        [(.iri ['p'], [.value none (.literal (.num ['1', '.', '0']) none)])] none)])
      none [(.iri ['p'], [.value none (.literal (.num ['1']) none)])] none)] := by rfl

/-- C63, its consequence in RDF: the two numbers, which are the same in the document, become literals
of different datatypes once canonicalized, as soon as integers are recognised by their text. -/
theorem C63_graph_rdf (env : RdfEnv) (h1 : env.isI64 ['1'] = true)
    (h2 : env.isI64 ['1', '.', '0'] = false) :
    ((Value.literal (.num ['1', '.', '0']) none).canon exCanon).rdf env none 0 =
      some (.lit ['1'] (.any (xsdNs "integer")), 0) ∧
    (Value.literal (.num ['1', '.', '0']) none).rdf env none 0 =
      some (.lit (env.dtoa ['1', '.', '0']) (.any (xsdNs "double")), 0) := by
  constructor
  · show (Value.literal (.num ['1']) none).rdf env none 0 = _
    simp [Value.rdf, litRdf, h1]
  · simp [Value.rdf, litRdf, h2]

example : exNumbers.WF := by
  simp [exNumbers, Doc.WF, gWF, objsWF, Obj.WF, Node.WF, incWF, rvWF, psWF]
example : (∀ n, exCanon.num (exCanon.num n) = exCanon.num n) := by
  intro n
  simp only [exCanon]
  by_cases h : n = ['1', '.', '0']
  · simp [h]
  · simp [h]

end JsonLd.Props
