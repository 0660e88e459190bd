import Verif.Proofs.SameStatements
import Verif.Props.DocEq
import Verif.Props.Rdf
/-!
# C64: equal documents say the same
-/

namespace JsonLd.Props
open JsonLd Spec

/-- The objects of two statements are equal. -/
def SameObject : QObj → QObj → Prop
  | .obj a, .obj b => a.eq b = true
  | .node a, .node b => a.eq b = true
  | .ref i, .ref j => i = j
  | _, _ => False

theorem sameObject_of {a b : QObj} (h : QObjSame a b) : SameObject a b := by
  cases a <;> cases b <;> first | exact h.2.2 | exact h

/-- C64. Equal documents make the same statements: each statement of one is a statement of the other,
in the same graph, about the same subject and property, with an equal object. -/
theorem C64_statements {d e : Doc} (hd : d.WF) (he : e.WF) (h : d.eq e = true) :
    (∀ q, Asserts d q → ∃ o, Asserts e ⟨q.graph, q.subject, q.property, o⟩ ∧ SameObject q.object o) ∧
    (∀ q, Asserts e q → ∃ o, Asserts d ⟨q.graph, q.subject, q.property, o⟩ ∧ SameObject q.object o) := by
  have hd' := objsWF_iff.1 hd.2
  have he' := objsWF_iff.1 he.2
  have h1 := (doc_eq_iff hd he).1 h
  have h2 := (doc_eq_iff he hd).1 (C46_equivalence.2.1 d e hd he h)
  constructor
  · intro q hq
    obtain ⟨o, ho, hs⟩ := asserts_same hd' he' (fun x hx => h1.exists_right hx) hq
    exact ⟨o, ho, sameObject_of hs⟩
  · intro q hq
    obtain ⟨o, ho, hs⟩ := asserts_same he' hd' (fun x hx => h2.exists_right hx) hq
    exact ⟨o, ho, sameObject_of hs⟩

/-- The object of a statement is neither a list nor a string with language or direction. -/
def PlainObject : QObj → Prop
  | .obj (.list _ _) => False
  | .obj (.value _ (.langString _)) => False
  | _ => True

section
variable {env : RdfEnv} {opts : RdfOpts}

theorem plain_rdf {o : QObj} (h : PlainObject o) (n : Nat) :
    o.rdf env opts.direction n =
      (o.rdf env opts.direction 0).map fun x => (x.1, none, n) := by
  cases o with
  | ref i => simp [QObj.rdf, Option.map_map, Function.comp_def]
  | node m => simp [QObj.rdf, Option.map_map, Function.comp_def]
  | obj o =>
    cases o with
    | list => exact h.elim
    | node m => simp [QObj.rdf, Obj.rdf, Option.map_map, Function.comp_def]
    | value i v => cases v with
      | langString => exact h.elim
      | json j => rfl
      | literal l t => rfl

theorem plain_mem {qs : List Quad} (hp : ∀ q ∈ qs, PlainObject q.object) {n : Nat} {r : RQuad} :
    r ∈ (emitAll env opts qs n).1 ↔ ∃ q ∈ qs, ∃ x, convert env opts 0 q = some x ∧ r = x.1 := by
  have hconv : ∀ q, PlainObject q.object → ∀ n, convert env opts n q =
      (convert env opts 0 q).map fun x => (x.1, none, n) := by
    intro q hq n
    unfold convert
    split
    · cases q.property.rdf with
      | none => rfl
      | some p =>
        dsimp only
        split
        · rfl
        · rw [plain_rdf hq n]
          cases q.object.rdf env opts.direction 0 <;> rfl
    · rfl
  induction qs generalizing n with
  | nil => simp [emitAll]
  | cons q qs ih =>
    have ih : ∀ n, r ∈ (emitAll env opts qs n).1 ↔ _ :=
      fun n => ih (fun x hx => hp x (List.mem_cons_of_mem _ hx)) (n := n)
    have hq := hp q List.mem_cons_self
    rw [emitAll, hconv q hq n]
    cases hc : convert env opts 0 q with
    | none =>
      simp only [Option.map_none]
      rw [ih]
      constructor
      · rintro ⟨q', hq', h⟩; exact ⟨q', List.mem_cons_of_mem _ hq', h⟩
      · rintro ⟨q', hq', x, hx, h⟩
        rcases List.mem_cons.1 hq' with rfl | hq'
        · rw [hc] at hx; cases hx
        · exact ⟨q', hq', x, hx, h⟩
    | some y =>
      simp only [Option.map_some]
      have hcells : (objCells env opts q.object none n).1 = [] := by
        cases ho : q.object with
        | ref => rfl
        | node => rfl
        | obj o =>
          rw [ho] at hq
          cases o with
          | list => exact hq.elim
          | node => rfl
          | value => rfl
      rw [hcells, List.map_nil, List.nil_append, List.mem_cons, ih]
      constructor
      · rintro (rfl | ⟨q', hq', h⟩)
        · exact ⟨q, List.mem_cons_self, y, hc, rfl⟩
        · exact ⟨q', List.mem_cons_of_mem _ hq', h⟩
      · rintro ⟨q', hq', x, hx, h⟩
        rcases List.mem_cons.1 hq' with rfl | hq'
        · rw [hc] at hx; cases hx; exact .inl h
        · exact .inr ⟨q', hq', x, hx, h⟩

theorem same_rdf {a b : QObj} (h : QObjSame a b) (hp : PlainObject a) (dir : Option RdfDirection) :
    b.rdf env dir 0 = a.rdf env dir 0 ∧ PlainObject b := by
  cases a with
  | ref i => cases b <;> first | (have h : _ = _ := h; subst h; exact ⟨rfl, trivial⟩) | exact h.elim
  | node m =>
    cases b with
    | node m' =>
      obtain ⟨h1, h2, h3⟩ := h
      have := ((node_eq_iff h1 h2).1 h3).2.1
      simp [QObj.rdf, Node.rdfValue, this, PlainObject]
    | _ => exact h.elim
  | obj a =>
    cases b with
    | obj b =>
      obtain ⟨h1, h2, h3⟩ := h
      cases a with
      | list => exact hp.elim
      | node m =>
        cases b <;> simp only [Obj.eq, Bool.false_eq_true] at h3
        have := ((node_eq_iff h1 h2).1 h3).2.1
        simp [QObj.rdf, Obj.rdf, Node.rdfValue, this, PlainObject]
      | value i v =>
        cases b with
        | value j w =>
          simp only [Obj.eq, Bool.and_eq_true, decide_eq_true_eq] at h3
          obtain ⟨_, h3⟩ := h3
          cases v with
          | langString => exact hp.elim
          | literal l t =>
            cases w <;> simp only [Value.eq, Bool.false_eq_true, Bool.and_eq_true, decide_eq_true_eq] at h3
            rw [h3.1, h3.2]
            exact ⟨rfl, trivial⟩
          | json x =>
            cases w <;> simp only [Value.eq, Bool.false_eq_true, decide_eq_true_eq] at h3
            rw [h3]
            exact ⟨rfl, trivial⟩
        | list => simp only [Obj.eq, Bool.false_eq_true] at h3
        | node => simp only [Obj.eq, Bool.false_eq_true] at h3
    | _ => exact h.elim

theorem same_quads_of {d e : Doc} (hd : ∀ o ∈ d, o.WF) (he : ∀ o ∈ e, o.WF)
    (hc : ∀ x ∈ d, ∃ y ∈ e, x.eq y = true) (hp : ∀ q, Asserts d q → PlainObject q.object)
    (hpe : ∀ q, Asserts e q → PlainObject q.object) {r : RQuad}
    (h : r ∈ (emitAll env opts (statements d) 0).1) : r ∈ (emitAll env opts (statements e) 0).1 := by
  rw [plain_mem fun q hq => hpe q (mem_statements_iff.1 hq)]
  rw [plain_mem fun q hq => hp q (mem_statements_iff.1 hq)] at h
  obtain ⟨q, hq, x, hx, rfl⟩ := h
  obtain ⟨o, ho, hs⟩ := asserts_same hd he hc (mem_statements_iff.1 hq)
  refine ⟨_, mem_statements_iff.2 ho, x, ?_, rfl⟩
  rw [← hx]
  unfold convert
  dsimp only
  rw [(same_rdf hs (hp q (mem_statements_iff.1 hq)) opts.direction).1]

/-- C64. Equal documents without lists and without language strings have the same RDF dataset: each
quad yielded for one is yielded for the other. -/
theorem C64_quads {d e : Doc} (hd : d.WF) (he : e.WF) (h : d.eq e = true)
    (hp : ∀ q, Asserts d q → PlainObject q.object) {out out' : List RQuad}
    (ho : Output env opts d out) (ho' : Output env opts e out') : ∀ r, r ∈ out ↔ r ∈ out' := by
  have hd' := objsWF_iff.1 hd.2
  have he' := objsWF_iff.1 he.2
  have h1 := (doc_eq_iff hd he).1 h
  have h2 := (doc_eq_iff he hd).1 (C46_equivalence.2.1 d e hd he h)
  have hpe : ∀ q, Asserts e q → PlainObject q.object := by
    intro q hq
    obtain ⟨o, ho, hs⟩ := asserts_same he' hd' (fun x hx => h2.exists_right hx) hq
    have hpo := hp _ ho
    have hs' := sameObject_of hs
    cases hqo : q.object with
    | ref => trivial
    | node => trivial
    | obj a =>
      rw [hqo] at hs'
      cases o with
      | ref => exact hs'.elim
      | node => exact hs'.elim
      | obj b =>
        have hs' : a.eq b = true := hs'
        cases a with
        | node => trivial
        | list =>
          cases b <;> simp only [Obj.eq, Bool.false_eq_true] at hs'
          exact hpo.elim
        | value i v =>
          cases v with
          | json => trivial
          | literal => trivial
          | langString =>
            cases b with
            | list => simp only [Obj.eq, Bool.false_eq_true] at hs'
            | node => simp only [Obj.eq, Bool.false_eq_true] at hs'
            | value j w =>
              cases w with
              | langString => exact hpo.elim
              | json => simp [Obj.eq, Value.eq] at hs'
              | literal => simp [Obj.eq, Value.eq] at hs'
  intro r
  rw [output_eq ho, output_eq ho']
  exact ⟨same_quads_of hd' he' (fun x hx => h1.exists_right hx) hp hpe,
    same_quads_of he' hd' (fun x hx => h2.exists_right hx) hpe hp⟩

end

/-- Two documents that differ in the order of the values of a property. -/
def exOrder (b : Bool) : Doc :=
  [.node (.mk none (some (.iri ['a'])) (some [.iri ['T']]) none none
    [(.iri ['p'], if b then [.value none (.literal (.str ['x']) none), .value none (.literal (.num ['1']) none)]
      else [.value none (.literal (.num ['1']) none), .value none (.literal (.str ['x']) none)])] none)]

example : (exOrder true).eq (exOrder false) = true ∧ (exOrder true).WF ∧ (exOrder false).WF := by
  refine ⟨by decide +kernel, ?_, ?_⟩ <;>
    simp [exOrder, Doc.WF, gWF, objsWF, Obj.WF, Node.WF, incWF, rvWF, psWF]
example : ∀ q, Asserts (exOrder true) q → PlainObject q.object := by
  intro q hq
  rw [← mem_statements_iff] at hq
  simp only [exOrder, statements, objsQuads, objQuads, nodeQuads, psQuads, valsQuads, rvQuads,
    incQuads, grQuads, if_true, Option.getD_some, List.map_cons, List.map_nil, List.append_nil,
    List.nil_append, List.cons_append, List.mem_cons, List.not_mem_nil, or_false] at hq
  rcases hq with rfl | rfl | rfl <;> trivial

/-- C64, why language strings are left out: documents that differ in the letter case of a language tag
are equal, but their literals are not. -/
theorem C64_language_case :
    let d (l : Str) : Doc := [.node (.mk none (some (.iri ['a'])) none none none
      [(.iri ['p'], [.value none (.langString ⟨['x'], some l, none⟩)])] none)]
    (d ['e', 'n']).eq (d ['E', 'N']) = true ∧
      ∀ env : RdfEnv, (∀ l, env.wellFormed l = true) →
        (Value.langString ⟨['x'], some ['e', 'n'], none⟩).rdf env none 0 ≠
          (Value.langString ⟨['x'], some ['E', 'N'], none⟩).rdf env none 0 := by
  refine ⟨by decide +kernel, fun env h => ?_⟩
  simp [Value.rdf, langRdf, langLit, h]

end JsonLd.Props
