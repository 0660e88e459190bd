import Verif.Proofs.FlattenRdf
import Verif.Proofs.ToRdf
import Verif.Proofs.FlattenRename
/-!
# C93: flattening and RDF
-/

namespace JsonLd.Props
open JsonLd Spec

section
variable {gen : Nat → Id} {d : Doc}

theorem flat_members (h : Relabelable gen d) {n : Nat} {f : List Node} (hf : Flattened gen d n f) :
    (∀ p ∈ f, ∀ l, p.graph = some l → ∃ ns : List Node, l = ns.map Obj.node) ∧
    ∀ g p, FlatNode f g p → p.included = none ∧ p.rev = none ∧ (g ≠ none → p.graph = none) ∧
      ∀ k os, (k, os) ∈ p.props → ∀ o ∈ os, FlatValue o := by
  obtain ⟨_, h2, h3⟩ := C16_flat h hf
  refine ⟨fun p hp l hl => ?_, fun g p hp => ?_⟩
  · obtain ⟨ns, h, _⟩ := h2 p hp l hl
    exact ⟨ns, h⟩
  · obtain ⟨_, a, b, c, _, e⟩ := h3 g p hp
    exact ⟨a, b, c, e⟩

/-- C93, statements. All that a flattened document states, types included, is stated by the document
(the document with blank nodes relabelled, see C14), in the same graph, about the same subject and
property, with the same object in which nodes are replaced by references. Conversely, all that the
document states about properties is stated by the flattened document, with an equal object. -/
theorem C93_statements (h : Relabelable gen d) {n : Nat} {f : List Node} (hf : Flattened gen d n f) :
    (∀ q, Asserts (f.map Obj.node) q →
      ∃ o, Asserts (d.relabel gen n).1 ⟨q.graph, q.subject, q.property, o⟩ ∧ q.object = asReference o) ∧
    (∀ q, Asserts (d.relabel gen n).1 q → q.property ≠ .type →
      ∃ o, Asserts (f.map Obj.node) ⟨q.graph, q.subject, q.property, o⟩ ∧
        SameObject (asReference q.object) o) := by
  obtain ⟨hm, hp⟩ := flat_members h hf
  obtain ⟨hs1, hs2⟩ := C17_statements h hf
  have hn := allNamed h n
  refine ⟨?_, ?_⟩
  · rintro ⟨g, s, k, ob⟩ hq
    obtain ⟨p, hpf, hid, ⟨ts, t, h1, h2, h3, h4⟩ | ⟨k', os, o, h1, h2, h3, h4⟩⟩ := flat_asserts hm hp hq
    · obtain ⟨m, ho, hi, ht⟩ := (C17_types_partial h hf).1 g p s ts hpf hid h1
      simp only at h3 h4
      subst h3 h4
      exact ⟨.ref t, .type (occurs_reached hn ho) hi ht h2, rfl⟩
    · simp only at h3 h4
      subst h3 h4
      obtain ⟨x, hx, e⟩ := states_asserts hn (hs1 g p s k' os o hpf hid h1 h2)
      exact ⟨x, hx, e.symm⟩
  · rintro ⟨g, s, k, ob⟩ hq hk
    cases k with
    | type => exact absurd rfl hk
    | ref k =>
      obtain ⟨o, hst, e⟩ := asserts_states hq
      obtain ⟨p, os, o', hpf, hid, h1, h2, h3⟩ := hs2 g s k o hst
      refine ⟨.obj o', .property (flatNode_reached hpf) hid h1 h2, ?_⟩
      rw [e]
      have hwo : o.WF := by
        cases hst with
        | forward => exact reference_WF _
        | backward => simp [bareNode, Obj.WF, Node.WF, gWF, incWF, psWF, rvWF]
      have hwo' : o'.WF := by
        cases hs1 g p s k os o' hpf hid h1 h2 with
        | forward => exact reference_WF _
        | backward => simp [bareNode, Obj.WF, Node.WF, gWF, incWF, psWF, rvWF]
      have := (Obj.eqOk hwo').2.1 o hwo
      show o.eq o' = true
      rw [← this]
      exact h3

/-- C93, types. If the types given to a node agree (`TypesAgree`), types are kept as well. -/
theorem C93_types (h : Relabelable gen d) {n : Nat} {f : List Node} (hf : Flattened gen d n f)
    (ht : TypesAgree (d.relabel gen n).1) {q : Quad} (hq : Asserts (d.relabel gen n).1 q)
    (hp : q.property = .type) : Asserts (f.map Obj.node) q := by
  cases hq with
  | type h1 h2 h3 h4 =>
    obtain ⟨ha, hb⟩ := ht _ _ _ _ (reached_occurs h1) h2 h3
    obtain ⟨p, hpf, hid, hpt⟩ := (C17_types_partial h hf).2 _ _ _ _ (reached_occurs h1) h2 h3 ha hb
    exact .type (flatNode_reached hpf) hid hpt h4
  | property => cases hp
  | reverse => cases hp

variable {env : RdfEnv} {opts : RdfOpts}

theorem flat_freshFor (h : Relabelable gen d) {n : Nat} {f : List Node} (hf : Flattened gen d n f)
    (he : FreshFor env (d.relabel gen n).1) : FreshFor env (f.map Obj.node) := by
  refine ⟨he.injective, fun q hq k => ?_⟩
  obtain ⟨o, ho, _⟩ := (C93_statements h hf).1 q hq
  exact he.fresh _ ho k

/-- C93, RDF. Every statement about a property which RDF can express has its quad in the RDF of the
flattened document, in the same graph, and its object stands for an object equal to the object of the
statement; and every quad of the RDF of the flattened document comes from a statement of the
document, or is part of the collection of a list it states.
Partial: types given in several places, or in a named graph where nothing else is said of the node,
are lost, see `C93_type_lost`. -/
theorem C93_rdf_partial (h : Relabelable gen d) {n : Nat} {f : List Node} (hf : Flattened gen d n f)
    (hcase : ∀ l l', langEq l l' = true → env.wellFormed l = env.wellFormed l')
    (he : FreshFor env (d.relabel gen n).1) {out : List RQuad} (hout : Output env opts (f.map Obj.node) out) :
    (∀ q, Asserts (d.relabel gen n).1 q → q.property ≠ .type ∨ TypesAgree (d.relabel gen n).1 →
      Stateable opts.generalized q → RepresentableObj env q.object →
      ∃ o t, SameObject (asReference q.object) o ∧
        (⟨q.subject, property q.property, t, q.graph⟩ : RQuad) ∈ out ∧
        DenotesObj env opts.direction (fun s p t => (⟨s, p, t, q.graph⟩ : RQuad) ∈ out) o t) ∧
    (∀ r ∈ out, ∃ q, Asserts (d.relabel gen n).1 q ∧ Stateable opts.generalized q ∧ r.graph = q.graph ∧
      ((r.subject = q.subject ∧ r.property = property q.property) ∨
        ((∃ k, r.subject = env.gen k) ∧ (r.property = rdfFirst ∨ r.property = rdfRest) ∧
          ∃ i o l, q.object = .obj (.list i (o :: l))))) := by
  have hff := flat_freshFor h hf he
  obtain ⟨hs1, hs2⟩ := C93_statements h hf
  refine ⟨?_, ?_⟩
  · intro q hq hty hst hr
    have key : ∃ o, Asserts (f.map Obj.node) ⟨q.graph, q.subject, q.property, o⟩ ∧
        SameObject (asReference q.object) o ∧ RepresentableObj env o := by
      by_cases hpt : q.property = .type
      · rcases hty with hty | hty
        · exact absurd hpt hty
        · have := C93_types h hf hty hq hpt
          cases hq with
          | type => exact ⟨_, this, rfl, hr⟩
          | property => cases hpt
          | reverse => cases hpt
      · obtain ⟨o, ho, hso⟩ := hs2 q hq hpt
        refine ⟨o, ho, hso, ?_⟩
        have hr' := asReference_representable hr
        obtain ⟨x, _, hx⟩ := hs1 _ ho
        simp only at hx
        cases hqo : q.object with
        | ref i =>
          rw [hqo] at hso hr'
          cases o with
          | ref j => have : i = j := hso; subst this; exact hr'
          | _ => exact hso.elim
        | node m =>
          rw [hqo] at hso hr'
          cases o with
          | obj b =>
            refine (representable_eq env hcase).1 _ b ?_ ?_ hso hr'
            · simp [bareNode, Obj.WF, Node.WF, gWF, incWF, psWF, rvWF]
            · cases x with
              | ref => cases hx
              | node => cases hx; simp [bareNode, Obj.WF, Node.WF, gWF, incWF, psWF, rvWF]
              | obj => cases hx; exact reference_WF _
          | _ => exact hso.elim
        | obj a =>
          rw [hqo] at hso hr'
          cases o with
          | obj b =>
            refine (representable_eq env hcase).1 _ b (reference_WF _) ?_ hso hr'
            cases x with
            | ref => cases hx
            | node => cases hx; simp [bareNode, Obj.WF, Node.WF, gWF, incWF, psWF, rvWF]
            | obj => cases hx; exact reference_WF _
          | _ => exact hso.elim
    obtain ⟨o, ho, hso, hro⟩ := key
    obtain ⟨t, ht, hd⟩ := C21_complete hff hout ho hst hro
    exact ⟨o, t, hso, ht, hd⟩
  · intro r hr
    obtain ⟨q, hq, hst, hg, hrest⟩ := C21_sound hout r hr
    obtain ⟨o, ho, e⟩ := hs1 q hq
    refine ⟨_, ho, hst, hg, ?_⟩
    rcases hrest with ⟨h1, h2, _⟩ | ⟨h1, h2, i, x, l, h3⟩
    · exact .inl ⟨h1, h2⟩
    · refine .inr ⟨h1, h2, ?_⟩
      rw [h3] at e
      cases o with
      | ref => cases e
      | node m => cases e
      | obj a =>
        cases a with
        | value => cases e
        | node => cases e
        | list j l' =>
          cases l' with
          | nil => cases e
          | cons y l' => exact ⟨j, y, l', rfl⟩

theorem qobjSame_of {a b : QObj} (h : SameObject a b) (ha : ∀ o, a = .obj o → o.WF)
    (hb : ∀ o, b = .obj o → o.WF) (hna : ∀ m, a ≠ .node m) : QObjSame a b := by
  cases a with
  | node m => exact absurd rfl (hna m)
  | ref i => cases b <;> exact h
  | obj o => cases b <;> first | exact ⟨ha _ rfl, hb _ rfl, h⟩ | exact h.elim

theorem asReference_WF (x : QObj) : (∀ o, asReference x = .obj o → o.WF) ∧ ∀ m, asReference x ≠ .node m := by
  cases x with
  | ref => exact ⟨nofun, nofun⟩
  | node m =>
    refine ⟨?_, nofun⟩
    intro o e; cases e
    simp [bareNode, Obj.WF, Node.WF, gWF, incWF, psWF, rvWF]
  | obj a =>
    refine ⟨?_, nofun⟩
    intro o e; cases e
    exact reference_WF _

/-- C93, the same dataset. For a document that states neither lists nor language strings, the quads of
the flattened document are quads of the document, and all of those but types; and all of them if the
types given to each node agree. -/
theorem C93_quads (h : Relabelable gen d) {n : Nat} {f : List Node} (hf : Flattened gen d n f)
    (hp : ∀ q, Asserts (d.relabel gen n).1 q → PlainObject q.object) {out out' : List RQuad}
    (ho : Output env opts (d.relabel gen n).1 out) (ho' : Output env opts (f.map Obj.node) out') :
    (∀ r ∈ out', r ∈ out) ∧ (∀ r ∈ out, r.property ≠ rdfType → r ∈ out') ∧
      (TypesAgree (d.relabel gen n).1 → ∀ r, r ∈ out ↔ r ∈ out') := by
  obtain ⟨hs1, hs2⟩ := C93_statements h hf
  have hpf : ∀ q, Asserts (f.map Obj.node) q → PlainObject q.object := by
    intro q hq
    obtain ⟨o, hoq, e⟩ := hs1 q hq
    rw [e]
    exact (reference_rdf (env := env) (dir := none) (hp _ hoq)).2
  rw [output_eq ho, output_eq ho']
  have back : ∀ r ∈ (emitAll env opts (statements (f.map Obj.node)) 0).1,
      r ∈ (emitAll env opts (statements (d.relabel gen n).1) 0).1 := by
    intro r hr
    rw [plain_mem fun q hq => hpf q (mem_statements_iff.1 hq)] at hr
    rw [plain_mem fun q hq => hp q (mem_statements_iff.1 hq)]
    obtain ⟨q, hq, x, hx, rfl⟩ := hr
    obtain ⟨o, hoq, e⟩ := hs1 q (mem_statements_iff.1 hq)
    refine ⟨_, mem_statements_iff.2 hoq, x, ?_, rfl⟩
    rw [← hx]
    unfold convert
    dsimp only
    rw [e, (reference_rdf (hp _ hoq)).1]
  have forth : ∀ r ∈ (emitAll env opts (statements (d.relabel gen n).1) 0).1,
      r.property ≠ rdfType ∨ TypesAgree (d.relabel gen n).1 →
      r ∈ (emitAll env opts (statements (f.map Obj.node)) 0).1 := by
    intro r hr hty
    rw [plain_mem fun q hq => hpf q (mem_statements_iff.1 hq)]
    rw [plain_mem fun q hq => hp q (mem_statements_iff.1 hq)] at hr
    obtain ⟨q, hq, x, hx, rfl⟩ := hr
    have hq' := mem_statements_iff.1 hq
    have hxp : x.1.property = property q.property := (convert_some hx).2.2.2.2.2.2.1
    by_cases hpt : q.property = .type
    · rcases hty with hty | hty
      · rw [hxp, hpt] at hty
        exact absurd rfl hty
      · exact ⟨q, mem_statements_iff.2 (C93_types h hf hty hq' hpt), x, hx, rfl⟩
    · obtain ⟨o, hoq, hso⟩ := hs2 q hq' hpt
      obtain ⟨z, _, hz⟩ := hs1 _ hoq
      simp only at hz
      have hr := reference_rdf (env := env) (dir := opts.direction) (hp q hq')
      have hsame := qobjSame_of hso (asReference_WF _).1 (hz ▸ (asReference_WF z).1) (asReference_WF _).2
      refine ⟨_, mem_statements_iff.2 hoq, x, ?_, rfl⟩
      rw [← hx]
      unfold convert
      dsimp only
      rw [(same_rdf hsame hr.2 opts.direction).1, hr.1]
  exact ⟨back, fun r hr hne => forth r hr (.inl hne),
    fun hty r => ⟨fun hr => forth r hr (.inr hty), back r⟩⟩

end

/-- A typed node with an unnamed node as value, which has a reverse property. -/
def exNestedDoc : Doc :=
  [.node (.mk none (some (.iri "a".toList)) (some [.iri "T".toList]) none none
    [(.iri "p".toList, [.node (.mk none none none none none [(.iri "q".toList, [exStr "x"])]
      (some [(.iri "r".toList, [.mk none (some (.blank "z".toList)) none none none [] none])]))])] none)]

/-- Flattening names the nodes and moves them to the top. -/
example : Flattened exGen exNestedDoc 0
    [.mk none (some (.iri "a".toList)) (some [.iri "T".toList]) none none
      [(.iri "p".toList, [bareNode (some (.blank "b".toList))])] none,
     .mk none (some (.blank "b".toList)) none none none [(.iri "q".toList, [exStr "x"])] none,
     .mk none (some (.blank "bb".toList)) none none none
      [(.iri "r".toList, [bareNode (some (.blank "b".toList))])] none] :=
  .list (o := Orders.insertion) (ordered := true) (by decide +kernel)

/-- The nodes of the example, once named. -/
def exNestedZ : Node := .mk none (some (.blank "bb".toList)) none none none [] none
/-- See `exNestedZ`. -/
def exNestedB : Node :=
  .mk none (some (.blank "b".toList)) none none none [(.iri "q".toList, [exStr "x"])]
    (some [(.iri "r".toList, [exNestedZ])])
/-- See `exNestedZ`. -/
def exNestedA : Node :=
  .mk none (some (.iri "a".toList)) (some [.iri "T".toList]) none none
    [(.iri "p".toList, [.node exNestedB])] none

theorem exNested_named : (exNestedDoc.relabel exGen 0).1 = [.node exNestedA] := by decide +kernel

theorem exNested_occurs {g : Option Id} {x : Item} (h : Occurs [.node exNestedA] g x) : g = none ∧
    (x = .obj (.node exNestedA) ∨ x = .node exNestedA ∨ x = .obj (.node exNestedB) ∨
      x = .node exNestedB ∨ x = .obj (exStr "x") ∨ x = .node exNestedZ) := by
  induction h with
  | top ho => simp at ho; simp [ho]
  | item _ _ ih => simp [exStr] at ih
  | self _ ih => simp [exStr] at ih; rcases ih with ⟨rfl, rfl | rfl⟩ <;> simp
  | graph _ _ hl _ ih => 
    simp at ih; rcases ih with ⟨_, rfl | rfl | rfl⟩ <;> simp [exNestedA, exNestedB, exNestedZ, Node.graph] at hl
  | included _ hl _ ih =>
    simp at ih; rcases ih with ⟨_, rfl | rfl | rfl⟩ <;> simp [exNestedA, exNestedB, exNestedZ, Node.included] at hl
  | property _ hl hm ih =>
    simp at ih
    rcases ih with ⟨rfl, rfl | rfl | rfl⟩ <;> simp [exNestedA, exNestedB, exNestedZ, Node.props] at hl
    · obtain ⟨_, rfl⟩ := hl
      simp at hm; subst hm
      simp [exNestedB, exNestedZ]
    · obtain ⟨_, rfl⟩ := hl
      simp at hm; subst hm
      simp
  | reverse _ hl hr hm ih =>
    simp at ih
    rcases ih with ⟨rfl, rfl | rfl | rfl⟩ <;> simp [exNestedA, exNestedB, exNestedZ, Node.rev] at hl
    subst hl
    simp at hr
    obtain ⟨_, rfl⟩ := hr
    simp at hm; subst hm
    simp [exNestedZ]

/-- The example meets the hypotheses of `C93_quads`. -/
example : Relabelable exGen exNestedDoc ∧ TypesAgree (exNestedDoc.relabel exGen 0).1 ∧
    ∀ q, Asserts (exNestedDoc.relabel exGen 0).1 q → PlainObject q.object := by
  refine ⟨⟨exGen_injective, ?_, ?_⟩, ?_, ?_⟩
  · refine ⟨by decide +kernel, ?_⟩
    simp [exNestedDoc, gWF, objsWF, Obj.WF, Node.WF, incWF, rvWF, psWF, rpsWF, nodesWF, exStr]
  · intro h hh i hi hb k
    exact fun e => hb _ e.symm
  · rw [exNested_named]
    intro g q s ts ho hs ht
    obtain ⟨hg, hx⟩ := exNested_occurs ho
    simp at hx
    rcases hx with rfl | rfl | rfl
    · refine ⟨?_, .inl hg⟩
      intro q' ts' ho' hs' ht'
      obtain ⟨_, hx⟩ := exNested_occurs ho'
      simp at hx
      rcases hx with rfl | rfl | rfl
      · exact Option.some.inj (ht'.symm.trans ht)
      · cases ht'
      · cases ht'
    · cases ht
    · cases ht
  · rw [exNested_named]
    intro q hq
    rw [← mem_statements_iff] at hq
    simp only [exNestedA, exNestedB, exNestedZ, statements, objsQuads, objQuads, nodeQuads, psQuads, valsQuads,
      rvQuads, incQuads, grQuads, rpsQuads, subsQuads, exStr, Node.id, Option.map_some, Option.toList_some,
      Option.getD_some, Option.getD_none, List.map_cons, List.map_nil, List.append_nil, List.nil_append,
      List.cons_append, List.mem_cons, List.not_mem_nil, or_false] at hq
    rcases hq with rfl | rfl | rfl | rfl <;> trivial

/-- C93, what does not hold of the code: the RDF of the document has a quad for each of the two
descriptions of the node, and the RDF of the flattened document has one for the second only. -/
theorem C93_type_lost (env : RdfEnv) (opts : RdfOpts) : ∃ f, Relabelable exGen exRetyped ∧
    Flattened exGen exRetyped 0 f ∧ (exRetyped.relabel exGen 0).1 = exRetyped ∧
    Output env opts exRetyped [⟨.iri "a".toList, rdfType, .id (.iri "T".toList), none⟩,
      ⟨.iri "a".toList, rdfType, .id (.iri "U".toList), none⟩] ∧
    Output env opts (f.map Obj.node) [⟨.iri "a".toList, rdfType, .id (.iri "U".toList), none⟩] := by
  refine ⟨[.mk none (some (.iri "a".toList)) (some [.iri "U".toList]) none none [] none],
    ⟨exGen_injective, ?_, fun h hh i hi hb k e => hb _ e.symm⟩,
    .list (o := Orders.insertion) (ordered := true) (by decide +kernel), by decide +kernel, ?_, ?_⟩
  · refine ⟨by decide +kernel, ?_⟩
    simp [exRetyped, gWF, objsWF, Obj.WF, Node.WF, incWF, rvWF, psWF]
  · have := collects_doc (env := env) (opts := opts) exRetyped
    have e : (emitAll env opts (statements exRetyped) 0).1 = [⟨.iri "a".toList, rdfType, .id (.iri "T".toList), none⟩,
        ⟨.iri "a".toList, rdfType, .id (.iri "U".toList), none⟩] := by
      cases opts with | mk dir gz => cases gz <;> with_unfolding_all rfl
    rw [e] at this
    exact .expanded this
  · have := collects_flat (env := env) (opts := opts)
      [.mk none (some (.iri "a".toList)) (some [.iri "U".toList]) none none [] none]
    have e : (emitAll env opts (statements ([Node.mk none (some (.iri "a".toList)) (some [.iri "U".toList]) none none
        [] none].map Obj.node)) 0).1 = [⟨.iri "a".toList, rdfType, .id (.iri "U".toList), none⟩] := by
      cases opts with | mk dir gz => cases gz <;> with_unfolding_all rfl
    rw [e] at this
    exact .flattened this

end JsonLd.Props
