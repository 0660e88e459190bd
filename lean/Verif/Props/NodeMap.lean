import Verif.Props.FlattenRdf
import Verif.Proofs.NodeMapQuads
/-!
# C101: what node maps state
-/

namespace JsonLd.Props
open JsonLd Spec

/-- `TypesOnce d g s`: in the graph `g`, the document never gives two different lists of types to
the node `s`. -/
def TypesOnce (d : Doc) (g : Option Id) (s : Id) : Prop :=
  ∀ n n' ts ts', Occurs d g (.node n) → Occurs d g (.node n') → n.id = some s → n'.id = some s →
    n.types = some ts → n'.types = some ts' → ts = ts'

section
variable {gen : Nat → Id} {d : Doc}

/-- C101, statements of the map. Whatever the order in which the hash maps are iterated, the
statements of a node map are the types and the properties of its nodes, each in the graph of the
node, and nothing else. -/
theorem C101_quads (h : Relabelable gen d) {n : Nat} {m : NodeMap} (hm : d.nodeMap gen n = .ok m)
    (o : Orders) : (∃ qs, Collects QuadLoop (m.quadsInit o) qs []) ∧
      ∀ qs s, Collects QuadLoop (m.quadsInit o) qs s → ∀ q, q ∈ qs ↔ MapStates m q := by
  have hc := collects_of_steps_nil (map_steps o m)
  refine ⟨⟨_, hc⟩, fun qs s h' q => ?_⟩
  rw [(h'.det quadLoop_det hc).1]
  exact mem_mapQuads_flat (nodeMap_nodes h hm).2

/-- C101, statements of the document. All that the map states is stated by the document (with blank
nodes relabelled), in the same graph, about the same subject and property, with the same object in
which nodes are replaced by references. All that the document states about properties is stated by
the map, with an equal object. -/
theorem C101_statements (h : Relabelable gen d) {n : Nat} {m : NodeMap} (hm : d.nodeMap gen n = .ok m) :
    (∀ q, MapStates m q →
      ∃ o, Asserts (d.relabel gen n).1 ⟨q.graph, q.subject, q.property, o⟩ ∧ q.object = asReference o) ∧
    (∀ q, Asserts (d.relabel gen n).1 q → q.property ≠ .type →
      ∃ o, MapStates m ⟨q.graph, q.subject, q.property, o⟩ ∧ SameObject (asReference q.object) o) := by
  obtain ⟨hi, _⟩ := nodeMap_nodes h hm
  have hn := allNamed h n
  refine ⟨?_, ?_⟩
  · intro q hq
    cases hq with
    | type hp hs ht htm =>
      obtain ⟨x, hx⟩ := (inMap_iff hi.keys).1 hp
      have ni := hi.nodes _ _ _ hx
      rw [ni.hid] at hs
      cases hs
      obtain ⟨p, h1, h2, h3⟩ := doc_evs_sound hn _ (ni.types _ ht)
      exact ⟨.ref _, .type (occurs_reached hn h1) h2 h3 htm, rfl⟩
    | property hp hs hk ho =>
      obtain ⟨x, hx⟩ := (inMap_iff hi.keys).1 hp
      have ni := hi.nodes _ _ _ hx
      rw [ni.hid] at hs
      cases hs
      obtain ⟨vs, hv, hov⟩ := (ni.sound _ _ ((lookupProp_iff ni.keys).2 hk)).2 _ ho
      obtain ⟨y, hy, e⟩ := states_asserts hn (props_states hn hv hov).1
      exact ⟨y, hy, e.symm⟩
  · rintro ⟨g, s, k, ob⟩ hq hk
    cases k with
    | type => exact absurd rfl hk
    | ref k =>
      obtain ⟨o, hst, e⟩ := asserts_states hq
      have hev : ∃ vs, Ev.props g s k vs ∈ osEvs none (d.relabel gen n).1 ∧ o ∈ vs := by
        cases hst with
        | forward h1 h2 h3 h4 =>
          exact ⟨_, ev_props h1 h2 h3, by rw [references_eq]; exact List.mem_map.2 ⟨_, h4, rfl⟩⟩
        | backward h1 h2 h3 h4 h5 =>
          exact ⟨_, ev_reverse h1 (hn _ _ h1) h2 h3 h4 h5, List.mem_singleton.2 rfl⟩
      obtain ⟨vs, hv, hov⟩ := hev
      obtain ⟨i, hi'⟩ := hi.evOk _ hv
      obtain ⟨p, hp⟩ := Option.isSome_iff_exists.1 (hi.exists_node _ _ _ hi')
      have ni := hi.nodes _ _ _ hp
      obtain ⟨os, ho, hc⟩ := ni.complete k vs hv
      obtain ⟨o', ho', he⟩ := hc o hov
      refine ⟨.obj o', .property ((inMap_iff hi.keys).2 ⟨_, hp⟩) ni.hid (lookupProp_mem ho) ho', ?_⟩
      simp only
      rw [e]
      have wf : ∀ {z : Obj}, States (d.relabel gen n).1 g s k z → z.WF := by
        intro z hz
        cases hz with
        | forward => exact reference_WF _
        | backward => simp [bareNode, Obj.WF, Node.WF, gWF, incWF, psWF, rvWF]
      obtain ⟨vs', hv', hov'⟩ := (ni.sound _ _ ho).2 _ ho'
      have hw' := wf (props_states hn hv' hov').1
      have : o'.eq o = true := by
        rcases he with rfl | he
        · exact (Obj.eqOk hw').1
        · exact equiv_eq he
      show o.eq o' = true
      rw [← (Obj.eqOk hw').2.1 o (wf hst)]
      exact this

/-- C101, types. The types of a node are kept if the document gives it the same ones wherever it
gives some in this graph; and of those it gives, one list is kept in any case. Flattened documents
keep less: see C93. -/
theorem C101_types (h : Relabelable gen d) {n : Nat} {m : NodeMap} (hm : d.nodeMap gen n = .ok m)
    {g : Option Id} {s : Id} :
    (TypesOnce (d.relabel gen n).1 g s → ∀ t, Asserts (d.relabel gen n).1 ⟨g, s, .type, .ref t⟩ →
      MapStates m ⟨g, s, .type, .ref t⟩) ∧
    (∀ p ts, Occurs (d.relabel gen n).1 g (.node p) → p.id = some s → p.types = some ts →
      ∃ p' ts', Occurs (d.relabel gen n).1 g (.node p') ∧ p'.id = some s ∧ p'.types = some ts' ∧
        ∀ t, MapStates m ⟨g, s, .type, .ref t⟩ ↔ t ∈ ts') := by
  obtain ⟨hi, _⟩ := nodeMap_nodes h hm
  have hn := allNamed h n
  have key : ∀ p ts, Occurs (d.relabel gen n).1 g (.node p) → p.id = some s → p.types = some ts →
      ∃ p' ts', Occurs (d.relabel gen n).1 g (.node p') ∧ p'.id = some s ∧ p'.types = some ts' ∧
        ∀ t, MapStates m ⟨g, s, .type, .ref t⟩ ↔ t ∈ ts' := by
    intro p ts ho hs ht
    have hev := ev_types ho hs ht
    obtain ⟨p0, hp0⟩ := Option.isSome_iff_exists.1 (hi.exists_node _ _ _ (ev_declare ho hs))
    have ni := hi.nodes _ _ _ hp0
    obtain ⟨ts', ht'⟩ := Option.isSome_iff_exists.1 (ni.types_some _ hev)
    obtain ⟨p', h1, h2, h3⟩ := doc_evs_sound hn _ (ni.types _ ht')
    refine ⟨p', ts', h1, h2, h3, fun t => ⟨fun hst => ?_, fun ht => ?_⟩⟩
    · cases hst with
      | type hp hs' ht2 htm =>
        obtain ⟨x, hx⟩ := (inMap_iff hi.keys).1 hp
        have hx' := (hi.nodes _ _ _ hx).hid
        rw [hx'] at hs'
        cases hs'
        rw [hp0] at hx
        cases hx
        rw [ht'] at ht2
        cases ht2
        exact htm
    · exact .type ((inMap_iff hi.keys).2 ⟨_, hp0⟩) ni.hid ht' ht
  refine ⟨fun hone t ha => ?_, key⟩
  cases ha with
  | type h1 h2 h3 h4 =>
    obtain ⟨p', ts', g1, g2, g3, g4⟩ := key _ _ (reached_occurs h1) h2 h3
    rw [g4, ← hone _ _ _ _ (reached_occurs h1) g1 h2 g2 h3 g3]
    exact h4

variable {env : RdfEnv} {opts : RdfOpts}

/-- Two lists of statements which say the same, nodes being replaced by references, have the same
quads. -/
theorem same_dataset {qs qs' : List Quad} (hp : ∀ q ∈ qs, PlainObject q.object) {T : Quad → Prop}
    (hs1 : ∀ q ∈ qs', ∃ o, (⟨q.graph, q.subject, q.property, o⟩ : Quad) ∈ qs ∧ q.object = asReference o)
    (hs2 : ∀ q ∈ qs, T q → ∃ o, (⟨q.graph, q.subject, q.property, o⟩ : Quad) ∈ qs' ∧
      SameObject (asReference q.object) o) :
    (∀ r ∈ (emitAll env opts qs' 0).1, r ∈ (emitAll env opts qs 0).1) ∧
    ∀ r ∈ (emitAll env opts qs 0).1, (∀ q ∈ qs, r.graph = q.graph → r.subject = q.subject →
      r.property = property q.property → T q) → r ∈ (emitAll env opts qs' 0).1 := by
  have hpf : ∀ q ∈ qs', PlainObject q.object := by
    intro q hq
    obtain ⟨o, hoq, e⟩ := hs1 q hq
    rw [e]
    exact (reference_rdf (env := env) (dir := none) (hp _ hoq)).2
  refine ⟨?_, ?_⟩
  · intro r hr
    rw [plain_mem hpf] at hr
    rw [plain_mem hp]
    obtain ⟨q, hq, x, hx, rfl⟩ := hr
    obtain ⟨o, hoq, e⟩ := hs1 q hq
    refine ⟨_, hoq, x, ?_, rfl⟩
    rw [← hx]
    unfold convert
    dsimp only
    rw [e, (reference_rdf (hp _ hoq)).1]
  · intro r hr hT
    rw [plain_mem hpf]
    rw [plain_mem hp] at hr
    obtain ⟨q, hq, x, hx, rfl⟩ := hr
    obtain ⟨_, _, _, _, _, hsu, hxp, hg⟩ := convert_some hx
    obtain ⟨o, hoq, hso⟩ := hs2 q hq (hT q hq hg hsu hxp)
    obtain ⟨z, _, hz⟩ := hs1 _ hoq
    simp only at hz
    have hr := reference_rdf (env := env) (dir := opts.direction) (hp q hq)
    have hsame := qobjSame_of hso (asReference_WF _).1 (hz ▸ (asReference_WF z).1) (asReference_WF _).2
    refine ⟨_, hoq, x, ?_, rfl⟩
    rw [← hx]
    unfold convert
    dsimp only
    rw [(same_rdf hsame hr.2 opts.direction).1, hr.1]

/-- C101, RDF. For a document that states neither lists nor language strings, the quads of the node
map are quads of the document, and all of those but the types of nodes which the document types in
several ways in one graph. -/
theorem C101_dataset (h : Relabelable gen d) {n : Nat} {m : NodeMap} (hm : d.nodeMap gen n = .ok m)
    (hp : ∀ q, Asserts (d.relabel gen n).1 q → PlainObject q.object) {out out' : List RQuad}
    (ho : Output env opts (d.relabel gen n).1 out) {o : Orders} {s : RdfState}
    (ho' : Collects (RdfLoop env opts) (m.rdfInit o) out' s) :
    (∀ r ∈ out', r ∈ out) ∧
    ∀ r ∈ out, (r.property = rdfType → TypesOnce (d.relabel gen n).1 r.graph r.subject) → r ∈ out' := by
  have hc := collects_emitAll (env := env) (opts := opts) (collects_of_steps_nil (map_steps o m)) 0
  rw [output_eq ho, (ho'.det (rdfLoop_det env opts) hc).1]
  have hmem : ∀ q, q ∈ mapQuads o m ↔ MapStates m q := fun q => mem_mapQuads_flat (nodeMap_nodes h hm).2
  obtain ⟨hs1, hs2⟩ := C101_statements h hm
  obtain ⟨h1, h2⟩ := same_dataset (env := env) (opts := opts) (qs := statements (d.relabel gen n).1)
    (qs' := mapQuads o m) (T := fun q => q.property = .type → TypesOnce (d.relabel gen n).1 q.graph q.subject)
    (fun q hq => hp q (mem_statements_iff.1 hq))
    (fun q hq => by
      obtain ⟨x, hx, e⟩ := hs1 q ((hmem q).1 hq)
      exact ⟨x, mem_statements_iff.2 hx, e⟩)
    (fun q hq hT => by
      have hq' := mem_statements_iff.1 hq
      by_cases hpt : q.property = .type
      · cases hq' with
        | type a b c e =>
          exact ⟨_, (hmem _).2 ((C101_types h hm).1 (hT rfl) _ (.type a b c e)), rfl⟩
        | property => cases hpt
        | reverse => cases hpt
      · obtain ⟨x, hx, e⟩ := hs2 q hq' hpt
        exact ⟨x, (hmem _).2 hx, e⟩)
  refine ⟨h1, fun r hr hty => h2 r hr fun q _ hg hsu hpr hqt => ?_⟩
  rw [← hg, ← hsu]
  exact hty (by rw [hpr, hqt]; rfl)

/-- Two documents which say the same, nodes being replaced by references in the second one: every
statement of the first that RDF can express has its quad in the RDF of the second, and every quad
comes from a statement of the first. -/
theorem same_rdf_docs {d1 d2 : Doc} {T : Quad → Prop}
    (hs1 : ∀ q, Asserts d2 q → ∃ o, Asserts d1 ⟨q.graph, q.subject, q.property, o⟩ ∧ q.object = asReference o)
    (hs2 : ∀ q, Asserts d1 q → T q → ∃ o, Asserts d2 ⟨q.graph, q.subject, q.property, o⟩ ∧
      SameObject (asReference q.object) o)
    (hcase : ∀ l l', langEq l l' = true → env.wellFormed l = env.wellFormed l')
    (he : FreshFor env d1) {out : List RQuad} (hout : Output env opts d2 out) :
    (∀ q, Asserts d1 q → T q →
      Stateable opts.generalized q → RepresentableObj env q.object →
      ∃ o t, SameObject (asReference q.object) o ∧
        (⟨q.subject, property q.property, t, q.graph⟩ : RQuad) ∈ out ∧
        DenotesObj env opts.direction (fun s p t => (⟨s, p, t, q.graph⟩ : RQuad) ∈ out) o t) ∧
    (∀ r ∈ out, ∃ q, Asserts d1 q ∧ Stateable opts.generalized q ∧ r.graph = q.graph ∧
      ((r.subject = q.subject ∧ r.property = property q.property) ∨
        ((∃ k, r.subject = env.gen k) ∧ (r.property = rdfFirst ∨ r.property = rdfRest) ∧
          ∃ i o l, q.object = .obj (.list i (o :: l))))) := by
  have hff : FreshFor env d2 := by
    refine ⟨he.injective, fun q hq k => ?_⟩
    obtain ⟨o, ho, _⟩ := hs1 q hq
    exact he.fresh _ ho k
  refine ⟨?_, ?_⟩
  · intro q hq hT hst hr
    have key : ∃ o, Asserts d2 ⟨q.graph, q.subject, q.property, o⟩ ∧
        SameObject (asReference q.object) o ∧ RepresentableObj env o := by
      obtain ⟨o, ho, hso⟩ := hs2 q hq hT
      refine ⟨o, ho, hso, ?_⟩
      have hr' := asReference_representable hr
      obtain ⟨x, _, hx⟩ := hs1 _ ho
      simp only at hx
      cases hqo : q.object with
      | ref i =>
        rw [hqo] at hso hr'
        cases o with
        | ref j => have : i = j := hso; subst this; exact hr'
        | _ => exact hso.elim
      | node m =>
        rw [hqo] at hso hr'
        cases o with
        | obj b =>
          refine (representable_eq env hcase).1 _ b ?_ ?_ hso hr'
          · simp [bareNode, Obj.WF, Node.WF, gWF, incWF, psWF, rvWF]
          · cases x with
            | ref => cases hx
            | node => cases hx; simp [bareNode, Obj.WF, Node.WF, gWF, incWF, psWF, rvWF]
            | obj => cases hx; exact reference_WF _
        | _ => exact hso.elim
      | obj a =>
        rw [hqo] at hso hr'
        cases o with
        | obj b =>
          refine (representable_eq env hcase).1 _ b (reference_WF _) ?_ hso hr'
          cases x with
          | ref => cases hx
          | node => cases hx; simp [bareNode, Obj.WF, Node.WF, gWF, incWF, psWF, rvWF]
          | obj => cases hx; exact reference_WF _
        | _ => exact hso.elim
    obtain ⟨o, ho, hso, hro⟩ := key
    obtain ⟨t, ht, hd⟩ := C21_complete hff hout ho hst hro
    exact ⟨o, t, hso, ht, hd⟩
  · intro r hr
    obtain ⟨q, hq, hst, hg, hrest⟩ := C21_sound hout r hr
    obtain ⟨o, ho, e⟩ := hs1 q hq
    refine ⟨_, ho, hst, hg, ?_⟩
    rcases hrest with ⟨h1, h2, _⟩ | ⟨h1, h2, i, x, l, h3⟩
    · exact .inl ⟨h1, h2⟩
    · refine .inr ⟨h1, h2, ?_⟩
      rw [h3] at e
      cases o with
      | ref => cases e
      | node m => cases e
      | obj a =>
        cases a with
        | value => cases e
        | node => cases e
        | list j l' =>
          cases l' with
          | nil => cases e
          | cons y l' => exact ⟨j, y, l', rfl⟩

/-- The document that states what the node map states. -/
def mapDoc (o : Orders) (m : NodeMap) : Doc :=
  (m.iter o).reverse.flatMap fun G => match G.1 with
    | none => (nodesInOrder o G).map Obj.node
    | some g => [.node (.mk none (some g) none (some ((nodesInOrder o G).map Obj.node)) none [] none)]

theorem objsQuads_nodes (g : Option Id) (l : List Node) : objsQuads g (l.map Obj.node) = nodesQuads g l := by
  induction l with
  | nil => rfl
  | cons n l ih => simp only [List.map_cons, objsQuads, nodesQuads, objQuads, ih]

theorem mapDoc_statements (o : Orders) (m : NodeMap) : statements (mapDoc o m) = mapQuads o m := by
  have app : ∀ (g : Option Id) (a b : List Obj), objsQuads g (a ++ b) = objsQuads g a ++ objsQuads g b := by
    intro g a b
    induction a with
    | nil => rfl
    | cons x a ih => simp only [List.cons_append, objsQuads, ih, List.append_assoc]
  unfold mapDoc mapQuads statements
  induction (m.iter o).reverse with
  | nil => rfl
  | cons G l ih =>
    rw [List.flatMap_cons, List.flatMap_cons, app, ih]
    congr 1
    obtain ⟨g, G⟩ := G
    cases g with
    | none => exact objsQuads_nodes none _
    | some g =>
      simp only [objsQuads, objQuads, nodeQuads, psQuads, rvQuads, incQuads, grQuads, List.append_nil,
        objsQuads_nodes]
      simp

/-- The RDF of a node map is that of a document. -/
theorem map_output {o : Orders} {m : NodeMap} {out : List RQuad} {s : RdfState}
    (h : Collects (RdfLoop env opts) (m.rdfInit o) out s) : Output env opts (mapDoc o m) out := by
  have hc := collects_emitAll (env := env) (opts := opts) (collects_of_steps_nil (map_steps o m)) 0
  rw [(h.det (rdfLoop_det env opts) hc).1, ← mapDoc_statements]
  exact .expanded (collects_doc _)

/-- C101, RDF in general. Every statement of the document which RDF can express has its quad in the
RDF of the node map, in the same graph, and its object stands for an object equal to the object of
the statement; but for the types of a node typed in several ways in that graph. Every quad of the RDF
of the node map comes from a statement of the document, or is part of the collection of a list it
states. -/
theorem C101_rdf (h : Relabelable gen d) {n : Nat} {m : NodeMap} (hm : d.nodeMap gen n = .ok m)
    (hcase : ∀ l l', langEq l l' = true → env.wellFormed l = env.wellFormed l')
    (he : FreshFor env (d.relabel gen n).1) {o : Orders} {out : List RQuad} {s : RdfState}
    (hout : Collects (RdfLoop env opts) (m.rdfInit o) out s) :
    (∀ q, Asserts (d.relabel gen n).1 q →
      (q.property = .type → TypesOnce (d.relabel gen n).1 q.graph q.subject) →
      Stateable opts.generalized q → RepresentableObj env q.object →
      ∃ o t, SameObject (asReference q.object) o ∧
        (⟨q.subject, property q.property, t, q.graph⟩ : RQuad) ∈ out ∧
        DenotesObj env opts.direction (fun s p t => (⟨s, p, t, q.graph⟩ : RQuad) ∈ out) o t) ∧
    (∀ r ∈ out, ∃ q, Asserts (d.relabel gen n).1 q ∧ Stateable opts.generalized q ∧ r.graph = q.graph ∧
      ((r.subject = q.subject ∧ r.property = property q.property) ∨
        ((∃ k, r.subject = env.gen k) ∧ (r.property = rdfFirst ∨ r.property = rdfRest) ∧
          ∃ i o l, q.object = .obj (.list i (o :: l))))) := by
  have hmem : ∀ q, Asserts (mapDoc o m) q ↔ MapStates m q := fun q => by
    rw [← mem_statements_iff, mapDoc_statements]
    exact mem_mapQuads_flat (nodeMap_nodes h hm).2
  obtain ⟨hs1, hs2⟩ := C101_statements h hm
  refine same_rdf_docs (T := fun q => q.property = .type → TypesOnce (d.relabel gen n).1 q.graph q.subject)
    (fun q hq => hs1 q ((hmem q).1 hq)) (fun q hq hT => ?_) hcase he (map_output hout)
  by_cases hpt : q.property = .type
  · cases hq with
    | type a b c e => exact ⟨_, (hmem _).2 ((C101_types h hm).1 (hT rfl) _ (.type a b c e)), rfl⟩
    | property => cases hpt
    | reverse => cases hpt
  · obtain ⟨x, hx, e⟩ := hs2 q hq hpt
    exact ⟨x, (hmem _).2 hx, e⟩

/-- C101, well-formed output: C20 for any node map. -/
theorem C101_well_formed (hgen : ∀ k, (env.gen k).valid = true) {o : Orders} {m : NodeMap}
    {out : List RQuad} {s : RdfState} (h : Collects (RdfLoop env opts) (m.rdfInit o) out s) : ∀ r ∈ out,
      (∀ g, r.graph = some g → g.valid = true) ∧ r.subject.valid = true ∧ r.property.valid = true ∧
      (r.property.isBlank = true → opts.generalized = true) ∧
      (∀ i, r.object = .id i → i.valid = true) ∧
      (∀ t l, r.object = .lit t (.lang l) → env.wellFormed l = true) :=
  C20_well_formed hgen (map_output h)

end

/-- A named graph in which a node is typed and nothing else is said of it. -/
def exTypedInside : Doc :=
  [.node (.mk none (some (.iri "g".toList)) none (some
    [.node (.mk none (some (.iri "a".toList)) (some [.iri "T".toList]) none none
      [] none)]) none [(.iri "p".toList, [.node (.mk none none none none none [] none)])] none)]

/-- Its node map. -/
def exTypedMap : NodeMap where
  default := [(.iri "g".toList, .mk none (some (.iri "g".toList)) none
      (some [bareNode (some (.iri "a".toList))]) none
      [(.iri "p".toList, [bareNode (some (.blank "b".toList))])] none),
    (.blank "b".toList, .mk none (some (.blank "b".toList)) none none none [] none)]
  graphs := [(.iri "g".toList,
    [(.iri "a".toList, .mk none (some (.iri "a".toList)) (some [.iri "T".toList]) none none [] none)])]

/-- The example meets the hypotheses of C101, and its map states the type, which is lost by
flattening. -/
theorem C101_example : Relabelable exGen exTypedInside ∧ exTypedInside.nodeMap exGen 0 = .ok exTypedMap ∧
    MapStates exTypedMap ⟨some (.iri "g".toList), .iri "a".toList, .type, .ref (.iri "T".toList)⟩ ∧
    Flattened exGen exTypedInside 0 [.mk none (some (.iri "g".toList)) none (some []) none
      [(.iri "p".toList, [bareNode (some (.blank "b".toList))])] none] := by
  refine ⟨⟨exGen_injective, ?_, fun h hh i hi hb k e => hb _ e.symm⟩, ?_, ?_,
    .list (o := Orders.insertion) (ordered := true) (by decide +kernel)⟩
  · refine ⟨by decide +kernel, ?_⟩
    simp [exTypedInside, gWF, objsWF, Obj.WF, Node.WF, incWF, rvWF, psWF]
  · with_unfolding_all rfl
  · exact .type (ts := [.iri "T".toList]) ⟨_, List.mem_singleton.2 rfl, _, List.mem_singleton.2 rfl⟩ rfl rfl
      (List.mem_singleton.2 rfl)

/-- C101, what does not hold of the code: of two lists of types given to a node in one graph, the
first is lost. -/
theorem C101_type_lost : ∃ m, Relabelable exGen exRetyped ∧ exRetyped.nodeMap exGen 0 = .ok m ∧
    Asserts (exRetyped.relabel exGen 0).1 ⟨none, .iri "a".toList, .type, .ref (.iri "T".toList)⟩ ∧
    ¬ MapStates m ⟨none, .iri "a".toList, .type, .ref (.iri "T".toList)⟩ := by
  refine ⟨⟨[], [(.iri "a".toList, .mk none (some (.iri "a".toList)) (some [.iri "U".toList]) none none [] none)]⟩,
    ⟨exGen_injective, ?_, fun h hh i hi hb k e => hb _ e.symm⟩, by with_unfolding_all rfl, ?_, ?_⟩
  · refine ⟨by decide +kernel, ?_⟩
    simp [exRetyped, gWF, objsWF, Obj.WF, Node.WF, incWF, rvWF, psWF]
  · rw [show (exRetyped.relabel exGen 0).1 = exRetyped by decide +kernel]
    exact .type (.self (.top List.mem_cons_self)) rfl rfl (List.mem_singleton.2 rfl)
  · intro h
    generalize hq : (⟨none, .iri "a".toList, .type, .ref (.iri "T".toList)⟩ : Quad) = q at h
    cases h with
    | type hp _ ht htm =>
      injection hq with hg _ _ ho
      injection ho with ho
      subst hg
      obtain ⟨i, hp⟩ := hp
      cases List.mem_singleton.1 hp
      injection ht with ht
      rw [← ht, List.mem_singleton, ← ho] at htm
      exact absurd htm (by decide)
    | property => cases hq

end JsonLd.Props
