import Verif.Proofs.LdContent
/-!
# C72–C74: documents as linked data, linked data as documents
-/

namespace JsonLd.Props
open JsonLd.Spec

/-! ### C72: there and back -/

/-- C72: a document is told as linked data and serialized again to itself exactly if all its objects
are of the kinds `LdTop`. -/
theorem C72_document (E : LdEnv) (d : Doc) (hw : d.WF) :
    ldSerialize E (d.toLD E) = .ok d ↔ ∀ o ∈ d, LdTop E o :=
  doc_survives hw

/-- C72: values survive exactly if they are of the kinds `LdValue`. -/
theorem C72_value (E : LdEnv) (v : Value) : literalToValue E (v.ldTerm E) = v ↔ LdValue E v :=
  value_iff

/-- C72: serialization never gives a list, whatever is told. -/
theorem C72_never_list (E : LdEnv) (v : LD) (i : Option Str) (l : List Obj) :
    serObject E v ≠ .ok (.list i l) := by
  intro h
  match v with
  | .mk (some (.lit t)) vs => rw [serObject] at h; cases h
  | .mk (some (.id j)) vs =>
    rw [serObject] at h
    cases hv : nodeVisits E vs (startNode (some j)) <;> rw [hv] at h <;> cases h
  | .mk none vs =>
    rw [serObject] at h
    cases hv : objVisits E vs {} with
    | error e => rw [hv] at h; cases h
    | ok s =>
      rw [hv] at h
      have h' : s.finish = .list i l := Except.ok.inj h
      rw [finish_eq (objVisits_inv inv_start hv)] at h'
      cases h'

private def dE : LdEnv where
  wellFormed := fun s => !s.isEmpty
  asI64 := fun s => if s.contains '.' then none else some s
  double := fun s => s ++ "E0".toList
  xsdParse := fun ty s => if ty = xsdNs "decimal" then some (.num ty s) else none
  isNumber := fun _ => true

private def kp : Id := .iri "http://e/p".toList
private def kq : Id := .iri "http://e/q".toList
private def ka : Id := .iri "http://e/a".toList
private def kb : Id := .blank "_:b".toList
private def ref (i : Id) : Obj := .node (.mk none (some i) none none none [] none)
private def anon (ps : List (Id × List Obj)) : Obj := .node (.mk none none none none none ps none)
private def text : Obj := .value none (.literal (.str "x".toList) none)

/-- A document with types, values, a reverse property, an included node and a named graph. -/
private def goodDoc : Doc :=
  [.node (.mk none (some ka) (some [kb]) none (some [.mk none none (some [ka]) none none [] none])
      [(kp, [text, .value none (.literal (.num "12".toList) none), anon [(kq, [ref kb])]])]
      (some [(kq, [.mk none (some kb) none none none [] none])])),
    .node (.mk none (some kb) none (some [ref ka, text]) none [] none)]

private theorem good_again : ldSerialize dE (goodDoc.toLD dE) = .ok goodDoc := by
  with_unfolding_all rfl
example : goodDoc.WF ∧ ∀ o ∈ goodDoc, LdTop dE o :=
  ⟨ldSerialize_wf good_again, (C72_document dE goodDoc (ldSerialize_wf good_again)).1 good_again⟩

/-- A list of two references is read back as a node. The first item is doubled. The rest is a list of
the items in reverse order, with a null for the end, and once more a node. -/
theorem C72_list :
    serObject dE (Obj.toLD dE (.list none [ref ka, ref kb])) =
      .ok (anon [(rdfFirst, [ref ka, ref ka]),
        (rdfRest, [anon [(rdfFirst, [ref kb, ref kb]),
            (rdfRest, [anon [], .list none [.value none (.literal .null none)]])],
          .list none [.value none (.literal .null none), ref kb]])]) := rfl

/-- The values of a list are lost. -/
theorem C72_list_values (E : LdEnv) (i : Option Str) (v w : Value) :
    Obj.toLD E (.list none [.value i v]) = Obj.toLD E (.list none [.value i w]) := rfl

/-- The type of a number is lost. -/
theorem C72_number_type :
    literalToValue dE (Value.ldTerm dE (.literal (.num "1.5".toList) (some (xsdNs "decimal")))) =
      .literal (.num "1.5".toList) none := rfl

/-- A number that is not an integer becomes a typed string. -/
theorem C72_double :
    literalToValue dE (Value.ldTerm dE (.literal (.num "1.5".toList) none)) =
      .literal (.str "1.5E0".toList) (some (xsdNs "double")) := rfl

/-- Null becomes a string. -/
theorem C72_null (E : LdEnv) :
    literalToValue E (Value.ldTerm E (.literal .null none)) = .literal (.str "null".toList) none := rfl

/-- A direction is lost. -/
theorem C72_direction (E : LdEnv) (s tag : Str) (d : Direction) (h : E.wellFormed tag = true) :
    literalToValue E (Value.ldTerm E (.langString { data := s, language := some tag, direction := some d })) =
      .langString { data := s, language := some tag, direction := none } := by
  simp [Value.ldTerm, h, literalToValue]

/-- The graph of a node that has other entries is lost. -/
theorem C72_graph (E : LdEnv) (id : Option Id) (p : Id × List Obj) (ps : List (Id × List Obj)) (g : List Obj) :
    Node.toLD E (.mk none id none (some g) none (p :: ps) none) =
      Node.toLD E (.mk none id none none none (p :: ps) none) := by
  simp [Node.toLD, Node.isGraph, graphLD]

/-- If such a node is serialized on its own, its graph is put in the default graph, and the node is
lost. -/
theorem C72_node_with_graph :
    ldSerialize dE ((Node.mk none (some ka) none (some [ref kb]) none [(kp, [text])] none).visits dE) =
      .ok [ref kb] := rfl

/-- A document whose serialization fails: a tail of a list with an included node. -/
theorem C72_failure :
    ldSerialize dE (Doc.toLD dE [.node (.mk none (some ka) none none none
      [(kp, [anon [(rdfRest, [.node (.mk none (some kb) none none
        (some [.mk none (some ka) none none none [] none]) [] none)])]])] none)]) =
      .error .listInclude := rfl

/-! ### C73: what can be serialized -/

/-- C73: serialization fails only for the reasons `GraphFault`, … -/
theorem C73_error (E : LdEnv) (gs : List LGraph) (e : LdErr) (h : ldSerialize E gs = .error e) :
    ∃ g ∈ gs, GraphFault e g :=
  ldSerialize_fault.1 e h

/-- … and for each of them. -/
theorem C73_fault (E : LdEnv) (gs : List LGraph) (e : LdErr) (h : ∃ g ∈ gs, GraphFault e g) :
    ∃ e', ldSerialize E gs = .error e' :=
  ldSerialize_fault.2 e h

/-- C73: without such a reason there is a document. Its sets have no element twice and its nodes no
key twice. -/
theorem C73_document (E : LdEnv) (gs : List LGraph) (h : ∀ e, ∀ g ∈ gs, ¬ GraphFault e g) :
    ∃ d, ldSerialize E gs = .ok d ∧ d.WF := by
  cases hs : ldSerialize E gs with
  | error e =>
    obtain ⟨g, hg, hf⟩ := C73_error E gs e hs
    exact absurd hf (h e g hg)
  | ok d => exact ⟨d, rfl, ldSerialize_wf hs⟩

private def lit : LTerm := .lit (.xsd (.str "x".toList))

example : GraphFault .invalidGraph (.named (some lit) []) := .name
example : ldSerialize dE [.named (some lit) []] = .error .invalidGraph := rfl
example : GraphFault .invalidPredicate (.default [.mk none [.predicate (some lit) []]]) :=
  .subject List.mem_cons_self nofun List.mem_cons_self (.predicate nofun)
example : ldSerialize dE [.default [.mk none [.predicate none []]]] = .error .invalidPredicate := rfl
example : ldSerialize dE [.default [.mk none [.reverse (some (.id kp)) [.mk (some lit) []]]]] =
    .error .invalidNode := rfl
example : ldSerialize dE [.named none [.mk none [.predicate (some (.id rdfRest)) [.mk none [.reverse none []]]]]] =
    .error .listReverseProperty := rfl
-- At the top of the default graph it is a node.
example : ldSerialize dE [.default [.mk none [.predicate (some (.id rdfRest)) [.mk none
    [.reverse (some (.id kp)) []]]]]] = .ok [anon [(rdfRest, [.node (.mk none none none none none [] (some [(kp, [])]))])]] := rfl

/-! ### C74: what is in a serialized node -/

/-- C74: the entries of a serialized node. A property has the objects told last. The types are the
references told as objects of `rdf:type`. A reverse property has the subjects told last. The graph is
the one told last. The included nodes are those told, up to equality. There is no index. -/
theorem C74_node (E : LdEnv) (t : Option Id) (vs : List LVisit) (n : Node)
    (h : serNode E (.mk (t.map .id) vs) = .ok n) :
    n.index = none ∧ n.id = t ∧
    (∀ p, p ≠ rdfType → match lastObjects p vs with
      | none => lookupProp p n.props = none
      | some os => ∃ os', serObjects E os = .ok os' ∧ lookupProp p n.props = some os') ∧
    (∀ i, i ∈ n.types.getD [] ↔ ∃ os, .predicate (some (.id rdfType)) os ∈ vs ∧
      ∃ o ∈ os, serObject E o = .ok (refTo i)) ∧
    (∀ p, match lastSubjects p vs with
      | none => lookupProp p (n.rev.getD []) = none
      | some os => ∃ os', serNodes E os = .ok os' ∧ lookupProp p (n.rev.getD []) = some os') ∧
    (match lastGraph vs with
      | none => n.graph = none
      | some os => ∃ os', serObjects E os = .ok os' ∧ n.graph = some (setCollect Obj.eq os')) ∧
    (∀ m ∈ n.included.getD [], ∃ o, .included o ∈ vs ∧ serNode E o = .ok m) ∧
    (∀ o, .included o ∈ vs → ∃ m, serNode E o = .ok m ∧ ∃ m' ∈ n.included.getD [], m' = m ∨ m.eq m' = true) := by
  have hv : nodeVisits E vs (startNode t) = .ok n := by
    cases t <;> rw [Option.map, serNode] at h <;> exact h
  have hc := visits_content hv
  refine ⟨hc.index, hc.id, hc.props, fun i => ?_, hc.rev, hc.graph, fun m hm => ?_, fun o ho => ?_⟩
  · rw [hc.types i]
    simp [startNode, Node.types]
  · exact (hc.inc m hm).resolve_left (by simp [startNode, Node.included])
  · cases hs : serNode E o with
    | ok m => exact ⟨m, rfl, hc.inc' m o ho hs⟩
    | error e =>
      obtain ⟨e', he'⟩ := visits_included ho hs (startNode t)
      rw [hv] at he'
      cases he'

/-- C74: an identified resource is the same as an object and as a node. -/
theorem C74_identified (E : LdEnv) (i : Id) (vs : List LVisit) :
    serObject E (.mk (some (.id i)) vs) = (serNode E (.mk (some (.id i)) vs)).map .node := by
  rw [serObject, serNode]

/-- C74: an object that is not identified is the same node as well, except for `rdf:first` and
`rdf:rest`. -/
theorem C74_anonymous (E : LdEnv) (vs : List LVisit) (o : Obj) (h : serObject E (.mk none vs) = .ok o) :
    ∃ n ps, serNode E (.mk none vs) = .ok n ∧ o = .node (n.setProps ps) ∧
      (∀ p, p ≠ rdfFirst → p ≠ rdfRest → lookupProp p ps = lookupProp p n.props) ∧
      ((∀ os, .predicate (some (.id rdfFirst)) os ∈ vs → os = []) →
        (∀ os, .predicate (some (.id rdfRest)) os ∉ vs) → ps = n.props) := by
  rw [serObject] at h
  cases hs : objVisits E vs {} with
  | error e => rw [hs] at h; cases h
  | ok s =>
    rw [hs] at h
    have h : s.finish = o := Except.ok.inj h
    rw [finish_eq (objVisits_inv inv_start hs)] at h
    refine ⟨s.asNode, s.ext, ?_, h.symm, fun p h1 h2 => ext_other h1 h2, fun h1 h2 => ?_⟩
    · rw [serNode, ← start_asNode]
      exact objVisits_node hs
    · unfold LObjState.ext
      rw [objVisits_none hs rfl h1, (objVisits_rest hs).2 ⟨rfl, h2⟩]
      rfl

/-- C74: the objects of a property, in order. -/
theorem C74_objects (E : LdEnv) (vs : List LD) (os : List Obj) :
    serObjects E vs = .ok os ↔ List.Forall₂ (fun v o => serObject E v = .ok o) vs os := by
  induction vs generalizing os with
  | nil => 
    cases os <;> simp [serObjects]
  | cons v vs ih =>
    rw [serObjects]
    cases hv : serObject E v with
    | error e =>
      simp only [reduceCtorEq, false_iff]
      intro h
      cases h with
      | cons h _ => rw [hv] at h; cases h
    | ok o =>
      constructor
      · intro h
        cases hs : serObjects E vs with
        | error e => dsimp only at h; rw [hs] at h; cases h
        | ok os' =>
          dsimp only at h
          rw [hs] at h
          obtain rfl : o :: os' = os := Except.ok.inj h
          exact .cons hv ((ih os').1 hs)
      · intro h
        cases h with
        | cons h h' =>
          rw [hv] at h
          obtain rfl := Except.ok.inj h
          dsimp only
          rw [(ih _).2 h']
          rfl

/-- Told twice, the first objects are lost. -/
theorem C74_overwritten :
    serNode dE (.mk (some (.id ka)) [.predicate (some (.id kp)) [.mk (some (.id ka)) []],
        .predicate (some (.id kp)) [.mk (some (.id kb)) []]]) =
      .ok (.mk none (some ka) none none none [(kp, [ref kb])] none) := rfl

end JsonLd.Props
