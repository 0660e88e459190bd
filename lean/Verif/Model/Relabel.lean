import Verif.Model.DocEq
/-!
# Assigning and relabelling identifiers, canonical literals

`identify_all_with` and `relabel_with` walk a document in the same order (identifier, types, graph,
included nodes, properties, reverse properties) and differ only in what they do to the identifier
and the types of a node. The model has one walk, `Obj.walk`, parameterised by that step. The
blank node generator (`rdf_types::Generator`) is an arbitrary sequence `gen`; the state counts how
many identifiers were drawn.
-/

namespace JsonLd

/-- The part of a node the walks rewrite: identifier and types. -/
abbrev Header := Option Id × Option (List Id)

section walk
variable {σ : Type} (f : Header → σ → Header × σ)

mutual
/-- `Object::identify_all_with`, object/mod.rs:136-152; `Object::relabel_with`, 435-451;
`List::relabel_with`, object/list.rs:122-136. -/
def Obj.walk : Obj → σ → Obj × σ
  | .value i v, s => (.value i v, s)
  | .list i l, s => let r := objsWalk l s; (.list i r.1, r.2)
  | .node n, s => let r := n.walk s; (.node r.1, r.2)
/-- `Node::identify_all_with`, object/node/mod.rs:133-178; `Node::relabel_with`, 636-705. -/
def Node.walk : Node → σ → Node × σ
  | .mk i id ty g inc ps rv, s =>
    let h := f (id, ty) s
    let rg := gWalk g h.2
    let ri := incWalk inc rg.2
    let rp := psWalk ps ri.2
    let rr := rvWalk rv rp.2
    (.mk i h.1.1 h.1.2 rg.1 ri.1 rp.1 rr.1, rr.2)
/-- `*graph = take(graph).into_iter().map(…).collect()`, node/mod.rs:145-153, 674-682. -/
def gWalk : Option (List Obj) → σ → Option (List Obj) × σ
  | none, s => (none, s)
  | some l, s => let r := objsWalk l s; (some (setCollect Obj.eq r.1), r.2)
/-- `*included = take(included).into_iter().map(…).collect()`, node/mod.rs:155-163, 684-692. -/
def incWalk : Option (List Node) → σ → Option (List Node) × σ
  | none, s => (none, s)
  | some l, s => let r := nodesWalk l s; (some (setCollect Node.eq r.1), r.2)
/-- Reverse properties, node/mod.rs:171-177, 700-706. -/
def rvWalk : Option (List (Id × List Node)) → σ → Option (List (Id × List Node)) × σ
  | none, s => (none, s)
  | some l, s => let r := rpsWalk l s; (some r.1, r.2)
/-- In-place walk of a sequence of objects. -/
def objsWalk : List Obj → σ → List Obj × σ
  | [], s => ([], s)
  | o :: os, s => let r := o.walk s; let rs := objsWalk os r.2; (r.1 :: rs.1, rs.2)
/-- In-place walk of a sequence of nodes. -/
def nodesWalk : List Node → σ → List Node × σ
  | [], s => ([], s)
  | o :: os, s => let r := o.walk s; let rs := nodesWalk os r.2; (r.1 :: rs.1, rs.2)
/-- Properties, node/mod.rs:165-169, 694-698. The keys are not rewritten. -/
def psWalk : List (Id × List Obj) → σ → List (Id × List Obj) × σ
  | [], s => ([], s)
  | (k, l) :: ps, s => let r := objsWalk l s; let rs := psWalk ps r.2; ((k, r.1) :: rs.1, rs.2)
/-- Entries of the reverse properties. -/
def rpsWalk : List (Id × List Node) → σ → List (Id × List Node) × σ
  | [], s => ([], s)
  | (k, l) :: ps, s => let r := nodesWalk l s; let rs := rpsWalk ps r.2; ((k, r.1) :: rs.1, rs.2)
end

/-- The loops over the objects of a document, document/expanded.rs:68-81 and 132-146: every object
is rewritten, then inserted in the new set. -/
def Doc.walk (d : Doc) (s : σ) : Doc × σ :=
  let r := objsWalk f d s
  (setCollect Obj.eq r.1, r.2)

end walk

/-- `if self.id.is_none() { self.id = Some(generator.next(…)) }`, node/mod.rs:141-143. -/
def identifyHeader (gen : Nat → Id) : Header → Nat → Header × Nat
  | (none, ty), n => ((some (gen n), ty), n + 1)
  | (some i, ty), n => ((some i, ty), n)

/-- `ExpandedDocument::identify_all_with`, document/expanded.rs:68-81. -/
def Doc.identifyAll (gen : Nat → Id) (d : Doc) (n : Nat) : Doc × Nat :=
  Doc.walk (identifyHeader gen) d n

/-- The state of a relabelling: how many identifiers were drawn, and the map built so far
(`hashbrown::HashMap<B, Subject<T, B>>`). -/
structure Relabeling where
  count : Nat
  map : List (Str × Id)

/-- `HashMap::get`. -/
def Relabeling.get (r : Relabeling) (b : Str) : Option Id := r.map.lookup b

/-- `relabeling.entry(b).or_insert_with(|| generator.next(vocabulary)).clone()`,
node/mod.rs:649-652, 664-667. -/
def relabelBlank (gen : Nat → Id) (b : Str) (s : Relabeling) : Id × Relabeling :=
  match s.get b with
  | some v => (v, s)
  | none => (gen s.count, ⟨s.count + 1, (b, gen s.count) :: s.map⟩)

/-- `self.id = match self.id.take() { … }`, node/mod.rs:647-660. -/
def relabelNodeId (gen : Nat → Id) : Option Id → Relabeling → Option Id × Relabeling
  | some (.blank b), s => let r := relabelBlank gen b s; (some r.1, r.2)
  | none, s => (some (gen s.count), ⟨s.count + 1, s.map⟩)
  | some i, s => (some i, s)

/-- `for ty in self.types_mut() { … }`, node/mod.rs:662-670. -/
def relabelTypes (gen : Nat → Id) : List Id → Relabeling → List Id × Relabeling
  | [], s => ([], s)
  | .blank b :: ts, s =>
    let r := relabelBlank gen b s
    let rs := relabelTypes gen ts r.2
    (r.1 :: rs.1, rs.2)
  | t :: ts, s => let rs := relabelTypes gen ts s; (t :: rs.1, rs.2)

/-- Types of the node, if any. -/
def relabelTypesOpt (gen : Nat → Id) : Option (List Id) → Relabeling → Option (List Id) × Relabeling
  | none, s => (none, s)
  | some ts, s => let r := relabelTypes gen ts s; (some r.1, r.2)

/-- Head of `Node::relabel_with`, node/mod.rs:647-670. -/
def relabelHeader (gen : Nat → Id) (h : Header) (s : Relabeling) : Header × Relabeling :=
  let r := relabelNodeId gen h.1 s
  let rt := relabelTypesOpt gen h.2 r.2
  ((r.1, rt.1), rt.2)

/-- `ExpandedDocument::relabel_with`, document/expanded.rs:132-146: the relabelling starts
empty. -/
def Doc.relabel (gen : Nat → Id) (d : Doc) (n : Nat) : Doc × Relabeling :=
  Doc.walk (relabelHeader gen) d ⟨n, []⟩

end JsonLd
