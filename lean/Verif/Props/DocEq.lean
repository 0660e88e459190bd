import Verif.Proofs.DocHash
/-!
# C46: document equality and hashing
-/

namespace JsonLd.Props
open JsonLd

/-- C46. Equality of documents, as the code computes it, is an equivalence on documents whose sets
are sets and whose maps are maps. -/
theorem C46_equivalence :
    (∀ d : Doc, d.WF → d.eq d = true) ∧
    (∀ d e : Doc, d.WF → e.WF → d.eq e = true → e.eq d = true) ∧
    (∀ d e f : Doc, d.WF → e.WF → f.WF → d.eq e = true → e.eq f = true → d.eq f = true) := by
  have key : ∀ d e : Doc, d.WF → e.WF →
      (d.eq e = true ↔ (Node.mk none none none (some d) none [] none).eq
        (Node.mk none none none (some e) none [] none) = true) := by
    intro d e _ _
    simp [Doc.eq, Node.eq, idsOptEq, nodesOptEq, rpropsOptEq, propsEq_eq, propsSub]
  have wf : ∀ d : Doc, d.WF → (Node.mk none none none (some d) none [] none).WF := by
    intro d hd
    exact ⟨hd, trivial, List.nodup_nil, trivial, trivial⟩
  refine ⟨?_, ?_, ?_⟩
  · intro d hd
    rw [key d d hd hd]; exact (Node.eqOk (wf d hd)).1
  · intro d e hd he h
    rw [key d e hd he] at h
    rw [key e d he hd]; exact (Node.eqOk (wf d hd)).2.1 _ (wf e he) h
  · intro d e f hd he hf h h'
    rw [key d e hd he] at h
    rw [key e f he hf] at h'
    rw [key d f hd hf]; exact (Node.eqOk (wf d hd)).2.2 _ _ (wf e he) (wf f hf) h h'

/-- Two documents that differ by the order of objects and types are equal. -/
example : Doc.eq
    [.node (.mk none (some (.iri "a".toList)) (some [.iri "T".toList, .iri "U".toList]) none none [] none),
      .value none (.literal .null none)]
    [.value none (.literal .null none),
      .node (.mk none (some (.iri "a".toList)) (some [.iri "U".toList, .iri "T".toList]) none none [] none)]
    = true := by decide +kernel

/-- C46. Two nodes are equal exactly if they have the same index and identifier, the same types up
to order, and equal graph members, included nodes, property values and reverse property values,
each up to order; an absent entry equals only an absent entry. -/
theorem C46_node_iff {n m : Node} (hn : n.WF) (hm : m.WF) :
    n.eq m = true ↔
      n.index = m.index ∧ n.id = m.id ∧ OptRel List.Perm n.types m.types ∧
      OptRel (PermRel fun x y => x.eq y = true) n.graph m.graph ∧
      OptRel (PermRel fun x y => x.eq y = true) n.included m.included ∧
      PermRel (fun p q => p.1 = q.1 ∧ PermRel (fun x y => x.eq y = true) p.2 q.2) n.props m.props ∧
      OptRel (PermRel fun p q => p.1 = q.1 ∧ PermRel (fun x y => x.eq y = true) p.2 q.2)
        n.rev m.rev :=
  node_eq_iff hn hm

/-- C46. Two list objects are equal exactly if they have the same index and equal items in the same
order; two value objects exactly if they have the same index and the same value up to the letter
case of the language tag; objects of different kinds never are. -/
theorem C46_obj_iff (a b : Obj) :
    a.eq b = true ↔ match a, b with
      | .value i v, .value j w => i = j ∧ match v, w with
        | .literal l t, .literal l' t' => l = l' ∧ t = t'
        | .langString s, .langString s' => s.data = s'.data ∧ s.direction = s'.direction ∧
          s.language.map (List.map lowerChar) = s'.language.map (List.map lowerChar)
        | .json x, .json y => x = y
        | _, _ => False
      | .list i l, .list j m => i = j ∧ List.Forall₂ (fun x y => x.eq y = true) l m
      | .node n, .node m => n.eq m = true
      | _, _ => False := by
  cases a <;> cases b <;> simp only [Obj.eq, Bool.false_eq_true, Bool.and_eq_true,
    decide_eq_true_eq, objsListEq_iff]
  rename_i i v j w
  refine and_congr Iff.rfl ?_
  cases v <;> cases w <;> simp [Value.eq, LangString.eq_iff]
  intro _
  exact and_comm

/-- C46. Equal objects and equal nodes write the same words to a hasher, whatever the hash
function. -/
theorem C46_hash (fin : List Tok → UInt64) :
    (∀ a b : Obj, a.WF → b.WF → a.eq b = true → a.hash fin = b.hash fin) ∧
    (∀ a b : Node, a.WF → b.WF → a.eq b = true → a.hash fin = b.hash fin) :=
  hash_eq fin

/-- Language tags that differ by case are equal and hash equally. -/
example : Value.eq (.langString ⟨"x".toList, some "EN".toList, none⟩)
    (.langString ⟨"x".toList, some "en".toList, none⟩) = true := by decide

end JsonLd.Props
