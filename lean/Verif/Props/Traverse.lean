import Verif.Proofs.Traverse
/-!
# C15: traversal of documents
-/

namespace JsonLd.Props
open JsonLd Spec

/-- C15. The traversal of any document ends. -/
theorem C15_terminates (d : Doc) : ∃ N out, ∀ fuel, N ≤ fuel → d.traverse fuel = some out :=
  ends_all _

/-- C15, partial: the traversal visits exactly the objects and the nodes inside the document that are
not inside a list. Missing: what is inside lists, for which it is false (`C15_lists_not_visited`). -/
theorem C15_visits_partial (d : Doc) (fuel : Nat) (out : List Frag)
    (h : d.traverse fuel = some out) :
    (∀ o, Frag.object o ∈ out ↔ InsideNoList d (.obj o)) ∧
    (∀ n, (Frag.node n ∈ out ∨ Frag.object (.node n) ∈ out) ↔ InsideNoList d (.node n)) :=
  ⟨fun o => ⟨inside_of_visited h (x := .obj o), visited_of_inside h (x := .obj o)⟩,
   fun n => ⟨inside_of_visited h (x := .node n), visited_of_inside h (x := .node n)⟩⟩

/-- C15, partial: the blank node labels reported are exactly those used as identifier, type or
property key of a node that is not inside a list. Missing: nodes inside lists
(`C15_lists_not_visited`) and reverse property keys (`C15_reverse_keys_not_reported`), for which it
is false. -/
theorem C15_blank_ids_partial (d : Doc) (fuel : Nat) (bs : List Str)
    (h : d.blankIds fuel = some bs) (b : Str) :
    b ∈ bs ↔ ∃ n, InsideNoList d (.node n) ∧ ownBlanks n b :=
  mem_blankIds h b

/-- C15, what does not hold of the code: a node that is an item of a list is in the document but is
not visited, and its label is not reported. -/
theorem C15_lists_not_visited : ∃ (d : Doc) (n : Node), Inside d (.node n) ∧
    n.id = some (.blank "b".toList) ∧
    ∀ fuel, (∀ out, d.traverse fuel = some out → Frag.object (.node n) ∉ out ∧ Frag.node n ∉ out) ∧
      ∀ bs, d.blankIds fuel = some bs → "b".toList ∉ bs := by
  let n := Node.mk none (some (.blank "b".toList)) none none none [] none
  have hi : ∀ x, InsideNoList [.list none [.node n]] x → x = .obj (.list none [.node n]) := by
    rintro x ⟨o, ho, hr⟩
    rw [List.mem_singleton] at ho
    subst ho
    induction hr using Relation.ReflTransGen.head_induction_on with
    | refl => rfl
    | head hp _ ih =>
      subst ih
      cases hp
  refine ⟨[.list none [.node n]], n, ⟨_, List.mem_singleton.2 rfl, ?_⟩, rfl, ?_⟩
  · exact .head (PartL.part (Part.self n)) (.single (PartL.item (List.mem_singleton.2 rfl)))
  · intro fuel
    refine ⟨fun out h => ?_, fun bs h hb => ?_⟩
    · have := C15_visits_partial _ _ _ h
      exact ⟨fun hm => by have := hi _ ((this.1 _).1 hm); simp at this,
        fun hm => by have := hi _ ((this.2 _).1 (Or.inl hm)); simp at this⟩
    · obtain ⟨m, hm, _⟩ := (C15_blank_ids_partial _ _ _ h _).1 hb
      have := hi _ hm
      simp at this

/-- C15, what does not hold of the code: a blank node label used as reverse property key is not
reported. -/
theorem C15_reverse_keys_not_reported : ∃ (d : Doc) (n : Node), InsideNoList d (.node n) ∧
    n.rev = some [(.blank "b".toList, [])] ∧
    ∃ bs, (∀ fuel, 100 ≤ fuel → d.blankIds fuel = some bs) ∧ "b".toList ∉ bs := by
  let n := Node.mk none none none none none [] (some [(.blank "b".toList, [])])
  refine ⟨[.node n], n, ⟨_, List.mem_singleton.2 rfl, .single (Part.self n)⟩, rfl, [], ?_, by simp⟩
  intro fuel hf
  obtain ⟨m, rfl⟩ : ∃ m, fuel = m + 10 := ⟨fuel - 10, by omega⟩
  rfl

/-- A document with a node in a named graph: its label is reported, and so are a type and a property
key. -/
example : Doc.blankIds 100
    [.node (.mk none (some (.iri "g".toList)) none
      (some [.node (.mk none (some (.blank "a".toList)) (some [.blank "t".toList]) none none
        [(.blank "p".toList, [])] none)]) none [] none)]
    = some ["p".toList, "t".toList, "a".toList] := by decide +kernel

end JsonLd.Props
