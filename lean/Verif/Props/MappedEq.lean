import Verif.Proofs.MappedEq
/-!
# C12: comparison of documents up to a renaming of blank nodes
-/

namespace JsonLd.Props
open JsonLd Spec

/-- C12. Under a renaming `f`, two nodes compare equal exactly if they have the same index, their
identifiers agree after renaming, their included nodes and graph members can be paired up, and so
can the entries of their properties and reverse properties, the keys agreeing after renaming. (The
types are not looked at: see `C12_types_ignored`.) -/
theorem C12_node_iff (f : Str → Str) (n m : Node) : n.meq f m = true ↔
    n.index = m.index ∧ n.id.map (renLabel f) = m.id ∧
    OptRel (PermRel fun x y => x.meq f y = true) n.included m.included ∧
    OptRel (PermRel fun x y => x.meq f y = true) n.graph m.graph ∧
    PermRel (fun p q => renLabel f p.1 = q.1 ∧ PermRel (fun x y => x.meq f y = true) p.2 q.2)
      n.props m.props ∧
    OptRel (PermRel fun p q => renLabel f p.1 = q.1 ∧
      PermRel (fun x y => x.meq f y = true) p.2 q.2) n.rev m.rev :=
  Node.meq_iff f n m

/-- C12. The other cases: values are compared by equality, lists item by item in order, documents
(sets of objects) up to order. -/
theorem C12_obj_iff (f : Str → Str) :
    (∀ i j v w, (Obj.value i v).meq f (.value j w) = true ↔ i = j ∧ v.eq w = true) ∧
    (∀ i j l m, (Obj.list i l).meq f (.list j m) = true ↔
      i = j ∧ List.Forall₂ (fun x y => x.meq f y = true) l m) ∧
    (∀ n m, (Obj.node n).meq f (.node m) = n.meq f m) ∧
    (∀ d e : Doc, d.meq f e = true ↔ PermRel (fun x y => x.meq f y = true) d e) := by
  refine ⟨?_, ?_, ?_, ?_⟩
  · intro i j v w; simp [Obj.meq]
  · intro i j l m; simp [Obj.meq, objsMeq_eq, listB_iff]
  · intro n m; simp [Obj.meq]
  · intro d e
    rw [Doc.meq_eq]
    exact unorderedEq_meq_iff (meq_ren f (fun x => x) f fun _ => rfl).1 Obj.meqOk d e

/-- C12. Every document compares equal to itself without renaming, and to its image under any
renaming; comparing under a renaming is comparing the renamed document. -/
theorem C12_image (f : Str → Str) (d e : Doc) :
    d.meq (fun x => x) d = true ∧ d.meq f (renDoc f d) = true ∧
      d.meq f e = (renDoc f d).meq (fun x => x) e := by
  have h3 : d.meq f e = (renDoc f d).meq (fun x => x) e := by
    rw [Doc.meq_eq, Doc.meq_eq, renDoc, renObjs_eq, unorderedEq_map_left]
    exact unorderedEq_congr fun a _ b _ => (meq_ren f (fun x => x) f fun _ => rfl).1 a b
  have hrefl : ∀ d : Doc, d.meq (fun x => x) d = true := by
    intro d
    rw [Doc.meq_eq]
    exact (eqOkG_unordered (WF := fun _ => True) (fun a _ => Obj.meqOk a) d
      fun _ _ => trivial).1
  refine ⟨hrefl d, ?_, h3⟩
  have : d.meq f (renDoc f d) = (renDoc f d).meq (fun x => x) (renDoc f d) := by
    rw [Doc.meq_eq, Doc.meq_eq, renDoc, renObjs_eq, unorderedEq_map_left]
    exact unorderedEq_congr fun a _ b _ => (meq_ren f (fun x => x) f fun _ => rfl).1 a b
  rw [this]
  exact hrefl _

/-- C12. Equal documents compare equal without renaming. -/
theorem C12_of_eq (d e : Doc) (hd : d.WF) (he : e.WF) (h : d.eq e = true) :
    d.meq (fun x => x) e = true := by
  rw [((C12_obj_iff _).2.2.2 d e)]
  simp only [Doc.eq, objsOptEq, Bool.and_eq_true, decide_eq_true_eq, objsSubset_iff] at h
  have hw := objsWF_iff.1 hd.2
  have hw' := objsWF_iff.1 he.2
  have := (set_iff_of_ok (WF := Obj.WF) (fun o ho => Obj.eqOk (hw o ho)) hw hw' hd.1).1 h
  exact this.mono fun a ha b hb h => eq_meq.1 a b (hw a ha) (hw' b hb) h

/-- C12, partial: for documents without types and a renaming that never merges labels, two documents
compare equal under the renaming exactly if renaming the first gives a document equal to the second.
Missing: documents with types, for which it is false (`C12_types_ignored`). For a renaming that
merges labels the renamed document may have two equal members in a set; `C12_image` covers that
case. -/
theorem C12_sound_partial (f : Str → Str) (hf : Function.Injective f) (d e : Doc) (hd : d.WF)
    (he : e.WF) (htd : ∀ h ∈ docHeaders d, h.2 = none) (hte : ∀ h ∈ docHeaders e, h.2 = none) :
    d.meq f e = true ↔ (renDoc f d).eq e = true := by
  rw [(C12_image f d e).2.2]
  have hw := objsWF_iff.1 hd.2
  have hw' := objsWF_iff.1 he.2
  simp only [docHeaders, objsHeaders_eq, List.mem_flatMap] at htd hte
  have hn : (Node.mk none none none (some (renDoc f d)) none [] none).WF := by
    have h0 : (Node.mk none none none (some d) none [] none).WF :=
      ⟨hd, trivial, List.nodup_nil, trivial, trivial⟩
    have := (ren_wf f hf).2 _ h0 (by
      rw [noTypesN_iff]
      refine ⟨rfl, ?_, by simp, by simp, by simp⟩
      rintro l ⟨⟩ o ho x hx
      exact htd x ⟨o, ho, hx⟩)
    simpa [renNode, renG, renPs, renRv, renInc, renDoc] using this
  have hr : (renDoc f d).WF := hn.1
  constructor
  · intro h
    rw [((C12_obj_iff _).2.2.2 _ e)] at h
    have h' : PermRel (fun x y => x.eq y = true) (renDoc f d) e := by
      refine h.mono fun a ha b hb h => meq_eq.1 a b (objsWF_iff.1 hr.2 a ha) (hw' b hb) ?_
        (fun x hx => hte x ⟨b, hb, hx⟩) h
      rw [renDoc, renObjs_eq] at ha
      obtain ⟨a', ha', rfl⟩ := List.mem_map.1 ha
      exact (ren_noTypes f).1 a' fun x hx => htd x ⟨a', ha', hx⟩
    simp only [Doc.eq, objsOptEq, Bool.and_eq_true, decide_eq_true_eq, objsSubset_iff]
    exact ⟨h'.length_eq, fun x hx => h'.exists_right hx⟩
  · exact C12_of_eq _ _ hr he

/-- C12, what does not hold of the code: nodes with different types compare equal. -/
theorem C12_types_ignored : ∃ d e : Doc, d.WF ∧ e.WF ∧ d.meq (fun x => x) e = true ∧
    d.eq e = false ∧ renDoc (fun x => x) d = d := by
  refine ⟨[.node (.mk none none (some [.iri "T".toList]) none none [] none)],
    [.node (.mk none none (some [.iri "U".toList]) none none [] none)], ?_, ?_, ?_, ?_, ?_⟩
  · exact ⟨List.pairwise_singleton _ _, ⟨trivial, trivial, List.nodup_nil, trivial, trivial⟩,
      trivial⟩
  · exact ⟨List.pairwise_singleton _ _, ⟨trivial, trivial, List.nodup_nil, trivial, trivial⟩,
      trivial⟩
  · decide +kernel
  · decide +kernel
  · simp [renDoc, renObjs, renObj, renNode, renG, renInc, renPs, renRv, renLabel]

/-- Two documents that agree after renaming `_:a` to `_:b`, with a blank node as property key,
compare equal under that renaming only. -/
example : Doc.meq (fun s => s ++ "'".toList)
    [.node (.mk none (some (.blank "a".toList)) none none none
      [(.blank "a".toList, [.value none (.literal (.bool true) none)])] none)]
    [.node (.mk none (some (.blank "a'".toList)) none none none
      [(.blank "a'".toList, [.value none (.literal (.bool true) none)])] none)] = true ∧
  Doc.meq (fun s => s)
    [.node (.mk none (some (.blank "a".toList)) none none none
      [(.blank "a".toList, [.value none (.literal (.bool true) none)])] none)]
    [.node (.mk none (some (.blank "a'".toList)) none none none
      [(.blank "a'".toList, [.value none (.literal (.bool true) none)])] none)] = false := by
  decide +kernel

/-- The renaming of the example never merges labels. -/
example : Function.Injective (fun s : Str => s ++ "'".toList) := fun _ _ h =>
  List.append_cancel_right h

end JsonLd.Props
