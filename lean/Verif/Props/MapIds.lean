import Verif.Proofs.MapIdsAll
/-!
# C81: `map_ids` replaces identifiers, and only them
-/

namespace JsonLd
open Spec

/-- If no two identifiers of the document are replaced by the same one, and no two value types, then
the result is the document with each replaced where it stands. Nothing is merged, moved or lost. -/
theorem C81_exact (f : Id → Id) (g : Str → Str) (d : Doc) (hd : d.WF)
    (hf : ∀ i j, IdIn d i → IdIn d j → f i = f j → i = j)
    (hg : ∀ t u, TypeIn d t → TypeIn d u → g t = g u → t = u) :
    d.mapIds f g = replaceIds f g d :=
  doc_mapIds_exact hd hf hg

/-- Then the statements of the result are those of the document, with the identifiers replaced, in
the same order. -/
theorem C81_statements (f : Id → Id) (g : Str → Str) (d : Doc) (hd : d.WF)
    (hf : ∀ i j, IdIn d i → IdIn d j → f i = f j → i = j)
    (hg : ∀ t u, TypeIn d t → TypeIn d u → g t = g u → t = u) :
    statements (d.mapIds f g) = (statements d).map (replaceQuad f g) := by
  rw [C81_exact f g d hd hf hg, statements_replace]

/-- Replacing and replacing back gives the document. -/
theorem C81_undo (f f' : Id → Id) (g g' : Str → Str) (d : Doc) (hd : d.WF)
    (hf : ∀ i, IdIn d i → f' (f i) = i) (hg : ∀ t, TypeIn d t → g' (g t) = t) :
    (d.mapIds f g).mapIds f' g' = d := by
  have hfi : InjIn (IdIn d) f := fun i j hi hj h => by rw [← hf i hi, ← hf j hj, h]
  have hgi : InjIn (TypeIn d) g := fun i j hi hj h => by rw [← hg i hi, ← hg j hj, h]
  have hw : (d.mapIds f g).WF := by
    refine ⟨setCollect_pairwise _, objsWF_iff.2 fun o ho => ?_⟩
    have := setCollect_mem ho
    rw [objsMapIds_map] at this
    obtain ⟨x, -, rfl⟩ := List.mem_map.1 this
    exact mapIds_wf.1 x
  rw [doc_mapIds_exact (f := f') (g := g') hw, doc_mapIds_exact hd hfi hgi]
  · simp only [replaceIds, replaceObjs_map, List.map_map]
    calc _ = d.map id := List.map_congr_left fun o ho => by
            simp only [Function.comp_apply, id]
            rw [replace_comp.1, (replace_id (S := IdIn d) (T := TypeIn d) (f := f' ∘ f) (g := g' ∘ g) hf
              hg).1 o (itemIn_doc ho)]
      _ = d := List.map_id d
  · rintro a b ha hb h
    obtain ⟨i, hi, rfl⟩ := idIn_mapIds.1 ha
    obtain ⟨j, hj, rfl⟩ := idIn_mapIds.1 hb
    rw [hf i hi, hf j hj] at h
    rw [h]
  · rintro a b ha hb h
    obtain ⟨i, hi, rfl⟩ := typeIn_mapIds.1 ha
    obtain ⟨j, hj, rfl⟩ := typeIn_mapIds.1 hb
    rw [hg i hi, hg j hj] at h
    rw [h]

/-- Replacing every identifier by itself changes nothing. -/
theorem C81_id (d : Doc) (hd : d.WF) : d.mapIds id id = d := by
  rw [C81_exact id id d hd (fun _ _ _ _ h => h) (fun _ _ _ _ h => h)]
  simp only [replaceIds, replaceObjs_map]
  calc _ = d.map id := List.map_congr_left fun o ho =>
          (replace_id (S := IdIn d) (T := TypeIn d) (fun _ _ => rfl) (fun _ _ => rfl)).1 o (itemIn_doc ho)
    _ = d := List.map_id d

/-- Whatever the functions, no set of the result has two equal members and no property is listed
twice. -/
theorem C81_wf (f : Id → Id) (g : Str → Str) (d : Doc) : (d.mapIds f g).WF := by
  refine ⟨setCollect_pairwise _, objsWF_iff.2 fun o ho => ?_⟩
  have := setCollect_mem ho
  rw [objsMapIds_map] at this
  obtain ⟨x, -, rfl⟩ := List.mem_map.1 this
  exact mapIds_wf.1 x

/-- Whatever the functions, the identifiers in the result are those that the identifiers of the
document are replaced by, and the types of values likewise. -/
theorem C81_ids (f : Id → Id) (g : Str → Str) (d : Doc) :
    (∀ j, IdIn (d.mapIds f g) j ↔ ∃ i, IdIn d i ∧ f i = j) ∧
    (∀ u, TypeIn (d.mapIds f g) u ↔ ∃ t, TypeIn d t ∧ g t = u) :=
  ⟨fun _ => idIn_mapIds, fun _ => typeIn_mapIds⟩

/-- Whatever the functions, the values of a property of a node are the values of all the properties
that are replaced by it, one after the other. -/
theorem C81_merge (f : Id → Id) (g : Str → Str) (n : Node) (p : Id) :
    lookupProp p (n.mapIds f g).props =
      boundIn p (n.props.map fun e => (f e.1, e.2.map (Obj.mapIds f g))) ∧
    ∀ r, n.rev = some r → ∃ r', (n.mapIds f g).rev = some r' ∧ lookupProp p r' =
      boundIn p (r.map fun e => (f e.1, e.2.map (Node.mapIds f g))) := by
  obtain ⟨i, id, ty, gr, inc, ps, rv⟩ := n
  have key : ∀ {α : Type} (es : List (Id × List α)), lookupProp p (PropMap.fromIter es) =
      boundIn p es := by
    intro α es
    rw [PropMap.fromIter, PropMap.lookup_extend]
    cases boundIn p es <;> simp [lookupProp]
  refine ⟨?_, ?_⟩
  · simp only [Node.mapIds, Node.props]
    rw [key, psMapIds_map]
  · rintro r hr
    cases hr
    exact ⟨_, rfl, by rw [key, rpsMapIds_map]⟩

/-! ## A case -/

/-- A node with a type, two properties, a typed value, a nested node and a reverse property. -/
def mapIdsDoc : Doc :=
  [.node (.mk none (some (.iri "ex:a".toList)) (some [.iri "ex:T".toList])
      (some [.node (.mk none (some (.blank "_:x".toList)) none none none [] none)]) none
      [(.iri "ex:p".toList, [.value none (.literal (.str "1".toList) (some "ex:int".toList))]),
       (.iri "ex:q".toList, [.node (.mk none (some (.iri "ex:a".toList)) none none none [] none)])]
      (some [(.iri "ex:r".toList, [.mk none (some (.blank "_:y".toList)) none none none [] none])]))]

/-- A dash before each identifier. -/
def dashed : Id → Id
  | .iri s => .iri ('-' :: s)
  | .blank s => .blank ('-' :: s)
  | .invalid s => .invalid ('-' :: s)

theorem dashed_inj (i j : Id) (h : dashed i = dashed j) : i = j := by
  cases i <;> cases j <;> simp_all [dashed]

example : statements (mapIdsDoc.mapIds dashed id) =
    (statements mapIdsDoc).map (replaceQuad dashed id) ∧ (statements mapIdsDoc).length = 4 :=
  ⟨C81_statements _ _ _ (by simp [mapIdsDoc, Doc.WF, gWF, objsWF, Obj.WF, Node.WF, incWF, psWF, rvWF, rpsWF, nodesWF])
    (fun i j _ _ => dashed_inj i j) (fun _ _ _ _ h => h), by with_unfolding_all rfl⟩

/-- Every identifier replaced by the same one: the two properties become one. -/
example : (mapIdsDoc.mapIds (fun _ => .iri "ex:o".toList) id).map (fun o => match o with
      | .node n => n.props.map fun p => (p.1, p.2.length)
      | _ => []) = [[(.iri "ex:o".toList, 2)]] := by
  with_unfolding_all rfl

/-- Two nodes that become equal are kept once. -/
example : (Doc.mapIds (fun _ => .iri "ex:o".toList) id
    [.node (.mk none (some (.iri "ex:a".toList)) none none none [] none),
     .node (.mk none (some (.iri "ex:b".toList)) none none none [] none)]).length = 1 := by
  with_unfolding_all rfl

end JsonLd
