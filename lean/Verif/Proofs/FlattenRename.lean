import Verif.Proofs.FlattenAgain
import Verif.Proofs.MappedEq
import Verif.Props.Flatten
/-!
# Renaming the blank nodes of a flat document
-/

namespace JsonLd.Again
open JsonLd Spec Props

theorem flat_WF : ∀ o : Obj, FlatValue o → o.WF := by
  have : (∀ o : Obj, FlatValue o → o.WF) ∧ (∀ _ : Node, True) := by
    apply Doc.ind
    · intro i v _; trivial
    · intro i l ih h
      exact objsWF_iff.2 fun o ho => ih o ho (flatValues_iff.1 h o ho)
    · intro n _ h
      obtain ⟨i, h⟩ := h
      rw [h]
      exact ⟨trivial, trivial, List.nodup_nil, trivial, trivial⟩
    · intros; trivial
  exact this.1

theorem flat_named : ∀ o : Obj, FlatValue o → ∀ h ∈ objHeaders o, h.1.isSome = true := by
  have : (∀ o : Obj, FlatValue o → ∀ h ∈ objHeaders o, h.1.isSome = true) ∧ (∀ _ : Node, True) := by
    apply Doc.ind
    · intro i v _ h hh; cases hh
    · intro i l ih h x hx
      simp only [objHeaders, objsHeaders_eq] at hx
      obtain ⟨o, ho, hx⟩ := List.mem_flatMap.1 hx
      exact ih o ho (flatValues_iff.1 h o ho) x hx
    · intro n _ h x hx
      obtain ⟨i, h⟩ := h
      rw [h] at hx
      simp only [bareNode, objHeaders, nodeHeaders, gHeaders, incHeaders, psHeaders, rvHeaders, List.append_nil,
        List.mem_singleton] at hx
      rw [hx]
      rfl
    · intros; trivial
  exact this.1

theorem flat_map (r : Id → Id) : ∀ o : Obj, FlatValue o → FlatValue (mapObj (Option.map r) r o) := by
  have : (∀ o : Obj, FlatValue o → FlatValue (mapObj (Option.map r) r o)) ∧ (∀ _ : Node, True) := by
    apply Doc.ind
    · intro i v _; trivial
    · intro i l ih h
      simp only [mapObj, mapObjs_eq, FlatValue]
      refine flatValues_iff.2 fun o ho => ?_
      obtain ⟨o', ho', rfl⟩ := List.mem_map.1 ho
      exact ih o' ho' (flatValues_iff.1 h o' ho')
    · intro n _ h
      obtain ⟨i, h⟩ := h
      rw [h]
      exact ⟨r i, rfl⟩
    · intros; trivial
  exact this.1

theorem eq_ids {a b : Node} (h : a.eq b = true) : a.id = b.id := by
  obtain ⟨i, id, ty, gr, inc, ps, rv⟩ := a
  obtain ⟨i', id', ty', gr', inc', ps', rv'⟩ := b
  simp only [Node.eq, Bool.and_eq_true, decide_eq_true_eq] at h
  exact h.1.1.1.1.1.2

theorem nodes_distinct {ns : List Node} (h : (ns.map Node.id).Nodup) :
    (ns.map Obj.node).Pairwise fun a b => b.eq a = false := by
  refine List.pairwise_map.2 ((List.pairwise_map.1 h).imp ?_)
  intro a b hne
  cases he : (Obj.node b).eq (Obj.node a) with
  | false => rfl
  | true =>
    simp only [Obj.eq] at he
    exact absurd (eq_ids he).symm hne

section
variable {f : List Node} (hf : FlatDoc f)
include hf

omit hf in
theorem plain_WF {p : Node} (hp : PlainNode p) (hg : gWF p.graph) : p.WF := by
  obtain ⟨h1, h2, h3, h4, h5, h6⟩ := hp
  obtain ⟨i, id, ty, gr, inc, ps, rv⟩ := p
  simp only [Node.included, Node.rev, Node.props, Node.graph] at h2 h3 h4 h5 hg
  subst h2 h3
  refine ⟨hg, trivial, h4, ?_, trivial⟩
  have : ∀ ps : List (Id × List Obj), (∀ k os, (k, os) ∈ ps → ∀ o ∈ os, FlatValue o) → psWF ps := by
    intro ps
    induction ps with
    | nil => intro _; trivial
    | cons p ps ih =>
      obtain ⟨k, os⟩ := p
      intro h
      exact ⟨objsWF_iff.2 fun o ho => flat_WF o (h k os List.mem_cons_self o ho),
        ih fun k' os' hk => h k' os' (List.mem_cons_of_mem _ hk)⟩
  exact this ps h5

theorem doc_WF : Doc.WF (f.map .node) := by
  refine ⟨nodes_distinct hf.ids, objsWF_iff.2 fun o ho => ?_⟩
  obtain ⟨p, hp, rfl⟩ := List.mem_map.1 ho
  refine plain_WF (plain_top hf hp) ?_
  cases hg : p.graph with
  | none => trivial
  | some l =>
    obtain ⟨x, hx⟩ := id_of_plain (plain_top hf hp)
    obtain ⟨ns, rfl, hns⟩ := hf.members p hp l hg
    refine ⟨nodes_distinct hns, objsWF_iff.2 fun o ho => ?_⟩
    obtain ⟨q, hq, rfl⟩ := List.mem_map.1 ho
    have hfq := flatNode_of hp hx hg hq
    refine plain_WF (hf.plain _ _ hfq) ?_
    rw [(hf.nested _ _ hfq).1]
    trivial

omit hf in
theorem plain_named {p : Node} (hp : PlainNode p) (hg : ∀ h ∈ gHeaders p.graph, h.1.isSome = true) :
    ∀ h ∈ nodeHeaders p, h.1.isSome = true := by
  obtain ⟨h1, h2, h3, h4, h5, h6⟩ := hp
  obtain ⟨i, id, ty, gr, inc, ps, rv⟩ := p
  simp only [Node.id, Node.included, Node.rev, Node.props, Node.graph] at h1 h2 h3 h5 hg
  subst h2 h3
  intro h hh
  simp only [nodeHeaders, incHeaders, rvHeaders, List.append_nil, List.mem_cons, List.mem_append] at hh
  rcases hh with rfl | hh | hh
  · exact h1
  · exact hg h hh
  · rw [psHeaders_eq] at hh
    simp only [List.mem_flatMap] at hh
    obtain ⟨⟨k, os⟩, hk, o, ho, hh⟩ := hh
    exact flat_named o (h5 k os hk o ho) h hh

theorem doc_named : ∀ h ∈ docHeaders (f.map .node), h.1.isSome = true := by
  intro h hh
  simp only [docHeaders, objsHeaders_eq] at hh
  obtain ⟨o, ho, hh⟩ := List.mem_flatMap.1 hh
  obtain ⟨p, hp, rfl⟩ := List.mem_map.1 ho
  refine plain_named (plain_top hf hp) ?_ h hh
  cases hg : p.graph with
  | none => intro h hh; cases hh
  | some l =>
    obtain ⟨x, hx⟩ := id_of_plain (plain_top hf hp)
    obtain ⟨ns, rfl, hns⟩ := hf.members p hp l hg
    intro h hh
    simp only [gHeaders, objsHeaders_eq] at hh
    obtain ⟨o, ho, hh⟩ := List.mem_flatMap.1 hh
    obtain ⟨q, hq, rfl⟩ := List.mem_map.1 ho
    have hfq := flatNode_of hp hx hg hq
    refine plain_named (hf.plain _ _ hfq) ?_ h hh
    rw [(hf.nested _ _ hfq).1]
    intro h hh; cases hh

omit hf in
theorem flat_occurs {g : Option Id} {p : Node} (hp : FlatNode f g p) : Occurs (f.map .node) g (.node p) := by
  cases g with
  | none => exact .self (.top (List.mem_map_of_mem hp))
  | some i =>
    obtain ⟨m, hm, hi, l, hl, hp⟩ := hp
    exact .self (.graph (.self (.top (List.mem_map_of_mem hm))) hi hl hp)

omit hf in
theorem occurs_id {d : Doc} {g : Option Id} {p : Node} (hp : Occurs d g (.node p)) {x : Id} (hx : p.id = some x) :
    x ∈ docIds d := by
  refine List.mem_flatMap.2 ⟨(p.id, p.types), occurs_headers hp _ ?_, ?_⟩
  · obtain ⟨i, id, ty, gr, inc, ps, rv⟩ := p
    exact List.mem_cons_self
  · simp [headerIds, hx]

/-- A renaming that confuses no identifiers keeps the document flat. -/
theorem flatDoc_map {r : Id → Id} (hr : ∀ i ∈ docIds (f.map .node), ∀ j ∈ docIds (f.map .node), r i = r j → i = j) :
    FlatDoc (f.map (mapNode (Option.map r) r)) := by
  have hid : ∀ n : Node, (mapNode (Option.map r) r n).id = n.id.map r := by rintro ⟨i, id, ty, gr, inc, ps, rv⟩; rfl
  have hgr : ∀ n : Node, (mapNode (Option.map r) r n).graph = n.graph.map (List.map (mapObj (Option.map r) r)) := by
    rintro ⟨i, id, ty, gr, inc, ps, rv⟩
    exact mapG_eq _ _ _
  have hps : ∀ n : Node, (mapNode (Option.map r) r n).props =
      n.props.map fun p => (p.1, p.2.map (mapObj (Option.map r) r)) := by
    rintro ⟨i, id, ty, gr, inc, ps, rv⟩
    exact mapPs_eq _ _ _
  have hindex : ∀ n : Node, (mapNode (Option.map r) r n).index = n.index := by rintro ⟨i, id, ty, gr, inc, ps, rv⟩; rfl
  have hty : ∀ n : Node, (mapNode (Option.map r) r n).types = n.types.map (List.map r) := by
    rintro ⟨i, id, ty, gr, inc, ps, rv⟩; rfl
  have hids : ∀ ns : List Node, (ns.map Node.id).Nodup →
      (∀ q ∈ ns, ∃ g, FlatNode f g q) → ((ns.map (mapNode (Option.map r) r)).map Node.id).Nodup := by
    intro ns hns hin
    rw [List.map_map]
    have : (Node.id ∘ mapNode (Option.map r) r) = (Option.map r) ∘ Node.id := by
      funext n; exact hid n
    rw [this, ← List.map_map]
    refine hns.map_on ?_
    intro a ha b hb hab
    obtain ⟨p, hp, rfl⟩ := List.mem_map.1 ha
    obtain ⟨q, hq, rfl⟩ := List.mem_map.1 hb
    obtain ⟨g, hp⟩ := hin p hp
    obtain ⟨g', hq⟩ := hin q hq
    obtain ⟨x, hx⟩ := id_of_plain (hf.plain _ _ hp)
    obtain ⟨y, hy⟩ := id_of_plain (hf.plain _ _ hq)
    rw [hx, hy] at hab ⊢
    rw [hr x (occurs_id (flat_occurs hp) hx) y (occurs_id (flat_occurs hq) hy) (Option.some.inj hab)]
  -- nodes of the renamed document are renamed nodes
  have hback : ∀ g p, FlatNode (f.map (mapNode (Option.map r) r)) g p →
      ∃ g' p', FlatNode f g' p' ∧ p = mapNode (Option.map r) r p' ∧ (g ≠ none → g' ≠ none) := by
    intro g p hp
    cases g with
    | none =>
      obtain ⟨p', hp', rfl⟩ := List.mem_map.1 hp
      exact ⟨none, p', hp', rfl, fun h => absurd rfl h⟩
    | some i =>
      obtain ⟨m, hm, hi, l, hl, hp⟩ := hp
      obtain ⟨m', hm', rfl⟩ := List.mem_map.1 hm
      rw [hgr] at hl
      cases hg : m'.graph with
      | none => rw [hg] at hl; cases hl
      | some l' =>
        rw [hg] at hl
        cases hl
        obtain ⟨o, ho, he⟩ := List.mem_map.1 hp
        obtain ⟨x, hx⟩ := id_of_plain (plain_top hf hm')
        obtain ⟨ns, rfl, hns⟩ := hf.members m' hm' l' hg
        obtain ⟨q, hq, rfl⟩ := List.mem_map.1 ho
        cases he
        exact ⟨some x, q, flatNode_of hm' hx hg hq, rfl, fun _ => nofun⟩
  refine ⟨hids f hf.ids fun q hq => ⟨none, hq⟩, ?_, ?_, ?_, ?_⟩
  · intro p hp l hl
    obtain ⟨p', hp', rfl⟩ := List.mem_map.1 hp
    rw [hgr] at hl
    cases hg : p'.graph with
    | none => rw [hg] at hl; cases hl
    | some l' =>
      rw [hg] at hl
      cases hl
      obtain ⟨x, hx⟩ := id_of_plain (plain_top hf hp')
      obtain ⟨ns, rfl, hns⟩ := hf.members p' hp' l' hg
      refine ⟨ns.map (mapNode (Option.map r) r), ?_, hids ns hns fun q hq => ⟨_, flatNode_of hp' hx hg hq⟩⟩
      rw [List.map_map, List.map_map]
      rfl
  · intro g p hp
    obtain ⟨g', p', hp', rfl, _⟩ := hback g p hp
    have h := hf.plain _ _ hp'
    refine ⟨?_, ?_, ?_, ?_, ?_, ?_⟩
    · rw [hid, Option.isSome_map]; exact h.id
    · have := h.included
      obtain ⟨i, id, ty, gr, inc, ps, rv⟩ := p'
      simp only [Node.included] at this
      subst this
      rfl
    · have := h.rev
      obtain ⟨i, id, ty, gr, inc, ps, rv⟩ := p'
      simp only [Node.rev] at this
      subst this
      rfl
    · rw [hps, List.map_map]
      exact h.keys
    · intro k os hk o ho
      rw [hps] at hk
      obtain ⟨⟨k', os'⟩, hk', he⟩ := List.mem_map.1 hk
      cases he
      obtain ⟨o', ho', rfl⟩ := List.mem_map.1 ho
      exact flat_map r o' (h.values _ _ hk' o' ho')
    · intro k os hk
      rw [hps] at hk
      obtain ⟨⟨k', os'⟩, hk', he⟩ := List.mem_map.1 hk
      cases he
      refine List.pairwise_map.2 ((h.once _ _ hk').imp_of_mem ?_)
      intro a b ha hb hab he
      have fa := h.values _ _ hk' a ha
      have fb := h.values _ _ hk' b hb
      cases a with
      | list i l => exact ⟨i, _, rfl⟩
      | value i v =>
        cases b with
        | value j w =>
          obtain ⟨_, _, h⟩ := hab he
          cases h
        | list => simp [mapObj, Obj.eq] at he
        | node => simp [mapObj, Obj.eq] at he
      | node q =>
        cases b with
        | value => simp [mapObj, Obj.eq] at he
        | list => simp [mapObj, Obj.eq] at he
        | node q' =>
          have oc := flat_occurs hp'
          have oa := (oc.property hk' ha).self
          have ob := (oc.property hk' hb).self
          obtain ⟨i, hi⟩ := fa
          obtain ⟨j, hj⟩ := fb
          cases hi
          cases hj
          simp only [mapObj, Obj.eq] at he
          have hij := eq_ids he
          rw [hid, hid] at hij
          have := hr i (occurs_id oa rfl) j (occurs_id ob rfl) (Option.some.inj hij)
          subst this
          obtain ⟨_, _, h⟩ := hab (Obj.eqOk (flat_WF (bareNode (some i)) ⟨i, rfl⟩)).1
          cases h
  · intro g p hp
    obtain ⟨g', p', hp', rfl, hg⟩ := hback _ p hp
    cases g' with
    | none => exact absurd rfl (hg nofun)
    | some x =>
      have h := hf.nested _ _ hp'
      rw [hgr, hindex, hps, h.1]
      refine ⟨rfl, h.2.imp id fun h => ?_⟩
      simpa using h
  · intro p hp
    obtain ⟨p', hp', rfl⟩ := List.mem_map.1 hp
    have h := hf.top p' hp'
    rw [hindex, hgr, hty, hps]
    simpa using h

/-- A flat document is relabelled by renaming its blank nodes. -/
theorem flat_relabel {gen : Nat → Id} (hinj : ∀ i j, gen i = gen j → i = j)
    (hfresh : ∀ i ∈ docIds (f.map .node), (∀ b, i ≠ .blank b) → ∀ k, gen k ≠ i) (n : Nat) :
    ∃ ρ : Str → Id, (∀ b, .blank b ∈ docIds (f.map .node) → ∃ k, ρ b = gen k) ∧
      (∀ i ∈ docIds (f.map .node), ∀ j ∈ docIds (f.map .node), renameId ρ i = renameId ρ j → i = j) ∧
      (Doc.relabel gen (f.map .node) n).1 =
        (f.map (mapNode (Option.map (renameId ρ)) (renameId ρ))).map .node := by
  obtain ⟨ρ, _, h2, h3, _, h5⟩ := C14_relabel_partial gen hinj (f.map .node) (doc_WF hf)
    (fun h hh i hi => hfresh i (List.mem_flatMap.2 ⟨h, hh, hi⟩)) n
  have hl : ∀ (is : List Id) b, b ∈ blankLabels is ↔ .blank b ∈ is := by
    intro is b
    induction is with
    | nil => simp [blankLabels]
    | cons i is ih => cases i <;> simp [blankLabels, ih]
  have hlab : ∀ b, .blank b ∈ docIds (f.map .node) → ∃ k, ρ b = gen k := fun b hb => h2 b ((hl _ b).2 hb)
  refine ⟨ρ, hlab, ?_, ?_⟩
  · have hn := (List.nodup_append.1 h3).2.1
    have hinj : ∀ b, .blank b ∈ docIds (f.map .node) → ∀ c, .blank c ∈ docIds (f.map .node) → ρ b = ρ c → b = c := by
      intro b hb c hc he
      exact List.inj_on_of_nodup_map hn (List.mem_dedup.2 ((hl _ b).2 hb)) (List.mem_dedup.2 ((hl _ c).2 hc)) he
    intro i hi j hj he
    cases i with
    | blank b =>
      cases j with
      | blank c => rw [hinj b hi c hj he]
      | iri c =>
        obtain ⟨k, hk⟩ := hlab b hi
        exact absurd (hk.symm.trans he) (hfresh _ hj nofun k)
      | invalid c =>
        obtain ⟨k, hk⟩ := hlab b hi
        exact absurd (hk.symm.trans he) (hfresh _ hj nofun k)
    | iri c =>
      cases j with
      | blank b =>
        obtain ⟨k, hk⟩ := hlab b hj
        exact absurd (hk.symm.trans he.symm) (hfresh _ hi nofun k)
      | iri _ => exact he
      | invalid _ => exact he
    | invalid c =>
      cases j with
      | blank b =>
        obtain ⟨k, hk⟩ := hlab b hj
        exact absurd (hk.symm.trans he.symm) (hfresh _ hi nofun k)
      | iri _ => exact he
      | invalid _ => exact he
  · rw [h5 (doc_named hf)]
    simp only [mapDoc, mapObjs_eq, List.map_map]
    rfl

end

end JsonLd.Again
