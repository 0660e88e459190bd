import Verif.Proofs.FlattenRename
/-!
# C90: flattening twice
-/

namespace JsonLd.Props
open JsonLd Spec Again

section
variable {gen : Nat → Id} {f : List Node}

/-- C90, what flattening gives. A flattened document is flat (`FlatDoc`), and none of its nodes says nothing: at the top
a node has an index, types, a graph or a property, and in a named graph it has an index or a property. -/
theorem C90_flat {d : Doc} (h : Relabelable gen d) {n : Nat} (hf : Flattened gen d n f) : FlatDoc f := by
  obtain ⟨h1, h2, h3⟩ := C16_flat h hf
  have hr := @C17_no_repetition gen d h n f hf
  obtain ⟨m, ent, hi, hfo⟩ := flattened_ok h hf
  refine ⟨h1, h2, ?_, ?_, ?_⟩
  · intro g p hp
    obtain ⟨a, b, c, _, e, k⟩ := h3 g p hp
    exact ⟨a, b, c, e, k, fun k os hk => hr hp hk⟩
  · intro g p hp
    refine ⟨(h3 _ _ hp).2.2.2.1 nofun, ?_⟩
    obtain ⟨q, hq, hx, l, hl, hp⟩ := hp
    obtain ⟨x, hs, hk⟩ := (flat_default hfo).1 hq
    have hid : x = g := by
      have := setGraphOf_id hi hs
      rw [hx] at this
      exact (Option.some.inj this).symm
    subst hid
    have hg := setGraphOf_graph hs
    rw [hl] at hg
    cases hG : m.graph (some x) with
    | none => rw [hG] at hg; cases hg
    | some G =>
      rw [hG] at hg
      cases hg
      obtain ⟨i, n', _, hk', he⟩ := (ent_mem hi hfo hG).1 hp
      cases he
      obtain ⟨j, id, ty, gr, inc, ps, rv⟩ := n'
      by_cases hj : j = none
      · right
        intro hps
        exact hk' (by simp only [Node.index, Node.props, trim] at hps ⊢; subst hj; rw [hps]; rfl)
      · exact Or.inl hj
  · intro p hp
    obtain ⟨x, hs, hk⟩ := (flat_default hfo).1 hp
    obtain ⟨_, hinc, hrev, _⟩ := h3 none p hp
    obtain ⟨j, id, ty, gr, inc, ps, rv⟩ := p
    simp only [Node.included, Node.rev] at hinc hrev
    subst hinc hrev
    by_contra hc
    simp only [not_or, not_not, Node.index, Node.types, Node.graph, Node.props] at hc
    obtain ⟨rfl, rfl, rfl, rfl⟩ := hc
    exact hk rfl

/-- C90. Flattening a flat document never fails, and gives the document back: the same nodes up to their order, with
their blank node labels, and nothing else, renamed without confusing any two of them. -/
theorem C90_fixed (hf : FlatDoc f) (hinj : ∀ i j, gen i = gen j → i = j)
    (hfresh : ∀ i ∈ docIds (f.map .node), (∀ b, i ≠ .blank b) → ∀ k, gen k ≠ i) (n : Nat) :
    (∀ o ordered, ∃ f', Doc.flatten gen o ordered (f.map .node) n = .ok f') ∧
    (∀ o, ∃ f', Doc.flattenUnordered gen o (f.map .node) n = .ok f') ∧
    ∃ ρ : Str → Id,
      (∀ b, .blank b ∈ docIds (f.map .node) → ∃ k, ρ b = gen k) ∧
      (∀ i ∈ docIds (f.map .node), ∀ j ∈ docIds (f.map .node), renameId ρ i = renameId ρ j → i = j) ∧
      ∀ f', Flattened gen (f.map .node) n f' →
        PermRel SameNode (f.map (mapNode (Option.map (renameId ρ)) (renameId ρ))) f' := by
  have hR : Relabelable gen (f.map .node) :=
    ⟨hinj, doc_WF hf, fun h hh i hi => hfresh i (List.mem_flatMap.2 ⟨h, hh, hi⟩)⟩
  obtain ⟨ρ, h1, h2, h3⟩ := flat_relabel hf hinj hfresh n
  have hF := flatDoc_map hf h2
  have hmap := nodeMap_eq gen (f.map .node) n
  rw [pwalk_relabel gen hinj _ hR.wf hR.fresh n, h3] at hmap
  rcases nodeMap_run hR n with ⟨m, hm, hi⟩ | ⟨id, a, b, he, hc⟩
  · rw [h3] at hi
    rw [hm] at hmap
    refine ⟨?_, ?_, ρ, h1, h2, ?_⟩
    · intro o ordered
      obtain ⟨f', hf', _⟩ := flatten_flatOf hi o ordered
      exact ⟨f', by simp only [Doc.flatten, hm, hf', bind, Except.bind]; rfl⟩
    · intro o
      obtain ⟨f', hf', _⟩ := flattenUnordered_flatOf hi o
      exact ⟨f', by simp only [Doc.flattenUnordered, hm, hf', bind, Except.bind]; rfl⟩
    · intro f' hf'
      have : ∃ ent, FlatOf m ent f' := by
        cases hf' with
        | list h =>
          rename_i o ordered
          obtain ⟨f'', h1, h2⟩ := flatten_flatOf hi o ordered
          simp only [Doc.flatten, hm, h1, bind, Except.bind] at h
          cases h
          exact ⟨_, h2⟩
        | set h =>
          rename_i o
          obtain ⟨f'', h1, h2⟩ := flattenUnordered_flatOf hi o
          simp only [Doc.flattenUnordered, hm, h1, bind, Except.bind] at h
          cases h
          exact ⟨_, h2⟩
      obtain ⟨ent, hfo⟩ := this
      exact flatOf_again hF hmap.symm hi hfo
  · rw [h3] at hc
    exact absurd hc (no_conflict hF)

/-- C90, without blank nodes: flattening a flat document gives the same nodes, up to their order. -/
theorem C90_unchanged (hf : FlatDoc f) (hinj : ∀ i j, gen i = gen j → i = j)
    (hfresh : ∀ i ∈ docIds (f.map .node), ∀ k, gen k ≠ i) (hb : ∀ b, .blank b ∉ docIds (f.map .node)) {n : Nat}
    {f' : List Node} (hf' : Flattened gen (f.map .node) n f') : PermRel SameNode f f' := by
  obtain ⟨_, _, ρ, _, _, h⟩ := C90_fixed hf hinj (fun i hi _ => hfresh i hi) n
  have hfix : ∀ i ∈ docIds (f.map .node), renameId ρ i = i := by
    intro i hi
    cases i with
    | blank b => exact absurd hi (hb b)
    | iri _ => rfl
    | invalid _ => rfl
  have := mapDoc_fix (Option.map (renameId ρ)) (renameId ρ) (f.map .node) (by
    rintro ⟨x, ts⟩ hx
    have hx1 : x.map (renameId ρ) = x := by
      cases x with
      | none => rfl
      | some x => exact congrArg some (hfix x (List.mem_flatMap.2 ⟨_, hx, by simp [headerIds]⟩))
    have hx2 : ts.map (List.map (renameId ρ)) = ts := by
      cases ts with
      | none => rfl
      | some ts =>
        refine congrArg some ?_
        rw [List.map_congr_left (g := id) fun t ht =>
          hfix t (List.mem_flatMap.2 ⟨_, hx, by simp [headerIds, ht]⟩)]
        simp
    simp only [hx1, hx2])
  simp only [mapDoc, mapObjs_eq, List.map_map] at this
  have hm : f.map (mapNode (Option.map (renameId ρ)) (renameId ρ)) = f := by
    have inj : Function.Injective Obj.node := fun a b h => by cases h; rfl
    refine List.map_injective_iff.2 inj ?_
    rw [List.map_map]
    exact this
  rw [← hm]
  exact h f' hf'

/-- C90, flattening twice. Whatever the options and the iteration orders of both runs, and whatever labels the second
assigns, flattening a flattened document succeeds and gives the same document with its blank nodes renamed. -/
theorem C90_twice {gen' : Nat → Id} {d : Doc} (h : Relabelable gen d) {n : Nat} (hf : Flattened gen d n f)
    (hinj : ∀ i j, gen' i = gen' j → i = j)
    (hfresh : ∀ i ∈ docIds (f.map .node), (∀ b, i ≠ .blank b) → ∀ k, gen' k ≠ i) (n' : Nat) :
    (∀ o ordered, ∃ f', Doc.flatten gen' o ordered (f.map .node) n' = .ok f') ∧
    (∀ o, ∃ f', Doc.flattenUnordered gen' o (f.map .node) n' = .ok f') ∧
    ∃ ρ : Str → Id,
      (∀ b, .blank b ∈ docIds (f.map .node) → ∃ k, ρ b = gen' k) ∧
      (∀ i ∈ docIds (f.map .node), ∀ j ∈ docIds (f.map .node), renameId ρ i = renameId ρ j → i = j) ∧
      ∀ f', Flattened gen' (f.map .node) n' f' →
        PermRel SameNode (f.map (mapNode (Option.map (renameId ρ)) (renameId ρ))) f' :=
  C90_fixed (C90_flat h hf) hinj hfresh n'

end

/-- The hypotheses are met by the document of C16, whose flattening has a named graph, a list and two blank nodes. -/
example : FlatDoc exFlat := C90_flat exNested_ok (.list exNested_flat)

/-- Other labels: `c`, `cc`, … -/
def exGenC (k : Nat) : Id := .blank (List.replicate (k + 1) 'c')

theorem exGenC_injective (i j : Nat) (h : exGenC i = exGenC j) : i = j := by
  simp only [exGenC, Id.blank.injEq] at h
  have := congrArg List.length h
  simpa using this

/-- Flattened again with other labels, `b` becomes `c` and `bb` becomes `cc`, and nothing else changes. -/
example : Doc.flatten exGenC Orders.backwards true (exFlat.map .node) 0 = .ok
    [.mk (some "i".toList) (some (.iri "a".toList)) (some [.iri "T".toList])
      (some [.node (.mk none (some (.iri "a".toList)) none none none
        [(.iri "q".toList, [.value none (.literal (.str "x".toList) none)])] none)]) none
      [(.iri "p".toList, [.list none [bareNode (some (.blank "c".toList))]])] none,
    .mk none (some (.blank "c".toList)) none none none
      [(.iri "q".toList, [.value none (.literal (.str "x".toList) none)])] none,
    .mk none (some (.blank "cc".toList)) none none none
      [(.iri "r".toList, [bareNode (some (.iri "a".toList))])] none] := by
  decide +kernel

/-- Labels of this generator are fresh whatever the document. -/
example {gen : Nat → Id} {d : Doc} (h : Relabelable gen d) {n : Nat} {f : List Node} (hf : Flattened gen d n f) (n' : Nat)
    (o : Orders) : ∃ f', Doc.flatten exGenC o true (f.map .node) n' = .ok f' :=
  (C90_twice h hf exGenC_injective (fun _ _ hb _ he => hb _ he.symm) n').1 o true

end JsonLd.Props
