import Verif.Proofs.FlattenJson
/-!
# C94: writing and reading a flattened document
-/

namespace JsonLd.Props
open JsonLd Spec

/-- An identifier the document may use, and one it may use as type. -/
private def OkId (E : XEnv) (c : ACtx) (i : Id) : Prop := GoodId E.toIriEnv i ∧ ReadableId c i

private def OkType (E : XEnv) (c : ACtx) (i : Id) : Prop := GoodId E.toIriEnv i ∧ ReadableType E c i

theorem blankGen_good {env : IriEnv} (f : EnvFacts env) {gen : Nat → Id} (hg : BlankGen env gen) (k : Nat) :
    GoodId env (gen k) ∧ (gen k).isValid = true := by
  obtain ⟨b, e, hb⟩ := hg k
  rw [e]
  refine ⟨⟨?_, hb⟩, rfl⟩
  cases hi : env.isIri b with
  | false => rfl
  | true =>
    obtain ⟨p, x, e1, h1, h2, _, h3⟩ := f.scheme b hi
    obtain ⟨y, e2⟩ := f.blank b hb
    rw [e2] at e1
    cases p with
    | nil => exact absurd rfl h2
    | cons a p =>
      cases p with
      | nil => simp only [List.cons_append, List.nil_append, List.cons.injEq] at e1
               exact absurd (by rw [e1.1]) h3
      | cons a' p =>
        simp only [List.cons_append, List.cons.injEq] at e1
        exact absurd (by rw [e1.2.1]; simp) h1

section
variable {gen : Nat → Id} {d : Doc} {n : Nat} {f : List Node} {E : XEnv} {c : ACtx}

/-- The nodes inside a flattened document. -/
theorem flattened_node (ef : EnvFacts E.toIriEnv) (hg : BlankGen E.toIriEnv gen) (h : Relabelable gen d)
    (hf : Flattened gen d n f) (hr : Readable E c d) {p : Node} (hp : Inside (f.map Obj.node) (.node p)) :
    NodeIdsOk E.toIriEnv.isIri E.toIriEnv.isBlank p ∧ (∀ i, p.id = some i → ReadableId c i) ∧
      (∀ ts, p.types = some ts → ts ≠ [] ∧ ∀ t ∈ ts, ReadableType E c t) ∧
      AbsoluteKeys E p ∧ p.included = none ∧ p.rev = none ∧ p.id ≠ none ∧
      ∀ l, p.graph = some l → ∀ o ∈ l, Says o := by
  have hfd := C90_flat h hf
  have hgen := blankGen_good ef hg
  have hnames := relabel_names h n (P := OkId E c) (Q := OkType E c) (fun k => ⟨(hgen k).1, .inl (hgen k).2⟩)
    (fun k => ⟨(hgen k).1, .inl (hgen k).2⟩) (fun x hx => by
      obtain ⟨m, hm, rfl⟩ := docHeader_node hx
      have hok := hr.good.nodes m hm
      exact ⟨fun i hi => ⟨hok.id i hi, hr.ids m hm i hi⟩, fun ts hts => ⟨(hr.types m hm ts hts).1, fun t ht =>
        ⟨hok.types ts hts t ht, (hr.types m hm ts hts).2 t ht⟩⟩⟩)
  obtain ⟨_, -, -, -, hshape, -⟩ := C14_relabel_partial gen h.injective d h.wf h.fresh n
  obtain ⟨g, hs⟩ := flattened_sourced h hf hp
  rcases hs with hpf | ⟨m, hm, e⟩
  · obtain ⟨⟨q, hq, hqi⟩, hty, hks⟩ := flat_names h hf hpf
    have hid : ∀ i, p.id = some i → OkId E c i := fun i hi =>
      (hnames _ (inside_node_header hq)).1 i (hqi.trans hi)
    have htys : ∀ ts, p.types = some ts → ts ≠ [] ∧ ∀ t ∈ ts, OkType E c t := fun ts hts => by
      obtain ⟨q, hq, e⟩ := hty ts hts
      exact (hnames _ (inside_node_header hq)).2 ts e
    have hkey : ∀ x ∈ p.props, GoodId E.toIriEnv x.1 ∧ Absolute E x.1 := by
      rintro ⟨k, os⟩ hk
      obtain ⟨q, hq, hk⟩ := hks k os hk
      obtain ⟨q', hq', e1, e2⟩ := shape_node hshape hq
      have hok := hr.good.nodes q' hq'
      have hab := hr.keys q' hq'
      rcases hk with hk | ⟨r, hrr, hk⟩
      · rw [e1] at hk
        obtain ⟨y, hy, rfl⟩ := List.mem_map.1 hk
        exact ⟨hok.props y hy, hab.props y hy⟩
      · rw [hrr] at e2
        cases hr' : q'.rev with
        | none => rw [hr'] at e2; cases e2
        | some r' =>
          rw [hr'] at e2
          have e3 : r.map Prod.fst = r'.map Prod.fst := Option.some.inj e2
          rw [e3] at hk
          obtain ⟨y, hy, rfl⟩ := List.mem_map.1 hk
          exact ⟨hok.rev r' hr' y hy, hab.rev r' hr' y hy⟩
    have hpl := hfd.plain g p hpf
    refine ⟨⟨fun i hi => (hid i hi).1, fun ts hts t ht => ((htys ts hts).2 t ht).1, fun x hx => (hkey x hx).1, ?_⟩,
      fun i hi => (hid i hi).2, fun ts hts => ⟨(htys ts hts).1, fun t ht => ((htys ts hts).2 t ht).2⟩,
      ⟨fun x hx => (hkey x hx).2, ?_⟩, hpl.included, hpl.rev, Option.isSome_iff_ne_none.1 hpl.id, ?_⟩
    · rw [hpl.rev]; exact nofun
    · rw [hpl.rev]; exact nofun
    · intro l hl o ho
      cases g with
      | some i => rw [(hfd.nested i p hpf).1] at hl; cases hl
      | none =>
        obtain ⟨ns, rfl, _⟩ := hfd.members p hpf l hl
        obtain ⟨q, hq, rfl⟩ := List.mem_map.1 ho
        obtain ⟨i, hi⟩ := Option.isSome_iff_exists.1 hpl.id
        have hqf : FlatNode f (some i) q := ⟨p, hpf, hi, _, hl, ho⟩
        refine ⟨q, rfl, ?_⟩
        rcases (hfd.nested i q hqf).2 with h | h
        · exact .inr h
        · left
          obtain ⟨_, _, _, _, _, ps, _⟩ := q
          cases ps with
          | nil => exact absurd rfl h
          | cons a l => simp [Node.isEmpty]
  · have hid : ∀ i, p.id = some i → OkId E c i := fun i hi => by
      cases e
      exact (hnames _ (inside_node_header hm)).1 i hi
    have hsome : p.id ≠ none := by
      obtain ⟨ρ, h1, _⟩ := C14_relabel_partial gen h.injective d h.wf h.fresh n
      obtain ⟨_, _, h2⟩ := forall₂_exists_right h1.flip (inside_node_header hm)
      cases e
      exact Option.isSome_iff_ne_none.1 h2.2.1
    cases e
    exact ⟨⟨fun i hi => (hid i hi).1, nofun, nofun, nofun⟩, fun i hi => (hid i hi).2, nofun, ⟨nofun, nofun⟩, rfl, rfl,
      hsome, nofun⟩

/-- C94: a flattened document, written as JSON, is expanded to itself, in any context without terms and without
vocabulary mapping. It is enough that the identifiers, types, keys and values of the document can be read again
(`Readable`), and that the generator gives blank node identifiers: nothing is required of included nodes, of members
of graphs and of objects that say nothing, for which expansion alone does not have the property (see C45). -/
theorem C94_flattened_fixed (ef : EnvFacts E.toIriEnv) (hc : EmptyCtx c)
    (hg : BlankGen E.toIriEnv gen) (h : Relabelable gen d) (hf : Flattened gen d n f) (hr : Readable E c d) :
    expandDoc E c (Doc.toJson (f.map Obj.node)) = .ok (f.map Obj.node) := by
  have hfd := C90_flat h hf
  obtain ⟨_, -, -, -, hshape, -⟩ := C14_relabel_partial gen h.injective d h.wf h.fresh n
  have hnode := fun p hp => @flattened_node gen d n f E c ef hg h hf hr p hp
  have hval : ∀ i v, Inside (f.map Obj.node) (.obj (.value i v)) → Inside d (.obj (.value i v)) := by
    intro i v hv
    obtain ⟨g, ⟨p, e, _⟩ | ⟨o', ho', e⟩ | ⟨m, _, e⟩⟩ := flattened_sourced h hf hv
    · cases e
    · cases o' with
      | list => cases e
      | node => cases e
      | value => cases e; exact shape_value hshape ho'
    · cases e
  refine C45_fixed_partial E ef c hc _ (fun _ p hp r hr => ?_) ⟨fun i v hv => hr.good.values i v (hval i v hv), fun p hp => (hnode p hp).1,
    ?_⟩ (Again.doc_WF hfd) (fun p hp => ?_) ⟨fun p hp => ?_, fun i s hs => hr.languages i s (hval _ _ hs), ?_, ?_⟩
  · obtain ⟨_, _, _, _, _, h6, _⟩ := hnode p hp
    rw [h6] at hr; cases hr
  · intro i v hv
    obtain ⟨p, _, e⟩ := List.mem_map.1 hv
    cases e
  · obtain ⟨_, _, h3, h4, _, h6, _⟩ := hnode p hp
    refine ⟨fun e => (h3 [] e).1 rfl, ?_, h4⟩
    rw [h6]; exact nofun
  · obtain ⟨_, h2, h3, _, h5, _, _, h8⟩ := hnode p hp
    exact ⟨h2, fun ts hts => (h3 ts hts).2, h8, h5⟩
  · intro o ho
    obtain ⟨p, hp, rfl⟩ := List.mem_map.1 ho
    refine ⟨p, rfl, ?_⟩
    have := hfd.top p hp
    obtain ⟨i, id, ty, gr, inc, ps, rv⟩ := p
    cases i with
    | some a => exact .inr nofun
    | none =>
      left
      cases ty with
      | some t => simp [Node.isEmpty]
      | none =>
        cases gr with
        | some g => simp [Node.isEmpty]
        | none =>
          cases ps with
          | cons a l => simp [Node.isEmpty]
          | nil => simp [Node.index, Node.types, Node.graph, Node.props] at this
  · intro p e hid
    have : p ∈ f := by
      have : Obj.node p ∈ f.map Obj.node := by rw [e]; exact List.mem_cons_self
      obtain ⟨q, hq, e⟩ := List.mem_map.1 this
      cases e; exact hq
    have := (hfd.plain none p this).id
    rw [hid] at this
    cases this

/-- C94, for the result of an expansion: expand, flatten, write, and expand again. The result is the flattened
document, if the identifiers and types can be read again and no index mappings were used. -/
theorem C94_pipeline_partial (pe : ProcEnv) (hp : ContextsBy E pe) (ef : EnvFacts E.toIriEnv)
    {c₀ : ACtx} (hc₀ : GoodCtx E.toIriEnv c₀) (hi : ContextsOf NoIndexMappings E c₀)
    {j : Json} (hj : expandDoc E c₀ j = .ok d) (hg : BlankGen E.toIriEnv gen) (hinj : ∀ i j, gen i = gen j → i = j)
    (hf : Flattened gen d n f) (hc : EmptyCtx c)
    (hids : ∀ n, Inside d (.node n) → ∀ i, n.id = some i → ReadableId c i)
    (htypes : ∀ n, Inside d (.node n) → ∀ ts, n.types = some ts → ∀ t ∈ ts, ReadableType E c t)
    (hl : ∀ i s, Inside d (.obj (.value i (.langString s))) → s.language ≠ some "@none".toList) :
    expandDoc E c (Doc.toJson (f.map Obj.node)) = .ok (f.map Obj.node) := by
  have h1 := C44_sets E c₀ j d hj
  refine C94_flattened_fixed ef hc hg ⟨hinj, h1.1, ?_⟩ hf
    ⟨C44_wellFormed E pe hp ef c₀ hc₀ j d hj, hids, fun m hm ts hts => ⟨fun e => ?_, htypes m hm ts hts⟩,
      fun m hm => ⟨C44_absolute_partial E pe hp ef c₀ hc₀ hi j d hj m hm, fun r hr =>
        C44_reverse_absolute E pe hp ef c₀ hc₀ j d hj m hm r hr⟩, hl⟩
  · intro x _ i _ hb k e
    obtain ⟨b, eb, _⟩ := hg k
    exact hb b (e ▸ eb)
  · subst e
    exact (h1.2 m hm).1 hts

end

/-! ## An example -/

/-- Blank node identifiers `_:b`, `_:bb`, … -/
def exBlankGen (k : Nat) : Id := .blank ('_' :: ':' :: List.replicate (k + 1) 'b')

theorem exBlankGen_blank : BlankGen exXEnv.toIriEnv exBlankGen :=
  fun k => ⟨_, rfl, by simp [exXEnv, exIriEnv]⟩

theorem exBlankGen_injective (i j : Nat) (h : exBlankGen i = exBlankGen j) : i = j := by
  simp only [exBlankGen, Id.blank.injEq] at h
  have := congrArg List.length h
  simpa using this

/-- A node with an included node without name, a graph in which a node says nothing, and a reverse property. -/
def exLooseDoc : Doc :=
  [.node (.mk none (some (.iri "http:a".toList)) (some [.iri "http:T".toList])
    (some [.node (.mk none (some (.iri "http:g".toList)) none none none [] none)])
    (some [.mk none none none none none [(.iri "http:q".toList, [.value none (.literal (.bool true) none)])] none])
    [] (some [(.iri "http:r".toList, [.mk none (some (.blank "_:z".toList)) none none none [] none])])),
   .node (.mk none (some (.iri "http:c".toList)) none none none [] none)]

/-- Its flattened form. -/
def exLooseFlat : List Node :=
  [.mk none (some (.blank "_:b".toList)) none none none
     [(.iri "http:q".toList, [.value none (.literal (.bool true) none)])] none,
   .mk none (some (.blank "_:bb".toList)) none none none
     [(.iri "http:r".toList, [bareNode (some (.iri "http:a".toList))])] none,
   .mk none (some (.iri "http:a".toList)) (some [.iri "http:T".toList]) (some []) none [] none]

theorem exLoose_flat : Flattened exBlankGen exLooseDoc 0 exLooseFlat :=
  .list (o := Orders.insertion) (ordered := true) (by decide +kernel)

theorem exLoose_relabelable : Relabelable exBlankGen exLooseDoc := by
  refine ⟨exBlankGen_injective, ⟨by decide +kernel, ?_⟩, ?_⟩
  · simp [exLooseDoc, gWF, objsWF, Obj.WF, Node.WF, incWF, rvWF, psWF, rpsWF, nodesWF]
  · intro h hh i hi hb k e
    exact hb _ e.symm

theorem exLoose_readable : Readable exXEnv {} exLooseDoc := by
  have hno : ∀ n, Inside exLooseDoc (.node n) →
      n = .mk none (some (.iri "http:a".toList)) (some [.iri "http:T".toList])
        (some [.node (.mk none (some (.iri "http:g".toList)) none none none [] none)])
        (some [.mk none none none none none [(.iri "http:q".toList, [.value none (.literal (.bool true) none)])] none])
        [] (some [(.iri "http:r".toList, [.mk none (some (.blank "_:z".toList)) none none none [] none])]) ∨
      n = .mk none (some (.iri "http:g".toList)) none none none [] none ∨
      n = .mk none none none none none [(.iri "http:q".toList, [.value none (.literal (.bool true) none)])] none ∨
      n = .mk none (some (.blank "_:z".toList)) none none none [] none ∨
      n = .mk none (some (.iri "http:c".toList)) none none none [] none := by
    intro n hn
    have := inside_items hn
    simpa only [exLooseDoc, itemsOfObjs, Obj.items, Node.items, itemsOfGraph, itemsOfIncluded, itemsOfProps, itemsOfRev,
      itemsOfRps, itemsOfNodes, List.mem_append, List.mem_cons, List.not_mem_nil, or_false, reduceCtorEq, false_or,
      Item.node.injEq, or_assoc] using this
  have hvo : ∀ i v, Inside exLooseDoc (.obj (.value i v)) → v = .literal (.bool true) none := by
    intro i v hv
    have := inside_items hv
    simp only [exLooseDoc, itemsOfObjs, Obj.items, Node.items, itemsOfGraph, itemsOfIncluded, itemsOfProps, itemsOfRev,
      itemsOfRps, itemsOfNodes, List.mem_append, List.mem_cons, List.not_mem_nil, or_false, reduceCtorEq, false_or,
      Item.obj.injEq, Obj.value.injEq] at this
    exact this.2
  refine ⟨⟨fun i v hv => ?_, fun n hn => ?_, ?_⟩, fun n hn => ?_, fun n hn => ?_, fun n hn => ?_, fun i s hs => ?_⟩
  · rw [hvo i v hv]; exact ⟨nofun, nofun⟩
  · rcases hno n hn with rfl | rfl | rfl | rfl | rfl
    · refine ⟨?_, ?_, nofun, ?_⟩
      · rintro i ⟨⟩; exact rfl
      · rintro ts ⟨⟩ t ht
        rw [List.mem_singleton.1 ht]; exact rfl
      · rintro r ⟨⟩ p hp
        rw [List.mem_singleton.1 hp]; exact rfl
    · exact ⟨by rintro i ⟨⟩; exact rfl, nofun, nofun, nofun⟩
    · refine ⟨nofun, nofun, ?_, nofun⟩
      intro p hp
      rw [List.mem_singleton.1 hp]; exact rfl
    · exact ⟨by rintro i ⟨⟩; first | exact rfl | exact ⟨rfl, rfl⟩, nofun, nofun, nofun⟩
    · exact ⟨by rintro i ⟨⟩; exact rfl, nofun, nofun, nofun⟩
  · intro i v hv
    simp [exLooseDoc] at hv
  · rcases hno n hn with rfl | rfl | rfl | rfl | rfl <;> rintro i ⟨⟩ <;> exact .inl rfl
  · rcases hno n hn with rfl | rfl | rfl | rfl | rfl <;> rintro ts ⟨⟩
    refine ⟨nofun, fun t ht => ?_⟩
    rw [List.mem_singleton.1 ht]; exact .inl rfl
  · rcases hno n hn with rfl | rfl | rfl | rfl | rfl
    · refine ⟨nofun, ?_⟩
      rintro r ⟨⟩ p hp
      rw [List.mem_singleton.1 hp]; exact ⟨by decide +kernel, .inr nofun⟩
    · exact ⟨nofun, nofun⟩
    · refine ⟨?_, nofun⟩
      intro p hp
      rw [List.mem_singleton.1 hp]; exact ⟨by decide +kernel, .inr nofun⟩
    · exact ⟨nofun, nofun⟩
    · exact ⟨nofun, nofun⟩
  · cases hvo _ _ hs

/-- The flattened document is expanded to itself. -/
example : expandDoc exXEnv {} (Doc.toJson (exLooseFlat.map Obj.node)) = .ok (exLooseFlat.map Obj.node) :=
  C94_flattened_fixed exIriEnv_envFacts ⟨rfl, rfl, rfl, rfl⟩ exBlankGen_blank exLoose_relabelable exLoose_flat
    exLoose_readable

/-- The document itself is not: included nodes are lost (see C45). -/
theorem C94_not_before : (expandDoc exXEnv {} exLooseDoc.toJson).toOption ≠ some exLooseDoc := by
  decide +kernel

end JsonLd.Props
