import Verif.Proofs.Flatten
/-!
# C16, C17, C18, C19: flattening

The document `(d.relabel gen n).1` in these theorems is the document with blank nodes relabelled and
unnamed nodes named: what C14 is about. Flattening assigns the same labels on its way.
-/

namespace JsonLd.Props
open JsonLd Spec

/-- The hypotheses of C14: a generator that never repeats and never yields an identifier that the
document uses (other than a blank node label, as those are all replaced), and a document whose sets
are sets. -/
structure Relabelable (gen : Nat → Id) (d : Doc) : Prop where
  injective : ∀ i j, gen i = gen j → i = j
  wf : d.WF
  fresh : ∀ h ∈ docHeaders d, ∀ i ∈ headerIds h, (∀ b, i ≠ .blank b) → ∀ k, gen k ≠ i

/-- `f` is a possible result of `flatten` or `flatten_unordered`: for some iteration orders of the
hash maps. -/
inductive Flattened (gen : Nat → Id) (d : Doc) (n : Nat) (f : List Node) : Prop where
  | list {o : Orders} {ordered : Bool} : d.flatten gen o ordered n = .ok f → Flattened gen d n f
  | set {o : Orders} : d.flattenUnordered gen o n = .ok f → Flattened gen d n f

section
variable {gen : Nat → Id} {d : Doc}

theorem nodeMap_run (h : Relabelable gen d) (n : Nat) :
    (∃ m, d.nodeMap gen n = .ok m ∧ MapInv (osEvs none (d.relabel gen n).1) m) ∨
      ∃ id a b, d.nodeMap gen n = .error (.conflict id a b) ∧
        EvConflict (osEvs none (d.relabel gen n).1) id a b := by
  rw [nodeMap_eq, pwalk_relabel gen h.injective d h.wf h.fresh n]
  exact applyAll_run mapInv_empty (osEvs_scoped (fun o _ => evs_scoped.1 o) [] none (Or.inl rfl))

theorem flattened_ok (h : Relabelable gen d) {n : Nat} {f : List Node} (hf : Flattened gen d n f) :
    ∃ m ent, MapInv (osEvs none (d.relabel gen n).1) m ∧ FlatOf m ent f := by
  rcases nodeMap_run h n with ⟨m, hm, hi⟩ | ⟨id, a, b, he, _⟩
  · cases hf with
    | list h =>
      rename_i o ordered
      obtain ⟨f', h1, h2⟩ := flatten_flatOf hi o ordered
      simp only [Doc.flatten, hm, h1, bind, Except.bind] at h
      cases h
      exact ⟨m, _, hi, h2⟩
    | set h =>
      rename_i o
      obtain ⟨f', h1, h2⟩ := flattenUnordered_flatOf hi o
      simp only [Doc.flattenUnordered, hm, h1, bind, Except.bind] at h
      cases h
      exact ⟨m, _, hi, h2⟩
  · cases hf with
    | list h => simp only [Doc.flatten, he, bind, Except.bind] at h; cases h
    | set h => simp only [Doc.flattenUnordered, he, bind, Except.bind] at h; cases h

theorem allNamed (h : Relabelable gen d) (n : Nat) : AllNamed (d.relabel gen n).1 :=
  relabel_allNamed gen h.injective d h.wf h.fresh n

theorem flatValue_of_named {d : Doc} (hd : AllNamed d) :
    (∀ (o : Obj), (∀ g, Occurs d g (.obj o) → FlatValue (reference o))) ∧
      (∀ n : Node, ∀ g, Occurs d g (.node n) → FlatValue (bareNode n.id)) := by
  apply Doc.ind
  · intro i v g _; trivial
  · intro i l ih g ho
    simp only [reference, FlatValue]
    have : ∀ l' : List Obj, (∀ o ∈ l', o ∈ l) → FlatValues (references l') := by
      intro l'
      induction l' with
      | nil => intro _; trivial
      | cons o os ih' =>
        intro hsub
        exact ⟨ih o (hsub o List.mem_cons_self) g (ho.item (hsub o List.mem_cons_self)),
          ih' fun o ho => hsub o (List.mem_cons_of_mem _ ho)⟩
    exact this l fun _ h => h
  · intro n ih g ho; exact ih g ho.self
  · intro i id ty gr inc ps rv _ _ _ _ g ho
    obtain ⟨x, rfl⟩ : ∃ x, id = some x := Option.isSome_iff_exists.1 (hd _ _ ho)
    exact ⟨x, rfl⟩

/-- What an update of a property comes from, value by value. -/
theorem props_states {d : Doc} (hd : AllNamed d) {g : Option Id} {x k : Id} {vs : List Obj}
    (h : Ev.props g x k vs ∈ osEvs none d) {o : Obj} (ho : o ∈ vs) :
    States d g x k o ∧ FlatValue o := by
  rcases doc_evs_sound hd _ h with ⟨n, l, h1, h2, h3, rfl⟩ | ⟨n, m, r, l, h1, h2, h3, h4, h5, rfl⟩
  · rw [references_eq] at ho
    obtain ⟨o', ho', rfl⟩ := List.mem_map.1 ho
    exact ⟨.forward h1 h2 h3 ho', (flatValue_of_named hd).1 o' g (h1.property h3 ho')⟩
  · rw [List.mem_singleton.1 ho]
    exact ⟨.backward h1 h2 h3 h4 h5, (flatValue_of_named hd).2 n g h1⟩

/-- C16. A flattened document is flat: in every graph (the default one and the named ones) every
node has an identifier, and no two nodes have the same; graph entries contain nothing but nodes and
appear only at the top level; there is no `@included` and no `@reverse`; and every node in a property
value, in a list or not, is a mere reference. -/
theorem C16_flat (h : Relabelable gen d) {n : Nat} {f : List Node} (hf : Flattened gen d n f) :
    (f.map Node.id).Nodup ∧
    (∀ p ∈ f, ∀ l, p.graph = some l → ∃ ns : List Node, l = ns.map Obj.node ∧
      (ns.map Node.id).Nodup) ∧
    ∀ g p, FlatNode f g p → p.id.isSome = true ∧ p.included = none ∧ p.rev = none ∧
      (g ≠ none → p.graph = none) ∧ (p.props.map Prod.fst).Nodup ∧
      ∀ k os, (k, os) ∈ p.props → ∀ o ∈ os, FlatValue o := by
  obtain ⟨m, ent, hi, hfo⟩ := flattened_ok h hf
  refine ⟨flat_ids hi hfo, fun p hp l hl => entry_nodup hi hfo hp hl, ?_⟩
  intro g p hp
  obtain ⟨x, hx⟩ := flatNode_facts hi hfo hp
  refine ⟨by rw [hx.hid]; rfl, hx.included, hx.rev, hx.graph, hx.keys, ?_⟩
  intro k os hk o ho
  obtain ⟨vs, hv, hov⟩ := (hx.sound k os ((lookupProp_iff hx.keys).2 hk)).2 o ho
  exact (props_states (allNamed h n) hv hov).2

theorem reference_WF : (∀ o : Obj, (reference o).WF) := by
  have := Doc.ind (P := fun o => (reference o).WF) (Q := fun _ => True)
    (fun i v => by simp [reference, Obj.WF])
    (fun i l ih => by
      simp only [reference, Obj.WF, objsWF_iff, references_eq]
      intro o ho
      obtain ⟨o', ho', rfl⟩ := List.mem_map.1 ho
      exact ih o' ho')
    (fun n _ => by simp [reference, bareNode, Obj.WF, Node.WF, gWF, incWF, psWF, rvWF])
    (fun _ _ _ _ _ _ _ _ _ _ _ => trivial)
  exact this.1

theorem equiv_eq {a b : Obj} (h : a.equiv b = true) : a.eq b = true := by
  cases a <;> cases b <;> simp_all [Obj.equiv, Obj.eq]

/-- C17, property values. In every graph, what a flattened document says about the values of
properties is what the document said, by a property or a reverse property, at any depth:
nothing is added, and nothing is lost up to equality of values. -/
theorem C17_statements (h : Relabelable gen d) {n : Nat} {f : List Node}
    (hf : Flattened gen d n f) :
    (∀ g p s k os o, FlatNode f g p → p.id = some s → (k, os) ∈ p.props → o ∈ os →
      States (d.relabel gen n).1 g s k o) ∧
    (∀ g s k o, States (d.relabel gen n).1 g s k o →
      ∃ p os o', FlatNode f g p ∧ p.id = some s ∧ (k, os) ∈ p.props ∧ o' ∈ os ∧ o'.eq o = true) := by
  obtain ⟨m, ent, hi, hfo⟩ := flattened_ok h hf
  have hn := allNamed h n
  refine ⟨?_, ?_⟩
  · intro g p s k os o hp hs hk ho
    obtain ⟨x, hx⟩ := flatNode_facts hi hfo hp
    rw [hx.hid] at hs
    cases hs
    obtain ⟨vs, hv, hov⟩ := (hx.sound k os ((lookupProp_iff hx.keys).2 hk)).2 o ho
    exact (props_states hn hv hov).1
  · intro g s k o hst
    have hev : ∃ vs, Ev.props g s k vs ∈ osEvs none (d.relabel gen n).1 ∧ o ∈ vs := by
      cases hst with
      | forward h1 h2 h3 h4 =>
        exact ⟨_, ev_props h1 h2 h3, by rw [references_eq]; exact List.mem_map.2 ⟨_, h4, rfl⟩⟩
      | backward h1 h2 h3 h4 h5 =>
        exact ⟨_, ev_reverse h1 (hn _ _ h1) h2 h3 h4 h5, List.mem_singleton.2 rfl⟩
    have hwf : o.WF := by
      cases hst with
      | forward => exact reference_WF _
      | backward => simp [bareNode, Obj.WF, Node.WF, gWF, incWF, psWF, rvWF]
    obtain ⟨vs, hv, hov⟩ := hev
    obtain ⟨i, hi'⟩ := hi.evOk _ hv
    obtain ⟨p, hp, hx⟩ := node_exists hi hfo hi' fun p hx => by
      obtain ⟨os, ho, _⟩ := hx.complete k vs hv
      right
      intro e
      rw [e] at ho
      cases ho
    obtain ⟨os, ho, ho'⟩ := hx.complete k vs hv
    obtain ⟨o', h1, h2⟩ := ho' o hov
    refine ⟨p, os, o', hp, hx.hid, lookupProp_mem ho, h1, ?_⟩
    rcases h2 with rfl | h2
    · exact (Obj.eqOk hwf).1
    · exact equiv_eq h2

/-- C17, no repetition. A flattened document never gives the same value twice for a property of a
node, lists excepted. -/
theorem C17_no_repetition (h : Relabelable gen d) {n : Nat} {f : List Node}
    (hf : Flattened gen d n f) {g : Option Id} {p : Node} (hp : FlatNode f g p) {k : Id}
    {os : List Obj} (hk : (k, os) ∈ p.props) :
    os.Pairwise fun a b => a.eq b = true → ∃ i l, a = .list i l := by
  obtain ⟨m, ent, hi, hfo⟩ := flattened_ok h hf
  obtain ⟨x, hx⟩ := flatNode_facts hi hfo hp
  have hfv := ((C16_flat h hf).2.2 g p hp).2.2.2.2.2 k os hk
  refine List.Pairwise.imp_of_mem ?_ (hx.sound k os ((lookupProp_iff hx.keys).2 hk)).1
  intro a b ha hb hne he
  cases a with
  | value i v => cases b <;> simp_all [Obj.equiv, Obj.eq]
  | list i l => exact ⟨i, l, rfl⟩
  | node q =>
    cases b with
    | value => simp [Obj.eq] at he
    | list => simp [Obj.eq] at he
    | node q' =>
      obtain ⟨i, hi⟩ := hfv _ ha
      obtain ⟨j, hj⟩ := hfv _ hb
      rw [hi, hj] at he hne
      simp only [Obj.equiv, bareNode, Node.index, Node.id, Option.isSome_some, Bool.true_and,
        decide_true] at hne
      simp only [Obj.eq, bareNode] at he
      rw [he] at hne
      cases hne

/-- C17, types. The types a flattened document gives to a node are those given by one of the
descriptions of the node in the same graph. Conversely a node that has the same types wherever it is
given some has them in the flattened document, provided the graph is the default graph or the node
has a property or an index there.
Partial: other types are lost, see `C17_types_overwritten` and `C17_typed_node_dropped`. -/
theorem C17_types_partial (h : Relabelable gen d) {n : Nat} {f : List Node}
    (hf : Flattened gen d n f) :
    (∀ g p s ts, FlatNode f g p → p.id = some s → p.types = some ts →
      ∃ q, Occurs (d.relabel gen n).1 g (.node q) ∧ q.id = some s ∧ q.types = some ts) ∧
    (∀ g q s ts, Occurs (d.relabel gen n).1 g (.node q) → q.id = some s → q.types = some ts →
      (∀ q' ts', Occurs (d.relabel gen n).1 g (.node q') → q'.id = some s → q'.types = some ts' →
        ts' = ts) →
      g = none ∨ (∃ k o, States (d.relabel gen n).1 g s k o) ∨
        (∃ q' a, Occurs (d.relabel gen n).1 g (.node q') ∧ q'.id = some s ∧ q'.index = some a) →
      ∃ p, FlatNode f g p ∧ p.id = some s ∧ p.types = some ts) := by
  have hC := C17_statements h hf
  obtain ⟨m, ent, hi, hfo⟩ := flattened_ok h hf
  have hn := allNamed h n
  have sound : ∀ g p s ts, FlatNode f g p → p.id = some s → p.types = some ts →
      ∃ q, Occurs (d.relabel gen n).1 g (.node q) ∧ q.id = some s ∧ q.types = some ts := by
    intro g p s ts hp hs ht
    obtain ⟨x, hx⟩ := flatNode_facts hi hfo hp
    rw [hx.hid] at hs
    cases hs
    exact doc_evs_sound hn _ (hx.types ts ht)
  refine ⟨sound, ?_⟩
  intro g q s ts ho hs ht huniq hkeep
  have hev := ev_types ho hs ht
  have hde := ev_declare ho hs
  have hex : ∃ p, FlatNode f g p ∧ NodeFacts (osEvs none (d.relabel gen n).1) g s p := by
    rcases hkeep with rfl | ⟨k, o, hst⟩ | ⟨q', a, hq, hqs, hqa⟩
    · refine default_exists hi hfo hde fun p hx => ?_
      have := hx.types_some _ hev
      obtain ⟨i, id, ty, gr, inc, ps, rv⟩ := p
      cases ty with
      | none => cases this
      | some ts => simp [Kept, Node.isEmpty]
    · obtain ⟨p, os, o', hp, hps, hk, _⟩ := hC.2 g s k o hst
      obtain ⟨x, hx⟩ := flatNode_facts hi hfo hp
      have := hx.hid
      rw [hps] at this
      cases this
      exact ⟨p, hp, hx⟩
    · have hde' := ev_declare hq hqs
      rw [hqa] at hde'
      exact node_exists hi hfo hde' fun p hx => Or.inl (by rw [(hx.index a).2 hde']; rfl)
  obtain ⟨p, hp, hx⟩ := hex
  refine ⟨p, hp, hx.hid, ?_⟩
  obtain ⟨ts', hts'⟩ := Option.isSome_iff_exists.1 (hx.types_some _ hev)
  obtain ⟨q', h1, h2, h3⟩ := sound g p s ts' hp hx.hid hts'
  rw [hts', huniq q' ts' h1 h2 h3]

/-- C18. Flattening fails exactly if the document gives a node two indexes in the same graph, and the
error names the node and the indexes; it never panics. -/
theorem C18_fails_iff (h : Relabelable gen d) (n : Nat) (o : Orders) (ordered : Bool) :
    ((∃ e, d.flatten gen o ordered n = .error e) ↔ IndexConflict (d.relabel gen n).1) ∧
    ((∃ e, d.flattenUnordered gen o n = .error e) ↔ IndexConflict (d.relabel gen n).1) ∧
    (∀ e, d.flatten gen o ordered n = .error e ∨ d.flattenUnordered gen o n = .error e →
      ∃ i a b g p q, e = .conflict i a b ∧ Occurs (d.relabel gen n).1 g (.node p) ∧
        Occurs (d.relabel gen n).1 g (.node q) ∧ p.id = some i ∧ q.id = some i ∧
        p.index = some a ∧ q.index = some b ∧ a ≠ b) := by
  have hn := allNamed h n
  rcases nodeMap_run h n with ⟨m, hm, hi⟩ | ⟨id, a, b, he, g, h1, h2, h3⟩
  · have hno : ¬ IndexConflict (d.relabel gen n).1 := by
      rintro ⟨g, p, q, i, a, b, hp, hq, hpi, hqi, hpa, hqb, hab⟩
      have e1 := ev_declare hp hpi
      have e2 := ev_declare hq hqi
      rw [hpa] at e1
      rw [hqb] at e2
      obtain ⟨n0, hn0⟩ := Option.isSome_iff_exists.1 (hi.exists_node _ _ _ e1)
      have hx := hi.nodes _ _ _ hn0
      have := ((hx.index a).2 e1).symm.trans ((hx.index b).2 e2)
      cases this
      exact hab rfl
    obtain ⟨f, hf, _⟩ := flatten_flatOf hi o ordered
    obtain ⟨f', hf', _⟩ := flattenUnordered_flatOf hi o
    have e1 : d.flatten gen o ordered n = .ok f := by
      simp only [Doc.flatten, hm, hf, bind, Except.bind]; rfl
    have e2 : d.flattenUnordered gen o n = .ok f' := by
      simp only [Doc.flattenUnordered, hm, hf', bind, Except.bind]; rfl
    rw [e1, e2]
    simp [hno]
  · obtain ⟨p, hp, hpi, hpa⟩ := doc_evs_sound hn _ h1
    obtain ⟨q, hq, hqi, hqb⟩ := doc_evs_sound hn _ h2
    have e1 : d.flatten gen o ordered n = .error (.conflict id a b) := by
      simp only [Doc.flatten, he, bind, Except.bind]
    have e2 : d.flattenUnordered gen o n = .error (.conflict id a b) := by
      simp only [Doc.flattenUnordered, he, bind, Except.bind]
    have hc : IndexConflict (d.relabel gen n).1 :=
      ⟨g, p, q, id, a, b, hp, hq, hpi, hqi, hpa, hqb, h3⟩
    rw [e1, e2]
    refine ⟨⟨fun _ => hc, fun _ => ⟨_, rfl⟩⟩, ⟨fun _ => hc, fun _ => ⟨_, rfl⟩⟩, ?_⟩
    rintro e (he | he) <;> cases he <;> exact ⟨id, a, b, g, p, q, rfl, hp, hq, hpi, hqi, hpa, hqb, h3⟩

/-- C18, indexes are kept: a node of the flattened document has the index that the document gives it
in the same graph, and none if there is none; and every node that is given an index is there. -/
theorem C18_index_kept (h : Relabelable gen d) {n : Nat} {f : List Node}
    (hf : Flattened gen d n f) :
    (∀ g p s a, FlatNode f g p → p.id = some s →
      (p.index = some a ↔
        ∃ q, Occurs (d.relabel gen n).1 g (.node q) ∧ q.id = some s ∧ q.index = some a)) ∧
    (∀ g q s a, Occurs (d.relabel gen n).1 g (.node q) → q.id = some s → q.index = some a →
      ∃ p, FlatNode f g p ∧ p.id = some s ∧ p.index = some a) := by
  obtain ⟨m, ent, hi, hfo⟩ := flattened_ok h hf
  have hn := allNamed h n
  refine ⟨?_, ?_⟩
  · intro g p s a hp hs
    obtain ⟨x, hx⟩ := flatNode_facts hi hfo hp
    rw [hx.hid] at hs
    cases hs
    rw [hx.index a]
    constructor
    · intro he; exact doc_evs_sound hn _ he
    · rintro ⟨q, hq, hqi, hqa⟩
      have := ev_declare hq hqi
      rwa [hqa] at this
  · intro g q s a hq hqi hqa
    have hde := ev_declare hq hqi
    rw [hqa] at hde
    obtain ⟨p, hp, hx⟩ := node_exists hi hfo hde fun p hx => Or.inl (by
      rw [(hx.index a).2 hde]; rfl)
    exact ⟨p, hp, hx.hid, (hx.index a).2 hde⟩

/-- C19. Whatever the iteration orders of the hash maps, all ways to flatten a document give the same
nodes, up to the order of the elements of the document and of its named graphs. -/
theorem C19_agree (h : Relabelable gen d) {n : Nat} {f f' : List Node}
    (hf : Flattened gen d n f) (hf' : Flattened gen d n f') : PermRel SameNode f f' := by
  have key : ∃ m, d.nodeMap gen n = .ok m := by
    cases hm : d.nodeMap gen n with
    | ok m => exact ⟨m, rfl⟩
    | error e =>
      cases hf with
      | list h => simp only [Doc.flatten, hm, bind, Except.bind] at h; cases h
      | set h => simp only [Doc.flattenUnordered, hm, bind, Except.bind] at h; cases h
  obtain ⟨m, hm⟩ := key
  have hi : MapInv (osEvs none (d.relabel gen n).1) m := by
    rcases nodeMap_run h n with ⟨m', hm', hi⟩ | ⟨_, _, _, he, _⟩
    · rw [hm] at hm'; cases hm'; exact hi
    · rw [hm] at he; cases he
  have flatOf : ∀ f, Flattened gen d n f → ∃ ent, FlatOf m ent f := by
    intro f hf
    cases hf with
    | list h =>
      rename_i o ordered
      obtain ⟨f', h1, h2⟩ := flatten_flatOf hi o ordered
      simp only [Doc.flatten, hm, h1, bind, Except.bind] at h
      cases h
      exact ⟨_, h2⟩
    | set h =>
      rename_i o
      obtain ⟨f', h1, h2⟩ := flattenUnordered_flatOf hi o
      simp only [Doc.flattenUnordered, hm, h1, bind, Except.bind] at h
      cases h
      exact ⟨_, h2⟩
  obtain ⟨_, h1⟩ := flatOf f hf
  obtain ⟨_, h2⟩ := flatOf f' hf'
  exact flatOf_agree hi h1 h2

/-- C19, sorted. With `ordered` the nodes are sorted by identifier, and so are those of each named
graph. -/
theorem C19_sorted (h : Relabelable gen d) {n : Nat} {o : Orders} {f : List Node}
    (hf : d.flatten gen o true n = .ok f) :
    f.Pairwise (fun a b => a.idStr ≤ b.idStr) ∧
    ∀ p ∈ f, ∀ ns : List Node, p.graph = some (ns.map Obj.node) →
      ns.Pairwise fun a b => a.idStr ≤ b.idStr := by
  rcases nodeMap_run h n with ⟨m, hm, hi⟩ | ⟨id, a, b, he, _⟩
  · obtain ⟨f', h1, h2⟩ := flatten_flatOf hi o true
    obtain ⟨D, h3, h4, h5⟩ := flatten_spec hi o true
    simp only [Doc.flatten, hm, h1, bind, Except.bind] at hf
    cases hf
    refine ⟨?_, ?_⟩
    · rw [h1] at h3
      cases h3
      exact sortByKey_sorted _ _
    · intro p hp ns hns
      obtain ⟨x, G, _, hG, hl⟩ := flat_graph_entry hi h2 hp hns
      have hs := sortByKey_sorted Node.idStr ((o.nodes (some x) G).map Prod.snd)
      have hs' : (o.sub true x G).Pairwise fun a b => ∀ n m, a = .node n → b = .node m →
          n.idStr ≤ m.idStr := by
        simp only [Orders.sub, sortIf, if_true]
        rw [List.pairwise_filterMap]
        refine hs.imp ?_
        intro a b hab x hx y hy n m hn hm
        obtain ⟨a', rfl, ha⟩ := filterSubGraph_id hx
        obtain ⟨b', rfl, hb⟩ := filterSubGraph_id hy
        cases hn; cases hm
        simpa only [Node.idStr, ha, hb] using hab
      rw [← hl, List.pairwise_map] at hs'
      exact hs'.imp fun h => h _ _ rfl rfl
  · simp only [Doc.flatten, he, bind, Except.bind] at hf
    cases hf

/-- C19, deterministic. If the document does not use the same text for two different kinds of node
identifiers, then with `ordered` the result does not depend on the iteration orders of the hash
maps. -/
theorem C19_deterministic (h : Relabelable gen d) (n : Nat)
    (hstr : ∀ g g' p q i j, Occurs (d.relabel gen n).1 g (.node p) →
      Occurs (d.relabel gen n).1 g' (.node q) → p.id = some i → q.id = some j →
      i.str = j.str → i = j) (o o' : Orders) :
    d.flatten gen o true n = d.flatten gen o' true n := by
  have hn := allNamed h n
  rcases nodeMap_run h n with ⟨m, hm, hi⟩ | ⟨id, a, b, he, _⟩
  · obtain ⟨f, h1, h2⟩ := flatten_flatOf hi o true
    obtain ⟨f', h1', h2'⟩ := flatten_flatOf hi o' true
    obtain ⟨D, h3, h4, h5⟩ := flatten_spec hi o true
    obtain ⟨D', h3', h4', h5'⟩ := flatten_spec hi o' true
    have hid : ∀ g i p, m.get g i = some p → ∃ g q, Occurs (d.relabel gen n).1 g (.node q) ∧
        q.id = some i ∧ p.id = some i := by
      intro g i p hp
      have hx := hi.nodes _ _ _ hp
      obtain ⟨j, hj⟩ := hx.declared
      obtain ⟨q, hq, hqi, _⟩ := doc_evs_sound hn _ hj
      exact ⟨g, q, hq, hqi, hx.hid⟩
    have hsub : ∀ x G, m.graph (some x) = some G → o.sub true x G = o'.sub true x G := by
      intro x G hG
      simp only [Orders.sub, sortIf, if_true]
      rw [sort_unique]
      · exact (((o.nodes_perm (some x) G).trans (o'.nodes_perm (some x) G).symm)).map Prod.snd
      · intro a ha b hb hab
        have hget : ∀ a ∈ (o.nodes (some x) G).map Prod.snd, ∃ i, m.get (some x) i = some a := by
          intro a ha
          obtain ⟨p, hp, rfl⟩ := List.mem_map.1 ha
          refine ⟨p.1, ?_⟩
          simp only [NodeMap.get, hG, Option.bind_some]
          exact (lookupProp_iff (hi.keys.2 _ _ hG)).2 ((o.nodes_perm (some x) G).mem_iff.1 hp)
        obtain ⟨i, hai⟩ := hget a ha
        obtain ⟨j, hbj⟩ := hget b hb
        obtain ⟨g1, q1, e1, e2, e3⟩ := hid _ _ _ hai
        obtain ⟨g2, q2, e4, e5, e6⟩ := hid _ _ _ hbj
        simp only [Node.idStr, e3, e6, Option.map_some, Option.getD_some] at hab
        have := hstr _ _ _ _ _ _ e1 e4 e2 e5 hab
        subst this
        rw [hai] at hbj
        cases hbj
        rfl
    have hperm : f.Perm f' := flatOf_perm hi h2 h2' hsub
    have hids : ∀ p ∈ f, ∃ g q i, Occurs (d.relabel gen n).1 g (.node q) ∧ q.id = some i ∧
        p.id = some i := by
      intro p hp
      obtain ⟨x, hx, hk⟩ := (flat_default h2).1 hp
      have hpx := setGraphOf_id hi hx
      unfold setGraphOf NodeMap.base at hx
      cases hG : m.graph (some x) with
      | some G =>
        rcases (hi.graphs (some x)).1 (by rw [hG]; rfl) with hc | ⟨i, hc, hd⟩
        · cases hc
        · cases hc
          obtain ⟨g, q, l, hq, hqi, _⟩ := doc_evs_sound hn _ hd
          exact ⟨g, q, x, hq, hqi, hpx⟩
      | none =>
        rw [hG] at hx
        cases hg : m.get none x with
        | none => rw [hg] at hx; cases hx
        | some n0 =>
          obtain ⟨g, q, hq, hqi, _⟩ := hid _ _ _ hg
          exact ⟨g, q, x, hq, hqi, hpx⟩
    have hinj : ∀ a ∈ f, ∀ b ∈ f, a.idStr = b.idStr → a = b := by
      intro a ha b hb hab
      obtain ⟨g1, q1, i, e1, e2, e3⟩ := hids a ha
      obtain ⟨g2, q2, j, e4, e5, e6⟩ := hids b hb
      simp only [Node.idStr, e3, e6, Option.map_some, Option.getD_some] at hab
      have := hstr _ _ _ _ _ _ e1 e4 e2 e5 hab
      subst this
      exact List.inj_on_of_nodup_map (flat_ids hi h2) ha hb (e3.trans e6.symm)
    have hff : f = f' := by
      have s1 : f.Pairwise fun a b => a.idStr ≤ b.idStr := by
        rw [h1] at h3; cases h3; exact sortByKey_sorted _ _
      have s2 : f'.Pairwise fun a b => a.idStr ≤ b.idStr := by
        rw [h1'] at h3'; cases h3'; exact sortByKey_sorted _ _
      refine List.Perm.eq_of_pairwise ?_ s1 s2 hperm
      intro a b ha hb hle hge
      exact hinj a ha b (hperm.mem_iff.2 hb) (List.le_antisymm hle hge)
    simp only [Doc.flatten, hm, h1, h1', hff, bind, Except.bind]
  · simp only [Doc.flatten, he, bind, Except.bind]

end

/-! ## Concrete cases -/

/-- The iteration orders of maps that iterate in the order of insertion. -/
def Orders.insertion : Orders := ⟨fun l => l, fun _ l => l, fun _ => .refl _, fun _ _ => .refl _⟩

/-- The opposite orders. -/
def Orders.backwards : Orders :=
  ⟨List.reverse, fun _ l => l.reverse, fun l => l.reverse_perm, fun _ l => l.reverse_perm⟩

/-- Labels `b`, `bb`, … -/
def exGen (k : Nat) : Id := .blank (List.replicate (k + 1) 'b')

theorem exGen_injective (i j : Nat) (h : exGen i = exGen j) : i = j := by
  simp only [exGen, Id.blank.injEq] at h
  have := congrArg List.length h
  simpa using this

/-- A node with a named graph, an embedded unnamed node, a list and a reverse property. -/
def exNested : Doc :=
  [.node (.mk (some "i".toList) (some (.iri "a".toList)) (some [.iri "T".toList])
    (some [.node (.mk none (some (.iri "a".toList)) none none none
      [(.iri "q".toList, [.value none (.literal (.str "x".toList) none)])] none)])
    none
    [(.iri "p".toList, [.list none [.node (.mk none none none none none
      [(.iri "q".toList, [.value none (.literal (.str "x".toList) none)])] none)]])]
    (some [(.iri "r".toList, [.mk none (some (.blank "x".toList)) none none none [] none])]))]

/-- The document meets the hypotheses of the theorems. -/
theorem exNested_ok : Relabelable exGen exNested := by
  refine ⟨exGen_injective, ?_, ?_⟩
  · simp [exNested, Doc.WF, gWF, objsWF, Obj.WF, Node.WF, incWF, rvWF, psWF, rpsWF, nodesWF]
  · intro h hh i hi hb k
    simp [exNested, docHeaders, objsHeaders, objHeaders, nodeHeaders, gHeaders, incHeaders, psHeaders,
      rvHeaders, rpsHeaders, nodesHeaders] at hh
    rcases hh with rfl | rfl | rfl | rfl <;>
      simp [headerIds] at hi <;> (try rcases hi with rfl | rfl) <;> simp_all [exGen]

/-- It flattens to three nodes, one of which has a named graph of one node. -/
def exFlat : List Node :=
  [.mk (some "i".toList) (some (.iri "a".toList)) (some [.iri "T".toList])
      (some [.node (.mk none (some (.iri "a".toList)) none none none
        [(.iri "q".toList, [.value none (.literal (.str "x".toList) none)])] none)]) none
      [(.iri "p".toList, [.list none [bareNode (some (.blank "b".toList))]])] none,
    .mk none (some (.blank "b".toList)) none none none
      [(.iri "q".toList, [.value none (.literal (.str "x".toList) none)])] none,
    .mk none (some (.blank "bb".toList)) none none none
      [(.iri "r".toList, [bareNode (some (.iri "a".toList))])] none]

theorem exNested_flat : exNested.flatten exGen Orders.backwards true 0 = .ok exFlat := by
  decide +kernel

/-- So the hypothesis of C16, C17, C18 and C19 can be met. -/
example : Flattened exGen exNested 0 exFlat := .list exNested_flat

/-- Two descriptions of the same node with different indexes: C18. -/
example : Doc.flatten exGen Orders.insertion false
    [.node (.mk (some "i".toList) (some (.iri "a".toList)) none none none [] none),
    .node (.mk (some "j".toList) (some (.iri "a".toList)) none none none [] none)] 0 =
      .error (.conflict (.iri "a".toList) "i".toList "j".toList) := by
  decide +kernel

/-- The same node described twice, with types `T` and `U`. -/
def exRetyped : Doc :=
  [.node (.mk none (some (.iri "a".toList)) (some [.iri "T".toList]) none none [] none),
   .node (.mk none (some (.iri "a".toList)) (some [.iri "U".toList]) none none [] none)]

/-- C17 does not hold of types: the types of an earlier description of a node are overwritten by
those of a later one. -/
theorem C17_types_overwritten : ∃ d f, Relabelable exGen d ∧ Flattened exGen d 0 f ∧
    (∃ q, Occurs (d.relabel exGen 0).1 none (.node q) ∧ q.id = some (.iri "a".toList) ∧
      q.types = some [.iri "T".toList]) ∧
    ∀ p, FlatNode f none p → p.types ≠ none → p.types = some [.iri "U".toList] := by
  refine ⟨exRetyped, [.mk none (some (.iri "a".toList)) (some [.iri "U".toList]) none none [] none],
    ⟨exGen_injective, ?_, ?_⟩, .list (o := Orders.insertion) (ordered := true) (by decide +kernel),
    ⟨_, .self (.top (by
      rw [show (exRetyped.relabel exGen 0).1 = exRetyped by decide +kernel]
      exact List.mem_cons_self)), rfl, rfl⟩, ?_⟩
  · simp only [exRetyped, Doc.WF, gWF, objsWF, Obj.WF, Node.WF, incWF, rvWF, psWF]
    refine ⟨?_, by simp⟩
    simp only [List.pairwise_cons, List.mem_cons, List.not_mem_nil, or_false, forall_eq,
      false_imp_iff, implies_true, List.Pairwise.nil, and_true]
    decide +kernel
  · intro h hh i hi hb k
    simp [exRetyped, docHeaders, objsHeaders, objHeaders, nodeHeaders, gHeaders, incHeaders,
      psHeaders, rvHeaders] at hh
    rcases hh with rfl | rfl <;> simp [headerIds] at hi <;> rcases hi with rfl | rfl <;> simp [exGen]
  · intro p hp _
    rw [List.mem_singleton.1 hp]
    rfl

/-- A named graph with a node that has a type and no property. -/
def exTyped : Doc :=
  [.node (.mk none (some (.iri "g".toList)) none
    (some [.node (.mk none (some (.iri "a".toList)) (some [.iri "T".toList]) none none [] none)])
    none [] none)]

/-- C17 does not hold of types: a node of a named graph with types but neither properties nor index
is dropped. -/
theorem C17_typed_node_dropped : ∃ d f g, Relabelable exGen d ∧ Flattened exGen d 0 f ∧
    (∃ q, Occurs (d.relabel exGen 0).1 (some g) (.node q) ∧ q.id = some (.iri "a".toList) ∧
      q.types = some [.iri "T".toList]) ∧
    ∀ p, ¬ FlatNode f (some g) p := by
  refine ⟨exTyped, [.mk none (some (.iri "g".toList)) none (some []) none [] none], .iri "g".toList,
    ⟨exGen_injective, ?_, ?_⟩, .list (o := Orders.insertion) (ordered := true) (by decide +kernel),
    ⟨.mk none (some (.iri "a".toList)) (some [.iri "T".toList]) none none [] none, ?_, rfl, rfl⟩, ?_⟩
  · simp [exTyped, Doc.WF, gWF, objsWF, Obj.WF, Node.WF, incWF, rvWF, psWF]
  · intro h hh i hi hb k
    simp [exTyped, docHeaders, objsHeaders, objHeaders, nodeHeaders, gHeaders, incHeaders,
      psHeaders, rvHeaders] at hh
    rcases hh with rfl | rfl <;> simp [headerIds] at hi <;> (try rcases hi with rfl | rfl) <;>
      simp [exGen]
  · rw [show (exTyped.relabel exGen 0).1 = exTyped by decide +kernel]
    exact .self (.graph (.self (.top List.mem_cons_self)) rfl rfl List.mem_cons_self)
  · rintro p ⟨m, hm, _, l, hl, hp⟩
    rw [List.mem_singleton.1 hm] at hl
    cases hl
    cases hp

end JsonLd.Props
