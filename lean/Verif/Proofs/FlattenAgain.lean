import Verif.Proofs.Flatten
/-!
# Flattening a flat document
-/

namespace JsonLd.Again
open JsonLd Spec

/-! ## What becomes of one node -/

/-- The effect of an update on the node `x` of the graph `g`. -/
def nstep (g : Option Id) (x : Id) (n : Node) : Ev → Node
  | .declare g' x' i => if g' = g ∧ x' = x then (match n.index, i with
      | none, some b => n.setIndex (some b)
      | _, _ => n) else n
  | .types g' x' ts => if g' = g ∧ x' = x then n.setTypes (some ts) else n
  | .decl _ => n
  | .gadd g' x' os => if g' = g ∧ x' = x then extendGraphEntry os n else n
  | .props g' x' k os => if g' = g ∧ x' = x then n.setProps (insertAllUnique n.props k os) else n

/-- The node `x` of the graph `g`, or one that says nothing. -/
def norm (m : NodeMap) (g : Option Id) (x : Id) : Node := (m.get g x).getD (Node.withId x none)

theorem apply_norm {m m' : NodeMap} (hm : m.KeysOk) {e : Ev} (h : m.apply e = .ok m') (g : Option Id) (x : Id) :
    m'.KeysOk ∧ norm m' g x = nstep g x (norm m g x) e := by
  have mod : ∀ {g' x' f}, m.modify g' x' f = .ok m' → m'.KeysOk ∧
      norm m' g x = if g' = g ∧ x' = x then f (norm m g x) else norm m g x := by
    intro g' x' f h
    obtain ⟨n, h1, h2, _, h3⟩ := modify_ok hm h
    refine ⟨h2, ?_⟩
    unfold norm
    rw [h3]
    by_cases he : g' = g ∧ x' = x
    · obtain ⟨rfl, rfl⟩ := he
      rw [if_pos ⟨rfl, rfl⟩, if_pos ⟨rfl, rfl⟩, h1]
      rfl
    · rw [if_neg he, if_neg fun h => he ⟨h.1.symm, h.2.symm⟩]
  cases e with
  | declare g' x' i =>
    obtain ⟨h1, _, _, h3⟩ := declare_ok hm h
    refine ⟨h1, ?_⟩
    simp only [norm, nstep]
    rw [h3]
    by_cases he : g' = g ∧ x' = x
    · obtain ⟨rfl, rfl⟩ := he
      rw [if_pos ⟨rfl, rfl⟩, if_pos ⟨rfl, rfl⟩]
      cases m.get g' x' with
      | none => cases i <;> rfl
      | some n =>
        obtain ⟨j, id, ty, gr, inc, ps, rv⟩ := n
        cases j <;> cases i <;> rfl
    · rw [if_neg he, if_neg fun h => he ⟨h.1.symm, h.2.symm⟩]
  | types g' x' ts => exact mod h
  | decl id =>
    cases h
    obtain ⟨h1, _, h3⟩ := declareGraph_ok (g := id) hm
    refine ⟨h1, ?_⟩
    simp only [norm, nstep]
    rw [h3]
  | gadd g' x' os => exact mod h
  | props g' x' k os => exact mod (f := fun n => n.setProps (insertAllUnique n.props k os)) h

theorem applyAll_norm {m m' : NodeMap} (hm : m.KeysOk) {es : List Ev} (h : m.applyAll es = .ok m') (g : Option Id)
    (x : Id) : norm m' g x = es.foldl (nstep g x) (norm m g x) := by
  induction es generalizing m with
  | nil => cases h; rfl
  | cons e es ih =>
    rw [applyAll_cons] at h
    cases he : m.apply e with
    | error err => rw [he] at h; cases h
    | ok m1 =>
      rw [he] at h
      obtain ⟨h1, h2⟩ := apply_norm hm he g x
      rw [ih h1 h, List.foldl_cons, h2]

/-- The updates do nothing to the node. -/
def Quiet (g : Option Id) (x : Id) (es : List Ev) : Prop := ∀ e ∈ es, ∀ n, nstep g x n e = n

theorem Quiet.fold {g : Option Id} {x : Id} {es : List Ev} (h : Quiet g x es) (n : Node) :
    es.foldl (nstep g x) n = n := by
  induction es generalizing n with
  | nil => rfl
  | cons e es ih =>
    rw [List.foldl_cons, h e List.mem_cons_self]
    exact ih (fun e he => h e (List.mem_cons_of_mem _ he)) n

theorem quiet_append {g : Option Id} {x : Id} {a b : List Ev} (h : Quiet g x a) (h' : Quiet g x b) :
    Quiet g x (a ++ b) := by
  intro e he
  rcases List.mem_append.1 he with he | he
  · exact h e he
  · exact h' e he

/-! ## Flat values -/

theorem flatValues_iff {l : List Obj} : FlatValues l ↔ ∀ o ∈ l, FlatValue o := by
  induction l with
  | nil => simp [FlatValues]
  | cons o os ih => simp [FlatValues, ih]

theorem flat_reference : ∀ o : Obj, FlatValue o → reference o = o := by
  have := Doc.ind (P := fun o => FlatValue o → reference o = o) (Q := fun _ => True)
    (fun i v _ => rfl)
    (fun i l ih h => by
      simp only [FlatValue, flatValues_iff] at h
      simp only [reference, references_eq, Obj.list.injEq, true_and]
      conv_rhs => rw [← List.map_id l]
      exact List.map_congr_left fun o ho => ih o ho (h o ho))
    (fun n _ h => by
      obtain ⟨i, h⟩ := h
      cases h
      rfl)
    (fun _ _ _ _ _ _ _ _ _ _ _ => trivial)
  exact this.1

theorem flat_references {l : List Obj} (h : ∀ o ∈ l, FlatValue o) : references l = l := by
  rw [references_eq]
  conv_rhs => rw [← List.map_id l]
  exact List.map_congr_left fun o ho => flat_reference o (h o ho)

theorem flat_evs (g : Option Id) : ∀ o : Obj, FlatValue o → ∀ e ∈ oEvs g o, ∃ y, e = .declare g y none := by
  have := Doc.ind (P := fun o => FlatValue o → ∀ e ∈ oEvs g o, ∃ y, e = .declare g y none) (Q := fun _ => True)
    (fun i v _ e he => by cases he)
    (fun i l ih h e he => by
      simp only [FlatValue, flatValues_iff] at h
      simp only [oEvs] at he
      obtain ⟨o, ho, he⟩ := osEvs_mem.1 he
      exact ih o ho (h o ho) e he)
    (fun n _ h e he => by
      obtain ⟨i, h⟩ := h
      cases h
      simp [oEvs, nEvs, tyEvs, grEvs, incEvs, psEvs, rvEvs] at he
      exact ⟨_, he⟩)
    (fun _ _ _ _ _ _ _ _ _ _ _ => trivial)
  exact this.1

theorem bare_quiet (g' g : Option Id) (x y : Id) (n : Node) : nstep g x n (.declare g' y none) = n := by
  simp only [nstep]
  split
  · cases n.index <;> rfl
  · rfl

theorem flats_quiet {g' : Option Id} {os : List Obj} (h : ∀ o ∈ os, FlatValue o) (g : Option Id) (x : Id) :
    Quiet g x (osEvs g' os) := by
  intro e he n
  obtain ⟨o, ho, he⟩ := osEvs_mem.1 he
  obtain ⟨y, rfl⟩ := flat_evs g' o (h o ho) e he
  exact bare_quiet _ _ _ _ _

/-! ## Properties -/

theorem addUnique_self (os vs : List Obj) (h : (os ++ vs).Pairwise fun a b => a.equiv b = false) :
    addUnique os vs = os ++ vs := by
  induction vs generalizing os with
  | nil => simp [addUnique]
  | cons v vs ih =>
    have h1 : os.all (fun o => !o.equiv v) = true := by
      rw [List.all_eq_true]
      intro o ho
      rw [List.pairwise_append] at h
      simp [h.2.2 o ho v List.mem_cons_self]
    simp only [addUnique, h1, if_true]
    rw [ih (os ++ [v]) (by simpa using h)]
    simp

theorem once_equiv {os : List Obj} (h : os.Pairwise fun a b => a.eq b = true → ∃ i l, a = .list i l) :
    os.Pairwise fun a b => a.equiv b = false := by
  refine h.imp ?_
  intro a b hab
  rw [Bool.eq_false_iff]
  intro he
  have : a.eq b = true := by cases a <;> cases b <;> simp_all [Obj.equiv, Obj.eq]
  obtain ⟨i, l, rfl⟩ := hab this
  cases b <;> simp [Obj.equiv] at he

theorem psEvs_quiet {g' : Option Id} {x' : Id} {ps : List (Id × List Obj)} (hv : ∀ k os, (k, os) ∈ ps → ∀ o ∈ os, FlatValue o)
    {g : Option Id} {x : Id} (hne : ¬ (g' = g ∧ x' = x)) : Quiet g x (psEvs g' x' ps) := by
  induction ps with
  | nil => intro e he; cases he
  | cons p ps ih =>
    obtain ⟨k, os⟩ := p
    refine quiet_append (flats_quiet (hv k os List.mem_cons_self) g x) (fun e he n => ?_)
    rcases List.mem_cons.1 he with rfl | he
    · simp only [nstep, if_neg hne]
    · exact ih (fun k os h => hv k os (List.mem_cons_of_mem _ h)) e he n

theorem psEvs_fold {g : Option Id} {x : Id} (ps : List (Id × List Obj)) (hv : ∀ k os, (k, os) ∈ ps → ∀ o ∈ os, FlatValue o)
    (ho : ∀ k os, (k, os) ∈ ps → os.Pairwise fun a b => a.equiv b = false)
    (i id ty gr inc rv) (acc : List (Id × List Obj)) (hk : ((acc ++ ps).map Prod.fst).Nodup) :
    (psEvs g x ps).foldl (nstep g x) (.mk i id ty gr inc acc rv) = .mk i id ty gr inc (acc ++ ps) rv := by
  induction ps generalizing acc with
  | nil => simp [psEvs]
  | cons p ps ih =>
    obtain ⟨k, os⟩ := p
    have hn : lookupProp k acc = none := by
      rw [lookupProp_eq_none]
      intro hmem
      rw [List.map_append, List.nodup_append] at hk
      exact hk.2.2 k hmem k (by simp) rfl
    simp only [psEvs, List.foldl_append, List.foldl_cons]
    rw [(flats_quiet (hv k os List.mem_cons_self) g x).fold, flat_references (hv k os List.mem_cons_self)]
    have : nstep g x (.mk i id ty gr inc acc rv) (.props g x k os) = .mk i id ty gr inc (acc ++ [(k, os)]) rv := by
      simp only [nstep, and_self, if_true, Node.setProps, Node.props, insertAllUnique, hn]
      rw [addUnique_self [] os (by simpa using ho k os List.mem_cons_self)]
      rfl
    rw [this, ih (fun k os h => hv k os (List.mem_cons_of_mem _ h)) (fun k os h => ho k os (List.mem_cons_of_mem _ h)) _
      (by simpa using hk)]
    simp

/-! ## Nodes -/

theorem rid_some (x : Id) : rid (some x) = x := rfl

/-- A node that is not a graph. -/
theorem node_fold {g : Option Id} {x : Id} {q : Node} (hq : PlainNode q) (hx : q.id = some x) (hg : q.graph = none) :
    (nEvs g q).foldl (nstep g x) (Node.withId x none) = q := by
  obtain ⟨i, id, ty, gr, inc, ps, rv⟩ := q
  have h1 := hq.included
  have h2 := hq.rev
  simp only [Node.included, Node.rev, Node.id, Node.graph] at h1 h2 hx hg
  subst h1 h2 hx hg
  simp only [nEvs, rid_some, grEvs, incEvs, rvEvs, List.nil_append, List.append_nil, List.foldl_cons, List.foldl_append]
  have e1 : nstep g x (Node.withId x none) (.declare g x i) = Node.withId x i := by
    simp only [nstep, and_self, if_true]
    cases i <;> rfl
  have e2 : (tyEvs g x ty).foldl (nstep g x) (Node.withId x i) = .mk i (some x) ty none none [] none := by
    cases ty with
    | none => rfl
    | some ts =>
      simp only [tyEvs, List.foldl_cons, List.foldl_nil, nstep, and_self, if_true]
      rfl
  rw [e1, e2, psEvs_fold ps hq.values (fun k os h => once_equiv (hq.once k os h)) _ _ _ _ _ _ [] (by simpa [Node.props] using hq.keys)]
  rfl

theorem tyEvs_quiet {g' : Option Id} {x' : Id} (ty : Option (List Id)) {g : Option Id} {x : Id}
    (hne : ¬ (g' = g ∧ x' = x)) : Quiet g x (tyEvs g' x' ty) := by
  intro e he n
  cases ty with
  | none => cases he
  | some ts =>
    rw [List.mem_singleton.1 he]
    simp only [nstep, if_neg hne]

theorem node_quiet {g' : Option Id} {x' : Id} {q : Node} (hq : PlainNode q) (hx : q.id = some x') (hg : q.graph = none)
    {g : Option Id} {x : Id} (hne : ¬ (g' = g ∧ x' = x)) : Quiet g x (nEvs g' q) := by
  obtain ⟨i, id, ty, gr, inc, ps, rv⟩ := q
  have h1 := hq.included
  have h2 := hq.rev
  simp only [Node.included, Node.rev, Node.id, Node.graph] at h1 h2 hx hg
  subst h1 h2 hx hg
  simp only [nEvs, rid_some, grEvs, incEvs, rvEvs, List.nil_append, List.append_nil]
  intro e he n
  rcases List.mem_cons.1 he with rfl | he
  · simp only [nstep, if_neg hne]
  · exact quiet_append (tyEvs_quiet ty hne) (psEvs_quiet hq.values hne) e he n

theorem osEvs_nodes (g : Option Id) (ns : List Node) : osEvs g (ns.map .node) = ns.flatMap (nEvs g) := by
  induction ns with
  | nil => rfl
  | cons n ns ih => simp [osEvs, oEvs, ih]

/-- Only one of the nodes matters. -/
theorem pick {g : Option Id} {x : Id} {ev : Node → List Ev} {a : Node} (L : List Node) (ha : a ∈ L)
    (hn : (L.map Node.id).Nodup) (hq : ∀ b ∈ L, b.id ≠ a.id → Quiet g x (ev b)) (n : Node) :
    (L.flatMap ev).foldl (nstep g x) n = (ev a).foldl (nstep g x) n := by
  induction L generalizing n with
  | nil => cases ha
  | cons b L ih =>
    rw [List.flatMap_cons, List.foldl_append]
    rw [List.map_cons, List.nodup_cons] at hn
    rcases List.mem_cons.1 ha with rfl | ha'
    · have : Quiet g x (L.flatMap ev) := by
        intro e he
        obtain ⟨b, hb, he⟩ := List.mem_flatMap.1 he
        exact hq b (List.mem_cons_of_mem _ hb) (fun h => hn.1 (h ▸ List.mem_map_of_mem hb)) e he
      rw [this.fold]
    · have hne : b.id ≠ a.id := fun h => hn.1 (h ▸ List.mem_map_of_mem ha')
      rw [(hq b List.mem_cons_self hne).fold]
      exact ih ha' hn.2 (fun b hb => hq b (List.mem_cons_of_mem _ hb)) n

theorem all_quiet {g : Option Id} {x : Id} {ev : Node → List Ev} {L : List Node} (hq : ∀ b ∈ L, Quiet g x (ev b)) :
    Quiet g x (L.flatMap ev) := by
  intro e he
  obtain ⟨b, hb, he⟩ := List.mem_flatMap.1 he
  exact hq b hb e he

section
variable {f : List Node} (hf : FlatDoc f)
include hf

theorem plain_top {p : Node} (hp : p ∈ f) : PlainNode p := hf.plain none p hp

omit hf in
theorem id_of_plain {p : Node} (hp : PlainNode p) : ∃ x, p.id = some x := Option.isSome_iff_exists.1 hp.id

omit hf in
theorem flatNode_of {p : Node} (hp : p ∈ f) {x : Id} (hx : p.id = some x) {ns : List Node}
    (hl : p.graph = some (ns.map .node)) {q : Node} (hq : q ∈ ns) : FlatNode f (some x) q :=
  ⟨p, hp, hx, _, hl, List.mem_map_of_mem hq⟩

/-- The updates of a node at the top. -/
theorem top_evs {p : Node} (hp : p ∈ f) {x : Id} (hx : p.id = some x) : nEvs none p =
    .declare none x p.index :: (tyEvs none x p.types ++ (grEvs none x p.graph ++ psEvs none x p.props)) := by
  have h1 := (plain_top hf hp).included
  have h2 := (plain_top hf hp).rev
  obtain ⟨i, id, ty, gr, inc, ps, rv⟩ := p
  simp only [Node.included, Node.rev, Node.id] at h1 h2 hx
  subst h1 h2 hx
  simp only [nEvs, rid_some, incEvs, rvEvs, List.nil_append, List.append_nil, Node.index, Node.types, Node.graph, Node.props]

/-- What is inside a graph does nothing to other graphs. -/
theorem gr_quiet {p : Node} (hp : p ∈ f) {x : Id} (hx : p.id = some x) {g : Option Id} {y : Id}
    (h1 : some x ≠ g) (h2 : ¬ ((none : Option Id) = g ∧ x = y)) : Quiet g y (grEvs none x p.graph) := by
  cases hl : p.graph with
  | none => intro e he; cases he
  | some l =>
    obtain ⟨ns, rfl, _⟩ := hf.members p hp l hl
    intro e he n
    rcases List.mem_cons.1 he with rfl | he
    · rfl
    · rcases List.mem_append.1 he with he | he
      · rw [osEvs_nodes] at he
        obtain ⟨q, hq, he⟩ := List.mem_flatMap.1 he
        have hfn := flatNode_of hp hx hl hq
        obtain ⟨z, hz⟩ := Option.isSome_iff_exists.1 (hf.plain _ _ hfn).id
        exact node_quiet (hf.plain _ _ hfn) hz (hf.nested _ _ hfn).1 (fun h => h1 h.1) e he n
      · rw [List.mem_singleton.1 he]
        simp only [nstep, if_neg h2]

theorem top_quiet {p : Node} (hp : p ∈ f) {x : Id} (hx : p.id = some x) {g : Option Id} {y : Id}
    (h1 : some x ≠ g) (h2 : ¬ ((none : Option Id) = g ∧ x = y)) : Quiet g y (nEvs none p) := by
  rw [top_evs hf hp hx]
  intro e he n
  rcases List.mem_cons.1 he with rfl | he
  · simp only [nstep, if_neg h2]
  · exact quiet_append (tyEvs_quiet _ h2) (quiet_append (gr_quiet hf hp hx h1 h2)
      (psEvs_quiet (plain_top hf hp).values h2)) e he n

/-- A node of the default graph, apart from its graph. -/
theorem default_fold {p : Node} (hp : p ∈ f) {x : Id} (hx : p.id = some x) :
    ∃ l, (osEvs none (f.map .node)).foldl (nstep none x) (Node.withId x none) = p.setGraphEntry l := by
  rw [osEvs_nodes, pick f hp hf.ids (fun b hb hne => by
    obtain ⟨z, hz⟩ := id_of_plain (plain_top hf hb)
    exact top_quiet hf hb hz nofun (fun h => hne (by rw [hz, hx, h.2])))]
  rw [top_evs hf hp hx]
  have h1 := (plain_top hf hp).included
  have h2 := (plain_top hf hp).rev
  have hv := (plain_top hf hp).values
  have hk := (plain_top hf hp).keys
  have ho := (plain_top hf hp).once
  have hm := hf.members p hp
  have hn := fun q => hf.nested x q
  have hq := fun q => hf.plain (some x) q
  have hfn : ∀ ns : List Node, p.graph = some (ns.map .node) → ∀ q ∈ ns, FlatNode f (some x) q :=
    fun ns hl q hq => flatNode_of hp hx hl hq
  clear hp
  obtain ⟨i, id, ty, gr, inc, ps, rv⟩ := p
  simp only [Node.included, Node.rev, Node.id, Node.index, Node.types, Node.graph, Node.props] at *
  subst h1 h2 hx
  simp only [List.foldl_cons, List.foldl_append]
  have e1 : nstep none x (Node.withId x none) (.declare none x i) = Node.withId x i := by
    simp only [nstep, and_self, if_true]
    cases i <;> rfl
  have e2 : (tyEvs none x ty).foldl (nstep none x) (Node.withId x i) = .mk i (some x) ty none none [] none := by
    cases ty with
    | none => rfl
    | some ts =>
      simp only [tyEvs, List.foldl_cons, List.foldl_nil, nstep, and_self, if_true]
      rfl
  have e3 : ∃ l, (grEvs none x gr).foldl (nstep none x) (.mk i (some x) ty none none [] none) =
      .mk i (some x) ty l none [] none := by
    cases gr with
    | none => exact ⟨none, rfl⟩
    | some l =>
      obtain ⟨ns, rfl, _⟩ := hm l rfl
      simp only [grEvs, List.foldl_cons, List.foldl_append, List.foldl_nil]
      have : Quiet none x (osEvs (some x) (ns.map .node)) := by
        rw [osEvs_nodes]
        refine all_quiet fun q hq' => ?_
        have hf' := hfn ns rfl q hq'
        obtain ⟨z, hz⟩ := Option.isSome_iff_exists.1 (hq q hf').id
        exact node_quiet (hq q hf') hz (hn q hf').1 (fun h => nomatch h.1)
      have e : nstep none x (.mk i (some x) ty none none [] none) (.decl x) = .mk i (some x) ty none none [] none := rfl
      rw [e, this.fold]
      simp only [nstep, and_self, if_true, extendGraphEntry, Node.graph, Node.setGraphEntry]
      exact ⟨_, rfl⟩
  obtain ⟨l, e3⟩ := e3
  refine ⟨l, ?_⟩
  rw [e1, e2, e3, psEvs_fold ps hv (fun k os h => once_equiv (ho k os h)) _ _ _ _ _ _ [] (by simpa using hk)]
  rfl

theorem absent_fold {x : Id} (hx : ∀ p ∈ f, p.id ≠ some x) :
    (osEvs none (f.map .node)).foldl (nstep none x) (Node.withId x none) = Node.withId x none := by
  rw [osEvs_nodes]
  refine Quiet.fold (all_quiet fun b hb => ?_) _
  obtain ⟨z, hz⟩ := id_of_plain (plain_top hf hb)
  exact top_quiet hf hb hz nofun (fun h => hx b hb (by rw [hz, h.2]))

/-- A node of a named graph. -/
theorem named_fold {p : Node} (hp : p ∈ f) {x : Id} (hx : p.id = some x) {ns : List Node}
    (hl : p.graph = some (ns.map .node)) (hns : (ns.map Node.id).Nodup) (y : Id) :
    (∀ q ∈ ns, q.id = some y →
      (osEvs none (f.map .node)).foldl (nstep (some x) y) (Node.withId y none) = q) ∧
    ((∀ q ∈ ns, q.id ≠ some y) →
      (osEvs none (f.map .node)).foldl (nstep (some x) y) (Node.withId y none) = Node.withId y none) := by
  have key : (osEvs none (f.map .node)).foldl (nstep (some x) y) (Node.withId y none) =
      (osEvs (some x) (ns.map .node)).foldl (nstep (some x) y) (Node.withId y none) := by
    have h2 : ¬ ((none : Option Id) = some x ∧ x = y) := fun h => nomatch h.1
    rw [osEvs_nodes, pick f hp hf.ids (fun b hb hne => by
      obtain ⟨z, hz⟩ := id_of_plain (plain_top hf hb)
      exact top_quiet hf hb hz (fun h => hne (by rw [hz, hx, h])) (fun h => nomatch h.1))]
    rw [top_evs hf hp hx, hl]
    simp only [List.foldl_cons, List.foldl_append, grEvs, List.foldl_nil]
    have e1 : ∀ n, nstep (some x) y n (.declare none x p.index) = n := by
      intro n
      simp only [nstep, if_neg h2]
    have e2 : ∀ n, nstep (some x) y n (.decl x) = n := fun _ => rfl
    have e3 : ∀ n, nstep (some x) y n (.gadd none x (references (ns.map .node))) = n := by
      intro n
      simp only [nstep, if_neg h2]
    rw [e1, (tyEvs_quiet _ h2).fold, e2, e3, (psEvs_quiet (plain_top hf hp).values h2).fold]
  rw [key, osEvs_nodes]
  refine ⟨fun q hq hy => ?_, fun hne => ?_⟩
  · have hfq := flatNode_of hp hx hl hq
    rw [pick ns hq hns (fun b hb hbq => by
      have hfb := flatNode_of hp hx hl hb
      obtain ⟨z, hz⟩ := Option.isSome_iff_exists.1 (hf.plain _ _ hfb).id
      exact node_quiet (hf.plain _ _ hfb) hz (hf.nested _ _ hfb).1 (fun h => hbq (by rw [hz, hy, h.2])))]
    exact node_fold (hf.plain _ _ hfq) hy (hf.nested _ _ hfq).1
  · refine Quiet.fold (all_quiet fun b hb => ?_) _
    have hfb := flatNode_of hp hx hl hb
    obtain ⟨z, hz⟩ := Option.isSome_iff_exists.1 (hf.plain _ _ hfb).id
    exact node_quiet (hf.plain _ _ hfb) hz (hf.nested _ _ hfb).1 (fun h => hne b hb (by rw [hz, h.2]))

/-! ## The result -/

theorem no_conflict {id : Id} {a b : Str} : ¬ EvConflict (osEvs none (f.map .node)) id a b := by
  rintro ⟨g, h1, h2, hne⟩
  -- the index is declared with the node of the document
  have key : ∀ i, Ev.declare g id (some i) ∈ osEvs none (f.map .node) →
      ∃ q, FlatNode f g q ∧ q.id = some id ∧ q.index = some i := by
    intro i h
    rw [osEvs_nodes] at h
    obtain ⟨p, hp, h⟩ := List.mem_flatMap.1 h
    obtain ⟨x, hx⟩ := id_of_plain (plain_top hf hp)
    rw [top_evs hf hp hx] at h
    have noTy : ∀ {g' x'} {ty : Option (List Id)}, Ev.declare g id (some i) ∉ tyEvs g' x' ty := by
      intro g' x' ty h
      cases ty with
      | none => cases h
      | some ts => cases List.mem_singleton.1 h
    have noPs : ∀ {g' x'} {ps : List (Id × List Obj)}, (∀ k os, (k, os) ∈ ps → ∀ o ∈ os, FlatValue o) →
        Ev.declare g id (some i) ∉ psEvs g' x' ps := by
      intro g' x' ps hv h
      obtain ⟨⟨k, os⟩, hp, h⟩ := psEvs_mem.1 h
      rcases h with h | h
      · obtain ⟨o, ho, h⟩ := osEvs_mem.1 h
        obtain ⟨y, h⟩ := flat_evs g' o (hv k os hp o ho) _ h
        cases h
      · cases h
    rcases List.mem_cons.1 h with h | h
    · injection h with e1 e2 e3
      subst e1 e2
      exact ⟨p, hp, hx, e3.symm⟩
    · rcases List.mem_append.1 h with h | h
      · exact absurd h noTy
      · rcases List.mem_append.1 h with h | h
        · cases hl : p.graph with
          | none => rw [hl] at h; cases h
          | some l =>
            obtain ⟨ns, rfl, _⟩ := hf.members p hp l hl
            rw [hl] at h
            rcases List.mem_cons.1 h with h | h
            · cases h
            · rcases List.mem_append.1 h with h | h
              · rw [osEvs_nodes] at h
                obtain ⟨q, hq, h⟩ := List.mem_flatMap.1 h
                have hfq := flatNode_of hp hx hl hq
                have hpl := hf.plain _ _ hfq
                have hgn := (hf.nested _ _ hfq).1
                obtain ⟨z, hz⟩ := id_of_plain hpl
                obtain ⟨i', id', ty, gr, inc, ps, rv⟩ := q
                have g1 := hpl.included
                have g2 := hpl.rev
                simp only [Node.included, Node.rev, Node.id, Node.graph] at g1 g2 hz hgn
                subst g1 g2 hz hgn
                simp only [nEvs, rid_some, grEvs, incEvs, rvEvs, List.nil_append, List.append_nil] at h
                rcases List.mem_cons.1 h with h | h
                · injection h with e1 e2 e3
                  subst e1 e2 e3
                  exact ⟨_, hfq, rfl, rfl⟩
                · rcases List.mem_append.1 h with h | h
                  · exact absurd h noTy
                  · exact absurd h (noPs hpl.values)
              · cases List.mem_singleton.1 h
        · exact absurd h (noPs (plain_top hf hp).values)
  obtain ⟨q1, p1, i1, j1⟩ := key a h1
  obtain ⟨q2, p2, i2, j2⟩ := key b h2
  have : q1 = q2 := by
    cases g with
    | none => exact List.inj_on_of_nodup_map hf.ids p1 p2 (i1.trans i2.symm)
    | some x =>
      obtain ⟨n1, m1, x1, l1, y1, z1⟩ := p1
      obtain ⟨n2, m2, x2, l2, y2, z2⟩ := p2
      have := List.inj_on_of_nodup_map hf.ids m1 m2 (x1.trans x2.symm)
      subst this
      rw [y1] at y2
      cases y2
      obtain ⟨ns, rfl, hn⟩ := hf.members _ m1 _ y1
      obtain ⟨a1, b1, c1⟩ := List.mem_map.1 z1
      obtain ⟨a2, b2, c2⟩ := List.mem_map.1 z2
      cases c1
      cases c2
      exact List.inj_on_of_nodup_map hn b1 b2 (i1.trans i2.symm)
  subst this
  rw [j1] at j2
  exact hne (Option.some.inj j2)

theorem decl_iff {x : Id} : Ev.decl x ∈ osEvs none (f.map .node) ↔ ∃ p ∈ f, p.id = some x ∧ p.graph.isSome = true := by
  have noTy : ∀ {g' x'} {ty : Option (List Id)}, Ev.decl x ∉ tyEvs g' x' ty := by
    intro g' x' ty h
    cases ty with
    | none => cases h
    | some ts => cases List.mem_singleton.1 h
  have noPs : ∀ {g' x'} {ps : List (Id × List Obj)}, (∀ k os, (k, os) ∈ ps → ∀ o ∈ os, FlatValue o) →
      Ev.decl x ∉ psEvs g' x' ps := by
    intro g' x' ps hv h
    obtain ⟨⟨k, os⟩, hp, h⟩ := psEvs_mem.1 h
    rcases h with h | h
    · obtain ⟨o, ho, h⟩ := osEvs_mem.1 h
      obtain ⟨y, h⟩ := flat_evs g' o (hv k os hp o ho) _ h
      cases h
    · cases h
  rw [osEvs_nodes]
  constructor
  · intro h
    obtain ⟨p, hp, h⟩ := List.mem_flatMap.1 h
    obtain ⟨y, hy⟩ := id_of_plain (plain_top hf hp)
    rw [top_evs hf hp hy] at h
    rcases List.mem_cons.1 h with h | h
    · cases h
    · rcases List.mem_append.1 h with h | h
      · exact absurd h noTy
      · rcases List.mem_append.1 h with h | h
        · cases hl : p.graph with
          | none => rw [hl] at h; cases h
          | some l =>
            obtain ⟨ns, rfl, _⟩ := hf.members p hp l hl
            rw [hl] at h
            rcases List.mem_cons.1 h with h | h
            · cases h
              exact ⟨p, hp, hy, by rw [hl]; rfl⟩
            · rcases List.mem_append.1 h with h | h
              · rw [osEvs_nodes] at h
                obtain ⟨q, hq, h⟩ := List.mem_flatMap.1 h
                have hfq := flatNode_of hp hy hl hq
                have hpl := hf.plain _ _ hfq
                have hgn := (hf.nested _ _ hfq).1
                obtain ⟨z, hz⟩ := id_of_plain hpl
                obtain ⟨i', id', ty, gr, inc, ps, rv⟩ := q
                have g1 := hpl.included
                have g2 := hpl.rev
                simp only [Node.included, Node.rev, Node.id, Node.graph] at g1 g2 hz hgn
                subst g1 g2 hz hgn
                simp only [nEvs, rid_some, grEvs, incEvs, rvEvs, List.nil_append, List.append_nil] at h
                rcases List.mem_cons.1 h with h | h
                · cases h
                · rcases List.mem_append.1 h with h | h
                  · exact absurd h noTy
                  · exact absurd h (noPs hpl.values)
              · cases List.mem_singleton.1 h
        · exact absurd h (noPs (plain_top hf hp).values)
  · rintro ⟨p, hp, hx, hg⟩
    refine List.mem_flatMap.2 ⟨p, hp, ?_⟩
    rw [top_evs hf hp hx]
    refine List.mem_cons_of_mem _ (List.mem_append_right _ (List.mem_append_left _ ?_))
    cases hl : p.graph with
    | none => rw [hl] at hg; cases hg
    | some l => exact List.mem_cons_self

/-- Every node of the document is declared. -/
theorem declared {g : Option Id} {q : Node} (hq : FlatNode f g q) {x : Id} (hx : q.id = some x) :
    ∃ i, Ev.declare g x i ∈ osEvs none (f.map .node) := by
  refine ⟨q.index, ?_⟩
  rw [osEvs_nodes]
  cases g with
  | none =>
    refine List.mem_flatMap.2 ⟨q, hq, ?_⟩
    rw [top_evs hf hq hx]
    exact List.mem_cons_self
  | some y =>
    obtain ⟨p, hp, hy, l, hl, hm⟩ := hq
    refine List.mem_flatMap.2 ⟨p, hp, ?_⟩
    rw [top_evs hf hp hy, hl]
    refine List.mem_cons_of_mem _ (List.mem_append_right _ (List.mem_append_left _ (List.mem_cons_of_mem _
      (List.mem_append_left _ (osEvs_mem.2 ⟨_, hm, ?_⟩)))))
    have := nEvs_head (some y) q
    rw [hx] at this
    exact this

theorem kept_top {p : Node} (hp : p ∈ f) : Kept p := by
  have := hf.top p hp
  obtain ⟨i, id, ty, gr, inc, ps, rv⟩ := p
  simp only [Node.index, Node.types, Node.graph, Node.props] at this
  unfold Kept
  intro h
  simp only [Node.index, Node.isEmpty, Bool.and_eq_true, Option.isNone_iff_eq_none, List.isEmpty_iff] at h
  obtain ⟨rfl, ⟨⟨⟨rfl, rfl⟩, _⟩, rfl⟩, _⟩ := h
  simp at this

/-- Flattening gives the document back. -/
theorem flatOf_again {m : NodeMap} (hm : (⟨[], []⟩ : NodeMap).applyAll (osEvs none (f.map .node)) = .ok m)
    (hi : MapInv (osEvs none (f.map .node)) m) {ent : Id → NMGraph → List Obj} {f' : List Node} (hf' : FlatOf m ent f') :
    PermRel SameNode f f' := by
  have hnorm : ∀ g x, norm m g x = (osEvs none (f.map .node)).foldl (nstep g x) (Node.withId x none) := by
    intro g x
    rw [applyAll_norm mapInv_empty.keys hm g x]
    congr 1
    cases g <;> rfl
  have hget : ∀ {g x q}, FlatNode f g q → q.id = some x → m.get g x = some (norm m g x) := by
    intro g x q hq hx
    obtain ⟨i, h⟩ := declared hf hq hx
    obtain ⟨n, hn⟩ := Option.isSome_iff_exists.1 (hi.exists_node _ _ _ h)
    unfold norm
    rw [hn]
    rfl
  have hgr : ∀ x, (m.graph (some x)).isSome = true ↔ ∃ p ∈ f, p.id = some x ∧ p.graph.isSome = true := by
    intro x
    rw [hi.graphs]
    simp only [reduceCtorEq, false_or, Option.some.injEq, exists_eq_left']
    exact decl_iff hf
  have hval : ∀ {g x n}, m.get g x = some n → n = norm m g x := by
    intro g x n h
    unfold norm
    rw [h]
    rfl
  -- the members of a graph
  have hsub : ∀ p ∈ f, ∀ x, p.id = some x → ∀ l, p.graph = some l → ∀ G, m.graph (some x) = some G →
      l.Perm (ent x G) := by
    intro p hp x hx l hl G hG
    obtain ⟨ns, rfl, hns⟩ := hf.members p hp l hl
    obtain ⟨p', hp'⟩ := setGraphOf_exists (ent := ent) hG
    have hg' := setGraphOf_graph hp'
    rw [hG] at hg'
    obtain ⟨ns', he, hns'⟩ := entry_nodup hi hf' ((flat_default hf').2 ⟨x, hp', kept_of_graph hg'⟩) hg'
    have inj : Function.Injective Obj.node := fun a b h => by cases h; rfl
    have trim_plain : ∀ q ∈ ns, trim q = q := by
      intro q hq
      have hfq := flatNode_of hp hx hl hq
      have g1 := (hf.plain _ _ hfq).included
      have g2 := (hf.plain _ _ hfq).rev
      have g3 := (hf.nested _ _ hfq).1
      obtain ⟨i, id, ty, gr, inc, ps, rv⟩ := q
      simp only [Node.included, Node.rev, Node.graph] at g1 g2 g3
      subst g1 g2 g3
      rfl
    rw [List.perm_ext_iff_of_nodup ((List.Nodup.of_map _ hns).map inj)
      (by rw [he]; exact (List.Nodup.of_map _ hns').map inj)]
    intro o
    rw [ent_mem hi hf' hG]
    constructor
    · intro ho
      obtain ⟨q, hq, rfl⟩ := List.mem_map.1 ho
      have hfq := flatNode_of hp hx hl hq
      obtain ⟨y, hy⟩ := id_of_plain (hf.plain _ _ hfq)
      have hn := hget hfq hy
      rw [hnorm, (named_fold hf hp hx hl hns y).1 q hq hy] at hn
      refine ⟨y, q, hn, ?_, by rw [trim_plain q hq]⟩
      unfold KeptSub
      intro h
      rw [Bool.and_eq_true, Option.isNone_iff_eq_none, List.isEmpty_iff] at h
      rcases (hf.nested _ _ hfq).2 with h' | h'
      · exact h' h.1
      · exact h' h.2
    · rintro ⟨y, n, hn, hk, rfl⟩
      have hn' := hval hn
      rw [hnorm] at hn'
      by_cases hex : ∃ q ∈ ns, q.id = some y
      · obtain ⟨q, hq, hy⟩ := hex
        rw [(named_fold hf hp hx hl hns y).1 q hq hy] at hn'
        subst hn'
        rw [trim_plain n hq]
        exact List.mem_map_of_mem hq
      · rw [(named_fold hf hp hx hl hns y).2 (fun q hq h => hex ⟨q, hq, h⟩)] at hn'
        subst hn'
        exact absurd rfl hk
  -- the nodes of the default graph
  have htop : ∀ p ∈ f, ∀ x, p.id = some x → ∃ n, setGraphOf m ent x = some n ∧ SameNode p n := by
    intro p hp x hx
    have hn := hget (g := none) hp hx
    obtain ⟨l, hl⟩ := default_fold hf hp hx
    rw [hnorm, hl] at hn
    have hb : m.base x = some (p.setGraphEntry l) := by
      unfold NodeMap.base
      rw [hn]
      cases m.graph (some x) <;> rfl
    have hgx := hgr x
    refine ⟨(p.setGraphEntry l).setGraphEntry ((m.graph (some x)).map (ent x)), ?_, ?_⟩
    · unfold setGraphOf
      rw [hb]
      rfl
    · have hs := hsub p hp x hx
      have hg : p.graph.isSome = true ↔ (m.graph (some x)).isSome = true := by
        rw [hgx]
        constructor
        · exact fun h => ⟨p, hp, hx, h⟩
        · rintro ⟨p', hp', hx', h⟩
          rw [List.inj_on_of_nodup_map hf.ids hp hp' (hx.trans hx'.symm)]
          exact h
      clear hgx hp hl hb hn
      obtain ⟨i, id, ty, gr, inc, ps, rv⟩ := p
      refine ⟨rfl, rfl, rfl, ?_, rfl, rfl, rfl⟩
      simp only [Node.setGraphEntry, Node.graph] at hg hs ⊢
      cases gr with
      | none =>
        cases hG : m.graph (some x) with
        | none => trivial
        | some G => rw [hG] at hg; exact absurd (hg.2 rfl) nofun
      | some l' =>
        cases hG : m.graph (some x) with
        | none => rw [hG] at hg; exact absurd (hg.1 rfl) nofun
        | some G => exact hs l' rfl G hG
  have h1 : ∀ p ∈ f, ∃ n ∈ f', SameNode p n := by
    intro p hp
    obtain ⟨x, hx⟩ := id_of_plain (plain_top hf hp)
    obtain ⟨n, hn, hs⟩ := htop p hp x hx
    exact ⟨n, (flat_default hf').2 ⟨x, hn, sameNode_kept hs (kept_top hf hp)⟩, hs⟩
  have h2 : ∀ n ∈ f', ∃ p ∈ f, SameNode p n := by
    intro n hn
    obtain ⟨x, hx, hk⟩ := (flat_default hf').1 hn
    by_cases hex : ∃ p ∈ f, p.id = some x
    · obtain ⟨p, hp, hpx⟩ := hex
      obtain ⟨n', hn', hs⟩ := htop p hp x hpx
      rw [hx] at hn'
      cases hn'
      exact ⟨p, hp, hs⟩
    · exfalso
      have hG : m.graph (some x) = none := by
        cases hG : m.graph (some x) with
        | none => rfl
        | some G =>
          obtain ⟨p, hp, hpx, _⟩ := (hgr x).1 (by rw [hG]; rfl)
          exact absurd ⟨p, hp, hpx⟩ hex
      unfold setGraphOf NodeMap.base at hx
      rw [hG] at hx
      cases hn : m.get none x with
      | none => rw [hn] at hx; cases hx
      | some n0 =>
        have hn0 := hval hn
        rw [hnorm, absent_fold hf (fun p hp h => hex ⟨p, hp, h⟩)] at hn0
        subst hn0
        rw [hn] at hx
        cases hx
        exact hk rfl
  have hlen : f.length = f'.length := by
    have : (f.map Node.id).Perm (f'.map Node.id) := by
      rw [List.perm_ext_iff_of_nodup hf.ids (flat_ids hi hf')]
      intro i
      constructor
      · intro h
        obtain ⟨n, hn, rfl⟩ := List.mem_map.1 h
        obtain ⟨n', hn', hs⟩ := h1 n hn
        exact List.mem_map.2 ⟨n', hn', hs.id.symm⟩
      · intro h
        obtain ⟨n, hn, rfl⟩ := List.mem_map.1 h
        obtain ⟨n', hn', hs⟩ := h2 n hn
        exact List.mem_map.2 ⟨n', hn', hs.id⟩
    simpa using this.length_eq
  refine permRel_of_inj hlen h1 ?_
  refine (List.pairwise_map.1 hf.ids).imp ?_
  intro a a' hne b _ h h'
  exact hne (h.id.trans h'.id.symm)

end

end JsonLd.Again
