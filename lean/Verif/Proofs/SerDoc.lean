import Verif.Proofs.Ser
/-!
# What a document built from quads states (continued)
-/

namespace JsonLd
open Spec

section
variable {R : Type} [DecidableEq R] (I : Interp R) (o : SerOrders R) (qs : List (IQuad R))

/-- The graphs of the resources of a graph. -/
def subAt : Option R → R → Option (SGraph R)
  | none => fun r => find r (stateOf I qs).named
  | some _ => fun _ => none

/-- The graph of this name. -/
def graphAt : Option R → SGraph R
  | none => (stateOf I qs).fold
  | some g => graphOf I (inGraph qs (some g))

theorem ready_at (g : Option R) : Ready I (inGraph qs g) (graphAt I qs g) := by
  cases g with
  | none => exact ready_fold I qs
  | some g => exact (graphInv_graphOf I _).ready

/-- The resource has something to say in the graph. -/
def Full (g : Option R) (r : R) : Prop :=
  (∃ q ∈ qs, q.graph = g ∧ q.subject = r) ∨ (g = none ∧ ∃ q ∈ qs, q.graph = some r)

theorem mem_inGraph {g : Option R} {q : IQuad R} : q ∈ inGraph qs g ↔ q ∈ qs ∧ q.graph = g := by
  simp [inGraph]

theorem subAt_isSome {g : Option R} {r : R} :
    (subAt I qs g r).isNone = false ↔ g = none ∧ ∃ q ∈ qs, q.graph = some r := by
  cases g with
  | some g => simp [subAt]
  | none =>
    simp only [subAt, (stateInv I qs).named, true_and]
    constructor
    · intro h
      split at h
      · cases h
      · rename_i hn
        obtain ⟨q, hq⟩ := List.exists_mem_of_ne_nil _ hn
        obtain ⟨h1, h2⟩ := (mem_inGraph qs).1 hq
        exact ⟨q, h1, h2⟩
    · rintro ⟨q, hq, e⟩
      rw [if_neg (List.ne_nil_of_mem ((mem_inGraph qs).2 ⟨hq, e⟩))]
      rfl

theorem full_iff {g : Option R} {r : R} :
    (entry r (graphAt I qs g)).isEmpty (subAt I qs g r) = false ↔ Full qs g r := by
  have hd := (ready_at I qs g).entry r
  have hsub := subAt_isSome I qs (g := g) (r := r)
  unfold Full
  rw [← hsub]
  have hnil : ∀ {α : Type} (l : List α), l.isEmpty = false ↔ ∃ x, x ∈ l := by
    intro α l
    cases l with
    | nil => simp
    | cons a l => simp only [List.isEmpty_cons, true_iff]; exact ⟨a, List.mem_cons_self⟩
  simp only [Res.isEmpty, Bool.and_eq_false_iff, hnil]
  constructor
  · rintro (((h | h) | h) | h | h)
    · obtain ⟨t, ht⟩ := h
      obtain ⟨q, hq, e, -⟩ := (hd.types t).1 ht
      obtain ⟨h1, h2⟩ := (mem_inGraph qs).1 hq
      exact .inl ⟨q, h1, h2, e⟩
    · obtain ⟨⟨p, l⟩, ht⟩ := h
      obtain ⟨x, hx⟩ := List.exists_mem_of_ne_nil _ (hd.nonempty p l ht)
      obtain ⟨q, hq, e, -⟩ := (hd.properties p x).1 ⟨l, ht, hx⟩
      obtain ⟨h1, h2⟩ := (mem_inGraph qs).1 hq
      exact .inl ⟨q, h1, h2, e⟩
    · exact .inr h
    · obtain ⟨t, ht⟩ := h
      obtain ⟨q, hq, e, -⟩ := (hd.first t).1 ht
      obtain ⟨h1, h2⟩ := (mem_inGraph qs).1 hq
      exact .inl ⟨q, h1, h2, e⟩
    · obtain ⟨t, ht⟩ := h
      obtain ⟨q, hq, e, -⟩ := (hd.rest t).1 ht
      obtain ⟨h1, h2⟩ := (mem_inGraph qs).1 hq
      exact .inl ⟨q, h1, h2, e⟩
  · rintro (⟨q, h1, h2, e⟩ | h)
    · have hq := (mem_inGraph qs).2 ⟨h1, h2⟩
      cases hp : rdfProperty I q.property with
      | none =>
        obtain ⟨l, h1, h2⟩ := (hd.properties q.property q.object).2 ⟨q, hq, e, hp, rfl, rfl⟩
        exact .inl (.inl (.inr ⟨_, h1⟩))
      | some x =>
        cases x with
        | type => exact .inl (.inl (.inl ⟨_, (hd.types _).2 ⟨q, hq, e, hp, rfl⟩⟩))
        | first => exact .inr (.inl ⟨_, (hd.first _).2 ⟨q, hq, e, hp, rfl⟩⟩)
        | rest => exact .inr (.inr ⟨_, (hd.rest _).2 ⟨q, hq, e, hp, rfl⟩⟩)
    · exact .inl (.inr h)

theorem full_key {g : Option R} {r : R} (h : Full qs g r) : r ∈ (graphAt I qs g).map Prod.fst := by
  by_contra hn
  have he := (full_iff I qs).2 h
  rcases h with ⟨q, h1, h2, e⟩ | ⟨rfl, q, hq, e⟩
  · subst e
    exact hn ((ready_at I qs g).keys q ((mem_inGraph qs).2 ⟨h1, h2⟩)).1
  · have hs := stateInv I qs
    have hg := graphInv_graphOf I (inGraph qs none)
    rw [← hs.default] at hg
    obtain ⟨_, _, h3⟩ := fold_inv (stateOf I qs).named (stateOf I qs).default hg.nodup
    refine hn ((h3 r).2 (.inr (find_isSome.1 ?_)))
    rw [hs.named, if_neg (List.ne_nil_of_mem ((mem_inGraph qs).2 ⟨hq, e⟩))]
    rfl

omit [DecidableEq R] in
theorem full_named {g : Option R} {r : R} (hp : PlainQuads I qs) (h : Full qs g r) : ∃ i, Name I r i := by
  rcases h with ⟨q, h1, _, rfl⟩ | ⟨_, q, hq, e⟩
  · exact hp.subject q h1
  · exact hp.graph q hq r e

/-- The resource is rendered as this object. -/
def Drawn (k : Nat) (g : Option R) (r : R) (x : Obj) : Prop :=
  renderObj I o (stateOf I qs) k (subAt I qs g) (graphAt I qs g) r (entry r (graphAt I qs g)) = .ok x

/-- A value is rendered as this object. -/
def DrawnChild (k : Nat) (g : Option R) (r : R) (x : Obj) : Prop :=
  renderChild I (renderObj I o (stateOf I qs) k (subAt I qs g) (graphAt I qs g)) (subAt I qs g)
    (graphAt I qs g) r = .ok x

/-- The objects of the graph. -/
def DrawnTop (k : Nat) (g : Option R) (l : List Obj) : Prop :=
  renderTop o (renderObj I o (stateOf I qs) k (subAt I qs g) (graphAt I qs g)) (subAt I qs g)
    (graphAt I qs g) = .ok l

theorem drawn_node {k : Nat} {g : Option R} {r : R} {x : Obj} (hf : Full qs g r) (h : Drawn I o qs k g r x) :
    ∃ k' types graph ps, k = k' + 1 ∧
      x = .node (.mk none (idOf I r) (if types.isEmpty then none else some types) graph none ps none) ∧
      renderTypes I (stateOf I qs).list (o.types (entry r (graphAt I qs g)).types) = .ok types ∧
      renderSub o (fun G' => renderObj I o (stateOf I qs) k' (fun _ => none) G') (subAt I qs g r) = .ok graph ∧
      renderProps I o (stateOf I qs) (renderChild I (renderObj I o (stateOf I qs) k' (subAt I qs g)
        (graphAt I qs g)) (subAt I qs g) (graphAt I qs g)) (entry r (graphAt I qs g)) = .ok ps := by
  unfold Drawn at h
  cases k with
  | zero => cases h
  | succ k =>
    rw [renderObj_succ I o _ ((full_iff I qs).2 hf) ((ready_at I qs g).entry r).values] at h
    obtain ⟨types, h1, h⟩ := bind_ok h
    obtain ⟨graph, h2, h⟩ := bind_ok h
    obtain ⟨ps, h3, h⟩ := bind_ok h
    cases h
    exact ⟨k, types, graph, ps, rfl, rfl, h1, h2, h3⟩

theorem drawn_id {k : Nat} {g : Option R} {r : R} {x : Obj} (hf : Full qs g r) (h : Drawn I o qs k g r x) :
    ∃ n : Node, x = .node n ∧ n.id = idOf I r ∧ n.included = none ∧ n.rev = none := by
  obtain ⟨_, _, _, _, _, rfl, _⟩ := drawn_node I o qs hf h
  exact ⟨_, rfl, rfl, rfl, rfl⟩

theorem drawnChild_cases {k : Nat} {g : Option R} {r : R} {x : Obj} (h : DrawnChild I o qs k g r x) :
    ((entry r (graphAt I qs g)).references = 1 ∧ Full qs g r ∧ Drawn I o qs k g r x) ∨
    (¬ ((entry r (graphAt I qs g)).references = 1 ∧ Full qs g r) ∧ renderRef I r = .ok x) := by
  unfold DrawnChild renderChild at h
  cases hf : find r (graphAt I qs g) with
  | none =>
    rw [hf] at h
    refine .inr ⟨fun hc => ?_, h⟩
    have := find_isSome.2 (full_key I qs hc.2)
    rw [hf] at this
    cases this
  | some c =>
    rw [hf] at h
    have hc := find_entry hf
    dsimp only at h
    rw [← hc] at h
    split at h
    · rename_i hcond
      exact .inl ⟨hcond.1, (full_iff I qs).1 hcond.2, h⟩
    · rename_i hcond
      refine .inr ⟨fun hcon => hcond ⟨hcon.1, (full_iff I qs).2 hcon.2⟩, h⟩

/-- The roots of a graph are its objects. -/
theorem drawnTop_mem {k : Nat} {g : Option R} {l : List Obj} (hp : PlainQuads I qs) (h : DrawnTop I o qs k g l)
    (x : Obj) : x ∈ l ↔ ∃ r, (entry r (graphAt I qs g)).references ≠ 1 ∧ Full qs g r ∧ Drawn I o qs k g r x := by
  unfold DrawnTop renderTop at h
  obtain ⟨l', h1, h2⟩ := bind_ok h
  have hkey : ∀ p, p ∈ (o.resources (graphAt I qs g)).filter
      (fun r => decide (r.2.references ≠ 1) && !r.2.isEmpty (subAt I qs g r.1)) ↔
      (p.2 = entry p.1 (graphAt I qs g) ∧ (entry p.1 (graphAt I qs g)).references ≠ 1 ∧ Full qs g p.1) := by
    rintro ⟨r, e⟩
    rw [List.mem_filter, (o.resources_perm _).mem_iff, ← find_iff (ready_at I qs g).nodup, ← full_iff I qs]
    simp only [Bool.and_eq_true, decide_eq_true_eq, Bool.not_eq_true']
    constructor
    · rintro ⟨h1, h2, h3⟩
      have := find_entry h1
      subst this
      exact ⟨rfl, h2, h3⟩
    · rintro ⟨rfl, h2, h3⟩
      exact ⟨find_eq_entry (full_key I qs ((full_iff I qs).1 h3)), h2, h3⟩
  have hnd : ((o.resources (graphAt I qs g)).filter
      (fun r => decide (r.2.references ≠ 1) && !r.2.isEmpty (subAt I qs g r.1))).Pairwise
      (fun a b => a.1 ≠ b.1) := by
    refine List.Pairwise.filter _ ?_
    have := ((o.resources_perm (graphAt I qs g)).map Prod.fst).nodup_iff.2 (ready_at I qs g).nodup
    exact List.pairwise_map.1 this
  have hpw : l'.Pairwise (fun a b => Obj.eq b a = false) := by
    refine mapM_pairwise h1 hnd ?_
    intro a ha b hb hab x y hx hy
    obtain ⟨ea, -, fa⟩ := (hkey a).1 ha
    obtain ⟨eb, -, fb⟩ := (hkey b).1 hb
    rw [ea] at hx
    rw [eb] at hy
    obtain ⟨n, rfl, hn, -, -⟩ := drawn_id I o qs fa hx
    obtain ⟨m, rfl, hm, -, -⟩ := drawn_id I o qs fb hy
    obtain ⟨i, hi⟩ := full_named I qs hp fa
    obtain ⟨j, hj⟩ := full_named I qs hp fb
    rw [idOf_of_name I hi] at hn
    rw [idOf_of_name I hj] at hm
    rw [Bool.eq_false_iff]
    intro he
    rw [Obj.eq] at he
    obtain ⟨i1, i2, i3, i4, i5, i6, i7⟩ := n
    obtain ⟨j1, j2, j3, j4, j5, j6, j7⟩ := m
    simp only [Node.eq, Bool.and_eq_true, decide_eq_true_eq] at he
    have e : j2 = i2 := he.1.1.1.1.1.2
    simp only [Node.id] at hn hm
    rw [hn, hm] at e
    exact hab (hp.inj _ _ _ hi (Option.some.inj e ▸ hj))
  rw [setCollect_of_pairwise hpw] at h2
  cases h2
  obtain ⟨m1, m2⟩ := mapM_mem h1
  constructor
  · intro hx
    obtain ⟨p, hp, e⟩ := m2 x hx
    obtain ⟨e1, e2, e3⟩ := (hkey p).1 hp
    rw [e1] at e
    exact ⟨p.1, e2, e3, e⟩
  · rintro ⟨r, h1, h2, h3⟩
    obtain ⟨y, hy, e⟩ := m1 (r, entry r (graphAt I qs g)) ((hkey _).2 ⟨rfl, h1, h2⟩)
    have : Drawn I o qs k g r y := e
    unfold Drawn at h3 this
    rw [h3] at this
    cases this
    exact hy

theorem drawnTop_all {k : Nat} {g : Option R} {l : List Obj} (h : DrawnTop I o qs k g l) {r : R}
    (h1 : (entry r (graphAt I qs g)).references ≠ 1) (h2 : Full qs g r) : ∃ x, Drawn I o qs k g r x := by
  unfold DrawnTop renderTop at h
  obtain ⟨l', h', -⟩ := bind_ok h
  obtain ⟨y, -, e⟩ := (mapM_mem h').1 (r, entry r (graphAt I qs g)) (by
    rw [List.mem_filter, (o.resources_perm _).mem_iff, ← find_iff (ready_at I qs g).nodup]
    refine ⟨find_eq_entry (full_key I qs h2), ?_⟩
    have := (full_iff I qs).2 h2
    simp [h1, this])
  exact ⟨y, e⟩

/-! ## References -/

theorem references_iff {g : Option R} {r : R} : (entry r (graphAt I qs g)).references = 1 ↔
    ∃ q, qs.filter (fun q => decide (q.graph = g) && decide (q.object = r)) = [q] ∧ q.property ≠ q.object := by
  rw [((ready_at I qs g).entry r).references, refsOf_eq_one]
  have : (inGraph qs g).filter (fun q => decide (q.object = r)) =
      qs.filter (fun q => decide (q.graph = g) && decide (q.object = r)) := by
    unfold inGraph
    rw [List.filter_filter]
    congr 1
    funext q
    exact Bool.and_comm _ _
  rw [this]

theorem shown_root {g : Option R} {r : R} (h : (entry r (graphAt I qs g)).references ≠ 1) :
    Shown I qs g r := by
  rw [ne_eq, references_iff] at h
  by_cases ho : ReferredOnce qs g r
  · obtain ⟨q, hq⟩ := ho
    have hm : q ∈ qs.filter (fun q => decide (q.graph = g) && decide (q.object = r)) := by
      rw [hq]; exact List.mem_singleton.2 rfl
    simp only [List.mem_filter, Bool.and_eq_true, decide_eq_true_eq] at hm
    by_cases e : q.property = q.object
    · rw [← hm.2.2]
      exact .special hm.1 hm.2.1 e
    · exact absurd ⟨q, hq, e⟩ h
  · exact .root ho

/-! ## Everything that is found is stated -/

variable {I qs}

theorem cell_iff (hp : PlainQuads I qs) (hk : FirstKept I qs) {g : Option R} {r p v : R} :
    Cell (stateOf I qs) (entry r (graphAt I qs g)) p v → ∃ q ∈ qs, q.graph = g ∧ q.subject = r ∧
      q.object = v ∧ rdfProperty I q.property ≠ some .type ∧ idOf I p = idOf I q.property := by
  have hd := (ready_at I qs g).entry r
  have hs := stateInv I qs
  rintro (⟨l, h1, h2⟩ | ⟨h1, h2⟩ | ⟨h1, h2⟩)
  · obtain ⟨q, hq, e1, e2, e3, e4⟩ := (hd.properties p v).1 ⟨l, h1, h2⟩
    obtain ⟨m1, m2⟩ := (mem_inGraph qs).1 hq
    exact ⟨q, m1, m2, e1, e4, by rw [e2]; simp, by rw [e3]⟩
  · obtain ⟨q, hq, e1, e2, e3⟩ := (hd.first v).1 h2
    obtain ⟨m1, m2⟩ := (mem_inGraph qs).1 hq
    refine ⟨q, m1, m2, e1, e3, by rw [e2]; simp, ?_⟩
    obtain ⟨i, hi⟩ := hp.property q m1
    have e := (rdfProperty_first I hi).1 e2
    subst e
    obtain ⟨x, hx, rfl, hpx⟩ := hs.first_src p h1
    obtain ⟨j, hj⟩ := hp.property x hx
    rcases hpx with hpx | hpx
    · have e := (rdfProperty_first I hj).1 hpx
      subst e
      rw [idOf_of_name I hi, idOf_of_name I hj]
    · exfalso
      obtain ⟨pre, y, post, e, hy, hn⟩ := hs.first_last _ h1 hpx
      obtain ⟨iy, hiy⟩ := hp.property y (by rw [e]; simp)
      have ey := (rdfProperty_type I hiy).1 hy
      subst ey
      obtain ⟨z, hz, hz'⟩ := hk pre y post e hiy ⟨q, m1, hi⟩
      exact hn z hz ((rdfProperty_first I hz').2 rfl)
  · obtain ⟨q, hq, e1, e2, e3⟩ := (hd.rest v).1 h2
    obtain ⟨m1, m2⟩ := (mem_inGraph qs).1 hq
    refine ⟨q, m1, m2, e1, e3, by rw [e2]; simp, ?_⟩
    obtain ⟨i, hi⟩ := hp.property q m1
    have e := (rdfProperty_rest I hi).1 e2
    subst e
    obtain ⟨hpx, x, hx, rfl⟩ := hs.rest_src p h1
    obtain ⟨j, hj⟩ := hp.property x hx
    have e := (rdfProperty_rest I hj).1 hpx
    subst e
    rw [idOf_of_name I hi, idOf_of_name I hj]

theorem cell_of_quad {q : IQuad R} (hq : q ∈ qs) (ht : rdfProperty I q.property ≠ some .type) :
    ∃ p, Cell (stateOf I qs) (entry q.subject (graphAt I qs q.graph)) p q.object ∧
      ∃ x ∈ qs, x.property = p := by
  have hd := (ready_at I qs q.graph).entry q.subject
  have hs := stateInv I qs
  have hm : q ∈ inGraph qs q.graph := (mem_inGraph qs).2 ⟨hq, rfl⟩
  cases hpr : rdfProperty I q.property with
  | none =>
    exact ⟨q.property, .inl ((hd.properties _ _).2 ⟨q, hm, rfl, hpr, rfl, rfl⟩), q, hq, rfl⟩
  | some x =>
    cases x with
    | type => exact absurd hpr ht
    | first =>
      obtain ⟨p, h1⟩ := hs.first q hq hpr
      obtain ⟨x, hx, e, -⟩ := hs.first_src p h1
      exact ⟨p, .inr (.inl ⟨h1, (hd.first _).2 ⟨q, hm, rfl, hpr, rfl⟩⟩), x, hx, e⟩
    | rest =>
      obtain ⟨p, h1⟩ := hs.rest q hq hpr
      obtain ⟨-, x, hx, e⟩ := hs.rest_src p h1
      exact ⟨p, .inr (.inr ⟨h1, (hd.rest _).2 ⟨q, hm, rfl, hpr, rfl⟩⟩), x, hx, e⟩

theorem cell_of_quad_first (hp : PlainQuads I qs) (hk : FirstKept I qs) {q : IQuad R} (hq : q ∈ qs)
    (ht : rdfProperty I q.property ≠ some .type) :
    ∃ p, Cell (stateOf I qs) (entry q.subject (graphAt I qs q.graph)) p q.object ∧
      idOf I p = idOf I q.property := by
  have hd := (ready_at I qs q.graph).entry q.subject
  have hs := stateInv I qs
  have hm : q ∈ inGraph qs q.graph := (mem_inGraph qs).2 ⟨hq, rfl⟩
  obtain ⟨i, hi⟩ := hp.property q hq
  cases hpr : rdfProperty I q.property with
  | none =>
    exact ⟨q.property, .inl ((hd.properties _ _).2 ⟨q, hm, rfl, hpr, rfl, rfl⟩), rfl⟩
  | some x =>
    cases x with
    | type => exact absurd hpr ht
    | first =>
      obtain ⟨p, h1⟩ := hs.first q hq hpr
      refine ⟨p, .inr (.inl ⟨h1, (hd.first _).2 ⟨q, hm, rfl, hpr, rfl⟩⟩), ?_⟩
      have e := (rdfProperty_first I hi).1 hpr
      subst e
      obtain ⟨x, hx, rfl, hpx⟩ := hs.first_src p h1
      obtain ⟨j, hj⟩ := hp.property x hx
      rcases hpx with hpx | hpx
      · have e := (rdfProperty_first I hj).1 hpx
        subst e
        rw [idOf_of_name I hi, idOf_of_name I hj]
      · exfalso
        obtain ⟨pre, y, post, e, hy, hn⟩ := hs.first_last _ h1 hpx
        obtain ⟨iy, hiy⟩ := hp.property y (by rw [e]; simp)
        have ey := (rdfProperty_type I hiy).1 hy
        subst ey
        obtain ⟨z, hz, hz'⟩ := hk pre y post e hiy ⟨q, hq, hi⟩
        exact hn z hz ((rdfProperty_first I hz').2 rfl)
    | rest =>
      obtain ⟨p, h1⟩ := hs.rest q hq hpr
      refine ⟨p, .inr (.inr ⟨h1, (hd.rest _).2 ⟨q, hm, rfl, hpr, rfl⟩⟩), ?_⟩
      have e := (rdfProperty_rest I hi).1 hpr
      subst e
      obtain ⟨hpx, x, hx, rfl⟩ := hs.rest_src p h1
      obtain ⟨j, hj⟩ := hp.property x hx
      have e := (rdfProperty_rest I hj).1 hpx
      subst e
      rw [idOf_of_name I hi, idOf_of_name I hj]

theorem reached_shown (hp : PlainQuads I qs) {d : Doc} {g : Option R} {gi : Option Id}
    (base : ∀ r, (entry r (graphAt I qs g)).references ≠ 1 → Full qs g r →
      ∃ k x, Drawn I o qs k g r x ∧ Reached d gi (.obj x)) {r : R} (h : Shown I qs g r) :
    Full qs g r → ∃ k x, Drawn I o qs k g r x ∧ Reached d gi (.obj x) := by
  induction h with
  | @root r hr =>
    intro hf
    refine base r (fun hc => hr ?_) hf
    obtain ⟨q, hq, -⟩ := (references_iff I qs).1 hc
    exact ⟨q, hq⟩
  | @special q hq hg e =>
    intro hf
    refine base q.object (fun hc => ?_) hf
    obtain ⟨x, hx, hn⟩ := (references_iff I qs).1 hc
    have : q ∈ qs.filter (fun x => decide (x.graph = g) && decide (x.object = q.object)) := by
      simp [hq, hg]
    rw [hx, List.mem_singleton] at this
    subst this
    exact hn e
  | @step q hq hg hn hs ih =>
    intro hf
    by_cases hr : (entry q.object (graphAt I qs g)).references = 1
    · subst hg
      have hfs : Full qs q.graph q.subject := .inl ⟨q, hq, rfl, rfl⟩
      obtain ⟨k, x, hx, hreach⟩ := ih hfs
      obtain ⟨i, hi⟩ := hp.property q hq
      have ht : rdfProperty I q.property ≠ some .type := by
        intro hc
        have e := (rdfProperty_type I hi).1 hc
        subst e
        exact hn hi
      obtain ⟨k', types, graph, ps, rfl, rfl, h1, h2, h3⟩ := drawn_node I o qs hfs hx
      obtain ⟨p, hc, y, hy, rfl⟩ := cell_of_quad hq ht
      obtain ⟨j, hj⟩ := hp.property y hy
      obtain ⟨v1, v2⟩ := renderProps_val I o _ h3
      obtain ⟨z, hz⟩ := v2 _ _ _ hc (idOf_of_name I hj)
      have hv : HasVal ps j z := (v1 j z).2 ⟨_, _, hc, idOf_of_name I hj, hz⟩
      obtain ⟨l, hl, hzl⟩ := hv
      obtain ⟨si, hsi⟩ := hp.subject q hq
      rcases drawnChild_cases I o qs hz with ⟨-, -, hd⟩ | ⟨hcon, -⟩
      · exact ⟨k', z, hd, .property (.self hreach) (idOf_of_name I hsi) hl hzl⟩
      · exact absurd ⟨hr, hf⟩ hcon
    · exact base _ hr hf

theorem base_default (hp : PlainQuads I qs) {b : Nat} {d : Doc} (h : fromQuads I o b qs = .ok d) (r : R)
    (h1 : (entry r (graphAt I qs none)).references ≠ 1) (h2 : Full qs none r) :
    ∃ k x, Drawn I o qs k none r x ∧ Reached d none (.obj x) := by
  rw [fromQuads_eq] at h
  have h : DrawnTop I o qs b none d := h
  obtain ⟨x, hx⟩ := drawnTop_all I o qs h h1 h2
  exact ⟨b, x, hx, .top ((drawnTop_mem I o qs hp h x).2 ⟨r, h1, h2, hx⟩)⟩

theorem base_named (hp : PlainQuads I qs) {b : Nat} {d : Doc} (h : fromQuads I o b qs = .ok d) {g : R}
    {gi : Id} (hg : Name I g gi) (hs : Shown I qs none g) (r : R)
    (h1 : (entry r (graphAt I qs (some g))).references ≠ 1) (h2 : Full qs (some g) r) :
    ∃ k x, Drawn I o qs k (some g) r x ∧ Reached d (some gi) (.obj x) := by
  have hfg : Full qs none g := by
    rcases h2 with ⟨q, hq, e, _⟩ | ⟨e, _⟩
    · exact .inr ⟨rfl, q, hq, e⟩
    · cases e
  obtain ⟨k, x, hx, hreach⟩ := reached_shown o hp (base_default o hp h) hs hfg
  obtain ⟨k', types, graph, ps, rfl, rfl, -, h4, -⟩ := drawn_node I o qs hfg hx
  obtain ⟨G, hG⟩ : ∃ G, subAt I qs none g = some G := by
    have : (subAt I qs none g).isNone = false := (subAt_isSome I qs).2 (by
      rcases hfg with ⟨q, hq, e, e'⟩ | h
      · obtain ⟨q', hq', e, _⟩ | ⟨e, _⟩ := h2
        · exact ⟨rfl, q', hq', e⟩
        · cases e
      · exact h)
    cases hs : subAt I qs none g with
    | none => rw [hs] at this; cases this
    | some G => exact ⟨G, rfl⟩
  rw [hG] at h4
  obtain ⟨-, rfl⟩ := named_graph I hG
  obtain ⟨l, h5, h6⟩ := bind_ok h4
  cases h6
  have h5 : DrawnTop I o qs k' (some g) l := h5
  obtain ⟨x, hx⟩ := drawnTop_all I o qs h5 h1 h2
  exact ⟨k', x, hx, .graph (.self hreach) (idOf_of_name I hg) rfl
    ((drawnTop_mem I o qs hp h5 x).2 ⟨r, h1, h2, hx⟩)⟩

theorem child_stands (hp : PlainQuads I qs) {k : Nat} {g : Option R} {q : IQuad R} (hq : q ∈ qs) {x : Obj}
    (h : DrawnChild I o qs k g q.object x) : Stands I q.object (.obj x) := by
  rcases drawnChild_cases I o qs h with ⟨-, hf, hd⟩ | ⟨-, hr⟩
  · obtain ⟨n, rfl, hn, -, -⟩ := drawn_id I o qs hf hd
    obtain ⟨i, hi⟩ := full_named I qs hp hf
    exact .node hi (by rw [hn, idOf_of_name I hi])
  · exact renderRef_stands I (hp.object q hq) hr

theorem stated_of_visible (hp : PlainQuads I qs) (hk : FirstKept I qs) {b : Nat} {d : Doc}
    (h : fromQuads I o b qs = .ok d) {q : IQuad R} (hq : q ∈ qs) (hv : Visible I qs q) :
    ∃ x, Asserts d x ∧ SameQuad I q x := by
  have hf : Full qs q.graph q.subject := .inl ⟨q, hq, rfl, rfl⟩
  obtain ⟨gi, hgi, k, x, hx, hreach⟩ : ∃ gi, SameGraph I q.graph gi ∧
      ∃ k x, Drawn I o qs k q.graph q.subject x ∧ Reached d gi (.obj x) := by
    cases hg : q.graph with
    | none =>
      rw [hg] at hf
      have := hv.1
      rw [hg] at this
      exact ⟨none, .default, reached_shown o hp (base_default o hp h) this hf⟩
    | some g =>
      obtain ⟨gi, hgi⟩ := hp.graph q hq g hg
      rw [hg] at hf
      have := hv.1
      rw [hg] at this
      exact ⟨some gi, .named hgi, reached_shown o hp (base_named o hp h hgi (hv.2 g hg)) this hf⟩
  obtain ⟨si, hsi⟩ := hp.subject q hq
  obtain ⟨pi, hpi⟩ := hp.property q hq
  obtain ⟨k', types, graph, ps, rfl, rfl, h1, h2, h3⟩ := drawn_node I o qs hf hx
  have hid : idOf I q.subject = some si := idOf_of_name I hsi
  by_cases ht : rdfProperty I q.property = some .type
  · have e := (rdfProperty_type I hpi).1 ht
    subst e
    obtain ⟨ti, hti⟩ := hp.type q hq hpi
    have hmem : ti ∈ types := by
      rw [renderTypes_val I h1]
      have hd := (ready_at I qs q.graph).entry q.subject
      have hin := (hd.types (rdfTypeOf I q.object)).2 ⟨q, (mem_inGraph qs).2 ⟨hq, rfl⟩, rfl, ht, rfl⟩
      have hin := (o.types_perm _).mem_iff.2 hin
      cases hty : rdfTypeOf I q.object with
      | other r =>
        rw [hty] at hin
        refine .inl ⟨r, hin, ?_⟩
        unfold rdfTypeOf at hty
        split at hty
        · cases hty
        · cases hty
          exact idOf_of_name I hti
      | list =>
        rw [hty] at hin
        refine .inr ⟨hin, ?_⟩
        have hs := stateInv I qs
        obtain ⟨r, hr⟩ := hs.list q hq ht hty
        refine ⟨r, hr, ?_⟩
        obtain ⟨hrl, y, hy, rfl, hyt⟩ := hs.list_src r hr
        obtain ⟨yi, hyi⟩ := hp.property y hy
        have := (rdfProperty_type I hyi).1 hyt
        subst this
        obtain ⟨tj, htj⟩ := hp.type y hy hyi
        rw [idOf_of_name I htj, rdfTypeOf_list I htj hrl, rdfTypeOf_list I hti hty]
    refine ⟨⟨gi, si, .type, .ref ti⟩, .type (.self hreach) hid (ts := types) ?_ hmem,
      ⟨hgi, hsi, hpi, .ref hti⟩⟩
    simp only [Node.types]
    rw [if_neg]
    intro hc
    rw [List.isEmpty_iff] at hc
    subst hc
    cases hmem
  · obtain ⟨p, hc, hpe⟩ := cell_of_quad_first hp hk hq ht
    rw [idOf_of_name I hpi] at hpe
    obtain ⟨v1, v2⟩ := renderProps_val I o _ h3
    obtain ⟨z, hz⟩ := v2 _ _ _ hc hpe
    obtain ⟨l, hl, hzl⟩ : HasVal ps pi z := (v1 pi z).2 ⟨_, _, hc, hpe, hz⟩
    exact ⟨⟨gi, si, .ref pi, .obj z⟩, .property (.self hreach) hid hl hzl,
      ⟨hgi, hsi, hpi, child_stands o hp hq hz⟩⟩

/-! ## Everything that is stated is found -/

/-- Where objects come from. -/
def Comes (g : Option R) (x : Obj) : Prop :=
  (∃ r k, Shown I qs g r ∧ (∀ g', g = some g' → Shown I qs none g') ∧ Full qs g r ∧ Drawn I o qs k g r x) ∨
  ∃ r, renderRef I r = .ok x

/-- Where items come from. -/
def ComesItem (gi : Option Id) : Item → Prop
  | .obj x => ∃ g, SameGraph I g gi ∧ Comes (I := I) (qs := qs) o g x
  | .node n => ∃ g, SameGraph I g gi ∧ Comes (I := I) (qs := qs) o g (.node n)

omit [DecidableEq R] in
theorem renderRef_bare {r : R} {n : Node} (h : renderRef I r = .ok (.node n)) :
    n.types = none ∧ n.graph = none ∧ n.included = none ∧ n.props = [] ∧ n.rev = none := by
  unfold renderRef at h
  split at h
  · cases h
    exact ⟨rfl, rfl, rfl, rfl, rfl⟩
  · split at h
    · obtain ⟨v, -, h⟩ := bind_ok h
      cases h
    · cases h
      exact ⟨rfl, rfl, rfl, rfl, rfl⟩

omit [DecidableEq R] in
theorem renderRef_not_list {r : R} {i : Option Str} {l : List Obj} : renderRef I r ≠ .ok (.list i l) := by
  intro h
  unfold renderRef at h
  split at h
  · cases h
  · split at h
    · obtain ⟨v, -, h⟩ := bind_ok h
      cases h
    · cases h

theorem shown_step {q : IQuad R} (hq : q ∈ qs)
    (ht : rdfProperty I q.property ≠ some .type) (hs : Shown I qs q.graph q.subject) :
    Shown I qs q.graph q.object :=
  .step hq rfl (fun hc => ht ((rdfProperty_type I hc).2 rfl)) hs

theorem comes_of_reached (hp : PlainQuads I qs) (hk : FirstKept I qs) {b : Nat} {d : Doc}
    (h : fromQuads I o b qs = .ok d) {gi : Option Id} {x : Item} (hr : Reached d gi x) :
    ComesItem (I := I) (qs := qs) o gi x := by
  induction hr with
  | @top x hx =>
    rw [fromQuads_eq] at h
    have h : DrawnTop I o qs b none d := h
    obtain ⟨r, h1, h2, h3⟩ := (drawnTop_mem I o qs hp h x).1 hx
    exact ⟨none, .default, .inl ⟨r, b, shown_root I qs h1, by simp, h2, h3⟩⟩
  | self _ ih => exact ih
  | item _ _ ih =>
    exfalso
    obtain ⟨g, -, ⟨r, k, -, -, hf, hd⟩ | ⟨r, hr⟩⟩ := ih
    · obtain ⟨n, e, -⟩ := drawn_id I o qs hf hd
      cases e
    · exact renderRef_not_list hr
  | @graph gi n id l x _ hid hg hx ih =>
    obtain ⟨g, hgi, ⟨r, k, hs, hs', hf, hd⟩ | ⟨r, hr⟩⟩ := ih
    · obtain ⟨k', types, graph, ps, rfl, e, -, h4, -⟩ := drawn_node I o qs hf hd
      cases e
      simp only [Node.graph] at hg
      subst hg
      cases g with
      | some g => cases h4
      | none =>
        cases hG : subAt I qs none r with
        | none => rw [hG] at h4; cases h4
        | some G =>
          rw [hG] at h4
          obtain ⟨-, rfl⟩ := named_graph I hG
          obtain ⟨l', h5, h6⟩ := bind_ok h4
          cases h6
          have h5 : DrawnTop I o qs k' (some r) l := h5
          obtain ⟨r', c1, c2, c3⟩ := (drawnTop_mem I o qs hp h5 x).1 hx
          obtain ⟨i, hi⟩ := full_named I qs hp hf
          refine ⟨some r, .named (name_of_idOf I hi hid), .inl ⟨r', k', shown_root I qs c1, ?_, c2, c3⟩⟩
          rintro g' e
          cases e
          exact hs
    · rw [(renderRef_bare hr).2.1] at hg
      cases hg
  | included _ hid hinc hm ih =>
    exfalso
    obtain ⟨g, -, ⟨r, k, -, -, hf, hd⟩ | ⟨r, hr⟩⟩ := ih
    · obtain ⟨n, e, -, e', -⟩ := drawn_id I o qs hf hd
      cases e
      rw [e'] at hinc
      cases hinc
    · rw [(renderRef_bare hr).2.2.1] at hinc
      cases hinc
  | @property gi n id j l x _ hid hl hx ih =>
    obtain ⟨g, hgi, ⟨r, k, hs, hs', hf, hd⟩ | ⟨r, hr⟩⟩ := ih
    · obtain ⟨k', types, graph, ps, rfl, e, -, -, h3⟩ := drawn_node I o qs hf hd
      cases e
      obtain ⟨v1, -⟩ := renderProps_val I o _ h3
      obtain ⟨p, v, hc, -, hz⟩ := (v1 j x).1 ⟨l, hl, hx⟩
      obtain ⟨q, hq, rfl, rfl, rfl, ht, -⟩ := cell_iff hp hk hc
      refine ⟨q.graph, hgi, ?_⟩
      rcases drawnChild_cases I o qs hz with ⟨-, hf', hd'⟩ | ⟨-, hr⟩
      · exact .inl ⟨q.object, k', shown_step hq ht hs, hs', hf', hd'⟩
      · exact .inr ⟨_, hr⟩
    · rw [(renderRef_bare hr).2.2.2.1] at hl
      cases hl
  | reverse _ hid hrev _ _ ih =>
    exfalso
    obtain ⟨g, -, ⟨r, k, -, -, hf, hd⟩ | ⟨r, hr⟩⟩ := ih
    · obtain ⟨n, e, -, -, e'⟩ := drawn_id I o qs hf hd
      cases e
      rw [e'] at hrev
      cases hrev
    · rw [(renderRef_bare hr).2.2.2.2] at hrev
      cases hrev

theorem visible_of_stated (hp : PlainQuads I qs) (hk : FirstKept I qs) {b : Nat} {d : Doc}
    (h : fromQuads I o b qs = .ok d) {x : Quad} (hx : Asserts d x) :
    ∃ q ∈ qs, Visible I qs q ∧ SameQuad I q x := by
  cases hx with
  | @type gi n si t ts hr hid hty ht =>
    obtain ⟨g, hgi, ⟨r, k, hs, hs', hf, hd⟩ | ⟨r, hr⟩⟩ := comes_of_reached o hp hk h hr
    · obtain ⟨k', types, graph, ps, rfl, e, h1, -, -⟩ := drawn_node I o qs hf hd
      cases e
      obtain ⟨i, hi⟩ := full_named I qs hp hf
      have hsi := name_of_idOf I hi hid
      have hts : ts = types := by
        simp only [Node.types] at hty
        split at hty
        · cases hty
        · exact (Option.some.inj hty).symm
      subst hts
      have hd' := (ready_at I qs g).entry r
      have build : ∀ q ∈ qs, q.graph = g → q.subject = r → rdfProperty I q.property = some .type →
          Name I q.object t → ∃ q ∈ qs, Visible I qs q ∧ SameQuad I q ⟨gi, si, .type, .ref t⟩ := by
        intro q hq e1 e2 hpt hobj
        subst e1 e2
        obtain ⟨pi, hpi⟩ := hp.property q hq
        have e := (rdfProperty_type I hpi).1 hpt
        subst e
        exact ⟨q, hq, ⟨hs, hs'⟩, ⟨hgi, hsi, hpi, .ref hobj⟩⟩
      rcases (renderTypes_val I h1 t).1 ht with ⟨r', hm, hr'⟩ | ⟨hm, r', hl, hr'⟩
      · obtain ⟨q, hq, e1, e2, e3⟩ := (hd'.types _).1 ((o.types_perm _).mem_iff.1 hm)
        obtain ⟨m1, m2⟩ := (mem_inGraph qs).1 hq
        have e4 : q.object = r' := by
          unfold rdfTypeOf at e3
          split at e3
          · cases e3
          · exact RType.other.inj e3
        refine build q m1 m2 e1 e2 ?_
        obtain ⟨pi, hpi⟩ := hp.property q m1
        have e := (rdfProperty_type I hpi).1 e2
        subst e
        obtain ⟨ti, hti⟩ := hp.type q m1 hpi
        rw [← e4] at hr'
        exact name_of_idOf I hti hr'
      · obtain ⟨q, hq, e1, e2, e3⟩ := (hd'.types _).1 ((o.types_perm _).mem_iff.1 hm)
        obtain ⟨m1, m2⟩ := (mem_inGraph qs).1 hq
        refine build q m1 m2 e1 e2 ?_
        obtain ⟨pi, hpi⟩ := hp.property q m1
        have e := (rdfProperty_type I hpi).1 e2
        subst e
        obtain ⟨ti, hti⟩ := hp.type q m1 hpi
        obtain ⟨hrl, y, hy, rfl, hyt⟩ := (stateInv I qs).list_src r' hl
        obtain ⟨yi, hyi⟩ := hp.property y hy
        have := (rdfProperty_type I hyi).1 hyt
        subst this
        obtain ⟨tj, htj⟩ := hp.type y hy hyi
        have e5 := name_unique I htj (name_of_idOf I htj hr')
        subst e5
        rw [rdfTypeOf_list I htj hrl, ← rdfTypeOf_list I hti e3]
        exact hti
    · rw [(renderRef_bare hr).1] at hty
      cases hty
  | @property gi n si j l y hr hid hl hy =>
    obtain ⟨g, hgi, ⟨r, k, hs, hs', hf, hd⟩ | ⟨r, hr⟩⟩ := comes_of_reached o hp hk h hr
    · obtain ⟨k', types, graph, ps, rfl, e, -, -, h3⟩ := drawn_node I o qs hf hd
      cases e
      obtain ⟨i, hi⟩ := full_named I qs hp hf
      have hsi := name_of_idOf I hi hid
      obtain ⟨v1, -⟩ := renderProps_val I o _ h3
      obtain ⟨p, v, hc, hpe, hz⟩ := (v1 j y).1 ⟨l, hl, hy⟩
      obtain ⟨q, hq, rfl, rfl, rfl, ht, hpp⟩ := cell_iff hp hk hc
      obtain ⟨pi, hpi⟩ := hp.property q hq
      rw [hpp] at hpe
      exact ⟨q, hq, ⟨hs, hs'⟩, ⟨hgi, hsi, name_of_idOf I hpi hpe, child_stands o hp hq hz⟩⟩
    · rw [(renderRef_bare hr).2.2.2.1] at hl
      cases hl
  | @reverse gi n id si j rs l m hr hid hrev _ _ _ =>
    exfalso
    obtain ⟨g, -, ⟨r, k, -, -, hf, hd⟩ | ⟨r, hr⟩⟩ := comes_of_reached o hp hk h hr
    · obtain ⟨n, e, -, -, e'⟩ := drawn_id I o qs hf hd
      cases e
      rw [e'] at hrev
      cases hrev
    · rw [(renderRef_bare hr).2.2.2.2] at hrev
      cases hrev

end
end JsonLd
