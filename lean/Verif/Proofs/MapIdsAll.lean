import Verif.Proofs.MapIds
import Verif.Spec.Rdf
/-!
# `map_ids`: identifiers and statements of the result
-/

namespace JsonLd
open Spec

/-! ## Equal items have equal parts -/

/-- The sets in the item have no two equal members. -/
def Spec.Item.WF : Item → Prop
  | .obj o => o.WF
  | .node n => n.WF

/-- The items are equal. -/
def Spec.Item.Same : Item → Item → Prop
  | .obj a, .obj b => a.eq b = true
  | .node a, .node b => a.eq b = true
  | _, _ => False

theorem Spec.Item.same_refl {x : Item} (h : x.WF) : x.Same x := by
  cases x with
  | obj o => exact (Obj.eqOk h).1
  | node n => exact (Node.eqOk h).1

theorem Spec.Item.same_trans {x y z : Item} (hx : x.WF) (hy : y.WF) (hz : z.WF) (h : x.Same y)
    (h' : y.Same z) : x.Same z := by
  cases x <;> cases y <;> cases z <;> simp only [Item.Same] at h h' ⊢
  · exact (Obj.eqOk hx).2.2 _ _ hy hz h h'
  · exact (Node.eqOk hx).2.2 _ _ hy hz h h'

theorem optRel_get {α β : Type} {R : α → β → Prop} {a : Option α} {b : Option β}
    (h : OptRel R a b) {x : α} (hx : a = some x) : ∃ y, b = some y ∧ R x y := by
  subst hx
  cases b with
  | none => exact h.elim
  | some y => exact ⟨y, rfl, h⟩

theorem Spec.Item.WF.part {x y : Item} (h : x.WF) (hp : PartL y x) : y.WF := by
  cases hp with
  | item ho => exact objsWF_iff.1 h _ ho
  | part hp =>
    cases hp with
    | self n => exact h
    | @graph n l o e ho =>
      obtain ⟨i, id, ty, g, inc, ps, rv⟩ := n
      cases e
      exact objsWF_iff.1 h.1.2 _ ho
    | @included n l o e ho =>
      obtain ⟨i, id, ty, g, inc, ps, rv⟩ := n
      cases e
      exact nodesWF_iff.1 h.2.1.2 _ ho
    | @property n k l o e ho =>
      obtain ⟨i, id, ty, g, inc, ps, rv⟩ := n
      exact psWF_iff.1 h.2.2.2.1 _ e _ ho
    | @reverse n r k l o e he ho =>
      obtain ⟨i, id, ty, g, inc, ps, rv⟩ := n
      cases e
      exact rpsWF_iff.1 h.2.2.2.2.2 _ he _ ho

theorem same_part {x y x' : Item} (hx : x.WF) (hy : y.WF) (h : x.Same y) (hp : PartL x' x) :
    ∃ y', PartL y' y ∧ x'.Same y' := by
  cases hp with
  | @item i l o ho =>
    cases y with
    | node n => exact h.elim
    | obj b =>
      cases b <;> simp only [Item.Same, Obj.eq, Bool.and_eq_true, decide_eq_true_eq, objsListEq_iff,
        Bool.false_eq_true] at h
      obtain ⟨b, hb, he⟩ := forall₂_exists_right h.2 ho
      exact ⟨.obj b, .item hb, he⟩
  | part hp =>
    cases hp with
    | self n =>
      cases y with
      | node n => exact h.elim
      | obj b =>
        cases b <;> simp only [Item.Same, Obj.eq, Bool.false_eq_true] at h
        exact ⟨.node _, .part (.self _), h⟩
    | @graph n l o e ho =>
      cases y with
      | obj n => exact h.elim
      | node m =>
        obtain ⟨-, -, -, hr, -⟩ := (node_eq_iff hx hy).1 h
        obtain ⟨l', e', hr⟩ := optRel_get hr e
        obtain ⟨b, hb, he⟩ := hr.exists_right ho
        exact ⟨.obj b, .part (.graph e' hb), he⟩
    | @included n l o e ho =>
      cases y with
      | obj n => exact h.elim
      | node m =>
        obtain ⟨-, -, -, -, hr, -⟩ := (node_eq_iff hx hy).1 h
        obtain ⟨l', e', hr⟩ := optRel_get hr e
        obtain ⟨b, hb, he⟩ := hr.exists_right ho
        exact ⟨.node b, .part (.included e' hb), he⟩
    | @property n k l o e ho =>
      cases y with
      | obj n => exact h.elim
      | node m =>
        obtain ⟨-, -, -, -, -, hr, -⟩ := (node_eq_iff hx hy).1 h
        obtain ⟨q, hq, -, hr⟩ := hr.exists_right e
        obtain ⟨b, hb, he⟩ := hr.exists_right ho
        exact ⟨.obj b, .part (.property (k := q.1) hq hb), he⟩
    | @reverse n r k l o e he ho =>
      cases y with
      | obj n => exact h.elim
      | node m =>
        obtain ⟨-, -, -, -, -, -, hr⟩ := (node_eq_iff hx hy).1 h
        obtain ⟨r', e', hr⟩ := optRel_get hr e
        obtain ⟨q, hq, -, hr⟩ := hr.exists_right he
        obtain ⟨b, hb, he⟩ := hr.exists_right ho
        exact ⟨.node b, .part (.reverse (k := q.1) e' hq hb), he⟩

theorem same_writes {n m : Node} (hn : n.WF) (hm : m.WF) (h : n.eq m = true) {i : Id}
    (hw : WritesId n i) : WritesId m i := by
  obtain ⟨-, hi, ht, -, -, hp, hr⟩ := (node_eq_iff hn hm).1 h
  rcases hw with hw | ⟨ts, e, hw⟩ | ⟨l, hw⟩ | ⟨r, l, e, hw⟩
  · exact .inl (hi ▸ hw)
  · obtain ⟨ts', e', hr⟩ := optRel_get ht e
    exact .inr (.inl ⟨ts', e', hr.mem_iff.1 hw⟩)
  · obtain ⟨q, hq, hk, -⟩ := hp.exists_right hw
    exact .inr (.inr (.inl ⟨q.2, by rw [show i = q.1 from hk]; exact hq⟩))
  · obtain ⟨r', e', hr⟩ := optRel_get hr e
    obtain ⟨q, hq, hk, -⟩ := hr.exists_right hw
    exact .inr (.inr (.inr ⟨r', q.2, e', by rw [show i = q.1 from hk]; exact hq⟩))

section
variable {f : Id → Id} {g : Str → Str}

/-- The item mapped. -/
def Spec.Item.mapIds (f : Id → Id) (g : Str → Str) : Item → Item
  | .obj o => .obj (o.mapIds f g)
  | .node n => .node (n.mapIds f g)

theorem Spec.Item.mapIds_wf (x : Item) : (x.mapIds f g).WF := by
  cases x with
  | obj o => exact JsonLd.mapIds_wf.1 o
  | node n => exact JsonLd.mapIds_wf.2 n

/-! ## From the result to the document -/

theorem part_of_mapIds {x y : Item} (h : PartL y (x.mapIds f g)) :
    ∃ z, PartL z x ∧ y = z.mapIds f g := by
  cases x with
  | obj o =>
    cases o with
    | value i v =>
      generalize hx : Item.mapIds f g (.obj (.value i v)) = w at h
      cases h with
      | item ho => simp [Item.mapIds, Obj.mapIds] at hx
      | part hp => cases hp <;> simp [Item.mapIds, Obj.mapIds] at hx
    | list i l =>
      generalize hx : Item.mapIds f g (.obj (.list i l)) = w at h
      cases h with
      | item ho =>
        simp only [Item.mapIds, Obj.mapIds, objsMapIds_map, Item.obj.injEq, Obj.list.injEq] at hx
        obtain ⟨-, rfl⟩ := hx
        obtain ⟨x, hx, rfl⟩ := List.mem_map.1 ho
        exact ⟨.obj x, .item hx, rfl⟩
      | part hp => cases hp <;> simp [Item.mapIds, Obj.mapIds] at hx
    | node n =>
      generalize hx : Item.mapIds f g (.obj (.node n)) = w at h
      cases h with
      | item ho => simp [Item.mapIds, Obj.mapIds] at hx
      | part hp =>
        cases hp <;> simp [Item.mapIds, Obj.mapIds] at hx
        exact ⟨.node n, .part (.self n), by simp [Item.mapIds, hx]⟩
  | node n =>
    obtain ⟨i, id, ty, gr, inc, ps, rv⟩ := n
    generalize hx : Item.mapIds f g (.node (.mk i id ty gr inc ps rv)) = w at h
    simp only [Item.mapIds, Node.mapIds] at hx
    cases h with
    | item ho => simp at hx
    | part hp =>
      cases hp with
      | self n => simp at hx
      | @graph n l o e ho =>
        cases hx
        cases gr with
        | none => simp [Node.graph, gMapIds] at e
        | some l0 =>
          simp only [Node.graph, gMapIds, Option.some.injEq, objsMapIds_map] at e
          subst e
          obtain ⟨x, hx, rfl⟩ := List.mem_map.1 (setCollect_mem ho)
          exact ⟨.obj x, .part (.graph rfl hx), rfl⟩
      | @included n l o e ho =>
        cases hx
        cases inc with
        | none => simp [Node.included, incMapIds] at e
        | some l0 =>
          simp only [Node.included, incMapIds, Option.some.injEq, nodesMapIds_map] at e
          subst e
          obtain ⟨x, hx, rfl⟩ := List.mem_map.1 (setCollect_mem ho)
          exact ⟨.node x, .part (.included rfl hx), rfl⟩
      | @property n k l o e ho =>
        cases hx
        simp only [Node.props, fromIter_mem, psMapIds_map] at e
        obtain ⟨vs, hm, hx⟩ := (boundIn_mem e).1 ho
        obtain ⟨p, hp, he⟩ := List.mem_map.1 hm
        cases he
        obtain ⟨x, hx', rfl⟩ := List.mem_map.1 hx
        exact ⟨.obj x, .part (.property (k := p.1) hp hx'), rfl⟩
      | @reverse n r k l o e he ho =>
        cases hx
        cases rv with
        | none => simp [Node.rev, rvMapIds] at e
        | some r0 =>
          simp only [Node.rev, rvMapIds, Option.some.injEq, rpsMapIds_map] at e
          subst e
          rw [fromIter_mem] at he
          obtain ⟨vs, hm, hx⟩ := (boundIn_mem he).1 ho
          obtain ⟨p, hp, he⟩ := List.mem_map.1 hm
          cases he
          obtain ⟨x, hx', rfl⟩ := List.mem_map.1 hx
          exact ⟨.node x, .part (.reverse (k := p.1) rfl hp hx'), rfl⟩

theorem inside_of_mapIds {d : Doc} {y : Item} (h : Inside (d.mapIds f g) y) :
    ∃ z, Inside d z ∧ y = z.mapIds f g := by
  obtain ⟨o, ho, hr⟩ := h
  simp only [Doc.mapIds, objsMapIds_map] at ho
  obtain ⟨x, hx, rfl⟩ := List.mem_map.1 (setCollect_mem ho)
  suffices ∃ z, Relation.ReflTransGen PartL z (.obj x) ∧ y = z.mapIds f g by
    obtain ⟨z, hz, e⟩ := this
    exact ⟨z, ⟨x, hx, hz⟩, e⟩
  induction hr using Relation.ReflTransGen.head_induction_on with
  | refl => exact ⟨.obj x, .refl, rfl⟩
  | head hp _ ih =>
    obtain ⟨z, hz, rfl⟩ := ih
    obtain ⟨z', hz', rfl⟩ := part_of_mapIds hp
    exact ⟨z', .head hz' hz, rfl⟩

theorem writes_mapIds {n : Node} {j : Id} :
    WritesId (n.mapIds f g) j ↔ ∃ i, WritesId n i ∧ f i = j := by
  obtain ⟨x, id, ty, gr, inc, ps, rv⟩ := n
  have hk : ∀ {α : Type} (es : List (Id × List α)), (∃ l, (j, l) ∈ PropMap.fromIter es) ↔
      ∃ vs, (j, vs) ∈ es := by
    intro α es
    simp only [fromIter_mem]
    exact boundIn_some
  have h1 : (id.map f = some j) ↔ ∃ i, id = some i ∧ f i = j := by
    simp [Option.map_eq_some_iff]
  have h2 : (∃ ts, ty.map (List.map f) = some ts ∧ j ∈ ts) ↔
      ∃ i, (∃ ts, ty = some ts ∧ i ∈ ts) ∧ f i = j := by
    cases ty with
    | none => simp
    | some ts => simp
  have h3 : (∃ l, (j, l) ∈ PropMap.fromIter (psMapIds f g ps)) ↔
      ∃ i, (∃ l, (i, l) ∈ ps) ∧ f i = j := by
    rw [hk, psMapIds_map]
    simp only [List.mem_map, Prod.exists, Prod.mk.injEq]
    constructor
    · rintro ⟨vs, a, b, hm, e, -⟩
      exact ⟨a, ⟨b, hm⟩, e⟩
    · rintro ⟨a, ⟨b, hm⟩, e⟩
      exact ⟨_, a, b, hm, e, rfl⟩
  have h4 : (∃ r l, rvMapIds f g rv = some r ∧ (j, l) ∈ r) ↔
      ∃ i, (∃ r l, rv = some r ∧ (i, l) ∈ r) ∧ f i = j := by
    cases rv with
    | none => simp [rvMapIds]
    | some r =>
      simp only [rvMapIds, Option.some.injEq, exists_and_left, exists_eq_left', hk, rpsMapIds_map]
      simp only [List.mem_map, Prod.exists, Prod.mk.injEq]
      constructor
      · rintro ⟨vs, a, b, hm, e, -⟩
        exact ⟨a, ⟨b, hm⟩, e⟩
      · rintro ⟨a, ⟨b, hm⟩, e⟩
        exact ⟨_, a, b, hm, e, rfl⟩
  simp only [WritesId, Node.mapIds, Node.id, Node.types, Node.props, Node.rev]
  rw [h1, h2, h3, h4]
  simp only [or_and_right, exists_or]

/-! ## From the document to the result -/

theorem mapIds_part {x z : Item} (h : PartL z x) :
    ∃ y, PartL y (x.mapIds f g) ∧ (z.mapIds f g).Same y := by
  cases h with
  | @item i l o ho =>
    refine ⟨.obj (o.mapIds f g), ?_, Item.same_refl (Item.mapIds_wf (.obj o))⟩
    simp only [Item.mapIds, Obj.mapIds, objsMapIds_map]
    exact .item (List.mem_map_of_mem ho)
  | part hp =>
    cases hp with
    | self n =>
      refine ⟨.node (n.mapIds f g), ?_, Item.same_refl (Item.mapIds_wf (.node n))⟩
      simp only [Item.mapIds, Obj.mapIds]
      exact .part (.self _)
    | @graph n l o e ho =>
      obtain ⟨i, id, ty, gr, inc, ps, rv⟩ := n
      cases e
      obtain ⟨y, hy, he⟩ := setCollect_covers (eq := Obj.eq) (l := l.map (Obj.mapIds f g))
        (Item.same_refl (Item.mapIds_wf (f := f) (g := g) (.obj o))) (List.mem_map_of_mem ho)
      refine ⟨.obj y, .part (.graph (l := setCollect Obj.eq (objsMapIds f g l)) ?_ ?_), he⟩
      · rfl
      · rw [objsMapIds_map]; exact hy
    | @included n l o e ho =>
      obtain ⟨i, id, ty, gr, inc, ps, rv⟩ := n
      cases e
      obtain ⟨y, hy, he⟩ := setCollect_covers (eq := Node.eq) (l := l.map (Node.mapIds f g))
        (Item.same_refl (Item.mapIds_wf (f := f) (g := g) (.node o))) (List.mem_map_of_mem ho)
      refine ⟨.node y, .part (.included (l := setCollect Node.eq (nodesMapIds f g l)) ?_ ?_), he⟩
      · rfl
      · rw [nodesMapIds_map]; exact hy
    | @property n k l o e ho =>
      obtain ⟨i, id, ty, gr, inc, ps, rv⟩ := n
      have hm : (f k, l.map (Obj.mapIds f g)) ∈ psMapIds f g ps := by
        rw [psMapIds_map]; exact List.mem_map.2 ⟨(k, l), e, rfl⟩
      obtain ⟨vs, hvs⟩ := boundIn_some.2 ⟨_, hm⟩
      refine ⟨.obj (o.mapIds f g), .part (.property (k := f k) (l := vs) ?_ ?_),
        Item.same_refl (Item.mapIds_wf (.obj o))⟩
      · exact fromIter_mem.2 hvs
      · exact (boundIn_mem hvs).2 ⟨_, hm, List.mem_map_of_mem ho⟩
    | @reverse n r k l o e he ho =>
      obtain ⟨i, id, ty, gr, inc, ps, rv⟩ := n
      cases e
      have hm : (f k, l.map (Node.mapIds f g)) ∈ rpsMapIds f g r := by
        rw [rpsMapIds_map]; exact List.mem_map.2 ⟨(k, l), he, rfl⟩
      obtain ⟨vs, hvs⟩ := boundIn_some.2 ⟨_, hm⟩
      refine ⟨.node (o.mapIds f g), .part (.reverse (r := PropMap.fromIter (rpsMapIds f g r))
        (k := f k) (l := vs) rfl ?_ ?_), Item.same_refl (Item.mapIds_wf (.node o))⟩
      · exact fromIter_mem.2 hvs
      · exact (boundIn_mem hvs).2 ⟨_, hm, List.mem_map_of_mem ho⟩

theorem mapIds_inside {d : Doc} {z : Item} (h : Inside d z) :
    ∃ y, Inside (d.mapIds f g) y ∧ y.WF ∧ (z.mapIds f g).Same y := by
  obtain ⟨o, ho, hr⟩ := h
  obtain ⟨y, hy, he⟩ := setCollect_covers (eq := Obj.eq) (l := d.map (Obj.mapIds f g))
    (Item.same_refl (Item.mapIds_wf (f := f) (g := g) (.obj o))) (List.mem_map_of_mem ho)
  have hyd : y ∈ d.mapIds f g := by simp only [Doc.mapIds, objsMapIds_map]; exact hy
  have hyw : y.WF := by
    obtain ⟨x, hx, rfl⟩ := List.mem_map.1 (setCollect_mem hy)
    exact mapIds_wf.1 x
  suffices ∃ w, Relation.ReflTransGen PartL w (.obj y) ∧ w.WF ∧ (z.mapIds f g).Same w by
    obtain ⟨w, hw, hww, e⟩ := this
    exact ⟨w, ⟨y, hyd, hw⟩, hww, e⟩
  induction hr using Relation.ReflTransGen.head_induction_on with
  | refl => exact ⟨.obj y, .refl, hyw, he⟩
  | @head a b hp _ ih =>
    obtain ⟨w, hw, hww, e⟩ := ih
    obtain ⟨u, hu, hus⟩ := mapIds_part (f := f) (g := g) hp
    obtain ⟨v, hv, hvs⟩ := same_part (Item.mapIds_wf b) hww e hu
    exact ⟨v, .head hv hw, hww.part hv, Item.same_trans (Item.mapIds_wf a)
      ((Item.mapIds_wf b).part hu) (hww.part hv) hus hvs⟩

theorem idIn_mapIds {d : Doc} {j : Id} : IdIn (d.mapIds f g) j ↔ ∃ i, IdIn d i ∧ f i = j := by
  constructor
  · rintro ⟨m, hm, hw⟩
    obtain ⟨z, hz, e⟩ := inside_of_mapIds hm
    cases z with
    | obj o => cases e
    | node n =>
      cases e
      obtain ⟨i, hi, rfl⟩ := writes_mapIds.1 hw
      exact ⟨i, ⟨n, hz, hi⟩, rfl⟩
  · rintro ⟨i, ⟨n, hn, hw⟩, rfl⟩
    obtain ⟨y, hy, hyw, he⟩ := mapIds_inside (f := f) (g := g) hn
    cases y with
    | obj o => exact he.elim
    | node m =>
      exact ⟨m, hy, same_writes (mapIds_wf.2 n) hyw he (writes_mapIds.2 ⟨i, hw, rfl⟩)⟩

theorem typeIn_mapIds {d : Doc} {u : Str} : TypeIn (d.mapIds f g) u ↔ ∃ t, TypeIn d t ∧ g t = u := by
  constructor
  · rintro ⟨i, l, hm⟩
    obtain ⟨z, hz, e⟩ := inside_of_mapIds hm
    cases z with
    | node o => cases e
    | obj o =>
      cases o with
      | node n => simp [Item.mapIds, Obj.mapIds] at e
      | list j l => simp [Item.mapIds, Obj.mapIds] at e
      | value j v =>
        simp only [Item.mapIds, Obj.mapIds, retype_mapIds, Item.obj.injEq, Obj.value.injEq] at e
        obtain ⟨rfl, e⟩ := e
        cases v with
        | langString s => simp [retypeValue] at e
        | json s => simp [retypeValue] at e
        | literal l' t =>
          cases t with
          | none => simp [retypeValue] at e
          | some t =>
            simp only [retypeValue, Value.literal.injEq, Option.some.injEq] at e
            exact ⟨t, ⟨_, _, hz⟩, e.2.symm⟩
  · rintro ⟨t, ⟨i, l, hn⟩, rfl⟩
    obtain ⟨y, hy, hyw, he⟩ := mapIds_inside (f := f) (g := g) hn
    cases y with
    | node o => exact he.elim
    | obj o =>
      simp only [Item.mapIds, Obj.mapIds, retype_mapIds, retypeValue, Item.Same] at he
      cases o <;> simp only [Obj.eq, Bool.false_eq_true, Bool.and_eq_true, decide_eq_true_eq] at he
      obtain ⟨rfl, he⟩ := he
      rename_i v
      cases v <;> simp only [Value.eq, Bool.and_eq_true, decide_eq_true_eq, Bool.false_eq_true] at he
      obtain ⟨rfl, rfl⟩ := he
      exact ⟨_, _, hy⟩

/-! ## Statements -/

theorem objsQuads_flatMap (gr : Option Id) (l : List Obj) : objsQuads gr l = l.flatMap (objQuads gr) := by
  induction l with
  | nil => rfl
  | cons o l ih => simp [objsQuads, ih]

theorem nodesQuads_flatMap (gr : Option Id) (l : List Node) :
    nodesQuads gr l = l.flatMap (nodeQuads gr) := by
  induction l with
  | nil => rfl
  | cons o l ih => simp [nodesQuads, ih]

theorem quads_replace :
    (∀ (o : Obj) (gr : Option Id), objQuads (gr.map f) (replaceObj f g o) =
      (objQuads gr o).map (replaceQuad f g)) ∧
    (∀ (n : Node) (gr : Option Id), nodeQuads (gr.map f) (replaceNode f g n) =
      (nodeQuads gr n).map (replaceQuad f g)) := by
  refine Doc.ind ?_ ?_ ?_ ?_
  · intro i v gr; simp [replaceObj, objQuads]
  · intro i l ih gr
    simp only [replaceObj, objQuads]
    induction l with
    | nil => simp [replaceObjs, objsQuads]
    | cons x l ihl =>
      simp only [replaceObjs, objsQuads, List.map_append]
      rw [ih x List.mem_cons_self gr, ihl fun o ho => ih o (List.mem_cons_of_mem _ ho)]
  · intro n ih gr; simpa [replaceObj, objQuads] using ih gr
  · intro i id ty gr inc ps rv ihg ihi ihp ihr gq
    cases id with
    | none => simp [replaceNode, nodeQuads]
    | some s =>
      have hty : ((ty.map (List.map f)).getD []).map
            (fun t => (⟨gq.map f, f s, .type, .ref t⟩ : Quad)) =
          ((ty.getD []).map fun t => (⟨gq, s, .type, .ref t⟩ : Quad)).map (replaceQuad f g) := by
        cases ty with
        | none => rfl
        | some ts => simp [replaceQuad]
      have hps : psQuads (gq.map f) (f s) (replacePs f g ps) =
          (psQuads gq s ps).map (replaceQuad f g) := by
        clear ihg ihi ihr hty
        induction ps with
        | nil => simp [replacePs, psQuads]
        | cons p ps ih =>
          obtain ⟨k, os⟩ := p
          simp only [replacePs, psQuads, List.map_append]
          rw [ih fun p hp => ihp p (List.mem_cons_of_mem _ hp)]
          congr 1
          have hos := ihp (k, os) List.mem_cons_self
          simp only at hos
          clear ihp ih
          induction os with
          | nil => simp [replaceObjs, valsQuads]
          | cons o os ih =>
            simp only [replaceObjs, valsQuads, List.map_cons, List.map_append]
            rw [ih fun o ho => hos o (List.mem_cons_of_mem _ ho), hos o List.mem_cons_self]
            rfl
      have hinc : incQuads (gq.map f) (replaceInc f g inc) =
          (incQuads gq inc).map (replaceQuad f g) := by
        cases inc with
        | none => rfl
        | some l =>
          have hl := ihi l rfl
          simp only [replaceInc, incQuads]
          clear ihg ihi ihp ihr hps
          induction l with
          | nil => simp [replaceNodes, nodesQuads]
          | cons x l ihl =>
            simp only [replaceNodes, nodesQuads, List.map_append]
            rw [hl x List.mem_cons_self gq, ihl fun o ho => hl o (List.mem_cons_of_mem _ ho)]
      have hgr : grQuads (some (f s)) (replaceG f g gr) =
          (grQuads (some s) gr).map (replaceQuad f g) := by
        cases gr with
        | none => rfl
        | some l =>
          have hl := ihg l rfl
          simp only [replaceG, grQuads]
          clear ihg ihi ihp ihr hps hinc
          induction l with
          | nil => simp [replaceObjs, objsQuads]
          | cons x l ihl =>
            simp only [replaceObjs, objsQuads, List.map_append]
            have := hl x List.mem_cons_self (some s)
            simp only [Option.map_some] at this
            rw [this, ihl fun o ho => hl o (List.mem_cons_of_mem _ ho)]
      have hrv : ∀ n : Node, rvQuads (gq.map f) (replaceNode f g n) (replaceRv f g rv) =
          (rvQuads gq n rv).map (replaceQuad f g) := by
        intro n
        cases rv with
        | none => rfl
        | some r =>
          have hr := ihr r rfl
          simp only [replaceRv, rvQuads]
          clear ihg ihi ihp ihr hps hinc hgr
          induction r with
          | nil => simp [replaceRps, rpsQuads]
          | cons p r ih =>
            obtain ⟨k, ns⟩ := p
            simp only [replaceRps, rpsQuads, List.map_append]
            rw [ih fun p hp => hr p (List.mem_cons_of_mem _ hp)]
            congr 1
            have hos := hr (k, ns) List.mem_cons_self
            simp only at hos
            clear hr ih
            induction ns with
            | nil => simp [replaceNodes, subsQuads]
            | cons m ns ih =>
              simp only [replaceNodes, subsQuads, List.map_append]
              rw [ih fun o ho => hos o (List.mem_cons_of_mem _ ho), hos m List.mem_cons_self]
              congr 1
              obtain ⟨_, id', _, _, _, _, _⟩ := m
              cases id' <;> simp [replaceNode, Node.id, replaceQuad]
      have e := hrv (.mk i (some s) ty gr inc ps rv)
      simp only [replaceNode, Option.map_some] at e
      simp only [replaceNode, Option.map_some, nodeQuads, List.map_append]
      rw [hty, hps, hinc, hgr, e]

theorem statements_replace (d : Doc) :
    statements (replaceIds f g d) = (statements d).map (replaceQuad f g) := by
  unfold statements replaceIds
  induction d with
  | nil => rfl
  | cons o l ih =>
    simp only [replaceObjs, objsQuads, List.map_append]
    rw [ih]
    have := (quads_replace (f := f) (g := g)).1 o none
    simp only [Option.map_none] at this
    rw [this]

/-! ## Doing nothing, and twice -/

theorem replace_comp {f' : Id → Id} {g' : Str → Str} :
    (∀ o : Obj, replaceObj f' g' (replaceObj f g o) = replaceObj (f' ∘ f) (g' ∘ g) o) ∧
    (∀ n : Node, replaceNode f' g' (replaceNode f g n) = replaceNode (f' ∘ f) (g' ∘ g) n) := by
  refine Doc.ind ?_ ?_ ?_ ?_
  · intro i v
    cases v with
    | literal l t => cases t <;> rfl
    | _ => rfl
  · intro i l ih
    simp only [replaceObj, replaceObjs_map, List.map_map]
    congr 1
    exact List.map_congr_left fun o ho => ih o ho
  · intro n ih; simp only [replaceObj, ih]
  · intro i id ty gr inc ps rv ihg ihi ihp ihr
    simp only [replaceNode, replaceG_map, replaceInc_map, replacePs_map, replaceRv_map,
      Option.map_map, List.map_map]
    congr 1
    · cases ty <;> simp
    · cases gr with
      | none => rfl
      | some l => simpa using ihg l rfl
    · cases inc with
      | none => rfl
      | some l => simpa using ihi l rfl
    · refine List.map_congr_left fun p hp => ?_
      simpa using ihp p hp
    · cases rv with
      | none => rfl
      | some r =>
        simp only [Option.map_some, Function.comp_apply, List.map_map, Option.some.injEq]
        refine List.map_congr_left fun p hp => ?_
        simpa using ihr r rfl p hp

theorem replace_id {S : Id → Prop} {T : Str → Prop} (hf : ∀ i, S i → f i = i) (hg : ∀ t, T t → g t = t) :
    (∀ o : Obj, ItemIn S T (.obj o) → replaceObj f g o = o) ∧
    (∀ n : Node, ItemIn S T (.node n) → replaceNode f g n = n) := by
  have hm : ∀ {α : Type} {r : α → α} {l : List α}, (∀ a ∈ l, r a = a) → l.map r = l := by
    intro α r l h
    calc l.map r = l.map id := List.map_congr_left h
      _ = l := List.map_id l
  refine Doc.ind ?_ ?_ ?_ ?_
  · intro i v ha
    cases v with
    | literal l t =>
      cases t with
      | none => rfl
      | some t => simp [replaceObj, retypeValue, hg t (ha.2 i l t .refl)]
    | _ => rfl
  · intro i l ih ha
    simp only [replaceObj, replaceObjs_map]
    rw [hm fun o ho => ih o ho (ha.part (.item ho))]
  · intro n ih ha
    simp only [replaceObj, ih (ha.part (.part (.self n)))]
  · intro i id ty gr inc ps rv ihg ihi ihp ihr ha
    simp only [replaceNode, replaceG_map, replaceInc_map, replacePs_map, replaceRv_map]
    congr 1
    · cases id with
      | none => rfl
      | some x => simp [hf x (ha.1 _ x .refl (.inl rfl))]
    · cases ty with
      | none => rfl
      | some ts =>
        simp only [Option.map_some, Option.some.injEq]
        exact hm fun t ht => hf t (ha.1 _ t .refl (.inr (.inl ⟨ts, rfl, ht⟩)))
    · cases gr with
      | none => rfl
      | some l =>
        simp only [Option.map_some, Option.some.injEq]
        exact hm fun o ho => ihg l rfl o ho (ha.part (.part (.graph rfl ho)))
    · cases inc with
      | none => rfl
      | some l =>
        simp only [Option.map_some, Option.some.injEq]
        exact hm fun o ho => ihi l rfl o ho (ha.part (.part (.included rfl ho)))
    · refine hm fun p hp => ?_
      obtain ⟨k, os⟩ := p
      simp only
      rw [hf k (ha.1 _ k .refl (.inr (.inr (.inl ⟨os, hp⟩)))),
        hm fun o ho => ihp (k, os) hp o ho (ha.part (.part (.property (k := k) hp ho)))]
    · cases rv with
      | none => rfl
      | some r =>
        simp only [Option.map_some, Option.some.injEq]
        refine hm fun p hp => ?_
        obtain ⟨k, os⟩ := p
        simp only
        rw [hf k (ha.1 _ k .refl (.inr (.inr (.inr ⟨r, os, rfl, hp⟩)))),
          hm fun o ho => ihr r rfl (k, os) hp o ho (ha.part (.part (.reverse (k := k) rfl hp ho)))]

theorem itemIn_doc {d : Doc} {o : Obj} (ho : o ∈ d) : ItemIn (IdIn d) (TypeIn d) (.obj o) :=
  ⟨fun n _ hr hw => ⟨n, ⟨o, ho, hr⟩, hw⟩, fun i l _ hr => ⟨i, l, ⟨o, ho, hr⟩⟩⟩

theorem doc_mapIds_exact {d : Doc} (hw : d.WF) (hf : InjIn (IdIn d) f) (hg : InjIn (TypeIn d) g) :
    d.mapIds f g = replaceIds f g d := by
  simp only [Doc.mapIds, replaceIds, objsMapIds_map, replaceObjs_map]
  rw [List.map_congr_left fun o ho => (mapIds_exact hf hg).1 o (itemIn_doc ho) (objsWF_iff.1 hw.2 o ho),
    set_replace (fun a h b h' => (replace_eq hf hg).1 a (itemIn_doc h) b (itemIn_doc h')) hw.1]

end

end JsonLd
