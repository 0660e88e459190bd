import Verif.Proofs.MapsNode
/-!
# Compacted nodes, up to equality: keywords, the whole node and any nesting
-/

namespace JsonLd
open Spec Props Relation

section
variable {E : CEnv} {X : XEnv} {c : ACtx} (H : MapEnv E X c)
include H

/-! ## Entries of keywords -/

/-- Keys for keywords are plain. -/
theorem keyword_mapKey {k : Keyword} {rev : Bool} {o : Obj} {key : Str} (h : itemKey E c (.keyword k) rev o = .ok (some key))
    {d : TermDef} (hd : c.get key = some d) : PlainDef d := by
  have hlk := get_lookup H.ctx hd
  have hkf := H.clean.terms _ d hlk
  unfold itemKey compactIriWith at h
  rw [if_neg (by simp)] at h
  simp only [if_true] at h
  split at h
  · cases h
  · rename_i t ht
    cases h
    unfold compactTermWith at ht
    split at ht
    · cases ht
    · rename_i m hm
      split at ht
      · cases ht
      · rename_i sel hsel
        have h2 : c.inverse.select (.keyword k) (allContainers E.opts.mode (some o) rev) sel = some key := by
          unfold InvCtx.select
          rw [hm]
          exact Except.ok.inj ht
        obtain ⟨-, -, -, -, -, ⟨d', hd', hv, -⟩, -⟩ := (C34_selected c H.clean.distinct _ _ sel key).1 h2
        have hd' : lookupKey key c.defs = some d' := hd'
        rw [hlk] at hd'
        cases hd'
        exact H.ctx.keywords (key, d) (lookupKey_mem hlk) k hv
  · obtain ⟨s, h1, h2⟩ := exMap_ok h
    cases h2
    exfalso
    have := noTerm_key H.clean.distinct h1 hkf hlk
    subst this
    exact hkf ((C01_form _).1 (by cases k <;> decide))

theorem plainFor_keyword (k : Keyword) : PlainFor c (.keyword k) := fun b hb hv => (H.ctx.keywords b hb k hv).named

/-- A node under the key of a keyword. -/
theorem keyword_item {R : CRec} (hR : RecShown E X c R) {key : Str} (hp : ∀ d, c.get key = some d → PlainDef d)
    {n : Node} (ho : PlacedObj E.toCompEnv c (.node n)) {m m' : JMap} (h : propertyItem E R c key (.node n) m = .ok m') :
    ∃ v, Made X c v n ∧ addValue m key v (asArray E c key) = .ok m' := by
  have hcont : defContainer (c.get key) = .none := by
    cases hd : c.get key with
    | none => rfl
    | some d => exact (hp d hd).container
  have htyp : (c.get key).bind (·.typ) = none := by
    cases hd : c.get key with
    | none => rfl
    | some d => exact (hp d hd).typ
  have hi : (defContainer (c.get key)).contains .index = false := by rw [hcont]; rfl
  unfold propertyItem at h
  dsimp only at h
  split at h
  · rename_i hg
    unfold propertyGraph addGraph at h
    obtain ⟨v, hv, h⟩ := exBind_ok h
    rw [hcont] at h
    obtain ⟨j, hj, h⟩ := exBind_ok h
    have hsays : ∀ o ∈ n.graph.getD [], Says o ∧ PlacedObj E.toCompEnv c o := by
      intro o hog
      cases hng : n.graph with
      | none => rw [hng] at hog; cases hog
      | some g =>
        rw [hng] at hog
        exact ⟨ho.placed.graph g hng o hog, ho.graph hng o hog⟩
    obtain ⟨vs, a, hv, hvs⟩ := collection_forall (S := Shown X c (some "@graph".toList)) (fun v o h => h.notNull) (fun o hog v hv =>
      member_shown H hR hi (hsays o hog).2 (hsays o hog).1 hv) hv
    exact ⟨j, graph_made H hg ho.placed ho.wf hv hvs hj, h⟩
  · obtain ⟨v, hv, h⟩ := exBind_ok h
    unfold addItem at h
    rw [hcont] at h
    refine ⟨v, (hR.node _ _ _ ho hv).made H hi ?_, h⟩
    rintro key' i hk -
    cases hk
    rw [htyp]
    exact ⟨nofun, nofun⟩

theorem keyword_fold {R : CRec} (hR : RecShown E X c R) {k : Keyword} {key : Str}
    (hk : plainKey E c (.keyword k) = .ok (some key)) (hp : ∀ d, c.get key = some d → PlainDef d) {ns : List Node}
    (hi : ∀ n ∈ ns, PlacedObj E.toCompEnv c (.node n)) :
    ∀ {m m' : JMap}, (ns.map Obj.node).foldlM (propertyStep E R c (.keyword k) false) m = .ok m' →
    ∃ vs, List.Forall₂ (Made X c) vs ns ∧ vs.foldlM (fun m v => addValue m key v (asArray E c key)) m = .ok m' := by
  induction ns with
  | nil => intro m m' h; cases h; exact ⟨[], .nil, rfl⟩
  | cons o os ih =>
    intro m m' h
    rw [List.map_cons, List.foldlM_cons] at h
    obtain ⟨m1, h1, h2⟩ := bindOk.1 h
    obtain ⟨vs, h3, h4⟩ := ih (fun o ho => hi o (List.mem_cons_of_mem _ ho)) h2
    unfold propertyStep at h1
    obtain ⟨k', hk1, h1⟩ := exBind_ok h1
    have := itemKey_for (plainFor_keyword H k) hk1
    rw [hk] at this
    cases this
    dsimp only at h1
    rw [inNest_value H.ctx] at h1
    obtain ⟨v, h5, h6⟩ := keyword_item H hR hp (hi o (by simp)) h1
    refine ⟨v :: vs, .cons h5 h3, ?_⟩
    rw [List.foldlM_cons]
    exact bindOk.2 ⟨m1, h6, h4⟩

/-- The nodes under a keyword are one new entry. -/
theorem keyword_held {R : CRec} (hR : RecShown E X c R) {k : Keyword} {es : List XEntry} (hes : Keyed X c es)
    (hf : .keyword k ∉ es.map XEntry.term) {ns : List Node} (hi : ∀ n ∈ ns, PlacedObj E.toCompEnv c (.node n)) {m' : JMap}
    (h : compactProperty E R c (.keyword k) false (ns.map .node) (xObj es) = .ok m') :
    ∃ key vs a, xKey X c key = .ok (some (.keyword k)) ∧ m' = xObj (es ++ [⟨key, .keyword k, pack a vs⟩]) ∧
      List.Forall₂ (Made X c) vs ns := by
  unfold compactProperty at h
  cases ns with
  | nil =>
    simp only [List.map_nil, List.isEmpty_nil, if_true] at h
    unfold propertyEmpty at h
    obtain ⟨k', h1, h⟩ := exBind_ok h
    obtain ⟨key, rfl⟩ := key_some (by simp) h1
    have hk := keyword_with H.toBaseEnv h1
    dsimp only at h
    rw [inNest_value H.ctx, addEmpty_fresh (keyed_fresh hes hk hf)] at h
    cases h
    exact ⟨key, [], true, hk, by rw [xObj_append]; rfl, .nil⟩
  | cons o os =>
    have h : ((o :: os).map Obj.node).foldlM (propertyStep E R c (.keyword k) false) (xObj es) = .ok m' := h
    have hk : ∃ key, plainKey E c (.keyword k) = .ok (some key) ∧ xKey X c key = .ok (some (.keyword k)) ∧
        ∀ d, c.get key = some d → PlainDef d := by
      rw [List.map_cons, List.foldlM_cons] at h
      obtain ⟨m1, h1, -⟩ := bindOk.1 h
      unfold propertyStep at h1
      obtain ⟨k', hk1, -⟩ := exBind_ok h1
      obtain ⟨key, rfl⟩ := key_some (by simp) hk1
      exact ⟨key, itemKey_for (plainFor_keyword H k) hk1, keyword_with H.toBaseEnv hk1, fun d hd => keyword_mapKey H hk1 hd⟩
    obtain ⟨key, hk1, hk2, hk3⟩ := hk
    obtain ⟨vs, h1, h2⟩ := keyword_fold H hR hk1 hk3 hi h
    rw [addAll_fresh (keyed_fresh hes hk2 hf) (forall₂_left h1 fun v n h => by
      obtain ⟨es, n', rfl, -⟩ := h
      exact nofun) (by cases h1; simp)] at h2
    cases h2
    exact ⟨key, vs, asArray E c key, hk2, by rw [xObj_append]; rfl, h1⟩

omit H in
theorem says_nodes {l : List Obj} (h : ∀ o ∈ l, Says o) : ∃ ns : List Node, l = ns.map .node := by
  induction l with
  | nil => exact ⟨[], rfl⟩
  | cons o l ih =>
    obtain ⟨n, rfl, -⟩ := h o (by simp)
    obtain ⟨ns, rfl⟩ := ih fun o ho => h o (List.mem_cons_of_mem _ ho)
    exact ⟨n :: ns, rfl⟩

/-- The entry `@graph` of a node. -/
theorem graph_part {R : CRec} (hR : RecShown E X c R) {n : Node} (ho : PlacedObj E.toCompEnv c (.node n)) {es : List XEntry}
    (hes : Keyed X c es) (hf : CTerm.keyword .graph ∉ es.map XEntry.term) {m' : JMap}
    (h : compactOpt E R c .graph n.graph (xObj es) = .ok m') :
    ∃ es' g', m' = xObj (es ++ es') ∧ OptRel (List.Forall₂ Same) g' n.graph ∧ Only [.keyword .graph] es' ∧
      ∀ x i ty inc ps rv, KeySteps X c es' (.mk x i ty none inc ps rv) (.mk x i ty g' inc ps rv) := by
  unfold compactOpt at h
  cases hg : n.graph with
  | none => rw [hg] at h; cases h; exact ⟨[], none, by simp, trivial, .nil _, fun _ _ _ _ _ _ => .nil _⟩
  | some g =>
    rw [hg] at h
    have hsays := ho.placed.graph g hg
    obtain ⟨ns, rfl⟩ := says_nodes hsays
    obtain ⟨key, vs, a, hk, rfl, hvs⟩ := keyword_held H hR hes hf (fun n hn => ho.graph hg _ (List.mem_map.2 ⟨n, hn, rfl⟩)) h
    have hvs' : List.Forall₂ (Shown X c (some "@graph".toList)) vs (ns.map .node) := by
      rw [List.forall₂_map_right_iff]
      exact forall₂_mem_imp hvs fun v _ n hn h => h.shown H (by decide) fun _ => hsays _ (List.mem_map.2 ⟨n, hn, rfl⟩)
    obtain ⟨os', h1, h2⟩ := graph_steps H (a := a) hk hvs' hsays (by
      have := ho.wf
      cases n with
      | mk _ _ _ g' _ _ _ => cases hg; exact this.1.1)
    exact ⟨_, some os', rfl, h1, .one _ _ _, h2⟩

/-- The entry `@included` of a node. -/
theorem included_part {R : CRec} (hR : RecShown E X c R) {n : Node} (ho : PlacedObj E.toCompEnv c (.node n)) {es : List XEntry}
    (hes : Keyed X c es) (hf : CTerm.keyword .included ∉ es.map XEntry.term) {m' : JMap}
    (h : compactOpt E R c .included (n.included.map fun l => l.map Obj.node) (xObj es) = .ok m') :
    ∃ es' inc', m' = xObj (es ++ es') ∧ OptRel (List.Forall₂ fun a b => Same (.node a) (.node b)) inc' n.included ∧
      Only [.keyword .included] es' ∧
      ∀ x i ty g ps rv, KeySteps X c es' (.mk x i ty g none ps rv) (.mk x i ty g inc' ps rv) := by
  unfold compactOpt at h
  cases hg : n.included with
  | none => rw [hg] at h; cases h; exact ⟨[], none, by simp, trivial, .nil _, fun _ _ _ _ _ _ => .nil _⟩
  | some l =>
    rw [hg] at h
    obtain ⟨key, vs, a, hk, rfl, hvs⟩ := keyword_held H hR hes hf (fun n' hn' => ho.included (placed_obj _ _) hg n' hn') h
    have hvs' : List.Forall₂ (Shown X c (some "@included".toList)) vs (l.map .node) := by
      rw [List.forall₂_map_right_iff]
      exact hvs.imp fun v n h => h.shown H (by decide) (by rw [noProp_key (by decide)]; nofun)
    have hget : (some "@included".toList).bind c.get = none := keyword_get H .included
    obtain ⟨y, h1, h2, -⟩ := pack_forall (hvs'.imp fun v o h => h.expand false) (by rw [hget]; rfl) a
    obtain ⟨ns', hns⟩ := forall₂_asNodes h2 (by
      intro o ho
      obtain ⟨n, -, rfl⟩ := List.mem_map.1 ho
      exact ⟨n, rfl⟩)
    rw [hns] at h2
    have hwf : l.Pairwise fun a b => b.eq a = false := by
      have := ho.wf
      cases n with
      | mk _ _ _ _ g' _ _ => cases hg; exact this.2.1.1
    have hp : ns'.Pairwise fun a b => b.eq a = false := by
      have := forall₂_pairwise h2 (by
        rw [List.pairwise_map]
        exact hwf.imp fun {a b} h => by simp only [Obj.eq]; exact h)
      rw [List.pairwise_map] at this
      exact this.imp fun {a b} h => by simpa only [Obj.eq] using h
    refine ⟨_, some ns', rfl, ?_, .one _ _ _, fun x i ty g ps rv => ?_⟩
    · rw [List.forall₂_map_left_iff, List.forall₂_map_right_iff] at h2
      exact h2
    · refine .keyword hk (by decide) rfl fun prop => ?_
      show keyIncluded X (unlimited X) c _ _ = _
      unfold keyIncluded
      rw [if_neg (by rw [H.mode]; decide)]
      rw [show (unlimited X).elem c (some "@included".toList) (pack a vs) false = _ from h1]
      simp only [Except.bind]
      rw [hns, asNodes_map]
      have := setCollect_of_pairwise hp
      unfold setCollect at this
      show Except.ok _ = _
      simp only [Node.included, Option.getD_none, this]
      rfl

/-- The entry `@index` of a node. -/
theorem index_part {prop : Option Str} {i : Option Str} {es : List XEntry} (hes : Keyed X c es)
    (hf : CTerm.keyword .index ∉ es.map XEntry.term) {m' : JMap} (h : addIndex E c prop i (xObj es) = .ok m') :
    ∃ k, m' = xObj (es ++ indexX k (if (defContainer (prop.bind c.get)).contains .index then none else i)) ∧
      Keyed X c (indexX k (if (defContainer (prop.bind c.get)).contains .index then none else i)) := by
  unfold addIndex at h
  cases i with
  | none => cases h; exact ⟨[], by simp [indexX], by simp only [ite_self]; exact nofun⟩
  | some i =>
    dsimp only at h
    split at h
    · cases h
      rename_i hc
      rw [if_pos hc]
      exact ⟨[], by simp [indexX], nofun⟩
    · rename_i hc
      rw [if_neg hc]
      obtain ⟨k, hk, rfl⟩ := exMap_ok h
      have hk := backKeys_round H.toBaseEnv _ _ hk
      refine ⟨k, ?_, fun e he => by rw [List.mem_singleton.1 he]; exact hk⟩
      rw [jInsert_fresh (keyed_fresh hes hk hf), xObj_append]
      rfl

/-! ## The whole node -/

theorem node_shown {R : CRec} (hR : RecShown E X c R) {n : Node} (ho : PlacedObj E.toCompEnv c (.node n)) {prop : Option Str}
    {j : Json} (h : nodeIn E R c c prop n = .ok j) : NodeShown E X c prop j n := by
  have hn := ho.placed
  unfold nodeIn at h
  obtain ⟨m1, h1, h⟩ := exBind_ok h
  obtain ⟨e1, rfl, p1⟩ := id_part H.toBaseEnv hn.id h1
  have s1 := p1.steps (x := none) (ty := none) (g := none) (inc := none) (ps := []) (rv := none)
  have o1 := p1.only
  obtain ⟨m2, h2, h⟩ := exBind_ok h
  obtain ⟨e2, rfl, p2⟩ := types_part H.toBaseEnv hn.types s1.keyed (o1.fresh (by decide)) h2
  have s2 := p2.steps H.toBaseEnv (x := none) (i := none) (g := none) (inc := none) (ps := []) (rv := none)
  have o2 := p2.only
  obtain ⟨⟨c', m3⟩, h3, h⟩ := exBind_ok h
  have k12 := s1.keyed.append s2.keyed
  have o12 := o1.append o2
  obtain ⟨hc', e3, rv', h3', r3, o3, s3⟩ := reverse_part H hR ho k12 (o12.fresh (by decide)) h3
  dsimp only at hc' h3' h
  subst hc'
  subst h3'
  have k3 := (s3 none none none none none []).keyed
  obtain ⟨m4, h4, h⟩ := exBind_ok h
  obtain ⟨k, rfl, hk⟩ := index_part H (k12.append k3) ((o12.append o3).fresh (by decide)) h4
  generalize hx : (if (defContainer (prop.bind c'.get)).contains .index then none else n.index) = x at h hk
  have o4 := (o12.append o3).append (only_index k x)
  have k4 := (k12.append k3).append hk
  obtain ⟨m5, h5, h⟩ := exBind_ok h
  obtain ⟨e5, g', rfl, r5, o5, s5⟩ := graph_part H hR ho k4 (o4.fresh (by decide)) h5
  have k5 := k4.append (s5 none none none none [] none).keyed
  have o15 := o4.append o5
  obtain ⟨m6, h6, h⟩ := exBind_ok h
  unfold compactProps at h6
  have hperm := sortIf_perm E.opts.ordered (fun p => p.1.str) n.props
  have hwf : (n.props.map Prod.fst).Nodup := by
    have := ho.wf
    cases n with
    | mk _ _ _ _ _ _ _ => exact this.2.2.1
  obtain ⟨e6, ps', rfl, r6, o6, s6⟩ := props_held H hR (ps0 := []) (fun p hp => hn.props p (hperm.subset hp))
    (fun p hp => ho.prop (hperm.subset hp)) (fun p hp => hn.lists p (hperm.subset hp)) (fun p hp => hn.maps p (hperm.subset hp))
    (fun p hp => hn.graphs p (hperm.subset hp)) (fun p hp => hn.langs p (hperm.subset hp)) ((hperm.map _).nodup_iff.2 hwf) k5
    (fun p _ => o15.fresh (by simp)) h6
  have k6 := k5.append (s6 none none none none none none).keyed
  have o16 := o15.append (T' := e6.map XEntry.term) (es' := e6) fun e he => List.mem_map.2 ⟨e, he, rfl⟩
  obtain ⟨m7, h7, rfl⟩ := exMap_ok h
  obtain ⟨e7, inc', rfl, r7, o7, s7⟩ := included_part H hR ho k6 (o16.fresh (by
    simp only [List.mem_append, not_or]
    refine ⟨by decide, fun hm => ?_⟩
    obtain ⟨e, he, h⟩ := List.mem_map.1 hm
    exact o6 e he _ h)) h7
  have hparts : Parts E X c' (.obj (xObj (e1 ++ e2 ++ e3 ++ indexX k x ++ e5 ++ e6 ++ e7))) n.id n.types x g' inc' ps' rv' := by
    refine ⟨e1, e2, e3 ++ indexX k x ++ e5 ++ e6 ++ e7, by simp only [List.append_assoc], p1, p2, fun i ty => ?_, ?_⟩
    · have := ((((s3 none i ty none none []).append (steps_index x hk)).append (s5 x i ty none [] rv')).append
        (s6 x i ty g' none rv')).append (s7 x i ty g' ([] ++ ps') rv')
      exact this
    · intro e he
      simp only [List.mem_append] at he
      rcases he with (((he | he) | he) | he) | he
      · have := List.mem_singleton.1 (o3 e he)
        rw [this]
        exact ⟨nofun, nofun⟩
      · have := List.mem_singleton.1 (only_index k x e he)
        rw [this]
        exact ⟨nofun, nofun⟩
      · have := List.mem_singleton.1 (o5 e he)
        rw [this]
        exact ⟨nofun, nofun⟩
      · exact ⟨o6 e he _, o6 e he _⟩
      · have := List.mem_singleton.1 (o7 e he)
        rw [this]
        exact ⟨nofun, nofun⟩
  refine .object x g' inc' ps' rv' hparts ?_
  obtain ⟨es, -, hsteps⟩ := hparts.steps H.toBaseEnv
  have hw := steps_wf H hsteps
  have hnw : n.WF := ho.wf
  have hwf' : (n.unindexed ((defContainer (prop.bind c'.get)).contains .index)).WF := by
    unfold Node.unindexed
    split
    · exact wf_setIndex hnw _
    · exact hnw
  refine rel_same hw hwf' ?_
  have hidx : (n.unindexed ((defContainer (prop.bind c'.get)).contains .index)).index = x := by
    rw [← hx]
    unfold Node.unindexed
    split <;> cases n <;> rfl
  have hrest : NodeRel (.mk n.index n.id n.types g' inc' ps' rv') n := by
    refine ⟨rfl, rfl, optRel_refl_of fun _ _ => .refl _, ?_, ?_, ?_, ?_⟩
    · show OptRel _ g' n.graph
      revert r5
      cases g' <;> cases n.graph <;> intro r5 <;> first | exact r5 | exact same_eq r5
    · show OptRel _ inc' n.included
      revert r7
      cases inc' <;> cases n.included <;> intro r7 <;> first | exact r7 | exact .of_forall₂ (r7.imp fun a b h => by
        have := h.eq
        simpa only [Obj.eq] using this)
    · exact ⟨_, hperm, List.Forall₂.imp (fun a b h => ⟨h.1, h.2.mono fun a _ b _ h => h.eq⟩) r6⟩
    · show OptRel _ rv' n.rev
      revert r3
      cases rv' <;> cases n.rev <;> intro r3 <;> first | exact r3 | exact PermRel.mono r3 fun a _ b _ h => ⟨h.1, h.2.mono fun a _ b _ h => by
        have := h.eq
        simpa only [Obj.eq] using this⟩
  refine ⟨hidx.symm, ?_⟩
  have h2 := hrest.2
  unfold Node.unindexed
  split
  · cases n; exact h2
  · exact h2

theorem compactNode_shown {R : CRec} (hR : RecShown E X c R) {n : Node} (ho : PlacedObj E.toCompEnv c (.node n)) {prop : Option Str}
    {j : Json} (h : compactNode E R c c prop n = .ok j) : NodeShown E X c prop j n := by
  unfold compactNode at h
  obtain ⟨c', h1, h0⟩ := exBind_ok h
  clear h
  have hc' : c' = c := by
    unfold nodeContext at h1
    obtain ⟨c1, h2, h1⟩ := exBind_ok h1
    rw [cScoped_value H.ctx] at h2
    have h3 : nodeStart c n = c := by
      unfold nodeStart
      rw [H.ctx.previous]
      simp
    rw [h3] at h2
    cases h2
    unfold typeContexts at h1
    obtain ⟨ts, -, h1⟩ := exBind_ok h1
    have : ∀ ts : List Str, ts.foldlM (fun c' t => cScoped E (c.get t) c' E.opts.proc.withoutPropagation) c = .ok c := by
      intro ts
      induction ts with
      | nil => rfl
      | cons t ts ih =>
        rw [List.foldlM_cons, show c.get t = (some t).bind c.get from rfl, cScoped_value H.ctx]
        exact ih
    rw [this] at h1
    exact (Except.ok.inj h1).symm
  subst hc'
  split at h0
  · rename_i r hr
    cases prop with
    | none =>
      exfalso
      unfold nodeString at hr
      split at hr
      · split at hr <;> cases hr
      · cases hr
    | some key =>
      refine string_shows H ho.placed ?_ hr h0
      rintro rfl
      unfold nodeString at hr
      rw [show (some "@graph".toList).bind c'.get = none from keyword_get H .graph] at hr
      split at hr
      · split at hr <;> cases hr
      · cases hr
  · exact node_shown H hR ho h0

/-- Any nesting. -/
theorem rec_shown (n : Nat) : RecShown E X c (crecN E n) := by
  induction n with
  | zero => exact ⟨fun _ _ _ _ h => (by cases h), fun _ _ _ _ _ _ _ h => (by cases h)⟩
  | succ n ih =>
    refine ⟨fun prop m j ho h => ?_, fun t i v j hv ht hc h => ?_⟩
    · exact compactNode_shown H ih ho h
    · exact value_shows H hv ht hc h

end

end JsonLd
