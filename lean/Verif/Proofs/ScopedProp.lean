import Verif.Proofs.ScopedNode
/-!
# Expanding compacted nodes with scoped contexts: properties and reverse properties
-/

namespace JsonLd.Sc
open JsonLd Spec Props Relation

section
variable {E : CEnv} {X : XEnv} {c : ACtx}

theorem wf_graph {n : Node} (h : (Obj.node n).WF) {g : List Obj} (hg : n.graph = some g) : ∀ o ∈ g, o.WF := by
  intro o ho
  cases n with
  | mk i id ty g' inc ps rv =>
    cases hg
    exact objsWF_iff.1 h.1.2 o ho

theorem wf_prop {n : Node} (h : (Obj.node n).WF) {p : Id × List Obj} (hp : p ∈ n.props) : ∀ o ∈ p.2, o.WF := by
  intro o ho
  cases n with
  | mk i id ty g' inc ps rv => exact psWF_iff.1 h.2.2.2.1 p hp o ho

theorem wf_included {n : Node} (h : (Obj.node n).WF) {l : List Node} (hl : n.included = some l) :
    ∀ m ∈ l, (Obj.node m).WF := by
  intro o ho
  cases n with
  | mk i id ty g' inc ps rv =>
    cases hl
    exact nodesWF_iff.1 h.2.1.2 o ho

theorem wf_rev {n : Node} (h : (Obj.node n).WF) {r : List (Id × List Node)} (hr : n.rev = some r)
    {p : Id × List Node} (hp : p ∈ r) : ∀ m ∈ p.2, (Obj.node m).WF := by
  intro o ho
  cases n with
  | mk i id ty g' inc ps rv =>
    cases hr
    exact rpsWF_iff.1 h.2.2.2.2.2 p hp o ho

theorem graph_noScope (H : NamedEnv E X c) (k : Keyword) : scopeOf c (some k.intoStr) = none :=
  keyword_noScope H (xKey_kw k)

/-- The contexts of a graph object where no scoped context applies. -/
theorem graph_contexts {prop : Option Str} (hp : c.previous = none) (hs : NoScope c prop) {n : Node}
    (hg : n.isGraph = true) : NodeContexts E X c prop n c [] c := by
  cases n with
  | mk x i ty g inc ps rv =>
    unfold Node.isGraph at hg
    simp only [Bool.and_eq_true, Option.isSome_iff_exists, Option.isNone_iff_eq_none, List.isEmpty_iff] at hg
    obtain ⟨⟨⟨⟨⟨g, rfl⟩, rfl⟩, rfl⟩, rfl⟩, rfl⟩ := hg
    refine ⟨⟨c, ?_, .none _ hs⟩, .nil, [], .refl _, .nil, .nil _⟩
    exact .node c (by simp [Node.isEmpty]) (.stay hp)

theorem itemJson_at {R : CRec} (hR : RecAt E X R) {key : Str} {p' : Option Str}
    (hp : scopeOf c (some key) = scopeOf c p') (hr : p' ≠ some "@reverse".toList) {o : Obj} {j : Json}
    (H : NamedEnv E X c) (ho : Fit E X c p' o)
    (h : itemJson E R c key o = .ok j) : BackAt X c p' j o := by
  unfold itemJson at h
  cases o with
  | value i x => exact hR _ _ _ _ _ hp hr ho.meant ho.wf ho.carries h
  | list i l =>
    dsimp only at h
    obtain ⟨v, h1, h⟩ := exBind_ok h
    obtain ⟨kl, h2, h⟩ := exBind_ok h
    obtain ⟨ei, h3, rfl⟩ := exMap_ok h
    have hn : noProp p' = false := by
      cases hn : noProp p' with
      | false => rfl
      | true => obtain ⟨n, h, -⟩ := ho.meant hn; cases h
    cases ho.carries with
    | list _ _ _ _ _ hprev hsc hitems =>
    obtain ⟨vs, a, rfl, hvs⟩ := collection_at hR hp hr (fun o ho' => ⟨by rw [hn]; nofun,
      objsWF_iff.1 (show objsWF l from ho.wf) o ho', hitems o ho'⟩) h1
    obtain ⟨ki, rfl, hki⟩ := indexEntries_back H.toBaseEnv h3
    have hkl := backKeys_round H.toBaseEnv _ _ h2
    rw [wrap_at hvs]
    have := list_at H hprev hsc hn (w := .arr vs) hkl hki hvs
    rw [show (kl, Json.arr vs) :: xObj (indexX ki i) = xObj (⟨kl, .keyword .list, .arr vs⟩ :: indexX ki i) from rfl,
      jObject_nodup]
    · exact this
    · refine keyed_nodup (X := X) (c := c) ?_ (by cases i <;> simp [indexX])
      intro e he
      rcases List.mem_cons.1 he with rfl | he
      · exact hkl
      · exact hki e he
  | node n =>
    dsimp only at h
    split at h
    · rename_i hg
      obtain ⟨v, h1, h⟩ := exBind_ok h
      have hcar := ho.carries
      cases hcar with
      | node _ _ _ k0 k1 k2 k3 k4 k5 =>
      obtain ⟨hprev, hsc⟩ := k0 hg
      have hctx := graph_contexts (E := E) (X := X) hprev hsc hg
      have hn := k1 _ _ _ hctx
      have hkey : scopeOf c (some key) = scopeOf c (some "@graph".toList) := by
        rw [hp, scopeOf_none.2 hsc]
        exact (graph_noScope H .graph).symm
      have hgr : ∀ o ∈ n.graph.getD [], Fit E X c (some "@graph".toList) o := by
        cases hx : n.graph with
        | none => nofun
        | some g => exact fun o ho' => ⟨fun _ => hn.graph g hx o ho', wf_graph ho.wf hx o ho', k2 _ _ _ hctx g hx o ho'⟩
      obtain ⟨vs, a, hv, hvs⟩ := collection_at hR hkey (by decide) hgr h1
      exact graph_at H hprev hsc hr ho.meant hg hn.id hn.graph ho.wf hv hvs h
    · exact hR _ _ _ _ _ hp hr ho.meant ho.wf ho.carries h

theorem propertyItem_named (hc : NamedCtx c) (R : CRec) (key : Str) (o : Obj) (m : JMap) :
    propertyItem E R c key o m = (itemJson E R c key o).bind fun v => addValue m key v (asArray E c key) := by
  have hd : defContainer (c.get key) = .none := defContainer_named hc (some key)
  have hadd : ∀ o v, addItem E R c key o v m = addValue m key v (asArray E c key) := by
    intro o v
    unfold addItem
    rw [hd]
    rfl
  unfold propertyItem itemJson
  cases o with
  | value i x => simp only [hadd]
  | list i l =>
    dsimp only
    unfold propertyList
    simp only [hd, contains_none, Bool.false_eq_true, if_false]
    cases compactCollection (R c c (some key)) c (some key) E.opts l with
    | error e => rfl
    | ok v =>
      show Except.bind (cKey E c .list) _ = Except.bind (Except.bind (cKey E c .list) _) _
      cases cKey E c .list with
      | error e => rfl
      | ok kl =>
        show Except.bind (indexEntries E c i) _ = Except.bind (Except.map _ (indexEntries E c i)) _
        cases indexEntries E c i <;> rfl
  | node n =>
    dsimp only
    split
    · unfold propertyGraph
      cases compactCollection (R c c (some key)) c (some key) E.opts (n.graph.getD []) with
      | error e => rfl
      | ok v =>
        show addGraph E c key n v m = _
        unfold addGraph
        rw [hd]
        rfl
    · simp only [hadd]

/-- The loop over the values adds them under the same key. -/
theorem propertyStep_fold_at {R : CRec} (hR : RecAt E X R) (H : NamedEnv E X c) {p : CTerm} {rev : Bool} {key : Str}
    (hk : plainKey E c p = .ok (some key)) {q : Option Str} (hq : scopeOf c (some key) = scopeOf c q)
    (hr : q ≠ some "@reverse".toList) {items : List Obj} (hi : ∀ o ∈ items, itemKey E c p rev o = .ok (some key) → Fit E X c q o) :
    ∀ {m m' : JMap}, items.foldlM (propertyStep E R c p rev) m = .ok m' →
    ∃ vs, List.Forall₂ (BackAt X c q) vs items ∧
      vs.foldlM (fun m v => addValue m key v (asArray E c key)) m = .ok m' := by
  induction items with
  | nil => intro m m' h; cases h; exact ⟨[], .nil, rfl⟩
  | cons o os ih =>
    intro m m' h
    rw [List.foldlM_cons] at h
    obtain ⟨m1, h1, h2⟩ := bindOk.1 h
    obtain ⟨vs, h3, h4⟩ := ih (fun o ho => hi o (List.mem_cons_of_mem _ ho)) h2
    unfold propertyStep at h1
    obtain ⟨k, hk1, h1⟩ := exBind_ok h1
    have := itemKey_named H.named hk1
    rw [hk] at this
    cases this
    dsimp only at h1
    rw [inNest_named H.named, propertyItem_named H.named] at h1
    obtain ⟨v, h5, h6⟩ := exBind_ok h1
    refine ⟨v :: vs, .cons (itemJson_at hR hq hr H (hi o (by simp) hk1) h5) h3, ?_⟩
    rw [List.foldlM_cons]
    exact bindOk.2 ⟨m1, h6, h4⟩

/-- The values of a property are one new entry. `q` gives the property under which they are expanded. -/
theorem property_at {R : CRec} (hR : RecAt E X R) (H : NamedEnv E X c) {p : CTerm} (hp : p ≠ .null) {rev : Bool}
    (hb : ∀ o s, itemKey E c p rev o = .ok (some s) → xKey X c s = .ok (some p)) (q : Str → Option Str)
    (hq : ∀ key, xKey X c key = .ok (some p) → scopeOf c (some key) = scopeOf c (q key) ∧ q key ≠ some "@reverse".toList)
    {es : List XEntry} (hes : Keyed X c es) (hf : p ∉ es.map XEntry.term) {items : List Obj}
    (hi : ∀ o ∈ items, ∀ key, itemKey E c p rev o = .ok (some key) → Fit E X c (q key) o) {m' : JMap}
    (h : compactProperty E R c p rev items (xObj es) = .ok m') :
    ∃ key vs a, xKey X c key = .ok (some p) ∧ m' = xObj (es ++ [⟨key, p, pack a vs⟩]) ∧
      List.Forall₂ (BackAt X c (q key)) vs items := by
  unfold compactProperty at h
  cases items with
  | nil =>
    simp only [List.isEmpty_nil, if_true] at h
    unfold propertyEmpty at h
    obtain ⟨k, h1, h⟩ := exBind_ok h
    obtain ⟨key, rfl⟩ := itemKey_some hp (itemKey_named H.named h1)
    have hk := hb _ _ h1
    dsimp only at h
    rw [inNest_named H.named, addEmpty_fresh (keyed_fresh hes hk hf)] at h
    cases h
    exact ⟨key, [], true, hk, by rw [xObj_append]; rfl, .nil⟩
  | cons o os =>
    simp only [List.isEmpty_cons, Bool.false_eq_true, if_false] at h
    have hk : ∃ key, plainKey E c p = .ok (some key) ∧ xKey X c key = .ok (some p) := by
      rw [List.foldlM_cons] at h
      obtain ⟨m1, h1, -⟩ := bindOk.1 h
      unfold propertyStep at h1
      obtain ⟨k, hk1, -⟩ := exBind_ok h1
      have hk2 := itemKey_named H.named hk1
      obtain ⟨key, rfl⟩ := itemKey_some hp hk2
      exact ⟨key, hk2, hb _ _ hk1⟩
    obtain ⟨key, hk1, hk2⟩ := hk
    obtain ⟨hq1, hq2⟩ := hq key hk2
    obtain ⟨vs, h1, h2⟩ := propertyStep_fold_at hR H hk1 hq1 hq2 (fun o ho => hi o ho key) h
    rw [addAll_fresh (keyed_fresh hes hk2 hf) (notArray_at h1) (by cases h1; simp)] at h2
    cases h2
    exact ⟨key, vs, asArray E c key, hk2, by rw [xObj_append]; rfl, h1⟩

/-- The entry for a property. -/
theorem steps_prop_at (H : NamedEnv E X c) {key : Str} {p : Id} (hp : Nameable E.toCompEnv c true p) {vs : List Json}
    {os : List Obj} {a : Bool}
    (hk : xKey X c key = .ok (some (.id p))) (hv : List.Forall₂ (BackAt X c (some key)) vs os) {x i ty g inc ps rv}
    (hf : p ∉ ps.map Prod.fst) : KeySteps X c [⟨key, .id p, pack a vs⟩] (.mk x i ty g inc ps rv)
      (.mk x i ty g inc (ps ++ [(p, os)]) rv) := by
  refine ⟨fun e he => by rw [List.mem_singleton.1 he]; exact hk,
    fun e he => by rw [List.mem_singleton.1 he]; simp, fun prop _ => ?_⟩
  obtain ⟨h1, h2⟩ := valid_form H.toBaseEnv hp
  obtain ⟨y, h3, h4, h5⟩ := pack_at H.named hv a
  have hd : ∀ j, propValue X (unlimited X) c (c.get key) key j = expandElement X c (some key) j false := by
    intro j
    unfold propValue
    have h6 : (c.get key).bind (·.typ) = none := typ_named H.named (some key)
    have h7 : containerOf (c.get key) = .none := containerOf_named H.named (some key)
    rw [h6, h7]
    cases j <;> rfl
  have hprop : propEntry X (unlimited X) c key p (pack a vs) ⟨.mk x i ty g inc ps rv, false⟩ =
      .ok ⟨.mk x i ty g inc (ps ++ [(p, os)]) rv, false⟩ := by
    unfold propEntry
    dsimp only
    rw [hd, h3]
    have h7 : containerOf (c.get key) = .none := containerOf_named H.named (some key)
    have h8 : reverseOf (c.get key) = false := reverseOf_named H.named (some key)
    show addProp (c.get key) p (wrapGraph (containerOf (c.get key)) (wrapList (containerOf (c.get key)) y)) _ = _
    rw [h7]
    show addProp (c.get key) p y _ = _
    unfold addProp
    rw [h5, h8, h4]
    simp only [Bool.false_eq_true, if_false, Node.insertProp, insertAll_fresh hf]
  rw [List.foldlM_cons]
  have : entryStep X (unlimited X) c c prop ⟨.mk x i ty g inc ps rv, false⟩ ⟨key, .id p, pack a vs⟩ =
      .ok ⟨.mk x i ty g inc (ps ++ [(p, os)]) rv, false⟩ := by
    unfold entryStep
    dsimp only
    rw [if_pos h1]
    unfold idEntry
    cases p with
    | invalid s => cases h2
    | _ => exact hprop
  rw [this]
  rfl

theorem key_prop {key : Str} {p : Id} (hk : xKey X c key = .ok (some (.id p))) :
    some key ≠ some "@reverse".toList ∧ noProp (some key) = false := by
  refine ⟨fun h => key_notKeyword hk .reverse (Option.some.inj h), ?_⟩
  have := key_notKeyword hk .graph
  unfold noProp
  rw [Option.isNone_some, Bool.false_or, decide_eq_false_iff_not]
  exact fun h => this (Option.some.inj h)

/-- All properties. -/
theorem props_at {R : CRec} (hR : RecAt E X R) (H : NamedEnv E X c) {x i ty g inc rv} : ∀ {ps0 ps : List (Id × List Obj)},
    (∀ p ∈ ps, Nameable E.toCompEnv c true p.1) → (∀ p ∈ ps, ∀ o ∈ p.2, o.WF) →
    (∀ p ∈ ps, ∀ o ∈ p.2, ∀ key, itemKey E c (.id p.1) false o = .ok (some key) → Carries E X c (some key) o) →
    ((ps0 ++ ps).map Prod.fst).Nodup →
    ∀ {es : List XEntry}, Keyed X c es → (∀ p ∈ ps, .id p.1 ∉ es.map XEntry.term) → ∀ {m' : JMap},
    ps.foldlM (fun m p => compactProperty E R c (.id p.1) false p.2 m) (xObj es) = .ok m' →
    ∃ es', m' = xObj (es ++ es') ∧ KeySteps X c es' (.mk x i ty g inc ps0 rv) (.mk x i ty g inc (ps0 ++ ps) rv) ∧
      ∀ e ∈ es', ∀ k, e.term ≠ .keyword k := by
  intro ps0 ps
  induction ps generalizing ps0 with
  | nil =>
    intro _ _ _ _ es _ _ m' h
    cases h
    exact ⟨[], by simp, by simpa using KeySteps.nil _, nofun⟩
  | cons p ps ih =>
    intro hn hwf hi hd es hes hf m' h
    rw [List.foldlM_cons] at h
    obtain ⟨m1, h1, h2⟩ := bindOk.1 h
    obtain ⟨key, vs, a, hk, rfl, hvs⟩ := property_at hR H (by simp) (fun o s => id_with H.toBaseEnv (hn p (by simp)))
      some (fun key hk => ⟨rfl, (key_prop hk).1⟩) hes
      (hf p (by simp)) (fun o ho key hk => ⟨by
        rw [(key_prop (id_with H.toBaseEnv (hn p (by simp)) hk)).2]; nofun, hwf p (by simp) o ho, hi p (by simp) o ho key hk⟩) h1
    have hp0 : p.1 ∉ ps0.map Prod.fst := by
      rw [List.map_append, List.nodup_append] at hd
      exact fun h => hd.2.2 _ h _ (by simp) rfl
    have hs := steps_prop_at H (hn p (by simp)) (a := a) hk hvs (x := x) (i := i) (ty := ty) (g := g) (inc := inc) (rv := rv) hp0
    obtain ⟨es', rfl, hs', ht⟩ := ih (ps0 := ps0 ++ [p]) (fun q hq => hn q (List.mem_cons_of_mem _ hq))
      (fun q hq => hwf q (List.mem_cons_of_mem _ hq))
      (fun q hq => hi q (List.mem_cons_of_mem _ hq)) (by simpa using hd) (hes.append hs.keyed)
      (fun q hq => by
        rw [List.map_append, List.mem_append, not_or]
        refine ⟨hf q (List.mem_cons_of_mem _ hq), ?_⟩
        simp only [List.map_cons, List.map_nil, List.mem_singleton, CTerm.id.injEq]
        intro heq
        rw [List.map_append, List.map_cons, List.nodup_append, List.nodup_cons] at hd
        exact hd.2.1.1 (List.mem_map.2 ⟨q, hq, heq⟩)) h2
    refine ⟨⟨key, .id p.1, pack a vs⟩ :: es', by simp, ?_, ?_⟩
    · have := hs.append hs'
      simpa using this
    · intro e he
      rcases List.mem_cons.1 he with rfl | he
      · simp
      · exact ht e he

/-! ## Reverse properties -/

/-- The entries of `@reverse`. -/
theorem reverse_fold_at {R : CRec} (hR : RecAt E X R) (H : NamedEnv E X c) {x i ty g inc ps} : ∀ {r0 r : List (Id × List Node)} {rv},
    rv.getD [] = r0 → (rv = none → r ≠ []) →
    (∀ p ∈ r, Nameable E.toCompEnv c true p.1) → (∀ p ∈ r, ∀ n ∈ p.2, (Obj.node n).WF) →
    (∀ p ∈ r, ∀ n ∈ p.2, ∀ key, itemKey E c (.id p.1) true (.node n) = .ok (some key) → Carries E X c (some key) (.node n)) →
    ((r0 ++ r).map Prod.fst).Nodup →
    ∀ {es : List XEntry}, Keyed X c es → (∀ p ∈ r, .id p.1 ∉ es.map XEntry.term) → ∀ {m' : JMap},
    r.foldlM (fun m p => compactProperty E R c (.id p.1) true (p.2.map Obj.node) m) (xObj es) = .ok m' →
    ∃ es', m' = xObj (es ++ es') ∧ Keyed X c es' ∧ (r ≠ [] → es' ≠ []) ∧ es'.map XEntry.term = r.map (fun p => .id p.1) ∧
      (xObj es').foldlM (reverseStep X (unlimited X) c) ⟨.mk x i ty g inc ps rv, false⟩ =
        .ok ⟨.mk x i ty g inc ps (some (r0 ++ r)), false⟩ := by
  intro r0 r
  induction r generalizing r0 with
  | nil =>
    intro rv hrv hne _ _ _ _ es _ _ m' h
    cases h
    refine ⟨[], by simp, nofun, fun h => absurd rfl h, rfl, ?_⟩
    cases rv with
    | none => exact absurd rfl (hne rfl)
    | some r =>
      cases hrv
      rw [List.append_nil]
      rfl
  | cons p r ih =>
    intro rv hrv _ hn hwf hi hd es hes hf m' h
    rw [List.foldlM_cons] at h
    obtain ⟨m1, h1, h2⟩ := bindOk.1 h
    obtain ⟨key, vs, a, hk, rfl, hvs⟩ := property_at hR H (by simp) (fun o s => id_with H.toBaseEnv (hn p (by simp)))
      some (fun key hk => ⟨rfl, (key_prop hk).1⟩) hes
      (hf p (by simp)) (fun o ho key hk => by
        obtain ⟨n, hn', rfl⟩ := List.mem_map.1 ho
        exact ⟨by rw [(key_prop (id_with H.toBaseEnv (hn p (by simp)) hk)).2]; nofun, hwf p (by simp) n hn',
          hi p (by simp) n hn' key hk⟩) h1
    have hp0 : p.1 ∉ r0.map Prod.fst := by
      rw [List.map_append, List.nodup_append] at hd
      exact fun h => hd.2.2 _ h _ (by simp) rfl
    have hke : Keyed X c [⟨key, .id p.1, pack a vs⟩] := fun e he => by rw [List.mem_singleton.1 he]; exact hk
    obtain ⟨es', rfl, hes', -, hterms, hs'⟩ := ih (r0 := r0 ++ [p]) (rv := some (r0 ++ [p])) rfl nofun
      (fun q hq => hn q (List.mem_cons_of_mem _ hq))
      (fun q hq => hwf q (List.mem_cons_of_mem _ hq))
      (fun q hq => hi q (List.mem_cons_of_mem _ hq)) (by simpa using hd) (hes.append hke)
      (fun q hq => by
        rw [List.map_append, List.mem_append, not_or]
        refine ⟨hf q (List.mem_cons_of_mem _ hq), ?_⟩
        simp only [List.map_cons, List.map_nil, List.mem_singleton, CTerm.id.injEq]
        intro heq
        rw [List.map_append, List.map_cons, List.nodup_append, List.nodup_cons] at hd
        exact hd.2.1.1 (List.mem_map.2 ⟨q, hq, heq⟩)) h2
    refine ⟨⟨key, .id p.1, pack a vs⟩ :: es', by simp, ?_, by simp, by simp [hterms], ?_⟩
    · exact hke.append hes'
    · show List.foldlM _ _ ((key, pack a vs) :: xObj es') = _
      rw [List.foldlM_cons]
      have hstep : reverseStep X (unlimited X) c ⟨.mk x i ty g inc ps rv, false⟩ (key, pack a vs) =
          .ok ⟨.mk x i ty g inc ps (some (r0 ++ [p])), false⟩ := by
        obtain ⟨g1, g2⟩ := valid_form H.toBaseEnv (hn p (by simp))
        obtain ⟨y, h3, h4, h5⟩ := pack_at H.named hvs a
        unfold reverseStep
        rw [hk]
        show (if p.1.str.contains ':' = true then _ else _) = _
        rw [if_pos g1, if_pos g2]
        unfold reverseProp
        rw [show (unlimited X).elem c (some key) (pack a vs) false = _ from h3]
        have h8 : reverseOf (c.get key) = false := reverseOf_named H.named (some key)
        show (if reverseOf (c.get key) = true then _ else _) = _
        rw [h8, if_neg (by simp)]
        unfold addReverse
        rw [h4, asNodes_map]
        show Except.ok _ = _
        simp only [Node.insertRev, hrv, insertAll_fresh hp0]
      rw [hstep]
      show List.foldlM _ _ _ = _
      rw [hs']
      simp

end

end JsonLd.Sc
