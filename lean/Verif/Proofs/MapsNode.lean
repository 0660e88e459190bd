import Verif.Proofs.OrderPerm
/-!
# Compacted nodes, up to equality
-/

namespace JsonLd
open Spec Props Relation

section
variable {E : CEnv} {X : XEnv} {c : ACtx} (H : MapEnv E X c)
include H

/-! ## Properties -/

/-- A key without values. -/
theorem empty_value {key : Str} (hl : (defContainer (c.get key)).contains .list = false) :
    entryValue X c key (.arr []) = .ok (.array []) := by
  unfold entryValue propValue
  rw [containerOf_eq]
  dsimp only
  rw [if_neg (typ_json H.ctx key)]
  have : expandElement X c (some key) (.arr []) false = .ok (.array []) := by
    rw [C49_unfold]
    show elemArr (unlimited X) c (some key) [] false = _
    unfold elemArr
    show Except.ok (if (containerOf (c.get key)).contains .list = true then _ else _) = _
    rw [containerOf_eq, hl]
    rfl
  rw [show (unlimited X).elem c (some key) (.arr []) false = _ from this]
  show Except.ok (wrapGraph _ (wrapList _ _)) = _
  unfold wrapGraph wrapList
  rw [hl]
  simp [Expanded.toList]

omit H in
theorem keyed_groups {p : CTerm} {gs : List (Str × Json × List Obj)} {m : JMap} (hm : m = gs.map fun g => (g.1, g.2.1))
    (hk : ∀ k ∈ m.map Prod.fst, xKey X c k = .ok (some p)) :
    (∀ g ∈ gs, xKey X c g.1 = .ok (some p)) ∧ m = xObj (gs.map fun g => ⟨g.1, p, g.2.1⟩) := by
  subst hm
  refine ⟨fun g hg => hk _ ?_, ?_⟩
  · simp only [List.map_map, List.mem_map]
    exact ⟨g, hg, rfl⟩
  · simp [xObj]

/-- The values of a property. -/
theorem property_held {R : CRec} (hR : RecShown E X c R) {p : Id} (hp : Nameable E.toCompEnv c true p)
    {items : List Obj} (hi : ∀ o ∈ items, PlacedObj E.toCompEnv c o)
    (hl : NoTermWith c (.id p) .list ∨ items.Pairwise fun a b => ¬ (IsList a ∧ IsList b))
    (hm : ∀ o ∈ items, IsList o → NoTermWith c (.id p) .index)
    (hgm : ∀ g, .node g ∈ items → g.isGraph = true → ∀ t d, c.get t = some d → d.value = some (.id p) →
      InGraphTerm d.container g)
    (hlm : ∀ v, .value none v ∈ items → ∀ t d, c.get t = some d → d.value = some (.id p) → .language ∈ d.container.asSlice →
      InLanguageMap c t v)
    {es : List XEntry} (hes : Keyed X c es) (hf : .id p ∉ es.map XEntry.term) {m' : JMap}
    (h : compactProperty E R c (.id p) false items (xObj es) = .ok m') :
    ∃ es' os', m' = xObj (es ++ es') ∧ Only [.id p] es' ∧ PermRel Same os' items ∧
      ∀ x i ty g inc ps rv, p ∉ ps.map Prod.fst →
        KeySteps X c es' (.mk x i ty g inc ps rv) (.mk x i ty g inc (ps ++ [(p, os')]) rv) := by
  unfold compactProperty at h
  cases items with
  | nil =>
    simp only [List.isEmpty_nil, if_true] at h
    unfold propertyEmpty at h
    obtain ⟨k, h1, h⟩ := exBind_ok h
    obtain ⟨key, rfl⟩ := key_some (by simp) h1
    have hk := id_with H.toBaseEnv hp h1
    dsimp only at h
    rw [inNest_value H.ctx, addEmpty_fresh (keyed_fresh hes hk hf)] at h
    cases h
    have hcont := node_containers rfl (itemKey_fits H.ctx H.clean hp h1).container
    have hv := empty_value H (key := key) (by
      simp only [List.mem_cons, List.not_mem_nil, or_false] at hcont
      rcases hcont with h | h | h | h | h | h | h | h <;> rw [h] <;> rfl)
    refine ⟨[⟨key, .id p, .arr []⟩], [], by rw [xObj_append]; rfl, .one _ _ _, .refl_of nofun, ?_⟩
    intro x i ty g inc ps rv hps
    have := entry_steps H hp hk hv rfl x i ty g inc ps rv
    rw [insertAll_fresh hps] at this
    exact this
  | cons o os =>
    simp only [List.isEmpty_cons, Bool.false_eq_true, if_false] at h
    rw [← List.append_nil (xObj es)] at h
    obtain ⟨m', rfl, ⟨gs, hgs, -, hh, hperm⟩, hk⟩ := fold_grouped H (HH := Holds X c) hp (fun k hk => keyed_fresh hes hk hf) (o :: os) []
      (by
        intro pre o' post he key hkey
        rw [List.nil_append]
        have ho' : o' ∈ o :: os := by rw [he]; simp
        refine item_adds H hR (id_with H.toBaseEnv hp hkey) (hi o' ho') (itemKey_fits H.ctx H.clean hp hkey) ?_ (hm o' ho')
          (fun g hg => hgm g (hg ▸ ho')) (fun v hv => hlm v (hv ▸ ho'))
        intro hlist
        refine hl.imp_right fun hpw o2 ho2 hl2 => ?_
        rw [he, List.pairwise_append] at hpw
        exact hpw.2.2 o2 ho2 o' (by simp) ⟨hl2, hlist⟩) (Grouped.nil _) nofun h
    obtain ⟨hk', rfl⟩ := keyed_groups hgs hk
    rw [List.nil_append] at hperm
    obtain ⟨os', h1, h2⟩ := groups_steps H hp (by
      rintro rfl
      exact absurd hperm (by simp)) hh hk'
    refine ⟨_, os', (xObj_append _ _).symm, ?_, ?_, h2⟩
    · intro e he
      obtain ⟨g, -, rfl⟩ := List.mem_map.1 he
      simp
    · obtain ⟨b, h3, h4⟩ := h1
      exact ⟨b, h3.trans hperm, h4⟩

/-- The same properties with the same values. -/
def SameProps (ps' ps : List (Id × List Obj)) : Prop :=
  List.Forall₂ (fun a b => a.1 = b.1 ∧ PermRel Same a.2 b.2) ps' ps

omit H in
theorem SameProps.keys {ps' ps : List (Id × List Obj)} (h : SameProps ps' ps) : ps'.map Prod.fst = ps.map Prod.fst := by
  induction h with
  | nil => rfl
  | cons h _ ih => simp [h.1, ih]

/-- All properties. -/
theorem props_held {R : CRec} (hR : RecShown E X c R) : ∀ {ps0 ps : List (Id × List Obj)},
    (∀ p ∈ ps, Nameable E.toCompEnv c true p.1) → (∀ p ∈ ps, ∀ o ∈ p.2, PlacedObj E.toCompEnv c o) →
    (∀ p ∈ ps, NoTermWith c (.id p.1) .list ∨ p.2.Pairwise fun a b => ¬ (IsList a ∧ IsList b)) →
    (∀ p ∈ ps, ∀ o ∈ p.2, IsList o → NoTermWith c (.id p.1) .index) →
    (∀ p ∈ ps, ∀ g, .node g ∈ p.2 → g.isGraph = true → ∀ t d, c.get t = some d → d.value = some (.id p.1) →
      InGraphTerm d.container g) →
    (∀ p ∈ ps, ∀ v, .value none v ∈ p.2 → ∀ t d, c.get t = some d → d.value = some (.id p.1) →
      .language ∈ d.container.asSlice → InLanguageMap c t v) →
    ((ps0 ++ ps).map Prod.fst).Nodup →
    ∀ {es : List XEntry}, Keyed X c es → (∀ p ∈ ps, .id p.1 ∉ es.map XEntry.term) → ∀ {m' : JMap},
    ps.foldlM (fun m p => compactProperty E R c (.id p.1) false p.2 m) (xObj es) = .ok m' →
    ∃ es' ps', m' = xObj (es ++ es') ∧ SameProps ps' ps ∧ (∀ e ∈ es', ∀ k, e.term ≠ .keyword k) ∧
      ∀ x i ty g inc rv, KeySteps X c es' (.mk x i ty g inc ps0 rv) (.mk x i ty g inc (ps0 ++ ps') rv) := by
  intro ps0 ps
  induction ps generalizing ps0 with
  | nil =>
    intro _ _ _ _ _ _ _ es _ _ m' h
    cases h
    exact ⟨[], [], by simp, .nil, nofun, fun _ _ _ _ _ _ => by simpa using KeySteps.nil _⟩
  | cons p ps ih =>
    intro hn hi hl hm hgm hlm hd es hes hf m' h
    rw [List.foldlM_cons] at h
    obtain ⟨m1, h1, h2⟩ := bindOk.1 h
    obtain ⟨e1, os', rfl, ho1, hs1, hst1⟩ := property_held H hR (hn p (by simp)) (hi p (by simp)) (hl p (by simp)) (hm p (by simp)) (hgm p (by simp)) (hlm p (by simp))
      hes (hf p (by simp)) h1
    have hp0 : p.1 ∉ ps0.map Prod.fst := by
      rw [List.map_append, List.nodup_append] at hd
      exact fun h => hd.2.2 _ h _ (by simp) rfl
    obtain ⟨es', ps', rfl, hsp, ht, hs'⟩ := ih (ps0 := ps0 ++ [(p.1, os')]) (fun q hq => hn q (List.mem_cons_of_mem _ hq))
      (fun q hq => hi q (List.mem_cons_of_mem _ hq)) (fun q hq => hl q (List.mem_cons_of_mem _ hq))
      (fun q hq => hm q (List.mem_cons_of_mem _ hq)) (fun q hq => hgm q (List.mem_cons_of_mem _ hq)) (fun q hq => hlm q (List.mem_cons_of_mem _ hq)) (by simpa using hd) (hes.append (hst1 none none none none none ps0 none hp0).keyed)
      (fun q hq => by
        rw [List.map_append, List.mem_append, not_or]
        refine ⟨hf q (List.mem_cons_of_mem _ hq), ho1.fresh ?_⟩
        simp only [List.mem_singleton, CTerm.id.injEq]
        intro heq
        rw [List.map_append, List.map_cons, List.nodup_append, List.nodup_cons] at hd
        exact hd.2.1.1 (List.mem_map.2 ⟨q, hq, heq⟩)) h2
    refine ⟨e1 ++ es', (p.1, os') :: ps', by simp, .cons ⟨rfl, hs1⟩ hsp, ?_, ?_⟩
    · intro e he k hk
      rcases List.mem_append.1 he with he | he
      · have := ho1 e he
        rw [hk] at this
        simp at this
      · exact ht e he k hk
    · intro x i ty g inc rv
      have := (hst1 x i ty g inc ps0 rv hp0).append (hs' x i ty g inc rv)
      simpa using this

/-! ## Reverse properties -/

/-- A plain key with objects. -/
def PlainHeld (X : XEnv) (c : ACtx) (key : Str) (w : Json) (os : List Obj) : Prop :=
  (defContainer (c.get key) = .set ∨ defContainer (c.get key) = .none) ∧ Packed (Shows X c) key w os

/-- The entry of `@reverse` adds nodes to a reverse property. -/
def AddsRev (X : XEnv) (c : ACtx) (e : Str × Json) : Prop :=
  ∃ p ns, ∀ x i ty g inc ps rv, reverseStep X (unlimited X) c ⟨.mk x i ty g inc ps rv, false⟩ e =
    .ok ⟨.mk x i ty g inc ps (some (insertAll p ns (rv.getD []))), false⟩

omit H in
/-- Such entries add to the reverse properties, whatever else is in the node. -/
theorem addsRev_fold {m : JMap} (h : ∀ e ∈ m, AddsRev X c e) (rv : Option (List (Id × List Node))) (hne : rv = none → m ≠ []) :
    ∃ r', ∀ x i ty g inc ps, m.foldlM (reverseStep X (unlimited X) c) ⟨.mk x i ty g inc ps rv, false⟩ =
      .ok ⟨.mk x i ty g inc ps (some r'), false⟩ := by
  induction m generalizing rv with
  | nil =>
    cases rv with
    | none => exact absurd rfl (hne rfl)
    | some r => exact ⟨r, fun _ _ _ _ _ _ => rfl⟩
  | cons e m ih =>
    obtain ⟨p, ns, hp⟩ := h e (by simp)
    obtain ⟨r', hr⟩ := ih (fun e he => h e (List.mem_cons_of_mem _ he)) (some (insertAll p ns (rv.getD []))) nofun
    refine ⟨r', fun x i ty g inc ps => ?_⟩
    rw [List.foldlM_cons, hp]
    exact hr x i ty g inc ps

omit H in
/-- The entries of `@reverse` in another order. -/
theorem reverse_reorder {m m' : JMap} (h : m.Perm m') {s t : XState} (hs : SimSt s s)
    (hst : m.foldlM (reverseStep X (unlimited X) c) s = .ok t) :
    ∃ t', m'.foldlM (reverseStep X (unlimited X) c) s = .ok t' ∧ SimSt t t' := by
  have K : KClosed X fun _ => True := ⟨by intros; trivial, by intros; trivial⟩
  refine foldlM_perm (P := SimSt) (R := fun _ _ => True) (fun h => h.symm) (fun h h' => h.trans h') (fun h => h)
    h (List.pairwise_of_forall fun _ _ => trivial) ?_ ?_ hs hst
  · intro e _ s s' t hs hst
    exact reverseStep_to (K := fun _ => True) trivial ⟨rfl, vc_refl K _, fun _ => rfl⟩ hs t hst
  · intro e _ e' _ _ s t u hs h1 h2
    obtain ⟨r, hr, hi⟩ := reverseStep_does (E := X) (c := c) (e := e)
    obtain ⟨r', hr', hi'⟩ := reverseStep_does (E := X) (c := c) (e := e')
    obtain ⟨vs, rfl, rfl⟩ := (hi _ _).1 h1
    obtain ⟨ws, rfl, rfl⟩ := (hi' _ _).1 h2
    refine ⟨_, _, (hi' _ _).2 ⟨ws, rfl, rfl⟩, (hi _ _).2 ⟨vs, rfl, rfl⟩, ?_⟩
    refine Write.run_exchange (fun w hw => (hr vs rfl w hw).1) (fun w hw => (hr' ws rfl w hw).1) (fun v hv w hw => ?_) hs
    rcases (hr vs rfl v hv).2 with h | h
    · exact .inr (.inl h)
    · exact .inr (.inr (.inl h))

/-- One entry of `@reverse`. -/
theorem reverse_entry {key : Str} {p : Id} (hp : Nameable E.toCompEnv c true p) (hk : xKey X c key = .ok (some (.id p)))
    {w : Json} {ns : List Node} (h : PlainHeld X c key w (ns.map .node) ∨ (w = .arr [] ∧ ns = [] ∧
      (defContainer (c.get key)).contains .list = false)) :
    ∃ ns' : List Node, List.Forall₂ (fun a b => Same (.node a) (.node b)) ns' ns ∧ ∀ x i ty g inc ps rv,
      reverseStep X (unlimited X) c ⟨.mk x i ty g inc ps rv, false⟩ (key, w) =
        .ok ⟨.mk x i ty g inc ps (some (insertAll p ns' (rv.getD []))), false⟩ := by
  have hx : ∃ y, expandElement X c (some key) w false = .ok y ∧ List.Forall₂ Same y.toList (ns.map .node) := by
    rcases h with ⟨hcont, a, vs, -, rfl, hvs⟩ | ⟨rfl, rfl, hl⟩
    · have k2 : (defContainer (c.get key)).contains .index = false := by rcases hcont with h | h <;> rw [h] <;> rfl
      obtain ⟨x, h1, h2, h3⟩ := pack_forall (prop := some key) (hvs.imp fun v o h => (h.shown k2).expand false) (by
        show (containerOf (c.get key)).contains .list = false
        rw [containerOf_eq]
        rcases hcont with h | h <;> rw [h] <;> rfl) a
      exact ⟨x, h1, h2⟩
    · refine ⟨.array [], ?_, .nil⟩
      rw [C49_unfold]
      show elemArr (unlimited X) c (some key) [] false = _
      unfold elemArr
      show Except.ok (if (containerOf (c.get key)).contains .list = true then _ else _) = _
      rw [containerOf_eq, hl]
      rfl
  obtain ⟨y, h3, h4⟩ := hx
  obtain ⟨ns', hns⟩ := forall₂_asNodes h4 (by
    intro o ho
    obtain ⟨n, -, rfl⟩ := List.mem_map.1 ho
    exact ⟨n, rfl⟩)
  refine ⟨ns', ?_, fun x i ty g inc ps rv => ?_⟩
  · rw [hns] at h4
    rw [List.forall₂_map_left_iff, List.forall₂_map_right_iff] at h4
    exact h4
  · obtain ⟨g1, g2⟩ := valid_form H.toBaseEnv hp
    unfold reverseStep
    rw [hk]
    show (if p.str.contains ':' = true then _ else _) = _
    rw [if_pos g1, if_pos g2]
    unfold reverseProp
    rw [show (unlimited X).elem c (some key) w false = _ from h3]
    show (if reverseOf (c.get key) = true then _ else _) = _
    rw [reverseOf_value H.ctx, if_neg (by simp)]
    unfold addReverse
    rw [hns, asNodes_map]
    rfl

omit H in
theorem nodes_of_perm {os : List Obj} {ns : List Node} (h : os.Perm (ns.map .node)) : ∃ ns' : List Node, os = ns'.map .node ∧ ns'.Perm ns := by
  have : ∀ o ∈ os, ∃ n : Node, o = .node n := by
    intro o ho
    obtain ⟨n, -, rfl⟩ := List.mem_map.1 (h.mem_iff.1 ho)
    exact ⟨n, rfl⟩
  have : ∃ ns' : List Node, os = ns'.map .node := by
    clear h
    induction os with
    | nil => exact ⟨[], rfl⟩
    | cons o os ih =>
      obtain ⟨n, rfl⟩ := this o (by simp)
      obtain ⟨ns', rfl⟩ := ih fun o ho => this o (List.mem_cons_of_mem _ ho)
      exact ⟨n :: ns', rfl⟩
  obtain ⟨ns', rfl⟩ := this
  refine ⟨ns', rfl, ?_⟩
  exact (List.map_perm_map_iff (fun a b h => by injection h)).1 h

/-- The entries of one reverse property, after the first. -/
theorem reverse_more {p : Id} (hp : Nameable E.toCompEnv c true p) : ∀ (gs : List (Str × Json × List Obj)),
    (∀ g ∈ gs, PlainHeld X c g.1 g.2.1 g.2.2) → (∀ g ∈ gs, xKey X c g.1 = .ok (some (.id p))) →
    ∀ ns : List Node, (gs.flatMap fun g => g.2.2) = ns.map .node →
    ∃ ns' : List Node, List.Forall₂ (fun a b => Same (.node a) (.node b)) ns' ns ∧ ∀ x i ty g inc ps r a, p ∉ r.map Prod.fst →
      (gs.map fun g => (g.1, g.2.1)).foldlM (reverseStep X (unlimited X) c) ⟨.mk x i ty g inc ps (some (r ++ [(p, a)])), false⟩ =
        .ok ⟨.mk x i ty g inc ps (some (r ++ [(p, a ++ ns')])), false⟩ := by
  intro gs
  induction gs with
  | nil =>
    intro _ _ ns hns
    cases ns with
    | cons => cases hns
    | nil => exact ⟨[], .nil, fun x i ty g inc ps r a _ => by rw [List.append_nil]; rfl⟩
  | cons e gs ih =>
    intro hh hk ns hns
    rw [List.flatMap_cons] at hns
    obtain ⟨n1, n2, rfl, hn1, hn2⟩ := List.append_eq_map_iff.1 hns
    obtain ⟨k, w, l⟩ := e
    dsimp only at hn1
    subst hn1
    obtain ⟨ns1, h1, h2⟩ := reverse_entry H hp (hk (k, w, n1.map .node) (by simp)) (.inl (hh (k, w, n1.map .node) (by simp)))
    obtain ⟨ns2, h3, h4⟩ := ih (fun g hg => hh g (List.mem_cons_of_mem _ hg)) (fun g hg => hk g (List.mem_cons_of_mem _ hg)) n2 hn2.symm
    refine ⟨ns1 ++ ns2, List.rel_append h1 h3, fun x i ty g inc ps r a hf => ?_⟩
    rw [List.map_cons, List.foldlM_cons, h2]
    show List.foldlM _ _ _ = _
    rw [show (some (r ++ [(p, a)])).getD [] = r ++ [(p, a)] from rfl, insertAll_last hf, h4 _ _ _ _ _ _ _ _ hf, List.append_assoc]

/-- One reverse property. -/
theorem reverse_held {R : CRec} (hR : RecShown E X c R) {p : Id} (hp : Nameable E.toCompEnv c true p)
    (hx : NoTermWith c (.id p) .index) {ns : List Node} (hi : ∀ n ∈ ns, PlacedObj E.toCompEnv c (.node n))
    {es : List XEntry} (hes : Keyed X c es) (hf : .id p ∉ es.map XEntry.term) (hnd : ((xObj es).map Prod.fst).Nodup) {m' : JMap}
    (h : compactProperty E R c (.id p) true (ns.map .node) (xObj es) = .ok m') :
    ∃ es' ns', m' = xObj (es ++ es') ∧ Only [.id p] es' ∧ Keyed X c es' ∧ es' ≠ [] ∧ ((xObj (es ++ es')).map Prod.fst).Nodup ∧
      PermRel (fun a b => Same (.node a) (.node b)) ns' ns ∧ (∀ e ∈ xObj es', AddsRev X c e) ∧
      ∀ x i ty g inc ps rv, p ∉ (rv.getD []).map Prod.fst →
        (xObj es').foldlM (reverseStep X (unlimited X) c) ⟨.mk x i ty g inc ps rv, false⟩ =
          .ok ⟨.mk x i ty g inc ps (some (rv.getD [] ++ [(p, ns')])), false⟩ := by
  unfold compactProperty at h
  cases ns with
  | nil =>
    simp only [List.map_nil, List.isEmpty_nil, if_true] at h
    unfold propertyEmpty at h
    obtain ⟨k, h1, h⟩ := exBind_ok h
    obtain ⟨key, rfl⟩ := key_some (by simp) h1
    have hk := id_with H.toBaseEnv hp h1
    dsimp only at h
    have hfr := keyed_fresh hes hk hf
    rw [inNest_value H.ctx, addEmpty_fresh hfr] at h
    cases h
    have hfit := itemKey_fits H.ctx H.clean hp h1
    have hcont := rev_containers hfit.container (hfit.kinds _ hx)
    obtain ⟨ns', h2, h3⟩ := reverse_entry H hp hk (w := .arr []) (ns := []) (.inr ⟨rfl, rfl, by
      rcases hcont with h | h <;> rw [h] <;> rfl⟩)
    cases h2
    refine ⟨[⟨key, .id p, .arr []⟩], [], by rw [xObj_append]; rfl, .one _ _ _,
      fun e he => by rw [List.mem_singleton.1 he]; exact hk, by simp, ?_, .refl_of nofun,
      fun e he => by rw [List.mem_singleton.1 he]; exact ⟨p, _, h3⟩, ?_⟩
    · rw [xObj_append, List.map_append, List.nodup_append]
      refine ⟨hnd, by simp [xObj], fun a ha b hb => ?_⟩
      simp only [xObj, List.map_cons, List.map_nil, List.mem_singleton] at hb
      rintro rfl
      exact hfr (hb ▸ ha)
    · intro x i ty g inc ps rv hps
      show ([(key, Json.arr [])] : JMap).foldlM _ _ = _
      rw [List.foldlM_cons, h3, insertAll_fresh hps]
      rfl
  | cons n ns =>
    simp only [List.map_cons, List.isEmpty_cons, Bool.false_eq_true, if_false] at h
    rw [← List.append_nil (xObj es)] at h
    obtain ⟨m', rfl, ⟨gs, hgs, hnd', hh, hperm⟩, hk⟩ := fold_grouped H (HH := PlainHeld X c) hp (fun k hk => keyed_fresh hes hk hf)
      (.node n :: ns.map .node) []
      (by
        intro pre o' post he key hkey
        rw [List.nil_append]
        have ho' : o' ∈ (n :: ns).map Obj.node := by rw [List.map_cons, he]; simp
        obtain ⟨n', hn', rfl⟩ := List.mem_map.1 ho'
        have hfit := itemKey_fits H.ctx H.clean hp hkey
        have hcont := rev_containers hfit.container (hfit.kinds _ hx)
        refine (plain_adds H hR (id_with H.toBaseEnv hp hkey) hcont (hi n' hn') nofun nofun pre).congr (fun _ => rfl) ?_
        intro w l
        rw [holds_plain hcont]
        exact ⟨fun h => h.2, fun h => ⟨hcont, h⟩⟩) (Grouped.nil _) nofun h
    have hkk := hk
    clear hk
    obtain ⟨hk, rfl⟩ := keyed_groups hgs hkk
    rw [List.nil_append, show Obj.node n :: ns.map .node = (n :: ns).map .node from rfl] at hperm
    have hadds : ∀ g ∈ gs, AddsRev X c (g.1, g.2.1) := by
      intro g hg
      have hmem : ∀ o ∈ g.2.2, ∃ n : Node, o = .node n := fun o ho => by
        obtain ⟨n, -, hn⟩ := List.mem_map.1 (hperm.subset (List.mem_flatMap.2 ⟨g, hg, ho⟩))
        exact ⟨n, hn.symm⟩
      have hns : ∃ ns : List Node, g.2.2 = ns.map .node := by
        generalize g.2.2 = os at hmem
        induction os with
        | nil => exact ⟨[], rfl⟩
        | cons o os ih =>
          obtain ⟨n, rfl⟩ := hmem o (by simp)
          obtain ⟨ns', rfl⟩ := ih fun o ho => hmem o (List.mem_cons_of_mem _ ho)
          exact ⟨n :: ns', rfl⟩
      obtain ⟨ns, hns⟩ := hns
      obtain ⟨ns', -, h2⟩ := reverse_entry H hp (hk g hg)
        (.inl (hns ▸ hh g hg))
      exact ⟨p, ns', h2⟩
    obtain ⟨os, hos, hpn⟩ := nodes_of_perm hperm
    cases gs with
    | nil =>
      cases os with
      | nil => exact absurd hpn (by simp)
      | cons => cases hos
    | cons e gs =>
      rw [List.flatMap_cons] at hos
      obtain ⟨n1, n2, rfl, hn1, hn2⟩ := List.append_eq_map_iff.1 hos
      obtain ⟨k, w, l⟩ := e
      dsimp only at hn1
      subst hn1
      obtain ⟨ns1, h1, h2⟩ := reverse_entry H hp (hk (k, w, n1.map .node) (by simp)) (.inl (hh (k, w, n1.map .node) (by simp)))
      obtain ⟨ns2, h3, h4⟩ := reverse_more H hp gs (fun g hg => hh g (List.mem_cons_of_mem _ hg)) (fun g hg => hk g (List.mem_cons_of_mem _ hg)) n2 hn2.symm
      refine ⟨_, ns1 ++ ns2, (xObj_append _ _).symm, ?_, ?_, by simp, ?_, ⟨_, hpn, List.rel_append h1 h3⟩, ?_, ?_⟩
      · intro e he
        obtain ⟨g, -, rfl⟩ := List.mem_map.1 he
        simp
      · intro e he
        obtain ⟨g, hg, rfl⟩ := List.mem_map.1 he
        exact hk g hg
      · rw [xObj_append, List.map_append, List.nodup_append]
        refine ⟨hnd, hnd', fun a ha b hb => ?_⟩
        rintro rfl
        exact keyed_fresh hes (hkk _ hb) hf ha
      · intro e he
        obtain ⟨e', he', rfl⟩ := List.mem_map.1 he
        obtain ⟨g, hg, rfl⟩ := List.mem_map.1 he'
        exact hadds g hg
      · intro x i ty g inc ps rv hps
        have hshape : xObj (((k, w, n1.map Obj.node) :: gs).map fun g => (⟨g.1, .id p, g.2.1⟩ : XEntry)) =
            (k, w) :: gs.map fun g => (g.1, g.2.1) := by
          simp [xObj]
        rw [hshape, List.foldlM_cons, h2, insertAll_fresh hps]
        show List.foldlM _ _ _ = _
        rw [h4 _ _ _ _ _ _ _ _ hps]

/-- The same reverse properties with the same values. -/
def SameRev (ps' ps : List (Id × List Node)) : Prop :=
  List.Forall₂ (fun a b => a.1 = b.1 ∧ PermRel (fun a b => Same (.node a) (.node b)) a.2 b.2) ps' ps

/-- All reverse properties. -/
theorem reverses_held {R : CRec} (hR : RecShown E X c R) : ∀ {r0 r : List (Id × List Node)},
    (∀ p ∈ r, Nameable E.toCompEnv c true p.1) → (∀ p ∈ r, NoTermWith c (.id p.1) .index) →
    (∀ p ∈ r, ∀ n ∈ p.2, PlacedObj E.toCompEnv c (.node n)) →
    ((r0 ++ r).map Prod.fst).Nodup →
    ∀ {es : List XEntry}, Keyed X c es → (∀ p ∈ r, .id p.1 ∉ es.map XEntry.term) → ((xObj es).map Prod.fst).Nodup → ∀ {m' : JMap},
    r.foldlM (fun m p => compactProperty E R c (.id p.1) true (p.2.map Obj.node) m) (xObj es) = .ok m' →
    ∃ es' r', m' = xObj (es ++ es') ∧ ((xObj (es ++ es')).map Prod.fst).Nodup ∧ (r ≠ [] → es' ≠ []) ∧ SameRev r' r ∧ (∀ e ∈ xObj es', AddsRev X c e) ∧
      ∀ x i ty g inc ps rv, rv.getD [] = r0 → (rv = none → r ≠ []) →
      (xObj es').foldlM (reverseStep X (unlimited X) c) ⟨.mk x i ty g inc ps rv, false⟩ =
        .ok ⟨.mk x i ty g inc ps (some (r0 ++ r')), false⟩ := by
  intro r0 r
  induction r generalizing r0 with
  | nil =>
    intro _ _ _ _ es _ _ hnd m' h
    cases h
    refine ⟨[], [], by simp, by simpa using hnd, fun h => absurd rfl h, .nil, nofun, ?_⟩
    intro x i ty g inc ps rv hrv hne
    cases rv with
    | none => exact absurd rfl (hne rfl)
    | some r =>
      cases hrv
      rw [List.append_nil]
      rfl
  | cons p r ih =>
    intro hn hx hi hd es hes hf hnd m' h
    rw [List.foldlM_cons] at h
    obtain ⟨m1, h1, h2⟩ := bindOk.1 h
    obtain ⟨e1, ns', rfl, ho1, hk1, hne1, hnd1, hs1, ha1, hst1⟩ := reverse_held H hR (hn p (by simp)) (hx p (by simp)) (hi p (by simp))
      hes (hf p (by simp)) hnd h1
    have hp0 : p.1 ∉ r0.map Prod.fst := by
      rw [List.map_append, List.nodup_append] at hd
      exact fun h => hd.2.2 _ h _ (by simp) rfl
    obtain ⟨es', r', rfl, hnd', -, hsr, ha', hs'⟩ := ih (r0 := r0 ++ [(p.1, ns')])
      (fun q hq => hn q (List.mem_cons_of_mem _ hq)) (fun q hq => hx q (List.mem_cons_of_mem _ hq))
      (fun q hq => hi q (List.mem_cons_of_mem _ hq)) (by simpa using hd) (hes.append hk1)
      (fun q hq => by
        rw [List.map_append, List.mem_append, not_or]
        refine ⟨hf q (List.mem_cons_of_mem _ hq), ho1.fresh ?_⟩
        simp only [List.mem_singleton, CTerm.id.injEq]
        intro heq
        rw [List.map_append, List.map_cons, List.nodup_append, List.nodup_cons] at hd
        exact hd.2.1.1 (List.mem_map.2 ⟨q, hq, heq⟩)) hnd1 h2
    refine ⟨e1 ++ es', (p.1, ns') :: r', by simp, by simpa using hnd', fun _ h => hne1 (List.append_eq_nil_iff.1 h).1,
      .cons ⟨rfl, hs1⟩ hsr, fun e he => ?_, ?_⟩
    · rw [xObj_append] at he
      exact (List.mem_append.1 he).elim (ha1 e) (ha' e)
    intro x i ty g inc ps rv hrv _
    rw [xObj_append, List.foldlM_append, hst1 _ _ _ _ _ _ _ (by rw [hrv]; exact hp0)]
    show List.foldlM _ _ _ = _
    rw [hs' _ _ _ _ _ _ (some _) (by rw [hrv]; rfl) nofun]
    simp

theorem reverseEntries_value (m : JMap) : ∀ (rr acc : JMap), ((acc ++ rr).map Prod.fst).Nodup →
    rr.foldlM (reverseEntry E c) (m, acc) = .ok (m, acc ++ rr) := by
  intro rr
  induction rr with
  | nil => intro acc _; rw [List.append_nil]; rfl
  | cons e rr ih =>
    intro acc hd
    rw [List.foldlM_cons]
    have hf : e.1 ∉ acc.map Prod.fst := by
      rw [List.map_append, List.nodup_append] at hd
      exact fun h => hd.2.2 _ h _ (by simp) rfl
    have : reverseEntry E c (m, acc) e = .ok (m, acc ++ [e]) := by
      unfold reverseEntry
      split
      · rename_i d hd
        rw [(get_value H.ctx hd).reverse, if_neg (by simp), jInsert_fresh hf]
      · rw [jInsert_fresh hf]
    rw [this]
    show List.foldlM _ _ _ = _
    rw [ih _ (by simpa using hd)]
    simp

/-- The same reverse properties in any order. -/
def SameRevs (ps' ps : List (Id × List Node)) : Prop :=
  PermRel (fun a b => a.1 = b.1 ∧ PermRel SameN a.2 b.2) ps' ps

omit H in
/-- What the entries of `@reverse` make when they are sorted. -/
theorem reverse_sorted {m : JMap} {r r' : List (Id × List Node)} (ha : ∀ e ∈ m, AddsRev X c e) (hne : m ≠ []) (hsr : SameRev r' r)
    (h : m.foldlM (reverseStep X (unlimited X) c) ⟨Node.blank, false⟩ = .ok ⟨.mk none none none none none [] (some r'), false⟩)
    (b : Bool) : ∃ r'', SameRevs r'' r ∧ ∀ x i ty g inc ps,
      (sortIf b Prod.fst m).foldlM (reverseStep X (unlimited X) c) ⟨.mk x i ty g inc ps none, false⟩ =
        .ok ⟨.mk x i ty g inc ps (some r''), false⟩ := by
  have hp := sortIf_perm b Prod.fst m
  obtain ⟨r'', hr⟩ := addsRev_fold (fun e he => ha e (hp.subset he)) none (fun _ h0 => hne (by
    have := hp.length_eq
    rw [h0] at this
    exact List.eq_nil_of_length_eq_zero this.symm))
  obtain ⟨t', h1, h2⟩ := reverse_reorder hp.symm ⟨rfl, sameN_empty⟩ h
  rw [show (⟨Node.blank, false⟩ : XState) = ⟨.mk none none none none none [] none, false⟩ from rfl, hr] at h1
  cases h1
  refine ⟨r'', ?_, hr⟩
  have hrel : NodeRel (.mk none none none none none [] (some r'')) (.mk none none none none none [] (some r')) :=
    same_rel h2.node.symm
  have h7 : PermRel (fun p q => p.1 = q.1 ∧ PermRel (fun x y => x.eq y = true) p.2 q.2) r'' r' := hrel.2.2.2.2.2.2
  have hw' : (Node.mk none none none none none [] (some r')).WF := (sameN_iff.1 h2.node).1
  have hw : (Node.mk none none none none none [] (some r'')).WF := (sameN_iff.1 h2.node).2.1
  have h8 : SameRevs r'' r' := h7.mono fun p hp q hq hr => ⟨hr.1, hr.2.mono fun x hx y hy he =>
    sameN_iff.2 ⟨(hw.rev rfl).2 p hp x hx, (hw'.rev rfl).2 q hq y hy, he⟩⟩
  exact h8.trans_of (.of_forall₂ hsr) fun a _ b _ c _ h h' => ⟨h.1.trans h'.1,
    h.2.trans_of h'.2 fun _ _ _ _ _ _ h h' => h.trans h'⟩

/-- The entry `@reverse`. -/
theorem reverse_part {R : CRec} (hR : RecShown E X c R) {n : Node} (ho : PlacedObj E.toCompEnv c (.node n)) {es : List XEntry}
    (hes : Keyed X c es) (hf : CTerm.keyword .reverse ∉ es.map XEntry.term) {s : ACtx × JMap}
    (h : compactReverse E R c n.rev (xObj es) = .ok s) :
    s.1 = c ∧ ∃ es' rv', s.2 = xObj (es ++ es') ∧ OptRel SameRevs rv' n.rev ∧ Only [.keyword .reverse] es' ∧
      ∀ x i ty g inc ps, KeySteps X c es' (.mk x i ty g inc ps none) (.mk x i ty g inc ps rv') := by
  unfold compactReverse at h
  cases hr : n.rev with
  | none =>
    rw [hr] at h
    cases h
    exact ⟨rfl, [], none, by simp, trivial, .nil _, fun _ _ _ _ _ _ => .nil _⟩
  | some r =>
    obtain ⟨hne, hnm⟩ := ho.placed.rev r hr
    have hwf : (r.map Prod.fst).Nodup := by
      have := ho.wf
      cases n with
      | mk _ _ _ _ _ _ r' => cases hr; exact this.2.2.2.2.1
    cases r with
    | nil => exact absurd rfl hne
    | cons p r =>
      rw [hr] at h
      dsimp only at h
      have hsc := cScoped_value H.ctx (some "@reverse".toList) c E.opts.proc.withOverride
      rw [show (some "@reverse".toList).bind c.get = c.get "@reverse".toList from rfl] at hsc
      obtain ⟨c1, hc1, hb⟩ := exBind_ok h
      rw [hsc] at hc1
      cases hc1
      clear h
      obtain ⟨m, h, rfl⟩ := exMap_ok hb
      clear hb
      refine ⟨rfl, ?_⟩
      unfold reverseIn at h
      obtain ⟨rr, h1, h⟩ := exBind_ok h
      obtain ⟨es', r', hrr, hnd, hne', hsr, hadds, hfold⟩ := reverses_held H hR (r0 := []) (fun p hp => (hnm p hp).1)
        (fun p hp => (hnm p hp).2) (fun p hp => ho.rev (placed_obj _ _) hr hp) hwf (es := []) nofun (by simp) (by simp [xObj]) h1
      rw [List.nil_append] at hrr hnd
      subst hrr
      rw [reverseEntries_value H (xObj es) (xObj es') [] hnd] at h
      simp only [Except.bind, List.nil_append] at h
      rw [if_neg (by simpa [xObj] using hne' (by simp))] at h
      obtain ⟨k, hk, rfl⟩ := exMap_ok h
      have hk := backKeys_round H.toBaseEnv _ _ hk
      obtain ⟨r'', hsr', hsorted⟩ := reverse_sorted hadds (by simpa [xObj] using hne' (by simp)) hsr
        (hfold none none none none none [] none rfl (by simp)) X.opts.ordered
      refine ⟨[⟨k, .keyword .reverse, .obj (xObj es')⟩], some r'', ?_, hsr', .one _ _ _, ?_⟩
      · show jInsert k _ (xObj es) = _
        rw [jInsert_fresh (keyed_fresh hes hk hf), xObj_append]
        rfl
      · intro x i ty g inc ps
        refine .keyword hk (by decide) rfl fun prop => ?_
        unfold keywordEntry keyReverse
        exact hsorted _ _ _ _ _ _

end

end JsonLd
