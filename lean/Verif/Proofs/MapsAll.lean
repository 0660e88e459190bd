import Verif.Proofs.MapsGraph
/-!
# Objects added under keys
-/

namespace JsonLd
open Spec Props Relation

/-- The container of a map of graphs. -/
def isGraphMap (k : Container) : Bool := k.contains .graph && (k.contains .id || k.contains .index)

/-- The compacted form `v` under the key stands for the only member of the graph `o`. -/
def ShowsMember (X : XEnv) (c : ACtx) (key : Str) (v : Json) (o : Obj) : Prop :=
  ∃ m, o = graphNode (.node m) ∧ Shown X c (some key) v (.node m)

/-- The value `w` of the key holds the objects `os`. -/
def Holds (X : XEnv) (c : ACtx) (key : Str) (w : Json) (os : List Obj) : Prop :=
  if isMapContainer (defContainer (c.get key)) || isGraphMap (defContainer (c.get key)) then
    Mapped (fun key => Packed (InMap X c key)) key w os
  else if (defContainer (c.get key)).contains .graph then Packed (ShowsMember X c) key w os
  else if (defContainer (c.get key)).contains .list then
    ∃ vs l, w = .arr vs ∧ os = [.list none l] ∧ List.Forall₂ (Shown X c (some key)) vs l
  else Packed (Shows X c) key w os

theorem addsTo_bind {α : Type} {H : Str → Json → List Obj → Prop} {x : Except CompErr α} {f : α → JMap → Except CompErr JMap}
    {k : Str} {o : Obj} {os : List Obj} (h : ∀ v, x = .ok v → AddsTo H (f v) k o os) :
    AddsTo H (fun m => x.bind fun v => f v m) k o os := by
  cases x with
  | ok v => exact h v rfl
  | error e => exact ⟨fun _ _ _ h => (by cases h), fun _ _ _ _ _ _ _ _ _ h => (by cases h)⟩

theorem AddsTo.congr {H H' : Str → Json → List Obj → Prop} {op op' : JMap → Except CompErr JMap}
    {k : Str} {o : Obj} {os : List Obj} (h : AddsTo H op k o os) (hop : ∀ m, op' m = op m)
    (hH : ∀ w l, H' k w l ↔ H k w l) : AddsTo H' op' k o os := by
  refine ⟨fun a r ha hr => ?_, fun a b w l r ha hb hw hl hr => ?_⟩
  · rw [hop] at hr
    obtain ⟨w, h1, h2⟩ := h.fresh a r ha hr
    exact ⟨w, h1, (hH _ _).2 h2⟩
  · rw [hop] at hr
    obtain ⟨w', h1, h2⟩ := h.more a b w l r ha hb ((hH _ _).1 hw) hl hr
    exact ⟨w', h1, (hH _ _).2 h2⟩

section
variable {E : CEnv} {X : XEnv} {c : ACtx} (H : MapEnv E X c)
include H

omit H in
theorem holds_plain {key : Str} (h : defContainer (c.get key) = .set ∨ defContainer (c.get key) = .none) (w : Json) (l : List Obj) :
    Holds X c key w l ↔ Packed (Shows X c) key w l := by
  unfold Holds
  rcases h with h | h <;> rw [h] <;> exact Iff.rfl

omit H in
theorem holds_map {key : Str} (h : (isMapContainer (defContainer (c.get key)) || isGraphMap (defContainer (c.get key))) = true)
    (w : Json) (l : List Obj) : Holds X c key w l ↔ Mapped (fun key => Packed (InMap X c key)) key w l := by
  unfold Holds
  rw [if_pos h]

omit H in
/-- Lists under keys without the container `@list`. -/
theorem propertyList_eq {R : CRec} {key : Str} (hl : (defContainer (c.get key)).contains .list = false) (i : Option Str)
    (l : List Obj) (m : JMap) : propertyList E R c key i l m =
      (compactCollection (R c c (some key)) c (some key) E.opts l).bind fun v => (cKey E c .list).bind fun kl =>
        (indexEntries E c i).bind fun ei => addValue m key (.obj (jObject ((kl, wrapArray v) :: ei))) (asArray E c key) := by
  unfold propertyList
  simp only [hl, Bool.false_eq_true, if_false]

theorem item_shown {R : CRec} (hR : RecShown E X c R) {p : Id} {key : Str} (hk : xKey X c key = .ok (some (.id p)))
    (hi : (defContainer (c.get key)).contains .index = false)
    {i : Option Str} {l : List Obj} (ho : PlacedObj E.toCompEnv c (.list i l))
    (hc : ∀ j s, .value j (.langString s) ∈ l → ¬ Coerces c key) {v : Json}
    (h : compactCollection (R c c (some key)) c (some key) E.opts l = .ok v) :
    ∃ vs a, v = pack a vs ∧ List.Forall₂ (Shown X c (some key)) vs l := by
  have hg := key_notKeyword hk .graph
  have hr := key_notKeyword hk .reverse
  refine collection_forall (fun v o h => h.notNull) (fun o hol v hv => ?_) h
  have hpo := ho.item o hol
  cases o with
  | node n => exact ((hR.node _ _ _ hpo hv).shows H hg hr).shown hi
  | value j x =>
    refine (hR.value _ _ _ _ ((hpo.items _ .refl).value j x rfl).1 hg (fun s hs => ?_) hv).shown hi
    subst hs
    exact hc j s hol
  | list j l' => exact absurd ⟨j, l', rfl⟩ ((ho.items _ .refl).list i l rfl _ hol)

/-- Objects under keys with the container `@set` or none. -/
theorem plain_adds {R : CRec} (hR : RecShown E X c R) {p : Id} {key : Str} (hk : xKey X c key = .ok (some (.id p)))
    (hcont : defContainer (c.get key) = .set ∨ defContainer (c.get key) = .none) {o : Obj} (ho : PlacedObj E.toCompEnv c o)
    (hs : ∀ i s, o = .value i (.langString s) → ¬ Coerces c key)
    (hl : ∀ i l j s, o = .list i l → .value j (.langString s) ∈ l → ¬ Coerces c key) (os : List Obj) :
    AddsTo (Holds X c) (propertyItem E R c key o) key o os := by
  have hg := key_notKeyword hk .graph
  have hr := key_notKeyword hk .reverse
  have hi : (defContainer (c.get key)).contains .index = false := by rcases hcont with h | h <;> rw [h] <;> rfl
  have hli : (defContainer (c.get key)).contains .list = false := by rcases hcont with h | h <;> rw [h] <;> rfl
  have hm : isMapContainer (defContainer (c.get key)) = false := by rcases hcont with h | h <;> rw [h] <;> rfl
  have hgc : (defContainer (c.get key)).contains .graph = false := by rcases hcont with h | h <;> rw [h] <;> rfl
  have hadd : ∀ o v m, addItem E R c key o v m = addValue m key v (asArray E c key) := by
    intro o v m
    unfold addItem
    rw [hm]
    rfl
  have ok : ∀ {v : Json}, Shows X c key v o → ∀ b, AddsTo (Holds X c) (fun m => addValue m key v b) key o os := fun h b =>
    (addsTo_value (S := Shows X c) (fun _ _ _ h => h.notArray) h b os).congr (fun _ => rfl) (holds_plain hcont)
  cases o with
  | value i x =>
    refine AddsTo.congr (op := fun m => (R c c (some key) (.value i x)).bind fun v => addValue m key v (asArray E c key))
      (addsTo_bind (f := fun v m => addValue m key v (asArray E c key)) fun v hv => ok ?_ _) (fun m => ?_) fun _ _ => Iff.rfl
    · exact hR.value _ _ _ _ ((ho.items _ .refl).value i x rfl).1 hg (fun s h => by subst h; exact hs i s rfl) hv
    · simp only [propertyItem, hadd]
  | node n =>
    by_cases hgr : n.isGraph = true
    · have hf : ∀ m, propertyItem E R c key (.node n) m =
          (compactCollection (R c c (some key)) c (some key) E.opts (n.graph.getD [])).bind fun v =>
            (graphObject E c n v).bind fun j => addValue m key j (asArray E c key) := by
        intro m
        simp only [propertyItem, hgr, if_true]
        unfold propertyGraph addGraph
        simp only [hgc, Bool.false_and, Bool.false_eq_true, if_false]
      refine AddsTo.congr (addsTo_bind (f := fun v m => (graphObject E c n v).bind fun j => addValue m key j (asArray E c key))
        fun v hv => ?_) hf fun _ _ => Iff.rfl
      refine addsTo_bind (f := fun v m => addValue m key v (asArray E c key)) fun j hj => ok ?_ _
      have hsays : ∀ o ∈ n.graph.getD [], Says o ∧ PlacedObj E.toCompEnv c o := by
        intro o hog
        cases hng : n.graph with
        | none => rw [hng] at hog; cases hog
        | some g =>
          rw [hng] at hog
          exact ⟨ho.placed.graph g hng o hog, ho.graph hng o hog⟩
      obtain ⟨vs, a, hv, hvs⟩ := collection_forall (S := Shown X c (some "@graph".toList)) (fun v o h => h.notNull) (fun o hog v hv =>
        member_shown H hR hi (hsays o hog).2 (hsays o hog).1 hv) hv
      have := graph_made H hgr ho.placed ho.wf hv hvs hj
      exact (this.shown H (fun h => hr (Option.some.inj h)) (by rw [noProp_key hg]; nofun)).shows hi
    · refine AddsTo.congr (op := fun m => (R c c (some key) (.node n)).bind fun v => addValue m key v (asArray E c key))
        (addsTo_bind (f := fun v m => addValue m key v (asArray E c key)) fun v hv => ok ?_ _) (fun m => ?_) fun _ _ => Iff.rfl
      · exact (hR.node _ _ _ ho hv).shows H hg hr
      · simp only [propertyItem, hadd, hgr, Bool.false_eq_true, if_false]
  | list i l =>
    refine AddsTo.congr (addsTo_bind (f := fun v m => (cKey E c .list).bind fun kl =>
        (indexEntries E c i).bind fun ei => addValue m key (.obj (jObject ((kl, wrapArray v) :: ei))) (asArray E c key))
        fun v hv => ?_) (propertyList_eq hli i l) fun _ _ => Iff.rfl
    refine addsTo_bind (f := fun kl m =>
        (indexEntries E c i).bind fun ei => addValue m key (.obj (jObject ((kl, wrapArray v) :: ei))) (asArray E c key))
        fun kl hkl => ?_
    refine addsTo_bind (f := fun ei m => addValue m key (.obj (jObject ((kl, wrapArray v) :: ei))) (asArray E c key))
        fun ei hei => ok ?_ _
    obtain ⟨vs, a, rfl, hvs⟩ := item_shown H hR hk hi ho (fun j s => hl i l j s rfl) hv
    obtain ⟨ki, rfl, hki⟩ := indexEntries_back H.toBaseEnv hei
    have hkl := backKeys_round H.toBaseEnv _ _ hkl
    rw [pack_wrap (forall₂_left hvs fun _ _ h => h.notArray)]
    have := list_shown H hg hkl hki hvs
    rw [show (kl, Json.arr vs) :: xObj (indexX ki i) = xObj (⟨kl, .keyword .list, .arr vs⟩ :: indexX ki i) from rfl,
      jObject_nodup]
    · exact this.shows hi
    · refine keyed_nodup (X := X) (c := c) (fun e he => ?_) ?_
      · rcases List.mem_cons.1 he with rfl | he
        · exact hkl
        · exact hki e he
      · cases i <;> simp [indexX]

omit H in
/-- Objects in the map of a key. -/
theorem map_adds {R : CRec} {key : Str} (hm : isMapContainer (defContainer (c.get key)) = true) {o : Obj} {v : Json}
    (h : ∀ r mk, cMapItem E R c key o v = .ok r → mapKeyOr E c r.1 = .ok mk → InMap X c key mk r.2 o) (os : List Obj) :
    AddsTo (Holds X c) (addItem E R c key o v) key o os := by
  have never : ∀ f : JMap → Except CompErr JMap, (∀ m r, f m ≠ .ok r) →
      ∀ l, AddsTo (Packed (InMap X c key)) f [] o l := fun f hf l =>
    ⟨fun _ _ _ h => absurd h (hf _ _), fun _ _ _ _ _ _ _ _ _ h => absurd h (hf _ _)⟩
  have hm' : (isMapContainer (defContainer (c.get key)) || isGraphMap (defContainer (c.get key))) = true := by rw [hm]; rfl
  have hop : ∀ m, addItem E R c key o v m = inObject key m fun mo => (cMapItem E R c key o v).bind fun r =>
      (mapKeyOr E c r.1).bind fun mk => addValue mo mk r.2 (asArray E c key) := by
    intro m
    unfold addItem
    rw [if_pos hm]
  cases hr : cMapItem E R c key o v with
  | error e =>
    refine (addsTo_map (H := fun key => Packed (InMap X c key)) (mk := []) fun l _ => never _ ?_ l).congr hop (holds_map hm')
    intro m r
    rw [hr]
    exact nofun
  | ok r =>
    cases hmk : mapKeyOr E c r.1 with
    | error e =>
      refine (addsTo_map (H := fun key => Packed (InMap X c key)) (mk := []) fun l _ => never _ ?_ l).congr hop (holds_map hm')
      intro m r'
      rw [hr]
      show (mapKeyOr E c r.1).bind _ ≠ _
      rw [hmk]
      exact nofun
    | ok mk =>
      refine (addsTo_map (H := fun key => Packed (InMap X c key)) (mk := mk) fun l _ =>
        (addsTo_value (S := InMap X c key) (fun _ _ _ h => h.notArray) (h r mk hr hmk) (asArray E c key) l).congr ?_
          fun _ _ => Iff.rfl).congr hop (holds_map hm')
      intro m
      rw [hr]
      show (mapKeyOr E c r.1).bind _ = _
      rw [hmk]
      rfl

omit H in
theorem not_contains {k : Container} {x : ContainerKind} (h : x ∉ k.asSlice) : k.contains x = false := by
  simpa [Container.contains] using h

omit H in
theorem addsTo_never {HH : Str → Json → List Obj → Prop} {f : JMap → Except CompErr JMap} (hf : ∀ m r, f m ≠ .ok r)
    (k : Str) (o : Obj) (l : List Obj) : AddsTo HH f k o l :=
  ⟨fun _ _ _ h => absurd h (hf _ _), fun _ _ _ _ _ _ _ _ _ h => absurd h (hf _ _)⟩

omit H in
/-- A graph in the map of a key. -/
theorem graphMap_adds {key : Str} (hm : isGraphMap (defContainer (c.get key)) = true) {o : Obj} {w : Json} {a s : Bool}
    {x : Except CompErr Str} (h : ∀ mk, x = .ok mk → InMap X c key mk w o) (os : List Obj) :
    AddsTo (Holds X c) (fun m => inObject key m fun mo => x.bind fun mk => addValue mo mk (pack a [w]) s) key o os := by
  have hm' : (isMapContainer (defContainer (c.get key)) || isGraphMap (defContainer (c.get key))) = true := by
    rw [hm, Bool.or_true]
  cases x with
  | error e =>
    refine (addsTo_map (H := fun key => Packed (InMap X c key)) (mk := []) fun l _ => addsTo_never ?_ _ _ l).congr
      (fun _ => rfl) (holds_map hm')
    intro m r
    exact nofun
  | ok mk =>
    have hi := h mk rfl
    refine (addsTo_map (H := fun key => Packed (InMap X c key)) (mk := mk) fun l _ =>
      (addsTo_value (S := InMap X c key) (fun _ _ _ h => h.notArray) hi s l).congr ?_
        fun _ _ => Iff.rfl).congr (fun _ => rfl) (holds_map hm')
    intro m
    show addValue m mk (pack a [w]) s = _
    rw [addValue_pack hi.notArray]

/-- Graphs under terms with the container `@graph`. -/
theorem graph_adds {R : CRec} (hR : RecShown E X c R) {key : Str} (hg : key ≠ "@graph".toList) (hr : key ≠ "@reverse".toList)
    {n : Node} (hgr : n.isGraph = true) (ho : PlacedObj E.toCompEnv c (.node n))
    (hc : (defContainer (c.get key)).contains .graph = true) (hi : InGraphTerm (defContainer (c.get key)) n) (os : List Obj) :
    AddsTo (Holds X c) (propertyItem E R c key (.node n)) key (.node n) os := by
  have hop : ∀ m, propertyItem E R c key (.node n) m =
      (compactCollection (R c c (some key)) c (some key) E.opts (n.graph.getD [])).bind fun v => addGraph E c key n v m := by
    intro m
    simp only [propertyItem, hgr, if_true]
    rfl
  refine AddsTo.congr (addsTo_bind (f := fun v m => addGraph E c key n v m) fun v hv => ?_) hop fun _ _ => Iff.rfl
  by_cases hid : (defContainer (c.get key)).contains .id = true
  · have hk : defContainer (c.get key) = .graphId ∨ defContainer (c.get key) = .graphIdSet := by
      revert hc hid
      cases defContainer (c.get key) <;> simp [Container.contains, Container.asSlice]
    have hi' : n.index = none ∧ ∃ o, n.graph = some [o] ∧ o.isGraph = false := by
      rcases hk with hk | hk <;> rw [hk] at hi <;> exact hi
    obtain ⟨hx, o, hgm, hog⟩ := hi'
    obtain ⟨m, w, a, rfl, rfl, hs⟩ := graph_value H hR hg hr ho hgm (fun h => by
      rcases hk with hk | hk <;> rw [hk] at h <;> cases h) hv
    refine (graphMap_adds (a := a) (s := asArray E c key) (by rcases hk with hk | hk <;> rw [hk] <;> rfl)
      (fun mk hmk => graphId_inMap H hk ho.placed hgr hx hgm hog hs hmk) os).congr (fun m => ?_) fun _ _ => Iff.rfl
    unfold addGraph
    simp only [hc, hid, Bool.and_self, if_true]
  · have hid : (defContainer (c.get key)).contains .id = false := by simpa using hid
    by_cases hxx : (defContainer (c.get key)).contains .index = true
    · have hk : defContainer (c.get key) = .graphIndex ∨ defContainer (c.get key) = .graphIndexSet := by
        revert hc hxx
        cases defContainer (c.get key) <;> simp [Container.contains, Container.asSlice]
      have hi' : n.id = none ∧ ∃ o, n.graph = some [o] ∧ o.isGraph = false ∧ o.index = none := by
        rcases hk with hk | hk <;> rw [hk] at hi <;> exact hi
      obtain ⟨hx, o, hgm, hog, hoi⟩ := hi'
      obtain ⟨m, w, a, rfl, rfl, hs⟩ := graph_value H hR hg hr ho hgm (fun _ => hoi) hv
      refine (graphMap_adds (a := a) (s := asArray E c key) (x := .ok (n.index.getD "@none".toList))
        (by rcases hk with hk | hk <;> rw [hk] <;> rfl)
        (fun mk hmk => by cases hmk; exact graphIndex_inMap H hk ho.placed hgr hx hgm hog hs) os).congr (fun m => ?_) fun _ _ => Iff.rfl
      unfold addGraph
      have hsg : n.isSimpleGraph = true := by unfold Node.isSimpleGraph; rw [hx, hgr]; rfl
      simp only [hc, hid, hxx, hsg, Bool.and_false, Bool.false_eq_true, if_false, Bool.and_self, if_true]
      rfl
    · have hxx : (defContainer (c.get key)).contains .index = false := by simpa using hxx
      have hk : defContainer (c.get key) = .graph ∨ defContainer (c.get key) = .graphSet := by
        revert hc hxx hid
        cases defContainer (c.get key) <;> simp [Container.contains, Container.asSlice]
      have hi' : n.id = none ∧ n.index = none ∧ ∃ o, n.graph = some [o] := by
        rcases hk with hk | hk <;> rw [hk] at hi <;> exact hi
      obtain ⟨hx, hix, o, hgm⟩ := hi'
      obtain ⟨m, w, a, rfl, rfl, hs⟩ := graph_value H hR hg hr ho hgm (fun h => by rw [hxx] at h; cases h) hv
      have hnn := graph_one hgr hgm
      rw [hx, hix] at hnn
      have hsm : ShowsMember X c key w (.node n) := ⟨m, by rw [hnn]; rfl, hs⟩
      refine (addsTo_value (S := ShowsMember X c) (fun _ _ _ ⟨_, _, h⟩ => h.notArray) hsm (asArray E c key) os).congr
        (fun mo => ?_) fun w l => ?_
      · unfold addGraph
        have hsg : n.isSimpleGraph = true := by unfold Node.isSimpleGraph; rw [hx, hgr]; rfl
        simp only [hc, hid, hxx, hsg, Bool.and_false, Bool.false_and, Bool.false_eq_true, if_false, Bool.and_self, if_true]
        have : graphIncluded E c (pack a [w]) = .ok (pack a [w]) := by
          have hna := hs.notArray
          cases a with
          | true => rfl
          | false =>
            cases w with
            | arr l => exact absurd rfl (hna l)
            | _ => rfl
        rw [this]
        show addValue mo key (pack a [w]) _ = _
        rw [addValue_pack hs.notArray]
      · unfold Holds
        rw [if_neg, if_pos hc]
        rcases hk with hk | hk <;> rw [hk] <;> decide

/-- Any object under a key that fits. -/
theorem item_adds {R : CRec} (hR : RecShown E X c R) {p : Id} {key : Str} (hk : xKey X c key = .ok (some (.id p)))
    {o : Obj} (ho : PlacedObj E.toCompEnv c o) (hf : KeyFits E c (.id p) false o key) {os : List Obj}
    (hl : IsList o → NoTermWith c (.id p) .list ∨ ∀ o' ∈ os, ¬ IsList o')
    (hm : IsList o → NoTermWith c (.id p) .index)
    (hgm : ∀ g, o = .node g → g.isGraph = true → ∀ t d, c.get t = some d → d.value = some (.id p) → InGraphTerm d.container g)
    (hlm : ∀ v, o = .value none v → ∀ t d, c.get t = some d → d.value = some (.id p) → .language ∈ d.container.asSlice →
      InLanguageMap c t v) :
    AddsTo (Holds X c) (propertyItem E R c key o) key o os := by
  have hg := key_notKeyword hk .graph
  have hr := key_notKeyword hk .reverse
  have plain : defContainer (c.get key) = .set ∨ defContainer (c.get key) = .none →
      AddsTo (Holds X c) (propertyItem E R c key o) key o os := fun h =>
    plain_adds H hR hk h ho (fun i s h => hf.string i s h rfl) (fun i l j s h => hf.items i l j s h rfl) os
  cases o with
  | value i x =>
    obtain ⟨hv, hxi⟩ := (ho.items _ .refl).value i x rfl
    have shows : ∀ {v}, R c c (some key) (.value i x) = .ok v → Shows X c key v (.value i x) := fun hv' =>
      hR.value _ _ _ _ hv hg (fun s h => by subst h; exact hf.string i s rfl rfl) hv'
    rcases value_containers hf.container with h | ⟨h, rfl, h3⟩
    · simp only [List.mem_cons, List.not_mem_nil, or_false] at h
      rcases h with h | h | h | h
      · exact plain (.inl h)
      · exact plain (.inr h)
      all_goals
        refine addsTo_bind (f := fun v m => addItem E R c key (.value i x) v m) fun v hv' => map_adds (by rw [h]; rfl) ?_ os
        intro r mk h1 h2
        have hx : r = (i, v) := by
          unfold cMapItem at h1
          rw [h] at h1
          obtain ⟨ck, -, h1⟩ := exBind_ok h1
          have h1 : cIndexItem E c key (.value i x) v = .ok r := h1
          unfold cIndexItem at h1
          rw [index_value H.ctx] at h1
          exact (Except.ok.inj h1).symm
        subst hx
        exact index_inMap H (by rw [h]; rfl) (by rw [h]; rfl) (by rw [h]; rfl) (shows hv') hxi h2
    · have hlang : (defContainer (c.get key)).contains .language = true := by
        simp only [List.mem_cons, List.not_mem_nil, or_false] at h
        rcases h with h | h <;> rw [h] <;> rfl
      refine addsTo_bind (f := fun v m => addItem E R c key (.value none x) v m) fun v hv' => map_adds ?_ ?_ os
      · simp only [List.mem_cons, List.not_mem_nil, or_false] at h
        rcases h with h | h <;> rw [h] <;> rfl
      · intro r mk h1 h2
        have hx : r = cLangItem x := by
          unfold cMapItem mapKind at h1
          rw [hlang] at h1
          obtain ⟨ck, -, h1⟩ := exBind_ok h1
          exact (Except.ok.inj h1).symm
        subst hx
        exact lang_inMap H hlang hv (fun d hd hdc => by
          obtain ⟨d', hd', hdv⟩ := hf.term .language (by rw [hd]; exact hdc)
          rw [hd] at hd'
          cases hd'
          exact hlm x rfl key d hd hdv hdc) h3 h2
  | node n =>
    by_cases hgr : n.isGraph = true
    · have hcs := graph_containers hgr hf.container
      have hin : ∀ k, k ∈ (defContainer (c.get key)).asSlice → InGraphTerm (defContainer (c.get key)) n := by
        intro k hk
        obtain ⟨d, h1, h2⟩ := hf.term k hk
        rw [h1]
        exact hgm n rfl hgr key d h1 h2
      by_cases hgc : .graph ∈ (defContainer (c.get key)).asSlice
      · exact graph_adds H hR hg hr hgr ho (by simpa [Container.contains] using hgc) (hin _ hgc) os
      · rcases hcs with h | h | h | h | h | h | h | h | h | h
        · exact plain (.inl h)
        · exact plain (.inr h)
        iterate 6 exact absurd (by rw [h]; simp [Container.asSlice]) hgc
        all_goals
          have := hin .index (by rw [h]; simp [Container.asSlice])
          rw [h] at this
          exact this.elim
    · have hgr : n.isGraph = false := by simpa using hgr
      have hop : ∀ m, propertyItem E R c key (.node n) m = (R c c (some key) (.node n)).bind fun v =>
          addItem E R c key (.node n) v m := by
        intro m
        simp only [propertyItem, hgr, Bool.false_eq_true, if_false]
      have h := node_containers hgr hf.container
      simp only [List.mem_cons, List.not_mem_nil, or_false] at h
      rcases h with h | h | h | h | h | h | h | h
      · refine (addsTo_bind (f := fun v m => addItem E R c key (.node n) v m) fun v hv' =>
          map_adds (by rw [h]; rfl) ?_ os).congr hop fun _ _ => Iff.rfl
        intro r mk h1 h2
        unfold cMapItem at h1
        rw [h] at h1
        obtain ⟨ck, hck, h1⟩ := exBind_ok h1
        exact id_inMap H hr hg (.inl h) (hR.node _ _ _ ho hv') hck h1 h2
      · refine (addsTo_bind (f := fun v m => addItem E R c key (.node n) v m) fun v hv' =>
          map_adds (by rw [h]; rfl) ?_ os).congr hop fun _ _ => Iff.rfl
        intro r mk h1 h2
        unfold cMapItem at h1
        rw [h] at h1
        obtain ⟨ck, hck, h1⟩ := exBind_ok h1
        exact id_inMap H hr hg (.inr h) (hR.node _ _ _ ho hv') hck h1 h2
      · refine (addsTo_bind (f := fun v m => addItem E R c key (.node n) v m) fun v hv' =>
          map_adds (by rw [h]; rfl) ?_ os).congr hop fun _ _ => Iff.rfl
        intro r mk h1 h2
        unfold cMapItem at h1
        rw [h] at h1
        obtain ⟨ck, hck, h1⟩ := exBind_ok h1
        exact type_inMap H hr hg (.inl h) hR ho (hR.node _ _ _ ho hv') hck h1 h2
      · refine (addsTo_bind (f := fun v m => addItem E R c key (.node n) v m) fun v hv' =>
          map_adds (by rw [h]; rfl) ?_ os).congr hop fun _ _ => Iff.rfl
        intro r mk h1 h2
        unfold cMapItem at h1
        rw [h] at h1
        obtain ⟨ck, hck, h1⟩ := exBind_ok h1
        exact type_inMap H hr hg (.inr h) hR ho (hR.node _ _ _ ho hv') hck h1 h2
      · exact plain (.inl h)
      · exact plain (.inr h)
      all_goals
        refine (addsTo_bind (f := fun v m => addItem E R c key (.node n) v m) fun v hv' =>
          map_adds (by rw [h]; rfl) ?_ os).congr hop fun _ _ => Iff.rfl
        intro r mk h1 h2
        have hx : r = (n.index, v) := by
          unfold cMapItem at h1
          rw [h] at h1
          obtain ⟨ck, -, h1⟩ := exBind_ok h1
          have h1 : cIndexItem E c key (.node n) v = .ok r := h1
          unfold cIndexItem at h1
          rw [index_value H.ctx] at h1
          exact (Except.ok.inj h1).symm
        subst hx
        exact index_inMap H (by rw [h]; rfl) (by rw [h]; rfl) (by rw [h]; rfl) ((hR.node _ _ _ ho hv').shows H hg hr) ho.placed.index h2
  | list i l =>
    have hix := hf.kinds _ (hm ⟨i, l, rfl⟩)
    rcases list_containers hf.container hix with h | ⟨h, rfl⟩
    · exact plain (.inr h)
    · have hi : (defContainer (c.get key)).contains .index = false := not_contains hix
      have hH : ∀ w l, Holds X c key w l ↔ ∃ vs l', w = .arr vs ∧ l = [.list none l'] ∧ List.Forall₂ (Shown X c (some key)) vs l' := by
        intro w l
        unfold Holds
        rw [h]
        exact Iff.rfl
      have hop : ∀ m, propertyItem E R c key (.list none l) m =
          (compactCollection (R c c (some key)) c (some key) E.opts l).bind fun v => .ok (jInsert key (wrapArray v) m) := by
        intro m
        show propertyList E R c key none l m = _
        unfold propertyList
        rw [h]
        rfl
      refine (addsTo_bind (f := fun v m => .ok (jInsert key (wrapArray v) m)) fun v hv => ?_).congr hop fun _ _ => Iff.rfl
      refine ⟨fun a r ha hr => ?_, fun a b w l' r ha hb hw hll hr => ?_⟩
      · cases hr
        rw [jInsert_fresh ha]
        obtain ⟨vs, b, rfl, hvs⟩ := item_shown H hR hk hi ho (fun j s => hf.items none l j s rfl rfl) hv
        rw [pack_wrap (forall₂_left hvs fun _ _ h => h.notArray)]
        exact ⟨_, rfl, (hH _ _).2 ⟨vs, l, rfl, rfl, hvs⟩⟩
      · obtain ⟨vs, l2, rfl, rfl, -⟩ := (hH _ _).1 hw
        rcases hl ⟨none, l, rfl⟩ with h5 | h5
        · exact absurd (hf.kinds _ h5) (by rw [h]; simp [Container.asSlice])
        · exact absurd ⟨none, l2, rfl⟩ (h5 _ (hll (by simp)))

end

end JsonLd
