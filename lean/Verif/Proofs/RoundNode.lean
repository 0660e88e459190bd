import Verif.Proofs.RoundTrip
/-!
# Expanding compacted nodes
-/

namespace JsonLd
open Spec Props Relation

/-! ## Parts of objects -/

section
variable {env : CompEnv} {c : ACtx}

theorem carried_node {m : Node} (hw : m.WF) (h : ∀ y, ReflTransGen PartL y (.node m) → CarriedItem env c y) :
    Carried env c (.node m) := by
  refine ⟨hw, fun y hy => ?_⟩
  rcases hy.cases_tail with h1 | ⟨z, h1, h2⟩
  · rw [← h1]; exact ⟨nofun, nofun⟩
  · cases h2 with
    | part h2 => cases h2 with | self => exact h y h1

theorem Carried.at (h : Carried env c (.node n)) (y : Item) (hy : ReflTransGen PartL y (.node n)) :
    CarriedItem env c y := h.items y (hy.tail (.part (.self n)))

theorem Carried.item {i : Option Str} {l : List Obj} (h : Carried env c (.list i l)) : ∀ o ∈ l, Carried env c o :=
  fun o ho => ⟨objsWF_iff.1 (show objsWF l from h.wf) o ho, fun y hy => h.items y (hy.tail (.item ho))⟩

theorem Carried.graph {n : Node} (h : Carried env c (.node n)) {g : List Obj} (hg : n.graph = some g) :
    ∀ o ∈ g, Carried env c o := by
  intro o ho
  refine ⟨?_, fun y hy => h.at y (hy.tail (.part (.graph hg ho)))⟩
  cases n with
  | mk i id ty g' inc ps rv =>
    cases hg
    exact objsWF_iff.1 h.wf.1.2 o ho

theorem Carried.prop {n : Node} (h : Carried env c (.node n)) {p : Id × List Obj} (hp : p ∈ n.props) :
    ∀ o ∈ p.2, Carried env c o := by
  intro o ho
  refine ⟨?_, fun y hy => h.at y (hy.tail (.part (.property hp ho)))⟩
  cases n with
  | mk i id ty g' inc ps rv => exact psWF_iff.1 h.wf.2.2.2.1 p hp o ho

theorem Carried.included {n : Node} (h : Carried env c (.node n)) {l : List Node} (hl : n.included = some l) :
    ∀ m ∈ l, Carried env c (.node m) := by
  intro o ho
  refine carried_node ?_ fun y hy => h.at y (hy.tail (.part (.included hl ho)))
  cases n with
  | mk i id ty g' inc ps rv =>
    cases hl
    exact nodesWF_iff.1 h.wf.2.1.2 o ho

theorem Carried.rev {n : Node} (h : Carried env c (.node n)) {r : List (Id × List Node)} (hr : n.rev = some r)
    {p : Id × List Node} (hp : p ∈ r) : ∀ m ∈ p.2, Carried env c (.node m) := by
  intro o ho
  refine carried_node ?_ fun y hy => h.at y (hy.tail (.part (.reverse hr hp ho)))
  cases n with
  | mk i id ty g' inc ps rv =>
    cases hr
    exact rpsWF_iff.1 h.wf.2.2.2.2.2 p hp o ho

end

/-! ## Entries -/

section
variable {X : XEnv} {c : ACtx}

theorem Keyed.append {a b : List XEntry} (ha : Keyed X c a) (hb : Keyed X c b) : Keyed X c (a ++ b) := by
  intro e he
  rcases List.mem_append.1 he with he | he
  · exact ha e he
  · exact hb e he

theorem xObj_append (a b : List XEntry) : xObj (a ++ b) = xObj a ++ xObj b := by simp [xObj]

theorem keyed_fresh {es : List XEntry} (h : Keyed X c es) {k : Str} {t : CTerm} (hk : xKey X c k = .ok (some t))
    (ht : t ∉ es.map XEntry.term) : k ∉ (xObj es).map Prod.fst := by
  intro hm
  obtain ⟨x, hx, rfl⟩ := List.mem_map.1 hm
  obtain ⟨e, he, rfl⟩ := List.mem_map.1 hx
  have := h e he
  rw [hk] at this
  simp only [Except.ok.injEq, Option.some.injEq] at this
  exact ht (List.mem_map.2 ⟨e, he, this.symm⟩)

theorem keyed_nodup {es : List XEntry} (h : Keyed X c es) (hn : (es.map XEntry.term).Nodup) :
    ((xObj es).map Prod.fst).Nodup := by
  induction es with
  | nil => simp [xObj]
  | cons e es ih =>
    have ht : Keyed X c es := fun x hx => h x (List.mem_cons_of_mem _ hx)
    simp only [List.map_cons, List.nodup_cons] at hn
    show (e.key :: (xObj es).map Prod.fst).Nodup
    rw [List.nodup_cons]
    exact ⟨keyed_fresh ht (h e (by simp)) hn.1, ih ht hn.2⟩

/-- The entry for an index. -/
def indexX (k : Str) (i : Option Str) : List XEntry := (i.map fun s => ⟨k, .keyword .index, .str s⟩).toList

/-- Expanding the entries changes the node from `a` to `b`. -/
structure KeySteps (X : XEnv) (c : ACtx) (es : List XEntry) (a b : Node) : Prop where
  keyed : Keyed X c es
  terms : ∀ e ∈ es, e.term ≠ .keyword .context ∧ e.term ≠ .keyword .list ∧ e.term ≠ .keyword .set ∧
    e.term ≠ .keyword .value
  fold : ∀ prop, prop ≠ some "@reverse".toList →
    es.foldlM (entryStep X (unlimited X) c c prop) ⟨a, false⟩ = .ok ⟨b, false⟩

theorem KeySteps.nil (a : Node) : KeySteps X c [] a a := ⟨nofun, nofun, fun _ _ => rfl⟩

theorem KeySteps.append {es es' : List XEntry} {a b d : Node} (h : KeySteps X c es a b) (h' : KeySteps X c es' b d) :
    KeySteps X c (es ++ es') a d := by
  refine ⟨h.keyed.append h'.keyed, fun e he => ?_, fun prop hp => ?_⟩
  · rcases List.mem_append.1 he with he | he
    · exact h.terms e he
    · exact h'.terms e he
  · rw [List.foldlM_append, h.fold prop hp]
    exact h'.fold prop hp

/-- A step with a keyword. -/
theorem KeySteps.keyword {k : Keyword} {key : Str} {v : Json} {a b : Node} (hk : xKey X c key = .ok (some (.keyword k)))
    (hx : k ≠ .context ∧ k ≠ .list ∧ k ≠ .set ∧ k ≠ .value) (hn : a.hasKeyword k = false)
    (h : ∀ prop, keywordEntry X (unlimited X) c c prop key k v ⟨a, false⟩ = .ok ⟨b, false⟩) :
    KeySteps X c [⟨key, .keyword k, v⟩] a b := by
  refine ⟨fun e he => by rw [List.mem_singleton.1 he]; exact hk, fun e he => ?_, fun prop hp => ?_⟩
  · rw [List.mem_singleton.1 he]
    simpa using hx
  · rw [List.foldlM_cons]
    have : entryStep X (unlimited X) c c prop ⟨a, false⟩ ⟨key, .keyword k, v⟩ =
        keywordEntry X (unlimited X) c c prop key k v ⟨a, false⟩ := by
      unfold entryStep
      cases k <;> first
        | exact absurd rfl hx.1
        | (simp only [hn, Bool.and_false, if_neg hp, Bool.false_eq_true, if_false])
    rw [this, h prop]
    rfl

theorem steps_index {k : Str} (i : Option Str) (hk : Keyed X c (indexX k i)) {id ty g inc ps rv} :
    KeySteps X c (indexX k i) (.mk none id ty g inc ps rv) (.mk i id ty g inc ps rv) := by
  cases i with
  | none => exact .nil _
  | some s => exact .keyword (hk ⟨k, .keyword .index, .str s⟩ (by simp [indexX])) (by decide) rfl fun _ => rfl

theorem steps_id {k s : Str} {i : Id} (hk : xKey X c k = .ok (some (.keyword .id)))
    (hs : expandIri X.toIriEnv c (some (.ofStr s)) true none = .ok (some (.id i))) {x ty g inc ps rv} :
    KeySteps X c [⟨k, .keyword .id, .str s⟩] (.mk x none ty g inc ps rv) (.mk x (some i) ty g inc ps rv) := by
  refine .keyword hk (by decide) rfl fun _ => ?_
  show keyId X c (.str s) _ = _
  unfold keyId xIri
  simp only [hs]
  rfl

end

/-! ## Lists and graphs -/

section
variable {E : CEnv} {X : XEnv} {c : ACtx} (H : RoundEnv E X c)
include H

omit H in
theorem indexEntries_back (H : BaseEnv E X c) {i : Option Str} {ei : JMap} (h : indexEntries E c i = .ok ei) :
    ∃ k, ei = xObj (indexX k i) ∧ Keyed X c (indexX k i) := by
  unfold indexEntries at h
  cases i with
  | none => cases h; exact ⟨[], rfl, nofun⟩
  | some s =>
    obtain ⟨k, hk, rfl⟩ := exMap_ok h
    refine ⟨k, rfl, fun e he => ?_⟩
    rw [List.mem_singleton.1 he]
    exact backKeys_round H _ _ hk

omit H in
theorem listIndex_back (i0 : Option Str) (k : Str) (i : Option Str) :
    listIndex i0 (indexX k i) = .ok (if i.isSome then i else i0) := by
  cases i <;> rfl

/-- A list object. -/
theorem list_back {kl ki : Str} {w : Json} {i : Option Str} {os : List Obj}
    (hl : xKey X c kl = .ok (some (.keyword .list))) (hi : Keyed X c (indexX ki i))
    (hw : List.Forall₂ (Back X c) (forceArray w) os) :
    Back X c (.obj (xObj (⟨kl, .keyword .list, w⟩ :: indexX ki i))) (.list i os) := by
  refine ⟨nofun, rfl, fun prop fm hp hs => ?_⟩
  have hn : noProp prop = false := by
    cases hn : noProp prop with
    | false => rfl
    | true => obtain ⟨n, h, -⟩ := hs hn; cases h
  have hk : Keyed X c (⟨kl, .keyword .list, w⟩ :: indexX ki i) := by
    intro e he
    rcases List.mem_cons.1 he with rfl | he
    · exact hl
    · exact hi e he
  obtain ⟨it, h1⟩ := plain_object H.vocab (plain_calm H.plain) prop fm hk (by
    intro e he
    rcases List.mem_cons.1 he with rfl | he
    · simp
    · unfold indexX at he
      cases i with
      | none => cases he
      | some s => rw [List.mem_singleton.1 he]; simp)
  rw [h1]
  have h2 : lastEntry .list (⟨kl, .keyword .list, w⟩ :: indexX ki i) = some w := by
    cases i <;> rfl
  unfold elemKind
  rw [hn, h2]
  show elemList (unlimited X) c prop _ w = _
  unfold elemList
  rw [items_back hw hp (by rw [hn]; nofun)]
  cases i <;> rfl

omit H in
theorem compactItems_back {R : CRec} (hR : RecBack E X c R) {prop : Option Str} {items : List Obj} {vs : List Json}
    (hi : ∀ o ∈ items, Carried E.toCompEnv c o) (h : compactItems (R c c prop) items = .ok vs) :
    List.Forall₂ (Back X c) vs items := by
  induction items generalizing vs with
  | nil => cases h; exact .nil
  | cons o os ih =>
    unfold compactItems at h
    obtain ⟨v, h1, h⟩ := bindOk.1 h
    obtain ⟨r, h2, h⟩ := bindOk.1 h
    have hb := hR prop o v (hi o (by simp)) h1
    rw [hb.notNull] at h
    cases h
    exact .cons hb (ih (fun o ho => hi o (List.mem_cons_of_mem _ ho)) h2)

omit H in
theorem collection_back {R : CRec} (hR : RecBack E X c R) {prop p : Option Str} {o : CompOpts} {items : List Obj} {v : Json}
    (hi : ∀ o ∈ items, Carried E.toCompEnv c o) (h : compactCollection (R c c prop) c p o items = .ok v) :
    ∃ vs a, v = pack a vs ∧ List.Forall₂ (Back X c) vs items := by
  unfold compactCollection at h
  obtain ⟨vs, h1, h⟩ := bindOk.1 h
  cases h
  refine ⟨vs, ?_⟩
  have := compactItems_back hR hi h1
  unfold collect
  match vs with
  | [] => exact ⟨true, rfl, this⟩
  | [v] =>
    dsimp only
    split
    · exact ⟨true, rfl, this⟩
    · exact ⟨false, rfl, this⟩
  | _ :: _ :: _ => exact ⟨true, rfl, this⟩

omit H in
theorem wrap_pack {vs : List Json} {os : List Obj} (h : List.Forall₂ (Back X c) vs os) (a : Bool) :
    wrapArray (pack a vs) = .arr vs := by
  have := back_force h a
  cases hp : pack a vs with
  | arr l => rw [hp] at this; rw [← this]; rfl
  | _ => rw [hp] at this; rw [← this]; rfl

omit H in
/-- An object whose entries make up a node. -/
theorem steps_back (H : BaseEnv E X c) (hc : CalmCtx c) {es : List XEntry} {n : Node} (h : KeySteps X c es Node.blank n) : Back X c (.obj (xObj es)) (.node n) := by
  refine ⟨nofun, rfl, fun prop fm hp hs => ?_⟩
  obtain ⟨it, h1⟩ := plain_object H.vocab hc prop fm h.keyed fun e he => (h.terms e he).1
  rw [h1]
  unfold elemKind
  rw [lastEntry_none fun e he => (h.terms e he).2.1, lastEntry_none fun e he => (h.terms e he).2.2.1,
    lastEntry_none fun e he => (h.terms e he).2.2.2]
  simp only [ite_self]
  unfold expandNode entriesBody
  rw [show (⟨.mk none none none none none [] none, false⟩ : XState) = ⟨Node.blank, false⟩ from rfl, h.fold prop hp]
  show Except.ok (nodeResult prop ⟨n, false⟩) = _
  unfold nodeResult
  rw [if_neg (by simp)]
  by_cases hn : noProp prop = true
  · obtain ⟨m, hm, hm2⟩ := hs hn
    cases hm
    rw [if_neg]
    rcases hm2 with h | h
    · simp [h]
    · simp [h]
  · rw [if_neg (by simp [hn])]

/-- The entry `@graph`. -/
theorem steps_graph {k : Str} {vs : List Json} {os : List Obj} {a : Bool} (hk : xKey X c k = .ok (some (.keyword .graph)))
    (hv : List.Forall₂ (Back X c) vs os) (hs : ∀ o ∈ os, Says o) (hw : os.Pairwise fun a b => b.eq a = false)
    {x i ty inc ps rv} : KeySteps X c [⟨k, .keyword .graph, pack a vs⟩] (.mk x i ty none inc ps rv)
      (.mk x i ty (some os) inc ps rv) := by
  refine .keyword hk (by decide) rfl fun prop => ?_
  show keyGraph (unlimited X) c _ _ = _
  unfold keyGraph
  obtain ⟨x, h1, h2, -⟩ := pack_back H hv a (prop := some "@graph".toList) (by decide) (fun _ => hs) false
  rw [show (unlimited X).elem c (some "@graph".toList) (pack a vs) false = _ from h1]
  simp only [Except.map]
  rw [h2, List.filter_eq_self.2, setCollect_of_pairwise hw]
  · rfl
  · intro o ho
    obtain ⟨n, rfl, -⟩ := hs o ho
    rfl

omit H in
theorem cIri_some {t : CTerm} (ht : t ≠ .null) {b : Bool} {s : Option Str} (h : cIri E c t b = .ok s) : ∃ s', s = some s' := by
  unfold cIri compactIriPlain at h
  rw [if_neg ht] at h
  split at h
  · exact ⟨_, (Except.ok.inj h).symm⟩
  · obtain ⟨s, -, rfl⟩ := exMap_ok h
    exact ⟨s, rfl⟩

omit H in
theorem cIri_id (H : BaseEnv E X c) {i : Id} (hi : Nameable E.toCompEnv c false i) {s : Option Str} (h : cIri E c (.id i) false = .ok s) :
    ∃ s', s = some s' ∧ expandIri X.toIriEnv c (some (.ofStr s')) true none = .ok (some (.id i)) := by
  obtain ⟨s, rfl⟩ := cIri_some (by simp) h
  refine ⟨s, rfl, ?_⟩
  have := C35_plain_partial E.toCompEnv H.iris H.facts c H.clean i hi.kind hi.valid false false E.opts hi.clear s h
  rw [H.env]
  exact this

/-- The object for a graph. -/
theorem graph_back {n : Node} {v j : Json} (hg : n.isGraph = true) (hn : CarriedNode E.toCompEnv c n) (hw : n.WF)
    {vs : List Json} {a : Bool} (hv : v = pack a vs) (hvs : List.Forall₂ (Back X c) vs (n.graph.getD []))
    (h : graphObject E c n v = .ok j) : Back X c j (.node n) := by
  unfold graphObject at h
  obtain ⟨k, hk, h⟩ := exBind_ok h
  obtain ⟨ei, hei, h⟩ := exBind_ok h
  obtain ⟨ex, hex, rfl⟩ := exMap_ok h
  obtain ⟨ki, rfl, hki⟩ := indexEntries_back H.toBaseEnv hex
  cases n with
  | mk x i ty g inc ps rv =>
    unfold Node.isGraph at hg
    simp only [Bool.and_eq_true, Option.isSome_iff_exists, Option.isNone_iff_eq_none, List.isEmpty_iff] at hg
    obtain ⟨⟨⟨⟨⟨g, rfl⟩, rfl⟩, rfl⟩, rfl⟩, rfl⟩ := hg
    have hgk := backKeys_round H.toBaseEnv _ _ hk
    have h1 := steps_graph H (a := a) hgk hvs (hn.graph _ rfl) hw.1.1 (x := none) (i := none) (ty := none) (inc := none)
      (ps := []) (rv := none)
    have h2 : ∃ es, ei = xObj es ∧ (es = [] ∨ ∃ k s, es = [⟨k, .keyword .id, .str s⟩]) ∧
        KeySteps X c es (.mk none none none (some g) none [] none) (.mk none i none (some g) none [] none) := by
      unfold graphId at hei
      cases i with
      | none => cases hei; exact ⟨[], rfl, .inl rfl, .nil _⟩
      | some i =>
        obtain ⟨k', hk', hei⟩ := exBind_ok hei
        obtain ⟨s, hs, rfl⟩ := exMap_ok hei
        obtain ⟨s, rfl, hs2⟩ := cIri_id H.toBaseEnv (hn.id i rfl) hs
        refine ⟨[⟨k', .keyword .id, .str s⟩], rfl, .inr ⟨_, _, rfl⟩, steps_id ?_ hs2⟩
        rw [idKey_plain H.keywords H.clean hk', xKey_kw]
    obtain ⟨es, rfl, hes, h2⟩ := h2
    have h3 := steps_index x hki (id := i) (ty := none) (g := some g) (inc := none) (ps := []) (rv := none)
    have hall := (h1.append h2).append h3
    have : jObject ((k, v) :: (xObj es ++ xObj (indexX ki x))) =
        xObj ([⟨k, .keyword .graph, pack a vs⟩] ++ es ++ indexX ki x) := by
      rw [hv, xObj_append, xObj_append, List.append_assoc]
      refine jObject_nodup ?_
      have := keyed_nodup hall.keyed (by
        rcases hes with rfl | ⟨k, s, rfl⟩ <;> cases x <;> simp [indexX])
      rw [xObj_append, xObj_append, List.append_assoc] at this
      exact this
    show Back X c (.obj (jObject ((k, v) :: (xObj es ++ xObj (indexX ki x))))) _
    rw [this]
    exact steps_back H.toBaseEnv (plain_calm H.plain) hall

/-- One value of a property, compacted. -/
def itemJson (E : CEnv) (R : CRec) (c : ACtx) (key : Str) (o : Obj) : Except CompErr Json :=
  match o with
  | .list i l => (compactCollection (R c c (some key)) c (some key) E.opts l).bind fun v =>
      (cKey E c .list).bind fun kl => (indexEntries E c i).map fun ei => .obj (jObject ((kl, wrapArray v) :: ei))
  | .node n =>
    if n.isGraph then (compactCollection (R c c (some key)) c (some key) E.opts (n.graph.getD [])).bind (graphObject E c n)
    else R c c (some key) (.node n)
  | .value i x => R c c (some key) (.value i x)

omit H in
theorem propertyItem_plain (hc : PlainCtx c) (R : CRec) (key : Str) (o : Obj) (m : JMap) :
    propertyItem E R c key o m = (itemJson E R c key o).bind fun v => addValue m key v (asArray E c key) := by
  have hd : defContainer (c.get key) = .none := defContainer_plain hc (some key)
  have hadd : ∀ o v, addItem E R c key o v m = addValue m key v (asArray E c key) := by
    intro o v
    unfold addItem
    rw [hd]
    rfl
  unfold propertyItem itemJson
  cases o with
  | value i x => simp only [hadd]
  | list i l =>
    dsimp only
    unfold propertyList
    simp only [hd, contains_none, Bool.false_eq_true, if_false]
    cases compactCollection (R c c (some key)) c (some key) E.opts l with
    | error e => rfl
    | ok v =>
      show Except.bind (cKey E c .list) _ = Except.bind (Except.bind (cKey E c .list) _) _
      cases cKey E c .list with
      | error e => rfl
      | ok kl =>
        show Except.bind (indexEntries E c i) _ = Except.bind (Except.map _ (indexEntries E c i)) _
        cases indexEntries E c i <;> rfl
  | node n =>
    dsimp only
    split
    · unfold propertyGraph
      cases compactCollection (R c c (some key)) c (some key) E.opts (n.graph.getD []) with
      | error e => rfl
      | ok v =>
        show addGraph E c key n v m = _
        unfold addGraph
        rw [hd]
        rfl
    · simp only [hadd]

theorem itemJson_back {R : CRec} (hR : RecBack E X c R) {key : Str} {o : Obj} {j : Json} (ho : Carried E.toCompEnv c o)
    (h : itemJson E R c key o = .ok j) : Back X c j o := by
  unfold itemJson at h
  cases o with
  | value i x => exact hR _ _ _ ho h
  | list i l =>
    dsimp only at h
    obtain ⟨v, h1, h⟩ := exBind_ok h
    obtain ⟨kl, h2, h⟩ := exBind_ok h
    obtain ⟨ei, h3, rfl⟩ := exMap_ok h
    obtain ⟨vs, a, rfl, hvs⟩ := collection_back hR ho.item h1
    obtain ⟨ki, rfl, hki⟩ := indexEntries_back H.toBaseEnv h3
    have hkl := backKeys_round H.toBaseEnv _ _ h2
    rw [wrap_pack hvs]
    have := list_back H (w := .arr vs) hkl hki hvs
    rw [show (kl, Json.arr vs) :: xObj (indexX ki i) = xObj (⟨kl, .keyword .list, .arr vs⟩ :: indexX ki i) from rfl,
      jObject_nodup]
    · exact this
    · refine keyed_nodup (X := X) (c := c) ?_ (by cases i <;> simp [indexX])
      intro e he
      rcases List.mem_cons.1 he with rfl | he
      · exact hkl
      · exact hki e he
  | node n =>
    dsimp only at h
    split at h
    · rename_i hg
      obtain ⟨v, h1, h⟩ := exBind_ok h
      have hgr : ∀ o ∈ n.graph.getD [], Carried E.toCompEnv c o := by
        cases hx : n.graph with
        | none => nofun
        | some g => exact ho.graph hx
      obtain ⟨vs, a, hv, hvs⟩ := collection_back hR hgr h1
      exact graph_back H hg ((ho.at _ .refl).node n rfl) ho.wf hv hvs h
    · exact hR _ _ _ ho h

end

end JsonLd
