import Verif.Proofs.MapsItem
/-!
# The values of keys, up to equality
-/

namespace JsonLd
open Spec Props Relation

/-! ## Collections -/

/-- The compacted form `j` expands to an object equal to `o`. -/
structure Shown (X : XEnv) (c : ACtx) (prop : Option Str) (j : Json) (o : Obj) : Prop where
  notArray : NotArray j
  notNull : j.isNull = false
  expand : ∀ fm, ∃ o', expandElement X c prop j fm = .ok (.object o') ∧ Same o' o

theorem Shows.shown {X : XEnv} {c : ACtx} {key : Str} {j : Json} {o : Obj} (h : Shows X c key j o)
    (hi : (defContainer (c.get key)).contains .index = false) : Shown X c (some key) j o := by
  refine ⟨h.notArray, h.notNull, fun fm => ?_⟩
  obtain ⟨o', h1, h2⟩ := h.expand fm
  rw [hi] at h2
  exact ⟨o', h1, h2⟩

theorem Shown.shows {X : XEnv} {c : ACtx} {key : Str} {j : Json} {o : Obj} (h : Shown X c (some key) j o)
    (hi : (defContainer (c.get key)).contains .index = false) : Shows X c key j o := by
  refine ⟨h.notArray, h.notNull, fun fm => ?_⟩
  rw [hi]
  exact h.expand fm

theorem collection_forall {α : Type} {S : Json → α → Prop} {f : α → Except CompErr Json} {c : ACtx} {prop : Option Str}
    {o : CompOpts} {items : List α} {v : Json} (hS : ∀ v o, S v o → v.isNull = false)
    (hf : ∀ o ∈ items, ∀ v, f o = .ok v → S v o) (h : compactCollection f c prop o items = .ok v) :
    ∃ vs a, v = pack a vs ∧ List.Forall₂ S vs items := by
  unfold compactCollection at h
  obtain ⟨vs, h1, h⟩ := bindOk.1 h
  cases h
  refine ⟨vs, ?_⟩
  have : List.Forall₂ S vs items := by
    clear * - hS hf h1
    induction items generalizing vs with
    | nil => cases h1; exact .nil
    | cons o os ih =>
      unfold compactItems at h1
      obtain ⟨v, h2, h1⟩ := bindOk.1 h1
      obtain ⟨r, h3, h1⟩ := bindOk.1 h1
      have hb := hf o (by simp) v h2
      rw [hS _ _ hb] at h1
      cases h1
      exact .cons hb (ih (fun o ho => hf o (List.mem_cons_of_mem _ ho)) _ h3)
  unfold collect
  match vs with
  | [] => exact ⟨true, rfl, this⟩
  | [v] =>
    dsimp only
    split
    · exact ⟨true, rfl, this⟩
    · exact ⟨false, rfl, this⟩
  | _ :: _ :: _ => exact ⟨true, rfl, this⟩

theorem pack_force {vs : List Json} (h : ∀ v ∈ vs, NotArray v) (a : Bool) : forceArray (pack a vs) = vs := by
  match vs, h with
  | [], _ => rfl
  | [v], h =>
    cases a with
    | true => rfl
    | false =>
      show forceArray v = [v]
      have := h v (by simp)
      cases v with
      | arr l => exact absurd rfl (this l)
      | _ => rfl
  | _ :: _ :: _, _ => rfl

theorem pack_wrap {vs : List Json} (h : ∀ v ∈ vs, NotArray v) (a : Bool) : wrapArray (pack a vs) = .arr vs := by
  have := pack_force h a
  cases hp : pack a vs with
  | arr l => rw [hp] at this; rw [← this]; rfl
  | _ => rw [hp] at this; rw [← this]; rfl

theorem items_forall {X : XEnv} {c : ACtx} {prop : Option Str} {fm : Bool} {S : Obj → Obj → Prop} {vs : List Json} {os : List Obj}
    (h : List.Forall₂ (fun v o => ∃ o', expandElement X c prop v fm = .ok (.object o') ∧ S o' o) vs os) :
    ∃ os', xItems (unlimited X) c prop fm vs = .ok os' ∧ List.Forall₂ S os' os := by
  unfold xItems
  induction h with
  | nil => exact ⟨[], rfl, .nil⟩
  | cons h _ ih =>
    obtain ⟨o', h1, h2⟩ := h
    obtain ⟨os', h3, h4⟩ := ih
    refine ⟨o' :: os', ?_, .cons h2 h4⟩
    unfold collectM
    rw [show (unlimited X).elem c prop _ fm = _ from h1, h3]
    rfl

/-- The value of a key whose container is not `@list`. -/
theorem pack_forall {X : XEnv} {c : ACtx} {prop : Option Str} {fm : Bool} {S : Obj → Obj → Prop} {vs : List Json} {os : List Obj}
    (h : List.Forall₂ (fun v o => ∃ o', expandElement X c prop v fm = .ok (.object o') ∧ S o' o) vs os)
    (hl : (containerOf (prop.bind c.get)).contains .list = false) (a : Bool) :
    ∃ x, expandElement X c prop (pack a vs) fm = .ok x ∧ List.Forall₂ S x.toList os ∧ x.isNull = false := by
  obtain ⟨os', h1, h2⟩ := items_forall h
  have harr : expandElement X c prop (.arr vs) fm = .ok (.array os') := by
    rw [C49_unfold]
    show elemArr (unlimited X) c prop vs fm = _
    unfold elemArr
    rw [h1, hl]
    rfl
  match vs, os, h with
  | [], _, h => exact ⟨_, harr, h2, rfl⟩
  | [v], [o], h =>
    cases a with
    | true => exact ⟨_, harr, h2, rfl⟩
    | false =>
      cases h with
      | cons h _ =>
        obtain ⟨o', h3, h4⟩ := h
        exact ⟨.object o', h3, .cons h4 .nil, rfl⟩
  | _ :: _ :: _, _, h => exact ⟨_, harr, h2, rfl⟩

section
variable {E : CEnv} {X : XEnv} {c : ACtx} (H : MapEnv E X c)
include H

/-! ## Lists and graphs -/

/-- A list object. -/
theorem list_shown {kl ki : Str} {vs : List Json} {i : Option Str} {os : List Obj} {key : Str} (hg : key ≠ "@graph".toList)
    (hl : xKey X c kl = .ok (some (.keyword .list))) (hi : Keyed X c (indexX ki i))
    (hw : List.Forall₂ (Shown X c (some key)) vs os) :
    Shown X c (some key) (.obj (xObj (⟨kl, .keyword .list, .arr vs⟩ :: indexX ki i))) (.list i os) := by
  refine ⟨nofun, rfl, fun fm => ?_⟩
  have hk : Keyed X c (⟨kl, .keyword .list, .arr vs⟩ :: indexX ki i) := by
    intro e he
    rcases List.mem_cons.1 he with rfl | he
    · exact hl
    · exact hi e he
  obtain ⟨it, h1⟩ := plain_object H.vocab (value_calm H.ctx) (some key) fm hk (by
    intro e he
    rcases List.mem_cons.1 he with rfl | he
    · simp
    · unfold indexX at he
      cases i with
      | none => cases he
      | some s => rw [List.mem_singleton.1 he]; simp)
  rw [h1]
  have h2 : lastEntry .list (⟨kl, .keyword .list, .arr vs⟩ :: indexX ki i) = some (.arr vs) := by
    cases i <;> rfl
  obtain ⟨os', h3, h4⟩ := items_forall (hw.imp fun v o h => h.expand false)
  refine ⟨.list i os', ?_, same_list h4⟩
  unfold elemKind
  rw [noProp_key hg, h2]
  show elemList (unlimited X) c (some key) _ (.arr vs) = _
  unfold elemList
  rw [show forceArray (.arr vs) = vs from rfl, h3]
  cases i <;> rfl

omit H in
theorem optRel_isNone {α β : Type} {R : α → β → Prop} {a : Option α} {b : Option β} (h : OptRel R a b) :
    a.isNone = b.isNone := by
  cases a <;> cases b <;> first | rfl | exact h.elim

omit H in
theorem same_rel {a b : Node} (h : Same (.node a) (.node b)) : NodeRel a b := by
  have he := h.eq
  simp only [Obj.eq] at he
  exact (node_eq_iff h.wf' h.wf).1 he

omit H in
theorem rel_same {a b : Node} (ha : a.WF) (hb : b.WF) (h : NodeRel a b) : Same (.node a) (.node b) :=
  ⟨ha, hb, by simp only [Obj.eq]; exact (node_eq_iff ha hb).2 h⟩

omit H in
theorem same_empty {a b : Node} (h : Same (.node a) (.node b)) : a.isEmpty = b.isEmpty := by
  have h := same_rel h
  obtain ⟨h1, h2, h3, h4, h5, h6, h7⟩ := h
  cases a; cases b
  have hp := h6.length_eq
  simp only [Node.props] at hp
  have hp : ∀ {α β : Type} {x : List α} {y : List β}, x.length = y.length → x.isEmpty = y.isEmpty := by
    intro α β x y h
    cases x <;> cases y <;> first | rfl | cases h
  have g3 := optRel_isNone h3
  have g4 := optRel_isNone h4
  have g5 := optRel_isNone h5
  have g6 := hp h6.length_eq
  have g7 := optRel_isNone h7
  simp only [Node.types, Node.graph, Node.included, Node.props, Node.rev] at g3 g4 g5 g6 g7
  unfold Node.isEmpty
  simp only [g3, g4, g5, g6, g7]

omit H in
theorem says_same {a b : Obj} (h : Same a b) (hs : Says b) : Says a := by
  obtain ⟨n, rfl, hn⟩ := hs
  obtain ⟨m, rfl⟩ := same_node h
  refine ⟨m, rfl, ?_⟩
  rw [same_empty h, (same_rel h).1]
  exact hn

theorem Made.shown {j : Json} {n : Node} (h : Made X c j n) {prop : Option Str} (hr : prop ≠ some "@reverse".toList)
    (hs : noProp prop = true → Says (.node n)) : Shown X c prop j (.node n) := by
  obtain ⟨es, n', rfl, h1, h2⟩ := h
  exact ⟨nofun, rfl, fun fm => ⟨_, expand_steps H h1 hr (fun hn => says_same h2 (hs hn)) fm, h2⟩⟩

theorem steps_wf {es : List XEntry} {n : Node} (h : KeySteps X c es Node.blank n) : n.WF := by
  have := expand_steps H h (prop := some []) (by decide) (by rw [noProp_key (by decide)]; nofun) false
  exact element_wf this (.node n) (by simp [Expanded.toList])

theorem keyword_get (k : Keyword) : c.get k.intoStr = none := by
  cases h : c.get k.intoStr with
  | none => rfl
  | some d =>
    exact absurd ((C01_form _).1 (by cases k <;> decide)) (H.clean.terms _ d (get_lookup H.ctx h))

omit H in
theorem forall₂_asNodes {os' os : List Obj} (h : List.Forall₂ Same os' os) (hn : ∀ o ∈ os, ∃ n, o = .node n) :
    ∃ ns' : List Node, os' = ns'.map .node := by
  induction h with
  | nil => exact ⟨[], rfl⟩
  | @cons a b as bs h _ ih =>
    obtain ⟨ns', rfl⟩ := ih fun o ho => hn o (List.mem_cons_of_mem _ ho)
    obtain ⟨n, rfl⟩ := hn b (by simp)
    obtain ⟨m, rfl⟩ := same_node h
    exact ⟨m :: ns', rfl⟩

omit H in
theorem forall₂_pairwise {os' os : List Obj} (h : List.Forall₂ Same os' os) (hw : os.Pairwise fun a b => b.eq a = false) :
    os'.Pairwise fun a b => b.eq a = false := by
  induction h with
  | nil => exact .nil
  | @cons a b as bs h hs ih =>
    cases hw with
    | cons h1 h2 =>
      refine .cons (fun a' ha' => ?_) (ih h2)
      obtain ⟨b', hb', h3⟩ := forall₂_exists_right hs ha'
      cases hx : a'.eq a with
      | false => rfl
      | true =>
        have h4 : Same a' a := ⟨h3.wf', h.wf', hx⟩
        have := ((h3.symm.trans h4).trans h).eq
        rw [h1 b' hb'] at this
        cases this

/-- The entry `@graph`. -/
theorem graph_steps {k : Str} {vs : List Json} {os : List Obj} {a : Bool} (hk : xKey X c k = .ok (some (.keyword .graph)))
    (hv : List.Forall₂ (Shown X c (some "@graph".toList)) vs os) (hs : ∀ o ∈ os, Says o)
    (hw : os.Pairwise fun a b => b.eq a = false) :
    ∃ os', List.Forall₂ Same os' os ∧ ∀ x i ty inc ps rv,
      KeySteps X c [⟨k, .keyword .graph, pack a vs⟩] (.mk x i ty none inc ps rv) (.mk x i ty (some os') inc ps rv) := by
  have hget : (some "@graph".toList).bind c.get = none := keyword_get H .graph
  obtain ⟨x, h1, h2, -⟩ := pack_forall (hv.imp fun v o h => h.expand false) (by rw [hget]; rfl) a
  refine ⟨x.toList, h2, fun x' i ty inc ps rv => ?_⟩
  refine .keyword hk (by decide) rfl fun prop => ?_
  show keyGraph (unlimited X) c _ _ = _
  unfold keyGraph
  rw [show (unlimited X).elem c (some "@graph".toList) (pack a vs) false = _ from h1]
  simp only [Except.map]
  rw [List.filter_eq_self.2, setCollect_of_pairwise (forall₂_pairwise h2 hw)]
  · rfl
  · intro o ho
    obtain ⟨o', ho', h3⟩ := forall₂_exists_right h2 ho
    obtain ⟨n, rfl, -⟩ := hs o' ho'
    obtain ⟨m, rfl⟩ := same_node h3
    rfl

omit H in
theorem same_eq {os' os : List Obj} (h : List.Forall₂ Same os' os) : PermRel (fun x y => x.eq y = true) os' os :=
  .of_forall₂ (h.imp fun _ _ h => h.eq)

/-- The object for a graph. -/
theorem graph_made {n : Node} {v j : Json} (hg : n.isGraph = true) (hn : PlacedNode E.toCompEnv c n) (hw : n.WF)
    {vs : List Json} {a : Bool} (hv : v = pack a vs)
    (hvs : List.Forall₂ (Shown X c (some "@graph".toList)) vs (n.graph.getD []))
    (h : graphObject E c n v = .ok j) : Made X c j n := by
  unfold graphObject at h
  obtain ⟨k, hk, h⟩ := exBind_ok h
  obtain ⟨ei, hei, h⟩ := exBind_ok h
  obtain ⟨ex, hex, rfl⟩ := exMap_ok h
  obtain ⟨ki, rfl, hki⟩ := indexEntries_back H.toBaseEnv hex
  cases n with
  | mk x i ty g inc ps rv =>
    unfold Node.isGraph at hg
    simp only [Bool.and_eq_true, Option.isSome_iff_exists, Option.isNone_iff_eq_none, List.isEmpty_iff] at hg
    obtain ⟨⟨⟨⟨⟨g, rfl⟩, rfl⟩, rfl⟩, rfl⟩, rfl⟩ := hg
    have hgk := backKeys_round H.toBaseEnv _ _ hk
    obtain ⟨g', hg', h1⟩ := graph_steps H (a := a) hgk hvs (hn.graph _ rfl) hw.1.1
    have h1 := h1 none none none none [] none
    have h2 : ∃ es, ei = xObj es ∧ (es = [] ∨ ∃ k s, es = [⟨k, .keyword .id, .str s⟩]) ∧
        KeySteps X c es (.mk none none none (some g') none [] none) (.mk none i none (some g') none [] none) := by
      unfold graphId at hei
      cases i with
      | none => cases hei; exact ⟨[], rfl, .inl rfl, .nil _⟩
      | some i =>
        obtain ⟨k', hk', hei⟩ := exBind_ok hei
        obtain ⟨s, hs, rfl⟩ := exMap_ok hei
        obtain ⟨s, rfl, hs2⟩ := cIri_id H.toBaseEnv (hn.id i rfl) hs
        refine ⟨[⟨k', .keyword .id, .str s⟩], rfl, .inr ⟨_, _, rfl⟩, steps_id ?_ hs2⟩
        rw [idKey_plain H.keywords H.clean hk', xKey_kw]
    obtain ⟨es, rfl, hes, h2⟩ := h2
    have h3 := steps_index x hki (id := i) (ty := none) (g := some g') (inc := none) (ps := []) (rv := none)
    have hall := (h1.append h2).append h3
    have : jObject ((k, v) :: (xObj es ++ xObj (indexX ki x))) =
        xObj ([⟨k, .keyword .graph, pack a vs⟩] ++ es ++ indexX ki x) := by
      rw [hv, xObj_append, xObj_append, List.append_assoc]
      refine jObject_nodup ?_
      have := keyed_nodup hall.keyed (by
        rcases hes with rfl | ⟨k, s, rfl⟩ <;> cases x <;> simp [indexX])
      rw [xObj_append, xObj_append, List.append_assoc] at this
      exact this
    refine ⟨_, _, congrArg Json.obj this, hall, rel_same (steps_wf H hall) hw ?_⟩
    exact ⟨rfl, rfl, trivial, same_eq hg', trivial, .refl_of nofun, trivial⟩

/-- Members of graphs. -/
theorem member_shown {R : CRec} (hR : RecShown E X c R) {key : Str} (hi : (defContainer (c.get key)).contains .index = false)
    {o : Obj} (ho : PlacedObj E.toCompEnv c o) (hs : Says o) {v : Json} (h : R c c (some key) o = .ok v) :
    Shown X c (some "@graph".toList) v o := by
  obtain ⟨n, rfl, hs'⟩ := hs
  refine Made.shown H ((hR.node _ _ _ ho h).made H hi ?_) (by decide) fun _ => ⟨n, rfl, hs'⟩
  rintro k i - rfl
  exfalso
  rcases hs' with h | h
  · cases h
  · exact h rfl

end

end JsonLd
