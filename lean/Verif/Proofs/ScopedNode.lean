import Verif.Proofs.ScopedBack
/-!
# Expanding compacted nodes with scoped contexts
-/

namespace JsonLd.Sc
open JsonLd Spec Props Relation

section
variable {E : CEnv} {X : XEnv} {c : ACtx}

/-- Expansion of an object whose entries are known, once its contexts are. -/
theorem object_at (hv : X.opts.vocab = .keep) {c0 tsc c : ACtx} {prop : Option Str} {es : List XEntry} {fm : Bool}
    (h0 : objContext X c0 prop (xObj es) fm = .ok tsc)
    (hty : ∀ tes, typeEntries X tsc (xObj es) = .ok tes → typeScoped X tsc tes = .ok c) (hk : Keyed X c es) :
    ∃ it, expandElement X c0 prop (.obj (xObj es)) fm = elemKind X (unlimited X) c tsc prop it es := by
  obtain ⟨tes, htes⟩ := typeEntries_keep hv tsc (xObj es)
  obtain ⟨it, hit⟩ := inputType_keep hv c tes
  refine ⟨it, ?_⟩
  rw [C49_unfold]
  show elemObj .. = _
  unfold elemObj
  rw [h0]
  show (typeEntries X tsc _).bind _ = _
  rw [htes]
  show (typeScoped X tsc _).bind _ = _
  rw [hty tes htes]
  show (inputType X c _).bind _ = _
  rw [hit]
  show (xEntries X c _).bind _ = _
  rw [xEntries_keyed hk]
  rfl

theorem no_context (c c' : ACtx) {es : List XEntry} (hk : Keyed X c es) (hx : ∀ e ∈ es, e.term ≠ .keyword .context) :
    localContext X c' (xObj es) = .ok c' := by
  unfold localContext
  have : (xObj es).filter (fun e => decide (e.1 = "@context".toList)) = [] := by
    rw [List.filter_eq_nil_iff]
    intro x hx'
    obtain ⟨e, he, rfl⟩ := List.mem_map.1 hx'
    simp only [decide_eq_true_eq]
    intro h1
    have h2 := hk e he
    rw [show e.key = Keyword.context.intoStr from h1, xKey_kw] at h2
    simp only [Except.ok.injEq, Option.some.injEq] at h2
    exact hx e he h2.symm
  rw [this]

/-- The entries for `@type`. -/
theorem typeEntries_alias {tsc : ACtx} (hv : X.opts.vocab = .keep) (hal : SameAliases X tsc c) {es : List XEntry}
    (hk : Keyed X c es) : typeEntries X tsc (xObj es) =
      .ok (sortByKey Prod.fst (xObj (es.filter fun e => decide (e.term = .keyword .type)))) := by
  unfold typeEntries
  have : collectM (fun e => (xKey X tsc e.1).map fun t => if t = some (.keyword .type) then [e] else []) (xObj es) =
      .ok (xObj (es.filter fun e => decide (e.term = .keyword .type))) := by
    induction es with
    | nil => rfl
    | cons e es ih =>
      show collectM _ ((e.key, e.value) :: xObj es) = _
      unfold collectM
      rw [ih fun x hx => hk x (List.mem_cons_of_mem _ hx)]
      obtain ⟨t, ht⟩ := xKey_keep hv tsc e.key
      have h0 := hk e (by simp)
      rw [ht]
      by_cases he : e.term = .keyword .type
      · rw [he] at h0
        have := (xKey_alias hal e.key .type).2 h0
        rw [ht] at this
        cases this
        simp [he, Except.map, Except.bind, xObj]
      · have hne : t ≠ some (.keyword .type) := by
          rintro rfl
          have := (xKey_alias hal e.key .type).1 ht
          rw [h0] at this
          simp only [Except.ok.injEq, Option.some.injEq] at this
          exact he this
        simp [he, hne, Except.map, Except.bind]
  rw [this]
  rfl

theorem noTypes_scoped {tsc : ACtx} {es : List XEntry} (hv : X.opts.vocab = .keep) (hal : SameAliases X tsc tsc) (hk : Keyed X tsc es)
    (hx : ∀ e ∈ es, e.term ≠ .keyword .type) (tes) (h : typeEntries X tsc (xObj es) = .ok tes) :
    typeScoped X tsc tes = .ok tsc := by
  rw [typeEntries_alias hv hal hk, List.filter_eq_nil_iff.2 (by simpa using hx)] at h
  cases h
  rfl

theorem same_refl (c : ACtx) : SameAliases X c c := fun _ _ => Iff.rfl

/-- Objects without types where no scoped context applies. -/
theorem calm_object (hv : X.opts.vocab = .keep) (hp : c.previous = none) {prop : Option Str} (hs : NoScope c prop)
    {es : List XEntry} (hk : Keyed X c es) (hx : ∀ e ∈ es, e.term ≠ .keyword .context ∧ e.term ≠ .keyword .type) :
    ∃ it, expandElement X c prop (.obj (xObj es)) false = elemKind X (unlimited X) c c prop it es := by
  refine object_at hv ?_ (noTypes_scoped hv (same_refl c) hk fun e he => (hx e he).2) hk
  obtain ⟨r, hr⟩ := prelim_keep hv c (xObj es)
  unfold objContext
  rw [hr]
  show (scopedCtx X (prop.bind c.get) (revert c _ false r) _).bind _ = _
  have h2 : revert c (xObj es) false r = c := by unfold revert; rw [hp]
  have h3 : scopedCtx X (prop.bind c.get) c X.opts.proc.withOverride = .ok c := scope_scoped (over := true) (.none c hs)
  rw [h2, h3]
  exact no_context c c hk fun e he => (hx e he).1

/-- A list object. -/
theorem list_at (H : NamedEnv E X c) (hp : c.previous = none) {prop : Option Str} (hs : NoScope c prop)
    (hn : noProp prop = false) {kl ki : Str} {w : Json} {i : Option Str} {os : List Obj}
    (hl : xKey X c kl = .ok (some (.keyword .list))) (hi : Keyed X c (indexX ki i))
    (hw : List.Forall₂ (BackAt X c prop) (forceArray w) os) :
    BackAt X c prop (.obj (xObj (⟨kl, .keyword .list, w⟩ :: indexX ki i))) (.list i os) := by
  refine ⟨nofun, rfl, ?_⟩
  have hk : Keyed X c (⟨kl, .keyword .list, w⟩ :: indexX ki i) := by
    intro e he
    rcases List.mem_cons.1 he with rfl | he
    · exact hl
    · exact hi e he
  obtain ⟨it, h1⟩ := calm_object H.vocab hp hs hk (by
    intro e he
    rcases List.mem_cons.1 he with rfl | he
    · simp
    · unfold indexX at he
      cases i with
      | none => cases he
      | some s => rw [List.mem_singleton.1 he]; simp)
  rw [h1]
  have h2 : lastEntry .list (⟨kl, .keyword .list, w⟩ :: indexX ki i) = some w := by
    cases i <;> rfl
  unfold elemKind
  rw [hn, h2]
  show elemList (unlimited X) c prop _ w = _
  unfold elemList
  rw [items_at hw]
  cases i <;> rfl

/-! ## Nodes -/

/-- Expanding the entries gives the node. -/
structure NodeSteps (X : XEnv) (c tsc : ACtx) (es : List XEntry) (n : Node) : Prop where
  keyed : Keyed X c es
  terms : ∀ e ∈ es, e.term ≠ .keyword .context ∧ e.term ≠ .keyword .list ∧ e.term ≠ .keyword .set ∧
    e.term ≠ .keyword .value
  fold : ∀ prop, prop ≠ some "@reverse".toList →
    es.foldlM (entryStep X (unlimited X) c tsc prop) ⟨Node.blank, false⟩ = .ok ⟨n, false⟩

/-- The type-scoped context matters only for types (and `@nest`). -/
theorem KeySteps.other {es : List XEntry} {a b : Node} (h : KeySteps X c es a b)
    (hx : ∀ e ∈ es, e.term ≠ .keyword .type ∧ e.term ≠ .keyword .nest) (tsc : ACtx) {prop : Option Str}
    (hp : prop ≠ some "@reverse".toList) :
    es.foldlM (entryStep X (unlimited X) c tsc prop) ⟨a, false⟩ = .ok ⟨b, false⟩ := by
  rw [← h.fold prop hp]
  have : ∀ (st : XState), es.foldlM (entryStep X (unlimited X) c tsc prop) st =
      es.foldlM (entryStep X (unlimited X) c c prop) st := by
    clear h
    induction es with
    | nil => intro st; rfl
    | cons e es ih =>
      intro st
      rw [List.foldlM_cons, List.foldlM_cons]
      have h1 : entryStep X (unlimited X) c tsc prop st e = entryStep X (unlimited X) c c prop st e := by
        have h2 := hx e (by simp)
        unfold entryStep
        cases ht : e.term with
        | null => rfl
        | id p => rfl
        | keyword k =>
          rw [ht] at h2
          cases k <;> first | rfl | exact absurd rfl h2.1 | exact absurd rfl h2.2
      rw [h1]
      cases entryStep X (unlimited X) c c prop st e with
      | error e => rfl
      | ok st' => exact ih (fun e he => hx e (List.mem_cons_of_mem _ he)) st'
  exact this _

/-- An object whose entries make up a node, in the contexts given. -/
theorem kind_node {tsc : ACtx} {es : List XEntry} {n : Node} (h : NodeSteps X c tsc es n) {prop : Option Str}
    (hp : prop ≠ some "@reverse".toList) (hs : noProp prop = true → Says (.node n)) (it : Option CTerm) :
    elemKind X (unlimited X) c tsc prop it es = .ok (.object (.node n)) := by
  unfold elemKind
  rw [lastEntry_none fun e he => (h.terms e he).2.1, lastEntry_none fun e he => (h.terms e he).2.2.1,
    lastEntry_none fun e he => (h.terms e he).2.2.2]
  simp only [ite_self]
  unfold expandNode entriesBody
  rw [show (⟨.mk none none none none none [] none, false⟩ : XState) = ⟨Node.blank, false⟩ from rfl, h.fold prop hp]
  show Except.ok (nodeResult prop ⟨n, false⟩) = _
  unfold nodeResult
  rw [if_neg (by simp)]
  by_cases hn : noProp prop = true
  · obtain ⟨m, hm, hm2⟩ := hs hn
    cases hm
    rw [if_neg]
    rcases hm2 with h | h
    · simp [h]
    · simp [h]
  · rw [if_neg (by simp [hn])]

/-- The entry `@graph`. -/
theorem steps_graph_at (H : NamedEnv E X c) {k : Str} {vs : List Json} {os : List Obj} {a : Bool}
    (hk : xKey X c k = .ok (some (.keyword .graph)))
    (hv : List.Forall₂ (BackAt X c (some "@graph".toList)) vs os) (hs : ∀ o ∈ os, Says o)
    (hw : os.Pairwise fun a b => b.eq a = false)
    {x i ty inc ps rv} : KeySteps X c [⟨k, .keyword .graph, pack a vs⟩] (.mk x i ty none inc ps rv)
      (.mk x i ty (some os) inc ps rv) := by
  refine .keyword hk (by decide) rfl fun prop => ?_
  show keyGraph (unlimited X) c _ _ = _
  unfold keyGraph
  obtain ⟨x, h1, h2, -⟩ := pack_at H.named hv a
  rw [show (unlimited X).elem c (some "@graph".toList) (pack a vs) false = _ from h1]
  simp only [Except.map]
  rw [h2, List.filter_eq_self.2, setCollect_of_pairwise hw]
  · rfl
  · intro o ho
    obtain ⟨n, rfl, -⟩ := hs o ho
    rfl

/-- The object for a graph. -/
theorem graph_at (H : NamedEnv E X c) (hp : c.previous = none) {prop : Option Str} (hsc : NoScope c prop)
    (hpr : prop ≠ some "@reverse".toList) {n : Node} (hsays : noProp prop = true → Says (.node n)) {v j : Json}
    (hg : n.isGraph = true) (hid : ∀ i, n.id = some i → Nameable E.toCompEnv c false i)
    (hgr : ∀ g, n.graph = some g → ∀ o ∈ g, Says o) (hw : n.WF) {vs : List Json} {a : Bool} (hv : v = pack a vs)
    (hvs : List.Forall₂ (BackAt X c (some "@graph".toList)) vs (n.graph.getD []))
    (h : graphObject E c n v = .ok j) : BackAt X c prop j (.node n) := by
  unfold graphObject at h
  obtain ⟨k, hk, h⟩ := exBind_ok h
  obtain ⟨ei, hei, h⟩ := exBind_ok h
  obtain ⟨ex, hex, rfl⟩ := exMap_ok h
  obtain ⟨ki, rfl, hki⟩ := indexEntries_back H.toBaseEnv hex
  cases n with
  | mk x i ty g inc ps rv =>
    unfold Node.isGraph at hg
    simp only [Bool.and_eq_true, Option.isSome_iff_exists, Option.isNone_iff_eq_none, List.isEmpty_iff] at hg
    obtain ⟨⟨⟨⟨⟨g, rfl⟩, rfl⟩, rfl⟩, rfl⟩, rfl⟩ := hg
    have hgk := backKeys_round H.toBaseEnv _ _ hk
    have h1 := steps_graph_at H (a := a) hgk hvs (hgr _ rfl) hw.1.1 (x := none) (i := none) (ty := none) (inc := none)
      (ps := []) (rv := none)
    have h2 : ∃ es, ei = xObj es ∧ (es = [] ∨ ∃ k s, es = [⟨k, .keyword .id, .str s⟩]) ∧
        KeySteps X c es (.mk none none none (some g) none [] none) (.mk none i none (some g) none [] none) := by
      unfold graphId at hei
      cases i with
      | none => cases hei; exact ⟨[], rfl, .inl rfl, .nil _⟩
      | some i =>
        obtain ⟨k', hk', hei⟩ := exBind_ok hei
        obtain ⟨s, hs, rfl⟩ := exMap_ok hei
        obtain ⟨s, rfl, hs2⟩ := cIri_id H.toBaseEnv (hid i rfl) hs
        refine ⟨[⟨k', .keyword .id, .str s⟩], rfl, .inr ⟨_, _, rfl⟩, steps_id ?_ hs2⟩
        rw [idKey_plain H.keywords H.clean hk', xKey_kw]
    obtain ⟨es, rfl, hes, h2⟩ := h2
    have h3 := steps_index x hki (id := i) (ty := none) (g := some g) (inc := none) (ps := []) (rv := none)
    have hall := (h1.append h2).append h3
    have : jObject ((k, v) :: (xObj es ++ xObj (indexX ki x))) =
        xObj ([⟨k, .keyword .graph, pack a vs⟩] ++ es ++ indexX ki x) := by
      rw [hv, xObj_append, xObj_append, List.append_assoc]
      refine jObject_nodup ?_
      have := keyed_nodup hall.keyed (by
        rcases hes with rfl | ⟨k, s, rfl⟩ <;> cases x <;> simp [indexX])
      rw [xObj_append, xObj_append, List.append_assoc] at this
      exact this
    show BackAt X c prop (.obj (jObject ((k, v) :: (xObj es ++ xObj (indexX ki x))))) _
    rw [this]
    refine ⟨nofun, rfl, ?_⟩
    obtain ⟨it, h4⟩ := calm_object H.vocab hp hsc hall.keyed (by
      rcases hes with rfl | ⟨k, s, rfl⟩ <;> cases x <;> simp [indexX])
    rw [h4]
    exact kind_node ⟨hall.keyed, hall.terms, fun p hp => hall.fold p hp⟩ hpr hsays it

end

end JsonLd.Sc
