import Verif.Proofs.ScopedProp
/-!
# Expanding compacted nodes with scoped contexts: the whole node, lists and any nesting
-/

namespace JsonLd.Sc
open JsonLd Spec Props Relation

/-- The strings are the names of the types. -/
abbrev Names (E : CEnv) (c : ACtx) (ss : List Str) (ts : List Id) : Prop :=
  List.Forall₂ (fun s t => compactIriPlain E.toCompEnv c (.id t) true false E.opts = .ok (some s)) ss ts

section
variable {E : CEnv} {X : XEnv} {c : ACtx}

/-! ## Types -/

theorem typesM_names {ss : List Str} {ts : List Id} (h : Names E c ss ts) :
    ts.mapM (fun t => (cIri E c (.id t) true).map optStr) = .ok (ss.map .str) := by
  induction h with
  | nil => rfl
  | @cons s t ss ts h1 _ ih =>
    rw [List.mapM_cons]
    have : cIri E c (.id t) true = .ok (some s) := h1
    rw [this, ih]
    rfl

theorem typesJson_names {ss : List Str} {ts : List Id} (h : Names E c ss ts) {v : Json} (hv : typesJson E c ts = .ok v) :
    (∃ s, ss = [s] ∧ v = .str s) ∨ v = .arr (ss.map .str) := by
  unfold typesJson at hv
  split at hv
  · cases h with
    | cons h1 h2 =>
      cases h2
      have h1 : cIri E c _ true = .ok (some _) := h1
      rw [h1] at hv
      cases hv
      exact .inl ⟨_, rfl, rfl⟩
  · rw [typesM_names h] at hv
    cases hv
    exact .inr rfl

/-- The entry for types. -/
inductive TypeEntry (X : XEnv) (c : ACtx) (ss : List Str) : Option (List Id) → List XEntry → Prop
  | absent : TypeEntry X c ss none []
  | present (ts : List Id) (k : Str) (a : Bool) : xKey X c k = .ok (some (.keyword .type)) → ts ≠ [] →
      TypeEntry X c ss (some ts) [⟨k, .keyword .type, pack a (ss.map .str)⟩]

theorem types_entry (H : BaseEnv E X c) {c0 : ACtx} {ty : Option (List Id)} {ss : List Str} (hn : ty ≠ some [])
    (hs : Names E c0 ss (ty.getD [])) {es : List XEntry} (hes : Keyed X c es)
    (hf : CTerm.keyword .type ∉ es.map XEntry.term) {m' : JMap} (h : compactTypes E c c0 ty (xObj es) = .ok m') :
    ∃ e, m' = xObj (es ++ e) ∧ TypeEntry X c ss ty e := by
  unfold compactTypes at h
  cases ty with
  | none => cases h; exact ⟨[], by simp, .absent⟩
  | some ts =>
    cases ts with
    | nil => exact absurd rfl hn
    | cons t ts =>
      dsimp only at h
      obtain ⟨v, h1, h⟩ := exBind_ok h
      obtain ⟨k, h2, h⟩ := exBind_ok h
      have hk := backKeys_round H _ _ h2
      have hfr := keyed_fresh hes hk hf
      have hss : Names E c0 ss (t :: ts) := hs
      have hv := typesJson_names hss h1
      generalize ((decide (E.opts.mode = .v11) && (defContainer (c.get k)).contains .set) ||
        !E.opts.compactArrays) = a at h
      have hna : ∀ y ∈ ss.map Json.str, NotArray y := by
        intro y hy
        obtain ⟨s, -, rfl⟩ := List.mem_map.1 hy
        exact nofun
      have hm : m' = xObj es ++ [(k, pack a (ss.map .str))] := by
        rcases hv with ⟨s, rfl, rfl⟩ | rfl
        · rw [addValue_fresh hfr (by exact nofun)] at h
          exact (Except.ok.inj h).symm
        · rw [addArr_fresh hfr hna (by cases hss; simp)] at h
          exact (Except.ok.inj h).symm
      exact ⟨[⟨k, .keyword .type, pack a (ss.map .str)⟩], by rw [hm, xObj_append]; rfl, .present _ k a hk (by simp)⟩

theorem types_fold_at {tsc : ACtx} {x i g inc ps rv} {ss : List Str} {ts : List Id}
    (h : List.Forall₂ (IsType X tsc) ss ts) :
    ∀ {ty : Option (List Id)}, (ty = none → ts ≠ []) →
    (ss.map Json.str).foldlM (keyType1 X tsc) ⟨.mk x i ty g inc ps rv, false⟩ =
      .ok ⟨.mk x i (some (ty.getD [] ++ ts)) g inc ps rv, false⟩ := by
  induction h with
  | nil =>
    intro ty hty
    cases ty with
    | none => exact absurd rfl (hty rfl)
    | some l => simp [pure, Except.pure]
  | @cons s t ss ts hs _ ih =>
    intro ty _
    rw [List.map_cons, List.foldlM_cons]
    have : keyType1 X tsc ⟨.mk x i ty g inc ps rv, false⟩ (.str s) =
        .ok ⟨.mk x i (some (ty.getD [] ++ [t])) g inc ps rv, false⟩ := by
      unfold keyType1 xIri
      simp only [hs.expands]
      have h2 := hs.admitted
      cases t with
      | invalid s =>
        rcases h2 with h2 | h2
        · cases h2
        · simp only [Except.bind, h2]
          rfl
      | _ => rfl
    rw [this]
    show List.foldlM _ _ _ = _
    rw [ih (ty := some (ty.getD [] ++ [t])) (by simp)]
    simp

theorem TypeEntry.keyed {ss : List Str} {ty : Option (List Id)} {e : List XEntry} (h : TypeEntry X c ss ty e) :
    Keyed X c e := by
  cases h with
  | absent => exact nofun
  | present ts k a hk => exact fun e he => by rw [List.mem_singleton.1 he]; exact hk

theorem TypeEntry.only {ss : List Str} {ty : Option (List Id)} {e : List XEntry} (h : TypeEntry X c ss ty e) :
    Only [.keyword .type] e := by
  cases h with
  | absent => exact .nil _
  | present => exact .one _ _ _

theorem TypeEntry.fold {tsc : ACtx} {ss : List Str} {ty : Option (List Id)} {e : List XEntry} (h : TypeEntry X c ss ty e)
    (hs : List.Forall₂ (IsType X tsc) ss (ty.getD [])) {x i g inc ps rv} {prop : Option Str}
    (hp : prop ≠ some "@reverse".toList) :
    e.foldlM (entryStep X (unlimited X) c tsc prop) ⟨.mk x i none g inc ps rv, false⟩ =
      .ok ⟨.mk x i ty g inc ps rv, false⟩ := by
  cases h with
  | absent => rfl
  | present ts k a hk hne =>
    rw [List.foldlM_cons]
    have : entryStep X (unlimited X) c tsc prop ⟨.mk x i none g inc ps rv, false⟩
        ⟨k, .keyword .type, pack a (ss.map .str)⟩ = .ok ⟨.mk x i (some ts) g inc ps rv, false⟩ := by
      unfold entryStep
      dsimp only
      rw [if_neg hp, if_neg (by simp [Node.hasKeyword, Node.types])]
      show (forceArray (pack a (ss.map Json.str))).foldlM (keyType1 X tsc) _ = _
      rw [force_strings, types_fold_at hs (fun _ => hne)]
      rfl
    rw [this]
    rfl

/-! ## Other entries -/

theorem index_at (H : NamedEnv E X c) {prop : Option Str} {i : Option Str} {es : List XEntry} (hes : Keyed X c es)
    (hf : CTerm.keyword .index ∉ es.map XEntry.term) {m' : JMap} (h : addIndex E c prop i (xObj es) = .ok m') :
    ∃ k, m' = xObj (es ++ indexX k i) ∧ Keyed X c (indexX k i) := by
  unfold addIndex at h
  cases i with
  | none => cases h; exact ⟨[], by simp [indexX], nofun⟩
  | some i =>
    dsimp only at h
    rw [defContainer_named H.named, contains_none, if_neg (by simp)] at h
    obtain ⟨k, hk, rfl⟩ := exMap_ok h
    have hk := backKeys_round H.toBaseEnv _ _ hk
    refine ⟨k, ?_, fun e he => by rw [List.mem_singleton.1 he]; exact hk⟩
    rw [jInsert_fresh (keyed_fresh hes hk hf), xObj_append]
    rfl

theorem graph_in_at {R : CRec} (hR : RecAt E X R) (H : NamedEnv E X c) {n : Node} (hwf : (Obj.node n).WF)
    (hs : ∀ g, n.graph = some g → ∀ o ∈ g, Says o)
    (hc : ∀ g, n.graph = some g → ∀ o ∈ g, Carries E X c (some "@graph".toList) o) {es : List XEntry}
    (hes : Keyed X c es) (hf : CTerm.keyword .graph ∉ es.map XEntry.term) {m' : JMap}
    (h : compactOpt E R c .graph n.graph (xObj es) = .ok m') {x i ty inc ps rv} :
    Adds X c [.keyword .graph] es m' (.mk x i ty none inc ps rv) (.mk x i ty n.graph inc ps rv) := by
  unfold compactOpt at h
  cases hg : n.graph with
  | none => rw [hg] at h; cases h; exact .none _
  | some g =>
    rw [hg] at h
    obtain ⟨key, vs, a, hk, rfl, hvs⟩ := property_at hR H (by simp) (fun o s => keyword_with H.toBaseEnv)
      (fun _ => some "@graph".toList)
      (fun key hk => ⟨by rw [keyword_noScope H hk]; exact (graph_noScope H .graph).symm, by decide⟩) hes hf
      (fun o ho key _ => ⟨fun _ => hs g hg o ho, wf_graph hwf hg o ho, hc g hg o ho⟩) h
    refine ⟨_, rfl, steps_graph_at H hk hvs (hs g hg) ?_, .one _ _ _⟩
    cases n with
    | mk _ _ _ g' _ _ _ => cases hg; exact hwf.1.1

theorem included_at {R : CRec} (hR : RecAt E X R) (H : NamedEnv E X c) {n : Node} (hwf : (Obj.node n).WF)
    (hc : ∀ l, n.included = some l → ∀ m ∈ l, Carries E X c (some "@included".toList) (.node m)) {es : List XEntry}
    (hes : Keyed X c es) (hf : CTerm.keyword .included ∉ es.map XEntry.term) {m' : JMap}
    (h : compactOpt E R c .included (n.included.map fun l => l.map Obj.node) (xObj es) = .ok m') {x i ty g ps rv} :
    Adds X c [.keyword .included] es m' (.mk x i ty g none ps rv) (.mk x i ty g n.included ps rv) := by
  unfold compactOpt at h
  cases hg : n.included with
  | none => rw [hg] at h; cases h; exact .none _
  | some l =>
    rw [hg] at h
    obtain ⟨key, vs, a, hk, rfl, hvs⟩ := property_at hR H (by simp) (fun o s => keyword_with H.toBaseEnv)
      (fun _ => some "@included".toList)
      (fun key hk => ⟨by rw [keyword_noScope H hk]; exact (graph_noScope H .included).symm, by decide⟩) hes hf
      (fun o hl key _ => by
        obtain ⟨n', hn', rfl⟩ := List.mem_map.1 hl
        exact ⟨by rw [show noProp (some "@included".toList) = false from by decide]; nofun,
          wf_included hwf hg n' hn', hc l hg n' hn'⟩) h
    refine ⟨_, rfl, ?_, .one _ _ _⟩
    refine .keyword hk (by decide) rfl fun prop => ?_
    show keyIncluded X (unlimited X) c _ _ = _
    unfold keyIncluded
    rw [if_neg (by rw [H.mode]; decide)]
    obtain ⟨y, h1, h2, -⟩ := pack_at H.named hvs a
    rw [show (unlimited X).elem c (some "@included".toList) (pack a vs) false = _ from h1]
    simp only [Except.bind]
    rw [h2, asNodes_map]
    have hp : l.Pairwise fun a b => b.eq a = false := by
      cases n with
      | mk _ _ _ _ g' _ _ => cases hg; exact hwf.2.1.1
    have := setCollect_of_pairwise hp
    unfold setCollect at this
    show Except.ok _ = _
    simp only [Node.included, Option.getD_none, this]
    rfl

theorem reverseEntries_named (hc : NamedCtx c) (m : JMap) : ∀ (rr acc : JMap), ((acc ++ rr).map Prod.fst).Nodup →
    rr.foldlM (reverseEntry E c) (m, acc) = .ok (m, acc ++ rr) := by
  intro rr
  induction rr with
  | nil => intro acc _; rw [List.append_nil]; rfl
  | cons e rr ih =>
    intro acc hd
    rw [List.foldlM_cons]
    have hf : e.1 ∉ acc.map Prod.fst := by
      rw [List.map_append, List.nodup_append] at hd
      exact fun h => hd.2.2 _ h _ (by simp) rfl
    have : reverseEntry E c (m, acc) e = .ok (m, acc ++ [e]) := by
      unfold reverseEntry
      split
      · rename_i d hd
        rw [(get_named hc hd).reverse, if_neg (by simp), jInsert_fresh hf]
      · rw [jInsert_fresh hf]
    rw [this]
    show List.foldlM _ _ _ = _
    rw [ih _ (by simpa using hd)]
    simp

theorem reverse_at {R : CRec} (hR : RecAt E X R) (H : NamedEnv E X c) {n : Node} (hwf : (Obj.node n).WF)
    (hn : ∀ r, n.rev = some r → r ≠ [] ∧ ∀ p ∈ r, Nameable E.toCompEnv c true p.1)
    (hi : ∀ r, n.rev = some r → ∀ p ∈ r, ∀ m ∈ p.2, ∀ key, itemKey E c (.id p.1) true (.node m) = .ok (some key) →
      Carries E X c (some key) (.node m)) {es : List XEntry}
    (hes : Keyed X c es) (hf : CTerm.keyword .reverse ∉ es.map XEntry.term) {s : ACtx × JMap}
    (h : compactReverse E R c n.rev (xObj es) = .ok s) {x i ty g inc ps} :
    s.1 = c ∧ Adds X c [.keyword .reverse] es s.2 (.mk x i ty g inc ps none) (.mk x i ty g inc ps n.rev) := by
  unfold compactReverse at h
  cases hr : n.rev with
  | none => rw [hr] at h; cases h; exact ⟨rfl, .none _⟩
  | some r =>
    obtain ⟨hne, hnm⟩ := hn r hr
    have hnd : (r.map Prod.fst).Nodup := by
      cases n with
      | mk _ _ _ _ _ _ r' => cases hr; exact hwf.2.2.2.2.1
    cases r with
    | nil => exact absurd rfl hne
    | cons p r =>
      rw [hr] at h
      dsimp only at h
      obtain ⟨c1, hc1, hb⟩ := exBind_ok h
      have hc1' : c1 = c := by
        unfold cScoped at hc1
        split at hc1
        · rename_i d hd
          rw [keyword_unscoped H (xKey_kw .reverse) d hd] at hc1
          cases hc1; rfl
        · cases hc1; rfl
      subst hc1'
      clear h
      obtain ⟨m, h, rfl⟩ := exMap_ok hb
      clear hb
      refine ⟨rfl, ?_⟩
      unfold reverseIn at h
      obtain ⟨rr, h1, h⟩ := exBind_ok h
      obtain ⟨es', hrr, hk', hne', hterms, hfold⟩ := reverse_fold_at hR H (r0 := []) (rv := none) (x := x) (i := i) (ty := ty)
        (g := g) (inc := inc) (ps := ps) rfl (by simp) hnm (fun p hp => wf_rev hwf hr hp) (hi _ hr) hnd (es := []) nofun (by simp) h1
      rw [List.nil_append] at hrr
      subst hrr
      have hnd : ((xObj es').map Prod.fst).Nodup := by
        refine keyed_nodup hk' ?_
        rw [hterms]
        have := hnd.map (f := CTerm.id) (fun a b h => by injection h)
        rw [List.map_map] at this
        exact this
      rw [reverseEntries_named H.named (xObj es) (xObj es') [] hnd] at h
      simp only [Except.bind, List.nil_append] at h
      rw [if_neg (by simpa [xObj] using hne' (by simp))] at h
      obtain ⟨k, hk, rfl⟩ := exMap_ok h
      have hk := backKeys_round H.toBaseEnv _ _ hk
      refine ⟨[⟨k, .keyword .reverse, .obj (xObj es')⟩], ?_, ?_, .one _ _ _⟩
      · show jInsert k _ (xObj es) = _
        rw [jInsert_fresh (keyed_fresh hes hk hf), xObj_append]
        rfl
      · refine .keyword hk (by decide) rfl fun prop => ?_
        unfold keywordEntry keyReverse sortIf
        simp only [H.sorted.2, Bool.false_eq_true, if_false]
        exact hfold

/-! ## The whole node -/

/-- The entries of a compacted node. -/
theorem node_entries {R : CRec} (hR : RecAt E X R) {c0 c1 : ACtx} {p' prop : Option Str} {n : Node} {ss : List Str}
    (hwf : (Obj.node n).WF) (hx : NodeContexts E X c0 p' n c1 ss c) (hn : ScopedNode E X c0 n c1 ss c)
    (hg : ∀ g, n.graph = some g → ∀ o ∈ g, Carries E X c (some "@graph".toList) o)
    (hinc : ∀ l, n.included = some l → ∀ m ∈ l, Carries E X c (some "@included".toList) (.node m))
    (hps : ∀ p ∈ n.props, ∀ o ∈ p.2, ∀ key, itemKey E c (.id p.1) false o = .ok (some key) → Carries E X c (some key) o)
    (hrv : ∀ r, n.rev = some r → ∀ p ∈ r, ∀ m ∈ p.2, ∀ key, itemKey E c (.id p.1) true (.node m) = .ok (some key) →
      Carries E X c (some key) (.node m))
    {j : Json} (h : nodeIn E R c c0 prop n = .ok j) :
    ∃ es e2, j = .obj (xObj es) ∧ NodeSteps X c c1 es n ∧ TypeEntry X c ss n.types e2 ∧
      es.filter (fun e => decide (e.term = .keyword .type)) = e2 ∧
      (∀ e ∈ es, e.term = .keyword .id → n.id.isSome = true) := by
  have H := hn.env
  unfold nodeIn at h
  obtain ⟨m1, h1, h⟩ := exBind_ok h
  obtain ⟨e1, rfl, s1, o1⟩ := id_in H.toBaseEnv hn.id h1 (x := none) (ty := none) (g := none) (inc := none) (ps := []) (rv := none)
  rw [List.nil_append] at h
  obtain ⟨m2, h2, h⟩ := exBind_ok h
  obtain ⟨e2, rfl, t2⟩ := types_entry H.toBaseEnv hn.types.1 hx.names s1.keyed (o1.fresh (by decide)) h2
  have k12 := s1.keyed.append t2.keyed
  have o12 := o1.append t2.only
  obtain ⟨⟨c', m3⟩, h3, h⟩ := exBind_ok h
  obtain ⟨hc', e3, h3', s3, o3⟩ := reverse_at hR H hwf hn.rev hrv k12 (o12.fresh (by decide)) h3
    (x := none) (i := n.id) (ty := n.types) (g := none) (inc := none) (ps := [])
  dsimp only at hc' h3' h
  subst hc'
  subst h3'
  obtain ⟨m4, h4, h⟩ := exBind_ok h
  have k123 := k12.append s3.keyed
  have o123 := o12.append o3
  obtain ⟨k, rfl, hk⟩ := index_at H k123 (o123.fresh (by decide)) h4
  have s4 := steps_index n.index hk (id := n.id) (ty := n.types) (g := none) (inc := none) (ps := []) (rv := n.rev)
  have k1234 := k123.append s4.keyed
  have o1234 := o123.append (only_index k n.index)
  obtain ⟨m5, h5, h⟩ := exBind_ok h
  obtain ⟨e5, rfl, s5, o5⟩ := graph_in_at hR H hwf hn.graph hg k1234 (o1234.fresh (by decide)) h5 (x := n.index) (i := n.id)
    (ty := n.types) (inc := none) (ps := []) (rv := n.rev)
  have k15 := k1234.append s5.keyed
  have o15 := o1234.append o5
  obtain ⟨m6, h6, h⟩ := exBind_ok h
  unfold compactProps sortIf at h6
  simp only [H.sorted.1, Bool.false_eq_true, if_false] at h6
  have hnd : (n.props.map Prod.fst).Nodup := by
    cases n with
    | mk _ _ _ _ _ _ _ => exact hwf.2.2.1
  obtain ⟨e6, rfl, s6, o6⟩ := props_at hR H (ps0 := []) hn.props (fun p hp => wf_prop hwf hp) hps hnd k15
    (fun p _ => o15.fresh (by simp)) h6 (x := n.index) (i := n.id)
    (ty := n.types) (g := n.graph) (inc := none) (rv := n.rev)
  have k16 := k15.append s6.keyed
  have o16 := o15.append (T' := e6.map XEntry.term) (es' := e6) fun e he => List.mem_map.2 ⟨e, he, rfl⟩
  obtain ⟨m7, h7, rfl⟩ := exMap_ok h
  obtain ⟨e7, rfl, s7, o7⟩ := included_at hR H hwf hinc k16 (o16.fresh (by
    simp only [List.mem_append, not_or]
    refine ⟨by decide, fun hm => ?_⟩
    obtain ⟨e, he, h⟩ := List.mem_map.1 hm
    exact o6 e he _ h)) h7 (x := n.index) (i := n.id)
    (ty := n.types) (g := n.graph) (ps := [] ++ n.props) (rv := n.rev)
  have srest := (((s3.append s4).append s5).append s6).append s7
  have orest : ∀ e ∈ e3 ++ indexX k n.index ++ e5 ++ e6 ++ e7, e.term ≠ .keyword .type ∧ e.term ≠ .keyword .nest := by
    intro e he
    simp only [List.mem_append] at he
    rcases he with (((he | he) | he) | he) | he
    · have := o3 e he
      rw [List.mem_singleton] at this
      rw [this]; simp
    · have := only_index k n.index e he
      rw [List.mem_singleton] at this
      rw [this]; simp
    · have := o5 e he
      rw [List.mem_singleton] at this
      rw [this]; simp
    · exact ⟨o6 e he _, o6 e he _⟩
    · have := o7 e he
      rw [List.mem_singleton] at this
      rw [this]; simp
  have oid : ∀ e ∈ e1, e.term ≠ .keyword .type ∧ e.term ≠ .keyword .nest := by
    intro e he
    have := o1 e he
    rw [List.mem_singleton] at this
    rw [this]; simp
  have hid : n.id = none → e1 = [] := by
    intro h0
    unfold nodeIdEntries at h1
    rw [h0] at h1
    have h1 : ([] : JMap) = xObj ([] ++ e1) := Except.ok.inj h1
    cases e1 with
    | nil => rfl
    | cons => cases h1
  refine ⟨e1 ++ e2 ++ (e3 ++ indexX k n.index ++ e5 ++ e6 ++ e7), e2, by simp [List.append_assoc], ⟨?_, ?_, ?_⟩, t2, ?_, ?_⟩
  · exact k12.append srest.keyed
  · intro e he
    rcases List.mem_append.1 he with he | he
    · rcases List.mem_append.1 he with he | he
      · exact s1.terms e he
      · have := t2.only e he
        rw [List.mem_singleton] at this
        rw [this]; simp
    · exact srest.terms e he
  · intro prop hp
    rw [List.foldlM_append, List.foldlM_append]
    have f1 := KeySteps.other s1 oid c1 hp
    rw [show (⟨Node.blank, false⟩ : XState) = ⟨.mk none none none none none [] none, false⟩ from rfl, f1]
    have f2 := t2.fold hn.types.2.1 (x := none) (i := n.id) (g := none) (inc := none) (ps := []) (rv := none) hp
    show (e2.foldlM (entryStep X (unlimited X) c' c1 prop) _).bind _ = _
    rw [f2]
    show (e3 ++ indexX k n.index ++ e5 ++ e6 ++ e7).foldlM (entryStep X (unlimited X) c' c1 prop) _ = _
    rw [KeySteps.other srest orest c1 hp]
    cases n
    rfl
  · have f1 : e1.filter (fun e => decide (e.term = .keyword .type)) = [] :=
      List.filter_eq_nil_iff.2 fun e he => by simpa using (oid e he).1
    have f2 : e2.filter (fun e => decide (e.term = .keyword .type)) = e2 :=
      List.filter_eq_self.2 fun e he => by
        have := t2.only e he
        rw [List.mem_singleton] at this
        rw [this]; simp
    have f3 : (e3 ++ indexX k n.index ++ e5 ++ e6 ++ e7).filter (fun e => decide (e.term = .keyword .type)) = [] :=
      List.filter_eq_nil_iff.2 fun e he => by simpa using (orest e he).1
    rw [List.filter_append, List.filter_append, f1, f2, f3]
    simp
  · intro e he ht
    rcases List.mem_append.1 he with he | he
    · rcases List.mem_append.1 he with he | he
      · cases hi : n.id with
        | none => rw [hid hi] at he; cases he
        | some => rfl
      · have := t2.only e he
        rw [List.mem_singleton, ht] at this
        cases this
    · simp only [List.mem_append] at he
      rcases he with (((he | he) | he) | he) | he
      · have := o3 e he
        rw [List.mem_singleton, ht] at this
        cases this
      · have := only_index k n.index e he
        rw [List.mem_singleton, ht] at this
        cases this
      · have := o5 e he
        rw [List.mem_singleton, ht] at this
        cases this
      · exact absurd ht (o6 e he _)
      · have := o7 e he
        rw [List.mem_singleton, ht] at this
        cases this

/-! ## The contexts of a node in expansion -/

theorem strings_map (ss : List Str) : strings (ss.map .str) = ss := by
  induction ss with
  | nil => rfl
  | cons s ss ih =>
    unfold strings at ih ⊢
    rw [List.map_cons, List.filterMap_cons, ih]

/-- The contexts of the types. -/
theorem typed_at (hv : X.opts.vocab = .keep) {c0 c1 : ACtx} {ss : List Str} {ty : Option (List Id)} (hal : SameAliases X c1 c)
    (hnames : ty = none → ss = []) (happ : ∃ ss', ss'.Perm ss ∧ ss'.Pairwise (· ≤ ·) ∧ Applied X c0 ss' c1 c)
    (hget : ∀ s ∈ ss, c1.get s = c0.get s) {es e2 : List XEntry} (hk : Keyed X c es) (ht : TypeEntry X c ss ty e2)
    (hf : es.filter (fun e => decide (e.term = .keyword .type)) = e2) (tes)
    (h : typeEntries X c1 (xObj es) = .ok tes) : typeScoped X c1 tes = .ok c := by
  rw [typeEntries_alias hv hal hk, hf] at h
  obtain ⟨ss', hp, hs, happ⟩ := happ
  have hts : scopedTypes tes = ss' := by
    cases ht with
    | absent =>
      cases h
      have := hnames rfl
      subst this
      rw [List.perm_nil.1 hp]
      rfl
    | present ts k a hk hne =>
      cases h
      show sortByKey id (strings (forceArray (pack a (ss.map .str)))) ++ [] = _
      rw [List.append_nil, force_strings, strings_map]
      have h1 : (sortByKey id ss).Perm ss := List.perm_insertionSort _ _
      exact List.Perm.eq_of_pairwise (fun a b _ _ h1 h2 => List.le_antisymm h1 h2) (sortByKey_sorted id ss) hs
        (h1.trans hp.symm)
  unfold typeScoped
  rw [hts]
  exact applied_fold happ fun s hs => hget s (hp.subset hs)

/-- What is seen of the entries of a node. -/
theorem prelim_node (hv : X.opts.vocab = .keep) {c0 : ACtx} (hal : SameAliases X c0 c) {es : List XEntry}
    (hk : Keyed X c es) (hx : ∀ e ∈ es, e.term ≠ .keyword .value) :
    prelim X c0 (xObj es) = .ok (false, es.any fun e => decide (e.term = .keyword .id)) := by
  induction es with
  | nil => rfl
  | cons e es ih =>
    show prelim X c0 ((e.key, e.value) :: xObj es) = _
    unfold prelim
    rw [ih (fun x hx => hk x (List.mem_cons_of_mem _ hx)) fun x h => hx x (List.mem_cons_of_mem _ h)]
    obtain ⟨t, ht⟩ := xKey_keep hv c0 e.key
    have h0 := hk e (by simp)
    rw [ht]
    have h1 : t ≠ some (.keyword .value) := by
      rintro rfl
      have := (xKey_alias hal e.key .value).1 ht
      rw [h0] at this
      simp only [Except.ok.injEq, Option.some.injEq] at this
      exact hx e (by simp) this
    have h2 : t = some (.keyword .id) ↔ e.term = .keyword .id := by
      constructor
      · rintro rfl
        have := (xKey_alias hal e.key .id).1 ht
        rw [h0] at this
        simpa using this
      · intro h
        rw [h] at h0
        have := (xKey_alias hal e.key .id).2 h0
        rw [ht] at this
        simpa using this
    show Except.ok (false || decide (t = some (.keyword .value)), _ || decide (t = some (.keyword .id))) = _
    rw [decide_eq_false h1]
    simp only [h2, List.any_cons, Bool.or_false, Bool.or_comm]

/-- The entries of a reference. -/
theorem reference_entries {R : CRec} (H : NamedEnv E X c) {c0 : ACtx} {prop : Option Str} {n : Node}
    (hn : ∀ i, n.id = some i → Nameable E.toCompEnv c false i) (he : n.isEmpty = true)
    (hi : n.id.isSome = true) (hx : n.index = none) {j : Json} (h : nodeIn E R c c0 prop n = .ok j) :
    ∃ k v, j = .obj [(k, v)] ∧ xKey X c k = .ok (some (.keyword .id)) := by
  cases n with
  | mk x i ty g inc ps rv =>
    have hx : x = none := hx
    subst hx
    unfold Node.isEmpty at he
    simp only [Bool.and_eq_true, Option.isNone_iff_eq_none, List.isEmpty_iff] at he
    obtain ⟨⟨⟨⟨rfl, rfl⟩, rfl⟩, rfl⟩, rfl⟩ := he
    unfold nodeIn at h
    obtain ⟨m1, h1, h⟩ := exBind_ok h
    have hid := id_part H.toBaseEnv hn h1
    unfold compactTypes compactReverse addIndex compactOpt compactProps sortIf at h
    simp only [Node.types, Node.rev, Node.index, Node.graph, Node.props, Node.included, Option.map_none, H.sorted.1,
      Bool.false_eq_true, if_false, Except.bind, Except.map, List.foldlM_nil, pure, Except.pure] at h
    cases h
    obtain ⟨e, rfl, he⟩ := hid
    have hi : i.isSome = true := hi
    cases i with
    | none => cases hi
    | some i =>
      cases he with
      | present _ k s _ _ hk => exact ⟨k, .str s, rfl, hk⟩

/-- The compacted node, and its expansion in the contexts where compaction left it. -/
structure NodeParts (E : CEnv) (X : XEnv) (c : ACtx) (p' : Option Str) (n : Node) (j : Json) (c1 : ACtx) (ss : List Str) (c' : ACtx)
    (es e2 : List XEntry) : Prop where
  contexts : NodeContexts E X c p' n c1 ss c'
  node : ScopedNode E X c n c1 ss c'
  json : j = .obj (xObj es)
  steps : NodeSteps X c' c1 es n
  typed : TypeEntry X c' ss n.types e2
  filter : es.filter (fun e => decide (e.term = .keyword .type)) = e2
  id : ∀ e ∈ es, e.term = .keyword .id → n.id.isSome = true
  reference : n.isEmpty = true → n.id.isSome = true → n.index = none →
    ∃ k v, j = .obj [(k, v)] ∧ xKey X c' k = .ok (some (.keyword .id))

theorem node_parts {R : CRec} (hR : RecAt E X R) (hX : Envs E X) {p p' : Option Str} (hp : scopeOf c p = scopeOf c p')
    {n : Node} (hwf : (Obj.node n).WF) (hc : Carries E X c p' (.node n)) {j : Json}
    (h : compactNode E R c c p n = .ok j) : ∃ c1 ss c' es e2, NodeParts E X c p' n j c1 ss c' es e2 := by
  unfold compactNode at h
  obtain ⟨c', h1, h⟩ := exBind_ok h
  obtain ⟨c1, ss, hx⟩ := nodeContexts_of hX hp h1
  cases hc with
  | node _ _ _ k0 k1 k2 k3 k4 k5 =>
  have hn := k1 _ _ _ hx
  have hs : nodeString E c' p n = none := by
    unfold nodeString
    rw [typ_named hn.env.named]
    split
    · split <;> rfl
    · rfl
  rw [hs] at h
  obtain ⟨es, e2, h2, h3, h4, h5, h6⟩ := node_entries hR hwf hx hn (k2 _ _ _ hx) (k3 _ _ _ hx) (k4 _ _ _ hx) (k5 _ _ _ hx) h
  exact ⟨c1, ss, c', es, e2, hx, hn, h2, h3, h4, h5, h6, fun a b d => reference_entries hn.env hn.id a b d h⟩

theorem one_entry {tsc : ACtx} {es : List XEntry} {n : Node} (hs : NodeSteps X c tsc es n) (hl : es.length = 1)
    (hi : ∃ e ∈ es, e.term = .keyword .id) : n.isEmpty = true := by
  match es, hl with
  | [e], _ =>
    obtain ⟨e', he, ht⟩ := hi
    rw [List.mem_singleton] at he
    subst he
    have h := hs.fold none (by simp)
    rw [List.foldlM_cons] at h
    obtain ⟨st, h1, h2⟩ := bindOk.1 h
    cases h2
    unfold entryStep at h1
    rw [ht] at h1
    dsimp only at h1
    rw [if_neg (by simp), if_neg (by simp [Node.hasKeyword, Node.blank, Node.id])] at h1
    have h1 : keyId X c e'.value ⟨Node.blank, false⟩ = .ok ⟨n, false⟩ := h1
    unfold keyId at h1
    split at h1
    · obtain ⟨t, -, h3⟩ := exMap_ok h1
      simp only [XState.mk.injEq, and_true] at h3
      rw [← h3]
      rfl
    · cases h1

/-- The context that a node starts with. -/
theorem revert_at (hv : X.opts.vocab = .keep) {p' : Option Str} {n : Node} {j : Json} {c1 c' : ACtx} {ss : List Str}
    {es e2 : List XEntry} (h : NodeParts E X c p' n j c1 ss c' es e2) {a : ACtx} (ha : Starts c n a) :
    ∃ r, prelim X c (xObj es) = .ok r ∧ revert c (xObj es) false r = a := by
  refine ⟨_, prelim_node hv h.node.aliases.1 h.steps.keyed fun e he => (h.steps.terms e he).2.2.2, ?_⟩
  unfold revert
  have hlen : (xObj es).length = es.length := by simp [xObj]
  cases hp : c.previous with
  | none =>
    cases ha with
    | reference => rfl
    | node _ _ hr =>
      cases hr with
      | stay => rfl
      | back p h => rw [hp] at h; cases h
  | some p =>
    cases ha with
    | reference h1 h2 =>
      have hid : n.id ≠ none := by
        cases hi : n.id with
        | none => rw [hi] at h2; cases h2
        | some => simp
      obtain ⟨k, v, h3, h4⟩ := h.reference h1 h2 (h.node.reference h1 hid (by rw [hp]; simp))
      rw [h.json] at h3
      have h3 : xObj es = [(k, v)] := Json.obj.inj h3
      match es, h3 with
      | [e], h3 =>
        have hk := h.steps.keyed e (by simp)
        have h3 : [(e.key, e.value)] = [(k, v)] := h3
        simp only [List.cons.injEq, Prod.mk.injEq, and_true] at h3
        rw [h3.1, h4] at hk
        simp only [Except.ok.injEq, Option.some.injEq] at hk
        simp [xObj, ← hk]
    | node b hn hr =>
      cases hr with
      | stay h => rw [hp] at h; cases h
      | back _ h' =>
        rw [hp] at h'
        cases h'
        have : ¬ (es.length = 1 ∧ ∃ e ∈ es, e.term = .keyword .id) := by
          rintro ⟨h1, e, he, h2⟩
          exact hn ⟨one_entry h.steps h1 ⟨e, he, h2⟩, h.id e he h2⟩
        dsimp only
        rw [if_pos]
        simp only [Bool.not_false, Bool.true_and, hlen, Bool.not_eq_true', Bool.and_eq_false_iff]
        by_cases h1 : es.length = 1
        · right
          rw [List.any_eq_false]
          intro e he
          simp only [decide_eq_true_eq]
          exact fun h2 => this ⟨h1, e, he, h2⟩
        · left
          simpa using h1

theorem parts_back (hv : X.opts.vocab = .keep) {p' : Option Str} (hr : p' ≠ some "@reverse".toList) {n : Node}
    (hsays : noProp p' = true → Says (.node n)) {j : Json} {c1 c' : ACtx} {ss : List Str}
    {es e2 : List XEntry} (h : NodeParts E X c p' n j c1 ss c' es e2) : BackAt X c p' j (.node n) := by
  have hj := h.json
  subst hj
  refine ⟨nofun, rfl, ?_⟩
  obtain ⟨a, ha, hsc⟩ := h.contexts.start
  obtain ⟨r, hr1, hr2⟩ := revert_at hv h ha
  have hctx : objContext X c p' (xObj es) false = .ok c1 := by
    unfold objContext
    rw [hr1]
    show (scopedCtx X (p'.bind c.get) (revert c _ false r) _).bind _ = _
    rw [hr2, show scopedCtx X (p'.bind c.get) a X.opts.proc.withOverride = .ok c1 from scope_scoped hsc]
    exact no_context c' c1 h.steps.keyed fun e he => (h.steps.terms e he).1
  obtain ⟨it, h1⟩ := object_at hv hctx (typed_at hv h.node.aliases.2 (fun h0 => by
      have := h.contexts.names
      rw [h0] at this
      cases this
      rfl) h.contexts.types h.node.types.2.2 h.steps.keyed h.typed h.filter) h.steps.keyed
  rw [h1]
  exact kind_node h.steps hr hsays it

/-! ## Lists and any nesting -/

theorem list_in_at {R : CRec} (hR : RecAt E X R) {p p' : Option Str} (hp : scopeOf c p = scopeOf c p')
    (hr : p' ≠ some "@reverse".toList) (hn : noProp p' = false) {i : Option Str} {l : List Obj}
    (hwf : (Obj.list i l).WF) (hc : Carries E X c p' (.list i l)) {j : Json} (h : compactList E R c c p i l = .ok j) :
    BackAt X c p' j (.list i l) := by
  cases hc with
  | list _ _ _ _ H hprev hns hc =>
  unfold compactList at h
  rw [hprev] at h
  obtain ⟨c', h1, h⟩ := exBind_ok h
  have hc' : c' = c := by
    have := cScoped_scope h1 (envs H) hp
    cases this with
    | none => rfl
    | within k d l _ _ h2 h3 h4 => exact absurd (hns k h2 d h3) (by rw [h4]; simp)
  subst hc'
  rw [defContainer_named H.named, contains_none, if_neg (by simp)] at h
  obtain ⟨m, h1, h⟩ := exBind_ok h
  obtain ⟨m', h2, rfl⟩ := exMap_ok h
  obtain ⟨key, vs, a, hk, rfl, hvs⟩ := property_at hR H (by simp) (fun o s => keyword_with H.toBaseEnv) (fun _ => p')
    (fun key hk => ⟨by rw [keyword_noScope H hk]; exact (scopeOf_none.2 hns).symm, hr⟩) (es := []) nofun (by simp)
    (fun o ho key _ => ⟨by rw [hn]; nofun, objsWF_iff.1 (show objsWF l from hwf) o ho, hc o ho⟩) h1
  have hke : Keyed X c' [⟨key, .keyword .list, pack a vs⟩] := fun e he => by rw [List.mem_singleton.1 he]; exact hk
  obtain ⟨k, rfl, hki⟩ := index_at H hke (by simp) h2
  refine list_at H hprev hns hn hk hki ?_
  rw [force_at hvs]
  exact hvs

/-- Any nesting. -/
theorem rec_at (hX : Envs E X) (hv : X.opts.vocab = .keep) (n : Nat) : RecAt E X (crecN E n) := by
  induction n with
  | zero => intro c p p' o j _ _ _ _ _ h; cases h
  | succ n ih =>
    intro c p p' o j hp hr hs hwf hc h
    have h : compactBody E (crecN E n) c c p o = .ok j := h
    unfold compactBody at h
    have hval : ∀ {o : Obj}, (noProp p' = true → Says o) → (∀ n, o ≠ .node n) → noProp p' = false := by
      intro o hs hn
      cases hx : noProp p' with
      | false => rfl
      | true =>
        obtain ⟨n, rfl, -⟩ := hs hx
        exact absurd rfl (hn n)
    cases o with
    | value i v => exact value_at hX hp (hval hs nofun) hc h
    | list i l => exact list_in_at ih hp hr (hval hs nofun) hwf hc h
    | node n =>
      obtain ⟨c1, ss, c', es, e2, h1⟩ := node_parts ih hX hp hwf hc h
      exact parts_back hv hr hs h1

end

end JsonLd.Sc
