import Verif.Proofs.RoundProp
/-!
# Expanding compacted nodes: the whole node, lists and any nesting
-/

namespace JsonLd
open Spec Props Relation

/-- The terms of the entries are among these. -/
def Only (T : List CTerm) (es : List XEntry) : Prop := ∀ e ∈ es, e.term ∈ T

theorem Only.append {T T' : List CTerm} {es es' : List XEntry} (h : Only T es) (h' : Only T' es') :
    Only (T ++ T') (es ++ es') := by
  intro e he
  rcases List.mem_append.1 he with he | he
  · exact List.mem_append_left _ (h e he)
  · exact List.mem_append_right _ (h' e he)

theorem Only.fresh {T : List CTerm} {es : List XEntry} (h : Only T es) {t : CTerm} (hk : t ∉ T) :
    t ∉ es.map XEntry.term := by
  intro hm
  obtain ⟨e, he, h1⟩ := List.mem_map.1 hm
  have h2 := h e he
  rw [h1] at h2
  exact hk h2

theorem Only.one (T : CTerm) (k : Str) (v : Json) : Only [T] [⟨k, T, v⟩] := by
  intro e he
  rw [List.mem_singleton.1 he]
  simp

theorem Only.nil (T : List CTerm) : Only T [] := nofun

section
variable {E : CEnv} {X : XEnv} {c : ACtx} (H : RoundEnv E X c)
include H

/-- New entries `es'` behind the entries `es` that change the node from `a` to `b`. -/
def Adds (X : XEnv) (c : ACtx) (T : List CTerm) (es : List XEntry) (m' : JMap) (a b : Node) : Prop :=
  ∃ es', m' = xObj (es ++ es') ∧ KeySteps X c es' a b ∧ Only T es'

omit H in
theorem Adds.none {T : List CTerm} {es : List XEntry} (a : Node) : Adds X c T es (xObj es) a a :=
  ⟨[], by simp, .nil _, .nil _⟩

omit H in
theorem cKey_of (H : BaseEnv E X c) {k : Keyword} {s : Str} (h : cIri E c (.keyword k) true = .ok (some s)) :
    xKey X c s = .ok (some (.keyword k)) := by
  refine backKeys_round H k s ?_
  unfold cKey cIriU
  rw [h]

/-- The entry for an identifier. -/
inductive IdPart (E : CEnv) (X : XEnv) (c : ACtx) : Option Id → List XEntry → Prop
  | absent : IdPart E X c none []
  | present (i : Id) (k s : Str) : cKey E c .id = .ok k → cIri E c (.id i) false = .ok (some s) →
      xKey X c k = .ok (some (.keyword .id)) →
      expandIri X.toIriEnv c (some (.ofStr s)) true none = .ok (some (.id i)) →
      IdPart E X c (some i) [⟨k, .keyword .id, .str s⟩]

omit H in
theorem id_part (H : BaseEnv E X c) {n : Node} (hn : ∀ i, n.id = some i → Nameable E.toCompEnv c false i) {m : JMap}
    (h : nodeIdEntries E c n = .ok m) : ∃ e, m = xObj e ∧ IdPart E X c n.id e := by
  unfold nodeIdEntries at h
  cases hi : n.id with
  | none => rw [hi] at h; cases h; exact ⟨[], rfl, .absent⟩
  | some i =>
    rw [hi] at h
    obtain ⟨s, h1, h⟩ := exBind_ok h
    obtain ⟨k, h2, rfl⟩ := exMap_ok h
    obtain ⟨s, rfl, hs⟩ := cIri_id H (hn i hi) h1
    obtain ⟨k, rfl⟩ := cIri_some (by simp) h2
    refine ⟨[⟨k, .keyword .id, .str s⟩], rfl, .present i k s ?_ h1 (cKey_of H h2) hs⟩
    unfold cKey cIriU
    rw [h2]

omit H in
theorem IdPart.steps {i : Option Id} {e : List XEntry} (h : IdPart E X c i e) {x ty g inc ps rv} :
    KeySteps X c e (.mk x none ty g inc ps rv) (.mk x i ty g inc ps rv) := by
  cases h with
  | absent => exact .nil _
  | present i k s _ _ hk hs => exact steps_id hk hs

omit H in
theorem IdPart.only {i : Option Id} {e : List XEntry} (h : IdPart E X c i e) : Only [.keyword .id] e := by
  cases h with
  | absent => exact .nil _
  | present i k s _ _ hk hs => exact .one _ _ _

omit H in
theorem id_in (H : BaseEnv E X c) {n : Node} (hn : ∀ i, n.id = some i → Nameable E.toCompEnv c false i) {m : JMap} (h : nodeIdEntries E c n = .ok m) {x ty g inc ps rv} :
    Adds X c [.keyword .id] [] m (.mk x none ty g inc ps rv) (.mk x n.id ty g inc ps rv) := by
  obtain ⟨e, rfl, he⟩ := id_part H hn h
  exact ⟨e, by simp, he.steps, he.only⟩

/-- The string expands to the type. -/
def TypeBack (X : XEnv) (c : ACtx) (s : Str) (t : Id) : Prop :=
  expandIri X.toIriEnv c (some (.ofStr s)) true (some .keep) = .ok (some (.id t)) ∧ t.isValid = true ∧
    xKey X c s = .ok (some (.id t))

omit H in
theorem cIri_type (H : BaseEnv E X c) {t : Id} (ht : Nameable E.toCompEnv c true t) {s : Option Str} (h : cIri E c (.id t) true = .ok s) :
    ∃ s', s = some s' ∧ TypeBack X c s' t := by
  obtain ⟨s, rfl⟩ := cIri_some (by simp) h
  have hv := (valid_form H ht).2
  have hb := C35_plain_partial E.toCompEnv H.iris H.facts c H.clean t ht.kind ht.valid true false E.opts ht.clear s h
  rw [show (!true) = false from rfl, if_pos rfl] at hb
  refine ⟨s, rfl, expandIri_docRel ?_ ?_, hv, ?_⟩
  · rw [H.env]
    exact hb
  · intro s hs
    cases hs
    cases hv
  · unfold xKey xIri
    rw [H.vocab, H.env, hb]

omit H in
theorem typesM_back (H : BaseEnv E X c) {ts : List Id} (ht : ∀ t ∈ ts, Nameable E.toCompEnv c true t) {vs : List Json}
    (h : ts.mapM (fun t => (cIri E c (.id t) true).map optStr) = .ok vs) :
    ∃ ss : List Str, vs = ss.map .str ∧ List.Forall₂ (TypeBack X c) ss ts := by
  induction ts generalizing vs with
  | nil => cases h; exact ⟨[], rfl, .nil⟩
  | cons t ts ih =>
    rw [List.mapM_cons] at h
    obtain ⟨v, h1, h⟩ := bindOk.1 h
    obtain ⟨r, h2, h⟩ := bindOk.1 h
    cases h
    obtain ⟨s, h3, rfl⟩ := exMap_ok h1
    obtain ⟨s, rfl, hs⟩ := cIri_type H (ht t (by simp)) h3
    obtain ⟨ss, rfl, hss⟩ := ih (fun t h => ht t (List.mem_cons_of_mem _ h)) h2
    exact ⟨s :: ss, rfl, .cons hs hss⟩

omit H in
theorem typesJson_back (H : BaseEnv E X c) {ts : List Id} (ht : ∀ t ∈ ts, Nameable E.toCompEnv c true t) {v : Json}
    (h : typesJson E c ts = .ok v) :
    ∃ ss : List Str, ((∃ s, ss = [s] ∧ v = .str s) ∨ v = .arr (ss.map .str)) ∧ List.Forall₂ (TypeBack X c) ss ts := by
  unfold typesJson at h
  split at h
  · obtain ⟨s, h1, rfl⟩ := exMap_ok h
    obtain ⟨s, rfl, hs⟩ := cIri_type H (ht _ (by simp)) h1
    exact ⟨[s], .inl ⟨s, rfl, rfl⟩, .cons hs .nil⟩
  · obtain ⟨vs, h1, rfl⟩ := exMap_ok h
    obtain ⟨ss, rfl, hss⟩ := typesM_back H ht h1
    exact ⟨ss, .inr rfl, hss⟩

omit H in
theorem types_fold (H : BaseEnv E X c) {x i g inc ps rv} {ss : List Str} {ts : List Id} (h : List.Forall₂ (TypeBack X c) ss ts) :
    ∀ {ty : Option (List Id)}, (ty = none → ts ≠ []) →
    (ss.map Json.str).foldlM (keyType1 X c) ⟨.mk x i ty g inc ps rv, false⟩ =
      .ok ⟨.mk x i (some (ty.getD [] ++ ts)) g inc ps rv, false⟩ := by
  induction h with
  | nil =>
    intro ty hty
    cases ty with
    | none => exact absurd rfl (hty rfl)
    | some l => simp [pure, Except.pure]
  | @cons s t ss ts hs _ ih =>
    intro ty _
    rw [List.map_cons, List.foldlM_cons]
    have : keyType1 X c ⟨.mk x i ty g inc ps rv, false⟩ (.str s) =
        .ok ⟨.mk x i (some (ty.getD [] ++ [t])) g inc ps rv, false⟩ := by
      unfold keyType1 xIri
      simp only [H.vocab, hs.1]
      have h2 := hs.2.1
      cases t with
      | invalid s => cases h2
      | _ => rfl
    rw [this]
    show List.foldlM _ _ _ = _
    rw [ih (ty := some (ty.getD [] ++ [t])) (by simp)]
    simp

/-- The entry for types. -/
inductive TypePart (E : CEnv) (X : XEnv) (c : ACtx) : Option (List Id) → List XEntry → Prop
  | absent : TypePart E X c none []
  | present (ts : List Id) (k : Str) (a : Bool) (ss : List Str) : cKey E c .type = .ok k →
      xKey X c k = .ok (some (.keyword .type)) → ts ≠ [] → List.Forall₂ (TypeBack X c) ss ts →
      TypePart E X c (some ts) [⟨k, .keyword .type, pack a (ss.map .str)⟩]

omit H in
theorem types_part (H : BaseEnv E X c) {n : Node} (hn : ∀ ts, n.types = some ts → ts ≠ [] ∧ ∀ t ∈ ts, Nameable E.toCompEnv c true t) {es : List XEntry} (hes : Keyed X c es)
    (hf : CTerm.keyword .type ∉ es.map XEntry.term) {m' : JMap} (h : compactTypes E c c n.types (xObj es) = .ok m') :
    ∃ e, m' = xObj (es ++ e) ∧ TypePart E X c n.types e := by
  unfold compactTypes at h
  cases hty : n.types with
  | none => rw [hty] at h; cases h; exact ⟨[], by simp, .absent⟩
  | some ts =>
    obtain ⟨hne, hts⟩ := hn ts hty
    cases ts with
    | nil => exact absurd rfl hne
    | cons t ts =>
      rw [hty] at h
      dsimp only at h
      obtain ⟨v, h1, h⟩ := exBind_ok h
      obtain ⟨k, h2, h⟩ := exBind_ok h
      have hk := backKeys_round H _ _ h2
      have hfr := keyed_fresh hes hk hf
      obtain ⟨ss, hv, hss⟩ := typesJson_back H hts h1
      generalize ((decide (E.opts.mode = .v11) && (defContainer (c.get k)).contains .set) ||
        !E.opts.compactArrays) = a at h
      have hna : ∀ y ∈ ss.map Json.str, NotArray y := by
        intro y hy
        obtain ⟨s, -, rfl⟩ := List.mem_map.1 hy
        exact nofun
      have hm : m' = xObj es ++ [(k, pack a (ss.map .str))] := by
        rcases hv with ⟨s, rfl, rfl⟩ | rfl
        · rw [addValue_fresh hfr (by exact nofun)] at h
          exact (Except.ok.inj h).symm
        · rw [addArr_fresh hfr hna (by cases hss; simp)] at h
          exact (Except.ok.inj h).symm
      exact ⟨[⟨k, .keyword .type, pack a (ss.map .str)⟩], by rw [hm, xObj_append]; rfl, .present _ k a ss h2 hk hne hss⟩

omit H in
theorem force_strings (a : Bool) (ss : List Str) : forceArray (pack a (ss.map Json.str)) = ss.map .str := by
  match ss with
  | [] => rfl
  | [s] => cases a <;> rfl
  | _ :: _ :: _ => rfl

omit H in
theorem TypePart.steps (H : BaseEnv E X c) {ty : Option (List Id)} {e : List XEntry} (h : TypePart E X c ty e) {x i g inc ps rv} :
    KeySteps X c e (.mk x i none g inc ps rv) (.mk x i ty g inc ps rv) := by
  cases h with
  | absent => exact .nil _
  | present ts k a ss _ hk hne hss =>
    refine .keyword hk (by decide) rfl fun prop => ?_
    show (forceArray (pack a (ss.map Json.str))).foldlM (keyType1 X c) _ = _
    rw [force_strings, types_fold H hss (fun _ => hne)]
    rfl

omit H in
theorem TypePart.only {ty : Option (List Id)} {e : List XEntry} (h : TypePart E X c ty e) : Only [.keyword .type] e := by
  cases h with
  | absent => exact .nil _
  | present => exact .one _ _ _

omit H in
theorem types_in (H : BaseEnv E X c) {n : Node} (hn : ∀ ts, n.types = some ts → ts ≠ [] ∧ ∀ t ∈ ts, Nameable E.toCompEnv c true t) {es : List XEntry} (hes : Keyed X c es)
    (hf : CTerm.keyword .type ∉ es.map XEntry.term) {m' : JMap} (h : compactTypes E c c n.types (xObj es) = .ok m')
    {x i g inc ps rv} :
    Adds X c [.keyword .type] es m' (.mk x i none g inc ps rv) (.mk x i n.types g inc ps rv) := by
  obtain ⟨e, rfl, he⟩ := types_part H hn hes hf h
  exact ⟨e, rfl, he.steps H, he.only⟩

theorem index_in {prop : Option Str} {i : Option Str} {es : List XEntry} (hes : Keyed X c es)
    (hf : CTerm.keyword .index ∉ es.map XEntry.term) {m' : JMap} (h : addIndex E c prop i (xObj es) = .ok m') :
    ∃ k, m' = xObj (es ++ indexX k i) ∧ Keyed X c (indexX k i) := by
  unfold addIndex at h
  cases i with
  | none => cases h; exact ⟨[], by simp [indexX], nofun⟩
  | some i =>
    dsimp only at h
    rw [defContainer_plain H.plain, contains_none, if_neg (by simp)] at h
    obtain ⟨k, hk, rfl⟩ := exMap_ok h
    have hk := backKeys_round H.toBaseEnv _ _ hk
    refine ⟨k, ?_, fun e he => by rw [List.mem_singleton.1 he]; exact hk⟩
    rw [jInsert_fresh (keyed_fresh hes hk hf), xObj_append]
    rfl

omit H in
theorem only_index (k : Str) (i : Option Str) : Only [.keyword .index] (indexX k i) := by
  cases i with
  | none => exact .nil _
  | some i => exact .one _ _ _

theorem graph_in {R : CRec} (hR : RecBack E X c R) {n : Node} (ho : Carried E.toCompEnv c (.node n)) {es : List XEntry}
    (hes : Keyed X c es) (hf : CTerm.keyword .graph ∉ es.map XEntry.term) {m' : JMap}
    (h : compactOpt E R c .graph n.graph (xObj es) = .ok m') {x i ty inc ps rv} :
    Adds X c [.keyword .graph] es m' (.mk x i ty none inc ps rv) (.mk x i ty n.graph inc ps rv) := by
  unfold compactOpt at h
  cases hg : n.graph with
  | none => rw [hg] at h; cases h; exact .none _
  | some g =>
    rw [hg] at h
    obtain ⟨key, vs, a, hk, rfl, hvs⟩ := property_in H hR (by simp) (fun o s => keyword_with H.toBaseEnv) hes hf (ho.graph hg) h
    refine ⟨_, rfl, steps_graph H hk hvs (((ho.at _ .refl).node n rfl).graph g hg) ?_, .one _ _ _⟩
    have := ho.wf
    cases n with
    | mk _ _ _ g' _ _ _ => cases hg; exact this.1.1

theorem included_in {R : CRec} (hR : RecBack E X c R) {n : Node} (ho : Carried E.toCompEnv c (.node n)) {es : List XEntry}
    (hes : Keyed X c es) (hf : CTerm.keyword .included ∉ es.map XEntry.term) {m' : JMap}
    (h : compactOpt E R c .included (n.included.map fun l => l.map Obj.node) (xObj es) = .ok m') {x i ty g ps rv} :
    Adds X c [.keyword .included] es m' (.mk x i ty g none ps rv) (.mk x i ty g n.included ps rv) := by
  unfold compactOpt at h
  cases hg : n.included with
  | none => rw [hg] at h; cases h; exact .none _
  | some l =>
    rw [hg] at h
    obtain ⟨key, vs, a, hk, rfl, hvs⟩ := property_in H hR (by simp) (fun o s => keyword_with H.toBaseEnv) hes hf
      (fun o hl => by
        obtain ⟨n', hn', rfl⟩ := List.mem_map.1 hl
        exact ho.included hg n' hn') h
    refine ⟨_, rfl, ?_, .one _ _ _⟩
    refine .keyword hk (by decide) rfl fun prop => ?_
    show keyIncluded X (unlimited X) c _ _ = _
    unfold keyIncluded
    rw [if_neg (by rw [H.mode]; decide)]
    obtain ⟨y, h1, h2, -⟩ := pack_back H hvs a (prop := some "@included".toList) (by decide)
      (by rw [show noProp (some "@included".toList) = false from by decide]; nofun) false
    rw [show (unlimited X).elem c (some "@included".toList) (pack a vs) false = _ from h1]
    simp only [Except.bind]
    rw [h2, asNodes_map]
    have hp : l.Pairwise fun a b => b.eq a = false := by
      have := ho.wf
      cases n with
      | mk _ _ _ _ g' _ _ => cases hg; exact this.2.1.1
    have := setCollect_of_pairwise hp
    unfold setCollect at this
    show Except.ok _ = _
    simp only [Node.included, Option.getD_none, this]
    rfl

omit H in
theorem reverseEntries_plain (hc : PlainCtx c) (m : JMap) : ∀ (rr acc : JMap), ((acc ++ rr).map Prod.fst).Nodup →
    rr.foldlM (reverseEntry E c) (m, acc) = .ok (m, acc ++ rr) := by
  intro rr
  induction rr with
  | nil => intro acc _; rw [List.append_nil]; rfl
  | cons e rr ih =>
    intro acc hd
    rw [List.foldlM_cons]
    have hf : e.1 ∉ acc.map Prod.fst := by
      rw [List.map_append, List.nodup_append] at hd
      exact fun h => hd.2.2 _ h _ (by simp) rfl
    have : reverseEntry E c (m, acc) e = .ok (m, acc ++ [e]) := by
      unfold reverseEntry
      split
      · rename_i d hd
        rw [(get_plain hc hd).reverse, if_neg (by simp), jInsert_fresh hf]
      · rw [jInsert_fresh hf]
    rw [this]
    show List.foldlM _ _ _ = _
    rw [ih _ (by simpa using hd)]
    simp

theorem reverse_in {R : CRec} (hR : RecBack E X c R) {n : Node} (ho : Carried E.toCompEnv c (.node n)) {es : List XEntry}
    (hes : Keyed X c es) (hf : CTerm.keyword .reverse ∉ es.map XEntry.term) {s : ACtx × JMap}
    (h : compactReverse E R c n.rev (xObj es) = .ok s) {x i ty g inc ps} :
    s.1 = c ∧ Adds X c [.keyword .reverse] es s.2 (.mk x i ty g inc ps none) (.mk x i ty g inc ps n.rev) := by
  unfold compactReverse at h
  cases hr : n.rev with
  | none => rw [hr] at h; cases h; exact ⟨rfl, .none _⟩
  | some r =>
    obtain ⟨hne, hnm⟩ := ((ho.at _ .refl).node n rfl).rev r hr
    have hwf : (r.map Prod.fst).Nodup := by
      have := ho.wf
      cases n with
      | mk _ _ _ _ _ _ r' => cases hr; exact this.2.2.2.2.1
    cases r with
    | nil => exact absurd rfl hne
    | cons p r =>
      rw [hr] at h
      dsimp only at h
      have hsc := cScoped_plain H.plain (E := E) (some "@reverse".toList) c E.opts.proc.withOverride
      rw [show (some "@reverse".toList).bind c.get = c.get "@reverse".toList from rfl] at hsc
      obtain ⟨c1, hc1, hb⟩ := exBind_ok h
      rw [hsc] at hc1
      cases hc1
      clear h
      obtain ⟨m, h, rfl⟩ := exMap_ok hb
      clear hb
      refine ⟨rfl, ?_⟩
      unfold reverseIn at h
      obtain ⟨rr, h1, h⟩ := exBind_ok h
      obtain ⟨es', hrr, hk', hne', hterms, hfold⟩ := reverse_fold H hR (r0 := []) (rv := none) (x := x) (i := i) (ty := ty)
        (g := g) (inc := inc) (ps := ps) rfl (by simp) hnm (fun p hp => ho.rev hr hp) hwf (es := []) nofun (by simp) h1
      rw [List.nil_append] at hrr
      subst hrr
      have hnd : ((xObj es').map Prod.fst).Nodup := by
        refine keyed_nodup hk' ?_
        rw [hterms]
        have := hwf.map (f := CTerm.id) (fun a b h => by injection h)
        rw [List.map_map] at this
        exact this
      rw [reverseEntries_plain H.plain (xObj es) (xObj es') [] hnd] at h
      simp only [Except.bind, List.nil_append] at h
      rw [if_neg (by simpa [xObj] using hne' (by simp))] at h
      obtain ⟨k, hk, rfl⟩ := exMap_ok h
      have hk := backKeys_round H.toBaseEnv _ _ hk
      refine ⟨[⟨k, .keyword .reverse, .obj (xObj es')⟩], ?_, ?_, .one _ _ _⟩
      · show jInsert k _ (xObj es) = _
        rw [jInsert_fresh (keyed_fresh hes hk hf), xObj_append]
        rfl
      · refine .keyword hk (by decide) rfl fun prop => ?_
        unfold keywordEntry keyReverse sortIf
        simp only [H.sorted.2, Bool.false_eq_true, if_false]
        exact hfold

/-! ## The whole node -/

/-- The entries of a compacted node. -/
theorem node_in {R : CRec} (hR : RecBack E X c R) {n : Node} (ho : Carried E.toCompEnv c (.node n)) {prop : Option Str}
    {j : Json} (h : nodeIn E R c c prop n = .ok j) : ∃ es, j = .obj (xObj es) ∧ KeySteps X c es Node.blank n := by
  have hn := (ho.at _ .refl).node n rfl
  unfold nodeIn at h
  obtain ⟨m1, h1, h⟩ := exBind_ok h
  obtain ⟨e1, rfl, s1, o1⟩ := id_in H.toBaseEnv hn.id h1 (x := none) (ty := none) (g := none) (inc := none) (ps := []) (rv := none)
  rw [List.nil_append] at h
  obtain ⟨m2, h2, h⟩ := exBind_ok h
  obtain ⟨e2, rfl, s2, o2⟩ := types_in H.toBaseEnv hn.types s1.keyed (o1.fresh (by decide)) h2 (x := none) (i := n.id) (g := none)
    (inc := none) (ps := []) (rv := none)
  obtain ⟨⟨c', m3⟩, h3, h⟩ := exBind_ok h
  obtain ⟨hc', e3, h3', s3, o3⟩ := reverse_in H hR ho (s1.append s2).keyed ((o1.append o2).fresh (by decide)) h3
    (x := none) (i := n.id) (ty := n.types) (g := none) (inc := none) (ps := [])
  dsimp only at hc' h3' h
  subst hc'
  subst h3'
  obtain ⟨m4, h4, h⟩ := exBind_ok h
  have s123 := (s1.append s2).append s3
  have o123 := (o1.append o2).append o3
  obtain ⟨k, rfl, hk⟩ := index_in H s123.keyed (o123.fresh (by decide)) h4
  have s4 := steps_index n.index hk (id := n.id) (ty := n.types) (g := none) (inc := none) (ps := []) (rv := n.rev)
  have s1234 := s123.append s4
  have o1234 := o123.append (only_index k n.index)
  obtain ⟨m5, h5, h⟩ := exBind_ok h
  obtain ⟨e5, rfl, s5, o5⟩ := graph_in H hR ho s1234.keyed (o1234.fresh (by decide)) h5 (x := n.index) (i := n.id)
    (ty := n.types) (inc := none) (ps := []) (rv := n.rev)
  have s15 := s1234.append s5
  have o15 := o1234.append o5
  obtain ⟨m6, h6, h⟩ := exBind_ok h
  unfold compactProps sortIf at h6
  simp only [H.sorted.1, Bool.false_eq_true, if_false] at h6
  have hwf : (n.props.map Prod.fst).Nodup := by
    have := ho.wf
    cases n with
    | mk _ _ _ _ _ _ _ => exact this.2.2.1
  obtain ⟨e6, rfl, s6, o6⟩ := props_in H hR (ps0 := []) hn.props (fun p hp => ho.prop hp) hwf s15.keyed
    (fun p _ => o15.fresh (by simp)) h6 (x := n.index) (i := n.id)
    (ty := n.types) (g := n.graph) (inc := none) (rv := n.rev)
  have s16 := s15.append s6
  have o16 := o15.append (T' := e6.map XEntry.term) (es' := e6) fun e he => List.mem_map.2 ⟨e, he, rfl⟩
  obtain ⟨m7, h7, rfl⟩ := exMap_ok h
  obtain ⟨e7, rfl, s7, o7⟩ := included_in H hR ho s16.keyed (o16.fresh (by
    simp only [List.mem_append, not_or]
    refine ⟨by decide, fun hm => ?_⟩
    obtain ⟨e, he, h⟩ := List.mem_map.1 hm
    exact o6 e he _ h)) h7 (x := n.index) (i := n.id)
    (ty := n.types) (g := n.graph) (ps := [] ++ n.props) (rv := n.rev)
  refine ⟨_, rfl, ?_⟩
  have := s16.append s7
  cases n
  exact this

theorem node_back {R : CRec} (hR : RecBack E X c R) {n : Node} (ho : Carried E.toCompEnv c (.node n)) {prop : Option Str}
    {j : Json} (h : compactNode E R c c prop n = .ok j) : ∃ es, j = .obj (xObj es) ∧ KeySteps X c es Node.blank n := by
  unfold compactNode at h
  obtain ⟨c', h1, h⟩ := exBind_ok h
  have hc' : c' = c := by
    unfold nodeContext at h1
    obtain ⟨c1, h2, h1⟩ := exBind_ok h1
    rw [cScoped_plain H.plain] at h2
    have h3 : nodeStart c n = c := by
      unfold nodeStart
      rw [H.plain.previous]
      simp
    rw [h3] at h2
    cases h2
    unfold typeContexts at h1
    obtain ⟨ts, -, h1⟩ := exBind_ok h1
    have : ∀ ts : List Str, ts.foldlM (fun c' t => cScoped E (c.get t) c' E.opts.proc.withoutPropagation) c = .ok c := by
      intro ts
      induction ts with
      | nil => rfl
      | cons t ts ih =>
        rw [List.foldlM_cons, show c.get t = (some t).bind c.get from rfl, cScoped_plain H.plain]
        exact ih
    rw [this] at h1
    exact (Except.ok.inj h1).symm
  subst hc'
  have hs : nodeString E c' prop n = none := by
    unfold nodeString
    rw [typ_plain H.plain]
    split
    · split <;> rfl
    · rfl
  rw [hs] at h
  exact node_in H hR ho h

theorem list_in {R : CRec} (hR : RecBack E X c R) {i : Option Str} {l : List Obj} (ho : Carried E.toCompEnv c (.list i l))
    {prop : Option Str} {j : Json} (h : compactList E R c c prop i l = .ok j) : Back X c j (.list i l) := by
  unfold compactList at h
  rw [cScoped_plain H.plain, H.plain.previous] at h
  have h : (if (defContainer (prop.bind c.get)).contains .list then
      compactCollection (R c c prop) c prop E.opts l
    else (compactProperty E R c (.keyword .list) false l []).bind fun m =>
      (addIndex E c prop i m).map .obj) = .ok j := h
  rw [defContainer_plain H.plain, contains_none, if_neg (by simp)] at h
  obtain ⟨m, h1, h⟩ := exBind_ok h
  obtain ⟨m', h2, rfl⟩ := exMap_ok h
  obtain ⟨key, vs, a, hk, rfl, hvs⟩ := property_in H hR (by simp) (fun o s => keyword_with H.toBaseEnv) (es := []) nofun (by simp)
    ho.item h1
  have hke : Keyed X c [⟨key, .keyword .list, pack a vs⟩] := fun e he => by rw [List.mem_singleton.1 he]; exact hk
  obtain ⟨k, rfl, hki⟩ := index_in H hke (by simp) h2
  refine list_back H hk hki ?_
  rw [back_force hvs]
  exact hvs

/-- Any nesting. -/
theorem rec_back (n : Nat) : RecBack E X c (crecN E n) := by
  induction n with
  | zero => intro prop o j _ h; cases h
  | succ n ih =>
    intro prop o j ho h
    have h : compactBody E (crecN E n) c c prop o = .ok j := h
    unfold compactBody at h
    cases o with
    | value i v => exact back_value H ((ho.items _ .refl).value i v rfl) h
    | list i l => exact list_in H ih ho h
    | node n =>
      obtain ⟨es, rfl, hs⟩ := node_back H ih ho h
      exact steps_back H.toBaseEnv (plain_calm H.plain) hs

end

end JsonLd
