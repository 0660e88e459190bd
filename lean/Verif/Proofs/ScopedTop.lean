import Verif.Proofs.ScopedWhole
import Verif.Proofs.RoundDoc
/-!
# Expanding a compacted document with scoped contexts
-/

namespace JsonLd.Sc
open JsonLd Spec Props Relation

section
variable {E : CEnv} {X : XEnv} {c : ACtx}

theorem insertContext_keyed {c' : ACtx} {es : List XEntry} (hk : Keyed X c' es)
    (hx : ∀ e ∈ es, e.term ≠ .keyword .context) (hne : es ≠ []) (ctx : Json) :
    insertContext ctx (xObj es) = xObj (contextX ctx ++ es) := by
  have hf : (xObj es).filter (fun e => decide (e.1 ≠ "@context".toList)) = xObj es := by
    refine filter_others_fresh (keyed_fresh (X := X) (c := c') hk (t := .keyword .context) (xKey_kw .context) ?_)
    intro hm
    obtain ⟨e, he, h⟩ := List.mem_map.1 hm
    exact hx e he h
  have hne' : (xObj es).isEmpty = false := by
    cases es with
    | nil => exact absurd rfl hne
    | cons => rfl
  unfold insertContext contextX
  rw [hne', hf]
  cases ctx with
  | null => rfl
  | arr l => cases l <;> simp [Json.isNull, Json.isEmptyCol, xObj]
  | obj l => cases l <;> simp [Json.isNull, Json.isEmptyCol, xObj]
  | _ => simp [Json.isNull, Json.isEmptyCol, xObj]

/-- The object at the top. -/
theorem top_at (hv : X.opts.vocab = .keep) {c0 c' : ACtx} (h0 : c0.previous = none) {l : SCtx} (hl : CtxOk X.isRef l)
    (hw : WrittenContext X c0 c l) {es : List XEntry} {n : Node} (hs : NodeSteps X c' c es n) (hn : Says (.node n))
    (hty : ∀ tes, typeEntries X c (xObj (contextX l.toJson ++ es)) = .ok tes → typeScoped X c tes = .ok c') :
    expandElement X c0 none (.obj (insertContext l.toJson (xObj es))) false = .ok (.object (.node n)) := by
  have hne : es ≠ [] := by
    rintro rfl
    have := hs.fold none (by simp)
    simp only [List.foldlM_nil, pure, Except.pure, Except.ok.injEq, XState.mk.injEq, and_true] at this
    obtain ⟨m, hm, h⟩ := hn
    cases hm
    rw [← this] at h
    simp [Node.blank, Node.isEmpty, Node.index] at h
  rw [insertContext_keyed hs.keyed (fun e he => (hs.terms e he).1) hne]
  have hkc : Keyed X c' (contextX l.toJson) := by
    unfold contextX
    split
    · nofun
    · intro e he
      rw [List.mem_singleton.1 he]
      exact xKey_kw .context
  have hctx : objContext X c0 none (xObj (contextX l.toJson ++ es)) false = .ok c := by
    unfold objContext
    obtain ⟨r, hr⟩ := prelim_keep hv c0 (xObj (contextX l.toJson ++ es))
    rw [hr]
    show localContext X (revert c0 _ false r) _ = _
    have h2 : revert c0 (xObj (contextX l.toJson ++ es)) false r = c0 := by unfold revert; rw [h0]
    rw [h2]
    unfold localContext
    have hf : (xObj es).filter (fun e => decide (e.1 = "@context".toList)) = [] := by
      refine filter_fresh (keyed_fresh (X := X) (c := c') hs.keyed (t := .keyword .context) (xKey_kw .context) ?_)
      intro hm
      obtain ⟨e, he, h⟩ := List.mem_map.1 hm
      exact (hs.terms e he).1 h
    rw [xObj_append, List.filter_append, hf, List.append_nil]
    unfold WrittenContext at hw
    unfold contextX
    split at hw
    · rename_i hj
      rw [if_pos hj]
      show Except.ok c0 = _
      rw [hw]
    · rename_i hj
      rw [if_neg hj]
      have : (xObj [⟨"@context".toList, .keyword .context, l.toJson⟩]).filter
          (fun e => decide (e.1 = "@context".toList)) = [("@context".toList, l.toJson)] := by
        simp [xObj]
      rw [this]
      simp only [readCtx_toJson l hl]
      unfold xProcess
      rw [hw]
  obtain ⟨it, h1⟩ := object_at hv hctx hty (hkc.append hs.keyed)
  rw [h1]
  have hterms : ∀ e ∈ contextX l.toJson, e.term = .keyword .context := by
    intro e he
    unfold contextX at he
    split at he
    · cases he
    · rw [List.mem_singleton.1 he]
  have hkw : ∀ k, k = .list ∨ k = .set ∨ k = .value → ∀ e ∈ contextX l.toJson ++ es, e.term ≠ .keyword k := by
    intro k hk e he
    rcases List.mem_append.1 he with he | he
    · rw [hterms e he]
      rcases hk with rfl | rfl | rfl <;> simp
    · rcases hk with rfl | rfl | rfl
      · exact (hs.terms e he).2.1
      · exact (hs.terms e he).2.2.1
      · exact (hs.terms e he).2.2.2
  unfold elemKind
  rw [lastEntry_none (hkw _ (.inl rfl)), lastEntry_none (hkw _ (.inr (.inl rfl))),
    lastEntry_none (hkw _ (.inr (.inr rfl)))]
  simp only [ite_self]
  unfold expandNode entriesBody
  rw [List.foldlM_append]
  have hcs : (contextX l.toJson).foldlM (entryStep X (unlimited X) c' c none)
      ⟨.mk none none none none none [] none, false⟩ = .ok ⟨Node.blank, false⟩ := by
    unfold contextX
    split <;> rfl
  rw [hcs]
  show Except.map _ (es.foldlM (entryStep X (unlimited X) c' c none) ⟨Node.blank, false⟩) = _
  rw [hs.fold none (by simp)]
  show Except.ok (nodeResult none ⟨n, false⟩) = _
  unfold nodeResult
  rw [if_neg (by simp), if_neg]
  obtain ⟨m, hm, h⟩ := hn
  cases hm
  rcases h with h | h
  · simp [h]
  · simp [h]

/-- The types at the top. -/
theorem top_types (hv : X.opts.vocab = .keep) (hp : c.previous = none) {n : Node} {j : Json} {c1 c' : ACtx} {ss : List Str}
    {es e2 : List XEntry} (h : NodeParts E X c none n j c1 ss c' es e2) (ctx : Json) :
    c1 = c ∧ ∀ tes, typeEntries X c (xObj (contextX ctx ++ es)) = .ok tes → typeScoped X c tes = .ok c' := by
  have hc : c1 = c := by
    obtain ⟨a, ha, hsc⟩ := h.contexts.start
    have ha' : a = c := by
      cases ha with
      | reference => rfl
      | node _ _ hr =>
        cases hr with
        | stay => rfl
        | back p h => rw [hp] at h; cases h
    subst ha'
    cases hsc with
    | none => rfl
    | within k d l _ _ h1 => cases h1
  subst hc
  have hkc : Keyed X c' (contextX ctx) := by
    unfold contextX
    split
    · nofun
    · intro e he
      rw [List.mem_singleton.1 he]
      exact xKey_kw .context
  refine ⟨rfl, typed_at hv h.node.aliases.2 (fun h0 => by
      have := h.contexts.names
      rw [h0] at this
      cases this
      rfl) h.contexts.types h.node.types.2.2 (hkc.append h.steps.keyed) h.typed ?_⟩
  rw [List.filter_append, h.filter, List.filter_eq_nil_iff.2, List.nil_append]
  intro e he
  unfold contextX at he
  split at he
  · cases he
  · rw [List.mem_singleton.1 he]
    simp

/-- The compacted objects of the document. -/
theorem docItems_at (H : NamedEnv E X c) {d : Doc} (hd : ∀ o ∈ d, o.WF) (hi : ∀ o ∈ d, Carries E X c none o) (ht : ∀ o ∈ d, Says o) {vs : List Json}
    (h : compactItems (compactObject E c c none) d = .ok vs) :
    List.Forall₂ (BackAt X c (some "@graph".toList)) vs d ∧
      ∀ v ∈ vs, ∃ n c1 ss c' es e2, .node n ∈ d ∧ NodeParts E X c none n v c1 ss c' es e2 := by
  induction d generalizing vs with
  | nil => cases h; exact ⟨.nil, nofun⟩
  | cons o os ih =>
    unfold compactItems at h
    obtain ⟨v, h1, h⟩ := bindOk.1 h
    obtain ⟨r, h2, h5⟩ := bindOk.1 h
    have hc := hi o (by simp)
    have hs := ht o (by simp)
    obtain ⟨n, rfl, -⟩ := ht o (by simp)
    rw [compactObject_eq] at h1
    have h1 : compactNode E (compactObject E) c c none n = .ok v := h1
    have hR : RecAt E X (compactObject E) := fun c p p' o j h1 h2 h3 h4 h5 h6 =>
      rec_at (envs H) H.vocab o.depth c p p' o j h1 h2 h3 h4 h5 h6
    have hsame : scopeOf c none = scopeOf c (some "@graph".toList) := (graph_noScope H .graph).symm
    obtain ⟨c1, ss, c', es, e2, hp⟩ := node_parts hR (envs H) rfl (hd _ (by simp)) hc h1
    obtain ⟨c1', ss', c'', es', e2', hp'⟩ := node_parts hR (envs H) hsame (hd _ (by simp)) (Carries.alike hc hsame) h1
    obtain ⟨h3, h4⟩ := ih (fun o ho => hd o (List.mem_cons_of_mem _ ho)) (fun o ho => hi o (List.mem_cons_of_mem _ ho))
      (fun o ho => ht o (List.mem_cons_of_mem _ ho)) h2
    have hj := hp.json
    subst hj
    have h5 : Except.ok (.obj (xObj es) :: r) = Except.ok vs := h5
    cases h5
    refine ⟨.cons (parts_back H.vocab (by decide) (fun _ => hs) hp') h3, fun v hv => ?_⟩
    rcases List.mem_cons.1 hv with rfl | hv
    · exact ⟨n, c1, ss, c', es, e2, by simp, hp⟩
    · obtain ⟨n, c1, ss, c', es, e2, h6, h7⟩ := h4 v hv
      exact ⟨n, c1, ss, c', es, e2, List.mem_cons_of_mem _ h6, h7⟩

theorem doc_at (H : NamedEnv E X c) (hprev : c.previous = none) {c0 : ACtx} (h0 : c0.previous = none) {l : SCtx} (hl : CtxOk X.isRef l) (hw : WrittenContext X c0 c l)
    {d : Doc} (hd : d.WF) (hi : ∀ o ∈ d, Carries E X c none o) (ht : ∀ o ∈ d, Says o)
    (hg : E.opts.compactArrays = true → ∀ o, d = [o] → unnamedGraph o = none) {j : Json}
    (h : compactDoc E c l d = .ok j) : expandDoc X c0 j = .ok d := by
  unfold compactDoc at h
  obtain ⟨v, h1, h⟩ := exBind_ok h
  unfold compactCollection at h1
  obtain ⟨vs, h2, h1⟩ := bindOk.1 h1
  have h1 : collect c none E.opts vs = v := Except.ok.inj h1
  obtain ⟨hb, hv⟩ := docItems_at H (objsWF_iff.1 hd.2) hi ht h2
  unfold embedContext at h
  obtain ⟨m, h3, hj⟩ := exMap_ok h
  clear h
  have several : vs ≠ [] → v = .arr vs → expandDoc X c0 j = .ok d := by
    intro hne hv'
    have h4 : ∃ k, cKey E c .graph = .ok k ∧ m = some [(k, .arr vs)] := by
      rw [hv'] at h3
      unfold embedObject at h3
      cases vs with
      | nil => exact absurd rfl hne
      | cons v vs =>
        dsimp only at h3
        obtain ⟨k, hk, h4⟩ := exMap_ok h3
        exact ⟨k, hk, h4.symm⟩
    obtain ⟨k, hk, rfl⟩ := h4
    have hp : pack true vs = .arr vs := by
      match vs with
      | [] => rfl
      | [v] => rfl
      | _ :: _ :: _ => rfl
    have hs := steps_graph_at H (a := true) (backKeys_round H.toBaseEnv _ _ hk) hb ht hd.1 (x := none) (i := none) (ty := none)
      (inc := none) (ps := []) (rv := none)
    rw [hp] at hs
    have := top_at H.vocab h0 hl hw ⟨hs.keyed, hs.terms, fun p hp => hs.fold p hp⟩ ⟨_, rfl, .inl rfl⟩
      (noTypes_scoped H.vocab (same_refl c) (by
        refine Keyed.append (fun e he => ?_) hs.keyed
        unfold contextX at he
        split at he
        · cases he
        · rw [List.mem_singleton.1 he]
          exact xKey_kw .context) (by
        intro e he
        rcases List.mem_append.1 he with he | he
        · unfold contextX at he
          split at he
          · cases he
          · rw [List.mem_singleton.1 he]
            simp
        · rw [List.mem_singleton.1 he]
          simp))
    rw [← hj]
    unfold expandDoc
    show Except.map docResult (expandElement X c0 none (.obj (insertContext l.toJson
      (xObj [⟨k, .keyword .graph, .arr vs⟩]))) false) = _
    rw [this]
    rfl
  match vs, d, hb with
  | [], _, .nil =>
    subst h1
    cases h3
    rw [← hj]
    show expandDoc X c0 (.obj []) = _
    exact empty_back c0 h0
  | [w], [o], _ =>
    unfold collect at h1
    dsimp only at h1
    split at h1
    · exact several (by simp) h1.symm
    · rename_i hca
      subst h1
      obtain ⟨n, c1, ss, c', es, e2, hn, hs⟩ := hv w (by simp)
      rw [List.mem_singleton] at hn
      subst hn
      obtain ⟨rfl, hty⟩ := top_types H.vocab hprev hs l.toJson
      have hjs := hs.json
      subst hjs
      cases h3
      rw [← hj]
      unfold expandDoc
      show Except.map docResult (expandElement X c0 none (.obj (insertContext l.toJson (xObj es))) false) = _
      rw [top_at H.vocab h0 hl hw hs.steps (ht _ (by simp)) hty]
      show Except.ok (docResult _) = _
      have hg := hg (by
        cases hx : E.opts.compactArrays with
        | true => rfl
        | false => rw [hx] at hca; simp at hca) _ rfl
      unfold docResult
      simp only [Expanded.toList, hg]
      rfl
  | w :: w' :: ws, _, _ =>
    exact several (by simp) h1.symm

end

end JsonLd.Sc
