import Verif.Proofs.RoundWhole
import Verif.Proofs.CtxJsonRead
/-!
# Expanding a compacted document
-/

namespace JsonLd
open Spec Props Relation

/-- The entry for the context, if it is written. -/
def contextX (j : Json) : List XEntry :=
  if j = .null ∨ j = .arr [] ∨ j = .obj [] then [] else [⟨"@context".toList, .keyword .context, j⟩]

section
variable {E : CEnv} {X : XEnv} {c : ACtx} (H : RoundEnv E X c)
include H

/-- The compacted objects of the document. -/
theorem docItems_back {d : Doc} (hi : ∀ o ∈ d, Carried E.toCompEnv c o) (ht : ∀ o ∈ d, Says o) {vs : List Json}
    (h : compactItems (compactObject E c c none) d = .ok vs) :
    List.Forall₂ (Back X c) vs d ∧
      ∀ v ∈ vs, ∃ es n, v = .obj (xObj es) ∧ .node n ∈ d ∧ KeySteps X c es Node.blank n := by
  induction d generalizing vs with
  | nil => cases h; exact ⟨.nil, nofun⟩
  | cons o os ih =>
    unfold compactItems at h
    obtain ⟨v, h1, h⟩ := bindOk.1 h
    obtain ⟨r, h2, h⟩ := bindOk.1 h
    have hc := hi o (by simp)
    obtain ⟨n, rfl, -⟩ := ht o (by simp)
    rw [compactObject_eq] at h1
    have h1 : compactNode E (compactObject E) c c none n = .ok v := h1
    have hR : RecBack E X c (compactObject E) := fun prop o j ho hj => rec_back H o.depth prop o j ho hj
    obtain ⟨es, rfl, hs⟩ := node_back H hR hc h1
    obtain ⟨h3, h4⟩ := ih (fun o ho => hi o (List.mem_cons_of_mem _ ho)) (fun o ho => ht o (List.mem_cons_of_mem _ ho)) h2
    have h : Except.ok (.obj (xObj es) :: r) = Except.ok vs := h
    cases h
    refine ⟨.cons (steps_back H.toBaseEnv (plain_calm H.plain) hs) h3, fun v hv => ?_⟩
    rcases List.mem_cons.1 hv with rfl | hv
    · exact ⟨es, n, rfl, by simp, hs⟩
    · obtain ⟨es, n, h5, h6, h7⟩ := h4 v hv
      exact ⟨es, n, h5, List.mem_cons_of_mem _ h6, h7⟩

omit H in
theorem insertContext_entries {es : List XEntry} {n : Node} (hs : KeySteps X c es Node.blank n) (hne : es ≠ []) (ctx : Json) :
    insertContext ctx (xObj es) = xObj (contextX ctx ++ es) := by
  have hf : (xObj es).filter (fun e => decide (e.1 ≠ "@context".toList)) = xObj es := by
    refine filter_others_fresh (keyed_fresh (X := X) (c := c) hs.keyed (t := .keyword .context) (xKey_kw .context) ?_)
    intro hm
    obtain ⟨e, he, h⟩ := List.mem_map.1 hm
    exact (hs.terms e he).1 h
  have hne' : (xObj es).isEmpty = false := by
    cases es with
    | nil => exact absurd rfl hne
    | cons => rfl
  unfold insertContext contextX
  rw [hne', hf]
  cases ctx with
  | null => rfl
  | arr l => cases l <;> simp [Json.isNull, Json.isEmptyCol, xObj]
  | obj l => cases l <;> simp [Json.isNull, Json.isEmptyCol, xObj]
  | _ => simp [Json.isNull, Json.isEmptyCol, xObj]

omit H in
/-- The object at the top. -/
theorem top_back (H : BaseEnv E X c) (hcalm : CalmCtx c) {c0 : ACtx} (h0 : c0.previous = none) {l : SCtx} (hl : CtxOk X.isRef l) (hw : WrittenContext X c0 c l)
    {es : List XEntry} {n : Node} (hs : KeySteps X c es Node.blank n) (hn : Says (.node n)) :
    expandElement X c0 none (.obj (insertContext l.toJson (xObj es))) false = .ok (.object (.node n)) := by
  have hne : es ≠ [] := by
    rintro rfl
    have := hs.fold none (by simp)
    simp only [List.foldlM_nil, pure, Except.pure, Except.ok.injEq, XState.mk.injEq, and_true] at this
    obtain ⟨m, hm, h⟩ := hn
    cases hm
    rw [← this] at h
    simp [Node.blank, Node.isEmpty, Node.index] at h
  rw [insertContext_entries hs hne]
  have hkc : Keyed X c (contextX l.toJson) := by
    unfold contextX
    split
    · nofun
    · intro e he
      rw [List.mem_singleton.1 he]
      exact xKey_kw .context
  have hctx : objContext X c0 none (xObj (contextX l.toJson ++ es)) false = .ok c := by
    unfold objContext
    obtain ⟨r, hr⟩ := prelim_keep H.vocab c0 (xObj (contextX l.toJson ++ es))
    rw [hr]
    show localContext X (revert c0 _ false r) _ = _
    have h2 : revert c0 (xObj (contextX l.toJson ++ es)) false r = c0 := by unfold revert; rw [h0]
    rw [h2]
    unfold localContext
    have hf : (xObj es).filter (fun e => decide (e.1 = "@context".toList)) = [] := by
      refine filter_fresh (keyed_fresh (X := X) (c := c) hs.keyed (t := .keyword .context) (xKey_kw .context) ?_)
      intro hm
      obtain ⟨e, he, h⟩ := List.mem_map.1 hm
      exact (hs.terms e he).1 h
    rw [xObj_append, List.filter_append, hf, List.append_nil]
    unfold WrittenContext at hw
    unfold contextX
    split at hw
    · rename_i hj
      rw [if_pos hj]
      show Except.ok c0 = _
      rw [hw]
    · rename_i hj
      rw [if_neg hj]
      have : (xObj [⟨"@context".toList, .keyword .context, l.toJson⟩]).filter
          (fun e => decide (e.1 = "@context".toList)) = [("@context".toList, l.toJson)] := by
        simp [xObj]
      rw [this]
      simp only [readCtx_toJson l hl]
      unfold xProcess
      rw [hw]
  obtain ⟨it, h1⟩ := object_in H.vocab hcalm hctx (hkc.append hs.keyed)
  rw [h1]
  have hterms : ∀ k, k = .list ∨ k = .set ∨ k = .value → ∀ e ∈ contextX l.toJson ++ es, e.term ≠ .keyword k := by
    intro k hk e he
    rcases List.mem_append.1 he with he | he
    · unfold contextX at he
      split at he
      · cases he
      · rw [List.mem_singleton.1 he]
        rcases hk with rfl | rfl | rfl <;> simp
    · rcases hk with rfl | rfl | rfl
      · exact (hs.terms e he).2.1
      · exact (hs.terms e he).2.2.1
      · exact (hs.terms e he).2.2.2
  unfold elemKind
  rw [lastEntry_none (hterms _ (.inl rfl)), lastEntry_none (hterms _ (.inr (.inl rfl))),
    lastEntry_none (hterms _ (.inr (.inr rfl)))]
  simp only [ite_self]
  unfold expandNode entriesBody
  rw [List.foldlM_append]
  have hcs : (contextX l.toJson).foldlM (entryStep X (unlimited X) c c none)
      ⟨.mk none none none none none [] none, false⟩ = .ok ⟨Node.blank, false⟩ := by
    unfold contextX
    split <;> rfl
  rw [hcs]
  show Except.map _ (es.foldlM (entryStep X (unlimited X) c c none) ⟨Node.blank, false⟩) = _
  rw [hs.fold none (by simp)]
  show Except.ok (nodeResult none ⟨n, false⟩) = _
  unfold nodeResult
  rw [if_neg (by simp), if_neg]
  obtain ⟨m, hm, h⟩ := hn
  cases hm
  rcases h with h | h
  · simp [h]
  · simp [h]

omit H in
theorem empty_back (c0 : ACtx) (h0 : c0.previous = none) : expandDoc X c0 (.obj []) = .ok [] := by
  unfold expandDoc
  rw [C49_unfold]
  have : elemBody X (unlimited X) c0 none (.obj []) false = .ok .null := by
    show elemObj .. = _
    unfold elemObj
    have : objContext X c0 none [] false = .ok c0 := by
      unfold objContext revert
      rw [h0]
      rfl
    rw [this]
    rfl
  rw [this]
  rfl

theorem doc_back {c0 : ACtx} (h0 : c0.previous = none) {l : SCtx} (hl : CtxOk X.isRef l) (hw : WrittenContext X c0 c l)
    {d : Doc} (hd : d.WF) (hi : ∀ o ∈ d, Carried E.toCompEnv c o) (ht : ∀ o ∈ d, Says o)
    (hg : E.opts.compactArrays = true → ∀ o, d = [o] → unnamedGraph o = none) {j : Json}
    (h : compactDoc E c l d = .ok j) : expandDoc X c0 j = .ok d := by
  unfold compactDoc at h
  obtain ⟨v, h1, h⟩ := exBind_ok h
  unfold compactCollection at h1
  obtain ⟨vs, h2, h1⟩ := bindOk.1 h1
  have h1 : collect c none E.opts vs = v := Except.ok.inj h1
  obtain ⟨hb, hv⟩ := docItems_back H hi ht h2
  unfold embedContext at h
  obtain ⟨m, h3, hj⟩ := exMap_ok h
  clear h
  have several : vs ≠ [] → v = .arr vs → expandDoc X c0 j = .ok d := by
    intro hne hv'
    have h4 : ∃ k, cKey E c .graph = .ok k ∧ m = some [(k, .arr vs)] := by
      rw [hv'] at h3
      unfold embedObject at h3
      cases vs with
      | nil => exact absurd rfl hne
      | cons v vs =>
        dsimp only at h3
        obtain ⟨k, hk, h4⟩ := exMap_ok h3
        exact ⟨k, hk, h4.symm⟩
    obtain ⟨k, hk, rfl⟩ := h4
    have hp : pack true vs = .arr vs := by
      match vs with
      | [] => rfl
      | [v] => rfl
      | _ :: _ :: _ => rfl
    have hs := steps_graph H (a := true) (backKeys_round H.toBaseEnv _ _ hk) hb ht hd.1 (x := none) (i := none) (ty := none)
      (inc := none) (ps := []) (rv := none)
    have := top_back H.toBaseEnv (plain_calm H.plain) h0 hl hw hs ⟨_, rfl, .inl rfl⟩
    rw [hp] at this
    rw [← hj]
    unfold expandDoc
    show Except.map docResult (expandElement X c0 none (.obj (insertContext l.toJson
      (xObj [⟨k, .keyword .graph, .arr vs⟩]))) false) = _
    rw [this]
    rfl
  match vs, d, hb with
  | [], _, .nil =>
    subst h1
    cases h3
    rw [← hj]
    show expandDoc X c0 (.obj []) = _
    exact empty_back c0 h0
  | [w], [o], _ =>
    unfold collect at h1
    dsimp only at h1
    split at h1
    · exact several (by simp) h1.symm
    · rename_i hca
      subst h1
      obtain ⟨es, n, rfl, hn, hs⟩ := hv w (by simp)
      rw [List.mem_singleton] at hn
      subst hn
      cases h3
      rw [← hj]
      unfold expandDoc
      show Except.map docResult (expandElement X c0 none (.obj (insertContext l.toJson (xObj es))) false) = _
      rw [top_back H.toBaseEnv (plain_calm H.plain) h0 hl hw hs (ht _ (by simp))]
      show Except.ok (docResult _) = _
      have hg := hg (by
        cases hx : E.opts.compactArrays with
        | true => rfl
        | false => rw [hx] at hca; simp at hca) _ rfl
      unfold docResult
      simp only [Expanded.toList, hg]
      rfl
  | w :: w' :: ws, _, _ =>
    exact several (by simp) h1.symm

end

end JsonLd
