import Verif.Proofs.MapsWhole
import Verif.Proofs.RoundDoc
import Verif.Proofs.Canonical
/-!
# Expanding a compacted document, up to equality
-/

namespace JsonLd
open Spec Props Relation

section
variable {E : CEnv} {X : XEnv} {c : ACtx} (H : MapEnv E X c)
include H

theorem object_shown : RecShown E X c (compactObject E) :=
  ⟨fun prop n j ho h => (rec_shown H (Obj.node n).depth).node prop n j ho h,
    fun t i v j hv ht hc h => (rec_shown H (Obj.value i v).depth).value t i v j hv ht hc h⟩

omit H in
theorem same_docs {d' d : Doc} (h : List.Forall₂ Same d' d) (hd : d.WF) : d'.WF ∧ d'.eq d = true := by
  have hw : d'.WF := ⟨forall₂_pairwise h hd.1, objsWF_iff.2 (forall₂_left h fun _ _ h => h.wf')⟩
  exact ⟨hw, (doc_eq_iff hw hd).2 (same_eq h)⟩

omit H in
theorem same_unnamed {a b : Obj} (h : Same a b) (hb : unnamedGraph b = none) : unnamedGraph a = none := by
  cases a with
  | node n =>
    obtain ⟨m, rfl⟩ := same_node h.symm
    obtain ⟨-, h2, h3, h4, h5, h6, h7⟩ := same_rel h
    unfold unnamedGraph at hb ⊢
    dsimp only at hb ⊢
    have hp : ∀ {α β : Type} {x : List α} {y : List β}, x.length = y.length → x.isEmpty = y.isEmpty := by
      intro α β x y h
      cases x <;> cases y <;> first | rfl | cases h
    have : n.isGraph = m.isGraph := by
      have g3 := optRel_isNone h3
      have g4 := optRel_isNone h4
      have g5 := optRel_isNone h5
      have g6 := hp h6.length_eq
      have g7 := optRel_isNone h7
      cases n; cases m
      simp only [Node.types, Node.graph, Node.included, Node.props, Node.rev] at g3 g4 g5 g6 g7
      unfold Node.isGraph
      simp only [g3, g5, g6, g7, ← Option.not_isNone, g4]
    rw [this, h2]
    split at hb
    · rename_i hx
      rw [if_pos hx]
      have g4 := optRel_isNone h4
      rw [hb] at g4
      exact Option.isNone_iff_eq_none.1 g4
    · rename_i hx
      rw [if_neg hx]
  | _ => rfl

/-- The compacted objects of the document. -/
theorem docItems_made {d : Doc} (hi : ∀ o ∈ d, PlacedObj E.toCompEnv c o) (ht : ∀ o ∈ d, Says o) {vs : List Json}
    (h : compactItems (compactObject E c c none) d = .ok vs) :
    List.Forall₂ (fun v o => ∃ n, o = .node n ∧ Made X c v n) vs d := by
  induction d generalizing vs with
  | nil => cases h; exact .nil
  | cons o os ih =>
    unfold compactItems at h
    obtain ⟨v, h1, h'⟩ := bindOk.1 h
    obtain ⟨r, h2, hr⟩ := bindOk.1 h'
    have hc := hi o (by simp)
    obtain ⟨n, rfl, -⟩ := ht o (by simp)
    have hm := ((object_shown H).node _ _ _ hc h1).made H rfl nofun
    have h3 := ih (fun o ho => hi o (List.mem_cons_of_mem _ ho)) (fun o ho => ht o (List.mem_cons_of_mem _ ho)) h2
    have hnull : v.isNull = false := by
      obtain ⟨es, n', rfl, -⟩ := hm
      rfl
    rw [hnull] at hr
    cases hr
    exact .cons ⟨n, rfl, hm⟩ h3

theorem doc_made {c0 : ACtx} (h0 : c0.previous = none) {l : SCtx} (hl : CtxOk X.isRef l) (hw : WrittenContext X c0 c l)
    {d : Doc} (hd : d.WF) (hi : ∀ o ∈ d, PlacedObj E.toCompEnv c o) (ht : ∀ o ∈ d, Says o)
    (hg : E.opts.compactArrays = true → ∀ o, d = [o] → unnamedGraph o = none) {j : Json}
    (h : compactDoc E c l d = .ok j) : ∃ d', expandDoc X c0 j = .ok d' ∧ List.Forall₂ Same d' d := by
  unfold compactDoc at h
  obtain ⟨v, h1, h⟩ := exBind_ok h
  unfold compactCollection at h1
  obtain ⟨vs, h2, h1⟩ := bindOk.1 h1
  have h1 : collect c none E.opts vs = v := Except.ok.inj h1
  have hb := docItems_made H hi ht h2
  unfold embedContext at h
  obtain ⟨m, h3, hj⟩ := exMap_ok h
  clear h
  have several : vs ≠ [] → v = .arr vs → ∃ d', expandDoc X c0 j = .ok d' ∧ List.Forall₂ Same d' d := by
    intro hne hv'
    have h4 : ∃ k, cKey E c .graph = .ok k ∧ m = some [(k, .arr vs)] := by
      rw [hv'] at h3
      unfold embedObject at h3
      cases vs with
      | nil => exact absurd rfl hne
      | cons v vs =>
        dsimp only at h3
        obtain ⟨k, hk, h4⟩ := exMap_ok h3
        exact ⟨k, hk, h4.symm⟩
    obtain ⟨k, hk, rfl⟩ := h4
    have hp : pack true vs = .arr vs := by
      match vs with
      | [] => rfl
      | [v] => rfl
      | _ :: _ :: _ => rfl
    have hshown : List.Forall₂ (Shown X c (some "@graph".toList)) vs d :=
      forall₂_mem_imp hb fun v _ o ho h => by
        obtain ⟨n, rfl, hm⟩ := h
        exact hm.shown H (by decide) fun _ => ht _ ho
    obtain ⟨os', hos, hs⟩ := graph_steps H (a := true) (backKeys_round H.toBaseEnv _ _ hk) hshown ht hd.1
    have := top_back H.toBaseEnv (value_calm H.ctx) h0 hl hw (hs none none none none [] none) ⟨_, rfl, .inl rfl⟩
    rw [hp] at this
    refine ⟨os', ?_, hos⟩
    rw [← hj]
    unfold expandDoc
    show Except.map docResult (expandElement X c0 none (.obj (insertContext l.toJson
      (xObj [⟨k, .keyword .graph, .arr vs⟩]))) false) = _
    rw [this]
    rfl
  match vs, d, hb with
  | [], _, .nil =>
    subst h1
    cases h3
    refine ⟨[], ?_, .nil⟩
    rw [← hj]
    show expandDoc X c0 (.obj []) = _
    exact empty_back c0 h0
  | [w], [o], hb =>
    unfold collect at h1
    dsimp only at h1
    split at h1
    · exact several (by simp) h1.symm
    · rename_i hca
      subst h1
      have hg := hg (by
        cases hx : E.opts.compactArrays with
        | true => rfl
        | false => rw [hx] at hca; simp at hca) _ rfl
      have ht := ht o (by simp)
      cases hb with
      | cons hb _ =>
        obtain ⟨n, rfl, es, n', rfl, hs, hsame⟩ := hb
        cases h3
        refine ⟨[.node n'], ?_, .cons hsame .nil⟩
        rw [← hj]
        unfold expandDoc
        show Except.map docResult (expandElement X c0 none (.obj (insertContext l.toJson (xObj es))) false) = _
        rw [top_back H.toBaseEnv (value_calm H.ctx) h0 hl hw hs (says_same hsame ht)]
        show Except.ok (docResult _) = _
        unfold docResult
        simp only [Expanded.toList, same_unnamed hsame hg]
        rfl
  | w :: w' :: ws, _, _ =>
    exact several (by simp) h1.symm

end

end JsonLd
