import Verif.Proofs.MapsShow
/-!
# Objects in maps
-/

namespace JsonLd
open Spec Props Relation

/-! ## Containers -/

theorem value_containers {mode : ProcMode} {i : Option Str} {v : Value} {k : Container}
    (h : k ∈ allContainers mode (some (.value i v)) false) :
    k ∈ [.set, .none, .index, .indexSet] ∨ (k ∈ [.language, .languageSet] ∧ i = none ∧ (hasLangDir v = true ∨ v.typeMap = none)) := by
  simp only [allContainers, valueContainers, isSimpleValue, List.mem_append] at h
  revert h
  cases i <;> cases k <;> simp <;> tauto

theorem node_containers {mode : ProcMode} {n : Node} {k : Container} (hg : n.isGraph = false)
    (h : k ∈ allContainers mode (some (.node n)) false) :
    k ∈ [.id, .idSet, .type, .setType, .set, .none, .index, .indexSet] := by
  simp only [allContainers, valueContainers, isSimpleValue, List.mem_append, hg] at h
  rcases h with ((((h | h) | h) | h) | h)
  · split at h
    · simp at h; rcases h with rfl | rfl <;> decide
    · cases h
  · simp at h; rcases h with rfl | rfl | rfl | rfl | rfl <;> decide
  · simp at h; subst h; decide
  · split at h
    · simp at h; rcases h with rfl | rfl <;> decide
    · cases h
  · simp at h

theorem graph_containers {mode : ProcMode} {n : Node} {k : Container} (hg : n.isGraph = true)
    (h : k ∈ allContainers mode (some (.node n)) false) :
    k = .set ∨ k = .none ∨ k = .graph ∨ k = .graphSet ∨ k = .graphId ∨ k = .graphIdSet ∨ k = .graphIndex ∨
      k = .graphIndexSet ∨ k = .index ∨ k = .indexSet := by
  simp only [allContainers, valueContainers, isSimpleValue, graphContainers, List.mem_append, hg] at h
  revert h
  cases k <;> simp

theorem list_containers {mode : ProcMode} {i : Option Str} {l : List Obj} {k : Container}
    (h : k ∈ allContainers mode (some (.list i l)) false) (h2 : .index ∉ k.asSlice) :
    k = .none ∨ (k = .list ∧ i = none) := by
  simp only [allContainers, valueContainers, isSimpleValue, List.mem_append] at h
  revert h h2
  cases i <;> cases k <;> simp [Container.asSlice]

theorem rev_containers {mode : ProcMode} {o : Obj} {k : Container}
    (h : k ∈ allContainers mode (some o) true) (h2 : .index ∉ k.asSlice) : k = .set ∨ k = .none := by
  simp only [allContainers, List.mem_append] at h
  have hs : isSimpleValue (some o) true = false := by
    cases o <;> rfl
  rw [hs] at h
  revert h h2
  cases k <;> simp [Container.asSlice]

/-! ## Keys of maps -/

theorem notNone_key {X : XEnv} {c : ACtx} (hv : X.opts.vocab = .keep) (hd : ∀ k d, lookupKey k c.defs = some d → ∃ t, d.value = some t ∧ t ≠ .null)
    {i : Str} (h : NotNone c i) : ∃ t, expandedIndex X c i = .ok (some t) ∧ xKey X c i = .ok (some t) ∧ t ≠ .keyword .none := by
  have : ∃ t, expandIri X.toIriEnv c (some (.ofStr i)) false (some .keep) = .ok (some t) ∧ t ≠ .null ∧ t ≠ .keyword .none := by
    have hnk : isKeywordLike i = false := by
      cases hx : isKeywordLike i with
      | false => rfl
      | true => exact absurd ((C01_form _).1 hx) h.1
    rw [ofStr_plain h.1]
    unfold expandIri expandStr
    simp only [hnk, Bool.false_eq_true, if_false]
    have tail : ∃ t, expandTail X.toIriEnv c i false (some .keep) = .ok (some t) ∧ t ≠ .null ∧ t ≠ .keyword .none := by
      unfold expandTail
      split
      · rename_i a _ h _
        cases h
        exact ⟨_, rfl, nofun, nofun⟩
      · exact ⟨_, rfl, nofun, nofun⟩
      · exact ⟨_, rfl, nofun, nofun⟩
    split
    · rename_i t ht
      refine ⟨t, rfl, ?_⟩
      unfold expandTerm at ht
      have hgv : ∀ v, c.getValue i = some v → ∃ d, c.get i = some d ∧ d.value = v ∧ lookupKey i c.defs = some d := by
        intro v hv
        have hne : i ≠ "@type".toList := by
          rintro rfl
          exact h.1 ((C01_form _).1 (by decide))
        unfold ACtx.getValue at hv
        rw [if_neg hne] at hv
        obtain ⟨d, h1, h2⟩ := Option.map_eq_some_iff.1 hv
        refine ⟨d, ?_, h2, h1⟩
        unfold ACtx.get
        rw [if_neg hne]
        exact h1
      split at ht
      · cases ht
      · rename_i v hv'
        obtain ⟨d, h1, h2, h3⟩ := hgv v hv'
        obtain ⟨t', h4, h5⟩ := hd i d h3
        rw [h4] at h2
        subst h2
        simp only [Option.isSome_some, Bool.or_true, if_true, Option.some.injEq] at ht
        subst ht
        exact ⟨h5, fun h6 => h.2 d h1 (by rw [h4, h6])⟩
    · split
      · split
        · exact ⟨_, rfl, nofun, nofun⟩
        · split
          · exact ⟨_, rfl, nofun, nofun⟩
          · split
            · rename_i t ht
              refine ⟨t, rfl, ?_⟩
              obtain ⟨q, -, hq⟩ := Option.bind_eq_some_iff.1 ht
              unfold expandPrefix at hq
              split at hq
              · cases hq
              · split at hq
                · obtain ⟨m, -, rfl⟩ := Option.map_eq_some_iff.1 hq
                  exact ⟨nofun, nofun⟩
                · cases hq
            · split
              · exact ⟨_, rfl, nofun, nofun⟩
              · exact tail
      · exact tail
  obtain ⟨t, h1, h2, h3⟩ := this
  have hk : xKey X c i = .ok (some t) := by
    unfold xKey xIri
    rw [hv, h1]
  refine ⟨t, ?_, hk, h3⟩
  unfold expandedIndex
  rw [hk]
  show Except.ok (if some t = some CTerm.null ∨ some t = some (CTerm.keyword .none) then none else some t) = _
  rw [if_neg]
  simp [h2, h3]

theorem notNone_id {env : IriEnv} {c : ACtx} (hc : c.typeDef = none) {s : Str} {i : Id}
    (h : expandIri env c (some (.ofStr s)) true none = .ok (some (.id i))) : NotNone c s := by
  have hk : ¬ KeywordForm s := by
    intro hk
    unfold Expandable.ofStr at h
    split at h
    · cases h
    · unfold expandIri expandStr at h
      simp only [(C01_form _).2 hk, if_true] at h
      cases h
  refine ⟨hk, fun d hd hv => ?_⟩
  rw [ofStr_plain hk] at h
  unfold expandIri expandStr at h
  have hnk : isKeywordLike s = false := by
    cases hx : isKeywordLike s with
    | false => rfl
    | true => exact absurd ((C01_form _).1 hx) hk
  have hgv : c.getValue s = some (some (.keyword .none)) := by
    unfold ACtx.get at hd
    unfold ACtx.getValue
    split at hd
    · rw [hc] at hd; cases hd
    · rename_i hne
      rw [if_neg hne, hd, Option.map_some, hv]
  simp only [hnk, Bool.false_eq_true, if_false, expandTerm, hgv, CTerm.isKeyword, Bool.true_or, if_true] at h
  cases h

/-! ## Items of maps -/

/-- The value `v` under the key `mk` of the map of `key` stands for the object `o`. -/
structure InMap (X : XEnv) (c : ACtx) (key mk : Str) (v : Json) (o : Obj) : Prop where
  notArray : NotArray v
  lang : (defContainer (c.get key)).contains .language = true →
    ∃ o', langMapItem X c (literalDirection c (c.get key)) mk v = .ok [o'] ∧ Same o' o
  other : (defContainer (c.get key)).contains .language = false →
    ∃ o1 t o', expandElement X c (some key) v true = .ok (.object o1) ∧ expandedIndex X c mk = .ok t ∧
      mapItem X c (defContainer (c.get key)) "@index".toList mk t o1 = .ok [o'] ∧ Same o' o

section
variable {E : CEnv} {X : XEnv} {c : ACtx} (H : MapEnv E X c)
include H

theorem none_key {k : Str} (h : cKey E c .none = .ok k) : expandedIndex X c k = .ok none ∧ xKey X c k = .ok (some (.keyword .none)) := by
  have := backKeys_round H.toBaseEnv _ _ h
  refine ⟨?_, this⟩
  unfold expandedIndex
  rw [this]
  rfl

theorem index_term {i : Str} (h : NotNone c i) :
    ∃ t, expandedIndex X c i = .ok (some t) ∧ xKey X c i = .ok (some t) ∧ t ≠ .keyword .none :=
  notNone_key H.vocab (fun k d hd => (H.ctx.defs (k, d) (lookupKey_mem hd)).value) h

/-- Values in maps by language. -/
theorem lang_inMap {key : Str} (hk : (defContainer (c.get key)).contains .language = true) {v : Value}
    (hv : PlacedValue E.toCompEnv c v) (hm : ∀ d, c.get key = some d → .language ∈ d.container.asSlice → InLanguageMap c key v)
    (hl : hasLangDir v = true ∨ v.typeMap = none) {mk : Str}
    (h : mapKeyOr E c (cLangItem v).1 = .ok mk) : InMap X c key mk (cLangItem v).2 (.value none v) := by
  obtain ⟨d, hd, hdc⟩ : ∃ d, c.get key = some d ∧ .language ∈ d.container.asSlice := by
    cases hd : c.get key with
    | none => rw [hd] at hk; cases hk
    | some d =>
      rw [hd] at hk
      refine ⟨d, rfl, ?_⟩
      simpa [defContainer, Container.contains] using hk
  have hdir : ∀ x, DefaultDirection c key x → literalDirection c (c.get key) = x := by
    rintro x (⟨d', h1, h2⟩ | ⟨h1, h2⟩)
    · rw [h1]; unfold literalDirection; rw [Option.bind_some, h2]
    · rw [hd]; unfold literalDirection; rw [Option.bind_some, h1 d hd]; exact h2.symm
  cases hv with
  | plain l h1 =>
    obtain ⟨⟨s, rfl⟩, h3⟩ := hm d hd hdc
    refine ⟨nofun, fun _ => ?_, fun hx => by rw [hk] at hx; cases hx⟩
    obtain ⟨-, h4⟩ := none_key H (show cKey E c .none = .ok mk from h)
    rw [hdir _ h3]
    refine ⟨_, ?_, .refl trivial⟩
    show (xKey X c mk).map _ = _
    rw [h4]
    rfl
  | typed l ty => rcases hl with hl | hl <;> cases hl
  | json j => rcases hl with hl | hl <;> cases hl
  | lang s h1 h2 h3 h4 =>
    refine ⟨nofun, fun _ => ?_, fun hx => by rw [hk] at hx; cases hx⟩
    rw [hdir _ (hm d hd hdc)]
    cases hlang : s.language with
    | none =>
      have h : mapKeyOr E c s.language = .ok mk := h
      rw [hlang] at h
      obtain ⟨-, h6⟩ := none_key H (show cKey E c .none = .ok mk from h)
      refine ⟨_, ?_, .refl trivial⟩
      show (xKey X c mk).map _ = _
      rw [h6]
      simp only [Except.map, if_true, langItem, LangString.new]
      have : s.direction.isSome = true := by
        rw [hlang] at h1
        exact Option.isSome_iff_ne_none.2 (h1.resolve_left fun h => h rfl)
      rw [this]
      cases s
      cases hlang
      rfl
    | some l =>
      have h : mapKeyOr E c s.language = .ok mk := h
      rw [hlang] at h
      cases h
      obtain ⟨t, -, h6, h7⟩ := index_term H (h2 mk hlang)
      refine ⟨_, ?_, .refl trivial⟩
      show (xKey X c mk).map _ = _
      rw [h6]
      simp only [Except.map, Option.some.injEq, h7, if_false, langItem, LangString.new, Option.isSome_some, Bool.true_or, if_true]
      cases s
      cases hlang
      rfl

/-- Objects in maps under `@none`. -/
theorem none_inMap {key : Str} (hk : (defContainer (c.get key)).contains .language = false)
    (hg : (defContainer (c.get key)).contains .graph = false) {v : Json} {o : Obj} (hs : Shows X c key v o)
    (hi : (defContainer (c.get key)).contains .index = true → o.index = none) {mk : Str}
    (h : mapKeyOr E c none = .ok mk) : InMap X c key mk v o := by
  refine ⟨hs.notArray, fun hx => (by rw [hk] at hx; cases hx), fun _ => ?_⟩
  obtain ⟨o1, h1, h2⟩ := hs.expand true
  obtain ⟨h3, -⟩ := none_key H (show cKey E c .none = .ok mk from h)
  refine ⟨o1, none, o1, h1, h3, ?_, ?_⟩
  · unfold mapItem
    rw [hg]
    rfl
  · have : Obj.unindexed ((defContainer (c.get key)).contains .index) o = o := by
      unfold Obj.unindexed
      split
      · rename_i hx
        exact setIndex_same (hi hx)
      · rfl
    rw [this] at h2
    exact h2

omit H in
theorem same_index {a b : Obj} (h : Same a b) : a.index = b.index := by
  have he := h.eq
  cases a <;> cases b <;> try (simp only [Obj.eq, Bool.false_eq_true] at he; done)
  · simp only [Obj.eq, Bool.and_eq_true, decide_eq_true_eq] at he
    exact he.1
  · simp only [Obj.eq, Bool.and_eq_true, decide_eq_true_eq] at he
    exact he.1
  · rename_i n m
    simp only [Obj.eq] at he
    exact ((node_eq_iff (show n.WF from h.wf') (show m.WF from h.wf)).1 he).1

/-- Objects in maps by index. -/
theorem index_inMap {key : Str} (hk : (defContainer (c.get key)).contains .language = false)
    (hg : (defContainer (c.get key)).contains .graph = false) (hx : (defContainer (c.get key)).contains .index = true)
    {v : Json} {o : Obj} (hs : Shows X c key v o)
    (hi : ∀ i, o.index = some i → NotNone c i) {mk : Str}
    (h : mapKeyOr E c o.index = .ok mk) : InMap X c key mk v o := by
  cases hoi : o.index with
  | none =>
    rw [hoi] at h
    exact none_inMap H hk hg hs (fun _ => hoi) h
  | some i =>
    rw [hoi] at h
    cases h
    refine ⟨hs.notArray, fun hx => (by rw [hk] at hx; cases hx), fun _ => ?_⟩
    obtain ⟨o1, h1, h2⟩ := hs.expand true
    obtain ⟨t, h3, -⟩ := index_term H (hi mk hoi)
    rw [hx] at h2
    have h2 : Same o1 (o.setIndex none) := h2
    refine ⟨o1, some t, o1.setIndex (some mk), h1, h3, ?_, ?_⟩
    · have hn : o1.index = none := by
        rw [same_index h2]
        cases o with
        | node n => cases n; rfl
        | _ => rfl
      unfold mapItem indexItem
      simp only [hg, hx, hn, Bool.false_and, Bool.false_eq_true, if_false, Bool.true_and, ne_eq, not_true, decide_false,
        Option.isNone_none, if_true, Except.map, Option.toList]
    · have := h2.setIndex (some mk)
      rw [setIndex_twice, setIndex_same hoi] at this
      exact this

omit H in
theorem mem_terms {es : List XEntry} {T : CTerm} (h : ∀ e ∈ es, e.term ≠ T) : T ∉ es.map XEntry.term := by
  intro hm
  obtain ⟨e, he, rfl⟩ := List.mem_map.1 hm
  exact h e he rfl

omit H in
theorem Parts.keyed {j : Json} {i ty x g inc ps rv} (h : Parts E X c j i ty x g inc ps rv) :
    ∃ e1 e2 e3, j = .obj (xObj (e1 ++ e2 ++ e3)) ∧ IdPart E X c i e1 ∧ TypePart E X c ty e2 ∧
    (∀ i ty, KeySteps X c e3 (.mk none i ty none none [] none) (.mk x i ty g inc ps rv)) ∧
    (∀ e ∈ e3, e.term ≠ .keyword .id ∧ e.term ≠ .keyword .type) ∧ Keyed X c e1 ∧ Keyed X c e2 ∧ Keyed X c e3 := by
  obtain ⟨e1, e2, e3, h1, h2, h3, h4, h5⟩ := h
  refine ⟨e1, e2, e3, h1, h2, h3, h4, h5, ?_, ?_, (h4 none none).keyed⟩
  · exact (h2.steps (x := none) (ty := none) (g := none) (inc := none) (ps := []) (rv := none)).keyed
  · cases h3 with
    | absent => nofun
    | present ts k a ss _ hk => intro e he; rw [List.mem_singleton.1 he]; exact hk

/-- Nodes in maps by identifier. -/
theorem id_inMap {key : Str} (hr : key ≠ "@reverse".toList) (hgk : key ≠ "@graph".toList)
    (hk : defContainer (c.get key) = .id ∨ defContainer (c.get key) = .idSet) {n : Node} {v : Json}
    (hs : NodeShown E X c (some key) v n) {ck : Str} (hck : cKey E c .id = .ok ck) {r : Option Str × Json}
    (h1 : takeId ck v = .ok r) {mk : Str} (h : mapKeyOr E c r.1 = .ok mk) : InMap X c key mk r.2 (.node n) := by
  have hl : (defContainer (c.get key)).contains .language = false := by rcases hk with hk | hk <;> rw [hk] <;> rfl
  have hg : (defContainer (c.get key)).contains .graph = false := by rcases hk with hk | hk <;> rw [hk] <;> rfl
  have hx : (defContainer (c.get key)).contains .index = false := by rcases hk with hk | hk <;> rw [hk] <;> rfl
  have hid : (defContainer (c.get key)).contains .id = true := by rcases hk with hk | hk <;> rw [hk] <;> rfl
  have plain : r = (none, v) → InMap X c key mk r.2 (.node n) := by
    rintro rfl
    exact none_inMap H hl hg (hs.shows H hgk hr) (fun h => by rw [hx] at h; cases h) h
  cases hs with
  | string key' s i h2 h3 =>
    subst h3
    exact plain (Except.ok.inj h1).symm
  | object x g inc ps rv hp he =>
    obtain ⟨e1, e2, e3, rfl, hi, hty, h3, h4, k1, k2, k3⟩ := hp.keyed
    have hckx := backKeys_round H.toBaseEnv _ _ hck
    have hf2 : ck ∉ (xObj e2).map Prod.fst := keyed_fresh k2 hckx (mem_terms fun e he => by
      have := hty.only e he
      rw [List.mem_singleton.1 this]
      simp)
    have hf3 : ck ∉ (xObj e3).map Prod.fst := keyed_fresh k3 hckx (mem_terms fun e he => (h4 e he).1)
    have hf : ck ∉ (xObj (e2 ++ e3)).map Prod.fst := by
      rw [xObj_append, List.map_append, List.mem_append, not_or]
      exact ⟨hf2, hf3⟩
    cases hni : n.id with
    | none =>
      rw [hni] at hi
      cases hi
      refine plain ?_
      rw [List.nil_append] at h1
      unfold takeId at h1
      simp only [jGet_fresh hf, Except.map] at h1
      exact (Except.ok.inj h1).symm
    | some i =>
      rw [hni] at hi he
      cases hi with
      | present _ k s hk1 hk2 hk3 hk4 =>
        rw [hck] at hk1
        cases hk1
        have hobj : xObj ([⟨ck, .keyword .id, .str s⟩] ++ e2 ++ e3) = [] ++ (ck, .str s) :: xObj (e2 ++ e3) := by
          simp [xObj]
        have hget := jGet_mid (a := []) (by simp) hf (.str s)
        have hfil := filter_mid (a := []) (by simp) hf (.str s)
        rw [← hobj] at hget hfil
        unfold takeId at h1
        simp only [hget, Except.map, hfil, List.nil_append] at h1
        have h1 := (Except.ok.inj h1).symm
        subst h1
        have h : mapKeyOr E c (some s) = .ok mk := h
        cases h
        refine ⟨nofun, fun hx => (by rw [hl] at hx; cases hx), fun _ => ?_⟩
        have hst : KeySteps X c (e2 ++ e3) Node.blank (.mk x none n.types g inc ps rv) :=
          (hty.steps H.toBaseEnv).append (h3 none n.types)
        obtain ⟨t, h5, -⟩ := index_term H (notNone_id H.ctx.typeDef hk4)
        refine ⟨_, some t, .node (.mk x (some i) n.types g inc ps rv), expand_steps H hst (fun h => hr (Option.some.inj h))
          (by rw [noProp_key hgk]; nofun) true, h5, ?_, ?_⟩
        · unfold mapItem indexItem indexId xIri
          simp only [hg, hx, hid, Bool.false_and, Bool.false_eq_true, if_false, Bool.true_and, Obj.nodeId, Node.id,
            Option.isNone_none, if_true, hk4, Except.map, Option.toList]
          rfl
        · rw [show ((some key).bind c.get) = c.get key from rfl, hx] at he
          exact he

omit H in
theorem unshift_wf {n : Node} (t : Id) (h : n.WF) : (n.unshiftType t).WF := by
  cases n; exact h

omit H in
theorem Same.unshift {a b : Node} (h : Same (.node a) (.node b)) (t : Id) :
    Same (.node (a.unshiftType t)) (.node (b.unshiftType t)) := by
  have ha : a.WF := h.wf'
  have hb : b.WF := h.wf
  refine ⟨unshift_wf t ha, unshift_wf t hb, ?_⟩
  have he := h.eq
  simp only [Obj.eq] at he
  simp only [Obj.eq]
  have h1 := (node_eq_iff ha hb).1 he
  refine (node_eq_iff (unshift_wf t ha) (unshift_wf t hb)).2 ?_
  cases a with
  | mk _ _ ta => cases b with
    | mk _ _ tb =>
      refine ⟨h1.1, h1.2.1, ?_, h1.2.2.2⟩
      have h2 := h1.2.2.1
      cases ta with
      | none => cases tb with
        | none => exact List.Perm.refl _
        | some => cases h2
      | some => cases tb with
        | none => cases h2
        | some => exact List.Perm.cons _ h2

omit H in
theorem placed_only {n : Node} (h : PlacedObj E.toCompEnv c (.node n)) {i : Id} (hi : n.id = some i) :
    PlacedObj E.toCompEnv c (.node (Node.onlyId i)) := by
  have hn := h.placed
  refine thru_node (by simp [Node.onlyId, Node.WF, gWF, incWF, psWF, rvWF]) (placed_obj _ _ _) fun y hy => ?_
  rcases hy.cases_tail with h1 | ⟨z, -, h2⟩
  · subst h1
    refine ⟨fun m hm => ?_, nofun, nofun⟩
    cases hm
    exact {
      id := fun j hj => by cases hj; exact hn.id i hi
      term := fun j hj ht => by cases hj; exact hn.term i hi ht
      reference := fun _ _ _ => rfl
      types := nofun
      graph := nofun
      props := nofun
      lists := nofun
      maps := nofun
      graphs := nofun
      rev := nofun
      langs := nofun
      index := nofun }
  · cases h2 with
    | part h2 => cases h2 with
      | graph h => cases h
      | included h => cases h
      | property h => cases h
      | reverse h => cases h

/-- The value expands to an object equal to the node. -/
def Gives (X : XEnv) (c : ACtx) (key : Str) (v : Json) (n : Node) : Prop :=
  NotArray v ∧ ∃ m, expandElement X c (some key) v true = .ok (.object (.node m)) ∧ Same (.node m) (.node n)

omit H in
theorem same_node {o : Obj} {n : Node} (h : Same o (.node n)) : ∃ m, o = .node m := by
  have he := h.eq
  cases o with
  | node m => exact ⟨m, rfl⟩
  | _ => simp only [Obj.eq, Bool.false_eq_true] at he

theorem gives_steps {key : Str} (hr : key ≠ "@reverse".toList) (hgk : key ≠ "@graph".toList) {es : List XEntry} {n : Node}
    (hs : KeySteps X c es Node.blank n) (hw : n.WF) : Gives X c key (.obj (xObj es)) n :=
  ⟨nofun, n, expand_steps H hs (fun h => hr (Option.some.inj h)) (by rw [noProp_key hgk]; nofun) true, .refl hw⟩

/-- A node left with `@id` only is compacted again. -/
theorem onlyId_again {key : Str} (hr : key ≠ "@reverse".toList) (hgk : key ≠ "@graph".toList)
    (hx : (defContainer (c.get key)).contains .index = false) {R : CRec} (hR : RecShown E X c R) {n n0 : Node}
    (ho : PlacedObj E.toCompEnv c (.node n)) {es : List XEntry} (hs : KeySteps X c es Node.blank n0) (hid : n0.id = n.id)
    (hw : n0.WF) {r : Option Str × Json} {f : Option Str}
    (h : (if onlyId (.obj (xObj es)) then
        match (Obj.node n).nodeId with
        | some i => (R c c (some key) (.node (Node.onlyId i))).map fun v => (f, v)
        | none => .error .panic
      else .ok (f, .obj (xObj es))) = .ok r) : r.1 = f ∧ Gives X c key r.2 n0 := by
  split at h
  · rename_i honly
    have hes : ∃ t v, es = [⟨"@id".toList, t, v⟩] := by
      match es, honly with
      | [], h => cases h
      | [e], h =>
        have : decide (e.key = "@id".toList) = true := h
        rw [decide_eq_true_eq] at this
        exact ⟨e.term, e.value, by rw [← this]⟩
      | _ :: _ :: _, h => cases h
    obtain ⟨t, v, rfl⟩ := hes
    have ht : t = .keyword .id := by
      have := hs.keyed _ (List.mem_singleton.2 rfl)
      rw [show xKey X c "@id".toList = xKey X c Keyword.id.intoStr from rfl, xKey_kw] at this
      cases this
      rfl
    subst ht
    split at h
    · rename_i i hi
      obtain ⟨v', h1, h2⟩ := exMap_ok h
      subst h2
      have hi : n.id = some i := hi
      have hn0 : n0 = Node.onlyId i := by
        have hf := hs.fold none (by simp)
        rw [List.foldlM_cons] at hf
        obtain ⟨st, h3, h4⟩ := bindOk.1 hf
        cases h4
        have h3 : keyId X c v ⟨Node.blank, false⟩ = .ok ⟨n0, false⟩ := by
          have hb : Node.blank.hasKeyword .id = false := rfl
          unfold entryStep at h3
          simp only [hb, Bool.and_false, Bool.false_eq_true, if_false] at h3
          exact h3
        unfold keyId at h3
        split at h3
        · obtain ⟨t, -, h5⟩ := exMap_ok h3
          have h5 := congrArg XState.node h5
          dsimp only at h5
          rw [← h5] at hid ⊢
          rw [hi] at hid
          have hid : t.bind nodeIdOfTerm = some i := hid
          rw [hid]
          rfl
        · cases h3
      subst hn0
      refine ⟨rfl, ?_⟩
      have hsh := (hR.node _ _ _ (placed_only ho hi) h1).shows H hgk hr
      obtain ⟨o1, h3, h4⟩ := hsh.expand true
      rw [hx] at h4
      obtain ⟨m, rfl⟩ := same_node (show Same o1 (.node (Node.onlyId i)) from h4)
      exact ⟨hsh.notArray, m, h3, h4⟩
    · cases h
  · cases h
    exact ⟨rfl, gives_steps H hr hgk hs hw⟩

omit H in
theorem addEach_fold (k : Str) (l : List Json) (m : JMap) :
    addEach k l m = l.foldlM (fun m v => addValue m k v false) m := by
  induction l generalizing m with
  | nil => rfl
  | cons v l ih =>
    unfold addEach
    rw [List.foldlM_cons]
    cases addValue m k v false with
    | error e => rfl
    | ok m => exact ih m

/-- Nodes in maps by type. -/
theorem type_inMap {key : Str} (hr : key ≠ "@reverse".toList) (hgk : key ≠ "@graph".toList)
    (hk : defContainer (c.get key) = .type ∨ defContainer (c.get key) = .setType) {n : Node} {v : Json}
    {R : CRec} (hR : RecShown E X c R) (ho : PlacedObj E.toCompEnv c (.node n))
    (hs : NodeShown E X c (some key) v n) {ck : Str} (hck : cKey E c .type = .ok ck) {r : Option Str × Json}
    (h1 : cTypeItem R c key ck (.node n) v = .ok r) {mk : Str} (h : mapKeyOr E c r.1 = .ok mk) :
    InMap X c key mk r.2 (.node n) := by
  have hl : (defContainer (c.get key)).contains .language = false := by rcases hk with hk | hk <;> rw [hk] <;> rfl
  have hg : (defContainer (c.get key)).contains .graph = false := by rcases hk with hk | hk <;> rw [hk] <;> rfl
  have hx : (defContainer (c.get key)).contains .index = false := by rcases hk with hk | hk <;> rw [hk] <;> rfl
  have hid : (defContainer (c.get key)).contains .id = false := by rcases hk with hk | hk <;> rw [hk] <;> rfl
  have hty : (defContainer (c.get key)).contains .type = true := by rcases hk with hk | hk <;> rw [hk] <;> rfl
  -- no type is taken
  have plain : r.1 = none → ∀ n0, Gives X c key r.2 n0 → Same (.node n0) (.node n) → InMap X c key mk r.2 (.node n) := by
    intro hr1 n0 hgv hsm
    rw [hr1] at h
    obtain ⟨h3, -⟩ := none_key H (show cKey E c .none = .ok mk from h)
    refine ⟨hgv.1, fun hx => (by rw [hl] at hx; cases hx), fun _ => ?_⟩
    obtain ⟨m, h4, h5⟩ := hgv.2
    refine ⟨_, none, _, h4, h3, ?_, h5.trans hsm⟩
    unfold mapItem
    rw [hg]
    rfl
  cases hs with
  | string key' s i h2 h3 h3' h4 h5 =>
    cases h2
    subst h3
    subst h3'
    have : r = (none, .str s) := (Except.ok.inj h1).symm
    subst this
    have hw : (Node.onlyId i).WF := by simp [Node.onlyId, Node.WF, gWF, incWF, psWF, rvWF]
    exact plain rfl (Node.onlyId i) ⟨nofun, _, h5 true, .refl hw⟩ (.refl hw)
  | object x g inc ps rv hp he =>
    obtain ⟨e1, e2, e3, rfl, hi, htp, h3, h4, k1, k2, k3⟩ := hp.keyed
    rw [show ((some key).bind c.get) = c.get key from rfl, hx] at he
    have he : Same (.node (.mk x n.id n.types g inc ps rv)) (.node n) := he
    have hckx := backKeys_round H.toBaseEnv _ _ hck
    have hf1 : ck ∉ (xObj e1).map Prod.fst := keyed_fresh k1 hckx (mem_terms fun e he => by
      have := hi.only e he
      rw [List.mem_singleton.1 this]
      simp)
    have hf3 : ck ∉ (xObj e3).map Prod.fst := keyed_fresh k3 hckx (mem_terms fun e he => (h4 e he).2)
    have hf : ck ∉ (xObj (e1 ++ e3)).map Prod.fst := by
      rw [xObj_append, List.map_append, List.mem_append, not_or]
      exact ⟨hf1, hf3⟩
    have hwx : ∀ ty, (Node.mk x n.id ty g inc ps rv).WF := fun _ => he.wf'
    unfold cTypeItem at h1
    obtain ⟨r0, h5, h6⟩ := exBind_ok h1
    cases hnt : n.types with
    | none =>
      rw [hnt] at htp
      cases htp
      rw [List.append_nil] at h5
      unfold takeFirst at h5
      simp only [jGet_fresh hf, Except.bind] at h5
      have h5 := (Except.ok.inj h5).symm
      subst h5
      have hst : KeySteps X c (e1 ++ e3) Node.blank (.mk x n.id none g inc ps rv) := hi.steps.append (h3 n.id none)
      obtain ⟨h7, h8⟩ := onlyId_again H hr hgk hx hR ho hst rfl (hwx _) h6
      rw [hnt] at he
      exact plain h7 _ h8 he
    | some ts =>
      rw [hnt] at htp he
      cases htp with
      | present _ k a ss hk1 hk2 hne hss =>
        rw [hck] at hk1
        cases hk1
        cases hss with
        | nil => exact absurd rfl hne
        | @cons s t0 ss ts hs0 hss =>
          have hobj : xObj (e1 ++ [⟨ck, .keyword .type, pack a ((s :: ss).map .str)⟩] ++ e3) =
              xObj e1 ++ (ck, pack a ((s :: ss).map .str)) :: xObj e3 := by
            simp [xObj]
          have hget := jGet_mid hf1 hf3 (pack a ((s :: ss).map .str))
          have hfil := filter_mid hf1 hf3 (pack a ((s :: ss).map .str))
          rw [← hobj] at hget hfil
          rw [← xObj_append] at hfil
          have hfv : firstValue (pack a ((s :: ss).map .str)) = (some s, ss.map .str) := by
            cases ss with
            | nil => cases a <;> rfl
            | cons => rfl
          unfold takeFirst at h5
          simp only [hget, Except.bind, hfil, hfv] at h5
          obtain ⟨m, h7, rfl⟩ := exMap_ok h5
          rw [addEach_fold] at h7
          -- the other types
          have hst : ∃ es ty, m = xObj es ∧ KeySteps X c es Node.blank (.mk x n.id ty g inc ps rv) ∧
              t0 :: ty.getD [] = t0 :: ts := by
            cases hss with
            | nil =>
              cases h7
              exact ⟨e1 ++ e3, none, rfl, hi.steps.append (h3 n.id none), rfl⟩
            | @cons s' t' ss' ts' hs' hss' =>
              rw [addAll_fresh hf (by
                intro y hy
                obtain ⟨s, -, rfl⟩ := List.mem_map.1 hy
                exact nofun) (by simp)] at h7
              have h7 := (Except.ok.inj h7).symm
              have htp' : TypePart E X c (some (t' :: ts')) [⟨ck, .keyword .type, pack false ((s' :: ss').map .str)⟩] :=
                .present _ ck false _ hck hk2 (by simp) (.cons hs' hss')
              refine ⟨e1 ++ e3 ++ [⟨ck, .keyword .type, pack false ((s' :: ss').map .str)⟩], some (t' :: ts'), ?_, ?_, rfl⟩
              · rw [h7, xObj_append (e1 ++ e3)]
                rfl
              · exact (hi.steps.append (h3 n.id none)).append (htp'.steps H.toBaseEnv)
          obtain ⟨es, ty, rfl, hst, hty'⟩ := hst
          obtain ⟨h8, h9⟩ := onlyId_again H hr hgk hx hR ho hst rfl (hwx _) h6
          rw [h8] at h
          cases h
          have hxk := hs0.2.2
          have hei : expandedIndex X c mk = .ok (some (.id t0)) := by
            unfold expandedIndex
            rw [hxk]
            rfl
          obtain ⟨h10, m, h11, h12⟩ := h9
          refine ⟨h10, fun hx => (by rw [hl] at hx; cases hx), fun _ => ?_⟩
          refine ⟨_, _, .node (m.unshiftType t0), h11, hei, ?_, (h12.unshift t0).trans ?_⟩
          · unfold mapItem indexItem indexType
            simp only [hg, hx, hid, hty, Bool.false_and, Bool.false_eq_true, if_false, if_true, Except.map, Option.toList]
          · show Same (.node (.mk x n.id (some (t0 :: ty.getD [])) g inc ps rv)) (.node n)
            rw [hty']
            exact he

end

end JsonLd
