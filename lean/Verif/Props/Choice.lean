import Verif.Proofs.Choice
import Verif.Props.CompactIri
/-!
# C71: the term chosen for a value fits it
-/

namespace JsonLd.Props
open JsonLd.Spec

private theorem wanted_exists (env : CompEnv) (c : ACtx) (o : CompOpts) (value : Obj) (reverse : Bool)
    (hr : reverse = true → ∃ n, value = .node n) : ∃ ws, Wanted env c o value reverse ws := by
  cases hf : fullSelection env c o value reverse with
  | ok s =>
    obtain ⟨ws, hw, _⟩ := fullSelection_wanted hr hf
    exact ⟨ws, hw⟩
  | error e =>
    cases value with
    | node n =>
      cases hi : n.id with
      | none => cases reverse with
        | false => exact ⟨_, .node n hi⟩
        | true => exact ⟨_, .reverseNode n hi⟩
      | some i =>
        have : ∃ ws, RefWants env c o i ws := by
          by_cases h : HasTerm env c o i
          · exact ⟨_, .inl ⟨h, rfl⟩⟩
          · exact ⟨_, .inr ⟨h, rfl⟩⟩
        obtain ⟨ws, hw⟩ := this
        cases reverse with
        | false => exact ⟨_, .ref n i ws hi hw⟩
        | true => exact ⟨_, .reverseRef n i ws hi hw⟩
    | value i v =>
      have hrf : reverse = false := by
        cases reverse with
        | false => rfl
        | true => obtain ⟨n, hn⟩ := hr rfl; cases hn
      subst hrf
      exfalso
      unfold fullSelection at hf
      simp only [isEmptyList, Bool.false_eq_true, if_false, valueTypeLang] at hf
      split at hf
      · rename_i t _
        split at hf
        · rename_i h2
          simp [idHasTerm, Obj.nodeId] at h2
        · cases hf
      · cases hf
      · cases hf
    | list i items =>
      have hrf : reverse = false := by
        cases reverse with
        | false => rfl
        | true => obtain ⟨n, hn⟩ := hr rfl; cases hn
      subst hrf
      exfalso
      unfold fullSelection at hf
      split at hf
      · cases hf
      · simp only [Bool.false_eq_true, if_false, valueTypeLang] at hf
        split at hf
        · rename_i t _
          split at hf
          · rename_i h2
            simp [idHasTerm, Obj.nodeId] at h2
          · cases hf
        · cases hf
        · cases hf

/-- C71: the key for a value is the shortest term for the property with the most preferred container
and, among those, the most preferred type, language or direction for the value. If no term of the
context is suitable for the value, no term is used. -/
theorem C71_chosen (env : CompEnv) (c : ACtx) (hn : (c.defs.map Prod.fst).Nodup) (var : CTerm)
    (value : Obj) (reverse : Bool) (hr : reverse = true → ∃ n, value = .node n) (o : CompOpts) (k : Str)
    (h : compactIriWith env c var value true reverse o = .ok (some k)) :
    ∃ cs ws, Containers o.mode value reverse cs ∧ Wanted env c o value reverse ws ∧
      (Selected c var (allWishes cs ws) k ∨
        ((∀ w ∈ allWishes cs ws, ∀ k', ¬ Candidate c var w k') ∧
          (KeywordForm k ∨ lookupKey k c.defs = none ∨ k = var.str))) := by
  obtain ⟨cs, hcs, rep, hrep, hall⟩ := allContainers_spec o.mode hr
  have rest : ∀ {s : Str}, compactNoTerm env c var false true = .ok s →
      KeywordForm s ∨ lookupKey s c.defs = none ∨ s = var.str := by
    intro s hs
    unfold compactNoTerm at hs
    split at hs
    · rename_i s' h1
      obtain rfl : s' = s := Except.ok.inj hs
      simp only [if_true] at h1
      unfold compactVocab at h1
      split at h1
      · cases h1
      · split at h1
        · dsimp only at h1
          split at h1
          · rename_i h2
            have h3 := h2.2
            rw [Option.some.inj h1] at h3
            by_cases hk : KeywordForm s'
            · exact .inl hk
            · right; left
              rw [containsTerm_eq hk] at h3
              simpa using h3
          · cases h1
        · cases h1
    · dsimp only at hs
      split at hs
      · cases hs
        rename_i h1
        obtain ⟨i1, _⟩ := compactPrefix_spec c var false c.defs []
        have h2 := (mem_candidates hn).1 (i1.resolve_left h1)
        obtain ⟨p, m, x, _, _, _, _, h3⟩ := h2
        right; left
        cases h4 : lookupKey (compactPrefix c var false c.defs []) c.defs with
        | none => rfl
        | some d => exact absurd (h3 d h4).2 (by simp)
      · unfold compactRest at hs
        split at hs
        · rename_i i hi
          split at hs
          · cases hs
          · split at hs
            · rename_i h4 _
              cases h4
            · cases hs
              right; right
              cases var with
              | id j =>
                cases j with
                | iri x => cases hi; rfl
                | blank x => cases hi
                | invalid x => cases hi
              | null => cases hi
              | keyword k => cases hi
        · cases hs
          exact .inr (.inr rfl)
  unfold compactIriWith at h
  split at h
  · cases h
  · simp only [if_true] at h
    cases hi : assocGet var c.inverse with
    | none =>
      obtain ⟨ws, hws⟩ := wanted_exists env c o value reverse hr
      refine ⟨cs, ws, hcs, hws, .inr ⟨?_, ?_⟩⟩
      · rintro w _ k' ⟨d, h1, h2, _⟩
        have h3 := (inverse_isSome c var).2 ⟨(k', d), (lookupKey_iff_mem hn).1 h1, h2⟩
        rw [hi] at h3
        cases h3
      · have h1 : compactTermWith env c var value reverse o = .ok none := by
          unfold compactTermWith
          rw [hi]
        rw [h1] at h
        obtain ⟨a, h2, h3⟩ := mapOk h
        cases h3
        exact rest h2
    | some m =>
      cases hf : fullSelection env c o value reverse with
      | error e =>
        have h1 : compactTermWith env c var value reverse o = .error e := by
          unfold compactTermWith
          rw [hi, hf]
        rw [h1] at h
        cases h
      | ok s =>
        have h1 : compactTermWith env c var value reverse o = .ok (c.inverse.select var (cs ++ rep) s) := by
          unfold compactTermWith InvCtx.select
          rw [hi, hf, ← hall]
          rfl
        rw [h1] at h
        obtain ⟨ws, hws, hsame⟩ := fullSelection_wanted hr hf
        refine ⟨cs, ws, hcs, hws, ?_⟩
        have hrepS := sameChoice_containers (c := c) (var := var) (ws := ws) hrep
        have hs := hsame var (cs ++ rep)
        cases hsel : c.inverse.select var (cs ++ rep) s with
        | some t =>
          rw [hsel] at h
          cases h
          left
          have h2 := (C34_selected c hn var _ _ _).1 hsel
          rw [wishes_eq] at h2
          exact (hrepS.1 _).1 ((hs.1 _).1 h2)
        | none =>
          rw [hsel] at h
          right
          have h2 := (C34_none c hn var _ _).1 hsel
          rw [wishes_eq] at h2
          refine ⟨hrepS.2.1 (hs.2.1 h2), ?_⟩
          obtain ⟨a, h3, h4⟩ := mapOk h
          cases h4
          exact rest h3

/-- C71: if a term fits best, the chosen term fits as well and has the same container. -/
theorem C71_best (env : CompEnv) (c : ACtx) (hn : (c.defs.map Prod.fst).Nodup) (var : CTerm)
    (value : Obj) (reverse : Bool) (hr : reverse = true → ∃ n, value = .node n) (o : CompOpts) (k : Str)
    (h : compactIriWith env c var value true reverse o = .ok (some k)) :
    ∃ K cs w ws, Containers o.mode value reverse (K :: cs) ∧ Wanted env c o value reverse (w :: ws) ∧
      ((∃ t, Candidate c var (K, w) t) → Candidate c var (K, w) k) := by
  obtain ⟨cs, ws, hcs, hws, h1⟩ := C71_chosen env c hn var value reverse hr o k h
  have hc : ∃ K cs', cs = K :: cs' := by cases hcs <;> exact ⟨_, _, rfl⟩
  obtain ⟨K, cs', rfl⟩ := hc
  have hw : ∃ w ws', ws = w :: ws' := by
    have hrw : ∀ i ws, RefWants env c o i ws → ∃ w ws', ws = w :: ws' := by
      rintro i ws (⟨_, rfl⟩ | ⟨_, rfl⟩) <;> exact ⟨_, _, rfl⟩
    cases hws <;> first | exact ⟨_, _, rfl⟩ | (rename_i h2; exact hrw _ _ h2)
  obtain ⟨w, ws', rfl⟩ := hw
  refine ⟨K, cs', w, ws', hcs, hws, ?_⟩
  rintro ⟨t, ht⟩
  rcases h1 with ⟨pre, x, post, h2, h3, h4, _⟩ | ⟨h2, _⟩
  · cases pre with
    | nil =>
      have h5 : (K, w) = x := by
        simp only [allWishes, List.flatMap_cons, List.map_cons, List.cons_append, List.nil_append,
          List.cons.injEq] at h2
        exact h2.1
      rw [h5]; exact h4
    | cons y pre =>
      have h5 : (K, w) = y := by
        simp only [allWishes, List.flatMap_cons, List.map_cons, List.cons_append,
          List.cons.injEq] at h2
        exact h2.1
      exact absurd ht (h3 (K, w) (by simp [h5]) t)
  · exact absurd ht (h2 (K, w) (by simp [allWishes]) t)

/-- C71: for a list without index whose items all have the type `t`, a term with container `@list`
and type `t` is chosen if there is one. -/
theorem C71_typed_list (env : CompEnv) (c : ACtx) (hn : (c.defs.map Prod.fst).Nodup) (var : CTerm)
    (items : List Obj) (t : TypeMap) (hne : items ≠ []) (ht : ∀ x ∈ items, ItemType x t) (o : CompOpts)
    (k k' : Str) (d' : TermDef) (hk' : lookupKey k' c.defs = some d') (hv : d'.value = some var)
    (hc : d'.container = .list) (hr : d'.reverse = false) (hd : d'.typ = some t)
    (h : compactIriWith env c var (.list none items) true false o = .ok (some k)) :
    ∃ d, lookupKey k c.defs = some d ∧ d.value = some var ∧ d.container = .list ∧ d.typ = some t := by
  have hnone : t ≠ .none := by
    rintro rfl
    obtain ⟨x, hx⟩ := List.exists_mem_of_ne_nil items hne
    have := ht x hx
    cases x with
    | value i v =>
      cases v with
      | literal l ty => cases ty <;> cases this
      | langString s => cases this
      | json j => cases this
    | list i l => cases this
    | node n => cases this
  have hT : ∀ d : TermDef, TypeMatch d (.type t) ↔ d.reverse = false ∧ d.typ = some t := by
    intro d
    cases t with
    | none => exact absurd rfl hnone
    | _ => exact Iff.rfl
  obtain ⟨K, cs, w, ws, h1, h2, h3⟩ := C71_best env c hn var (.list none items) false nofun o k h
  have h5 : w = fun d => TypeMatch d (.type t) := by
    have hno : (∀ t, ∃ x ∈ items, ¬ ItemType x t) → False := fun h6 => by
      obtain ⟨x, hx, h7⟩ := h6 t
      exact h7 (ht x hx)
    generalize hL : w :: ws = L at h2
    cases h2 with
    | emptyList => exact absurd rfl hne
    | typedList _ _ t' h6 h7 =>
      obtain ⟨x, hx⟩ := List.exists_mem_of_ne_nil items hne
      have e1 := itemType_iff.1 (ht x hx)
      have e2 := itemType_iff.1 (h7 x hx)
      rw [e1] at e2
      cases e2
      exact (List.cons.inj hL).1
    | langList _ _ l h6 => exact (hno h6).elim
    | langDirList _ _ a d h6 => exact (hno h6).elim
    | mixedList _ _ h6 => exact (hno h6).elim
  subst h5
  cases h1
  obtain ⟨d, e1, e2, e3, e4⟩ := h3 ⟨k', d', hk', hv, hc, (hT d').2 ⟨hr, hd⟩⟩
  exact ⟨d, e1, e2, e3, ((hT d).1 e4).2⟩

/-- C71: if a suitable term has the most preferred container, the chosen term has it, too. -/
theorem C71_container (env : CompEnv) (c : ACtx) (hn : (c.defs.map Prod.fst).Nodup) (var : CTerm)
    (value : Obj) (reverse : Bool) (hr : reverse = true → ∃ n, value = .node n) (o : CompOpts) (k : Str)
    (h : compactIriWith env c var value true reverse o = .ok (some k)) :
    ∃ K cs ws, Containers o.mode value reverse (K :: cs) ∧ Wanted env c o value reverse ws ∧
      ((∃ w ∈ ws, ∃ t, Candidate c var (K, w) t) → ∃ w ∈ ws, Candidate c var (K, w) k) := by
  obtain ⟨cs, ws, hcs, hws, h1⟩ := C71_chosen env c hn var value reverse hr o k h
  have hc : ∃ K cs', cs = K :: cs' := by cases hcs <;> exact ⟨_, _, rfl⟩
  obtain ⟨K, cs', rfl⟩ := hc
  refine ⟨K, cs', ws, hcs, hws, ?_⟩
  rintro ⟨w, hw, t, ht⟩
  have hmem : (K, w) ∈ ws.map fun w => (K, w) := List.mem_map.2 ⟨w, hw, rfl⟩
  have hall : allWishes (K :: cs') ws = (ws.map fun w => (K, w)) ++ allWishes cs' ws := by
    simp [allWishes]
  rw [hall] at h1
  rcases h1 with h2 | ⟨h2, _⟩
  · rcases selected_append.1 h2 with ⟨pre, x, post, h3, _, h4, _⟩ | ⟨h3, _⟩
    · have : x ∈ ws.map fun w => (K, w) := by rw [h3]; simp
      obtain ⟨w', hw', rfl⟩ := List.mem_map.1 this
      exact ⟨w', hw', h4⟩
    · exact absurd ht (h3 _ hmem t)
  · exact absurd ht (h2 _ (List.mem_append.2 (.inl hmem)) t)

/-- C71: for a string with a language and without index, a language map is used if there is one that
is not restricted to a type, language or direction. -/
theorem C71_language_map (env : CompEnv) (c : ACtx) (hn : (c.defs.map Prod.fst).Nodup) (var : CTerm)
    (s : LangString) (a : Str) (ha : s.language = some a) (o : CompOpts) (k k' : Str) (d' : TermDef)
    (hk' : lookupKey k' c.defs = some d') (hv : d'.value = some var) (hc : d'.container = .language)
    (hr : d'.reverse = false) (ht : d'.typ = none) (hl : d'.language = none) (hd : d'.direction = none)
    (h : compactIriWith env c var (.value none (.langString s)) true false o = .ok (some k)) :
    ∃ d, lookupKey k c.defs = some d ∧ d.value = some var ∧ d.container = .language ∧
      d.reverse = false ∧ (d.typ = none ∨ d.typ = some .none) := by
  obtain ⟨K, cs, ws, h1, h2, h3⟩ := C71_container env c hn var _ false nofun o k h
  have hK : K = .language := by
    generalize hL : K :: cs = L at h1
    cases h1 with
    | typed _ t h6 => cases h6
    | plain _ _ h6 =>
      have := (h6 s rfl).1
      rw [ha] at this
      cases this
    | lang _ _ => exact (List.cons.inj hL).1
  subst hK
  have hm : LangMatch c d' (.lang (some (none, none))) :=
    ⟨hr, ht, some (none, none), .inl ⟨hl, hd, .inr rfl⟩, .inr ⟨none, none, none, rfl, rfl, rfl⟩⟩
  have hw : (fun d => LangMatch c d (.lang (some (none, none)))) ∈ ws ∧
      ∀ w ∈ ws, ∀ d, w d → d.reverse = false ∧ (d.typ = none ∨ d.typ = some .none) := by
    have hlang : ∀ l, ∀ w ∈ langWants c l, ∀ d, w d → d.reverse = false ∧ (d.typ = none ∨ d.typ = some .none) := by
      intro l w hw d hd
      simp only [langWants, List.mem_cons, List.not_mem_nil, or_false] at hw
      rcases hw with rfl | rfl | rfl
      · exact ⟨hd.1, .inl hd.2.1⟩
      · exact ⟨hd.1, .inl hd.2.1⟩
      · exact ⟨hd.1, .inr hd.2⟩
    cases h2 with
    | typed _ _ t h6 => cases h6
    | lang _ x y hx hy _ _ => exact ⟨by simp [langWants], hlang _⟩
    | langDir _ x y hx hy =>
      refine ⟨by simp [langWants], fun w hw d hd => ?_⟩
      rcases List.mem_append.1 hw with h4 | h4
      · exact hlang _ w h4 d hd
      · rw [List.mem_singleton] at h4
        subst h4
        exact ⟨hd.1, .inl hd.2.1⟩
    | plain _ _ _ h6 =>
      have := (h6 rfl s rfl).1
      rw [ha] at this
      cases this
  obtain ⟨w, hw1, d, e1, e2, e3, e4⟩ := h3 ⟨_, hw.1, k', d', hk', hv, hc, hm⟩
  exact ⟨d, e1, e2, e3, hw.2 w hw1 d e4⟩

/-! ## Examples -/

/-- The definition of a term for `http:x`. -/
def exChoiceDef (k : Container) : TermDef :=
  { value := some (.id (.iri "http:x".toList)), container := k }

/-- Terms for the same property. -/
def exChoice : ACtx :=
  { defs := [
    ("plain".toList, exChoiceDef .none),
    ("list".toList, exChoiceDef .list),
    ("ints".toList, { exChoiceDef .list with typ := some (.iri "http:int".toList) }),
    ("refs".toList, { exChoiceDef .list with typ := some .id }),
    ("json".toList, { exChoiceDef .list with typ := some .json }),
    ("english".toList, { exChoiceDef .list with language := some (some "en".toList) }),
    ("untagged".toList, { exChoiceDef .list with language := some none }),
    ("by-language".toList, exChoiceDef .language),
    ("by-index".toList, exChoiceDef .index),
    ("graph".toList, { exChoiceDef .graph with typ := some .id }),
    ("by-name".toList, { exChoiceDef .graphId with typ := some .id }),
    ("ref".toList, { exChoiceDef .none with typ := some .id }),
    ("word".toList, { exChoiceDef .none with typ := some .vocab }),
    ("known".toList, { value := some (.id (.iri "http:k".toList)) }),
    ("back".toList, { exChoiceDef .none with reverse := true })] }

/-- The key for a value. -/
def exChoose (o : Obj) (reverse : Bool := false) : Option Str :=
  ((compactIriWith exCompEnv exChoice (.id (.iri "http:x".toList)) o true reverse {}).toOption).join

/-- A number. -/
def exChoiceInt : Obj := .value none (.literal (.str "1".toList) (some "http:int".toList))
/-- A string with language. -/
def exChoiceText (l : String) : Obj := .value none (.langString { data := "a".toList, language := some l.toList, direction := none })
/-- A reference. -/
def exChoiceRef (i : String) : Obj := .node (.mk none (some (.iri i.toList)) none none none [] none)

example : (exChoice.defs.map Prod.fst).Nodup ∧
    exChoose (.list none []) = some "ints".toList ∧
    exChoose (.list none [exChoiceInt, exChoiceInt]) = some "ints".toList ∧
    exChoose (.list none [exChoiceRef "http:k", exChoiceRef "http:l"]) = some "refs".toList ∧
    exChoose (.list none [.value none (.json .null)]) = some "json".toList ∧
    exChoose (.list none [exChoiceText "en", exChoiceText "EN"]) = some "english".toList ∧
    exChoose (.list none [exChoiceText "en", exChoiceText "de"]) = some "list".toList ∧
    exChoose (.list none [.value none (.literal (.bool true) none)]) = some "untagged".toList ∧
    exChoose (exChoiceText "en") = some "by-language".toList ∧
    exChoose (.value (some "i".toList) (.literal (.bool true) none)) = some "by-index".toList ∧
    exChoose (exChoiceRef "http:k") = some "word".toList ∧
    exChoose (exChoiceRef "http:l") = some "ref".toList ∧
    exChoose (exChoiceRef "http:l") true = some "back".toList ∧
    exChoose (.node (.mk none none none (some []) none [] none)) = some "graph".toList ∧
    exChoose (.node (.mk none (some (.iri "http:l".toList)) none (some []) none [] none)) =
      some "by-name".toList ∧
    exChoose exChoiceInt = some "plain".toList := by
  decide +kernel

/-- The hypotheses of `C71_typed_list` are met. -/
example : ∃ d, lookupKey "ints".toList exChoice.defs = some d ∧
    d.value = some (.id (.iri "http:x".toList)) ∧ d.container = .list ∧ d.reverse = false ∧
    d.typ = some (.iri "http:int".toList) ∧ ∀ x ∈ [exChoiceInt, exChoiceInt], ItemType x (.iri "http:int".toList) := by
  refine ⟨_, rfl, rfl, rfl, rfl, rfl, ?_⟩
  intro x hx
  simp only [List.mem_cons, List.not_mem_nil, or_false, or_self] at hx
  subst hx
  rfl

/-- The hypotheses of `C71_language_map` are met. -/
example : ∃ d, lookupKey "by-language".toList exChoice.defs = some d ∧
    d.value = some (.id (.iri "http:x".toList)) ∧ d.container = .language ∧ d.reverse = false ∧
    d.typ = none ∧ d.language = none ∧ d.direction = none :=
  ⟨_, rfl, rfl, rfl, rfl, rfl, rfl, rfl⟩

/-- The term for a list may depend on the order of its items: the language of the first string is not
compared with numbers before it (iri.rs:175-179). JSON-LD takes no language into account in both cases. -/
theorem C71_item_order :
    exChoose (.list none [exChoiceInt, exChoiceText "en"]) = some "english".toList ∧
    exChoose (.list none [exChoiceText "en", exChoiceInt]) = some "list".toList := by
  decide +kernel

end JsonLd.Props
