import Verif.Props.Warn
import Verif.Proofs.FlattenOut
import Verif.Spec.WarnMap
/-!
# C107: Warnings of language maps
-/

namespace JsonLd.Props
open JsonLd.Spec

private theorem collectW_fst {α β : Type} (f : α → Warned XErr (List β))
    (g : α → Except XErr (List β)) (h : ∀ a, (f a).1 = g a) (l : List α) :
    (collectW f l).1 = collectM g l := by
  induction l with
  | nil => rfl
  | cons a l ih =>
    show (Warned.andThen _ _).1 = _
    rw [andThen_fst, h]
    show _ = (g a).bind _
    congr 1
    funext x
    rw [andThen_fst, ih]
    cases collectM g l <;> rfl

private theorem itemW_fst (E : XEnv) (ok : Str → Bool) (c : ACtx) (dir : Option Direction)
    (l : Str) (v : Json) : (langMapItemW E ok c dir l v).1 = langMapItem E c dir l v := by
  unfold langMapItemW langMapItem
  cases v with
  | str s =>
    simp only
    rw [andThen_fst, xKeyW_fst]
    cases xKey E c l <;> rfl
  | _ => rfl

/-- C107: the expansion of a language map with warnings is the expansion of a language map. -/
theorem C107_result (E : XEnv) (ok : Str → Bool) (c : ACtx) (d : Option TermDef)
    (m : List (Str × Json)) : (langMapW E ok c d m).1 = langMap E c d m :=
  collectW_fst _ _ (fun _ => collectW_fst _ _ (fun _ => itemW_fst ..) _) _

private theorem collectW_snd {α β : Type} (f : α → Warned XErr (List β)) (g : α → List Warn)
    (h : ∀ a, (f a).2 <+: g a ∧ ∀ r, (f a).1 = .ok r → (f a).2 = g a) (l : List α) :
    (collectW f l).2 <+: l.flatMap g ∧
      ∀ r, (collectW f l).1 = .ok r → (collectW f l).2 = l.flatMap g := by
  induction l with
  | nil => exact ⟨List.prefix_rfl, fun _ _ => rfl⟩
  | cons a l ih =>
    have ha := h a
    have hu : collectW f (a :: l) =
        (f a).andThen fun x => (collectW f l).andThen fun y => (.ok (x ++ y), []) := rfl
    rw [hu, List.flatMap_cons]
    generalize f a = x at ha
    obtain ⟨r, w⟩ := x
    cases r with
    | error e =>
      refine ⟨ha.1.trans (List.prefix_append _ _), ?_⟩
      intro r hr
      cases hr
    | ok x =>
      have hw : w = g a := ha.2 x rfl
      generalize collectW f l = y at ih
      obtain ⟨r', w'⟩ := y
      cases r' with
      | error e =>
        refine ⟨?_, ?_⟩
        · show w ++ w' <+: _
          rw [hw]
          exact (List.prefix_append_right_inj _).2 ih.1
        · intro r hr; cases hr
      | ok y =>
        have hw' : w' = l.flatMap g := ih.2 y rfl
        have he : w ++ (w' ++ []) = g a ++ l.flatMap g := by rw [hw, hw', List.append_nil]
        exact ⟨by show w ++ (w' ++ []) <+: _; rw [he]; exact List.prefix_rfl, fun _ _ => he⟩

private def forString (w : List Warn) : Json → List Warn
  | .str _ => w
  | _ => []

open Classical in
private theorem itemW_snd (E : XEnv) (ok : Str → Bool) (c : ACtx) (dir : Option Direction)
    (l : Str) (v : Json) :
    (langMapItemW E ok c dir l v).2 <+:
        forString (langWarns E ok c l) v ∧
      ∀ r, (langMapItemW E ok c dir l v).1 = .ok r → (langMapItemW E ok c dir l v).2 =
        forString (langWarns E ok c l) v := by
  cases v with
  | str s =>
    have hk := keyIri E c l
    have h1 := xKeyW_fst E c l
    have h2 := keyErr E c l
    have hN : ∀ t, xKey E c l = .ok t → (NoLanguage E c l ↔ t = some (.keyword .none)) := by
      intro t ht
      have hx : expandIri E.toIriEnv c (some (.ofStr l)) false (some E.opts.vocab) = .ok t := by
        unfold xKey xIri at ht
        split at ht
        · rename_i t' ht'; cases ht; exact ht'
        · cases ht
      unfold NoLanguage
      rw [hx]
      constructor
      · intro h; cases h; rfl
      · intro h; rw [h]
    unfold langMapItemW langWarns forString
    simp only
    rw [← hk]
    generalize xKeyW E c l = x at h1 h2
    obtain ⟨r, w⟩ := x
    cases r with
    | error e =>
      have : w = [] := h2 e h1.symm
      subst this
      exact ⟨List.nil_prefix, fun r hr => by cases hr⟩
    | ok t =>
      have ht := hN t h1.symm
      have he : tagWarn ok (if t = some (.keyword .none) then none else some l) =
          if ¬ NoLanguage E c l ∧ ok l = false then [.malformedTag l] else [] := by
        by_cases hn : t = some (.keyword .none)
        · rw [if_pos hn, if_neg fun x => x.1 (ht.2 hn)]; rfl
        · rw [if_neg hn]
          unfold tagWarn
          cases hl : ok l
          · rw [if_pos ⟨fun x => hn (ht.1 x), rfl⟩]; simp [hl]
          · rw [if_neg fun x => by cases x.2]; simp [hl]
      have hs : (Warned.andThen ((.ok t, w) : Warned XErr (Option CTerm)) fun t =>
          (.ok [langItem s (if t = some (.keyword .none) then none else some l) dir],
            tagWarn ok (if t = some (.keyword .none) then none else some l))).2 =
          w ++ if ¬ NoLanguage E c l ∧ ok l = false then [.malformedTag l] else [] := by
        show w ++ tagWarn ok _ = _
        rw [he]
      exact ⟨by rw [hs]; exact List.prefix_rfl, fun _ _ => hs⟩
  | _ => exact ⟨List.nil_prefix, fun _ _ => rfl⟩

private theorem strings_flat (v : Json) (w : List Warn) :
    (forceArray v).flatMap (forString w) =
      (mapStrings v).flatMap fun _ => w := by
  cases v with
  | arr l =>
    show (l.flatMap _) = (l.filterMap _).flatMap _
    induction l with
    | nil => rfl
    | cons a l ih =>
      rw [List.flatMap_cons, ih]
      cases a <;> simp [forString]
  | _ => rfl

private theorem mapW_snd (E : XEnv) (ok : Str → Bool) (c : ACtx) (d : Option TermDef)
    (m : List (Str × Json)) :
    (langMapW E ok c d m).2 <+: ((sortIf E.opts.ordered Prod.fst m).flatMap fun e =>
        (mapStrings e.2).flatMap fun _ => langWarns E ok c e.1) ∧
      ∀ r, (langMapW E ok c d m).1 = .ok r → (langMapW E ok c d m).2 =
        ((sortIf E.opts.ordered Prod.fst m).flatMap fun e =>
          (mapStrings e.2).flatMap fun _ => langWarns E ok c e.1) := by
  unfold langMapW
  refine collectW_snd _ _ (fun e => ?_) _
  have h := collectW_snd (langMapItemW E ok c (literalDirection c d) e.1)
    (forString (langWarns E ok c e.1))
    (fun v => itemW_snd E ok c (literalDirection c d) e.1 v) (forceArray e.2)
  rw [strings_flat] at h
  exact h

/-- C107: the warnings of a language map are, for every string of every entry in the order of
processing, those deserved by the key of the entry. -/
theorem C107_warnings (E : XEnv) (ok : Str → Bool) (c : ACtx) (d : Option TermDef)
    (m : List (Str × Json)) (os : List Obj) (h : langMap E c d m = .ok os) :
    (langMapW E ok c d m).2 =
      (sortIf E.opts.ordered Prod.fst m).flatMap fun e =>
        (mapStrings e.2).flatMap fun _ => langWarns E ok c e.1 :=
  (mapW_snd E ok c d m).2 os (by rw [C107_result]; exact h)

/-- C107: if the expansion fails, the warnings are the first ones of these. -/
theorem C107_prefix (E : XEnv) (ok : Str → Bool) (c : ACtx) (d : Option TermDef)
    (m : List (Str × Json)) :
    (langMapW E ok c d m).2 <+:
      (sortIf E.opts.ordered Prod.fst m).flatMap fun e =>
        (mapStrings e.2).flatMap fun _ => langWarns E ok c e.1 :=
  (mapW_snd E ok c d m).1

open Classical in
/-- C107: a tag is reported as malformed exactly if it is malformed, does not mean `@none`, and is
the language of some string. -/
theorem C107_tag (E : XEnv) (ok : Str → Bool) (c : ACtx) (d : Option TermDef)
    (m : List (Str × Json)) (os : List Obj) (h : langMap E c d m = .ok os) (l : Str) :
    .malformedTag l ∈ (langMapW E ok c d m).2 ↔
      ok l = false ∧ ¬ NoLanguage E c l ∧ ∃ v, (l, v) ∈ m ∧ mapStrings v ≠ [] := by
  rw [C107_warnings E ok c d m os h]
  simp only [List.mem_flatMap]
  constructor
  · rintro ⟨e, he, s, hs, hw⟩
    unfold langWarns at hw
    rw [List.mem_append] at hw
    rcases hw with hw | hw
    · split at hw
      · simp at hw
      · cases hw
    · split at hw
      · rename_i hx
        rw [List.mem_singleton] at hw
        cases hw
        exact ⟨hx.2, hx.1, e.2, (sortIf_perm _ _ _).mem_iff.1 he, List.ne_nil_of_mem hs⟩
      · cases hw
  · rintro ⟨h1, h2, v, hv, hs⟩
    obtain ⟨s, hs⟩ := List.exists_mem_of_ne_nil _ hs
    refine ⟨(l, v), (sortIf_perm _ _ _).mem_iff.2 hv, s, hs, ?_⟩
    have hw : (if ¬ NoLanguage E c l ∧ ok l = false then [Warn.malformedTag l] else []) =
        [.malformedTag l] := if_pos ⟨h2, h1⟩
    unfold langWarns
    rw [hw]
    exact List.mem_append_right _ (List.mem_singleton.2 rfl)

/-- C107: without a vocabulary mapping, every language of a string that is no keyword, no term and
has no colon is reported as a malformed IRI, whether it is well-formed or not. -/
theorem C107_spurious (E : XEnv) (ok : Str → Bool) (c : ACtx) (d : Option TermDef)
    (m : List (Str × Json)) (os : List Obj) (h : langMap E c d m = .ok os) (l : Str) (v : Json)
    (hm : (l, v) ∈ m) (hs : mapStrings v ≠ []) (hv : c.vocab = none)
    (hk : Keyword.tryFrom l = none) (ht : NoTerm c l true) (hc : ¬ HasColon l) :
    .malformedIri l ∈ (langMapW E ok c d m).2 := by
  rw [C107_warnings E ok c d m os h]
  simp only [List.mem_flatMap]
  obtain ⟨s, hs⟩ := List.exists_mem_of_ne_nil _ hs
  refine ⟨(l, v), (sortIf_perm _ _ _).mem_iff.2 hm, s, hs, ?_⟩
  unfold langWarns
  rw [if_pos ⟨hk, ht, fun x => absurd x hc, .inr ⟨.inr hv, fun x => by cases x⟩⟩]
  exact List.mem_append_left _ (List.mem_singleton.2 rfl)

private theorem collect_all {α β : Type} (f : α → Except XErr (List β)) (l : List α) :
    ∀ r, collectM f l = .ok r → ∀ a ∈ l, ∃ x, f a = .ok x := by
  induction l with
  | nil => intro _ _ a ha; cases ha
  | cons b l ih =>
    intro r h a ha
    unfold collectM at h
    cases hb : f b with
    | error e => rw [hb] at h; cases h
    | ok x =>
      rw [hb] at h
      cases hl : collectM f l with
      | error e => rw [hl] at h; cases h
      | ok y =>
        rcases List.mem_cons.1 ha with rfl | ha
        · exact ⟨x, hb⟩
        · exact ih y hl a ha

/-- C107: if the policy forbids the vocabulary mapping and there is one, a language map with a string
whose language is no keyword, no term and has no colon is refused. -/
theorem C107_reject (E : XEnv) (c : ACtx) (d : Option TermDef) (m : List (Str × Json)) (l : Str)
    (v : Json) (i : Id) (hp : E.opts.vocab = .reject) (hm : (l, v) ∈ m) (hs : mapStrings v ≠ [])
    (hv : c.vocab = some (.id i)) (hk : Keyword.tryFrom l = none) (ht : NoTerm c l true)
    (hc : ¬ HasColon l) (os : List Obj) : langMap E c d m ≠ .ok os := by
  intro h
  have hx : expandStr E.toIriEnv c l false (some E.opts.vocab) = .error () :=
    (C32_policy E.toIriEnv c l false (some E.opts.vocab) (.error ()) (.inl rfl)).2
      ⟨ht, fun x => absurd x hc, ⟨i, hv⟩, .inl ⟨rfl, by rw [hp]⟩⟩
  have hl : ∀ r, xKey E c l ≠ .ok r := by
    intro r hr
    unfold xKey xIri Expandable.ofStr at hr
    rw [hk] at hr
    have : expandIri E.toIriEnv c (some (.string l)) false (some E.opts.vocab) = .error () := hx
    simp only [this] at hr
    cases hr
  obtain ⟨r, hr⟩ := collect_all _ _ os h (l, v) ((sortIf_perm _ _ _).mem_iff.2 hm)
  have hstr : ∃ s, Json.str s ∈ forceArray v := by
    cases v with
    | str s => exact ⟨s, List.mem_cons_self⟩
    | arr a =>
      obtain ⟨s, hs⟩ := List.exists_mem_of_ne_nil _ hs
      obtain ⟨x, hx, he⟩ := List.mem_filterMap.1 hs
      cases x with
      | str y => exact ⟨y, hx⟩
      | _ => cases he
    | _ => exact absurd rfl hs
  obtain ⟨s, hs⟩ := hstr
  obtain ⟨r', hr'⟩ := collect_all _ _ r hr _ hs
  unfold langMapItem at hr'
  cases hk : xKey E c l with
  | ok t => exact hl t hk
  | error e => simp only [hk] at hr'; cases hr'

/-- Two strings with a malformed tag, one with a good tag, one without language and an entry without
strings. There is no vocabulary mapping, so that all tags are reported as malformed IRIs. -/
example :
    (langMapW exWarnEnv (fun t => decide (t = "en".toList)) { exCtx with vocab := none } none
      [("e n".toList, .arr [.str "a".toList, .null, .str "b".toList]),
        ("en".toList, .str "c".toList), ("@none".toList, .str "d".toList),
        ("x y".toList, .null)]).2 =
    [.malformedIri "e n".toList, .malformedTag "e n".toList,
      .malformedIri "e n".toList, .malformedTag "e n".toList, .malformedIri "en".toList] := by
  decide +kernel

/-- With a vocabulary mapping only the malformed tag is reported. An error keeps the warnings before
it. -/
example :
    (langMapW exWarnEnv (fun t => decide (t = "en".toList)) exCtx none
      [("e n".toList, .str "a".toList), ("en".toList, .bool true),
        ("x y".toList, .str "b".toList)]).2 = [.malformedTag "e n".toList] := by
  decide +kernel

/-- A language map that is refused. -/
example :
    (match langMap { exWarnEnv with opts := { vocab := .reject } } exCtx none
        [("en".toList, .str "c".toList)] with
      | .ok _ => none
      | .error e => some e) = some .forbiddenVocab := rfl

end JsonLd.Props
