import Verif.Spec.Choice
import Verif.Proofs.CompactIri
/-!
# Proofs about the term chosen for a value
-/

namespace JsonLd
open JsonLd.Spec JsonLd.Props

/-! ## Lists of wishes with the same outcome -/

/-- No wish has candidates. -/
def NoCand (c : ACtx) (var : CTerm) (ws : List (Container × (TermDef → Prop))) : Prop :=
  ∀ v ∈ ws, ∀ k, ¬ Candidate c var v k

theorem selected_nil {c : ACtx} {var : CTerm} {k : Str} : ¬ Selected c var [] k := by
  rintro ⟨pre, w, post, h, _⟩
  simp at h

theorem selected_append {c : ACtx} {var : CTerm} {A B : List (Container × (TermDef → Prop))} {k : Str} :
    Selected c var (A ++ B) k ↔ Selected c var A k ∨ (NoCand c var A ∧ Selected c var B k) := by
  constructor
  · rintro ⟨pre, w, post, h, h1, h2, h3⟩
    rcases List.append_eq_append_iff.1 h with ⟨l, h4, h5⟩ | ⟨l, h4, h5⟩
    · right
      exact ⟨fun v hv => h1 v (by rw [h4]; simp [hv]), l, w, post, h5,
        fun v hv => h1 v (by rw [h4]; simp [hv]), h2, h3⟩
    · cases l with
      | nil =>
        right
        simp only [List.append_nil] at h4
        exact ⟨fun v hv => h1 v (by rw [← h4]; exact hv), [], w, post, by simpa using h5.symm, by simp, h2, h3⟩
      | cons x l =>
        simp only [List.cons_append, List.cons.injEq] at h5
        left
        exact ⟨pre, w, l, by rw [h4, h5.1], h1, h2, h3⟩
  · rintro (⟨pre, w, post, h, h1, h2, h3⟩ | ⟨hA, pre, w, post, h, h1, h2, h3⟩)
    · exact ⟨pre, w, post ++ B, by rw [h]; simp, h1, h2, h3⟩
    · refine ⟨A ++ pre, w, post, by rw [h]; simp, ?_, h2, h3⟩
      intro v hv
      rcases List.mem_append.1 hv with h4 | h4
      · exact hA v h4
      · exact h1 v h4

theorem selected_not_noCand {c : ACtx} {var : CTerm} {A : List (Container × (TermDef → Prop))} {k : Str}
    (h : Selected c var A k) : ¬ NoCand c var A := by
  obtain ⟨pre, w, post, h0, h1, h2, h3⟩ := h
  intro hn
  exact hn w (by rw [h0]; simp) k h2

/-- The lists have the same outcome. -/
def SameChoice (c : ACtx) (var : CTerm) (A B : List (Container × (TermDef → Prop))) : Prop :=
  (∀ k, Selected c var A k ↔ Selected c var B k) ∧ (NoCand c var A ↔ NoCand c var B)

theorem noCand_append {c : ACtx} {var : CTerm} {A B : List (Container × (TermDef → Prop))} :
    NoCand c var (A ++ B) ↔ NoCand c var A ∧ NoCand c var B := by
  simp only [NoCand, List.mem_append]
  constructor
  · intro h
    exact ⟨fun v hv => h v (.inl hv), fun v hv => h v (.inr hv)⟩
  · rintro ⟨h1, h2⟩ v (hv | hv)
    · exact h1 v hv
    · exact h2 v hv

theorem sameChoice_refl (c : ACtx) (var : CTerm) (A : List (Container × (TermDef → Prop))) :
    SameChoice c var A A := ⟨fun _ => .rfl, .rfl⟩

theorem sameChoice_append {c : ACtx} {var : CTerm} {A A' B B' : List (Container × (TermDef → Prop))}
    (h : SameChoice c var A A') (h' : SameChoice c var B B') : SameChoice c var (A ++ B) (A' ++ B') := by
  constructor
  · intro k
    rw [selected_append, selected_append, h.1, h.2, h'.1]
  · rw [noCand_append, noCand_append, h.2, h'.2]

/-- Wishes that were made before can be left out. -/
theorem sameChoice_again {c : ACtx} {var : CTerm} {A B : List (Container × (TermDef → Prop))}
    (h : ∀ w ∈ B, w ∈ A) : SameChoice c var (A ++ B) A := by
  constructor
  · intro k
    rw [selected_append]
    constructor
    · rintro (h1 | ⟨h1, h2⟩)
      · exact h1
      · exact absurd (fun v hv => h1 v (h v hv)) (selected_not_noCand h2)
    · exact .inl
  · rw [noCand_append]
    exact ⟨And.left, fun h1 => ⟨h1, fun v hv => h1 v (h v hv)⟩⟩

theorem allWishes_append (A B : List Container) (ws : List (TermDef → Prop)) :
    allWishes (A ++ B) ws = allWishes A ws ++ allWishes B ws := by simp [allWishes]

theorem sameChoice_containers {c : ACtx} {var : CTerm} {A B : List Container} {ws : List (TermDef → Prop)}
    (h : ∀ x ∈ B, x ∈ A) : SameChoice c var (allWishes (A ++ B) ws) (allWishes A ws) := by
  rw [allWishes_append]
  apply sameChoice_again
  intro w hw
  simp only [allWishes, List.mem_flatMap] at hw ⊢
  obtain ⟨k, h1, h2⟩ := hw
  exact ⟨k, h k h1, h2⟩

theorem sameChoice_dup {c : ACtx} {var : CTerm} {cs : List Container} {w : TermDef → Prop}
    {ws : List (TermDef → Prop)} : SameChoice c var (allWishes cs (w :: w :: ws)) (allWishes cs (w :: ws)) := by
  induction cs with
  | nil => exact sameChoice_refl _ _ _
  | cons k cs ih =>
    have h1 : ∀ l, allWishes (k :: cs) l = l.map (fun w => (k, w)) ++ allWishes cs l := fun l => rfl
    rw [h1, h1]
    refine sameChoice_append ?_ ih
    have h2 : SameChoice c var ([(k, w)] ++ [(k, w)]) [(k, w)] := sameChoice_again (by simp)
    have h3 := sameChoice_append h2 (sameChoice_refl c var (ws.map fun w => (k, w)))
    simpa using h3

/-! ## The selection as conditions -/

/-- The conditions of a selection. -/
def selWants (c : ACtx) : Selection → List (TermDef → Prop)
  | .any => [fun _ => True]
  | .type l => l.map fun x d => TypeMatch d x
  | .lang l => l.map fun x d => LangMatch c d x

theorem wishes_eq (c : ACtx) (cs : List Container) (s : Selection) :
    wishes c cs s = allWishes cs (selWants c s) := by
  unfold wishes allWishes selWants
  congr 1
  funext k
  cases s <;> simp

/-! ## Lists -/

theorem itemType_iff {o : Obj} {t : TypeMap} : ItemType o t ↔ itemType o = some t := by
  cases o with
  | value i v =>
    cases v with
    | literal l ty => cases ty <;> simp [ItemType, itemType, eq_comm]
    | langString s => simp [ItemType, itemType]
    | json j => simp [ItemType, itemType, eq_comm]
  | list i l => simp [ItemType, itemType, eq_comm]
  | node n => simp [ItemType, itemType, eq_comm]

theorem itemLang_iff {o : Obj} {l : LangDir} : ItemLang o l ↔ itemLang o = some l := by
  cases o with
  | value i v =>
    cases v with
    | literal x ty => cases ty <;> simp [ItemLang, itemLang, eq_comm]
    | langString s => simp [ItemLang, itemLang, eq_comm]
    | json j => simp [ItemLang, itemLang]
  | list i l => simp [ItemLang, itemLang]
  | node n => simp [ItemLang, itemLang]

theorem isValueItem_iff {o : Obj} : IsValueItem o ↔ o.isVal = true := by
  cases o <;> simp [IsValueItem, Obj.isVal]

/-- The loop without stopping early. -/
theorem commonLoop_eq (items : List Obj) (t : Option (Option TypeMap)) (l : Option LangDir) :
    commonLoop items t l = (items.foldl (fun t o => commonType o t) t, items.foldl (fun l o => commonLang o l) l) := by
  induction items generalizing t l with
  | nil => rfl
  | cons o os ih =>
    unfold commonLoop
    dsimp only
    split
    · rename_i h
      rw [List.foldl_cons, List.foldl_cons, h.1, h.2]
      have h1 : ∀ os : List Obj, os.foldl (fun t o => commonType o t) (some none) = some none := by
        intro os
        induction os with
        | nil => rfl
        | cons o os ih =>
          rw [List.foldl_cons]
          have : commonType o (some none) = some none := by
            unfold commonType
            dsimp only
            split <;> rfl
          rw [this, ih]
      have h2 : ∀ os : List Obj, os.foldl (fun l o => commonLang o l) (some (some (none, none))) =
          some (some (none, none)) := by
        intro os
        induction os with
        | nil => rfl
        | cons o os ih =>
          rw [List.foldl_cons]
          have : commonLang o (some (some (none, none))) = some (some (none, none)) := by
            unfold commonLang
            dsimp only
            split <;> rfl
          rw [this, ih]
      rw [h1, h2]
    · rw [ih]
      rfl

theorem foldType_some (os : List Obj) (x : Option TypeMap) :
    os.foldl (fun t o => commonType o t) (some x) = some (if ∀ o ∈ os, itemType o = x then x else none) := by
  induction os generalizing x with
  | nil => simp
  | cons o os ih =>
    rw [List.foldl_cons]
    by_cases h : x = itemType o
    · have : commonType o (some x) = some x := by simp [commonType, h]
      rw [this, ih]
      simp [h]
    · have : commonType o (some x) = some none := by simp [commonType, h]
      rw [this, ih]
      simp [Ne.symm h]

theorem foldLang_some (os : List Obj) (x : LangDir) :
    os.foldl (fun l o => commonLang o l) (some x) =
      some (if ∀ o ∈ os, o.isVal = true → (itemLang o).map LangDir.key = some x.key then x
        else some (none, none)) := by
  induction os generalizing x with
  | nil => simp
  | cons o os ih =>
    rw [List.foldl_cons]
    by_cases h : o.isVal = true ∧ (itemLang o).map LangDir.key ≠ some x.key
    · have : commonLang o (some x) = some (some (none, none)) := by
        unfold commonLang; dsimp only; rw [if_pos h]
      rw [this, ih, ite_self, if_neg]
      intro h1
      exact h.2 (h1 o (by simp) h.1)
    · have : commonLang o (some x) = some x := by
        unfold commonLang; dsimp only; rw [if_neg h]
      rw [this, ih]
      have h1 : o.isVal = true → (itemLang o).map LangDir.key = some x.key := by
        intro h2
        by_contra h3
        exact h ⟨h2, h3⟩
      congr 1
      refine ite_congr (propext ?_) (fun _ => rfl) (fun _ => rfl)
      rw [List.forall_mem_cons]
      exact ⟨fun h2 => ⟨h1, h2⟩, And.right⟩

theorem foldLang_none (os : List Obj) :
    (∃ l, ItemsLang os l ∧ os.foldl (fun l o => commonLang o l) none = some l) ∨
    ((∀ l, ¬ ItemsLang os l) ∧
      (os.foldl (fun l o => commonLang o l) none).getD (some (none, none)) = some (none, none)) := by
  induction os with
  | nil => exact .inr ⟨by rintro l ⟨pre, o, post, h, _⟩; simp at h, rfl⟩
  | cons o os ih =>
    rw [List.foldl_cons]
    have h0 : commonLang o none = itemLang o := rfl
    rw [h0]
    cases hl : itemLang o with
    | none =>
      have hno : ∀ m, ¬ ItemLang o m := fun m hm => by rw [itemLang_iff, hl] at hm; cases hm
      have key : ∀ l, ItemsLang (o :: os) l ↔ ItemsLang os l := by
        intro l
        constructor
        · rintro ⟨pre, x, post, h, h1, h2, h3⟩
          cases pre with
          | nil =>
            simp only [List.nil_append, List.cons.injEq] at h
            exact absurd (h.1 ▸ h2) (hno l)
          | cons y pre =>
            simp only [List.cons_append, List.cons.injEq] at h
            exact ⟨pre, x, post, h.2, fun z hz => h1 z (by simp [hz]), h2, h3⟩
        · rintro ⟨pre, x, post, h, h1, h2, h3⟩
          refine ⟨o :: pre, x, post, by rw [h]; rfl, ?_, h2, h3⟩
          intro z hz
          rcases List.mem_cons.1 hz with h4 | h4
          · rw [h4]; exact hno
          · exact h1 z h4
      simpa only [key] using ih
    | some x =>
      rw [foldLang_some]
      have hx : ItemLang o x := itemLang_iff.2 hl
      have key : ∀ l, ItemsLang (o :: os) l ↔
          l = x ∧ ∀ o ∈ os, o.isVal = true → (itemLang o).map LangDir.key = some x.key := by
        intro l
        constructor
        · rintro ⟨pre, y, post, h, h1, h2, h3⟩
          cases pre with
          | cons z pre =>
            simp only [List.cons_append, List.cons.injEq] at h
            exact absurd hx (h1 o (by simp [h.1]) x)
          | nil =>
            simp only [List.nil_append, List.cons.injEq] at h
            obtain ⟨h4, h5⟩ := h
            subst h4 h5
            rw [itemLang_iff, hl] at h2
            cases h2
            refine ⟨rfl, fun z hz hv => ?_⟩
            obtain ⟨m, h6, h7⟩ := h3 z hz (isValueItem_iff.2 hv)
            rw [itemLang_iff] at h6
            rw [h6, Option.map_some, key_iff.2 h7]
        · rintro ⟨rfl, h⟩
          refine ⟨[], o, os, rfl, by simp, hx, fun z hz hv => ?_⟩
          have h1 := h z hz (isValueItem_iff.1 hv)
          cases h2 : itemLang z with
          | none => rw [h2] at h1; cases h1
          | some m =>
            rw [h2] at h1
            exact ⟨m, itemLang_iff.2 h2, key_iff.1 (Option.some.inj h1).symm⟩
      split
      · rename_i h
        exact .inl ⟨x, (key x).2 ⟨rfl, h⟩, rfl⟩
      · rename_i h
        exact .inr ⟨fun l hl => h ((key l).1 hl).2, rfl⟩

/-- What is wanted for a list. -/
theorem listTypeLang_cases (c : ACtx) (items : List Obj) (hne : items ≠ []) :
    (∃ t, (∀ x ∈ items, ItemType x t) ∧ listTypeLang c items = .type (.type t)) ∨
    ((∀ t, ∃ x ∈ items, ¬ ItemType x t) ∧ ∃ l, ItemsLang items l ∧ listTypeLang c items = .lang (.lang l)) ∨
    ((∀ t, ∃ x ∈ items, ¬ ItemType x t) ∧ (∀ l, ¬ ItemsLang items l) ∧
      listTypeLang c items = .lang (.lang (some (none, none)))) := by
  cases items with
  | nil => exact absurd rfl hne
  | cons o os =>
    have h0 : listTypeLang c (o :: os) =
        match (some (if ∀ x ∈ os, itemType x = itemType o then itemType o else none)).getD none with
        | some t => .type (.type t)
        | none => .lang (.lang (((o :: os).foldl (fun l o => commonLang o l) none).getD (some (none, none)))) := by
      unfold listTypeLang
      rw [commonLoop_eq, List.foldl_cons]
      have : commonType o none = some (itemType o) := rfl
      rw [this, foldType_some]
      rfl
    rw [h0]
    clear h0
    by_cases ht : ∃ t, ∀ x ∈ o :: os, ItemType x t
    · obtain ⟨t, ht⟩ := ht
      have h1 : itemType o = some t := itemType_iff.1 (ht o (by simp))
      have h2 : ∀ x ∈ os, itemType x = itemType o := fun x hx => by
        rw [h1]; exact itemType_iff.1 (ht x (by simp [hx]))
      left
      refine ⟨t, ht, ?_⟩
      rw [if_pos h2, h1]
      rfl
    · have h1 : ∀ t, ∃ x ∈ o :: os, ¬ ItemType x t := by
        intro t
        by_contra h
        refine ht ⟨t, fun x hx => ?_⟩
        by_contra h2
        exact h ⟨x, hx, h2⟩
      have h2 : (if ∀ x ∈ os, itemType x = itemType o then itemType o else none) = none := by
        split
        · rename_i h3
          cases h4 : itemType o with
          | none => rfl
          | some t =>
            refine absurd ⟨t, fun x hx => ?_⟩ ht
            rw [itemType_iff]
            rcases List.mem_cons.1 hx with h5 | h5
            · rw [h5, h4]
            · rw [h3 x h5, h4]
        · rfl
      rw [h2]
      right
      rcases foldLang_none (o :: os) with ⟨l, h3, h4⟩ | ⟨h3, h4⟩
      · left
        refine ⟨h1, l, h3, ?_⟩
        rw [h4]
        rfl
      · right
        refine ⟨h1, h3, ?_⟩
        rw [h4]
        rfl

/-! ## The whole selection -/

theorem selWants_type (c : ACtx) (t : TypeMap) : selWants c (.type (typeSelection (.type t) none)) = typeWants t := rfl

theorem selWants_lang (c : ACtx) (l : LangDir) (h : ∀ a d, l ≠ some (some a, some d)) :
    selWants c (.lang (langSelection (.lang l))) = langWants c l := by
  have : langSelection (.lang l) = [.lang l, .lang (some (none, none)), .any] := by
    unfold langSelection
    split
    · rename_i a d heq
      exact absurd (LangSel.lang.inj heq) (h a d)
    · rfl
  rw [this]
  rfl

theorem selWants_langDir (c : ACtx) (a : Str) (d : Direction) :
    selWants c (.lang (langSelection (.lang (some (some a, some d))))) =
      langWants c (some (some a, some d)) ++ [fun x => LangMatch c x (.lang (some (none, some d)))] := rfl

/-- The selections for references. -/
theorem ref_cases {env : CompEnv} {c : ACtx} {o : CompOpts} {t : TypeSel} {n : Node} {i : Id}
    (hi : n.id = some i) (ht : t = .type .id ∨ t = .reverse) {v : Option Bool}
    (h : idHasTerm env c o t (.node n) = .ok v) :
    ∃ ws, RefWants env c o i ws ∧
      selWants c (.type (typeSelection t v)) =
        (if t = .reverse then [fun d => TypeMatch d .reverse] else []) ++ ws := by
  unfold idHasTerm at h
  have h1 : (Obj.node n).nodeId = some i := hi
  rw [h1] at h
  dsimp only at h
  rw [if_pos ht] at h
  split at h
  · cases h
  · cases h
  · rename_i s hs
    cases h
    by_cases hv : c.getValue s = some (some (.id i))
    · refine ⟨_, .inl ⟨⟨s, hs, hv⟩, rfl⟩, ?_⟩
      rw [decide_eq_true hv]
      rcases ht with rfl | rfl <;> rfl
    · refine ⟨_, .inr ⟨?_, rfl⟩, ?_⟩
      · rintro ⟨s', hs', hv'⟩
        rw [hs] at hs'
        cases hs'
        exact hv hv'
      · rw [decide_eq_false hv]
        rcases ht with rfl | rfl <;> rfl

/-- The conditions, up to repeated ones. -/
theorem fullSelection_wanted {env : CompEnv} {c : ACtx} {o : CompOpts} {value : Obj} {reverse : Bool}
    (hr : reverse = true → ∃ n, value = .node n) {s : Selection}
    (h : fullSelection env c o value reverse = .ok s) :
    ∃ ws, Wanted env c o value reverse ws ∧
      ∀ var cs, SameChoice c var (allWishes cs (selWants c s)) (allWishes cs ws) := by
  have same : ∀ ws, Wanted env c o value reverse ws → selWants c s = ws →
      ∃ ws, Wanted env c o value reverse ws ∧
        ∀ var cs, SameChoice c var (allWishes cs (selWants c s)) (allWishes cs ws) := by
    rintro ws hw rfl
    exact ⟨_, hw, fun _ _ => sameChoice_refl _ _ _⟩
  unfold fullSelection at h
  cases value with
  | list i items =>
    have hrf : reverse = false := by
      cases reverse with
      | false => rfl
      | true => obtain ⟨n, hn⟩ := hr rfl; cases hn
    subst hrf
    by_cases hne : items = []
    · subst hne
      cases h
      exact same _ (.emptyList i) rfl
    · have h1 : isEmptyList (some (.list i items)) = false := by
        cases items with
        | nil => exact absurd rfl hne
        | cons a b => rfl
      rw [h1, if_neg (by simp)] at h
      simp only [Bool.false_eq_true, if_false, valueTypeLang] at h
      rcases listTypeLang_cases c items hne with ⟨t, ht, h2⟩ | ⟨ht, l, hl, h2⟩ | ⟨ht, hl, h2⟩
      · rw [h2] at h
        cases h
        exact same _ (.typedList i items t hne ht) (selWants_type c t)
      · rw [h2] at h
        cases h
        by_cases h3 : ∃ a d, l = some (some a, some d)
        · obtain ⟨a, d, rfl⟩ := h3
          exact same _ (.langDirList i items a d ht hl) (selWants_langDir c a d)
        · have h4 : ∀ a d, l ≠ some (some a, some d) := fun a d h5 => h3 ⟨a, d, h5⟩
          exact same _ (.langList i items l ht hl h4) (selWants_lang c l h4)
      · rw [h2] at h
        cases h
        exact same _ (.mixedList i items ht hl) (selWants_lang c _ (by simp))
  | value i v =>
    have hrf : reverse = false := by
      cases reverse with
      | false => rfl
      | true => obtain ⟨n, hn⟩ := hr rfl; cases hn
    subst hrf
    simp only [isEmptyList, Bool.false_eq_true, if_false, valueTypeLang] at h
    have htm : ∀ t, ItemType (.value i v) t ↔ v.typeMap = some t := by
      intro t
      rw [itemType_iff]
      cases v with
      | literal l ty => cases ty <;> simp [itemType, Value.typeMap]
      | langString s => simp [itemType, Value.typeMap]
      | json j => simp [itemType, Value.typeMap]
    by_cases hl : (hasLangDir v && i.isNone) = true
    · rw [if_pos hl] at h
      cases v with
      | langString ls =>
        simp only [hasLangDir, Bool.and_eq_true, Bool.or_eq_true, Option.isSome_iff_ne_none,
          Option.isNone_iff_eq_none] at hl
        obtain ⟨hl, rfl⟩ := hl
        cases h
        cases hx : ls.language with
        | none =>
          have := selWants_lang c (some (ls.language, ls.direction)) (by simp [hx])
          refine same _ (.lang ls ls.language ls.direction rfl rfl hl.symm (.inl hx)) this
        | some a =>
          cases hy : ls.direction with
          | none =>
            have := selWants_lang c (some (ls.language, ls.direction)) (by simp [hy])
            exact same _ (.lang ls ls.language ls.direction rfl rfl hl.symm (.inr hy)) this
          | some d =>
            have := selWants_langDir c a d
            refine same _ (.langDir ls a d hx hy) ?_
            simpa only [Value.langDir, hx, hy] using this
      | literal _ _ => simp [hasLangDir] at hl
      | json _ => simp [hasLangDir] at hl
    · rw [if_neg hl] at h
      cases ht : v.typeMap with
      | some t =>
        rw [ht] at h
        cases h
        exact same _ (.typed i v t ((htm t).2 ht)) (selWants_type c t)
      | none =>
        rw [ht] at h
        cases h
        refine same _ (.plain i v ?_ ?_) rfl
        · intro t h1
          rw [htm, ht] at h1
          cases h1
        · rintro rfl ls rfl
          simp only [hasLangDir, Option.isNone_none, Bool.and_true, Bool.or_eq_true, not_or,
            Option.isSome_iff_ne_none, not_not] at hl
          exact ⟨hl.2, hl.1⟩
  | node n =>
    simp only [isEmptyList, Bool.false_eq_true, if_false] at h
    cases reverse with
    | false =>
      simp only [Bool.false_eq_true, if_false, valueTypeLang] at h
      split at h
      · cases h
      · rename_i v hv
        cases h
        cases hi : n.id with
        | none =>
          have h1 : idHasTerm env c o (.type .id) (.node n) = .ok none := by
            unfold idHasTerm
            have h1 : (Obj.node n).nodeId = none := hi
            rw [h1]
          rw [h1] at hv
          cases hv
          exact same _ (.node n hi) rfl
        | some i =>
          obtain ⟨ws, hw, h1⟩ := ref_cases hi (.inl rfl) hv
          exact same _ (.ref n i ws hi hw) (by rw [h1]; rfl)
    | true =>
      simp only [if_true] at h
      split at h
      · cases h
      · rename_i v hv
        cases h
        cases hi : n.id with
        | none =>
          have h1 : idHasTerm env c o .reverse (.node n) = .ok none := by
            unfold idHasTerm
            have h1 : (Obj.node n).nodeId = none := hi
            rw [h1]
          rw [h1] at hv
          cases hv
          exact ⟨_, .reverseNode n hi, fun var cs => sameChoice_dup⟩
        | some i =>
          obtain ⟨ws, hw, h1⟩ := ref_cases hi (.inr rfl) hv
          exact same _ (.reverseRef n i ws hi hw) (by rw [h1]; rfl)

theorem pureGraph_iff {n : Node} : PureGraph n ↔ n.isGraph = true := by
  cases n with
  | mk i id t g inc p r =>
    simp [PureGraph, Node.isGraph, Node.graph, Node.types, Node.included, Node.props, Node.rev,
      Option.isSome_iff_ne_none, and_assoc]

theorem onlyNew_eq (mode : ProcMode) (cs : List Container) :
    onlyNew mode cs = if mode ≠ .v10 then cs else [] := by
  unfold onlyNew
  cases mode <;> rfl

/-- The containers, up to repeated ones. -/
theorem allContainers_spec (mode : ProcMode) {value : Obj} {reverse : Bool}
    (hr : reverse = true → ∃ n, value = .node n) :
    ∃ cs, Containers mode value reverse cs ∧ ∃ rep, (∀ x ∈ rep, x ∈ cs) ∧
      allContainers mode (some value) reverse = cs ++ rep := by
  cases value with
  | list i items =>
    have hrf : reverse = false := by
      cases reverse with
      | false => rfl
      | true => obtain ⟨n, hn⟩ := hr rfl; cases hn
    subst hrf
    cases i with
    | none =>
      exact ⟨_, .list items, [], by simp, by cases mode <;> rfl⟩
    | some i => exact ⟨_, .indexedList i items, [], by simp, by cases mode <;> rfl⟩
  | value i v =>
    have hrf : reverse = false := by
      cases reverse with
      | false => rfl
      | true => obtain ⟨n, hn⟩ := hr rfl; cases hn
    subst hrf
    cases i with
    | some i => exact ⟨_, .indexedValue i v, [], by simp, by
        cases mode <;> simp [allContainers, valueContainers, Obj.index, Obj.isGraph, hasIndex, isSimpleValue]⟩
    | none =>
      cases v with
      | literal l ty =>
        cases ty with
        | none => exact ⟨_, .plain (.literal l none) (by simp [ItemType]) (by simp), [], by simp, by cases mode <;> rfl⟩
        | some t => exact ⟨_, .typed (.literal l (some t)) _ rfl, [], by simp, by cases mode <;> rfl⟩
      | json j => exact ⟨_, .typed (.json j) _ rfl, [], by simp, by cases mode <;> rfl⟩
      | langString s =>
        by_cases h : s.language ≠ none ∨ s.direction ≠ none
        · have h1 : hasLangDir (.langString s) = true := by
            simpa [hasLangDir, Option.isSome_iff_ne_none, or_comm] using h
          refine ⟨_, .lang s h, [], by simp, ?_⟩
          cases mode <;>
            simp [allContainers, valueContainers, Obj.index, hasIndex, isSimpleValue, h1, onlyNew]
        · have h' := h
          simp only [not_or, not_not] at h
          have h1 : hasLangDir (.langString s) = false := by simp [hasLangDir, h]
          refine ⟨_, .plain (.langString s) (by simp [ItemType]) (by rintro s' ⟨⟩; exact h), [], by simp, ?_⟩
          cases mode <;>
            simp [allContainers, valueContainers, Obj.index, hasIndex, isSimpleValue, h1, onlyNew, Value.typeMap]
  | node n =>
    cases reverse with
    | true =>
      by_cases hg : n.isGraph = true
      · refine ⟨_, .reverse n (.inr (pureGraph_iff.2 hg)), [], by simp, ?_⟩
        cases mode <;> simp [allContainers, hasIndex, isSimpleValue, onlyNew, Obj.isGraph, hg]
      · have hg' : n.isGraph = false := by simpa using hg
        cases hi : n.index with
        | none =>
          refine ⟨_, .reverse n (.inl hi), [], by simp, ?_⟩
          cases mode <;> simp [allContainers, hasIndex, isSimpleValue, onlyNew, Obj.isGraph, Obj.index, hi]
        | some i =>
          refine ⟨_, .indexedReverse n (by simp [hi]) (by rw [pureGraph_iff]; exact hg),
            if mode ≠ .v10 then [.index, .indexSet] else [], ?_, ?_⟩
          · cases mode <;> simp
          · cases mode <;> simp [allContainers, hasIndex, isSimpleValue, Obj.isGraph, Obj.index, hi, hg']
    | false =>
      by_cases hg : n.isGraph = true
      · have hp := pureGraph_iff.2 hg
        cases hi : n.index with
        | none =>
          cases hd : n.id with
          | none =>
            refine ⟨_, .graph n hp hi hd, if mode ≠ .v10 then [.index, .indexSet] else [], ?_, ?_⟩
            · cases mode <;> simp
            · cases mode <;> simp [allContainers, hasIndex, isSimpleValue, Obj.isGraph, Obj.index, hi, hd, hg,
                valueContainers, graphContainers]
          | some j =>
            refine ⟨_, .namedGraph n hp hi (by simp [hd]), if mode ≠ .v10 then [.index, .indexSet] else [], ?_, ?_⟩
            · cases mode <;> simp
            · cases mode <;> simp [allContainers, hasIndex, isSimpleValue, Obj.isGraph, Obj.index, hi, hd, hg,
                valueContainers, graphContainers]
        | some i =>
          cases hd : n.id with
          | none =>
            refine ⟨_, .indexedGraph n hp (by simp [hi]) hd, [], by simp, ?_⟩
            cases mode <;> simp [allContainers, hasIndex, isSimpleValue, Obj.isGraph, Obj.index, hi, hd, hg,
              valueContainers, graphContainers]
          | some j =>
            refine ⟨_, .indexedNamedGraph n hp (by simp [hi]) (by simp [hd]), [], by simp, ?_⟩
            cases mode <;> simp [allContainers, hasIndex, isSimpleValue, Obj.isGraph, Obj.index, hi, hd, hg,
              valueContainers, graphContainers]
      · have hp : ¬ PureGraph n := by rw [pureGraph_iff]; exact hg
        have hg' : n.isGraph = false := by simpa using hg
        cases hi : n.index with
        | none =>
          refine ⟨_, .node n hp hi, [], by simp, ?_⟩
          cases mode <;> simp [allContainers, hasIndex, isSimpleValue, Obj.isGraph, Obj.index, hi, hg',
            valueContainers, onlyNew]
        | some i =>
          refine ⟨_, .indexedNode n hp (by simp [hi]), [], by simp, ?_⟩
          cases mode <;> simp [allContainers, hasIndex, isSimpleValue, Obj.isGraph, Obj.index, hi, hg',
            valueContainers]

end JsonLd
