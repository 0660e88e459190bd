import Verif.Proofs.ExpandInv
/-!
# Comparing two expansions

Two runs of expansion that differ in the recursive calls (which agree on smaller elements) and in the
policy (one is stricter than the other).
-/

namespace JsonLd

/-- The results are equal, or the first is one of the errors `X`. -/
def Le {α : Type} (X : XErr → Prop) (r₁ r₂ : Except XErr α) : Prop :=
  r₁ = r₂ ∨ ∃ e, r₁ = .error e ∧ X e

namespace Le
variable {α β σ : Type} {X : XErr → Prop}

theorem refl (r : Except XErr α) : Le X r r := .inl rfl

theorem bind {r₁ r₂ : Except XErr α} {f₁ f₂ : α → Except XErr β} (h : Le X r₁ r₂)
    (hf : ∀ a, r₂ = .ok a → Le X (f₁ a) (f₂ a)) : Le X (r₁.bind f₁) (r₂.bind f₂) := by
  rcases h with rfl | ⟨e, rfl, he⟩
  · cases r₁ with
    | error e => exact .inl rfl
    | ok a => exact hf a rfl
  · exact .inr ⟨e, rfl, he⟩

theorem map {r₁ r₂ : Except XErr α} {f : α → β} (h : Le X r₁ r₂) : Le X (r₁.map f) (r₂.map f) := by
  rcases h with rfl | ⟨e, rfl, he⟩
  · exact .inl rfl
  · exact .inr ⟨e, rfl, he⟩

theorem foldlM {f₁ f₂ : σ → α → Except XErr σ} : ∀ {l : List α} {s : σ},
    (∀ a ∈ l, ∀ s, Le X (f₁ s a) (f₂ s a)) → Le X (l.foldlM f₁ s) (l.foldlM f₂ s) := by
  intro l
  induction l with
  | nil => intro s _; exact .inl rfl
  | cons a l ih =>
    intro s hf
    rw [List.foldlM_cons, List.foldlM_cons]
    exact bind (hf a (by simp) s) fun s' _ => ih fun b hb => hf b (by simp [hb])

theorem collectM {f₁ f₂ : α → Except XErr (List β)} {l : List α}
    (hf : ∀ a ∈ l, Le X (f₁ a) (f₂ a)) : Le X (collectM f₁ l) (collectM f₂ l) := by
  induction l with
  | nil => exact .inl rfl
  | cons a l ih =>
    exact bind (hf a (by simp)) fun x _ => (ih fun b hb => hf b (by simp [hb])).map

theorem err {e : XErr} {r : Except XErr α} (h : X e) : Le X (.error e) r := .inr ⟨e, rfl, h⟩

theorem eq {r₁ r₂ : Except XErr α} (h : Le (fun _ => False) r₁ r₂) : r₁ = r₂ := by
  rcases h with h | ⟨_, _, h⟩
  · exact h
  · exact h.elim

end Le

/-- The environment with other options. -/
abbrev XEnv.withOpts (E : XEnv) (o : XOpts) : XEnv := { E with opts := o }

/-- The first policy is like the second or stricter; the errors this may cause are in `X`. -/
structure Sim (o₁ o₂ : XOpts) (X : XErr → Prop) : Prop where
  mode : o₁.mode = o₂.mode
  ordered : o₁.ordered = o₂.ordered
  vocab : o₁.vocab = o₂.vocab ∨
    o₁.vocab = .reject ∧ X .forbiddenVocab ∧ X (.literal .forbiddenVocab) ∧ X (.value .forbiddenVocab)
  invalid : o₁.invalid = o₂.invalid ∨
    o₁.invalid = .reject ∧ X .invalidTypeValue ∧ ∀ s, X (.keyExpansionFailed s)
  undefined : o₁.allowUndefined = o₂.allowUndefined ∨
    o₁.allowUndefined = false ∧ ∀ s, X (.keyExpansionFailed s)

theorem expandTail_reject {env : IriEnv} {c : ACtx} {s : Str} {dr : Bool} {a : Action} :
    expandTail env c s dr (some .reject) = expandTail env c s dr (some a) ∨
      expandTail env c s dr (some .reject) = .error () := by
  unfold expandTail
  cases c.vocab with
  | none => exact .inl rfl
  | some t =>
    cases t with
    | null => exact .inl rfl
    | keyword k => exact .inl rfl
    | id i => exact .inr rfl

theorem expandIri_reject {env : IriEnv} {c : ACtx} {v : Option Expandable} {dr : Bool} {a : Action} :
    expandIri env c v dr (some .reject) = expandIri env c v dr (some a) ∨
      expandIri env c v dr (some .reject) = .error () := by
  have ht : ∀ s, expandTerm c s (some .reject) = expandTerm c s (some a) := fun s => rfl
  match v with
  | none => exact .inl rfl
  | some (.keyword k) => exact .inl rfl
  | some (.string s) =>
    show expandStr .. = expandStr .. ∨ expandStr .. = _
    unfold expandStr
    rw [ht]
    split
    · exact .inl rfl
    · split
      · exact .inl rfl
      · split
        · split
          · exact .inl rfl
          · split
            · exact .inl rfl
            · split
              · exact .inl rfl
              · split
                · exact .inl rfl
                · exact expandTail_reject
        · exact expandTail_reject

section
variable {E : XEnv} {o₁ o₂ : XOpts} {X : XErr → Prop} (S : Sim o₁ o₂ X)
include S

theorem xVocab_le {c : ACtx} {s : Str} {dr : Bool} :
    Le X (xIri (E.withOpts o₁) c s dr (some o₁.vocab)) (xIri (E.withOpts o₂) c s dr (some o₂.vocab)) := by
  rcases S.vocab with h | ⟨h, hX, _⟩
  · rw [h]; exact .inl rfl
  · rw [h]
    unfold xIri
    rcases expandIri_reject (env := E.toIriEnv) (c := c) (v := some (.ofStr s)) (dr := dr) (a := o₂.vocab) with
      h | h
    · dsimp only [XEnv.withOpts]
      rw [h]
      exact .inl rfl
    · dsimp only [XEnv.withOpts]
      rw [h]
      exact .err hX

theorem xKey_le {c : ACtx} {s : Str} : Le X (xKey (E.withOpts o₁) c s) (xKey (E.withOpts o₂) c s) := xVocab_le S

theorem proc_eq : o₁.proc = o₂.proc := by
  unfold XOpts.proc
  rw [S.mode]

theorem xEntries_le {c : ACtx} {m : List (Str × Json)} : Le X (xEntries (E.withOpts o₁) c m) (xEntries (E.withOpts o₂) c m) := by
  induction m with
  | nil => exact .inl rfl
  | cons e m ih =>
    obtain ⟨k, v⟩ := e
    exact (xKey_le S).bind fun t _ => ih.map

omit S in
theorem xEntries_mem {c : ACtx} {m : List (Str × Json)} {es : List XEntry} (h : xEntries E c m = .ok es)
    {e : XEntry} (he : e ∈ es) : (e.key, e.value) ∈ m := by
  induction m generalizing es with
  | nil => cases h; cases he
  | cons a m ih =>
    obtain ⟨k, v⟩ := a
    unfold xEntries at h
    cases h1 : xKey E c k with
    | error x => rw [h1] at h; cases h
    | ok t =>
      cases h2 : xEntries E c m with
      | error x => rw [h1, h2] at h; cases h
      | ok es' =>
        rw [h1, h2] at h
        cases t with
        | none => cases h; exact List.mem_cons_of_mem _ (ih h2 he)
        | some t =>
          cases h
          rcases List.mem_cons.1 he with rfl | he
          · exact List.mem_cons_self
          · exact List.mem_cons_of_mem _ (ih h2 he)

theorem keyType1_le {c : ACtx} {st : XState} {v : Json} : Le X (keyType1 (E.withOpts o₁) c st v) (keyType1 (E.withOpts o₂) c st v) := by
  unfold keyType1
  split
  · refine (xVocab_le S).bind fun t _ => ?_
    split
    · exact .inl rfl
    · rcases S.invalid with h | ⟨h, hX, _⟩
      · dsimp only [XEnv.withOpts]
        rw [h]
        exact .inl rfl
      · dsimp only [XEnv.withOpts]
        rw [h]
        exact .err hX
    · exact .inl rfl
    · exact .inl rfl
  · exact .inl rfl

/-- The recursive calls agree on elements of depth at most `n`. -/
structure RelRec (X : XErr → Prop) (n : Nat) (R₁ R₂ : XRec) : Prop where
  elem : ∀ {c prop j fm}, j.depth ≤ n → Le X (R₁.elem c prop j fm) (R₂.elem c prop j fm)
  entries : ∀ {st c tsc prop} {es : List XEntry}, 0 < n → (∀ e ∈ es, e.value.depth < n) →
    Le X (R₁.entries st c tsc prop es) (R₂.entries st c tsc prop es)

variable {n : Nat} {R₁ R₂ : XRec} (H : RelRec X n R₁ R₂)
include H

omit S in
theorem keyGraph_le {c : ACtx} {v : Json} (hv : v.depth ≤ n) {st : XState} :
    Le X (keyGraph R₁ c v st) (keyGraph R₂ c v st) := (H.elem hv).map

theorem keyIncluded_le {c : ACtx} {v : Json} (hv : v.depth ≤ n) {st : XState} :
    Le X (keyIncluded (E.withOpts o₁) R₁ c v st) (keyIncluded (E.withOpts o₂) R₂ c v st) := by
  unfold keyIncluded
  dsimp only [XEnv.withOpts]
  rw [S.mode]
  split
  · exact .inl rfl
  · exact (H.elem hv).bind fun x _ => .inl rfl

omit S in
theorem reverseProp_le {c : ACtx} {p : Id} {k : Str} {v : Json} (hv : v.depth ≤ n) {st : XState} :
    Le X (reverseProp R₁ c p k v st) (reverseProp R₂ c p k v st) :=
  (H.elem hv).bind fun _ _ => .inl rfl

omit H in
theorem undefined_le {s : Str} {st : XState} :
    Le X (if (decide (o₁.invalid = .reject) || !o₁.allowUndefined) = true
        then .error (.keyExpansionFailed s) else .ok st)
      (if (decide (o₂.invalid = .reject) || !o₂.allowUndefined) = true
        then .error (.keyExpansionFailed s) else .ok st) := by
  rcases S.invalid with h | ⟨h, _, hX⟩
  · rw [h]
    rcases S.undefined with h' | ⟨h', hX⟩
    · rw [h']; exact .inl rfl
    · rw [h', if_pos (by simp)]
      exact .err (hX s)
  · rw [h, if_pos (by simp)]
    exact .err (hX s)

theorem reverseStep_le {c : ACtx} {e : Str × Json} (hv : e.2.depth ≤ n) {st : XState} :
    Le X (reverseStep (E.withOpts o₁) R₁ c st e) (reverseStep (E.withOpts o₂) R₂ c st e) := by
  refine (xKey_le S).bind fun t _ => ?_
  split
  · exact .inl rfl
  · split
    · split
      · exact reverseProp_le H hv
      · rcases S.invalid with h | ⟨h, _, hX⟩
        · dsimp only [XEnv.withOpts]
          rw [h]
          split
          · exact reverseProp_le H hv
          · exact .inl rfl
          · exact .inl rfl
        · dsimp only [XEnv.withOpts]
          rw [h]
          exact .err (hX _)
    · exact undefined_le S
  · exact undefined_le S

theorem keyReverse_le {c : ACtx} {v : Json} (hv : v.depth ≤ n) {st : XState} :
    Le X (keyReverse (E.withOpts o₁) R₁ c v st) (keyReverse (E.withOpts o₂) R₂ c v st) := by
  unfold keyReverse
  split
  · dsimp only [XEnv.withOpts]
    rw [S.ordered]
    exact Le.foldlM fun e he st => reverseStep_le S H
      (Nat.le_trans (Nat.le_of_lt (depth_obj (mem_sortIf.1 he))) hv)
  · exact .inl rfl

theorem nestStep_le {c tsc : ACtx} {prop : Option Str} {key : Str} {v : Json} (hv : v.depth ≤ n)
    {st : XState} : Le X (nestStep (E.withOpts o₁) R₁ c tsc prop key st v) (nestStep (E.withOpts o₂) R₂ c tsc prop key st v) := by
  unfold nestStep
  dsimp only [XEnv.withOpts]
  rw [proc_eq S, S.ordered]
  refine (Le.refl _).bind fun c' _ => ?_
  split
  · refine (xEntries_le S).bind fun es hes => H.entries (Nat.lt_of_lt_of_le (depth_pos _) hv) fun e he => ?_
    exact Nat.lt_of_lt_of_le (depth_obj (mem_sortIf.1 (xEntries_mem hes he))) hv
  · exact .inl rfl

theorem keywordEntry_le {c tsc : ACtx} {prop : Option Str} {key : Str} {k : Keyword} {v : Json}
    (hv : v.depth ≤ n) {st : XState} :
    Le X (keywordEntry (E.withOpts o₁) R₁ c tsc prop key k v st)
      (keywordEntry (E.withOpts o₂) R₂ c tsc prop key k v st) := by
  unfold keywordEntry
  split
  · exact .inl rfl
  · exact Le.foldlM fun e he st => keyType1_le S
  · exact keyGraph_le H hv
  · exact keyIncluded_le S H hv
  · exact .inl rfl
  · exact .inl rfl
  · exact .inl rfl
  · exact keyReverse_le S H hv
  · exact Le.foldlM fun e he st => nestStep_le S H (Nat.le_trans (depth_forceArray he) hv)
  · exact .inl rfl
  · exact .inl rfl

omit H in
theorem langMap_le {c : ACtx} {d : Option TermDef} {m : List (Str × Json)} :
    Le X (langMap (E.withOpts o₁) c d m) (langMap (E.withOpts o₂) c d m) := by
  unfold langMap
  dsimp only [XEnv.withOpts]
  rw [S.ordered]
  refine Le.collectM fun e _ => Le.collectM fun j _ => ?_
  unfold langMapItem
  split
  · exact .inl rfl
  · exact (xKey_le S).map
  · exact .inl rfl

omit H in
theorem mapContext_eq {c : ACtx} {cm : Container} {i : Str} :
    mapContext (E.withOpts o₁) c cm i = mapContext (E.withOpts o₂) c cm i := by
  unfold mapContext
  dsimp only [XEnv.withOpts]
  rw [proc_eq S]
  rfl

omit H in
theorem expandLiteral_le {c : ACtx} {prop : Option Str} {l : Literal} :
    expandLiteral E.toIriEnv o₁.vocab c prop l = expandLiteral E.toIriEnv o₂.vocab c prop l ∨
      expandLiteral E.toIriEnv o₁.vocab c prop l = .error .forbiddenVocab ∧ X (.literal .forbiddenVocab) := by
  rcases S.vocab with h | ⟨h, _, hX, _⟩
  · rw [h]; exact .inl rfl
  · rw [h]
    unfold expandLiteral
    dsimp only
    split
    · exact .inl rfl
    · rename_i s _
      rcases expandIri_reject (env := E.toIriEnv) (c := c) (v := some (.ofStr s)) (dr := true)
        (a := o₂.vocab) with h | h
      · rw [h]; exact .inl rfl
      · rw [h]; exact .inr ⟨rfl, hX⟩
    · exact .inl rfl
    · exact .inl rfl
    · exact .inl rfl

omit H in
theorem indexProp_le {c : ACtx} {k i : Str} {o : Obj} :
    Le X (indexProp (E.withOpts o₁) c k i o) (indexProp (E.withOpts o₂) c k i o) := by
  unfold indexProp
  dsimp only [XEnv.withOpts]
  rcases expandLiteral_le S (E := E) (c := c) (prop := some k) (l := .str i) with h | ⟨h, hX⟩
  · rw [h]
    split
    · exact .inl rfl
    · exact (xKey_le S).bind fun t _ => .inl rfl
  · rw [h]
    exact .err hX

omit H in
theorem indexItem_le {c : ACtx} {cm : Container} {k i : Str} {t : CTerm} {o : Obj} :
    Le X (indexItem (E.withOpts o₁) c cm k i t o) (indexItem (E.withOpts o₂) c cm k i t o) := by
  unfold indexItem
  split
  · exact indexProp_le S
  · exact .inl rfl

omit H in
theorem mapItem_le {c : ACtx} {cm : Container} {k i : Str} {t : Option CTerm} {o : Obj} :
    Le X (mapItem (E.withOpts o₁) c cm k i t o) (mapItem (E.withOpts o₂) c cm k i t o) := by
  unfold mapItem
  dsimp only
  split
  · exact .inl rfl
  · exact (indexItem_le S).map

theorem xMapEntry_le {c : ACtx} {cm : Container} {k key : Str} {e : Str × Json} (he : e.2.depth ≤ n) :
    Le X (xMapEntry (E.withOpts o₁) R₁ c cm k key e) (xMapEntry (E.withOpts o₂) R₂ c cm k key e) := by
  unfold xMapEntry
  rw [mapContext_eq S]
  refine (Le.refl _).bind fun c' _ => ?_
  have : Le X (expandedIndex (E.withOpts o₁) c e.1) (expandedIndex (E.withOpts o₂) c e.1) := (xKey_le S).map
  exact this.bind fun t _ => (H.elem he).bind fun x _ => Le.collectM fun o _ => mapItem_le S

theorem propValue_le {c : ACtx} {d : Option TermDef} {key : Str} {v : Json} (hv : v.depth ≤ n) :
    Le X (propValue (E.withOpts o₁) R₁ c d key v) (propValue (E.withOpts o₂) R₂ c d key v) := by
  unfold propValue
  dsimp only
  split
  · exact .inl rfl
  · split
    · split
      · exact (langMap_le S).map
      · split
        · refine Le.map ?_
          dsimp only [XEnv.withOpts]
          rw [S.ordered]
          exact Le.collectM fun e he => xMapEntry_le S H
            (Nat.le_trans (Nat.le_of_lt (depth_obj (mem_sortIf.1 he))) hv)
        · exact H.elem hv
    · exact H.elem hv

theorem propEntry_le {c : ACtx} {key : Str} {p : Id} {v : Json} (hv : v.depth ≤ n) {st : XState} :
    Le X (propEntry (E.withOpts o₁) R₁ c key p v st) (propEntry (E.withOpts o₂) R₂ c key p v st) :=
  (propValue_le S H hv).bind fun _ _ => .inl rfl

theorem idEntry_le {c : ACtx} {key : Str} {p : Id} {v : Json} (hv : v.depth ≤ n) {st : XState} :
    Le X (idEntry (E.withOpts o₁) R₁ c key p v st) (idEntry (E.withOpts o₂) R₂ c key p v st) := by
  unfold idEntry
  split
  · rcases S.invalid with h | ⟨h, _, hX⟩
    · dsimp only [XEnv.withOpts]
      rw [h]
      split
      · exact propEntry_le S H hv
      · exact .inl rfl
      · exact .inl rfl
    · dsimp only [XEnv.withOpts]
      rw [h]
      exact .err (hX _)
  · exact propEntry_le S H hv

omit H in
theorem plainEntry_le {p : Id} {st : XState} :
    Le X (plainEntry (E.withOpts o₁) p st) (plainEntry (E.withOpts o₂) p st) := by
  unfold plainEntry
  dsimp only [XEnv.withOpts]
  by_cases hp : p.isValid = true
  · simp only [hp, Bool.not_true, Bool.false_and, Bool.false_eq_true, if_false]
    rcases S.undefined with h' | ⟨h', hX⟩
    · rw [h']; exact .inl rfl
    · rw [h', if_pos (by simp)]
      exact .err (hX _)
  · rcases S.invalid with h | ⟨h, _, hX⟩
    · rw [h]
      split
      · exact .inl rfl
      · rcases S.undefined with h' | ⟨h', hX⟩
        · rw [h']; exact .inl rfl
        · rw [h', if_pos (by simp)]
          exact .err (hX _)
    · rw [h, if_pos (by simp [hp])]
      exact .err (hX _)

theorem entryStep_le {c tsc : ACtx} {prop : Option Str} {e : XEntry} (hv : e.value.depth ≤ n) {st : XState} :
    Le X (entryStep (E.withOpts o₁) R₁ c tsc prop st e) (entryStep (E.withOpts o₂) R₂ c tsc prop st e) := by
  unfold entryStep
  split
  · exact .inl rfl
  · exact .inl rfl
  · dsimp only [XEnv.withOpts]
    rw [S.mode]
    split
    · exact .inl rfl
    · split
      · exact .inl rfl
      · exact keywordEntry_le S H hv
  · split
    · exact idEntry_le S H hv
    · exact plainEntry_le S

theorem entriesBody_le {st : XState} {c tsc : ACtx} {prop : Option Str} {es : List XEntry}
    (he : ∀ e ∈ es, e.value.depth ≤ n) :
    Le X (entriesBody (E.withOpts o₁) R₁ st c tsc prop es) (entriesBody (E.withOpts o₂) R₂ st c tsc prop es) :=
  Le.foldlM fun e hm _ => entryStep_le S H (he e hm)

omit S in
theorem xItems_le {c : ACtx} {prop : Option Str} {fm : Bool} {l : List Json} (hl : ∀ j ∈ l, j.depth ≤ n) :
    Le X (xItems R₁ c prop fm l) (xItems R₂ c prop fm l) :=
  Le.collectM fun j hj => (H.elem (hl j hj)).map

omit H in
theorem elemValue_le {tsc : ACtx} {it : Option CTerm} {es : List XEntry} {v : Json} :
    Le X (elemValue (E.withOpts o₁) tsc it es v) (elemValue (E.withOpts o₂) tsc it es v) := by
  rcases S.vocab with h | ⟨h, _, _, hX⟩
  · unfold elemValue
    dsimp only [XEnv.withOpts]
    rw [h]
    exact .inl rfl
  · have step : ∀ s e, valueStep E.toIriEnv .reject tsc s e = valueStep E.toIriEnv o₂.vocab tsc s e ∨
        valueStep E.toIriEnv .reject tsc s e = .error .forbiddenVocab := by
      intro s e
      unfold valueStep
      split
      · exact .inl rfl
      · exact .inl rfl
      · exact .inl rfl
      · unfold valueType
        split
        · rename_i t _
          rcases expandIri_reject (env := E.toIriEnv) (c := tsc) (v := some (.ofStr t)) (dr := true)
            (a := o₂.vocab) with h | h
          · rw [h]; exact .inl rfl
          · rw [h]; exact .inr rfl
        · exact .inl rfl
      · exact .inl rfl
      · exact .inl rfl
    have fold : ∀ (es : List XEntry) s, es.foldlM (valueStep E.toIriEnv .reject tsc) s =
        es.foldlM (valueStep E.toIriEnv o₂.vocab tsc) s ∨
        es.foldlM (valueStep E.toIriEnv .reject tsc) s = .error .forbiddenVocab := by
      intro es
      induction es with
      | nil => exact fun s => .inl rfl
      | cons e es ih =>
        intro s
        rw [List.foldlM_cons, List.foldlM_cons]
        rcases step s e with h | h
        · rw [h]
          cases valueStep E.toIriEnv o₂.vocab tsc s e with
          | error x => exact .inl rfl
          | ok s' => exact ih s'
        · rw [h]; exact .inr rfl
    unfold elemValue
    dsimp only [XEnv.withOpts]
    rw [h]
    unfold expandValue
    rcases fold es { isJson := decide (it = some (.keyword .json)) } with h | h
    · rw [h]; exact .inl rfl
    · rw [h]; exact .err hX

theorem elemKind_le {c tsc : ACtx} {prop : Option Str} {it : Option CTerm} {es : List XEntry}
    (he : ∀ e ∈ es, e.value.depth ≤ n) :
    Le X (elemKind (E.withOpts o₁) R₁ c tsc prop it es) (elemKind (E.withOpts o₂) R₂ c tsc prop it es) := by
  unfold elemKind
  split
  · rename_i v _ _ hv
    split at hv
    · cases hv
    · obtain ⟨e, hm, rfl, _⟩ := lastEntry_mem hv
      exact (Le.refl _).bind fun i _ => (xItems_le H fun j hj =>
        Nat.le_trans (depth_forceArray hj) (he e hm)).map
  · rename_i hv
    obtain ⟨e, hm, rfl, _⟩ := lastEntry_mem hv
    exact (Le.refl _).bind fun _ _ => H.elem (he e hm)
  · exact elemValue_le S
  · exact (entriesBody_le S H he).map

omit H in
theorem prelim_le {c : ACtx} {m : List (Str × Json)} :
    Le X (prelim (E.withOpts o₁) c m) (prelim (E.withOpts o₂) c m) := by
  induction m with
  | nil => exact .inl rfl
  | cons e m ih => exact (xKey_le S).bind fun _ _ => ih.map

omit H in
theorem objContext_le {c : ACtx} {prop : Option Str} {m : List (Str × Json)} {fm : Bool} :
    Le X (objContext (E.withOpts o₁) c prop m fm) (objContext (E.withOpts o₂) c prop m fm) := by
  refine (prelim_le S).bind fun r _ => ?_
  dsimp only [XEnv.withOpts]
  unfold localContext
  dsimp only
  rw [proc_eq S]
  exact .inl rfl

theorem elemObj_le {c : ACtx} {prop : Option Str} {m : List (Str × Json)} {fm : Bool}
    (hm : ∀ e ∈ m, e.2.depth ≤ n) :
    Le X (elemObj (E.withOpts o₁) R₁ c prop m fm) (elemObj (E.withOpts o₂) R₂ c prop m fm) := by
  refine (objContext_le S).bind fun tsc _ => ?_
  have h1 : Le X (typeEntries (E.withOpts o₁) tsc m) (typeEntries (E.withOpts o₂) tsc m) :=
    (Le.collectM fun e _ => (xKey_le S).map).map
  refine h1.bind fun tes _ => ?_
  have h2 : typeScoped (E.withOpts o₁) tsc tes = typeScoped (E.withOpts o₂) tsc tes := by
    unfold typeScoped
    dsimp only [XEnv.withOpts]
    rw [proc_eq S]
    rfl
  rw [h2]
  refine (Le.refl _).bind fun c' _ => ?_
  have h3 : Le X (inputType (E.withOpts o₁) c' tes) (inputType (E.withOpts o₂) c' tes) := by
    unfold inputType
    split
    · exact .inl rfl
    · split
      · exact xKey_le S
      · exact .inl rfl
  exact h3.bind fun it _ => (xEntries_le S).bind fun es hes =>
    elemKind_le S H fun e he => hm _ (xEntries_mem hes he)

omit H in
theorem elemScalar_le {c : ACtx} {prop : Option Str} {l : Literal} :
    Le X (elemScalar (E.withOpts o₁) c prop l) (elemScalar (E.withOpts o₂) c prop l) := by
  unfold elemScalar
  split
  · exact .inl rfl
  · dsimp only [XEnv.withOpts]
    rw [proc_eq S]
    refine (Le.refl _).bind fun c' _ => ?_
    rcases expandLiteral_le S (E := E) (c := c') (prop := prop) (l := l) with h | ⟨h, hX⟩
    · rw [h]; exact .inl rfl
    · rw [h]; exact .err hX

theorem elemBody_le {c : ACtx} {prop : Option Str} {j : Json} {fm : Bool} (hj : j.depth ≤ n + 1) :
    Le X (elemBody (E.withOpts o₁) R₁ c prop j fm) (elemBody (E.withOpts o₂) R₂ c prop j fm) := by
  unfold elemBody
  split
  · exact .inl rfl
  · exact (xItems_le H fun x hx => Nat.le_of_lt_succ (Nat.lt_of_lt_of_le (depth_arr hx) hj)).map
  · exact elemObj_le S H fun x hx => Nat.le_of_lt_succ (Nat.lt_of_lt_of_le (depth_obj hx) hj)
  · exact elemScalar_le S
  · exact elemScalar_le S
  · exact elemScalar_le S

end

variable {E : XEnv} {o₁ o₂ : XOpts} {X : XErr → Prop}

theorem xrecN_le (S : Sim o₁ o₂ X) (k : Nat) : ∀ n m, k ≤ n → k ≤ m →
    RelRec X k (xrecN (E.withOpts o₁) n) (xrecN (E.withOpts o₂) m) := by
  induction k with
  | zero =>
    intro n m _ _
    exact ⟨fun {c prop j fm} h => absurd h (Nat.not_le.2 (depth_pos j)), fun h => absurd h (Nat.lt_irrefl 0)⟩
  | succ k ih =>
    intro n m hn hm
    obtain ⟨n, rfl⟩ : ∃ n', n = n' + 1 := ⟨n - 1, by omega⟩
    obtain ⟨m, rfl⟩ : ∃ m', m = m' + 1 := ⟨m - 1, by omega⟩
    have := ih n m (by omega) (by omega)
    exact ⟨fun hj => elemBody_le S this hj,
      fun _ he => entriesBody_le S this fun e hm => Nat.le_of_lt_succ (he e hm)⟩

theorem sim_refl (o : XOpts) (X : XErr → Prop) : Sim o o X :=
  ⟨rfl, rfl, .inl rfl, .inl rfl, .inl rfl⟩

/-- More nested calls than needed do not change the result. -/
theorem xrecN_elem (E : XEnv) {n : Nat} {c : ACtx} {prop : Option Str} {j : Json} {fm : Bool}
    (h : j.depth ≤ n) : (xrecN E n).elem c prop j fm = expandElement E c prop j fm :=
  Le.eq ((xrecN_le (E := E) (sim_refl E.opts _) j.depth n j.depth h (Nat.le_refl _)).elem (Nat.le_refl _))

end JsonLd
