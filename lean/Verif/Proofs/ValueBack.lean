import Verif.Spec.ExpandMaps
import Verif.Proofs.CompactInv
import Verif.Proofs.Reexpand
import Verif.Props.CompactIri
/-!
# Expanding a compacted value
-/

namespace JsonLd
open Spec Props

/-- Identifiers that are not taken to be relative to the document do not change when they may be. -/
theorem expandIri_docRel {env : IriEnv} {c : ACtx} {s : Option Expandable} {v : Option Action} {t : CTerm}
    (h : expandIri env c s false v = .ok (some t)) (ht : ∀ s, t ≠ .id (.invalid s)) :
    expandIri env c s true v = .ok (some t) := by
  have tail : ∀ s, expandTail env c s false v = .ok (some t) → expandTail env c s true v = .ok (some t) := by
    intro s h
    unfold expandTail at *
    split at h
    · exact h
    · cases h; exact absurd rfl (ht _)
    · simp only [Bool.false_and] at h
      cases h; exact absurd rfl (ht _)
  unfold expandIri at *
  split at h
  · exact h
  · exact h
  · unfold expandStr at *
    split at h
    · rw [if_pos (by assumption)]; exact h
    · rw [if_neg (by assumption)]
      split at h
      · exact h
      · split at h
        · rw [if_pos (by assumption)]
          split at h
          · rw [if_pos (by assumption)]; exact h
          · rw [if_neg (by assumption)]
            split at h
            · rw [if_pos (by assumption)]; exact h
            · rw [if_neg (by assumption)]
              split at h
              · exact h
              · split at h
                · rw [if_pos (by assumption)]; exact h
                · rw [if_neg (by assumption)]; exact tail _ h
        · rw [if_neg (by assumption)]; exact tail _ h

/-- An entry of a value object: the keyword, the key and the value. -/
structure BEntry where
  kw : Keyword
  key : Str
  value : Json

/-- As an entry of an object. -/
def BEntry.entry (e : BEntry) : Str × Json := (e.key, e.value)

section
variable {X : XEnv} {c : ACtx}

/-- The keys expand to the keywords. -/
def KeysBack (X : XEnv) (c : ACtx) (l : List BEntry) : Prop :=
  ∀ e ∈ l, xKey X c e.key = .ok (some (.keyword e.kw))

theorem KeysBack.tail {e : BEntry} {l : List BEntry} (h : KeysBack X c (e :: l)) : KeysBack X c l :=
  fun x hx => h x (List.mem_cons_of_mem _ hx)

theorem back_nodup {l : List BEntry} (h : KeysBack X c l) (hn : (l.map BEntry.kw).Nodup) :
    ((l.map BEntry.entry).map Prod.fst).Nodup := by
  induction l with
  | nil => simp
  | cons e l ih =>
    simp only [List.map_cons, List.nodup_cons] at hn ⊢
    refine ⟨?_, ih h.tail hn.2⟩
    intro hm
    obtain ⟨x, hx, hk⟩ := List.mem_map.1 hm
    obtain ⟨y, hy, rfl⟩ := List.mem_map.1 hx
    have hk : y.key = e.key := hk
    have h1 := h y (List.mem_cons_of_mem _ hy)
    rw [hk, h e (by simp)] at h1
    simp only [Except.ok.injEq, Option.some.injEq, CTerm.keyword.injEq] at h1
    exact hn.1 (List.mem_map.2 ⟨y, hy, h1.symm⟩)

theorem back_prelim {l : List BEntry} (h : KeysBack X c l) : ∃ b, prelim X c (l.map BEntry.entry) =
    .ok (l.any fun e => decide (e.kw = .value), b) := by
  induction l with
  | nil => exact ⟨_, rfl⟩
  | cons e l ih =>
    obtain ⟨b, hb⟩ := ih h.tail
    refine ⟨b || decide (some (CTerm.keyword e.kw) = some (.keyword .id)), ?_⟩
    show (xKey X c e.key).bind _ = _
    rw [h e (by simp)]
    show (prelim X c (l.map BEntry.entry)).map _ = _
    rw [hb]
    simp [Except.map, Bool.or_comm]

theorem back_entries {l : List BEntry} (h : KeysBack X c l) : xEntries X c (l.map BEntry.entry) =
    .ok (l.map fun e => ⟨e.key, .keyword e.kw, e.value⟩) := by
  induction l with
  | nil => rfl
  | cons e l ih =>
    show (xKey X c e.key).bind _ = _
    rw [h e (by simp)]
    show (xEntries X c (l.map BEntry.entry)).map _ = _
    rw [ih h.tail]
    rfl

theorem back_context {l : List BEntry} (h : KeysBack X c l) (hk : ∀ e ∈ l, e.kw ≠ .context) :
    localContext X c (l.map BEntry.entry) = .ok c := by
  have : (l.map BEntry.entry).filter (fun e => decide (e.1 = "@context".toList)) = [] := by
    rw [List.filter_eq_nil_iff]
    intro x hx
    obtain ⟨e, he, rfl⟩ := List.mem_map.1 hx
    simp only [decide_eq_true_eq]
    intro h1
    have h2 := h e he
    rw [show e.key = Keyword.context.intoStr from h1, xKey_kw] at h2
    simp only [Except.ok.injEq, Option.some.injEq, CTerm.keyword.injEq] at h2
    exact hk e he h2.symm
  unfold localContext
  rw [this]

theorem back_types {l : List BEntry} (h : KeysBack X c l) :
    collectM (fun e => (xKey X c e.1).map fun t => if t = some (.keyword .type) then [e] else [])
      (l.map BEntry.entry) = .ok ((l.filter fun e => decide (e.kw = .type)).map BEntry.entry) := by
  induction l with
  | nil => rfl
  | cons e l ih =>
    have h0 := h e (by simp)
    simp only [List.map_cons, collectM]
    rw [show e.entry.1 = e.key from rfl, h0, ih h.tail]
    simp only [Except.map, Except.bind]
    by_cases hk : e.kw = .type
    · simp [hk]
    · simp [hk]

theorem noScoped_ctx (hs : NoScoped c) (k : Option Str) (c' : ACtx) (o : Opts) :
    scopedCtx X (k.bind c.get) c' o = .ok c' := by
  unfold scopedCtx
  split
  · rename_i d hd
    cases k with
    | none => cases hd
    | some k => rw [hs k d hd]
  · rfl

theorem noScoped_types (hs : NoScoped c) (tes : List (Str × Json)) : typeScoped X c tes = .ok c := by
  unfold typeScoped
  have : ∀ (l : List Str) (a : ACtx), l.foldlM
      (fun a t => scopedCtx X (c.get t) a X.opts.proc.withoutPropagation) a = .ok a := by
    intro l
    induction l with
    | nil => intro a; rfl
    | cons t l ih =>
      intro a
      rw [List.foldlM_cons, show scopedCtx X (c.get t) a _ = .ok a from noScoped_ctx hs (some t) a _]
      exact ih a
  exact this _ _

section
variable (hv : X.opts.vocab = .keep)
include hv

theorem xKey_keep (c : ACtx) (s : Str) : ∃ t, xKey X c s = .ok t := by
  have tail : ∀ s, ∃ t, expandTail X.toIriEnv c s false (some .keep) = .ok t := by
    intro s
    unfold expandTail
    split
    · rename_i a _ h _
      cases h
      exact ⟨_, rfl⟩
    · exact ⟨_, rfl⟩
    · exact ⟨_, rfl⟩
  have : ∃ t, expandIri X.toIriEnv c (some (.ofStr s)) false (some .keep) = .ok t := by
    unfold expandIri
    split
    · exact ⟨_, rfl⟩
    · exact ⟨_, rfl⟩
    · unfold expandStr
      split
      · exact ⟨_, rfl⟩
      · split
        · exact ⟨_, rfl⟩
        · split
          · split
            · exact ⟨_, rfl⟩
            · split
              · exact ⟨_, rfl⟩
              · split
                · exact ⟨_, rfl⟩
                · split
                  · exact ⟨_, rfl⟩
                  · exact tail _
          · exact tail _
  obtain ⟨t, ht⟩ := this
  refine ⟨t, ?_⟩
  unfold xKey xIri
  rw [hv, ht]

theorem prelim_keep (c : ACtx) (m : List (Str × Json)) : ∃ r, prelim X c m = .ok r := by
  induction m with
  | nil => exact ⟨_, rfl⟩
  | cons e m ih =>
    obtain ⟨t, ht⟩ := xKey_keep hv c e.1
    obtain ⟨r, hr⟩ := ih
    exact ⟨_, by unfold prelim; rw [ht, hr]; rfl⟩

end

/-- A value under the term `t` is met in the context `c0` and read in the context `c`. -/
structure ReadIn (X : XEnv) (c0 c : ACtx) (t : Str) : Prop where
  scalar : scopedCtx X (c0.get t) c0 X.opts.proc = .ok c
  object : scopedCtx X (c0.get t) c0 X.opts.proc.withOverride = .ok c
  value : ∀ k, xKey X c k = .ok (some (.keyword .value)) → xKey X c0 k = .ok (some (.keyword .value))

theorem noScoped_read (hs : NoScoped c) (t : Str) : ReadIn X c c t :=
  ⟨noScoped_ctx hs (some t) c _, noScoped_ctx hs (some t) c _, fun _ h => h⟩

theorem unscoped_types {l : List Str} (h : ∀ s ∈ l, Unscoped c s) (a : ACtx) : l.foldlM
    (fun a t => scopedCtx X (c.get t) a X.opts.proc.withoutPropagation) a = .ok a := by
  induction l with
  | nil => rfl
  | cons t l ih =>
    rw [List.foldlM_cons]
    have : scopedCtx X (c.get t) a X.opts.proc.withoutPropagation = .ok a := by
      unfold scopedCtx
      split
      · rename_i d hd
        rw [h t (by simp) d hd]
      · rfl
    rw [this]
    exact ih fun s hs => h s (List.mem_cons_of_mem _ hs)

theorem prelim_value (hv : X.opts.vocab = .keep) {m : List (Str × Json)}
    (h : ∃ e ∈ m, xKey X c e.1 = .ok (some (.keyword .value))) : ∃ b, prelim X c m = .ok (true, b) := by
  induction m with
  | nil => obtain ⟨e, he, -⟩ := h; cases he
  | cons e m ih =>
    obtain ⟨k, j⟩ := e
    obtain ⟨t, ht⟩ := xKey_keep hv c k
    unfold prelim
    rw [ht]
    show ∃ b, (prelim X c m).map _ = _
    obtain ⟨x, hx, hk⟩ := h
    rcases List.mem_cons.1 hx with rfl | hx
    · obtain ⟨r, hr⟩ := prelim_keep hv c m
      rw [hr]
      dsimp only at hk
      rw [hk] at ht
      cases ht
      exact ⟨r.2 || false, by simp [Except.map]⟩
    · obtain ⟨b, hb⟩ := ih ⟨x, hx, hk⟩
      rw [hb]
      exact ⟨_, rfl⟩

/-- Expansion of an object whose keys expand to distinct keywords, among them `@value`. -/
theorem back_object (hkeep : X.opts.vocab = .keep) {c0 : ACtx} {t : Str} (hs : ReadIn X c0 c t) {l : List BEntry} (h : KeysBack X c l)
    (hk : ∀ e ∈ l, e.kw ≠ .context ∧ e.kw ≠ .list ∧ e.kw ≠ .set)
    {v : Json} (hv : lastEntry .value (l.map fun e => ⟨e.key, .keyword e.kw, e.value⟩) = some v)
    (hun : ∀ s ∈ scopedTypes (sortByKey Prod.fst ((l.filter fun e => decide (e.kw = .type)).map BEntry.entry)), Unscoped c s)
    {it : Option CTerm}
    (hit : inputType X c (sortByKey Prod.fst ((l.filter fun e => decide (e.kw = .type)).map BEntry.entry)) = .ok it)
    (fm : Bool) :
    expandElement X c0 (some t) (.obj (l.map BEntry.entry)) fm =
      elemValue X c it (l.map fun e => ⟨e.key, .keyword e.kw, e.value⟩) v := by
  have hany : ∃ e ∈ l.map BEntry.entry, xKey X c0 e.1 = .ok (some (.keyword .value)) := by
    unfold lastEntry at hv
    obtain ⟨x, hx, rfl⟩ := Option.map_eq_some_iff.1 hv
    have hx := List.mem_of_getLast? hx
    obtain ⟨hx, hx'⟩ := List.mem_filter.1 hx
    obtain ⟨e, he, rfl⟩ := List.mem_map.1 hx
    refine ⟨_, List.mem_map.2 ⟨e, he, rfl⟩, hs.value _ ?_⟩
    have := h e he
    rw [show e.kw = .value from by simpa using hx'] at this
    exact this
  have hlast : ∀ k, k ≠ .value → (k = .list ∨ k = .set) →
      lastEntry k (l.map fun e => (⟨e.key, .keyword e.kw, e.value⟩ : XEntry)) = none := by
    intro k _ hk'
    unfold lastEntry
    have : (l.map fun e => (⟨e.key, .keyword e.kw, e.value⟩ : XEntry)).filter
        (fun e => decide (e.term = .keyword k)) = [] := by
      rw [List.filter_eq_nil_iff]
      intro x hx
      obtain ⟨e, he, rfl⟩ := List.mem_map.1 hx
      have := hk e he
      simp only [decide_eq_true_eq, CTerm.keyword.injEq]
      rcases hk' with rfl | rfl
      · exact this.2.1
      · exact this.2.2
    rw [this]
    rfl
  obtain ⟨b, hb⟩ := prelim_value hkeep hany
  rw [C49_unfold]
  show elemObj .. = _
  unfold elemObj objContext
  rw [hb]
  have hrev : ∀ b, revert c0 (l.map BEntry.entry) fm (true, b) = c0 := by
    intro b
    unfold revert
    split <;> simp
  simp only [Except.bind]
  rw [hrev, show scopedCtx X ((some t).bind c0.get) c0 _ = _ from hs.object]
  simp only
  rw [back_context h fun e he => (hk e he).1]
  simp only
  unfold typeEntries
  rw [back_types h]
  simp only [Except.map]
  rw [show typeScoped X c _ = _ from unscoped_types hun c]
  simp only
  rw [hit]
  simp only
  rw [back_entries h]
  simp only
  unfold elemKind
  rw [hlast .set (by simp) (.inr rfl), hlast .list (by simp) (.inl rfl), hv]
  simp

end

/-! ## The entries made by compaction -/

section
variable {E : CEnv} {X : XEnv} {c : ACtx}

/-- Compacted keywords expand to the keywords. -/
def BackKeys (E : CEnv) (X : XEnv) (c : ACtx) : Prop :=
  ∀ k s, cKey E c k = .ok s → xKey X c s = .ok (some (.keyword k))

theorem backKeys_of (hX : X.toIriEnv = E.toIriEnv) (hv : X.opts.vocab = .keep) (hc : CleanTerms E.toCompEnv c)
    (hk : KeywordsFree c) : BackKeys E X c := by
  intro k s h
  unfold cKey cIriU cIri at h
  split at h
  · rename_i s' h'
    cases h
    have := C35_keyword_partial E.toCompEnv c hc k (fun p m hp => hk.prefixes p m hp k)
      (fun v hv => hk.vocab v hv k) false E.opts s h'
    unfold xKey xIri
    rw [hX, hv, this]
  · cases h
  · cases h

/-- The entries `@index`. -/
theorem index_back (hb : BackKeys E X c) {d : Option TermDef} {i : Option Str} {ei : JMap}
    (h : cValueIndex E c d i = .ok ei) :
    (ei = [] ∧ (i = none ∨ removeIndex d i = true)) ∨
    ∃ s k, i = some s ∧ removeIndex d i = false ∧ ei = [(k, .str s)] ∧ xKey X c k = .ok (some (.keyword .index)) := by
  unfold cValueIndex at h
  split at h
  · rename_i s
    split at h
    · cases h; exact .inl ⟨rfl, .inr (by assumption)⟩
    · rename_i hr
      obtain ⟨k, hk, rfl⟩ := exMap_ok h
      exact .inr ⟨s, k, rfl, by simpa using hr, rfl, hb _ _ hk⟩
  · cases h; exact .inl ⟨rfl, .inl rfl⟩


/-- A list of entries for which the object is made. -/
theorem entries_object {l : List BEntry} (h : KeysBack X c l) (hn : (l.map BEntry.kw).Nodup) :
    Json.obj (jObject (l.map BEntry.entry)) = .obj (l.map BEntry.entry) := by
  rw [jObject_nodup (back_nodup h hn)]

/-- The entries of a value, as far as the value itself is concerned. -/
inductive ValueEntries (X : XEnv) (c : ACtx) : Value → List BEntry → Prop
  | plain (l k) : ValueEntries X c (.literal l none) [⟨.value, k, l.toJson⟩]
  | typed (l ty k kt s) : expandIri X.toIriEnv c (some (.ofStr s)) false (some .keep) = .ok (some (.id (.iri ty))) →
      ValueEntries X c (.literal l (some ty)) [⟨.value, k, l.toJson⟩, ⟨.type, kt, .str s⟩]
  | lang (s k kl kd) : ValueEntries X c (.langString s)
      (⟨.value, k, .str s.data⟩ :: ((s.language.map fun l => ⟨.language, kl, Json.str l⟩).toList ++
        (s.direction.map fun d => ⟨.direction, kd, Json.str d.asStr⟩).toList))
  | json (j k kt s) : expandIri X.toIriEnv c (some (.ofStr s)) false (some .keep) = .ok (some (.keyword .json)) →
      ValueEntries X c (.json j) [⟨.value, k, j⟩, ⟨.type, kt, .str s⟩]

theorem valueEntries_back (hX : X.toIriEnv = E.toIriEnv) (f : IriFacts E.toIriEnv) (g : CompactFacts E.toCompEnv)
    (hc : CleanTerms E.toCompEnv c) (hk : KeywordsFree c) (hb : BackKeys E X c) {t : Str} {v : Value}
    (hf : Faithful E.toCompEnv c t v) {es : JMap} (h : valueEntries E c v = .ok es) :
    ∃ l, es = l.map BEntry.entry ∧ KeysBack X c l ∧ ValueEntries X c v l := by
  cases hf with
  | plain l _ =>
    obtain ⟨k, h1, rfl⟩ := exMap_ok h
    exact ⟨[⟨.value, k, l.toJson⟩], rfl, by simpa [KeysBack] using hb _ _ h1, .plain l k⟩
  | typed l ty _ hi hm =>
    obtain ⟨k, h1, h⟩ := exBind_ok h
    obtain ⟨kt, h2, h⟩ := exBind_ok h
    obtain ⟨s, h3, rfl⟩ := exMap_ok h
    have hs : ∃ s', s = some s' := by
      cases s with
      | some s => exact ⟨s, rfl⟩
      | none =>
        unfold cIri compactIriPlain at h3
        simp only [reduceCtorEq, if_false, if_true] at h3
        split at h3
        · cases h3
        · obtain ⟨_, _, h3⟩ := exMap_ok h3
          cases h3
    obtain ⟨s, rfl⟩ := hs
    refine ⟨[⟨.value, k, l.toJson⟩, ⟨.type, kt, .str s⟩], rfl, ?_, .typed l ty k kt s ?_⟩
    · simpa [KeysBack] using ⟨hb _ _ h1, hb _ _ h2⟩
    · rw [hX]
      exact C35_plain_partial E.toCompEnv f g c hc (.iri ty) (by simp [Id.classify, Id.str, hi]) (.inl hi) true
        false E.opts hm s h3
  | lang s _ _ _ _ _ =>
    obtain ⟨k, h1, h⟩ := exBind_ok h
    obtain ⟨el, h2, h⟩ := exBind_ok h
    obtain ⟨ed, h3, rfl⟩ := exMap_ok h
    have hl : ∃ kl, el = ((s.language.map fun l => (⟨.language, kl, Json.str l⟩ : BEntry)).toList).map BEntry.entry ∧
        (s.language ≠ none → xKey X c kl = .ok (some (.keyword .language))) := by
      split at h2
      · rename_i l hl
        obtain ⟨kl, h4, rfl⟩ := exMap_ok h2
        exact ⟨kl, by simp [hl, BEntry.entry], fun _ => hb _ _ h4⟩
      · rename_i hl
        cases h2
        exact ⟨[], by simp [hl], fun h => absurd hl h⟩
    have hd : ∃ kd, ed = ((s.direction.map fun d => (⟨.direction, kd, Json.str d.asStr⟩ : BEntry)).toList).map BEntry.entry ∧
        (s.direction ≠ none → xKey X c kd = .ok (some (.keyword .direction))) := by
      split at h3
      · rename_i l hl
        obtain ⟨kl, h4, rfl⟩ := exMap_ok h3
        exact ⟨kl, by simp [hl, BEntry.entry], fun _ => hb _ _ h4⟩
      · rename_i hl
        cases h3
        exact ⟨[], by simp [hl], fun h => absurd hl h⟩
    obtain ⟨kl, rfl, hl⟩ := hl
    obtain ⟨kd, rfl, hd⟩ := hd
    refine ⟨_, ?_, ?_, .lang s k kl kd⟩
    · simp [BEntry.entry]
    · intro e he
      rcases List.mem_cons.1 he with rfl | he
      · exact hb _ _ h1
      · rcases List.mem_append.1 he with he | he
        · cases hl' : s.language with
          | none => simp [hl'] at he
          | some l =>
            simp only [hl', Option.map_some, Option.toList_some, List.mem_singleton] at he
            subst he
            exact hl (by simp [hl'])
        · cases hd' : s.direction with
          | none => simp [hd'] at he
          | some l =>
            simp only [hd', Option.map_some, Option.toList_some, List.mem_singleton] at he
            subst he
            exact hd (by simp [hd'])
  | json j _ =>
    obtain ⟨k, h1, h⟩ := exBind_ok h
    obtain ⟨kt, h2, h⟩ := exBind_ok h
    obtain ⟨s, h3, rfl⟩ := exMap_ok h
    have hs : ∃ s', s = some s' := by
      cases s with
      | some s => exact ⟨s, rfl⟩
      | none =>
        unfold cIri compactIriPlain at h3
        simp only [reduceCtorEq, if_false, if_true] at h3
        split at h3
        · cases h3
        · obtain ⟨_, _, h3⟩ := exMap_ok h3
          cases h3
    obtain ⟨s, rfl⟩ := hs
    refine ⟨[⟨.value, k, j⟩, ⟨.type, kt, .str s⟩], rfl, ?_, .json j k kt s ?_⟩
    · simpa [KeysBack] using ⟨hb _ _ h1, hb _ _ h2⟩
    · rw [hX]
      exact C35_keyword_partial E.toCompEnv c hc .json (fun p m hp => hk.prefixes p m hp _)
        (fun v hv => hk.vocab v hv _) false E.opts s h3


/-- The entry for an index. -/
def indexBEntry (k : Str) (i : Option Str) : List BEntry := (i.map fun s => ⟨.index, k, Json.str s⟩).toList

theorem scalarOf_toJson (l : Literal) : scalarOf l.toJson = .ok l := by cases l <;> rfl

theorem literal_notNull {l : Literal} (h : l ≠ .null) (st : ValueState) {i : Option Str} (hj : st.isJson = false)
    (hl : st.language = none) (hd : st.direction = none) (hi : st.index = i) :
    valueResult st l.toJson = .ok (some (.value i (.literal l st.ty))) := by
  unfold valueResult
  rw [hj, scalarOf_toJson, hl, hd, hi]
  cases l with
  | null => exact absurd rfl h
  | bool b => simp
  | num b => simp
  | str b => simp

/-- What the datatype of the value is. -/
def datatypeTerm : Value → Option CTerm
  | .literal _ (some ty) => some (.id (.iri ty))
  | .json _ => some (.keyword .json)
  | _ => none

set_option linter.unusedSimpArgs false in
theorem entries_expand (hv : X.opts.vocab = .keep) {c0 : ACtx} {t : Str} (hs : ReadIn X c0 c t) {v : Value} {l : List BEntry}
    (hu : ∀ s y, xKey X c s = .ok (some y) → datatypeTerm v = some y → Unscoped c s)
    (hf : Faithful E.toCompEnv c t v) (hl : ValueEntries X c v l) {k : Str} {i : Option Str}
    (hb : KeysBack X c (l ++ indexBEntry k i)) (fm : Bool) :
    expandElement X c0 (some t) (.obj ((l ++ indexBEntry k i).map BEntry.entry)) fm = .ok (.object (.value i v)) := by
  cases hl with
  | plain l k' =>
    cases hf with
    | plain _ hn =>
    rw [back_object (v := l.toJson) (it := none) hv hs hb]
    · unfold elemValue expandValue
      cases i with
      | none =>
        simp only [indexBEntry, List.map_append, List.map_cons, Option.map, Option.toList, List.map_nil,
          List.append_nil, List.foldlM_cons, List.foldlM_nil, valueStep, pure_bind, bind, Except.bind, pure, Except.pure]
        rw [literal_notNull hn (i := none) _ (by simp) rfl rfl rfl]
      | some i =>
        simp only [indexBEntry, List.map_append, List.map_cons, Option.map, Option.toList, List.map_nil,
          List.cons_append, List.nil_append,
          List.append_nil, List.foldlM_cons, List.foldlM_nil, valueStep, valueIndex, pure_bind, bind, Except.bind, pure, Except.pure]
        rw [literal_notNull hn (i := some i) _ (by simp) rfl rfl rfl]
    · cases i <;> simp [indexBEntry]
    · cases i <;> simp [indexBEntry, lastEntry]
    · cases i <;> simp [indexBEntry, scopedTypes, sortByKey]
    · cases i <;> simp [indexBEntry, inputType, sortByKey]
  | typed l ty k' kt s hx =>
    cases hf with
    | typed _ _ hn _ _ =>
    have hx' := expandIri_docRel hx (by simp)
    rw [back_object (v := l.toJson) (it := some (.id (.iri ty))) hv hs hb]
    · unfold elemValue expandValue
      cases i with
      | none =>
        simp only [indexBEntry, List.map_append, List.map_cons, Option.map, Option.toList, List.map_nil,
          List.append_nil, List.foldlM_cons, List.foldlM_nil, valueStep, valueType, hv, hx', bind, Except.bind, pure, Except.pure]
        rw [literal_notNull hn (i := none) _ rfl rfl rfl rfl]
      | some i =>
        simp only [indexBEntry, List.map_append, List.map_cons, Option.map, Option.toList, List.map_nil,
          List.cons_append, List.nil_append, hv, hx', valueType,
          List.append_nil, List.foldlM_cons, List.foldlM_nil, valueStep, valueIndex, bind, Except.bind, pure, Except.pure]
        rw [literal_notNull hn (i := some i) _ rfl rfl rfl rfl]
    · cases i <;> simp [indexBEntry]
    · cases i <;> simp [indexBEntry, lastEntry]
    · have hxs := hu s _ (by simp [xKey, xIri, hv, hx]) rfl
      cases i <;> simp [indexBEntry, scopedTypes, sortByKey, BEntry.entry, forceArray, strings, hxs]
    · cases i <;> simp [indexBEntry, inputType, sortByKey, forceArray, BEntry.entry, xKey, xIri, hv, hx]
  | json j k' kt s hx =>
    have hx' := expandIri_docRel hx (by simp)
    rw [back_object (v := j) (it := some (.keyword .json)) hv hs hb]
    · unfold elemValue expandValue
      cases i with
      | none =>
        simp only [indexBEntry, List.map_append, List.map_cons, Option.map, Option.toList, List.map_nil,
          List.append_nil, List.foldlM_cons, List.foldlM_nil, valueStep, valueType, hv, hx', bind, Except.bind, pure, Except.pure]
        simp [valueResult]
      | some i =>
        simp only [indexBEntry, List.map_append, List.map_cons, Option.map, Option.toList, List.map_nil,
          List.cons_append, List.nil_append, hv, hx', valueType,
          List.append_nil, List.foldlM_cons, List.foldlM_nil, valueStep, valueIndex, bind, Except.bind, pure, Except.pure]
        simp [valueResult]
    · cases i <;> simp [indexBEntry]
    · cases i <;> simp [indexBEntry, lastEntry]
    · have hxs := hu s _ (by simp [xKey, xIri, hv, hx]) rfl
      cases i <;> simp [indexBEntry, scopedTypes, sortByKey, BEntry.entry, forceArray, strings, hxs]
    · cases i <;> simp [indexBEntry, inputType, sortByKey, forceArray, BEntry.entry, xKey, xIri, hv, hx]
  | lang s k' kl kd =>
    cases hf with
    | lang _ h1 h2 _ _ _ =>
    obtain ⟨data, lang, dir⟩ := s
    rw [back_object (v := .str data) (it := none) hv hs hb]
    · unfold elemValue expandValue
      have hdir : ∀ d : Direction, Direction.tryFrom d.asStr = some d := by intro d; cases d <;> decide
      have hlang : ∀ l st, lang = some l → valueLanguage st (.str l) = .ok { st with language := some l } := by
        rintro l st rfl
        have hl : l ≠ "@none".toList := fun h => h2 (by rw [h])
        show Except.ok (if l = "@none".toList then _ else _) = _
        rw [if_neg hl]
      cases lang <;> cases dir <;> cases i <;>
        simp [indexBEntry, valueStep, valueIndex, hlang, valueDirection, hdir, valueResult, scalarOf, langValue, LangString.new, bind, Except.bind,
          pure, Except.pure] at h1 ⊢
    · cases lang <;> cases dir <;> cases i <;> simp [indexBEntry]
    · cases lang <;> cases dir <;> cases i <;> simp [indexBEntry, lastEntry]
    · cases lang <;> cases dir <;> cases i <;> simp [indexBEntry, scopedTypes, sortByKey]
    · cases lang <;> cases dir <;> cases i <;> simp [indexBEntry, inputType, sortByKey]


theorem expand_scalar_in {c0 : ACtx} {t : Str} (hs : ReadIn X c0 c t) (ht : t ≠ "@graph".toList) {l : Literal} (hl : l ≠ .null) (fm : Bool) :
    expandElement X c0 (some t) l.toJson fm =
      match expandLiteral X.toIriEnv X.opts.vocab c (some t) l with
      | .error e => .error (.literal e)
      | .ok o => .ok (.object o) := by
  have hsc : elemScalar X c0 (some t) l =
      match expandLiteral X.toIriEnv X.opts.vocab c (some t) l with
      | .error e => .error (.literal e)
      | .ok o => .ok (.object o) := by
    unfold elemScalar
    have hn : noProp (some t) = false := by
      simp only [noProp, Option.isNone_some, Bool.false_or, decide_eq_false_iff_not]
      intro h
      exact ht (Option.some.inj h)
    rw [hn, show scopedCtx X ((some t).bind c0.get) c0 _ = _ from hs.scalar]
    rfl
  rw [C49_unfold, ← hsc]
  cases l with
  | null => exact absurd rfl hl
  | bool b => rfl
  | num n => rfl
  | str s => rfl

theorem expand_scalar (hs : NoScoped c) {t : Str} (ht : t ≠ "@graph".toList) {l : Literal} (hl : l ≠ .null) (fm : Bool) :
    expandElement X c (some t) l.toJson fm =
      match expandLiteral X.toIriEnv X.opts.vocab c (some t) l with
      | .error e => .error (.literal e)
      | .ok o => .ok (.object o) := expand_scalar_in (noScoped_read hs t) ht hl fm

theorem coerces_not {t : Str} (h : ¬ Coerces c t) {d : TermDef} (hd : c.get t = some d) :
    d.typ = none ∨ d.typ = some .none := by
  cases hm : d.typ with
  | none => exact .inl rfl
  | some m =>
    by_cases hn : m = .none
    · exact .inr (by rw [hn])
    · exact absurd ⟨d, m, hd, hm, hn⟩ h

theorem untyped_literal {t : Str} (h : ¬ Coerces c t) (a : Action) (l : Literal) :
    expandLiteral X.toIriEnv a c (some t) l = .ok (untypedLiteral c (c.get t) l) := by
  unfold expandLiteral
  simp only [Option.bind_some]
  cases hd : c.get t with
  | none => rfl
  | some d => rcases coerces_not h hd with h | h <;> simp [h]

theorem defLanguage_of {t : Str} {l : Option Str} (h : DefaultLanguage c t l) : defLanguage c (c.get t) = l := by
  unfold defLanguage
  rcases h with ⟨d, h1, h2⟩ | ⟨h1, rfl⟩
  · rw [h1]; simp [h2]
  · cases hd : c.get t with
    | none => rfl
    | some d => simp [h1 d hd]

theorem defDirection_of {t : Str} {l : Option Direction} (h : DefaultDirection c t l) :
    defDirection c (c.get t) = l := by
  unfold defDirection
  rcases h with ⟨d, h1, h2⟩ | ⟨h1, rfl⟩
  · rw [h1]; simp [h2]
  · cases hd : c.get t with
    | none => rfl
    | some d => simp [h1 d hd]

theorem Value.eq_self (v : Value) : v.eq v = true := by
  cases v with
  | literal l t => simp [Value.eq]
  | json j => simp [Value.eq]
  | langString s =>
    simp only [Value.eq, LangString.eq, beq_self_eq_true, decide_true, Bool.and_true, Bool.true_and]
    cases s.language with
    | none => rfl
    | some l => simp [langOptEq, langEq]

theorem bare_expand {c0 : ACtx} {t : Str} (hs : ReadIn X c0 c t) (ht : t ≠ "@graph".toList) {v : Value}
    (hf : Faithful E.toCompEnv c t v) {j : Json} (h : valueBare c (c.get t) v = some j) (fm : Bool) :
    ∃ v', expandElement X c0 (some t) j fm = .ok (.object (.value none v')) ∧ v'.eq v = true ∧
      (CasedAs (defLanguage c (c.get t)) v → v' = v) := by
  cases hf with
  | plain l hn =>
    unfold valueBare at h
    simp only [Option.map_none] at h
    split at h
    · rename_i hty
      have hco : ¬ Coerces c t := by
        rintro ⟨d, m, h1, h2, _⟩
        rw [h1] at hty
        simp only [Option.bind_some] at hty
        rw [h2] at hty
        cases hty
      have key : j = l.toJson ∧ untypedLiteral c (c.get t) l = .value none (.literal l none) := by
        split at h
        · rename_i s
          split at h
          · rename_i hx
            cases h
            simp only [Option.isSome_none, Bool.false_or, Bool.and_eq_true, Option.isNone_iff_eq_none] at hx
            refine ⟨rfl, ?_⟩
            have h1 : literalLanguage c (c.get t) = none := hx.1
            have h2 : literalDirection c (c.get t) = none := hx.2
            simp [untypedLiteral, untypedString, h1, h2, LangString.new]
          · cases h
        · rename_i hstr
          cases h
          refine ⟨rfl, ?_⟩
          cases l with
          | str s => exact absurd rfl (hstr s)
          | _ => rfl
      refine ⟨.literal l none, ?_, Value.eq_self _, fun _ => rfl⟩
      rw [key.1, expand_scalar_in hs ht hn, untyped_literal hco, key.2]
    · cases h
  | typed l ty hn _ _ =>
    unfold valueBare at h
    simp only [Option.map_some] at h
    split at h
    · rename_i hty
      have hj : j = l.toJson := by
        split at h
        · simp only [Option.isSome_some, Bool.true_or, if_true] at h
          cases h; rfl
        · cases h; rfl
      refine ⟨.literal l (some ty), ?_, Value.eq_self _, fun _ => rfl⟩
      rw [hj, expand_scalar_in hs ht hn]
      have : expandLiteral X.toIriEnv X.opts.vocab c (some t) l = .ok (.value none (.literal l (some ty))) := by
        unfold expandLiteral
        simp only [Option.bind_some]
        rw [← hty]
      rw [this]
    · cases h
  | lang s h1 h2 h3 h4 h5 =>
    unfold valueBare at h
    simp only at h
    split at h
    · rename_i hb
      cases h
      rw [Bool.and_eq_true, Bool.or_eq_true, Bool.or_eq_true] at hb
      have hl : langOptEq (defLanguage c (c.get t)) s.language = true := by
        rcases hb.1 with hb | hb
        · have := Option.isNone_iff_eq_none.1 hb
          rw [defLanguage_of (h4 this), this]
          rfl
        · exact hb
      have hd : defDirection c (c.get t) = s.direction := by
        rcases hb.2 with hb | hb
        · have := Option.isNone_iff_eq_none.1 hb
          rw [defDirection_of (h5 this), this]
        · exact of_decide_eq_true hb
      have hsome : (defLanguage c (c.get t)).isSome || (defDirection c (c.get t)).isSome := by
        rw [hd]
        rcases h1 with h1 | h1
        · cases hx : defLanguage c (c.get t) with
          | none =>
            rw [hx] at hl
            cases hy : s.language with
            | none => exact absurd hy h1
            | some y => rw [hy] at hl; simp [langOptEq] at hl
          | some x => rfl
        · cases hy : s.direction with
          | none => exact absurd hy h1
          | some y => simp
      refine ⟨.langString ⟨s.data, defLanguage c (c.get t), defDirection c (c.get t)⟩, ?_, ?_, ?_⟩
      · rw [show Json.str s.data = Literal.toJson (.str s.data) from rfl, expand_scalar_in hs ht (by simp),
          untyped_literal h3]
        show Except.ok (Expanded.object (untypedString c (c.get t) s.data)) = _
        unfold untypedString LangString.new
        rw [show literalLanguage c (c.get t) = defLanguage c (c.get t) from rfl,
          show literalDirection c (c.get t) = defDirection c (c.get t) from rfl, if_pos hsome]
      · simp [Value.eq, LangString.eq, hl, hd]
      · intro hcase
        have : defLanguage c (c.get t) = s.language := by
          cases hs' : s.language with
          | none =>
            rw [hs'] at hl
            cases hx : defLanguage c (c.get t) with
            | none => rfl
            | some x => rw [hx] at hl; simp [langOptEq] at hl
          | some x => exact hcase s x rfl hs' (by rw [← hs']; exact hl)
        rw [this, hd]
    · cases h
  | json x hx =>
    unfold valueBare at h
    simp only at h
    split at h
    · rename_i hty
      cases hd : c.get t with
      | none => rw [hd] at hty; cases hty
      | some d => rw [hd] at hty; exact absurd hty (hx d hd)
    · cases h

theorem value_back_in (hX : X.toIriEnv = E.toIriEnv) (hv : X.opts.vocab = .keep) (f : IriFacts E.toIriEnv)
    (g : CompactFacts E.toCompEnv) (hc : CleanTerms E.toCompEnv c) (hk : KeywordsFree c)
    {c0 : ACtx} {t : Str} (hs : ReadIn X c0 c t) (ht : t ≠ "@graph".toList) {v : Value}
    (hu : ∀ s y, xKey X c s = .ok (some y) → datatypeTerm v = some y → Unscoped c s) (hf : Faithful E.toCompEnv c t v) {i : Option Str} {j : Json}
    (h : valueIn E c (c.get t) i v = .ok j) (fm : Bool) :
    ∃ v', expandElement X c0 (some t) j fm =
      .ok (.object (.value (if removeIndex (c.get t) i then none else i) v')) ∧ v'.eq v = true ∧
        (CasedAs (defLanguage c (c.get t)) v → v' = v) := by
  have hb := backKeys_of hX hv hc hk
  unfold valueIn at h
  split at h
  · rename_i j' hj
    cases h
    split at hj
    · rename_i hr
      rw [if_pos hr]
      exact bare_expand hs ht hf hj fm
    · cases hj
  · obtain ⟨es, h1, h⟩ := exBind_ok h
    obtain ⟨ei, h2, rfl⟩ := exMap_ok h
    obtain ⟨l, rfl, h3, h4⟩ := valueEntries_back hX f g hc hk hb hf h1
    refine ⟨v, ?_, Value.eq_self v, fun _ => rfl⟩
    have hnd : (l.map BEntry.kw).Nodup ∧ .index ∉ l.map BEntry.kw := by
      cases h4 with
      | plain => simp
      | typed => simp
      | json => simp
      | lang s => cases s.language <;> cases s.direction <;> simp
    have hix : ∃ k, ei = (indexBEntry k (if removeIndex (c.get t) i then none else i)).map BEntry.entry ∧
        KeysBack X c (indexBEntry k (if removeIndex (c.get t) i then none else i)) := by
      rcases index_back hb h2 with ⟨rfl, hi⟩ | ⟨s, k, rfl, hr, rfl, hk⟩
      · refine ⟨[], ?_⟩
        rcases hi with rfl | hr
        · simp [indexBEntry, KeysBack]
        · rw [if_pos hr]
          simp [indexBEntry, KeysBack]
      · refine ⟨k, ?_⟩
        rw [hr]
        simpa [indexBEntry, KeysBack, BEntry.entry] using hk
    obtain ⟨k, rfl, hk'⟩ := hix
    generalize (if removeIndex (c.get t) i then none else i) = i' at hk'
    have hkb : KeysBack X c (l ++ indexBEntry k i') := by
      intro e he
      rcases List.mem_append.1 he with he | he
      · exact h3 e he
      · exact hk' e he
    rw [← List.map_append, entries_object hkb]
    · exact entries_expand hv hs hu hf h4 hkb fm
    · rw [List.map_append, List.nodup_append]
      refine ⟨hnd.1, by cases i' <;> simp [indexBEntry], ?_⟩
      intro a ha b hb' hab
      subst hab
      cases i' with
      | none => simp [indexBEntry] at hb'
      | some i' =>
        simp only [indexBEntry, Option.map_some, Option.toList_some, List.map_cons, List.map_nil,
          List.mem_singleton] at hb'
        subst hb'
        exact hnd.2 ha

theorem value_back (hX : X.toIriEnv = E.toIriEnv) (hv : X.opts.vocab = .keep) (f : IriFacts E.toIriEnv)
    (g : CompactFacts E.toCompEnv) (hc : CleanTerms E.toCompEnv c) (hk : KeywordsFree c) (hs : NoScoped c)
    {t : Str} (ht : t ≠ "@graph".toList) {v : Value} (hf : Faithful E.toCompEnv c t v) {i : Option Str} {j : Json}
    (h : valueIn E c (c.get t) i v = .ok j) (fm : Bool) :
    ∃ v', expandElement X c (some t) j fm =
      .ok (.object (.value (if removeIndex (c.get t) i then none else i) v')) ∧ v'.eq v = true ∧
        (CasedAs (defLanguage c (c.get t)) v → v' = v) :=
  value_back_in hX hv f g hc hk (noScoped_read hs t) ht (fun s _ _ _ => hs s) hf h fm

end

end JsonLd
