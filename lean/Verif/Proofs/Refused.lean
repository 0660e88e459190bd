import Verif.Spec.Refused
import Verif.Proofs.Faults
/-!
# Expansion fails on invalid documents

If expansion succeeds at a place, it succeeds at the places visited from there, and nothing is wrong at it.
-/

namespace JsonLd
open Spec Relation JsonLd.Props

variable {E : XEnv}

/-- Expansion succeeds at the place. -/
def Done (E : XEnv) : Place → Prop
  | .value c p j fm => ∃ x, expandElement E c p j fm = .ok x
  | .object c tsc p m false => ∃ tes it es x, typeEntries E tsc m = .ok tes ∧ inputType E c tes = .ok it ∧
      xEntries E c m = .ok es ∧ elemKind E (unlimited E) c tsc p it es = .ok x
  | .object c tsc p m true => ∃ st st' es, xEntries E c (sortIf E.opts.ordered Prod.fst m) = .ok es ∧
      entriesBody E (unlimited E) st c tsc p es = .ok st'

theorem foldlM_visit {σ α ε : Type} {f : σ → α → Except ε σ} {l : List α} {s s' : σ}
    (h : l.foldlM f s = .ok s') {a : α} (ha : a ∈ l) : ∃ t t', f t a = .ok t' := by
  induction l generalizing s with
  | nil => cases ha
  | cons b l ih =>
    obtain ⟨s1, h1, h2⟩ := foldlM_cons_ok.1 h
    rcases List.mem_cons.1 ha with rfl | ha
    · exact ⟨s, s1, h1⟩
    · exact ih h2 ha

theorem collectM_visit {α β : Type} {f : α → Except XErr (List β)} {l : List α} {r : List β}
    (h : collectM f l = .ok r) {a : α} (ha : a ∈ l) : ∃ p, f a = .ok p ∧ ∀ b ∈ p, b ∈ r := by
  induction l generalizing r with
  | nil => cases ha
  | cons b l ih =>
    obtain ⟨p, q, hp, hq, rfl⟩ := collectM_cons.1 h
    rcases List.mem_cons.1 ha with rfl | ha
    · exact ⟨p, hp, fun b hb => List.mem_append_left _ hb⟩
    · obtain ⟨p', h1, h2⟩ := ih hq ha
      exact ⟨p', h1, fun b hb => List.mem_append_right _ (h2 b hb)⟩

theorem keyMeans_unique {c : ACtx} {k : Str} {t t' : CTerm} (h : KeyMeans E c k t) (h' : KeyMeans E c k t') :
    t = t' := by
  unfold KeyMeans at h h'
  rw [h] at h'
  cases h'
  rfl

theorem xEntries_has {c : ACtx} {m : List (Str × Json)} {es : List XEntry} (h : xEntries E c m = .ok es) {k : Str}
    {v : Json} {t : CTerm} (hm : (k, v) ∈ m) (hk : KeyMeans E c k t) : ⟨k, t, v⟩ ∈ es :=
  ((xEntries_of (pl := .object c c none m true) fun _ he => .key he).okay h).2 k v t hm hk

theorem xEntries_key {c : ACtx} {m : List (Str × Json)} {es : List XEntry} (h : xEntries E c m = .ok es)
    {e : Str × Json} (he : e ∈ m) : ∃ t, xKey E c e.1 = .ok t := by
  induction m generalizing es with
  | nil => cases he
  | cons a m ih =>
    obtain ⟨k, v⟩ := a
    unfold xEntries at h
    obtain ⟨t, h1, h⟩ := exBind_ok h
    obtain ⟨es', h2, _⟩ := exMap_ok h
    rcases List.mem_cons.1 he with rfl | he
    · exact ⟨t, h1⟩
    · exact ih h2 he

theorem scopedCtx_ok {d : Option TermDef} {a b : ACtx} {o : Opts} :
    scopedCtx E d a o = .ok b ↔ Within E d o a b := by
  refine ⟨fun h => scopedCtx_fault.okay h, fun h => ?_⟩
  cases h with
  | plain h =>
    unfold scopedCtx
    cases d with
    | none => rfl
    | some t => dsimp only; rw [h t rfl]
  | term t l _ hd hl hx =>
    subst hd
    unfold scopedCtx
    dsimp only
    rw [hl]
    dsimp only
    unfold xProcess
    rw [hx]

theorem scopedCtx_fails {t : TermDef} {l : SCtx} {a b : ACtx} {o : Opts} {x : CtxErr} (hl : t.context = some l)
    (hx : E.process a l t.baseUrl o = .error x) (h : scopedCtx E (some t) a o = .ok b) : False := by
  unfold scopedCtx at h
  dsimp only at h
  rw [hl] at h
  dsimp only at h
  unfold xProcess at h
  rw [hx] at h
  cases h

/-! ## Contexts of objects -/

theorem startsIn_unique {c : ACtx} {m : List (Str × Json)} {fm : Bool} {a b : ACtx} (h : StartsIn E c m fm a)
    (h' : StartsIn E c m fm b) : a = b := by
  have key : ∀ {p}, c.previous = some p → fm = false → (∀ e ∈ m, ¬ KeyMeans E c e.1 (.keyword .value)) →
      (∀ e, m = [e] → ¬ KeyMeans E c e.1 (.keyword .id)) → (c.previous = none ∨ fm = true ∨
        (∃ e ∈ m, KeyMeans E c e.1 (.keyword .value)) ∨ (∃ e, m = [e] ∧ KeyMeans E c e.1 (.keyword .id))) →
      False := by
    rintro p h1 h2 h3 h4 (h | h | ⟨e, he, h⟩ | ⟨e, he, h⟩)
    · rw [h1] at h; cases h
    · rw [h2] at h; cases h
    · exact h3 e he h
    · exact h4 e he h
  cases h with
  | stay h =>
    cases h' with
    | stay _ => rfl
    | back _ h1 h2 h3 h4 => exact (key h1 h2 h3 h4 h).elim
  | back _ h1 h2 h3 h4 =>
    cases h' with
    | stay h => exact (key h1 h2 h3 h4 h).elim
    | back _ h1' _ _ _ => rw [h1] at h1'; cases h1'; rfl

theorem within_unique {d : Option TermDef} {a b b' : ACtx} {o : Opts} (h : Within E d o a b) (h' : Within E d o a b') :
    b = b' := by
  rw [← scopedCtx_ok] at h h'
  rw [h] at h'
  cases h'
  rfl

theorem context_filter {m : List (Str × Json)} {v : Json} (h : ("@context".toList, v) ∈ m) :
    (("@context".toList, v) : Str × Json) ∈ m.filter (fun e => decide (e.1 = "@context".toList)) :=
  List.mem_filter.2 ⟨h, decide_eq_true rfl⟩

/-- There is one local context at most. -/
theorem localContext_one {a b : ACtx} {m : List (Str × Json)} (h : localContext E a m = .ok b) {v : Json}
    (hv : ("@context".toList, v) ∈ m) : m.filter (fun e => decide (e.1 = "@context".toList)) = [("@context".toList, v)] ∧
      ∃ l, readCtx E.isRef v = .ok l ∧ E.process a l E.base { mode := E.opts.mode } = .ok b := by
  have hf := context_filter hv
  unfold localContext at h
  split at h
  · rename_i h0
    rw [h0] at hf; cases hf
  · rename_i e h0
    rw [h0] at hf
    have := List.mem_singleton.1 hf
    subst this
    refine ⟨h0, ?_⟩
    dsimp only at h
    split at h
    · cases h
    · rename_i l hl
      refine ⟨l, hl, ?_⟩
      unfold xProcess at h
      split at h
      · cases h; assumption
      · cases h
  · cases h

theorem locally_unique {a b b' : ACtx} {m : List (Str × Json)} (h : Locally E m a b) (h' : localContext E a m = .ok b') :
    b = b' := by
  cases h with
  | plain hp =>
    unfold localContext at h'
    split at h'
    · cases h'; rfl
    · rename_i e h0
      have he : e ∈ m.filter (fun e => decide (e.1 = "@context".toList)) := by rw [h0]; simp
      obtain ⟨h1, h2⟩ := List.mem_filter.1 he
      obtain ⟨k, v⟩ := e
      have h2 := of_decide_eq_true h2
      dsimp only at h2
      subst h2
      exact absurd h1 (hp v)
    · cases h'
  | entry v l _ hv hl hx =>
    obtain ⟨_, l', hl', hx'⟩ := localContext_one h' hv
    rw [hl] at hl'
    cases hl'
    rw [hx] at hx'
    cases hx'
    rfl

/-- The steps to the context of an object. -/
structure ObjCtx (E : XEnv) (c : ACtx) (p : Option Str) (m : List (Str × Json)) (fm : Bool) (a b tsc : ACtx) : Prop where
  starts : StartsIn E c m fm a
  scope : scopedCtx E (p.bind c.get) a E.opts.proc.withOverride = .ok b
  entry : localContext E b m = .ok tsc
  keys : ∀ e ∈ m, ∃ t, xKey E c e.1 = .ok t

theorem prelim_each {c : ACtx} {m : List (Str × Json)} {r : Bool × Bool} (h : prelim E c m = .ok r)
    {e : Str × Json} (he : e ∈ m) : ∃ t, xKey E c e.1 = .ok t := by
  induction m generalizing r with
  | nil => cases he
  | cons a m ih =>
    obtain ⟨k, v⟩ := a
    unfold prelim at h
    obtain ⟨t, h1, h⟩ := exBind_ok h
    obtain ⟨r', h2, _⟩ := exMap_ok h
    rcases List.mem_cons.1 he with rfl | he
    · exact ⟨t, h1⟩
    · exact ih h2 he

theorem objContext_steps {c : ACtx} {p : Option Str} {m : List (Str × Json)} {fm : Bool} {tsc : ACtx}
    (h : objContext E c p m fm = .ok tsc) : ∃ a b, ObjCtx E c p m fm a b tsc := by
  unfold objContext at h
  obtain ⟨r, h1, h⟩ := exBind_ok h
  obtain ⟨b, h2, h3⟩ := exBind_ok h
  exact ⟨_, b, revert_entered ((prelim_ok (pl := .value c none (.obj m) false) fun e he => .first he).okay h1), h2, h3,
    fun e he => prelim_each h1 he⟩

theorem ObjCtx.before {c : ACtx} {p : Option Str} {m : List (Str × Json)} {fm : Bool} {a b tsc tsc' : ACtx}
    (h : ObjCtx E c p m fm a b tsc) (h' : BeforeTypes E c p m fm tsc') : tsc' = tsc := by
  obtain ⟨a', b', h1, h2, h3⟩ := h'
  cases startsIn_unique h1 h.starts
  cases within_unique h2 (scopedCtx_ok.1 h.scope)
  exact locally_unique h3 h.entry

/-! ## Types -/

theorem strings_texts (l : List Json) : strings l = textsIn l := by
  unfold strings
  induction l with
  | nil => rfl
  | cons j l ih => cases j <;> simp [textsIn, ih]

theorem typeEntries_split {c : ACtx} {m tes : List (Str × Json)} (h : typeEntries E c m = .ok tes) :
    (∀ e ∈ m, ∃ t, xKey E c e.1 = .ok t) ∧ ∃ fs, tes = sortByKey Prod.fst fs ∧
      ∀ es rest : List (Str × Json), m.Perm (es ++ rest) → (∀ e ∈ es, KeyMeans E c e.1 (.keyword .type)) →
        (∀ e ∈ rest, ¬ KeyMeans E c e.1 (.keyword .type)) → fs.Perm es := by
  unfold typeEntries at h
  obtain ⟨fs, h', rfl⟩ := exMap_ok h
  clear h
  constructor
  · intro e he
    obtain ⟨p, hp, _⟩ := collectM_visit h' he
    obtain ⟨t, ht, _⟩ := exMap_ok hp
    exact ⟨t, ht⟩
  · refine ⟨fs, rfl, fun es rest hp hes hrest => ?_⟩
    classical
    have hf : fs = m.filter fun e => decide (KeyMeans E c e.1 (.keyword .type)) := by
      clear hp hes hrest
      induction m generalizing fs with
      | nil => cases h'; rfl
      | cons e m ih =>
        obtain ⟨p, q, h1, h2, rfl⟩ := collectM_cons.1 h'
        obtain ⟨t, ht, rfl⟩ := exMap_ok h1
        have hd : KeyMeans E c e.1 (.keyword .type) ↔ t = some (.keyword .type) := by
          unfold KeyMeans
          rw [xKey_iff.1 ht]
          simp
        rw [ih q h2]
        by_cases hk : t = some (.keyword .type)
        · rw [if_pos hk, List.filter_cons_of_pos (by simpa [hd] using hk)]; rfl
        · rw [if_neg hk, List.filter_cons_of_neg (by simpa [hd] using hk)]; rfl
    rw [hf]
    refine (hp.filter _).trans ?_
    rw [List.filter_append, List.filter_eq_self.2 fun e he => decide_eq_true (hes e he),
      List.filter_eq_nil_iff.2 fun e he => by
        rw [decide_eq_true_eq]
        exact hrest e he, List.append_nil]

theorem scopedTypes_order {c : ACtx} {m tes : List (Str × Json)} {ts : List Str} (h : typeEntries E c m = .ok tes)
    (ho : TypesInOrder E c m ts) : scopedTypes tes = ts := by
  obtain ⟨_, fs, rfl, hf⟩ := typeEntries_split h
  obtain ⟨es, rest, us, hp, h1, h2, h3, h4, rfl⟩ := ho
  have hperm := hf es rest hp h1 h2
  have hn : (es.map Prod.fst).Nodup := by
    rw [List.Nodup, List.pairwise_map]
    exact h3.imp fun h he => by rw [he] at h; exact List.lt_irrefl _ h
  have hes : sortByKey Prod.fst fs = es := by
    refine List.Perm.eq_of_pairwise (fun a b ha hb h1 h2 => ?_) (sortByKey_sorted Prod.fst fs)
      (h3.imp fun h => List.le_of_lt h) ((List.perm_insertionSort _ fs).trans hperm)
    exact List.inj_on_of_nodup_map hn (hperm.mem_iff.1 (mem_sortByKey.1 ha)) hb (List.le_antisymm h1 h2)
  rw [hes]
  unfold scopedTypes
  clear * - h4
  induction h4 with
  | nil => rfl
  | cons h _ ih =>
    rw [List.flatMap_cons, List.flatten_cons, ih]
    congr 1
    rw [forceArray_items, strings_texts]
    exact List.Perm.eq_of_pairwise (fun a b _ _ h1 h2 => List.le_antisymm h1 h2) (sortByKey_sorted id _)
      h.1 ((List.perm_insertionSort _ _).trans h.2.symm)

theorem applied_steps {c a b : ACtx} {ts : List Str} (h : Applied E c ts a b) :
    ts.foldlM (fun a t => scopedCtx E (c.get t) a E.opts.proc.withoutPropagation) a = .ok b := by
  induction h with
  | nil => rfl
  | plain t l a b hu _ ih =>
    rw [foldlM_cons_ok]
    exact ⟨a, scopedCtx_ok.2 (.plain hu), ih⟩
  | within t d x l a a' b hd hx hp _ ih =>
    rw [foldlM_cons_ok]
    exact ⟨a', scopedCtx_ok.2 (.term d x a' hd hx hp), ih⟩

/-- The steps of the expansion of an object. -/
theorem value_steps {c : ACtx} {p : Option Str} {m : List (Str × Json)} {fm : Bool}
    (h : Done E (.value c p (.obj m) fm)) : ∃ a b tsc tes c', ObjCtx E c p m fm a b tsc ∧
      typeEntries E tsc m = .ok tes ∧ typeScoped E tsc tes = .ok c' ∧ Done E (.object c' tsc p m false) := by
  obtain ⟨x, h⟩ := h
  rw [C49_unfold] at h
  change elemObj E (unlimited E) c p m fm = .ok x at h
  unfold elemObj at h
  obtain ⟨tsc, h1, h⟩ := exBind_ok h
  obtain ⟨tes, h2, h⟩ := exBind_ok h
  obtain ⟨c', h3, h⟩ := exBind_ok h
  obtain ⟨it, h4, h⟩ := exBind_ok h
  obtain ⟨es, h5, h⟩ := exBind_ok h
  obtain ⟨a, b, h1⟩ := objContext_steps h1
  exact ⟨a, b, tsc, tes, c', h1, h2, h3, tes, it, es, x, h2, h4, h5, h⟩

/-! ## Entries of objects -/

theorem listIndex_all {i r : Option Str} {es : List XEntry} (h : listIndex i es = .ok r) : ∀ e ∈ es,
    e.term = .keyword .list ∨ e.term = .keyword .index ∧ ∃ s, e.value = .str s := by
  induction es generalizing i with
  | nil => exact fun e he => by cases he
  | cons a es ih =>
    intro e he
    unfold listIndex at h
    split at h
    · rename_i ht
      split at h
      · rename_i s hs
        rcases List.mem_cons.1 he with rfl | he
        · exact .inr ⟨ht, s, hs⟩
        · exact ih h e he
      · cases h
    · rename_i ht
      rcases List.mem_cons.1 he with rfl | he
      · exact .inl ht
      · exact ih h e he
    · cases h

theorem setEntries_all {es : List XEntry} {u : Unit} (h : setEntries es = .ok u) : ∀ e ∈ es,
    e.term = .keyword .index ∨ e.term = .keyword .set := by
  intro e he
  unfold setEntries at h
  split at h
  · rename_i ha
    have := List.all_eq_true.1 ha e he
    simpa using this
  · cases h

theorem valueSteps_each {tsc : ACtx} {s s' : ValueState} {es : List XEntry}
    (h : es.foldlM (valueStep E.toIriEnv E.opts.vocab tsc) s = .ok s') {e : XEntry} (he : e ∈ es) :
    ∃ kw ∈ valueKeywords, e.term = .keyword kw := by
  obtain ⟨t, t', ht⟩ := foldlM_visit h he
  unfold valueStep at ht
  split at ht
  all_goals first
    | (rename_i hk; exact ⟨_, by decide, hk⟩)
    | cases ht

/-- An object that is expanded is a list object, a set object, a value object or a node. -/
inductive KindOf (E : XEnv) (c tsc : ACtx) (p : Option Str) (it : Option CTerm)
    (es : List XEntry) : Prop
  | list {v i os} : p ≠ none → p ≠ some "@graph".toList → lastEntry .list es = some v → listIndex none es = .ok i →
      xItems (unlimited E) c p false (itemsIn v) = .ok os → KindOf E c tsc p it es
  | set {v x} : lastEntry .set es = some v → setEntries es = .ok () → expandElement E c p v false = .ok x →
      KindOf E c tsc p it es
  | value {v s r} : lastEntry .value es = some v →
      es.foldlM (valueStep E.toIriEnv E.opts.vocab tsc) { isJson := decide (it = some (.keyword .json)) } = .ok s →
      valueResult s v = .ok r → KindOf E c tsc p it es
  | node {st st'} : (noProp p = true ∨ lastEntry .list es = none) → lastEntry .set es = none → lastEntry .value es = none →
      entriesBody E (unlimited E) st c tsc p es = .ok st' → KindOf E c tsc p it es

theorem kindOf {c tsc : ACtx} {p : Option Str} {it : Option CTerm} {es : List XEntry}
    {x : Expanded} (h : elemKind E (unlimited E) c tsc p it es = .ok x) : KindOf E c tsc p it es := by
  have list : ∀ v, p ≠ none → p ≠ some "@graph".toList → lastEntry .list es = some v →
      elemList (unlimited E) c p es v = .ok x → KindOf E c tsc p it es := by
    intro v h1 h2 h3 h
    unfold elemList at h
    obtain ⟨i, h4, h⟩ := exBind_ok h
    obtain ⟨os, h5, _⟩ := exMap_ok h
    rw [forceArray_items] at h5
    exact .list h1 h2 h3 h4 h5
  have set : ∀ v, lastEntry .set es = some v → ((setEntries es).bind fun _ => (unlimited E).elem c p v false) = .ok x →
      KindOf E c tsc p it es := by
    intro v h1 h
    obtain ⟨u, h2, h⟩ := exBind_ok h
    exact .set h1 h2 h
  have value : ∀ v, lastEntry .value es = some v → elemValue E tsc it es v = .ok x → KindOf E c tsc p it es := by
    intro v h1 h
    unfold elemValue expandValue at h
    split at h
    · cases h
    all_goals
      rename_i hv
      split at hv
      · cases hv
      · exact .value h1 (by assumption) hv
  have node : (noProp p = true ∨ lastEntry .list es = none) → lastEntry .set es = none → lastEntry .value es = none →
      expandNode E (unlimited E) c tsc p es = .ok x → KindOf E c tsc p it es := by
    intro h0 h1 h2 h
    unfold expandNode at h
    obtain ⟨st', h3, _⟩ := exMap_ok h
    exact .node h0 h1 h2 h3
  unfold elemKind at h
  by_cases hp : noProp p = true
  · rw [if_pos hp] at h
    cases hs : lastEntry .set es with
    | some v => rw [hs] at h; exact set v hs h
    | none =>
      cases hv : lastEntry .value es with
      | some v => rw [hs, hv] at h; exact value v hv h
      | none => rw [hs, hv] at h; exact node (.inl hp) hs hv h
  · rw [if_neg hp] at h
    cases hl : lastEntry .list es with
    | some v =>
      rw [hl] at h
      unfold noProp at hp
      simp only [Bool.or_eq_true, not_or, Option.isNone_iff_eq_none, decide_eq_true_eq] at hp
      exact list v hp.1 hp.2 hl h
    | none =>
      rw [hl] at h
      cases hs : lastEntry .set es with
      | some v => rw [hs] at h; exact set v hs h
      | none =>
        cases hv : lastEntry .value es with
        | some v => rw [hs, hv] at h; exact value v hv h
        | none => rw [hs, hv] at h; exact node (.inr hl) hs hv h

theorem lastEntry_some {c : ACtx} {m : List (Str × Json)} {es : List XEntry} (h : xEntries E c m = .ok es) {k : Str}
    {v : Json} {kw : Keyword} (hm : (k, v) ∈ m) (hk : KeyMeans E c k (.keyword kw)) : ∃ v', lastEntry kw es = some v' := by
  have he := xEntries_has h hm hk
  unfold lastEntry
  have hf : (⟨k, .keyword kw, v⟩ : XEntry) ∈ es.filter fun e => decide (e.term = .keyword kw) :=
    List.mem_filter.2 ⟨he, decide_eq_true rfl⟩
  cases hl : (es.filter fun e => decide (e.term = .keyword kw)).getLast? with
  | none =>
    rw [List.getLast?_eq_none_iff.1 hl] at hf
    cases hf
  | some e => exact ⟨e.value, rfl⟩

theorem two_of_mem {α : Type} {l : List α} {a b : α} (ha : a ∈ l) (hb : b ∈ l) (hne : a ≠ b) :
    ∃ r, l.Perm (a :: b :: r) := by
  have split : ∀ {l : List α} {a : α}, a ∈ l → ∃ r, l.Perm (a :: r) := by
    intro l a h
    obtain ⟨s, t, rfl⟩ := List.append_of_mem h
    exact ⟨s ++ t, List.perm_middle⟩
  obtain ⟨r, hr⟩ := split ha
  have : b ∈ r := by
    rcases List.mem_cons.1 (hr.mem_iff.1 hb) with h | h
    · exact absurd h.symm hne
    · exact h
  obtain ⟨r', hr'⟩ := split this
  exact ⟨r', hr.trans (hr'.cons a)⟩

theorem lastEntry_only {c : ACtx} {m : List (Str × Json)} {es : List XEntry} (h : xEntries E c m = .ok es) {k : Str}
    {v : Json} {kw : Keyword} (ht : ¬ Twice E c m kw) (hm : (k, v) ∈ m) (hk : KeyMeans E c k (.keyword kw)) :
    lastEntry kw es = some v := by
  obtain ⟨v', hl⟩ := lastEntry_some h hm hk
  obtain ⟨k', hm', hk'⟩ := lastEntry_entry h hl
  by_cases he : (k, v) = (k', v')
  · cases he; exact hl
  · obtain ⟨r, hr⟩ := two_of_mem hm hm' he
    exact absurd ⟨_, _, r, hr, hk, hk'⟩ ht

/-- The keywords that objects other than nodes may have. -/
def otherKeywords : List Keyword := [.list, .set, .value, .type, .language, .direction, .index]

/-- An object with another entry is a node. -/
theorem node_entries {c tsc : ACtx} {p : Option Str} {m : List (Str × Json)} {b : Bool}
    (h : Done E (.object c tsc p m b)) {k : Str} {v : Json} {t : CTerm} (hm : (k, v) ∈ m) (hk : KeyMeans E c k t)
    (ht : b = true ∨ ∀ kw ∈ otherKeywords, t ≠ .keyword kw) :
    ∃ m' es st st', m'.Perm m ∧ xEntries E c m' = .ok es ∧ entriesBody E (unlimited E) st c tsc p es = .ok st' := by
  cases b with
  | true =>
    obtain ⟨st, st', es, h1, h2⟩ := h
    exact ⟨_, es, st, st', sortIf_perm _ _ _, h1, h2⟩
  | false =>
    have ht : ∀ kw ∈ otherKeywords, t ≠ .keyword kw := by
      rcases ht with h | h
      · cases h
      · exact h
    obtain ⟨tes, it, es, x, _, _, h3, h4⟩ := h
    have he := xEntries_has h3 hm hk
    cases kindOf h4 with
    | list _ _ _ hi _ =>
      rcases listIndex_all hi _ he with h | h
      · exact absurd h (ht .list (by decide))
      · exact absurd h.1 (ht .index (by decide))
    | set _ hs _ =>
      rcases setEntries_all hs _ he with h | h
      · exact absurd h (ht .index (by decide))
      · exact absurd h (ht .set (by decide))
    | value _ hv _ =>
      obtain ⟨kw, hkw, h⟩ := valueSteps_each hv he
      exact absurd h (ht kw (by revert hkw; cases kw <;> decide))
    | node _ _ _ hn => exact ⟨m, es, _, _, .refl _, h3, hn⟩

/-- Each other entry is an entry of a node. -/
theorem node_step {c tsc : ACtx} {p : Option Str} {m : List (Str × Json)} {b : Bool}
    (h : Done E (.object c tsc p m b)) {k : Str} {v : Json} {t : CTerm} (hm : (k, v) ∈ m) (hk : KeyMeans E c k t)
    (ht : b = true ∨ ∀ kw ∈ otherKeywords, t ≠ .keyword kw) :
    ∃ st st', entryStep E (unlimited E) c tsc p st ⟨k, t, v⟩ = .ok st' := by
  obtain ⟨m', es, st, st', h1, h2, h3⟩ := node_entries h hm hk ht
  exact foldlM_visit h3 (xEntries_has h2 (h1.mem_iff.2 hm) hk)

/-- Entries for other keywords, where the object is a node. -/
theorem keyword_step {R : XRec} {c tsc : ACtx} {p : Option Str} {st st' : XState} {k : Str} {v : Json} {kw : Keyword}
    (hc : kw ≠ .context) (h : entryStep E R c tsc p st ⟨k, .keyword kw, v⟩ = .ok st') :
    keywordEntry E R c tsc p k kw v st = .ok st' ∧
      (E.opts.mode = .v10 ∨ (kw ≠ .included ∧ kw ≠ .type) → st.node.hasKeyword kw = false) := by
  unfold entryStep at h
  split at h
  · rename_i h0; cases h0
  · rename_i h0; cases h0; exact absurd rfl hc
  · rename_i kw' _ h0
    cases h0
    split at h
    · cases h
    · split at h
      · cases h
      · rename_i hh
        refine ⟨h, fun hs => ?_⟩
        by_contra hne
        rw [Bool.not_eq_false] at hne
        refine hh ?_
        rw [hne, Bool.and_true, Bool.or_eq_true, Bool.and_eq_true, decide_eq_true_eq, decide_eq_true_eq, decide_eq_true_eq]
        exact hs
  · rename_i h0; cases h0

theorem contains_colon {s : Str} : s.contains ':' = true ↔ ':' ∈ s := List.contains_iff_mem

/-- A property that is used has values. -/
theorem used_step {c tsc : ACtx} {p : Option Str} {st st' : XState} {k : Str} {v : Json} {q : Id} (hu : IsUsed E q)
    (h : entryStep E (unlimited E) c tsc p st ⟨k, .id q, v⟩ = .ok st') :
    propEntry E (unlimited E) c k q v st = .ok st' := by
  unfold entryStep at h
  dsimp only at h
  rw [if_pos (contains_colon.2 hu.1)] at h
  unfold idEntry at h
  split at h
  · rw [hu.2 rfl] at h
    exact h
  · exact h

theorem prop_value {c tsc : ACtx} {p : Option Str} {m : List (Str × Json)} {b : Bool} {k : Str} {v : Json} {q : Id}
    (h : Done E (.object c tsc p m b)) (hm : (k, v) ∈ m) (hk : KeyMeans E c k (.id q)) (hu : IsUsed E q) :
    ∃ x st st', propValue E (unlimited E) c (c.get k) k v = .ok x ∧
      addProp (c.get k) q (wrapGraph (containerOf (c.get k)) (wrapList (containerOf (c.get k)) x)) st = .ok st' := by
  obtain ⟨st, st', h⟩ := node_step h hm hk (.inr fun kw _ h => by cases h)
  have h := used_step hu h
  unfold propEntry at h
  obtain ⟨x, h1, h2⟩ := exBind_ok h
  exact ⟨x, st, st', h1, h2⟩

theorem reverse_step {c tsc : ACtx} {p : Option Str} {m m' : List (Str × Json)} {b : Bool} {k k' : Str} {v : Json}
    (h : Done E (.object c tsc p m b)) (hm : (k, .obj m') ∈ m) (hk : KeyMeans E c k (.keyword .reverse))
    (hm' : (k', v) ∈ m') : ∃ st st', reverseStep E (unlimited E) c st (k', v) = .ok st' := by
  obtain ⟨st, st', h⟩ := node_step h hm hk (.inr (by decide))
  have h := (keyword_step (by decide) h).1
  change keyReverse E (unlimited E) c (.obj m') st = .ok st' at h
  exact foldlM_visit h (mem_sortIf.2 hm')

theorem reverse_used {c : ACtx} {k' : Str} {v : Json} {q : Id} {st st' : XState} (hk : KeyMeans E c k' (.id q))
    (hu : IsUsed E q) (h : reverseStep E (unlimited E) c st (k', v) = .ok st') :
    reverseProp (unlimited E) c q k' v st = .ok st' := by
  unfold reverseStep at h
  rw [show xKey E c (k', v).1 = .ok (some (.id q)) from xKey_iff.2 hk] at h
  change (if q.str.contains ':' = true then _ else _) = _ at h
  rw [if_pos (contains_colon.2 hu.1)] at h
  split at h
  · exact h
  · rename_i hv
    rw [hu.2 (by simpa using hv)] at h
    exact h

theorem map_step {c tsc : ACtx} {p : Option Str} {m m' : List (Str × Json)} {b : Bool} {k : Str} {q : Id}
    {i : Str} {w : Json} (h : Done E (.object c tsc p m b)) (hm : (k, .obj m') ∈ m) (hk : KeyMeans E c k (.id q))
    (hu : IsUsed E q) (hmap : IsMap c k) (hi : (i, w) ∈ m') :
    ∃ os, xMapEntry E (unlimited E) c (containerOf (c.get k)) (indexKeyOf (c.get k)) k (i, w) = .ok os := by
  obtain ⟨x, st, st', h1, _⟩ := prop_value h hm hk hu
  unfold propValue at h1
  dsimp only at h1
  rw [if_neg (fun h => hmap.1 (isJson_iff.1 h)), if_neg (fun h => hmap.2.1 (hasContainer_iff.1 h)), if_pos (by
    rw [Bool.or_eq_true, Bool.or_eq_true, hasContainer_iff, hasContainer_iff, hasContainer_iff]
    rcases hmap.2.2 with h | h | h
    · exact .inl (.inl h)
    · exact .inl (.inr h)
    · exact .inr h)] at h1
  obtain ⟨os, h1, _⟩ := exMap_ok h1
  obtain ⟨r, hr, _⟩ := collectM_visit h1 (mem_sortIf.2 hi)
  exact ⟨r, hr⟩

theorem returned_eq {c b : ACtx} (h : Returned c b) : c.previous.getD c = b := by
  cases h with
  | stay h => rw [h]; rfl
  | back _ h => rw [h]; rfl

theorem mapContext_is {c c' b : ACtx} {cm : Container} {i : Str} (h : mapContext E c cm i = .ok b)
    (h' : MapContext E c cm i c') : c' = b := by
  have mem : ∀ x, cm.contains x = true ↔ x ∈ cm.asSlice := fun x => by simp [Container.contains]
  unfold mapContext at h
  dsimp only at h
  cases h' with
  | plain h1 h2 =>
    rw [if_neg (by rw [mem]; exact h1), if_neg (by rw [Bool.or_eq_true, mem, mem]; exact fun h => h.elim h1 h2)] at h
    cases h
    rfl
  | id _ h1 h2 h3 =>
    rw [if_neg (by rw [mem]; exact h1), if_pos (by rw [Bool.or_eq_true, mem, mem]; exact .inr h2), returned_eq h3] at h
    cases h
    rfl
  | type _ h1 h3 =>
    rw [if_pos (by rw [mem]; exact h1), if_pos (by rw [Bool.or_eq_true, mem, mem]; exact .inl h1)] at h
    cases h3 with
    | plain _ hr hp =>
      rw [returned_eq hr] at h
      exact within_unique (.plain hp) (scopedCtx_ok.1 h)
    | within _ d l _ hr hd hl hx =>
      rw [returned_eq hr] at h
      exact within_unique (.term d l c' hd hl hx) (scopedCtx_ok.1 h)

/-! ## Places below -/

theorem item_done {c : ACtx} {p : Option Str} {l : List Json} {fm : Bool} {os : List Obj}
    (h : xItems (unlimited E) c p fm l = .ok os) {x : Json} (hx : x ∈ l) : Done E (.value c p x fm) := by
  obtain ⟨r, hr, _⟩ := collectM_visit h hx
  obtain ⟨y, hy, _⟩ := exMap_ok hr
  exact ⟨y, hy⟩

theorem visits_done {pl pl' : Place} (hv : Visits E pl pl') (h : Done E pl) : Done E pl' := by
  obtain ⟨hu, hty, hsi⟩ := hv
  cases hu with
  | item hx =>
    obtain ⟨y, h⟩ := h
    rw [C49_unfold] at h
    obtain ⟨os, h, _⟩ := exMap_ok h
    exact item_done h hx
  | object hb _ _ =>
    rename_i c p m fm tsc ts c'
    obtain ⟨ts', ho, ha⟩ := hty _ _ _ _ _ _ rfl rfl
    obtain ⟨a, b, tsc', tes, c'', h1, h2, h3, h4⟩ := value_steps h
    have := h1.before hb
    subst this
    unfold typeScoped at h3
    rw [scopedTypes_order h2 ho, applied_steps ha] at h3
    cases h3
    exact h4
  | property hm hk hu hj hmap =>
    obtain ⟨x, st, st', h1, _⟩ := prop_value h hm hk hu
    unfold propValue at h1
    dsimp only at h1
    rw [if_neg (fun h => hj (isJson_iff.1 h))] at h1
    split at h1
    · rename_i m'
      obtain ⟨g1, g2⟩ := hmap m' rfl
      rw [if_neg (fun h => g2 (hasContainer_iff.1 h)), if_neg (by
        rw [Bool.or_eq_true, Bool.or_eq_true, hasContainer_iff, hasContainer_iff, hasContainer_iff]
        exact fun h => g1 ⟨hj, g2, or_assoc.1 h⟩)] at h1
      exact ⟨x, h1⟩
    · exact ⟨x, h1⟩
  | map hm hk hu hd hmap hi hc =>
    obtain ⟨os, h⟩ := map_step h hm hk hu hmap hi
    unfold xMapEntry at h
    obtain ⟨c'', h1, h⟩ := exBind_ok h
    obtain ⟨t, _, h⟩ := exBind_ok h
    obtain ⟨x, h, _⟩ := exBind_ok h
    rw [hd] at h1
    cases mapContext_is h1 hc
    exact ⟨x, h⟩
  | graph hm hk =>
    obtain ⟨st, st', h⟩ := node_step h hm hk (.inr (by decide))
    have h := (keyword_step (by decide) h).1
    change keyGraph (unlimited E) _ _ st = .ok st' at h
    unfold keyGraph at h
    obtain ⟨x, h, _⟩ := exMap_ok h
    exact ⟨x, h⟩
  | included hm hk hmode =>
    obtain ⟨st, st', h⟩ := node_step h hm hk (.inr (by decide))
    have h := (keyword_step (by decide) h).1
    change keyIncluded E (unlimited E) _ _ st = .ok st' at h
    unfold keyIncluded at h
    rw [if_neg (by rw [hmode]; decide)] at h
    obtain ⟨x, h, _⟩ := exBind_ok h
    exact ⟨x, h⟩
  | list hp hg hm hk hx =>
    obtain ⟨ht, _⟩ := hsi _ _ _ _ rfl
    obtain ⟨tes, it, es, x, _, _, h3, h4⟩ := h
    have hl := lastEntry_only h3 ht hm hk
    cases kindOf h4 with
    | list _ _ hl' _ hi =>
      rw [hl] at hl'
      cases hl'
      exact item_done hi hx
    | set _ hs _ =>
      rcases setEntries_all hs _ (xEntries_has h3 hm hk) with h | h <;> cases h
    | value _ hv _ =>
      obtain ⟨kw, hkw, h⟩ := valueSteps_each hv (xEntries_has h3 hm hk)
      cases h
      exact absurd hkw (by decide)
    | node hn _ _ _ =>
      rcases hn with hn | hn
      · unfold noProp at hn
        simp only [Bool.or_eq_true, Option.isNone_iff_eq_none, decide_eq_true_eq] at hn
        exact (hn.elim hp hg).elim
      · rw [hl] at hn; cases hn
  | set hm hk =>
    obtain ⟨_, ht⟩ := hsi _ _ _ _ rfl
    obtain ⟨tes, it, es, x, _, _, h3, h4⟩ := h
    have hl := lastEntry_only h3 ht hm hk
    cases kindOf h4 with
    | list _ _ _ hi _ =>
      rcases listIndex_all hi _ (xEntries_has h3 hm hk) with h | h
      · cases h
      · cases h.1
    | set hl' _ hx =>
      rw [hl] at hl'
      cases hl'
      exact ⟨_, hx⟩
    | value _ hv _ =>
      obtain ⟨kw, hkw, h⟩ := valueSteps_each hv (xEntries_has h3 hm hk)
      cases h
      exact absurd hkw (by decide)
    | node _ hn _ _ => rw [hl] at hn; cases hn
  | reverse hm hk hm' hk' hu =>
    obtain ⟨st, st', h⟩ := reverse_step h hm hk hm'
    have h := reverse_used hk' hu h
    unfold reverseProp at h
    obtain ⟨x, h, _⟩ := exBind_ok h
    exact ⟨x, h⟩
  | nest hm hk hx hw =>
    rename_i m' c'
    obtain ⟨st, st', h⟩ := node_step h hm hk (.inr (by decide))
    have h := (keyword_step (by decide) h).1
    rw [← forceArray_items] at hx
    obtain ⟨s, s', h⟩ := foldlM_visit (f := nestStep E (unlimited E) _ _ _ _) h hx
    unfold nestStep at h
    obtain ⟨c'', h1, h⟩ := exBind_ok h
    cases within_unique hw (scopedCtx_ok.1 h1)
    obtain ⟨es, h2, h⟩ := exBind_ok h
    rw [C49_unfold_entries] at h
    exact ⟨s, s', es, h2, h⟩

/-! ## Scalars -/

theorem scalar_done {c : ACtx} {k : Str} {j : Json} {l : Literal} {fm : Bool} {x : Expanded} (hk : k ≠ "@graph".toList)
    (hj : ScalarAs j l) (h : expandElement E c (some k) j fm = .ok x) :
    ∃ c' o, Within E (c.get k) { mode := E.opts.mode } c c' ∧
      expandLiteral E.toIriEnv E.opts.vocab c' (some k) l = .ok o ∧ x = .object o := by
  rw [C49_unfold] at h
  have h : elemScalar E c (some k) l = .ok x := by cases hj <;> exact h
  unfold elemScalar at h
  rw [if_neg (by unfold noProp; simp only [Option.isNone_some, Bool.false_or, decide_eq_true_eq, Option.some.injEq]; exact hk)] at h
  obtain ⟨c', h1, h⟩ := exBind_ok h
  split at h
  · cases h
  · rename_i o ho
    cases h
    exact ⟨c', o, scopedCtx_ok.1 h1, ho, rfl⟩

theorem literal_value {c : ACtx} {k : Str} {l : Literal} {o : Obj}
    (hd : (∃ s, l = .str s) → ∀ d, c.get k = some d → d.typ ≠ some .id ∧ d.typ ≠ some .vocab)
    (h : expandLiteral E.toIriEnv E.opts.vocab c (some k) l = .ok o) : ∀ n, o ≠ .node n := by
  intro n hn
  subst hn
  unfold expandLiteral at h
  have hty : ∀ {ty}, ((some k).bind c.get).bind (·.typ) = some ty → ∃ d, c.get k = some d ∧ d.typ = some ty := by
    intro ty h
    cases hg : c.get k with
    | none => rw [show (some k).bind c.get = none from hg] at h; cases h
    | some d => rw [show (some k).bind c.get = some d from hg] at h; exact ⟨d, rfl, h⟩
  dsimp only at h
  split at h
  · rename_i ht
    obtain ⟨d, h1, h2⟩ := hty ht
    exact ((hd ⟨_, rfl⟩ d h1).1 h2).elim
  · rename_i ht
    obtain ⟨d, h1, h2⟩ := hty ht
    exact ((hd ⟨_, rfl⟩ d h1).2 h2).elim
  · cases h
  · cases h
  · unfold untypedLiteral at h
    split at h
    · unfold untypedString at h
      split at h <;> cases h
    · cases h

theorem hasScalar_done {c : ACtx} {k : Str} {j : Json} (hk : k ≠ "@graph".toList) (hs : HasScalar E c k j) :
    ∀ {fm : Bool} {x : Expanded}, expandElement E c (some k) j fm = .ok x → ∃ o ∈ x.toList, ∀ n, o ≠ .node n := by
  induction hs with
  | scalar hj hw hd =>
    intro fm x h
    obtain ⟨c'', o, h1, h2, rfl⟩ := scalar_done hk hj h
    cases within_unique h1 hw
    refine ⟨o, List.mem_singleton.2 rfl, literal_value ?_ h2⟩
    rintro ⟨s, rfl⟩
    cases hj
    exact hd ⟨s, rfl⟩
  | item hx _ ih =>
    intro fm x h
    rw [C49_unfold] at h
    obtain ⟨os, h', rfl⟩ := exMap_ok h
    split
    · exact ⟨_, List.mem_singleton.2 rfl, nofun⟩
    · obtain ⟨r, hr, hsub⟩ := collectM_visit h' hx
      obtain ⟨y, hy, rfl⟩ := exMap_ok hr
      obtain ⟨o, ho, hn⟩ := ih hy
      exact ⟨o, hsub o ho, hn⟩

theorem asNodes_none {e : XErr} {os : List Obj} {ns : List Node} (h : asNodes e os = .ok ns) {o : Obj} (ho : o ∈ os)
    (hn : ∀ n, o ≠ .node n) : False := by
  induction os generalizing ns with
  | nil => cases ho
  | cons a os ih =>
    cases a with
    | node n =>
      obtain ⟨ns', h', _⟩ := exMap_ok (f := fun ns => n :: ns) h
      rcases List.mem_cons.1 ho with rfl | ho
      · exact hn n rfl
      · exact ih h' ho
    | value _ _ => cases h
    | list _ _ => cases h

/-! ## Value objects -/

/-- What the entries of a value object leave. -/
structure ValueMarks (es : List XEntry) (s : ValueState) : Prop where
  type : (∃ e ∈ es, e.term = .keyword .type) → s.isJson = true ∨ s.ty.isSome = true
  tag : (∃ e ∈ es, (e.term = .keyword .language ∧ e.value ≠ .str "@none".toList) ∨ e.term = .keyword .direction) →
    s.language.isSome = true ∨ s.direction.isSome = true

theorem valueStep_marks {tsc : ACtx} {s s' : ValueState} {e : XEntry}
    (h : valueStep E.toIriEnv E.opts.vocab tsc s e = .ok s') :
    (s.isJson = true ∨ s.ty.isSome = true → s'.isJson = true ∨ s'.ty.isSome = true) ∧
    (e.term = .keyword .type → s'.isJson = true ∨ s'.ty.isSome = true) ∧
    (s.language.isSome = true ∨ s.direction.isSome = true → s'.language.isSome = true ∨ s'.direction.isSome = true) ∧
    ((e.term = .keyword .language ∧ e.value ≠ .str "@none".toList) ∨ e.term = .keyword .direction →
      s'.language.isSome = true ∨ s'.direction.isSome = true) ∧
    (e.term ≠ .keyword .type → s'.isJson = s.isJson) := by
  unfold valueStep at h
  split at h
  · rename_i ht
    unfold valueLanguage at h
    split at h
    · rename_i l hl
      cases h
      rw [ht, hl]
      split
      · rename_i hn
        subst hn
        simp
      · rename_i hn
        simp
    · cases h
  · rename_i ht
    unfold valueDirection at h
    split at h
    · split at h
      · cases h; rw [ht]; simp
      · cases h
    · cases h
  · rename_i ht
    unfold valueIndex at h
    split at h
    · cases h; rw [ht]; simp
    · cases h
  · rename_i ht
    unfold valueType at h
    split at h
    · split at h
      · cases h
      · cases h; rw [ht]; simp
      · cases h; rw [ht]; simp
      · cases h
    · cases h
  · rename_i ht
    cases h
    rw [ht]; simp
  · cases h

theorem valueSteps_marks {tsc : ACtx} {es₀ es : List XEntry} : ∀ {s s' : ValueState}, ValueMarks es₀ s →
    es.foldlM (valueStep E.toIriEnv E.opts.vocab tsc) s = .ok s' → ValueMarks (es₀ ++ es) s' := by
  induction es generalizing es₀ with
  | nil =>
    intro s s' hs h
    cases h
    rw [List.append_nil]
    exact hs
  | cons e es ih =>
    intro s s' hs h
    obtain ⟨s1, h1, h2⟩ := foldlM_cons_ok.1 h
    obtain ⟨g1, g2, g3, g4, _⟩ := valueStep_marks h1
    have := ih (es₀ := es₀ ++ [e]) ⟨?_, ?_⟩ h2
    · rw [List.append_assoc] at this
      exact this
    · rintro ⟨a, ha, hk⟩
      rcases List.mem_append.1 ha with ha | ha
      · exact g1 (hs.type ⟨a, ha, hk⟩)
      · rw [List.mem_singleton.1 ha] at hk
        exact g2 hk
    · rintro ⟨a, ha, hk⟩
      rcases List.mem_append.1 ha with ha | ha
      · exact g3 (hs.tag ⟨a, ha, hk⟩)
      · rw [List.mem_singleton.1 ha] at hk
        exact g4 hk

theorem valueSteps_plain {tsc : ACtx} {es : List XEntry} : ∀ {s s' : ValueState},
    (∀ e ∈ es, e.term ≠ .keyword .type) → es.foldlM (valueStep E.toIriEnv E.opts.vocab tsc) s = .ok s' →
    s'.isJson = s.isJson := by
  induction es with
  | nil => intro s s' _ h; cases h; rfl
  | cons e es ih =>
    intro s s' he h
    obtain ⟨s1, h1, h2⟩ := foldlM_cons_ok.1 h
    rw [ih (fun e h => he e (List.mem_cons_of_mem _ h)) h2]
    exact (valueStep_marks h1).2.2.2.2 (he e (List.mem_cons_self ..))

theorem valueWrong_done {c tsc : ACtx} {m : List (Str × Json)} {it : Option CTerm} {es : List XEntry} {v : Json}
    {s : ValueState} {r : Option Obj} (hes : xEntries E c m = .ok es) (hl : lastEntry .value es = some v)
    (hit : (∀ e ∈ m, ¬ KeyMeans E tsc e.1 (.keyword .type)) → it = none)
    (hs : es.foldlM (valueStep E.toIriEnv E.opts.vocab tsc) { isJson := decide (it = some (.keyword .json)) } = .ok s)
    (hr : valueResult s v = .ok r) (hw : ValueWrong E c tsc m) : False := by
  have step : ∀ {k v t}, (k, v) ∈ m → KeyMeans E c k t →
      ∃ s s', valueStep E.toIriEnv E.opts.vocab tsc s ⟨k, t, v⟩ = .ok s' :=
    fun hm hk => foldlM_visit hs (xEntries_has hes hm hk)
  have marks : ValueMarks es s := by
    have := valueSteps_marks (es₀ := []) ⟨(by rintro ⟨e, he, _⟩; cases he), (by rintro ⟨e, he, _⟩; cases he)⟩ hs
    exact this
  have tag : HasTag E c m → s.language.isSome = true ∨ s.direction.isSome = true := by
    rintro ⟨k, v, hm, hk⟩
    rcases hk with ⟨hk, hv⟩ | hk
    · exact marks.tag ⟨_, xEntries_has hes hm hk, .inl ⟨rfl, hv⟩⟩
    · exact marks.tag ⟨_, xEntries_has hes hm hk, .inr rfl⟩
  have only : ∀ {k v'}, ¬ Twice E c m .value → (k, v') ∈ m → KeyMeans E c k (.keyword .value) → v' = v := by
    intro k v' ht hm hk
    have := lastEntry_only hes ht hm hk
    rw [hl] at this
    cases this
    rfl
  have tagged : (s.language.isSome || s.direction.isSome) = true → v ≠ .null → ∃ x l, scalarOf v = .ok l ∧
      s.isJson = false ∧ langValue s l = .ok x := by
    intro ht hv
    unfold valueResult at hr
    split at hr
    · cases hr
    · rename_i hj
      split at hr
      · cases hr
      · rename_i hn
        cases v <;> first | exact absurd rfl hv | cases hn
      · rename_i l _ hl
        exact ⟨r, l, hl, by simpa using hj, hr⟩
  cases hw with
  | language hm hk hv =>
    obtain ⟨s, s', h⟩ := step hm hk
    change valueLanguage s _ = _ at h
    unfold valueLanguage at h
    split at h
    · exact hv _ (by assumption)
    · cases h
  | direction hm hk h1 h2 =>
    obtain ⟨s, s', h⟩ := step hm hk
    change valueDirection s _ = _ at h
    unfold valueDirection at h
    split at h
    · rename_i d hval
      split at h
      · rename_i d' hd
        have h1 : d ≠ "ltr".toList := fun h => h1 (h ▸ hval)
        have h2 : d ≠ "rtl".toList := fun h => h2 (h ▸ hval)
        unfold Direction.tryFrom at hd
        rw [if_neg h1, if_neg h2] at hd
        cases hd
      · cases h
    · cases h
  | index hm hk hv =>
    obtain ⟨s, s', h⟩ := step hm hk
    change valueIndex s _ = _ at h
    unfold valueIndex at h
    split at h
    · exact hv _ (by assumption)
    · cases h
  | type hm hk hv =>
    obtain ⟨s, s', h⟩ := step hm hk
    change valueType _ _ _ s _ = _ at h
    unfold valueType at h
    split at h
    · exact hv _ (by assumption)
    · cases h
  | typeName hm hk ht h1 h2 =>
    obtain ⟨s, s', h⟩ := step hm hk
    change valueType E.toIriEnv E.opts.vocab tsc s (.str _) = _ at h
    unfold TypeMeans at ht
    unfold valueType at h
    dsimp only at h
    rw [ht] at h
    split at h
    · cases ‹Except.ok _ = Except.error _›
    · rename_i h0; cases h0; exact h1 rfl
    · rename_i h0; cases h0; exact h2 _ rfl
    · cases h
  | key hm hk ht =>
    obtain ⟨kw, hkw, h⟩ := valueSteps_each hs (xEntries_has hes hm hk)
    exact ht kw hkw h
  | typeAndTag hm hk ht h1 hm' hk' hv =>
    cases only h1 hm' hk'
    have hty := marks.type ⟨_, xEntries_has hes hm hk, rfl⟩
    obtain ⟨x, l, _, h2, h3⟩ := tagged (by simpa using tag ht) hv
    rw [h2] at hty
    unfold langValue at h3
    rw [if_pos (by simpa using hty)] at h3
    cases h3
  | tagged ht h1 hm hk hv hv' =>
    cases only h1 hm hk
    obtain ⟨x, l, h2, _, h3⟩ := tagged (by simpa using tag ht) hv
    unfold langValue at h3
    split at h3
    · cases h3
    · cases v <;> first | exact hv rfl | exact hv' _ rfl | cases h2
      all_goals cases h3
  | value h1 hm hk hv ht =>
    cases only h1 hm hk
    have hj : s.isJson = false := by
      rw [valueSteps_plain (fun e he h0 => ?_) hs, hit fun e he => (ht e he).2]
      · rfl
      · have hk := xKey_iff.1 (xEntries_term hes he)
        rw [h0] at hk
        exact (ht _ (xEntries_mem hes he)).1 hk
    unfold valueResult at hr
    rw [hj] at hr
    rcases hv with ⟨l, rfl⟩ | ⟨m', rfl⟩ <;> cases hr

/-! ## Keywords that are given twice -/

/-- The identifier and the graph of the node are kept. -/
def KeepsNode (st st' : XState) : Prop :=
  (st.node.graph.isSome = true → st'.node.graph.isSome = true) ∧ (st.node.id.isSome = true → st'.node.id.isSome = true)

theorem KeepsNode.refl (st : XState) : KeepsNode st st := ⟨id, id⟩

theorem KeepsNode.trans {a b c : XState} (h1 : KeepsNode a b) (h2 : KeepsNode b c) : KeepsNode a c :=
  ⟨h2.1 ∘ h1.1, h2.2 ∘ h1.2⟩

theorem KeepsNode.foldlM {α : Type} {f : XState → α → Except XErr XState} (hf : ∀ st a st', f st a = .ok st' → KeepsNode st st')
    {l : List α} : ∀ {st st' : XState}, l.foldlM f st = .ok st' → KeepsNode st st' := by
  induction l with
  | nil => intro st st' h; cases h; exact .refl _
  | cons a l ih =>
    intro st st' h
    obtain ⟨s1, h1, h2⟩ := foldlM_cons_ok.1 h
    exact (hf _ _ _ h1).trans (ih h2)

theorem KeepsNode.same {st st' : XState} (h : st'.node.graph = st.node.graph) (h' : st'.node.id = st.node.id) : KeepsNode st st' :=
  ⟨fun g => by rw [h]; exact g, fun g => by rw [h']; exact g⟩

theorem addReverse_keeps {q : Id} {os : List Obj} {st st' : XState} (h : addReverse q os st = .ok st') : KeepsNode st st' := by
  unfold addReverse at h
  obtain ⟨ns, _, rfl⟩ := exMap_ok h
  obtain ⟨n, hv⟩ := st
  cases n
  exact .same rfl rfl

theorem insertProp_keeps {q : Id} {os : List Obj} {st : XState} :
    KeepsNode st { st with node := st.node.insertProp q os } := by
  obtain ⟨n, hv⟩ := st
  cases n
  exact .same rfl rfl

theorem reverseStep_keeps {R : XRec} {c : ACtx} {st st' : XState} {e : Str × Json}
    (h : reverseStep E R c st e = .ok st') : KeepsNode st st' := by
  have prop : ∀ {q k v}, reverseProp R c q k v st = .ok st' → KeepsNode st st' := by
    intro q k v h
    unfold reverseProp at h
    obtain ⟨x, _, h⟩ := exBind_ok h
    split at h
    · cases h; exact insertProp_keeps
    · exact addReverse_keeps h
  unfold reverseStep at h
  obtain ⟨t, _, h⟩ := exBind_ok h
  split at h
  · cases h
  · split at h
    · split at h
      · exact prop h
      · split at h
        · exact prop h
        · cases h; exact .refl _
        · cases h
    · split at h
      · cases h
      · cases h; exact .refl _
  · split at h
    · cases h
    · cases h; exact .refl _

theorem keyType1_keeps {tsc : ACtx} {st st' : XState} {v : Json} (h : keyType1 E tsc st v = .ok st') : KeepsNode st st' := by
  have push : ∀ i : Id, KeepsNode st { st with node := st.node.pushType i } := by
    intro i
    obtain ⟨n, hv⟩ := st
    cases n
    exact .same rfl rfl
  unfold keyType1 at h
  split at h
  · obtain ⟨t, _, h⟩ := exBind_ok h
    split at h
    · cases h; exact .refl _
    · split at h
      · cases h; exact push _
      · cases h; exact .refl _
      · cases h
    · cases h; exact push _
    · cases h
  · cases h

theorem keywordEntry_keeps {R : XRec} (hR : ∀ st c tsc p es st', R.entries st c tsc p es = .ok st' → KeepsNode st st')
    {c tsc : ACtx} {p : Option Str} {k : Str} {kw : Keyword} {v : Json} {st st' : XState}
    (hid : kw = .id → st.node.id.isSome = false) (h : keywordEntry E R c tsc p k kw v st = .ok st') : KeepsNode st st' := by
  unfold keywordEntry at h
  split at h
  · unfold keyId at h
    split at h
    · obtain ⟨t, _, rfl⟩ := exMap_ok h
      refine ⟨fun hg => ?_, fun h0 => by rw [hid rfl] at h0; cases h0⟩
      obtain ⟨n, hv⟩ := st
      cases n
      exact hg
    · cases h
  · exact KeepsNode.foldlM (fun _ _ _ h => keyType1_keeps h) h
  · unfold keyGraph at h
    obtain ⟨x, _, rfl⟩ := exMap_ok h
    obtain ⟨n, hv⟩ := st
    cases n
    exact ⟨fun _ => rfl, id⟩
  · unfold keyIncluded at h
    split at h
    · cases h; exact .refl _
    · obtain ⟨x, _, h⟩ := exBind_ok h
      obtain ⟨ns, _, rfl⟩ := exMap_ok h
      obtain ⟨n, hv⟩ := st
      cases n
      exact .same rfl rfl
  · cases h; exact .same rfl rfl
  · cases h; exact .same rfl rfl
  · unfold keyIndex at h
    split at h
    · cases h
      obtain ⟨n, hv⟩ := st
      cases n
      exact .same rfl rfl
    · cases h
  · unfold keyReverse at h
    split at h
    · exact KeepsNode.foldlM (fun _ _ _ h => reverseStep_keeps h) h
    · cases h
  · refine KeepsNode.foldlM (fun st a st' h => ?_) h
    unfold nestStep at h
    obtain ⟨c', _, h⟩ := exBind_ok h
    split at h
    · obtain ⟨es, _, h⟩ := exBind_ok h
      exact hR _ _ _ _ _ _ h
    · cases h
  · cases h
  · cases h; exact .refl _

theorem entryStep_keeps {R : XRec} (hR : ∀ st c tsc p es st', R.entries st c tsc p es = .ok st' → KeepsNode st st')
    {c tsc : ACtx} {p : Option Str} {st st' : XState} {e : XEntry} (h : entryStep E R c tsc p st e = .ok st') :
    KeepsNode st st' := by
  have prop : ∀ {q v}, propEntry E R c e.key q v st = .ok st' → KeepsNode st st' := by
    intro q v h
    unfold propEntry at h
    obtain ⟨x, _, h⟩ := exBind_ok h
    unfold addProp at h
    split at h
    · cases h; exact .refl _
    · split at h
      · exact addReverse_keeps h
      · cases h; exact insertProp_keeps
  obtain ⟨k, t, v⟩ := e
  cases t with
  | null => cases h; exact .refl _
  | keyword kw =>
    by_cases hc : kw = .context
    · subst hc; cases h; exact .refl _
    · obtain ⟨h1, h2⟩ := keyword_step hc h
      exact keywordEntry_keeps hR (fun h => by subst h; exact h2 (.inr (by decide))) h1
  | id q =>
    unfold entryStep at h
    dsimp only at h
    split at h
    · unfold idEntry at h
      split at h
      · split at h
        · exact prop h
        · cases h; exact .refl _
        · cases h
      · exact prop h
    · unfold plainEntry at h
      split at h
      · cases h
      · split at h
        · cases h
        · cases h; exact .refl _

theorem entries_keeps (n : Nat) : ∀ st c tsc p es st', (xrecN E n).entries st c tsc p es = .ok st' → KeepsNode st st' := by
  induction n with
  | zero => intro st c tsc p es st' h; cases h
  | succ n ih =>
    intro st c tsc p es st' h
    exact KeepsNode.foldlM (fun _ _ _ h => entryStep_keeps ih h) h

theorem steps_keep {c tsc : ACtx} {p : Option Str} {es : List XEntry} {st st' : XState}
    (h : es.foldlM (entryStep E (unlimited E) c tsc p) st = .ok st') : KeepsNode st st' :=
  KeepsNode.foldlM (fun _ _ _ h => entryStep_keeps (R := unlimited E)
    (fun _ _ _ _ es _ h => entries_keeps (1 + (es.map fun e => e.value.depth).foldr max 0) _ _ _ _ _ _ h) h) h

theorem two_in_order {α : Type} {l r : List α} {a b : α} (h : l.Perm (a :: b :: r)) :
    ∃ x y l₁ l₂ l₃, l = l₁ ++ x :: (l₂ ++ y :: l₃) ∧ (x = a ∧ y = b ∨ x = b ∧ y = a) := by
  obtain ⟨s, t, rfl⟩ := List.append_of_mem (h.mem_iff.2 (List.mem_cons_self ..))
  have h' : (s ++ t).Perm (b :: r) := (List.perm_middle.symm.trans h).cons_inv
  rcases List.mem_append.1 (h'.mem_iff.2 (List.mem_cons_self ..)) with hb | hb
  · obtain ⟨s1, s2, rfl⟩ := List.append_of_mem hb
    exact ⟨b, a, s1, s2, t, by simp, .inr ⟨rfl, rfl⟩⟩
  · obtain ⟨t1, t2, rfl⟩ := List.append_of_mem hb
    exact ⟨a, b, s, t1, t2, by simp, .inl ⟨rfl, rfl⟩⟩

theorem foldlM_append_ok {α σ ε : Type} {f : σ → α → Except ε σ} {l l' : List α} {s s' : σ} :
    (l ++ l').foldlM f s = .ok s' ↔ ∃ s1, l.foldlM f s = .ok s1 ∧ l'.foldlM f s1 = .ok s' := by
  induction l generalizing s with
  | nil =>
    constructor
    · intro h; exact ⟨s, rfl, h⟩
    · rintro ⟨s1, h, h'⟩; cases h; exact h'
  | cons a l ih =>
    rw [List.cons_append, foldlM_cons_ok]
    constructor
    · rintro ⟨s1, h1, h2⟩
      obtain ⟨s2, h2, h3⟩ := ih.1 h2
      exact ⟨s2, foldlM_cons_ok.2 ⟨s1, h1, h2⟩, h3⟩
    · rintro ⟨s2, h, h3⟩
      obtain ⟨s1, h1, h2⟩ := foldlM_cons_ok.1 h
      exact ⟨s1, h1, ih.2 ⟨s2, h2, h3⟩⟩

/-- A keyword whose entry is remembered is not given twice. -/
theorem not_twice {c tsc : ACtx} {p : Option Str} {m l : List (Str × Json)} {b : Bool} {e e' : Str × Json} {kw : Keyword}
    (hkw : kw = .graph ∨ kw = .id) (h : Done E (.object c tsc p m b)) (hm : m.Perm (e :: e' :: l))
    (hk : KeyMeans E c e.1 (.keyword kw)) (hk' : KeyMeans E c e'.1 (.keyword kw))
    (hset : ∀ x, x = e ∨ x = e' → ∀ st st', keywordEntry E (unlimited E) c tsc p x.1 kw x.2 st = .ok st' →
      st'.node.hasKeyword kw = true) : False := by
  have hne : kw ≠ .context := by rcases hkw with rfl | rfl <;> decide
  have hs : E.opts.mode = .v10 ∨ (kw ≠ .included ∧ kw ≠ .type) := by rcases hkw with rfl | rfl <;> exact .inr (by decide)
  obtain ⟨m', es, st, st', h1, h2, h3⟩ := node_entries (k := e.1) (v := e.2) h (hm.mem_iff.2 (List.mem_cons_self ..)) hk
    (.inr (by rcases hkw with rfl | rfl <;> decide))
  obtain ⟨x, y, l₁, l₂, l₃, rfl, hxy⟩ := two_in_order (h1.trans hm)
  have hx : KeyMeans E c x.1 (.keyword kw) ∧ (x = e ∨ x = e') := by
    rcases hxy with ⟨rfl, _⟩ | ⟨rfl, _⟩
    · exact ⟨hk, .inl rfl⟩
    · exact ⟨hk', .inr rfl⟩
  have hy : KeyMeans E c y.1 (.keyword kw) := by
    rcases hxy with ⟨_, rfl⟩ | ⟨_, rfl⟩
    · exact hk'
    · exact hk
  have split : ∀ {a b : List (Str × Json)} {es}, xEntries E c (a ++ b) = .ok es →
      ∃ u w, xEntries E c a = .ok u ∧ xEntries E c b = .ok w ∧ es = u ++ w := by
    intro a b es h
    rw [xEntries_collect] at h
    obtain ⟨u, w, h1, h2, h3⟩ := collectM_append.1 h
    exact ⟨u, w, xEntries_collect.trans h1, xEntries_collect.trans h2, h3⟩
  have head : ∀ {a : Str × Json} {b : List (Str × Json)} {es}, KeyMeans E c a.1 (.keyword kw) → xEntries E c (a :: b) = .ok es →
      ∃ w, xEntries E c b = .ok w ∧ es = ⟨a.1, .keyword kw, a.2⟩ :: w := by
    rintro ⟨k, v⟩ b es hk h
    unfold xEntries at h
    rw [show xKey E c k = .ok (some (.keyword kw)) from xKey_iff.2 hk] at h
    obtain ⟨w, hw, rfl⟩ := exMap_ok (f := fun es => (⟨k, .keyword kw, v⟩ : XEntry) :: es) h
    exact ⟨w, hw, rfl⟩
  obtain ⟨u₁, w, _, hw, rfl⟩ := split h2
  obtain ⟨w₂, hw2, rfl⟩ := head hx.1 hw
  obtain ⟨u₂, w₃, _, hw3, rfl⟩ := split hw2
  obtain ⟨w₄, hw4, rfl⟩ := head hy hw3
  obtain ⟨s1, _, h3⟩ := foldlM_append_ok.1 h3
  obtain ⟨s2, h4, h3⟩ := foldlM_cons_ok.1 h3
  obtain ⟨s3, h5, h3⟩ := foldlM_append_ok.1 h3
  obtain ⟨s4, h6, _⟩ := foldlM_cons_ok.1 h3
  have g1 := hset x hx.2 _ _ (keyword_step hne h4).1
  have g2 := steps_keep h5
  have g3 := (keyword_step hne h6).2 hs
  rcases hkw with rfl | rfl
  · exact absurd (g2.1 g1) (by rw [show s3.node.graph.isSome = false from g3]; decide)
  · exact absurd (g2.2 g1) (by rw [show s3.node.id.isSome = false from g3]; decide)

/-! ## What is wrong -/

theorem xKey_not {c : ACtx} {s : Str} {u : Unit} {t : Option CTerm}
    (h : expandIri E.toIriEnv c (some (.ofStr s)) false (some E.opts.vocab) = .error u) (h' : xKey E c s = .ok t) : False := by
  rw [xKey_iff.1 h'] at h
  cases h

/-- The types of an object. -/
theorem type_step {c tsc : ACtx} {p : Option Str} {m : List (Str × Json)} {b : Bool} {k : Str} {v : Json}
    (h : Done E (.object c tsc p m b)) (hm : (k, v) ∈ m) (hk : KeyMeans E c k (.keyword .type)) :
    (∀ x ∈ itemsIn v, ∃ st st', keyType1 E tsc st x = .ok st') ∨
      (b = false ∧ (∃ e ∈ m, KeyMeans E c e.1 (.keyword .value)) ∧
        ∃ s s', valueType E.toIriEnv E.opts.vocab tsc s v = .ok s') := by
  have node : ∀ {st st'}, entryStep E (unlimited E) c tsc p st ⟨k, .keyword .type, v⟩ = .ok st' →
      ∀ x ∈ itemsIn v, ∃ st st', keyType1 E tsc st x = .ok st' := by
    intro st st' h x hx
    have h' := (keyword_step (by decide) h).1
    exact foldlM_visit (f := keyType1 E tsc) h' (by rw [forceArray_items]; exact hx)
  cases b with
  | true =>
    obtain ⟨st, st', h⟩ := node_step h hm hk (.inl rfl)
    exact .inl (node h)
  | false =>
    obtain ⟨tes, it, es, x, _, _, h3, h4⟩ := h
    have he := xEntries_has h3 hm hk
    cases kindOf h4 with
    | list _ _ _ hi _ =>
      rcases listIndex_all hi _ he with h | h
      · cases h
      · cases h.1
    | set _ hs _ =>
      rcases setEntries_all hs _ he with h | h
      · cases h
      · cases h
    | value hl hv _ =>
      obtain ⟨s, s', hs⟩ := foldlM_visit hv he
      obtain ⟨key, hy, ht⟩ := lastEntry_entry h3 hl
      exact .inr ⟨rfl, ⟨_, hy, ht⟩, s, s', hs⟩
    | node _ _ _ hn =>
      obtain ⟨st, st', h⟩ := foldlM_visit hn he
      exact .inl (node h)

theorem value_type_str {tsc : ACtx} {s s' : ValueState} {v : Json}
    (h : valueType E.toIriEnv E.opts.vocab tsc s v = .ok s') : ∃ x t, v = .str x ∧ TypeMeans E tsc x t ∧
      (t = some (.keyword .json) ∨ ∃ i, t = some (.id (.iri i))) := by
  unfold valueType at h
  split at h
  · split at h
    all_goals first
      | cases h; done
      | exact ⟨_, _, rfl, by assumption, .inl rfl⟩
      | exact ⟨_, _, rfl, by assumption, .inr ⟨_, rfl⟩⟩
  · cases h

theorem key_type_str {tsc : ACtx} {st st' : XState} {v : Json} (h : keyType1 E tsc st v = .ok st') :
    ∃ x t, v = .str x ∧ TypeMeans E tsc x t ∧
      (t = none ∨ ∃ i, t = some (.id i) ∧ (i.isValid = false → E.opts.invalid ≠ .reject)) := by
  unfold keyType1 at h
  split at h
  · obtain ⟨t, h1, h⟩ := exBind_ok h
    refine ⟨_, t, rfl, xIri_iff.1 h1, ?_⟩
    split at h
    · exact .inl rfl
    · refine .inr ⟨_, rfl, fun _ => ?_⟩
      split at h
      · rename_i hk; rw [hk]; decide
      · rename_i hk; rw [hk]; decide
      · cases h
    · rename_i hne
      refine .inr ⟨_, rfl, fun hv => ?_⟩
      rename_i i
      cases i with
      | invalid s => exact absurd rfl (hne s)
      | iri s => cases hv
      | blank s => cases hv
    · cases h
  · cases h

theorem wrong_context {c : ACtx} {p : Option Str} {m : List (Str × Json)} {fm : Bool} {v : Json}
    (h : Done E (.value c p (.obj m) fm)) (hv : ("@context".toList, v) ∈ m) :
    m.filter (fun e => decide (e.1 = "@context".toList)) = [("@context".toList, v)] ∧ ∃ l a b tsc, readCtx E.isRef v = .ok l ∧
      StartsIn E c m fm a ∧ Within E (p.bind c.get) { mode := E.opts.mode, override := true } a b ∧
        E.process b l E.base { mode := E.opts.mode } = .ok tsc := by
  obtain ⟨a, b, tsc, tes, c', ho, _⟩ := value_steps h
  obtain ⟨h1, l, h2, h3⟩ := localContext_one ho.entry hv
  exact ⟨h1, l, a, b, tsc, h2, ho.starts, scopedCtx_ok.1 ho.scope, h3⟩

theorem within_fails {t : TermDef} {l : SCtx} {a b : ACtx} {o : Opts} {x : CtxErr} (hl : t.context = some l)
    (hx : E.process a l t.baseUrl o = .error x) (h : Within E (some t) o a b) : False :=
  scopedCtx_fails hl hx (scopedCtx_ok.2 h)

theorem applies_done {pl : Place} {a : ACtx} {l : SCtx} {b : Option Str} {o : Opts} {x : CtxErr} (h : Done E pl)
    (ha : Applies E pl a l b o) (hx : E.process a l b o = .error x) : False := by
  cases ha with
  | entry hs hw hv hl =>
    obtain ⟨_, l', a', b', tsc, h1, h2, h3, h4⟩ := wrong_context h hv
    rw [hl] at h1
    cases h1
    cases startsIn_unique h2 hs
    cases within_unique h3 hw
    rw [hx] at h4
    cases h4
  | object hs hd hl =>
    obtain ⟨a', b', tsc, tes, c', ho, _⟩ := value_steps h
    cases startsIn_unique ho.starts hs
    have hsc := ho.scope
    rw [Option.bind_some, hd] at hsc
    exact scopedCtx_fails hl hx hsc
  | scalar hk hj hd hl =>
    obtain ⟨y, h⟩ := h
    obtain ⟨c', _, hw, _⟩ := scalar_done hk hj h
    rw [hd] at hw
    exact within_fails hl hx hw
  | type hb ho hap hd hl =>
    obtain ⟨a', b', tsc', tes, c', hoc, h1, h2, _⟩ := value_steps h
    cases hoc.before hb
    unfold typeScoped at h2
    rw [scopedTypes_order h1 ho] at h2
    obtain ⟨s1, h3, h4⟩ := foldlM_append_ok.1 h2
    rw [applied_steps hap] at h3
    cases h3
    obtain ⟨s2, h5, _⟩ := foldlM_cons_ok.1 h4
    rw [hd] at h5
    exact scopedCtx_fails hl hx h5
  | nest hm hk hne hd hl =>
    obtain ⟨st, st', h1⟩ := node_step h hm hk (.inr (by decide))
    have h2 := (keyword_step (by decide) h1).1
    obtain ⟨y, hy⟩ := List.exists_mem_of_ne_nil _ hne
    obtain ⟨t, t', h3⟩ := foldlM_visit (f := nestStep E (unlimited E) _ _ _ _) h2 (a := y) (by rw [forceArray_items]; exact hy)
    unfold nestStep at h3
    obtain ⟨c', h4, _⟩ := exBind_ok h3
    rw [hd] at h4
    exact scopedCtx_fails hl hx h4
  | typeMap hm hk hu hmap ht hi hr hd hl =>
    obtain ⟨os, h1⟩ := map_step h hm hk hu hmap hi
    unfold xMapEntry at h1
    obtain ⟨c', h2, _⟩ := exBind_ok h1
    unfold mapContext at h2
    dsimp only at h2
    rw [if_pos (hasContainer_iff.2 ht), if_pos (by rw [Bool.or_eq_true]; exact .inl (hasContainer_iff.2 ht)), returned_eq hr,
      hd] at h2
    exact scopedCtx_fails hl hx h2

theorem resolved_done {pl : Place} {a : ACtx} {s : Str} {b : Bool} {u : Unit} (h : Done E pl) (hr : Resolved E pl a s b)
    (hx : expandIri E.toIriEnv a (some (.ofStr s)) b (some E.opts.vocab) = .error u) : False := by
  cases hr with
  | first he =>
    obtain ⟨a', b', tsc, tes, c', ho, _⟩ := value_steps h
    obtain ⟨t, ht⟩ := ho.keys _ he
    exact xKey_not hx ht
  | typeKey hb he =>
    obtain ⟨a', b', tsc, tes, c', ho, h1, _⟩ := value_steps h
    cases ho.before hb
    obtain ⟨t, ht⟩ := (typeEntries_split h1).1 _ he
    exact xKey_not hx ht
  | @key _ _ _ _ bb _ he =>
    cases bb with
    | true =>
      obtain ⟨st, st', es, h1, _⟩ := h
      obtain ⟨t, ht⟩ := xEntries_key h1 (mem_sortIf.2 he)
      exact xKey_not hx ht
    | false =>
      obtain ⟨tes, it, es, x, _, _, h1, _⟩ := h
      obtain ⟨t, ht⟩ := xEntries_key h1 he
      exact xKey_not hx ht
  | type hm hk hs =>
    rcases type_step h hm hk with h1 | ⟨_, _, s1, s2, h1⟩
    · obtain ⟨st, st', h2⟩ := h1 _ hs
      obtain ⟨y, t, hy, ht, _⟩ := key_type_str h2
      cases hy
      unfold TypeMeans at ht
      rw [hx] at ht
      cases ht
    · obtain ⟨y, t, rfl, ht, _⟩ := value_type_str h1
      cases List.mem_singleton.1 hs
      unfold TypeMeans at ht
      rw [hx] at ht
      cases ht
  | @reverse _ _ _ _ _ _ _ e hm hk he =>
    obtain ⟨st, st', h1⟩ := reverse_step (k' := e.1) (v := e.2) h hm hk he
    unfold reverseStep at h1
    obtain ⟨t, ht, _⟩ := exBind_ok h1
    exact xKey_not hx ht
  | @map _ _ _ _ _ _ _ _ e hm hk hu hmap he =>
    obtain ⟨os, h1⟩ := map_step (i := e.1) (w := e.2) h hm hk hu hmap he
    unfold xMapEntry at h1
    obtain ⟨c', _, h1⟩ := exBind_ok h1
    obtain ⟨t, h2, _⟩ := exBind_ok h1
    obtain ⟨t', ht, _⟩ := exMap_ok h2
    exact xKey_not hx ht
  | value hk hw hd ht =>
    obtain ⟨y, h⟩ := h
    obtain ⟨c'', o, h1, h2, _⟩ := scalar_done hk (.str _) h
    cases within_unique h1 hw
    unfold expandLiteral at h2
    rw [Option.bind_some, hd] at h2
    dsimp only [Option.bind_some] at h2
    rw [ht] at h2
    dsimp only at h2
    rw [hx] at h2
    cases h2

theorem json_done {c c' : ACtx} {k : Str} {j : Json} {l : Literal} {fm : Bool} (h : Done E (.value c (some k) j fm))
    (hk : k ≠ "@graph".toList) (hj : ScalarAs j l) (hw : Within E (c.get k) { mode := E.opts.mode } c c')
    (hjs : IsJson c' k) : False := by
  obtain ⟨y, h⟩ := h
  obtain ⟨c'', o, h1, h2, _⟩ := scalar_done hk hj h
  cases within_unique h1 hw
  obtain ⟨d, hd, ht⟩ := hjs
  unfold expandLiteral at h2
  rw [Option.bind_some, hd] at h2
  dsimp only [Option.bind_some] at h2
  rw [ht] at h2
  cases h2

theorem key_done {c tsc : ACtx} {p : Option Str} {m : List (Str × Json)} {b : Bool} {k : Str} {v : Json} {i : Id}
    (h : Done E (.object c tsc p m b)) (hm : (k, v) ∈ m) (hk : KeyMeans E c k (.id i))
    (hi : (E.opts.invalid = .reject ∧ i.isValid = false) ∨ (E.opts.allowUndefined = false ∧ ':' ∉ i.str)) : False := by
  obtain ⟨st, st', h1⟩ := node_step h hm hk (.inr (by intro kw _; exact nofun))
  unfold entryStep at h1
  dsimp only at h1
  split at h1
  · rename_i hc
    rcases hi with ⟨h2, h3⟩ | ⟨_, h3⟩
    · cases i with
      | invalid s =>
        unfold idEntry at h1
        dsimp only at h1
        rw [h2] at h1
        cases h1
      | iri s => cases h3
      | blank s => cases h3
    · exact h3 (contains_colon.1 hc)
  · unfold plainEntry at h1
    rcases hi with ⟨h2, h3⟩ | ⟨h2, _⟩
    · rw [h2, h3] at h1
      cases h1
    · rw [h2] at h1
      split at h1
      · cases h1
      · cases h1

theorem reverseKey_done {c : ACtx} {st st' : XState} {k' : Str} {v : Json} {t : Option CTerm}
    (h : reverseStep E (unlimited E) c st (k', v) = .ok st')
    (ht : expandIri E.toIriEnv c (some (.ofStr k')) false (some E.opts.vocab) = .ok t)
    (ho : E.opts.invalid = .reject ∨ E.opts.allowUndefined = false)
    (hi : ∀ i, t = some (.id i) → ':' ∉ i.str ∨ (E.opts.invalid = .reject ∧ i.isValid = false)) : False := by
  have ho' : (decide (E.opts.invalid = .reject) || !E.opts.allowUndefined) = true := by
    rcases ho with h | h
    · rw [h]; rfl
    · rw [h]; simp
  unfold reverseStep at h
  rw [show xKey E c (k', v).1 = .ok t from xKey_iff.2 ht] at h
  change (match t with | some (.keyword _) => _ | some (.id p) => _ | _ => _) = _ at h
  split at h
  · cases h
  · rename_i q
    rcases hi q rfl with h1 | ⟨h1, h2⟩
    · rw [if_neg (by rw [contains_colon]; exact h1), if_pos ho'] at h
      cases h
    · rw [h2, h1] at h
      split at h
      · cases h
      · cases h
  · rw [if_pos ho'] at h
    cases h

theorem index_done {c tsc : ACtx} {p : Option Str} {m : List (Str × Json)} {b : Bool} {k : Str} {v : Json}
    (h : Done E (.object c tsc p m b)) (hm : (k, v) ∈ m) (hk : KeyMeans E c k (.keyword .index))
    (hs : b = true ∨ (∀ e ∈ m, ¬ KeyMeans E c e.1 (.keyword .set))) : ∃ s, v = .str s := by
  have node : ∀ {st st'}, entryStep E (unlimited E) c tsc p st ⟨k, .keyword .index, v⟩ = .ok st' → ∃ s, v = .str s := by
    intro st st' h
    have h' : keyIndex v st = .ok st' := (keyword_step (by decide) h).1
    unfold keyIndex at h'
    split at h'
    · exact ⟨_, rfl⟩
    · cases h'
  cases b with
  | true =>
    obtain ⟨st, st', h⟩ := node_step h hm hk (.inl rfl)
    exact node h
  | false =>
    obtain ⟨tes, it, es, x, _, _, h3, h4⟩ := h
    have he := xEntries_has h3 hm hk
    cases kindOf h4 with
    | list _ _ _ hi _ =>
      rcases listIndex_all hi _ he with h | h
      · cases h
      · exact h.2
    | set hl _ _ =>
      obtain ⟨key, hy, ht⟩ := lastEntry_entry h3 hl
      rcases hs with h | h
      · cases h
      · exact absurd ht (h _ hy)
    | value hl hv _ =>
      obtain ⟨s, s', hs⟩ := foldlM_visit hv he
      cases v with
      | str x => exact ⟨x, rfl⟩
      | _ => cases hs
    | node _ _ _ hn =>
      obtain ⟨st, st', h⟩ := foldlM_visit hn he
      exact node h

theorem null_empty {x : Expanded} (h : x.isNull = true) : x.toList = [] := by
  cases x with
  | null => rfl
  | object o => cases h
  | array l => cases h

theorem reverseTerm_done {c tsc : ACtx} {p : Option Str} {m : List (Str × Json)} {b : Bool} {k : Str} {v : Json} {q : Id}
    {d : TermDef} (h : Done E (.object c tsc p m b)) (hm : (k, v) ∈ m) (hk : KeyMeans E c k (.id q)) (hu : IsUsed E q)
    (hd : c.get k = some d) (hr : d.reverse = true) (hg : ¬ HasContainer c k .graph) (hne : k ≠ "@graph".toList)
    (hs : HasScalar E c k v) : False := by
  obtain ⟨x, st, st', h1, h2⟩ := prop_value h hm hk hu
  have hx : ∃ o ∈ x.toList, ∀ n, o ≠ .node n := by
    unfold propValue at h1
    dsimp only at h1
    split at h1
    · cases h1
      exact ⟨_, List.mem_singleton.2 rfl, nofun⟩
    · cases hs with
      | scalar hj hw hd => cases hj <;> exact hasScalar_done (fm := false) hne (.scalar (by constructor) hw hd) h1
      | item hx hs => exact hasScalar_done (fm := false) hne (.item hx hs) h1
  have hx' : ∃ o ∈ (wrapList (containerOf (c.get k)) x).toList, ∀ n, o ≠ .node n := by
    unfold wrapList
    split
    · exact ⟨_, List.mem_singleton.2 rfl, nofun⟩
    · exact hx
  rw [show wrapGraph (containerOf (c.get k)) (wrapList (containerOf (c.get k)) x) = wrapList (containerOf (c.get k)) x from by
    unfold wrapGraph
    rw [if_neg]
    intro h
    rw [Bool.and_eq_true, Bool.and_eq_true, hasContainer_iff] at h
    exact hg h.1.1] at h2
  obtain ⟨o, ho, hn⟩ := hx'
  unfold addProp at h2
  rw [hd] at h2
  split at h2
  · rename_i h3
    rw [hd] at ho
    rw [null_empty h3] at ho
    cases ho
  · rw [show reverseOf (some d) = true from hr, if_pos rfl] at h2
    unfold addReverse at h2
    obtain ⟨ns, h3, _⟩ := exMap_ok h2
    rw [hd] at ho
    exact asNodes_none h3 ho hn

theorem languageMap_done {c tsc : ACtx} {p : Option Str} {m m' : List (Str × Json)} {b : Bool} {k l : Str} {v x : Json} {q : Id}
    (h : Done E (.object c tsc p m b)) (hm : (k, .obj m') ∈ m) (hk : KeyMeans E c k (.id q)) (hu : IsUsed E q)
    (hc : HasContainer c k .language) (hj : ¬ IsJson c k) (hl : (l, v) ∈ m') (hx : x ∈ itemsIn v) (hn : x ≠ .null)
    (hs : ∀ s, x ≠ .str s) : False := by
  obtain ⟨y, st, st', h1, _⟩ := prop_value h hm hk hu
  unfold propValue at h1
  dsimp only at h1
  rw [if_neg (fun h => hj (isJson_iff.1 h)), if_pos (hasContainer_iff.2 hc)] at h1
  obtain ⟨os, h2, _⟩ := exMap_ok h1
  obtain ⟨r, hr, _⟩ := collectM_visit h2 (mem_sortIf.2 hl)
  obtain ⟨r', hr', _⟩ := collectM_visit hr (a := x) (by rw [forceArray_items]; exact hx)
  cases x with
  | null => exact hn rfl
  | str s => exact hs s rfl
  | _ => cases hr'

theorem two_filtered {α : Type} {P : α → Bool} {l r : List α} {a b : α} (h : l.Perm (a :: b :: r)) (ha : P a = true)
    (hb : P b = true) : 2 ≤ (l.filter P).length := by
  rw [(h.filter P).length_eq, List.filter_cons_of_pos ha, List.filter_cons_of_pos hb, List.length_cons, List.length_cons]
  omega

theorem wrong_done {pl : Place} (h : Done E pl) (hw : Wrong E pl) : False := by
  cases hw with
  | context hv hx =>
    obtain ⟨_, l, _, _, _, h1, _⟩ := wrong_context h hv
    rw [hx] at h1
    cases h1
  | contexts hp =>
    obtain ⟨h1, _⟩ := wrong_context h (hp.mem_iff.2 (List.mem_cons_self ..))
    have h2 := two_filtered (P := fun e => decide (e.1 = "@context".toList)) hp (decide_eq_true rfl) (decide_eq_true rfl)
    rw [h1] at h2
    exact absurd h2 (Nat.not_le.2 Nat.one_lt_two)
  | process ha hx => exact applies_done h ha hx
  | vocab hr hx => exact resolved_done h hr hx
  | json hk hj hw hjs => exact json_done h hk hj hw hjs
  | key hm hk hi => exact key_done h hm hk hi
  | reverseKey hm hk hm' ht ho hi =>
    obtain ⟨st, st', h1⟩ := reverse_step h hm hk hm'
    exact reverseKey_done h1 ht ho hi
  | id hm hk hs =>
    obtain ⟨st, st', h1⟩ := node_step h hm hk (.inr (by decide))
    have h2 : keyId E _ _ _ = _ := (keyword_step (by decide) h1).1
    unfold keyId at h2
    split at h2
    · exact hs _ rfl
    · cases h2
  | index hm hk hs hb =>
    obtain ⟨s, rfl⟩ := index_done h hm hk hb
    exact hs s rfl
  | type hm hk hx hs =>
    rcases type_step h hm hk with h1 | ⟨_, _, s1, s2, h1⟩
    · obtain ⟨st, st', h2⟩ := h1 _ hx
      obtain ⟨y, t, hy, _⟩ := key_type_str h2
      exact hs _ hy
    · obtain ⟨y, t, rfl, _⟩ := value_type_str h1
      exact hs _ (List.mem_singleton.1 hx)
  | typeName hm hk hs ht hi hj =>
    rcases type_step h hm hk with h1 | ⟨hb, ⟨e, he, hev⟩, s1, s2, h1⟩
    · obtain ⟨st, st', h2⟩ := h1 _ hs
      obtain ⟨y, t', hy, ht', h3⟩ := key_type_str h2
      cases hy
      cases ht.symm.trans ht'
      rcases h3 with h3 | ⟨i, h3, h4⟩
      · cases h3
      · cases h3
        exact h4 (hi i rfl).2 (hi i rfl).1
    · obtain ⟨y, t', rfl, ht', h3⟩ := value_type_str h1
      cases List.mem_singleton.1 hs
      cases ht.symm.trans ht'
      rcases h3 with h3 | ⟨i, h3⟩
      · cases h3
        rcases hj with h | h | h
        · exact h rfl
        · rw [hb] at h; cases h
        · exact h e he hev
      · cases h3
        exact absurd (hi _ rfl).2 nofun
  | reverse hm hk hs =>
    obtain ⟨st, st', h1⟩ := node_step h hm hk (.inr (by decide))
    have h2 : keyReverse E _ _ _ _ = _ := (keyword_step (by decide) h1).1
    unfold keyReverse at h2
    split at h2
    · exact hs _ rfl
    · cases h2
  | @nest _ _ _ _ _ _ _ x hm hk hx hs =>
    obtain ⟨st, st', h1⟩ := node_step h hm hk (.inr (by decide))
    have h2 := (keyword_step (by decide) h1).1
    obtain ⟨t, t', h3⟩ := foldlM_visit (f := nestStep E (unlimited E) _ _ _ _) h2 (a := x) (by rw [forceArray_items]; exact hx)
    unfold nestStep at h3
    obtain ⟨c', _, h4⟩ := exBind_ok h3
    split at h4
    · exact hs _ rfl
    · cases h4
  | nestedValue hm hk =>
    obtain ⟨st, st', h1⟩ := node_step h hm hk (.inl rfl)
    have h2 := (keyword_step (by decide) h1).1
    cases h2
  | included hm hk hv hs =>
    obtain ⟨st, st', h1⟩ := node_step h hm hk (.inr (by decide))
    have h2 : keyIncluded E _ _ _ _ = _ := (keyword_step (by decide) h1).1
    unfold keyIncluded at h2
    rw [if_neg (by rw [hv]; decide)] at h2
    obtain ⟨y, h3, h4⟩ := exBind_ok h2
    obtain ⟨ns, h5, _⟩ := exMap_ok h4
    obtain ⟨o, ho, hn⟩ := hasScalar_done (by decide) hs h3
    exact asNodes_none h5 ho hn
  | graphs ht =>
    obtain ⟨e, e', l, hp, h1, h2⟩ := ht
    refine not_twice (.inl rfl) h hp h1 h2 ?_
    intro y _ st st' h3
    obtain ⟨z, _, rfl⟩ := exMap_ok h3
    obtain ⟨n, hv⟩ := st
    cases n
    rfl
  | @ids c _ _ _ _ _ _ _ _ _ _ _ hp h1 h2 hs hs' hi hi' =>
    refine not_twice (.inr rfl) h hp h1 h2 ?_
    have set : ∀ {s i st st'}, expandIri E.toIriEnv c (some (.ofStr s)) true none = .ok (some (.id i)) →
        keyId E c (.str s) st = .ok st' → st'.node.hasKeyword .id = true := by
      intro s i st st' hi h3
      obtain ⟨z, hz, rfl⟩ := exMap_ok h3
      rw [xIri_iff.2 hi] at hz
      cases hz
      obtain ⟨n, hv⟩ := st
      cases n
      rfl
    rintro y (rfl | rfl) st st' h3
    · rw [hs] at h3
      exact set hi h3
    · rw [hs'] at h3
      exact set hi' h3
  | reverseKeyword hm hk hm' hk' =>
    obtain ⟨st, st', h1⟩ := reverse_step h hm hk hm'
    unfold reverseStep at h1
    rw [show xKey E _ _ = .ok _ from xKey_iff.2 hk'] at h1
    cases h1
  | @reverseValue c _ _ _ _ _ _ k' v _ hm hk hm' hk' hu hr hne hs =>
    obtain ⟨st, st', h1⟩ := reverse_step h hm hk hm'
    have h2 := reverse_used hk' hu h1
    unfold reverseProp at h2
    obtain ⟨y, h3, h4⟩ := exBind_ok h2
    rw [if_neg (by
      intro h
      cases hd : c.get k' with
      | none => rw [hd] at h; cases h
      | some d =>
        rw [hd] at h
        rw [show reverseOf (some d) = d.reverse from rfl, hr d hd] at h
        cases h)] at h4
    obtain ⟨ns, h5, _⟩ := exMap_ok h4
    obtain ⟨o, ho, hn⟩ := hasScalar_done hne hs h3
    exact asNodes_none h5 ho hn
  | reverseTerm hm hk hu hd hr hg hne hs => exact reverseTerm_done h hm hk hu hd hr hg hne hs
  | languageMap hm hk hu hc hj hl hx hn hs => exact languageMap_done h hm hk hu hc hj hl hx hn hs
  | list hp1 hp2 hm hk hm' hk' ht1 ht2 =>
    obtain ⟨tes, it, es, x, _, _, h3, h4⟩ := h
    have he := xEntries_has h3 hm hk
    have he' := xEntries_has h3 hm' hk'
    cases kindOf h4 with
    | list _ _ _ hi _ =>
      rcases listIndex_all hi _ he' with h | h
      · exact ht1 h
      · exact ht2 h.1
    | set _ hs _ => rcases setEntries_all hs _ he with h | h <;> cases h
    | value _ hv _ =>
      obtain ⟨kw, hkw, h⟩ := valueSteps_each hv he
      cases h
      exact absurd hkw (by decide)
    | node h1 _ _ _ =>
      rcases h1 with h1 | h1
      · unfold noProp at h1
        rw [Bool.or_eq_true, decide_eq_true_eq, Option.isNone_iff_eq_none] at h1
        exact h1.elim hp1 hp2
      · obtain ⟨v', h2⟩ := lastEntry_some h3 hm hk
        rw [h1] at h2
        cases h2
  | set hm hk hm' hk' ht1 ht2 =>
    obtain ⟨tes, it, es, x, _, _, h3, h4⟩ := h
    have he := xEntries_has h3 hm hk
    have he' := xEntries_has h3 hm' hk'
    cases kindOf h4 with
    | list _ _ _ hi _ =>
      rcases listIndex_all hi _ he with h | h
      · cases h
      · cases h.1
    | set _ hs _ =>
      rcases setEntries_all hs _ he' with h | h
      · exact ht2 h
      · exact ht1 h
    | value _ hv _ =>
      obtain ⟨kw, hkw, h⟩ := valueSteps_each hv he
      cases h
      exact absurd hkw (by decide)
    | node _ h1 _ _ =>
      obtain ⟨v', h2⟩ := lastEntry_some h3 hm hk
      rw [h1] at h2
      cases h2
  | value hm hk hv =>
    obtain ⟨tes, it, es, x, h1, h2, h3, h4⟩ := h
    have he := xEntries_has h3 hm hk
    cases kindOf h4 with
    | list _ _ _ hi _ =>
      rcases listIndex_all hi _ he with h | h
      · cases h
      · cases h.1
    | set _ hs _ => rcases setEntries_all hs _ he with h | h <;> cases h
    | value hl hs hr =>
      refine valueWrong_done h3 hl (fun hno => ?_) hs hr hv
      obtain ⟨_, fs, rfl, hf⟩ := typeEntries_split h1
      have h5 : fs = [] := List.perm_nil.1 (hf [] _ (.refl _) (by simp) hno)
      subst h5
      cases h2
      rfl
    | node _ _ h1 _ =>
      obtain ⟨v', h2⟩ := lastEntry_some h3 hm hk
      rw [h1] at h2
      cases h2

end JsonLd
