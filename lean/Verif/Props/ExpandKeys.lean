import Verif.Props.ExpandEntries
/-!
# C60: the keywords of a node
-/

namespace JsonLd.Props
open JsonLd.Spec

/-- The entry gives the node an identifier or a graph. -/
inductive GivesKey (E : XEnv) (c : ACtx) : Keyword → Json → Prop
  | id (s t) : expandIri E.toIriEnv c (some (.ofStr s)) true none = .ok (some t) → t ≠ .null →
      GivesKey E c .id (.str s)
  | graph (v) : GivesKey E c .graph v

private theorem GivesKey.keys {E : XEnv} {c : ACtx} {k : Keyword} {v : Json} (h : GivesKey E c k v) :
    k = .id ∨ k = .graph := by cases h <;> simp

/-- The node has an identifier, or a graph. -/
private def HasKey (k : Keyword) (st : XState) : Prop :=
  (k = .id ∧ st.node.id.isSome = true) ∨ (k = .graph ∧ st.node.graph.isSome = true)

private theorem HasKey.colliding {k : Keyword} {st : XState} (h : HasKey k st) :
    st.node.hasKeyword k = true ∧ k ≠ .included ∧ k ≠ .type ∧ k ≠ .context := by
  rcases h with ⟨rfl, h⟩ | ⟨rfl, h⟩
  · exact ⟨h, by decide, by decide, by decide⟩
  · exact ⟨h, by decide, by decide, by decide⟩

private theorem HasKey.step {k : Keyword} {st st' : XState} (h : HasKey k st)
    (h1 : k = .id → st'.node.id = st.node.id) (h2 : k = .graph → st'.node.graph = st.node.graph) : HasKey k st' := by
  rcases h with ⟨rfl, h⟩ | ⟨rfl, h⟩
  · exact .inl ⟨rfl, by rw [h1 rfl]; exact h⟩
  · exact .inr ⟨rfl, by rw [h2 rfl]; exact h⟩

private theorem foldlM_ok {α : Type} {P : XState → Prop} {f : XState → α → Except XErr XState} {l : List α}
    (hf : ∀ a ∈ l, ∀ s s', P s → f s a = .ok s' → P s') {s s' : XState} (hs : P s) (h : l.foldlM f s = .ok s') :
    P s' := by
  induction l generalizing s with
  | nil => cases h; exact hs
  | cons a l ih =>
    rw [List.foldlM_cons] at h
    obtain ⟨s1, h1, h2⟩ := exBind_ok h
    exact ih (fun b hb => hf b (by simp [hb])) (hf a (by simp) s s1 hs h1) h2

section
variable {E : XEnv}

private theorem addProp_key {k : Keyword} {d : Option TermDef} {p : Id} {y : Expanded} {st st' : XState}
    (hs : HasKey k st) (h : addProp d p y st = .ok st') : HasKey k st' := by
  obtain ⟨⟨x, i, ty, g, inc, ps, rv⟩, b⟩ := st
  unfold addProp at h
  split at h
  · cases h; exact hs
  · split at h
    · obtain ⟨ns, _, rfl⟩ := exMap_ok h
      exact hs.step (fun _ => rfl) fun _ => rfl
    · cases h; exact hs.step (fun _ => rfl) fun _ => rfl

private theorem propEntry_key {R : XRec} {c : ACtx} {k : Keyword} {key : Str} {p : Id} {v : Json} {st st' : XState}
    (hs : HasKey k st) (h : propEntry E R c key p v st = .ok st') : HasKey k st' := by
  unfold propEntry at h
  obtain ⟨y, _, h⟩ := exBind_ok h
  exact addProp_key hs h

private theorem reverse_key {R : XRec} {c : ACtx} {k : Keyword} {e : Str × Json} {st st' : XState}
    (hs : HasKey k st) (h : reverseStep E R c st e = .ok st') : HasKey k st' := by
  have prop : ∀ p : Id, reverseProp R c p e.1 e.2 st = .ok st' → HasKey k st' := by
    intro p h
    obtain ⟨⟨x, i, ty, g, inc, ps, rv⟩, b⟩ := st
    unfold reverseProp at h
    obtain ⟨y, _, h⟩ := exBind_ok h
    split at h
    · cases h; exact hs.step (fun _ => rfl) fun _ => rfl
    · obtain ⟨ns, _, rfl⟩ := exMap_ok h
      exact hs.step (fun _ => rfl) fun _ => rfl
  unfold reverseStep at h
  obtain ⟨t, _, h⟩ := exBind_ok h
  split at h
  · cases h
  · split at h
    · split at h
      · exact prop _ h
      · split at h
        · exact prop _ h
        · cases h; exact hs
        · cases h
    · split at h
      · cases h
      · cases h; exact hs
  · split at h
    · cases h
    · cases h; exact hs

private theorem type_key {tsc : ACtx} {k : Keyword} {v : Json} {st st' : XState}
    (hs : HasKey k st) (h : keyType1 E tsc st v = .ok st') : HasKey k st' := by
  have push : ∀ i, HasKey k { st with node := st.node.pushType i } := by
    intro i
    obtain ⟨⟨x, i, ty, g, inc, ps, rv⟩, b⟩ := st
    exact hs.step (fun _ => rfl) fun _ => rfl
  unfold keyType1 at h
  split at h
  · obtain ⟨t, _, h⟩ := exBind_ok h
    split at h
    · cases h; exact hs
    · split at h
      · cases h; exact push _
      · cases h; exact hs
      · cases h
    · cases h; exact push _
    · cases h
  · cases h

private theorem step_key {R : XRec} (hR : ∀ {st st' c tsc prop es k}, HasKey k st →
    R.entries st c tsc prop es = .ok st' → HasKey k st') {c tsc : ACtx} {prop : Option Str} {k : Keyword} {e : XEntry}
    {st st' : XState} (hs : HasKey k st) (h : entryStep E R c tsc prop st e = .ok st') : HasKey k st' := by
  unfold entryStep at h
  split at h
  · cases h; exact hs
  · cases h; exact hs
  · rename_i k' _ _
    split at h
    · cases h
    · split at h
      · cases h
      · rename_i hn
        have hne : k' ≠ k := by
          rintro rfl
          obtain ⟨h1, h2, h3, _⟩ := hs.colliding
          exact hn (by simp [h1, h2, h3])
        unfold keywordEntry at h
        obtain ⟨⟨x, i, ty, g, inc, ps, rv⟩, b⟩ := st
        split at h
        · -- @id
          unfold keyId at h
          split at h
          · obtain ⟨t, _, rfl⟩ := exMap_ok h
            exact hs.step (fun hk => absurd hk.symm hne) fun _ => rfl
          · cases h
        · exact foldlM_ok (fun _ _ _ _ hs h => type_key hs h) hs h
        · unfold keyGraph at h
          obtain ⟨t, _, rfl⟩ := exMap_ok h
          exact hs.step (fun _ => rfl) fun hk => absurd hk.symm hne
        · unfold keyIncluded at h
          split at h
          · cases h; exact hs
          · obtain ⟨t, _, h⟩ := exBind_ok h
            obtain ⟨ns, _, rfl⟩ := exMap_ok h
            exact hs.step (fun _ => rfl) fun _ => rfl
        · cases h; exact hs.step (fun _ => rfl) fun _ => rfl
        · cases h; exact hs.step (fun _ => rfl) fun _ => rfl
        · unfold keyIndex at h
          split at h
          · cases h; exact hs.step (fun _ => rfl) fun _ => rfl
          · cases h
        · unfold keyReverse at h
          split at h
          · exact foldlM_ok (fun _ _ _ _ hs h => reverse_key hs h) hs h
          · cases h
        · refine foldlM_ok (fun w _ s s' hs h => ?_) hs h
          unfold nestStep at h
          obtain ⟨c', _, h⟩ := exBind_ok h
          split at h
          · obtain ⟨es, _, h⟩ := exBind_ok h
            exact hR hs h
          · cases h
        · cases h
        · cases h; exact hs
  · split at h
    · unfold idEntry at h
      split at h
      · split at h
        · exact propEntry_key hs h
        · cases h; exact hs
        · cases h
      · exact propEntry_key hs h
    · unfold plainEntry at h
      split at h
      · cases h
      · split at h
        · cases h
        · cases h; exact hs

private theorem rec_key (n : Nat) : ∀ {st st' c tsc prop es k}, HasKey k st →
    (xrecN E n).entries st c tsc prop es = .ok st' → HasKey k st' := by
  induction n with
  | zero => intro st st' c tsc prop es k _ h; cases h
  | succ n ih =>
    intro st st' c tsc prop es k hs h
    exact foldlM_ok (fun e _ s s' hs h => step_key ih hs h) hs h

private theorem fold_key {c tsc : ACtx} {prop : Option Str} {k : Keyword} {es : List XEntry} {st st' : XState}
    (hs : HasKey k st) (h : es.foldlM (entryStep E (unlimited E) c tsc prop) st = .ok st') : HasKey k st' :=
  foldlM_ok (f := entryStep E (unlimited E) c tsc prop)
    (fun _ _ _ _ hs h => step_key (R := unlimited E) (fun hs h => rec_key _ hs h) hs h) hs h

/-- The first of two entries sets the key. -/
private theorem gives {c tsc : ACtx} {prop : Option Str} {k : Keyword} {key : Str} {v : Json} {st st' : XState}
    (hg : GivesKey E c k v) (h : entryStep E (unlimited E) c tsc prop st ⟨key, .keyword k, v⟩ = .ok st') :
    HasKey k st' := by
  obtain ⟨⟨x, i, ty, g, inc, ps, rv⟩, b⟩ := st
  cases hg with
  | id s t ht hn =>
    change (if prop = some "@reverse".toList then _ else if _ then _ else keyId E c (.str s) _) = _ at h
    split at h
    · cases h
    · split at h
      · cases h
      · change (xIri E c s true none).map _ = _ at h
        rw [xIri_iff.2 ht] at h
        cases h
        refine .inl ⟨rfl, ?_⟩
        cases t with
        | null => exact absurd rfl hn
        | id i => rfl
        | keyword k => rfl
  | graph =>
    change (if prop = some "@reverse".toList then _ else if _ then _ else keyGraph (unlimited E) c v _) = _ at h
    split at h
    · cases h
    · split at h
      · cases h
      · unfold keyGraph at h
        obtain ⟨y, _, rfl⟩ := exMap_ok h
        exact .inr ⟨rfl, rfl⟩

/-- The second collides with it. -/
private theorem collides {c tsc : ACtx} {prop : Option Str} {k : Keyword} {key : Str} {v : Json} {st st' : XState}
    (hs : HasKey k st) : entryStep E (unlimited E) c tsc prop st ⟨key, .keyword k, v⟩ ≠ .ok st' := by
  intro h
  obtain ⟨h1, h2, h3, h4⟩ := hs.colliding
  unfold entryStep at h
  split at h
  · rename_i he; cases he
  · rename_i he; cases he; exact h4 rfl
  · rename_i k' _ he
    cases he
    split at h
    · cases h
    · rw [if_pos (by simp [h1, h2, h3])] at h
      cases h
  · rename_i he; cases he

end

private theorem xEntries_split {E : XEnv} {c : ACtx} {m m' : List (Str × Json)} {e : Str × Json} {t : CTerm}
    (hk : xKey E c e.1 = .ok (some t)) {es : List XEntry} (h : xEntries E c (m ++ e :: m') = .ok es) :
    ∃ es1 es2, es = es1 ++ ⟨e.1, t, e.2⟩ :: es2 ∧ xEntries E c m' = .ok es2 := by
  induction m generalizing es with
  | nil =>
    obtain ⟨k, v⟩ := e
    change (xKey E c k).bind _ = _ at h
    rw [hk] at h
    obtain ⟨es2, h2, rfl⟩ := exMap_ok h
    exact ⟨[], es2, rfl, h2⟩
  | cons a m ih =>
    obtain ⟨k, v⟩ := a
    obtain ⟨u, _, h⟩ := exBind_ok h
    obtain ⟨es', h', rfl⟩ := exMap_ok h
    obtain ⟨es1, es2, rfl, h3⟩ := ih h'
    cases u with
    | none => exact ⟨es1, es2, rfl, h3⟩
    | some u => exact ⟨⟨k, u, v⟩ :: es1, es2, rfl, h3⟩

/-- Objects with an entry for `@id`, `@graph` or `@reverse` are expanded as nodes, if at all. -/
private theorem object_node {E : XEnv} {c c' : ACtx} {prop : Option Str} {fm : Bool} {m m' : List (Str × Json)}
    (e : Str × Json) (hc : KeyContext E c prop (m ++ e :: m') fm c') {k : Keyword}
    (hk : k = .id ∨ k = .graph ∨ k = .reverse)
    (he : xKey E c' e.1 = .ok (some (.keyword k))) {x : Expanded}
    (h : expandElement E c prop (.obj (m ++ e :: m')) fm = .ok x) :
    ∃ (es es' : List XEntry) (tsc : ACtx) (s1 s2 s3 : XState), xEntries E c' m' = .ok es' ∧
      es.foldlM (entryStep E (unlimited E) c' tsc prop) startState = .ok s1 ∧
      entryStep E (unlimited E) c' tsc prop s1 ⟨e.1, .keyword k, e.2⟩ = .ok s2 ∧
      es'.foldlM (entryStep E (unlimited E) c' tsc prop) s2 = .ok s3 := by
  obtain ⟨tsc, tes, h1, h2, h3⟩ := hc
  rw [C49_unfold] at h
  change elemObj E (unlimited E) c prop _ fm = .ok x at h
  unfold elemObj at h
  rw [h1] at h
  change (typeEntries E tsc _).bind _ = _ at h
  rw [h2] at h
  change (typeScoped E tsc tes).bind _ = _ at h
  rw [h3] at h
  change (inputType E c' tes).bind _ = _ at h
  obtain ⟨it, _, h⟩ := exBind_ok h
  obtain ⟨es, h4, h⟩ := exBind_ok h
  obtain ⟨es1, es2, rfl, h5⟩ := xEntries_split he h4
  have hmem : (⟨e.1, .keyword k, e.2⟩ : XEntry) ∈ es1 ++ ⟨e.1, .keyword k, e.2⟩ :: es2 := by simp
  generalize hes : es1 ++ (⟨e.1, .keyword k, e.2⟩ : XEntry) :: es2 = es at *
  unfold elemKind at h
  split at h
  · -- lists
    unfold elemList at h
    obtain ⟨i, hi, _⟩ := exBind_ok h
    have : ∀ (l : List XEntry) i j, listIndex i l = .ok j → ∀ e ∈ l, e.term = .keyword .index ∨ e.term = .keyword .list := by
      intro l
      induction l with
      | nil => intro i j _ e he; cases he
      | cons a l ih =>
        intro i j h e he
        unfold listIndex at h
        split at h
        · rename_i ha
          split at h
          · rcases List.mem_cons.1 he with rfl | he
            · exact .inl ha
            · exact ih _ _ h e he
          · cases h
        · rename_i ha
          rcases List.mem_cons.1 he with rfl | he
          · exact .inr ha
          · exact ih _ _ h e he
        · cases h
    rcases this es _ _ hi _ hmem with h | h <;> rcases hk with rfl | rfl | rfl <;> cases h
  · -- sets
    obtain ⟨_, hi, _⟩ := exBind_ok h
    unfold setEntries at hi
    split at hi
    · rename_i hall
      have := List.all_eq_true.1 hall _ hmem
      rcases hk with rfl | rfl | rfl <;> simp at this
    · cases hi
  · -- values
    unfold elemValue expandValue at h
    have : ∀ (l : List XEntry) s s', l.foldlM (valueStep E.toIriEnv E.opts.vocab tsc) s = .ok s' →
        ⟨e.1, .keyword k, e.2⟩ ∉ l := by
      intro l
      induction l with
      | nil => simp
      | cons a l ih =>
        intro s s' h hm
        rw [List.foldlM_cons] at h
        cases ha : valueStep E.toIriEnv E.opts.vocab tsc s a with
        | error x => rw [ha] at h; cases h
        | ok s1 =>
          rw [ha] at h
          rcases List.mem_cons.1 hm with rfl | hm
          · rcases hk with rfl | rfl | rfl <;> cases ha
          · exact ih _ _ h hm
    cases hf : es.foldlM (valueStep E.toIriEnv E.opts.vocab tsc)
        { isJson := decide (it = some (.keyword .json)) } with
    | error x => rw [hf] at h; cases h
    | ok s => exact absurd hmem (this es _ _ hf)
  · -- nodes
    unfold expandNode entriesBody at h
    obtain ⟨st, h, _⟩ := exMap_ok h
    rw [← hes, List.foldlM_append] at h
    obtain ⟨s1, hs1, h⟩ := exBind_ok h
    rw [List.foldlM_cons] at h
    obtain ⟨s2, hs2, h⟩ := exBind_ok h
    exact ⟨es1, es2, tsc, s1, s2, st, h5, hs1, hs2, h⟩

/-- C60: an object whose keys stand twice for `@id`, or for `@graph`, is rejected. (`c'` is the context with which
the keys are expanded.) -/
theorem C60_collision (E : XEnv) (c c' : ACtx) (prop : Option Str) (fm : Bool) (m m' m'' : List (Str × Json))
    (k : Keyword) (e e' : Str × Json) (hc : KeyContext E c prop (m ++ e :: (m' ++ e' :: m'')) fm c')
    (he : expandIri E.toIriEnv c' (some (.ofStr e.1)) false (some E.opts.vocab) = .ok (some (.keyword k)))
    (he' : expandIri E.toIriEnv c' (some (.ofStr e'.1)) false (some E.opts.vocab) = .ok (some (.keyword k)))
    (hg : GivesKey E c' k e.2) (x : Expanded) :
    expandElement E c prop (.obj (m ++ e :: (m' ++ e' :: m''))) fm ≠ .ok x := by
  intro h
  have hk : k = .id ∨ k = .graph ∨ k = .reverse := by rcases hg.keys with h | h <;> simp [h]
  obtain ⟨es, es', tsc, s1, s2, s3, h1, _, h2, h3⟩ := object_node e hc hk (xKey_iff.2 he) h
  obtain ⟨es1, es2, rfl, _⟩ := xEntries_split (xKey_iff.2 he') h1
  rw [List.foldlM_append] at h3
  obtain ⟨s4, hs4, h3⟩ := exBind_ok h3
  rw [List.foldlM_cons] at h3
  obtain ⟨s5, hs5, h3⟩ := exBind_ok h3
  exact collides (fold_key (gives hg h2) hs4) hs5

/-- C60: an object whose reverse entry holds keywords is rejected. -/
theorem C60_reverse (E : XEnv) (c c' : ACtx) (prop : Option Str) (fm : Bool) (m m' : List (Str × Json))
    (key : Str) (r : List (Str × Json)) (hc : KeyContext E c prop (m ++ (key, .obj r) :: m') fm c')
    (hk : expandIri E.toIriEnv c' (some (.ofStr key)) false (some E.opts.vocab) = .ok (some (.keyword .reverse)))
    (e : Str × Json) (he : e ∈ r) (k : Keyword)
    (hr : expandIri E.toIriEnv c' (some (.ofStr e.1)) false (some E.opts.vocab) = .ok (some (.keyword k)))
    (x : Expanded) : expandElement E c prop (.obj (m ++ (key, .obj r) :: m')) fm ≠ .ok x := by
  intro h
  obtain ⟨es, es', tsc, s1, s2, s3, _, _, h2, _⟩ := object_node (key, .obj r) hc (.inr (.inr rfl)) (xKey_iff.2 hk) h
  change (if prop = some "@reverse".toList then _ else if _ then _ else keyReverse E (unlimited E) c' (.obj r) s1) = _
    at h2
  split at h2
  · cases h2
  · split at h2
    · cases h2
    · change (sortIf E.opts.ordered Prod.fst r).foldlM (reverseStep E (unlimited E) c') s1 = _ at h2
      have hmem : e ∈ sortIf E.opts.ordered Prod.fst r := (sortIf_perm_entries ..).mem_iff.2 he
      obtain ⟨r1, r2, hr'⟩ := List.append_of_mem hmem
      rw [hr', List.foldlM_append] at h2
      obtain ⟨s4, _, h3⟩ := exBind_ok h2
      rw [List.foldlM_cons] at h3
      obtain ⟨s5, h5, h3⟩ := exBind_ok h3
      unfold reverseStep at h5
      rw [xKey_iff.2 hr] at h5
      cases h5

/-- C60: an object with nothing but a language or a direction is dropped. -/
theorem C60_dropped (E : XEnv) (c : ACtx) (prop : Option Str) (hq : prop ≠ some "@reverse".toList)
    (hs : ∀ k, prop = some k → Unscoped c k) (fm : Bool) (hr : fm = true ∨ c.previous = none)
    (m : List (Str × Json)) (hne : m ≠ []) (hm : ∀ e ∈ m,
      expandIri E.toIriEnv c (some (.ofStr e.1)) false (some E.opts.vocab) = .ok (some (.keyword .language)) ∨
      expandIri E.toIriEnv c (some (.ofStr e.1)) false (some E.opts.vocab) = .ok (some (.keyword .direction))) :
    expandElement E c prop (.obj m) fm = .ok .null := by
  obtain ⟨es, hes, hterm⟩ : ∃ es : List XEntry, KindKeys E c m es ∧
      ∀ e ∈ es, e.term = .keyword .language ∨ e.term = .keyword .direction := by
    clear hne
    induction m with
    | nil => exact ⟨[], ⟨rfl, by simp, by simp⟩, by simp⟩
    | cons e m ih =>
      obtain ⟨es, ⟨h1, h2, h3⟩, h4⟩ := ih fun e he => hm e (by simp [he])
      obtain ⟨k, hk, hx⟩ : ∃ k : Keyword, (k = .language ∨ k = .direction) ∧ xKey E c e.1 = .ok (some (.keyword k)) := by
        rcases hm e (by simp) with h | h
        · exact ⟨.language, .inl rfl, xKey_iff.2 h⟩
        · exact ⟨.direction, .inr rfl, xKey_iff.2 h⟩
      refine ⟨⟨e.1, .keyword k, e.2⟩ :: es, ⟨by rw [h1]; rfl, ?_, ?_⟩, ?_⟩
      · intro a ha
        rcases List.mem_cons.1 ha with rfl | ha
        · exact hx
        · exact h2 a ha
      · intro a ha
        rcases List.mem_cons.1 ha with rfl | ha
        · rcases hk with rfl | rfl <;> exact ⟨nofun, nofun⟩
        · exact h3 a ha
      · intro a ha
        rcases List.mem_cons.1 ha with rfl | ha
        · rcases hk with rfl | rfl <;> simp
        · exact h4 a ha
  rw [object_kind hes hr fun k d h => hs k h d, kind_node]
  · have hne' : es ≠ [] := by
      rintro rfl
      exact hne hes.obj
    unfold expandNode entriesBody
    have step : ∀ e ∈ es, ∀ b, entryStep E (unlimited E) c c prop ⟨.mk none none none none none [] none, b⟩ e =
        .ok ⟨.mk none none none none none [] none, true⟩ := by
      intro e he b
      obtain ⟨key, t, v⟩ := e
      rcases hterm _ he with h | h <;> dsimp only at h <;> subst h
      · show (if _ then _ else if _ then _ else Except.ok _) = _
        rw [if_neg hq, if_neg (by simp [Node.hasKeyword])]
      · show (if _ then _ else if _ then _ else Except.ok _) = _
        rw [if_neg hq, if_neg (by simp [Node.hasKeyword])]
    have all : ∀ l : List XEntry, (∀ e ∈ l, e ∈ es) → l.foldlM (entryStep E (unlimited E) c c prop)
        ⟨.mk none none none none none [] none, true⟩ = .ok ⟨.mk none none none none none [] none, true⟩ := by
      intro l
      induction l with
      | nil => intro _; rfl
      | cons e l ih =>
        intro h
        rw [List.foldlM_cons, step e (h e (by simp))]
        exact ih fun a ha => h a (by simp [ha])
    cases es with
    | nil => exact absurd rfl hne'
    | cons e es =>
      rw [List.foldlM_cons, step e (by simp)]
      show Except.map _ (List.foldlM _ _ es) = _
      rw [all es fun a ha => by simp [ha]]
      rfl
  · intro e he
    rcases hterm e he with h | h <;> rw [h] <;> exact ⟨nofun, nofun, nofun⟩

private theorem step_types {E : XEnv} {c tsc : ACtx} {prop : Option Str} (hq : prop ≠ some "@reverse".toList)
    (hm : E.opts.mode ≠ .v10) {ts : List Str} {is : List Id} (h : List.Forall₂ (IsType E tsc) ts is)
    {j : Json} (hj : itemsIn j = ts.map Json.str) {key : Str} (ty : Option (List Id)) :
    entryStep E (unlimited E) c tsc prop ⟨.mk none none ty none none [] none, false⟩ ⟨key, .keyword .type, j⟩ =
      .ok ⟨.mk none none (if ts = [] then ty else some (ty.getD [] ++ is)) none none [] none, false⟩ := by
  show (if prop = some "@reverse".toList then _ else if _ then _ else
    (forceArray j).foldlM (keyType1 E tsc) _) = _
  rw [if_neg hq, if_neg (by simp [hm])]
  rw [show forceArray j = itemsIn j by cases j <;> rfl, hj]
  have step : ∀ t i, IsType E tsc t i → ∀ st, keyType1 E tsc st (.str t) =
      .ok { st with node := st.node.pushType i } := by
    intro t i hi st
    show (xIri E tsc t true (some E.opts.vocab)).bind _ = _
    rw [xIri_iff.2 hi.expands]
    cases i with
    | invalid s =>
      rcases hi.admitted with h | h
      · cases h
      · show (match E.opts.invalid with
          | .keep => Except.ok _
          | .drop => .ok st
          | .reject => .error XErr.invalidTypeValue) = _
        rw [h]
    | iri s => rfl
    | blank s => rfl
  clear hj
  induction h generalizing ty with
  | nil => rfl
  | cons h1 _ ih =>
    rename_i t i ts is _
    rw [List.map_cons, List.foldlM_cons, step _ _ h1]
    show List.foldlM (keyType1 E tsc) ⟨.mk none none (some (ty.getD [] ++ [i])) none none [] none, false⟩ _ = _
    rw [ih, if_neg (show ¬ t :: ts = [] by simp)]
    split
    · rename_i hf h0
      subst h0
      cases hf
      rfl
    · simp

/-- C60: in JSON-LD 1.1 the types of several `@type` entries are put together, in the order of the entries. -/
theorem C60_types (E : XEnv) (hv : E.opts.vocab ≠ .reject) (hmode : E.opts.mode ≠ .v10) (c : ACtx)
    (hs : ∀ k, Unscoped c k) (prop : Option Str) (hq : prop ≠ some "@reverse".toList) (fm : Bool)
    (hr : fm = true ∨ c.previous = none) (m : List (Str × Json)) (iss : List (List Id))
    (hm : List.Forall₂ (fun e is =>
      expandIri E.toIriEnv c (some (.ofStr e.1)) false (some E.opts.vocab) = .ok (some (.keyword .type)) ∧
      ∃ ts, itemsIn e.2 = ts.map Json.str ∧ List.Forall₂ (IsType E c) ts is) m iss)
    (hne : iss.flatten ≠ []) :
    expandElement E c prop (.obj m) fm =
      .ok (.object (.node (.mk none none (some iss.flatten) none none [] none))) := by
  have hkeys : ∀ e ∈ m, xKey E c e.1 = .ok (some (.keyword .type)) := by
    clear hne
    intro e he
    induction hm with
    | nil => cases he
    | cons h1 _ ih =>
      rcases List.mem_cons.1 he with rfl | he
      · exact xKey_iff.2 h1.1
      · exact ih he
  have hctx : objContext E c prop m fm = .ok c := by
    obtain ⟨r, hr', _⟩ := prelim_total hv c m
    unfold objContext
    rw [hr']
    show (scopedCtx E (prop.bind c.get) (revert c m fm r) _).bind _ = _
    have : revert c m fm r = c := by
      unfold revert
      split
      · rename_i p hc
        rcases hr with rfl | hr
        · rfl
        · rw [hr] at hc; cases hc
      · rfl
    rw [this, scopedCtx_plain fun d hd => by
      cases prop with
      | none => cases hd
      | some q => exact hs q d hd]
    show localContext E c _ = _
    unfold localContext
    rw [List.filter_eq_nil_iff.2]
    intro e he
    simp only [decide_eq_true_eq]
    intro h
    have := hkeys e he
    rw [h, context_key] at this
    cases this
  have hts : ∀ tes, typeScoped E c tes = .ok c := by
    intro tes
    unfold typeScoped
    induction scopedTypes tes with
    | nil => rfl
    | cons t l ih =>
      rw [List.foldlM_cons, scopedCtx_plain fun d hd => hs t d hd]
      exact ih
  have htes : ∃ tes, typeEntries E c m = .ok tes := by
    have : ∃ x, collectM (fun e : Str × Json => (xKey E c e.1).map fun t =>
        if t = some (.keyword .type) then [e] else []) m = .ok x := by
      clear hctx hm hne
      induction m with
      | nil => exact ⟨[], rfl⟩
      | cons e m ih =>
        obtain ⟨x, hx⟩ := ih fun e he => hkeys e (by simp [he])
        refine ⟨_, collectM_cons.2 ⟨[e], x, ?_, hx, rfl⟩⟩
        rw [hkeys e (by simp)]
        rfl
    obtain ⟨x, hx⟩ := this
    exact ⟨_, by unfold typeEntries; rw [hx]; rfl⟩
  obtain ⟨tes, htes⟩ := htes
  have hit : ∃ it, inputType E c tes = .ok it := by
    unfold inputType
    split
    · exact ⟨_, rfl⟩
    · split
      · exact xKey_total hv c _
      · exact ⟨_, rfl⟩
  obtain ⟨it, hit⟩ := hit
  have hes : xEntries E c m = .ok (m.map fun e => ⟨e.1, .keyword .type, e.2⟩) := by
    clear hctx hm hne htes
    induction m with
    | nil => rfl
    | cons e m ih =>
      obtain ⟨k, v⟩ := e
      show (xKey E c k).bind _ = _
      rw [hkeys (k, v) (by simp)]
      show (xEntries E c m).map _ = _
      rw [ih fun e he => hkeys e (by simp [he])]
      rfl
  rw [C49_unfold]
  show elemObj E (unlimited E) c prop m fm = _
  unfold elemObj
  rw [hctx]
  show (typeEntries E c m).bind _ = _
  rw [htes]
  show (typeScoped E c tes).bind _ = _
  rw [hts]
  show (inputType E c tes).bind _ = _
  rw [hit]
  show (xEntries E c m).bind _ = _
  rw [hes]
  show elemKind E (unlimited E) c c prop it _ = _
  have kind : ∀ es : List XEntry, (∀ e ∈ es, e.term = .keyword .type) →
      elemKind E (unlimited E) c c prop it es = expandNode E (unlimited E) c c prop es := by
    intro es h
    refine kind_node fun e he => ?_
    rw [h e he]
    exact ⟨nofun, nofun, nofun⟩
  rw [kind]
  · unfold expandNode entriesBody
    have all : ∀ ty : Option (List Id), (m.map fun e => (⟨e.1, .keyword .type, e.2⟩ : XEntry)).foldlM
        (entryStep E (unlimited E) c c prop) ⟨.mk none none ty none none [] none, false⟩ =
        .ok ⟨.mk none none (if iss.flatten = [] then ty else some (ty.getD [] ++ iss.flatten))
          none none [] none, false⟩ := by
      clear hctx hkeys htes hes hne
      induction hm with
      | nil => intro ty; rfl
      | cons h1 _ ih =>
        rename_i e is m iss _
        intro ty
        obtain ⟨_, ts, h2, h3⟩ := h1
        rw [List.map_cons, List.foldlM_cons, step_types hq hmode h3 h2]
        show List.foldlM _ _ _ = _
        rw [ih]
        cases h3 with
        | nil => rfl
        | cons h4 h5 =>
          rename_i t i ts is
          rw [if_neg (show ¬ t :: ts = [] by simp), if_neg (show ¬ ((i :: is) :: iss).flatten = [] by simp)]
          split
          · rename_i h0
            rw [List.flatten_cons, h0, List.append_nil]
          · simp
    rw [all none, if_neg hne]
    show Except.ok (nodeResult _ _) = _
    unfold nodeResult
    rw [if_neg (by simp), if_neg (by simp [Node.isEmpty])]
    rfl
  · intro e he
    obtain ⟨a, _, rfl⟩ := List.mem_map.1 he
    rfl

/-! ## Examples -/

/-- `{"id": "http:a", "@id": "http:b"}` is rejected. -/
example : (expandElement exXEnv exAliasCtx none (.obj [("id".toList, .str "http:a".toList),
    ("@id".toList, .str "http:b".toList)]) false).toOption.isNone = true := rfl

example : GivesKey exXEnv exAliasCtx .id (.str "http:a".toList) :=
  .id _ (.id (.iri "http:a".toList)) rfl nofun

example : KeyContext exXEnv exAliasCtx none [("id".toList, .str "http:a".toList),
    ("@id".toList, .str "http:b".toList)] false exAliasCtx := ⟨exAliasCtx, [], rfl, rfl, rfl⟩

/-- An identifier that stands for nothing does not collide: `{"id": "@unknown", "@id": "http:b"}` has the second
identifier. -/
example : (expandElement exXEnv exAliasCtx none (.obj [("id".toList, .str "@unknown".toList),
    ("@id".toList, .str "http:b".toList), ("type".toList, .str "http:T".toList)]) false).toOption =
    some (.object (.node (.mk none (some (.iri "http:b".toList)) (some [.iri "http:T".toList]) none none [] none))) := rfl

/-- `{"@reverse": {"id": "http:b"}}` is rejected. -/
example : (expandElement exXEnv exAliasCtx none (.obj [("@reverse".toList, .obj [("id".toList,
    .str "http:b".toList)])]) false).toOption.isNone = true := rfl

/-- `{"@language": "en"}` is dropped. -/
example : (expandElement exXEnv exAliasCtx (some "p".toList) (.obj [("@language".toList, .str "en".toList)])
    false).toOption = some .null := rfl

/-- `{"type": ["http:T", "http:U"], "@type": "http:V"}`. -/
example : (expandElement exXEnv exAliasCtx none (.obj [("type".toList, .arr [.str "http:T".toList,
    .str "http:U".toList]), ("@type".toList, .str "http:V".toList)]) false).toOption =
    some (.object (.node (.mk none none (some [.iri "http:T".toList, .iri "http:U".toList, .iri "http:V".toList])
      none none [] none))) := rfl

example : List.Forall₂ (IsType exXEnv exAliasCtx) ["http:T".toList, "http:U".toList]
    [.iri "http:T".toList, .iri "http:U".toList] :=
  .cons ⟨rfl, .inl rfl⟩ (.cons ⟨rfl, .inl rfl⟩ .nil)

end JsonLd.Props
