import Verif.Proofs.ExpandEntries
import Verif.Props.ExpandTerms
/-!
# C58: objects entry by entry; C59: the contexts of objects
-/

namespace JsonLd.Props
open JsonLd.Spec

/-! ## C58 -/

section
variable (E : XEnv) (c : ACtx)

/-- C58: an object is expanded entry by entry: what the last entry says is added to what the others say. -/
theorem C58_entry (q : Str) (hq : q ≠ "@graph".toList) (hs : Unscoped c q) (fm : Bool)
    (hr : fm = true ∨ c.previous = none) (m : List (Str × Json)) (hm : PropertyKeys E c m) (key : Str) (p : Id)
    (hp : IsProperty E c key p) (v : Json) (x : Expanded) :
    expandElement E c (some q) (.obj (m ++ [(key, v)])) fm = .ok x ↔
      ∃ n n1 n', expandElement E c (some q) (.obj m) fm = .ok (.object (.node n)) ∧
        expandElement E c (some q) (.obj [(key, v)]) fm = .ok (.object (.node n1)) ∧ PutTogether n n1 n' ∧
        x = .object (.node n') := by
  have hs' : ∀ k d, some q = some k → c.get k = some d → d.context = none := fun k d h => by cases h; exact hs d
  obtain ⟨es, hes, hes'⟩ := propKeys_of hm
  have hes2 : PropKeys E c (m ++ [(key, v)]) (es ++ [⟨key, .id p, v⟩]) := by
    refine ⟨by rw [hes.obj]; simp, ?_, ?_⟩
    · intro e he
      rcases List.mem_append.1 he with he | he
      · exact hes.keys e he
      · rw [List.mem_singleton.1 he]
        exact xKey_iff.2 hp.expands
    · intro e he
      rcases List.mem_append.1 he with he | he
      · exact hes.props e he
      · rw [List.mem_singleton.1 he]
        exact ⟨p, rfl⟩
  rw [object_props hes2 hr hs', object_props hes hr hs', single_prop hp hr hs', exMap_iff]
  simp only [exMap_iff, List.foldlM_append]
  constructor
  · rintro ⟨st', h, rfl⟩
    obtain ⟨st, h1, h2⟩ := exBind_ok h
    rw [List.foldlM_cons] at h2
    obtain ⟨st'', h2, h3⟩ := exBind_ok h2
    cases h3
    rw [step_prop hp] at h2
    have hst := fold_shape hes' start_shape h1
    obtain ⟨st1, h4, h5, h6⟩ := (propEntry_together hst).1 h2
    exact ⟨st.node, st1.node, st'.node, ⟨st, h1, nodeResult_prop hq hst⟩,
      ⟨st1, h4, nodeResult_prop hq (propEntry_shape start_shape h4)⟩, h5, nodeResult_prop hq h6⟩
  · rintro ⟨n, n1, n', ⟨st, h1, h2⟩, ⟨st1, h3, h4⟩, h5, rfl⟩
    have hst := fold_shape hes' start_shape h1
    have hst1 := propEntry_shape start_shape h3
    rw [nodeResult_prop hq hst] at h2
    rw [nodeResult_prop hq hst1] at h4
    cases h2
    cases h4
    have hst' : PropNode ⟨n', false⟩ := by
      obtain ⟨ps, rv, rfl⟩ := hst
      obtain ⟨ps', rv', rfl⟩ := hst1
      cases h5
      exact ⟨_, _, rfl⟩
    refine ⟨⟨n', false⟩, exBind_iff.2 ⟨st, h1, ?_⟩, nodeResult_prop hq hst'⟩
    rw [List.foldlM_cons, step_prop hp]
    exact exBind_iff.2 ⟨_, (propEntry_together hst).2 ⟨st1, h3, h5, hst'⟩, rfl⟩

/-- C58: nested objects are transparent: their entries are entries of the object itself. -/
theorem C58_nest (prop : Option Str) (hq : prop ≠ some "@reverse".toList) (hs : ∀ k, prop = some k → Unscoped c k)
    (fm : Bool) (hr : fm = true ∨ c.previous = none) (m m' : List (Str × Json)) (hm : PropertyKeys E c m)
    (hm' : PropertyKeys E c m') (nest : Str) (hn : Unscoped c nest)
    (hk : expandIri E.toIriEnv c (some (.ofStr nest)) false (some E.opts.vocab) = .ok (some (.keyword .nest)))
    (v : Json) (ms : List (List (Str × Json))) (hv : itemsIn v = ms.map Json.obj)
    (hms : ∀ m ∈ ms, PropertyKeys E c m) :
    expandElement E c prop (.obj (m ++ (nest, v) :: m')) fm =
      expandElement E c prop (.obj (m ++ ms.flatMap (inOrder E) ++ m')) fm := by
  have hs' : ∀ k d, prop = some k → c.get k = some d → d.context = none := fun k d h => hs k h d
  obtain ⟨es, hes, hes'⟩ := propKeys_of hm
  obtain ⟨es', hes1, hes1'⟩ := propKeys_of hm'
  have hms' : ∀ m ∈ ms, PropertyKeys E c (inOrder E m) := fun m h => propertyKeys_perm (sortIf_perm_entries _ _ _) (hms m h)
  -- the entries of the nested objects
  obtain ⟨ess, hess⟩ : ∃ ess : List (List XEntry), List.Forall₂ (fun m es => PropKeys E c (inOrder E m) es ∧
      ∀ e ∈ es, ∃ p, e.term = .id p ∧ IsProperty E c e.key p) ms ess := by
    clear hms hv
    induction ms with
    | nil => exact ⟨[], .nil⟩
    | cons m ms ih =>
      obtain ⟨ess, h⟩ := ih fun m hm => hms' m (by simp [hm])
      obtain ⟨es, h1, h2⟩ := propKeys_of (hms' m (by simp))
      exact ⟨es :: ess, .cons ⟨h1, h2⟩ h⟩
  have hall : PropKeys E c (m ++ ms.flatMap (inOrder E) ++ m') (es ++ ess.flatten ++ es') ∧
      ∀ e ∈ ess.flatten, ∃ p, e.term = .id p ∧ IsProperty E c e.key p := by
    have : PropKeys E c (ms.flatMap (inOrder E)) ess.flatten ∧
        ∀ e ∈ ess.flatten, ∃ p, e.term = .id p ∧ IsProperty E c e.key p := by
      clear hms hv hms'
      induction hess with
      | nil => exact ⟨⟨rfl, by simp, by simp⟩, by simp⟩
      | cons h _ ih =>
        refine ⟨⟨by rw [List.flatMap_cons, List.flatten_cons, List.map_append, ← h.1.obj, ← ih.1.obj], ?_, ?_⟩, ?_⟩
        · intro e he
          rcases List.mem_append.1 (List.flatten_cons ▸ he) with he | he
          · exact h.1.keys e he
          · exact ih.1.keys e he
        · intro e he
          rcases List.mem_append.1 (List.flatten_cons ▸ he) with he | he
          · exact h.1.props e he
          · exact ih.1.props e he
        · intro e he
          rcases List.mem_append.1 (List.flatten_cons ▸ he) with he | he
          · exact h.2 e he
          · exact ih.2 e he
    refine ⟨⟨by simp only [List.map_append, ← hes.obj, ← hes1.obj, ← this.1.obj], ?_, ?_⟩, this.2⟩
    · intro e he
      rcases List.mem_append.1 he with he | he
      · rcases List.mem_append.1 he with he | he
        · exact hes.keys e he
        · exact this.1.keys e he
      · exact hes1.keys e he
    · intro e he
      rcases List.mem_append.1 he with he | he
      · rcases List.mem_append.1 he with he | he
        · exact hes.props e he
        · exact this.1.props e he
      · exact hes1.props e he
  rw [object_props hall.1 hr hs', object_kind (es := es ++ ⟨nest, .keyword .nest, v⟩ :: es') ⟨?_, ?_, ?_⟩ hr hs',
    kind_node ?_]
  · unfold expandNode entriesBody
    rw [List.foldlM_append, List.foldlM_append, List.foldlM_append, bind_assoc]
    congr 2
    funext st
    rw [List.foldlM_cons]
    congr 1
    show (if prop = some "@reverse".toList then _ else if _ then _ else
      (forceArray v).foldlM (nestStep E (unlimited E) c c prop nest) st) = _
    rw [if_neg hq]
    rw [if_neg (by simp [Node.hasKeyword])]
    have hf : forceArray v = itemsIn v := by cases v <;> rfl
    rw [hf, hv, foldlM_flatten]
    refine foldlM_congr_rel (r := fun j es => ∃ m, j = Json.obj m ∧ PropKeys E c (inOrder E m) es) ?_ ?_ st
    · rintro _ es1 s ⟨m, rfl, hp⟩
      show (scopedCtx E (c.get nest) c _).bind _ = _
      rw [scopedCtx_plain fun d hd => hn d hd]
      show (xEntries E c (inOrder E m)).bind _ = _
      rw [hp.obj, xEntries_props' hp.keys]
      exact C49_unfold_entries ..
    · rw [List.forall₂_map_left_iff]
      exact hess.imp fun m es h => ⟨m, rfl, h.1⟩
  · intro e he
    rcases List.mem_append.1 he with he | he
    · obtain ⟨p, hp⟩ := hes.props e he
      rw [hp]; simp
    · rcases List.mem_cons.1 he with rfl | he
      · simp
      · obtain ⟨p, hp⟩ := hes1.props e he
        rw [hp]; simp
  · rw [List.map_append, List.map_cons, ← hes.obj, ← hes1.obj]
  · intro e he
    rcases List.mem_append.1 he with he | he
    · exact hes.keys e he
    · rcases List.mem_cons.1 he with rfl | he
      · exact xKey_iff.2 hk
      · exact hes1.keys e he
  · intro e he
    rcases List.mem_append.1 he with he | he
    · obtain ⟨p, hp⟩ := hes.props e he
      rw [hp]; simp
    · rcases List.mem_cons.1 he with rfl | he
      · simp
      · obtain ⟨p, hp⟩ := hes1.props e he
        rw [hp]; simp

/-- C58: aliases of keywords are transparent: an entry whose key stands for a keyword is as one with the keyword
itself. (If the keyword is `@type`, there must be no other entry for types: these are read in the order of the
keys.) -/
theorem C58_alias (prop : Option Str) (hs : ∀ k, Unscoped c k) (fm : Bool) (hr : fm = true ∨ c.previous = none)
    (m m' : List (Str × Json)) (hm : ∀ e ∈ m ++ m', e.1 ≠ "@context".toList) (key : Str) (k : Keyword)
    (hc : k ≠ .context)
    (hk : expandIri E.toIriEnv c (some (.ofStr key)) false (some E.opts.vocab) = .ok (some (.keyword k)))
    (ht : k = .type → ∀ e ∈ m ++ m',
      expandIri E.toIriEnv c (some (.ofStr e.1)) false (some E.opts.vocab) ≠ .ok (some (.keyword .type))) (v : Json) :
    expandElement E c prop (.obj (m ++ (key, v) :: m')) fm =
      expandElement E c prop (.obj (m ++ (k.intoStr, v) :: m')) fm := by
  rw [← xKey_iff] at hk
  have hk' : xKey E c k.intoStr = .ok (some (.keyword k)) := keyword_key k
  have hcx : ∀ s, xKey E c s = .ok (some (.keyword k)) → s ≠ "@context".toList := by
    rintro s h rfl
    rw [context_key] at h
    cases h
    exact hc rfl
  -- contexts
  have hpre : prelim E c (m ++ (key, v) :: m') = prelim E c (m ++ (k.intoStr, v) :: m') := by
    induction m with
    | nil =>
      show (xKey E c key).bind _ = (xKey E c k.intoStr).bind _
      rw [hk, hk']
    | cons e m ih =>
      obtain ⟨a, b⟩ := e
      have : ∀ l, prelim E c ((a, b) :: l) = (xKey E c a).bind fun t => (prelim E c l).map fun r =>
          (r.1 || decide (t = some (.keyword .value)), r.2 || decide (t = some (.keyword .id))) := fun l => rfl
      rw [List.cons_append, List.cons_append, this, this, ih (fun e he => hm e (by simp [List.mem_append.1 he])) fun h e he => ht h e (by simp [List.mem_append.1 he])]
  have hctx : ∀ s, xKey E c s = .ok (some (.keyword k)) → objContext E c prop (m ++ (s, v) :: m') fm =
      (prelim E c (m ++ (s, v) :: m')).bind fun _ => .ok c := by
    intro s h
    unfold objContext
    congr 1
    funext r
    have : revert c (m ++ (s, v) :: m') fm r = c := by
      unfold revert
      split
      · rename_i p hc
        rcases hr with rfl | hr
        · rfl
        · rw [hr] at hc; cases hc
      · rfl
    rw [this, scopedCtx_plain (fun d hd => by
      cases prop with
      | none => cases hd
      | some q => exact hs q d hd)]
    show localContext E c _ = _
    unfold localContext
    rw [List.filter_eq_nil_iff.2]
    intro e he
    simp only [decide_eq_true_eq]
    rcases List.mem_append.1 he with he | he
    · exact hm e (by simp [he])
    · rcases List.mem_cons.1 he with rfl | he
      · exact hcx _ h
      · exact hm e (by simp [he])
  have hts : ∀ tes, typeScoped E c tes = .ok c := by
    intro tes
    unfold typeScoped
    induction scopedTypes tes with
    | nil => rfl
    | cons t l ih =>
      rw [List.foldlM_cons, scopedCtx_plain fun d hd => hs t d hd]
      exact ih
  rw [C49_unfold, C49_unfold]
  show elemObj E (unlimited E) c prop _ fm = elemObj E (unlimited E) c prop _ fm
  unfold elemObj
  rw [hctx key hk, hctx _ hk', hpre]
  cases prelim E c (m ++ (k.intoStr, v) :: m') with
  | error e => rfl
  | ok r =>
    show (typeEntries E c _).bind _ = (typeEntries E c _).bind _
    -- types
    have hte : ((typeEntries E c (m ++ (key, v) :: m')).map fun tes => tes.map Prod.snd) =
        (typeEntries E c (m ++ (k.intoStr, v) :: m')).map fun tes => tes.map Prod.snd := by
      unfold typeEntries
      have cons : ∀ (e : Str × Json) l, collectM (fun e : Str × Json => (xKey E c e.1).map fun t =>
              if t = some (.keyword .type) then [e] else []) (e :: l) =
            ((xKey E c e.1).map fun t => if t = some (.keyword .type) then [e] else []).bind fun x =>
              (collectM (fun e : Str × Json => (xKey E c e.1).map fun t =>
                if t = some (.keyword .type) then [e] else []) l).map fun y => x ++ y := fun e l => rfl
      by_cases hkt : k = .type
      · subst hkt
        have one : ∀ s, xKey E c s = .ok (some (.keyword .type)) →
            collectM (fun e : Str × Json => (xKey E c e.1).map fun t =>
              if t = some (.keyword .type) then [e] else []) (m ++ (s, v) :: m') =
            (collectM (fun e : Str × Json => (xKey E c e.1).map fun t =>
              if t = some (.keyword .type) then [e] else []) (m ++ m')).map fun _ => [(s, v)] := by
          intro s h
          have hno := ht rfl
          simp only [ne_eq, ← xKey_iff] at hno
          have nil : ∀ l r, (∀ e ∈ l, ¬ xKey E c e.1 = .ok (some (.keyword .type))) →
              collectM (fun e : Str × Json => (xKey E c e.1).map fun t =>
                if t = some (.keyword .type) then [e] else []) l = .ok r → r = [] := by
            intro l r hl h
            obtain ⟨parts, h1, rfl⟩ := collectM_iff.1 h
            clear h
            induction h1 with
            | nil => rfl
            | cons h2 _ ih =>
              obtain ⟨t, ht, rfl⟩ := exMap_ok h2
              rw [if_neg (by rintro rfl; exact hl _ (by simp) ht), List.flatten_cons,
                ih fun e he => hl e (by simp [he])]
              rfl
          clear hpre hctx hm ht
          induction m with
          | nil =>
            show ((xKey E c s).map _).bind _ = _
            rw [h, List.nil_append]
            show (collectM _ m').map _ = _
            cases hco : collectM (fun e : Str × Json => (xKey E c e.1).map fun t =>
              if t = some (.keyword .type) then [e] else []) m' with
            | error e => rfl
            | ok r =>
              rw [nil m' r (fun e he => hno e (by simpa using he)) hco]
              rfl
          | cons e m ih =>
            rw [List.cons_append, List.cons_append, cons, cons, ih fun e he => hno e (by simp [List.mem_append.1 he])]
            have he := hno e (by simp)
            cases hx : xKey E c e.1 with
            | error e => rfl
            | ok t =>
              rw [hx] at he
              have : t ≠ some (.keyword .type) := fun h => he (by rw [h])
              show ((collectM _ (m ++ m')).map _).map _ = ((collectM _ (m ++ m')).map _).map _
              dsimp only
              rw [if_neg this]
              cases collectM (fun e : Str × Json => (xKey E c e.1).map fun t =>
                if t = some (.keyword .type) then [e] else []) (m ++ m') <;> rfl
        rw [one key hk, one _ hk']
        cases collectM (fun e : Str × Json => (xKey E c e.1).map fun t =>
              if t = some (.keyword .type) then [e] else []) (m ++ m') <;> rfl
      · have : collectM (fun e : Str × Json => (xKey E c e.1).map fun t =>
              if t = some (.keyword .type) then [e] else []) (m ++ (key, v) :: m') =
            collectM (fun e : Str × Json => (xKey E c e.1).map fun t =>
              if t = some (.keyword .type) then [e] else []) (m ++ (k.intoStr, v) :: m') := by
          clear hpre hctx hm ht
          induction m with
          | nil =>
            show ((xKey E c key).map _).bind _ = ((xKey E c k.intoStr).map _).bind _
            rw [hk, hk']
            have : ¬ (some (CTerm.keyword k) = some (.keyword .type)) := by
              simpa using hkt
            show (Except.ok (if _ then _ else _)).bind _ = (Except.ok (if _ then _ else _)).bind _
            rw [if_neg this, if_neg this]
          | cons e m ih =>
            rw [List.cons_append, List.cons_append, cons, cons, ih]
        rw [this]
    have hin : ∀ tes : List (Str × Json), inputType E c tes =
        match tes.map Prod.snd with
        | [] => .ok none
        | v :: _ => match (forceArray v).getLast? with
          | some (.str s) => xKey E c s
          | _ => .ok none := by
      intro tes
      cases tes <;> rfl
    -- entries
    have hen : (∃ e, xEntries E c (m ++ (key, v) :: m') = .error e ∧
        xEntries E c (m ++ (k.intoStr, v) :: m') = .error e) ∨
        ∃ es es', xEntries E c (m ++ (key, v) :: m') = .ok (es ++ ⟨key, .keyword k, v⟩ :: es') ∧
          xEntries E c (m ++ (k.intoStr, v) :: m') = .ok (es ++ ⟨k.intoStr, .keyword k, v⟩ :: es') := by
      clear hpre hctx hm ht hte
      induction m with
      | nil =>
        have : ∀ s, xKey E c s = .ok (some (.keyword k)) → xEntries E c ((s, v) :: m') =
            (xEntries E c m').map fun es => ⟨s, .keyword k, v⟩ :: es := by
          intro s h
          show (xKey E c s).bind _ = _
          rw [h]
          rfl
        rw [List.nil_append, List.nil_append, this key hk, this _ hk']
        cases xEntries E c m' with
        | error e => exact .inl ⟨e, rfl, rfl⟩
        | ok es => exact .inr ⟨[], es, rfl, rfl⟩
      | cons e m ih =>
        obtain ⟨a, b⟩ := e
        have : ∀ l, xEntries E c ((a, b) :: l) = (xKey E c a).bind fun t => (xEntries E c l).map fun es =>
            (t.map fun t => (⟨a, t, b⟩ : XEntry)).toList ++ es := by
          intro l
          show (xKey E c a).bind _ = _
          congr 1
          funext t
          cases t <;> rfl
        rw [List.cons_append, List.cons_append, this, this]
        cases xKey E c a with
        | error e => exact .inl ⟨e, rfl, rfl⟩
        | ok t =>
          rcases ih with ⟨e, h1, h2⟩ | ⟨es, es', h1, h2⟩
          · exact .inl ⟨e, by rw [h1]; rfl, by rw [h2]; rfl⟩
          · rw [h1, h2]
            cases t with
            | none => exact .inr ⟨es, es', rfl, rfl⟩
            | some t => exact .inr ⟨⟨a, t, b⟩ :: es, es', rfl, rfl⟩
    have hkind : ∀ it es es', elemKind E (unlimited E) c c prop it (es ++ ⟨key, .keyword k, v⟩ :: es') =
        elemKind E (unlimited E) c c prop it (es ++ ⟨k.intoStr, .keyword k, v⟩ :: es') := by
      intro it es es'
      have hlast : ∀ k', lastEntry k' (es ++ ⟨key, .keyword k, v⟩ :: es') =
          lastEntry k' (es ++ ⟨k.intoStr, .keyword k, v⟩ :: es') := by
        intro k'
        unfold lastEntry
        by_cases h : CTerm.keyword k = .keyword k'
        · simp [List.filter_append, h, List.getLast?_append, List.getLast?_cons]
          cases List.find? (fun e : XEntry => decide (e.term = CTerm.keyword k')) es'.reverse <;> rfl
        · simp [List.filter_append, h]
      have hset : setEntries (es ++ ⟨key, .keyword k, v⟩ :: es') =
          setEntries (es ++ ⟨k.intoStr, .keyword k, v⟩ :: es') := by
        unfold setEntries
        simp [List.all_append]
      have hlist : ∀ i, listIndex i (es ++ ⟨key, .keyword k, v⟩ :: es') =
          listIndex i (es ++ ⟨k.intoStr, .keyword k, v⟩ :: es') := by
        intro i
        clear hset hlast
        induction es generalizing i with
        | nil => rfl
        | cons e es ih =>
          rw [List.cons_append, List.cons_append]
          unfold listIndex
          split
          · split
            · exact ih _
            · rfl
          · exact ih _
          · rfl
      have hval : ∀ w, elemValue E c it (es ++ ⟨key, .keyword k, v⟩ :: es') w =
          elemValue E c it (es ++ ⟨k.intoStr, .keyword k, v⟩ :: es') w := by
        intro w
        unfold elemValue expandValue
        rw [List.foldlM_append, List.foldlM_append]
        rfl
      have hnode : expandNode E (unlimited E) c c prop (es ++ ⟨key, .keyword k, v⟩ :: es') =
          expandNode E (unlimited E) c c prop (es ++ ⟨k.intoStr, .keyword k, v⟩ :: es') := by
        unfold expandNode entriesBody
        rw [List.foldlM_append, List.foldlM_append]
        congr 2
        funext st
        rw [List.foldlM_cons, List.foldlM_cons]
        congr 1
        by_cases hn : k = .nest
        · subst hn
          show (if _ then _ else if _ then _ else (forceArray v).foldlM (nestStep E (unlimited E) c c prop key) st) =
            (if _ then _ else if _ then _ else (forceArray v).foldlM (nestStep E (unlimited E) c c prop _) st)
          have : nestStep E (unlimited E) c c prop key =
              nestStep E (unlimited E) c c prop Keyword.nest.intoStr := by
            funext st w
            unfold nestStep
            rw [scopedCtx_plain fun d hd => hs _ d hd, scopedCtx_plain fun d hd => hs _ d hd]
          rw [this]
        · cases k <;> first | rfl | exact absurd rfl hn
      unfold elemKind elemList
      simp only [hlast, hset, hlist, hval, hnode]
    cases h1 : typeEntries E c (m ++ (key, v) :: m') with
    | error e =>
      rw [h1] at hte
      cases h2 : typeEntries E c (m ++ (k.intoStr, v) :: m') with
      | error e' => rw [h2] at hte; cases hte; rfl
      | ok r => rw [h2] at hte; cases hte
    | ok tes =>
      rw [h1] at hte
      cases h2 : typeEntries E c (m ++ (k.intoStr, v) :: m') with
      | error e' => rw [h2] at hte; cases hte
      | ok tes' =>
        rw [h2] at hte
        have hte : tes.map Prod.snd = tes'.map Prod.snd := Except.ok.inj hte
        show (typeScoped E c tes).bind _ = (typeScoped E c tes').bind _
        rw [hts, hts]
        show (inputType E c tes).bind _ = (inputType E c tes').bind _
        rw [hin tes, hin tes', hte]
        congr 1
        funext it
        rcases hen with ⟨e, h3, h4⟩ | ⟨es, es', h3, h4⟩
        · rw [h3, h4]
        · rw [h3, h4]
          exact hkind it es es'

end

/-! ## C59 -/

section
variable (E : XEnv) (hv : E.opts.vocab ≠ .reject) (c : ACtx)
include hv

/-- C59: an object that is no value object and no mere reference is expanded with the previous context, if there is
one. -/
theorem C59_revert (p : ACtx) (hp : c.previous = some p) (prop : Option Str)
    (hs : ∀ k, prop = some k → Unscoped c k ∧ Unscoped p k) (m : List (Str × Json))
    (hval : ∀ e ∈ m,
      expandIri E.toIriEnv c (some (.ofStr e.1)) false (some E.opts.vocab) ≠ .ok (some (.keyword .value)))
    (hid : ∀ k v, m = [(k, v)] →
      expandIri E.toIriEnv c (some (.ofStr k)) false (some E.opts.vocab) ≠ .ok (some (.keyword .id))) :
    expandElement E c prop (.obj m) false = expandElement E p prop (.obj m) true := by
  have : objContext E c prop m false = objContext E p prop m true := by
    obtain ⟨r, hr, h1, h2⟩ := prelim_total hv c m
    obtain ⟨r', hr', _, _⟩ := prelim_total hv p m
    unfold objContext
    rw [hr, hr']
    show (scopedCtx E (prop.bind c.get) (revert c m false r) _).bind _ =
      (scopedCtx E (prop.bind p.get) (revert p m true r') _).bind _
    have hb : revert p m true r' = p := by
      unfold revert
      split <;> rfl
    have ha : revert c m false r = p := by
      unfold revert
      rw [hp]
      have hr1 : r.1 = false := by
        cases h : r.1 with
        | false => rfl
        | true =>
          obtain ⟨e, he, hx⟩ := h1.1 h
          exact absurd (xKey_iff.1 hx) (hval e he)
      have hr2 : (decide (m.length = 1) && r.2) = false := by
        cases h : r.2 with
        | false => simp
        | true =>
          obtain ⟨e, he, hx⟩ := h2.1 h
          match m, he, hid with
          | [], he, _ => cases he
          | [(k, v)], he, hid =>
            rw [List.mem_singleton.1 he] at hx
            exact absurd (xKey_iff.1 hx) (hid k v rfl)
          | _ :: _ :: _, _, _ => simp
      simp only [hr1, hr2, Bool.not_false, Bool.and_self, if_true]
    rw [ha, hb, scopedCtx_plain, scopedCtx_plain]
    · intro d hd
      cases prop with
      | none => cases hd
      | some k => exact (hs k rfl).2 d hd
    · intro d hd
      cases prop with
      | none => cases hd
      | some k => exact (hs k rfl).1 d hd
  rw [C49_unfold, C49_unfold]
  show elemObj E (unlimited E) c prop m false = elemObj E (unlimited E) p prop m true
  unfold elemObj
  rw [this]

/-- C59: value objects and mere references are expanded with the current context, as the values of maps are. -/
theorem C59_stay (prop : Option Str) (m : List (Str × Json))
    (h : (∃ e ∈ m,
        expandIri E.toIriEnv c (some (.ofStr e.1)) false (some E.opts.vocab) = .ok (some (.keyword .value))) ∨
      ∃ k v, m = [(k, v)] ∧
        expandIri E.toIriEnv c (some (.ofStr k)) false (some E.opts.vocab) = .ok (some (.keyword .id))) :
    expandElement E c prop (.obj m) false = expandElement E c prop (.obj m) true := by
  have : objContext E c prop m false = objContext E c prop m true := by
    obtain ⟨r, hr, h1, h2⟩ := prelim_total hv c m
    unfold objContext
    rw [hr]
    have : revert c m false r = revert c m true r := by
      unfold revert
      split
      · rcases h with ⟨e, he, hx⟩ | ⟨k, v, rfl, hx⟩
        · rw [h1.2 ⟨e, he, xKey_iff.2 hx⟩]
          simp
        · rw [h2.2 ⟨_, List.mem_singleton.2 rfl, xKey_iff.2 hx⟩]
          simp
      · rfl
    show (scopedCtx E _ (revert c m false r) _).bind _ = (scopedCtx E _ (revert c m true r) _).bind _
    rw [this]
  rw [C49_unfold, C49_unfold]
  show elemObj E (unlimited E) c prop m false = elemObj E (unlimited E) c prop m true
  unfold elemObj
  rw [this]

/-- Objects with properties in the context that applies to them. -/
private theorem props_in {c1 tsc : ACtx} {q : Str} {fm : Bool} {pre m : List (Str × Json)} {pres : List XEntry}
    (hctx : objContext E c (some q) (pre ++ m) fm = .ok tsc)
    {tes : List (Str × Json)} (htes : typeEntries E tsc (pre ++ m) = .ok tes) (hts : typeScoped E tsc tes = .ok c1)
    (hm : PropertyKeys E c1 m) (hpre : ∀ es, xEntries E c1 m = .ok es → xEntries E c1 (pre ++ m) = .ok (pres ++ es))
    (hno : ∀ e ∈ pres, e.term ≠ .keyword .list ∧ e.term ≠ .keyword .set ∧ e.term ≠ .keyword .value) :
    ∃ es, PropKeys E c1 m es ∧ (∀ e ∈ es, ∃ p, e.term = .id p ∧ IsProperty E c1 e.key p) ∧
    expandElement E c (some q) (.obj (pre ++ m)) fm =
      ((pres ++ es).foldlM (entryStep E (unlimited E) c1 tsc (some q)) startState).map (nodeResult (some q)) := by
  obtain ⟨es, hes, hes'⟩ := propKeys_of hm
  refine ⟨es, hes, hes', ?_⟩
  obtain ⟨it, hit⟩ : ∃ it, inputType E c1 tes = .ok it := by
    unfold inputType
    split
    · exact ⟨_, rfl⟩
    · split
      · exact xKey_total hv _ _
      · exact ⟨_, rfl⟩
  rw [C49_unfold]
  show elemObj E (unlimited E) c (some q) _ fm = _
  unfold elemObj
  rw [hctx]
  show (typeEntries E tsc _).bind _ = _
  rw [htes]
  show (typeScoped E tsc tes).bind _ = _
  rw [hts]
  show (inputType E c1 tes).bind _ = _
  rw [hit]
  have hen : xEntries E c1 m = .ok es := by
    have := xEntries_props' hes.keys
    rw [hes.obj]
    exact this
  show (xEntries E c1 _).bind _ = _
  rw [hpre es hen]
  show elemKind E (unlimited E) c1 tsc (some q) it (pres ++ es) = _
  rw [kind_node]
  · rfl
  · intro e he
    rcases List.mem_append.1 he with he | he
    · exact hno e he
    · obtain ⟨p, hp⟩ := hes.props e he
      rw [hp]; simp

/-- C59: the values of a term with a scoped context are expanded with this context, which applies even to protected
terms. -/
theorem C59_property_scoped (q q' : Str) (hq : q ≠ "@graph".toList) (hq' : q' ≠ "@graph".toList) (d : TermDef)
    (hd : c.get q = some d) (l : SCtx) (hl : d.context = some l) (c1 : ACtx) (fm : Bool)
    (hr : fm = true ∨ c.previous = none)
    (hp : E.process c l d.baseUrl { mode := E.opts.mode, override := true } = .ok c1) (hs : Unscoped c1 q')
    (m : List (Str × Json)) (hm : PropertyKeys E c1 m) :
    expandElement E c (some q) (.obj m) fm = expandElement E c1 (some q') (.obj m) true := by
  have hctx : objContext E c (some q) ([] ++ m) fm = .ok c1 := by
    obtain ⟨r, hr', _⟩ := prelim_total hv c m
    unfold objContext
    rw [List.nil_append, hr']
    show (scopedCtx E (c.get q) (revert c m fm r) _).bind _ = _
    have : revert c m fm r = c := by
      unfold revert
      split
      · rename_i p hc
        rcases hr with rfl | hr
        · rfl
        · rw [hr] at hc; cases hc
      · rfl
    rw [this, hd, scopedCtx_within hl (o := E.opts.proc.withOverride) (r := c1) hp]
    show localContext E c1 m = _
    unfold localContext
    rw [List.filter_eq_nil_iff.2]
    intro e he
    simp only [decide_eq_true_eq]
    intro hx
    obtain ⟨p, hp⟩ := hm e he
    have h1 := xKey_iff.2 hp.expands
    rw [hx, context_key] at h1
    cases h1
  have htes : typeEntries E c1 ([] ++ m) = .ok [] := by
    unfold typeEntries
    rw [List.nil_append, typeEntries_props fun e he => by
      obtain ⟨p, hp⟩ := hm e he
      exact ⟨_, xKey_iff.2 hp.expands, by simp⟩]
    rfl
  obtain ⟨es, hes, hes', h⟩ := props_in E hv c (pre := []) (pres := []) hctx htes rfl hm (fun _ h => h) (by simp)
  rw [List.nil_append, List.nil_append] at h
  rw [h, object_props hes (.inl rfl) fun k d h => by cases h; exact hs d, fold_props hes' (tsc' := c1) (prop' := some q')]
  cases hf : es.foldlM (entryStep E (unlimited E) c1 c1 (some q')) startState with
  | error e => rfl
  | ok st =>
    have hst := fold_shape hes' start_shape hf
    show Except.ok (nodeResult _ _) = Except.ok (nodeResult _ _)
    rw [nodeResult_prop hq hst, nodeResult_prop hq' hst]

omit hv in
/-- C59: strings, numbers and booleans are expanded with the scoped context of the term, too. -/
theorem C59_property_scoped_scalar (q : Str) (hq : q ≠ "@graph".toList) (d : TermDef)
    (hd : c.get q = some d) (l : SCtx) (hl : d.context = some l) (c1 : ACtx) (fm : Bool)
    (hp : E.process c l d.baseUrl { mode := E.opts.mode } = .ok c1) (j : Json) (s : Literal)
    (hj : ScalarAs j s) (o : Obj) :
    expandElement E c (some q) j fm = .ok (.object o) ↔
      expandLiteral E.toIriEnv E.opts.vocab c1 (some q) s = .ok o := by
  have hn : noProp (some q) = false := by
    unfold noProp
    simp only [Option.isNone_some, Bool.false_or, Option.some.injEq]
    exact decide_eq_false hq
  have : expandElement E c (some q) j fm = elemScalar E c (some q) s := by
    rw [C49_unfold]
    cases hj <;> rfl
  rw [this]
  unfold elemScalar
  rw [hn]
  show (scopedCtx E (c.get q) c _).bind _ = _ ↔ _
  rw [hd, scopedCtx_within hl (o := E.opts.proc) (r := c1) hp]
  show (match expandLiteral E.toIriEnv E.opts.vocab c1 (some q) s with
    | .error e => Except.error (XErr.literal e)
    | .ok o => .ok (Expanded.object o)) = _ ↔ _
  cases expandLiteral E.toIriEnv E.opts.vocab c1 (some q) s with
  | error e => exact ⟨nofun, nofun⟩
  | ok o' => simp

/-- C59: the entry `@context` of an object applies to its other entries. -/
theorem C59_local (q q' : Str) (hq : q ≠ "@graph".toList) (hq' : q' ≠ "@graph".toList) (hs : Unscoped c q) (fm : Bool)
    (hr : fm = true ∨ c.previous = none) (j : Json) (l : SCtx) (hj : readCtx E.isRef j = .ok l) (c1 : ACtx)
    (hp : E.process c l E.base { mode := E.opts.mode } = .ok c1) (hs' : Unscoped c1 q')
    (m : List (Str × Json)) (hm : PropertyKeys E c1 m) :
    expandElement E c (some q) (.obj (("@context".toList, j) :: m)) fm =
      expandElement E c1 (some q') (.obj m) true := by
  have hnc : ∀ e ∈ m, e.1 ≠ "@context".toList := by
    intro e he hx
    obtain ⟨p, hp⟩ := hm e he
    have h1 := xKey_iff.2 hp.expands
    rw [hx, context_key] at h1
    cases h1
  have hctx : objContext E c (some q) ([("@context".toList, j)] ++ m) fm = .ok c1 := by
    obtain ⟨r, hr', _⟩ := prelim_total hv c ([("@context".toList, j)] ++ m)
    unfold objContext
    rw [hr']
    show (scopedCtx E (c.get q) (revert c _ fm r) _).bind _ = _
    have : revert c ([("@context".toList, j)] ++ m) fm r = c := by
      unfold revert
      split
      · rename_i p hc
        rcases hr with rfl | hr
        · rfl
        · rw [hr] at hc; cases hc
      · rfl
    rw [this, scopedCtx_plain fun d hd => hs d hd]
    show localContext E c _ = _
    unfold localContext
    have : ([("@context".toList, j)] ++ m).filter (fun e => decide (e.1 = "@context".toList)) =
        [("@context".toList, j)] := by
      have : m.filter (fun e => decide (e.1 = "@context".toList)) = [] := by
        rw [List.filter_eq_nil_iff]
        intro e he
        simp only [decide_eq_true_eq]
        exact hnc e he
      rw [List.filter_append, this]
      rfl
    rw [this]
    dsimp only
    rw [hj]
    dsimp only
    unfold xProcess
    rw [show E.opts.proc = { mode := E.opts.mode } from rfl, hp]
  have htes : typeEntries E c1 ([("@context".toList, j)] ++ m) = .ok [] := by
    unfold typeEntries
    rw [typeEntries_props fun e he => by
      rcases List.mem_cons.1 he with rfl | he
      · exact ⟨_, context_key, by simp⟩
      · obtain ⟨p, hp⟩ := hm e he
        exact ⟨_, xKey_iff.2 hp.expands, by simp⟩]
    rfl
  obtain ⟨es, hes, hes', h⟩ := props_in E hv c (pre := [("@context".toList, j)])
    (pres := [⟨"@context".toList, .keyword .context, j⟩]) hctx htes rfl hm (fun es h => by
      show (xKey E c1 "@context".toList).bind _ = _
      rw [context_key]
      show (xEntries E c1 m).map _ = _
      rw [h]
      rfl) (by simp)
  rw [List.cons_append, List.nil_append] at h
  rw [h, object_props hes (.inl rfl) fun k d h => by cases h; exact hs' d]
  have : (([⟨"@context".toList, .keyword .context, j⟩] : List XEntry) ++ es).foldlM
      (entryStep E (unlimited E) c1 c1 (some q)) startState =
      es.foldlM (entryStep E (unlimited E) c1 c1 (some q')) startState :=
    fold_props (tsc := c1) (prop := some q) hes'
  rw [this]
  cases hf : es.foldlM (entryStep E (unlimited E) c1 c1 (some q')) startState with
  | error e => rfl
  | ok st =>
    have hst := fold_shape hes' start_shape hf
    show Except.ok (nodeResult _ _) = Except.ok (nodeResult _ _)
    rw [nodeResult_prop hq hst, nodeResult_prop hq' hst]

omit hv in
private theorem typeSteps {q : Str} (hq : q ≠ "@reverse".toList) {ts : List Str} {is : List Id}
    (h : List.Forall₂ (IsType E c) ts is) (hne : ts ≠ []) {c1 : ACtx} {j : Json} (hj : itemsIn j = ts.map Json.str) :
    entryStep E (unlimited E) c1 c (some q) startState ⟨"@type".toList, .keyword .type, j⟩ =
      .ok ⟨.mk none none (some is) none none [] none, false⟩ := by
  show (if some q = some "@reverse".toList then _ else if _ then _ else
    (forceArray j).foldlM (keyType1 E c) startState) = _
  rw [if_neg (by simpa using hq), if_neg (by simp [Node.hasKeyword, Node.types])]
  have hf : forceArray j = itemsIn j := by cases j <;> rfl
  rw [hf, hj]
  have step : ∀ t i, IsType E c t i → ∀ st, keyType1 E c st (.str t) =
      .ok { st with node := st.node.pushType i } := by
    intro t i hi st
    show (xIri E c t true (some E.opts.vocab)).bind _ = _
    rw [xIri_iff.2 hi.expands]
    cases i with
    | invalid s =>
      rcases hi.admitted with h | h
      · cases h
      · show (match E.opts.invalid with
          | .keep => Except.ok _
          | .drop => .ok st
          | .reject => .error XErr.invalidTypeValue) = _
        rw [h]
    | iri s => rfl
    | blank s => rfl
  have all : ∀ ty : List Id, (ts.map Json.str).foldlM (keyType1 E c)
      ⟨.mk none none (some ty) none none [] none, false⟩ =
      .ok ⟨.mk none none (some (ty ++ is)) none none [] none, false⟩ := by
    clear hj hne
    induction h with
    | nil => intro ty; rw [List.append_nil]; rfl
    | cons h1 _ ih =>
      intro ty
      rw [List.map_cons, List.foldlM_cons, step _ _ h1]
      show List.foldlM (keyType1 E c) _ _ = _
      rename_i i _ is _
      rw [show ty ++ i :: is = ty ++ [i] ++ is by simp, ← ih (ty ++ [i])]
      rfl
  cases h with
  | nil => exact absurd rfl hne
  | cons h1 h2 =>
    rename_i t i ts is
    rw [List.map_cons, List.foldlM_cons, step _ _ h1]
    show List.foldlM (keyType1 E c) ⟨.mk none none (some ([] ++ [i])) none none [] none, false⟩ _ = _
    have := all []
    rw [List.map_cons, List.foldlM_cons, step _ _ h1] at this
    exact this

/-- The state with types. -/
private def withTypes (is : List Id) (st : XState) : XState :=
  ⟨match st.node with | .mk x i _ g inc ps rv => .mk x i (some is) g inc ps rv, st.hasValue⟩

omit hv in
private theorem propEntry_types {is : List Id} {key : Str} {p : Id} {v : Json} {st : XState} :
    propEntry E (unlimited E) c key p v (withTypes is st) =
      (propEntry E (unlimited E) c key p v st).map (withTypes is) := by
  unfold propEntry
  dsimp only
  cases propValue E (unlimited E) c (c.get key) key v with
  | error e => rfl
  | ok y =>
    show addProp _ _ _ _ = (addProp _ _ _ _).map _
    unfold addProp
    obtain ⟨⟨x, i, ty, g, inc, ps, rv⟩, b⟩ := st
    split
    · rfl
    · split
      · unfold addReverse
        cases asNodes .invalidReversePropertyValue _ <;> rfl
      · rfl

omit hv in
private theorem fold_types {is : List Id} {es : List XEntry}
    (hk : ∀ e ∈ es, ∃ p, e.term = .id p ∧ IsProperty E c e.key p) {tsc : ACtx} {prop : Option Str} {st : XState} :
    es.foldlM (entryStep E (unlimited E) c tsc prop) (withTypes is st) =
      (es.foldlM (entryStep E (unlimited E) c tsc prop) st).map (withTypes is) := by
  induction es generalizing st with
  | nil => rfl
  | cons e es ih =>
    obtain ⟨p, hp, hp'⟩ := hk e (by simp)
    obtain ⟨k, t, v⟩ := e
    subst hp
    rw [List.foldlM_cons, List.foldlM_cons, step_prop hp', step_prop hp', propEntry_types]
    cases propEntry E (unlimited E) c k p v st with
    | error e => rfl
    | ok st' => exact ih fun e he => hk e (by simp [he])

/-- C59: the scoped contexts of the types of an object, in the order of the types, apply to its other entries; the
types themselves are expanded with the context outside. -/
theorem C59_type_scoped (q q' : Str) (hq : q ≠ "@graph".toList) (hqr : q ≠ "@reverse".toList)
    (hq' : q' ≠ "@graph".toList) (hs : Unscoped c q) (fm : Bool) (hr : fm = true ∨ c.previous = none)
    (j : Json) (ts ts' : List Str) (hj : itemsIn j = ts.map Json.str) (hne : ts ≠ [])
    (hperm : ts'.Perm ts) (hsort : ts'.Pairwise (· ≤ ·)) (is : List Id) (his : List.Forall₂ (IsType E c) ts is)
    (c1 : ACtx) (hc1 : Applied E c ts' c c1) (hs' : Unscoped c1 q') (m : List (Str × Json))
    (hnt : ∀ e ∈ m,
      expandIri E.toIriEnv c (some (.ofStr e.1)) false (some E.opts.vocab) ≠ .ok (some (.keyword .type)))
    (hm : PropertyKeys E c1 m) (x : Expanded) :
    expandElement E c (some q) (.obj (("@type".toList, j) :: m)) fm = .ok x ↔
      ∃ ps rv, expandElement E c1 (some q') (.obj m) true =
          .ok (.object (.node (.mk none none none none none ps rv))) ∧
        x = .object (.node (.mk none none (some is) none none ps rv)) := by
  have htk : ∀ c, xKey E c "@type".toList = .ok (some (.keyword .type)) := fun c => keyword_key .type
  have hnc : ∀ e ∈ m, e.1 ≠ "@context".toList := by
    intro e he hx
    obtain ⟨p, hp⟩ := hm e he
    have h1 := xKey_iff.2 hp.expands
    rw [hx, context_key] at h1
    cases h1
  have hctx : objContext E c (some q) ([("@type".toList, j)] ++ m) fm = .ok c := by
    obtain ⟨r, hr', _⟩ := prelim_total hv c ([("@type".toList, j)] ++ m)
    unfold objContext
    rw [hr']
    show (scopedCtx E (c.get q) (revert c _ fm r) _).bind _ = _
    have : revert c ([("@type".toList, j)] ++ m) fm r = c := by
      unfold revert
      split
      · rename_i p hc
        rcases hr with rfl | hr
        · rfl
        · rw [hr] at hc; cases hc
      · rfl
    rw [this, scopedCtx_plain fun d hd => hs d hd]
    show localContext E c _ = _
    unfold localContext
    have : ([("@type".toList, j)] ++ m).filter (fun e => decide (e.1 = "@context".toList)) = [] := by
      rw [List.filter_eq_nil_iff]
      intro e he
      simp only [decide_eq_true_eq]
      rcases List.mem_cons.1 he with rfl | he
      · show ¬ "@type".toList = "@context".toList
        decide
      · exact hnc e he
    rw [this]
  have htes : typeEntries E c ([("@type".toList, j)] ++ m) = .ok [("@type".toList, j)] := by
    have : collectM (fun e : Str × Json => (xKey E c e.1).map fun t =>
        if t = some (.keyword .type) then [e] else []) ([("@type".toList, j)] ++ m) = .ok [("@type".toList, j)] := by
      refine collectM_cons.2 ⟨[("@type".toList, j)], [], ?_, typeEntries_props fun e he => ?_, rfl⟩
      · rw [htk]
        show Except.ok (if _ then _ else _) = _
        rw [if_pos rfl]
      · obtain ⟨t, ht⟩ := xKey_total hv c e.1
        exact ⟨t, ht, fun h => hnt e he (xKey_iff.1 (h ▸ ht))⟩
    unfold typeEntries
    rw [this]
    rfl
  have hts : typeScoped E c [("@type".toList, j)] = .ok c1 := by
    have h1 : scopedTypes [("@type".toList, j)] = ts' := by
      have h2 : scopedTypes [("@type".toList, j)] = sortByKey id (strings (forceArray j)) := by
        show sortByKey id (strings (forceArray j)) ++ [] = _
        rw [List.append_nil]
      have h3 : strings (forceArray j) = ts := by
        rw [show forceArray j = itemsIn j by cases j <;> rfl, hj]
        unfold strings
        rw [List.filterMap_map]
        exact List.filterMap_some
      rw [h2, h3]
      unfold sortByKey
      have h4 := List.perm_insertionSort (fun a b : Str => id a ≤ id b) ts
      have h5 := List.pairwise_insertionSort (fun a b : Str => id a ≤ id b) ts
      exact (h4.trans hperm.symm).eq_of_pairwise (fun a b _ _ h1 h2 => List.le_antisymm h1 h2) h5 hsort
    unfold typeScoped
    rw [h1]
    clear h1 hsort hperm hnc hm hs'
    suffices h : ∀ (tl : List Str) a b, Applied E c tl a b → tl.foldlM
        (fun a t => scopedCtx E (c.get t) a E.opts.proc.withoutPropagation) a = .ok b from h _ _ _ hc1
    intro tl a b h
    clear hc1
    induction h with
    | nil => rfl
    | plain t l a b hu _ ih =>
      rw [List.foldlM_cons, scopedCtx_plain fun d hd => hu d hd]
      exact ih
    | within t d x l a a' b h1 h2 h3 _ ih =>
      rw [List.foldlM_cons, h1, scopedCtx_within h2 (o := E.opts.proc.withoutPropagation) (r := a') h3]
      exact ih
  obtain ⟨es, hes, hes', h⟩ := props_in E hv c (pre := [("@type".toList, j)])
    (pres := [⟨"@type".toList, .keyword .type, j⟩]) hctx htes hts hm (fun es h => by
      show (xKey E c1 "@type".toList).bind _ = _
      rw [htk]
      show (xEntries E c1 m).map _ = _
      rw [h]
      rfl) (by simp)
  rw [List.cons_append, List.nil_append] at h
  rw [h, object_props hes (.inl rfl) fun k d h => by cases h; exact hs' d]
  rw [List.cons_append, List.nil_append, List.foldlM_cons, typeSteps E c hqr his hne hj]
  show (es.foldlM (entryStep E (unlimited E) c1 c (some q)) (withTypes is startState)).map _ = _ ↔ _
  rw [fold_types E c1 hes', fold_props hes' (tsc' := c1) (prop' := some q')]
  cases hf : es.foldlM (entryStep E (unlimited E) c1 c1 (some q')) startState with
  | error e =>
    constructor
    · intro h; cases h
    · rintro ⟨ps, rv, h, _⟩; cases h
  | ok st =>
    have hst := fold_shape hes' start_shape hf
    show Except.ok (nodeResult (some q) (withTypes is st)) = _ ↔
      ∃ ps rv, Except.ok (nodeResult (some q') st) = _ ∧ _
    rw [nodeResult_prop hq' hst]
    obtain ⟨ps, rv, rfl⟩ := hst
    have : nodeResult (some q) (withTypes is ⟨.mk none none none none none ps rv, false⟩) =
        .object (.node (.mk none none (some is) none none ps rv)) := by
      have hn : noProp (some q) = false := by
        unfold noProp
        simp only [Option.isNone_some, Bool.false_or, Option.some.injEq]
        exact decide_eq_false hq
      unfold nodeResult
      rw [hn]
      rfl
    rw [this]
    constructor
    · intro h
      cases h
      exact ⟨ps, rv, rfl, rfl⟩
    · rintro ⟨ps', rv', h, rfl⟩
      cases h
      rfl

end

/-! ## Examples -/

/-- `{"p": "a", "@nest": [{"p": "b"}, {"set": "c"}], "set": "d"}`. -/
example : (expandElement exXEnv exMapCtx (some "http:q".toList) (.obj [("p".toList, .str "a".toList),
      ("@nest".toList, .arr [.obj [("p".toList, .str "b".toList)], .obj [("set".toList, .str "c".toList)]]),
      ("set".toList, .str "d".toList)]) false).toOption =
    some (.object (.node (.mk none none none none none [(.iri "http:p".toList, [exPlain "a", exPlain "b"]),
      (.iri "http:set".toList, [exPlain "c", exPlain "d"])] none))) := rfl

/-- The hypotheses of `C58_entry` and `C58_nest`. -/
example : PropertyKeys exXEnv exMapCtx [("p".toList, .str "a".toList), ("set".toList, .str "c".toList)] := by
  intro e he
  simp only [List.mem_cons, List.not_mem_nil, or_false] at he
  rcases he with rfl | rfl
  · exact ⟨_, exMapCtx_property "p".toList (by decide +kernel)⟩
  · exact ⟨_, exMapCtx_property "set".toList (by decide +kernel)⟩

example : Unscoped exMapCtx "http:q".toList := by
  have hn : (exMapCtx.get "http:q".toList).isNone = true := by decide +kernel
  intro d h
  rw [h] at hn
  cases hn

/-- Two nodes put together. -/
example (a b : Obj) : PutTogether (.mk none none none none none [(.iri ['p'], [a])] none)
    (.mk none none none none none [(.iri ['p'], [b]), (.iri ['q'], [])] (some [(.iri ['r'], [])]))
    (.mk none none none none none [(.iri ['p'], [a, b]), (.iri ['q'], [])] (some [(.iri ['r'], [])])) :=
  PutTogether.mk [(.iri ['p'], [a])] [(.iri ['p'], [b]), (.iri ['q'], [])] none (some [(.iri ['r'], [])])

/-- A context with aliases of keywords. -/
def exAliasCtx : ACtx where
  defs := [("id".toList, { value := some (.keyword .id) }), ("type".toList, { value := some (.keyword .type) })]

/-- `{"id": "http:a", "type": "http:T"}`. -/
example : (expandElement exXEnv exAliasCtx none (.obj [("id".toList, .str "http:a".toList),
      ("type".toList, .str "http:T".toList)]) false).toOption =
    some (.object (.node (.mk none (some (.iri "http:a".toList)) (some [.iri "http:T".toList]) none none [] none))) :=
  rfl

example : ∀ k, Unscoped exAliasCtx k := by
  intro k d h
  unfold ACtx.get at h
  split at h
  · cases h
  · change lookupKey k _ = _ at h
    simp only [exAliasCtx, lookupKey] at h
    split at h
    · cases h; rfl
    · split at h
      · cases h; rfl
      · cases h

/-- `{"@context": {"p": "http:p1", "T": {"@id": "http:T", "@context": {"p": "http:p2"}}}, "@type": "T",
"p": {"p": "x"}}`: the scoped context of the type applies to `p`, but not to its value, which is expanded with the
previous context. -/
example : (expandDoc exXEnv {} (exCtxDoc [("p".toList, .str "http:p1".toList),
      ("T".toList, .obj [("@id".toList, .str "http:T".toList), ("@context".toList,
        .obj [("p".toList, .str "http:p2".toList)])])]
      [("@type".toList, .str "T".toList), ("p".toList, .obj [("p".toList, .str "x".toList)])])).toOption =
    some [.node (.mk none none (some [.iri "http:T".toList]) none none
      [(.iri "http:p2".toList, [.node (.mk none none none none none
        [(.iri "http:p1".toList, [exPlain "x"])] none)])] none)] := by
  decide +kernel

/-- `{"@context": {"p": "http:p1", "q": {"@id": "http:q", "@context": {"p": "http:p2", "@language": "en"}}},
"q": [{"p": 1}, "x", {"@context": {"p": "http:p3"}, "p": 2}]}`. -/
example : (expandDoc exXEnv {} (exCtxDoc [("p".toList, .str "http:p1".toList),
      ("q".toList, .obj [("@id".toList, .str "http:q".toList), ("@context".toList,
        .obj [("p".toList, .str "http:p2".toList), ("@language".toList, .str "en".toList)])])]
      [("q".toList, .arr [.obj [("p".toList, .num "1".toList)], .str "x".toList,
        .obj [("@context".toList, .obj [("p".toList, .str "http:p3".toList)]), ("p".toList, .num "2".toList)]])])).toOption =
    some [.node (.mk none none none none none [(.iri "http:q".toList, [
      .node (.mk none none none none none [(.iri "http:p2".toList, [.value none (.literal (.num "1".toList) none)])] none),
      .value none (.langString ⟨"x".toList, some "en".toList, none⟩),
      .node (.mk none none none none none
        [(.iri "http:p3".toList, [.value none (.literal (.num "2".toList) none)])] none)])] none)] := by
  decide +kernel

end JsonLd.Props
