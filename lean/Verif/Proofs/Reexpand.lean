import Verif.Proofs.DocJson
import Verif.Props.ExpandPolicy
import Verif.Props.Syntax
/-!
# Expanding an expanded document

In the empty context the JSON form of an expanded document stands for the document itself.
-/

namespace JsonLd
open Spec Relation Props

section
variable {E : XEnv} {c : ACtx} (hc : EmptyCtx c)
include hc

theorem empty_get (k : Str) : c.get k = none := by
  unfold ACtx.get ACtx.getNormal
  rw [hc.defs, hc.typeDef]
  split <;> rfl

theorem empty_term (s : Str) (v : Option Action) : expandTerm c s v = none := by
  have : c.getValue s = none := by
    unfold ACtx.getValue ACtx.getNormal
    rw [hc.defs, hc.typeDef]
    split <;> rfl
  unfold expandTerm
  rw [this]

theorem empty_prefix (p x : Str) : expandPrefix E.toIriEnv c p x = none := by
  unfold expandPrefix ACtx.getNormal
  rw [hc.defs]
  rfl

theorem empty_tail (s : Str) (dr : Bool) (v : Option Action) : expandTail E.toIriEnv c s dr v =
    if dr && E.isRef s then
      match resolveIri E.toIriEnv s c.base with
      | some iri => .ok (some (.id (.iri iri)))
      | none => .ok (some (.id (.invalid s)))
    else .ok (some (.id (.invalid s))) := by
  unfold expandTail
  rw [hc.vocab]
  cases v <;> rfl

/-- Expansion in the empty context. -/
theorem empty_str (s : Str) (dr : Bool) (v : Option Action) : expandStr E.toIriEnv c s dr v =
    if isKeywordLike s then .ok (some .null)
    else if colonInside s && E.isBlank s then .ok (some (.id (.blank s)))
    else if colonInside s && s ≠ ['_', ':'] && E.isIri s then .ok (some (.id (.iri s)))
    else if colonInside s && s = ['_', ':'] then .ok (some (.id (.invalid s)))
    else expandTail E.toIriEnv c s dr v := by
  unfold expandStr
  rw [empty_term hc]
  split
  · rfl
  · dsimp only
    split
    · rename_i h1
      simp only [h1, Bool.true_and]
      split
      · rfl
      · split
        · rename_i h3
          simp [h3]
        · rename_i h3
          have : ((compactIri E.toIriEnv s).bind fun q => expandPrefix E.toIriEnv c q.1 q.2) = none := by
            cases compactIri E.toIriEnv s with
            | none => rfl
            | some q => exact empty_prefix hc _ _
          rw [this]
          simp [h3]
    · rename_i h1
      simp [h1]

theorem empty_some (s : Str) (dr : Bool) (v : Option Action) :
    ∃ t, expandIri E.toIriEnv c (some (.ofStr s)) dr v = .ok (some t) := by
  unfold Expandable.ofStr
  split
  · exact ⟨_, rfl⟩
  · show ∃ t, expandStr .. = _
    rw [empty_str hc, empty_tail hc]
    split
    · exact ⟨_, rfl⟩
    · split
      · exact ⟨_, rfl⟩
      · split
        · exact ⟨_, rfl⟩
        · split
          · exact ⟨_, rfl⟩
          · split
            · split <;> exact ⟨_, rfl⟩
            · exact ⟨_, rfl⟩

theorem empty_keyword {s : Str} {dr : Bool} {v : Option Action} {k : Keyword}
    (h : expandIri E.toIriEnv c (some (.ofStr s)) dr v = .ok (some (.keyword k))) : s = k.intoStr := by
  unfold Expandable.ofStr at h
  split at h
  · rename_i k' hk
    cases h
    exact (C01_exact s k).1 hk
  · change expandStr .. = _ at h
    rw [empty_str hc, empty_tail hc] at h
    split at h
    · cases h
    · split at h
      · cases h
      · split at h
        · cases h
        · split at h
          · cases h
          · split at h
            · split at h <;> cases h
            · cases h

omit hc in
theorem not_keyword {s : Str} (h : isKeywordLike s = false) : Expandable.ofStr s = .string s := by
  unfold Expandable.ofStr
  split
  · rename_i k hk
    have := C01_keyword_has_form s (by unfold isKeyword; rw [hk]; rfl)
    rw [h] at this; cases this
  · rfl

omit hc in
theorem keywordLike_false {s : Str} (h : KeywordForm s → False) : isKeywordLike s = false := by
  cases hk : isKeywordLike s with
  | false => rfl
  | true => exact (h ((C01_form s).1 hk)).elim

omit hc in
theorem keywordLike_colon {s : Str} (h : ':' ∈ s) : isKeywordLike s = false := by
  apply keywordLike_false
  rintro ⟨name, rfl, -, hn⟩
  rcases List.mem_cons.1 h with h | h
  · exact absurd h (by decide)
  · have := hn _ h
    unfold AsciiLetter at this
    revert this
    decide

omit hc in
theorem valid_like (f : EnvFacts E.toIriEnv) {i : Id} (hi : GoodId E.toIriEnv i) (hv : i.isValid = true) :
    isKeywordLike i.str = false ∧ colonInside i.str = true := by
  have key : ∃ p x, i.str = p ++ ':' :: x ∧ ':' ∉ p ∧ p ≠ [] := by
    cases i with
    | iri s =>
      obtain ⟨p, x, h1, h2, h3, _⟩ := f.scheme s hi
      exact ⟨p, x, h1, h2, h3⟩
    | blank s =>
      obtain ⟨x, h⟩ := f.blank s hi.2
      exact ⟨['_'], x, h, by decide, by decide⟩
    | invalid s => cases hv
  obtain ⟨p, x, h1, h2, h3⟩ := key
  refine ⟨keywordLike_colon (by rw [h1]; simp), ?_⟩
  unfold colonInside
  rw [splitOnce_eq_some.2 ⟨h1, h2⟩]
  simp [h3]

/-- Valid identifiers are left as they are. -/
theorem fixed_valid (f : EnvFacts E.toIriEnv) {i : Id} (hi : GoodId E.toIriEnv i) (hv : i.isValid = true)
    (dr : Bool) (v : Option Action) :
    expandIri E.toIriEnv c (some (.ofStr i.str)) dr v = .ok (some (.id i)) := by
  obtain ⟨h1, h2⟩ := valid_like f hi hv
  rw [not_keyword h1]
  show expandStr .. = _
  rw [empty_str hc, h1, h2]
  cases i with
  | iri s =>
    have h3 : E.isIri s = true := hi
    obtain ⟨p, x, h4, h5, _, _, h6⟩ := f.scheme s h3
    have h7 : E.isBlank s = false := by
      cases hb : E.isBlank s with
      | false => rfl
      | true =>
        obtain ⟨y, hy⟩ := f.blank s hb
        have e : splitOnce ':' s = some (['_'], y) := splitOnce_eq_some.2 ⟨hy, by decide⟩
        rw [splitOnce_eq_some.2 ⟨h4, h5⟩] at e
        exact absurd (congrArg Prod.fst (Option.some.inj e)) h6
    have h8 : s ≠ ['_', ':'] := by
      intro h
      have e : splitOnce ':' s = some (['_'], []) := splitOnce_eq_some.2 ⟨h, by decide⟩
      rw [splitOnce_eq_some.2 ⟨h4, h5⟩] at e
      exact absurd (congrArg Prod.fst (Option.some.inj e)) h6
    simp [Id.str, h3, h7, h8]
  | blank s =>
    have h3 : E.isBlank s = true := hi.2
    simp [Id.str, h3]
  | invalid s => cases hv

/-- Invalid identifiers are left as they are if they are not resolved. -/
theorem fixed_invalid {s : Str} (hi : GoodId E.toIriEnv (.invalid s)) (hk : isKeywordLike s = false)
    {dr : Bool} (hb : dr = false ∨ c.base = none) (v : Option Action) :
    expandIri E.toIriEnv c (some (.ofStr s)) dr v = .ok (some (.id (.invalid s))) := by
  rw [not_keyword hk]
  show expandStr .. = _
  rw [empty_str hc, empty_tail hc, hk]
  have h1 : E.isIri s = false := hi.1
  have h2 : E.isBlank s = false := hi.2
  have h3 : resolveIri E.toIriEnv s none = none := by
    unfold resolveIri
    rw [if_neg (by rw [h1]; decide)]
  rw [h1, h2]
  simp only [Bool.false_eq_true, if_false, Bool.and_false]
  split
  · rfl
  · split
    · rename_i h
      rcases hb with hb | hb
      · rw [hb] at h; cases h
      · rw [hb, h3]
    · rfl

theorem xKey_some (s : Str) : ∃ t, xKey E c s = .ok (some t) := by
  obtain ⟨t, h⟩ := empty_some (E := E) hc s false (some E.opts.vocab)
  exact ⟨t, by unfold xKey xIri; rw [h]⟩

omit hc in
theorem xKey_kw (k : Keyword) : xKey E c k.intoStr = .ok (some (.keyword k)) := by
  unfold xKey xIri Expandable.ofStr
  rw [C01_roundtrip]
  rfl

theorem xKey_type {s : Str} (h : xKey E c s = .ok (some (.keyword .type))) : s = "@type".toList := by
  unfold xKey xIri at h
  split at h
  · rename_i h'
    cases h
    exact empty_keyword hc h'
  · cases h

theorem empty_objContext {prop : Option Str} {m : List (Str × Json)} {fm : Bool}
    (hm : "@context".toList ∉ m.map Prod.fst) : objContext E c prop m fm = .ok c := by
  have h1 : ∀ m, ∃ r, prelim E c m = .ok r := by
    intro m
    induction m with
    | nil => exact ⟨_, rfl⟩
    | cons e m ih =>
      obtain ⟨t, ht⟩ := xKey_some (E := E) hc e.1
      obtain ⟨r, hr⟩ := ih
      exact ⟨_, by unfold prelim; rw [ht, hr]; rfl⟩
  obtain ⟨r, hr⟩ := h1 m
  unfold objContext
  rw [hr]
  show (scopedCtx E (prop.bind c.get) (revert c m fm r) _).bind _ = _
  have h2 : revert c m fm r = c := by unfold revert; rw [hc.previous]
  have h3 : prop.bind c.get = none := by
    cases prop with
    | none => rfl
    | some k => exact empty_get hc k
  rw [h2, h3]
  show localContext E c m = _
  unfold localContext
  rw [filter_eq_nil_of hm]

theorem empty_typeEntries (m : List (Str × Json)) : typeEntries E c m =
    .ok (sortByKey Prod.fst (m.filter fun e => decide (e.1 = "@type".toList))) := by
  have : collectM (fun e => (xKey E c e.1).map fun t =>
      if t = some (.keyword .type) then [e] else []) m =
      .ok (m.filter fun e => decide (e.1 = "@type".toList)) := by
    induction m with
    | nil => rfl
    | cons e m ih =>
      unfold collectM
      rw [ih]
      by_cases he : e.1 = "@type".toList
      · have hk : xKey E c e.1 = .ok (some (.keyword .type)) := by rw [he]; exact xKey_kw .type
        rw [hk, List.filter_cons_of_pos (by simpa using he)]
        rfl
      · obtain ⟨t, ht⟩ := xKey_some (E := E) hc e.1
        have hn : t ≠ .keyword .type := fun h => he (xKey_type hc (by rw [ht, h]))
        rw [List.filter_cons_of_neg (by simpa using he), ht]
        have : (if some t = some (CTerm.keyword .type) then [e] else []) = [] := if_neg fun h => hn (Option.some.inj h)
        simp only [Except.map, Except.bind, this, List.nil_append]
  unfold typeEntries
  rw [this]
  rfl

theorem empty_typeScoped (tes : List (Str × Json)) : typeScoped E c tes = .ok c := by
  unfold typeScoped
  have : ∀ (l : List Str) (a : ACtx), l.foldlM
      (fun a t => scopedCtx E (c.get t) a E.opts.proc.withoutPropagation) a = .ok a := by
    intro l
    induction l with
    | nil => exact fun a => rfl
    | cons t l ih =>
      intro a
      rw [List.foldlM_cons, empty_get hc]
      exact ih a
  exact this _ c

/-- The types of an object. -/
def typesOf (m : List (Str × Json)) : List (Str × Json) :=
  sortByKey Prod.fst (m.filter fun e => decide (e.1 = "@type".toList))

theorem empty_obj {prop : Option Str} {m : List (Str × Json)} {fm : Bool} {it : Option CTerm}
    {es : List XEntry} (hm : "@context".toList ∉ m.map Prod.fst) (hi : inputType E c (typesOf m) = .ok it)
    (he : xEntries E c m = .ok es) :
    expandElement E c prop (.obj m) fm = elemKind E (unlimited E) c c prop it es := by
  rw [C49_unfold]
  show elemObj .. = _
  unfold elemObj
  rw [empty_objContext hc hm]
  show (typeEntries E c m).bind _ = _
  rw [empty_typeEntries hc]
  show (typeScoped E c _).bind _ = _
  rw [empty_typeScoped hc]
  show (inputType E c (typesOf m)).bind _ = _
  rw [hi]
  show (xEntries E c m).bind _ = _
  rw [he]
  rfl

theorem inputType_ok (tes : List (Str × Json)) : ∃ it, inputType E c tes = .ok it := by
  unfold inputType
  split
  · exact ⟨_, rfl⟩
  · split
    · obtain ⟨t, ht⟩ := xKey_some (E := E) hc _
      exact ⟨_, ht⟩
    · exact ⟨_, rfl⟩

omit hc in
theorem xEntries_append {a b : List (Str × Json)} {x y : List XEntry} (ha : xEntries E c a = .ok x)
    (hb : xEntries E c b = .ok y) : xEntries E c (a ++ b) = .ok (x ++ y) := by
  induction a generalizing x with
  | nil => cases ha; exact hb
  | cons e a ih =>
    obtain ⟨k, v⟩ := e
    unfold xEntries at ha
    obtain ⟨t, h1, h2⟩ := exBind_ok ha
    obtain ⟨es, h3, h4⟩ := exMap_ok h2
    rw [List.cons_append]
    unfold xEntries
    rw [h1, ih h3]
    subst h4
    cases t <;> rfl

/-- An optional entry with a keyword. -/
def optX (k : Keyword) (o : Option Json) : List XEntry := (o.map fun v => ⟨k.intoStr, .keyword k, v⟩).toList

omit hc in
theorem xEntries_opt (k : Keyword) (o : Option Json) :
    xEntries E c (optEntry k.intoStr o) = .ok (optX k o) := by
  cases o with
  | none => rfl
  | some v =>
    show xEntries E c [(k.intoStr, v)] = _
    unfold xEntries
    rw [xKey_kw]
    rfl

omit hc in
theorem xEntries_props {ps : List (Id × List Obj)} (h : ∀ p ∈ ps, xKey E c p.1.str = .ok (some (.id p.1))) :
    xEntries E c (psToJson ps) = .ok (ps.map fun p => ⟨p.1.str, .id p.1, .arr (p.2.map Obj.toJson)⟩) := by
  induction ps with
  | nil => rfl
  | cons p ps ih =>
    obtain ⟨k, l⟩ := p
    unfold psToJson xEntries
    rw [h (k, l) (by simp), ih fun p hp => h p (by simp [hp]), objsToJson_eq]
    rfl

omit hc in
theorem items_ok {prop : Option Str} {os : List Obj}
    (h : ∀ o ∈ os, expandElement E c prop o.toJson false = .ok (.object o)) :
    xItems (unlimited E) c prop false (os.map Obj.toJson) = .ok os := by
  unfold xItems
  induction os with
  | nil => rfl
  | cons o os ih =>
    rw [List.map_cons]
    unfold collectM
    have h1 : (unlimited E).elem c prop o.toJson false = .ok (.object o) := h o (by simp)
    rw [h1, ih fun o ho => h o (by simp [ho])]
    rfl

/-- An array of written objects. -/
theorem arr_ok {prop : Option Str} {os : List Obj}
    (h : ∀ o ∈ os, expandElement E c prop o.toJson false = .ok (.object o)) :
    expandElement E c prop (.arr (os.map Obj.toJson)) false = .ok (.array os) := by
  rw [C49_unfold]
  show elemArr .. = _
  unfold elemArr
  have h3 : prop.bind c.get = none := by
    cases prop with
    | none => rfl
    | some k => exact empty_get hc k
  rw [items_ok h, h3]
  rfl

/-- The entries of a written value. -/
def valueParts : Value → Option Json × Option Json × Option Json × Json
  | .literal l ty => (ty.map .str, none, none, l.toJson)
  | .langString s => (none, s.language.map .str, s.direction.map fun d => .str d.asStr, .str s.data)
  | .json j => (some (.str "@json".toList), none, none, j)

omit hc in
theorem value_toJson (i : Option Str) (v : Value) : Obj.toJson (.value i v) =
    .obj (optEntry Keyword.type.intoStr (valueParts v).1 ++ (optEntry Keyword.language.intoStr (valueParts v).2.1 ++
      (optEntry Keyword.direction.intoStr (valueParts v).2.2.1 ++
        (optEntry Keyword.value.intoStr (some (valueParts v).2.2.2) ++
          optEntry Keyword.index.intoStr (i.map .str))))) := by
  unfold Obj.toJson
  congr 1
  have h : v.entries ++ indexEntry i = optEntry Keyword.type.intoStr (valueParts v).1 ++
      (optEntry Keyword.language.intoStr (valueParts v).2.1 ++
      (optEntry Keyword.direction.intoStr (valueParts v).2.2.1 ++
        (optEntry Keyword.value.intoStr (some (valueParts v).2.2.2) ++
          optEntry Keyword.index.intoStr (i.map .str)))) := by
    rw [indexEntry_eq]
    cases v with
    | literal l ty => cases ty <;> rfl
    | langString s =>
      obtain ⟨x, l, d⟩ := s
      cases l <;> cases d <;> rfl
    | json j => rfl
  rw [h]
  apply jObject_nodup
  have sub : ∀ k o, ((optEntry k o).map Prod.fst).Sublist [k] := by
    intro k o
    cases o with
    | none => exact List.nil_sublist _
    | some v => exact List.Sublist.refl _
  have h : ((["@type".toList] ++ (["@language".toList] ++ (["@direction".toList] ++ (["@value".toList] ++
    ["@index".toList])))) : List Str).Nodup := by decide
  refine List.Nodup.sublist ?_ h
  simp only [List.map_append]
  exact (sub _ _).append ((sub _ _).append ((sub _ _).append ((sub _ _).append (sub _ _))))

/-- The entries of a written value, expanded. -/
def valueX (v : Value) (i : Option Str) : List XEntry :=
  optX .type (valueParts v).1 ++ (optX .language (valueParts v).2.1 ++ (optX .direction (valueParts v).2.2.1 ++
    (optX .value (some (valueParts v).2.2.2) ++ optX .index (i.map .str))))

omit hc in
theorem foldl_pieces (a b d e x : List XEntry) {g : ValueState → XEntry → Except ValueErr ValueState}
    {s0 s1 s2 s3 s4 s5 : ValueState} (h1 : a.foldlM g s0 = .ok s1) (h2 : b.foldlM g s1 = .ok s2)
    (h3 : d.foldlM g s2 = .ok s3) (h4 : e.foldlM g s3 = .ok s4) (h5 : x.foldlM g s4 = .ok s5) :
    (a ++ (b ++ (d ++ (e ++ x)))).foldlM g s0 = .ok s5 := by
  rw [List.foldlM_append, h1]
  show (b ++ (d ++ (e ++ x))).foldlM g s1 = _
  rw [List.foldlM_append, h2]
  show (d ++ (e ++ x)).foldlM g s2 = _
  rw [List.foldlM_append, h3]
  show (e ++ x).foldlM g s3 = _
  rw [List.foldlM_append, h4]
  exact h5

omit hc in
theorem fold_opt {env : IriEnv} {voc : Action} {k : Keyword} {o : Option Json} {s s' : ValueState}
    (h : ∀ v, o = some v → valueStep env voc c s ⟨k.intoStr, .keyword k, v⟩ = .ok s') (h0 : o = none → s = s') :
    (optX k o).foldlM (valueStep env voc c) s = .ok s' := by
  cases o with
  | none => rw [← h0 rfl]; rfl
  | some v =>
    show [(⟨k.intoStr, .keyword k, v⟩ : XEntry)].foldlM (valueStep env voc c) s = _
    rw [List.foldlM_cons, h v rfl]
    rfl

omit hc in
/-- A written value is read back, if its type is. -/
theorem value_read {v : Value} {i : Option Str} {it : Option CTerm} {prop : Option Str} {s1 : ValueState}
    (ht : (optX .type (valueParts v).1).foldlM (valueStep E.toIriEnv E.opts.vocab c)
      { isJson := decide (it = some (.keyword .json)) } = .ok s1)
    (hs : s1.index = none ∧ s1.language = none ∧ s1.direction = none)
    (hl : ∀ s, v = .langString s → s.language ≠ some "@none".toList)
    (hr : ∀ l d, (∀ s, v = .langString s → l = s.language ∧ d = s.direction) →
      ((∀ s, v ≠ .langString s) → l = none ∧ d = none) →
      valueResult { isJson := s1.isJson, ty := s1.ty, index := i, language := l, direction := d }
        (valueParts v).2.2.2 = .ok (some (.value i v))) :
    elemKind E (unlimited E) c c prop it (valueX v i) = .ok (.object (.value i v)) := by
  obtain ⟨j1, t1, i1, l1, d1⟩ := s1
  obtain ⟨rfl, rfl, rfl⟩ := hs
  have hmem : ∀ k ∈ [Keyword.list, Keyword.set], ∀ e ∈ valueX v i, e.term ≠ .keyword k := by
    have hopt : ∀ k k' o, k ≠ k' → ∀ e ∈ optX k' o, e.term ≠ .keyword k := by
      intro k k' o hk e he
      cases o with
      | none => cases he
      | some x =>
        rw [List.mem_singleton.1 he]
        exact fun h => hk (by injection h with h; exact h.symm)
    intro k hk e he
    unfold valueX at he
    simp only [List.mem_append] at he
    simp only [List.mem_cons, List.not_mem_nil, or_false] at hk
    rcases hk with rfl | rfl
    all_goals
      rcases he with he | he | he | he | he
      all_goals exact hopt _ _ _ (by decide) e he
  have hnone : ∀ k ∈ [Keyword.list, Keyword.set], lastEntry k (valueX v i) = none := by
    intro k hk
    unfold lastEntry
    rw [List.filter_eq_nil_iff.2 fun e he => by simpa using hmem k hk e he]
    rfl
  have hval : lastEntry .value (valueX v i) = some (valueParts v).2.2.2 := by
    unfold lastEntry valueX
    generalize (valueParts v).1 = a
    generalize (valueParts v).2.1 = b
    generalize (valueParts v).2.2.1 = d
    generalize (valueParts v).2.2.2 = e
    generalize i.map Json.str = x
    cases a <;> cases b <;> cases d <;> cases x <;> rfl
  unfold elemKind
  rw [hnone .list (by decide), hnone .set (by decide), hval, ite_self]
  show elemValue E c it (valueX v i) _ = _
  unfold elemValue expandValue
  have key : ∃ l d, (∀ s, v = .langString s → l = s.language ∧ d = s.direction) ∧
      ((∀ s, v ≠ .langString s) → l = none ∧ d = none) ∧
      (valueX v i).foldlM (valueStep E.toIriEnv E.opts.vocab c)
        { isJson := decide (it = some (.keyword .json)) } =
      .ok { isJson := j1, ty := t1, index := i, language := l, direction := d } := by
    have fin : ∀ s4 : ValueState, s4.index = none → (optX .index (i.map .str)).foldlM
        (valueStep E.toIriEnv E.opts.vocab c) s4 = .ok { s4 with index := i } := by
      intro s4 h4
      obtain ⟨a1, a2, a3, a4, a5⟩ := s4
      cases h4
      cases i <;> rfl
    cases v with
    | literal l ty =>
      exact ⟨none, none, nofun, fun _ => ⟨rfl, rfl⟩, foldl_pieces _ _ _ _ _ ht rfl rfl rfl (fin _ rfl)⟩
    | json j =>
      exact ⟨none, none, nofun, fun _ => ⟨rfl, rfl⟩, foldl_pieces _ _ _ _ _ ht rfl rfl rfl (fin _ rfl)⟩
    | langString s =>
      obtain ⟨x, l, d⟩ := s
      have hl : l ≠ some "@none".toList := hl _ rfl
      refine ⟨l, d, fun s h => by cases h; exact ⟨rfl, rfl⟩, fun h => absurd rfl (h _),
        foldl_pieces _ _ _ _ _ ht (s2 := { isJson := j1, ty := t1, language := l }) ?_
          (s3 := { isJson := j1, ty := t1, language := l, direction := d }) ?_ rfl (fin _ rfl)⟩
      · refine fold_opt (fun v hv => ?_) fun h => ?_
        · cases l with
          | none => cases hv
          | some l =>
            cases hv
            show Except.ok (if l = "@none".toList then _ else _) = _
            rw [if_neg fun h => hl (by rw [h])]
        · cases l with
          | none => rfl
          | some l => cases h
      · cases d with
        | none => rfl
        | some d => cases d <;> rfl
  obtain ⟨l, d, h1, h2, h3⟩ := key
  rw [h3]
  show (match valueResult _ _ with | .error e => _ | .ok (some o) => _ | .ok none => _) = _
  rw [hr l d h1 h2]

omit hc in
theorem optEntry_keys_mem {k : Str} {o : Option Json} {x : Str} (h : x ∈ (optEntry k o).map Prod.fst) : x = k :=
  mem_optEntry_fst h

theorem value_ok (f : EnvFacts E.toIriEnv) {i : Option Str} {v : Value} (hv : GoodValue E.toIriEnv v)
    (hl : ∀ s, v = .langString s → s.language ≠ some "@none".toList) (prop : Option Str) (fm : Bool) :
    expandElement E c prop (Obj.toJson (.value i v)) fm = .ok (.object (.value i v)) := by
  rw [value_toJson]
  have hes := xEntries_append (xEntries_opt (E := E) (c := c) .type (valueParts v).1)
    (xEntries_append (xEntries_opt (E := E) (c := c) .language (valueParts v).2.1)
    (xEntries_append (xEntries_opt (E := E) (c := c) .direction (valueParts v).2.2.1)
    (xEntries_append (xEntries_opt (E := E) (c := c) .value (some (valueParts v).2.2.2))
    (xEntries_opt (E := E) (c := c) .index (i.map .str)))))
  have hctx : "@context".toList ∉ (optEntry Keyword.type.intoStr (valueParts v).1 ++
      (optEntry Keyword.language.intoStr (valueParts v).2.1 ++
      (optEntry Keyword.direction.intoStr (valueParts v).2.2.1 ++
        (optEntry Keyword.value.intoStr (some (valueParts v).2.2.2) ++
          optEntry Keyword.index.intoStr (i.map .str))))).map Prod.fst := by
    simp only [List.map_append, List.mem_append, not_or]
    refine ⟨?_, ?_, ?_, ?_, ?_⟩ <;> exact fun h => absurd (mem_optEntry_fst h) (by decide)
  have htypes : typesOf (optEntry Keyword.type.intoStr (valueParts v).1 ++
      (optEntry Keyword.language.intoStr (valueParts v).2.1 ++
      (optEntry Keyword.direction.intoStr (valueParts v).2.2.1 ++
        (optEntry Keyword.value.intoStr (some (valueParts v).2.2.2) ++
          optEntry Keyword.index.intoStr (i.map .str))))) = optEntry "@type".toList (valueParts v).1 := by
    unfold typesOf
    generalize (valueParts v).1 = a
    generalize (valueParts v).2.1 = b
    generalize (valueParts v).2.2.1 = d
    generalize (valueParts v).2.2.2 = e
    generalize i.map Json.str = x
    cases a <;> cases b <;> cases d <;> cases x <;> rfl
  have go : ∀ it, inputType E c (optEntry "@type".toList (valueParts v).1) = .ok it →
      elemKind E (unlimited E) c c prop it (valueX v i) = .ok (.object (.value i v)) →
      expandElement E c prop (.obj (optEntry Keyword.type.intoStr (valueParts v).1 ++
      (optEntry Keyword.language.intoStr (valueParts v).2.1 ++
      (optEntry Keyword.direction.intoStr (valueParts v).2.2.1 ++
        (optEntry Keyword.value.intoStr (some (valueParts v).2.2.2) ++
          optEntry Keyword.index.intoStr (i.map .str)))))) fm = .ok (.object (.value i v)) := by
    intro it h1 h2
    rw [empty_obj hc hctx (it := it) (by rw [htypes]; exact h1) hes]
    exact h2
  cases v with
  | literal l ty =>
    have hn : l ≠ .null := hv.1
    have hs : scalarOf l.toJson = .ok l := by cases l <;> rfl
    have hres : ∀ t, valueResult { isJson := false, ty := t, index := i, language := none, direction := none }
        l.toJson = .ok (some (.value i (.literal l t))) := by
      intro t
      unfold valueResult
      rw [hs]
      cases l with
      | null => exact absurd rfl hn
      | bool b => rfl
      | num n => rfl
      | str x => rfl
    cases ty with
    | none =>
      refine go none rfl (value_read (s1 := { isJson := false }) rfl ⟨rfl, rfl, rfl⟩ nofun fun l d _ h => ?_)
      obtain ⟨rfl, rfl⟩ := h nofun
      exact hres none
    | some t =>
      have ht : E.isIri t = true := hv.2 t rfl
      have hx : ∀ dr v, expandIri E.toIriEnv c (some (.ofStr t)) dr v = .ok (some (.id (.iri t))) :=
        fixed_valid hc f (i := .iri t) ht rfl
      refine go (some (.id (.iri t))) ?_ (value_read (s1 := { isJson := false, ty := some t }) ?_ ⟨rfl, rfl, rfl⟩ nofun
        fun l d _ h => ?_)
      · show xKey E c t = _
        unfold xKey xIri
        rw [hx]
      · refine fold_opt (fun v hv => ?_) nofun
        cases hv
        show valueType E.toIriEnv E.opts.vocab c _ (.str t) = _
        simp only [valueType, hx]
      · obtain ⟨rfl, rfl⟩ := h nofun
        exact hres (some t)
  | langString s =>
    refine go none rfl (value_read (s1 := { isJson := false }) rfl ⟨rfl, rfl, rfl⟩ hl fun l d h _ => ?_)
    obtain ⟨rfl, rfl⟩ := h s rfl
    obtain ⟨x, l, d⟩ := s
    have hg : l ≠ none ∨ d ≠ none := hv
    cases l <;> cases d
    · simp at hg
    all_goals rfl
  | json j =>
    refine go (some (.keyword .json)) (xKey_kw .json) (value_read (s1 := { isJson := true }) ?_ ⟨rfl, rfl, rfl⟩
      nofun fun l d _ h => ?_)
    · refine fold_opt (fun v hv => ?_) nofun
      cases hv
      rfl
    · obtain ⟨rfl, rfl⟩ := h nofun
      rfl

/-! ## Lists -/

omit hc in
theorem list_toJson (i : Option Str) (l : List Obj) : Obj.toJson (.list i l) =
    .obj (optEntry Keyword.list.intoStr (some (.arr (l.map Obj.toJson))) ++
      optEntry Keyword.index.intoStr (i.map .str)) := by
  unfold Obj.toJson
  rw [indexEntry_eq, objsToJson_eq]
  congr 1
  apply jObject_nodup
  cases i
  · exact List.nodup_singleton _
  · exact (by decide : ["@list".toList, "@index".toList].Nodup)

theorem list_ok {i : Option Str} {l : List Obj} {prop : Option Str} (hp : noProp prop = false) (fm : Bool)
    (h : ∀ o ∈ l, expandElement E c prop o.toJson false = .ok (.object o)) :
    expandElement E c prop (Obj.toJson (.list i l)) fm = .ok (.object (.list i l)) := by
  rw [list_toJson]
  have hes := xEntries_append (xEntries_opt (E := E) (c := c) .list (some (.arr (l.map Obj.toJson))))
    (xEntries_opt (E := E) (c := c) .index (i.map .str))
  have hctx : "@context".toList ∉ (optEntry Keyword.list.intoStr (some (.arr (l.map Obj.toJson))) ++
      optEntry Keyword.index.intoStr (i.map .str)).map Prod.fst := by
    simp only [List.map_append, List.mem_append, not_or]
    refine ⟨?_, ?_⟩ <;> exact fun h => absurd (mem_optEntry_fst h) (by decide)
  obtain ⟨it, hit⟩ := inputType_ok (E := E) hc (typesOf (optEntry Keyword.list.intoStr
    (some (.arr (l.map Obj.toJson))) ++ optEntry Keyword.index.intoStr (i.map .str)))
  rw [empty_obj hc hctx hit hes]
  unfold elemKind
  rw [hp]
  have h1 : lastEntry .list (optX .list (some (.arr (l.map Obj.toJson))) ++ optX .index (i.map .str)) =
      some (.arr (l.map Obj.toJson)) := by cases i <;> rfl
  simp only [Bool.false_eq_true, if_false, h1]
  unfold elemList
  have h2 : listIndex none (optX .list (some (.arr (l.map Obj.toJson))) ++ optX .index (i.map .str)) = .ok i := by
    cases i <;> rfl
  rw [h2]
  show (xItems (unlimited E) c prop false (l.map Obj.toJson)).map _ = _
  rw [items_ok h]
  rfl

/-! ## Nodes -/

section
variable {prop : Option Str} (hp : prop ≠ some "@reverse".toList)
include hp

omit hc in
theorem step_kw {st : XState} {k : Keyword} {v : Json} (hk : st.node.hasKeyword k = false) (hx : k ≠ .context) :
    entryStep E (unlimited E) c c prop st ⟨k.intoStr, .keyword k, v⟩ =
      keywordEntry E (unlimited E) c c prop k.intoStr k v st := by
  unfold entryStep
  cases k <;> first
    | exact absurd rfl hx
    | (simp only [hk, Bool.and_false, if_neg hp, Bool.false_eq_true, if_false])

omit hc in
theorem step_opt {st st' : XState} {k : Keyword} {o : Option Json} (hk : st.node.hasKeyword k = false)
    (hx : k ≠ .context) (h0 : o = none → st = st')
    (h : ∀ v, o = some v → keywordEntry E (unlimited E) c c prop k.intoStr k v st = .ok st') :
    (optX k o).foldlM (entryStep E (unlimited E) c c prop) st = .ok st' := by
  cases o with
  | none => rw [← h0 rfl]; rfl
  | some v =>
    show [(⟨k.intoStr, .keyword k, v⟩ : XEntry)].foldlM _ st = _
    rw [List.foldlM_cons, step_kw hp hk hx, h v rfl]
    rfl

omit hp in
theorem fixed_prop (f : EnvFacts E.toIriEnv) {p : Id} (hi : GoodId E.toIriEnv p) (ha : Absolute E p) :
    xKey E c p.str = .ok (some (.id p)) := by
  unfold xKey xIri
  cases hv : p.isValid with
  | true => rw [fixed_valid hc f hi hv]
  | false =>
    cases p with
    | iri s => cases hv
    | blank s => cases hv
    | invalid s => rw [show (Id.invalid s).str = s from rfl, fixed_invalid hc hi (keywordLike_colon ha.1) (.inl rfl)]

theorem node_id (f : EnvFacts E.toIriEnv) {id : Option Id} (hg : ∀ i, id = some i → GoodId E.toIriEnv i)
    (hs : ∀ i, id = some i → i.isValid = true ∨ c.base = none ∧
      (isKeywordLike i.str = true → isKeyword i.str = true)) :
    (optX .id (id.map Id.toJson)).foldlM (entryStep E (unlimited E) c c prop)
      ⟨.mk none none none none none [] none, false⟩ = .ok ⟨.mk none id none none none [] none, false⟩ := by
  refine step_opt hp rfl (by decide) (fun h => ?_) fun v hv => ?_
  · cases id with
    | none => rfl
    | some i => cases h
  · cases id with
    | none => cases hv
    | some i =>
      cases hv
      show keyId E c (.str i.str) _ = _
      unfold keyId
      have key : ∃ t, xIri E c i.str true none = .ok (some t) ∧ nodeIdOfTerm t = some i := by
        unfold xIri
        cases hv : i.isValid with
        | true => exact ⟨.id i, by rw [fixed_valid hc f (hg i rfl) hv], rfl⟩
        | false =>
          rcases hs i rfl with h | ⟨h, hk⟩
          · rw [h] at hv; cases hv
          cases i with
          | iri s => cases hv
          | blank s => cases hv
          | invalid s =>
            cases hl : isKeywordLike s with
            | false => exact ⟨.id (.invalid s), by
                rw [show (Id.invalid s).str = s from rfl, fixed_invalid hc (hg _ rfl) hl (.inr h)], rfl⟩
            | true =>
              have h2 := hk hl
              unfold isKeyword at h2
              obtain ⟨k, hk⟩ := Option.isSome_iff_exists.1 h2
              have hk : Keyword.tryFrom s = some k := hk
              refine ⟨.keyword k, ?_, ?_⟩
              · show (match expandIri E.toIriEnv c (some (.ofStr s)) true none with | .ok t => _ | .error _ => _) = _
                unfold Expandable.ofStr
                rw [hk]
                rfl
              · show some (Id.invalid k.intoStr) = _
                rw [(C01_exact s k).1 hk]
      obtain ⟨t, h1, h2⟩ := key
      simp only [h1]
      show Except.ok (XState.mk (Node.setId (nodeIdOfTerm t) _) _) = _
      rw [h2]
      rfl

omit hp in
theorem type_fold (f : EnvFacts E.toIriEnv) {ts : List Id} (hg : ∀ t ∈ ts, GoodId E.toIriEnv t)
    (hs : ∀ t ∈ ts, t.isValid = true ∨ c.base = none ∧ E.opts.invalid = .keep ∧ isKeywordLike t.str = false)
    {i id : _} {pre : Option (List Id)} {g inc ps rv b} :
    (ts.map Id.toJson).foldlM (keyType1 E c) ⟨.mk i id pre g inc ps rv, b⟩ =
      .ok ⟨.mk i id (if ts = [] then pre else some (pre.getD [] ++ ts)) g inc ps rv, b⟩ := by
  induction ts generalizing pre with
  | nil => rfl
  | cons t ts ih =>
    rw [List.map_cons, List.foldlM_cons]
    have h1 : keyType1 E c ⟨.mk i id pre g inc ps rv, b⟩ t.toJson =
        .ok ⟨.mk i id (some (pre.getD [] ++ [t])) g inc ps rv, b⟩ := by
      show keyType1 E c _ (.str t.str) = _
      unfold keyType1 xIri
      cases hv : t.isValid with
      | true =>
        simp only [fixed_valid hc f (hg t (by simp)) hv]
        cases t with
        | iri s => rfl
        | blank s => rfl
        | invalid s => cases hv
      | false =>
        rcases hs t (by simp) with h | ⟨h, hi, hk⟩
        · rw [h] at hv; cases hv
        cases t with
        | iri s => cases hv
        | blank s => cases hv
        | invalid s =>
          simp only [show (Id.invalid s).str = s from rfl, fixed_invalid hc (hg (.invalid s) (by simp)) hk (.inr h)]
          show (match E.opts.invalid with | .keep => _ | .drop => _ | .reject => _) = _
          rw [hi]
          rfl
    rw [h1]
    show (ts.map Id.toJson).foldlM (keyType1 E c) _ = _
    rw [ih (fun t ht => hg t (by simp [ht])) fun t ht => hs t (by simp [ht])]
    by_cases h : ts = []
    · subst h; simp
    · simp [h]

theorem node_type (f : EnvFacts E.toIriEnv) {ty : Option (List Id)} (hne : ty ≠ some [])
    (hg : ∀ ts, ty = some ts → ∀ t ∈ ts, GoodId E.toIriEnv t)
    (hs : ∀ ts, ty = some ts → ∀ t ∈ ts,
      t.isValid = true ∨ c.base = none ∧ E.opts.invalid = .keep ∧ isKeywordLike t.str = false) {id : Option Id} :
    (optX .type (ty.map fun ts => .arr (ts.map Id.toJson))).foldlM (entryStep E (unlimited E) c c prop)
      ⟨.mk none id none none none [] none, false⟩ = .ok ⟨.mk none id ty none none [] none, false⟩ := by
  refine step_opt hp rfl (by decide) (fun h => ?_) fun v hv => ?_
  · cases ty with
    | none => rfl
    | some i => cases h
  · cases ty with
    | none => cases hv
    | some ts =>
      cases hv
      show (ts.map Id.toJson).foldlM (keyType1 E c) _ = _
      rw [type_fold hc f (hg ts rfl) (hs ts rfl), if_neg fun h => hne (by rw [h])]
      rfl

theorem node_graph {g : Option (List Obj)} {id ty}
    (hw : ∀ l, g = some l → l.Pairwise (fun a b => b.eq a = false))
    (hn : ∀ l, g = some l → ∀ o ∈ l, Says o)
    (h : ∀ l, g = some l → ∀ o ∈ l, expandElement E c (some "@graph".toList) o.toJson false = .ok (.object o)) :
    (optX .graph (g.map fun l => .arr (l.map Obj.toJson))).foldlM (entryStep E (unlimited E) c c prop)
      ⟨.mk none id ty none none [] none, false⟩ = .ok ⟨.mk none id ty g none [] none, false⟩ := by
  refine step_opt hp rfl (by decide) (fun h => ?_) fun v hv => ?_
  · cases g with
    | none => rfl
    | some i => cases h
  · cases g with
    | none => cases hv
    | some l =>
      cases hv
      show keyGraph (unlimited E) c _ _ = _
      unfold keyGraph
      have h1 : (unlimited E).elem c (some "@graph".toList) (.arr (l.map Obj.toJson)) false = .ok (.array l) :=
        arr_ok hc (h l rfl)
      have h2 : l.filter topLevel = l := by
        apply List.filter_eq_self.2
        intro o ho
        obtain ⟨n, rfl, -⟩ := hn l rfl o ho
        rfl
      rw [h1]
      show Except.ok (XState.mk (Node.setGraphEntry (some (setCollect Obj.eq (l.filter topLevel))) _) _) = _
      rw [h2, setCollect_of_pairwise (hw l rfl)]
      rfl

omit hc hp in
theorem asNodes_map (e : XErr) (ns : List Node) : asNodes e (ns.map Obj.node) = .ok ns := by
  induction ns with
  | nil => rfl
  | cons n ns ih =>
    rw [List.map_cons]
    unfold asNodes
    rw [ih]
    rfl

omit hp in
theorem rev_step (f : EnvFacts E.toIriEnv) {p : Id} {ns : List Node} (hi : GoodId E.toIriEnv p) (ha : Absolute E p)
    (h : ∀ n ∈ ns, expandElement E c (some p.str) n.toJson false = .ok (.object (.node n))) (st : XState) :
    reverseStep E (unlimited E) c st (p.str, .arr (ns.map Node.toJson)) =
      .ok { st with node := st.node.insertRev p ns } := by
  have h1 : (unlimited E).elem c (some p.str) (.arr (ns.map Node.toJson)) false = .ok (.array (ns.map .node)) := by
    have := arr_ok (E := E) hc (prop := some p.str) (os := ns.map .node) (by
      intro o ho
      obtain ⟨n, hn, rfl⟩ := List.mem_map.1 ho
      exact h n hn)
    rw [List.map_map] at this
    exact this
  have h2 : reverseProp (unlimited E) c p p.str (.arr (ns.map Node.toJson)) st =
      .ok { st with node := st.node.insertRev p ns } := by
    unfold reverseProp
    rw [h1, empty_get hc]
    show addReverse p (ns.map Obj.node) st = _
    unfold addReverse
    rw [asNodes_map]
    rfl
  unfold reverseStep
  show (xKey E c p.str).bind _ = _
  rw [fixed_prop hc f hi ha]
  have h3 : p.str.contains ':' = true := by simpa using ha.1
  show (if p.str.contains ':' then _ else _) = _
  rw [if_pos h3]
  cases hv : p.isValid with
  | true => rw [if_pos rfl]; exact h2
  | false =>
    rw [if_neg (by decide)]
    rcases ha.2 with hk | hk
    · rw [hk]; exact h2
    · cases p with
      | iri s => cases hv
      | blank s => cases hv
      | invalid s => exact absurd rfl (hk s)

omit hp in
theorem rev_fold (f : EnvFacts E.toIriEnv) {r pre : List (Id × List Node)} (hn : ((pre ++ r).map Prod.fst).Nodup)
    (hi : ∀ p ∈ r, GoodId E.toIriEnv p.1) (ha : ∀ p ∈ r, Absolute E p.1)
    (h : ∀ p ∈ r, ∀ n ∈ p.2, expandElement E c (some p.1.str) n.toJson false = .ok (.object (.node n)))
    {i id ty g inc ps b} :
    (rpsToJson r).foldlM (reverseStep E (unlimited E) c) ⟨.mk i id ty g inc ps (some pre), b⟩ =
      .ok ⟨.mk i id ty g inc ps (some (pre ++ r)), b⟩ := by
  rw [rpsToJson_eq]
  induction r generalizing pre with
  | nil => rw [List.append_nil]; rfl
  | cons p r ih =>
    rw [List.map_cons, List.foldlM_cons, rev_step hc f (hi p (by simp)) (ha p (by simp)) (h p (by simp))]
    show (r.map _).foldlM (reverseStep E (unlimited E) c)
      ⟨.mk i id ty g inc ps (some (insertAll p.1 p.2 pre)), b⟩ = _
    have hf : p.1 ∉ pre.map Prod.fst := by
      rw [List.map_append, List.map_cons] at hn
      intro hm
      exact (List.nodup_append.1 hn).2.2 _ hm _ (by simp) rfl
    rw [insertAll_fresh hf, ih (by simpa using hn) (fun q hq => hi q (by simp [hq])) (fun q hq => ha q (by simp [hq]))
      fun q hq => h q (by simp [hq])]
    simp

omit hc hp in
theorem sortIf_sorted {α : Type} {b : Bool} {key : α → Str} {l : List α}
    (h : b = true → l.Pairwise fun x y => key x ≤ key y) : sortIf b key l = l := by
  unfold sortIf sortByKey
  split
  · rename_i hb
    exact List.Pairwise.insertionSort_eq (h hb)
  · rfl

omit hc hp in
theorem rpsToJson_sorted {r : List (Id × List Node)} (h : r.Pairwise fun p q => p.1.str ≤ q.1.str) :
    (rpsToJson r).Pairwise fun x y => x.1 ≤ y.1 := by
  rw [rpsToJson_eq, List.pairwise_map]
  exact h

theorem node_rev (f : EnvFacts E.toIriEnv) {rv : Option (List (Id × List Node))} {id ty g}
    (ho : E.opts.ordered = true → ∀ r, rv = some r → r.Pairwise fun p q => p.1.str ≤ q.1.str) (hne : rv ≠ some []) (hn : ∀ r, rv = some r → (r.map Prod.fst).Nodup)
    (hi : ∀ r, rv = some r → ∀ p ∈ r, GoodId E.toIriEnv p.1) (ha : ∀ r, rv = some r → ∀ p ∈ r, Absolute E p.1)
    (h : ∀ r, rv = some r → ∀ p ∈ r, ∀ n ∈ p.2,
      expandElement E c (some p.1.str) n.toJson false = .ok (.object (.node n))) :
    (optX .reverse (rv.map fun l => .obj (jObject (rpsToJson l)))).foldlM (entryStep E (unlimited E) c c prop)
      ⟨.mk none id ty g none [] none, false⟩ = .ok ⟨.mk none id ty g none [] rv, false⟩ := by
  refine step_opt hp rfl (by decide) (fun h => ?_) fun v hv => ?_
  · cases rv with
    | none => rfl
    | some i => cases h
  · cases rv with
    | none => cases hv
    | some r =>
      cases hv
      have hj : jObject (rpsToJson r) = rpsToJson r := by
        apply jObject_nodup
        rw [rpsToJson_eq, List.map_map]
        exact nodup_strs (hn r rfl) (hi r rfl)
      show keyReverse E (unlimited E) c (.obj (jObject (rpsToJson r))) _ = _
      rw [hj]
      unfold keyReverse
      simp only [sortIf_sorted fun h => rpsToJson_sorted (ho h r rfl)]
      cases r with
      | nil => exact absurd rfl hne
      | cons p r =>
        have := rev_fold hc f (pre := []) (hn _ rfl) (hi _ rfl) (ha _ rfl) (h _ rfl) (i := none) (id := id) (ty := ty)
          (g := g) (inc := none) (ps := []) (b := false)
        rw [List.nil_append] at this
        rw [← this, rpsToJson_eq, List.map_cons, List.foldlM_cons, List.foldlM_cons,
          rev_step hc f (hi _ rfl p (by simp)) (ha _ rfl p (by simp)) (h _ rfl p (by simp)),
          rev_step hc f (hi _ rfl p (by simp)) (ha _ rfl p (by simp)) (h _ rfl p (by simp))]
        rfl

omit hp in
theorem prop_step {p : Id} {os : List Obj} (ha : Absolute E p)
    (h : ∀ o ∈ os, expandElement E c (some p.str) o.toJson false = .ok (.object o)) (st : XState) :
    entryStep E (unlimited E) c c prop st ⟨p.str, .id p, .arr (os.map Obj.toJson)⟩ =
      .ok { st with node := st.node.insertProp p os } := by
  have h1 : (unlimited E).elem c (some p.str) (.arr (os.map Obj.toJson)) false = .ok (.array os) := arr_ok hc h
  have h2 : propEntry E (unlimited E) c p.str p (.arr (os.map Obj.toJson)) st =
      .ok { st with node := st.node.insertProp p os } := by
    unfold propEntry
    rw [empty_get hc]
    show ((unlimited E).elem c (some p.str) (.arr (os.map Obj.toJson)) false).bind _ = _
    rw [h1]
    rfl
  unfold entryStep
  have h3 : p.str.contains ':' = true := by simpa using ha.1
  show (if p.str.contains ':' then _ else _) = _
  rw [if_pos h3]
  cases p with
  | iri s => exact h2
  | blank s => exact h2
  | invalid s =>
    unfold idEntry
    rcases ha.2 with hk | hk
    · simp only [hk]; exact h2
    · exact absurd rfl (hk s)

omit hp in
theorem prop_fold {l pre : List (Id × List Obj)} (hn : ((pre ++ l).map Prod.fst).Nodup)
    (ha : ∀ p ∈ l, Absolute E p.1)
    (h : ∀ p ∈ l, ∀ o ∈ p.2, expandElement E c (some p.1.str) o.toJson false = .ok (.object o))
    {i id ty g inc rv b} :
    (l.map fun p => (⟨p.1.str, .id p.1, .arr (p.2.map Obj.toJson)⟩ : XEntry)).foldlM
      (entryStep E (unlimited E) c c prop) ⟨.mk i id ty g inc pre rv, b⟩ =
      .ok ⟨.mk i id ty g inc (pre ++ l) rv, b⟩ := by
  induction l generalizing pre with
  | nil => rw [List.append_nil]; rfl
  | cons p r ih =>
    rw [List.map_cons, List.foldlM_cons, prop_step hc (ha p (by simp)) (h p (by simp))]
    show (r.map _).foldlM (entryStep E (unlimited E) c c prop)
      ⟨.mk i id ty g inc (insertAll p.1 p.2 pre) rv, b⟩ = _
    have hf : p.1 ∉ pre.map Prod.fst := by
      rw [List.map_append, List.map_cons] at hn
      intro hm
      exact (List.nodup_append.1 hn).2.2 _ hm _ (by simp) rfl
    rw [insertAll_fresh hf, ih (by simpa using hn) (fun q hq => ha q (by simp [hq])) fun q hq => h q (by simp [hq])]
    simp

omit hc in
theorem node_index {i : Option Str} {id ty g ps rv} :
    (optX .index (i.map .str)).foldlM (entryStep E (unlimited E) c c prop)
      ⟨.mk none id ty g none ps rv, false⟩ = .ok ⟨.mk i id ty g none ps rv, false⟩ := by
  refine step_opt hp rfl (by decide) (fun h => ?_) fun v hv => ?_
  · cases i with
    | none => rfl
    | some i => cases h
  · cases i with
    | none => cases hv
    | some r =>
      cases hv
      rfl

omit hc hp in
theorem fold_pieces6 {σ ε : Type} {a b d e x y : List XEntry} {t : σ → XEntry → Except ε σ}
    {s0 s1 s2 s3 s4 s5 s6 : σ} (h1 : a.foldlM t s0 = .ok s1) (h2 : b.foldlM t s1 = .ok s2)
    (h3 : d.foldlM t s2 = .ok s3) (h4 : e.foldlM t s3 = .ok s4) (h5 : x.foldlM t s4 = .ok s5)
    (h6 : y.foldlM t s5 = .ok s6) :
    (a ++ (b ++ (d ++ (e ++ (x ++ y))))).foldlM t s0 = .ok s6 := by
  rw [List.foldlM_append, h1]
  show (b ++ (d ++ (e ++ (x ++ y)))).foldlM t s1 = _
  rw [List.foldlM_append, h2]
  show (d ++ (e ++ (x ++ y))).foldlM t s2 = _
  rw [List.foldlM_append, h3]
  show (e ++ (x ++ y)).foldlM t s3 = _
  rw [List.foldlM_append, h4]
  show (x ++ y).foldlM t s4 = _
  rw [List.foldlM_append, h5]
  exact h6

end

/-- What is asked of each item of a document to be left as it is. -/
structure Stays (E : XEnv) (c : ACtx) (x : Item) : Prop where
  values : ∀ i v, x = .obj (.value i v) → GoodValue E.toIriEnv v
  languages : ∀ i s, x = .obj (.value i (.langString s)) → s.language ≠ some "@none".toList
  ids : ∀ n, x = .node n → NodeIdsOk E.isIri E.isBlank n
  nodes : ∀ n, x = .node n → SettledNode E c n
  keys : ∀ n, x = .node n → AbsoluteKeys E n
  types : ∀ n, x = .node n → n.types ≠ some []
  rev : ∀ n, x = .node n → n.rev ≠ some []
  sorted : ∀ n, x = .node n → E.opts.ordered = true → ∀ r, n.rev = some r → r.Pairwise fun p q => p.1.str ≤ q.1.str

omit hc in
theorem mem_optX {k k' : Keyword} {o : Option Json} (h : k ≠ k') : ∀ e ∈ optX k' o, e.term ≠ .keyword k := by
  intro e he
  cases o with
  | none => cases he
  | some x =>
    rw [List.mem_singleton.1 he]
    exact fun h' => h (by injection h' with h'; exact h'.symm)

omit hc in
theorem lastEntry_none {k : Keyword} {es : List XEntry} (h : ∀ e ∈ es, e.term ≠ .keyword k) :
    lastEntry k es = none := by
  unfold lastEntry
  rw [List.filter_eq_nil_iff.2 fun e he => by simpa using h e he]
  rfl

theorem reexpand (f : EnvFacts E.toIriEnv) :
    (∀ o : Obj, o.WF → (∀ y, Relation.ReflTransGen PartL y (.obj o) → Stays E c y) →
      ∀ prop fm, prop ≠ some "@reverse".toList → (noProp prop = true → Says o) →
        expandElement E c prop o.toJson fm = .ok (.object o)) ∧
    (∀ n : Node, n.WF → (∀ y, Relation.ReflTransGen PartL y (.node n) → Stays E c y) →
      ∀ prop fm, prop ≠ some "@reverse".toList → (noProp prop = true → Says (.node n)) →
        expandElement E c prop n.toJson fm = .ok (.object (.node n))) := by
  have colon : ∀ {p : Id}, Absolute E p → some p.str ≠ some "@reverse".toList ∧ noProp (some p.str) = false := by
    intro p ha
    have h1 : ∀ k : Str, ':' ∉ k → p.str ≠ k := fun k hk h => hk (h ▸ ha.1)
    refine ⟨fun h => h1 _ (by decide) (Option.some.inj h), ?_⟩
    unfold noProp
    rw [decide_eq_false fun h => h1 _ (by decide) (Option.some.inj h)]
    rfl
  apply Doc.ind
  · intro i v _ hk prop fm _ _
    have h := hk _ .refl
    exact value_ok hc f (h.values i v rfl) (fun s hs => h.languages i s (by rw [hs])) prop fm
  · intro i l ih hw hk prop fm hp hs
    have hw : objsWF l := hw
    have hn : noProp prop = false := by
      cases h : noProp prop with
      | false => rfl
      | true => obtain ⟨n, h, -⟩ := hs h; cases h
    exact list_ok hc hn fm fun o hm => ih o hm (objsWF_iff.1 hw o hm)
      (fun y hy => hk y (hy.tail (.item hm))) prop false hp (fun h => by rw [hn] at h; cases h)
  · intro n ih hw hk prop fm hp hs
    exact ih hw (fun y hy => hk y (hy.tail (.part (.self n)))) prop fm hp hs
  · intro i id ty g inc ps rv hg hinc hps hrv hw hk prop fm hp hs
    have hkept := hk _ .refl
    have hset := hkept.nodes _ rfl
    have hids := hkept.ids _ rfl
    have hkeys := hkept.keys _ rfl
    have : inc = none := hset.included
    subst this
    obtain ⟨hwg, -, hwn, hwp, hwr⟩ := hw
    have hne : ty ≠ some [] := hkept.types _ rfl
    rw [Node.toJson_eq hne hwn hids.props (fun p hp hr => by
      have := (hkeys.props p hp).1
      generalize p.1.str = k at this hr
      revert this
      simp only [reserved, List.mem_cons, List.not_mem_nil, or_false] at hr
      rcases hr with rfl | rfl | rfl | rfl | rfl | rfl | rfl | rfl | rfl <;> decide)]
    have hes : xEntries E c (nodeEntries id ty g ps rv i) = .ok _ :=
      xEntries_append (xEntries_opt (E := E) (c := c) .id _) (xEntries_append (xEntries_opt .type _)
        (xEntries_append (xEntries_opt .graph _) (xEntries_append (xEntries_opt .reverse _)
          (xEntries_append (xEntries_props fun p hp => fixed_prop hc f (hids.props p hp) (hkeys.props p hp))
            (xEntries_opt .index _)))))
    have hctx : "@context".toList ∉ (nodeEntries id ty g ps rv i).map Prod.fst := by
      unfold nodeEntries
      simp only [List.map_append, List.mem_append, not_or]
      refine ⟨?_, ?_, ?_, ?_, ?_, ?_⟩
      iterate 4 exact fun h => absurd (mem_optEntry_fst h) (by decide)
      · rw [psToJson_eq]
        intro h
        obtain ⟨e, he, h⟩ := List.mem_map.1 h
        obtain ⟨p, hp, rfl⟩ := List.mem_map.1 he
        have h : p.1.str = "@context".toList := h
        have := (hkeys.props p hp).1
        rw [h] at this
        exact absurd this (by decide)
      · exact fun h => absurd (mem_optEntry_fst h) (by decide)
    obtain ⟨it, hit⟩ := inputType_ok (E := E) hc (typesOf (nodeEntries id ty g ps rv i))
    rw [empty_obj hc hctx hit hes]
    have hnone : ∀ k ∈ [Keyword.list, Keyword.set, Keyword.value], lastEntry k
        (optX .id (id.map Id.toJson) ++ (optX .type (ty.map fun ts => .arr (ts.map Id.toJson)) ++
          (optX .graph (g.map fun l => .arr (l.map Obj.toJson)) ++
            (optX .reverse (rv.map fun l => .obj (jObject (rpsToJson l))) ++
              ((ps.map fun p => ⟨p.1.str, .id p.1, .arr (p.2.map Obj.toJson)⟩) ++ optX .index (i.map .str)))))) =
        none := by
      intro k hk
      apply lastEntry_none
      intro e he
      simp only [List.mem_append] at he
      have hk : k ≠ .id ∧ k ≠ .type ∧ k ≠ .graph ∧ k ≠ .reverse ∧ k ≠ .index := by
        simp only [List.mem_cons, List.not_mem_nil, or_false] at hk
        rcases hk with rfl | rfl | rfl <;> decide
      rcases he with he | he | he | he | he | he
      · exact mem_optX hk.1 e he
      · exact mem_optX hk.2.1 e he
      · exact mem_optX hk.2.2.1 e he
      · exact mem_optX hk.2.2.2.1 e he
      · obtain ⟨p, -, rfl⟩ := List.mem_map.1 he
        exact nofun
      · exact mem_optX hk.2.2.2.2 e he
    unfold elemKind
    rw [hnone .list (by decide), hnone .set (by decide), hnone .value (by decide), ite_self]
    show expandNode E (unlimited E) c c prop _ = _
    unfold expandNode entriesBody
    rw [fold_pieces6 (node_id (id := id) hc hp f hids.id hset.id) (node_type hc hp f hne hids.types hset.types)
      (node_graph (g := g) hc hp (fun l hl => by subst hl; exact hwg.1) hset.graph (fun l hl o hm =>
        hg l hl o hm (by subst hl; exact objsWF_iff.1 hwg.2 o hm) (fun y hy => hk y (hy.tail (.part (.graph hl hm))))
          _ _ (by decide) fun _ => hset.graph l hl o hm))
      (node_rev (rv := rv) hc hp f (hkept.sorted _ rfl) (hkept.rev _ rfl) (fun r hr => by subst hr; exact hwr.1) hids.rev hkeys.rev
        (fun r hr p hm n hn => hrv r hr p hm n hn (by subst hr; exact rpsWF_iff.1 hwr.2 p hm n hn)
          (fun y hy => hk y (hy.tail (.part (.reverse hr hm hn)))) _ _ (colon (hkeys.rev r hr p hm)).1
            fun h => by rw [(colon (hkeys.rev r hr p hm)).2] at h; cases h))
      (prop_fold (l := ps) hc (pre := []) (by simpa using hwn) hkeys.props (fun p hm o hn =>
        hps p hm o hn (psWF_iff.1 hwp p hm o hn) (fun y hy => hk y (hy.tail (.part (.property hm hn)))) _ _
          (colon (hkeys.props p hm)).1 fun h => by rw [(colon (hkeys.props p hm)).2] at h; cases h))
      (node_index (i := i) hp)]
    show Except.ok (nodeResult prop _) = _
    congr 1
    unfold nodeResult
    rw [if_neg (by simp), if_neg]
    · rfl
    · intro h
      rw [Bool.and_eq_true] at h
      obtain ⟨n, hn, h1⟩ := hs h.1
      injection hn with hn
      subst hn
      simp only [List.nil_append] at h
      rw [Bool.and_eq_true] at h
      rcases h1 with h1 | h1
      · rw [h.2.1] at h1; cases h1
      · simp [Option.isNone_iff_eq_none.1 h.2.2] at h1

end
end JsonLd
