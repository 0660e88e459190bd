import Verif.Proofs.Faults
/-!
# C76: errors of expansion name their cause
-/

namespace JsonLd.Props
open JsonLd.Spec Relation

/-- C76: when expansion fails, the document has a fault of which the error tells the kind: a place reached from
the top where a context, a key or a value is not allowed. -/
theorem C76_cause (E : XEnv) (c : ACtx) (j : Json) (e : XErr) (h : expandDoc E c j = .error e) :
    Faulty E c j e := expandDoc_fault h

/-- C76: documents without a fault are expanded. -/
theorem C76_accepted (E : XEnv) (c : ACtx) (j : Json) (h : ∀ e, ¬ Faulty E c j e) :
    ∃ d, expandDoc E c j = .ok d := by
  cases hx : expandDoc E c j with
  | ok d => exact ⟨d, rfl⟩
  | error e => exact absurd (C76_cause E c j e hx) (h e)

/-! ## Documents without contexts -/

theorem at_keyword {s : Str} (h : s.head? ≠ some '@') : isKeywordLike s = false ∧ Keyword.tryFrom s = none := by
  constructor
  · cases hk : isKeywordLike s with
    | false => rfl
    | true =>
      obtain ⟨r, rfl, _⟩ := (C01_form s).1 hk
      exact absurd rfl h
  · cases hk : Keyword.tryFrom s with
    | none => rfl
    | some k =>
      have := (C01_exact s k).1 hk
      subst this
      exact absurd (by cases k <;> rfl) h

variable {E : XEnv} {c : ACtx}

theorem bare_get (h : Bare c) (k : Str) : c.get k = none := by
  unfold ACtx.get ACtx.getNormal
  rw [h.types, h.defs]
  split <;> rfl

theorem bare_iri (h : Bare c) {s : Str} {b : Bool} {v : Option Action} {r : Except Unit (Option CTerm)}
    (hx : expandIri E.toIriEnv c (some (.ofStr s)) b v = r) :
    (∃ k : Keyword, s = k.intoStr ∧ r = .ok (some (.keyword k))) ∨ (s.head? = some '@' ∧ r = .ok (some .null)) ∨
      ∃ i, r = .ok (some (.id i)) := by
  unfold Expandable.ofStr at hx
  split at hx
  · rename_i k hk
    exact .inl ⟨k, (C01_exact s k).1 hk, hx.symm⟩
  · right
    have tail : expandTail E.toIriEnv c s b v = r → ∃ i, r = .ok (some (.id i)) := by
      intro hx
      unfold expandTail at hx
      rw [h.vocab] at hx
      split at hx
      · contradiction
      · contradiction
      · split at hx
        · split at hx <;> exact ⟨_, hx.symm⟩
        · exact ⟨_, hx.symm⟩
    have hx : expandStr E.toIriEnv c s b v = r := hx
    unfold expandStr at hx
    split at hx
    · rename_i hk
      refine .inl ⟨?_, hx.symm⟩
      by_contra hh
      rw [(at_keyword hh).1] at hk
      cases hk
    · right
      have hterm : expandTerm c s v = none := by
        unfold expandTerm ACtx.getValue ACtx.getNormal
        rw [h.types, h.defs]
        split
        · rfl
        · rename_i hv
          split at hv <;> cases hv
      rw [hterm] at hx
      dsimp only at hx
      split at hx
      · split at hx
        · exact ⟨_, hx.symm⟩
        · split at hx
          · exact ⟨_, hx.symm⟩
          · have hpre : ((compactIri E.toIriEnv s).bind fun q => expandPrefix E.toIriEnv c q.1 q.2) = none := by
              cases compactIri E.toIriEnv s with
              | none => rfl
              | some q =>
                rw [Option.bind_some]
                unfold expandPrefix ACtx.getNormal
                rw [h.defs]
                rfl
            rw [hpre] at hx
            dsimp only at hx
            split at hx
            · exact ⟨_, hx.symm⟩
            · exact tail hx
      · exact tail hx

theorem bare_key (h : Bare c) {k : Str} {kw : Keyword} (hk : KeyMeans E c k (.keyword kw)) : k = kw.intoStr := by
  rcases bare_iri h hk with ⟨k', rfl, hr⟩ | ⟨_, hr⟩ | ⟨i, hr⟩ <;> cases hr
  rfl

/-- The keywords of a plain object. -/
theorem plain_keyword {m : List (Str × Json)} (hm : PlainDoc (.obj m)) (h : Bare c) {k : Str} {v : Json} {kw : Keyword}
    (he : (k, v) ∈ m) (hk : KeyMeans E c k (.keyword kw)) :
    (kw = .value ∧ m = [("@value".toList, v)] ∧ (v = .null ∨ ∃ l, ScalarAs v l)) ∨
    (m.map Prod.fst).Nodup ∧ (kw = .id ∧ (∃ s, v = .str s) ∨
      kw = .type ∧ (∀ x ∈ itemsIn v, ∃ s, x = .str s ∧ s.head? ≠ some '@') ∨ kw = .graph ∧ PlainDoc v) := by
  have hk := bare_key h hk
  subst hk
  cases hm with
  | value hv =>
    have := List.mem_singleton.1 he
    simp only [Prod.mk.injEq] at this
    obtain ⟨h1, rfl⟩ := this
    refine .inl ⟨?_, rfl, hv⟩
    have h2 := C01_roundtrip kw
    rw [h1] at h2
    have h3 : Keyword.tryFrom "@value".toList = some .value := rfl
    rw [h2] at h3
    exact Option.some.inj h3
  | node hn hid hty hkey hval =>
    refine .inr ⟨hn, ?_⟩
    by_cases h1 : kw = .id
    · subst h1; exact .inl ⟨rfl, hid _ he⟩
    by_cases h2 : kw = .type
    · subst h2; exact .inr (.inl ⟨rfl, hty _ he⟩)
    have inj : ∀ kw' : Keyword, kw.intoStr = kw'.intoStr → kw = kw' := fun kw' h => by
      have := C01_roundtrip kw
      rw [h, C01_roundtrip] at this
      exact (Option.some.inj this).symm
    have := hkey _ _ he (fun h => h1 (inj .id h)) fun h => h2 (inj .type h)
    rcases this with h | h
    · exact absurd (by cases kw <;> rfl) h
    · exact .inr (.inr ⟨inj .graph h, hval _ _ he (.inr h)⟩)

theorem plain_context {m : List (Str × Json)} (hm : PlainDoc (.obj m)) {v : Json} : ("@context".toList, v) ∉ m := by
  intro he
  cases hm with
  | value hv =>
    have := List.mem_singleton.1 he
    simp only [Prod.mk.injEq] at this
    exact absurd this.1 (by decide)
  | node hn hid hty hkey hval =>
    rcases hkey _ _ he (by decide) (by decide) with h | h
    · exact h rfl
    · exact absurd h (by decide)

theorem plain_property {m : List (Str × Json)} (hm : PlainDoc (.obj m)) {k : Str} {v : Json} {q : Id}
    (he : (k, v) ∈ m) (hk : KeyMeans E c k (.id q)) : PlainDoc v := by
  have hnk : ∀ kw : Keyword, k ≠ kw.intoStr := fun kw hx => by
    have := xKey_iff.1 (keyword_key (E := E) (c := c) kw)
    unfold KeyMeans at hk
    rw [hx, this] at hk
    cases hk
  cases hm with
  | value hv =>
    have := List.mem_singleton.1 he
    simp only [Prod.mk.injEq] at this
    exact absurd this.1 (hnk .value)
  | node hn hid hty hkey hval => exact hval _ _ he (hkey _ _ he (hnk .id) (hnk .type))

/-- Places in plain documents. -/
inductive PlainPlace : Place → Prop
  | value {c p j fm} : Bare c → PlainDoc j → PlainPlace (.value c p j fm)
  | object {c tsc p m} : Bare c → Bare tsc → PlainDoc (.obj m) → PlainPlace (.object c tsc p m false)

theorem bare_within (h : Bare c) {k : Str} {o : Opts} {a b : ACtx} (hw : Within E (c.get k) o a b) : b = a := by
  rw [bare_get h] at hw
  cases hw with
  | plain _ => rfl
  | term t l _ hd _ _ => cases hd

theorem bare_before (h : Bare c) {p : Option Str} {m : List (Str × Json)} {fm : Bool} {tsc : ACtx}
    (hm : PlainDoc (.obj m)) (hb : BeforeTypes E c p m fm tsc) : tsc = c := by
  obtain ⟨a, b, h1, h2, h3⟩ := hb
  have ha : a = c := by
    cases h1 with
    | stay _ => rfl
    | back p hp => rw [h.previous] at hp; cases hp
  subst ha
  have hb : b = a := by
    cases p with
    | none =>
      cases h2 with
      | plain _ => rfl
      | term t l _ hd _ _ => cases hd
    | some k => exact bare_within h h2
  subst hb
  cases h3 with
  | plain _ => rfl
  | entry v _ _ hv _ _ => exact absurd hv (plain_context hm)

theorem bare_applied (h : Bare c) {ts : List Str} {a b : ACtx} (ha : Applied E c ts a b) : b = a := by
  induction ha with
  | nil a => rfl
  | plain t ts a b _ _ ih => exact ih
  | within t d l ts a a' b hd _ _ _ _ => rw [bare_get h] at hd; cases hd

theorem bare_container (h : Bare c) {k : Str} {x : ContainerKind} : ¬ HasContainer c k x := by
  rintro ⟨d, hd, _⟩
  rw [bare_get h] at hd
  cases hd

theorem bare_map (h : Bare c) {k : Str} : ¬ IsMap c k := by
  rintro ⟨_, _, h' | h' | h'⟩ <;> exact bare_container h h'

theorem plain_not {m : List (Str × Json)} (hm : PlainDoc (.obj m)) (h : Bare c) {k : Str} {v : Json} {kw : Keyword}
    (he : (k, v) ∈ m) (hk : KeyMeans E c k (.keyword kw)) (h1 : kw ≠ .id) (h2 : kw ≠ .type) (h3 : kw ≠ .graph)
    (h4 : kw ≠ .value) : False := by
  rcases plain_keyword hm h he hk with h | ⟨_, h | h | h⟩
  · exact h4 h.1
  · exact h1 h.1
  · exact h2 h.1
  · exact h3 h.1

theorem plain_under {a b : Place} (ha : PlainPlace a) (hu : Under E a b) : PlainPlace b := by
  cases hu with
  | item hx =>
    cases ha with
    | value hc hj => cases hj with | arr h => exact .value hc (h _ hx)
  | object hb hts hap =>
    cases ha with
    | value hc hj =>
      have := bare_before hc hj hb
      subst this
      have := bare_applied hc hap
      subst this
      exact .object hc hc hj
  | property he hk _ _ _ => cases ha with | object hc _ hj => exact .value hc (plain_property hj he hk)
  | map _ _ _ _ hmap _ _ => cases ha with | object hc _ hj => exact absurd hmap (bare_map hc)
  | graph he hk =>
    cases ha with
    | object hc _ hj =>
      rcases plain_keyword hj hc he hk with h | ⟨_, h | h | h⟩
      · cases h.1
      · cases h.1
      · cases h.1
      · exact .value hc h.2
  | included he hk _ =>
    cases ha with | object hc _ hj => exact (plain_not hj hc he hk nofun nofun nofun nofun).elim
  | list _ _ he hk _ =>
    cases ha with | object hc _ hj => exact (plain_not hj hc he hk nofun nofun nofun nofun).elim
  | set he hk => cases ha with | object hc _ hj => exact (plain_not hj hc he hk nofun nofun nofun nofun).elim
  | reverse he hk _ _ _ =>
    cases ha with | object hc _ hj => exact (plain_not hj hc he hk nofun nofun nofun nofun).elim
  | nest he hk _ _ =>
    cases ha with | object hc _ hj => exact (plain_not hj hc he hk nofun nofun nofun nofun).elim

theorem plain_looked {a : Place} {c : ACtx} {s : Str} {b : Bool} (ha : PlainPlace a) (hl : Looked E a c s b) : Bare c := by
  cases hl with
  | first _ => cases ha with | value hc _ => exact hc
  | typeKey hb _ => cases ha with | value hc hj => rw [bare_before hc hj hb]; exact hc
  | key _ => cases ha with | object hc _ _ => exact hc
  | inputType _ => cases ha with | object hc _ _ => exact hc
  | type _ _ _ => cases ha with | object _ hc _ => exact hc
  | reverse _ _ _ => cases ha with | object hc _ _ => exact hc
  | map _ _ _ _ _ => cases ha with | object hc _ _ => exact hc
  | index _ _ _ _ _ _ _ => cases ha with | object hc _ _ => exact hc

theorem plain_contextAt {pl : Place} {a : ACtx} {l : SCtx} {b : Option Str} {o : Opts} (hp : PlainPlace pl)
    (h : ContextAt E pl a l b o) : False := by
  cases h with
  | entry _ _ hv _ => cases hp with | value _ hj => exact plain_context hj hv
  | object _ hd _ => cases hp with | value hc _ => rw [bare_get hc] at hd; cases hd
  | scalar _ hd _ => cases hp with | value hc _ => rw [bare_get hc] at hd; cases hd
  | type hb _ _ _ hd _ =>
    cases hp with | value hc hj => rw [bare_before hc hj hb, bare_get hc] at hd; cases hd
  | nest _ _ hd _ => cases hp with | object hc _ _ => rw [bare_get hc] at hd; cases hd
  | typeMap _ _ _ hm _ _ _ _ _ => cases hp with | object hc _ _ => exact bare_map hc hm

theorem plain_hasEntry {m : List (Str × Json)} (hm : PlainDoc (.obj m)) (h : Bare c) {e : Str × Json} {kw : Keyword}
    (he : e ∈ m) (hh : HasEntry E kw c [e]) : e.1 = kw.intoStr := by
  cases hh with
  | here h1 hk => rw [← List.mem_singleton.1 h1]; exact bare_key h hk
  | reverse _ hd _ _ => rw [bare_get h] at hd; cases hd
  | nest h1 hk _ _ _ =>
    rw [← List.mem_singleton.1 h1] at he
    exact (plain_not hm h he hk nofun nofun nofun nofun).elim

theorem plain_noTwo {m : List (Str × Json)} (hm : PlainDoc (.obj m)) (h : Bare c) {kw : Keyword}
    (hh : HasTwo E kw c m) : False := by
  cases hh with
  | entries hp h1 h2 =>
    have k1 := plain_hasEntry hm h (hp.mem_iff.2 (by simp)) h1
    have k2 := plain_hasEntry hm h (hp.mem_iff.2 (by simp)) h2
    have hn : (m.map Prod.fst).Nodup := by
      cases hm with
      | value _ => simp
      | node hn _ _ _ _ => exact hn
    have := (hp.map Prod.fst).nodup_iff.1 hn
    rw [List.map_cons, List.map_cons, k1, k2] at this
    simp at this
  | items he hk _ _ _ => exact (plain_not hm h he hk nofun nofun nofun nofun).elim
  | nest he hk _ _ _ => exact (plain_not hm h he hk nofun nofun nofun nofun).elim

theorem plain_valueFault {tsc : ACtx} {m : List (Str × Json)} (hm : PlainDoc (.obj m)) (h : Bare c) {k : Str} {v : Json}
    (he : (k, v) ∈ m) (hk : KeyMeans E c k (.keyword .value)) {x : ValueErr} (hf : ValueFault E c tsc m x) : False := by
  rcases plain_keyword hm h he hk with ⟨_, rfl, hs⟩ | ⟨_, h | h | h⟩
  · have only : ∀ {k' v'}, (k', v') ∈ [("@value".toList, v)] → KeyMeans E c k' (.keyword .value) ∧ v' = v := by
      intro k' v' h'
      have := List.mem_singleton.1 h'
      simp only [Prod.mk.injEq] at this
      obtain ⟨rfl, rfl⟩ := this
      exact ⟨xKey_iff.1 (keyword_key .value), rfl⟩
    have no : ∀ {k' v'} {t : CTerm}, (k', v') ∈ [("@value".toList, v)] → KeyMeans E c k' t →
        t = .keyword .value := by
      intro k' v' t h' hk'
      have := (only h').1
      unfold KeyMeans at this hk'
      rw [this] at hk'
      cases hk'
      rfl
    cases hf with
    | language h1 h2 _ => cases no h1 h2
    | direction h1 h2 _ _ => cases no h1 h2
    | index h1 h2 _ => cases no h1 h2
    | type h1 h2 _ => cases no h1 h2
    | typeName h1 h2 _ _ _ => cases no h1 h2
    | key h1 h2 h3 => exact h3 .value (by simp [valueKeywords]) (no h1 h2)
    | typeAndTag h1 h2 _ _ => cases no h1 h2
    | json _ _ h1 h2 => rcases h2 with h2 | h2 <;> cases no h1 h2
    | value h1 h2 h3 _ =>
      have := (only h1).2
      subst this
      rcases h3 with ⟨l, rfl⟩ | ⟨l, rfl⟩
      · rcases hs with h | ⟨l, h⟩ <;> cases h
      · rcases hs with h | ⟨l, h⟩ <;> cases h
    | tagged _ _ _ h1 h2 => rcases h2 with h2 | h2 <;> cases no h1 h2
    | vocab h1 h2 _ => cases no h1 h2
  · cases h.1
  · cases h.1
  · cases h.1

theorem plain_noFault (hi : E.opts.invalid ≠ .reject) (ha : E.opts.allowUndefined = true) {pl : Place}
    (hp : PlainPlace pl) {e : XErr} (hf : Fault E pl e) : False := by
  cases hf with
  | context hv _ => cases hp with | value _ hj => exact plain_context hj hv
  | contexts hv => cases hp with | value _ hj => exact plain_context hj (hv.mem_iff.2 (List.mem_cons_self ..))
  | process hc _ => exact plain_contextAt hp hc
  | vocab hl hx =>
    rcases bare_iri (plain_looked hp hl) hx with ⟨_, _, h⟩ | ⟨_, h⟩ | ⟨_, h⟩ <;> cases h
  | vocabValue hw hd _ _ =>
    cases hp with | value hc _ => rw [bare_within hc hw, bare_get hc] at hd; cases hd
  | vocabIndex _ _ _ hm _ _ _ _ _ _ _ => cases hp with | object hc _ _ => exact bare_map hc hm
  | key _ _ h =>
    rcases h with h | h
    · exact hi h.1
    · rw [ha] at h; cases h.1
  | reverseKey he hk _ _ _ _ _ =>
    cases hp with | object hc _ hj => exact plain_not hj hc he hk nofun nofun nofun nofun
  | id he hk hs =>
    cases hp with
    | object hc _ hj =>
      rcases plain_keyword hj hc he hk with h | ⟨_, h | h | h⟩
      · cases h.1
      · obtain ⟨_, s, h⟩ := h; exact hs s h
      · cases h.1
      · cases h.1
  | index he hk _ => cases hp with | object hc _ hj => exact plain_not hj hc he hk nofun nofun nofun nofun
  | type he hk hx hs =>
    cases hp with
    | object hc _ hj =>
      rcases plain_keyword hj hc he hk with h | ⟨_, h | h | h⟩
      · cases h.1
      · cases h.1
      · obtain ⟨s, h, _⟩ := h.2 _ hx; exact hs s h
      · cases h.1
  | typeName he hk hx ht hn =>
    cases hp with
    | object hc htsc hj =>
      rcases plain_keyword hj hc he hk with h | ⟨_, h | h | h⟩
      · cases h.1
      · cases h.1
      · obtain ⟨s, h, hh⟩ := h.2 _ hx
        cases h
        rcases bare_iri htsc ht with ⟨k, rfl, _⟩ | ⟨h, _⟩ | ⟨i, h⟩
        · exact hh (by cases k <;> rfl)
        · exact hh h
        · cases h
          exact hi (hn i rfl).1
      · cases h.1
  | reverse he hk _ => cases hp with | object hc _ hj => exact plain_not hj hc he hk nofun nofun nofun nofun
  | nest he hk _ _ => cases hp with | object hc _ hj => exact plain_not hj hc he hk nofun nofun nofun nofun
  | nestedValue _ _ => cases hp
  | included he hk _ _ => cases hp with | object hc _ hj => exact plain_not hj hc he hk nofun nofun nofun nofun
  | colliding _ h => cases hp with | object hc _ hj => exact plain_noTwo hj hc h
  | reverseKeyword he hk _ _ =>
    cases hp with | object hc _ hj => exact plain_not hj hc he hk nofun nofun nofun nofun
  | reverseValue he hk _ _ _ _ _ =>
    cases hp with | object hc _ hj => exact plain_not hj hc he hk nofun nofun nofun nofun
  | reverseTerm _ _ _ hd _ _ => cases hp with | object hc _ _ => rw [bare_get hc] at hd; cases hd
  | languageMap _ _ _ hl _ _ _ _ _ => cases hp with | object hc _ _ => exact bare_container hc hl
  | typeMap _ _ _ hm _ _ _ _ => cases hp with | object hc _ _ => exact bare_map hc hm
  | indexProperty _ _ _ hm _ _ _ _ _ _ _ _ => cases hp with | object hc _ _ => exact bare_map hc hm
  | indexJson _ _ _ hm _ _ _ _ => cases hp with | object hc _ _ => exact bare_map hc hm
  | list _ _ he hk _ _ _ _ => cases hp with | object hc _ hj => exact plain_not hj hc he hk nofun nofun nofun nofun
  | set he hk _ _ _ _ => cases hp with | object hc _ hj => exact plain_not hj hc he hk nofun nofun nofun nofun
  | json _ hw hj =>
    cases hp with
    | value hc _ =>
      obtain ⟨d, hd, _⟩ := hj
      rw [bare_within hc hw, bare_get hc] at hd
      cases hd
  | value he hk h => cases hp with | object hc _ hj => exact plain_valueFault hj hc he hk h

/-- C76: documents with full property names, whose nodes have `@id` entries with strings, `@type` entries with
names, graphs, and plain values, are always expanded, whatever the external functions are: without a context to
process, nothing in them can be wrong. -/
theorem C76_plain (E : XEnv) (c : ACtx) (j : Json) (hc : Bare c) (hi : E.opts.invalid ≠ .reject)
    (ha : E.opts.allowUndefined = true) (hj : PlainDoc j) : ∃ d, expandDoc E c j = .ok d := by
  refine C76_accepted E c j fun e => ?_
  rintro ⟨pl, hr, hf⟩
  have hp : PlainPlace pl := by
    clear hf
    induction hr with
    | refl => exact .value hc hj
    | tail _ hu ih => exact plain_under ih hu
  exact plain_noFault hi ha hp hf

/-- Such a document: `[{"@id": "http:s", "@type": ["http:t"], "http:p": [{"@value": 1}, "x"]}]`. -/
def exFullNames : Json := .arr [.obj [("@id".toList, .str "http:s".toList), ("@type".toList, .arr [.str "http:t".toList]),
  ("http:p".toList, .arr [.obj [("@value".toList, .num "1".toList)], .str "x".toList])]]

theorem exFullNames_plain : PlainDoc exFullNames := by
  refine .arr fun x hx => ?_
  rw [List.mem_singleton.1 hx]
  have keys : ∀ {k : Str} {v : Json}, (k, v) ∈ [("@id".toList, Json.str "http:s".toList),
      ("@type".toList, .arr [.str "http:t".toList]),
      ("http:p".toList, .arr [.obj [("@value".toList, .num "1".toList)], .str "x".toList])] →
      (k = "@id".toList ∧ v = .str "http:s".toList) ∨ (k = "@type".toList ∧ v = .arr [.str "http:t".toList]) ∨
      (k = "http:p".toList ∧ v = .arr [.obj [("@value".toList, .num "1".toList)], .str "x".toList]) := by
    intro k v h
    simpa only [List.mem_cons, List.not_mem_nil, or_false, Prod.mk.injEq] using h
  refine .node (by decide) (fun v hv => ?_) (fun v hv x hx => ?_) (fun k v hv h1 h2 => ?_) fun k v hv hk => ?_
  · rcases keys hv with h | h | h
    · exact ⟨_, h.2⟩
    · exact absurd h.1 (by decide)
    · exact absurd h.1 (by decide)
  · rcases keys hv with h | h | h
    · exact absurd h.1 (by decide)
    · rw [h.2] at hx
      rw [List.mem_singleton.1 hx]
      exact ⟨_, rfl, by decide⟩
    · exact absurd h.1 (by decide)
  · rcases keys hv with h | h | h
    · exact absurd h.1 h1
    · exact absurd h.1 h2
    · rw [h.1]; exact .inl (by decide)
  · rcases keys hv with h | h | h
    · rw [h.1] at hk; exact absurd hk (by decide)
    · rw [h.1] at hk; exact absurd hk (by decide)
    · rw [h.2]
      refine .arr fun x hx => ?_
      rcases List.mem_cons.1 hx with rfl | hx
      · exact .value (.inr ⟨_, .num _⟩)
      · rw [List.mem_singleton.1 hx]; exact .str

/-- It is expanded. -/
example : ∃ d, expandDoc exXEnv {} exFullNames = .ok d :=
  C76_plain exXEnv {} exFullNames ⟨rfl, rfl, rfl, rfl⟩ (by decide) rfl exFullNames_plain

/-- The result is an error of the given kind. -/
def failsWith {α : Type} (p : XErr → Bool) : Except XErr α → Bool
  | .error e => p e
  | .ok _ => false

/-- Faults far from the top are found, and named: `{"http:p": [{"@list": [{"@id": 1}]}]}`, a language map with a
number, an object with `@list` and another key, a value object with a type and a language, `@reverse` with a
string, two entries for `@id`. -/
example :
    failsWith (· matches .invalidIdValue) (expandDoc exXEnv {} (.obj [("http:p".toList,
      .arr [.obj [("@list".toList, .arr [.obj [("@id".toList, .num "1".toList)]])]])])) = true ∧
    failsWith (· matches .invalidLanguageMapValue) (expandDoc exXEnv {}
      (exCtxDoc [("p".toList, exTerm "http:p".toList "@language".toList [])]
        [("p".toList, .obj [("en".toList, .arr [.null, .num "1".toList])])])) = true ∧
    failsWith (· matches .invalidSetOrListObject) (expandDoc exXEnv {} (.obj [("http:p".toList,
      .obj [("@list".toList, .arr []), ("http:q".toList, .null)])])) = true ∧
    failsWith (· matches .value .valueObject) (expandDoc exXEnv {} (.obj [("http:p".toList,
      .obj [("@value".toList, .str ['x']), ("@type".toList, .str "http:t".toList),
        ("@language".toList, .str "en".toList)])])) = true ∧
    failsWith (· matches .invalidReversePropertyValue) (expandDoc exXEnv {} (.obj [("@reverse".toList,
      .obj [("http:p".toList, .str ['x'])])])) = true ∧
    failsWith (· matches .collidingKeywords) (expandDoc exXEnv {}
      (exCtxDoc [("i".toList, .str "@id".toList)]
        [("i".toList, .str "http:a".toList), ("@nest".toList, exRef "http:b".toList)])) = true := by
  decide +kernel

end JsonLd.Props
