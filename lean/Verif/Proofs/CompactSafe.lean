import Verif.Spec.CompactSafe
import Verif.Proofs.CompactInv
import Verif.Proofs.MapsItem
/-!
# Compaction without failure: keys and values
-/

namespace JsonLd
open Spec Props Relation

theorem Post.self {α : Type} {X : CompErr → Prop} {Q : α → Prop} {r : Except CompErr α} (h : Post X Q r) :
    Post X (fun a => Q a ∧ r = .ok a) r := by
  cases r with
  | error e => exact h
  | ok a => exact ⟨h, rfl⟩

/-- The contexts `P` do not mislead, and the errors `X` are those of context processing and, unless the schemes of the
IRIs `F` are free, the confusion of an IRI with a prefix. -/
structure Steady (E : CEnv) (X : CompErr → Prop) (P : ACtx → Prop) (F : Str → Prop) : Prop where
  iris : IriFacts E.toIriEnv
  blank : ∀ s, E.isBlank s = true → ∃ x, s = '_' :: ':' :: x
  safe : ∀ c, P c → SafeCtx E.toCompEnv c
  scoped_ : ∀ c tsc k d o, P c → P tsc → tsc.get k = some d → Post X P (cScoped E (some d) c o)
  previous : ∀ c c', P c → c.previous = some c' → P c'
  free : ∀ c i, P c → F i → X .iriConfusedWithPrefix ∨ FreeScheme c i

/-- The entries of `@nest`. -/
def NestKey (c : ACtx) (k : Str) : Prop :=
  k = "@nest".toList ∨ ∃ d, lookupKey k c.defs = some d ∧ d.value = some (.keyword .nest)

/-- A key under which there are neither maps nor nested properties. -/
structure FreeKey (c : ACtx) (k : Str) : Prop where
  map : ¬ MakesMap (defContainer (c.get k))
  nest : ¬ NestKey c k

theorem keyword_isForm (k : Keyword) : KeywordForm k.intoStr := (C01_form _).1 (by cases k <;> decide)

theorem not_makesMap_none : ¬ MakesMap .none := by simp [MakesMap, Container.asSlice]

theorem not_makesMap_set : ¬ MakesMap .set := by simp [MakesMap, Container.asSlice]

section
variable {env : CompEnv} {c : ACtx} (hc : SafeCtx env c)
include hc

theorem Spec.SafeCtx.get_term {k : Str} {d : TermDef} (h : lookupKey k c.defs = some d) : c.get k = some d := by
  unfold ACtx.get
  rw [if_neg]
  · exact h
  · rintro rfl
    exact hc.terms _ d h ((C01_form _).1 (by decide))

omit hc in
theorem safe_lookup {k : Str} {d : TermDef} (h : c.get k = some d) :
    lookupKey k c.defs = some d ∨ (d.container = .set ∧ d.nest = none ∧ d.reverse = false ∧ d.value = none) := by
  unfold ACtx.get at h
  split at h
  · obtain ⟨p, -, rfl⟩ := Option.map_eq_some_iff.1 h
    exact .inr ⟨rfl, rfl, rfl, rfl⟩
  · exact .inl h

/-- Keys for keywords. -/
theorem Spec.SafeCtx.keyword_key {k : Keyword} (hk : k ≠ .nest) {b : Bool} {s : Str}
    (h : CompactedBy env c (.keyword k) b true s) : FreeKey c s ∧ (k ≠ .id → s ≠ "@id".toList) := by
  cases h with
  | term d _ h1 h2 =>
    have hf := hc.terms _ d h1
    refine ⟨⟨?_, ?_⟩, fun _ h => ?_⟩
    · rw [hc.get_term h1]
      exact (hc.aliases _ d k h1 h2).1
    · rintro (rfl | ⟨d', h3, h4⟩)
      · exact hf (keyword_isForm .nest)
      · rw [h1] at h3
        cases h3
        rw [h2] at h4
        cases h4
        exact hk rfl
    · subst h
      exact hf (keyword_isForm .id)
  | vocab v _ h1 h2 => exact absurd ⟨s, h2.symm⟩ (hc.keywords.vocab v h1 k)
  | prefixed h1 =>
    obtain ⟨p, m, x, h2, h3, h4, _⟩ := h1
    exact absurd ⟨x, h4.symm⟩ (hc.keywords.prefixes p m h2 k)
  | relative i b h1 => cases h1
  | itself h1 h2 =>
    have h2 : s = k.intoStr := h2
    subst h2
    refine ⟨⟨?_, ?_⟩, fun hi h => ?_⟩
    · cases hg : c.get k.intoStr with
      | none => exact not_makesMap_none
      | some d =>
        rcases safe_lookup hg with h | h
        · exact absurd (keyword_isForm k) (hc.terms _ d h)
        · show ¬ MakesMap d.container
          rw [h.1]; exact not_makesMap_set
    · rintro (h | ⟨d', h3, h4⟩)
      · revert h hk
        cases k <;> decide
      · exact absurd (keyword_isForm k) (hc.terms _ d' h3)
    · revert h hi
      cases k <;> decide

theorem Spec.SafeCtx.get_reverse : c.get "@reverse".toList = none := by
  cases h : c.get "@reverse".toList with
  | none => rfl
  | some d =>
    unfold ACtx.get at h
    rw [if_neg (by decide)] at h
    exact absurd (keyword_isForm .reverse) (hc.terms _ d h)

end

/-- The key for a value of a property. -/
structure SafeKey (E : CEnv) (c : ACtx) (p : Id) (rev : Bool) (o : Obj) (key : Str) : Prop where
  container : MakesMap (defContainer (c.get key)) → defContainer (c.get key) ∈ allContainers E.opts.mode (some o) rev
  term : MakesMap (defContainer (c.get key)) → ∃ d, c.get key = some d ∧ d.value = some (.id p)
  nest : ¬ NestKey c key
  id : key ≠ "@id".toList

section
variable {E : CEnv} {X : CompErr → Prop} {P : ACtx → Prop} {F : Str → Prop} (A : Steady E X P F)
include A

theorem Steady.colon {s : Str} (h : E.isIri s = true ∨ E.isBlank s = true) : ¬ KeywordForm s := by
  rcases h with h | h
  · obtain ⟨p, x, rfl, -⟩ := A.iris.scheme s h
    exact keywordForm_colon
  · obtain ⟨x, rfl⟩ := A.blank s h
    exact keywordForm_colon (p := ['_'])

theorem Steady.key {c : ACtx} (hc : P c) {p : Id} (hp : SafeName E.toCompEnv c p) {rev : Bool} {o : Obj} {key : Str}
    (h : itemKey E c (.id p) rev o = .ok (some key)) : SafeKey E c p rev o key := by
  have hs := A.safe c hc
  have hby := compactIriWith_by hs.distinct h
  have hform : ¬ KeywordForm key := by
    cases hby with
    | term d _ h1 => exact hs.terms _ d h1
    | vocab v _ h1 h2 => exact hp.vocab v key h1 h2
    | prefixed h1 => obtain ⟨q, m, x, -, -, -, rfl, -⟩ := h1; exact keywordForm_colon
    | relative i b h1 => cases h1
    | itself _ h1 =>
      have h1 : key = p.str := h1
      rw [h1]; exact A.colon hp.valid
  have hnest : ¬ NestKey c key := by
    rintro (rfl | ⟨d, h1, h2⟩)
    · exact hform (keyword_isForm .nest)
    · cases hby with
      | term d' _ h3 h4 => rw [h1] at h3; cases h3; rw [h2] at h4; cases h4
      | vocab v _ _ _ _ h3 => rw [h3 hform] at h1; cases h1
      | prefixed h3 => obtain ⟨q, m, x, -, -, -, -, h3⟩ := h3; cases (h3 d h1).2
      | relative i b h3 => cases h3
      | itself _ h3 =>
        have h3 : key = p.str := h3
        exact (hs.ids key d h1 (by rw [h3]; exact hp.valid)).2 _ h2
  have hget : ∀ d, c.get key = some d → lookupKey key c.defs = some d := by
    intro d hd
    unfold ACtx.get at hd
    rw [if_neg (by rintro rfl; exact hform ((C01_form _).1 (by decide)))] at hd
    exact hd
  have hid : key ≠ "@id".toList := by rintro rfl; exact hform (keyword_isForm .id)
  unfold itemKey compactIriWith at h
  rw [if_neg (by simp)] at h
  simp only [if_true] at h
  split at h
  · cases h
  · rename_i t ht
    cases h
    unfold compactTermWith at ht
    split at ht
    · cases ht
    · rename_i m hm
      split at ht
      · cases ht
      · rename_i sel hsel
        have h2 : c.inverse.select (.id p) (allContainers E.opts.mode (some o) rev) sel = some key := by
          unfold InvCtx.select
          rw [hm]
          exact Except.ok.inj ht
        obtain ⟨pre, w, post, hw, -, ⟨d, hd, hv, hcont, hmatch⟩, -⟩ := (C34_selected c hs.distinct _ _ sel key).1 h2
        obtain ⟨hmem, hwm⟩ := mem_wishes (w := w) (s := sel) (c := c) (by rw [hw]; simp)
        have hg := hs.get_term hd
        refine ⟨fun _ => ?_, fun _ => ⟨d, hg, hv⟩, hnest, hid⟩
        rw [hg]
        show d.container ∈ _
        rw [show d.container = w.1 from hcont]
        exact hmem
  · obtain ⟨s, h1, h2⟩ := exMap_ok h
    cases h2
    have hn : ¬ MakesMap (defContainer (c.get key)) := by
      cases hd : c.get key with
      | none => exact not_makesMap_none
      | some d =>
        have hlk := hget d hd
        refine (hs.ids key d hlk ?_).1
        rw [noTerm_key hs.distinct h1 hform hlk]
        exact hp.valid
    exact ⟨fun h => absurd h hn, fun h => absurd h hn, hnest, hid⟩

theorem Steady.scoped {c tsc : ACtx} (hc : P c) (ht : P tsc) (prop : Option Str) (o : Opts) :
    Post X P (cScoped E (prop.bind tsc.get) c o) := by
  cases h : prop.bind tsc.get with
  | none => exact hc
  | some d =>
    cases prop with
    | none => cases h
    | some k => exact A.scoped_ c tsc k d o hc ht h

theorem Steady.previousGetD {c : ACtx} (hc : P c) : P (c.previous.getD c) := by
  cases h : c.previous with
  | none => exact hc
  | some p => exact A.previous c p hc h

theorem Steady.noTerm {c : ACtx} (hc : P c) {t : CTerm} (ht : ∀ i, t.asIri = some i → F i) (b vocab : Bool) :
    Post X (fun _ => True) (compactNoTerm E.toCompEnv c t b vocab) := by
  unfold compactNoTerm
  split
  · trivial
  · simp only
    split
    · trivial
    · unfold compactRest
      split
      · rename_i i hi
        split
        · rename_i hct
          rcases A.free c i hc (ht i hi) with h | ⟨p, x, rfl, h1, h2⟩
          · exact h
          · exfalso
            unfold iriScheme at hct
            rw [splitOnce_eq_some.2 ⟨rfl, h1⟩] at hct
            unfold ACtx.containsTerm ACtx.getValue at hct
            unfold ACtx.get at h2
            dsimp only at hct
            split at hct
            · rename_i hp
              rw [if_pos hp] at h2
              rw [Option.map_eq_none_iff.1 h2] at hct
              cases hct
            · rename_i hp
              rw [if_neg hp] at h2
              rw [h2] at hct
              cases hct
        · split <;> trivial
      · trivial

theorem Steady.cIri {c : ACtx} (hc : P c) {t : CTerm} (hn : t ≠ .null) (ht : ∀ i, t.asIri = some i → F i) (vocab : Bool) :
    Post X (fun s => s ≠ none) (cIri E c t vocab) := by
  unfold JsonLd.cIri compactIriPlain
  rw [if_neg hn]
  split
  · exact nofun
  · exact (A.noTerm hc ht true vocab).map fun s _ => by simp

theorem Steady.cIriU {c : ACtx} (hc : P c) {t : CTerm} (hn : t ≠ .null) (ht : ∀ i, t.asIri = some i → F i) (vocab : Bool) :
    Post X (fun _ => True) (cIriU E c t vocab) := by
  have := A.cIri hc hn ht vocab
  unfold JsonLd.cIriU
  revert this
  cases JsonLd.cIri E c t vocab with
  | error e => exact id
  | ok s =>
    cases s with
    | none => intro h; exact absurd rfl h
    | some s => intro _; trivial

theorem Steady.cKey_any {c : ACtx} (hc : P c) (k : Keyword) : Post X (fun _ => True) (cKey E c k) :=
  A.cIriU hc (by simp) (fun i h => by cases h) true

theorem Steady.cKey {c : ACtx} (hc : P c) {k : Keyword} (hk : k ≠ .nest) :
    Post X (fun s => FreeKey c s ∧ (k ≠ .id → s ≠ "@id".toList)) (cKey E c k) := by
  refine (A.cKey_any hc k).self.mono fun s hs => (A.safe c hc).keyword_key hk (b := true) ?_
  have h := hs.2
  unfold JsonLd.cKey JsonLd.cIriU at h
  split at h
  · rename_i s' h'
    cases h
    exact compactIriPlain_by (A.safe c hc).distinct h'
  · cases h
  · cases h

theorem Steady.itemKey {c : ACtx} (hc : P c) {p : CTerm} (hp : ∀ i, p.asIri = some i → F i) (rev : Bool) {o : Obj}
    (ho : ∀ i, o.nodeId = some (.iri i) → F i) : Post X (fun _ => True) (itemKey E c p rev o) := by
  unfold JsonLd.itemKey compactIriWith
  split
  · trivial
  · have hid : ∀ t, Post X (fun _ => True) (idHasTerm E.toCompEnv c E.opts t o) := by
      intro t
      unfold idHasTerm
      split
      · trivial
      · rename_i i hi
        split
        · have := A.cIri hc (t := .id i) (by simp) (fun j hj => by
            cases i with
            | iri s => cases hj; exact ho _ hi
            | _ => cases hj) true
          unfold JsonLd.cIri at this
          revert this
          cases compactIriPlain E.toCompEnv c (.id i) true false E.opts with
          | error e => exact id
          | ok s =>
            cases s with
            | none => intro h; exact absurd rfl h
            | some s => intro _; trivial
        · trivial
    have hsel : Post X (fun _ => True) (fullSelection E.toCompEnv c E.opts o rev) := by
      unfold fullSelection
      split
      · trivial
      · split
        · rename_i t _
          have := hid t
          revert this
          cases idHasTerm E.toCompEnv c E.opts t o with
          | error e => exact id
          | ok s => intro _; trivial
        · trivial
        · trivial
    have hterm : Post X (fun _ => True) (compactTermWith E.toCompEnv c p o rev E.opts) := by
      unfold compactTermWith
      split
      · trivial
      · revert hsel
        cases fullSelection E.toCompEnv c E.opts o rev with
        | error e => exact id
        | ok s => intro _; trivial
    simp only [if_true]
    revert hterm
    cases compactTermWith E.toCompEnv c p o rev E.opts with
    | error e => exact id
    | ok s =>
      intro _
      cases s with
      | some s => trivial
      | none => exact (A.noTerm hc hp false true).map fun _ _ => trivial

/-! ## Values -/

theorem Steady.valueEntries {c : ACtx} (hc : P c) {i : Option Str} {v : Value} (hv : ∀ j, v = .json j → NoDupKeys j)
    (hF : ∀ x, NamesIri (.obj (.value i v)) x → F x) :
    Post X (fun es => ∀ e ∈ es, NoDupKeys e.2) (valueEntries E c v) := by
  have S := shape_noDup X
  unfold JsonLd.valueEntries
  split
  · exact (A.cKey_any hc _).map fun k _ => by simpa using S.literal _
  · exact (A.cKey_any hc _).bind fun k _ => (A.cKey_any hc _).bind fun kt _ =>
      (A.cIri hc (by simp) (fun j hj => by cases hj; exact hF _ rfl) _).map fun s _ => by
      simpa using ⟨S.literal _, S.optStr _⟩
  · rename_i s
    refine (A.cKey_any hc _).bind fun k _ => Post.bind (Q := fun es => ∀ e ∈ es, NoDupKeys e.2) ?_ fun el hl =>
      Post.map (Q := fun es => ∀ e ∈ es, NoDupKeys e.2) ?_ fun ed hd => ?_
    · split
      · exact (A.cKey_any hc _).map fun _ _ => by simpa using S.str _
      · exact (by simp : ∀ e ∈ ([] : JMap), NoDupKeys e.2)
    · split
      · exact (A.cKey_any hc _).map fun _ _ => by simpa using S.str _
      · exact (by simp : ∀ e ∈ ([] : JMap), NoDupKeys e.2)
    · intro e he
      rcases List.mem_cons.1 he with rfl | he
      · exact S.str _
      · rcases List.mem_append.1 he with he | he
        · exact hl e he
        · exact hd e he
  · exact (A.cKey_any hc _).bind fun k _ => (A.cKey_any hc _).bind fun kt _ =>
      (A.cIri hc (by simp) (fun j hj => by cases hj) _).map fun s _ => by
      simpa using ⟨hv _ rfl, S.optStr _⟩

theorem Steady.value {c : ACtx} (hc : P c) (prop : Option Str) {i : Option Str} {v : Value}
    (hv : ∀ j, v = .json j → NoDupKeys j) (hF : ∀ x, NamesIri (.obj (.value i v)) x → F x) :
    Post X NoDupKeys (compactValue E c prop i v) := by
  have S := shape_noDup X
  unfold compactValue
  refine (A.scoped hc hc _ _).bind fun c hc => ?_
  unfold valueIn
  split
  · rename_i j h
    split at h
    · unfold valueBare at h
      split at h
      · split at h
        · split at h
          · split at h
            · cases h; exact S.str _
            · cases h
          · cases h; exact S.literal _
        · cases h
      · split at h
        · cases h; exact S.str _
        · cases h
      · split at h
        · cases h; exact hv _ rfl
        · cases h
    · cases h
  · refine (A.valueEntries hc hv hF).bind fun es he => Post.map (Q := fun es => ∀ e ∈ es, NoDupKeys e.2) ?_
      fun ei hi => (S.jObject fun e h => ?_)
    · unfold cValueIndex
      split
      · split
        · exact (by simp : ∀ e ∈ ([] : JMap), NoDupKeys e.2)
        · exact (A.cKey_any hc _).map fun _ _ => by simpa using S.str _
      · exact (by simp : ∀ e ∈ ([] : JMap), NoDupKeys e.2)
    · rcases List.mem_append.1 h with h | h
      · exact he e h
      · exact hi e h

end

/-! ## Changing objects -/

variable {X : CompErr → Prop}

theorem withEntry_mem {m m' : JMap} {k : Str} {v : Option Json} (h : WithEntry m k v m') :
    ∀ e ∈ m', e ∈ m ∨ e.1 = k := by
  intro e he
  by_cases hk : e.1 = k
  · exact .inr hk
  · have : e ∈ m'.filter (fun e => decide (e.1 ≠ k)) := List.mem_filter.2 ⟨he, by simpa using hk⟩
    rw [h.others] at this
    exact .inl (List.mem_filter.1 this).1

theorem add_post {m : JMap} (hm : MapOk m) (k : Str) {v : Json} (hv : NoDupKeys v) (a : Bool) :
    Post X (fun m' => MapOk m' ∧ ∀ e ∈ m', e ∈ m ∨ e.1 = k) (addValue m k v a) := by
  obtain ⟨m', h1, h2⟩ := addValue_entry k v m a hm.1
  have := hm.postAdd (X := X) k hv a
  rw [h1] at this ⊢
  exact ⟨this, withEntry_mem h2⟩

theorem insert_ok {m : JMap} (hm : MapOk m) (k : Str) {v : Json} (hv : NoDupKeys v) :
    MapOk (jInsert k v m) ∧ ∀ e ∈ jInsert k v m, e ∈ m ∨ e = (k, v) := by
  have hw := jInsert_entry k v hm.1
  refine ⟨hm.insert k hv, fun e he => ?_⟩
  rcases withEntry_mem hw e he with h | h
  · exact .inl h
  · right
    have := mem_lookup hw.distinct (show (e.1, e.2) ∈ _ from he)
    rw [h, hw.value] at this
    cases e
    simp_all

theorem inObject_post {k : Str} {m : JMap} (hm : MapOk m) (ho : ∀ e ∈ m, e.1 = k → ∃ o, e.2 = .obj o)
    {f : JMap → Except CompErr JMap} {Q : JMap → Prop}
    (hf : ∀ o, MapOk o → (o = [] ∨ (k, .obj o) ∈ m) → Post X (fun r => MapOk r ∧ Q r) (f o)) :
    Post X (fun m' => MapOk m' ∧ ∀ e ∈ m', e ∈ m ∨ ∃ r, e = (k, .obj r) ∧ Q r) (inObject k m f) := by
  unfold inObject
  rw [jGet_eq hm.1]
  show Post X _ (match lookupKey k m with
    | none => (f []).map fun r => jInsert k (.obj r) m
    | some (.obj o) => (f o).map fun r => m.map fun e => if e.1 = k then (e.1, .obj r) else e
    | some _ => .error .panic)
  cases h : lookupKey k m with
  | none =>
    refine (hf [] .nil (.inl rfl)).map fun r hr => ?_
    obtain ⟨h1, h2⟩ := insert_ok hm k hr.1.obj
    refine ⟨h1, fun e he => ?_⟩
    rcases h2 e he with h | h
    · exact .inl h
    · exact .inr ⟨r, h, hr.2⟩
  | some w =>
    have hmem := lookup_mem h
    obtain ⟨o, hw⟩ := ho _ hmem rfl
    have hw : w = .obj o := hw
    subst hw
    refine (hf o (NoDupKeys.mapOk (hm.2 _ hmem)) (.inr hmem)).map fun r hr => ⟨?_, fun e he => ?_⟩
    · have := (shape_noDup X).replace (m := m) hm.obj k hr.1.obj
      exact NoDupKeys.mapOk this
    · obtain ⟨x, hx, rfl⟩ := List.mem_map.1 he
      split
      · rename_i hk
        exact .inr ⟨r, by rw [hk], hr.2⟩
      · exact .inl hx

end JsonLd
