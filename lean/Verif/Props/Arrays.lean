import Verif.Proofs.Arrays
import Verif.Proofs.RoundTrip
import Verif.Props.CompactMaps
import Verif.Props.AddValue
/-!
# C69: compacted documents have arrays where they are wanted
-/

namespace JsonLd.Props
open JsonLd.Spec

/-- **C69.** In a compacted node, whatever its entries and however they are sorted into nests, maps and `@reverse`,
arrays are found where they are wanted (`Arrays`): under all keys if `compact_arrays` is not set, and otherwise under
`@graph` and the terms with a `@set` container. `c'` is the context of the node after the scoped contexts, `R` stands
for the compaction of the values. -/
theorem C69_arrays (E : CEnv) (R : CRec) (c tsc c' : ACtx) (prop : Option Str) (n : Node)
    (hc : nodeContext E c tsc prop n = .ok c') (H : Apart E c' n) (m : JMap)
    (h : compactNode E R c tsc prop n = .ok (.obj m)) :
    (m.map Prod.fst).Nodup ∧ ∀ k v, (k, v) ∈ m → Arrays E c' k v := by
  unfold compactNode at h
  rw [hc] at h
  have h : (match nodeString E c' prop n with
    | some r => r
    | none => nodeIn E R c' tsc prop n) = .ok (.obj m) := h
  split at h
  · rename_i r hr
    subst h
    have hs : ∀ s, optStr s ≠ .obj m := by rintro (_ | s) <;> nofun
    unfold nodeString at hr
    have hmap : ∀ e : Except CompErr (Option Str), some (e.map optStr) ≠ some (.ok (.obj m)) := by
      rintro (_ | s) h
      · cases h
      · exact hs s (Except.ok.inj (Option.some.inj h))
    repeat' split at hr
    all_goals first
      | cases hr
      | exact absurd hr (hmap _)
  · obtain ⟨m', h1, h2⟩ := (node_arrays H R tsc prop).ok h
    cases h1
    exact ⟨h2.1, fun k v hv => h2.2 _ hv⟩

/-- The keys for nests and `@reverse` expand to these keywords. -/
theorem groupKey_expands {E : CEnv} {X : XEnv} {c : ACtx} (H : BaseEnv E X c) {k : Str} (h : GroupKey E c k) :
    xKey X c k = .ok (some (.keyword .nest)) ∨ xKey X c k = .ok (some (.keyword .reverse)) := by
  rcases h with rfl | h | h
  · exact .inl rfl
  · refine .inl ?_
    unfold ACtx.getValue at h
    split at h
    · cases hd : c.typeDef with
      | none => rw [hd] at h; cases h
      | some p => rw [hd] at h; cases h
    · cases hd : c.getNormal k with
      | none => rw [hd] at h; cases h
      | some d =>
        rw [hd] at h
        have hv : d.value = some (.keyword .nest) := Option.some.inj h
        have hk := H.clean.terms k d hd
        have := Expands.term (env := X.toIriEnv) (docRel := false) (voc := some .keep) d hk ⟨hd, .inl rfl⟩
        rw [hv] at this
        unfold xKey xIri
        rw [H.vocab, ofStr_plain hk, expandIri, (C33_exact ..).2 this]; rfl
  · refine .inr ?_
    have := C35_keyword_partial E.toCompEnv c H.clean .reverse (fun p m h => H.keywords.prefixes p m h _)
      (fun v h => H.keywords.vocab v h _) false E.opts k h
    unfold xKey xIri
    rw [H.vocab, H.env, this]

/-- The condition of C69 is met if the properties of the node can be expanded back, and reverse terms are no nests. -/
theorem C69_apart (E : CEnv) (X : XEnv) (c : ACtx) (H : BaseEnv E X c) (n : Node)
    (hp : ∀ p ∈ n.props, Nameable E.toCompEnv c true p.1)
    (hr : ∀ r, n.rev = some r → ∀ p ∈ r, Nameable E.toCompEnv c true p.1)
    (hd : ∀ b ∈ c.defs, b.2.reverse = true → ∃ p, b.2.value = some (.id p)) : Apart E c n := by
  have hw : ∀ kw k, WrittenFor E c kw k → xKey X c k = .ok (some (.keyword kw)) := by
    intro kw k h
    have := C35_keyword_partial E.toCompEnv c H.clean kw (fun p m h => H.keywords.prefixes p m h _)
      (fun v h => H.keywords.vocab v h _) false E.opts k h
    unfold xKey xIri
    rw [H.vocab, H.env, this]
  have hk : ∀ k t, xKey X c k = .ok (some t) → t ≠ .keyword .nest → t ≠ .keyword .reverse → ¬ GroupKey E c k := by
    intro k t h h1 h2 hg
    rcases groupKey_expands H hg with h' | h' <;> rw [h] at h' <;> cases h'
    · exact h1 rfl
    · exact h2 rfl
  have hno : ∀ k, KeywordForm k → k ≠ "@type".toList → c.get k = none := by
    intro k hf hn
    cases h : c.get k with
    | none => rfl
    | some d =>
      unfold ACtx.get at h
      rw [if_neg hn] at h
      exact absurd hf (H.clean.terms k d h)
  refine ⟨?_, ?_, ?_, hno _ ((C01_form _).1 (by decide)) (by decide), hno _ ((C01_form _).1 (by decide)) (by decide)⟩
  · rintro t rev o k (rfl | rfl | ⟨p, h, rfl⟩ | ⟨r, h1, p, h, rfl⟩) h'
    · exact hk k _ (keyword_with H h') nofun nofun
    · exact hk k _ (keyword_with H h') nofun nofun
    · exact hk k _ (id_with H (hp p h) h') nofun nofun
    · exact hk k _ (id_with H (hr r h1 p h) h') nofun nofun
  · intro kw hkw k h
    refine ⟨hk k _ (hw kw k h) ?_ ?_, ?_⟩
    · rintro h'; cases h'; simp at hkw
    · rintro h'; cases h'; simp at hkw
    · rintro rfl
      have := hw kw _ h
      rw [show xKey X c "@graph".toList = .ok (some (.keyword .graph)) from rfl] at this
      cases this
      simp at hkw
  · intro k d h h' hg
    unfold ACtx.get at h
    split at h
    · cases ht : c.typeDef with
      | none => rw [ht] at h; cases h
      | some p => rw [ht] at h; cases h; cases h'
    · obtain ⟨p, hp⟩ := hd (k, d) (lookupKey_mem h) h'
      have hf := H.clean.terms k d h
      have := Expands.term (env := X.toIriEnv) (docRel := false) (voc := some .keep) d hf ⟨h, .inl rfl⟩
      rw [hp] at this
      refine hk k (.id p) ?_ nofun nofun hg
      unfold xKey xIri
      rw [H.vocab, ofStr_plain hf, expandIri, (C33_exact ..).2 this]; rfl

/-- **C69.** If no arrays are wanted, a property with one value has no array: a value or node (that is no graph) is
found alone under its key, unless it is itself compacted to an array (a JSON literal). -/
theorem C69_single (E : CEnv) (R : CRec) (c : ACtx) (p : CTerm) (rev : Bool) (o : Obj) (key : Str) (v : Json)
    (hk : compactIriWith E.toCompEnv c p o true rev E.opts = .ok (some key)) (hw : ¬ WantsArray E c key)
    (hl : key ≠ "@list".toList) (hm : ¬ HoldsMap c key) (hn : ∀ d, c.get key = some d → d.nest = none)
    (ho : o.isGraph = false ∧ ¬ IsList o) (hv : R c c (some key) o = .ok v) (ha : NotArray v)
    (m : JMap) (hd : (m.map Prod.fst).Nodup) (hf : lookupKey key m = none) :
    ∃ m', compactProperty E R c p rev [o] m = .ok m' ∧ lookupKey key m' = some v := by
  obtain ⟨m', h1, h2⟩ := C38_single m hd key v ha hf
  refine ⟨m', ?_, h2⟩
  have hnest : (c.get key).bind (·.nest) = none := by
    cases h : c.get key with
    | none => rfl
    | some d => exact hn d h
  have harr : asArray E c key = false := by
    unfold asArray
    rw [if_neg]
    · cases h : E.opts.compactArrays
      · exact absurd (.inl h) hw
      · rfl
    · simp only [Bool.or_eq_true, decide_eq_true_eq, not_or]
      refine ⟨⟨fun h => hw ?_, fun h => hw (.inr (.inl h))⟩, hl⟩
      unfold defContainer at h
      split at h
      · rename_i d hd
        exact .inr (.inr ⟨d, hd, List.contains_iff_mem.1 h⟩)
      · cases h
  have hmap : isMapContainer (defContainer (c.get key)) = false := by
    rw [← Bool.not_eq_true]
    intro h
    unfold isMapContainer at h
    simp only [Bool.and_eq_true, Bool.or_eq_true] at h
    refine hm ?_
    rcases h.2 with ((h | h) | h) | h
    · exact mapTerm_of (.inl rfl) h
    · exact mapTerm_of (.inr (.inl rfl)) h
    · exact mapTerm_of (.inr (.inr (.inl rfl))) h
    · exact mapTerm_of (.inr (.inr (.inr rfl))) h
  have hadd : addItem E R c key o v m = .ok m' := by
    unfold addItem
    rw [hmap, if_neg nofun, harr]
    exact h1
  have hitem : propertyItem E R c key o m = .ok m' := by
    unfold propertyItem
    cases o with
    | list i l => exact absurd ⟨i, l, rfl⟩ ho.2
    | node n =>
      have : n.isGraph = false := ho.1
      dsimp only
      rw [this, if_neg nofun, hv]
      exact hadd
    | value i x =>
      dsimp only
      rw [hv]
      exact hadd
  unfold compactProperty
  rw [List.isEmpty_cons, if_neg nofun]
  show (propertyStep E R c p rev m o).bind _ = _
  unfold propertyStep itemKey
  rw [hk]
  show (inNest c key m _).bind _ = _
  unfold inNest
  rw [hnest]
  show (propertyItem E R c key o m).bind _ = _
  rw [hitem]
  rfl

/-- **C69.** A node with one type: no array unless it is wanted. -/
theorem C69_type (E : CEnv) (c tsc : ACtx) (t : Id) (k : Str) (s : Str) (hk : WrittenFor E c .type k)
    (hs : compactIriPlain E.toCompEnv tsc (.id t) true false E.opts = .ok (some s)) (hw : ¬ WantsArray E c k)
    (m : JMap) (hd : (m.map Prod.fst).Nodup) (hf : lookupKey k m = none) :
    ∃ m', compactTypes E c tsc (some [t]) m = .ok m' ∧ lookupKey k m' = some (.str s) := by
  obtain ⟨m', h1, h2⟩ := C38_single m hd k (.str s) nofun hf
  refine ⟨m', ?_, h2⟩
  have ha : ((decide (E.opts.mode = .v11) && (defContainer (c.get k)).contains .set) || !E.opts.compactArrays) =
      false := by
    rw [Bool.or_eq_false_iff]
    constructor
    · cases h : (defContainer (c.get k)).contains .set with
      | false => simp
      | true =>
        unfold defContainer at h
        split at h
        · rename_i d hd
          exact absurd (.inr (.inr ⟨d, hd, List.contains_iff_mem.1 h⟩)) hw
        · cases h
    · cases h : E.opts.compactArrays
      · exact absurd (.inl h) hw
      · rfl
  have ht : typesJson E tsc [t] = .ok (.str s) := by
    show (compactIriPlain E.toCompEnv tsc (.id t) true false E.opts).map optStr = _
    rw [hs]
    rfl
  show (typesJson E tsc [t]).bind _ = _
  rw [ht]
  show (cKey E c .type).bind _ = _
  unfold cKey cIriU cIri
  rw [hk]
  show addValue m k (.str s) _ = _
  rw [ha]
  exact h1

/-- **C69.** If all arrays are kept, so is the array of the document: apart from the context, its only entry is an
array under the key for `@graph`. -/
theorem C69_document (E : CEnv) (c : ACtx) (l : SCtx) (d : Doc) (ha : E.opts.compactArrays = false) (j : Json)
    (h : compactDoc E c l d = .ok j) :
    ∃ m, j = .obj m ∧ ∀ e ∈ m, e.1 = "@context".toList ∨ WrittenFor E c .graph e.1 ∧ ∃ items, e.2 = .arr items := by
  unfold compactDoc at h
  obtain ⟨v, h1, h2⟩ := exBind_ok h
  obtain ⟨items, -, h1⟩ := exBind_ok h1
  have hv : v = .arr items := by
    cases h1
    unfold collect
    split
    · rw [ha]
      rfl
    · rfl
  subst hv
  obtain ⟨m, h3, h4⟩ := exMap_ok h2
  have hm : ∃ m', m = some m' ∧ ∀ e ∈ m', WrittenFor E c .graph e.1 ∧ ∃ items, e.2 = .arr items := by
    cases items with
    | nil => cases h3; exact ⟨[], rfl, nofun⟩
    | cons x xs =>
      obtain ⟨k, h5, h6⟩ := exMap_ok h3
      refine ⟨_, h6.symm, ?_⟩
      rintro e he
      cases List.mem_singleton.1 he
      exact ⟨cKey_written h5, _, rfl⟩
  obtain ⟨m', rfl, hm⟩ := hm
  refine ⟨_, h4.symm, ?_⟩
  intro e he
  unfold insertContext at he
  split at he
  · rcases List.mem_cons.1 he with rfl | he
    · exact .inl rfl
    · exact .inr (hm e (List.mem_filter.1 he).1)
  · exact .inr (hm e he)

/-! ## Examples -/

/-- The node of the example of C66. -/
def exArraysNode : Node :=
  .mk none (some (.iri "http:a".toList)) (some [.iri "http:T".toList]) none none exMapsProps none

/-- All arrays are kept. -/
def exArraysEnv : CEnv := { exCEnv with opts := { compactArrays := false } }

/-- The hypotheses of `C69_arrays` are met. -/
example : Apart exCEnv exMapsCtx exArraysNode ∧ nodeContext exCEnv exMapsCtx exMapsCtx none exArraysNode = .ok exMapsCtx := by
  refine ⟨C69_apart exCEnv exBackEnv exMapsCtx exMaps_env.toBaseEnv exArraysNode ?_ nofun ?_, rfl⟩
  · intro p hp
    simp only [exArraysNode, Node.props, exMapsProps, List.mem_cons, List.not_mem_nil, or_false] at hp
    rcases hp with rfl | rfl | rfl | rfl | rfl | rfl <;> exact exMaps_name rfl rfl _
  · intro b hb h
    simp only [exMapsCtx, exMapsTerm, List.mem_cons, List.not_mem_nil, or_false] at hb
    rcases hb with rfl | rfl | rfl | rfl | rfl | rfl | rfl <;> cases h

/-- The compacted document with all arrays. -/
def exArraysJson : Json :=
  .obj [("@graph".toList, .arr [.obj [("@id".toList, .str "http:a".toList), ("kind".toList, .arr [.str "http:T".toList]),
    ("list".toList, .arr [.str "http:b".toList, .str "http:c".toList]),
    ("label".toList, .obj [("en".toList, .arr [.str "a".toList, .str "c".toList]),
      ("fr".toList, .arr [.str "b".toList]), ("@none".toList, .arr [.str "d".toList])]),
    ("knows".toList, .arr [.str "http:b".toList]),
    ("at".toList, .obj [("i".toList, .arr [.num "1".toList, .num "3".toList]),
      ("@none".toList, .arr [.num "2".toList])]),
    ("by".toList, .obj [("http:b".toList, .arr [.obj [("at".toList, .arr [])]])]),
    ("as".toList, .obj [("http:T".toList, .arr [.obj [("knows".toList, .arr []),
      ("kind".toList, .str "http:U".toList)]])])]])]

/-- The compacted document of `exMapsDoc` with all arrays, compare `exMapsJson`. The node in the map by type is
compacted with an array of types as `C69_arrays` says; the array is lost when its first type becomes the key. -/
example : compactDoc exArraysEnv exMapsCtx (.one .null) exMapsDoc = .ok exArraysJson := by
  decide +kernel

/-- The hypotheses of `C69_single` and `C69_type` are met. -/
example : compactIriWith exCEnv.toCompEnv exMapsCtx (.id (.iri "http:p".toList)) (exNum none "1") true false exCEnv.opts =
      .ok (some "http:p".toList) ∧ exMapsCtx.get "http:p".toList = none ∧
    compactObject exCEnv exMapsCtx exMapsCtx (some "http:p".toList) (exNum none "1") = .ok (.num "1".toList) ∧
    WrittenFor exCEnv exMapsCtx .type "kind".toList ∧ ¬ WantsArray exCEnv exMapsCtx "kind".toList := by
  refine ⟨by decide +kernel, rfl, by decide +kernel, by unfold WrittenFor; decide +kernel, ?_⟩
  rintro (h | h | ⟨d, h, h'⟩)
  · cases h
  · exact absurd h (by decide)
  · cases h
    simp [Container.asSlice] at h'

end JsonLd.Props
