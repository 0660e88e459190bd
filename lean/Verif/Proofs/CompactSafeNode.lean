import Verif.Proofs.CompactSafe
import Verif.Proofs.FlattenOut
/-!
# Compaction without failure: properties, nodes and documents
-/

namespace JsonLd
open Spec Props Relation

/-! ## Invariants of the objects under construction -/

/-- The entry holds a map if its term makes maps, unless the property is finished (`S`). -/
def MapsAt (c : ACtx) (S : CTerm → Prop) (e : Str × Json) : Prop :=
  MakesMap (defContainer (c.get e.1)) →
    (∃ d t, c.get e.1 = some d ∧ d.value = some t ∧ S t) ∨ ∃ o, e.2 = .obj o

/-- An object under construction: distinct keys, maps where maps are made, also in the entries of `@nest`. There is an
`@id` entry only if `T`. -/
structure Deep (c : ACtx) (T : Prop) (S : CTerm → Prop) (m : JMap) : Prop where
  ok : MapOk m
  maps : ∀ e ∈ m, MapsAt c S e
  nests : ∀ e ∈ m, NestKey c e.1 → ∃ o, e.2 = .obj o ∧ ∀ x ∈ o, MapsAt c S x
  keys : ∀ e ∈ m, e.1 = "@id".toList → T

/-- The entry for a key is changed. -/
structure AddsAt (c : ACtx) (S : CTerm → Prop) (key : Str) (m m' : JMap) : Prop where
  ok : MapOk m'
  entries : ∀ e ∈ m', e ∈ m ∨ (e.1 = key ∧ MapsAt c S e)

/-- A map may be under the key. -/
def MapReady (c : ACtx) (key : Str) (m : JMap) : Prop :=
  MakesMap (defContainer (c.get key)) → ∀ e ∈ m, e.1 = key → ∃ o, e.2 = .obj o

theorem MapsAt.mono {c : ACtx} {S S' : CTerm → Prop} (h : ∀ t, S t → S' t) {e : Str × Json} (he : MapsAt c S e) :
    MapsAt c S' e := by
  intro hm
  rcases he hm with ⟨d, t, h1, h2, h3⟩ | h'
  · exact .inl ⟨d, t, h1, h2, h t h3⟩
  · exact .inr h'

theorem Deep.mono {c : ACtx} {T : Prop} {S S' : CTerm → Prop} (h : ∀ t, S t → S' t) {m : JMap} (hm : Deep c T S m) :
    Deep c T S' m :=
  ⟨hm.ok, fun e he => (hm.maps e he).mono h, fun e he hn => by
    obtain ⟨o, h1, h2⟩ := hm.nests e he hn
    exact ⟨o, h1, fun x hx => (h2 x hx).mono h⟩, hm.keys⟩

theorem Deep.nil (c : ACtx) (T : Prop) (S : CTerm → Prop) : Deep c T S [] := ⟨.nil, nofun, nofun, nofun⟩

/-- An entry for a free key is changed. -/
theorem Deep.free {c : ACtx} {T : Prop} {S : CTerm → Prop} {m m' : JMap} (hm : Deep c T S m) {k : Str} (hk : FreeKey c k)
    (hi : k = "@id".toList → T) (ho : MapOk m') (he : ∀ e ∈ m', e ∈ m ∨ e.1 = k) : Deep c T S m' := by
  refine ⟨ho, fun e h => ?_, fun e h hn => ?_, fun e h hid => ?_⟩
  · rcases he e h with h | h
    · exact hm.maps e h
    · intro hx
      rw [h] at hx
      exact absurd hx hk.map
  · rcases he e h with h | h
    · exact hm.nests e h hn
    · rw [h] at hn
      exact absurd hn hk.nest
  · rcases he e h with h | h
    · exact hm.keys e h hid
    · exact hi (h ▸ hid)

/-- The entry for the key of a property is changed. -/
theorem Deep.adds {c : ACtx} {T : Prop} {S S' : CTerm → Prop} (hS : ∀ t, S t → S' t) {m m' : JMap} (hm : Deep c T S m)
    {key : Str} (hn : ¬ NestKey c key) (hi : key ≠ "@id".toList) (h : AddsAt c S' key m m') : Deep c T S' m' := by
  refine ⟨h.ok, fun e he => ?_, fun e he hne => ?_, fun e he hid => ?_⟩
  · rcases h.entries e he with h | h
    · exact (hm.maps e h).mono hS
    · exact h.2
  · rcases h.entries e he with h | h
    · obtain ⟨o, h1, h2⟩ := hm.nests e h hne
      exact ⟨o, h1, fun x hx => (h2 x hx).mono hS⟩
    · rw [h.1] at hne
      exact absurd hne hn
  · rcases h.entries e he with h | h
    · exact hm.keys e h hid
    · exact absurd (h.1 ▸ hid) hi

theorem ready_of {c : ACtx} {S : CTerm → Prop} {key : Str} {m : JMap} (hm : ∀ e ∈ m, MapsAt c S e)
    (ht : MakesMap (defContainer (c.get key)) → ∃ d t, c.get key = some d ∧ d.value = some t ∧ ¬ S t) : MapReady c key m := by
  intro hk e he hek
  obtain ⟨d, t, h1, h2, h3⟩ := ht hk
  subst hek
  rcases hm e he hk with ⟨d', t', h4, h5, h6⟩ | h
  · rw [h1] at h4
    cases h4
    rw [h2] at h5
    cases h5
    exact absurd h6 h3
  · exact h

section
variable {E : CEnv} {X : CompErr → Prop} {P : ACtx → Prop} {F : Str → Prop} (A : Steady E X P F)
include A

/-- The entry for the key of a property is changed, perhaps in an entry of `@nest`. -/
theorem Steady.inNest {c : ACtx} (hc : P c) {T : Prop} {S S' : CTerm → Prop} (hS : ∀ t, S t → S' t) {key : Str} {m : JMap}
    (hm : Deep c T S m) (hn : ¬ NestKey c key) (hi : key ≠ "@id".toList)
    (ht : MakesMap (defContainer (c.get key)) → ∃ d t, c.get key = some d ∧ d.value = some t ∧ ¬ S t)
    {f : JMap → Except CompErr JMap} (hf : ∀ o, MapOk o → MapReady c key o → Post X (AddsAt c S' key o) (f o)) :
    Post X (Deep c T S') (inNest c key m f) := by
  have hs := A.safe c hc
  unfold JsonLd.inNest
  split
  · rename_i n hnest
    have hallowed : nestAllowed c n = true ∧ NestKey c n.str := by
      cases hd : c.get key with
      | none => rw [hd] at hnest; cases hnest
      | some d =>
        rw [hd] at hnest
        have hnest : d.nest = some n := hnest
        rcases safe_lookup hd with h | h
        · rcases hs.nest key d n h hnest with rfl | ⟨t, d', rfl, h1, h2⟩
          · exact ⟨rfl, .inl rfl⟩
          · refine ⟨?_, .inr ⟨d', h1, h2⟩⟩
            show decide (c.getValue t = _) = true
            unfold ACtx.getValue
            rw [if_neg (by rintro rfl; exact hs.terms _ d' h1 ((C01_form _).1 (by decide)))]
            unfold ACtx.getNormal
            rw [h1]
            exact decide_eq_true (by rw [← h2]; rfl)
        · rw [h.2.1] at hnest
          cases hnest
    rw [if_pos hallowed.1]
    refine (inObject_post hm.ok (fun e he hk => ?_) (Q := fun r => ∀ x ∈ r, MapsAt c S' x) fun o ho hmem => ?_).mono
      fun m' hm' => ⟨hm'.1, fun e he => ?_, fun e he hne => ?_, fun e he hid => ?_⟩
    · obtain ⟨o, h1, -⟩ := hm.nests e he (hk ▸ hallowed.2)
      exact ⟨o, h1⟩
    · have hmaps : ∀ x ∈ o, MapsAt c S x := by
        rcases hmem with rfl | hmem
        · exact nofun
        · obtain ⟨o', h1, h2⟩ := hm.nests _ hmem hallowed.2
          have h1 : Json.obj o = .obj o' := h1
          cases h1
          exact h2
      refine (hf o ho (ready_of hmaps ht)).mono fun r hr => ⟨hr.ok, fun x hx => ?_⟩
      rcases hr.entries x hx with h | h
      · exact (hmaps x h).mono hS
      · exact h.2
    · rcases hm'.2 e he with h | ⟨r, rfl, -⟩
      · exact (hm.maps e h).mono hS
      · exact fun _ => .inr ⟨r, rfl⟩
    · rcases hm'.2 e he with h | ⟨r, rfl, h⟩
      · obtain ⟨o, h1, h2⟩ := hm.nests e h hne
        exact ⟨o, h1, fun x hx => (h2 x hx).mono hS⟩
      · exact ⟨r, rfl, h⟩
    · rcases hm'.2 e he with h | ⟨r, rfl, h⟩
      · exact hm.keys e h hid
      · exfalso
        have hid : n.str = "@id".toList := hid
        rw [hid] at hallowed
        rcases hallowed.2 with h | ⟨d, h, -⟩
        · exact absurd h (by decide)
        · exact hs.terms _ d h (keyword_isForm .id)
  · exact (hf m hm.ok (ready_of hm.maps ht)).mono fun m' hm' => hm.adds hS hn hi hm'

/-! ## Values of properties -/

omit A in
theorem adds_plain {c : ACtx} {S : CTerm → Prop} {key : Str} (hk : ¬ MakesMap (defContainer (c.get key))) {m : JMap}
    (hm : MapOk m) {v : Json} (hv : NoDupKeys v) (a : Bool) : Post X (AddsAt c S key m) (addValue m key v a) :=
  (add_post hm key hv a).mono fun m' h => ⟨h.1, fun e he => by
    rcases h.2 e he with h | h
    · exact .inl h
    · exact .inr ⟨h, fun hx => absurd (h ▸ hx) hk⟩⟩

omit A in
theorem adds_map {c : ACtx} {S : CTerm → Prop} {key : Str} {m : JMap} (hm : MapOk m)
    (hk : ∀ e ∈ m, e.1 = key → ∃ o, e.2 = .obj o) {f : JMap → Except CompErr JMap}
    (hf : ∀ o, MapOk o → Post X MapOk (f o)) : Post X (AddsAt c S key m) (inObject key m f) :=
  (inObject_post (Q := fun _ => True) hm hk fun o ho _ => (hf o ho).mono fun r hr => ⟨hr, trivial⟩).mono
    fun m' h => ⟨h.1, fun e he => by
      rcases h.2 e he with h | ⟨r, rfl, -⟩
      · exact .inl h
      · exact .inr ⟨rfl, fun _ => .inr ⟨r, rfl⟩⟩⟩

theorem Steady.indexEntries {c : ACtx} (hc : P c) (index : Option Str) :
    Post X (fun es => ∀ e ∈ es, NoDupKeys e.2) (indexEntries E c index) := by
  unfold JsonLd.indexEntries
  split
  · exact (A.cKey_any hc _).map fun _ _ => by simpa using (shape_noDup X).str _
  · exact (by simp : ∀ e ∈ ([] : JMap), NoDupKeys e.2)

omit A in
theorem id_mentions {n : Node} (hF : ∀ x, NamesIri (.node n) x → F x) {i : Id} (hi : n.id = some i) :
    ∀ x, (CTerm.id i).asIri = some x → F x := by
  intro x hx
  cases i with
  | iri s => cases hx; exact hF _ (.inl hi)
  | _ => cases hx

theorem Steady.graphObject {c : ACtx} (hc : P c) {n : Node} (hF : ∀ x, NamesIri (.node n) x → F x) {v : Json}
    (hv : NoDupKeys v) : Post X NoDupKeys (graphObject E c n v) := by
  have S := shape_noDup X
  unfold JsonLd.graphObject
  refine (A.cKey_any hc _).bind fun k _ => Post.bind (Q := fun es => ∀ e ∈ es, NoDupKeys e.2) ?_ fun ei hi =>
    (A.indexEntries hc _).map fun ex hx => (S.jObject fun e he => ?_)
  · unfold graphId
    split
    · rename_i i hi
      exact (A.cIriU hc (by simp) (fun j hj => by cases hj) _).bind fun _ _ =>
        (A.cIri hc (by simp) (id_mentions hF hi) _).map fun s _ => by simpa using S.optStr _
    · exact (by simp : ∀ e ∈ ([] : JMap), NoDupKeys e.2)
  · rcases List.mem_cons.1 he with rfl | he
    · exact hv
    · rcases List.mem_append.1 he with he | he
      · exact hi e he
      · exact hx e he

/-- Graphs. -/
theorem Steady.addGraph {c : ACtx} (hc : P c) {S : CTerm → Prop} {key : Str} {n : Node} (hg : n.isGraph = true)
    (hF : ∀ x, NamesIri (.node n) x → F x)
    (hk : ¬ MakesMap (defContainer (c.get key)) ∨ defContainer (c.get key) ∈ [.graphId, .graphIdSet] ∨
      (defContainer (c.get key) ∈ [.graphIndex, .graphIndexSet] ∧ n.id = none))
    {v : Json} (hv : NoDupKeys v) {m : JMap} (hm : MapOk m) (hr : MapReady c key m) :
    Post X (AddsAt c S key m) (addGraph E c key n v m) := by
  unfold JsonLd.addGraph
  dsimp only
  have hid : Post X (fun _ => True) (graphMapKey E c n) := by
    unfold graphMapKey
    split
    · rename_i i hi
      exact A.cIriU hc (by simp) (id_mentions hF hi) _
    · exact A.cKey_any hc _
  have hinc : Post X NoDupKeys (graphIncluded E c v) := by
    unfold graphIncluded
    split
    · split
      · exact (A.cKey_any hc _).map fun k _ => (shape_noDup X).one k hv
      · exact hv
    · exact hv
  have hgo := A.graphObject hc hF hv
  have hmap : MakesMap (defContainer (c.get key)) → ∀ e ∈ m, e.1 = key → ∃ o, e.2 = .obj o := hr
  revert hk hmap
  generalize hK : defContainer (c.get key) = K
  intro hk hmap
  have plain : ¬ MakesMap K → ∀ v' : Json, NoDupKeys v' → ∀ a, Post X (AddsAt c S key m) (addValue m key v' a) := by
    intro h v' hv' a
    exact adds_plain (by rw [hK]; exact h) hm hv' a
  rcases hk with hk | hk | ⟨hk, hid0⟩
  · have h1 : K.contains .id = false := by
      revert hk; cases K <;> simp [MakesMap, Container.asSlice, Container.contains]
    have h2 : K.contains .index = false := by
      revert hk; cases K <;> simp [MakesMap, Container.asSlice, Container.contains]
    rw [h1, h2, Bool.and_false, Bool.false_and, if_neg (by simp), if_neg (by simp)]
    split
    · exact hinc.bind fun w hw => plain hk _ hw _
    · exact hgo.bind fun w hw => plain hk _ hw _
  · simp only [List.mem_cons, List.not_mem_nil, or_false] at hk
    rcases hk with rfl | rfl
    · rw [if_pos (by decide)]
      exact adds_map hm (hmap (by simp [MakesMap, Container.asSlice])) fun o ho => hid.bind fun mk _ => ho.postAdd _ hv _
    · rw [if_pos (by decide)]
      exact adds_map hm (hmap (by simp [MakesMap, Container.asSlice])) fun o ho => hid.bind fun mk _ => ho.postAdd _ hv _
  · have hsimple : n.isSimpleGraph = true := by
      unfold Node.isSimpleGraph
      rw [hid0, hg]
      rfl
    rw [hsimple]
    simp only [List.mem_cons, List.not_mem_nil, or_false] at hk
    rcases hk with rfl | rfl
    · rw [if_neg (by decide), if_pos (by decide)]
      exact adds_map hm (hmap (by simp [MakesMap, Container.asSlice])) fun o ho => ho.postAdd _ hv _
    · rw [if_neg (by decide), if_pos (by decide)]
      exact adds_map hm (hmap (by simp [MakesMap, Container.asSlice])) fun o ho => ho.postAdd _ hv _

omit A in
theorem addEach_post (k : Str) {l : List Json} (hl : ∀ x ∈ l, NoDupKeys x) {m : JMap} (hm : MapOk m) :
    Post X (fun m' => MapOk m' ∧ ∀ e ∈ m', e ∈ m ∨ e.1 = k) (addEach k l m) := by
  induction l generalizing m with
  | nil => exact ⟨hm, fun e he => .inl he⟩
  | cons v l ih =>
    rw [addEach]
    refine (add_post hm k (hl v (by simp)) false).bind fun m1 hm1 =>
      (ih (fun x hx => hl x (by simp [hx])) hm1.1).mono fun m2 hm2 => ⟨hm2.1, fun e he => ?_⟩
    rcases hm2.2 e he with h | h
    · exact hm1.2 e h
    · exact .inr h

omit A in
theorem takeFirst_post (k : Str) {v : Json} (hv : NoDupKeys v) :
    Post X (fun r => NoDupKeys r.2 ∧ ∀ m, r.2 = .obj m → ∃ m0, v = .obj m0 ∧ ∀ e ∈ m, e ∈ m0 ∨ e.1 = k) (takeFirst k v) := by
  have S := shape_noDup X
  unfold takeFirst
  split
  · rename_i m0
    refine (S.get hv k).bind fun w hw => ?_
    split
    · rename_i j
      refine (addEach_post k (S.firstValue (hw j rfl)) ((NoDupKeys.mapOk hv).filter _)).map fun m hm =>
        ⟨hm.1.obj, fun m' hm' => ⟨m0, rfl, fun e he => ?_⟩⟩
      cases hm'
      rcases hm.2 e he with h | h
      · exact .inl (List.mem_filter.1 h).1
      · exact .inr h
    · exact ⟨hv, fun m hm => ⟨m, hm, fun e he => .inl he⟩⟩
  · exact ⟨hv, fun m hm => ⟨m, hm, fun e he => .inl he⟩⟩

omit A in
theorem takeId_post (k : Str) {v : Json} (hv : NoDupKeys v) : Post X (fun r => NoDupKeys r.2) (takeId k v) := by
  have S := shape_noDup X
  unfold takeId
  split
  · refine (S.get hv k).map fun w hw => ?_
    split
    · exact S.filter hv _
    · exact hv
  · exact hv

/-- The compacted object has an entry `@id` only if the node has an identifier. -/
def IdKey (o : Obj) (v : Json) : Prop := ∀ n m, o = .node n → v = .obj m → ∀ e ∈ m, e.1 = "@id".toList → n.id ≠ none

/-- What is known about the recursive calls for the objects that satisfy `H`. -/
def RecSafe (X : CompErr → Prop) (P : ACtx → Prop) (H : Obj → Prop) (R : CRec) : Prop :=
  ∀ c tsc prop o, P c → P tsc → H o → Post X (fun v => NoDupKeys v ∧ IdKey o v) (R c tsc prop o)

variable {R : CRec} {H : Obj → Prop} (hR : RecSafe X P H R)
include hR

/-- Objects that are no lists or graphs. -/
theorem Steady.addItem {c : ACtx} (hc : P c) {S : CTerm → Prop} {key : Str} {o : Obj}
    (hk : MakesMap (defContainer (c.get key)) → (defContainer (c.get key) ∈ [.index, .indexSet] ∨
      (defContainer (c.get key) ∈ [.language, .languageSet] ∧ ∃ i x, o = .value i x) ∨
      (defContainer (c.get key) ∈ [.id, .idSet, .type, .setType] ∧ ∃ n, o = .node n ∧
        ∀ i, n.id = some i → H (.node (Node.onlyId i)))))
    (hj : ∀ i j, o = .value i (.json j) → NoDupKeys j) {v : Json} (hv : NoDupKeys v) (hid : IdKey o v) {m : JMap}
    (hm : MapOk m) (hr : MapReady c key m) : Post X (AddsAt c S key m) (addItem E R c key o v m) := by
  unfold JsonLd.addItem
  by_cases hmap : MakesMap (defContainer (c.get key))
  · have hk := hk hmap
    have hr := hr hmap
    have himc : isMapContainer (defContainer (c.get key)) = true := by
      simp only [List.mem_cons, List.not_mem_nil, or_false] at hk
      rcases hk with (h | h) | ⟨h | h, -⟩ | ⟨h | h | h | h, -⟩ <;> rw [h] <;> decide
    rw [if_pos himc]
    refine adds_map hm hr fun mo hmo => Post.bind (Q := fun r => NoDupKeys r.2) ?_ fun r hr' =>
      Post.bind (Q := fun _ => True) ?_ fun mk _ => hmo.postAdd mk hr' _
    · unfold cMapItem
      dsimp only
      have hindex : Post X (fun r => NoDupKeys r.2) (cIndexItem E c key o v) := by
        unfold cIndexItem
        split
        · exact (A.cIriU hc (by simp) (fun j hj => by cases hj) _).bind fun ck _ =>
            (takeFirst_post ck hv).mono fun r hr => hr.1
        · exact hv
      have hki : ∀ K : Container, mapKind K = .language ∨ mapKind K = .index ∨ mapKind K = .id ∨ mapKind K = .type := by
        intro K; cases K <;> decide
      have hne : mapKind (defContainer (c.get key)) ≠ .nest := by
        rcases hki (defContainer (c.get key)) with h | h | h | h <;> rw [h] <;> decide
      refine (A.cKey hc hne).bind fun ck hck => ?_
      simp only [List.mem_cons, List.not_mem_nil, or_false] at hk
      rcases hk with h | ⟨h, i, x, rfl⟩ | ⟨h, n, rfl, hH⟩
      · have : mapKind (defContainer (c.get key)) = .index := by rcases h with h | h <;> rw [h] <;> decide
        rw [this]
        exact hindex
      · have : mapKind (defContainer (c.get key)) = .language := by rcases h with h | h <;> rw [h] <;> decide
        rw [this]
        show NoDupKeys (cLangItem x).2
        unfold cLangItem
        split
        · exact .str _
        · cases x with
          | literal l t => exact (shape_noDup X).literal l
          | langString s => exact .str _
          | json j => exact hj _ _ rfl
      · have htype : ck ≠ "@id".toList → Post X (fun r => NoDupKeys r.2) (cTypeItem R c key ck (.node n) v) := by
          intro hck
          unfold cTypeItem
          refine (takeFirst_post ck hv).bind fun r hr => ?_
          split
          · rename_i hon
            split
            · rename_i i hi
              exact (hR c c _ _ hc hc (hH i hi)).map fun w hw => hw.1
            · rename_i hi
              exfalso
              unfold onlyId at hon
              split at hon
              · rename_i k w heq
                obtain ⟨m0, h1, h2⟩ := hr.2 _ heq
                have hk : k = "@id".toList := of_decide_eq_true hon
                rcases h2 _ (List.mem_singleton.2 rfl) with h | h
                · exact hid n m0 rfl h1 _ h hk hi
                · exact hck (by rw [← h]; exact hk)
              · cases hon
          · exact hr.1
        rcases h with h | h | h | h <;> rw [h] at hck ⊢
        · exact takeId_post ck hv
        · exact takeId_post ck hv
        · exact htype (hck.2 (by decide))
        · exact htype (hck.2 (by decide))
    · unfold mapKeyOr
      split
      · trivial
      · exact A.cKey_any hc _
  · have himc : isMapContainer (defContainer (c.get key)) = false := by
      revert hmap
      cases defContainer (c.get key) <;> simp [MakesMap, Container.asSlice] <;> decide
    rw [himc]
    exact adds_plain hmap hm hv _

/-- What is needed about an object under a property. -/
structure ItemSafe (F : Str → Prop) (H : Obj → Prop) (o : Obj) : Prop where
  json : ∀ i j, o = .value i (.json j) → NoDupKeys j
  self : H o
  items : ∀ i l, o = .list i l → ∀ x ∈ l, H x
  graph : ∀ n l, o = .node n → n.graph = some l → ∀ x ∈ l, H x
  iris : ∀ n, o = .node n → ∀ x, NamesIri (.node n) x → F x
  only : ∀ n i, o = .node n → n.id = some i → H (.node (Node.onlyId i))

omit A hR in
theorem ItemSafe.nodeId {o : Obj} (h : ItemSafe F H o) : ∀ i, o.nodeId = some (.iri i) → F i := by
  intro i hi
  cases o with
  | node n => exact h.iris n rfl i (.inl hi)
  | _ => cases hi

/-- The container suits the object. -/
def Suits (K : Container) (o : Obj) : Prop :=
  match o with
  | .list _ _ => ¬ MakesMap K
  | .node n => if n.isGraph then ¬ MakesMap K ∨ K ∈ [.graphId, .graphIdSet] ∨
        (K ∈ [.graphIndex, .graphIndexSet] ∧ n.id = none)
      else MakesMap K → K ∈ [.index, .indexSet, .id, .idSet, .type, .setType]
  | .value _ _ => MakesMap K → K ∈ [.index, .indexSet, .language, .languageSet]

theorem Steady.propertyItem {c : ACtx} (hc : P c) {S : CTerm → Prop} {key : Str} {o : Obj} (ho : ItemSafe F H o)
    (hk : Suits (defContainer (c.get key)) o) {m : JMap} (hm : MapOk m) (hr : MapReady c key m) :
    Post X (AddsAt c S key m) (propertyItem E R c key o m) := by
  have Sh := shape_noDup X
  have coll : ∀ l : List Obj, (∀ x ∈ l, H x) →
      Post X NoDupKeys (compactCollection (R c c (some key)) c (some key) E.opts l) := by
    intro l hl
    rw [compactCollection]
    exact (post_items (K := NoDupKeys) fun x hx => (hR _ _ _ _ hc hc (hl x hx)).mono fun v hv => hv.1).bind
      fun r hr => Sh.collect hr
  unfold JsonLd.propertyItem
  split
  · rename_i i l
    have hk : ¬ MakesMap (defContainer (c.get key)) := hk
    unfold propertyList
    refine (coll l (ho.items i l rfl)).bind fun v hv => ?_
    split
    · obtain ⟨h1, h2⟩ := insert_ok hm key (Sh.wrap hv)
      refine ⟨h1, fun e he => ?_⟩
      rcases h2 e he with h | rfl
      · exact .inl h
      · exact .inr ⟨rfl, fun hx => absurd hx hk⟩
    · refine (A.cKey_any hc _).bind fun kl _ => (A.indexEntries hc _).bind fun ei hi =>
        adds_plain hk hm (Sh.jObject fun e he => ?_) _
      rcases List.mem_cons.1 he with rfl | he
      · exact Sh.wrap hv
      · exact hi e he
  · rename_i n
    unfold Suits at hk
    dsimp only at hk
    split
    · rename_i hg
      rw [if_pos hg] at hk
      unfold propertyGraph
      refine (coll _ fun x hx => ?_).bind fun v hv => A.addGraph hc hg (ho.iris n rfl) hk hv hm hr
      cases hgr : n.graph with
      | none => rw [hgr] at hx; cases hx
      | some l => rw [hgr] at hx; exact ho.graph n l rfl hgr x hx
    · rename_i hg
      rw [if_neg hg] at hk
      refine (hR _ _ _ _ hc hc ho.self).bind fun v hv => A.addItem hR hc (fun hx => ?_) ho.json hv.1 hv.2 hm hr
      have := hk hx
      simp only [List.mem_cons, List.not_mem_nil, or_false] at this
      rcases this with h | h | h
      · exact .inl (by simp [h])
      · exact .inl (by simp [h])
      · exact .inr (.inr ⟨by rcases h with h | h | h | h <;> simp [h], n, rfl, fun i hi => ho.only n i rfl hi⟩)
  · rename_i i x
    have hk : MakesMap (defContainer (c.get key)) → _ := hk
    refine (hR _ _ _ _ hc hc ho.self).bind fun v hv => A.addItem hR hc (fun hx => ?_) ho.json hv.1 hv.2 hm hr
    have := hk hx
    simp only [List.mem_cons, List.not_mem_nil, or_false] at this
    rcases this with h | h | h
    · exact .inl (by simp [h])
    · exact .inl (by simp [h])
    · exact .inr (.inl ⟨by rcases h with h | h <;> simp [h], i, x, rfl⟩)

omit A hR in
/-- A key without map suits anything. -/
theorem suits_free {K : Container} (hK : ¬ MakesMap K) (o : Obj) : Suits K o := by
  unfold Suits
  split
  · exact hK
  · split
    · exact .inl hK
    · exact fun h => absurd h hK
  · exact fun h => absurd h hK

omit A hR in
/-- The containers of terms chosen for an object suit it. -/
theorem suits_key {c : ACtx} {p : Id} {rev : Bool} {o : Obj} {key : Str} (h : SafeKey E c p rev o key)
    (hrev : rev = true → ∃ n, o = .node n)
    (hl : IsList o → NoTermWith c (.id p) .index)
    (hg : ∀ g, o = .node g → g.isGraph = true → GraphPlace c p g) : Suits (defContainer (c.get key)) o := by
  by_cases hmk : MakesMap (defContainer (c.get key))
  swap
  · exact suits_free hmk o
  have hindex : .index ∈ (defContainer (c.get key)).asSlice → ∃ d, c.get key = some d ∧ d.value = some (.id p) ∧
      defContainer (c.get key) = d.container := by
    intro hi
    obtain ⟨d, h1, h2⟩ := h.term (.inr (.inl hi))
    exact ⟨d, h1, h2, by rw [h1]; rfl⟩
  have hcont := h.container hmk
  cases rev with
  | true =>
    obtain ⟨n, rfl⟩ := hrev rfl
    have h4 : defContainer (c.get key) ∈ [.set, .none, .index, .indexSet] := by
      have hs : isSimpleValue (some (.node n)) true = false := rfl
      simp only [allContainers, List.mem_append, hs] at hcont
      revert hcont
      cases defContainer (c.get key) <;> simp
    unfold Suits
    dsimp only
    split
    · rename_i hgr
      simp only [List.mem_cons, List.not_mem_nil, or_false] at h4
      rcases h4 with h4 | h4 | h4 | h4
      · rw [h4]; exact .inl not_makesMap_set
      · rw [h4]; exact .inl not_makesMap_none
      all_goals
        exfalso
        obtain ⟨d, h1, h2, h3⟩ := hindex (by rw [h4]; simp [Container.asSlice])
        have := (hg n rfl hgr key d h1 h2 (by rw [← h3, h4]; simp [Container.asSlice])).1
        rw [← h3, h4] at this
        simp [Container.asSlice] at this
    · intro hx
      simp only [List.mem_cons, List.not_mem_nil, or_false] at h4
      rcases h4 with h4 | h4 | h4 | h4
      · rw [h4] at hx; exact absurd hx not_makesMap_set
      · rw [h4] at hx; exact absurd hx not_makesMap_none
      · rw [h4]; simp
      · rw [h4]; simp
  | false =>
    cases o with
    | list i l =>
      have hni : .index ∉ (defContainer (c.get key)).asSlice := by
        intro hi
        obtain ⟨d, h1, h2, h3⟩ := hindex hi
        rw [h3] at hi
        exact hl ⟨i, l, rfl⟩ key d h1 h2 hi
      rcases list_containers hcont hni with h | ⟨h, -⟩
      · rw [h]; exact not_makesMap_none
      · rw [h]; simp [Suits, MakesMap, Container.asSlice]
    | node n =>
      unfold Suits
      dsimp only
      split
      · rename_i hgr
        have hgc := graph_containers hgr hcont
        have hplace : ∀ K, defContainer (c.get key) = K → .index ∈ K.asSlice → .graph ∈ K.asSlice ∧ n.id = none := by
          intro K hK hi
          obtain ⟨d, h1, h2, h3⟩ := hindex (by rw [hK]; exact hi)
          have := hg n rfl hgr key d h1 h2 (by rw [← h3, hK]; exact hi)
          rw [← h3, hK] at this
          exact this
        rcases hgc with h | h | h | h | h | h | h | h | h | h
        case inl => rw [h]; exact .inl (by simp [MakesMap, Container.asSlice])
        case inr.inl => rw [h]; exact .inl (by simp [MakesMap, Container.asSlice])
        case inr.inr.inl => rw [h]; exact .inl (by simp [MakesMap, Container.asSlice])
        case inr.inr.inr.inl => rw [h]; exact .inl (by simp [MakesMap, Container.asSlice])
        case inr.inr.inr.inr.inl => rw [h]; exact .inr (.inl (by decide))
        case inr.inr.inr.inr.inr.inl => rw [h]; exact .inr (.inl (by decide))
        · have := (hplace _ h (by simp [Container.asSlice])).2
          rw [h]; exact .inr (.inr ⟨by simp, this⟩)
        · have := (hplace _ h (by simp [Container.asSlice])).2
          rw [h]; exact .inr (.inr ⟨by simp, this⟩)
        · have := (hplace _ h (by simp [Container.asSlice])).1
          simp [Container.asSlice] at this
        · have := (hplace _ h (by simp [Container.asSlice])).1
          simp [Container.asSlice] at this
      · rename_i hgr
        have := node_containers (by simpa using hgr) hcont
        intro hx
        simp only [List.mem_cons, List.not_mem_nil, or_false] at this
        rcases this with h | h | h | h | h | h | h | h
        case _ => rw [h]; simp
        case _ => rw [h]; simp
        case _ => rw [h]; simp
        case _ => rw [h]; simp
        case _ => rw [h] at hx; exact absurd hx not_makesMap_set
        case _ => rw [h] at hx; exact absurd hx not_makesMap_none
        case _ => rw [h]; simp
        case _ => rw [h]; simp
    | value i v =>
      intro hx
      rcases value_containers hcont with h | ⟨h, -, -⟩
      · simp only [List.mem_cons, List.not_mem_nil, or_false] at h
        rcases h with h | h | h | h
        · rw [h] at hx; exact absurd hx not_makesMap_set
        · rw [h] at hx; exact absurd hx not_makesMap_none
        · rw [h]; simp
        · rw [h]; simp
      · simp only [List.mem_cons, List.not_mem_nil, or_false] at h
        rcases h with h | h <;> rw [h] <;> simp

/-- What is needed about the values of a property. -/
structure PropSafe (env : CompEnv) (F : Str → Prop) (H : Obj → Prop) (c : ACtx) (rev : Bool) (p : Id) (vs : List Obj) : Prop where
  name : SafeName env c p
  iri : ∀ i, (CTerm.id p).asIri = some i → F i
  items : ∀ o ∈ vs, ItemSafe F H o
  nodes : rev = true → ∀ o ∈ vs, ∃ n, o = Obj.node n
  lists : ∀ o ∈ vs, IsList o → NoTermWith c (.id p) .index
  graphs : ∀ g, Obj.node g ∈ vs → g.isGraph = true → GraphPlace c p g

/-- Properties. -/
theorem Steady.property {c : ACtx} (hc : P c) {T : Prop} {S : CTerm → Prop} {rev : Bool} {p : Id} {items : List Obj}
    (hp : PropSafe E.toCompEnv F H c rev p items) (hS : ¬ S (.id p)) {m : JMap} (hm : Deep c T S m) :
    Post X (Deep c T fun t => S t ∨ t = .id p) (compactProperty E R c (.id p) rev items m) := by
  have hterm : ∀ {o key}, JsonLd.itemKey E c (.id p) rev o = .ok (some key) → MakesMap (defContainer (c.get key)) →
      ∃ d t, c.get key = some d ∧ d.value = some t ∧ ¬ S t := by
    intro o key hk hx
    obtain ⟨d, h1, h2⟩ := (A.key hc hp.name hk).term hx
    exact ⟨d, _, h1, h2, hS⟩
  unfold compactProperty
  split
  · unfold propertyEmpty
    refine (A.itemKey hc hp.iri rev (o := .node Node.blank) (fun i h => by cases h)).self.bind fun k hk => ?_
    split
    · rename_i key
      have hkey := A.key hc hp.name hk.2
      refine A.inNest hc (fun t h => .inl h) hm hkey.nest hkey.id (hterm hk.2) fun o ho _ => ?_
      refine (add_post ho key (v := .arr []) (.arr nofun) true).mono fun m' h => ⟨h.1, fun e he => ?_⟩
      rcases h.2 e he with h | h
      · exact .inl h
      · refine .inr ⟨h, fun hx => ?_⟩
        obtain ⟨d, h1, h2⟩ := hkey.term (h ▸ hx)
        exact .inl ⟨d, _, by rw [h]; exact h1, h2, .inr rfl⟩
    · exact hm.mono fun t h => .inl h
  · refine (Post.foldlM (I := Deep c T S) (fun o ho m hm => ?_) hm).mono fun m hm => hm.mono fun t h => .inl h
    unfold propertyStep
    refine (A.itemKey hc hp.iri rev (hp.items o ho).nodeId).self.bind fun k hk => ?_
    split
    · rename_i key
      have hkey := A.key hc hp.name hk.2
      refine A.inNest hc (fun t h => h) hm hkey.nest hkey.id (hterm hk.2) fun m1 hm1 hr => ?_
      refine A.propertyItem hR hc (hp.items o ho) (suits_key hkey (fun h => hp.nodes h o ho) (hp.lists o ho) ?_) hm1 hr
      rintro g rfl
      exact hp.graphs g ho
    · exact hm

/-- Keywords. -/
theorem Steady.keyword {c : ACtx} (hc : P c) {T : Prop} {S : CTerm → Prop} {k : Keyword} (hk : k ≠ .nest) (hi : k ≠ .id)
    {items : List Obj} (ho : ∀ o ∈ items, ItemSafe F H o) {m : JMap} (hm : Deep c T S m) :
    Post X (Deep c T S) (compactProperty E R c (.keyword k) false items m) := by
  have hs := A.safe c hc
  have hfree : ∀ {o key}, JsonLd.itemKey E c (.keyword k) false o = .ok (some key) →
      FreeKey c key ∧ key ≠ "@id".toList := by
    intro o key h
    have hby := compactIriWith_by hs.distinct h
    obtain ⟨h1, h2⟩ := hs.keyword_key hk hby
    exact ⟨h1, h2 hi⟩
  unfold compactProperty
  split
  · unfold propertyEmpty
    refine (A.itemKey hc (fun i h => by cases h) false (o := .node Node.blank) (fun i h => by cases h)).self.bind fun x hx => ?_
    split
    · rename_i key
      obtain ⟨h1, h2⟩ := hfree hx.2
      exact A.inNest hc (fun t h => h) hm h1.nest h2 (fun h => absurd h h1.map) fun o ho _ =>
        adds_plain h1.map ho (.arr (by simp)) _
    · exact hm
  · refine Post.foldlM (I := Deep c T S) (fun o ho' m hm => ?_) hm
    unfold propertyStep
    refine (A.itemKey hc (fun i h => by cases h) false (ho o ho').nodeId).self.bind fun x hx => ?_
    split
    · rename_i key
      obtain ⟨h1, h2⟩ := hfree hx.2
      exact A.inNest hc (fun t h => h) hm h1.nest h2 (fun h => absurd h h1.map) fun m1 hm1 hr =>
        A.propertyItem hR hc (ho o ho') (suits_free h1.map o) hm1 hr
    · exact hm

/-- Several properties. -/
theorem Steady.properties {c : ACtx} (hc : P c) {T : Prop} {rev : Bool} : ∀ {ps : List (Id × List Obj)} {S : CTerm → Prop}
    {m : JMap}, (∀ p ∈ ps, PropSafe E.toCompEnv F H c rev p.1 p.2) → (ps.map Prod.fst).Nodup → (∀ p ∈ ps, ¬ S (.id p.1)) →
    Deep c T S m → Post X (Deep c T fun _ => True) (ps.foldlM (fun m p => compactProperty E R c (.id p.1) rev p.2 m) m) := by
  intro ps
  induction ps with
  | nil => intro S m _ _ _ hm; exact hm.mono fun _ _ => trivial
  | cons p ps ih =>
    intro S m hp hn hS hm
    rw [List.map_cons, List.nodup_cons] at hn
    rw [List.foldlM_cons]
    refine Post.bind (A.property hR hc (hp p (by simp)) (hS p (by simp)) hm) fun m1 hm1 =>
      ih (fun q hq => hp q (List.mem_cons_of_mem _ hq)) hn.2 (fun q hq h => ?_) hm1
    rcases h with h | h
    · exact hS q (List.mem_cons_of_mem _ hq) h
    · exact hn.1 (List.mem_map.2 ⟨q, hq, CTerm.id.inj h⟩)

/-! ## Nodes -/

omit hR in
theorem Steady.typeTerms {tsc : ACtx} (ht : P tsc) {ts : List Id} (hF : ∀ x, Id.iri x ∈ ts → F x) :
    Post X (fun _ => True) (typeTerms E tsc ts) := by
  induction ts with
  | nil => trivial
  | cons t ts ih =>
    rw [JsonLd.typeTerms]
    refine (A.cIriU ht (by simp) (fun i hi => ?_) _).bind fun _ _ =>
      (ih fun x hx => hF x (List.mem_cons_of_mem _ hx)).map fun _ _ => trivial
    cases t with
    | iri s => cases hi; exact hF _ (by simp)
    | _ => cases hi

omit A hR in
theorem types_mentioned {n : Node} (hF : ∀ x, NamesIri (.node n) x → F x) {ts : List Id} (hts : n.types = some ts) :
    ∀ x, Id.iri x ∈ ts → F x := fun x hx => hF x (.inr (.inl ⟨ts, hts, hx⟩))

omit hR in
theorem Steady.nodeContext {c tsc : ACtx} (hc : P c) (ht : P tsc) (prop : Option Str) {n : Node}
    (hF : ∀ x, NamesIri (.node n) x → F x) : Post X P (nodeContext E c tsc prop n) := by
  unfold JsonLd.nodeContext
  refine (A.scoped (c := nodeStart c n) ?_ ht _ _).bind fun c1 hc1 => ?_
  · unfold nodeStart
    split
    · exact hc
    · exact A.previousGetD hc
  · unfold typeContexts
    refine (A.typeTerms ht fun x hx => ?_).bind fun ts _ =>
      Post.foldlM (I := P) (fun t _ c hc => A.scoped hc ht (some t) _) hc1
    cases hts : n.types with
    | none => rw [hts] at hx; cases hx
    | some ts => rw [hts] at hx; exact types_mentioned hF hts x hx

omit hR in
theorem Steady.nodeString {c : ACtx} (hc : P c) (prop : Option Str) {n : Node} (hF : ∀ x, NamesIri (.node n) x → F x)
    {r : Except CompErr Json} (h : nodeString E c prop n = some r) :
    Post X (fun v => NoDupKeys v ∧ IdKey (.node n) v) r := by
  have hstr : ∀ s : Option Str, NoDupKeys (optStr s) ∧ IdKey (.node n) (optStr s) := by
    intro s
    refine ⟨(shape_noDup X).optStr s, fun _ m _ hm => ?_⟩
    cases s <;> cases hm
  unfold JsonLd.nodeString at h
  split at h
  · rename_i i hi
    split at h
    · split at h
      · cases h
        exact (A.cIri hc (by simp) (id_mentions hF hi) _).map fun s _ => hstr s
      · cases h
        exact (A.cIri hc (by simp) (id_mentions hF hi) _).map fun s _ => hstr s
      · cases h
    · cases h
  · cases h

omit hR in
theorem Steady.nodeIdEntries {c : ACtx} (hc : P c) (S : CTerm → Prop) {n : Node} (hF : ∀ x, NamesIri (.node n) x → F x) :
    Post X (Deep c (n.id ≠ none) S) (nodeIdEntries E c n) := by
  unfold JsonLd.nodeIdEntries
  split
  · rename_i i hi
    refine (A.cIri hc (by simp) (id_mentions hF hi) _).bind fun s _ =>
      ((A.cIri hc (by simp) (fun j hj => by cases hj) _).self).map fun k hk => ?_
    split
    · rename_i k
      have hf := ((A.safe c hc).keyword_key (k := .id) (by decide) (compactIriPlain_by (A.safe c hc).distinct hk.2)).1
      have ho : MapOk [(k, optStr s)] := ⟨List.nodup_singleton k, by simpa using (shape_noDup X).optStr s⟩
      exact (Deep.nil c _ S).free hf (fun _ => by rw [hi]; exact nofun) ho fun e he => .inr (by rw [List.mem_singleton.1 he])
    · exact .nil ..
  · exact Deep.nil ..

omit hR in
theorem Steady.compactTypes {c tsc : ACtx} (hc : P c) (ht : P tsc) {T : Prop} {S : CTerm → Prop} {types : Option (List Id)}
    (hF : ∀ ts, types = some ts → ∀ x, Id.iri x ∈ ts → F x) {m : JMap} (hm : Deep c T S m) :
    Post X (Deep c T S) (compactTypes E c tsc types m) := by
  unfold JsonLd.compactTypes
  have one : ∀ t : Id, (∀ x, t = .iri x → F x) → Post X NoDupKeys ((JsonLd.cIri E tsc (.id t) true).map optStr) := by
    intro t hF
    refine (A.cIri ht (by simp) (fun i hi => ?_) _).map fun s _ => (shape_noDup X).optStr s
    cases t with
    | iri s => cases hi; exact hF _ rfl
    | _ => cases hi
  split
  · exact hm
  · exact hm
  · rename_i ts _
    have hF := hF ts rfl
    refine Post.bind (Q := NoDupKeys) ?_ fun v hv => (A.cKey hc (k := .type) (by decide)).bind fun k hk =>
      (add_post hm.ok k hv _).mono fun m' h => hm.free hk.1 (fun h => absurd h (hk.2 (by decide))) h.1 h.2
    unfold typesJson
    split
    · exact one _ fun x hx => hF x (by simp [hx])
    · refine Post.map (Q := fun l => ∀ x ∈ l, NoDupKeys x) ?_ fun l hl => .arr hl
      clear * - hF one
      induction ts with
      | nil => exact (by simp : ∀ x ∈ ([] : List Json), NoDupKeys x)
      | cons t ts ih =>
        rw [List.mapM_cons]
        refine Post.bind (one t fun x hx => hF x (by simp [hx])) fun v hv =>
          Post.bind (ih fun x hx => hF x (List.mem_cons_of_mem _ hx)) fun l hl => ?_
        intro x hx
        rcases List.mem_cons.1 hx with rfl | hx
        · exact hv
        · exact hl x hx

omit hR in
theorem Steady.reverseEntries {c : ACtx} (hc : P c) {T : Prop} {S : CTerm → Prop} : ∀ {rr : JMap} {s : JMap × JMap},
    (∀ e ∈ rr, NoDupKeys e.2) → Deep c T S s.1 → MapOk s.2 →
    Post X (fun s => Deep c T S s.1 ∧ MapOk s.2) (rr.foldlM (reverseEntry E c) s) := by
  intro rr s hrr h1 h2
  refine Post.foldlM (I := fun s : JMap × JMap => Deep c T S s.1 ∧ MapOk s.2) (fun e he s hs => ?_) ⟨h1, h2⟩
  have hsafe := A.safe c hc
  have hins : MapOk (jInsert e.1 e.2 s.2) := (insert_ok hs.2 _ (hrr e he)).1
  unfold reverseEntry
  split
  · rename_i d hd
    split
    · rename_i hrev
      rcases safe_lookup hd with hl | hl
      · have hfree : FreeKey c e.1 := by
          refine ⟨by rw [hd]; exact hsafe.reverse _ d hl hrev, ?_⟩
          rintro (h | ⟨d', h3, h4⟩)
          · exact hsafe.terms _ d hl (h ▸ keyword_isForm .nest)
          · rw [hl] at h3
            cases h3
            rw [(hsafe.aliases _ d _ hl h4).2] at hrev
            cases hrev
        exact (add_post hs.1.ok _ (hrr e he) _).map fun m' h =>
          ⟨hs.1.free hfree (fun h => absurd (h ▸ keyword_isForm .id) (hsafe.terms _ d hl)) h.1 h.2, hs.2⟩
      · rw [hl.2.2.1] at hrev
        cases hrev
    · exact ⟨hs.1, hins⟩
  · exact ⟨hs.1, hins⟩

theorem Steady.reverse {c : ACtx} (hc : P c) {T : Prop} {S : CTerm → Prop} {rev : Option (List (Id × List Node))}
    (hk : ∀ r, rev = some r → (r.map Prod.fst).Nodup)
    (hr : ∀ r, rev = some r → ∀ p ∈ r, PropSafe E.toCompEnv F H c true p.1 (p.2.map Obj.node)) {m : JMap}
    (hm : Deep c T S m) : Post X (fun s => s.1 = c ∧ Deep c T S s.2) (compactReverse E R c rev m) := by
  unfold compactReverse
  split
  · exact ⟨rfl, hm⟩
  · exact ⟨rfl, hm⟩
  · rename_i rps _
    rw [(A.safe c hc).get_reverse]
    refine Post.bind (Q := fun c' => c' = c) (show c = c from rfl) fun c' hc' => ?_
    rw [hc']
    refine Post.map (Q := Deep c T S) ?_ fun m' hm' => ⟨rfl, hm'⟩
    unfold reverseIn
    have hps := A.properties hR hc (T := True) (rev := true) (ps := rps.map fun p => (p.1, p.2.map Obj.node)) (S := fun _ => False)
      (m := []) (by
        intro p hp
        obtain ⟨q, hq, rfl⟩ := List.mem_map.1 hp
        exact hr _ rfl q hq) (by
        rw [List.map_map]
        exact hk _ rfl) (fun _ _ h => h) (Deep.nil ..)
    rw [List.foldlM_map] at hps
    refine Post.bind hps fun rr hrr => (A.reverseEntries hc (s := (m, [])) hrr.ok.2 hm .nil).bind fun s hs => ?_
    split
    · exact hs.1
    · refine (A.cKey hc (k := .reverse) (by decide)).map fun k hk => ?_
      obtain ⟨h1, h2⟩ := insert_ok hs.1.ok k hs.2.obj
      refine hs.1.free hk.1 (fun h => absurd h (hk.2 (by decide))) h1 fun e he => ?_
      rcases h2 e he with h | h
      · exact .inl h
      · exact .inr (by rw [h])

omit hR in
theorem Steady.addIndex {c : ACtx} (hc : P c) {T : Prop} {S : CTerm → Prop} (prop index : Option Str) {m : JMap}
    (hm : Deep c T S m) : Post X (Deep c T S) (addIndex E c prop index m) := by
  unfold JsonLd.addIndex
  split
  · split
    · exact hm
    · rename_i i _
      refine (A.cKey hc (k := .index) (by decide)).map fun k hk => ?_
      obtain ⟨h1, h2⟩ := insert_ok hm.ok k (v := .str i) (.str _)
      refine hm.free hk.1 (fun h => absurd h (hk.2 (by decide))) h1 fun e he => ?_
      rcases h2 e he with h | h
      · exact .inl h
      · exact .inr (by rw [h])
  · exact hm

theorem Steady.opt {c : ACtx} (hc : P c) {T : Prop} {S : CTerm → Prop} {k : Keyword} (hk : k ≠ .nest) (hi : k ≠ .id)
    {items : Option (List Obj)} (ho : ∀ l, items = some l → ∀ o ∈ l, ItemSafe F H o) {m : JMap} (hm : Deep c T S m) :
    Post X (Deep c T S) (compactOpt E R c k items m) := by
  unfold compactOpt
  split
  · exact A.keyword hR hc hk hi (ho _ rfl) hm
  · exact hm

/-- Nodes. -/
theorem Steady.node {c tsc : ACtx} (hc : P c) (ht : P tsc) (prop : Option Str) {n : Node}
    (hs : ∀ c, P c → SafeNode E.toCompEnv c n) (hF : ∀ x, NamesIri (.node n) x → F x)
    (hg : ∀ l, n.graph = some l → ∀ o ∈ l, ItemSafe F H o)
    (hi : ∀ l, n.included = some l → ∀ x ∈ l, ItemSafe F H (.node x))
    (hp : ∀ p ∈ n.props, ∀ o ∈ p.2, ItemSafe F H o)
    (hr : ∀ r, n.rev = some r → ∀ p ∈ r, ∀ x ∈ p.2, ItemSafe F H (.node x)) :
    Post X (fun v => NoDupKeys v ∧ IdKey (.node n) v) (compactNode E R c tsc prop n) := by
  unfold compactNode
  refine (A.nodeContext hc ht prop hF).bind fun c hc => ?_
  split
  · rename_i r h
    exact A.nodeString hc prop hF h
  · have hsn := hs c hc
    unfold nodeIn
    refine (A.nodeIdEntries hc (fun _ => False) hF).bind fun m hm =>
      (A.compactTypes hc ht (fun ts hts => types_mentioned hF hts) hm).bind fun m hm =>
        (A.reverse hR hc hsn.revKeys (fun r h p hpr => ⟨hsn.rev r h p hpr, fun i hpi => ?_, ?_, ?_, ?_, ?_⟩) hm).bind
          fun s hs' => ?_
    · refine hF i (.inr (.inr (.inr ⟨r, h, p, hpr, ?_⟩)))
      cases h' : p.1 with
      | iri s => rw [h'] at hpi; cases hpi; rfl
      | _ => rw [h'] at hpi; cases hpi
    · intro o ho
      obtain ⟨x, hx, rfl⟩ := List.mem_map.1 ho
      exact hr r h p hpr x hx
    · intro _ o ho
      obtain ⟨x, hx, rfl⟩ := List.mem_map.1 ho
      exact ⟨x, rfl⟩
    · rintro o ho ⟨i, l, rfl⟩
      obtain ⟨x, hx, h'⟩ := List.mem_map.1 ho
      cases h'
    · intro g hgm
      obtain ⟨x, hx, h'⟩ := List.mem_map.1 hgm
      cases h'
      exact hsn.revGraphs r h p hpr _ hx
    · rw [hs'.1]
      refine (A.addIndex hc prop _ hs'.2).bind fun m hm => (A.opt hR hc (by decide) (by decide) hg hm).bind fun m hm =>
        Post.bind (Q := Deep c (n.id ≠ none) fun _ => True) ?_ fun m hm =>
          (A.opt hR hc (by decide) (by decide) (fun l hl o ho => ?_) hm).map fun m hm =>
            ⟨hm.ok.obj, fun n' m' h1 h2 e he hk => ?_⟩
      · unfold compactProps
        have hperm := sortIf_perm E.opts.ordered (fun p : Id × List Obj => p.1.str) n.props
        refine A.properties hR hc (fun p hpm => ?_) ((hperm.map Prod.fst).nodup_iff.2 hsn.keys) (fun _ _ h => h) hm
        have hpm := hperm.mem_iff.1 hpm
        refine ⟨hsn.props p hpm, fun i hpi => ?_, hp p hpm, nofun, hsn.lists p hpm, hsn.graphs p hpm⟩
        refine hF i (.inr (.inr (.inl ⟨p, hpm, ?_⟩)))
        cases h' : p.1 with
        | iri s => rw [h'] at hpi; cases hpi; rfl
        | _ => rw [h'] at hpi; cases hpi
      · cases hinc : n.included with
        | none => rw [hinc] at hl; cases hl
        | some l' =>
          rw [hinc] at hl
          cases hl
          obtain ⟨x, hx, rfl⟩ := List.mem_map.1 ho
          exact hi l' hinc x hx
      · cases h1
        cases h2
        exact hm.keys e he hk

/-- Lists. -/
theorem Steady.list {c tsc : ACtx} (hc : P c) (ht : P tsc) (prop index : Option Str) {l : List Obj}
    (hl : ∀ o ∈ l, ItemSafe F H o) : Post X NoDupKeys (compactList E R c tsc prop index l) := by
  unfold compactList
  refine (A.scoped (A.previousGetD hc) ht _ _).bind fun c hc => ?_
  split
  · rw [compactCollection]
    exact (post_items (K := NoDupKeys) fun x hx => (hR _ _ _ _ hc hc (hl x hx).self).mono fun v hv => hv.1).bind
      fun r hr => (shape_noDup X).collect hr
  · exact (A.keyword hR hc (T := True) (S := fun _ => False) (by decide) (by decide) hl (.nil ..)).bind fun m hm =>
      (A.addIndex hc prop index hm).map fun m hm => hm.ok.obj

end

/-! ## Everything inside -/

/-- What is needed about the items inside. -/
structure GoodItem (E : CEnv) (P : ACtx → Prop) (F : Str → Prop) (y : Item) : Prop where
  json : ∀ i j, y = .obj (.value i (.json j)) → NoDupKeys j
  nodes : ∀ n, y = .node n → ∀ c, P c → SafeNode E.toCompEnv c n
  iris : ∀ i, NamesIri y i → F i

/-- All items inside are good. -/
def AllGood (E : CEnv) (P : ACtx → Prop) (F : Str → Prop) (x : Item) : Prop :=
  ∀ y, ReflTransGen PartL y x → GoodItem E P F y

/-- The good objects that are at most this deep. -/
def GoodTo (E : CEnv) (P : ACtx → Prop) (F : Str → Prop) (n : Nat) (o : Obj) : Prop :=
  AllGood E P F (.obj o) ∧ o.depth ≤ n

section
variable {E : CEnv} {P : ACtx → Prop} {F : Str → Prop}

theorem good_item {i : Option Str} {l : List Obj} {o : Obj} (h : AllGood E P F (.obj (.list i l))) (ho : o ∈ l) :
    AllGood E P F (.obj o) := fun y hy => h y (hy.tail (.item ho))

theorem good_self {n : Node} (h : AllGood E P F (.obj (.node n))) : AllGood E P F (.node n) :=
  fun y hy => h y (hy.tail (.part (.self n)))

theorem good_node {n : Node} (h : AllGood E P F (.node n)) : AllGood E P F (.obj (.node n)) := by
  intro y hy
  rcases ReflTransGen.cases_tail hy with hx | ⟨z, hx, hp⟩
  · subst hx
    exact ⟨fun _ _ h => (by cases h), fun _ h => (by cases h), fun _ h => h.elim⟩
  · cases hp with
    | part hp => cases hp; exact h y hx

theorem good_part {n : Node} {x : Item} (h : AllGood E P F (.node n)) (hp : Part x (.node n)) : AllGood E P F x :=
  fun y hy => h y (hy.tail (.part hp))

theorem node_depth_pos (n : Node) : 0 < n.depth := Obj.depth_pos (.node n)

theorem good_onlyId {i : Id} (hF : ∀ x, i = .iri x → F x) : AllGood E P F (.obj (.node (Node.onlyId i))) := by
  refine good_node fun y hy => ?_
  rcases ReflTransGen.cases_tail hy with hx | ⟨z, hx, hp⟩
  · subst hx
    refine ⟨fun _ _ h => (by cases h), fun n h c _ => ?_, fun x hx => ?_⟩
    · cases h
      exact ⟨.nil, (nofun), (nofun), (nofun), fun r h => (by cases h), fun r h => (by cases h), fun r h => (by cases h)⟩
    · rcases hx with h | ⟨ts, h, -⟩ | ⟨p, h, -⟩ | ⟨r, h, -⟩
      · exact hF x (Option.some.inj h)
      · cases h
      · cases h
      · cases h
  · cases hp with
    | part hp =>
      cases hp with
      | graph h _ => cases h
      | property h _ => cases h
      | included h _ => cases h
      | reverse h _ => cases h

theorem itemSafe_of {n : Nat} {o : Obj} (ho : AllGood E P F (.obj o)) (hd : o.depth ≤ n) :
    ItemSafe F (GoodTo E P F n) o := by
  refine ⟨?_, ⟨ho, hd⟩, ?_, ?_, ?_, ?_⟩
  · rintro i j rfl
    exact (ho _ .refl).json i j rfl
  · rintro i l rfl x hx
    rw [Obj.depth] at hd
    exact ⟨good_item ho hx, by have := depth_mem hx; omega⟩
  · rintro x l rfl hg y hy
    refine ⟨good_part (good_self ho) (.graph hg hy), ?_⟩
    have := graph_depth x
    rw [hg] at this
    rw [Obj.depth] at hd
    have := depth_mem hy
    simp only [Option.getD_some] at *
    omega
  · rintro x rfl i hi
    exact (good_self ho _ .refl).iris i hi
  · rintro x i rfl hi
    refine ⟨good_onlyId fun s hs => (good_self ho _ .refl).iris s (.inl (by rw [hi, hs])), ?_⟩
    have := Obj.depth_pos (.node x)
    simp only [Node.onlyId, Obj.depth, Node.depth, optObjsDepth, optNodesDepth, propsDepth, optRevDepth] at *
    omega

end

section
variable {E : CEnv} {X : CompErr → Prop} {P : ACtx → Prop} {F : Str → Prop} (A : Steady E X P F)
include A

theorem Steady.body {R : CRec} {n : Nat} (hR : RecSafe X P (GoodTo E P F n) R) :
    RecSafe X P (GoodTo E P F (n + 1)) (compactBody E R) := by
  intro c tsc prop o hc ht ho
  obtain ⟨hcl, hd⟩ := ho
  cases o with
  | value i v =>
    exact (A.value hc prop (fun j hj => (hcl _ .refl).json i j (by rw [hj])) (hcl _ .refl).iris).mono
      fun v hv => ⟨hv, fun n m h => by cases h⟩
  | list i l =>
    rw [Obj.depth] at hd
    exact (A.list hR hc ht prop i fun o ho => itemSafe_of (good_item hcl ho)
      (by have := depth_mem ho; omega)).mono fun v hv => ⟨hv, fun n m h => by cases h⟩
  | node x =>
    have hcl := good_self hcl
    rw [Obj.depth] at hd
    obtain ⟨i, id, t, g, inc, ps, rv⟩ := x
    rw [Node.depth] at hd
    refine A.node hR hc ht prop ((hcl _ .refl).nodes _ rfl) (hcl _ .refl).iris ?_ ?_ ?_ ?_
    · intro l hl o ho
      cases hl
      refine itemSafe_of (good_part hcl (.graph rfl ho)) ?_
      have := depth_mem ho
      simp only [optObjsDepth] at hd
      omega
    · intro l hl x hx
      cases hl
      refine itemSafe_of (good_node (good_part hcl (.included rfl hx))) ?_
      have := nodeDepth_mem hx
      simp only [optNodesDepth] at hd
      rw [Obj.depth]
      omega
    · intro p hp o ho
      refine itemSafe_of (good_part hcl (.property (k := p.1) (l := p.2) hp ho)) ?_
      have := depth_mem ho
      have : objsDepth p.2 ≤ propsDepth ps := propDepth_mem hp
      omega
    · intro r hr p hp x hx
      cases hr
      refine itemSafe_of (good_node (good_part hcl (.reverse (k := p.1) (l := p.2) rfl hp hx))) ?_
      have := revDepth_mem hp
      have := nodeDepth_mem hx
      simp only [optRevDepth] at hd
      rw [Obj.depth]
      omega

theorem Steady.object : ∀ n, RecSafe X P (GoodTo E P F n) (compactObject E) := by
  intro n
  induction n with
  | zero => intro c tsc prop o _ _ ho; exact absurd o.depth_pos (by have := ho.2; omega)
  | succ n ih =>
    intro c tsc prop o hc htsc ho
    rw [compactObject_eq]
    exact A.body ih c tsc prop o hc htsc ho

theorem Steady.doc {c : ACtx} (hc : P c) (l : SCtx) {d : Doc} (hd : ∀ o ∈ d, AllGood E P F (.obj o)) :
    Post X (fun _ => True) (compactDoc E c l d) := by
  unfold compactDoc
  refine Post.bind (Q := NoDupKeys) ?_ fun v hv => ?_
  · rw [compactCollection]
    exact (post_items (K := NoDupKeys) fun x hx =>
      (A.object x.depth c c none x hc hc ⟨hd x hx, Nat.le_refl _⟩).mono fun v hv => hv.1).bind
      fun r hr => (shape_noDup X).collect hr
  · unfold embedContext
    refine Post.map (Q := fun _ => True) ?_ fun _ _ => trivial
    unfold embedObject
    split
    · trivial
    · exact (A.cKey_any hc _).map fun _ _ => trivial
    · trivial
    · trivial

end

end JsonLd
