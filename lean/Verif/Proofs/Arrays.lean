import Verif.Proofs.CompactInv
import Verif.Proofs.CtxJsonRead
import Verif.Proofs.ExpandInv
import Verif.Spec.Arrays
/-!
# Where compacted documents have arrays
-/

namespace JsonLd
open Spec

section
variable {E : CEnv} {c : ACtx}

/-- All entries have arrays where they are wanted. -/
def ArrOk (E : CEnv) (c : ACtx) (m : JMap) : Prop := DistinctKeys m ∧ ∀ e ∈ m, Arrays E c e.1 e.2

theorem ArrOk.nil : ArrOk E c [] := ⟨List.nodup_nil, by simp⟩

theorem ArrOk.with {m m' : JMap} {k : Str} {v : Option Json} (h : ArrOk E c m) (hw : WithEntry m k v m')
    (hv : ∀ w, v = some w → Arrays E c k w) : ArrOk E c m' := by
  refine ⟨hw.distinct, fun e he => ?_⟩
  by_cases hk : e.1 = k
  · rw [hk]
    refine hv e.2 ?_
    rw [← hw.value, ← hk]
    exact mem_lookup hw.distinct he
  · have : e ∈ m'.filter (fun e => decide (e.1 ≠ k)) := List.mem_filter.2 ⟨he, by simpa using hk⟩
    rw [hw.others] at this
    exact h.2 e (List.mem_filter.1 this).1

theorem ArrOk.insert {m : JMap} (h : ArrOk E c m) {k : Str} {v : Json} (hv : Arrays E c k v) :
    ArrOk E c (jInsert k v m) :=
  h.with (jInsert_entry k v h.1) fun w hw => by cases hw; exact hv

/-- The results of an operation on entries. -/
abbrev ResOk {α : Type} (Q : α → Prop) (r : Except CompErr α) : Prop := Post (fun _ => True) Q r

theorem ArrOk.add {m : JMap} (h : ArrOk E c m) {k : Str} (v : Json) {a : Bool} (hg : ¬ GroupKey E c k)
    (ha : a = false → ∀ w, Arrays E c k w) : ResOk (ArrOk E c) (addValue m k v a) := by
  obtain ⟨m', h1, h2⟩ := addValue_entry k v m a h.1
  rw [h1]
  refine h.with h2 fun w hw => ?_
  by_cases hs : a = true ∨ lookupKey k m ≠ none
  · obtain ⟨l, hl⟩ := addOn_array v _ a hs
    rw [hl] at hw
    cases hw
    exact .array _ _ hg
  · refine ha ?_ w
    cases a
    · rfl
    · exact absurd (.inl rfl) hs

theorem ArrOk.inObject {m : JMap} (h : ArrOk E c m) {k : Str} {f : JMap → Except CompErr JMap}
    (hf : ∀ o, Arrays E c k (.obj o) ∨ o = [] → ResOk (fun r => Arrays E c k (.obj r)) (f o)) :
    ResOk (ArrOk E c) (inObject k m f) := by
  unfold JsonLd.inObject
  rw [jGet_eq h.1]
  show ResOk _ (match lookupKey k m with | none => _ | some (.obj o) => _ | some _ => _)
  split
  · exact Post.map (hf [] (.inr rfl)) fun r hr => h.insert hr
  · rename_i o ho
    exact Post.map (hf o (.inl (h.2 _ (lookup_mem ho)))) fun r hr =>
      h.with (mapEntry k _ h.1 ho) fun w hw => by cases hw; exact hr
  · trivial

theorem cKey_written {kw : Keyword} {k : Str} (h : cKey E c kw = .ok k) : WrittenFor E c kw k := by
  unfold cKey cIriU cIri at h
  unfold WrittenFor
  split at h <;> cases h
  assumption

theorem resOk_cKey (kw : Keyword) : ResOk (WrittenFor E c kw) (cKey E c kw) := by
  cases h : cKey E c kw with
  | error e => trivial
  | ok k => exact cKey_written h

theorem resOk_any {α : Type} (r : Except CompErr α) : ResOk (fun _ => True) r := by
  cases r <;> trivial

theorem asArray_false {key : Str} (h : asArray E c key = false) : ¬ WantsArray E c key := by
  unfold asArray at h
  split at h
  · cases h
  · rename_i hn
    simp only [Bool.or_eq_true, decide_eq_true_eq, not_or] at hn
    rintro (h' | h' | ⟨d, h', hd⟩)
    · rw [h'] at h; cases h
    · exact hn.1.2 h'
    · refine hn.1.1 ?_
      rw [h']
      simpa [defContainer, Container.contains] using hd

theorem free_of {key : Str} (hg : ¬ GroupKey E c key) (h : asArray E c key = false) :
    ∀ w, Arrays E c key w := fun _ => .free _ _ hg (asArray_false h)

theorem mapTerm_of {key : Str} {x : ContainerKind} (hx : x = .language ∨ x = .index ∨ x = .id ∨ x = .type)
    (h : (defContainer (c.get key)).contains x = true) : HoldsMap c key := by
  unfold defContainer at h
  split at h
  · rename_i d hd
    refine ⟨d, hd, ?_⟩
    rw [Container.contains, List.contains_iff_mem] at h
    rcases hx with rfl | rfl | rfl | rfl
    · exact .inl h
    · exact .inr (.inl h)
    · exact .inr (.inr (.inl h))
    · exact .inr (.inr (.inr h))
  · revert h
    rcases hx with rfl | rfl | rfl | rfl <;> simp [Container.contains, Container.asSlice]

/-- Additions to a map. -/
theorem map_add {key : Str} (hg : ¬ GroupKey E c key) (hm : HoldsMap c key) {o : JMap}
    (ho : Arrays E c key (.obj o) ∨ o = []) (mk : Str) (v : Json) :
    ResOk (fun r => Arrays E c key (.obj r)) (addValue o mk v (asArray E c key)) := by
  by_cases hf : ∀ w, Arrays E c key w
  · exact (resOk_any _).mono fun r _ => hf _
  have hw : asArray E c key = true := by
    cases h : asArray E c key with
    | true => rfl
    | false => exact absurd (free_of hg h) hf
  have ho : (o.map Prod.fst).Nodup ∧ ∀ e ∈ o, ∃ l, e.2 = Json.arr l := by
    rcases ho with ho | rfl
    · cases ho with
      | free _ _ _ h => exact absurd (fun w => .free _ _ hg h) hf
      | map _ _ _ _ h1 h2 => exact ⟨h1, h2⟩
      | types _ _ _ h1 h2 h3 => exact absurd (fun w => .types _ _ hg h1 h2 h3) hf
      | group _ _ h => exact absurd h hg
    · exact ⟨List.nodup_nil, by simp⟩
  obtain ⟨m', h1, h2⟩ := addValue_entry mk v o (asArray E c key) ho.1
  rw [h1]
  obtain ⟨l, hl⟩ := addOn_array v (lookupKey mk o) _ (.inl hw)
  refine Arrays.map _ _ hg hm h2.distinct fun e he => ?_
  by_cases hk : e.1 = mk
  · refine ⟨l, ?_⟩
    have := mem_lookup h2.distinct he
    rw [hk, h2.value, hl] at this
    exact Option.some.inj this.symm
  · have : e ∈ m'.filter (fun e => decide (e.1 ≠ mk)) := List.mem_filter.2 ⟨he, by simpa using hk⟩
    rw [h2.others] at this
    exact ho.2 e (List.mem_filter.1 this).1

theorem ArrOk.list {m : JMap} (h : ArrOk E c m) (R : CRec) {key : Str} (hg : ¬ GroupKey E c key)
    (i : Option Str) (l : List Obj) : ResOk (ArrOk E c) (propertyList E R c key i l m) := by
  unfold propertyList
  refine (resOk_any _).bind fun v _ => ?_
  split
  · refine h.insert ?_
    unfold wrapArray
    split <;> exact .array _ _ hg
  · exact (resOk_any _).bind fun _ _ => (resOk_any _).bind fun _ _ => h.add _ hg (free_of hg)

theorem ArrOk.graph {m : JMap} (h : ArrOk E c m) (R : CRec) {key : Str} (hg : ¬ GroupKey E c key)
    (n : Node) : ResOk (ArrOk E c) (propertyGraph E R c key n m) := by
  unfold propertyGraph
  refine (resOk_any _).bind fun v _ => ?_
  unfold addGraph
  dsimp only
  split
  · rename_i hk
    rw [Bool.and_eq_true] at hk
    exact h.inObject fun o ho => (resOk_any _).bind fun mk _ =>
      map_add hg (mapTerm_of (.inr (.inr (.inl rfl))) hk.2) ho _ _
  · split
    · rename_i hk
      rw [Bool.and_eq_true, Bool.and_eq_true] at hk
      exact h.inObject fun o ho => map_add hg (mapTerm_of (.inr (.inl rfl)) hk.1.2) ho _ _
    · split
      · exact (resOk_any _).bind fun _ _ => h.add _ hg (free_of hg)
      · exact (resOk_any _).bind fun _ _ => h.add _ hg (free_of hg)

theorem ArrOk.item {m : JMap} (h : ArrOk E c m) (R : CRec) {key : Str} (hg : ¬ GroupKey E c key)
    (o : Obj) (v : Json) : ResOk (ArrOk E c) (addItem E R c key o v m) := by
  unfold addItem
  split
  · rename_i hk
    unfold isMapContainer at hk
    simp only [Bool.and_eq_true, Bool.or_eq_true] at hk
    have hm : HoldsMap c key := by
      rcases hk.2 with ((hk | hk) | hk) | hk
      · exact mapTerm_of (.inl rfl) hk
      · exact mapTerm_of (.inr (.inl rfl)) hk
      · exact mapTerm_of (.inr (.inr (.inl rfl))) hk
      · exact mapTerm_of (.inr (.inr (.inr rfl))) hk
    exact h.inObject fun o ho => (resOk_any _).bind fun _ _ => (resOk_any _).bind fun _ _ => map_add hg hm ho _ _
  · exact h.add _ hg (free_of hg)

theorem ArrOk.propItem {m : JMap} (h : ArrOk E c m) (R : CRec) {key : Str} (hg : ¬ GroupKey E c key)
    (o : Obj) : ResOk (ArrOk E c) (propertyItem E R c key o m) := by
  unfold propertyItem
  split
  · exact h.list R hg _ _
  · split
    · exact h.graph R hg _
    · exact (resOk_any _).bind fun _ _ => h.item R hg _ _
  · exact (resOk_any _).bind fun _ _ => h.item R hg _ _

theorem nest_group {n : SNest} (h : nestAllowed c n = true) : GroupKey E c n.str := by
  unfold nestAllowed at h
  split at h
  · exact .inl rfl
  · rw [decide_eq_true_eq] at h
    exact .inr (.inl h)

/-- Operations on the object of a nest. -/
theorem ArrOk.nest {m : JMap} (h : ArrOk E c m) (key : Str) {f : JMap → Except CompErr JMap}
    (hf : ∀ m, ArrOk E c m → ResOk (ArrOk E c) (f m)) : ResOk (ArrOk E c) (inNest c key m f) := by
  unfold inNest
  split
  · split
    · rename_i n _ hn
      have hn := nest_group (E := E) hn
      refine h.inObject fun o ho => ?_
      refine (hf o ?_).mono fun r hr => .group _ _ hn hr.1 hr.2
      rcases ho with ho | rfl
      · cases ho with
        | free _ _ h => exact absurd hn h
        | map _ _ h => exact absurd hn h
        | types _ _ h => exact absurd hn h
        | group _ _ _ h1 h2 => exact ⟨h1, h2⟩
      · exact .nil
    · trivial
  · exact hf m h

variable {n : Node} (H : Apart E c n)
include H

theorem ArrOk.step {m : JMap} (h : ArrOk E c m) (R : CRec) {p : CTerm} (hp : EntryTerm n p) (rev : Bool) (o : Obj) : ResOk (ArrOk E c) (propertyStep E R c p rev m o) := by
  unfold propertyStep itemKey
  cases hk : compactIriWith E.toCompEnv c p o true rev E.opts with
  | error e => trivial
  | ok k =>
    cases k with
    | none => exact h
    | some key => exact h.nest key fun m hm => hm.propItem R (H.props p rev o key hp hk) o

theorem ArrOk.prop {m : JMap} (h : ArrOk E c m) (R : CRec) {p : CTerm} (hp : EntryTerm n p) (rev : Bool) (os : List Obj) :
    ResOk (ArrOk E c) (compactProperty E R c p rev os m) := by
  unfold compactProperty
  split
  · unfold propertyEmpty itemKey
    cases hk : compactIriWith E.toCompEnv c p (.node Node.blank) true rev E.opts with
    | error e => trivial
    | ok k =>
      cases k with
      | none => exact h
      | some key => exact h.nest key fun m hm => hm.add _ (H.props p rev _ key hp hk) nofun
  · exact Post.foldlM (fun o _ m hm => hm.step H R hp rev o) h

theorem ArrOk.types {m : JMap} (h : ArrOk E c m) (tsc : ACtx) (ts : Option (List Id)) :
    ResOk (ArrOk E c) (compactTypes E c tsc ts m) := by
  unfold compactTypes
  split
  · exact h
  · exact h
  · refine (resOk_any _).bind fun v _ => (resOk_cKey .type).bind fun k hk => ?_
    obtain ⟨hg, hgr⟩ := H.names .type (by simp) k hk
    refine h.add _ hg fun ha w => ?_
    rw [Bool.or_eq_false_iff, Bool.and_eq_false_iff, decide_eq_false_iff_not] at ha
    obtain ⟨h1, h2⟩ := ha
    rw [Bool.not_eq_false'] at h2
    by_cases hm : E.opts.mode = .v11
    · refine .free _ _ hg ?_
      rintro (h' | rfl | ⟨d, hd, hs⟩)
      · rw [h2] at h'; cases h'
      · exact hgr rfl
      · refine (h1.resolve_left (absurd hm)) |> fun h => ?_
        rw [hd] at h
        simp [defContainer, Container.contains, hs] at h
    · refine .types _ _ hg hk ?_ h2
      cases h : E.opts.mode
      · rfl
      · exact absurd h hm

omit H in
theorem wants_reverse {k : Str} {d : TermDef} (hd : c.get k = some d) (hk : k ≠ "@graph".toList)
    (h : (d.container.contains .set || !E.opts.compactArrays) = false) : ¬ WantsArray E c k := by
  rw [Bool.or_eq_false_iff, Bool.not_eq_false'] at h
  rintro (h' | h' | ⟨d', hd', hs⟩)
  · rw [h.2] at h'; cases h'
  · exact hk h'
  · rw [hd] at hd'
    cases hd'
    simp [Container.contains, hs] at h

theorem ArrOk.reverseEntry {s : JMap × JMap} (h : ArrOk E c s.1 ∧ ArrOk E c s.2) {e : Str × Json}
    (he : Arrays E c e.1 e.2) :
    ResOk (fun s => ArrOk E c s.1 ∧ ArrOk E c s.2) (reverseEntry E c s e) := by
  unfold JsonLd.reverseEntry
  split
  · rename_i d hd
    split
    · rename_i hr
      have hg : ¬ GroupKey E c e.1 := H.terms _ d hd hr
      refine Post.map (h.1.add e.2 hg fun ha w => .free _ _ hg (wants_reverse hd ?_ ha)) fun m hm => ⟨hm, h.2⟩
      intro hk
      rw [hk, H.graph] at hd
      cases hd
    · exact ⟨h.1, h.2.insert he⟩
  · exact ⟨h.1, h.2.insert he⟩

theorem ArrOk.reverse {m : JMap} (h : ArrOk E c m) (R : CRec) :
    ResOk (fun s => s.1 = c ∧ ArrOk E c s.2) (compactReverse E R c n.rev m) := by
  unfold compactReverse
  split
  · exact ⟨rfl, h⟩
  · exact ⟨rfl, h⟩
  · rename_i rps _ hrv
    rw [H.reverse]
    show ResOk _ ((reverseIn E R c rps m).map _)
    refine Post.map (Q := ArrOk E c) ?_ fun m hm => ⟨rfl, hm⟩
    unfold reverseIn
    refine Post.bind (Q := ArrOk E c)
      (Post.foldlM (fun p hp m hm => hm.prop H R (.inr (.inr (.inr ⟨rps, hrv, p, hp, rfl⟩))) true _) .nil) fun rr hr => ?_
    refine Post.bind (Post.foldlM (fun e he s hs => ArrOk.reverseEntry H hs (hr.2 e he)) ⟨h, .nil⟩) fun s hs => ?_
    split
    · exact hs.1
    · exact Post.map (resOk_cKey .reverse) fun k hk => hs.1.insert (.group _ _ (.inr (.inr hk)) hs.2.1 hs.2.2)

theorem ArrOk.index {m : JMap} (h : ArrOk E c m) (prop : Option Str) (i : Option Str) :
    ResOk (ArrOk E c) (addIndex E c prop i m) := by
  unfold addIndex
  split
  · split
    · exact h
    · exact Post.map (resOk_cKey .index) fun k hk =>
        h.insert (.name _ _ (H.names .index (by simp) k hk).1 (.inr hk))
  · exact h

theorem ArrOk.opt {m : JMap} (h : ArrOk E c m) (R : CRec) {k : Keyword} (hk : k = .graph ∨ k = .included)
    (l : Option (List Obj)) : ResOk (ArrOk E c) (compactOpt E R c k l m) := by
  unfold compactOpt
  split
  · refine h.prop H R ?_ false _
    rcases hk with rfl | rfl
    · exact .inl rfl
    · exact .inr (.inl rfl)
  · exact h

/-- The entries of a node. -/
theorem node_arrays (R : CRec) (tsc : ACtx) (prop : Option Str) :
    ResOk (fun j => ∃ m, j = .obj m ∧ ArrOk E c m) (nodeIn E R c tsc prop n) := by
  unfold nodeIn
  refine Post.bind (Q := ArrOk E c) ?_ fun m hm => ?_
  · unfold nodeIdEntries
    split
    · cases hi : cIri E c (.id _) false with
      | error e => trivial
      | ok s =>
        cases hk : cIri E c (.keyword .id) true with
        | error e => trivial
        | ok k =>
          cases k with
          | none => exact .nil
          | some k =>
            refine ⟨by simp [DistinctKeys], ?_⟩
            intro e he
            rw [List.mem_singleton.1 he]
            have hk : WrittenFor E c .id k := hk
            have hg := (H.names .id (by simp) k hk).1
            cases s with
            | some s => exact .name _ _ hg (.inl hk)
            | none =>
              unfold cIri compactIriPlain at hi
              rw [if_neg nofun] at hi
              split at hi
              · cases hi
              · obtain ⟨_, -, h⟩ := exMap_ok hi
                cases h
    · exact .nil
  · refine (hm.types H tsc _).bind fun m hm => (hm.reverse H R).bind fun s hs => ?_
    obtain ⟨c', m⟩ := s
    obtain ⟨rfl, hm⟩ := hs
    refine (hm.index H prop _).bind fun m hm => (hm.opt H R (by decide) _).bind fun m hm => ?_
    refine Post.bind (Q := ArrOk E c') ?_ fun m hm => ?_
    · unfold compactProps
      exact Post.foldlM (fun p hp m hm => hm.prop H R (.inr (.inr (.inl ⟨p, mem_sortIf.1 hp, rfl⟩))) false _) hm
    · exact Post.map (hm.opt H R (by decide) _) fun m hm => ⟨m, rfl, hm⟩
end
end JsonLd
