import Verif.Spec.CompactMaps
import Verif.Proofs.PlainKeys
import Verif.Proofs.RoundTrip
/-!
# The terms chosen for values
-/

namespace JsonLd
open Spec Props

section
variable {E : CEnv} {c : ACtx} (hc : ValueCtx E.toCompEnv c)
include hc

theorem get_lookup {k : Str} {d : TermDef} (h : c.get k = some d) : lookupKey k c.defs = some d := by
  unfold ACtx.get at h
  split at h
  · rw [hc.typeDef] at h; cases h
  · exact h

theorem get_value {k : Str} {d : TermDef} (h : c.get k = some d) : ValueDef d :=
  hc.defs (k, d) (lookupKey_mem (get_lookup hc h))

theorem value_calm : CalmCtx c := ⟨fun _ _ h => (get_value hc h).context, hc.previous⟩

theorem cScoped_value (prop : Option Str) (c' : ACtx) (o : Opts) : cScoped E (prop.bind c.get) c' o = .ok c' := by
  unfold cScoped
  cases h : prop.bind c.get with
  | none => rfl
  | some d =>
    dsimp only
    cases prop with
    | none => cases h
    | some k => rw [(get_value hc h).context]

theorem inNest_value (key : Str) (m : JMap) (f : JMap → Except CompErr JMap) : inNest c key m f = f m := by
  unfold inNest
  cases h : c.get key with
  | none => rfl
  | some d =>
    dsimp only [Option.bind]
    rw [(get_value hc h).nest]

theorem reverseOf_value (key : Str) : reverseOf (c.get key) = false := by
  cases h : c.get key with
  | none => rfl
  | some d => exact (get_value hc h).reverse

theorem typ_json (key : Str) : (c.get key).bind (·.typ) ≠ some .json := by
  cases h : c.get key with
  | none => exact nofun
  | some d => exact (get_value hc h).typ

omit hc in
theorem containerOf_eq (d : Option TermDef) : containerOf d = defContainer d := by
  cases d <;> rfl

theorem index_value (key : Str) : (c.get key).bind (·.index) = none := by
  cases h : c.get key with
  | none => rfl
  | some d => exact (get_value hc h).index

end

/-- All items have the common type. -/
theorem commonLoop_type {os : List Obj} {t : TypeMap} : ∀ {t0 : Option (Option TypeMap)} {l0 : Option LangDir},
    (commonLoop os t0 l0).1 = some (some t) → (t0 = none ∨ t0 = some (some t)) ∧ ∀ o ∈ os, itemType o = some t := by
  induction os with
  | nil =>
    intro t0 l0 h
    exact ⟨.inr h, nofun⟩
  | cons o os ih =>
    intro t0 l0 h
    unfold commonLoop at h
    dsimp only at h
    split at h
    · rename_i hx
      rw [hx.2] at h
      cases h
    · obtain ⟨h1, h2⟩ := ih h
      have h3 : commonType o t0 = some (some t) := by
        rcases h1 with h1 | h1
        · unfold commonType at h1
          cases t0 with
          | none => cases h1
          | some x =>
            dsimp only at h1
            split at h1 <;> cases h1
        · exact h1
      unfold commonType at h3
      cases t0 with
      | none =>
        dsimp only at h3
        refine ⟨.inl rfl, fun o' ho => ?_⟩
        rcases List.mem_cons.1 ho with rfl | ho
        · exact Option.some.inj h3
        · exact h2 o' ho
      | some x =>
        dsimp only at h3
        split at h3
        · cases h3
        · rename_i hx
          cases h3
          refine ⟨.inr rfl, fun o' ho => ?_⟩
          rcases List.mem_cons.1 ho with rfl | ho
          · exact (not_not.1 hx).symm
          · exact h2 o' ho

/-- What the definition of the key chosen for an object says. -/
structure KeyFits (E : CEnv) (c : ACtx) (p : CTerm) (rev : Bool) (o : Obj) (key : Str) : Prop where
  container : defContainer (c.get key) ∈ allContainers E.opts.mode (some o) rev
  string : ∀ i s, o = .value i (.langString s) → rev = false → ¬ Coerces c key
  items : ∀ i l j s, o = .list i l → rev = false → .value j (.langString s) ∈ l → ¬ Coerces c key
  term : ∀ k, k ∈ (defContainer (c.get key)).asSlice → ∃ d, c.get key = some d ∧ d.value = some p

theorem KeyFits.kinds {E : CEnv} {c : ACtx} {p : CTerm} {rev : Bool} {o : Obj} {key : Str} (h : KeyFits E c p rev o key)
    (k : ContainerKind) (hk : NoTermWith c p k) : k ∉ (defContainer (c.get key)).asSlice := by
  intro hm
  obtain ⟨d, h1, h2⟩ := h.term k hm
  rw [h1] at hm
  exact hk key d h1 h2 hm

theorem plain_fits {E : CEnv} {c : ACtx} {p : CTerm} {rev : Bool} {o : Obj} {key : Str}
    (h : ∀ d, c.get key = some d → PlainDef d) : KeyFits E c p rev o key := by
  have hn : defContainer (c.get key) = .none := by
    cases hd : c.get key with
    | none => rfl
    | some d => exact (h d hd).container
  have hco : ¬ Coerces c key := by
    rintro ⟨d, m, h1, h2, -⟩
    rw [(h d h1).typ] at h2
    cases h2
  refine ⟨?_, fun _ _ _ _ => hco, fun _ _ _ _ _ _ _ => hco, fun k hk => ?_⟩
  · rw [hn]; exact none_mem_containers _ _ _
  · rw [hn] at hk; simp [Container.asSlice] at hk

theorem mem_wishes {c : ACtx} {containers : List Container} {s : Selection} {w : Container × (TermDef → Prop)}
    (h : w ∈ wishes c containers s) : w.1 ∈ containers ∧
      ∀ l, s = .lang l → ∃ x ∈ l, w.2 = fun d => LangMatch c d x := by
  unfold wishes at h
  obtain ⟨cont, h1, h2⟩ := List.mem_flatMap.1 h
  cases s with
  | any =>
    cases List.mem_singleton.1 h2
    exact ⟨h1, nofun⟩
  | type l =>
    obtain ⟨x, hx, rfl⟩ := List.mem_map.1 h2
    exact ⟨h1, nofun⟩
  | lang l =>
    obtain ⟨x, hx, rfl⟩ := List.mem_map.1 h2
    exact ⟨h1, fun l' hl => by cases hl; exact ⟨x, hx, rfl⟩⟩

theorem lang_noType {c : ACtx} {d : TermDef} {x : LangSel} (h : LangMatch c d x) : d.typ = none ∨ d.typ = some .none := by
  cases x with
  | any => exact .inr h.2
  | lang l => exact .inl h.2.1

theorem not_coerces {c : ACtx} {key : Str} (h : ∀ d, c.get key = some d → d.typ = none ∨ d.typ = some .none) :
    ¬ Coerces c key := by
  rintro ⟨d, m, h1, h2, h3⟩
  rcases h d h1 with h4 | h4
  · rw [h4] at h2; cases h2
  · rw [h4] at h2; cases h2; exact h3 rfl

/-- A term that is not chosen as term is the text of the identifier. -/
theorem noTerm_key {env : CompEnv} {c : ACtx} (hn : (c.defs.map Prod.fst).Nodup) {var : CTerm} {s : Str}
    (h : compactNoTerm env c var false true = .ok s) (hk : ¬ KeywordForm s) {d : TermDef}
    (hd : lookupKey s c.defs = some d) : s = var.str := by
  unfold compactNoTerm at h
  split at h
  · rename_i s' hs
    cases h
    simp only [if_true] at hs
    unfold compactVocab at hs
    split at hs
    · cases hs
    · split at hs
      · dsimp only at hs
        split at hs
        · rename_i h1
          cases hs
          have := h1.2
          rw [containsTerm_eq hk, hd] at this
          cases this
        · cases hs
      · cases hs
  · obtain ⟨i1, _, i3, _⟩ := compactPrefix_spec c var false c.defs []
    simp only at h
    split at h
    · rename_i hne
      cases h
      obtain ⟨_, _, _, _, _, _, _, h4⟩ := (mem_candidates hn).1 (i1.resolve_left hne)
      cases (h4 d hd).2
    · unfold compactRest at h
      split at h
      · rename_i i hi
        split at h
        · cases h
        · cases var with
          | id j =>
            cases j with
            | iri s => cases hi; exact (Except.ok.inj h).symm
            | _ => cases hi
          | _ => cases hi
      · exact (Except.ok.inj h).symm

/-- Keys for values. -/
theorem itemKey_fits {E : CEnv} {c : ACtx} (hc : ValueCtx E.toCompEnv c) (hx : CleanTerms E.toCompEnv c) {p : Id}
    (hp : Nameable E.toCompEnv c true p) {rev : Bool} {o : Obj} {key : Str}
    (h : itemKey E c (.id p) rev o = .ok (some key)) : KeyFits E c (.id p) rev o key := by
  unfold itemKey compactIriWith at h
  rw [if_neg (by simp)] at h
  simp only [if_true] at h
  split at h
  · cases h
  · rename_i t ht
    cases h
    unfold compactTermWith at ht
    split at ht
    · cases ht
    · rename_i m hm
      split at ht
      · cases ht
      · rename_i sel hsel
        have h2 : c.inverse.select (.id p) (allContainers E.opts.mode (some o) rev) sel = some key := by
          unfold InvCtx.select
          rw [hm]
          exact Except.ok.inj ht
        obtain ⟨pre, w, post, hw, -, ⟨d, hd, hv, hcont, hmatch⟩, -⟩ := (C34_selected c hx.distinct _ _ sel key).1 h2
        have hget : c.get key = some d := by
          unfold ACtx.get
          rw [if_neg]
          · exact hd
          · rintro rfl
            exact hx.terms _ d hd ((C01_form _).1 (by decide))
        obtain ⟨hmem, hwm⟩ := mem_wishes (w := w) (s := sel) (c := c) (by rw [hw]; simp)
        have hcont' : defContainer (c.get key) = w.1 := by rw [hget]; exact hcont
        refine ⟨by rw [hcont']; exact hmem, ?_, ?_, ?_⟩
        · rintro i s rfl rfl
          apply not_coerces
          rintro d' hd'
          rw [hget] at hd'
          cases hd'
          unfold fullSelection at hsel
          simp only [isEmptyList, Bool.false_eq_true, if_false, valueTypeLang] at hsel
          have : ∃ l, sel = .lang l := by
            split at hsel
            · rename_i hl
              split at hl
              · cases hl
              · simp [Value.typeMap] at hl
            · exact ⟨_, (Except.ok.inj hsel).symm⟩
            · exact ⟨_, (Except.ok.inj hsel).symm⟩
          obtain ⟨l, rfl⟩ := this
          obtain ⟨x, -, hx⟩ := hwm _ rfl
          rw [hx] at hmatch
          exact lang_noType hmatch
        · rintro i l j s rfl rfl hmem
          apply not_coerces
          rintro d' hd'
          rw [hget] at hd'
          cases hd'
          unfold fullSelection at hsel
          have hne : isEmptyList (some (.list i l)) = false := by
            cases l with
            | nil => cases hmem
            | cons => rfl
          rw [hne] at hsel
          simp only [Bool.false_eq_true, if_false, valueTypeLang] at hsel
          have : ∃ l, sel = .lang l := by
            split at hsel
            · rename_i t hl
              exfalso
              simp only [Option.some.injEq] at hl
              unfold listTypeLang at hl
              have hne' : l.isEmpty = false := hne
              rw [hne'] at hl
              simp only [Bool.false_eq_true, if_false] at hl
              split at hl
              · rename_i t' ht'
                have : (commonLoop l none none).1 = some (some t') := by
                  cases hx : (commonLoop l none none).1 with
                  | none => rw [hx] at ht'; cases ht'
                  | some y => rw [hx] at ht'; exact congrArg some ht'
                have := (commonLoop_type this).2 _ hmem
                cases this
              · cases hl
            · exact ⟨_, (Except.ok.inj hsel).symm⟩
            · exact ⟨_, (Except.ok.inj hsel).symm⟩
          obtain ⟨l, rfl⟩ := this
          obtain ⟨x, -, hx⟩ := hwm _ rfl
          rw [hx] at hmatch
          exact lang_noType hmatch
        · exact fun k _ => ⟨d, hget, hv⟩
  · obtain ⟨s, h1, h2⟩ := exMap_ok h
    cases h2
    apply plain_fits
    intro d hd
    have hlk := get_lookup hc hd
    refine hc.iris (key, d) (lookupKey_mem hlk) ?_
    show E.isIri key = true ∨ _
    rw [noTerm_key hx.distinct h1 (hx.terms _ d hlk) hlk]
    exact hp.valid

end JsonLd
