import Verif.Proofs.ValueBack
/-!
# The keys of compacted properties in contexts without typed terms

In such contexts the term chosen for a property does not depend on the value.
-/

namespace JsonLd
open Spec Props

theorem _root_.JsonLd.Spec.PlainDef.named {d : TermDef} (h : PlainDef d) : NamedDef d :=
  ⟨h.typ, h.language, h.direction, h.container, h.nest, h.index, h.reverse⟩

/-- The term for `var` in a plain context. -/
def plainTerm (c : ACtx) (var : CTerm) : Option Str :=
  ((sortedDefs c).find? fun b => decide (b.2.value = some var)).map Prod.fst

theorem findSome_uniform {α : Type} {x : Option α} {rs : List (Option α)} (h : ∀ r ∈ rs, r = none ∨ r = x)
    (hx : x ∈ rs) : rs.findSome? id = x := by
  induction rs with
  | nil => cases hx
  | cons r rs ih =>
    rw [List.findSome?_cons]
    cases r with
    | some a =>
      have := h (some a) (by simp)
      simp only [reduceCtorEq, false_or] at this
      exact this
    | none =>
      have h' : ∀ r ∈ rs, r = none ∨ r = x := fun r hr => h r (List.mem_cons_of_mem _ hr)
      rcases List.mem_cons.1 hx with rfl | hx
      · show rs.findSome? id = none
        rw [List.findSome?_eq_none_iff]
        intro r hr
        rcases h' r hr with rfl | rfl <;> rfl
      · exact ih h' hx

/-- The selection includes terms without type, language and direction. -/
def WideSel : Selection → Prop
  | .any => True
  | .type l => .type .none ∈ l
  | .lang l => .lang (some (none, none)) ∈ l

/-- Are terms without type, language and direction among those with the language and direction wanted? -/
def plainHit (c : ACtx) : LangSel → Bool
  | .any => false
  | .lang l => decide (LangDir.key (some (c.language, c.direction)) = l.key) ||
      decide (LangDir.key (some (none, none)) = l.key)

/-- The terms for `var` are only names. -/
def PlainFor (c : ACtx) (var : CTerm) : Prop := ∀ b ∈ c.defs, b.2.value = some var → NamedDef b.2

section
variable {c : ACtx} {var : CTerm} (hc : PlainFor c var)
include hc

theorem mem_sortedDefs {b : Str × TermDef} (hb : b ∈ sortedDefs c) (hv : b.2.value = some var) : NamedDef b.2 :=
  hc b ((sortTerms_perm c.defs).mem_iff.1 hb) hv

omit hc in
theorem typeHit_plain {d : TermDef} (hd : NamedDef d) (s : TypeSel) : typeHit d s = decide (s = .type .none) := by
  cases s with
  | reverse => simp [typeHit, hd.reverse]
  | any => simp [typeHit, hd.reverse, hd.typ]
  | type t => cases t <;> simp [typeHit, hd.reverse, hd.typ, hd.language, hd.direction]

omit hc in
theorem langHit_plain {d : TermDef} (hd : NamedDef d) (s : LangSel) : langHit c d s = plainHit c s := by
  cases s with
  | any => simp [langHit, hd.typ, plainHit]
  | lang l => simp [langHit, hd.reverse, hd.typ, termLangs, hd.language, hd.direction, plainHit]

/-- The hits depend only on what is wanted. -/
theorem find_hit {cont : Container} {hit : TermDef → Bool} {b : Bool}
    (hh : ∀ d, NamedDef d → hit d = b) :
    ((sortedDefs c).find? (fun b => placed var cont b.2 && hit b.2)).map Prod.fst =
      if b = true ∧ cont = .none then plainTerm c var else none := by
  cases b with
  | true =>
    by_cases hn : cont = .none
    · rw [if_pos ⟨rfl, hn⟩]
      unfold plainTerm
      congr 1
      have : ∀ l : List (Str × TermDef), (∀ b ∈ l, b.2.value = some var → NamedDef b.2) →
          l.find? (fun b => placed var cont b.2 && hit b.2) = l.find? (fun b => decide (b.2.value = some var)) := by
        intro l hl
        induction l with
        | nil => rfl
        | cons b l ih =>
          have hb := hl b (by simp)
          rw [List.find?_cons, List.find?_cons, ih fun b hb => hl b (List.mem_cons_of_mem _ hb)]
          by_cases hv : b.2.value = some var
          · have hb := hb hv
            simp [placed, hb.container, hn, hh _ hb]
          · simp [placed, hv]
      exact this _ fun b hb => mem_sortedDefs hc hb
    · rw [if_neg (by simp [hn]), Option.map_eq_none_iff, List.find?_eq_none]
      intro b hb
      by_cases hv : b.2.value = some var
      · have := (mem_sortedDefs hc hb hv).container
        simp [placed, this, Ne.symm hn]
      · simp [placed, hv]
  | false =>
    rw [if_neg (by simp), Option.map_eq_none_iff, List.find?_eq_none]
    intro b hb
    by_cases hv : b.2.value = some var
    · simp [hh _ (mem_sortedDefs hc hb hv)]
    · simp [placed, hv]

/-- Every wish gives the same term or none. -/
theorem select_plain {conts : List Container} {s : Selection} (hn : .none ∈ conts) (hs : WideSel s) :
    c.inverse.select var conts s = plainTerm c var := by
  have he := entered_inverse c
  rw [select_eq]
  apply findSome_uniform
  · intro r hr
    unfold wishResults at hr
    obtain ⟨cont, hcont, hr⟩ := List.mem_flatMap.1 hr
    cases s with
    | any =>
      rw [List.mem_singleton.1 hr, he.none]
      have := find_hit hc (cont := cont) (hit := fun _ => true) (b := true) (fun _ _ => rfl)
      simp only [Bool.and_true] at this
      rw [this]
      split <;> simp
    | type l =>
      obtain ⟨x, hx, rfl⟩ := List.mem_map.1 hr
      rw [he.typ, find_hit hc (fun d hd => typeHit_plain hd x)]
      split <;> simp
    | lang l =>
      obtain ⟨x, hx, rfl⟩ := List.mem_map.1 hr
      rw [he.lang, find_hit hc (fun d hd => langHit_plain hd x)]
      split <;> simp
  · unfold wishResults
    refine List.mem_flatMap.2 ⟨.none, hn, ?_⟩
    cases s with
    | any =>
      show _ ∈ [_]
      rw [he.none]
      have := find_hit hc (cont := .none) (hit := fun _ => true) (b := true) (fun _ _ => rfl)
      simp only [Bool.and_true] at this
      rw [this]
      simp
    | type l =>
      refine List.mem_map.2 ⟨_, hs, ?_⟩
      rw [he.typ, find_hit hc (fun d hd => typeHit_plain hd _)]
      simp
    | lang l =>
      refine List.mem_map.2 ⟨_, hs, ?_⟩
      rw [he.lang, find_hit hc (fun d hd => langHit_plain hd _)]
      simp [plainHit]

end

theorem none_mem_containers (mode : ProcMode) (v : Option Obj) (rev : Bool) : .none ∈ allContainers mode v rev := by
  simp [allContainers]

theorem typeSelection_wide (t : TypeSel) (v : Option Bool) : WideSel (.type (typeSelection t v)) := by
  show TypeSel.type .none ∈ typeSelection t v
  unfold typeSelection
  cases v with
  | none => simp
  | some v =>
    simp only [List.mem_append]
    refine .inl (.inr ?_)
    split <;> simp

theorem langSelection_wide (l : LangSel) : WideSel (.lang (langSelection l)) := by
  show LangSel.lang (some (none, none)) ∈ langSelection l
  unfold langSelection
  split <;> simp

theorem fullSelection_wide {env : CompEnv} {c : ACtx} {o : CompOpts} {v : Obj} {rev : Bool} {s : Selection}
    (h : fullSelection env c o v rev = .ok s) : WideSel s := by
  unfold fullSelection at h
  split at h
  · cases h; trivial
  · split at h
    · split at h
      · cases h
      · cases h; exact typeSelection_wide _ _
    · cases h; exact langSelection_wide _
    · cases h; simp [WideSel]

/-- The compacted key in a plain context. -/
def plainKey (E : CEnv) (c : ACtx) (p : CTerm) : Except CompErr (Option Str) :=
  if p = .null then .ok none
  else match plainTerm c p with
    | some t => .ok (some t)
    | none => (compactNoTerm E.toCompEnv c p false true).map some

theorem assocGet_none {c : ACtx} {var : CTerm} (h : assocGet var c.inverse = none) : plainTerm c var = none := by
  unfold plainTerm
  rw [Option.map_eq_none_iff, List.find?_eq_none]
  intro b hb
  have := inverse_isSome c var
  rw [h] at this
  simp only [Option.isSome_none, Bool.false_eq_true, false_iff, not_exists, not_and] at this
  simpa using this b ((sortTerms_perm c.defs).mem_iff.1 hb)

/-- The key does not depend on the value. -/
theorem itemKey_for {E : CEnv} {c : ACtx} {p : CTerm} (hc : PlainFor c p) {rev : Bool} {o : Obj} {k : Option Str}
    (h : itemKey E c p rev o = .ok k) : plainKey E c p = .ok k := by
  unfold itemKey compactIriWith at h
  unfold plainKey
  split at h
  · rw [if_pos (by assumption)]; exact h
  · rw [if_neg (by assumption)]
    simp only [if_true] at h
    have key : ∀ x, compactTermWith E.toCompEnv c p o rev E.opts = .ok x → x = plainTerm c p := by
      intro x hx
      unfold compactTermWith at hx
      split at hx
      · rename_i hn
        cases hx
        exact (assocGet_none hn).symm
      · rename_i m hm
        split at hx
        · cases hx
        · rename_i s hs
          have h2 : c.inverse.select p (allContainers E.opts.mode (some o) rev) s = x := by
            unfold InvCtx.select
            rw [hm]
            exact Except.ok.inj hx
          rw [← h2, select_plain hc (none_mem_containers _ _ _) (fullSelection_wide hs)]
    split at h
    · cases h
    · rename_i t ht
      rw [← key _ ht]; exact h
    · rename_i ht
      rw [← key _ ht]; exact h

theorem itemKey_plain {E : CEnv} {c : ACtx} (hc : PlainCtx c) {p : CTerm} {rev : Bool} {o : Obj} {k : Option Str}
    (h : itemKey E c p rev o = .ok k) : plainKey E c p = .ok k :=
  itemKey_for (fun b hb _ => (hc.defs b hb).named) h

end JsonLd
