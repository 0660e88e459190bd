import Verif.Spec.Faults
import Verif.Props.ExpandPolicy
import Verif.Props.Iri
import Verif.Proofs.ExpandMaps
import Verif.Proofs.ExpandEntries
import Verif.Proofs.OrderPerm
/-!
# Errors of expansion have a cause
-/

namespace JsonLd
open Spec Relation JsonLd.Props

variable {E : XEnv}

/-- There is a fault at the place or below. -/
def FaultAt (E : XEnv) (pl : Place) (e : XErr) : Prop := ∃ q, ReflTransGen (Under E) pl q ∧ Fault E q e

theorem FaultAt.here {pl : Place} {e : XErr} (h : Fault E pl e) : FaultAt E pl e := ⟨pl, .refl, h⟩

theorem FaultAt.under {pl q : Place} {e : XErr} (h : Under E pl q) (hq : FaultAt E q e) : FaultAt E pl e := by
  obtain ⟨r, h1, h2⟩ := hq
  exact ⟨r, .head h h1, h2⟩

theorem Ex.weaken {α : Type} {Q Q' : α → Prop} {X X' : XErr → Prop} {r : Except XErr α} (h : Ex Q X r)
    (hq : ∀ a, Q a → Q' a) (hx : ∀ e, X e → X' e) : Ex Q' X' r := by
  cases r with
  | error e => exact hx e h
  | ok a => exact hq a h

theorem Ex.errs {α : Type} {Q : α → Prop} {X X' : XErr → Prop} {r : Except XErr α} (h : Ex Q X r)
    (hx : ∀ e, X e → X' e) : Ex Q X' r := h.weaken (fun _ h => h) hx

theorem Ex.with {α : Type} {Q : α → Prop} {X : XErr → Prop} {r : Except XErr α} (h : Ex Q X r) :
    Ex (fun a => r = .ok a ∧ Q a) X r := by
  cases r with
  | error e => exact h
  | ok a => exact ⟨rfl, h⟩

theorem forceArray_items (j : Json) : forceArray j = itemsIn j := by cases j <;> rfl

theorem hasContainer_iff {c : ACtx} {k : Str} {x : ContainerKind} :
    (containerOf (c.get k)).contains x = true ↔ HasContainer c k x := by
  unfold containerOf HasContainer
  cases c.get k with
  | none => cases x <;> simp [Container.contains, Container.asSlice]
  | some d => simp [Container.contains]

theorem isJson_iff {c : ACtx} {k : Str} : (c.get k).bind (·.typ) = some .json ↔ IsJson c k := by
  unfold IsJson
  cases c.get k <;> simp

/-! ## Identifiers -/

theorem expandIri_onlyReject {c : ACtx} {s : Str} {b : Bool} {v : Option Action} {u : Unit}
    (h : expandIri E.toIriEnv c (some (.ofStr s)) b v = .error u) : v = some .reject := by
  unfold Expandable.ofStr at h
  split at h
  · cases h
  · have := (C32_policy E.toIriEnv c s b v (.error ()) (.inl rfl)).1 h
    rcases this.2.2.2 with h | h
    · exact h.2
    · cases h.1

theorem xIri_fault {pl : Place} {c : ACtx} {s : Str} {b : Bool} (hv : Looked E pl c s b) :
    Ex (fun t => expandIri E.toIriEnv c (some (.ofStr s)) b (some E.opts.vocab) = .ok t) (FaultAt E pl)
      (xIri E c s b (some E.opts.vocab)) := by
  unfold xIri
  cases h : expandIri E.toIriEnv c (some (.ofStr s)) b (some E.opts.vocab) with
  | ok t => rfl
  | error u => exact .here (.vocab hv h)

theorem xIri_free {pl : Place} {c : ACtx} {s : Str} {b : Bool} :
    Ex (fun _ => True) (FaultAt E pl) (xIri E c s b none) := by
  unfold xIri
  cases h : expandIri E.toIriEnv c (some (.ofStr s)) b none with
  | ok t => trivial
  | error u => cases expandIri_onlyReject h

theorem xKey_fault {pl : Place} {c : ACtx} {s : Str} (hv : Looked E pl c s false) :
    Ex (fun t => expandIri E.toIriEnv c (some (.ofStr s)) false (some E.opts.vocab) = .ok t) (FaultAt E pl)
      (xKey E c s) := xIri_fault hv

/-! ## Contexts -/

theorem scopedCtx_fault {d : Option TermDef} {a : ACtx} {o : Opts} :
    Ex (Within E d o a) (fun e => ∃ t l x, d = some t ∧ t.context = some l ∧
      E.process a l t.baseUrl o = .error x ∧ e = .contextProcessing x) (scopedCtx E d a o) := by
  unfold scopedCtx
  split
  · rename_i t
    split
    · rename_i l hl
      unfold xProcess
      cases h : E.process a l t.baseUrl o with
      | ok b => exact .term t l b rfl hl h
      | error x => exact ⟨t, l, x, rfl, hl, h, rfl⟩
    · rename_i hl
      exact .plain fun t' h => by cases h; exact hl
  · exact .plain fun t h => by cases h

theorem prelim_ok {c : ACtx} {m : List (Str × Json)} {pl : Place} (hl : ∀ e ∈ m, Looked E pl c e.1 false) :
    Ex (fun r => (r.1 = true ↔ ∃ e ∈ m, KeyMeans E c e.1 (.keyword .value)) ∧
      (r.2 = true ↔ ∃ e ∈ m, KeyMeans E c e.1 (.keyword .id))) (FaultAt E pl) (prelim E c m) := by
  induction m with
  | nil => exact ⟨by simp, by simp⟩
  | cons e m ih =>
    obtain ⟨k, v⟩ := e
    unfold prelim
    refine (xKey_fault (hl _ (List.mem_cons_self ..))).bind fun t _ ht =>
      (ih fun e he => hl e (List.mem_cons_of_mem _ he)).map fun r _ hr => ?_
    have key : ∀ kw : Keyword, t = some (.keyword kw) ↔ KeyMeans E c k (.keyword kw) := by
      intro kw
      unfold KeyMeans
      rw [ht]
      simp
    constructor
    · simp [hr.1, key, or_comm]
    · simp [hr.2, key, or_comm]

theorem revert_entered {c : ACtx} {m : List (Str × Json)} {fm : Bool} {r : Bool × Bool}
    (h : (r.1 = true ↔ ∃ e ∈ m, KeyMeans E c e.1 (.keyword .value)) ∧
      (r.2 = true ↔ ∃ e ∈ m, KeyMeans E c e.1 (.keyword .id))) : StartsIn E c m fm (revert c m fm r) := by
  unfold revert
  split
  · rename_i p hp
    split
    · rename_i hc
      simp only [Bool.and_eq_true, Bool.not_eq_true', Bool.and_eq_false_iff] at hc
      refine .back p hp hc.1.1 (fun e he hk => ?_) fun e he hk => ?_
      · rw [h.1.2 ⟨e, he, hk⟩] at hc
        exact Bool.noConfusion hc.1.2
      · subst he
        rw [h.2.2 ⟨e, by simp, hk⟩] at hc
        rcases hc.2 with h | h <;> simp at h
    · rename_i hc
      refine .stay ?_
      simp only [Bool.and_eq_true, Bool.not_eq_true', Bool.and_eq_false_iff, not_and_or, not_or,
        Bool.not_eq_false, decide_eq_false_iff_not, not_not] at hc
      rcases hc with (hc | hc) | hc
      · exact .inr (.inl hc)
      · exact .inr (.inr (.inl (h.1.1 hc)))
      · obtain ⟨e, he, hk⟩ := h.2.1 hc.2
        obtain ⟨e', rfl⟩ := List.length_eq_one_iff.1 hc.1
        rw [List.mem_singleton.1 he] at hk
        exact .inr (.inr (.inr ⟨e', rfl, hk⟩))
  · rename_i hp
    exact .stay (.inl hp)

theorem filter_two {m : List (Str × Json)} {k : Str} {l : List (Str × Json)}
    (h : m.filter (fun e => decide (e.1 = k)) = l) : ∃ r, m.Perm (l ++ r) ∧ ∀ e ∈ l, e.1 = k := by
  refine ⟨m.filter fun e => !decide (e.1 = k), ?_, fun e he => ?_⟩
  · rw [← h]
    exact (List.filter_append_perm _ m).symm
  · rw [← h] at he
    exact of_decide_eq_true (List.mem_filter.1 he).2

theorem localContext_fault {c : ACtx} {m : List (Str × Json)} {a₀ a : ACtx} {p : Option Str} {fm : Bool}
    (hs : StartsIn E c m fm a₀) (hw : Within E (p.bind c.get) { mode := E.opts.mode, override := true } a₀ a) :
    Ex (Locally E m a) (FaultAt E (.value c p (.obj m) fm)) (localContext E a m) := by
  unfold localContext
  split
  · rename_i h
    refine .plain fun v hv => ?_
    have : (("@context".toList, v) : Str × Json) ∈ m.filter (fun e => decide (e.1 = "@context".toList)) :=
      List.mem_filter.2 ⟨hv, decide_eq_true rfl⟩
    rw [h] at this
    cases this
  · rename_i e h
    obtain ⟨r, hp, hk⟩ := filter_two h
    obtain ⟨k, v⟩ := e
    have hk : k = "@context".toList := hk (k, v) (by simp)
    subst hk
    have hm : (("@context".toList, v) : Str × Json) ∈ m := hp.mem_iff.2 (by simp)
    dsimp only
    cases hr : readCtx E.isRef v with
    | error x => exact .here (.context hm hr)
    | ok l =>
      unfold xProcess
      dsimp only
      cases hx : E.process a l E.base E.opts.proc with
      | ok b => exact .entry v l b hm hr hx
      | error x => exact .here (.process (.entry hs hw hm hr) hx)
  · rename_i h1 h2
    have hl : ∀ l : List (Str × Json), l ≠ [] → (∀ e, l ≠ [e]) → ∃ a b r, l = a :: b :: r := by
      intro l h1 h2
      match l with
      | [] => exact absurd rfl h1
      | [e] => exact absurd rfl (h2 e)
      | a :: b :: r => exact ⟨a, b, r, rfl⟩
    obtain ⟨a, b, r, h⟩ := hl _ h1 h2
    obtain ⟨r', hp, hk⟩ := filter_two h
    obtain ⟨k, v⟩ := a
    obtain ⟨k', w⟩ := b
    have h1 : k = "@context".toList := hk (k, v) (by simp)
    have h2 : k' = "@context".toList := hk (k', w) (by simp)
    subst h1 h2
    exact .here (.contexts hp)

theorem objContext_fault {c : ACtx} {p : Option Str} {m : List (Str × Json)} {fm : Bool} :
    Ex (BeforeTypes E c p m fm) (FaultAt E (.value c p (.obj m) fm)) (objContext E c p m fm) := by
  unfold objContext
  refine (prelim_ok fun e he => .first he).bind fun r _ hr => ?_
  refine (scopedCtx_fault.errs ?_).bind fun b _ hb => ?_
  · rintro e ⟨t, l, x, hd, hl, hx, rfl⟩
    cases p with
    | none => cases hd
    | some k => exact .here (.process (.object (revert_entered hr) hd hl) hx)
  · exact (localContext_fault (revert_entered hr) hb).mono fun tsc ht => ⟨_, b, revert_entered hr, hb, ht⟩

theorem typeEntries_fault {pl : Place} {tsc : ACtx} {m : List (Str × Json)}
    (hl : ∀ e ∈ m, Looked E pl tsc e.1 false) :
    Ex (fun tes => ∀ e ∈ tes, e ∈ m ∧ KeyMeans E tsc e.1 (.keyword .type)) (FaultAt E pl)
      (typeEntries E tsc m) := by
  unfold typeEntries
  refine Ex.map (Q := fun tes => ∀ e ∈ tes, e ∈ m ∧ KeyMeans E tsc e.1 (.keyword .type)) ?_ fun tes _ h e he =>
    h e (mem_sortByKey.1 he)
  refine Ex.collectM fun e he => (xKey_fault (hl e he)).map fun t _ ht e' he' => ?_
  split at he'
  · rename_i h
    rw [List.mem_singleton.1 he']
    exact ⟨he, by unfold KeyMeans; rw [ht, h]⟩
  · cases he'

theorem applied_snoc {c a b r : ACtx} {ts : List Str} {t : Str} (h : Applied E c ts a b)
    (hw : Within E (c.get t) { mode := E.opts.mode, propagate := false } b r) : Applied E c (ts ++ [t]) a r := by
  induction h with
  | nil a =>
    cases hw with
    | plain hp => exact .plain t [] _ _ hp (.nil _)
    | term d l b hd hl hx => exact .within t d l [] a r r hd hl hx (.nil r)
  | plain t' ts a b hp _ ih => exact .plain t' (ts ++ [t]) a r hp (ih hw)
  | within t' d l ts a a' b hd hl hx _ ih => exact .within t' d l (ts ++ [t]) a a' r hd hl hx (ih hw)

theorem applied_fold {pl : Place} {c a₀ : ACtx} {W : Str → Prop} {ts₁ : List Str} {ts : List Str} {a : ACtx}
    (hts : ∀ t ∈ ts, W t) (h₁ : ∀ t ∈ ts₁, W t)
    (h : ∀ ts, (∀ t ∈ ts, W t) → ∀ a, Applied E c ts a₀ a → ∀ t, W t → ∀ d l x, c.get t = some d →
      d.context = some l → E.process a l d.baseUrl { mode := E.opts.mode, propagate := false } = .error x →
      FaultAt E pl (.contextProcessing x)) (ha : Applied E c ts₁ a₀ a) :
    Ex (Applied E c (ts₁ ++ ts) a₀) (FaultAt E pl)
      (ts.foldlM (fun a t => scopedCtx E (c.get t) a E.opts.proc.withoutPropagation) a) := by
  induction ts generalizing a ts₁ with
  | nil => rw [List.append_nil]; exact ha
  | cons t ts ih =>
    rw [List.foldlM_cons]
    refine (scopedCtx_fault.errs ?_).bind fun b _ hb => ?_
    · rintro e ⟨d, l, x, hd, hl, hx, rfl⟩
      exact h ts₁ h₁ a ha t (hts t (List.mem_cons_self ..)) d l x hd hl hx
    · have := ih (ts₁ := ts₁ ++ [t]) (fun t ht => hts t (List.mem_cons_of_mem _ ht)) (fun t' ht' => by
        rcases List.mem_append.1 ht' with ht' | ht'
        · exact h₁ t' ht'
        · rw [List.mem_singleton.1 ht']; exact hts t (List.mem_cons_self ..)) (applied_snoc ha hb)
      rw [List.append_assoc] at this
      exact this

theorem scopedTypes_written {tsc : ACtx} {m : List (Str × Json)} {tes : List (Str × Json)}
    (h : ∀ e ∈ tes, e ∈ m ∧ KeyMeans E tsc e.1 (.keyword .type)) {t : Str} (ht : t ∈ scopedTypes tes) :
    WrittenType E tsc m t := by
  unfold scopedTypes at ht
  obtain ⟨e, he, ht⟩ := List.mem_flatMap.1 ht
  have ht := mem_sortByKey.1 ht
  unfold strings at ht
  obtain ⟨j, hj, hs⟩ := List.mem_filterMap.1 ht
  refine ⟨e.1, e.2, (h e he).1, (h e he).2, ?_⟩
  split at hs
  · cases hs; rw [← forceArray_items]; exact hj
  · cases hs

/-- The object of a value, and its types. -/
theorem typeScoped_fault {c : ACtx} {p : Option Str} {m : List (Str × Json)} {fm : Bool} {tsc : ACtx}
    (hb : BeforeTypes E c p m fm tsc) {tes : List (Str × Json)}
    (h : ∀ e ∈ tes, e ∈ m ∧ KeyMeans E tsc e.1 (.keyword .type)) :
    Ex (fun c' => Under E (.value c p (.obj m) fm) (.object c' tsc p m false))
      (FaultAt E (.value c p (.obj m) fm)) (typeScoped E tsc tes) := by
  unfold typeScoped
  refine (applied_fold (W := WrittenType E tsc m) (ts₁ := []) (fun t ht => scopedTypes_written h ht) nofun
    (fun ts hts a ha t ht d l x hd hl hx => ?_) (.nil tsc)).mono fun c' hc' =>
    .object hb (fun t ht => scopedTypes_written h ht) hc'
  exact .here (.process (.type hb hts ha ht hd hl) hx)

/-! ## Values that are no nodes -/

theorem Ex.okay {α : Type} {Q : α → Prop} {X : XErr → Prop} {r : Except XErr α} {a : α} (h : Ex Q X r)
    (hr : r = .ok a) : Q a := by
  subst hr; exact h

theorem collectM_from {α β : Type} {f : α → Except XErr (List β)} {l : List α} {r : List β}
    (h : collectM f l = .ok r) {b : β} (hb : b ∈ r) : ∃ a ∈ l, ∃ p, f a = .ok p ∧ b ∈ p := by
  induction l generalizing r with
  | nil => cases h; cases hb
  | cons a l ih =>
    obtain ⟨p, q, hp, hq, rfl⟩ := collectM_cons.1 h
    rcases List.mem_append.1 hb with hb | hb
    · exact ⟨a, by simp, p, hp, hb⟩
    · obtain ⟨a', ha', r⟩ := ih hq hb
      exact ⟨a', by simp [ha'], r⟩

theorem lastEntry_entry {c : ACtx} {m : List (Str × Json)} {es : List XEntry} (hes : xEntries E c m = .ok es)
    {k : Keyword} {v : Json} (h : lastEntry k es = some v) : ∃ key, (key, v) ∈ m ∧ KeyMeans E c key (.keyword k) := by
  obtain ⟨e, he, rfl, ht⟩ := lastEntry_mem h
  have := xKey_iff.1 (xEntries_term hes he)
  rw [ht] at this
  exact ⟨e.key, xEntries_mem hes he, this⟩

/-- The kinds of objects. -/
theorem elemKind_cases (R : XRec) (c tsc : ACtx) (p : Option Str) (it : Option CTerm) (es : List XEntry) :
    (∃ v, (p ≠ none ∧ p ≠ some "@graph".toList ∧ lastEntry .list es = some v) ∧ elemKind E R c tsc p it es = elemList R c p es v) ∨
    (∃ v, lastEntry .set es = some v ∧
      elemKind E R c tsc p it es = (setEntries es).bind fun _ => R.elem c p v false) ∨
    (∃ v, lastEntry .value es = some v ∧ elemKind E R c tsc p it es = elemValue E tsc it es v) ∨
    (lastEntry .value es = none ∧ elemKind E R c tsc p it es = expandNode E R c tsc p es) := by
  have main : ∀ a : Option Json, (∀ v, a = some v → p ≠ none ∧ p ≠ some "@graph".toList ∧ lastEntry .list es = some v) →
      (∃ v, (p ≠ none ∧ p ≠ some "@graph".toList ∧ lastEntry .list es = some v) ∧ (match a, lastEntry .set es, lastEntry .value es with
        | some v, _, _ => elemList R c p es v
        | none, some v, _ => (setEntries es).bind fun _ => R.elem c p v false
        | none, none, some v => elemValue E tsc it es v
        | none, none, none => expandNode E R c tsc p es) = elemList R c p es v) ∨
      (∃ v, lastEntry .set es = some v ∧ (match a, lastEntry .set es, lastEntry .value es with
        | some v, _, _ => elemList R c p es v
        | none, some v, _ => (setEntries es).bind fun _ => R.elem c p v false
        | none, none, some v => elemValue E tsc it es v
        | none, none, none => expandNode E R c tsc p es) = (setEntries es).bind fun _ => R.elem c p v false) ∨
      (∃ v, lastEntry .value es = some v ∧ (match a, lastEntry .set es, lastEntry .value es with
        | some v, _, _ => elemList R c p es v
        | none, some v, _ => (setEntries es).bind fun _ => R.elem c p v false
        | none, none, some v => elemValue E tsc it es v
        | none, none, none => expandNode E R c tsc p es) = elemValue E tsc it es v) ∨
      (lastEntry .value es = none ∧ (match a, lastEntry .set es, lastEntry .value es with
        | some v, _, _ => elemList R c p es v
        | none, some v, _ => (setEntries es).bind fun _ => R.elem c p v false
        | none, none, some v => elemValue E tsc it es v
        | none, none, none => expandNode E R c tsc p es) = expandNode E R c tsc p es) := by
    intro a ha
    cases a with
    | some v => exact .inl ⟨v, ha v rfl, rfl⟩
    | none =>
      cases lastEntry .set es with
      | some v => exact .inr (.inl ⟨v, rfl, rfl⟩)
      | none =>
        cases lastEntry .value es with
        | some v => exact .inr (.inr (.inl ⟨v, rfl, rfl⟩))
        | none => exact .inr (.inr (.inr ⟨rfl, rfl⟩))
  refine main (if noProp p then none else lastEntry .list es) fun v hv => ?_
  split at hv
  · cases hv
  · rename_i hp
    unfold noProp at hp
    simp only [Bool.or_eq_true, not_or, Option.isNone_iff_eq_none, decide_eq_true_eq] at hp
    exact ⟨hp.1, hp.2, hv⟩

/-- The steps of `elemObj`. -/
theorem elemObj_steps {R : XRec} {c : ACtx} {p : Option Str} {m : List (Str × Json)} {fm : Bool} {x : Expanded}
    (h : elemObj E R c p m fm = .ok x) : ∃ c' tsc it es,
      Under E (.value c p (.obj m) fm) (.object c' tsc p m false) ∧ xEntries E c' m = .ok es ∧
      elemKind E R c' tsc p it es = .ok x := by
  unfold elemObj at h
  obtain ⟨tsc, h1, h⟩ := exBind_ok h
  obtain ⟨tes, h2, h⟩ := exBind_ok h
  obtain ⟨c', h3, h⟩ := exBind_ok h
  obtain ⟨it, _, h⟩ := exBind_ok h
  obtain ⟨es, h5, h⟩ := exBind_ok h
  have hb := objContext_fault.okay h1
  have ht := (typeEntries_fault (pl := .value c p (.obj m) fm) fun e he => .typeKey hb he).okay h2
  exact ⟨c', tsc, it, es, (typeScoped_fault hb ht).okay h3, h5, h⟩

theorem scalar_nonNode {c : ACtx} {p : Option Str} {j : Json} {l : Literal} {fm : Bool} {x : Expanded}
    (hj : ScalarAs j l) (h : elemScalar E c p l = .ok x) {o : Obj} (ho : o ∈ x.toList) (hn : ∀ n, o ≠ .node n) :
    NonNode E (.value c p j fm) := by
  unfold elemScalar at h
  split at h
  · cases h; cases ho
  · rename_i hp
    cases p with
    | none => exact absurd rfl hp
    | some k =>
      obtain ⟨c', h1, h⟩ := exBind_ok h
      refine .scalar hj (scopedCtx_fault.okay h1) ?_
      rintro ⟨s, rfl⟩ d hd
      cases hj
      split at h
      · cases h
      · rename_i o' ho'
        cases h
        cases List.mem_singleton.1 ho
        unfold expandLiteral at ho'
        rw [show (some k).bind c'.get = some d from hd] at ho'
        dsimp only [Option.bind_some] at ho'
        constructor
        · intro ht
          rw [ht] at ho'
          dsimp only at ho'
          split at ho'
          · cases ho'; exact hn _ rfl
          · cases ho'
        · intro ht
          rw [ht] at ho'
          dsimp only at ho'
          split at ho'
          · cases ho'
          · cases ho'; exact hn _ rfl

/-- An object that is no node comes from a value that stands for none. -/
theorem elem_nonNode : ∀ {n : Nat} {c : ACtx} {p : Option Str} {j : Json} {fm : Bool} {x : Expanded}, j.depth ≤ n →
    expandElement E c p j fm = .ok x → ∀ o ∈ x.toList, (∀ n, o ≠ .node n) → NonNode E (.value c p j fm) := by
  intro n
  induction n with
  | zero => intro c p j fm x hj; exact absurd (depth_pos j) (by omega)
  | succ n ih =>
    intro c p j fm x hj h o ho hn
    rw [C49_unfold] at h
    unfold elemBody at h
    split at h
    · cases h; cases ho
    · rename_i l
      unfold elemArr at h
      obtain ⟨os, h1, rfl⟩ := exMap_ok h
      split at ho
      · rename_i hl
        cases p with
        | none => exact absurd hl (by rw [Option.bind_none]; decide)
        | some k => exact .array (hasContainer_iff.1 hl)
      · obtain ⟨a, ha, r, hr, hb⟩ := collectM_from h1 ho
        obtain ⟨y, hy, rfl⟩ := exMap_ok hr
        exact .item ha (ih (Nat.le_of_lt_succ (Nat.lt_of_lt_of_le (depth_arr ha) hj)) hy o hb hn)
    · rename_i m
      obtain ⟨c', tsc, it, es, hu, hes, h⟩ := elemObj_steps h
      rcases elemKind_cases (E := E) (unlimited E) c' tsc p it es with
        ⟨v, ⟨hp, hg, hl⟩, hk⟩ | ⟨v, hl, hk⟩ | ⟨v, hl, hk⟩ | ⟨_, hk⟩
      · obtain ⟨k, hk, hm⟩ := lastEntry_entry hes hl
        exact .list hp hg hu hk hm
      · rw [hk] at h
        obtain ⟨k, hk, hm⟩ := lastEntry_entry hes hl
        obtain ⟨_, _, h⟩ := exBind_ok h
        exact .set hu hk hm
          (ih (Nat.le_of_lt_succ (Nat.lt_of_lt_of_le (depth_obj (e := (k, v)) hk) hj)) h o ho hn)
      · obtain ⟨k, hk, hm⟩ := lastEntry_entry hes hl
        exact .value hu hk hm
      · rw [hk] at h
        unfold expandNode at h
        obtain ⟨st, _, rfl⟩ := exMap_ok h
        unfold nodeResult at ho
        split at ho
        · cases ho
        · split at ho
          · cases ho
          · exact absurd (List.mem_singleton.1 ho) (hn _)
    · exact scalar_nonNode (.str _) h ho hn
    · exact scalar_nonNode (.num _) h ho hn
    · exact scalar_nonNode (.bool _) h ho hn

theorem asNodes_fault {e : XErr} {os : List Obj} {P : Prop} (h : ∀ o ∈ os, (∀ n, o ≠ .node n) → P) :
    Ex (fun _ => True) (fun x => x = e ∧ P) (asNodes e os) := by
  induction os with
  | nil => trivial
  | cons o os ih =>
    cases o with
    | node n => exact (ih fun o ho => h o (by simp [ho])).map fun _ _ _ => trivial
    | value i v => exact ⟨rfl, h _ (List.mem_cons_self ..) fun _ h => by cases h⟩
    | list i l => exact ⟨rfl, h _ (List.mem_cons_self ..) fun _ h => by cases h⟩

/-! ## Value objects -/

/-- The entries are entries of the object, with what their keys stand for. -/
structure EntriesOf (E : XEnv) (c : ACtx) (m : List (Str × Json)) (es : List XEntry) : Prop where
  means : ∀ e ∈ es, KeyMeans E c e.key e.term
  perm : ∃ r, m.Perm (es.map (fun e => (e.key, e.value)) ++ r)

theorem EntriesOf.mem {c : ACtx} {m : List (Str × Json)} {es : List XEntry} (h : EntriesOf E c m es) {e : XEntry}
    (he : e ∈ es) : (e.key, e.value) ∈ m := by
  obtain ⟨r, hr⟩ := h.perm
  exact hr.mem_iff.2 (List.mem_append_left _ (List.mem_map.2 ⟨e, he, rfl⟩))

theorem xEntries_of {pl : Place} {c : ACtx} {m : List (Str × Json)} (hl : ∀ e ∈ m, Looked E pl c e.1 false) :
    Ex (fun es => EntriesOf E c m es ∧ ∀ k v t, (k, v) ∈ m → KeyMeans E c k t → ⟨k, t, v⟩ ∈ es) (FaultAt E pl)
      (xEntries E c m) := by
  induction m with
  | nil => exact ⟨⟨fun e he => (by cases he), [], .nil⟩, fun k v t h => (by cases h)⟩
  | cons a m ih =>
    obtain ⟨k, v⟩ := a
    unfold xEntries
    refine (xKey_fault (hl _ (List.mem_cons_self ..))).bind fun t _ ht =>
      (ih fun e he => hl e (List.mem_cons_of_mem _ he)).map fun es _ hes => ?_
    obtain ⟨⟨h1, r, h2⟩, h3⟩ := hes
    cases t with
    | none =>
      refine ⟨⟨h1, (k, v) :: r, ?_⟩, fun k' v' t' hm hk => ?_⟩
      · exact (List.Perm.cons _ h2).trans List.perm_middle.symm
      · rcases List.mem_cons.1 hm with h | h
        · cases h
          unfold KeyMeans at hk
          rw [ht] at hk
          cases hk
        · exact h3 _ _ _ h hk
    | some t =>
      refine ⟨⟨fun e he => ?_, r, List.Perm.cons _ h2⟩, fun k' v' t' hm hk => ?_⟩
      · rcases List.mem_cons.1 he with rfl | he
        · exact ht
        · exact h1 e he
      · rcases List.mem_cons.1 hm with h | h
        · cases h
          unfold KeyMeans at hk
          rw [ht] at hk
          cases hk
          exact List.mem_cons_self ..
        · exact List.mem_cons_of_mem _ (h3 _ _ _ h hk)

/-- What is known after some entries of a value object. -/
structure ValueSeen (E : XEnv) (c tsc : ACtx) (m : List (Str × Json)) (it : Prop) (es : List XEntry)
    (s : ValueState) : Prop where
  tag : s.language.isSome = true ∨ s.direction.isSome = true → ∃ k v, (k, v) ∈ m ∧
    (KeyMeans E c k (.keyword .language) ∨ KeyMeans E c k (.keyword .direction))
  ty : s.ty.isSome = true → ∃ k v, (k, v) ∈ m ∧ KeyMeans E c k (.keyword .type)
  json : s.isJson = true → it ∨ ∃ k v, (k, v) ∈ m ∧ KeyMeans E c k (.keyword .type)
  plain : s.isJson = false → (∀ e ∈ es, e.term = .keyword .type → ∀ t, e.value = .str t →
    ¬ TypeMeans E tsc t (some (.keyword .json))) ∨
      ∃ k t i, (k, .str t) ∈ m ∧ KeyMeans E c k (.keyword .type) ∧ TypeMeans E tsc t (some (.id (.iri i)))

theorem ValueSeen.other {c tsc : ACtx} {m : List (Str × Json)} {it : Prop} {es : List XEntry} {s s' : ValueState}
    {e : XEntry} (h : ValueSeen E c tsc m it es s) (he : e.term ≠ .keyword .type) (hl : s'.isJson = s.isJson)
    (ht : s'.ty = s.ty) (hg : s'.language.isSome = true ∨ s'.direction.isSome = true →
      (s.language.isSome = true ∨ s.direction.isSome = true) ∨ ∃ k v, (k, v) ∈ m ∧
        (KeyMeans E c k (.keyword .language) ∨ KeyMeans E c k (.keyword .direction))) :
    ValueSeen E c tsc m it (es ++ [e]) s' where
  tag := fun x => (hg x).elim h.tag id
  ty := by rw [ht]; exact h.ty
  json := by rw [hl]; exact h.json
  plain := by
    rw [hl]
    refine fun x => (h.plain x).imp (fun y e' he' => ?_) id
    rcases List.mem_append.1 he' with he' | he'
    · exact y e' he'
    · rw [List.mem_singleton.1 he']
      exact fun h => absurd h he

/-- An error of a value object, or what is known. -/
def VEx {α : Type} (Q : α → Prop) (X : ValueErr → Prop) : Except ValueErr α → Prop
  | .ok a => Q a
  | .error e => X e

theorem valueStep_fault {c tsc : ACtx} {m : List (Str × Json)} {it : Prop} {es : List XEntry} {s : ValueState}
    {e : XEntry} (hm : (e.key, e.value) ∈ m) (hk : KeyMeans E c e.key e.term) (h : ValueSeen E c tsc m it es s) :
    VEx (ValueSeen E c tsc m it (es ++ [e])) (ValueFault E c tsc m) (valueStep E.toIriEnv E.opts.vocab tsc s e) := by
  obtain ⟨key, t, v⟩ := e
  dsimp only at hm hk
  unfold valueStep
  split
  · rename_i ht
    dsimp only at ht ⊢
    subst ht
    unfold valueLanguage
    split
    · refine h.other (by simp) ?_ ?_ fun x => .inr ⟨_, _, hm, .inl hk⟩
      · split <;> rfl
      · split <;> rfl
    · rename_i hn
      exact .language hm hk fun s hs => hn s hs
  · rename_i ht
    dsimp only at ht ⊢
    subst ht
    unfold valueDirection
    split
    · rename_i d
      unfold Direction.tryFrom
      by_cases h1 : d = "ltr".toList
      · rw [if_pos h1]
        exact h.other (by simp) rfl rfl fun x => .inr ⟨_, _, hm, .inr hk⟩
      · rw [if_neg h1]
        by_cases h2 : d = "rtl".toList
        · rw [if_pos h2]
          exact h.other (by simp) rfl rfl fun x => .inr ⟨_, _, hm, .inr hk⟩
        · rw [if_neg h2]
          exact .direction hm hk (fun h => h1 (Json.str.inj h)) fun h => h2 (Json.str.inj h)
    · rename_i hn
      exact .direction hm hk (hn _) (hn _)
  · rename_i ht
    dsimp only at ht ⊢
    subst ht
    unfold valueIndex
    split
    · exact h.other (by simp) rfl rfl .inl
    · rename_i hn
      exact .index hm hk fun s hs => hn s hs
  · rename_i ht
    dsimp only at ht ⊢
    subst ht
    unfold valueType
    split
    · rename_i t
      split
      · rename_i hx
        exact .vocab hm hk hx
      · rename_i hx
        exact ⟨h.tag, h.ty, fun _ => .inr ⟨_, _, hm, hk⟩, nofun⟩
      · rename_i i hx
        exact ⟨h.tag, fun _ => ⟨_, _, hm, hk⟩, nofun, fun _ => .inr ⟨_, _, _, hm, hk, hx⟩⟩
      · rename_i r h1 h2 hx
        exact .typeName hm hk hx h1 h2
    · rename_i hn
      exact .type hm hk fun s hs => hn s hs
  · rename_i ht
    dsimp only at ht ⊢
    exact h.other (by simp [ht]) rfl rfl .inl
  · rename_i h1 h2 h3 h4 h5
    refine .key hm hk fun kw hkw => ?_
    rcases List.mem_cons.1 hkw with rfl | hkw
    · exact h5
    rcases List.mem_cons.1 hkw with rfl | hkw
    · exact h4
    rcases List.mem_cons.1 hkw with rfl | hkw
    · exact h1
    rcases List.mem_cons.1 hkw with rfl | hkw
    · exact h2
    rcases List.mem_cons.1 hkw with rfl | hkw
    · exact h3
    cases hkw

theorem valueSteps_fault {c tsc : ACtx} {m : List (Str × Json)} {it : Prop} {es' : List XEntry} :
    ∀ {es : List XEntry} {s : ValueState}, (∀ e ∈ es, (e.key, e.value) ∈ m ∧ KeyMeans E c e.key e.term) →
    ValueSeen E c tsc m it es' s →
    VEx (ValueSeen E c tsc m it (es' ++ es)) (ValueFault E c tsc m)
      (es.foldlM (valueStep E.toIriEnv E.opts.vocab tsc) s) := by
  intro es
  induction es generalizing es' with
  | nil => intro s _ h; rw [List.append_nil]; exact h
  | cons e es ih =>
    intro s hm h
    rw [List.foldlM_cons]
    have h1 := valueStep_fault (hm e (by simp)).1 (hm e (by simp)).2 h
    cases hs : valueStep E.toIriEnv E.opts.vocab tsc s e with
    | error x => rw [hs] at h1; exact h1
    | ok s' =>
      rw [hs] at h1
      have := ih (fun e he => hm e (by simp [he])) h1
      rw [List.append_assoc] at this
      exact this

theorem elemValue_fault {c tsc : ACtx} {p : Option Str} {m : List (Str × Json)} {it : Option CTerm}
    {es : List XEntry} {v : Json} (hes : EntriesOf E c m es)
    (hall : ∀ k v t, (k, v) ∈ m → KeyMeans E c k t → ⟨k, t, v⟩ ∈ es)
    (hit : it = some (.keyword .json) → ∃ t, WrittenType E tsc m t ∧ KeyMeans E c t (.keyword .json))
    (hv : ∃ k, (k, v) ∈ m ∧ KeyMeans E c k (.keyword .value)) :
    Ex (fun _ => True) (FaultAt E (.object c tsc p m false)) (elemValue E tsc it es v) := by
  obtain ⟨k, hk, hkm⟩ := hv
  suffices hx : ∀ x, expandValue E.toIriEnv E.opts.vocab it tsc es v = .error x → ValueFault E c tsc m x by
    unfold elemValue
    split
    · rename_i x h
      exact .here (.value hk hkm (hx x h))
    · trivial
    · trivial
  intro x h
  unfold expandValue at h
  have h0 : ValueSeen E c tsc m (it = some (.keyword .json)) ([] : List XEntry)
      { isJson := decide (it = some (.keyword .json)) } :=
    ⟨fun h => h.elim nofun nofun, nofun, fun h => .inl (of_decide_eq_true h), fun _ => .inl nofun⟩
  have h1 := valueSteps_fault (es := es) (fun e he => ⟨hes.mem he, hes.means e he⟩) h0
  rw [List.nil_append] at h1
  split at h
  · rename_i y hy
    cases h
    rw [hy] at h1
    exact h1
  · rename_i s hs
    rw [hs] at h1
    have h1 : ValueSeen E c tsc m (it = some (.keyword .json)) es s := h1
    unfold valueResult at h
    split at h
    · rename_i hj
      split at h
      · rename_i hl
        cases h
        obtain ⟨k', v', hm', ht'⟩ := h1.tag (Bool.or_eq_true _ _ ▸ hl)
        rcases h1.json hj with hi | ⟨k2, v2, hm2, ht2⟩
        · obtain ⟨t, hw, hkt⟩ := hit hi
          exact .json hw hkt hm' ht'
        · exact .typeAndTag hm2 ht2 hm' ht'
      · cases h
    · rename_i hj
      have hj := Bool.eq_false_iff.2 hj
      split at h
      · rename_i y hy
        cases h
        have hval : ((∃ l, v = .arr l) ∨ ∃ m', v = .obj m') ∧ x = .valueObjectValue := by
          unfold scalarOf at hy
          cases v with
          | arr l => cases hy; exact ⟨.inl ⟨_, rfl⟩, rfl⟩
          | obj l => cases hy; exact ⟨.inr ⟨_, rfl⟩, rfl⟩
          | _ => cases hy
        obtain ⟨hval, rfl⟩ := hval
        refine .value hk hkm hval ((h1.plain hj).imp (fun hp k' t hm' ht' => ?_) id)
        exact hp _ (hall _ _ _ hm' ht') rfl t rfl
      · cases h
      · rename_i l _ hl
        split at h
        · rename_i hg
          have hg := Bool.or_eq_true _ _ ▸ hg
          obtain ⟨k', v', hm', ht'⟩ := h1.tag hg
          unfold langValue at h
          split at h
          · rename_i hty
            cases h
            obtain ⟨k2, v2, hm2, ht2⟩ := h1.ty hty
            exact .typeAndTag hm2 ht2 hm' ht'
          · split at h
            · exfalso
              split at h
              · cases h
              · rename_i hnew
                unfold LangString.new at hnew
                split at hnew
                · cases hnew
                · rename_i hnn
                  simp only [Bool.or_eq_true] at hnn
                  exact hnn hg
            · rename_i hns
              cases h
              refine .tagged hk hkm (fun t ht => ?_) hm' ht'
              subst ht
              cases hl
              exact hns _ rfl
        · cases h

/-! ## Literals -/

theorem expandLiteral_fault {c : ACtx} {k : Str} {l : Literal} {x : LitErr}
    (h : expandLiteral E.toIriEnv E.opts.vocab c (some k) l = .error x) :
    (x = .forbiddenVocab ∧ ∃ s d u, l = .str s ∧ c.get k = some d ∧ d.typ = some .vocab ∧
      expandIri E.toIriEnv c (some (.ofStr s)) true (some E.opts.vocab) = .error u) ∨ (x = .invalidTypeValue ∧ IsJson c k) := by
  have hp := C40_no_panic E.toIriEnv E.opts.vocab c (some k) l
  have hb : (some k).bind c.get = c.get k := rfl
  unfold expandLiteral at h hp
  simp only [hb] at h hp
  split at h
  · rename_i ht
    rw [ht] at hp
    split at h
    · cases h
    · cases h
      rename_i hx
      exfalso
      apply hp
      dsimp only
      split
      · rename_i h'; exact absurd h' (hx _)
      · rfl
  · split at h
    · rename_i s ht _ u hx
      cases h
      cases hd : c.get k with
      | none => rw [hd] at ht; cases ht
      | some d =>
        rw [hd] at ht
        exact .inl ⟨rfl, s, d, u, rfl, rfl, ht, hx⟩
    · cases h
  · rename_i ht
    cases h
    exact .inr ⟨rfl, isJson_iff.1 ht⟩
  · cases h
  · cases h

theorem elemScalar_fault {c : ACtx} {p : Option Str} {j : Json} {l : Literal} {fm : Bool} (hj : ScalarAs j l) :
    Ex (fun _ => True) (FaultAt E (.value c p j fm)) (elemScalar E c p l) := by
  unfold elemScalar
  split
  · trivial
  · rename_i hp
    cases p with
    | none => exact absurd rfl hp
    | some k =>
      refine (scopedCtx_fault.errs ?_).bind fun c' _ hc' => ?_
      · rintro e ⟨t, l, x, hd, hl, hx, rfl⟩
        exact .here (.process (.scalar hj hd hl) hx)
      · cases h : expandLiteral E.toIriEnv E.opts.vocab c' (some k) l with
        | ok o => trivial
        | error x =>
          rcases expandLiteral_fault h with ⟨rfl, s, d, u, rfl, hd, ht, hx⟩ | ⟨rfl, hr⟩
          · cases hj
            exact .here (.vocabValue hc' hd ht hx)
          · exact .here (.json hj hc' hr)

/-! ## Maps -/

theorem mem_ordered {o : Bool} {m : List (Str × Json)} {e : Str × Json} (h : e ∈ sortIf o Prod.fst m) : e ∈ m :=
  mem_sortIf.1 h

/-- The hypothesis for the elements below. -/
def ElemOK (E : XEnv) (n : Nat) : Prop := ∀ (c : ACtx) (p : Option Str) (j : Json) (fm : Bool), j.depth ≤ n →
  p ≠ some "@reverse".toList → Ex (fun _ => True) (FaultAt E (.value c p j fm)) (expandElement E c p j fm)

theorem ElemOK.nodes {n : Nat} (H : ElemOK E n) {c : ACtx} {p : Option Str} {j : Json} {fm : Bool} (hj : j.depth ≤ n)
    (hp : p ≠ some "@reverse".toList) :
    Ex (fun x => ∀ o ∈ x.toList, (∀ n, o ≠ .node n) → NonNode E (.value c p j fm)) (FaultAt E (.value c p j fm))
      (expandElement E c p j fm) :=
  (H c p j fm hj hp).with.mono fun _ hx => elem_nonNode (Nat.le_refl _) hx.1

theorem key_not_reverse {c : ACtx} {k : Str} {q : Id} (h : KeyMeans E c k (.id q)) :
    some k ≠ some "@reverse".toList := by
  intro hk
  cases hk
  have := xKey_iff.1 (keyword_key (E := E) (c := c) .reverse)
  unfold KeyMeans at h
  rw [show "@reverse".toList = Keyword.reverse.intoStr from rfl, this] at h
  cases h

theorem langMap_fault {c tsc : ACtx} {p : Option Str} {m m' : List (Str × Json)} {b : Bool} {k : Str} {q : Id}
    (hm : (k, .obj m') ∈ m) (hk : KeyMeans E c k (.id q)) (hu : IsUsed E q) (hl : HasContainer c k .language) (hj : ¬ IsJson c k)
    {d : Option TermDef} : Ex (fun _ => True) (FaultAt E (.object c tsc p m b)) (langMap E c d m') := by
  unfold langMap
  refine (Ex.collectM (Q₂ := fun _ => True) fun e he =>
    Ex.collectM (Q₂ := fun _ => True) fun x hx => ?_).mono fun _ _ => trivial
  unfold langMapItem
  split
  · exact fun _ _ => trivial
  · exact (xKey_fault (.map hm hk hu (.inl ⟨hj, hl⟩) (mem_ordered he))).map fun _ _ _ _ _ => trivial
  · rename_i h1 h2
    exact .here (.languageMap hm hk hu hl hj (l := e.1) (v := e.2) (mem_ordered he) (forceArray_items _ ▸ hx)
      (fun h => h1 h) fun s h => h2 s h)

theorem mapContext_fault {c tsc : ACtx} {p : Option Str} {m m' : List (Str × Json)} {b : Bool} {k : Str} {q : Id}
    {d : TermDef} {e : Str × Json} (hm : (k, .obj m') ∈ m) (hk : KeyMeans E c k (.id q)) (hu : IsUsed E q) (hd : c.get k = some d)
    (hmap : IsMap c k) (he : e ∈ m') :
    Ex (MapContext E c d.container e.1) (FaultAt E (.object c tsc p m b)) (mapContext E c d.container e.1) := by
  have hret : Returned c (c.previous.getD c) := by
    cases h : c.previous with
    | none => exact .stay h
    | some r => exact .back r h
  have hc : ∀ x, d.container.contains x = true ↔ x ∈ d.container.asSlice := fun x => by
    simp [Container.contains]
  unfold mapContext
  by_cases ht : d.container.contains .type = true
  · simp only [ht, Bool.true_or, if_true]
    refine (scopedCtx_fault.errs ?_).mono fun a ha => .type a ((hc _).1 ht) ?_
    · rintro x ⟨t, l, y, hd', hl, hx, rfl⟩
      exact .here (.process (.typeMap hm hk hu hmap ⟨d, hd, (hc _).1 ht⟩ (i := e.1) (w := e.2) he hret hd' hl) hx)
    · cases ha with
      | plain h => exact .plain _ hret h
      | term t l b h1 h2 h3 => exact .within _ t l a hret h1 h2 h3
  · simp only [Bool.not_eq_true _ ▸ ht, Bool.false_or]
    have hnt : ContainerKind.type ∉ d.container.asSlice := fun h => ht ((hc _).2 h)
    by_cases hi : d.container.contains .id = true
    · simp only [hi, if_true]
      exact .id _ hnt ((hc _).1 hi) hret
    · simp only [Bool.not_eq_true _ ▸ hi]
      exact .plain hnt fun h => hi ((hc _).2 h)

theorem mapItem_fault {c tsc : ACtx} {p : Option Str} {m m' : List (Str × Json)} {b : Bool} {k : Str} {q : Id}
    {d : TermDef} {e : Str × Json} {t : Option CTerm} {o : Obj} {P : Prop} (hm : (k, .obj m') ∈ m)
    (hk : KeyMeans E c k (.id q)) (hu : IsUsed E q) (hd : c.get k = some d) (hmap : IsMap c k) (he : e ∈ m')
    (ht : expandedIndex E c e.1 = .ok t) (ho : (∀ n, o ≠ .node n) → P)
    (hP : P → ∃ c', MapContext E c d.container e.1 c' ∧ NonNode E (.value c' (some k) e.2 true)) :
    Ex (fun r => ∀ o ∈ r, (∀ n, o ≠ .node n) → P) (FaultAt E (.object c tsc p m b))
      (mapItem E c d.container (indexKeyOf (some d)) e.1 t o) := by
  have hc : ∀ x, d.container.contains x = true ↔ x ∈ d.container.asSlice := fun x => by
    simp [Container.contains]
  unfold mapItem
  dsimp only
  -- the item, perhaps in a graph
  have hw : ((∀ n, (if d.container.contains .graph && !o.isGraph then graphNode o else o) ≠ .node n) →
      P ∧ ContainerKind.graph ∉ d.container.asSlice) := by
    intro h
    split at h
    · exact absurd rfl (h _)
    · rename_i hg
      refine ⟨ho h, fun hg' => hg ?_⟩
      rw [(hc _).2 hg']
      cases o with
      | node n => exact absurd rfl (h n)
      | value i v => rfl
      | list i l => rfl
  generalize (if d.container.contains .graph && !o.isGraph then graphNode o else o) = o at hw ⊢
  cases t with
  | none =>
    intro o' ho' hn
    rw [List.mem_singleton.1 ho'] at hn
    exact (hw hn).1
  | some t =>
    refine Ex.map (Q := fun r : Option Obj => ∀ o, r = some o → (∀ n, o ≠ .node n) → P) ?_ ?_
    · unfold indexItem
      split
      · rename_i hi
        rw [Bool.and_eq_true] at hi
        have hne : indexKeyOf (some d) ≠ "@index".toList := of_decide_eq_true hi.2
        have hx : d.index = some (indexKeyOf (some d)) := by
          unfold indexKeyOf at hne ⊢
          cases hx : d.index with
          | none => rw [show (some d).bind (·.index) = d.index from rfl, hx] at hne; exact absurd rfl hne
          | some i => rw [show (some d).bind (·.index) = d.index from rfl, hx]
        unfold indexProp
        split
        · rename_i x hl
          rcases expandLiteral_fault hl with ⟨rfl, s, d', u, hs, hd', ht', hx'⟩ | ⟨rfl, hr⟩
          · cases hs
            exact .here (.vocabIndex hm hk hu hmap hd ((hc _).1 hi.1) hx hd' ht' he hx')
          · exact .here (.indexJson hm hk hu hmap hd ((hc _).1 hi.1) hx hr)
        · refine (xKey_fault (.index hm hk hu hmap hd ((hc _).1 hi.1) hx)).bind fun t' _ _ => ?_
          split
          · split
            · intro o' h; cases h; exact fun h => absurd rfl (h _)
            · rename_i o' hn
              have hn : ∀ n, o ≠ .node n := fun n h => hn n h
              obtain ⟨c', h1, h2⟩ := hP (hw hn).1
              exact .here (.indexProperty hm hk hu hmap hd ((hc _).1 hi.1) (hw hn).2 hx hne he h1 h2)
          · exact fun o h => by cases h
      · split
        · intro o' h hn
          cases h
          refine (hw fun n hn' => ?_).1
          subst hn'
          exact hn _ rfl
        · split
          · unfold indexId
            split
            · refine Ex.map (Q := fun r : Obj => ∃ n, r = .node n) ?_ ?_
              · exact xIri_free.map fun t _ _ => ⟨_, rfl⟩
              · rintro r _ ⟨n, rfl⟩ o' h hn
                cases h
                exact absurd rfl (hn n)
            · intro o' h hn
              cases h
              exact (hw hn).1
          · split
            · rename_i hty
              unfold indexType
              split
              · split
                · intro o' h hn
                  cases h
                  exact absurd rfl (hn _)
                · intro o' h hn
                  cases h
                  exact (hw hn).1
              · rename_i hnid
                unfold expandedIndex at ht
                obtain ⟨t', h1, h2⟩ := exMap_ok ht
                split at h2
                · cases h2
                · rename_i hnn
                  subst h2
                  cases t with
                  | null => exact absurd (.inl rfl) hnn
                  | id i => exact absurd rfl (hnid i)
                  | keyword kw =>
                    exact .here (.typeMap hm hk hu hmap ⟨d, hd, (hc _).1 hty⟩ he (xKey_iff.1 h1)
                      fun h => hnn (.inr (by rw [h])))
            · intro o' h hn
              cases h
              exact (hw hn).1
    · intro r _ hr o' ho'
      exact hr o' (Option.mem_toList.1 ho')

theorem xMapEntry_fault {n : Nat} (H : ElemOK E n) {c tsc : ACtx} {p : Option Str} {m m' : List (Str × Json)} {b : Bool} {k : Str} {q : Id}
    {d : TermDef} {e : Str × Json} (hm : (k, .obj m') ∈ m) (hn : (Json.obj m').depth ≤ n)
    (hk : KeyMeans E c k (.id q)) (hu : IsUsed E q) (hd : c.get k = some d) (hmap : IsMap c k) (he : e ∈ m') :
    Ex (fun r => ∀ o ∈ r, (∀ n, o ≠ .node n) → NonNodeValue E c k (.obj m')) (FaultAt E (.object c tsc p m b))
      (xMapEntry E (unlimited E) c d.container (indexKeyOf (some d)) k e) := by
  unfold xMapEntry
  refine (mapContext_fault hm hk hu hd hmap he).bind fun c' _ hc' => ?_
  have hex : Ex (fun _ => True) (FaultAt E (.object c tsc p m b)) (expandedIndex E c e.1) :=
    (xKey_fault (.map hm hk hu (.inr hmap) he)).map fun _ _ _ => trivial
  refine hex.bind fun t ht _ => ?_
  have hel := (H.nodes (c := c') (p := some k) (j := e.2) (fm := true)
    (Nat.le_trans (Nat.le_of_lt (depth_obj he)) hn) (key_not_reverse hk)).errs
    fun x hx => FaultAt.under (.map (tsc := tsc) (p := p) (b := b) hm hk hu hd hmap he hc') hx
  refine hel.bind fun x _ hx => ?_
  refine (Ex.collectM fun o ho => mapItem_fault hm hk hu hd hmap he ht (hx o ho) fun h => ⟨c', hc', h⟩).mono ?_
  exact fun r hr o ho hn => .map rfl hd he hc' (hr o ho hn)

theorem propValue_fault {n : Nat} (H : ElemOK E n) {c tsc : ACtx} {p : Option Str} {m : List (Str × Json)} {b : Bool} {k : Str} {q : Id}
    {v : Json} (hm : (k, v) ∈ m) (hn : v.depth ≤ n) (hk : KeyMeans E c k (.id q)) (hu : IsUsed E q) :
    Ex (fun x => ∀ o ∈ x.toList, (∀ n, o ≠ .node n) → NonNodeValue E c k v) (FaultAt E (.object c tsc p m b))
      (propValue E (unlimited E) c (c.get k) k v) := by
  unfold propValue
  dsimp only
  split
  · rename_i hj
    exact fun _ _ _ => .json (isJson_iff.1 hj)
  · rename_i hj
    have hj : ¬ IsJson c k := fun h => hj (isJson_iff.2 h)
    have plain : (∀ m', v = .obj m' → ¬ IsMap c k ∧ ¬ HasContainer c k .language) →
        Ex (fun x => ∀ o ∈ x.toList, (∀ n, o ≠ .node n) → NonNodeValue E c k v) (FaultAt E (.object c tsc p m b))
          ((unlimited E).elem c (some k) v false) := fun h =>
      ((H.nodes hn (key_not_reverse hk)).errs fun x hx =>
        FaultAt.under (.property (tsc := tsc) (p := p) (b := b) hm hk hu hj h) hx).mono
        fun x hx o ho hn => .plain (hx o ho hn)
    split
    · rename_i m'
      split
      · rename_i hl
        exact (langMap_fault hm hk hu (hasContainer_iff.1 hl) hj).map
          fun _ _ _ _ _ _ => .language (hasContainer_iff.1 hl)
      · rename_i hl
        have hl : ¬ HasContainer c k .language := fun h => hl (hasContainer_iff.2 h)
        split
        · rename_i hi
          simp only [Bool.or_eq_true, or_assoc, hasContainer_iff] at hi
          have hmap : IsMap c k := ⟨hj, hl, hi⟩
          obtain ⟨d, hd⟩ : ∃ d, c.get k = some d := by
            rcases hi with ⟨d, hd, _⟩ | ⟨d, hd, _⟩ | ⟨d, hd, _⟩ <;> exact ⟨d, hd⟩
          rw [hd]
          refine (Ex.collectM (Q₂ := fun o : Obj => (∀ n : Node, o ≠ .node n) → NonNodeValue E c k (.obj m')) fun e he =>
            xMapEntry_fault H hm hn hk hu hd hmap (mem_ordered he)).map fun r _ hr => hr
        · rename_i hi
          simp only [Bool.or_eq_true, or_assoc, hasContainer_iff] at hi
          exact plain fun _ _ => ⟨fun h => hi h.2.2, hl⟩
    · rename_i hno
      exact plain fun m' h => absurd h (hno m')

theorem wrap_nonNode {c : ACtx} {k : Str} {v : Json} {x : Expanded}
    (h : ∀ o ∈ x.toList, (∀ n, o ≠ .node n) → NonNodeValue E c k v) :
    ∀ o ∈ (wrapGraph (containerOf (c.get k)) (wrapList (containerOf (c.get k)) x)).toList, (∀ n, o ≠ .node n) →
      NonNodeValue E c k v := by
  intro o ho hn
  unfold wrapGraph at ho
  split at ho
  · obtain ⟨o', _, rfl⟩ := List.mem_map.1 ho
    exact absurd rfl (hn _)
  · unfold wrapList at ho
    split at ho
    · rename_i hl
      rw [Bool.and_eq_true] at hl
      exact .list (hasContainer_iff.1 hl.1)
    · exact h o ho hn

/-! ## Entries of nodes -/

/-- The keywords that an entry may add. -/
def Added (E : XEnv) (c : ACtx) (e : Str × Json) (st st' : XState) : Prop :=
  ∀ kw, st'.node.hasKeyword kw = true → st.node.hasKeyword kw = true ∨ HasEntry E kw c [e]

theorem Added.refl {c : ACtx} {e : Str × Json} {st : XState} : Added E c e st st := fun _ h => .inl h

theorem Added.trans {c : ACtx} {e : Str × Json} {a b d : XState} (h1 : Added E c e a b) (h2 : Added E c e b d) :
    Added E c e a d := fun kw h => (h2 kw h).elim (h1 kw) .inr

theorem Added.only {c : ACtx} {e : Str × Json} {st st' : XState} {k : Keyword} (hk : HasEntry E k c [e])
    (h : ∀ kw, kw ≠ k → st'.node.hasKeyword kw = st.node.hasKeyword kw) : Added E c e st st' := by
  intro kw hkw
  by_cases hx : kw = k
  · subst hx; exact .inr hk
  · exact .inl (h kw hx ▸ hkw)

theorem Added.same {c : ACtx} {e : Str × Json} {st st' : XState}
    (h : ∀ kw, st'.node.hasKeyword kw = st.node.hasKeyword kw) : Added E c e st st' :=
  fun kw hkw => .inl (h kw ▸ hkw)

theorem addReverse_fault {c : ACtx} {e : Str × Json} {q : Id} {os : List Obj} {st : XState} {X : XErr → Prop}
    {P : Prop} (h : ∀ o ∈ os, (∀ n, o ≠ .node n) → P) (hX : P → X .invalidReversePropertyValue)
    (hr : HasEntry E .reverse c [e]) : Ex (Added E c e st) X (addReverse q os st) := by
  unfold addReverse
  refine ((asNodes_fault h).errs ?_).map fun ns _ _ => .only hr fun kw hkw => ?_
  · rintro x ⟨rfl, hp⟩; exact hX hp
  · obtain ⟨⟨x, i, ty, g, inc, ps, rv⟩, hv⟩ := st
    cases kw <;> first | rfl | exact absurd rfl hkw

theorem insertProp_keywords {q : Id} {os : List Obj} {n : Node} (kw : Keyword) :
    (n.insertProp q os).hasKeyword kw = n.hasKeyword kw := by
  cases n; cases kw <;> rfl

theorem idEntry_fault {n : Nat} (H : ElemOK E n) {c tsc : ACtx} {p : Option Str} {m : List (Str × Json)} {b : Bool} {k : Str} {q : Id}
    {v : Json} {st : XState} (hm : (k, v) ∈ m) (hn : v.depth ≤ n) (hk : KeyMeans E c k (.id q))
    (hcol : ':' ∈ q.str) :
    Ex (Added E c (k, v) st) (FaultAt E (.object c tsc p m b)) (idEntry E (unlimited E) c k q v st) := by
  have main : IsUsed E q →
      Ex (Added E c (k, v) st) (FaultAt E (.object c tsc p m b)) (propEntry E (unlimited E) c k q v st) := by
    intro hu
    unfold propEntry
    refine (propValue_fault H hm hn hk hu).bind fun x _ hx => ?_
    unfold addProp
    split
    · exact .refl
    · split
      · rename_i hr
        unfold reverseOf at hr
        split at hr
        · rename_i d hd
          exact addReverse_fault (wrap_nonNode hx) (fun h => .here (.reverseTerm hm hk hu hd hr h))
            (.reverse (List.mem_singleton.2 rfl) hd hr rfl)
        · cases hr
      · exact .same fun kw => insertProp_keywords kw
  unfold idEntry
  split
  · split
    · rename_i hi
      exact main ⟨hcol, fun _ => hi⟩
    · exact .refl
    · rename_i hi
      exact .here (.key hm hk (.inl ⟨hi, rfl⟩))
  · rename_i hni
    exact main ⟨hcol, fun h => by
      cases q with
      | invalid s => exact absurd rfl (hni s)
      | iri i => cases h
      | blank i => cases h⟩

theorem reverseStep_fault {n : Nat} (H : ElemOK E n) {c tsc : ACtx} {p : Option Str} {m m' : List (Str × Json)} {b : Bool} {k : Str}
    {e : Str × Json} {st : XState} (hm : (k, .obj m') ∈ m) (hn : (Json.obj m').depth ≤ n)
    (hk : KeyMeans E c k (.keyword .reverse)) (he : e ∈ m') :
    Ex (Added E c (k, .obj m') st) (FaultAt E (.object c tsc p m b)) (reverseStep E (unlimited E) c st e) := by
  have hadd : HasEntry E .reverse c [(k, .obj m')] := .here (List.mem_singleton.2 rfl) hk
  unfold reverseStep
  refine (xKey_fault (.reverse hm hk he)).bind fun t heq ht => ?_
  clear heq
  have bad : E.opts.invalid = .reject ∨ E.opts.allowUndefined = false → (∀ kw, t ≠ some (.keyword kw)) →
      (∀ i, t = some (.id i) → ':' ∉ i.str ∨ (E.opts.invalid = .reject ∧ i.isValid = false)) →
      FaultAt E (.object c tsc p m b) (.keyExpansionFailed e.1) := fun h1 h2 h3 =>
    .here (.reverseKey hm hk he ht h1 h2 h3)
  have pol : ∀ {x : Bool}, (E.opts.invalid = .reject || !E.opts.allowUndefined) = true →
      E.opts.invalid = .reject ∨ E.opts.allowUndefined = false := by
    intro _ h
    simpa using h
  split
  · exact .here (.reverseKeyword hm hk he ht)
  · rename_i q
    have main : IsUsed E q → Ex (Added E c (k, .obj m') st) (FaultAt E (.object c tsc p m b))
        (reverseProp (unlimited E) c q e.1 e.2 st) := by
      intro hu
      unfold reverseProp
      have hel := (H.nodes (c := c) (p := some e.1) (j := e.2) (fm := false)
        (Nat.le_trans (Nat.le_of_lt (depth_obj he)) hn) (key_not_reverse ht)).errs
        fun x hx => FaultAt.under (.reverse (tsc := tsc) (p := p) (b := b) hm hk he ht hu) hx
      refine hel.bind fun x _ hx => ?_
      split
      · exact .same fun kw => insertProp_keywords kw
      · rename_i hr
        refine addReverse_fault hx (fun h => .here (.reverseValue hm hk he ht hu (fun d hd => ?_) h)) hadd
        rw [hd] at hr
        exact Bool.eq_false_iff.2 hr
    split
    · rename_i hcol
      have hcol := List.contains_iff_mem.1 hcol
      split
      · rename_i hv
        exact main ⟨hcol, fun h => by rw [hv] at h; cases h⟩
      · rename_i hv
        split
        · rename_i hi
          exact main ⟨hcol, fun _ => hi⟩
        · exact .refl
        · rename_i hi
          exact bad (.inl hi) (fun kw h => by cases h) fun i h => by
            cases h; exact .inr ⟨hi, Bool.eq_false_iff.2 hv⟩
    · rename_i hc
      split
      · rename_i hi
        exact bad (pol (x := true) hi) (fun kw h => by cases h) fun i h => by
          cases h; exact .inl fun h => hc (List.contains_iff_mem.2 h)
      · exact .refl
  · rename_i h1 h2
    split
    · rename_i hi
      exact bad (pol (x := true) hi) h1 fun i h => absurd h (h2 i)
    · exact .refl

theorem keyType_fault {c tsc : ACtx} {p : Option Str} {m : List (Str × Json)} {b : Bool} {k : Str} {v x : Json} {st : XState}
    (hm : (k, v) ∈ m) (hk : KeyMeans E c k (.keyword .type)) (hx : x ∈ forceArray v) :
    Ex (Added E c (k, v) st) (FaultAt E (.object c tsc p m b)) (keyType1 E tsc st x) := by
  have hx : x ∈ itemsIn v := forceArray_items v ▸ hx
  have hadd : ∀ i, Added E c (k, v) st { st with node := st.node.pushType i } := fun i =>
    .only (k := .type) (.here (List.mem_singleton.2 rfl) hk) fun kw hkw => by
      obtain ⟨⟨x, i, ty, g, inc, ps, rv⟩, hv⟩ := st
      cases kw <;> first | rfl | exact absurd rfl hkw
  unfold keyType1
  split
  · refine (xIri_fault (.type hm hk hx)).bind fun t heq ht => ?_
    clear heq
    split
    · exact .refl
    · split
      · exact hadd _
      · exact .refl
      · rename_i hi
        exact .here (.typeName hm hk hx ht fun i h => by cases h; exact ⟨hi, rfl⟩)
    · exact hadd _
    · rename_i t' _ hni
      exact .here (.typeName hm hk hx ht fun i h => absurd h (hni i))
  · rename_i hn
    exact .here (.type hm hk hx fun s hs => hn s hs)

/-- What an error of the entries of an object means, when the keywords `G` are already there. -/
def EntryErr (E : XEnv) (c tsc : ACtx) (p : Option Str) (m : List (Str × Json)) (b : Bool) (G : Keyword → Prop)
    (e : XErr) : Prop :=
  FaultAt E (.object c tsc p m b) e ∨
    e = .collidingKeywords ∧ ∃ kw, Single E kw ∧ (HasTwo E kw c m ∨ G kw ∧ HasEntry E kw c m)

/-- The hypothesis for entries of nested objects. -/
def EntOK (E : XEnv) (n : Nat) : Prop :=
  ∀ (c tsc : ACtx) (p : Option Str) (m : List (Str × Json)) (b : Bool) (es : List XEntry) (G : Keyword → Prop) (st : XState),
    (∀ e ∈ m, e.2.depth ≤ n) → p ≠ some "@reverse".toList → EntriesOf E c m es →
    (b = false → ∀ e ∈ es, e.term ≠ .keyword .value) → (∀ kw, st.node.hasKeyword kw = true → G kw) →
    Ex (fun st' => ∀ kw, st'.node.hasKeyword kw = true → G kw ∨ HasEntry E kw c m) (EntryErr E c tsc p m b G)
      (entriesBody E (unlimited E) st c tsc p es)

theorem hasEntry_mono {kw : Keyword} {c : ACtx} {m m' : List (Str × Json)} (h : HasEntry E kw c m)
    (hs : ∀ e ∈ m, e ∈ m') : HasEntry E kw c m' := by
  cases h with
  | here hm hk => exact .here (hs _ hm) hk
  | reverse hm hd hr hk => exact .reverse (hs _ hm) hd hr hk
  | nest hm hk hi hw h => exact .nest (hs _ hm) hk hi hw h

/-- One entry of an object. -/
theorem entryStep_fault {n : Nat} (H : ElemOK E n) (HN : ∀ n', n = n' + 1 → EntOK E n') {c tsc : ACtx}
    {p : Option Str} {m : List (Str × Json)} {b : Bool} {e : XEntry} {st : XState} {G : Keyword → Prop}
    (hp : p ≠ some "@reverse".toList) (hm : (e.key, e.value) ∈ m) (hn : e.value.depth ≤ n)
    (hk : KeyMeans E c e.key e.term) (hval : b = false → e.term ≠ .keyword .value)
    (hG : ∀ kw, st.node.hasKeyword kw = true → G kw) :
    Ex (fun st' => ∀ kw, st'.node.hasKeyword kw = true → G kw ∨ HasEntry E kw c [(e.key, e.value)])
      (fun x => FaultAt E (.object c tsc p m b) x ∨ x = .collidingKeywords ∧ ∃ kw, Single E kw ∧
        (HasTwo E kw c m ∨ G kw ∧ HasEntry E kw c [(e.key, e.value)]))
      (entryStep E (unlimited E) c tsc p st e) := by
  obtain ⟨key, t, v⟩ := e
  dsimp only at hm hn hk hval ⊢
  have one : ∀ {r : Except XErr XState}, Ex (Added E c (key, v) st) (FaultAt E (.object c tsc p m b)) r →
      Ex (fun st' => ∀ kw, st'.node.hasKeyword kw = true → G kw ∨ HasEntry E kw c [(key, v)])
      (fun x => FaultAt E (.object c tsc p m b) x ∨ x = .collidingKeywords ∧ ∃ kw, Single E kw ∧
        (HasTwo E kw c m ∨ G kw ∧ HasEntry E kw c [(key, v)])) r := fun h =>
    h.weaken (fun st' h kw hkw => (h kw hkw).imp (hG kw) id) fun _ => .inl
  have self : (key, v) ∈ [(key, v)] := List.mem_singleton.2 rfl
  unfold entryStep
  dsimp only
  split
  · exact fun kw h => .inl (hG kw h)
  · exact fun kw h => .inl (hG kw h)
  · rename_i k _
    rw [if_neg hp]
    split
    · rename_i hc
      simp only [Bool.and_eq_true, Bool.or_eq_true, decide_eq_true_eq] at hc
      exact .inr ⟨rfl, k, hc.1, .inr ⟨hG k hc.2, .here self hk⟩⟩
    · clear * - H HN hp hm hn hk hval hG one self
      unfold keywordEntry
      split
      · refine one ?_
        unfold keyId
        split
        · exact xIri_free.map fun t _ _ => .only (k := .id) (.here self hk) fun kw hkw => by
            obtain ⟨⟨x, i, ty, g, inc, ps, rv⟩, hv⟩ := st
            cases kw <;> first | rfl | exact absurd rfl hkw
        · rename_i hs
          exact .here (.id hm hk fun s h => hs s h)
      · refine one ?_
        exact Ex.foldlM (P := Added E c (key, v) st) (fun x hx s hs =>
          (keyType_fault hm hk hx).mono fun s' hs' => hs.trans hs') .refl
      · refine one ?_
        unfold keyGraph
        have := (H c (some "@graph".toList) v false hn (by decide)).errs fun x hx =>
          FaultAt.under (.graph (tsc := tsc) (p := p) (b := b) hm hk) hx
        exact this.map fun x _ _ => .only (k := .graph) (.here self hk) fun kw hkw => by
            obtain ⟨⟨x, i, ty, g, inc, ps, rv⟩, hv⟩ := st
            cases kw <;> first | rfl | exact absurd rfl hkw
      · refine one ?_
        unfold keyIncluded
        split
        · exact .refl
        · rename_i hmode
          have hmode : E.opts.mode = .v11 := by
            cases h : E.opts.mode with
            | v10 => exact absurd h hmode
            | v11 => rfl
          have := (H.nodes (c := c) (p := some "@included".toList) (j := v) (fm := false) hn (by decide)).errs
            fun x hx => FaultAt.under (.included (tsc := tsc) (p := p) (b := b) hm hk hmode) hx
          refine this.bind fun x _ hx => ((asNodes_fault hx).errs ?_).map fun ns _ _ =>
            .only (k := .included) (.here self hk) fun kw hkw => ?_
          · rintro x ⟨rfl, hx⟩
            exact .here (.included hm hk hmode hx)
          · obtain ⟨⟨x, i, ty, g, inc, ps, rv⟩, hv⟩ := st
            cases kw <;> first | rfl | exact absurd rfl hkw
      · exact one (.refl (E := E))
      · exact one (.refl (E := E))
      · refine one ?_
        unfold keyIndex
        split
        · exact .same fun kw => by
            obtain ⟨⟨x, i, ty, g, inc, ps, rv⟩, hv⟩ := st
            cases kw <;> rfl
        · rename_i hs
          exact .here (.index hm hk fun s h => hs s h)
      · refine one ?_
        unfold keyReverse
        split
        · exact Ex.foldlM (P := Added E c (key, _) st) (fun x hx s hs =>
            (reverseStep_fault H hm hn hk (mem_ordered hx)).mono fun s' hs' => hs.trans hs') .refl
        · rename_i hs
          exact .here (.reverse hm hk fun s h => hs s h)
      · -- nested objects
        have items : ∀ (l₁ l : List Json) (s : XState), itemsIn v = l₁ ++ l →
            (∀ kw, s.node.hasKeyword kw = true → G kw ∨ NestHasEntry E kw c key l₁) →
            Ex (fun st' => ∀ kw, st'.node.hasKeyword kw = true → G kw ∨ NestHasEntry E kw c key (l₁ ++ l))
              (fun x => FaultAt E (.object c tsc p m b) x ∨ x = .collidingKeywords ∧ ∃ kw, Single E kw ∧
                (HasTwo E kw c m ∨ G kw ∧ HasEntry E kw c [(key, v)]))
              (l.foldlM (nestStep E (unlimited E) c tsc p key) s) := by
          intro l₁ l
          induction l generalizing l₁ with
          | nil => intro s _ hs; rw [List.append_nil]; exact hs
          | cons x l ih =>
            intro s hv hs
            rw [List.foldlM_cons]
            have hx : x ∈ itemsIn v := by rw [hv]; simp
            have step : Ex (fun st' => ∀ kw, st'.node.hasKeyword kw = true → G kw ∨ NestHasEntry E kw c key (l₁ ++ [x]))
                (fun x => FaultAt E (.object c tsc p m b) x ∨ x = .collidingKeywords ∧ ∃ kw, Single E kw ∧
                  (HasTwo E kw c m ∨ G kw ∧ HasEntry E kw c [(key, v)]))
                (nestStep E (unlimited E) c tsc p key s x) := by
              unfold nestStep
              refine (scopedCtx_fault.errs ?_).bind fun c' _ hc' => ?_
              · rintro e ⟨t, l, y, hd, hl, hx, rfl⟩
                exact .inl (.here (.process (.nest hm hk hd hl) hx))
              · split
                · rename_i m'
                  have hu : Under E (.object c tsc p m b) (.object c' tsc p m' true) := .nest hm hk hx hc'
                  refine ((xEntries_of (pl := .object c' tsc p m' true) fun e he => .key (mem_ordered he)).errs
                    fun _ h => .inl (.under hu h)).bind fun es _ hes => ?_
                  rw [C49_unfold_entries]
                  obtain ⟨n', rfl⟩ : ∃ n', n = n' + 1 := ⟨n - 1, by have := depth_pos v; omega⟩
                  have hd : (Json.obj m').depth ≤ n' + 1 :=
                    Nat.le_trans (depth_forceArray (forceArray_items v ▸ hx)) hn
                  have hof : EntriesOf E c' m' es := by
                    obtain ⟨⟨h1, r, h2⟩, _⟩ := hes
                    exact ⟨h1, r, (sortIf_perm _ _ _).symm.trans h2⟩
                  have hrec := HN n' rfl c' tsc p m' true es (fun kw => G kw ∨ NestHasEntry E kw c key l₁) s
                    (fun e he => Nat.le_of_lt_succ (Nat.lt_of_lt_of_le (depth_obj he) hd)) hp hof nofun hs
                  have hone : ∀ kw, HasEntry E kw c' m' → HasEntry E kw c [(key, v)] := fun kw h =>
                    .nest self hk hx hc' h
                  refine hrec.weaken (fun st' h kw hkw => ?_) fun e he => ?_
                  · rcases h kw hkw with (h | ⟨m2, c2, h1, h2, h3⟩) | h
                    · exact .inl h
                    · exact .inr ⟨m2, c2, by simp [h1], h2, h3⟩
                    · exact .inr ⟨m', c', by simp, hc', h⟩
                  · rcases he with he | ⟨rfl, kw, hsg, h | ⟨h | h, h'⟩⟩
                    · exact .inl (.under hu he)
                    · exact .inr ⟨rfl, kw, hsg, .inl (.nest hm hk hx hc' h)⟩
                    · exact .inr ⟨rfl, kw, hsg, .inr ⟨h, hone kw h'⟩⟩
                    · exact .inr ⟨rfl, kw, hsg, .inl (.items hm hk hv h ⟨m', c', by simp, hc', h'⟩)⟩
                · rename_i hs
                  exact .inl (.here (.nest hm hk hx fun s h => hs s h))
            cases hr : nestStep E (unlimited E) c tsc p key s x with
            | error e => rw [hr] at step; exact step
            | ok s' =>
              rw [hr] at step
              have := ih (l₁ ++ [x]) s' (by rw [hv]; simp) step
              rw [List.append_assoc] at this
              exact this
        rw [forceArray_items]
        refine (items [] (itemsIn v) st rfl fun kw h => .inl (hG kw h)).mono fun st' h kw hkw => ?_
        refine (h kw hkw).imp id fun ⟨m2, c2, h1, h2, h3⟩ => .nest self hk h1 h2 h3
      · cases b with
        | false => exact absurd rfl (hval rfl)
        | true => exact .inl (.here (.nestedValue hm hk))
      · exact one (.refl (E := E))
  · rename_i q
    refine one ?_
    split
    · rename_i hc
      exact idEntry_fault H hm hn hk (List.contains_iff_mem.1 hc)
    · rename_i hc
      have hc : ':' ∉ q.str := fun h => hc (List.contains_iff_mem.2 h)
      unfold plainEntry
      split
      · rename_i h
        simp only [Bool.and_eq_true, Bool.not_eq_true', decide_eq_true_eq] at h
        exact .here (.key hm hk (.inl ⟨h.2, h.1⟩))
      · split
        · rename_i h
          exact .here (.key hm hk (.inr ⟨by simpa using h, hc⟩))
        · exact .refl

theorem entries_fault {n : Nat} (H : ElemOK E n) (HN : ∀ n', n = n' + 1 → EntOK E n') : EntOK E n := by
  intro c tsc p m b es G st hn hp hes hval hG
  unfold entriesBody
  have main : ∀ (l₁ l : List XEntry) (s : XState), es = l₁ ++ l →
      (∀ kw, s.node.hasKeyword kw = true → G kw ∨ ∃ e ∈ l₁, HasEntry E kw c [(e.key, e.value)]) →
      Ex (fun st' => ∀ kw, st'.node.hasKeyword kw = true → G kw ∨ HasEntry E kw c m) (EntryErr E c tsc p m b G)
        (l.foldlM (entryStep E (unlimited E) c tsc p) s) := by
    intro l₁ l
    induction l generalizing l₁ with
    | nil =>
      intro s he hs kw hkw
      refine (hs kw hkw).imp id fun ⟨e, he', h⟩ => hasEntry_mono h fun x hx => ?_
      rw [List.mem_singleton.1 hx]
      exact hes.mem (by rw [he]; simp [he'])
    | cons e l ih =>
      intro s he hs
      rw [List.foldlM_cons]
      have hmem : e ∈ es := by rw [he]; simp
      have step := entryStep_fault H HN (tsc := tsc) (b := b) (e := e) (st := s) hp (hes.mem hmem)
        (hn _ (hes.mem hmem)) (hes.means e hmem) (fun h => hval h e hmem) hs
      cases hr : entryStep E (unlimited E) c tsc p s e with
      | ok s' =>
        rw [hr] at step
        refine ih (l₁ ++ [e]) s' (by rw [he]; simp) fun kw hkw => ?_
        rcases step kw hkw with (h | ⟨e', h1, h2⟩) | h
        · exact .inl h
        · exact .inr ⟨e', by simp [h1], h2⟩
        · exact .inr ⟨e, by simp, h⟩
      | error x =>
        rw [hr] at step
        rcases step with h | ⟨rfl, kw, hsg, h | ⟨h | ⟨e', h1, h2⟩, h'⟩⟩
        · exact .inl h
        · exact .inr ⟨rfl, kw, hsg, .inl h⟩
        · exact .inr ⟨rfl, kw, hsg, .inr ⟨h, hasEntry_mono h' fun x hx => by
            rw [List.mem_singleton.1 hx]; exact hes.mem hmem⟩⟩
        · refine .inr ⟨rfl, kw, hsg, .inl ?_⟩
          obtain ⟨r, hr⟩ := hes.perm
          obtain ⟨la, lb, hab⟩ := List.append_of_mem h1
          obtain ⟨l', hl'⟩ : ∃ l', l₁.Perm (e' :: l') := ⟨la ++ lb, by rw [hab]; exact List.perm_middle⟩
          have h3 : m.Perm ((e'.key, e'.value) :: (e.key, e.value) ::
              ((l' ++ l).map (fun e => (e.key, e.value)) ++ r)) := by
            refine hr.trans ?_
            have : es.Perm (e' :: e :: (l' ++ l)) := by
              rw [he]
              refine (hl'.append_right _).trans ?_
              exact List.Perm.cons _ List.perm_middle
            exact (this.map _).append_right r
          exact .entries h3 h2 h'
  exact main [] es st rfl fun kw h => .inl (hG kw h)

/-! ## Elements -/

theorem listIndex_fault {c tsc : ACtx} {p : Option Str} {m : List (Str × Json)} {k : Str} {v : Json}
    (hp : p ≠ none) (hg : p ≠ some "@graph".toList) (hm : (k, v) ∈ m) (hk : KeyMeans E c k (.keyword .list)) :
    ∀ {es : List XEntry} {i : Option Str}, (∀ e ∈ es, (e.key, e.value) ∈ m ∧ KeyMeans E c e.key e.term) →
    Ex (fun _ => True) (FaultAt E (.object c tsc p m false)) (listIndex i es) := by
  intro es
  induction es with
  | nil => intro i _; trivial
  | cons e es ih =>
    intro i hes
    have ih := fun i => ih (i := i) fun e he => hes e (by simp [he])
    have he := hes e (by simp)
    unfold listIndex
    split
    · rename_i ht
      rw [ht] at he
      split
      · exact ih _
      · rename_i hs
        exact .here (.index he.1 he.2 fun s h => hs s h)
    · exact ih _
    · rename_i h1 h2
      exact .here (.list hp hg hm hk he.1 he.2 h2 h1)

theorem elem_fault {n : Nat} (H : ElemOK E n) (HN : EntOK E n) : ElemOK E (n + 1) := by
  intro c p j fm hj hp
  rw [C49_unfold]
  unfold elemBody
  split
  · trivial
  · rename_i l
    unfold elemArr xItems
    refine Ex.map (Q := fun r => ∀ b ∈ r, True) (Ex.collectM fun x hx => ?_) fun _ _ _ => trivial
    exact ((H c p x fm (Nat.le_of_lt_succ (Nat.lt_of_lt_of_le (depth_arr hx) hj)) hp).errs
      fun e he => .under (.item hx) he).map fun _ _ _ _ _ => trivial
  · rename_i m
    have hdep : ∀ e ∈ m, e.2.depth ≤ n := fun e he =>
      Nat.le_of_lt_succ (Nat.lt_of_lt_of_le (depth_obj he) hj)
    unfold elemObj
    refine objContext_fault.bind fun tsc _ htsc => ?_
    refine (typeEntries_fault fun e he => .typeKey htsc he).bind fun tes _ htes => ?_
    refine (typeScoped_fault htsc htes).bind fun c' _ hc' => ?_
    clear * - H HN hp hdep htsc htes hc'
    have hit : Ex (fun it => it = some (.keyword .json) → ∃ t, WrittenType E tsc m t ∧ KeyMeans E c' t (.keyword .json))
        (FaultAt E (.object c' tsc p m false)) (inputType E c' tes) := by
      unfold inputType
      split
      · exact nofun
      · rename_i e r
        split
        · rename_i s hs
          have hw : WrittenType E tsc m s := ⟨e.1, e.2, (htes e (by simp)).1, (htes e (by simp)).2, by
            rw [← forceArray_items]; exact List.mem_of_getLast? hs⟩
          refine (xKey_fault (.inputType hw)).mono fun t ht h => ⟨s, hw, ?_⟩
          rw [h] at ht; exact ht
        · exact nofun
    refine Ex.errs (X := FaultAt E (.object c' tsc p m false)) ?_ fun e he => .under hc' he
    refine hit.bind fun it _ hit => ?_
    refine (xEntries_of fun e he => .key he).bind fun es heq hes => ?_
    obtain ⟨hof, hall⟩ := hes
    have hboth : ∀ e ∈ es, (e.key, e.value) ∈ m ∧ KeyMeans E c' e.key e.term := fun e he =>
      ⟨hof.mem he, hof.means e he⟩
    rcases elemKind_cases (E := E) (unlimited E) c' tsc p it es with
      ⟨v, ⟨hp', hg, hl⟩, hk⟩ | ⟨v, hl, hk⟩ | ⟨v, hl, hk⟩ | ⟨hv, hk⟩
    · rw [hk]
      obtain ⟨k, hm, hkm⟩ := lastEntry_entry heq hl
      unfold elemList
      refine (listIndex_fault hp' hg hm hkm hboth).bind fun i _ _ => ?_
      unfold xItems
      refine Ex.map (Q := fun r => ∀ b ∈ r, True) (Ex.collectM fun x hx => ?_) fun _ _ _ => trivial
      exact ((H c' p x false (Nat.le_trans (depth_forceArray hx) (hdep _ hm)) hp).errs
        fun e he => .under (.list hp' hg hm hkm (forceArray_items v ▸ hx)) he).map fun _ _ _ _ _ => trivial
    · rw [hk]
      obtain ⟨k, hm, hkm⟩ := lastEntry_entry heq hl
      have hset : Ex (fun _ => True) (FaultAt E (.object c' tsc p m false)) (setEntries es) := by
        unfold setEntries
        split
        · trivial
        · rename_i hn
          rw [List.all_eq_true] at hn
          push Not at hn
          obtain ⟨e, he, hne⟩ := hn
          simp only [Bool.or_eq_true, decide_eq_true_eq, not_or, ne_eq] at hne
          exact .here (.set hm hkm (hboth e he).1 (hboth e he).2 hne.2 hne.1)
      refine hset.bind fun _ _ _ => ?_
      exact (H c' p v false (hdep _ hm) hp).errs fun e he => .under (.set hm hkm) he
    · rw [hk]
      exact elemValue_fault hof hall hit (lastEntry_entry heq hl)
    · rw [hk]
      unfold expandNode
      refine Ex.map (Q := fun _ => True) ?_ fun _ _ _ => trivial
      have := HN c' tsc p m false es (fun _ => False) ⟨.mk none none none none none [] none, false⟩ hdep hp hof
        (fun _ e he ht => ?_) (fun kw h => by cases kw <;> cases h)
      · refine this.weaken (fun _ _ => trivial) fun e he => ?_
        rcases he with he | ⟨rfl, kw, hsg, h | h⟩
        · exact he
        · exact .here (.colliding hsg h)
        · exact h.1.elim
      · unfold lastEntry at hv
        rw [Option.map_eq_none_iff, List.getLast?_eq_none_iff, List.filter_eq_nil_iff] at hv
        exact hv e he (decide_eq_true ht)
  · exact elemScalar_fault (.str _)
  · exact elemScalar_fault (.num _)
  · exact elemScalar_fault (.bool _)

theorem all_faults (n : Nat) : ElemOK E n ∧ EntOK E n := by
  induction n with
  | zero =>
    have h : ElemOK E 0 := fun c p j fm hj => absurd (depth_pos j) (by omega)
    exact ⟨h, entries_fault h fun n' h => by omega⟩
  | succ n ih =>
    have h := elem_fault ih.1 ih.2
    exact ⟨h, entries_fault h fun n' h => by cases h; exact ih.2⟩

theorem expandDoc_fault {c : ACtx} {j : Json} {e : XErr} (h : expandDoc E c j = .error e) : Faulty E c j e := by
  have := (all_faults (E := E) j.depth).1 c none j false (Nat.le_refl _) (by simp)
  unfold expandDoc at h
  cases hx : expandElement E c none j false with
  | ok x => rw [hx] at h; cases h
  | error x => rw [hx] at h this; cases h; exact this

end JsonLd
