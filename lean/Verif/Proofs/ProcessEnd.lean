import Verif.Proofs.ProcessFrame
import Verif.Proofs.ProcessMono
import Verif.Spec.Process
/-!
# Context processing ends
-/

namespace JsonLd
open Spec

/-- The fuel suffices. -/
structure NoFuel {α : Type} (a : Except CtxErr α) : Prop where
  out : a ≠ .error .fuel

theorem NoFuel.ok {α : Type} (a : α) : NoFuel (Except.ok a : Except CtxErr α) := ⟨nofun⟩

theorem NoFuel.bind {α β : Type} {x : Except CtxErr α} {f : α → Except CtxErr β} (h : NoFuel x)
    (hf : ∀ a, x = .ok a → NoFuel (f a)) : NoFuel (x >>= f) := by
  cases x with
  | error e => exact ⟨fun he => h.out (by cases he; rfl)⟩
  | ok a => exact hf a rfl

/-! ## Functions without calls -/

theorem expandRest_nofuel (E : ProcEnv) (s x docRel voc) : NoFuel (expandRest E s x docRel voc) := by
  unfold expandRest; split <;> exact ⟨nofun⟩

theorem expandAbs_nofuel (E : ProcEnv) (s x docRel voc) : NoFuel (expandAbs E s x docRel voc) := by
  unfold expandAbs; split
  · exact ⟨nofun⟩
  · exact expandRest_nofuel ..

theorem stepProtected_nofuel (o x prot) : NoFuel (stepProtected o x prot) := by
  unfold stepProtected
  split
  · split <;> exact ⟨nofun⟩
  · exact ⟨nofun⟩

theorem typeMapping_nofuel (o t d) : NoFuel (typeMapping o t d) := by
  unfold typeMapping
  split
  · exact ⟨nofun⟩
  · split
    · exact ⟨nofun⟩
    · split <;> exact ⟨nofun⟩

theorem reverseValue_nofuel (t d) : NoFuel (reverseValue t d) := by
  unfold reverseValue
  split
  · split <;> exact ⟨nofun⟩
  · exact ⟨nofun⟩

theorem reverseContainer_nofuel (x d) : NoFuel (reverseContainer x d) := by
  unfold reverseContainer
  split
  · exact ⟨nofun⟩
  · exact ⟨nofun⟩
  · split <;> exact ⟨nofun⟩

theorem checkMapping_nofuel (t) : NoFuel (checkMapping t) := by
  unfold checkMapping
  split
  · exact ⟨nofun⟩
  · split <;> exact ⟨nofun⟩
  · exact ⟨nofun⟩

theorem simplePrefix_nofuel (k b d) : NoFuel (simplePrefix k b d) := by
  unfold simplePrefix
  split
  · split
    · exact ⟨nofun⟩
    · split <;> exact ⟨nofun⟩
  · exact ⟨nofun⟩

theorem implicitRef_nofuel (E : ProcEnv) (c k o) : NoFuel (implicitRef E c k o) := by
  unfold implicitRef
  split
  · exact ⟨nofun⟩
  · split
    · split
      · exact ⟨nofun⟩
      · split
        · split <;> exact ⟨nofun⟩
        · exact ⟨nofun⟩
    · exact ⟨nofun⟩

theorem implicitVocab_nofuel (E : ProcEnv) (c k) : NoFuel (implicitVocab E c k) := by
  unfold implicitVocab
  split
  · split <;> exact ⟨nofun⟩
  · exact ⟨nofun⟩

theorem stepContainer_nofuel (o x d) : NoFuel (stepContainer o x d) := by
  unfold stepContainer
  split
  · exact ⟨nofun⟩
  · split
    · exact ⟨nofun⟩
    · split
      · exact ⟨nofun⟩
      · unfold typeContainer
        split
        · split <;> exact ⟨nofun⟩
        · exact ⟨nofun⟩

theorem stepIndex_nofuel (E : ProcEnv) (c o x d) : NoFuel (stepIndex E c o x d) := by
  unfold stepIndex
  split
  · exact ⟨nofun⟩
  · split
    · exact ⟨nofun⟩
    · split <;> exact ⟨nofun⟩

theorem stepNest_nofuel (o x d) : NoFuel (stepNest o x d) := by
  unfold stepNest
  split
  · exact ⟨nofun⟩
  · split <;> exact ⟨nofun⟩

theorem stepPrefix_nofuel (o k x d) : NoFuel (stepPrefix o k x d) := by
  unfold stepPrefix
  split
  · exact ⟨nofun⟩
  · split
    · exact ⟨nofun⟩
    · split
      · split
        · exact ⟨nofun⟩
        · split <;> exact ⟨nofun⟩
      · exact ⟨nofun⟩

theorem stepPropagate_nofuel (x d) : NoFuel (stepPropagate x d) := by
  unfold stepPropagate
  split <;> exact ⟨nofun⟩

theorem stepKeep_nofuel (o p d) : NoFuel (stepKeep o p d) := by
  unfold stepKeep
  split
  · exact ⟨nofun⟩
  · split
    · exact ⟨nofun⟩
    · split
      · split <;> exact ⟨nofun⟩
      · exact ⟨nofun⟩

theorem fetch_nofuel (E : ProcEnv) (u) : NoFuel (E.fetch u) := by
  unfold ProcEnv.fetch
  split <;> exact ⟨nofun⟩

theorem importOf_nofuel (E : ProcEnv) (d base o) : NoFuel (importOf E d base o) := by
  unfold importOf
  split
  · exact ⟨nofun⟩
  · split
    · exact ⟨nofun⟩
    · split
      · exact ⟨nofun⟩
      · refine (fetch_nofuel ..).bind fun l _ => ?_
        split
        · split <;> exact ⟨nofun⟩
        · exact ⟨nofun⟩

theorem stepBase_nofuel (E : ProcEnv) (m rc c) : NoFuel (stepBase E m rc c) := by
  unfold stepBase
  split
  · split
    · exact ⟨nofun⟩
    · exact ⟨nofun⟩
    · split
      · exact ⟨nofun⟩
      · split <;> exact ⟨nofun⟩
  · exact ⟨nofun⟩

theorem stepVocab_nofuel (E : ProcEnv) (m o c) : NoFuel (stepVocab E m o c) := by
  unfold stepVocab
  split
  · exact ⟨nofun⟩
  · exact ⟨nofun⟩
  · split <;> exact ⟨nofun⟩

theorem stepDefaultDirection_nofuel (m o c) : NoFuel (stepDefaultDirection m o c) := by
  unfold stepDefaultDirection
  split
  · exact ⟨nofun⟩
  · split <;> exact ⟨nofun⟩

theorem stepPropagation_nofuel (l o) : NoFuel (stepPropagation l o) := by
  unfold stepPropagation
  split
  · split
    · exact ⟨nofun⟩
    · split <;> exact ⟨nofun⟩
  · exact ⟨nofun⟩

/-! ## Definitions of terms -/

/-- The calls of `define` from states in `Q` have enough fuel and stay in `Q`. -/
structure Enough (R : Rec) (m : Merged) (rc : List Str) (Q : DState → Prop) : Prop where
  define : ∀ s, Q s → ∀ x o, NoFuel (R.define s m (.key x) rc none false o)
  next : ∀ s s' x o, Q s → R.define s m (.key x) rc none false o = .ok s' → Q s'
  finish : ∀ s t, Q s → Q (s.finish t)
  ctx : ∀ s c, Q s → Q { s with ctx := c }

section
variable {R : Rec} {E : ProcEnv} {m : Merged} {rc : List Str} {Q : DState → Prop}
  (h : Enough R m rc Q)
include h

theorem Enough.calls {o : Opts} {s s' : DState} (hs : Q s) (hc : Calls R m rc o s s') : Q s' := by
  induction hc with
  | refl => exact hs
  | step x _ hd ih => exact h.next _ _ _ _ ih hd

theorem Enough.steps {k : Str} {o : Opts} {s s' : DState} (hs : Q s) (hc : DSteps R m k rc o s s') :
    Q s' := by
  induction hc with
  | refl => exact hs
  | step x _ hd ih => exact h.next _ _ _ _ ih hd
  | finish _ ih => exact h.finish _ _ ih

theorem Enough.expandAfter {s : DState} (hs : Q s) (x docRel voc o) :
    NoFuel (expandAfter R E s x docRel voc m rc o) := by
  unfold JsonLd.expandAfter
  split
  · exact ⟨nofun⟩
  · split
    · split
      · exact ⟨nofun⟩
      · split
        · exact ⟨nofun⟩
        · unfold expandCompact
          split
          · exact expandAbs_nofuel ..
          · refine (h.define s hs _ _).bind fun s' _ => ?_
            split
            · exact ⟨nofun⟩
            · exact expandAbs_nofuel ..
    · exact expandRest_nofuel ..

theorem Enough.expandWith {s : DState} (hs : Q s) (v docRel voc o) :
    NoFuel (expandWith R E s v docRel voc m rc o) := by
  unfold JsonLd.expandWith
  split
  · exact ⟨nofun⟩
  · exact ⟨nofun⟩
  · split
    · exact ⟨nofun⟩
    · exact (h.define s hs _ _).bind fun s' hs' => h.expandAfter (h.next _ _ _ _ hs hs') ..

theorem Enough.stepType {s : DState} (hs : Q s) (x o d) : NoFuel (stepType R E s m x rc o d) := by
  unfold JsonLd.stepType
  split
  · exact ⟨nofun⟩
  · exact (h.expandWith hs ..).bind fun _ _ => (typeMapping_nofuel ..).bind fun _ _ => .ok _

theorem Enough.stepReverse {s : DState} (hs : Q s) (k x v o d) :
    NoFuel (stepReverse R E s m k x v rc o d) := by
  unfold JsonLd.stepReverse
  split
  · exact ⟨nofun⟩
  · split
    · exact ⟨nofun⟩
    · exact (h.expandWith hs ..).bind fun _ _ => (reverseValue_nofuel ..).bind fun _ _ =>
        (reverseContainer_nofuel ..).bind fun _ _ => .ok _

theorem Enough.checkTerm {s : DState} (hs : Q s) (k o d) : NoFuel (checkTerm R E s m k rc o d) := by
  unfold JsonLd.checkTerm
  split
  · refine (h.expandWith (h.finish _ _ hs) ..).bind fun _ _ => ?_
    split <;> exact ⟨nofun⟩
  · exact ⟨nofun⟩

theorem Enough.implicitId {s : DState} (hs : Q s) (k o d) : NoFuel (implicitId R E s m k rc o d) := by
  unfold JsonLd.implicitId
  have : NoFuel (implicitPrefix R E s m k rc o) := by
    unfold implicitPrefix
    split
    · exact ⟨nofun⟩
    · refine (h.define s hs _ _).bind fun s' _ => ?_
      split
      · exact ⟨nofun⟩
      · simp only
        split <;> exact ⟨nofun⟩
  refine this.bind fun r _ => ?_
  split
  · exact ⟨nofun⟩
  · refine (implicitRef_nofuel ..).bind fun w _ => ?_
    split
    · exact ⟨nofun⟩
    · exact (implicitVocab_nofuel ..).bind fun _ _ => .ok _

theorem Enough.stepId {s : DState} (hs : Q s) (k x simple o d) :
    NoFuel (stepId R E s m k x simple rc o d) := by
  unfold JsonLd.stepId
  split
  · exact ⟨nofun⟩
  · split
    · exact (h.implicitId hs ..).bind fun _ _ => .ok _
    · unfold explicitId
      split
      · exact ⟨nofun⟩
      · exact (h.expandWith hs ..).bind fun _ h1 => (checkMapping_nofuel ..).bind fun _ _ =>
          (h.checkTerm (h.calls hs (expandWith_calls h1)) ..).bind fun _ _ =>
            (simplePrefix_nofuel ..).bind fun _ _ => .ok _
  · exact (h.implicitId hs ..).bind fun _ _ => .ok _

omit h in
theorem stepRest_nofuel {x : SExp} {base : Option Str} (hx : ∀ l, x.context = some l → ∀ c o,
    NoFuel (R.process c l rc base o)) (c k o d) : NoFuel (stepRest R E c k x rc base o d) := by
  unfold stepRest
  refine (stepContainer_nofuel ..).bind fun _ _ => (stepIndex_nofuel ..).bind fun d _ =>
    NoFuel.bind ?_ fun _ _ => (stepNest_nofuel ..).bind fun _ _ => (stepPrefix_nofuel ..).bind
      fun _ _ => stepPropagate_nofuel ..
  unfold stepContext
  split
  · exact ⟨nofun⟩
  · rename_i l hl
    split
    · exact ⟨nofun⟩
    · split
      · rename_i e he
        have := hx l hl c o.withOverride
        rw [he] at this
        refine ⟨fun hf => this.out ?_⟩
        cases e <;> first | rfl | (simp only [scopedError, reduceCtorEq, Except.error.injEq] at hf)
      · exact ⟨nofun⟩

theorem Enough.defineTerm {s : DState} (hs : Q s) (k : Str) (b : Option STerm) (base : Option Str)
    (hb : ∀ l, (STerm.exp b).context = some l → ∀ c o, NoFuel (R.process c l rc base o)) (prot o) :
    NoFuel (defineTerm R E s m k b rc base prot o) := by
  unfold JsonLd.defineTerm
  refine (stepProtected_nofuel ..).bind fun d _ => (h.stepType (h.ctx _ _ hs) ..).bind fun r hr => ?_
  have hs1 := h.calls (h.ctx _ _ hs) (stepType_calls hr)
  split
  · exact h.stepReverse hs1 ..
  · unfold finishTerm
    refine (h.stepId hs1 ..).bind fun q hq => ?_
    split
    · exact ⟨nofun⟩
    · exact (stepRest_nofuel hb ..).bind fun _ _ => (stepKeep_nofuel ..).bind fun _ _ => .ok _

end

/-! ## The number of keys left -/

/-- Nothing is forgotten. -/
def Grows (s s' : DState) : Prop := ∀ t, lookupDef t s'.defd = none → lookupDef t s.defd = none

theorem Grows.trans {a b c : DState} (h : Grows a b) (h' : Grows b c) : Grows a c :=
  fun t ht => h t (h' t ht)

theorem grows_start (s : DState) (t : DKey) (b : Bool) : Grows s { s with defd := (t, b) :: s.defd } := by
  intro t' ht
  unfold lookupDef at ht
  split at ht
  · cases ht
  · exact ht

theorem grows_finish (s : DState) (t : DKey) : Grows s (s.finish t) := grows_start s t false

theorem Calls.grows {R : Rec} {m : Merged} {rc : List Str} {o : Opts}
    (hR : ∀ s s' x, R.define s m (.key x) rc none false o.noOverride = .ok s' → Grows s s')
    {s s' : DState} (h : Calls R m rc o s s') : Grows s s' := by
  induction h with
  | refl => exact fun _ h => h
  | step x _ hd ih => exact ih.trans (hR _ _ _ hd)

theorem DSteps.grows {R : Rec} {m : Merged} {k : Str} {rc : List Str} {o : Opts}
    (hR : ∀ s s' x, R.define s m (.key x) rc none false o.noOverride = .ok s' → Grows s s')
    {s s' : DState} (h : DSteps R m k rc o s s') : Grows s s' := by
  induction h with
  | refl => exact fun _ h => h
  | step x _ hd ih => exact ih.trans (hR _ _ _ hd)
  | finish _ ih => exact ih.trans (grows_finish _ _)

theorem define_grows (E : ProcEnv) (n : Nat) : ∀ (s s' : DState) (m : Merged) (t : DKey)
    (rc : List Str) (base : Option Str) (prot : Bool) (o : Opts),
    (recN E n).define s m t rc base prot o = .ok s' → Grows s s' := by
  induction n with
  | zero => intro s s' m t rc base prot o h; cases h
  | succ n ih =>
    intro s s' m t rc base prot o h
    have hR : ∀ s s' x, (recN E n).define s m (.key x) rc none false o.noOverride = .ok s' →
        Grows s s' := fun s s' x h => ih s s' m (.key x) rc none false _ h
    cases defineBody_ok h with
    | done => exact fun _ h => h
    | noType => exact (grows_start s .type true).trans (grows_start _ .type false)
    | type => exact (grows_start s .type true).trans (grows_start _ .type false)
    | absent k => exact (grows_start s (.key k) true).trans (grows_start _ (.key k) false)
    | term k b s' hl hk hb hr =>
      refine (grows_start s (.key k) true).trans ?_
      cases hr with
      | reverseKeyword d0 s1 d1 v h0 h1 => exact (stepType_calls h1).grows hR
      | reverse d0 s1 d1 v s2 t d2 d3 h0 h1 _ _ _ _ h2 =>
        exact (((stepType_calls h1).grows hR).trans ((expandWith_calls h2).grows hR)).trans
          (grows_start _ _ false)
      | idKeyword d0 s1 d1 i h0 h1 => exact (stepType_calls h1).grows hR
      | full d0 s1 d1 s2 d2 d3 d4 h0 h1 _ h2 =>
        exact (((stepType_calls h1).grows hR).trans ((stepId_steps h2).grows hR)).trans
          (grows_start _ _ false)

/-- The number of bindings not started yet. -/
def unstarted (m : Merged) (s : DState) : Nat :=
  m.bindings.countP fun b => (lookupDef (.key b.1) s.defd).isNone

theorem unstarted_grows {m : Merged} {s s' : DState} (h : Grows s s') : unstarted m s' ≤ unstarted m s := by
  refine List.countP_mono_left fun b _ hb => ?_
  simp only [Option.isNone_iff_eq_none] at hb ⊢
  exact h _ hb

theorem lookupKey_mem {α : Type} {k : Str} {m : List (Str × α)} {v : α} (h : lookupKey k m = some v) :
    (k, v) ∈ m := by
  induction m with
  | nil => cases h
  | cons p m ih =>
    unfold lookupKey at h
    split at h
    · rename_i hk
      cases h
      exact List.mem_cons.2 (.inl (by rw [← hk]))
    · exact List.mem_cons_of_mem _ (ih h)

theorem binding_mem {m : Merged} {k : Str} {b : Option STerm} (h : m.binding k = some b) :
    (k, b) ∈ m.bindings := by
  unfold Merged.binding at h
  rw [Option.or_eq_some_iff] at h
  unfold Merged.bindings
  rw [List.mem_append]
  rcases h with h | ⟨h1, h2⟩
  · exact .inr (lookupKey_mem h)
  · left
    cases hi : m.imported with
    | none => rw [hi] at h2; cases h2
    | some i =>
      rw [hi] at h2
      simp only [List.mem_filter]
      exact ⟨lookupKey_mem h2, by simp [h1]⟩

theorem countP_lt {α : Type} {p q : α → Bool} {l : List α} (hpq : ∀ x ∈ l, p x = true → q x = true)
    {a : α} (ha : a ∈ l) (hp : p a = false) (hq : q a = true) : l.countP p < l.countP q := by
  induction l with
  | nil => cases ha
  | cons b l ih =>
    have hm := List.countP_mono_left fun x hx => hpq x (List.mem_cons_of_mem _ hx)
    rw [List.countP_cons, List.countP_cons]
    rcases List.mem_cons.1 ha with rfl | ha
    · simp [hp, hq]; omega
    · have := ih (fun x hx => hpq x (List.mem_cons_of_mem _ hx)) ha
      have hb := hpq b (List.mem_cons_self ..)
      by_cases h1 : p b = true
      · simp [h1, hb h1]; omega
      · simp [h1]; omega

theorem unstarted_start {m : Merged} {s : DState} {k : Str} {b : Option STerm} (hb : m.binding k = some b)
    (hl : lookupDef (.key k) s.defd = none) :
    unstarted m { s with defd := (.key k, true) :: s.defd } < unstarted m s := by
  refine countP_lt (a := (k, b)) (fun x _ hx => ?_) (binding_mem hb) ?_ ?_
  · simp only [Option.isNone_iff_eq_none] at hx ⊢
    exact grows_start s (.key k) true _ hx
  · simp [lookupDef]
  · simp [hl]

/-- Definitions end if the scoped contexts do. -/
theorem define_ends (E : ProcEnv) (m : Merged) (rc : List Str) (base : Option Str) (N : Nat)
    (hN : ∀ k b, (k, b) ∈ m.bindings → ∀ l, (STerm.exp b).context = some l → ∀ n, N ≤ n → ∀ c o,
      NoFuel ((recN E n).process c l rc base o) ∧ NoFuel ((recN E n).process c l rc none o)) :
    ∀ (j : Nat) (s : DState) (t : DKey) (base' : Option Str) (prot : Bool) (o : Opts) (n : Nat),
      unstarted m s ≤ j → N + j + 1 ≤ n → (base' = base ∨ base' = none) →
      NoFuel ((recN E n).define s m t rc base' prot o) := by
  intro j
  induction j with
  | zero =>
    intro s t base' prot o n hj hn hb
    obtain ⟨n, rfl⟩ : ∃ n', n = n' + 1 := ⟨n - 1, by omega⟩
    show NoFuel (defineBody (recN E n) E s m t rc base' prot o)
    unfold defineBody DState.start
    cases hl : lookupDef t s.defd with
    | some b => cases b <;> exact ⟨nofun⟩
    | none =>
      simp only
      unfold defineNew
      cases t with
      | type =>
        simp only
        split
        · exact ⟨nofun⟩
        · unfold defineType
          split <;> exact ⟨nofun⟩
      | key k =>
        simp only
        split
        · exact ⟨nofun⟩
        · split
          · exact ⟨nofun⟩
          · rename_i b hb'
            have := unstarted_start hb' hl
            omega
  | succ j ih =>
    intro s t base' prot o n hj hn hb
    obtain ⟨n, rfl⟩ : ∃ n', n = n' + 1 := ⟨n - 1, by omega⟩
    show NoFuel (defineBody (recN E n) E s m t rc base' prot o)
    unfold defineBody DState.start
    cases hl : lookupDef t s.defd with
    | some b => cases b <;> exact ⟨nofun⟩
    | none =>
      simp only
      unfold defineNew
      cases t with
      | type =>
        simp only
        split
        · exact ⟨nofun⟩
        · unfold defineType
          split <;> exact ⟨nofun⟩
      | key k =>
        simp only
        split
        · exact ⟨nofun⟩
        · split
          · exact ⟨nofun⟩
          · rename_i b hb'
            have := unstarted_start hb' hl
            have hE : Enough (recN E n) m rc fun s => unstarted m s ≤ j :=
              ⟨fun s hs x o => ih s _ none false o n hs (by omega) (.inr rfl),
                fun s s' x o hs hd => Nat.le_trans (unstarted_grows (define_grows E n _ _ _ _ _ _ _ _ hd)) hs,
                fun s t hs => Nat.le_trans (unstarted_grows (grows_finish s t)) hs, fun s c hs => hs⟩
            refine hE.defineTerm (by omega) k b base' (fun l hl c o => ?_) prot o
            have h3 := hN k b (binding_mem hb') l hl n (by omega) c o
            rcases hb with rfl | rfl
            · exact h3.1
            · exact h3.2

theorem defineAll_ends {R : Rec} {m : Merged} {rc : List Str} {base : Option Str} {prot : Bool} {o : Opts}
    (hR : ∀ s t, NoFuel (R.define s m t rc base prot o)) (bs : List (Str × Option STerm)) (s : DState) :
    NoFuel (defineAll R m rc base prot o bs s) := by
  induction bs generalizing s with
  | nil => exact ⟨nofun⟩
  | cons b bs ih =>
    unfold defineAll
    exact (hR ..).bind fun s' _ => ih s'

/-! ## Contexts -/

theorem exists_bound {α : Type} {P : α → Nat → Prop} (l : List α)
    (h : ∀ x ∈ l, ∃ N, ∀ n, N ≤ n → P x n) : ∃ N, ∀ x ∈ l, ∀ n, N ≤ n → P x n := by
  induction l with
  | nil => exact ⟨0, nofun⟩
  | cons a l ih =>
    obtain ⟨N1, h1⟩ := h a (List.mem_cons_self ..)
    obtain ⟨N2, h2⟩ := ih fun x hx => h x (List.mem_cons_of_mem _ hx)
    refine ⟨max N1 N2, fun x hx n hn => ?_⟩
    rcases List.mem_cons.1 hx with rfl | hx
    · exact h1 n (by omega)
    · exact h2 x hx n (by omega)

theorem unstarted_le (m : Merged) (s : DState) : unstarted m s ≤ m.bindings.length :=
  List.countP_le_length ..

theorem merged_scoped {E : ProcEnv} {base : Option Str} {o : Opts} {d : SDef} {i : Option SDef}
    (hi : importOf E d base o = .ok i) {k : Str} {b : Option STerm}
    (hb : (k, b) ∈ Merged.bindings ⟨d, i⟩) {l : SCtx} (hl : (STerm.exp b).context = some l) :
    ∃ d', (d' = d ∨ Imports E base d d') ∧ ScopedIn l d' := by
  have hx : ∃ x, b = some (.expanded x) ∧ x.context = some l := by
    match b with
    | none => cases hl
    | some (.simple s) => cases hl
    | some (.expanded x) => exact ⟨x, rfl, hl⟩
  obtain ⟨x, rfl, hx⟩ := hx
  unfold Merged.bindings at hb
  rw [List.mem_append] at hb
  rcases hb with hb | hb
  · rcases importOf_ok hi with ⟨rfl, _⟩ | ⟨r, u, i', rfl, h1, h2, h3, _⟩
    · cases hb
    · exact ⟨i', .inr ⟨r, u, h1, h2, h3⟩, k, x, (List.mem_filter.1 hb).1, hx⟩
  · exact ⟨d, .inl rfl, k, x, hb, hx⟩

theorem importOf_mode {E : ProcEnv} {base : Option Str} {d : SDef} {o o' : Opts} {i i' : Option SDef}
    (h : importOf E d base o = .ok i) (h' : importOf E d base o' = .ok i') : i = i' := by
  rcases importOf_ok h with ⟨rfl, h1⟩ | ⟨r, u, j, rfl, h1, h2, h3, _⟩ <;>
    rcases importOf_ok h' with ⟨rfl, h1'⟩ | ⟨r', u', j', rfl, h1', h2', h3', _⟩
  · rfl
  · rw [h1] at h1'; cases h1'
  · rw [h1] at h1'; cases h1'
  · rw [h1] at h1'
    cases h1'
    rw [h2] at h2'
    cases h2'
    rw [h3] at h3'
    cases h3'
    rfl

/-- Each definition has a bound. -/
theorem processDef_ends (E : ProcEnv) (base : Option Str) (d : SDef) (C : List Str → Prop)
    (h : ∀ i l, (i = d ∨ Imports E base d i) → ScopedIn l i → ∃ N, ∀ n, N ≤ n → ∀ rc, C rc → ∀ c o,
      NoFuel ((recN E n).process c l rc base o) ∧ NoFuel ((recN E n).process c l rc none o)) :
    ∃ N, ∀ n, N ≤ n → ∀ rc, C rc → ∀ c o, NoFuel (processDef (recN E n) E c d rc base o) := by
  by_cases hi : ∃ o i, importOf E d base o = .ok i
  · obtain ⟨o, i, hi⟩ := hi
    have hB : ∃ N, ∀ b ∈ Merged.bindings ⟨d, i⟩, ∀ n, N ≤ n → ∀ l, (STerm.exp b.2).context = some l →
        ∀ rc, C rc → ∀ c o, NoFuel ((recN E n).process c l rc base o) ∧
          NoFuel ((recN E n).process c l rc none o) := by
      refine exists_bound _ fun b hb => ?_
      cases hl : (STerm.exp b.2).context with
      | none => exact ⟨0, fun n _ l hl' => nomatch hl'⟩
      | some l =>
        obtain ⟨d', hd', hs⟩ := merged_scoped hi (k := b.1) (b := b.2) hb hl
        obtain ⟨N, hN⟩ := h d' l hd' hs
        exact ⟨N, fun n hn l' hl' => by cases hl'; exact hN n hn⟩
    obtain ⟨N, hN⟩ := hB
    refine ⟨N + (Merged.bindings ⟨d, i⟩).length + 1, fun n hn rc hrc c o' => ?_⟩
    unfold processDef
    split
    · exact ⟨nofun⟩
    · refine (importOf_nofuel ..).bind fun i' hi' => ?_
      cases importOf_mode hi hi'
      have hd (s t prot) : NoFuel ((recN E n).define s ⟨d, i⟩ t rc base prot o') :=
        define_ends E ⟨d, i⟩ rc base N (fun k b hb l hl n hn c o => hN (k, b) hb n hn l hl rc hrc c o) _ s t
          base prot o' n (unstarted_le _ _) hn (.inl rfl)
      refine (stepBase_nofuel ..).bind fun _ _ => (stepVocab_nofuel ..).bind fun _ _ =>
        (stepDefaultDirection_nofuel ..).bind fun _ _ => NoFuel.bind ?_ fun _ _ =>
          (defineAll_ends (fun s t => hd s t _) _ _).bind fun _ _ => .ok _
      unfold defineTypeEntry
      split
      · exact hd ..
      · exact ⟨nofun⟩
  · refine ⟨0, fun n _ rc _ c o => ?_⟩
    unfold processDef
    split
    · exact ⟨nofun⟩
    · exact (importOf_nofuel ..).bind fun i hi' => absurd ⟨o, i, hi'⟩ hi

/-- The number of URLs not visited yet. -/
def unvisited (urls rc : List Str) : Nat := urls.countP fun u => decide (u ∉ rc)

theorem unvisited_push {urls rc : List Str} {u : Str} (hu : u ∈ urls) (hr : u ∉ rc) :
    unvisited urls (u :: rc) < unvisited urls rc := by
  refine countP_lt (a := u) (fun x _ hx => ?_) hu ?_ ?_
  · simp only [List.mem_cons, not_or, decide_eq_true_eq] at hx ⊢
    exact hx.2
  · simp
  · simp [hr]

theorem process_ends (E : ProcEnv) (urls : List Str)
    (hE : ∀ u l, E.load u = .ok l → u ∈ urls ∧ NestingEnds E (some u) l) :
    ∀ (k : Nat) (p : Option Str × SCtx), Acc (Nested E) p → ∃ N, ∀ n, N ≤ n → ∀ rc,
      unvisited urls rc ≤ k → ∀ c o, NoFuel ((recN E n).process c p.2 rc p.1 o) := by
  intro k
  induction k using Nat.strongRecOn with
  | ind k ihk =>
    have hU : ∃ M, ∀ u ∈ urls, ∀ n, M ≤ n → ∀ l, E.load u = .ok l → ∀ rc, unvisited urls rc < k → ∀ c o,
        NoFuel ((recN E n).process c l rc (some u) o) := by
      refine exists_bound _ fun u _ => ?_
      cases hl : E.load u with
      | error e => exact ⟨0, fun n _ l hl' => nomatch hl'⟩
      | ok l =>
        cases k with
        | zero => exact ⟨0, fun n _ l _ rc h => absurd h (Nat.not_lt_zero _)⟩
        | succ k =>
          obtain ⟨N, hN⟩ := ihk k (Nat.lt_succ_self k) (some u, l) (hE u l hl).2
          exact ⟨N, fun n hn l' hl' rc hrc => by cases hl'; exact hN n hn rc (by omega)⟩
    obtain ⟨M, hM⟩ := hU
    intro p hp
    induction hp with
    | intro p _ ih =>
      obtain ⟨base, l⟩ := p
      have hB : ∃ N, ∀ e ∈ l.entries, ∀ n, N ≤ n → ∀ rc, unvisited urls rc ≤ k → ∀ d, e = .defn d →
          ∀ c o, NoFuel (processDef (recN E n) E c d rc base o) := by
        refine exists_bound _ fun e he => ?_
        cases e with
        | null => exact ⟨0, fun n _ rc _ d hd => nomatch hd⟩
        | ref s => exact ⟨0, fun n _ rc _ d hd => nomatch hd⟩
        | defn d =>
          obtain ⟨N, hN⟩ := processDef_ends E base d (fun rc => unvisited urls rc ≤ k)
            fun i l' hi hl' => by
              obtain ⟨N1, h1⟩ := ih (base, l') ⟨.inl rfl, d, i, he, hi, hl'⟩
              obtain ⟨N2, h2⟩ := ih (none, l') ⟨.inr rfl, d, i, he, hi, hl'⟩
              exact ⟨max N1 N2, fun n hn rc hrc c o =>
                ⟨h1 n (by omega) rc hrc c o, h2 n (by omega) rc hrc c o⟩⟩
          exact ⟨N, fun n hn rc hrc d' hd' c o => by cases hd'; exact hN n hn rc hrc c o⟩
      obtain ⟨N, hN⟩ := hB
      refine ⟨max M N + 1, fun n hn rc hrc c o => ?_⟩
      obtain ⟨n, rfl⟩ : ∃ n', n = n' + 1 := ⟨n - 1, by omega⟩
      show NoFuel (processBody (recN E n) E c l rc base o)
      unfold processBody
      refine (stepPropagation_nofuel ..).bind fun o' _ => ?_
      generalize startContext c o' = c1
      generalize c.originalBase = ob
      suffices hes : ∀ es : List SEntry, (∀ e ∈ es, e ∈ l.entries) →
          NoFuel (processEntries (recN E n) E ob base o' es c1 rc) from hes _ fun _ h => h
      intro es hes
      induction es generalizing c1 rc with
      | nil => exact ⟨nofun⟩
      | cons e es ihe =>
        unfold processEntries
        cases e with
        | null =>
          unfold processEntry
          simp only
          split
          · exact ⟨nofun⟩
          · exact ihe _ hrc _ fun e he => hes e (List.mem_cons_of_mem _ he)
        | ref r =>
          unfold processEntry
          simp only
          split
          · exact ⟨nofun⟩
          · rename_i u hu
            split
            · exact ihe _ hrc _ fun e he => hes e (List.mem_cons_of_mem _ he)
            · rename_i hnr
              refine NoFuel.bind ?_ ?_
              · refine (fetch_nofuel ..).bind fun l' hl' => ?_
                have hl' := fetch_ok.1 hl'
                have := unvisited_push (hE u l' hl').1 hnr
                exact (hM u (hE u l' hl').1 n (by omega) l' hl' _ (by omega) _ _).bind fun _ _ => .ok _
              · intro a ha
                simp only [bindOk] at ha
                obtain ⟨l', hl', c2, _, h2⟩ := ha
                cases h2
                have := unvisited_push (hE u l' (fetch_ok.1 hl')).1 hnr
                exact ihe (u :: rc) (by omega) _ fun e he => hes e (List.mem_cons_of_mem _ he)
        | defn d =>
          unfold processEntry
          simp only
          refine NoFuel.bind ((hN _ (hes _ (List.mem_cons_self ..)) n (by omega) rc hrc d rfl c1 o').bind
            fun _ _ => .ok _) ?_
          intro a ha
          rw [bindOk] at ha
          obtain ⟨c2, _, h2⟩ := ha
          cases h2
          exact ihe _ hrc _ fun e he => hes e (List.mem_cons_of_mem _ he)

end JsonLd
