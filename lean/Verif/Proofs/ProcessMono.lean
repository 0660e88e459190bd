import Verif.Proofs.Process
/-!
# More fuel does not change the outcome
-/

namespace JsonLd

/-- `a` ran out of fuel, or is `b`. -/
def Upto {α : Type} (a b : Except CtxErr α) : Prop := a = .error .fuel ∨ a = b

theorem Upto.refl {α : Type} (a : Except CtxErr α) : Upto a a := .inr rfl

theorem Upto.bind {α β : Type} {x y : Except CtxErr α} {f g : α → Except CtxErr β} (h : Upto x y)
    (hf : ∀ a, Upto (f a) (g a)) : Upto (x >>= f) (y >>= g) := by
  rcases h with rfl | rfl
  · exact .inl rfl
  · cases x with
    | error e => exact .inr rfl
    | ok a => exact hf a

/-- The calls of `R` with `m` give the same as those of `R'` with `m'` or run out of fuel. -/
structure RecUpto (R R' : Rec) (m m' : Merged) : Prop where
  define : ∀ s t rc base prot o, Upto (R.define s m t rc base prot o) (R'.define s m' t rc base prot o)
  process : ∀ c l rc base o, Upto (R.process c l rc base o) (R'.process c l rc base o)

section
variable {R R' : Rec} {E : ProcEnv} {m m' : Merged} (h : RecUpto R R' m m')
include h

theorem expandAfter_upto (s x docRel voc rc o) :
    Upto (expandAfter R E s x docRel voc m rc o) (expandAfter R' E s x docRel voc m' rc o) := by
  unfold expandAfter
  split
  · exact .refl _
  · split
    · split
      · exact .refl _
      · split
        · exact .refl _
        · unfold expandCompact
          split
          · exact .refl _
          · exact (h.define ..).bind fun s => .refl _
    · exact .refl _

theorem expandWith_upto (s v docRel voc rc o) :
    Upto (expandWith R E s v docRel voc m rc o) (expandWith R' E s v docRel voc m' rc o) := by
  unfold expandWith
  split
  · exact .refl _
  · exact .refl _
  · split
    · exact .refl _
    · exact (h.define ..).bind fun s => expandAfter_upto h ..

theorem stepType_upto (s x rc o d) :
    Upto (stepType R E s m x rc o d) (stepType R' E s m' x rc o d) := by
  unfold stepType
  split
  · exact .refl _
  · exact (expandWith_upto h ..).bind fun s => .refl _

theorem stepReverse_upto (s k x v rc o d) :
    Upto (stepReverse R E s m k x v rc o d) (stepReverse R' E s m' k x v rc o d) := by
  unfold stepReverse
  split
  · exact .refl _
  · split
    · exact .refl _
    · exact (expandWith_upto h ..).bind fun s => .refl _

theorem checkTerm_upto (s k rc o d) :
    Upto (checkTerm R E s m k rc o d) (checkTerm R' E s m' k rc o d) := by
  unfold checkTerm
  split
  · exact (expandWith_upto h ..).bind fun s => .refl _
  · exact .refl _

theorem implicitId_upto (s k rc o d) :
    Upto (implicitId R E s m k rc o d) (implicitId R' E s m' k rc o d) := by
  unfold implicitId
  refine Upto.bind ?_ fun _ => .refl _
  unfold implicitPrefix
  split
  · exact .refl _
  · exact (h.define ..).bind fun s => .refl _

theorem stepId_upto (s k x simple rc o d) :
    Upto (stepId R E s m k x simple rc o d) (stepId R' E s m' k x simple rc o d) := by
  unfold stepId
  split
  · exact .refl _
  · split
    · exact (implicitId_upto h ..).bind fun s => .refl _
    · unfold explicitId
      split
      · exact .refl _
      · exact (expandWith_upto h ..).bind fun s => (Upto.refl _).bind fun v =>
          (checkTerm_upto h ..).bind fun _ => .refl _
  · exact (implicitId_upto h ..).bind fun s => .refl _

theorem stepContext_upto (c o x rc base d) :
    Upto (stepContext R c o x rc base d) (stepContext R' c o x rc base d) := by
  unfold stepContext
  split
  · exact .refl _
  · rename_i l _
    split
    · exact .refl _
    · rcases h.process c l rc base o.withOverride with h1 | h1
      · rw [h1]; exact .inl rfl
      · rw [h1]; exact .inr rfl

theorem stepRest_upto (c k x rc base o d) :
    Upto (stepRest R E c k x rc base o d) (stepRest R' E c k x rc base o d) := by
  unfold stepRest
  exact (Upto.refl _).bind fun _ => (Upto.refl _).bind fun _ =>
    (stepContext_upto h ..).bind fun _ => .refl _

theorem finishTerm_upto (s k x simple prev rc base o d) :
    Upto (finishTerm R E s m k x simple prev rc base o d)
      (finishTerm R' E s m' k x simple prev rc base o d) := by
  unfold finishTerm
  refine (stepId_upto h ..).bind fun r => ?_
  split
  · exact .refl _
  · exact (stepRest_upto h ..).bind fun _ => .refl _

theorem defineBody_upto (ht : m'.type = m.type) (hb : ∀ k, m'.binding k = m.binding k)
    (s t rc base prot o) :
    Upto (defineBody R E s m t rc base prot o) (defineBody R' E s m' t rc base prot o) := by
  unfold defineBody
  split
  · exact .refl _
  · exact .refl _
  · unfold defineNew
    split
    · rw [ht]; exact .refl _
    · rw [hb]
      split
      · exact .refl _
      · split
        · exact .refl _
        · unfold defineTerm
          refine (Upto.refl _).bind fun d => (stepType_upto h ..).bind fun r => ?_
          split
          · exact stepReverse_upto h ..
          · exact finishTerm_upto h ..

theorem defineAll_upto (rc base prot o bs s) :
    Upto (defineAll R m rc base prot o bs s) (defineAll R' m' rc base prot o bs s) := by
  induction bs generalizing s with
  | nil => exact .refl _
  | cons b bs ih =>
    unfold defineAll
    exact (h.define ..).bind fun s => ih s

end

section
variable {R R' : Rec} {E : ProcEnv} (h : ∀ m, RecUpto R R' m m)
include h

theorem processDef_upto (c d rc base o) :
    Upto (processDef R E c d rc base o) (processDef R' E c d rc base o) := by
  unfold processDef
  split
  · exact .refl _
  · refine (Upto.refl _).bind fun i => (Upto.refl _).bind fun c => (Upto.refl _).bind fun c =>
      (Upto.refl _).bind fun c => Upto.bind ?_ fun s =>
        (defineAll_upto (h _) ..).bind fun _ => .refl _
    unfold defineTypeEntry
    split
    · exact (h _).define ..
    · exact .refl _

theorem processEntry_upto (ob base o c rc e) :
    Upto (processEntry R E ob base o c rc e) (processEntry R' E ob base o c rc e) := by
  unfold processEntry
  split
  · exact .refl _
  · split
    · exact .refl _
    · split
      · exact .refl _
      · exact (Upto.refl _).bind fun l => ((h ⟨.empty, none⟩).process ..).bind fun _ => .refl _
  · exact (processDef_upto h ..).bind fun _ => .refl _

theorem processEntries_upto (ob base o es c rc) :
    Upto (processEntries R E ob base o es c rc) (processEntries R' E ob base o es c rc) := by
  induction es generalizing c rc with
  | nil => exact .refl _
  | cons e es ih =>
    unfold processEntries
    exact (processEntry_upto h ..).bind fun r => ih ..

theorem processBody_upto (c l rc base o) :
    Upto (processBody R E c l rc base o) (processBody R' E c l rc base o) := by
  unfold processBody
  exact (Upto.refl _).bind fun o => processEntries_upto h ..

end

theorem recN_step (E : ProcEnv) (n : Nat) : ∀ m, RecUpto (recN E n) (recN E (n + 1)) m m := by
  induction n with
  | zero => exact fun m => ⟨fun _ _ _ _ _ _ => .inl rfl, fun _ _ _ _ _ => .inl rfl⟩
  | succ n ih =>
    exact fun m => ⟨fun _ _ _ _ _ _ => defineBody_upto (ih m) rfl (fun _ => rfl) ..,
      fun _ _ _ _ _ => processBody_upto ih ..⟩

theorem Upto.trans {α : Type} {a b c : Except CtxErr α} (h : Upto a b) (h' : Upto b c) : Upto a c := by
  rcases h with rfl | rfl
  · exact .inl rfl
  · exact h'

theorem Upto.antisymm {α : Type} {a b : Except CtxErr α} (h : Upto a b) (h' : Upto b a) : a = b := by
  rcases h with h | h
  · rcases h' with h' | h'
    · rw [h, h']
    · exact h'.symm
  · exact h

theorem recN_mono (E : ProcEnv) {n n' : Nat} (h : n ≤ n') (m : Merged) :
    RecUpto (recN E n) (recN E n') m m := by
  induction h with
  | refl => exact ⟨fun _ _ _ _ _ _ => .refl _, fun _ _ _ _ _ => .refl _⟩
  | step _ ih =>
    exact ⟨fun _ _ _ _ _ _ => (ih.define ..).trans ((recN_step E _ m).define ..),
      fun _ _ _ _ _ => (ih.process ..).trans ((recN_step E _ m).process ..)⟩

/-- The outcome of processing is unique. -/
theorem Processed.unique {E : ProcEnv} {c : ACtx} {l : SCtx} {base : Option Str} {o : Opts}
    {r r' : Except CtxErr ACtx} (h : Processed E c l base o r) (h' : Processed E c l base o r') :
    r = r' := by
  obtain ⟨h1, n, h2⟩ := h
  obtain ⟨h3, n', h4⟩ := h'
  rcases Nat.le_total n n' with hn | hn
  · rcases (recN_mono E hn ⟨.empty, none⟩).process c l [] base o with h5 | h5
    · rw [h2] at h5; exact absurd h5 h1
    · rw [← h2, ← h4, h5]
  · rcases (recN_mono E hn ⟨.empty, none⟩).process c l [] base o with h5 | h5
    · rw [h4] at h5; exact absurd h5 h3
    · rw [← h2, ← h4, h5]

/-- Definitions depend only on the entry of each term, and on that of `@type`. -/
theorem define_congr (E : ProcEnv) {m m' : Merged} (ht : m'.type = m.type)
    (hb : ∀ k, m'.binding k = m.binding k) (n : Nat) (s : DState) (t : DKey) (rc : List Str)
    (base : Option Str) (prot : Bool) (o : Opts) :
    (recN E n).define s m t rc base prot o = (recN E n).define s m' t rc base prot o := by
  have h1 : ∀ n, RecUpto (recN E n) (recN E n) m m' := fun n => by
    induction n with
    | zero => exact ⟨fun _ _ _ _ _ _ => .refl _, fun _ _ _ _ _ => .refl _⟩
    | succ n ih => exact ⟨fun _ _ _ _ _ _ => defineBody_upto ih ht hb .., fun _ _ _ _ _ => .refl _⟩
  have h2 : ∀ n, RecUpto (recN E n) (recN E n) m' m := fun n => by
    induction n with
    | zero => exact ⟨fun _ _ _ _ _ _ => .refl _, fun _ _ _ _ _ => .refl _⟩
    | succ n ih =>
      exact ⟨fun _ _ _ _ _ _ => defineBody_upto ih ht.symm (fun k => (hb k).symm) ..,
        fun _ _ _ _ _ => .refl _⟩
  exact ((h1 n).define ..).antisymm ((h2 n).define ..)

end JsonLd
