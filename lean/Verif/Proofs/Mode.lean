import Verif.Proofs.ProcessMono
/-!
# Processing in mode 1.0 and in mode 1.1
-/

namespace JsonLd

/-- The same options in mode 1.1. -/
def Opts.up (o : Opts) : Opts := { o with mode := .v11 }

/-- If `a` is a result then `b` is the same one. -/
structure SameOk {α : Type} (a b : Except CtxErr α) : Prop where
  get : ∀ x, a = .ok x → b = .ok x

theorem SameOk.refl {α : Type} (a : Except CtxErr α) : SameOk a a := ⟨fun _ h => h⟩

theorem SameOk.fails {α : Type} {e : CtxErr} {b : Except CtxErr α} : SameOk (.error e) b := ⟨nofun⟩

theorem SameOk.bind {α β : Type} {x y : Except CtxErr α} {f g : α → Except CtxErr β} (h : SameOk x y)
    (hf : ∀ a, SameOk (f a) (g a)) : SameOk (x >>= f) (y >>= g) := by
  refine ⟨fun b hb => ?_⟩
  rw [bindOk] at hb
  obtain ⟨a, ha, hb⟩ := hb
  rw [bindOk]
  exact ⟨a, h.get a ha, (hf a).get b hb⟩

/-- What the calls of `R` give, those of `R'` give in mode 1.1. -/
structure RecSameOk (R R' : Rec) : Prop where
  define : ∀ s m t rc base prot o,
    SameOk (R.define s m t rc base prot o) (R'.define s m t rc base prot o.up)
  process : ∀ c l rc base o, SameOk (R.process c l rc base o) (R'.process c l rc base o.up)

theorem typeMapping_keeps (o t d) : SameOk (typeMapping o t d) (typeMapping o.up t d) := by
  unfold typeMapping
  split
  · exact .refl _
  · split
    · exact .fails
    · rw [if_neg (fun h => nomatch h.1)]
      exact .refl _

theorem stepProtected_keeps (o x prot) : SameOk (stepProtected o x prot) (stepProtected o.up x prot) := by
  unfold stepProtected
  split
  · split
    · exact .fails
    · exact .refl _
  · exact .refl _

theorem stepContainer_keeps (o x d) : SameOk (stepContainer o x d) (stepContainer o.up x d) := by
  unfold stepContainer
  split
  · exact .refl _
  · split
    · exact .fails
    · rw [if_neg (fun h => nomatch h.1)]
      exact .refl _

theorem stepIndex_keeps (E : ProcEnv) (c o x d) : SameOk (stepIndex E c o x d) (stepIndex E c o.up x d) := by
  unfold stepIndex
  split
  · exact .refl _
  · split
    · exact .fails
    · rename_i h
      rw [if_neg (fun h' => h'.elim (fun h'' => h (.inl h'')) nofun)]
      exact .refl _

theorem stepNest_keeps (o x d) : SameOk (stepNest o x d) (stepNest o.up x d) := by
  unfold stepNest
  split
  · exact .refl _
  · split
    · exact .fails
    · exact .refl _

theorem stepPrefix_keeps (o k x d) : SameOk (stepPrefix o k x d) (stepPrefix o.up k x d) := by
  unfold stepPrefix
  split
  · exact .refl _
  · split
    · exact .fails
    · rename_i h
      rw [if_neg (show ¬ (':' ∈ k ∨ '/' ∈ k ∨ o.up.mode = .v10) from fun h' =>
        h (h'.imp_right fun h'' => h''.imp_right nofun))]
      exact .refl _

theorem stepDefaultDirection_keeps (m o c) :
    SameOk (stepDefaultDirection m o c) (stepDefaultDirection m o.up c) := by
  unfold stepDefaultDirection
  split
  · exact .refl _
  · split
    · exact .fails
    · exact .refl _

theorem importOf_keeps (E : ProcEnv) (d base o) : SameOk (importOf E d base o) (importOf E d base o.up) := by
  unfold importOf
  split
  · exact .refl _
  · split
    · exact .fails
    · exact .refl _

section
variable {R R' : Rec} {E : ProcEnv} {m : Merged} (h : RecSameOk R R')
include h

theorem expandAfter_keeps (s x docRel voc rc o) :
    SameOk (expandAfter R E s x docRel voc m rc o) (expandAfter R' E s x docRel voc m rc o.up) := by
  unfold expandAfter
  split
  · exact .refl _
  · split
    · split
      · exact .refl _
      · split
        · exact .refl _
        · unfold expandCompact
          split
          · exact .refl _
          · exact (h.define ..).bind fun s => .refl _
    · exact .refl _

theorem expandWith_keeps (s v docRel voc rc o) :
    SameOk (expandWith R E s v docRel voc m rc o) (expandWith R' E s v docRel voc m rc o.up) := by
  unfold expandWith
  split
  · exact .refl _
  · exact .refl _
  · split
    · exact .refl _
    · exact (h.define ..).bind fun s => expandAfter_keeps h ..

theorem stepType_keeps (s x rc o d) :
    SameOk (stepType R E s m x rc o d) (stepType R' E s m x rc o.up d) := by
  unfold stepType
  split
  · exact .refl _
  · exact (expandWith_keeps h ..).bind fun s => (typeMapping_keeps ..).bind fun _ => .refl _

theorem stepReverse_keeps (s k x v rc o d) :
    SameOk (stepReverse R E s m k x v rc o d) (stepReverse R' E s m k x v rc o.up d) := by
  unfold stepReverse
  split
  · exact .refl _
  · split
    · exact .refl _
    · exact (expandWith_keeps h ..).bind fun s => .refl _

theorem checkTerm_keeps (s k rc o d) :
    SameOk (checkTerm R E s m k rc o d) (checkTerm R' E s m k rc o.up d) := by
  unfold checkTerm
  split
  · exact (expandWith_keeps h ..).bind fun s => .refl _
  · exact .refl _

theorem implicitId_keeps (s k rc o d) :
    SameOk (implicitId R E s m k rc o d) (implicitId R' E s m k rc o.up d) := by
  unfold implicitId
  refine SameOk.bind ?_ fun _ => .refl _
  unfold implicitPrefix
  split
  · exact .refl _
  · exact (h.define ..).bind fun s => .refl _

theorem stepId_keeps (s k x simple rc o d) :
    SameOk (stepId R E s m k x simple rc o d) (stepId R' E s m k x simple rc o.up d) := by
  unfold stepId
  split
  · exact .refl _
  · split
    · exact (implicitId_keeps h ..).bind fun s => .refl _
    · unfold explicitId
      split
      · exact .refl _
      · exact (expandWith_keeps h ..).bind fun s => (SameOk.refl _).bind fun v =>
          (checkTerm_keeps h ..).bind fun _ => .refl _
  · exact (implicitId_keeps h ..).bind fun s => .refl _

theorem stepContext_keeps (c o x rc base d) :
    SameOk (stepContext R c o x rc base d) (stepContext R' c o.up x rc base d) := by
  unfold stepContext
  split
  · exact .refl _
  · rename_i l _
    split
    · exact .fails
    · refine ⟨fun y hy => ?_⟩
      rw [if_neg nofun]
      split at hy
      · cases hy
      · rename_i c1 h1
        have h2 : R'.process c l rc base o.up.withOverride = .ok c1 := (h.process c l rc base o.withOverride).get c1 h1
        rw [h2]
        exact hy

theorem stepRest_keeps (c k x rc base o d) :
    SameOk (stepRest R E c k x rc base o d) (stepRest R' E c k x rc base o.up d) := by
  unfold stepRest
  exact (stepContainer_keeps ..).bind fun _ => (stepIndex_keeps ..).bind fun _ =>
    (stepContext_keeps h ..).bind fun _ => (stepNest_keeps ..).bind fun _ =>
      (stepPrefix_keeps ..).bind fun _ => .refl _

theorem finishTerm_keeps (s k x simple prev rc base o d) :
    SameOk (finishTerm R E s m k x simple prev rc base o d)
      (finishTerm R' E s m k x simple prev rc base o.up d) := by
  unfold finishTerm
  refine (stepId_keeps h ..).bind fun r => ?_
  split
  · exact .refl _
  · exact (stepRest_keeps h ..).bind fun _ => .refl _

theorem defineBody_keeps (s t rc base prot o) :
    SameOk (defineBody R E s m t rc base prot o) (defineBody R' E s m t rc base prot o.up) := by
  unfold defineBody
  split
  · exact .refl _
  · exact .refl _
  · unfold defineNew
    split
    · split
      · exact .refl _
      · refine SameOk.bind ?_ fun _ => .refl _
        unfold defineType
        split
        · exact .fails
        · exact .refl _
    · split
      · exact .refl _
      · split
        · exact .refl _
        · unfold defineTerm
          refine (stepProtected_keeps ..).bind fun d => (stepType_keeps h ..).bind fun r => ?_
          split
          · exact stepReverse_keeps h ..
          · exact finishTerm_keeps h ..

theorem defineAll_keeps (rc base prot o bs s) :
    SameOk (defineAll R m rc base prot o bs s) (defineAll R' m rc base prot o.up bs s) := by
  induction bs generalizing s with
  | nil => exact .refl _
  | cons b bs ih =>
    unfold defineAll
    exact (h.define ..).bind fun s => ih s

theorem processDef_keeps (c d rc base o) :
    SameOk (processDef R E c d rc base o) (processDef R' E c d rc base o.up) := by
  unfold processDef
  split
  · exact .fails
  · rw [if_neg (show ¬ (d.version = true ∧ o.up.mode = .v10) from fun h' => nomatch h'.2)]
    refine (importOf_keeps ..).bind fun i => (SameOk.refl _).bind fun c => (SameOk.refl _).bind fun c =>
      (stepDefaultDirection_keeps ..).bind fun c => SameOk.bind ?_ fun s =>
        (defineAll_keeps h ..).bind fun _ => .refl _
    unfold defineTypeEntry
    split
    · exact h.define ..
    · exact .refl _

theorem processEntry_keeps (ob base o c rc e) :
    SameOk (processEntry R E ob base o c rc e) (processEntry R' E ob base o.up c rc e) := by
  unfold processEntry
  split
  · exact .refl _
  · split
    · exact .refl _
    · split
      · exact .refl _
      · exact (SameOk.refl _).bind fun l => (h.process ..).bind fun _ => .refl _
  · exact (processDef_keeps h ..).bind fun _ => .refl _

theorem processEntries_keeps (ob base o es c rc) :
    SameOk (processEntries R E ob base o es c rc) (processEntries R' E ob base o.up es c rc) := by
  induction es generalizing c rc with
  | nil => exact .refl _
  | cons e es ih =>
    unfold processEntries
    exact (processEntry_keeps h ..).bind fun r => ih ..

theorem processBody_keeps (c l rc base o) :
    SameOk (processBody R E c l rc base o) (processBody R' E c l rc base o.up) := by
  unfold processBody
  refine ⟨fun x hx => ?_⟩
  rw [bindOk] at hx ⊢
  obtain ⟨o1, h1, h2⟩ := hx
  refine ⟨o1.up, ?_, (processEntries_keeps h _ _ _ _ _ _).get _ h2⟩
  unfold stepPropagation at h1 ⊢
  split at h1
  · split at h1
    · cases h1; rfl
    · split at h1
      · cases h1
      · cases h1; rfl
  · cases h1; rfl

end

theorem recN_keeps (E : ProcEnv) (n : Nat) : RecSameOk (recN E n) (recN E n) := by
  induction n with
  | zero => exact ⟨fun _ _ _ _ _ _ _ => .fails, fun _ _ _ _ _ => .fails⟩
  | succ n ih => exact ⟨fun _ _ _ _ _ _ _ => defineBody_keeps ih .., fun _ _ _ _ _ => processBody_keeps ih ..⟩

end JsonLd
