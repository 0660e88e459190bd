import Verif.Proofs.ProcessEnd
import Verif.Props.Protected
/-!
# C29: context processing ends
-/

namespace JsonLd.Props
open JsonLd.Spec

/-- C29: processing ends if there are finitely many remote contexts (which may refer to each other in
any way) and scoped contexts do not import themselves without end. Without the last condition it is
false: `C29_import_loops`. -/
theorem C29_ends (E : ProcEnv) (urls : List Str)
    (hE : ∀ u l, E.load u = .ok l → u ∈ urls ∧ NestingEnds E (some u) l) (c : ACtx) (l : SCtx)
    (base : Option Str) (o : Opts) (hl : NestingEnds E base l) : ∃ r, Processed E c l base o r := by
  obtain ⟨N, hN⟩ := process_ends E urls hE (unvisited urls []) (base, l) hl
  exact ⟨_, (hN N (Nat.le_refl N) [] (Nat.le_refl _) c o).out, N, rfl⟩

/-- Processing is a function: it has at most one outcome. -/
theorem C29_unique (E : ProcEnv) (c : ACtx) (l : SCtx) (base : Option Str) (o : Opts)
    (r r' : Except CtxErr ACtx) (h : Processed E c l base o r) (h' : Processed E c l base o r') :
    r = r' := h.unique h'

private theorem importFree_ends (E : ProcEnv) {l : SCtx} (h : ImportFree l) :
    ∀ base, NestingEnds E base l := by
  induction h with
  | intro l h1 _ ih =>
    refine fun base => .intro _ fun p hp => ?_
    obtain ⟨b, l'⟩ := p
    obtain ⟨_, d, i, hd, hi, hl'⟩ := hp
    rcases hi with rfl | ⟨r, u, hr, _⟩
    · exact ih i hd l' hl' b
    · rw [h1 d hd] at hr; cases hr

/-- C29 in a simpler form: `@import` is not used within scoped contexts. -/
theorem C29_ends_no_scoped_import (E : ProcEnv) (urls : List Str)
    (hE : ∀ u l, E.load u = .ok l → u ∈ urls ∧ ScopedImportFree l) (c : ACtx) (l : SCtx)
    (base : Option Str) (o : Opts) (hl : ScopedImportFree l) : ∃ r, Processed E c l base o r := by
  have key : ∀ b l, ScopedImportFree l → NestingEnds E b l := by
    intro b l hl
    refine .intro _ fun p hp => ?_
    obtain ⟨b', l'⟩ := p
    obtain ⟨_, d, i, hd, hi, hl'⟩ := hp
    rcases hi with rfl | ⟨r, u, _, _, h3⟩
    · exact importFree_ends E (hl i hd l' hl') b'
    · exact importFree_ends E ((hE u _ h3).2 i (by simp [SCtx.entries]) l' hl') b'
  exact C29_ends E urls (fun u l h => ⟨(hE u l h).1, key _ l (hE u l h).2⟩) c l base o (key base l hl)

private theorem scoped_size {l' l : SCtx} {d : SDef} (hd : SEntry.defn d ∈ l.entries)
    (h : ScopedIn l' d) : sizeOf l' < sizeOf l := by
  obtain ⟨k, x, hb, hx⟩ := h
  have h1 : sizeOf l' < sizeOf x := by
    obtain ⟨_, _, c, _, _, _, _, _, _, _, _, _⟩ := x
    simp only at hx
    subst hx
    simp only [SExp.mk.sizeOf_spec, Option.some.sizeOf_spec]
    omega
  have h2 : sizeOf x < sizeOf d := by
    have h3 := List.sizeOf_lt_of_mem hb
    obtain ⟨_, _, _, _, _, _, _, _, _, bs⟩ := d
    simp only [SDef.mk.sizeOf_spec, Prod.mk.sizeOf_spec, Option.some.sizeOf_spec,
      STerm.expanded.sizeOf_spec] at h3 ⊢
    omega
  have h3 : sizeOf d < sizeOf l := by
    cases l with
    | one e =>
      simp only [SCtx.entries, List.mem_singleton] at hd
      subst hd
      simp only [SCtx.one.sizeOf_spec, SEntry.defn.sizeOf_spec]
      omega
    | many es =>
      have h4 := List.sizeOf_lt_of_mem hd
      simp only [SCtx.many.sizeOf_spec, SEntry.defn.sizeOf_spec, SCtx.entries] at h4 ⊢
      omega
  omega

/-- C27: without remote contexts, processing always ends. -/
theorem C27_ends (E : ProcEnv) (hE : ∀ u l, E.load u ≠ .ok l) (c : ACtx) (l : SCtx)
    (base : Option Str) (o : Opts) : ∃ r, Processed E c l base o r := by
  have key : ∀ n b l, sizeOf l ≤ n → NestingEnds E b l := by
    intro n
    induction n with
    | zero =>
      intro b l hn
      refine .intro _ fun p hp => ?_
      obtain ⟨_, d, i, hd, hi, hl'⟩ := hp
      rcases hi with rfl | ⟨r, u, _, _, h3⟩
      · have := scoped_size hd hl'
        simp only at this
        omega
      · exact absurd h3 (hE u _)
    | succ n ih =>
      intro b l hn
      refine .intro _ fun p hp => ?_
      obtain ⟨_, d, i, hd, hi, hl'⟩ := hp
      rcases hi with rfl | ⟨r, u, _, _, h3⟩
      · have := scoped_size hd hl'
        simp only at this
        exact ih p.1 p.2 (by omega)
      · exact absurd h3 (hE u _)
  exact C29_ends E [] (fun u l h => absurd h (hE u l)) c l base o (key _ _ l (Nat.le_refl _))

/-! ## Remote contexts are not processed twice -/

private theorem visited_grow {R : Rec} {E : ProcEnv} {ob base : Option Str} {o : Opts} {c c' : ACtx}
    {rc rc' : List Str} {e : SEntry} (h : EntryRun R E ob base o c rc e c' rc') :
    ∀ u ∈ rc, u ∈ rc' := by
  cases h <;> simp_all

private theorem entries_skip {R : Rec} {E : ProcEnv} {ob base : Option Str} {o : Opts} {u r : Str}
    (hr : resolveIri E.toIriEnv r base = some u) (es es' : List SEntry) (c : ACtx) (rc : List Str)
    (hu : u ∈ rc) : processEntries R E ob base o (es ++ .ref r :: es') c rc =
      processEntries R E ob base o (es ++ es') c rc := by
  induction es generalizing c rc with
  | nil =>
    simp only [List.nil_append, processEntries, processEntry, hr, if_pos hu]
    rfl
  | cons e es ih =>
    simp only [List.cons_append, processEntries]
    cases hq : processEntry R E ob base o c rc e with
    | error e => rfl
    | ok q => exact ih _ _ (visited_grow (processEntry_ok hq) u hu)

private theorem entries_twice {R : Rec} {E : ProcEnv} {ob base : Option Str} {o : Opts} {u r r' : Str}
    (hr : resolveIri E.toIriEnv r base = some u) (hr' : resolveIri E.toIriEnv r' base = some u)
    (es es' es'' : List SEntry) (c : ACtx) (rc : List Str) :
    processEntries R E ob base o (es ++ .ref r :: (es' ++ .ref r' :: es'')) c rc =
      processEntries R E ob base o (es ++ .ref r :: (es' ++ es'')) c rc := by
  induction es generalizing c rc with
  | nil =>
    simp only [List.nil_append, processEntries]
    cases hq : processEntry R E ob base o c rc (.ref r) with
    | error e => rfl
    | ok q =>
      refine entries_skip hr' _ _ _ _ ?_
      have h1 := processEntry_ok hq
      generalize q.1 = c1 at h1
      generalize q.2 = rc1 at h1
      cases h1 with
      | skip _ u' h2 h3 => rw [hr] at h2; cases h2; exact h3
      | ref _ u' _ _ h2 => rw [hr] at h2; cases h2; exact List.mem_cons_self ..
  | cons e es ih =>
    simp only [List.cons_append, processEntries]
    cases hq : processEntry R E ob base o c rc e with
    | error e => rfl
    | ok q => exact ih _ _

/-- C29: within a list of contexts, the second reference to a remote context has no effect. -/
theorem C29_once (E : ProcEnv) (c : ACtx) (base : Option Str) (o : Opts) (u r r' : Str)
    (hr : resolveIri E.toIriEnv r base = some u) (hr' : resolveIri E.toIriEnv r' base = some u)
    (es es' es'' : List SEntry) (res : Except CtxErr ACtx) :
    Processed E c (.many (es ++ .ref r :: (es' ++ .ref r' :: es''))) base o res ↔
      Processed E c (.many (es ++ .ref r :: (es' ++ es''))) base o res := by
  unfold Processed
  refine and_congr_right fun _ => exists_congr fun n => ?_
  cases n with
  | zero => rfl
  | succ n =>
    simp only [recN, processBody, stepPropagation, SCtx.entries]
    show (processEntries _ _ _ _ _ _ _ _ = res) ↔ (processEntries _ _ _ _ _ _ _ _ = res)
    rw [entries_twice hr hr']

/-- The environment in which one document has its context changed. -/
def withLoad (E : ProcEnv) (u : Str) (l : SCtx) : ProcEnv :=
  { E with load := fun v => if v = u then .ok l else E.load v }

private theorem withLoad_iri (E : ProcEnv) (u : Str) (l : SCtx) : (withLoad E u l).toIriEnv = E.toIriEnv := rfl

private theorem withLoad_rec (E : ProcEnv) (u r : Str) (es es' : List SEntry)
    (hl : E.load u = .ok (.many (es ++ .ref r :: es')))
    (hr : resolveIri E.toIriEnv r (some u) = some u) (n : Nat) :
    recN (withLoad E u (.many (es ++ es'))) n = recN E n := by
  generalize hE : withLoad E u (.many (es ++ es')) = E'
  induction n with
  | zero => rfl
  | succ n ih =>
    have hd : defineBody (recN E n) E' = defineBody (recN E n) E := by subst hE; rfl
    have hi (d base o) : importOf E' d base o = importOf E d base o := by
      subst hE
      unfold importOf
      rw [withLoad_iri]
      split
      · rfl
      · split
        · rfl
        · split
          · rfl
          · rename_i v _
            by_cases hv : v = u
            · subst hv
              simp only [ProcEnv.fetch, withLoad, if_true, hl]
              rfl
            · simp only [ProcEnv.fetch, withLoad, hv, if_false]
    have hp (c d rc base o) : processDef (recN E n) E' c d rc base o =
        processDef (recN E n) E c d rc base o := by
      unfold processDef
      rw [hi]
      subst hE
      rfl
    have he (ob base o c rc e) : processEntry (recN E n) E' ob base o c rc e =
        processEntry (recN E n) E ob base o c rc e := by
      cases e with
      | null => rfl
      | defn d => simp only [processEntry, hp]
      | ref q =>
        unfold processEntry
        simp only
        rw [show E'.toIriEnv = E.toIriEnv by subst hE; rfl]
        split
        · rfl
        · rename_i v _
          split
          · rfl
          · by_cases hv : v = u
            · subst hv
              have h1 : E'.fetch v = .ok (.many (es ++ es')) := by
                subst hE; simp [ProcEnv.fetch, withLoad]
              have h2 : E.fetch v = .ok (.many (es ++ .ref r :: es')) := by
                simp [ProcEnv.fetch, hl]
              rw [h1, h2]
              simp only [bind, Except.bind]
              rw [show (recN E n).process c (.many (es ++ .ref r :: es')) (v :: rc) (some v) _ =
                (recN E n).process c (.many (es ++ es')) (v :: rc) (some v) _ from ?_]
              cases n with
              | zero => rfl
              | succ n =>
                show processEntries _ _ _ _ _ (es ++ .ref r :: es') _ _ =
                  processEntries _ _ _ _ _ (es ++ es') _ _
                exact entries_skip hr _ _ _ _ (List.mem_cons_self ..)
            · have h1 : E'.fetch v = E.fetch v := by
                subst hE; simp [ProcEnv.fetch, withLoad, hv]
              rw [h1]
    have hes (ob base o es1 c rc) : processEntries (recN E n) E' ob base o es1 c rc =
        processEntries (recN E n) E ob base o es1 c rc := by
      induction es1 generalizing c rc with
      | nil => rfl
      | cons e es1 ihe => simp only [processEntries, he, ihe]
    simp only [recN, ih, hd, Rec.mk.injEq, true_and]
    funext c l rc base o
    simp only [processBody, hes]

/-- C29: a remote context that refers to itself is processed as if it did not. -/
theorem C29_self (E : ProcEnv) (u r : Str) (es es' : List SEntry)
    (hl : E.load u = .ok (.many (es ++ .ref r :: es')))
    (hr : resolveIri E.toIriEnv r (some u) = some u) (c : ACtx) (l : SCtx) (base : Option Str)
    (o : Opts) (res : Except CtxErr ACtx) :
    Processed E c l base o res ↔ Processed (withLoad E u (.many (es ++ es'))) c l base o res := by
  unfold Processed
  refine and_congr_right fun _ => exists_congr fun n => ?_
  rw [withLoad_rec E u r es es' hl hr]

/-! ## A context that imports itself -/

/-- `{"@import": "http:u"}` -/
def exImportDef : SDef := { SDef.empty with import_ := some "http:u".toList }

/-- `{"t": {"@id": null, "@context": {"@import": "http:u"}}}` -/
def exLoop : SDef := { SDef.empty with bindings := [("t".toList,
  some (.expanded { SExp.empty with id := some none, context := some (.one (.defn exImportDef)) }))] }

/-- The context at `http:u` is the latter. -/
def exLoopLoad (u : Str) : Except LoadFail SCtx :=
  if u = "http:u".toList then .ok (.one (.defn exLoop)) else .error .loading

/-- A server with this context. -/
def exLoopEnv : ProcEnv := { exIriEnv with load := exLoopLoad }

private theorem loop_def (R : Rec) (c : ACtx) (rc : List Str) (base : Option Str) (o : Opts)
    (ho : o.mode = .v11)
    (h : ∀ s, lookupDef (.key "t".toList) s.defd = none →
      R.define s ⟨exImportDef, some exLoop⟩ (.key "t".toList) rc base false o = .error .fuel) :
    processDef R exLoopEnv c exImportDef rc base o = .error .fuel := by
  have h1 : importOf exLoopEnv exImportDef base o = .ok (some exLoop) := by
    unfold importOf
    rw [show exImportDef.import_ = some "http:u".toList from rfl]
    simp only [ho, reduceCtorEq, if_false]
    rw [show resolveIri exLoopEnv.toIriEnv "http:u".toList base = some "http:u".toList from ?_]
    · rfl
    · cases base <;> simp [resolveIri, exLoopEnv, exIriEnv]
  unfold processDef
  rw [if_neg (by rw [ho]; simp), h1]
  have h2 : stepBase exLoopEnv ⟨exImportDef, some exLoop⟩ rc c = .ok c := by
    unfold stepBase
    split <;> rfl
  simp only [bind, Except.bind, h2]
  have h3 : defineAll R ⟨exImportDef, some exLoop⟩ rc base false o
      (Merged.bindings ⟨exImportDef, some exLoop⟩) ⟨c, []⟩ = .error .fuel := by
    show (R.define _ _ _ _ _ _ _ >>= _) = _
    rw [show R.define ⟨c, []⟩ ⟨exImportDef, some exLoop⟩ (.key "t".toList) rc base false o = .error .fuel
      from h _ rfl]
    rfl
  have h4 : defineTypeEntry R ⟨exImportDef, some exLoop⟩ rc base o ⟨c, []⟩ = .ok ⟨c, []⟩ := rfl
  have h5 : stepVocab exLoopEnv ⟨exImportDef, some exLoop⟩ o c = .ok c := rfl
  have h6 : stepDefaultDirection ⟨exImportDef, some exLoop⟩ o
    (stepDefaultLanguage ⟨exImportDef, some exLoop⟩ c) = .ok c := rfl
  simp only [h5, h6, h4]
  rw [show (Merged.protected_ ⟨exImportDef, some exLoop⟩).getD false = false from rfl, h3]

private theorem loop_term (R : Rec) (s : DState) (rc : List Str) (base : Option Str) (o : Opts)
    (ho : o.mode = .v11) (hs : lookupDef (.key "t".toList) s.defd = none)
    (h : ∀ c, R.process c (.one (.defn exImportDef)) rc base o.withOverride = .error .fuel) :
    defineBody R exLoopEnv s ⟨exImportDef, some exLoop⟩ (.key "t".toList) rc base false o =
      .error .fuel := by
  unfold defineBody DState.start
  rw [hs]
  show defineTerm R exLoopEnv _ _ "t".toList (some (.expanded { SExp.empty with
    id := some none, context := some (.one (.defn exImportDef)) })) rc base false o = _
  unfold defineTerm
  show (stepRest R exLoopEnv _ _ _ _ _ _ _ >>= _) = _
  unfold stepRest
  show ((stepContext R _ _ _ _ _ _ >>= _) >>= _) = _
  unfold stepContext
  simp only [ho, reduceCtorEq, if_false, STerm.exp, h]
  rfl

/-- C29 is false if a context imports itself by means of a scoped context: with any amount of fuel the
calls are nested more deeply (imports are not recorded in the stack of remote contexts,
algorithm/mod.rs:204-259). -/
theorem C29_import_loops (n : Nat) : ∀ (c : ACtx) (rc : List Str) (base : Option Str) (o : Opts),
    o.mode = .v11 →
    (recN exLoopEnv n).process c (.one (.defn exImportDef)) rc base o = .error .fuel := by
  induction n using Nat.strongRecOn with
  | ind n ih =>
    intro c rc base o ho
    match n with
    | 0 => rfl
    | n + 1 =>
      show processBody (recN exLoopEnv n) exLoopEnv c (.one (.defn exImportDef)) rc base o = _
      unfold processBody
      show (processEntries _ _ _ _ _ [.defn exImportDef] _ _) = _
      unfold processEntries processEntry
      simp only
      rw [loop_def _ _ _ _ _ ho]
      · rfl
      · intro s hs
        match n with
        | 0 => rfl
        | n + 1 => exact loop_term _ _ _ _ _ ho hs fun c => ih n (by omega) c rc base _ ho

end JsonLd.Props
