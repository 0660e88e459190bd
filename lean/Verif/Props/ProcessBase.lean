import Verif.Props.ProcessEnd
/-!
# C30, C31, C42: propagation, the base IRI, and imports
-/

namespace JsonLd.Props
open JsonLd.Spec

/-- A property of results that every entry keeps is kept by the list of entries. -/
theorem entries_inv {R : Rec} {E : ProcEnv} {ob base : Option Str} {o : Opts}
    {I : ACtx → List Str → Prop} (es : List SEntry) (c c' : ACtx) (rc : List Str)
    (hI : I c rc) (hs : ∀ e ∈ es, ∀ c c' rc rc', I c rc → EntryRun R E ob base o c rc e c' rc' → I c' rc')
    (h : processEntries R E ob base o es c rc = .ok c') : ∃ rc', I c' rc' := by
  induction es generalizing c rc with
  | nil => cases h; exact ⟨rc, hI⟩
  | cons e es ih =>
    unfold processEntries at h
    rw [bindOk] at h
    obtain ⟨r, h1, h2⟩ := h
    exact ih r.1 r.2 (hs e (List.mem_cons_self ..) c r.1 rc r.2 hI (processEntry_ok h1))
      (fun e he => hs e (List.mem_cons_of_mem _ he)) h2

private theorem processDef_previous {n : Nat} {E : ProcEnv} {c c' : ACtx} {d : SDef} {rc : List Str}
    {base : Option Str} {o : Opts} (h : processDef (recN E n) E c d rc base o = .ok c') :
    c'.previous = c.previous ∧ c'.originalBase = c.originalBase := by
  obtain ⟨i, b1, v, lg, dir, h7, _, h8⟩ := processDef_rel h
  have h9 := h8 (framed_rel ⟨d, i⟩) fun s s' t prot h => define_framed E n s s' _ t rc base prot o h
  exact ⟨h9.previous, h9.originalBase⟩

private theorem process_previous (E : ProcEnv)
    (hE : ∀ u l, E.load u = .ok l → NoNull l ∧ propagates l true = true) (n : Nat) :
    ∀ (c c' : ACtx) (l : SCtx) (rc : List Str) (base : Option Str) (o : Opts), NoNull l →
    (recN E n).process c l rc base o = .ok c' → c'.previous =
      if propagates l o.propagate = false ∧ c.previous.isNone = true then some c else c.previous := by
  induction n with
  | zero => intro c c' l rc base o _ h; cases h
  | succ n ih =>
    intro c c' l rc base o hl h
    obtain ⟨o', h1, h2⟩ := processBody_ok h
    have hp : o'.propagate = propagates l o.propagate := by
      obtain ⟨_, _, _, h3⟩ := stepPropagation_ok h1
      rcases h3 with ⟨rfl, h4⟩ | ⟨d, p, rfl, h4, h5⟩
      · unfold propagates
        split
        · rename_i d; rw [h4 d rfl]; rfl
        · rfl
      · rw [h5]; simp [propagates, h4]
    have hI := entries_inv (I := fun c1 _ => c1.previous = (startContext c o').previous) l.entries _ _ rc rfl
      (fun e he c1 c2 rc1 rc2 hI hr => by
        cases hr with
        | null => exact absurd he hl
        | skip => exact hI
        | ref r u l' _ _ _ h8 h9 =>
          obtain ⟨h10, h11⟩ := hE u l' h8
          rw [ih _ _ _ _ _ _ h10 h9, h11]
          simpa using hI
        | defn d' _ h6 => rw [(processDef_previous h6).1]; exact hI) h2
    obtain ⟨_, hI⟩ := hI
    rw [hI, ← hp]
    unfold startContext
    split <;> rfl

/-- C30: a context that does not propagate remembers the context active before it, unless that one has
a previous context, which is then kept; a propagating context changes nothing. Provided no context is
null, and loaded contexts propagate. -/
theorem C30_previous_partial (E : ProcEnv)
    (hE : ∀ u l, E.load u = .ok l → NoNull l ∧ propagates l true = true) (c c' : ACtx) (l : SCtx)
    (base : Option Str) (o : Opts) (hl : NoNull l) (h : Processed E c l base o (.ok c')) :
    (propagates l o.propagate = true → c'.previous = c.previous) ∧
    (propagates l o.propagate = false → c.previous = none → c'.previous = some c) ∧
    (propagates l o.propagate = false → ∀ p, c.previous = some p → c'.previous = some p) := by
  obtain ⟨_, n, h⟩ := h
  have := process_previous E hE n c c' l [] base o hl h
  refine ⟨fun hp => ?_, fun hp hc => ?_, fun hp p hc => ?_⟩
  · rw [this, hp]; simp
  · rw [this, hp, hc]; simp
  · rw [this, hp, hc]; simp

/-- C30 for the null context: the result has no definitions; it remembers the context active before it
if it does not propagate. That context keeps its own previous context, or itself. -/
theorem C30_null_partial (E : ProcEnv) (c c' : ACtx) (base : Option Str) (o : Opts)
    (h : Processed E c (.one .null) base o (.ok c')) :
    c'.defs = [] ∧ c'.typeDef = none ∧ c'.vocab = none ∧ c'.base = c.originalBase ∧
    (o.propagate = true → c'.previous = none) ∧
    (o.propagate = false → ∃ p, c'.previous = some p ∧
      p = { c with previous := if c.previous.isNone then some c else c.previous }) := by
  obtain ⟨_, n, h⟩ := h
  cases n with
  | zero => cases h
  | succ n =>
    obtain ⟨o', h1, h2⟩ := processBody_ok h
    cases h1
    simp only [SCtx.entries, processEntries, bindOk] at h2
    obtain ⟨r, h3, h4⟩ := h2
    cases h4
    generalize hr : r.1 = c1
    have h5 := processEntry_ok h3
    rw [hr] at h5
    generalize r.2 = rc1 at h5
    cases h5 with
    | null _ =>
      refine ⟨rfl, rfl, rfl, rfl, fun hp => by simp [hp], fun hp => ⟨startContext c o, by simp [hp], ?_⟩⟩
      unfold startContext
      rw [hp]
      cases hc : c.previous with
      | none => simp
      | some p => cases c; simp_all

/-- C30 is false for null contexts in a list: the remembered context is the one reached so far, not the
one active before. Here `[{"t": "http:x"}, null]` remembers a context in which `t` is defined. -/
theorem C30_null_remembers_result :
    ((recN exProcEnv 9).process {} (.many [.defn { SDef.empty with bindings :=
        [("t".toList, some (.simple "http:x".toList))] }, .null]) [] none { propagate := false }).map
      (fun c => c.previous.map fun p => (p.getNormal "t".toList).isSome) = .ok (some true) := by
  decide +kernel

/-! ## The base IRI -/

private theorem process_base (E : ProcEnv) (hE : ∀ u l, E.load u = .ok l → NoNull l) (n : Nat) :
    ∀ (c c' : ACtx) (l : SCtx) (rc : List Str) (base : Option Str) (o : Opts), NoNull l →
    (rc = [] → NoBase E base l) →
    (recN E n).process c l rc base o = .ok c' → c'.base = c.base ∧ c'.originalBase = c.originalBase := by
  induction n with
  | zero => intro c c' l rc base o _ _ h; cases h
  | succ n ih =>
    intro c c' l rc base o hl hb h
    obtain ⟨o', h1, h2⟩ := processBody_ok h
    have hI := entries_inv (I := fun c1 rc1 => (c1.base = c.base ∧ c1.originalBase = c.originalBase) ∧
        (rc1 = [] → rc = [])) l.entries _ _ rc
      ⟨⟨by unfold startContext; split <;> rfl, by unfold startContext; split <;> rfl⟩, id⟩
      (fun e he c1 c2 rc1 rc2 hI hr => by
        cases hr with
        | null => exact absurd he hl
        | skip => exact hI
        | ref r u l' _ _ _ h8 h9 =>
          obtain ⟨h10, h11⟩ := ih c1 c2 l' (u :: rc1) (some u) _ (hE u l' h8) (fun h => nomatch h) h9
          exact ⟨⟨h10.trans hI.1.1, h11.trans hI.1.2⟩, fun h => nomatch h⟩
        | defn d _ h6 =>
          refine ⟨?_, hI.2⟩
          obtain ⟨i, b1, v, lg, dir, h7, h8, h9⟩ := processDef_rel h6
          have h9 := h9 (framed_rel ⟨d, i⟩)
            fun s s' t prot h => define_framed E n s s' _ t _ base prot o' h
          have hb1 : b1 = c1.base := by
            by_cases hrc : rc1 = []
            · obtain ⟨h10, h11⟩ := hb (hI.2 hrc) d he
              have : Merged.baseValue ⟨d, i⟩ = none := by
                unfold Merged.baseValue
                rw [h10]
                rcases importOf_ok h7 with ⟨rfl, _⟩ | ⟨r, u, i', rfl, h12, h13, h14, _⟩
                · rfl
                · exact h11 i' ⟨r, u, h12, h13, h14⟩
              exact congrArg ACtx.base (stepBase_none this h8)
            · exact congrArg ACtx.base (stepBase_remote hrc h8)
          exact ⟨by rw [h9.base, hb1]; exact hI.1.1, by rw [h9.originalBase]; exact hI.1.2⟩) h2
    obtain ⟨_, hI, _⟩ := hI
    exact hI

/-- C31: contexts without null and without `@base` (own or imported) do not change the base IRI,
whatever the remote contexts they refer to define, unless one of those contains null. -/
theorem C31_base_partial (E : ProcEnv) (hE : ∀ u l, E.load u = .ok l → NoNull l) (c c' : ACtx)
    (l : SCtx) (base : Option Str) (o : Opts) (hl : NoNull l) (hb : NoBase E base l)
    (h : Processed E c l base o (.ok c')) : c'.base = c.base := by
  obtain ⟨_, n, h⟩ := h
  exact (process_base E hE n c c' l [] base o hl (fun _ => hb) h).1

/-- C31: a reference to a remote context without null does not change the base IRI. -/
theorem C31_remote_partial (E : ProcEnv) (hE : ∀ u l, E.load u = .ok l → NoNull l) (c c' : ACtx)
    (r : Str) (base : Option Str) (o : Opts) (h : Processed E c (.one (.ref r)) base o (.ok c')) :
    c'.base = c.base :=
  C31_base_partial E hE c c' _ base o (by simp [NoNull, SCtx.entries])
    (fun d hd => by simp [SCtx.entries] at hd) h

/-- A server that gives one context for all addresses. -/
def constEnv (l : SCtx) : ProcEnv := { exIriEnv with load := fun _ => .ok l }

/-- C31 is false for remote contexts with null: they reset the base IRI. -/
theorem C31_null_resets :
    ((recN (constEnv (.one .null)) 9).process { base := some "http:b".toList } (.one (.ref "http:r".toList))
      [] none {}).map (·.base) = .ok none := by
  decide +kernel

/-- C31 is false for imports: `@base` of an imported context sets the base IRI. -/
theorem C31_import_sets :
    ((recN (constEnv (.one (.defn { SDef.empty with base := some (some "http:c".toList) }))) 9).process
      { base := some "http:b".toList } (.one (.defn exImportDef)) [] none {}).map (·.base) =
      .ok (some "http:c".toList) := by
  decide +kernel

/-- `{"@base": "http:c", "@vocab": "http:v"}` -/
def exBaseVocab : SDef :=
  { SDef.empty with base := some (some "http:c".toList), vocab := some (some "http:v".toList) }

/-- A remote context which sets the base IRI and the vocabulary: the base IRI stays. -/
example : ((recN (constEnv (.one (.defn exBaseVocab))) 9).process
      { base := some "http:b".toList } (.one (.ref "http:r".toList)) [] none {}).map
        (fun c => (c.base, c.vocab)) =
      .ok (some "http:b".toList, some (.id (.iri "http:v".toList))) := by
  decide +kernel

/-! ## Imports -/

private theorem lookupKey_none {α : Type} {k : Str} {m : List (Str × α)} :
    lookupKey k m = none ↔ ∀ b ∈ m, b.1 ≠ k := by
  induction m with
  | nil => simp [lookupKey]
  | cons p m ih =>
    unfold lookupKey
    by_cases h : p.1 = k
    · simp [h]
    · simp [h, ih]

private theorem lookupKey_append {α : Type} (k : Str) (m m' : List (Str × α)) :
    lookupKey k (m ++ m') = (lookupKey k m).or (lookupKey k m') := by
  induction m with
  | nil => rfl
  | cons p m ih =>
    simp only [List.cons_append, lookupKey]
    split
    · rfl
    · exact ih

private theorem lookupKey_filter {α : Type} (k : Str) (m : List (Str × α)) (p : Str → Bool) :
    lookupKey k (m.filter fun b => p b.1) = if p k then lookupKey k m else none := by
  induction m with
  | nil => simp [lookupKey]
  | cons b m ih =>
    rw [List.filter_cons]
    by_cases h : b.1 = k
    · subst h
      by_cases hp : p b.1 = true
      · simp [hp, lookupKey]
      · simp [hp, ih]
    · by_cases hp : p b.1 = true
      · simp [hp, lookupKey, h, ih]
      · simp [hp, lookupKey, h, ih]

private theorem merge_bindings (d i : SDef) :
    (mergeDefs d i).bindings = Merged.bindings ⟨d, some i⟩ := by
  unfold mergeDefs Merged.bindings
  simp only [List.append_cancel_right_eq]
  refine List.filter_congr fun b _ => ?_
  rw [Bool.eq_iff_iff, decide_eq_true_eq, Option.isNone_iff_eq_none, lookupKey_none]

theorem merge_binding (d i : SDef) (k : Str) :
    Merged.binding ⟨mergeDefs d i, none⟩ k = Merged.binding ⟨d, some i⟩ k := by
  unfold Merged.binding
  simp only [Option.bind_none, Option.or_none, Option.bind_some]
  rw [merge_bindings]
  unfold Merged.bindings
  simp only
  rw [lookupKey_append, lookupKey_filter k i.bindings fun x => (lookupKey x d.bindings).isNone]
  cases h : lookupKey k d.bindings <;> simp

private theorem merge_processDef {E : ProcEnv} {n : Nat} {c : ACtx} {d i : SDef} {rc : List Str}
    {base : Option Str} {o : Opts} (ho : o.mode = .v11) (hd : Imports E base d i) (hi : i.import_ = none) :
    processDef (recN E n) E c d rc base o = processDef (recN E n) E c (mergeDefs d i) rc base o := by
  obtain ⟨r, u, h1, h2, h3⟩ := hd
  have h4 : importOf E d base o = .ok (some i) := by
    unfold importOf
    rw [h1]
    simp only [ho, reduceCtorEq, if_false, h2, fetch_ok.2 h3]
    simp [bind, Except.bind, hi]
  have hdef (s t prot) := define_congr E (m := ⟨d, some i⟩) (m' := ⟨mergeDefs d i, none⟩)
    (by simp [Merged.type, mergeDefs]) (merge_binding d i) n s t rc base prot o
  unfold processDef
  rw [h4, show importOf E (mergeDefs d i) base o = .ok none from rfl]
  simp only [ho, reduceCtorEq, and_false, if_false, bind, Except.bind]
  have e1 (c) : stepBase E ⟨d, some i⟩ rc c = stepBase E ⟨mergeDefs d i, none⟩ rc c := by
    simp [stepBase, Merged.baseValue, mergeDefs]
  have e2 (c) : stepVocab E ⟨d, some i⟩ o c = stepVocab E ⟨mergeDefs d i, none⟩ o c := by
    simp [stepVocab, Merged.vocab, mergeDefs]
  have e3 (c) : stepDefaultLanguage ⟨d, some i⟩ c = stepDefaultLanguage ⟨mergeDefs d i, none⟩ c := by
    simp [stepDefaultLanguage, Merged.language, mergeDefs]
  have e4 (c) : stepDefaultDirection ⟨d, some i⟩ o c = stepDefaultDirection ⟨mergeDefs d i, none⟩ o c := by
    simp [stepDefaultDirection, Merged.direction, mergeDefs]
  have e5 : Merged.protected_ ⟨d, some i⟩ = Merged.protected_ ⟨mergeDefs d i, none⟩ := by
    simp [Merged.protected_, mergeDefs]
  have e6 (s) : defineTypeEntry (recN E n) ⟨d, some i⟩ rc base o s =
      defineTypeEntry (recN E n) ⟨mergeDefs d i, none⟩ rc base o s := by
    unfold defineTypeEntry
    rw [hdef, e5, show Merged.type ⟨d, some i⟩ = Merged.type ⟨mergeDefs d i, none⟩ by
      simp [Merged.type, mergeDefs]]
  have e7 : Merged.bindings ⟨d, some i⟩ = Merged.bindings ⟨mergeDefs d i, none⟩ := by
    rw [← merge_bindings]; rfl
  have e8 (prot bs s) : defineAll (recN E n) ⟨d, some i⟩ rc base prot o bs s =
      defineAll (recN E n) ⟨mergeDefs d i, none⟩ rc base prot o bs s := by
    induction bs generalizing s with
    | nil => rfl
    | cons b bs ih => simp only [defineAll, hdef, ih]
  simp only [e1, e2, e3, e4, e5, e6, e7, e8]

/-- C42: a definition with `@import` means the same as the merged definition, wherever it occurs. -/
theorem C42_merge (E : ProcEnv) (c : ACtx) (d i : SDef) (base : Option Str) (o : Opts)
    (ho : o.mode = .v11) (hd : Imports E base d i) (hi : i.import_ = none) (es es' : List SEntry)
    (r : Except CtxErr ACtx) :
    Processed E c (.many (es ++ .defn d :: es')) base o r ↔
      Processed E c (.many (es ++ .defn (mergeDefs d i) :: es')) base o r := by
  unfold Processed
  refine and_congr_right fun _ => exists_congr fun n => ?_
  cases n with
  | zero => rfl
  | succ n =>
    show processEntries (recN E n) E _ _ _ (es ++ .defn d :: es') _ _ = r ↔
      processEntries (recN E n) E _ _ _ (es ++ .defn (mergeDefs d i) :: es') _ _ = r
    have key (ob c rc) : processEntries (recN E n) E ob base o (es ++ .defn d :: es') c rc =
        processEntries (recN E n) E ob base o (es ++ .defn (mergeDefs d i) :: es') c rc := by
      induction es generalizing c rc with
      | nil =>
        simp only [List.nil_append, processEntries, processEntry, merge_processDef ho hd hi]
      | cons e es ih => simp only [List.cons_append, processEntries, ih]
    rw [key]

/-- C42 for a context that is a single definition. -/
theorem C42_merge_one (E : ProcEnv) (c : ACtx) (d i : SDef) (base : Option Str) (o : Opts)
    (ho : o.mode = .v11) (hd : Imports E base d i) (hi : i.import_ = none)
    (r : Except CtxErr ACtx) :
    Processed E c (.one (.defn d)) base o r ↔
      Processed E c (.one (.defn (mergeDefs d i))) base o r := by
  unfold Processed
  refine and_congr_right fun _ => exists_congr fun n => ?_
  cases n with
  | zero => rfl
  | succ n =>
    show processBody (recN E n) E _ _ _ _ _ = r ↔ processBody (recN E n) E _ _ _ _ _ = r
    unfold processBody
    have h1 : stepPropagation (.one (.defn (mergeDefs d i))) o = stepPropagation (.one (.defn d)) o := rfl
    rw [h1]
    cases h2 : stepPropagation (.one (.defn d)) o with
    | error e => rfl
    | ok o' =>
      have ho' : o'.mode = .v11 := by rw [(stepPropagation_ok h2).1, ho]
      simp only [SCtx.entries, processEntries, processEntry, merge_processDef ho' hd hi, bind, Except.bind]

/-- C42: every term of the two definitions occurs in the merged one, once if that is so in both. -/
theorem C42_terms (d i : SDef) :
    (∀ k, (∃ b, (k, b) ∈ (mergeDefs d i).bindings) ↔
      (∃ b, (k, b) ∈ d.bindings) ∨ (∃ b, (k, b) ∈ i.bindings)) ∧
    ((d.bindings.map (·.1)).Nodup → (i.bindings.map (·.1)).Nodup →
      ((mergeDefs d i).bindings.map (·.1)).Nodup) := by
  constructor
  · intro k
    simp only [mergeDefs, List.mem_append, List.mem_filter, decide_eq_true_eq]
    constructor
    · rintro ⟨b, ⟨h, _⟩ | h⟩
      · exact .inr ⟨b, h⟩
      · exact .inl ⟨b, h⟩
    · rintro (⟨b, h⟩ | ⟨b, h⟩)
      · exact ⟨b, .inr h⟩
      · by_cases hk : ∃ b', (k, b') ∈ d.bindings
        · obtain ⟨b', hb'⟩ := hk
          exact ⟨b', .inr hb'⟩
        · refine ⟨b, .inl ⟨h, fun b' hb' he => hk ⟨b'.2, ?_⟩⟩⟩
          rw [← he]
          exact hb'
  · intro hd hi
    simp only [mergeDefs, List.map_append]
    rw [List.nodup_append]
    refine ⟨(List.Sublist.map _ List.filter_sublist).nodup hi, hd, ?_⟩
    rintro k hk k' hk' rfl
    obtain ⟨b, hb, rfl⟩ := List.mem_map.1 hk
    obtain ⟨b', hb', he⟩ := List.mem_map.1 hk'
    have := (List.mem_filter.1 hb).2
    simp only [decide_eq_true_eq] at this
    exact this b' hb' he

/-- `{"@vocab": "http:i", "@language": "en"}` -/
def exVocabLang : SDef :=
  { SDef.empty with vocab := some (some "http:i".toList), language := some (some "en".toList) }

/-- An import at work: the own vocabulary wins, the imported language is used. -/
example : ((recN (constEnv (.one (.defn exVocabLang))) 9).process {}
      (.one (.defn { exImportDef with vocab := some (some "http:v".toList) })) [] none {}).map
        (fun c => (c.vocab, c.language)) =
      .ok (some (.id (.iri "http:v".toList)), some "en".toList) := by
  decide +kernel

end JsonLd.Props
