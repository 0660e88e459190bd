import Verif.Props.Syntax
import Verif.Props.Iri
import Verif.Spec.Process
import Verif.Proofs.ProcessFrame
import Verif.Proofs.CtxEq
/-!
# C26: protected terms
-/

namespace JsonLd.Props
open JsonLd.Spec

private theorem same_refl (d : TermDef) : SameTerm d d :=
  ⟨rfl, rfl, rfl, rfl, .inl rfl, rfl, rfl, rfl, rfl, rfl, rfl⟩

private theorem sameContext_trans {a b c : Option SCtx} (h : SameContext a b) (h' : SameContext b c) :
    SameContext a c := by
  rcases h with rfl | h
  · exact h'
  · rcases h' with rfl | h'
    · exact .inr h
    · exact .inr (optCtxEqv_trans _ _ _ h h')

private theorem same_trans {a b c : TermDef} (h : SameTerm a b) (h' : SameTerm b c) : SameTerm a c :=
  ⟨h'.1.trans h.1, h'.2.trans h.2, h'.3.trans h.3, h'.4.trans h.4, sameContext_trans h'.5 h.5,
    h'.6.trans h.6, h'.7.trans h.7, h'.8.trans h.8, Eq.trans h'.9 h.9, h'.10.trans h.10,
    h'.11.trans h.11⟩

private theorem same_of_eqv {a b : TermDef} (h : a.eqModProtected b = true) : SameTerm b a := by
  simp only [TermDef.eqModProtected, Bool.and_eq_true, decide_eq_true_eq] at h
  obtain ⟨⟨⟨⟨⟨⟨⟨⟨⟨⟨h1, h2⟩, h3⟩, h4⟩, h5⟩, h6⟩, h7⟩, h8⟩, h9⟩, h10⟩, h11⟩ := h
  exact ⟨h9, h1, h2, h8, .inr h11, h7, h4, h6, langOptOptEq_iff.1 h3, h5, h10⟩

/-- If `k` is protected in `c`, it is the same protected term in `c'`. -/
private def Kept (k : Str) (c c' : ACtx) : Prop :=
  ∀ d, c.getNormal k = some d → d.protected_ = true →
    ∃ d', c'.getNormal k = some d' ∧ SameTerm d d' ∧ d'.protected_ = true

private theorem kept_rel (k : Str) : DefRel (Kept k) := by
  refine ⟨fun c d h hp => ⟨d, h, same_refl d, hp⟩, fun a b c h h' d hd hp => ?_⟩
  obtain ⟨d1, h1, h2, h3⟩ := h d hd hp
  obtain ⟨d2, h4, h5, h6⟩ := h' d1 h1 h3
  exact ⟨d2, h4, same_trans h2 h5, h6⟩

private theorem kept_of_eq {k : Str} {a b : ACtx} (h : b.getNormal k = a.getNormal k) : Kept k a b :=
  fun d hd hp => ⟨d, by rw [h, hd], same_refl d, hp⟩

/-- How the conditions of the specification appear in the model. -/
private theorem plain_binding {b : Option STerm} (h1 : ¬ IsReverse b) (h2 : ¬ IdLooksLikeKeyword b) :
    (STerm.exp b).reverse = none ∧ ∀ i, (STerm.exp b).id = some (some i) → isKeywordLike i.str = true →
      i.isKeyword = true := by
  match b with
  | none => exact ⟨rfl, fun i h => by simp [STerm.exp] at h⟩
  | some (.simple s) =>
    refine ⟨rfl, fun i h hk => ?_⟩
    have hi : i = SId.ofStr s := by
      simp only [STerm.exp, Option.some.injEq] at h
      exact h.symm
    subst hi
    cases ht : Keyword.tryFrom s with
    | some k => simp [SId.ofStr, ht, SId.isKeyword]
    | none =>
      exfalso
      have hs : SId.ofStr s = .term s := by simp [SId.ofStr, ht]
      rw [hs] at hk
      refine h2 (.inl ⟨s, rfl, (C01_form s).1 hk, fun hm => ?_⟩)
      have := (C01_accepts s).2 ⟨_, hm, by simp⟩
      simp [isKeyword, ht] at this
  | some (.expanded x) =>
    refine ⟨?_, fun i h hk => ?_⟩
    · cases hr : x.reverse with
      | none => exact hr
      | some r => exact absurd ⟨x, rfl, by simp [hr]⟩ h1
    · cases i with
      | keyword k => rfl
      | term s => exact absurd (.inr ⟨x, s, rfl, h, (C01_form s).1 hk⟩) h2

private theorem stepKeep_same {o : Opts} {p d d' : TermDef} (ho : o.override = false)
    (hp : p.protected_ = true) (h : stepKeep o (some p) d = .ok d') :
    SameTerm p d' ∧ d'.protected_ = true := by
  unfold stepKeep at h
  rw [ho] at h
  simp only [Bool.false_eq_true, if_false, hp, if_true] at h
  split at h
  · rename_i he
    cases h
    have := same_of_eqv he
    exact ⟨⟨this.1, this.2, this.3, this.4, this.5, this.6, this.7, this.8, this.9, this.10, this.11⟩,
      rfl⟩
  · cases h

/-- The binding of `k` in a merged context is plain. -/
private def PlainIn (k : Str) (m : Merged) : Prop :=
  ∀ b, m.binding k = some b → ¬ IsReverse b ∧ ¬ IdLooksLikeKeyword b

private theorem define_kept (E : ProcEnv) (k : Str) (n : Nat) : ∀ (s s' : DState) (m : Merged)
    (t : DKey) (rc : List Str) (base : Option Str) (prot : Bool) (o : Opts), o.override = false →
    PlainIn k m → (recN E n).define s m t rc base prot o = .ok s' → Kept k s.ctx s'.ctx := by
  induction n with
  | zero => intro s s' m t rc base prot o _ _ h; cases h
  | succ n ih =>
    intro s s' m t rc base prot o ho hm h
    have hR : ∀ s s' x, (recN E n).define s m (.key x) rc none false o.noOverride = .ok s' →
        Kept k s.ctx s'.ctx := fun s s' x h => ih s s' m (.key x) rc none false _ rfl hm h
    cases defineBody_ok h with
    | done => exact (kept_rel k).refl _
    | noType => exact (kept_rel k).refl _
    | type => exact kept_of_eq rfl
    | absent => exact (kept_rel k).refl _
    | term k' b s' hl hk hb hr =>
      by_cases hkk : k' = k
      · subst hkk
        obtain ⟨hp1, hp2⟩ := hm b hb
        obtain ⟨hp1, hp2⟩ := plain_binding hp1 hp2
        cases hr with
        | reverseKeyword d0 s1 d1 v _ _ h2 => rw [hp1] at h2; cases h2
        | reverse d0 s1 d1 v s2 t d2 d3 _ _ h2 => rw [hp1] at h2; cases h2
        | idKeyword d0 s1 d1 i _ _ _ h3 h4 h5 =>
          have := hp2 i h3 h4
          rw [this] at h5
          cases h5
        | full d0 s1 d1 s2 d2 d3 d4 h0 h1 _ h2 h3 h4 =>
          intro d hd hp
          rw [show s.ctx.getNormal k' = some d from hd] at h4
          obtain ⟨h5, h6⟩ := stepKeep_same ho hp h4
          refine ⟨d4, ?_, h5, h6⟩
          show (s2.ctx.setNormal k' d4).getNormal k' = some d4
          rw [getNormal_set, if_pos rfl]
      · have he : Kept k s.ctx (s.ctx.eraseNormal k') :=
          kept_of_eq (by rw [getNormal_erase, if_neg hkk])
        have hset (c : ACtx) (d : TermDef) : Kept k c (c.setNormal k' d) :=
          kept_of_eq (by rw [getNormal_set, if_neg hkk])
        have tr := (kept_rel k).trans
        cases hr with
        | reverseKeyword d0 s1 d1 v h0 h1 => exact tr _ _ _ he ((stepType_calls h1).rel (kept_rel k) hR)
        | reverse d0 s1 d1 v s2 t d2 d3 h0 h1 _ _ _ _ h2 =>
          have h3 := tr _ _ _ he ((stepType_calls h1).rel (kept_rel k) hR)
          have h4 := tr _ _ _ h3 ((expandWith_calls h2).rel (kept_rel k) hR)
          exact tr _ _ _ h4 (hset _ _)
        | idKeyword d0 s1 d1 i h0 h1 => exact tr _ _ _ he ((stepType_calls h1).rel (kept_rel k) hR)
        | full d0 s1 d1 s2 d2 d3 d4 h0 h1 _ h2 =>
          have h3 := tr _ _ _ he ((stepType_calls h1).rel (kept_rel k) hR)
          have h4 := tr _ _ _ h3 ((stepId_steps h2).rel (kept_rel k) hR)
          exact tr _ _ _ h4 (hset _ _)

private theorem hasProtected_of {c : ACtx} {k : Str} {d : TermDef} (h : c.getNormal k = some d)
    (hp : d.protected_ = true) : c.hasProtected = true := by
  unfold ACtx.hasProtected
  rw [Bool.or_eq_true]
  right
  unfold ACtx.getNormal at h
  generalize c.defs = l at h
  induction l with
  | nil => cases h
  | cons p l ih =>
    unfold lookupKey at h
    rw [List.any_cons, Bool.or_eq_true]
    split at h
    · cases h; exact .inl hp
    · exact .inr (ih h)

private theorem plainIn_merged {E : ProcEnv} {k : Str} {d : SDef} {base : Option Str} {o : Opts}
    {i : Option SDef} (hE : PlainLoads E k)
    (hd : ∀ b, lookupKey k d.bindings = some b → ¬ IsReverse b ∧ ¬ IdLooksLikeKeyword b)
    (h : importOf E d base o = .ok i) : PlainIn k ⟨d, i⟩ := by
  intro b hb
  unfold Merged.binding at hb
  simp only at hb
  rw [Option.or_eq_some_iff] at hb
  rcases hb with hb | ⟨_, hb⟩
  · exact hd b hb
  · rcases importOf_ok h with ⟨rfl, _⟩ | ⟨r, u, i', rfl, _, _, hl, _⟩
    · cases hb
    · exact hE u _ hl i' (by simp [SCtx.entries]) b hb

private theorem process_kept (E : ProcEnv) (k : Str) (hE : PlainLoads E k) (n : Nat) :
    ∀ (c c' : ACtx) (l : SCtx) (rc : List Str) (base : Option Str) (o : Opts), o.override = false →
    PlainTerm k l → (recN E n).process c l rc base o = .ok c' → Kept k c c' := by
  induction n with
  | zero => intro c c' l rc base o _ _ h; cases h
  | succ n ih =>
    intro c c' l rc base o ho hl h
    obtain ⟨o', h1, h2⟩ := processBody_ok h
    have ho' : o'.override = false := by rw [(stepPropagation_ok h1).2.1, ho]
    have hs : Kept k c (startContext c o') := kept_of_eq (by unfold startContext; split <;> rfl)
    refine (kept_rel k).trans _ _ _ hs ?_
    generalize c.originalBase = ob at h2
    generalize startContext c o' = c1 at h2
    have hl : ∀ d, SEntry.defn d ∈ l.entries → ∀ b, lookupKey k d.bindings = some b →
      ¬ IsReverse b ∧ ¬ IdLooksLikeKeyword b := hl
    generalize l.entries = es at h2 hl
    clear hs h1 h
    induction es generalizing c1 rc with
    | nil => cases h2; exact (kept_rel k).refl _
    | cons e es ihe =>
      unfold processEntries at h2
      rw [bindOk] at h2
      obtain ⟨⟨c2, rc2⟩, h3, h4⟩ := h2
      refine fun d hd hp => (kept_rel k).trans c1 c2 c' ?_
        (ihe (rc := rc2) (c1 := c2) h4 fun d' hd' => hl d' (List.mem_cons_of_mem _ hd')) d hd hp
      generalize hr : (c2, rc2) = r at h3
      have h5 := processEntry_ok h3
      rw [← hr] at h5
      cases h5 with
      | null hn =>
        intro d hd hp
        rcases hn with hn | hn
        · rw [ho'] at hn; cases hn
        · rw [hasProtected_of hd hp] at hn; cases hn
      | skip => exact (kept_rel k).refl _
      | ref r u l' _ h6 h7 h8 h9 => exact ih _ _ _ _ _ _ rfl (hE u l' h8) h9
      | defn d' _ h6 =>
        obtain ⟨i, b1, v, lg, dir, h7, _, h8⟩ := processDef_rel h6
        refine (kept_rel k).trans _ _ _ (kept_of_eq rfl) (h8 (kept_rel k) ?_)
        exact fun s s' t prot h => define_kept E k n s s' _ t _ base prot o' ho'
          (plainIn_merged hE (hl d' (List.mem_cons_self ..)) h7) h

/-- C26, first part: a protected term survives any context processed without override permission,
provided no context definition binds it as a reverse property or with an `@id` that only looks like a
keyword. Without the proviso the claim is false: `C26_reverse_overrides`, `C26_keyword_like_removes`.
-/
theorem C26_terms_partial (E : ProcEnv) (c c' : ACtx) (l : SCtx) (base : Option Str) (o : Opts) (k : Str)
    (d : TermDef) (ho : o.override = false) (hE : PlainLoads E k) (hl : PlainTerm k l)
    (h : Processed E c l base o (.ok c')) (hd : lookupKey k c.defs = some d)
    (hp : d.protected_ = true) :
    ∃ d', lookupKey k c'.defs = some d' ∧ SameTerm d d' ∧ d'.protected_ = true := by
  obtain ⟨_, n, h⟩ := h
  exact process_kept E k hE n c c' l [] base o ho hl h d hd hp

private theorem define_type (E : ProcEnv) (n : Nat) : ∀ (s s' : DState) (m : Merged)
    (t : DKey) (rc : List Str) (base : Option Str) (prot : Bool) (o : Opts), o.override = false →
    (recN E n).define s m t rc base prot o = .ok s' →
    s.ctx.typeDef = some true → s'.ctx.typeDef = some true := by
  induction n with
  | zero => intro s s' m t rc base prot o _ h; cases h
  | succ n ih =>
    intro s s' m t rc base prot o ho h
    have hP : DefRel fun c c' : ACtx => c.typeDef = some true → c'.typeDef = some true :=
      ⟨fun _ h => h, fun _ _ _ h h' hc => h' (h hc)⟩
    have hR : ∀ s s' x, (recN E n).define s m (.key x) rc none false o.noOverride = .ok s' →
        s.ctx.typeDef = some true → s'.ctx.typeDef = some true :=
      fun s s' x h => ih s s' m (.key x) rc none false _ rfl h
    cases defineBody_ok h with
    | done => exact id
    | noType => exact id
    | type =>
      intro ht
      simp [DState.finish, ho, ht]
    | absent => exact id
    | term k' b s' hl hk hb hr =>
      intro ht
      cases hr with
      | reverseKeyword d0 s1 d1 v h0 h1 => exact (stepType_calls h1).rel hP hR ht
      | reverse d0 s1 d1 v s2 t d2 d3 h0 h1 _ _ _ _ h2 =>
        exact (expandWith_calls h2).rel hP hR ((stepType_calls h1).rel hP hR ht)
      | idKeyword d0 s1 d1 i h0 h1 => exact (stepType_calls h1).rel hP hR ht
      | full d0 s1 d1 s2 d2 d3 d4 h0 h1 _ h2 =>
        exact (stepId_steps h2).rel hP hR ((stepType_calls h1).rel hP hR ht)

private theorem process_type (E : ProcEnv) (n : Nat) :
    ∀ (c c' : ACtx) (l : SCtx) (rc : List Str) (base : Option Str) (o : Opts), o.override = false →
    (recN E n).process c l rc base o = .ok c' → c.typeDef = some true → c'.typeDef = some true := by
  induction n with
  | zero => intro c c' l rc base o _ h; cases h
  | succ n ih =>
    intro c c' l rc base o ho h ht
    obtain ⟨o', h1, h2⟩ := processBody_ok h
    have ho' : o'.override = false := by rw [(stepPropagation_ok h1).2.1, ho]
    have hs : (startContext c o').typeDef = some true := by unfold startContext; split <;> exact ht
    generalize c.originalBase = ob at h2
    generalize startContext c o' = c1 at h2 hs
    generalize l.entries = es at h2
    clear h1 h
    induction es generalizing c1 rc with
    | nil => cases h2; exact hs
    | cons e es ihe =>
      unfold processEntries at h2
      rw [bindOk] at h2
      obtain ⟨⟨c2, rc2⟩, h3, h4⟩ := h2
      refine ihe (rc := rc2) (c1 := c2) ?_ h4
      generalize hr : (c2, rc2) = r at h3
      have h5 := processEntry_ok h3
      rw [← hr] at h5
      cases h5 with
      | null hn =>
        rcases hn with hn | hn
        · rw [ho'] at hn; cases hn
        · simp [ACtx.hasProtected, hs] at hn
      | skip => exact hs
      | ref r u l' _ h6 h7 h8 h9 => exact ih _ _ _ _ _ _ rfl h9 hs
      | defn d' _ h6 =>
        obtain ⟨i, b1, v, lg, dir, h7, _, h8⟩ := processDef_rel h6
        refine h8 (P := fun c c' : ACtx => c.typeDef = some true → c'.typeDef = some true)
          ⟨fun _ h => h, fun _ _ _ h h' hc => h' (h hc)⟩ ?_ hs
        exact fun s s' t prot h => define_type E n s s' _ t _ base prot o' ho' h

/-- C26, second part: a protected definition of `@type` survives any context processed without
override permission. -/
theorem C26_type_partial (E : ProcEnv) (c c' : ACtx) (l : SCtx) (base : Option Str) (o : Opts)
    (ho : o.override = false) (h : Processed E c l base o (.ok c'))
    (ht : c.typeDef = some true) : c'.typeDef = some true := by
  obtain ⟨_, n, h⟩ := h
  exact process_type E n c c' l [] base o ho h ht

/-- C26, third part: the null context is refused if there is a protected definition. -/
theorem C26_null_partial (E : ProcEnv) (c : ACtx) (base : Option Str) (o : Opts) (r : Except CtxErr ACtx)
    (ho : o.override = false)
    (hp : (∃ k d, lookupKey k c.defs = some d ∧ d.protected_ = true) ∨ c.typeDef = some true)
    (h : Processed E c (.one .null) base o r) : r = .error .invalidContextNullification := by
  obtain ⟨hr, n, h⟩ := h
  have hc : (startContext c o).hasProtected = true := by
    have : c.hasProtected = true := by
      rcases hp with ⟨k, d, hd, hp⟩ | ht
      · exact hasProtected_of hd hp
      · simp [ACtx.hasProtected, ht]
    unfold startContext
    split <;> exact this
  cases n with
  | zero => exact absurd h.symm hr
  | succ n =>
    rw [← h]
    simp only [recN, processBody, stepPropagation, SCtx.entries, processEntries, processEntry]
    simp [bind, Except.bind, ho, hc]

/-- The example environment with a loader that knows nothing. -/
def exProcEnv : ProcEnv := { exIriEnv with load := fun _ => .error .loading }

/-- An active context with a protected term. -/
def exProtected : ACtx :=
  { defs := [("t".toList, { value := some (.id (.iri "http:t".toList)), protected_ := true })] }

/-- The definition `{"t": b}`. -/
def exBind (b : STerm) : SCtx := .one (.defn { SDef.empty with bindings := [("t".toList, some b)] })

/-- C26 is false for reverse properties: `{"t": {"@reverse": "http:u"}}` replaces the protected term
`t` (define.rs:313 returns before the check). -/
theorem C26_reverse_overrides :
    ((recN exProcEnv 9).process exProtected (exBind (.expanded { SExp.empty with
      reverse := some "http:u".toList })) [] none {}).map (fun c => (c.getNormal "t".toList).map
        fun d => (d.value, d.reverse, d.protected_)) =
      .ok (some (some (.id (.iri "http:u".toList)), true, false)) := by
  decide +kernel

/-- C26 is false for `@id` values that look like keywords: `{"t": "@foo"}` removes the protected
term `t` (define.rs:345-352 returns after it was taken out). -/
theorem C26_keyword_like_removes :
    ((recN exProcEnv 9).process exProtected (exBind (.simple "@foo".toList)) [] none {}).map
      (fun c => (c.getNormal "t".toList).isSome) = .ok false := by
  decide +kernel

/-- The same binding is accepted and keeps the protection, another one is refused. -/
example : ((recN exProcEnv 9).process exProtected (exBind (.simple "http:t".toList)) [] none {}).map
      (fun c => (c.getNormal "t".toList).map (·.protected_)) = .ok (some true) ∧
    ((recN exProcEnv 9).process exProtected (exBind (.simple "http:u".toList)) [] none {}).map
      (fun c => (c.getNormal "t".toList).map (·.protected_)) =
      .error .protectedTermRedefinition := by
  decide +kernel

end JsonLd.Props
