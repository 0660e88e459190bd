import Verif.Props.SaysOrder
import Verif.Props.Settings
import Verif.Props.ProcessEnd
/-!
# C95, C96: contexts one after the other, and again
-/

namespace JsonLd.Props
open Spec Say

/-- The entry is not a reference to a remote context. -/
def Local (e : SEntry) : Prop := ∀ r, e ≠ .ref r

theorem processDef_keeps {E : ProcEnv} {n : Nat} {c c' : ACtx} {d : SDef} {rc : List Str} {base : Option Str}
    {o : Opts} (h : processDef (recN E n) E c d rc base o = .ok c') :
    c'.originalBase = c.originalBase ∧ c'.previous = c.previous := by
  obtain ⟨i, c1, c2, c3, s1, s2, h7, h8, h9, h10, h11, h12, rfl⟩ := processDef_ok h
  have hf (s s' t prot) (h : (recN E n).define s ⟨d, i⟩ t rc base prot o = .ok s') :=
    define_framed E n s s' _ t _ base prot o h
  have h13 := (framed_rel ⟨d, i⟩).trans _ _ _
    (defineTypeEntry_rel (framed_rel ⟨d, i⟩) hf h11)
    (defineAll_rel (framed_rel ⟨d, i⟩) (fun s s' t h => hf s s' t _ h) _ _ _ h12)
  obtain ⟨b, rfl⟩ := stepBase_defs h8
  obtain ⟨v, rfl⟩ := stepVocab_defs h9
  obtain ⟨l, dir, rfl⟩ := stepLang_defs h10
  exact ⟨h13.originalBase, h13.previous⟩

section
variable {E : ProcEnv} {n : Nat} {ob base : Option Str} {o : Opts}

theorem processEntries_append {es es' : List SEntry} (hl : ∀ e ∈ es, Local e) (c : ACtx) (rc : List Str) :
    processEntries (recN E n) E ob base o (es ++ es') c rc =
      (processEntries (recN E n) E ob base o es c rc).bind fun c1 =>
        processEntries (recN E n) E ob base o es' c1 rc := by
  induction es generalizing c with
  | nil => rfl
  | cons e es ih =>
    have ih := fun c => ih (fun e he => hl e (List.mem_cons_of_mem _ he)) c
    simp only [List.cons_append, processEntries, bind]
    cases e with
    | ref r => exact absurd rfl (hl _ List.mem_cons_self r)
    | null =>
      simp only [processEntry]
      split
      · rfl
      · exact ih _
    | defn d =>
      simp only [processEntry, bind]
      cases processDef (recN E n) E c d rc base o with
      | error e => rfl
      | ok c1 => exact ih c1

theorem processEntries_keeps {es : List SEntry} (hl : ∀ e ∈ es, Local e) {c c' : ACtx} {rc : List Str}
    (h : processEntries (recN E n) E ob base o es c rc = .ok c') (hc : c.originalBase = ob)
    (hp : o.propagate = false → c.previous.isSome = true) :
    c'.originalBase = ob ∧ (o.propagate = false → c'.previous.isSome = true) := by
  induction es generalizing c with
  | nil => cases h; exact ⟨hc, hp⟩
  | cons e es ih =>
    have ih := fun c => @ih (fun e he => hl e (List.mem_cons_of_mem _ he)) c
    simp only [processEntries, bind] at h
    cases e with
    | ref r => exact absurd rfl (hl _ List.mem_cons_self r)
    | null =>
      simp only [processEntry] at h
      split at h
      · cases h
      · refine ih _ h rfl fun hf => ?_
        rw [hf]; rfl
    | defn d =>
      simp only [processEntry, bind] at h
      cases hd : processDef (recN E n) E c d rc base o with
      | error e => rw [hd] at h; cases h
      | ok c1 =>
        rw [hd] at h
        obtain ⟨k1, k2⟩ := processDef_keeps hd
        exact ih c1 h (k1.trans hc) fun hf => k2 ▸ hp hf

theorem startContext_keeps (c : ACtx) : (startContext c o).originalBase = c.originalBase ∧
    (o.propagate = false → (startContext c o).previous.isSome = true) := by
  unfold startContext
  split
  · exact ⟨rfl, fun _ => rfl⟩
  · rename_i h
    refine ⟨rfl, fun hf => ?_⟩
    cases hp : c.previous with
    | none => exact absurd ⟨hf, by rw [hp]; rfl⟩ h
    | some p => rfl

theorem process_append {es es' : List SEntry} (hl : ∀ e ∈ es, Local e) (c : ACtx) :
    (recN E n).process c (.many (es ++ es')) [] base o =
      ((recN E n).process c (.many es) [] base o).bind fun c1 => (recN E n).process c1 (.many es') [] base o := by
  cases n with
  | zero => rfl
  | succ n =>
    show processEntries (recN E n) E c.originalBase base o (es ++ es') (startContext c o) [] =
      (processEntries (recN E n) E c.originalBase base o es (startContext c o) []).bind fun c1 =>
        processEntries (recN E n) E c1.originalBase base o es' (startContext c1 o) []
    rw [processEntries_append hl]
    cases hr : processEntries (recN E n) E c.originalBase base o es (startContext c o) [] with
    | error e => rfl
    | ok c1 =>
      obtain ⟨k1, k2⟩ := processEntries_keeps hl hr (startContext_keeps c).1 (startContext_keeps c).2
      show processEntries _ _ _ _ _ _ c1 [] = processEntries _ _ _ _ _ _ (startContext c1 o) []
      rw [k1]
      congr 1
      unfold startContext
      rw [if_neg]
      rintro ⟨hf, hn⟩
      have := k2 hf
      cases hp : c1.previous with
      | none => rw [hp] at this; cases this
      | some p => rw [hp] at hn; cases hn

end

/-- C95: the contexts in an array are processed one after the other. If there is no reference to a remote context
among the first ones, the outcome is that of the other ones in the context that results from the first ones, or the
error of the first ones. (Not after references: see `C95_skipped_partial`.) -/
theorem C95_sequence_partial (E : ProcEnv) (c : ACtx) (es es' : List SEntry) (hl : ∀ e ∈ es, Local e)
    (base : Option Str) (o : Opts) (r : Except CtxErr ACtx) :
    Processed E c (.many (es ++ es')) base o r ↔
      (∃ c1, Processed E c (.many es) base o (.ok c1) ∧ Processed E c1 (.many es') base o r) ∨
      ∃ e, Processed E c (.many es) base o (.error e) ∧ r = .error e := by
  constructor
  · rintro ⟨hr, n, h⟩
    rw [process_append hl] at h
    cases h1 : (recN E n).process c (.many es) [] base o with
    | error e =>
      rw [h1] at h
      have h : Except.error e = r := h
      exact .inr ⟨e, ⟨h ▸ hr, n, h1⟩, h.symm⟩
    | ok c1 =>
      rw [h1] at h
      exact .inl ⟨c1, ⟨nofun, n, h1⟩, hr, n, h⟩
  · rintro (⟨c1, ⟨_, n1, h1⟩, hr, n2, h2⟩ | ⟨e, ⟨hr, n, h⟩, rfl⟩)
    · refine ⟨hr, max n1 n2, ?_⟩
      rw [process_append hl]
      have e1 : (recN E (max n1 n2)).process c (.many es) [] base o = .ok c1 := by
        rcases (recN_mono E (Nat.le_max_left n1 n2) ⟨.empty, none⟩).process c (.many es) [] base o with h | h
        · rw [h1] at h; cases h
        · rw [← h, h1]
      have e2 : (recN E (max n1 n2)).process c1 (.many es') [] base o = r := by
        rcases (recN_mono E (Nat.le_max_right n1 n2) ⟨.empty, none⟩).process c1 (.many es') [] base o with h | h
        · rw [h2] at h; exact absurd h hr
        · rw [← h, h2]
      rw [e1]
      exact e2
    · refine ⟨hr, n, ?_⟩
      rw [process_append hl, h]
      rfl

/-- C95, references: after a reference, a second reference to the same context is ignored, even if all terms have been
removed by `null` in between. -/
theorem C95_skipped_partial (E : ProcEnv) (c : ACtx) (base : Option Str) (o : Opts) (u r : Str)
    (hr : resolveIri E.toIriEnv r base = some u) (res : Except CtxErr ACtx) :
    Processed E c (.many [.ref r, .null, .ref r]) base o res ↔ Processed E c (.many [.ref r, .null]) base o res :=
  C29_once E c base o u r r hr hr [] [.null] [] res

theorem processDef_again {E : ProcEnv} {n1 n2 : Nat} {c c' c1 c2 : ACtx} {d : SDef}
    {rc : List Str} {base : Option Str} {o : Opts} (hi : d.import_ = none)
    (h1 : processDef (recN E n1) E c d rc base o = .ok c1)
    (h2 : processDef (recN E n2) E c' d rc base o = .ok c2)
    (hout : ∀ k, lookupKey k d.bindings = none → c'.getNormal k = c.getNormal k)
    (tv : c1.vocab = c2.vocab) (tb : c1.base = c2.base) (tt : c1.typeDef = c2.typeDef) :
    ∀ k, SameDef c1 c2 k := by
  have hg := processDef_ground hi h1
  obtain ⟨i1, hi1, o1, _⟩ := processDef_says h1
  obtain ⟨i2, hi2, o2, _⟩ := processDef_says h2
  obtain ⟨j1, a1, a2, a3, s1, s1', x1, x2, x3, x4, x5, x6, rfl⟩ := processDef_ok h1
  obtain ⟨j2, b1, b2, b3, s2, s2', y1, y2, y3, y4, y5, y6, rfl⟩ := processDef_ok h2
  have im : ∀ {j}, importOf E d base o = .ok j → j = none := by
    intro j hj
    rcases importOf_ok hj with ⟨h, _⟩ | ⟨r, _, _, _, h, _⟩
    · exact h
    · rw [hi] at h; cases h
  obtain rfl := im hi1
  obtain rfl := im hi2
  obtain rfl := im x1
  obtain rfl := im y1
  have f1 := defineAll_rel (framed_rel _) (fun s s' t h => define_framed E n1 s s' _ t rc base _ o h) _ _ _ x6
  have f2 := defineAll_rel (framed_rel _) (fun s s' t h => define_framed E n2 s s' _ t rc base _ o h) _ _ _ y6
  have hds : ∀ k, s1.ctx.getNormal k = c.getNormal k := by
    intro k
    rw [(defineTypeEntry_start x5).2 k]
    obtain ⟨_, rfl⟩ := stepBase_defs x2
    obtain ⟨_, rfl⟩ := stepVocab_defs x3
    obtain ⟨_, _, rfl⟩ := stepLang_defs x4
    rfl
  have hds' : ∀ k, s2.ctx.getNormal k = c'.getNormal k := by
    intro k
    rw [(defineTypeEntry_start y5).2 k]
    obtain ⟨_, rfl⟩ := stepBase_defs y2
    obtain ⟨_, rfl⟩ := stepVocab_defs y3
    obtain ⟨_, _, rfl⟩ := stepLang_defs y4
    rfl
  intro k
  refine defs_unique (E := E) (voc := o.vocab) (c := c) (d := d) tv tb tt (fun k hk => ?_) (fun k hk => ?_)
    (fun k b x hk hm b' hb' => ?_) (fun k b hk => ?_) (fun k b hk => ?_) (hg k)
  · rw [f1.defs k (by rw [binding_local]; exact hk), hds]
  · rw [f2.defs k (by rw [binding_local]; exact hk), hds', hout k hk]
  · have hni := defineAll_ign (defineTypeEntry_start x5).1 x6 ⟨b, hk, hm⟩
    have out : ∃ ba pr kp, Outcome E.toIriEnv o.vocab ba pr kp x b' s1'.ctx := by
      rcases o1 x b' (by rw [binding_local]; exact hb') with h | h
      · exact ⟨_, _, _, h⟩
      · exact ⟨_, _, _, h⟩
    obtain ⟨ba, pr, kp, out⟩ := out
    cases hr : (STerm.exp b').reverse with
    | some v =>
      by_cases hkw : KeywordForm v
      · exact absurd ⟨b', hb', .inl ⟨v, hr, hkw⟩⟩ hni
      · obtain ⟨t, g, _⟩ := out.reverse v hr hkw
        rw [g]; exact nofun
    | none =>
      obtain ⟨t, g, _⟩ := out.defined hr (fun s hs hkw => by
        by_contra hne
        exact hni ⟨b', hb', .inr ⟨hr, s, hs, hkw, hne⟩⟩)
      rw [g]; exact nofun
  · rcases o1 k b (by rw [binding_local]; exact hk) with h | h
    · exact ⟨_, _, _, h⟩
    · exact ⟨_, _, _, h⟩
  · rcases o2 k b (by rw [binding_local]; exact hk) with h | h
    · exact ⟨_, _, _, h⟩
    · exact ⟨_, _, _, h⟩

theorem processDef_typeDef {E : ProcEnv} {n : Nat} {c c1 : ACtx} {d : SDef} {rc : List Str} {base : Option Str}
    {o : Opts} (hi : d.import_ = none) (h : processDef (recN E n) E c d rc base o = .ok c1) :
    (d.type = none ∧ c1.typeDef = c.typeDef) ∨ ∃ p, d.type = some p ∧
      c1.typeDef = some (if !o.override && c.typeDef == some true then true else p.getD false) := by
  obtain ⟨j, a1, a2, a3, s1, s2, x1, x2, x3, x4, x5, x6, rfl⟩ := processDef_ok h
  have hj : j = none := by
    rcases importOf_ok x1 with ⟨h, _⟩ | ⟨r, _, _, _, h, _⟩
    · exact h
    · rw [hi] at h; cases h
  subst hj
  have hinv : Inv E o.vocab ⟨d, none⟩ s1.ctx base ((Merged.protected_ ⟨d, none⟩).getD false) o.override [] s1 := by
    obtain ⟨l1, _⟩ := defineTypeEntry_start x5
    exact ⟨fun x _ => rfl, fun k b _ hk _ => absurd (l1 k) hk⟩
  have k := (defineAll_inv _ _ _ hinv x6).2.1.typeDef
  have hc : a3.typeDef = c.typeDef := by
    obtain ⟨_, rfl⟩ := stepBase_defs x2
    obtain ⟨_, rfl⟩ := stepVocab_defs x3
    obtain ⟨_, _, rfl⟩ := stepLang_defs x4
    rfl
  have ht : Merged.type ⟨d, none⟩ = d.type := by simp [Merged.type]
  rw [k]
  rcases defineTypeEntry_ctx x5 with ⟨p1, p2⟩ | ⟨p, p1, p2⟩
  · exact .inl ⟨ht ▸ p1, by rw [p2, hc]⟩
  · exact .inr ⟨p, ht ▸ p1, by rw [p2, hc]⟩

theorem processed_def {E : ProcEnv} {c c' : ACtx} {d : SDef} {base : Option Str} {o : Opts}
    (h : Processed E c (.one (.defn d)) base o (.ok c')) : ∃ n o', stepPropagation (.one (.defn d)) o = .ok o' ∧
      processDef (recN E n) E (startContext c o') d [] base o' = .ok c' := by
  obtain ⟨_, n, h⟩ := h
  cases n with
  | zero => cases h
  | succ n =>
    obtain ⟨o', ho, x2⟩ := processBody_ok h
    unfold SCtx.entries processEntries at x2
    rw [bindOk] at x2
    obtain ⟨⟨r1, q1⟩, x3, x4⟩ := x2
    cases x4
    cases processEntry_ok x3 with
    | defn _ _ x5 => exact ⟨n, o', ho, x5⟩

theorem startContext_eq (c : ACtx) (o : Opts) : ∃ p, startContext c o = { c with previous := p } := by
  unfold startContext
  split
  · exact ⟨_, rfl⟩
  · exact ⟨c.previous, by cases c; rfl⟩

/-- C96: former definitions of the terms of a context definition have no effect. If two contexts have the same
definitions of all other terms, and lead to the same base IRI, vocabulary mapping and definition of `@type`, then the
terms that result from the definition are the same, base URLs of scoped contexts and protection aside (see C88). -/
theorem C96_independent_partial (E : ProcEnv) (c c' : ACtx) (d : SDef) (hi : d.import_ = none) (base : Option Str)
    (o : Opts) (c1 c2 : ACtx) (h1 : Processed E c (.one (.defn d)) base o (.ok c1))
    (h2 : Processed E c' (.one (.defn d)) base o (.ok c2))
    (hout : ∀ k, lookupKey k d.bindings = none → c'.getNormal k = c.getNormal k)
    (hv : c1.vocab = c2.vocab) (hb : c1.base = c2.base) (ht : c1.typeDef = c2.typeDef) (k : Str) :
    (c1.getNormal k).map forget = (c2.getNormal k).map forget := by
  obtain ⟨n1, o1, e1, x1⟩ := processed_def h1
  obtain ⟨n2, o2, e2, x2⟩ := processed_def h2
  obtain rfl : o1 = o2 := Except.ok.inj (e1.symm.trans e2)
  refine processDef_again hi x1 x2 (fun k hk => ?_) hv hb ht k
  obtain ⟨p, e⟩ := startContext_eq c o1
  obtain ⟨p', e'⟩ := startContext_eq c' o1
  rw [e, e']
  exact hout k hk

/-- C96: repeating a context definition changes nothing. If it is accepted again and gives the same base IRI and
vocabulary mapping, then all settings are the same, and so are all terms, base URLs of scoped contexts and protection
aside. (The base IRI and the vocabulary mapping may change if they are given by relative references: see
`C96_vocab_grows`.) -/
theorem C96_repeat_partial (E : ProcEnv) (c : ACtx) (d : SDef) (hi : d.import_ = none) (base : Option Str)
    (o : Opts) (c1 c2 : ACtx) (h1 : Processed E c (.one (.defn d)) base o (.ok c1))
    (h2 : Processed E c1 (.one (.defn d)) base o (.ok c2)) (hv : c1.vocab = c2.vocab) (hb : c1.base = c2.base) :
    { c1 with defs := [] } = { c2 with defs := [] } ∧
      ∀ k, (c1.getNormal k).map forget = (c2.getNormal k).map forget := by
  obtain ⟨s1, s2, s3, s4, s5, s6⟩ := C48_settings E c c1 d base o hi h1
  obtain ⟨t1, t2, t3, t4, t5, t6⟩ := C48_settings E c1 c2 d base o hi h2
  have ht : c1.typeDef = c2.typeDef := by
    obtain ⟨n1, o1, e1, x1⟩ := processed_def h1
    obtain ⟨n2, o2, e2, x2⟩ := processed_def h2
    obtain rfl : o1 = o2 := Except.ok.inj (e1.symm.trans e2)
    obtain ⟨p, e⟩ := startContext_eq c o1
    obtain ⟨p', e'⟩ := startContext_eq c1 o1
    have y1 := processDef_typeDef hi x1
    have y2 := processDef_typeDef hi x2
    rw [e] at y1
    rw [e'] at y2
    simp only at y1 y2
    rcases y1 with ⟨a, b⟩ | ⟨q, a, b⟩ <;> rcases y2 with ⟨a', b'⟩ | ⟨q', a', b'⟩
    · exact b'.symm
    · rw [a] at a'; cases a'
    · rw [a] at a'; cases a'
    · rw [a] at a'
      cases a'
      rw [b', b]
      cases o1.override with
      | true => rfl
      | false =>
        rcases c.typeDef with _ | _ | _ <;> rcases q.getD false with _ | _ <;> rfl
  have hprev : c1.previous = c2.previous := by
    obtain ⟨n1, o1, e1, x1⟩ := processed_def h1
    obtain ⟨n2, o2, e2, x2⟩ := processed_def h2
    obtain rfl : o1 = o2 := Except.ok.inj (e1.symm.trans e2)
    have k1 := (processDef_keeps x1).2
    rw [(processDef_keeps x2).2]
    unfold startContext
    split
    · rename_i h
      have := (startContext_keeps (o := o1) c).2 h.1
      rw [← k1] at this
      cases hp : c1.previous with
      | none => rw [hp] at this; cases this
      | some p => rw [hp] at h; cases h.2
    · rfl
  refine ⟨?_, fun k => C96_independent_partial E c c1 d hi base o c1 c2 h1 h2 (fun k hk => ?_) hv hb ht k⟩
  · have hl : c1.language = c2.language := by
      rw [t3, s3]
      cases d.language <;> rfl
    have hdir : c1.direction = c2.direction := by
      rw [t4, s4]
      cases d.direction <;> rfl
    cases c1
    cases c2
    simp only at hv hb ht hprev hl hdir t5
    simp only [ACtx.mk.injEq]
    exact ⟨t5.symm, hb, hv, hl, hdir, hprev, trivial, ht⟩
  · refine s6 k fun b hb' e => ?_
    subst e
    have : ∀ (l : List (Str × Option STerm)) (b : Str × Option STerm), b ∈ l → lookupKey b.1 l ≠ none := by
      intro l
      induction l with
      | nil => intro b h; cases h
      | cons a l ih =>
        intro b h
        obtain ⟨x, y⟩ := a
        unfold lookupKey
        split
        · exact nofun
        · rename_i hne
          rcases List.mem_cons.1 h with e | h
          · subst e; exact absurd rfl hne
          · exact ih b h
    exact this _ b hb' hk

/-- The settings are the same without relative references: if the definition has no `@base` or `@vocab`, or they are
null, or the base is an IRI. -/
theorem C96_settings (E : ProcEnv) (c : ACtx) (d : SDef) (hi : d.import_ = none) (base : Option Str)
    (o : Opts) (c1 c2 : ACtx) (h1 : Processed E c (.one (.defn d)) base o (.ok c1))
    (h2 : Processed E c1 (.one (.defn d)) base o (.ok c2)) :
    ((∀ r, d.base = some (some r) → E.isIri r = true) → c1.base = c2.base) ∧
    ((∀ r, d.vocab ≠ some (some r)) → c1.vocab = c2.vocab) := by
  obtain ⟨s1, s2, -⟩ := C48_settings E c c1 d base o hi h1
  obtain ⟨t1, t2, -⟩ := C48_settings E c1 c2 d base o hi h2
  refine ⟨fun hr => ?_, fun hr => ?_⟩
  · rcases t1 with ⟨_, e⟩ | ⟨a, e⟩ | ⟨r, a, _, e⟩ | ⟨r, _, a, hn, _⟩
    · exact e.symm
    · rcases s1 with ⟨a', e'⟩ | ⟨_, e'⟩ | ⟨r', a', _⟩ | ⟨r', _, a', _⟩
      · rw [a] at a'; cases a'
      · rw [e, e']
      · rw [a] at a'; cases a'
      · rw [a] at a'; cases a'
    · rcases s1 with ⟨a', e'⟩ | ⟨a', e'⟩ | ⟨r', a', _, e'⟩ | ⟨r', _, a', hn, _⟩
      · rw [a] at a'; cases a'
      · rw [a] at a'; cases a'
      · rw [a] at a'; cases a'; rw [e, e']
      · have := hr _ a'
        rw [hn] at this
        cases this
    · have := hr _ a
      rw [hn] at this
      cases this
  · rcases t2 with ⟨_, e⟩ | ⟨a, e⟩ | ⟨v, _, a, _⟩
    · exact e.symm
    · rcases s2 with ⟨a', e'⟩ | ⟨_, e'⟩ | ⟨v, _, a', _⟩
      · rw [a] at a'; cases a'
      · rw [e, e']
      · exact absurd a' (hr v)
    · exact absurd a (hr v)

/-! ## Examples -/

/-- `{"p": "http:x/", "t": {"@id": "p:t", "@type": "@id"}, "@language": "en"}` -/
def exAgain : SDef :=
  { SDef.empty with
    language := some (some "en".toList)
    bindings := [("t".toList, some (.expanded { SExp.empty with id := some (some (.term "p:t".toList)),
                                                                type := some (some (.keyword .id)) })),
      ("p".toList, some (.simple "http:x/".toList))] }

/-- A context in which the terms of the example have other definitions. -/
def exOther : ACtx :=
  { defs := [("p".toList, { value := some (.id (.iri "http:y/".toList)), prefix_ := true }),
      ("t".toList, { value := some (.id (.iri "http:z".toList)), reverse := true })] }

/-- The hypotheses of C96 are met: the definition is accepted, and once more. -/
example : ∃ c1 c2, Processed exProcEnv exOther (.one (.defn exAgain)) none {} (.ok c1) ∧
    Processed exProcEnv c1 (.one (.defn exAgain)) none {} (.ok c2) ∧ exAgain.import_ = none ∧
    (∀ r, exAgain.vocab ≠ some (some r)) ∧ (∀ r, exAgain.base = some (some r) → exProcEnv.isIri r = true) ∧
    (c1.getNormal "t".toList).bind (·.value) = some (.id (.iri "http:x/t".toList)) := by
  refine ⟨_, _, ⟨nofun, 9, rfl⟩, ⟨nofun, 9, rfl⟩, rfl, nofun, nofun, ?_⟩
  decide +kernel

/-- In an array, one after the other. -/
example : (∀ e ∈ [SEntry.defn exAgain, .null], Local e) ∧
    ∃ c1, Processed exProcEnv exOther (.many ([.defn exAgain, .null] ++ [.defn exAgain])) none {} (.ok c1) := by
  refine ⟨?_, _, nofun, 9, rfl⟩
  intro e he
  simp only [List.mem_cons, List.not_mem_nil, or_false] at he
  rcases he with rfl | rfl <;> exact nofun

/-- A relative `@vocab` is appended again each time. -/
theorem C96_vocab_grows :
    ((recN exProcEnv 9).process { vocab := some (.id (.iri "http:v/".toList)) }
      (.many [.defn { SDef.empty with vocab := some (some "w/".toList) },
        .defn { SDef.empty with vocab := some (some "w/".toList) }]) [] none {}).map (·.vocab) =
      .ok (some (.id (.iri "http:v/w/w/".toList))) := by
  decide +kernel

/-- A loader with the context `{"t": "http:t"}`. -/
def exSkipEnv : ProcEnv :=
  { exIriEnv with load := fun _ => .ok (exBind (.simple "http:t".toList)) }

/-- The second reference is ignored: there is no term in the end, although there is one without the first
reference. -/
theorem C95_skipped_example :
    ((recN exSkipEnv 9).process {} (.many [.ref "http:c".toList, .null, .ref "http:c".toList]) [] none {}).map
      (fun c => c.defs.map (·.1)) = .ok [] ∧
    ((recN exSkipEnv 9).process {} (.many [.null, .ref "http:c".toList]) [] none {}).map
      (fun c => c.defs.map (·.1)) = .ok ["t".toList] := by
  decide +kernel

end JsonLd.Props
