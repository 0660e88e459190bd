import Verif.Proofs.Cyclic
import Verif.Spec.Mode
/-!
# What processing in mode 1.0 refuses
-/

namespace JsonLd

open Spec

/-- The binding uses nothing of JSON-LD 1.1. -/
def OldBinding (b : Option STerm) : Prop := ∀ x, b = some (.expanded x) → OldTerm x

/-- Finished terms use nothing of JSON-LD 1.1, those in `X` aside. -/
def Clean (m : Merged) (X : List Str) (s : DState) : Prop :=
  ∀ k b, k ∉ X → lookupDef (.key k) s.defd = some false → m.binding k = some b → OldBinding b

theorem Clean.more {m : Merged} {X : List Str} {s : DState} (h : Clean m X s) (k : Str) : Clean m (k :: X) s :=
  fun k' b hk => h k' b fun h' => hk (List.mem_cons_of_mem _ h')

theorem Clean.drop {m : Merged} {X : List Str} {s : DState} {k : Str} (h : Clean m (k :: X) s)
    (hk : ∀ b, m.binding k = some b → OldBinding b) : Clean m X s := by
  intro k' b hX hd hb
  by_cases e : k' = k
  · subst e; exact hk b hb
  · exact h k' b (by simp [e, hX]) hd hb

theorem Clean.add {m : Merged} {X : List Str} {c c' : ACtx} {l : List (DKey × Bool)} {t : DKey} {v : Bool}
    (h : Clean m X ⟨c, l⟩) (ht : v = true ∨ ∀ k, t = .key k → k ∈ X ∨ m.binding k = none) :
    Clean m X ⟨c', (t, v) :: l⟩ := by
  intro k b hX hd hb
  rw [lookupDef_cons] at hd
  split at hd
  · rename_i e
    rcases ht with rfl | ht
    · cases hd
    · rcases ht k e with h1 | h1
      · exact absurd h1 hX
      · rw [h1] at hb; cases hb
  · exact h k b hX hd hb

section
variable {R : Rec} {E : ProcEnv} {m : Merged} {X : List Str} {rc : List Str} {o : Opts}
  (hR : ∀ s s' x, R.define s m (.key x) rc none false o.noOverride = .ok s' → Clean m X s → Clean m X s')
include hR

theorem Calls.clean {s s' : DState} (h : Calls R m rc o s s') (hs : Clean m X s) : Clean m X s' := by
  induction h with
  | refl => exact hs
  | step x _ hd ih => exact hR _ _ _ hd ih

theorem DSteps.clean {k : Str} (hk : k ∈ X) {s s' : DState} (h : DSteps R m k rc o s s') (hs : Clean m X s) :
    Clean m X s' := by
  induction h with
  | refl => exact hs
  | step x _ hd ih => exact hR _ _ _ hd ih
  | finish _ ih => exact ih.add (.inr fun k' e => by cases e; exact .inl hk)

end

theorem stepProtected_old {o : Opts} (ho : o.mode = .v10) {x : SExp} {prot : Bool} {d : TermDef}
    (h : stepProtected o x prot = .ok d) : x.protected_ = none := by
  unfold stepProtected at h
  split at h
  · rw [if_pos ho] at h; cases h
  · assumption

theorem stepType_old {R : Rec} {E : ProcEnv} {s : DState} {m : Merged} {x : SExp} {rc : List Str} {o : Opts}
    {d : TermDef} {r : DState × TermDef} (ho : o.mode = .v10) (h : stepType R E s m x rc o d = .ok r) :
    x.type ≠ some (some (.keyword .json)) ∧ x.type ≠ some (some (.keyword .none)) := by
  rcases stepType_ok h with ⟨h1, _⟩ | ⟨t, q, h1, h2, h3, _⟩
  · rw [h1]; exact ⟨nofun, nofun⟩
  · rw [h1]
    constructor <;>
    · rintro ⟨⟩
      cases h2
      unfold typeMapping at h3
      simp only at h3
      rw [if_pos ⟨ho, by simp [STypeKeyword.keyword]⟩] at h3
      cases h3

theorem stepRest_old {R : Rec} {E : ProcEnv} {c : ACtx} {k : Str} {x : SExp} {rc : List Str}
    {base : Option Str} {o : Opts} {d d' : TermDef} (ho : o.mode = .v10)
    (h : stepRest R E c k x rc base o d = .ok d') :
    OldContainer x.container ∧ x.index = none ∧ x.context = none ∧ x.nest = none ∧ x.prefix_ = none := by
  unfold stepRest at h
  simp only [bindOk] at h
  obtain ⟨d1, h1, d2, h2, d3, h3, d4, h4, d5, h5, _⟩ := h
  refine ⟨?_, ?_, ?_, ?_, ?_⟩
  · unfold stepContainer at h1
    split at h1
    · exact .inl (by assumption)
    · rename_i q hq
      split at h1
      · cases h1
      · rename_i hn
        rw [hq]
        have hn : container10 q = false := by simpa [ho] using hn
        unfold container10 at hn
        split at hn
        · cases hn
        · cases hn
        · rename_i kd _
          cases kd <;> simp [OldContainer] at hn ⊢
  · unfold stepIndex at h2
    split at h2
    · assumption
    · rw [if_pos (.inr ho)] at h2; cases h2
  · unfold stepContext at h3
    split at h3
    · assumption
    · rw [if_pos ho] at h3; cases h3
  · unfold stepNest at h4
    split at h4
    · assumption
    · rw [if_pos ho] at h4; cases h4
  · unfold stepPrefix at h5
    split at h5
    · assumption
    · rw [if_pos (.inr (.inr ho))] at h5; cases h5

theorem termRun_old {R : Rec} {E : ProcEnv} {s s' : DState} {m : Merged} {k : Str} {b : Option STerm}
    {rc : List Str} {base : Option Str} {prot : Bool} {o : Opts} (ho : o.mode = .v10)
    (h : TermRun R E s m k b rc base prot o s') : OldBinding b := by
  rintro x rfl
  cases h with
  | reverseKeyword d0 s1 d1 v h0 h1 h2 _ h3 =>
    exact ⟨stepProtected_old ho h0, (stepType_old ho h1).1, (stepType_old ho h1).2, .inl h3,
      fun h => nomatch h2.symm.trans h⟩
  | reverse d0 s1 d1 v s2 t d2 d3 h0 h1 h2 _ h3 =>
    exact ⟨stepProtected_old ho h0, (stepType_old ho h1).1, (stepType_old ho h1).2, .inl h3,
      fun h => nomatch h2.symm.trans h⟩
  | idKeyword d0 _ d1 i h0 h1 h2 h3 h4 h5 =>
    have hi : IdLooksLikeKeyword (some (.expanded x)) := by
      cases i with
      | keyword q => cases h5
      | term q => exact .inr ⟨x, q, rfl, h3, not_not.1 fun h => by cases h4.symm.trans (not_keywordForm.2 h)⟩
    exact ⟨stepProtected_old ho h0, (stepType_old ho h1).1, (stepType_old ho h1).2, .inr hi,
      fun _ h => absurd hi h⟩
  | full d0 s1 d1 s2 d2 d3 d4 h0 h1 h2 h3 h4 h5 =>
    obtain ⟨a, b, c, d, e⟩ := stepRest_old ho h4
    exact ⟨stepProtected_old ho h0, (stepType_old ho h1).1, (stepType_old ho h1).2, .inl d,
      fun _ _ => ⟨a, b, c, e⟩⟩

theorem define_clean (E : ProcEnv) (n : Nat) : ∀ (s s' : DState) (m : Merged) (X : List Str) (t : DKey)
    (rc : List Str) (base : Option Str) (prot : Bool) (o : Opts), o.mode = .v10 →
    (recN E n).define s m t rc base prot o = .ok s' → Clean m X s →
    Clean m X s' ∧ ∀ k b, t = .key k → k ∉ X → m.binding k = some b → OldBinding b := by
  induction n with
  | zero => intro s s' m X t rc base prot o _ h; cases h
  | succ n ih =>
    intro s s' m X t rc base prot o ho h hs
    have hR (X : List Str) : ∀ s s' x, (recN E n).define s m (.key x) rc none false o.noOverride = .ok s' →
        Clean m X s → Clean m X s' := fun s s' x h hs => (ih s s' m X (.key x) rc none false o.noOverride ho h hs).1
    cases defineBody_ok h with
    | done _ hd => exact ⟨hs, fun k b e hX hb => hs k b hX (e ▸ hd) hb⟩
    | noType => exact ⟨(hs.add (c' := s.ctx) (.inl rfl)).add (.inr nofun), nofun⟩
    | type => exact ⟨(hs.add (c' := s.ctx) (.inl rfl)).add (.inr nofun), nofun⟩
    | absent k _ _ hb =>
      refine ⟨(hs.add (c' := s.ctx) (.inl rfl)).add (.inr fun k' e => by cases e; exact .inr hb), fun k' b e _ hb' => ?_⟩
      cases e
      rw [hb] at hb'; cases hb'
    | term k b s' hl hk hb hr =>
      have ob : ∀ b', m.binding k = some b' → OldBinding b' := by
        intro b' hb'
        rw [hb] at hb'
        cases hb'
        exact termRun_old ho hr
      refine ⟨?_, fun k' b' e _ hb' => by cases e; exact ob b' hb'⟩
      refine Clean.drop (k := k) ?_ ob
      have h0 : Clean m (k :: X) ⟨s.ctx.eraseNormal k, (.key k, true) :: s.defd⟩ :=
        (hs.more k).add (.inl rfl)
      have hk' : ∀ k', DKey.key k = .key k' → k' ∈ k :: X ∨ m.binding k' = none := by
        rintro k' ⟨⟩; exact .inl (by simp)
      cases hr with
      | reverseKeyword d0 s1 d1 v _ h1 => exact (stepType_calls h1).clean (hR _) h0
      | reverse d0 s1 d1 v s2 t d2 d3 _ h1 _ _ _ _ h2 =>
        exact ((expandWith_calls h2).clean (hR _) ((stepType_calls h1).clean (hR _) h0)).add (.inr hk')
      | idKeyword d0 _ d1 i _ h1 => exact (stepType_calls h1).clean (hR _) h0
      | full d0 s1 d1 s2 d2 d3 d4 _ h1 _ h2 =>
        exact ((stepId_steps h2).clean (hR _) (by simp) ((stepType_calls h1).clean (hR _) h0)).add (.inr hk')

theorem defineAll_clean {E : ProcEnv} {n : Nat} {m : Merged} {rc : List Str} {base : Option Str} {prot : Bool}
    {o : Opts} (ho : o.mode = .v10) : ∀ (bs : List (Str × Option STerm)) (s s' : DState),
    defineAll (recN E n) m rc base prot o bs s = .ok s' → Clean m [] s →
    ∀ k ∈ bs.map (·.1), ∀ b, m.binding k = some b → OldBinding b := by
  intro bs
  induction bs with
  | nil => intro s s' _ _ k hk; cases hk
  | cons b bs ih =>
    intro s s' h hs k hk
    unfold defineAll at h
    rw [bindOk] at h
    obtain ⟨s1, h1, h2⟩ := h
    have h3 := define_clean E n _ _ _ _ _ _ _ _ _ ho h1 hs
    rw [List.map_cons, List.mem_cons] at hk
    rcases hk with rfl | hk
    · exact fun b' hb' => h3.2 _ b' rfl nofun hb'
    · exact ih s1 s' h2 h3.1 k hk

theorem lookupKey_key {α : Type} {k : Str} {v : α} {l : List (Str × α)} (h : lookupKey k l = some v) :
    k ∈ l.map (·.1) := by
  induction l with
  | nil => cases h
  | cons p l ih =>
    obtain ⟨a, w⟩ := p
    simp only [lookupKey] at h
    split at h
    · rename_i e; simp [e]
    · exact List.mem_cons_of_mem _ (ih h)

theorem define_type_old {E : ProcEnv} {n : Nat} {s s' : DState} {m : Merged} {rc : List Str}
    {base : Option Str} {prot : Bool} {o : Opts} (ho : o.mode = .v10) (hs : lookupDef .type s.defd = none)
    (h : (recN E n).define s m .type rc base prot o = .ok s') : m.type = none := by
  cases n with
  | zero => cases h
  | succ n =>
    cases defineBody_ok h with
    | done _ hd => rw [hs] at hd; cases hd
    | noType _ ht => exact ht
    | type _ _ _ hm => rw [ho] at hm; cases hm

theorem processDef_old {E : ProcEnv} {n : Nat} {c c' : ACtx} {d : SDef} {rc : List Str} {base : Option Str}
    {o : Opts} (ho : o.mode = .v10) (h : processDef (recN E n) E c d rc base o = .ok c') : OldDef d := by
  have hv : d.version = false := by
    unfold processDef at h
    split at h
    · cases h
    · rename_i h1
      simpa [ho] using h1
  obtain ⟨i, c1, c2, c3, s1, s2, h1, h2, h3, h4, h5, h6, _⟩ := processDef_ok h
  have hi : d.import_ = none ∧ i = none := by
    unfold importOf at h1
    split at h1
    · cases h1; exact ⟨by assumption, rfl⟩
    · rw [if_pos ho] at h1; cases h1
  obtain ⟨hi, rfl⟩ := hi
  have ht : d.type = none ∧ s1 = ⟨c3, []⟩ := by
    unfold defineTypeEntry at h5
    split at h5
    · rename_i ht
      rw [define_type_old ho rfl h5] at ht
      cases ht
    · rename_i ht
      cases h5
      refine ⟨?_, rfl⟩
      simpa [Merged.type] using ht
  refine ⟨hv, hi, ?_, ht.1, ?_⟩
  · unfold stepDefaultDirection at h4
    split at h4
    · rename_i hd
      simpa [Merged.direction] using hd
    · rw [if_pos ho] at h4; cases h4
  · intro k x hx
    have hb : Merged.binding ⟨d, none⟩ k = some (some (.expanded x)) := by simp [Merged.binding, hx]
    refine defineAll_clean ho _ _ _ h6 ?_ k ?_ _ hb x rfl
    · rw [ht.2]; intro k b _ h; cases h
    · simpa [Merged.bindings] using lookupKey_key hx

/-! ## Everything a context refers to is processed -/

/-- `d` is reached from `l` by following references to the URLs in the list. -/
inductive Trail (E : ProcEnv) (d : SDef) : Option Str → SCtx → List Str → Prop
  | here (base l) : SEntry.defn d ∈ l.entries → Trail E d base l []
  | ref (base l r u l' us) : SEntry.ref r ∈ l.entries → resolveIri E.toIriEnv r base = some u →
      E.load u = .ok l' → Trail E d (some u) l' us → Trail E d base l (u :: us)

theorem Reaches.trail {E : ProcEnv} {d : SDef} {base : Option Str} {l : SCtx} (h : Reaches E d base l) :
    ∃ us, Trail E d base l us := by
  induction h with
  | here base l h => exact ⟨[], .here base l h⟩
  | ref base l r u l' h1 h2 h3 _ ih =>
    obtain ⟨us, ih⟩ := ih
    exact ⟨u :: us, .ref base l r u l' us h1 h2 h3 ih⟩

/-- A reference of `l` to `u`. -/
def RefTo (E : ProcEnv) (base : Option Str) (es : List SEntry) (u : Str) : Prop :=
  ∃ r, SEntry.ref r ∈ es ∧ resolveIri E.toIriEnv r base = some u

theorem Trail.suffix {E : ProcEnv} {d : SDef} {us vs : List Str} {v : Str} :
    ∀ {base : Option Str} {l : SCtx}, Trail E d base l (us ++ v :: vs) →
      ∃ l', E.load v = .ok l' ∧ Trail E d (some v) l' vs := by
  induction us with
  | nil => rintro base l ⟨⟩; exact ⟨_, by assumption, by assumption⟩
  | cons u us ih => rintro base l ⟨⟩; exact ih (by assumption)

/-- The last URL of the trail to which `l` itself refers. -/
theorem Trail.last {E : ProcEnv} {d : SDef} {base : Option Str} {es : List SEntry} (n : Nat) :
    ∀ {us : List Str} {u : Str} {l' : SCtx}, us.length ≤ n → RefTo E base es u → E.load u = .ok l' →
      Trail E d (some u) l' us → ∃ vs v l'', vs.length ≤ n ∧ RefTo E base es v ∧ E.load v = .ok l'' ∧
        Trail E d (some v) l'' vs ∧ (∀ w ∈ vs, ¬ RefTo E base es w) ∧ (∀ w ∈ vs, w ∈ us) ∧ (v = u ∨ v ∈ us) := by
  induction n with
  | zero =>
    intro us u l' hn hr hl ht
    cases us with
    | nil => exact ⟨[], u, l', Nat.le_refl _, hr, hl, ht, nofun, nofun, .inl rfl⟩
    | cons a us => simp at hn
  | succ n ih =>
    intro us u l' hn hr hl ht
    by_cases h : ∃ w ∈ us, RefTo E base es w
    · obtain ⟨w, hw, h⟩ := h
      obtain ⟨s, t, rfl⟩ := List.append_of_mem hw
      obtain ⟨lw, h1, h2⟩ := ht.suffix
      obtain ⟨vs, v, l'', a, b, c, e, f, g, i⟩ := ih (by simp at hn; omega) h h1 h2
      exact ⟨vs, v, l'', by omega, b, c, e, f, fun w' hw' => by simp [g w' hw'], .inr (by
        rcases i with rfl | i
        · simp
        · simp [i])⟩
    · exact ⟨us, u, l', hn, hr, hl, ht, fun w hw hr => h ⟨w, hw, hr⟩, fun _ h => h, .inl rfl⟩

section
variable {R : Rec} {E : ProcEnv} {ob base : Option Str} {o : Opts}

/-- A definition of the context is processed. -/
theorem processEntries_defn {d : SDef} : ∀ (es : List SEntry) (c c' : ACtx) (rc : List Str),
    processEntries R E ob base o es c rc = .ok c' → SEntry.defn d ∈ es →
    ∃ c1 c2 rc1, processDef R E c1 d rc1 base o = .ok c2 := by
  intro es
  induction es with
  | nil => intro c c' rc _ h; cases h
  | cons e es ih =>
    intro c c' rc h hd
    unfold processEntries at h
    rw [bindOk] at h
    obtain ⟨⟨c1, rc1⟩, h1, h2⟩ := h
    rw [List.mem_cons] at hd
    rcases hd with rfl | hd
    · cases processEntry_ok h1 with
      | defn _ _ h => exact ⟨_, _, _, h⟩
    · exact ih _ _ _ h2 hd

/-- The first reference to a URL is followed, after those to which earlier items refer. -/
theorem processEntries_ref {u : Str} {l : SCtx} (hl : E.load u = .ok l) :
    ∀ (es : List SEntry) (c c' : ACtx) (rc : List Str),
    processEntries R E ob base o es c rc = .ok c' → RefTo E base es u → u ∉ rc →
    ∃ c1 c2 rc1, R.process c1 l (u :: rc1) (some u) ⟨o.mode, false, true, o.vocab⟩ = .ok c2 ∧
      ∀ w ∈ rc1, w ∈ rc ∨ RefTo E base es w := by
  intro es
  induction es with
  | nil => rintro c c' rc _ ⟨r, h, _⟩; cases h
  | cons e es ih =>
    rintro c c' rc h ⟨r, hr, hu⟩ hn
    unfold processEntries at h
    rw [bindOk] at h
    obtain ⟨⟨c1, rc1⟩, h1, h2⟩ := h
    have later {rc2 : List Str} (hn : u ∉ rc2) (hr : SEntry.ref r ∈ es)
        (h : processEntries R E ob base o es c1 rc2 = .ok c') (hw : ∀ w ∈ rc2, w ∈ rc ∨ RefTo E base (e :: es) w) :
        ∃ c1 c2 rc1, R.process c1 l (u :: rc1) (some u) ⟨o.mode, false, true, o.vocab⟩ = .ok c2 ∧
          ∀ w ∈ rc1, w ∈ rc ∨ RefTo E base (e :: es) w := by
      obtain ⟨a, b, q, h3, h4⟩ := ih _ _ _ h ⟨r, hr, hu⟩ hn
      refine ⟨a, b, q, h3, fun w hq => ?_⟩
      rcases h4 w hq with h5 | ⟨r', h5, h6⟩
      · exact hw w h5
      · exact .inr ⟨r', List.mem_cons_of_mem _ h5, h6⟩
    have hr' : e = .ref r ∨ SEntry.ref r ∈ es := by
      rw [List.mem_cons] at hr
      exact hr.imp_left Eq.symm
    cases processEntry_ok h1 with
    | null => exact later hn (hr'.resolve_left nofun) h2 fun w h => .inl h
    | defn => exact later hn (hr'.resolve_left nofun) h2 fun w h => .inl h
    | skip r' u' hu' hm =>
      rcases hr' with he | hr'
      · cases he
        rw [hu] at hu'
        cases hu'
        exact absurd hm hn
      · exact later hn hr' h2 fun w h => .inl h
    | ref r' u' l' c' hu' hm hl' hp =>
      by_cases e : u' = u
      · subst e
        rw [hl] at hl'
        cases hl'
        exact ⟨_, _, _, hp, fun w h => .inl h⟩
      · rcases hr' with he | hr'
        · cases he
          rw [hu] at hu'
          cases hu'
          exact absurd rfl e
        · refine later (by simp [Ne.symm e, hn]) hr' h2 fun w h => ?_
          rw [List.mem_cons] at h
          rcases h with rfl | h
          · exact .inr ⟨r', by simp, hu'⟩
          · exact .inl h

end

/-- Processing goes through every definition that is reached. -/
theorem process_reaches {E : ProcEnv} {P : SDef → Prop} {M : ProcMode} (hP : ∀ n c d rc base o c', o.mode = M →
      processDef (recN E n) E c d rc base o = .ok c' → P d) (k : Nat) :
    ∀ (us : List Str) (n : Nat) (c c' : ACtx) (l : SCtx) (d : SDef) (rc : List Str) (base : Option Str) (o : Opts),
      us.length ≤ k → o.mode = M → (recN E n).process c l rc base o = .ok c' → Trail E d base l us →
      (∀ u ∈ us, u ∉ rc) → P d := by
  induction k with
  | zero =>
    intro us n c c' l d rc base o hk ho h ht _
    cases n with
    | zero => cases h
    | succ n =>
      obtain ⟨o', h1, h2⟩ := processBody_ok h
      cases us with
      | cons a us => simp at hk
      | nil =>
        cases ht with
        | here _ _ hd =>
          obtain ⟨c1, c2, rc1, h3⟩ := processEntries_defn _ _ _ _ h2 hd
          exact hP _ _ _ _ _ _ _ ((stepPropagation_ok h1).1.trans ho) h3
  | succ k ih =>
    intro us n c c' l d rc base o hk ho h ht hus
    cases n with
    | zero => cases h
    | succ n =>
      obtain ⟨o', h1, h2⟩ := processBody_ok h
      have ho' := (stepPropagation_ok h1).1.trans ho
      cases ht with
      | here _ _ hd =>
        obtain ⟨c1, c2, rc1, h3⟩ := processEntries_defn _ _ _ _ h2 hd
        exact hP _ _ _ _ _ _ _ ho' h3
      | ref _ _ r u l' us hr hu hl ht =>
        obtain ⟨vs, v, l'', a, b, e, f, g, i, j⟩ := Trail.last (base := base) (es := l.entries) k
          (by simpa using hk) ⟨r, hr, hu⟩ hl ht
        have hv : v ∉ rc := by
          rcases j with rfl | j
          · exact hus v (by simp)
          · exact hus v (by simp [j])
        obtain ⟨c1, c2, rc1, h3, h4⟩ := processEntries_ref e _ _ _ _ h2 b hv
        refine ih vs n c1 c2 l'' d (v :: rc1) (some v) ⟨o'.mode, false, true, o'.vocab⟩ a ho' h3 f fun w hw => ?_
        rw [List.mem_cons]
        rintro (rfl | hm)
        · exact g w hw b
        · rcases h4 w hm with h5 | h5
          · exact hus w (by simp [i w hw]) h5
          · exact g w hw h5

end JsonLd
