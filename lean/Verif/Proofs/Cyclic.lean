import Verif.Proofs.ProcessEnd
import Verif.Props.Syntax
import Verif.Spec.Cyclic
/-!
# Dependencies between term definitions
-/

namespace JsonLd
open Spec Props

theorem hasPrefix_iff {E : ProcEnv} {s p : Str} :
    HasPrefix E s p ↔ ∃ y, compactIri E.toIriEnv s = some (p, y) := by
  unfold HasPrefix compactIri
  constructor
  · rintro ⟨y, h1, h2, h3, h4, h5⟩
    refine ⟨y, ?_⟩
    rw [splitOnce_eq_some.2 ⟨h1, h2⟩]
    simp only
    rw [if_pos ⟨h3, h4⟩, if_pos h5]
  · rintro ⟨y, h⟩
    split at h
    · rename_i q z hs
      split at h
      · rename_i hc
        split at h
        · cases h
          obtain ⟨h1, h2⟩ := splitOnce_eq_some.1 hs
          exact ⟨_, h1, h2, hc.1, hc.2, by assumption⟩
        · cases h
      · cases h
    · cases h

theorem hasPrefix_colon {E : ProcEnv} {s p : Str} (h : HasPrefix E s p) (hp : p ≠ []) : colonInside s = true := by
  obtain ⟨y, h1, h2, _⟩ := h
  unfold colonInside
  rw [splitOnce_eq_some.2 ⟨h1, h2⟩]
  cases p with
  | nil => exact absurd rfl hp
  | cons a p => rfl

theorem hasPrefix_unique {E : ProcEnv} {s p q : Str} (h : HasPrefix E s p) (h' : HasPrefix E s q) : p = q := by
  obtain ⟨y, h⟩ := hasPrefix_iff.1 h
  obtain ⟨z, h'⟩ := hasPrefix_iff.1 h'
  rw [h] at h'
  cases h'
  rfl

theorem not_keywordForm {s : Str} : isKeywordLike s = false ↔ ¬ KeywordForm s := by
  rw [← C01_form, Bool.not_eq_true]

theorem keyword_form (k : Keyword) : KeywordForm k.intoStr := (C01_form _).1 (by cases k <;> decide)

/-- The dependencies of `k` end. -/
def Grounded (E : ProcEnv) (c : ACtx) (d : SDef) (k : Str) : Prop := Acc (fun u k => DependsOn E c d k u) k

/-- A state in which the terms that are done are grounded. -/
structure Settled (E : ProcEnv) (c : ACtx) (d : SDef) (s : DState) : Prop where
  framed : Framed ⟨d, none⟩ c s.ctx
  done : ∀ k, lookupDef (.key k) s.defd = some false → Grounded E c d k

theorem lookupDef_cons (t t' : DKey) (b : Bool) (m : List (DKey × Bool)) :
    lookupDef t ((t', b) :: m) = if t' = t then some b else lookupDef t m := rfl

section
variable {E : ProcEnv} {c : ACtx} {d : SDef}

theorem binding_local (k : Str) : Merged.binding ⟨d, none⟩ k = lookupKey k d.bindings := by
  unfold Merged.binding
  cases lookupKey k d.bindings <;> rfl

theorem Settled.started {s : DState} (h : Settled E c d s) (t : DKey) :
    Settled E c d { s with defd := (t, true) :: s.defd } :=
  ⟨h.framed, fun k hk => by
    rw [lookupDef_cons] at hk
    split at hk
    · cases hk
    · exact h.done k hk⟩

theorem Settled.finish {s : DState} (h : Settled E c d s) {t : DKey} (ht : ∀ k, t = .key k → Grounded E c d k) :
    Settled E c d (s.finish t) :=
  ⟨h.framed, fun k hk => by
    rw [DState.finish, lookupDef_cons] at hk
    split at hk
    · exact ht k (by assumption)
    · exact h.done k hk⟩

/-- The calls keep the states settled and leave grounded terms. -/
def Grounds (E : ProcEnv) (c : ACtx) (d : SDef) (R : Rec) (rc : List Str) : Prop :=
  ∀ s s' x o, Settled E c d s → R.define s ⟨d, none⟩ (.key x) rc none false o = .ok s' →
    Settled E c d s' ∧ Grounded E c d x

variable {R : Rec} {rc : List Str}

theorem getValue_none {c' : ACtx} (hf : Framed ⟨d, none⟩ c c') {x : Str} (hk : ¬ KeywordForm x)
    (hd : lookupKey x d.bindings = none) (hc : lookupKey x c.defs = none) : c'.getValue x = none := by
  unfold ACtx.getValue
  rw [if_neg, hf.defs x (by rw [binding_local]; exact hd)]
  · rw [show c.getNormal x = none from hc]; rfl
  · rintro rfl
    exact hk (keyword_form .type)

theorem expandWith_ground (hR : Grounds E c d R rc) {s : DState} (hs : Settled E c d s) {v : Option Expandable}
    {docRel : Bool} {voc : Option Action} {o : Opts} {r : DState × Option CTerm}
    (h : expandWith R E s v docRel voc ⟨d, none⟩ rc o = .ok r) :
    Settled E c d r.1 ∧ ∀ x, v = some (.string x) → ¬ KeywordForm x → Grounded E c d x ∧
      (lookupKey x d.bindings = none → lookupKey x c.defs = none → E.isBlank x = false →
        ∀ p, HasPrefix E x p → p ≠ [] → Grounded E c d p) := by
  rcases expandWith_ok h with ⟨h1, h2⟩ | ⟨x, s1, rfl, hk, h1, h2⟩
  · rw [h1]
    refine ⟨hs, fun x hx hk => ?_⟩
    subst hx
    rcases h2 with ⟨h2, _⟩ | ⟨k, h2, _⟩ | ⟨y, h2, h3, _⟩
    · cases h2
    · cases h2
    · cases h2
      exact absurd ((C01_form _).1 h3) hk
  · obtain ⟨hs1, hx⟩ := hR _ _ _ _ hs h1
    refine (fun (hh : Settled E c d r.1 ∧ (lookupKey x d.bindings = none → lookupKey x c.defs = none →
      E.isBlank x = false → ∀ p, HasPrefix E x p → p ≠ [] → Grounded E c d p)) =>
      ⟨hh.1, fun y hy hky => by cases hy; exact ⟨hx, hh.2⟩⟩) ?_
    have none1 (hd : lookupKey x d.bindings = none) (hc : lookupKey x c.defs = none) :
        expandTerm s1.ctx x voc = none := by
      unfold expandTerm
      rw [getValue_none hs1.framed (not_keywordForm.1 hk) hd hc]
    rcases expandAfter_ok h2 with ⟨h3, t, h4, _⟩ | ⟨_, ⟨h3, _, h4, _⟩ | ⟨h3, _, h4, _⟩ | ⟨h3, h4, _⟩ |
      ⟨h3, _, _, _, h4, _⟩ | ⟨_, _, _, p, y, h4, h5, _⟩⟩
    · rw [h3]
      refine ⟨hs1, fun hd hc => ?_⟩
      rw [none1 hd hc] at h4
      cases h4
    · rw [h3]
      exact ⟨hs1, fun _ _ hb => by rw [hb] at h4; cases h4⟩
    · rw [h3]
      refine ⟨hs1, fun _ _ _ p hp => ?_⟩
      obtain ⟨y, h5, h6, h7, _⟩ := hp
      subst h4
      cases p with
      | nil => simp at h5
      | cons a p =>
        cases p with
        | nil =>
          simp only [List.cons_append, List.nil_append, List.cons.injEq] at h5
          exact absurd (by rw [h5.1]) h7
        | cons b p => simp at h5
    · rw [h3]
      refine ⟨hs1, fun _ _ _ p hp hne => ?_⟩
      obtain ⟨y, h5⟩ := hasPrefix_iff.1 hp
      rw [(h4 (hasPrefix_colon hp hne)).2.2.1] at h5
      cases h5
    · rw [h3]
      refine ⟨hs1, fun _ _ _ p hp hne => ?_⟩
      obtain ⟨y, h5⟩ := hasPrefix_iff.1 hp
      rw [h4] at h5
      cases h5
    · obtain ⟨hs2, hp⟩ := hR _ _ _ _ hs1 h5
      refine ⟨hs2, fun _ _ _ q hq _ => ?_⟩
      rw [hasPrefix_unique hq (hasPrefix_iff.2 ⟨y, h4⟩)]
      exact hp

/-- What is grounded once a definition has been expanded. -/
def Covered (E : ProcEnv) (c : ACtx) (d : SDef) (x : Str) : Prop := Grounded E c d x ∧
  (lookupKey x d.bindings = none → lookupKey x c.defs = none → E.isBlank x = false →
    ∀ p, HasPrefix E x p → p ≠ [] → Grounded E c d p)

theorem grounded_of {k : Str} {b : Option STerm} (hb : lookupKey k d.bindings = some b)
    (h1 : ∀ x, Mentions k b x → Covered E c d x) (h2 : ByName k b → ∀ p, HasPrefix E k p → Grounded E c d p) :
    Grounded E c d k := by
  refine .intro _ fun u hu => ?_
  cases hu with
  | term b' hb' hm => rw [hb] at hb'; cases hb'; exact (h1 u hm).1
  | pre b' s hb' hm hd hc hbl hp hne => rw [hb] at hb'; cases hb'; exact (h1 s hm).2 hd hc hbl u hp hne
  | name b' hb' hn hp => rw [hb] at hb'; cases hb'; exact h2 hn u hp

theorem ofStr_eq_term {s x : Str} (h : SId.ofStr s = .term x) : s = x := by
  unfold SId.ofStr at h
  split at h
  · cases h
  · cases h; rfl

theorem ofStr_plain {s : Str} (h : ¬ KeywordForm s) : SId.ofStr s = .term s := by
  unfold SId.ofStr
  split
  · rename_i k hk
    rw [(C01_exact s k).1 hk] at h
    exact absurd (keyword_form k) h
  · rfl

theorem stepType_ground (hR : Grounds E c d R rc) {s : DState} (hs : Settled E c d s) {x : SExp} {o : Opts}
    {a : TermDef} {r : DState × TermDef} (h : stepType R E s ⟨d, none⟩ x rc o a = .ok r) :
    Settled E c d r.1 ∧ ∀ y, x.type = some (some (.term y)) → ¬ KeywordForm y → Covered E c d y := by
  rcases stepType_ok h with ⟨h1, rfl⟩ | ⟨t, q, h1, h2, _, h3⟩
  · exact ⟨hs, fun y hy => by rw [h1] at hy; cases hy⟩
  · obtain ⟨h4, h5⟩ := expandWith_ground hR hs h2
    rw [h3]
    refine ⟨h4, fun y hy => h5 y ?_⟩
    rw [h1] at hy
    cases hy
    rfl

theorem byName_exp {k : Str} {b : Option STerm} (h : ByName k b) {p : Str} (hp : HasPrefix E k p) :
    (STerm.exp b).reverse = none ∧ ((STerm.exp b).id = none ∨ (STerm.exp b).id = some (some (.term k))) := by
  rcases h with rfl | ⟨x, rfl, h1, h2⟩
  · refine ⟨rfl, .inr ?_⟩
    show some (some (SId.ofStr k)) = _
    rw [ofStr_plain]
    rintro ⟨n, rfl, _, hn⟩
    obtain ⟨y, h1, _⟩ := hp
    cases p with
    | nil => cases h1
    | cons a p =>
      simp only [List.cons_append, List.cons.injEq] at h1
      have := hn ':' (by rw [h1.2]; simp)
      simp [AsciiLetter] at this
  · exact ⟨h1, h2⟩

theorem mentions_exp {k : Str} {b : Option STerm} {y : Str} (h : Mentions k b y) : ¬ KeywordForm y ∧
    ((STerm.exp b).type = some (some (.term y)) ∨ (STerm.exp b).reverse = some y ∨
      ((STerm.exp b).id = some (some (.term y)) ∧ y ≠ k)) := by
  obtain ⟨h1, ⟨rfl, h2⟩ | ⟨x, rfl, h2⟩⟩ := h
  · refine ⟨h1, .inr (.inr ⟨?_, h2⟩)⟩
    show some (some (SId.ofStr y)) = _
    rw [ofStr_plain h1]
  · exact ⟨h1, h2⟩

theorem implicitId_ground (hR : Grounds E c d R rc) {s : DState} (hs : Settled E c d s) {k : Str} {o : Opts}
    {a : TermDef} {r : DState × TermDef} (h : implicitId R E s ⟨d, none⟩ k rc o a = .ok r) :
    Settled E c d r.1 ∧ ∀ p, HasPrefix E k p → Grounded E c d p := by
  obtain ⟨q, v, h1, rfl, _⟩ := implicitId_ok h
  rcases implicitPrefix_ok h1 with ⟨h2, rfl⟩ | ⟨p, y, h2, h3, _⟩
  · refine ⟨hs, fun p hp => ?_⟩
    obtain ⟨y, h3⟩ := hasPrefix_iff.1 hp
    rw [h2] at h3
    cases h3
  · obtain ⟨h4, h5⟩ := hR _ _ _ _ hs h3
    refine ⟨h4, fun p' hp' => ?_⟩
    rw [hasPrefix_unique hp' (hasPrefix_iff.2 ⟨y, h2⟩)]
    exact h5

theorem expandable_ofStr {v : Str} (h : isKeywordLike v = false) : Expandable.ofStr v = .string v := by
  unfold Expandable.ofStr
  split
  · rename_i k hk
    rw [(C01_exact v k).1 hk] at h
    exact absurd (keyword_form k) (not_keywordForm.1 h)
  · rfl

theorem termRun_ground (hR : Grounds E c d R rc) {s s' : DState} {k : Str} {b : Option STerm} {base : Option Str}
    {prot : Bool} {o : Opts} (hb : lookupKey k d.bindings = some b) (hs : Settled E c d s)
    (h : TermRun R E s ⟨d, none⟩ k b rc base prot o s') : Settled E c d s' ∧ Grounded E c d k := by
  have hb' : Merged.binding ⟨d, none⟩ k = some b := by rw [binding_local]; exact hb
  have hs0 : Settled E c d { s with ctx := s.ctx.eraseNormal k } :=
    ⟨hs.framed.trans (.erase _ hb'), hs.done⟩
  cases h with
  | reverseKeyword d0 s1 d1 v h0 h1 hv hi _ hk =>
    obtain ⟨hs1, ht⟩ := stepType_ground hR hs0 h1
    refine ⟨hs1, grounded_of hb (fun x hx => ?_) fun hn p hp => ?_⟩
    · obtain ⟨h2, h3 | h3 | ⟨h3, _⟩⟩ := mentions_exp hx
      · exact ht x h3 h2
      · rw [hv] at h3
        cases h3
        exact absurd ((C01_form _).1 hk) h2
      · rw [hi] at h3
        cases h3
    · rw [(byName_exp hn hp).1] at hv
      cases hv
  | reverse d0 s1 d1 v s2 t d2 d3 h0 h1 hv hi _ hk h2 =>
    obtain ⟨hs1, ht⟩ := stepType_ground hR hs0 h1
    obtain ⟨hs2, hr⟩ := expandWith_ground hR hs1 h2
    have hg : Grounded E c d k := by
      refine grounded_of hb (fun x hx => ?_) fun hn p hp => ?_
      · obtain ⟨h2, h3 | h3 | ⟨h3, _⟩⟩ := mentions_exp hx
        · exact ht x h3 h2
        · rw [hv] at h3
          cases h3
          exact hr v (by rw [expandable_ofStr hk]) h2
        · rw [hi] at h3
          cases h3
      · rw [(byName_exp hn hp).1] at hv
        cases hv
    refine ⟨Settled.finish (s := { s2 with ctx := _ }) ⟨hs2.framed.trans (.set _ hb' _), hs2.done⟩ ?_, hg⟩
    intro k' hk'
    cases hk'
    exact hg
  | idKeyword d0 s1 d1 i h0 h1 hv hi hk hkw hne =>
    obtain ⟨hs1, ht⟩ := stepType_ground hR hs0 h1
    refine ⟨hs1, grounded_of hb (fun x hx => ?_) fun hn p hp => ?_⟩
    · obtain ⟨h2, h3 | h3 | ⟨h3, _⟩⟩ := mentions_exp hx
      · exact ht x h3 h2
      · rw [hv] at h3
        cases h3
      · rw [hi] at h3
        cases h3
        exact absurd ((C01_form _).1 hk) h2
    · rcases (byName_exp hn hp).2 with h2 | h2
      · rw [hi] at h2
        cases h2
      · rw [hi] at h2
        cases h2
        exact absurd rfl hne
  | full d0 s1 d1 s2 d2 d3 d4 h0 h1 hv h2 =>
    obtain ⟨hs1, ht⟩ := stepType_ground hR hs0 h1
    suffices hh : Settled E c d s2 ∧ Grounded E c d k by
      obtain ⟨hs2, hg⟩ := hh
      refine ⟨Settled.finish (s := { s2 with ctx := _ }) ⟨hs2.framed.trans (.set _ hb' _), hs2.done⟩ ?_, hg⟩
      intro k' hk'
      cases hk'
      exact hg
    rcases stepId_ok h2 with ⟨hi, h3⟩ | ⟨hi, d', h3, _⟩ | ⟨i, hi, hne, h3⟩
    · cases h3
      refine ⟨hs1, grounded_of hb (fun x hx => ?_) fun hn p hp => ?_⟩
      · obtain ⟨h2, h3 | h3 | ⟨h3, _⟩⟩ := mentions_exp hx
        · exact ht x h3 h2
        · rw [hv] at h3
          cases h3
        · rw [hi] at h3
          cases h3
      · rcases (byName_exp hn hp).2 with h2 | h2 <;> (rw [hi] at h2; cases h2)
    · obtain ⟨hs2, hp⟩ := implicitId_ground hR hs1 h3
      refine ⟨hs2, grounded_of hb (fun x hx => ?_) fun _ => hp⟩
      obtain ⟨h2, h3 | h3 | ⟨h3, h4⟩⟩ := mentions_exp hx
      · exact ht x h3 h2
      · rw [hv] at h3
        cases h3
      · rcases hi with hi | hi
        · rw [hi] at h3
          cases h3
        · rw [hi] at h3
          cases h3
          exact absurd rfl h4
    · rcases explicitId_ok h3 with ⟨_, _, h4⟩ | ⟨_, q, v, d', h4, _, h5, _⟩
      · cases h4
      · obtain ⟨hs2, hx⟩ := expandWith_ground hR hs1 h4
        have hg : Grounded E c d k := by
          refine grounded_of hb (fun x hm => ?_) fun hn p hp => ?_
          · obtain ⟨h2, h3 | h3 | ⟨h3, _⟩⟩ := mentions_exp hm
            · exact ht x h3 h2
            · rw [hv] at h3
              cases h3
            · rw [hi] at h3
              cases h3
              exact hx x rfl h2
          · rcases (byName_exp hn hp).2 with h2 | h2
            · rw [hi] at h2
              cases h2
            · rw [hi] at h2
              cases h2
              exact absurd rfl hne
        refine ⟨?_, hg⟩
        rcases checkTerm_ok h5 with ⟨_, h6⟩ | ⟨_, t, h6, _⟩
        · simp only at h6
          rw [h6]
          exact hs2
        · exact (expandWith_ground hR (hs2.finish fun k' hk' => by cases hk'; exact hg) h6).1

theorem define_ground (n : Nat) : ∀ (s s' : DState) (t : DKey) (base : Option Str) (prot : Bool) (o : Opts),
    Settled E c d s → (recN E n).define s ⟨d, none⟩ t rc base prot o = .ok s' →
      Settled E c d s' ∧ ∀ k, t = .key k → Grounded E c d k := by
  induction n with
  | zero => intro s s' t base prot o _ h; cases h
  | succ n ih =>
    intro s s' t base prot o hs h
    have hR : Grounds E c d (recN E n) rc := fun s s' x o hs h =>
      ⟨(ih s s' _ none false o hs h).1, (ih s s' _ none false o hs h).2 x rfl⟩
    cases defineBody_ok h with
    | done t hd => exact ⟨hs, fun k hk => by subst hk; exact hs.done k hd⟩
    | noType => exact ⟨(hs.started _).finish nofun, nofun⟩
    | type p _ _ _ =>
      refine ⟨?_, nofun⟩
      refine Settled.finish (t := .type) ?_ nofun
      exact ⟨hs.framed.trans ⟨rfl, rfl, rfl, rfl, rfl, rfl, fun _ _ => rfl⟩, fun k hk => (hs.started .type).done k hk⟩
    | absent k _ _ hb =>
      have hg : Grounded E c d k := by
        rw [binding_local] at hb
        refine .intro _ fun u hu => ?_
        cases hu with
        | term b' hb' => rw [hb] at hb'; cases hb'
        | pre b' s hb' => rw [hb] at hb'; cases hb'
        | name b' hb' => rw [hb] at hb'; cases hb'
      refine ⟨(hs.started _).finish fun k' hk' => ?_, fun k' hk' => ?_⟩ <;> (cases hk'; exact hg)
    | term k b s' hl hk hb hr =>
      rw [binding_local] at hb
      obtain ⟨h1, h2⟩ := termRun_ground hR hb (hs.started _) hr
      exact ⟨h1, fun k' hk' => by cases hk'; exact h2⟩

theorem defineAll_ground {n : Nat} {base : Option Str} {prot : Bool} {o : Opts} :
    ∀ (bs : List (Str × Option STerm)) (s s' : DState), Settled E c d s →
      defineAll (recN E n) ⟨d, none⟩ rc base prot o bs s = .ok s' → ∀ b ∈ bs, Grounded E c d b.1 := by
  intro bs
  induction bs with
  | nil => intro s s' _ _ b hb; cases hb
  | cons b bs ih =>
    intro s s' hs h
    unfold defineAll at h
    rw [bindOk] at h
    obtain ⟨s1, h1, h2⟩ := h
    obtain ⟨h3, h4⟩ := define_ground n _ _ _ _ _ _ hs h1
    intro b' hb'
    rcases List.mem_cons.1 hb' with rfl | hb'
    · exact h4 _ rfl
    · exact ih _ _ h3 h2 b' hb'

end

theorem dependsOn_defs {E : ProcEnv} {c c' : ACtx} {d : SDef} (hd : c'.defs = c.defs) :
    DependsOn E c' d = DependsOn E c d := by
  funext k u
  refine propext ⟨fun h => ?_, fun h => ?_⟩
  · cases h with
    | term b h1 h2 => exact .term b h1 h2
    | pre b s h1 h2 h3 h4 h5 h6 h7 => exact .pre b s h1 h2 h3 (hd ▸ h4) h5 h6 h7
    | name b h1 h2 h3 => exact .name b h1 h2 h3
  · cases h with
    | term b h1 h2 => exact .term b h1 h2
    | pre b s h1 h2 h3 h4 h5 h6 h7 => exact .pre b s h1 h2 h3 (hd ▸ h4) h5 h6 h7
    | name b h1 h2 h3 => exact .name b h1 h2 h3

theorem grounded_defs {E : ProcEnv} {c c' : ACtx} {d : SDef} (hd : c'.defs = c.defs) {k : Str} :
    Grounded E c' d k ↔ Grounded E c d k := by
  unfold Grounded
  rw [dependsOn_defs hd]

/-- The terms of an accepted definition are grounded. -/
theorem processDef_ground {E : ProcEnv} {c c' : ACtx} {d : SDef} {n : Nat} {rc : List Str} {base : Option Str}
    {o : Opts} (hi : d.import_ = none) (h : processDef (recN E n) E c d rc base o = .ok c') :
    ∀ k, Grounded E c d k := by
  obtain ⟨i, c1, c2, c3, s1, s2, h1, h2, h3, h4, h5, h6, _⟩ := processDef_ok h
  have hi' : i = none := by
    rcases importOf_ok h1 with ⟨h, _⟩ | ⟨r, _, _, _, h, _⟩
    · exact h
    · rw [hi] at h; cases h
  subst hi'
  have hd : c3.defs = c.defs := by
    obtain ⟨_, rfl⟩ := stepBase_defs h2
    obtain ⟨_, rfl⟩ := stepVocab_defs h3
    obtain ⟨_, _, rfl⟩ := stepLang_defs h4
    rfl
  have e := fun k => grounded_defs (E := E) (d := d) hd (k := k)
  have hs0 : Settled E c3 d ⟨c3, []⟩ := ⟨.refl _ _, nofun⟩
  have hs1 : Settled E c3 d s1 := by
    unfold defineTypeEntry at h5
    split at h5
    · exact (define_ground n _ _ _ _ _ _ hs0 h5).1
    · cases h5; exact hs0
  intro k
  rw [← e]
  cases hb : lookupKey k d.bindings with
  | none =>
    refine .intro _ fun u hu => ?_
    cases hu with
    | term b' hb' => rw [hb] at hb'; cases hb'
    | pre b' s hb' => rw [hb] at hb'; cases hb'
    | name b' hb' => rw [hb] at hb'; cases hb'
  | some b =>
    have hm : (k, b) ∈ Merged.bindings ⟨d, none⟩ := by
      show (k, b) ∈ [] ++ d.bindings
      exact lookupKey_mem hb
    exact defineAll_ground _ _ _ hs1 h6 (k, b) hm

theorem acc_no_chain {α : Type} {r : α → α → Prop} {a : α} (h : Acc (fun u k => r k u) a) : ¬ Chain r a a := by
  induction h with
  | intro a _ ih =>
    intro hc
    have key : ∀ {x y}, Chain r x y → ∀ {z}, r y z → Chain r x z := by
      intro x y hxy
      induction hxy with
      | one h => exact fun hz => .step h (.one hz)
      | step h _ ih => exact fun hz => .step h (ih hz)
    cases hc with
    | one h => exact ih a h (.one h)
    | step h hc => exact ih _ h (key hc h)

end JsonLd
