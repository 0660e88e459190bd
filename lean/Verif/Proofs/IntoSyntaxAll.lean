import Verif.Proofs.IntoSyntax
import Verif.Proofs.Inverse
import Verif.Proofs.CtxJson
import Mathlib.Data.List.Perm.Basic
/-!
# Lemmas for C61: whole contexts
-/

namespace JsonLd
open JsonLd.Spec

/-- The bindings of a context that was written down. -/
theorem bindingsIntoSyntax_iff {ds : List (Str × TermDef)} {bs : List (Str × Option STerm)} :
    bindingsIntoSyntax ds = some bs ↔
      List.Forall₂ (fun p b => b.1 = p.1 ∧ p.2.intoSyntax = some b.2) ds bs := by
  induction ds generalizing bs with
  | nil =>
    constructor
    · intro h; cases h; exact .nil
    · intro h; cases h; rfl
  | cons p ds ih =>
    obtain ⟨k, d⟩ := p
    unfold bindingsIntoSyntax
    rw [Option.bind_eq_some_iff]
    constructor
    · rintro ⟨b, h1, h2⟩
      rw [Option.map_eq_some_iff] at h2
      obtain ⟨bs', h3, rfl⟩ := h2
      exact .cons ⟨rfl, h1⟩ (ih.1 h3)
    · intro h
      cases h with
      | @cons _ b _ bs' h1 h2 =>
        obtain ⟨k', b⟩ := b
        obtain ⟨h1, h3⟩ := h1
        dsimp only at h1 h3
        subst h1
        refine ⟨b, h3, ?_⟩
        rw [ih.2 h2]
        rfl

theorem forall₂_keys {ds : List (Str × TermDef)} {bs : List (Str × Option STerm)}
    (h : List.Forall₂ (fun p b => b.1 = p.1 ∧ p.2.intoSyntax = some b.2) ds bs) :
    bs.map Prod.fst = ds.map Prod.fst := by
  induction h with
  | nil => rfl
  | cons h _ ih => rw [List.map_cons, List.map_cons, h.1, ih]

theorem lookupKey_keys {α : Type} {m : List (Str × α)} {k : Str} (h : lookupKey k m = none) :
    k ∉ m.map Prod.fst := by
  induction m with
  | nil => simp
  | cons a m ih =>
    unfold lookupKey at h
    split at h
    · cases h
    · rename_i hne
      rw [List.map_cons, List.mem_cons, not_or]
      exact ⟨fun e => hne e.symm, ih h⟩

section
variable {E : ProcEnv} {m : Merged} {rc : List Str} {o : Opts} {c : ACtx}
  (hm : ∀ x, lookupKey x c.defs = none → m.binding x = none)
include hm

theorem defineAll_back (ho : o.mode = .v11) (hk : o.vocab = .keep) (n : Nat) {base : Option Str}
    {ds : List (Str × TermDef)} {bs : List (Str × Option STerm)}
    (h : List.Forall₂ (fun p b => b.1 = p.1 ∧ p.2.intoSyntax = some b.2) ds bs)
    (hsub : ∀ p ∈ ds, p ∈ c.defs ∧ Expressible E.toIriEnv c p.1 p.2)
    (hb : ∀ b ∈ bs, m.binding b.1 = some b.2) (hnd : (ds.map Prod.fst).Nodup) (hcd : (c.defs.map Prod.fst).Nodup)
    {s : DState} (hs : Calm m s) (hw : CtxWithin c s)
    (hnew : ∀ p ∈ ds, lookupDef (.key p.1) s.defd = none ∧ ∀ q ∈ s.ctx.defs, q.1 ≠ p.1) :
    ∃ s', defineAll (recN E (n + 2)) m rc base false o bs s = .ok s' ∧
      s'.ctx = { s.ctx with defs := ds.reverse ++ s.ctx.defs } := by
  induction h generalizing s with
  | nil =>
    refine ⟨s, rfl, ?_⟩
    generalize s.ctx = x
    cases x
    rfl
  | @cons p b ds bs h h' ih =>
    obtain ⟨k, d⟩ := p
    obtain ⟨k', b⟩ := b
    obtain ⟨h1, h2⟩ := h
    dsimp only at h1 h2
    subst h1
    rw [List.map_cons, List.nodup_cons] at hnd
    obtain ⟨hin, hex⟩ := hsub (k', d) (by simp)
    obtain ⟨hn1, hn2⟩ := hnew (k', d) (by simp)
    obtain ⟨s1, e1, hc1, hd1⟩ := define_back hm (skips_succ n m) (rc := rc) ho hk hs hw hex h2 (hb (k', b) (by simp))
      hn1 hn2 (base := base)
    have hs1 : Calm m s1 := by
      intro x hx
      rcases hd1 (.key x) with h3 | h3
      · rw [h3]; exact hs x hx
      · rw [h3.1]; nofun
    have hw1 : CtxWithin c s1 := by
      refine ⟨fun x hx => ?_, by rw [hc1]; exact hw.vocab⟩
      rw [hc1]
      show (if k' = x then some d else lookupKey x s.ctx.defs) = none
      rw [if_neg]
      · exact hw.sub x hx
      · rintro rfl
        rw [(lookupKey_iff_mem hcd).2 hin] at hx
        cases hx
    obtain ⟨s2, e2, hc2⟩ := ih (fun p hp => hsub p (by simp [hp])) (fun b hb' => hb b (by simp [hb'])) hnd.2 hs1 hw1 (by
      intro p hp
      have hpk : p.1 ≠ k' := by
        rintro e
        have := List.mem_map_of_mem (f := Prod.fst) hp
        rw [e] at this
        exact hnd.1 this
      obtain ⟨h3, h4⟩ := hnew p (by simp [hp])
      constructor
      · rcases hd1 (.key p.1) with h5 | ⟨_, h5 | ⟨x, h5, h6⟩⟩
        · rw [h5]; exact h3
        · cases h5; exact absurd rfl hpk
        · cases h5
          obtain ⟨i, hi, hi'⟩ : ∃ b ∈ bs, b.1 = p.1 := by
            have : p.1 ∈ bs.map Prod.fst := by rw [forall₂_keys h']; exact List.mem_map_of_mem hp
            rw [List.mem_map] at this
            exact this
          have := hb i (by simp [hi])
          rw [hi', h6] at this
          cases this
      · intro q hq
        rw [hc1] at hq
        rcases List.mem_cons.1 hq with rfl | hq
        · exact fun e => hpk e.symm
        · exact h4 q hq)
    refine ⟨s2, ?_, ?_⟩
    · show (defineBody (recN E (n + 1)) E s m (.key k') rc base false o).bind _ = _
      rw [e1]
      exact e2
    · rw [hc2, hc1, List.reverse_cons, List.append_assoc]
      rfl

end

/-- A vocabulary mapping that was written down is read again. -/
theorem stepVocab_back {E : ProcEnv} {o : Opts} {c : ACtx} (hc : c.defs = []) (hv : c.vocab = none) {v : Option CTerm}
    (h : PlainVocab E.toIriEnv v) {x : Option (Option Str)} (hx : vocabIntoSyntax v = some x) {m : Merged}
    (hm : m.vocab = x) : stepVocab E m o c = .ok { c with vocab := v } := by
  have key : ∀ {s : Str}, Unbound E.toIriEnv {} s → expandTerm c s (some o.vocab) = none := by
    intro s hs
    unfold expandTerm ACtx.getValue
    rw [if_neg (by rintro rfl; exact absurd hs.keyword (by decide))]
    show (match (lookupKey s c.defs).map (·.value) with | none => none | some v => _) = none
    rw [hc]
    rfl
  unfold stepVocab
  cases h with
  | none =>
    cases hx
    rw [hm]
    cases c
    cases hv
    rfl
  | iri s h =>
    cases hx
    rw [hm]
    dsimp only
    have : expandStr E.toIriEnv c s true (some o.vocab) = .ok (some (.id (.iri s))) := by
      unfold expandStr
      rw [if_neg (by rw [h.keyword]; nofun), key h.toUnbound]
      dsimp only
      rw [if_pos h.colon, if_neg (by rw [h.blank]; nofun), if_neg h.notEmpty]
      have : ((compactIri E.toIriEnv s).bind fun q => expandPrefix E.toIriEnv c q.1 q.2) = none := by
        cases compactIri E.toIriEnv s with
        | none => rfl
        | some q =>
          show expandPrefix E.toIriEnv c q.1 q.2 = none
          unfold expandPrefix ACtx.getNormal
          rw [hc]
          rfl
      rw [this]
      dsimp only
      rw [if_pos h.iri]
    show (match expandStr E.toIriEnv c s true (some o.vocab) with | .error () => _ | .ok (some (.id i)) => _ | .ok _ => _) = _
    rw [this]
  | blank s h =>
    cases hx
    rw [hm]
    dsimp only
    have : expandStr E.toIriEnv c s true (some o.vocab) = .ok (some (.id (.blank s))) := by
      unfold expandStr
      rw [if_neg (by rw [h.keyword]; nofun), key h.toUnbound]
      dsimp only
      rw [if_pos h.colon, if_pos h.blank]
    show (match expandStr E.toIriEnv c s true (some o.vocab) with | .error () => _ | .ok (some (.id i)) => _ | .ok _ => _) = _
    rw [this]

/-- The context that is written down is read again. -/
theorem process_back {E : ProcEnv} {c : ACtx} (hc : Writable E.toIriEnv c) {d : SDef} (hd : c.intoSyntax = some d)
    {bs : List (Str × Option STerm)} (hp : bs.Perm d.bindings) {base : Option Str} {o : Opts} (ho : o.mode = .v11)
    (hk : o.vocab = .keep) (hpr : o.propagate = true) :
    ∃ defs, defs.Perm c.defs ∧
      (recN E 3).process (ACtx.new c.originalBase) (.one (.defn { d with bindings := bs })) [] base o =
        .ok { c with defs := defs } := by
  unfold ACtx.intoSyntax at hd
  rw [Option.bind_eq_some_iff] at hd
  obtain ⟨v, hv, hd⟩ := hd
  rw [Option.map_eq_some_iff] at hd
  obtain ⟨bs', hbs', rfl⟩ := hd
  dsimp only at hp
  obtain ⟨ds, hds, hpd⟩ : ∃ ds, List.Forall₂ (fun p b => b.1 = p.1 ∧ p.2.intoSyntax = some b.2) ds bs ∧
      ds.Perm c.defs := by
    have := bindingsIntoSyntax_iff.1 hbs'
    obtain ⟨x, h1, h2⟩ := List.perm_comp_forall₂ hp this.flip
    exact ⟨x, h1.flip, h2⟩
  generalize hm : (⟨⟨c.base.map some, none, c.language.map some, c.direction.map some, none, none,
    c.typeDef.map fun p => if p then some true else none, false, v, bs⟩, none⟩ : Merged) = m
  have hkeys : bs.map Prod.fst = ds.map Prod.fst := forall₂_keys hds
  have hperm : (ds.map Prod.fst).Perm (c.defs.map Prod.fst) := hpd.map _
  have hnd : (ds.map Prod.fst).Nodup := hperm.nodup_iff.2 hc.keys
  have hbind : ∀ x, m.binding x = lookupKey x bs := by
    intro x
    subst hm
    show (lookupKey x bs).or none = _
    rw [Option.or_none]
  refine ⟨ds.reverse, ds.reverse_perm.trans hpd, ?_⟩
  show processBody (recN E 2) E _ _ [] base o = _
  unfold processBody
  show processEntries (recN E 2) E c.originalBase base o [SEntry.defn _] (startContext (ACtx.new c.originalBase) o) [] = _
  have hst : startContext (ACtx.new c.originalBase) o = ACtx.new c.originalBase := by
    unfold startContext
    rw [if_neg (by rw [hpr]; rintro ⟨h, _⟩; cases h)]
  rw [hst]
  have hdef : processDef (recN E 2) E (ACtx.new c.originalBase) m.base [] base o = .ok { c with defs := ds.reverse } := by
    unfold processDef
    rw [if_neg (by subst hm; rintro ⟨h, _⟩; cases h)]
    have himp : importOf E m.base base o = .ok none := by subst hm; rfl
    rw [himp]
    show (stepBase E ⟨m.base, none⟩ [] _).bind _ = _
    rw [show (⟨m.base, none⟩ : Merged) = m by subst hm; rfl]
    have hbase : stepBase E m [] (ACtx.new c.originalBase) = .ok { originalBase := c.originalBase, base := c.base } := by
      unfold stepBase
      rw [if_pos (by rfl)]
      rcases hc.base with ⟨b, h1, h2⟩ | ⟨h1, h2⟩
      · rw [show m.baseValue = some (some b) by subst hm; show ((c.base.map some).or none) = _; rw [h1]; rfl]
        dsimp only
        rw [if_pos h2, h1]
        rfl
      · rw [show m.baseValue = none by subst hm; show ((c.base.map some).or none) = _; rw [h1]; rfl]
        dsimp only
        rw [h1, h2]
        rfl
    rw [hbase]
    show (stepVocab E m o _).bind _ = _
    rw [stepVocab_back (v := c.vocab) rfl rfl hc.vocab hv (by subst hm; show v.or none = _; rw [Option.or_none])]
    show (stepDefaultDirection m o (stepDefaultLanguage m _)).bind _ = _
    have hl : stepDefaultLanguage m { originalBase := c.originalBase, base := c.base, vocab := c.vocab } =
        { originalBase := c.originalBase, base := c.base, vocab := c.vocab, language := c.language } := by
      unfold stepDefaultLanguage
      rw [show m.language = c.language.map some by subst hm; exact Option.or_none]
      cases c.language <;> rfl
    have hdi : stepDefaultDirection m o { originalBase := c.originalBase, base := c.base, vocab := c.vocab, language := c.language } =
        .ok { originalBase := c.originalBase, base := c.base, vocab := c.vocab, language := c.language, direction := c.direction } := by
      unfold stepDefaultDirection
      rw [show m.direction = c.direction.map some by subst hm; exact Option.or_none]
      cases c.direction with
      | none => rfl
      | some d =>
        show (if _ then _ else _) = _
        rw [if_neg (by rw [ho]; nofun)]
    dsimp only
    rw [hl, hdi]
    show (defineTypeEntry (recN E 2) m [] base o _).bind _ = _
    have hprot : m.protected_.getD false = false := by subst hm; rfl
    obtain ⟨s, hty, hs, hs'⟩ : ∃ s, defineTypeEntry (recN E 2) m [] base o ⟨{ originalBase := c.originalBase, base := c.base, vocab := c.vocab, language := c.language, direction := c.direction }, []⟩ =
        .ok s ∧ s.ctx = { originalBase := c.originalBase, base := c.base, vocab := c.vocab, language := c.language, direction := c.direction, typeDef := c.typeDef } ∧
        ∀ x, lookupDef (.key x) s.defd = none := by
      unfold defineTypeEntry
      rw [show m.type = c.typeDef.map fun p => if p then some true else none by subst hm; exact Option.or_none]
      cases ht : c.typeDef with
      | none => exact ⟨_, rfl, rfl, fun _ => rfl⟩
      | some p =>
        rw [if_pos (by rfl)]
        refine ⟨⟨{ originalBase := c.originalBase, base := c.base, vocab := c.vocab, language := c.language, direction := c.direction, typeDef := some p }, [(.type, false), (.type, true)]⟩, ?_, rfl, ?_⟩
        · show defineNew (recN E 1) E _ m .type [] base (m.protected_.getD false) o = _
          unfold defineNew
          dsimp only
          rw [show m.type = c.typeDef.map fun p => if p then some true else none by subst hm; exact Option.or_none, ht]
          show (defineType o _ _).bind _ = _
          have : ∀ x : ACtx, x.typeDef = none → defineType o x (if p then some true else none) = .ok { x with typeDef := some p } := by
            intro x hx
            unfold defineType
            rw [if_neg (by rw [ho]; nofun), hx]
            cases p <;> cases o.override <;> rfl
          rw [this _ rfl]
          rfl
        · intro x
          rfl
    rw [hty]
    show (defineAll (recN E 2) m [] base (m.protected_.getD false) o m.bindings s).bind _ = _
    rw [hprot, show m.bindings = bs by subst hm; rfl]
    obtain ⟨s', h1, h2⟩ := defineAll_back (E := E) (m := m) (rc := []) (c := c) (by
        intro x hx
        rw [hbind]
        apply lookupKey_none_append
        rw [hkeys]
        exact fun h => lookupKey_keys hx (hperm.mem_iff.1 h)) ho hk 0 (base := base) hds
      (fun p hp => ⟨hpd.mem_iff.1 hp, hc.terms p.1 p.2 (hpd.mem_iff.1 hp)⟩)
      (fun b hb => by
        rw [hbind]
        exact (lookupKey_iff_mem (by rw [hkeys]; exact hnd)).2 hb) hnd hc.keys (s := s)
      (fun x _ => by rw [hs']; nofun)
      ⟨fun x _ => by rw [hs]; rfl, by rw [hs]⟩
      (fun p _ => ⟨hs' p.1, by rw [hs]; intro q hq; cases hq⟩)
    rw [h1]
    show Except.ok s'.ctx = _
    rw [h2, hs, ← hc.previous]
    show Except.ok (ACtx.mk _ _ _ _ _ _ (ds.reverse ++ []) _) = _
    rw [List.append_nil]
  unfold processEntries
  show (processEntry (recN E 2) E c.originalBase base o _ [] (.defn _)).bind _ = _
  unfold processEntry
  subst hm
  dsimp only at hdef ⊢
  rw [hdef]
  rfl

/-- Contexts that can be written down are written down without a panic. -/
theorem intoSyntax_total {E : IriEnv} {c : ACtx} (hc : Writable E c) : ∃ d, c.intoSyntax = some d := by
  unfold ACtx.intoSyntax
  obtain ⟨v, hv⟩ : ∃ v, vocabIntoSyntax c.vocab = some v := by
    have := hc.vocab
    generalize c.vocab = v at this
    cases this <;> exact ⟨_, rfl⟩
  obtain ⟨bs, hbs⟩ : ∃ bs, bindingsIntoSyntax c.defs = some bs := by
    have ht := hc.terms
    revert ht
    generalize hl : c.defs = l
    clear hl
    intro ht
    induction l with
    | nil => exact ⟨_, rfl⟩
    | cons p l ih =>
      obtain ⟨k, d⟩ := p
      obtain ⟨bs, hbs⟩ := ih fun k d h => ht k d (by simp [h])
      obtain ⟨b, hb⟩ : ∃ b, d.intoSyntax = some b := by
        have hd := ht k d (by simp)
        unfold TermDef.intoSyntax
        cases hr : d.reverse with
        | true =>
          obtain ⟨⟨i, hi⟩, _⟩ := hd.reverse hr
          rw [if_pos rfl, hi]
          exact ⟨_, rfl⟩
        | false => exact ⟨_, rfl⟩
      exact ⟨(k, b) :: bs, by unfold bindingsIntoSyntax; rw [hb, hbs]; rfl⟩
  rw [hv, hbs]
  exact ⟨_, rfl⟩

end JsonLd
