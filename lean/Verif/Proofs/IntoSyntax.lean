import Verif.Proofs.Process
import Verif.Proofs.Reexpand
import Verif.Spec.IntoSyntax
/-!
# Lemmas for C61
-/

namespace JsonLd
open JsonLd.Spec

/-- Nothing but keys without a binding were added to the defined terms. -/
structure Quiet (m : Merged) (s s' : DState) : Prop where
  ctx : s'.ctx = s.ctx
  defd : ∀ t, lookupDef t s'.defd = lookupDef t s.defd ∨
    lookupDef t s'.defd = some false ∧ ∃ x, t = .key x ∧ m.binding x = none

theorem Quiet.refl (m : Merged) (s : DState) : Quiet m s s := ⟨rfl, fun _ => .inl rfl⟩

theorem Quiet.trans {m : Merged} {a b c : DState} (h : Quiet m a b) (h' : Quiet m b c) : Quiet m a c := by
  refine ⟨h'.ctx.trans h.ctx, fun t => ?_⟩
  rcases h'.defd t with h1 | h1
  · rw [h1]; exact h.defd t
  · exact .inr h1

/-- Keys without a binding are not pending. -/
def Calm (m : Merged) (s : DState) : Prop := ∀ x, m.binding x = none → lookupDef (.key x) s.defd ≠ some true

theorem Calm.quiet {m : Merged} {s s' : DState} (h : Calm m s) (q : Quiet m s s') : Calm m s' := by
  intro x hx
  rcases q.defd (.key x) with h1 | h1
  · rw [h1]; exact h x hx
  · rw [h1.1]; nofun

section
variable {E : ProcEnv} {R : Rec} {m : Merged} {rc : List Str} {o : Opts}

/-- Calls of `define` for keys without a binding do nothing. -/
def Skips (R : Rec) (m : Merged) : Prop := ∀ s x rc base prot o, Calm m s → x ≠ [] → m.binding x = none →
  ∃ s', R.define s m (.key x) rc base prot o = .ok s' ∧ Quiet m s s'

theorem skips_succ (n : Nat) (m : Merged) : Skips (recN E (n + 1)) m := by
  intro s x rc base prot o hc hne hb
  show ∃ s', defineBody (recN E n) E s m (.key x) rc base prot o = .ok s' ∧ _
  unfold defineBody DState.start
  cases hd : lookupDef (.key x) s.defd with
  | some b =>
    cases b with
    | true => exact absurd hd (hc x hb)
    | false => exact ⟨s, rfl, .refl m s⟩
  | none =>
    show ∃ s', defineNew (recN E n) E _ m (.key x) rc base prot o = .ok s' ∧ _
    unfold defineNew
    dsimp only
    rw [if_neg hne, hb]
    refine ⟨_, rfl, rfl, fun t => ?_⟩
    by_cases ht : t = .key x
    · subst ht
      exact .inr ⟨by simp [DState.finish, lookupDef], x, rfl, hb⟩
    · left
      have : ¬ DKey.key x = t := fun h => ht h.symm
      simp [DState.finish, lookupDef, this]

/-- The part of the context that is there already. -/
structure CtxWithin (c : ACtx) (s : DState) : Prop where
  sub : ∀ k, lookupKey k c.defs = none → lookupKey k s.ctx.defs = none
  vocab : s.ctx.vocab = c.vocab

variable {c : ACtx} (hm : ∀ x, lookupKey x c.defs = none → m.binding x = none) (hR : Skips R m)
include hm hR

omit hm hR in
theorem colonInside_split {s : Str} (h : colonInside s = true) : ∃ p y, splitOnce ':' s = some (p, y) ∧ p ≠ [] := by
  unfold colonInside at h
  split at h
  · rename_i p y hs
    exact ⟨p, y, hs, by rintro rfl; simp at h⟩
  · cases h

omit hm hR in
theorem colonInside_mem {s : Str} (h : colonInside s = true) : ':' ∈ s := by
  obtain ⟨p, y, h, _⟩ := colonInside_split h
  by_contra hn
  rw [splitOnce_eq_none.2 hn] at h
  cases h

theorem expandWith_iri {s : DState} (hs : Calm m s) (hw : CtxWithin c s) {x : Str} (hx : PlainIri E.toIriEnv c x)
    {voc : Option Action} {dr : Bool} :
    ∃ s', expandWith R E s (some (.string x)) dr voc m rc o = .ok (s', some (.id (.iri x))) ∧ Quiet m s s' := by
  obtain ⟨p, y, hsp, hpne⟩ := colonInside_split hx.colon
  have hne : x ≠ [] := by rintro rfl; cases hsp
  obtain ⟨s1, h1, q1⟩ := hR s x rc none false o.noOverride hs hne (hm x hx.term)
  have ht : x ≠ "@type".toList := by
    rintro rfl
    exact absurd hx.keyword (by decide)
  have hterm : expandTerm s1.ctx x voc = none := by
    unfold expandTerm ACtx.getValue
    rw [if_neg ht, q1.ctx]
    show (match (lookupKey x s.ctx.defs).map (·.value) with | none => none | some v => _) = none
    rw [hw.sub x hx.term]
    rfl
  unfold expandWith
  dsimp only
  rw [if_neg (by rw [hx.keyword]; nofun), h1]
  show ∃ s', expandAfter R E s1 x dr voc m rc o = _ ∧ _
  unfold expandAfter
  rw [hterm]
  dsimp only
  rw [if_pos hx.colon, if_neg (by rw [hx.blank]; nofun), if_neg hx.notEmpty]
  unfold expandCompact
  cases hci : compactIri E.toIriEnv x with
  | none =>
    dsimp only
    unfold expandAbs
    rw [if_pos hx.iri]
    exact ⟨s1, rfl, q1⟩
  | some py =>
    obtain ⟨p', y'⟩ := py
    have hp' : p' ≠ [] := by
      unfold compactIri at hci
      rw [hsp] at hci
      dsimp only at hci
      split at hci
      · split at hci
        · cases hci; exact hpne
        · cases hci
      · cases hci
    obtain ⟨s2, h2, q2⟩ := hR s1 p' rc none false o.noOverride (hs.quiet q1) hp' (hm p' (hx.pre p' y' hci))
    dsimp only
    rw [h2]
    show ∃ s', (match expandPrefix E.toIriEnv s2.ctx p' y' with
      | some t => Except.ok (s2, some t)
      | none => expandAbs E s2 x dr voc) = _ ∧ _
    have : expandPrefix E.toIriEnv s2.ctx p' y' = none := by
      unfold expandPrefix ACtx.getNormal
      rw [q2.ctx, q1.ctx, hw.sub p' (hx.pre p' y' hci)]
    rw [this]
    dsimp only
    unfold expandAbs
    rw [if_pos hx.iri]
    exact ⟨s2, rfl, q1.trans q2⟩

theorem expandWith_blank {s : DState} (hs : Calm m s) (hw : CtxWithin c s) {x : Str} (hx : PlainBlank E.toIriEnv c x)
    {voc : Option Action} {dr : Bool} :
    ∃ s', expandWith R E s (some (.string x)) dr voc m rc o = .ok (s', some (.id (.blank x))) ∧ Quiet m s s' := by
  obtain ⟨p, y, hsp, hpne⟩ := colonInside_split hx.colon
  have hne : x ≠ [] := by rintro rfl; cases hsp
  obtain ⟨s1, h1, q1⟩ := hR s x rc none false o.noOverride hs hne (hm x hx.term)
  have ht : x ≠ "@type".toList := by
    rintro rfl
    exact absurd hx.keyword (by decide)
  have hterm : expandTerm s1.ctx x voc = none := by
    unfold expandTerm ACtx.getValue
    rw [if_neg ht, q1.ctx]
    show (match (lookupKey x s.ctx.defs).map (·.value) with | none => none | some v => _) = none
    rw [hw.sub x hx.term]
    rfl
  unfold expandWith
  dsimp only
  rw [if_neg (by rw [hx.keyword]; nofun), h1]
  show ∃ s', expandAfter R E s1 x dr voc m rc o = _ ∧ _
  unfold expandAfter
  rw [hterm]
  dsimp only
  rw [if_pos hx.colon, if_pos hx.blank]
  exact ⟨s1, rfl, q1⟩

theorem stepType_back {s : DState} (hs : Calm m s) (hw : CtxWithin c s) (ho : o.mode = .v11)
    {ty : Option TypeMap} (hty : ∀ x, ty = some (.iri x) → PlainIri E.toIriEnv c x) {x : SExp}
    (hx : x.type = ty.map fun t => some t.intoSyntax) {d : TermDef} (hd : d.typ = none) :
    ∃ s', stepType R E s m x rc o d = .ok (s', { d with typ := ty }) ∧ Quiet m s s' := by
  unfold stepType
  rw [hx]
  cases ty with
  | none =>
    refine ⟨s, ?_, .refl m s⟩
    obtain ⟨v, pf, pr, rv, bu, cx, co, di, ix, la, ne, ty⟩ := d
    cases hd
    rfl
  | some t =>
    have map : ∀ (u : CTerm), TypeMap.ofTerm u = some t → typeMapping o (some u) d = .ok { d with typ := some t } := by
      intro u hu
      unfold typeMapping
      dsimp only
      rw [if_neg (by rw [ho]; rintro ⟨h, _⟩; cases h), hu]
    have kw : ∀ k : STypeKeyword, t.intoSyntax = .keyword k → TypeMap.ofTerm (.keyword k.keyword) = some t →
        ∃ s', (expandWith R E s ((some t.intoSyntax).map SType.expandable) false (some o.vocab) m rc o).bind (fun r =>
          (typeMapping o r.2 d).bind fun d => Except.ok (r.1, d)) = .ok (s', { d with typ := some t }) ∧
          Quiet m s s' := by
      intro k h1 h2
      refine ⟨s, ?_, .refl m s⟩
      rw [h1]
      show (typeMapping o (some (.keyword k.keyword)) d).bind _ = _
      rw [map _ h2]
      rfl
    cases t with
    | id => exact kw .id rfl rfl
    | json => exact kw .json rfl rfl
    | none => exact kw .none rfl rfl
    | vocab => exact kw .vocab rfl rfl
    | iri x =>
      obtain ⟨s1, h1, q1⟩ := expandWith_iri hm hR (E := E) (rc := rc) (o := o) hs hw (hty x rfl)
        (voc := some o.vocab) (dr := false)
      refine ⟨s1, ?_, q1⟩
      show (expandWith R E s (some (.string x)) false (some o.vocab) m rc o).bind _ = _
      rw [h1]
      show (typeMapping o (some (.id (.iri x))) d).bind _ = _
      rw [map _ rfl]
      rfl

/-- The meaning of a term, written as `@id`. -/
theorem explicitId_back {s : DState} (hs : Calm m s) (hw : CtxWithin c s) {k : Str} (hk : ':' ∉ k ∧ '/' ∉ k)
    {t : CTerm} (ht : Meaning E.toIriEnv c t) {i : SId} (hi : t.syntaxId = some i) {simple : Bool} {d : TermDef}
    (hg : simple = true → genDelimOrBlank t = false) :
    ∃ s', explicitId R E s m k i simple rc o d = .ok (s', some { d with value := some t }) ∧ Quiet m s s' ∧
      i ≠ .term k := by
  have rest : ∀ s', Quiet m s s' → expandWith R E s (some i.expandable) false (some o.vocab) m rc o = .ok (s', some t) →
      ¬ (isKeywordLike i.str = true ∧ i.isKeyword = false) → checkMapping (some t) = .ok (some t) →
      i ≠ .term k →
      ∃ s', explicitId R E s m k i simple rc o d = .ok (s', some { d with value := some t }) ∧ Quiet m s s' ∧
        i ≠ .term k := by
    intro s' q h1 h2 h3 h4
    refine ⟨s', ?_, q, h4⟩
    unfold explicitId
    rw [if_neg h2, h1]
    show (checkMapping (some t)).bind _ = _
    rw [h3]
    have hb : betweenBoundaries k ':' = false := by
      unfold betweenBoundaries
      exact decide_eq_false fun h => hk.1 h.1
    show (checkTerm R E s' m k rc o { d with value := some t }).bind _ = _
    have : checkTerm R E s' m k rc o { d with value := some t } = .ok s' := by
      unfold checkTerm
      rw [if_neg (by rw [hb]; rintro (h | h); cases h; exact hk.2 h)]
    rw [this]
    show (simplePrefix k simple { d with value := some t }).bind _ = _
    have : simplePrefix k simple { d with value := some t } = .ok { d with value := some t } := by
      unfold simplePrefix
      split
      · rename_i h
        dsimp only
        rw [hg h.2.2]
        rfl
      · rfl
    rw [this]
    rfl
  cases ht with
  | iri x hx =>
    cases hi
    obtain ⟨s1, h1, q1⟩ := expandWith_iri hm hR (E := E) (rc := rc) (o := o) hs hw hx
      (voc := some o.vocab) (dr := false)
    refine rest s1 q1 h1 (by rw [show SId.str (.term (Id.iri x).str) = x from rfl, hx.keyword]; nofun) rfl ?_
    rintro h
    cases h
    exact hk.1 (colonInside_mem hx.colon)
  | blank x hx =>
    cases hi
    obtain ⟨s1, h1, q1⟩ := expandWith_blank hm hR (E := E) (rc := rc) (o := o) hs hw hx
      (voc := some o.vocab) (dr := false)
    refine rest s1 q1 h1 (by rw [show SId.str (.term (Id.blank x).str) = x from rfl, hx.keyword]; nofun) rfl ?_
    rintro h
    cases h
    exact hk.1 (colonInside_mem hx.colon)
  | keyword kw hkw =>
    cases hi
    refine rest s (.refl m s) rfl (by rintro ⟨_, h⟩; cases h) ?_ nofun
    unfold checkMapping
    split
    · rename_i h; cases h; exact absurd rfl hkw
    · rename_i h; cases h
    · rfl

omit hm hR in
theorem stepContainer_back (ho : o.mode = .v11) {x : SExp} {co : Container}
    (hx : x.container = co.intoSyntax.map some) {d : TermDef} (hd : d.container = .none)
    (ht : co.contains .type = true → d.typ = some .id ∨ d.typ = some .vocab) :
    stepContainer o x d = .ok { d with container := co } := by
  have h1 : Container.fromSyntax co.intoSyntax = some co := by cases co <;> decide
  unfold stepContainer
  rw [hx]
  cases hc : co.intoSyntax with
  | none =>
    have : co = .none := by cases co <;> first | rfl | cases hc
    subst this
    obtain ⟨v, pf, pr, rv, bu, cx, co, di, ix, la, ne, ty⟩ := d
    cases hd
    rfl
  | some y =>
    rw [hc] at h1
    show (if _ then _ else match Container.fromSyntax (some y) with
      | none => Except.error CtxErr.invalidContainerMapping
      | some c => typeContainer { d with container := c }) = _
    rw [if_neg (by rw [ho]; rintro ⟨h, _⟩; cases h), h1]
    show typeContainer { d with container := co } = _
    unfold typeContainer
    split
    · rename_i h
      rcases ht h with h | h
      · dsimp only; rw [h]
      · dsimp only; rw [h]
    · rfl

omit hm hR in
theorem expandIri_index {x : ACtx} (hsub : ∀ k, lookupKey k c.defs = none → lookupKey k x.defs = none)
    (hv : x.vocab = c.vocab) {i : Str} (hi : IndexProperty E.toIriEnv c i) :
    ∃ u, expandIri E.toIriEnv x (some (.ofStr i)) false (some .keep) = .ok (some (.id (.iri u))) := by
  have key : ∀ {s : Str}, Unbound E.toIriEnv c s → Expandable.ofStr s = .string s ∧ expandTerm x s (some .keep) = none := by
    intro s hs
    constructor
    · exact not_keyword hs.keyword
    · unfold expandTerm ACtx.getValue
      rw [if_neg (by rintro rfl; exact absurd hs.keyword (by decide))]
      show (match (lookupKey s x.defs).map (·.value) with | none => none | some v => _) = none
      rw [hsub s hs.term]
      rfl
  cases hi with
  | iri h =>
    obtain ⟨h1, h2⟩ := key h.toUnbound
    refine ⟨i, ?_⟩
    rw [h1]
    show expandStr E.toIriEnv x i false (some .keep) = _
    unfold expandStr
    rw [if_neg (by rw [h.keyword]; nofun), h2]
    dsimp only
    rw [if_pos h.colon, if_neg (by rw [h.blank]; nofun), if_neg h.notEmpty]
    have : ((compactIri E.toIriEnv i).bind fun q => expandPrefix E.toIriEnv x q.1 q.2) = none := by
      cases hc : compactIri E.toIriEnv i with
      | none => rfl
      | some q =>
        show expandPrefix E.toIriEnv x q.1 q.2 = none
        unfold expandPrefix ACtx.getNormal
        rw [hsub _ (h.pre q.1 q.2 hc)]
    rw [this]
    dsimp only
    rw [if_pos h.iri]
  | vocab v hv' hi hc hu =>
    obtain ⟨h1, h2⟩ := key hu
    refine ⟨v.str ++ i, ?_⟩
    rw [h1]
    show expandStr E.toIriEnv x i false (some .keep) = _
    unfold expandStr
    rw [if_neg (by rw [hu.keyword]; nofun), h2]
    dsimp only
    rw [if_neg (by rw [hc]; nofun)]
    unfold expandTail
    rw [hv, hv']
    show Except.ok (some (CTerm.id (Id.classify E.toIriEnv (v.str ++ i)))) = _
    unfold Id.classify
    rw [if_pos hi]

omit hm hR in
theorem stepRest_back (ho : o.mode = .v11) (hk : o.vocab = .keep) {a : ACtx}
    (hsub : ∀ k, lookupKey k c.defs = none → lookupKey k a.defs = none) (hv : a.vocab = c.vocab) {k : Str}
    {d : TermDef} (hd : Expressible E.toIriEnv c k d) (hr : d.reverse = false) {id : Option (Option SId)}
    {base : Option Str} : stepRest R E a k (d.syntaxRest id none) rc base o
      { value := d.value, protected_ := d.protected_, typ := d.typ } = .ok d := by
  unfold stepRest
  rw [stepContainer_back ho (co := d.container) (d := ⟨d.value, false, d.protected_, false, none, none, .none, none, none, none, none, d.typ⟩)
    rfl rfl hd.container]
  show (stepIndex E a o _ _).bind _ = _
  have : stepIndex E a o (d.syntaxRest id none)
      { value := d.value, protected_ := d.protected_, typ := d.typ, container := d.container } =
      .ok { value := d.value, protected_ := d.protected_, typ := d.typ, container := d.container, index := d.index } := by
    unfold stepIndex
    show (match d.index with | none => _ | some i => _) = _
    cases hi : d.index with
    | none => rfl
    | some i =>
      obtain ⟨h1, h2⟩ := hd.index i hi
      obtain ⟨u, hu⟩ := expandIri_index hsub hv h2
      dsimp only
      rw [if_neg (by rw [h1, ho]; rintro (h | h) <;> cases h), hk, hu]
  rw [this]
  show (stepContext R a o _ rc base _).bind _ = _
  have : ∀ d', stepContext R a o (d.syntaxRest id none) rc base d' = .ok d' := by
    intro d'
    unfold stepContext
    show (match d.context with | none => _ | some l => _) = _
    rw [hd.context.1]
  rw [this]
  have : stepLanguage (d.syntaxRest id none) { value := d.value, protected_ := d.protected_, typ := d.typ, container := d.container, index := d.index } =
      { value := d.value, protected_ := d.protected_, typ := d.typ, container := d.container, index := d.index,
        language := d.language, direction := d.direction } := by
    unfold stepLanguage
    have hl := hd.language
    show (if (d.typ.map _).isSome = true then _ else _) = _
    cases ht : d.typ with
    | none =>
      rw [if_neg (by simp)]
      show TermDef.mk d.value false d.protected_ false none none d.container (d.direction.or none) d.index
        (d.language.or none) none none = TermDef.mk d.value false d.protected_ false none none d.container d.direction
        d.index d.language none none
      rw [Option.or_none, Option.or_none]
    | some t =>
      obtain ⟨h1, h2⟩ := hl (by rw [ht]; nofun)
      rw [if_pos (by simp), h1, h2]
  show (stepNest o _ (stepLanguage _ _)).bind _ = _
  rw [this]
  have : ∀ d' : TermDef, d'.nest = none → stepNest o (d.syntaxRest id none) d' = .ok { d' with nest := d.nest } := by
    intro d' h
    unfold stepNest
    show (match d.nest with | none => _ | some l => _) = _
    cases d.nest with
    | none =>
      obtain ⟨v, pf, pr, rv, bu, cx, co, di, ix, la, ne, ty⟩ := d'
      cases h
      rfl
    | some n =>
      dsimp only
      rw [if_neg (by rw [ho]; nofun)]
  rw [this _ rfl]
  show (stepPrefix o k _ _).bind _ = _
  have : ∀ d' : TermDef, d'.value = d.value → d'.prefix_ = false → stepPrefix o k (d.syntaxRest id none) d' =
      .ok { d' with prefix_ := d.prefix_ } := by
    intro d' hval hpf
    unfold stepPrefix
    show (match (if d.prefix_ then some true else none) with | none => _ | some p => _) = _
    cases hp : d.prefix_ with
    | false =>
      obtain ⟨v, pf, pr, rv, bu, cx, co, di, ix, la, ne, ty⟩ := d'
      cases hpf
      rfl
    | true =>
      rw [if_pos rfl]
      dsimp only
      rw [if_neg (by rw [ho]; rintro (h | h | h); exact hd.name.2.1 h; exact hd.name.2.2 h; cases h)]
      rcases hd.value with ⟨_, _, h⟩ | ⟨t, h, _⟩
      · rw [hp] at h; cases h
      · rw [if_pos rfl, hval, h]
        dsimp only
        have : t.isKeyword = false := by
          cases t with
          | keyword k => exact absurd h ((hd.pre hp).2 k)
          | null => rfl
          | id i => rfl
        rw [if_neg (by rw [this]; nofun)]
  dsimp only
  rw [this (TermDef.mk d.value false d.protected_ false none none d.container d.direction d.index d.language d.nest
    d.typ) rfl rfl]
  show stepPropagate _ _ = _
  unfold stepPropagate
  show (if (none : Option Bool).isSome = true then _ else _) = _
  rw [if_neg (by nofun)]
  have h1 := hd.context
  obtain ⟨v, pf, pr, rv, bu, cx, co, di, ix, la, ne, ty⟩ := d
  cases hr
  obtain ⟨h1, h2⟩ := h1
  cases h1
  cases h2
  rfl

omit hm hR in
theorem ofStr_term {s : Str} (h : isKeywordLike s = false) : SId.ofStr s = .term s := by
  have := not_keyword h
  unfold Expandable.ofStr at this
  unfold SId.ofStr
  cases hk : Keyword.tryFrom s with
  | none => rfl
  | some k => rw [hk] at this; cases this

omit hm hR in
theorem intoStr_keyword (k : Keyword) : SId.ofStr k.intoStr = .keyword k := by cases k <;> rfl

omit hm hR in
/-- What is read from a definition that was written down. -/
theorem exp_simplify {d : TermDef} {i : SId} (hi : SId.ofStr i.str = i) {rv : Option Str} :
    STerm.exp (d.syntaxRest (some (some i)) rv).simplify = d.syntaxRest (some (some i)) rv ∧
      STerm.isSimple (d.syntaxRest (some (some i)) rv).simplify = (d.syntaxRest (some (some i)) rv).noOthers := by
  unfold SExp.simplify
  show STerm.exp (if _ then _ else _) = _ ∧ STerm.isSimple (if _ then _ else _) = _
  by_cases h : (d.syntaxRest (some (some i)) rv).noOthers = true
  · rw [if_pos h, h]
    refine ⟨?_, rfl⟩
    show { SExp.empty with id := some (some (SId.ofStr i.str)) } = _
    rw [hi]
    generalize hx : d.syntaxRest (some (some i)) rv = x at h
    have hid : x.id = some (some i) := by rw [← hx]; rfl
    obtain ⟨a, b, c, d, e, f, g, h', j, k, l, m⟩ := x
    unfold SExp.noOthers at h
    simp only [Bool.and_eq_true, Option.isNone_iff_eq_none] at h
    obtain ⟨⟨⟨⟨⟨⟨⟨⟨⟨⟨h1, h2⟩, h3⟩, h4⟩, h5⟩, h6⟩, h7⟩, h8⟩, h9⟩, h10⟩, h11⟩ := h
    subst h1 h2 h3 h4 h5 h6 h7 h8 h9 h10 h11
    cases hid
    rfl
  · rw [if_neg h]
    exact ⟨rfl, by rw [Bool.not_eq_true] at h; rw [h]; rfl⟩

omit hm hR in
theorem noOthers_onlyId {d : TermDef} {i : Option (Option SId)} (hr : d.reverse = false) :
    (d.syntaxRest i none).noOthers = true ↔ OnlyId d ∧ d.prefix_ = false := by
  unfold SExp.noOthers OnlyId TermDef.syntaxRest
  have hc : d.container.intoSyntax = none ↔ d.container = .none := by
    cases d.container <;> decide
  simp only [Bool.and_eq_true, Option.isNone_iff_eq_none, Option.map_eq_none_iff, hc, hr, true_and, and_true,
    ite_eq_right_iff, reduceCtorEq, imp_false, Bool.not_eq_true]
  tauto

/-- A term that was written down is defined as before. -/
theorem define_back (ho : o.mode = .v11) (hk : o.vocab = .keep) {s : DState} (hs : Calm m s)
    (hw : CtxWithin c s) {k : Str} {d : TermDef} (hd : Expressible E.toIriEnv c k d) {b : Option STerm}
    (hb : d.intoSyntax = some b) (hmb : m.binding k = some b) (hnew : lookupDef (.key k) s.defd = none)
    (hfresh : ∀ p ∈ s.ctx.defs, p.1 ≠ k) {base : Option Str} :
    ∃ s', defineBody R E s m (.key k) rc base false o = .ok s' ∧
      s'.ctx = { s.ctx with defs := (k, d) :: s.ctx.defs } ∧
      ∀ t, lookupDef t s'.defd = lookupDef t s.defd ∨
        lookupDef t s'.defd = some false ∧ (t = .key k ∨ ∃ x, t = .key x ∧ m.binding x = none) := by
  have herase : mapErase k s.ctx.defs = s.ctx.defs := by
    unfold mapErase
    exact List.filter_eq_self.2 fun p hp => decide_eq_true (hfresh p hp)
  have hnone : lookupKey k s.ctx.defs = none := by
    revert hfresh
    generalize s.ctx.defs = l
    intro hf
    induction l with
    | nil => rfl
    | cons a l ih =>
      unfold lookupKey
      rw [if_neg (hf a (by simp))]
      exact ih fun p hp => hf p (by simp [hp])
  -- the state in which the term is pending
  generalize hs0 : (⟨s.ctx, (.key k, true) :: s.defd⟩ : DState) = s0
  have hs0c : Calm m s0 := by
    intro x hx
    subst hs0
    show (if DKey.key k = .key x then some true else lookupDef (.key x) s.defd) ≠ some true
    rw [if_neg (by rintro h; cases h; rw [hmb] at hx; cases hx)]
    exact hs x hx
  have hs0w : CtxWithin c s0 := by subst hs0; exact ⟨hw.sub, hw.vocab⟩
  have fin : ∀ s', Quiet m s0 s' → ∀ d', d' = d → ∃ s'', ({ s' with ctx := s'.ctx.setNormal k d' }.finish (.key k)) = s'' ∧
      s''.ctx = { s.ctx with defs := (k, d) :: s.ctx.defs } ∧
      ∀ t, lookupDef t s''.defd = lookupDef t s.defd ∨
        lookupDef t s''.defd = some false ∧ (t = .key k ∨ ∃ x, t = .key x ∧ m.binding x = none) := by
    rintro s' q d' rfl
    refine ⟨_, rfl, ?_, ?_⟩
    · show s'.ctx.setNormal k d' = _
      rw [q.ctx, ← hs0]
      unfold ACtx.setNormal mapInsert
      dsimp only
      rw [herase]
    · intro t
      show (if DKey.key k = t then some false else lookupDef t s'.defd) = _ ∨
        (if DKey.key k = t then some false else lookupDef t s'.defd) = _ ∧ _
      by_cases ht : DKey.key k = t
      · rw [if_pos ht]
        exact .inr ⟨rfl, .inl ht.symm⟩
      · rw [if_neg ht]
        rcases q.defd t with h | ⟨h, h'⟩
        · left
          rw [h, ← hs0]
          show (if DKey.key k = t then some true else lookupDef t s.defd) = _
          rw [if_neg ht]
        · exact .inr ⟨h, .inr h'⟩
  have hdef : defineBody R E s m (.key k) rc base false o = defineTerm R E s0 m k b rc base false o := by
    unfold defineBody DState.start
    rw [hnew]
    show defineNew R E _ m (.key k) rc base false o = _
    unfold defineNew
    dsimp only
    rw [if_neg hd.name.1, hmb, hs0]
  rw [hdef]
  unfold defineTerm
  have hprev : s0.ctx.getNormal k = none := by subst hs0; exact hnone
  have her : ({ s0 with ctx := s0.ctx.eraseNormal k } : DState) = s0 := by
    subst hs0
    unfold ACtx.eraseNormal
    dsimp only
    rw [herase]
    generalize s.ctx = x
    cases x
    rfl
  dsimp only
  rw [hprev, her]
  have prot : ∀ x : SExp, x.protected_ = (if d.protected_ then some true else none) →
      stepProtected o x false = .ok { protected_ := d.protected_ } := by
    intro x hx
    unfold stepProtected
    rw [hx]
    cases d.protected_ with
    | false => rfl
    | true =>
      show (if o.mode = .v10 then _ else _) = _
      rw [if_neg (by rw [ho]; nofun)]
  have hnk : ∀ s', Quiet m s0 s' → ∀ d' : TermDef, stepKeep o none d' = .ok d' := by
    intro s' _ d'
    unfold stepKeep
    split <;> rfl
  cases hr : d.reverse with
  | true =>
    obtain ⟨⟨i, hi⟩, h1, h2, h3, h4, h5⟩ := hd.reverse hr
    have hb' : b = (d.syntaxRest none (some i.str)).simplify := by
      unfold TermDef.intoSyntax at hb
      rw [hr, if_pos rfl, hi] at hb
      cases hb
      rfl
    have hx : STerm.exp b = d.syntaxRest none (some i.str) := by
      rw [hb']
      unfold SExp.simplify
      show STerm.exp (if _ then _ else _) = _
      rw [if_neg (by simp [SExp.noOthers, TermDef.syntaxRest])]
      rfl
    rw [hx, prot _ rfl]
    obtain ⟨s1, e1, q1⟩ := stepType_back hm hR (rc := rc) hs0c hs0w ho hd.typ (x := d.syntaxRest none (some i.str)) rfl
      (d := { protected_ := d.protected_ }) rfl
    show ∃ s', (stepType R E s0 m _ rc o _).bind _ = .ok s' ∧ _
    rw [e1]
    show ∃ s', stepReverse R E s1 m k (d.syntaxRest none (some i.str)) i.str rc o _ = .ok s' ∧ _
    have hw1 : CtxWithin c s1 := ⟨by rw [q1.ctx]; exact hs0w.sub, by rw [q1.ctx]; exact hs0w.vocab⟩
    obtain ⟨s2, e2, q2, hi2, hkw⟩ : ∃ s', expandWith R E s1 (some (.ofStr i.str)) false (some o.vocab) m rc o =
        .ok (s', some (.id i)) ∧ Quiet m s1 s' ∧ i.isValid = true ∧ isKeywordLike i.str = false := by
      rcases hd.value with ⟨h, _⟩ | ⟨t, h, ht⟩
      · rw [hi] at h; cases h
      · rw [hi] at h
        cases h
        cases ht with
        | iri x hpx =>
          obtain ⟨s2, e2, q2⟩ := expandWith_iri hm hR (E := E) (rc := rc) (o := o) (hs0c.quiet q1) hw1 hpx
            (voc := some o.vocab) (dr := false)
          exact ⟨s2, by rw [show (Id.iri x).str = x from rfl, not_keyword hpx.keyword]; exact e2, q2, rfl, hpx.keyword⟩
        | blank x hpx =>
          obtain ⟨s2, e2, q2⟩ := expandWith_blank hm hR (E := E) (rc := rc) (o := o) (hs0c.quiet q1) hw1 hpx
            (voc := some o.vocab) (dr := false)
          exact ⟨s2, by rw [show (Id.blank x).str = x from rfl, not_keyword hpx.keyword]; exact e2, q2, rfl, hpx.keyword⟩
    unfold stepReverse
    rw [if_neg (by show ¬ ((none : Option (Option SId)).isSome = true ∨ d.nest.isSome = true); rw [h2]; simp),
      if_neg (by rw [hkw]; nofun), e2]
    show ∃ s', (reverseValue (some (.id i)) _).bind _ = .ok s' ∧ _
    have : ∀ d', reverseValue (some (.id i)) d' = .ok { d' with value := some (.id i) } := by
      intro d'
      unfold reverseValue
      dsimp only
      rw [if_pos hi2]
    rw [this]
    show ∃ s', (reverseContainer (d.syntaxRest none (some i.str)) _).bind _ = .ok s' ∧ _
    have : ∀ d' : TermDef, d'.container = .none →
        reverseContainer (d.syntaxRest none (some i.str)) d' = .ok { d' with container := d.container } := by
      intro d' h
      unfold reverseContainer
      show (match d.container.intoSyntax.map some with | none => _ | some none => _ | some (some c) => _) = _
      rcases h5 with h5 | h5 | h5
      · rw [h5]
        obtain ⟨v, pf, pr, rv, bu, cx, co, di, ix, la, ne, ty⟩ := d'
        cases h
        rfl
      · rw [h5]; rfl
      · rw [h5]; rfl
    rw [this _ rfl]
    have hpf : d.prefix_ = false := by
      cases hp : d.prefix_ with
      | false => rfl
      | true => rw [(hd.pre hp).1] at hr; cases hr
    obtain ⟨s3, e3, h6, h7⟩ := fin s2 (q1.trans q2) (⟨some (.id i), false, d.protected_, true, none, none, d.container, none, none, none, none, d.typ⟩ : TermDef) (by
        obtain ⟨hx1, hx2⟩ := hd.context
        clear hx hb' hd hdef prot this e1
        obtain ⟨v, pf, pr, rv, bu, cx, co, di, ix, la, ne, ty⟩ := d
        dsimp only at *
        subst h1 h2 h3 h4 hi hr hpf hx1 hx2
        rfl)
    exact ⟨s3, congrArg Except.ok e3, h6, h7⟩
  | false =>
    rcases hd.value with ⟨hv, hoid, hpf⟩ | ⟨t, hv, ht⟩
    · -- a term without a meaning
      have hno := (noOthers_onlyId (i := none) hr).2 ⟨hoid, hpf⟩
      have hb' : b = none := by
        unfold TermDef.intoSyntax at hb
        rw [hr, if_neg (by nofun), hv] at hb
        cases hb
        unfold SExp.simplify
        exact if_pos hno
      subst hb'
      obtain ⟨h0, h1, h2, h3, h4, h5, h6, h7, h8⟩ := hoid
      rw [show stepProtected o (STerm.exp none) false = .ok { protected_ := false } from rfl]
      show ∃ s', finishTerm R E s0 m k (STerm.exp none) true none rc base o { protected_ := false } = .ok s' ∧ _
      have hfin : finishTerm R E s0 m k (STerm.exp none) true none rc base o { protected_ := false } =
          (stepKeep o none { protected_ := false }).bind fun d =>
            .ok ({ s0 with ctx := s0.ctx.setNormal k d }.finish (.key k)) := rfl
      rw [hfin, hnk s0 (.refl m s0)]
      obtain ⟨s3, e3, h6, h7⟩ := fin s0 (.refl m s0) { protected_ := false } (by
        obtain ⟨hx1, hx2⟩ := hd.context
        clear hb hd hdef prot hno
        obtain ⟨v, pf, pr, rv, bu, cx, co, di, ix, la, ne, ty⟩ := d
        dsimp only at *
        subst h1 h2 h3 h4 h5 h6 h7 h8 hv hr hpf hx2
        rfl)
      exact ⟨s3, congrArg Except.ok e3, h6, h7⟩
    · obtain ⟨i, hi, hi'⟩ : ∃ i, t.syntaxId = some i ∧ SId.ofStr i.str = i := by
        cases ht with
        | iri x hx => exact ⟨.term x, rfl, ofStr_term hx.keyword⟩
        | blank x hx => exact ⟨.term x, rfl, ofStr_term hx.keyword⟩
        | keyword k _ => exact ⟨.keyword k, rfl, intoStr_keyword k⟩
      have hb' : b = (d.syntaxRest (some (some i)) none).simplify := by
        unfold TermDef.intoSyntax at hb
        rw [hr, if_neg (by nofun), hv] at hb
        change some (d.syntaxRest (some t.syntaxId) none).simplify = _ at hb
        rw [hi] at hb
        cases hb
        rfl
      obtain ⟨hx, hsm⟩ := exp_simplify (d := d) hi' (rv := none)
      rw [← hb'] at hx hsm
      rw [hx, hsm, prot _ rfl]
      obtain ⟨s1, e1, q1⟩ := stepType_back hm hR (rc := rc) hs0c hs0w ho hd.typ
        (x := d.syntaxRest (some (some i)) none) rfl (d := { protected_ := d.protected_ }) rfl
      show ∃ s', (stepType R E s0 m _ rc o _).bind _ = .ok s' ∧ _
      rw [e1]
      show ∃ s', finishTerm R E s1 m k (d.syntaxRest (some (some i)) none) _ none rc base o _ = .ok s' ∧ _
      have hw1 : CtxWithin c s1 := ⟨by rw [q1.ctx]; exact hs0w.sub, by rw [q1.ctx]; exact hs0w.vocab⟩
      obtain ⟨s2, e2, q2, hik⟩ := explicitId_back hm hR (rc := rc) (o := o) (hs0c.quiet q1) hw1 hd.name.2 ht hi
        (simple := (d.syntaxRest (some (some i)) none).noOthers)
        (d := { protected_ := d.protected_, typ := d.typ }) (by
          intro h
          obtain ⟨h1, h2⟩ := (noOthers_onlyId hr).1 h
          by_contra hg
          rw [Bool.not_eq_false] at hg
          exact hd.noPrefix h2 t hv hg h1)
      unfold finishTerm
      have : stepId R E s1 m k (d.syntaxRest (some (some i)) none) (d.syntaxRest (some (some i)) none).noOthers rc o
          { protected_ := d.protected_, typ := d.typ } =
          .ok (s2, some { protected_ := d.protected_, typ := d.typ, value := some t }) := by
        unfold stepId
        show (if i = .term k then _ else _) = _
        rw [if_neg hik]
        exact e2
      rw [this]
      show ∃ s', (stepRest R E s2.ctx k (d.syntaxRest (some (some i)) none) rc base o _).bind _ = .ok s' ∧ _
      have := stepRest_back (R := R) (rc := rc) (base := base) ho hk (a := s2.ctx) (by rw [q2.ctx]; exact hw1.sub)
        (by rw [q2.ctx]; exact hw1.vocab) hd hr (id := some (some i))
      rw [hv] at this
      rw [this]
      show ∃ s', (stepKeep o none d).bind _ = .ok s' ∧ _
      rw [hnk s0 (.refl m s0)]
      obtain ⟨s3, e3, h6, h7⟩ := fin s2 (q1.trans q2) d rfl
      exact ⟨s3, congrArg Except.ok e3, h6, h7⟩

end

end JsonLd
