import Verif.Proofs.SaysStable
import Verif.Props.ProcessWf
/-!
# What a term definition says: the steps of a definition
-/

namespace JsonLd.Say

open Spec

theorem stepProtected_exact {o : Opts} {x : SExp} {prot : Bool} {d : TermDef} (h : stepProtected o x prot = .ok d) :
    d = { protected_ := x.protected_.getD prot } := by
  unfold stepProtected at h
  split at h
  · rename_i p hp
    split at h
    · cases h
    · cases h; rw [hp]; rfl
  · rename_i hp
    cases h; rw [hp]; rfl

theorem contains_type_iff (c : Container) : c.contains .type = true ↔ HasType c := by
  cases c <;> simp [Container.contains, Container.asSlice, HasType]

theorem typeContainer_exact {d d' : TermDef} (h : typeContainer d = .ok d') :
    ∃ t, d' = { d with typ := t } ∧ (HasType d.container → d.typ = none → t = some .id) ∧
      (¬ HasType d.container ∨ d.typ ≠ none → t = d.typ) := by
  unfold typeContainer at h
  split at h
  · rename_i hc
    rw [contains_type_iff] at hc
    split at h
    · rename_i ht
      cases h; exact ⟨_, rfl, fun _ _ => rfl, fun h => h.elim (fun h => absurd hc h) fun h => absurd ht h⟩
    · rename_i ht
      cases h; exact ⟨d.typ, rfl, (by rw [ht]; exact nofun), fun _ => rfl⟩
    · rename_i ht
      cases h; exact ⟨d.typ, rfl, (by rw [ht]; exact nofun), fun _ => rfl⟩
    · cases h
  · rename_i hc
    rw [contains_type_iff] at hc
    cases h
    exact ⟨d.typ, rfl, fun h => absurd h hc, fun _ => rfl⟩

theorem stepContainer_exact {o : Opts} {x : SExp} {d d' : TermDef} (hd : d.container = .none)
    (h : stepContainer o x d = .ok d') :
    ∃ c t, d' = { d with container := c, typ := t } ∧ (HasType c → d.typ = none → t = some .id) ∧
      (¬ HasType c ∨ d.typ ≠ none → t = d.typ) ∧
      ((x.container = none ∧ c = .none) ∨ ∃ q, x.container = some q ∧ Container.fromSyntax q = some c) := by
  unfold stepContainer at h
  split at h
  · rename_i hx
    cases h
    exact ⟨.none, d.typ, by cases d; simp_all, by simp [HasType], fun _ => rfl, .inl ⟨hx, rfl⟩⟩
  · rename_i q hx
    split at h
    · cases h
    · split at h
      · cases h
      · rename_i c hc
        obtain ⟨t, rfl, h1, h2⟩ := typeContainer_exact h
        exact ⟨c, t, rfl, h1, h2, .inr ⟨q, hx, hc⟩⟩

theorem stepIndex_exact {E : ProcEnv} {c : ACtx} {o : Opts} {x : SExp} {d d' : TermDef} (hd : d.index = none)
    (h : stepIndex E c o x d = .ok d') : d' = { d with index := x.index } := by
  unfold stepIndex at h
  split at h
  · rename_i hx
    cases h
    rw [hx]; cases d; simp_all
  · rename_i i hx
    split at h
    · cases h
    · split at h
      · cases h
      · cases h; rw [hx]
      · cases h

theorem stepContext_exact {R : Rec} {c : ACtx} {o : Opts} {x : SExp} {rc : List Str} {base : Option Str}
    {d d' : TermDef} (hd : d.context = none) (hb : d.baseUrl = none) (h : stepContext R c o x rc base d = .ok d') :
    d' = { d with context := x.context, baseUrl := if x.context.isSome then base else none } := by
  unfold stepContext at h
  split at h
  · rename_i hx
    cases h
    rw [hx]; cases d; simp_all
  · rename_i l hx
    split at h
    · cases h
    · split at h
      · cases h
      · cases h; rw [hx]; rfl

theorem stepLanguage_exact (x : SExp) (d : TermDef) (hl : d.language = none) (hr : d.direction = none) :
    stepLanguage x d = { d with language := if x.type.isSome then none else x.language,
                                direction := if x.type.isSome then none else x.direction } := by
  unfold stepLanguage
  split
  · cases d; simp_all
  · cases d; simp_all

theorem stepNest_exact {o : Opts} {x : SExp} {d d' : TermDef} (hd : d.nest = none) (h : stepNest o x d = .ok d') :
    d' = { d with nest := x.nest } := by
  unfold stepNest at h
  split at h
  · rename_i hx
    cases h; rw [hx]; cases d; simp_all
  · rename_i n hx
    split at h
    · cases h
    · cases h; rw [hx]

theorem stepPrefix_exact {o : Opts} {k : Str} {x : SExp} {d d' : TermDef} (h : stepPrefix o k x d = .ok d') :
    d' = { d with prefix_ := x.prefix_.getD d.prefix_ } := by
  unfold stepPrefix at h
  split at h
  · rename_i hx
    cases h; rw [hx]; rfl
  · rename_i p hx
    split at h
    · cases h
    · split at h
      · rename_i hp
        split at h
        · cases h
        · split at h
          · cases h
          · cases h; rw [hx, hp]; rfl
      · rename_i hp
        rw [Bool.not_eq_true] at hp
        cases h; rw [hx, hp]; rfl

theorem stepRest_exact {R : Rec} {E : ProcEnv} {c : ACtx} {k : Str} {x : SExp} {rc : List Str} {base : Option Str}
    {o : Opts} {v : Option CTerm} {p pr : Bool} {ty : Option TypeMap} {d' : TermDef}
    (h : stepRest R E c k x rc base o { value := v, prefix_ := p, protected_ := pr, typ := ty } = .ok d') :
    ∃ cn t, d' = { value := v, prefix_ := x.prefix_.getD p, protected_ := pr, reverse := false,
                   baseUrl := if x.context.isSome then base else none, context := x.context, container := cn,
                   direction := if x.type.isSome then none else x.direction, index := x.index,
                   language := if x.type.isSome then none else x.language, nest := x.nest, typ := t } ∧
      (HasType cn → ty = none → t = some .id) ∧ (¬ HasType cn ∨ ty ≠ none → t = ty) ∧
      ((x.container = none ∧ cn = .none) ∨ ∃ q, x.container = some q ∧ Container.fromSyntax q = some cn) := by
  unfold stepRest at h
  simp only [bindOk] at h
  obtain ⟨e1, g1, e2, g2, e3, g3, e4, g4, e5, g5, g6⟩ := h
  obtain ⟨cn, t, rfl, h1, h2, h3⟩ := stepContainer_exact rfl g1
  have h4 := stepIndex_exact rfl g2
  subst h4
  have h5 := stepContext_exact rfl rfl g3
  subst h5
  rw [stepLanguage_exact _ _ rfl rfl] at g4
  have h6 := stepNest_exact rfl g4
  subst h6
  have h7 := stepPrefix_exact g5
  subst h7
  have h8 : stepPropagate x _ = .ok d' := g6
  unfold stepPropagate at h8
  split at h8
  · cases h8
  · cases h8
    exact ⟨cn, t, rfl, h1, h2, h3⟩

theorem stepKeep_exact {o : Opts} {q : Option TermDef} {d d' : TermDef} (h : stepKeep o q d = .ok d') :
    d' = { d with protected_ := d.protected_ || (!o.override && (q.map (·.protected_)).getD false) } := by
  unfold stepKeep at h
  split at h
  · rename_i ho
    cases h; simp [ho]
  · rename_i ho
    rw [Bool.not_eq_true] at ho
    split at h
    · cases h; simp
    · rename_i p
      split at h
      · rename_i hp
        split at h
        · cases h; simp [ho, hp]
        · cases h
      · rename_i hp
        rw [Bool.not_eq_true] at hp
        cases h; simp [hp]

theorem reverse_exact {x : SExp} {pr : Bool} {ty : Option TypeMap} {t : Option CTerm} {d2 d3 : TermDef}
    (h1 : reverseValue t { protected_ := pr, typ := ty } = .ok d2) (h2 : reverseContainer x d2 = .ok d3) :
    ∃ i cn, t = some (.id i) ∧ i.isValid = true ∧
      d3 = { value := some (.id i), protected_ := pr, typ := ty, container := cn } ∧
      ((x.container = none ∨ x.container = some none) ∧ cn = .none ∨
        ∃ q, x.container = some (some q) ∧ Container.fromSyntax (some q) = some cn ∧ (cn = .set ∨ cn = .index)) := by
  unfold reverseValue at h1
  split at h1
  · rename_i i
    split at h1
    · rename_i hi
      cases h1
      unfold reverseContainer at h2
      split at h2
      · rename_i hx
        cases h2; exact ⟨i, .none, rfl, hi, rfl, .inl ⟨.inl hx, rfl⟩⟩
      · rename_i hx
        cases h2; exact ⟨i, .none, rfl, hi, rfl, .inl ⟨.inr hx, rfl⟩⟩
      · rename_i q hx
        split at h2
        · rename_i hq
          cases h2; exact ⟨i, .set, rfl, hi, rfl, .inr ⟨q, hx, hq, .inl rfl⟩⟩
        · rename_i hq
          cases h2; exact ⟨i, .index, rfl, hi, rfl, .inr ⟨q, hx, hq, .inr rfl⟩⟩
        · cases h2
    · cases h1
  · cases h1

theorem genDelim_iff (w : CTerm) : genDelimOrBlank w = true ↔ PrefixLike w := by
  unfold genDelimOrBlank PrefixLike
  split
  · simp
  · rename_i s
    split
    · rename_i c hc
      simp [hc]
    · rename_i hc
      simp [hc]
  · rename_i h1 h2
    simp only [Bool.false_eq_true, false_iff, not_or, not_exists]
    exact ⟨fun s hs => h1 s hs, fun s c hs => h2 s hs.1⟩

theorem simplePrefix_exact {k : Str} {simple : Bool} {d d' : TermDef} (hd : d.prefix_ = false)
    (h : simplePrefix k simple d = .ok d') : ∃ p, d' = { d with prefix_ := p } ∧
      (p = true ↔ simple = true ∧ ':' ∉ k ∧ '/' ∉ k ∧ ∃ w, d.value = some w ∧ PrefixLike w) := by
  unfold simplePrefix at h
  split at h
  · rename_i hk
    split at h
    · cases h
    · rename_i t ht
      split at h
      · rename_i hg
        cases h
        exact ⟨true, rfl, fun _ => ⟨hk.2.2, hk.1, hk.2.1, t, ht, (genDelim_iff t).1 hg⟩, fun _ => rfl⟩
      · rename_i hg
        cases h
        refine ⟨false, by cases d; simp_all, nofun, fun ⟨_, _, _, w, hw, hp⟩ => ?_⟩
        rw [ht] at hw
        cases hw
        exact absurd ((genDelim_iff t).2 hp) hg
  · rename_i hk
    cases h
    refine ⟨false, by cases d; simp_all, nofun, fun ⟨h1, h2, h3, _⟩ => absurd ⟨h2, h3, h1⟩ hk⟩

theorem checkMapping_exact {t v : Option CTerm} (h : checkMapping t = .ok v) : v = t := by
  unfold checkMapping at h
  split at h
  · cases h
  · split at h
    · cases h; rfl
    · cases h
  · cases h; rfl

theorem simple_id {b : Option STerm} (h : STerm.isSimple b = true) : (STerm.exp b).id ≠ none := by
  cases b with
  | none => exact nofun
  | some b =>
    cases b with
    | simple s => exact nofun
    | expanded x => cases h

end JsonLd.Say
