import Verif.Props.Iri
import Verif.Spec.Warn
/-!
# C104: Warnings
-/

namespace JsonLd.Props
open JsonLd.Spec

private theorem tailW_fst (env : IriEnv) (c : ACtx) (s : Str) (d : Bool) (v : Option Action) :
    (expandTailW env c s d v).1 = expandTail env c s d v := by
  unfold expandTailW expandTail
  have hb : (if d && env.isRef s then
        (match resolveIri env s c.base with
          | some iri => ((.ok (some (.id (.iri iri))), []) : Warned Unit (Option CTerm))
          | none => invalidIriW s) else invalidIriW s).1 =
      if d && env.isRef s then
        (match resolveIri env s c.base with
          | some iri => .ok (some (.id (.iri iri)))
          | none => .ok (some (.id (.invalid s)))) else .ok (some (.id (.invalid s))) := by
    split
    · cases resolveIri env s c.base <;> rfl
    · rfl
  cases v with
  | none => exact hb
  | some a =>
    cases c.vocab with
    | none => exact hb
    | some t =>
      cases t with
      | id i => cases a <;> rfl
      | _ => rfl

private theorem strW_fst (env : IriEnv) (c : ACtx) (s : Str) (d : Bool) (v : Option Action) :
    (expandStrW env c s d v).1 = expandStr env c s d v := by
  unfold expandStrW expandStr
  split
  · rfl
  · cases expandTerm c s v with
    | some t => rfl
    | none =>
      simp only
      split
      · split
        · rfl
        · split
          · rfl
          · cases (compactIri env s).bind fun q => expandPrefix env c q.1 q.2 with
            | some t => rfl
            | none =>
              simp only
              split
              · rfl
              · exact tailW_fst ..
      · exact tailW_fst ..

/-- C104: IRI expansion with warnings is IRI expansion. -/
theorem C104_iri_result (env : IriEnv) (c : ACtx) (v : Option Expandable) (d : Bool)
    (voc : Option Action) : (expandIriW env c v d voc).1 = expandIri env c v d voc := by
  unfold expandIriW expandIri
  split
  · rfl
  · rfl
  · exact strW_fst ..

theorem xKeyW_fst (E : XEnv) (c : ACtx) (k : Str) : (xKeyW E c k).1 = xKey E c k := by
  unfold xKeyW xKey xIri
  rw [← C104_iri_result]
  generalize expandIriW E.toIriEnv c (some (.ofStr k)) false (some E.opts.vocab) = x
  obtain ⟨r, w⟩ := x
  cases r <;> rfl

theorem andThen_fst {ε α β : Type} (x : Warned ε α) (f : α → Warned ε β) :
    (x.andThen f).1 = x.1.bind fun a => (f a).1 := by
  obtain ⟨r, w⟩ := x
  cases r <;> rfl

/-- C104: the loop over the keys with warnings is the loop over the keys. -/
theorem C104_keys_result (E : XEnv) (c : ACtx) (m : List (Str × Json)) :
    (xEntriesW E c m).1 = xEntries E c m := by
  induction m with
  | nil => rfl
  | cons e m ih =>
    obtain ⟨k, v⟩ := e
    unfold xEntriesW xEntries
    rw [andThen_fst]
    show ((xKeyW E c k).andThen _).1 = _
    rw [andThen_fst, xKeyW_fst]
    congr 1
    funext t
    rw [andThen_fst]
    show ((xEntriesW E c m).andThen _).1 = _
    rw [andThen_fst, ih]
    cases xEntries E c m <;> cases t <;> rfl

private theorem valueStepW_fst (env : IriEnv) (voc : Action) (tsc : ACtx) (s : ValueState)
    (e : XEntry) : (valueStepW env voc tsc s e).1 = valueStep env voc tsc s e := by
  have ht : ∀ j, (valueTypeW env voc tsc s j).1 = valueType env voc tsc s j := by
    intro j
    cases j with
    | str t =>
      show (valueTypeW env voc tsc s (.str t)).1 = _
      unfold valueTypeW valueType
      simp only [← C104_iri_result]
      generalize expandIriW env tsc (some (.ofStr t)) true (some voc) = x
      obtain ⟨r, w⟩ := x
      rcases r with _ | _ | r
      · rfl
      · rfl
      · rcases r with _ | ⟨_ | _ | _⟩ | k
        · rfl
        · rfl
        · rfl
        · rfl
        · cases k <;> rfl
    | _ => rfl
  unfold valueStepW valueStep
  rcases e.term with _ | i | k
  · rfl
  · rfl
  · cases k <;> first | rfl | exact ht _

private theorem valueLoopW_fst (env : IriEnv) (voc : Action) (tsc : ACtx) (es : List XEntry) :
    ∀ s, (valueLoopW env voc tsc es s).1 = es.foldlM (valueStep env voc tsc) s := by
  induction es with
  | nil => intro s; rfl
  | cons e es ih =>
    intro s
    unfold valueLoopW
    rw [andThen_fst, valueStepW_fst, List.foldlM_cons]
    cases valueStep env voc tsc s e with
    | error => rfl
    | ok s' => exact ih s'

private theorem langValueW_fst (ok : Str → Bool) (s : ValueState) (l : Literal) :
    (langValueW ok s l).1 = langValue s l := by
  unfold langValueW langValue
  split
  · rfl
  · cases l with
    | str x => simp only; cases LangString.new x s.language s.direction <;> rfl
    | _ => rfl

private theorem valueResultW_fst (ok : Str → Bool) (s : ValueState) (v : Json) :
    (valueResultW ok s v).1 = valueResult s v := by
  unfold valueResultW valueResult
  split
  · split <;> rfl
  · have hl : ∀ l, (if s.language.isSome || s.direction.isSome then langValueW ok s l
        else (.ok (some (.value s.index (.literal l s.ty))), [])).1 =
        if s.language.isSome || s.direction.isSome then langValue s l
        else .ok (some (.value s.index (.literal l s.ty))) := by
      intro l
      split
      · exact langValueW_fst ..
      · rfl
    cases scalarOf v with
    | error e => rfl
    | ok l =>
      cases l with
      | null => rfl
      | _ => exact hl _

/-- C104: the expansion of value objects with warnings is the expansion of value objects. -/
theorem C104_value_result (env : IriEnv) (ok : Str → Bool) (voc : Action) (ty : Option CTerm)
    (tsc : ACtx) (es : List XEntry) (v : Json) :
    (expandValueW env ok voc ty tsc es v).1 = expandValue env voc ty tsc es v := by
  unfold expandValueW expandValue
  rw [andThen_fst, valueLoopW_fst]
  cases es.foldlM (valueStep env voc tsc) { isJson := decide (ty = some (.keyword .json)) } with
  | error => rfl
  | ok s => exact valueResultW_fst ..

/-! ## IRI expansion -/

private theorem tailW_snd {env : IriEnv} {c : ACtx} {s : Str} {d : Bool} {v : Option Action}
    (h1 : NoTerm c s v.isSome) (h2 : Relative env c s) :
    (NotUnderstood env c d v s ∧ (expandTailW env c s d v).2 = [.malformedIri s] ∧
      (expandTailW env c s d v).1 = .ok (some (.id (.invalid s)))) ∨
    (¬ NotUnderstood env c d v s ∧ (expandTailW env c s d v).2 = []) := by
  cases v with
  | some a =>
    cases hv : c.vocab with
    | some t =>
      cases t with
      | id i =>
        right
        refine ⟨?_, ?_⟩
        · rintro ⟨_, _, ⟨_, t, ht, hi⟩ | ⟨h | h, _⟩⟩
          · rw [hv] at ht; cases ht; exact hi i rfl
          · cases h
          · rw [hv] at h; cases h
        · unfold expandTailW; rw [hv]; cases a <;> rfl
      | null =>
        left
        refine ⟨⟨h1, h2, .inl ⟨rfl, _, hv, nofun⟩⟩, ?_, ?_⟩ <;> (unfold expandTailW; rw [hv]; rfl)
      | keyword k =>
        left
        refine ⟨⟨h1, h2, .inl ⟨rfl, _, hv, nofun⟩⟩, ?_, ?_⟩ <;> (unfold expandTailW; rw [hv]; rfl)
    | none => exact tailBase h1 h2 (.inr hv) (by unfold expandTailW; rw [hv]; rfl)
  | none => exact tailBase h1 h2 (.inl rfl) (by unfold expandTailW; rfl)
where
  tailBase {v : Option Action} (h1 : NoTerm c s v.isSome) (h2 : Relative env c s)
      (hv : v = none ∨ c.vocab = none)
      (he : expandTailW env c s d v = if d && env.isRef s then
        (match resolveIri env s c.base with
          | some iri => (.ok (some (.id (.iri iri))), [])
          | none => invalidIriW s) else invalidIriW s) :
      (NotUnderstood env c d v s ∧ (expandTailW env c s d v).2 = [.malformedIri s] ∧
        (expandTailW env c s d v).1 = .ok (some (.id (.invalid s)))) ∨
      (¬ NotUnderstood env c d v s ∧ (expandTailW env c s d v).2 = []) := by
    have no (hx : ¬ (d = true → env.isRef s = true → c.base = none ∧ env.isIri s = false)) :
        ¬ NotUnderstood env c d v s := by
      rintro ⟨_, _, ⟨hs, t, ht, _⟩ | ⟨_, h⟩⟩
      · rcases hv with h | h
        · rw [h] at hs; cases hs
        · rw [ht] at h; cases h
      · exact hx h
    rw [he]
    cases hd : d && env.isRef s with
    | false =>
      left
      refine ⟨⟨h1, h2, .inr ⟨hv, fun h3 h4 => ?_⟩⟩, rfl, rfl⟩
      rw [h3, h4] at hd; cases hd
    | true =>
      rw [Bool.and_eq_true] at hd
      unfold resolveIri
      cases hb : c.base with
      | some b =>
        right
        exact ⟨no fun h => (by rw [hb] at h; cases (h hd.1 hd.2).1), rfl⟩
      | none =>
        cases hi : env.isIri s with
        | true =>
          right
          exact ⟨no fun h => (by rw [hi] at h; cases (h hd.1 hd.2).2), rfl⟩
        | false =>
          left
          exact ⟨⟨h1, h2, .inr ⟨hv, fun _ _ => ⟨hb, hi⟩⟩⟩, rfl, rfl⟩

private theorem strW_snd (env : IriEnv) (c : ACtx) (s : Str) (d : Bool) (v : Option Action) :
    (NotUnderstood env c d v s ∧ (expandStrW env c s d v).2 = [.malformedIri s] ∧
      (expandStrW env c s d v).1 = .ok (some (.id (.invalid s)))) ∨
    (¬ NotUnderstood env c d v s ∧ (expandStrW env c s d v).2 = []) := by
  unfold expandStrW
  split
  · rename_i hk
    exact .inr ⟨fun h => h.1.1 ((C01_form s).1 hk), rfl⟩
  · rename_i hk
    rw [C01_form] at hk
    split
    · rename_i t ht
      refine .inr ⟨fun h => ?_, rfl⟩
      rw [(expandTerm_none hk).2 h.1.2] at ht
      cases ht
    · rename_i hn
      have h1 : NoTerm c s v.isSome := ⟨hk, (expandTerm_none hk).1 hn⟩
      split
      · rename_i hc
        rw [colon_iff] at hc
        split
        · rename_i hb
          exact .inr ⟨fun h => (by rw [(h.2.1 hc).1] at hb; cases hb), rfl⟩
        · rename_i hb
          split
          · rename_i he
            exact .inr ⟨fun h => (h.2.1 hc).2.1 he, rfl⟩
          · rename_i he
            split
            · rename_i t ht
              refine .inr ⟨fun h => ?_, rfl⟩
              rw [(compactStep_none hc).2 (h.2.1 hc).2.2.2] at ht
              cases ht
            · rename_i hq
              split
              · rename_i hi
                exact .inr ⟨fun h => (by rw [(h.2.1 hc).2.2.1] at hi; cases hi), rfl⟩
              · rename_i hi
                exact tailW_snd h1 fun _ => ⟨by simpa using hb, he, by simpa using hi,
                  (compactStep_none hc).1 hq⟩
      · rename_i hc
        rw [colon_iff] at hc
        exact tailW_snd h1 fun h => absurd h hc

/-- C104: a string is reported, once, if no rule of IRI expansion gives a meaning to it, and nothing
is reported otherwise. -/
theorem C104_iri (env : IriEnv) (c : ACtx) (s : Str) (d : Bool) (voc : Option Action) :
    (NotUnderstood env c d voc s → (expandIriW env c (some (.string s)) d voc).2 = [.malformedIri s]) ∧
    (¬ NotUnderstood env c d voc s → (expandIriW env c (some (.string s)) d voc).2 = []) := by
  show (_ → (expandStrW env c s d voc).2 = _) ∧ (_ → (expandStrW env c s d voc).2 = _)
  rcases strW_snd env c s d voc with ⟨h, h', _⟩ | ⟨h, h'⟩
  · exact ⟨fun _ => h', fun hn => absurd h hn⟩
  · exact ⟨fun hn => absurd hn h, fun _ => h'⟩

/-- C104: what is reported is the string itself, and it is kept as an invalid identifier. -/
theorem C104_iri_invalid (env : IriEnv) (c : ACtx) (v : Option Expandable) (d : Bool)
    (voc : Option Action) (w : Warn) (h : w ∈ (expandIriW env c v d voc).2) :
    ∃ s, v = some (.string s) ∧ w = .malformedIri s ∧
      expandIri env c v d voc = .ok (some (.id (.invalid s))) := by
  rw [← C104_iri_result]
  rcases v with _ | k | s
  · cases h
  · cases h
  · refine ⟨s, rfl, ?_⟩
    change w ∈ (expandStrW env c s d voc).2 at h
    show _ ∧ (expandStrW env c s d voc).1 = _
    rcases strW_snd env c s d voc with ⟨_, h1, h2⟩ | ⟨_, h1⟩
    · rw [h1, List.mem_singleton] at h
      exact ⟨h, h2⟩
    · rw [h1] at h; cases h

/-- C104 (partial): invalid identifiers that are not reported come from a term definition, from
`_:`, or are made by appending to a prefix or to the vocabulary. -/
theorem C104_silent_partial (env : IriEnv) (c : ACtx) (s i : Str) (d : Bool) (voc : Option Action)
    (h : expandIri env c (some (.string s)) d voc = .ok (some (.id (.invalid i))))
    (hw : (expandIriW env c (some (.string s)) d voc).2 = []) :
    (∃ e, UsedTerm c s voc.isSome e ∧ e.value = some (.id (.invalid i))) ∨
    (s = ['_', ':'] ∧ i = s) ∨
    (∃ p x m, CompactForm env s p x ∧ PrefixFor c p m ∧ i = m.str ++ x) ∨
    (∃ m, voc = some .keep ∧ c.vocab = some (.id m) ∧ i = m.str ++ s) := by
  have hn : ¬ NotUnderstood env c d voc s := fun hn => by
    rw [(C104_iri env c s d voc).1 hn] at hw; cases hw
  have cl : ∀ {x}, Id.classify env x = .invalid i → i = x := by
    intro x hx
    unfold Id.classify at hx
    split at hx
    · cases hx
    · split at hx
      · cases hx
      · cases hx; rfl
  have hr := C33_sound env c s d voc _ h
  generalize ht : CTerm.id (.invalid i) = t at hr
  cases hr with
  | keywordLike _ => cases ht
  | term e _ he =>
    left
    refine ⟨e, he, ?_⟩
    cases hv : e.value with
    | none => rw [hv] at ht; cases ht
    | some m => rfl
  | blank => cases ht
  | emptyBlank _ _ he => cases ht; exact .inr (.inl ⟨he, rfl⟩)
  | compact p x m _ _ h1 h2 =>
    injection ht with ht
    exact .inr (.inr (.inl ⟨p, x, m, h1, h2, cl ht.symm⟩))
  | absolute => cases ht
  | vocab m _ _ hv hc =>
    injection ht with ht
    exact .inr (.inr (.inr ⟨m, hv, hc, cl ht.symm⟩))
  | oddVocab t h1 h2 hv hc hi => exact absurd ⟨h1, h2, .inl ⟨hv, t, hc, hi⟩⟩ hn
  | base => cases ht
  | noBase => cases ht
  | unknown h1 h2 hv hx => exact absurd ⟨h1, h2, .inr ⟨hv, hx⟩⟩ hn

/-! ## Keys -/

private theorem xKeyW_snd (E : XEnv) (c : ACtx) (k : Str) :
    (xKeyW E c k).2 =
      (expandIriW E.toIriEnv c (some (.ofStr k)) false (some E.opts.vocab)).2 := by
  unfold xKeyW
  generalize expandIriW E.toIriEnv c (some (.ofStr k)) false (some E.opts.vocab) = x
  obtain ⟨r, w⟩ := x
  cases r <;> rfl

open Classical in
theorem keyIri (E : XEnv) (c : ACtx) (k : Str) :
    (xKeyW E c k).2 =
      if Keyword.tryFrom k = none ∧ NotUnderstood E.toIriEnv c false (some E.opts.vocab) k
        then [.malformedIri k] else [] := by
  rw [xKeyW_snd]
  unfold Expandable.ofStr
  cases hk : Keyword.tryFrom k with
  | some w => simp [expandIriW]
  | none =>
    have h := C104_iri E.toIriEnv c k false (some E.opts.vocab)
    by_cases hn : NotUnderstood E.toIriEnv c false (some E.opts.vocab) k
    · rw [if_pos ⟨rfl, hn⟩]; exact h.1 hn
    · rw [if_neg fun x => hn x.2]; exact h.2 hn

private theorem keyBlank (E : XEnv) (c : ACtx) (k : Str) (t : Option CTerm)
    (h : xKey E c k = .ok t) :
    keyWarns E c k = (if k.isEmpty then [.emptyTerm] else []) ++ (xKeyW E c k).2 ++ blankWarn t := by
  have hx : expandIri E.toIriEnv c (some (.ofStr k)) false (some E.opts.vocab) = .ok t := by
    unfold xKey xIri at h
    split at h
    · rename_i t' ht; cases h; exact ht
    · cases h
  unfold keyWarns
  rw [keyIri]
  congr 1
  · congr 1
    simp
  · rw [hx]
    unfold blankWarn
    rcases t with _ | _ | ⟨_ | _ | _⟩ | k <;> rfl

theorem keyErr (E : XEnv) (c : ACtx) (k : Str) (e : XErr) (h : xKey E c k = .error e) :
    (xKeyW E c k).2 = [] := by
  rw [xKeyW_snd]
  cases hw : (expandIriW E.toIriEnv c (some (.ofStr k)) false (some E.opts.vocab)).2 with
  | nil => rfl
  | cons w l =>
    obtain ⟨s, _, _, hr⟩ := C104_iri_invalid E.toIriEnv c _ false (some E.opts.vocab) w
      (by rw [hw]; exact List.mem_cons_self)
    unfold xKey xIri at h
    rw [hr] at h
    cases h

private theorem cons_ok (E : XEnv) (c : ACtx) (k : Str) (v : Json) (m : List (Str × Json))
    (t : Option CTerm) (h : xKey E c k = .ok t) :
    (xEntriesW E c ((k, v) :: m)).2 = keyWarns E c k ++ (xEntriesW E c m).2 := by
  rw [keyBlank E c k t h]
  have h1 : (xKeyW E c k).1 = .ok t := by rw [xKeyW_fst, h]
  generalize hx : xKeyW E c k = x at h1
  obtain ⟨r, w⟩ := x
  cases h1
  show (Warned.andThen _ _).2 = _
  simp only [Warned.andThen, hx]
  cases (xEntriesW E c m).1 <;> simp

/-- C104: if the keys of an object can be expanded, the warnings are those deserved by its keys,
in their order. -/
theorem C104_keys (E : XEnv) (c : ACtx) (m : List (Str × Json)) (es : List XEntry)
    (h : xEntries E c m = .ok es) :
    (xEntriesW E c m).2 = m.flatMap fun e => keyWarns E c e.1 := by
  induction m generalizing es with
  | nil => rfl
  | cons e m ih =>
    obtain ⟨k, v⟩ := e
    unfold xEntries at h
    cases hk : xKey E c k with
    | error => rw [hk] at h; cases h
    | ok t =>
      cases hm : xEntries E c m with
      | error => rw [hk, hm] at h; cases h
      | ok es' => rw [cons_ok E c k v m t hk, ih es' hm]; rfl

/-- C104: if a key is forbidden, the warnings are those deserved by the keys before it, and the one
for the empty key. -/
theorem C104_keys_error (E : XEnv) (c : ACtx) (m : List (Str × Json)) (e : XErr)
    (h : xEntries E c m = .error e) :
    ∃ l k v r, m = l ++ (k, v) :: r ∧ xKey E c k = .error e ∧
      (∀ x ∈ l, ∃ t, xKey E c x.1 = .ok t) ∧
      (xEntriesW E c m).2 =
        (l.flatMap fun e => keyWarns E c e.1) ++ (if k = [] then [.emptyTerm] else []) := by
  induction m with
  | nil => cases h
  | cons x m ih =>
    obtain ⟨k, v⟩ := x
    unfold xEntries at h
    cases hk : xKey E c k with
    | error e' =>
      rw [hk] at h
      cases h
      refine ⟨[], k, v, m, rfl, hk, nofun, ?_⟩
      have h1 : (xKeyW E c k).1 = .error e := by rw [xKeyW_fst, hk]
      have h2 := keyErr E c k e hk
      generalize hx : xKeyW E c k = x at h1 h2
      obtain ⟨r, w⟩ := x
      cases h1
      cases h2
      show (Warned.andThen _ _).2 = _
      simp [Warned.andThen, hx]
    | ok t =>
      cases hm : xEntries E c m with
      | ok => rw [hk, hm] at h; cases h
      | error e' =>
        rw [hk, hm] at h
        cases h
        obtain ⟨l, k', v', r, h1, h2, h3, h4⟩ := ih hm
        refine ⟨(k, v) :: l, k', v', r, by rw [h1]; rfl, h2, ?_, ?_⟩
        · intro x hx
          rcases List.mem_cons.1 hx with rfl | hx
          · exact ⟨t, hk⟩
          · exact h3 x hx
        · rw [cons_ok E c k v m t hk, h4, List.flatMap_cons, List.append_assoc]

/-- C104: there is a warning for a blank node used as a property exactly if a key stands for it. -/
theorem C104_blank (E : XEnv) (c : ACtx) (m : List (Str × Json)) (es : List XEntry) (b : Str)
    (h : xEntries E c m = .ok es) :
    .blankProperty b ∈ (xEntriesW E c m).2 ↔
      ∃ e ∈ m, expandIri E.toIriEnv c (some (.ofStr e.1)) false (some E.opts.vocab) =
        .ok (some (.id (.blank b))) := by
  rw [C104_keys E c m es h, List.mem_flatMap]
  refine exists_congr fun e => and_congr_right fun _ => ?_
  unfold keyWarns
  simp only [List.mem_append]
  constructor
  · rintro ((hx | hx) | hx)
    · split at hx <;> simp at hx
    · split at hx <;> simp at hx
    · split at hx
      · rename_i b' hb
        rw [List.mem_singleton] at hx
        cases hx
        exact hb
      · cases hx
  · intro hx
    right
    rw [hx]
    exact List.mem_singleton.2 rfl

/-- C104: there are as many warnings for empty terms as there are empty keys. -/
theorem C104_empty (E : XEnv) (c : ACtx) (m : List (Str × Json)) (es : List XEntry)
    (h : xEntries E c m = .ok es) :
    (xEntriesW E c m).2.count .emptyTerm = (m.map Prod.fst).count [] := by
  rw [C104_keys E c m es h]
  clear h
  induction m with
  | nil => rfl
  | cons e m ih =>
    rw [List.flatMap_cons, List.count_append, ih, List.map_cons, List.count_cons, Nat.add_comm]
    congr 1
    unfold keyWarns
    rw [List.count_append, List.count_append]
    have h1 : List.count Warn.emptyTerm (if e.1 = [] then [Warn.emptyTerm] else []) =
        if (e.1 == []) = true then 1 else 0 := by
      by_cases he : e.1 = [] <;> simp [he]
    rw [h1, Nat.add_assoc]
    refine Nat.add_eq_left.2 (Nat.add_eq_zero_iff.2 ⟨?_, ?_⟩)
    · split
      · exact List.count_eq_zero.2 (by simp)
      · rfl
    · split
      · exact List.count_eq_zero.2 (by simp)
      · rfl

/-! ## Value objects -/

private theorem typeW_snd (env : IriEnv) (voc : Action) (tsc : ACtx) (s : ValueState) (t : Str) :
    (valueTypeW env voc tsc s (.str t)).2 =
      (expandIriW env tsc (some (.ofStr t)) true (some voc)).2 := by
  unfold valueTypeW
  simp only
  generalize expandIriW env tsc (some (.ofStr t)) true (some voc) = x
  obtain ⟨r, w⟩ := x
  rcases r with _ | _ | _ | ⟨_ | _ | _⟩ | k
  · rfl
  · rfl
  · rfl
  · rfl
  · rfl
  · rfl
  · cases k <;> rfl

private theorem typeW_once (env : IriEnv) (voc : Action) (tsc : ACtx) (s : ValueState) (t : Str) :
    (valueTypeW env voc tsc s (.str t)).2 = [] ∨
    ((valueTypeW env voc tsc s (.str t)).2 = [.malformedIri t] ∧
      (valueTypeW env voc tsc s (.str t)).1 = .error .typedValue) := by
  rw [typeW_snd]
  cases hk : Keyword.tryFrom t with
  | some k => left; unfold Expandable.ofStr; rw [hk]; rfl
  | none =>
    have ho : Expandable.ofStr t = .string t := by unfold Expandable.ofStr; rw [hk]
    rcases strW_snd env tsc t true (some voc) with ⟨_, h1, h2⟩ | ⟨_, h1⟩
    · right
      refine ⟨by rw [ho]; exact h1, ?_⟩
      unfold valueTypeW
      simp only [ho, expandIriW]
      generalize expandStrW env tsc t true (some voc) = x at h2
      obtain ⟨r, w⟩ := x
      cases h2
      rfl
    · left; rw [ho]; exact h1

private theorem loopW_snd (env : IriEnv) (voc : Action) (tsc : ACtx) (es : List XEntry) :
    ∀ s, (valueLoopW env voc tsc es s).2 = [] ∨
      ∃ x, (valueLoopW env voc tsc es s).2 = [.malformedIri x] ∧
        (valueLoopW env voc tsc es s).1 = .error .typedValue ∧
        ∃ e ∈ es, e.term = .keyword .type ∧ e.value = .str x := by
  induction es with
  | nil => intro s; exact .inl rfl
  | cons e es ih =>
    intro s
    have hs : (valueStepW env voc tsc s e).2 = [] ∨
        ∃ x, (valueStepW env voc tsc s e).2 = [.malformedIri x] ∧
          (valueStepW env voc tsc s e).1 = .error .typedValue ∧
          e.term = .keyword .type ∧ e.value = .str x := by
      unfold valueStepW
      split
      · exact .inl rfl
      · exact .inl rfl
      · exact .inl rfl
      · rename_i ht
        rw [ht]
        cases e.value with
        | str t =>
          rcases typeW_once env voc tsc s t with h | ⟨h, h'⟩
          · exact .inl h
          · exact .inr ⟨t, h, h', rfl, rfl⟩
        | _ => exact .inl rfl
      · exact .inl rfl
      · exact .inl rfl
    unfold valueLoopW
    generalize valueStepW env voc tsc s e = y at hs
    obtain ⟨r, w⟩ := y
    rcases hs with hs | ⟨x, h1, h2, h3, h4⟩
    · cases hs
      cases r with
      | error => exact .inl rfl
      | ok s' =>
        rcases ih s' with hi | ⟨x, h1, h2, e', he, h3⟩
        · exact .inl (by simpa [Warned.andThen] using hi)
        · exact .inr ⟨x, by simpa [Warned.andThen] using h1, h2, e', List.mem_cons_of_mem _ he, h3⟩
    · cases h1
      cases h2
      exact .inr ⟨x, rfl, rfl, e, List.mem_cons_self, h3, h4⟩

private theorem resultW_snd (ok : Str → Bool) (s : ValueState) (v : Json) :
    ((valueResultW ok s v).2 = [] ∧
      ∀ i r t, (valueResultW ok s v).1 = .ok (some (.value i (.langString r))) →
        r.language = some t → ok t = true) ∨
    ∃ t i r, (valueResultW ok s v).2 = [.malformedTag t] ∧ ok t = false ∧
      (valueResultW ok s v).1 = .ok (some (.value i (.langString r))) ∧ r.language = some t := by
  unfold valueResultW
  split
  · split <;> exact .inl ⟨rfl, by intro i r t h; cases h⟩
  · cases scalarOf v with
    | error e => exact .inl ⟨rfl, by intro i r t h; cases h⟩
    | ok l =>
      by_cases hl : (s.language.isSome || s.direction.isSome) = true
      · have hx : ∀ l, ((langValueW ok s l).2 = [] ∧
              ∀ i r t, (langValueW ok s l).1 = .ok (some (.value i (.langString r))) →
                r.language = some t → ok t = true) ∨
            ∃ t i r, (langValueW ok s l).2 = [.malformedTag t] ∧ ok t = false ∧
              (langValueW ok s l).1 = .ok (some (.value i (.langString r))) ∧
              r.language = some t := by
          intro l
          unfold langValueW
          split
          · exact .inl ⟨rfl, by intro i r t h; cases h⟩
          · cases l with
            | str x =>
              have hn : LangString.new x s.language s.direction =
                  .ok ⟨x, s.language, s.direction⟩ := by unfold LangString.new; rw [if_pos hl]
              simp only [hn]
              cases hs : s.language with
              | none =>
                refine .inl ⟨rfl, ?_⟩
                intro i r t h1 h2
                cases h1
                cases h2
              | some t =>
                cases ht : ok t with
                | true =>
                  refine .inl ⟨by simp [tagWarn, ht], ?_⟩
                  intro i r t' h1 h2
                  cases h1
                  cases h2
                  exact ht
                | false =>
                  exact .inr ⟨t, s.index, ⟨x, some t, s.direction⟩, by simp [tagWarn, ht], ht,
                    rfl, rfl⟩
            | _ => exact .inl ⟨rfl, by intro i r t h; cases h⟩
        cases l with
        | null => exact .inl ⟨rfl, by intro i r t h; cases h⟩
        | _ => simp only [hl, if_true]; exact hx _
      · cases l with
        | null => exact .inl ⟨rfl, by intro i r t h; cases h⟩
        | _ => simp only [hl]; exact .inl ⟨rfl, by intro i r t h; cases h⟩

/-- C104: a language tag is reported exactly if it is not well-formed and is the language of the
result. -/
theorem C104_tag (env : IriEnv) (ok : Str → Bool) (voc : Action) (ty : Option CTerm) (tsc : ACtx)
    (es : List XEntry) (v : Json) (t : Str) :
    .malformedTag t ∈ (expandValueW env ok voc ty tsc es v).2 ↔
      ok t = false ∧ ∃ i r, expandValue env voc ty tsc es v =
        .ok (some (.value i (.langString r))) ∧ r.language = some t := by
  rw [← C104_value_result env ok]
  unfold expandValueW
  have hl := loopW_snd env voc tsc es { isJson := decide (ty = some (.keyword .json)) }
  generalize valueLoopW env voc tsc es { isJson := decide (ty = some (.keyword .json)) } = y at hl
  obtain ⟨r, w⟩ := y
  rcases hl with hl | ⟨x, h1, h2, _⟩
  · cases hl
    cases r with
    | error e =>
      show _ ∈ [] ↔ _
      constructor
      · intro h; cases h
      · rintro ⟨_, _, _, h, _⟩; cases h
    | ok s =>
      show _ ∈ [] ++ (valueResultW ok s v).2 ↔ _ ∧ ∃ i r, (valueResultW ok s v).1 = _ ∧ _
      rw [List.nil_append]
      rcases resultW_snd ok s v with ⟨h1, h2⟩ | ⟨t', i, r, h1, h2, h3, h4⟩
      · rw [h1]
        constructor
        · intro h; cases h
        · rintro ⟨h3, i, r, h4, h5⟩
          rw [h2 i r t h4 h5] at h3
          cases h3
      · rw [h1, List.mem_singleton]
        constructor
        · intro h
          cases h
          exact ⟨h2, i, r, h3, h4⟩
        · rintro ⟨_, i', r', h5, h6⟩
          rw [h3] at h5
          cases h5
          rw [h4] at h6
          cases h6
          rfl
  · cases h1
    cases h2
    constructor
    · intro h
      change Warn.malformedTag t ∈ [Warn.malformedIri x] at h
      rw [List.mem_singleton] at h
      cases h
    · rintro ⟨_, _, _, h, _⟩
      cases h

/-- C104: a value object gives at most one warning. One that is not about its language is about the
type, and the value object is refused. -/
theorem C104_value (env : IriEnv) (ok : Str → Bool) (voc : Action) (ty : Option CTerm) (tsc : ACtx)
    (es : List XEntry) (v : Json) :
    (expandValueW env ok voc ty tsc es v).2.length ≤ 1 ∧
    ∀ w ∈ (expandValueW env ok voc ty tsc es v).2, (∃ t, w = .malformedTag t) ∨
      ∃ x, w = .malformedIri x ∧ expandValue env voc ty tsc es v = .error .typedValue ∧
        ∃ e ∈ es, e.term = .keyword .type ∧ e.value = .str x := by
  rw [← C104_value_result env ok]
  unfold expandValueW
  have hl := loopW_snd env voc tsc es { isJson := decide (ty = some (.keyword .json)) }
  generalize valueLoopW env voc tsc es { isJson := decide (ty = some (.keyword .json)) } = y at hl
  obtain ⟨r, w⟩ := y
  rcases hl with hl | ⟨x, h1, h2, h3⟩
  · cases hl
    cases r with
    | error e => exact ⟨Nat.zero_le _, nofun⟩
    | ok s =>
      show ([] ++ (valueResultW ok s v).2).length ≤ 1 ∧ ∀ w ∈ [] ++ (valueResultW ok s v).2, _
      rw [List.nil_append]
      rcases resultW_snd ok s v with ⟨h1, _⟩ | ⟨t', i, r, h1, _⟩
      · rw [h1]; exact ⟨Nat.zero_le _, nofun⟩
      · rw [h1]
        refine ⟨Nat.le_refl _, ?_⟩
        intro w hw
        rw [List.mem_singleton] at hw
        exact .inl ⟨t', hw⟩
  · cases h1
    cases h2
    refine ⟨Nat.le_refl _, ?_⟩
    intro w hw
    change w ∈ [Warn.malformedIri x] at hw
    rw [List.mem_singleton] at hw
    exact .inr ⟨x, hw, rfl, h3⟩

/-! ## Examples -/

/-- C104: not every invalid identifier is reported: `_:` is not, and neither is a string appended
to a vocabulary that does not make an IRI. -/
theorem C104_unreported :
    (expandIri exIriEnv exCtx (some (.string "_:".toList)) true none =
        .ok (some (.id (.invalid "_:".toList))) ∧
      (expandIriW exIriEnv exCtx (some (.string "_:".toList)) true none).2 = []) ∧
    (expandIri exIriEnv { exCtx with vocab := some (.id (.blank "_:".toList)) }
        (some (.string [])) false (some .keep) = .ok (some (.id (.invalid "_:".toList))) ∧
      (expandIriW exIriEnv { exCtx with vocab := some (.id (.blank "_:".toList)) }
        (some (.string [])) false (some .keep)).2 = []) := by
  decide +kernel

/-- A string that is reported, and one that is not. -/
example : (expandIriW exIriEnv exCtx (some (.string "z".toList)) false none).2 =
      [.malformedIri "z".toList] ∧
    (expandIriW exIriEnv exCtx (some (.string "z".toList)) true none).2 = [] := by
  decide +kernel

/-- External functions and options for the examples. -/
def exWarnEnv : XEnv :=
  { exIriEnv with process := fun c _ _ _ => .ok c, base := none, opts := {} }

/-- The keys of an object with all kinds of warnings: an empty key, a blank node, and a key that is
not understood. Terms, keywords and IRIs are not reported. -/
example : (xEntriesW exWarnEnv { exCtx with vocab := none }
      [("name".toList, .null), ([], .null), ("_:b".toList, .null), ("@id".toList, .null),
        ("http://x".toList, .null), ("z".toList, .null)]).2 =
    [.emptyTerm, .malformedIri [], .blankProperty "_:b".toList, .malformedIri "z".toList] := by
  decide +kernel

/-- A forbidden key stops the loop. -/
example : (xEntriesW { exWarnEnv with opts := { vocab := .reject } } exCtx
      [("_:b".toList, .null), ([], .null), ("_:c".toList, .null)]).2 =
    [.blankProperty "_:b".toList, .emptyTerm] := by
  decide +kernel

/-- A value with a malformed language, one with a type that is not understood, and one with a
malformed language that is refused. -/
example : (expandValueW exIriEnv (fun t => decide (t = "en".toList)) .keep none exCtx
      [⟨"@value".toList, .keyword .value, .str "a".toList⟩,
        ⟨"@language".toList, .keyword .language, .str "e n".toList⟩] (.str "a".toList)).2 =
      [.malformedTag "e n".toList] ∧
    (expandValueW exIriEnv (fun _ => true) .keep none { exCtx with vocab := none, base := none }
      [⟨"@type".toList, .keyword .type, .str "z".toList⟩] (.str "a".toList)).2 =
      [.malformedIri "z".toList] ∧
    (expandValueW exIriEnv (fun _ => false) .keep none exCtx
      [⟨"@language".toList, .keyword .language, .str "e n".toList⟩] (.bool true)).2 = [] := by
  decide +kernel

end JsonLd.Props
