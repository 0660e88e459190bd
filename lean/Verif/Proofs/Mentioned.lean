import Verif.Spec.Mentioned
import Verif.Proofs.Idle
/-!
# Expansion looks up the mentioned terms only
-/

namespace JsonLd
open Spec Props

variable {E : XEnv} {P : ACtx → SCtx → Option Str → Opts → Except CtxErr ACtx} {M : Str → Prop} {L : SCtx → Prop}
  {R : ACtx → ACtx → Prop}

/-- With another way of processing contexts. -/
abbrev XEnv.with (E : XEnv) (P : ACtx → SCtx → Option Str → Opts → Except CtxErr ACtx) : XEnv := { E with process := P }

/-! ## IRIs -/

/-- What expansion asks of a definition. -/
structure SameUse (d d' : Option TermDef) : Prop where
  container : containerOf d = containerOf d'
  typ : d.bind (·.typ) = d'.bind (·.typ)
  index : indexKeyOf d = indexKeyOf d'
  reverse : reverseOf d = reverseOf d'
  language : d.bind (·.language) = d'.bind (·.language)
  direction : d.bind (·.direction) = d'.bind (·.direction)

theorem sameUse {d d' : Option TermDef} (h : d.map forget = d'.map forget) : SameUse d d' := by
  have key : ∀ {α : Type} (f : Option TermDef → α), (∀ d, f (d.map forget) = f d) → f d = f d' := by
    intro α f hf
    rw [← hf d, h, hf]
  constructor
  · exact key containerOf (by rintro (_ | _) <;> rfl)
  · exact key (fun d => d.bind (·.typ)) (by rintro (_ | _) <;> rfl)
  · exact key indexKeyOf (by rintro (_ | _) <;> rfl)
  · exact key reverseOf (by rintro (_ | _) <;> rfl)
  · exact key (fun d => d.bind (·.language)) (by rintro (_ | _) <;> rfl)
  · exact key (fun d => d.bind (·.direction)) (by rintro (_ | _) <;> rfl)

theorem agree_get {c c' : ACtx} (h : AgreeOn M c c') {t : Str} (ht : M t) : (c.get t).map forget = (c'.get t).map forget := by
  unfold ACtx.get
  split
  · have := h.type
    cases hx : c.typeDef <;> cases hy : c'.typeDef <;> rw [hx, hy] at this <;> first | rfl | cases this
  · exact h.terms t ht

theorem agree_use {c c' : ACtx} (h : AgreeOn M c c') {t : Str} (ht : M t) : SameUse (c.get t) (c'.get t) :=
  sameUse (agree_get h ht)

theorem agree_iri (H : Simulates E.process P M L R) {c c' : ACtx} (hc : R c c') {s : Str} (hs : M s) {docRel : Bool}
    {vocab : Option Action} :
    expandIri E.toIriEnv c (some (.ofStr s)) docRel vocab = expandIri E.toIriEnv c' (some (.ofStr s)) docRel vocab := by
  have h := H.agree hc
  have htail : ∀ s, expandTail E.toIriEnv c s docRel vocab = expandTail E.toIriEnv c' s docRel vocab := fun s => by
    unfold expandTail
    rw [h.vocab, h.base]
  unfold Expandable.ofStr
  cases Keyword.tryFrom s with
  | some k => rfl
  | none =>
    show expandStr _ _ _ _ _ = expandStr _ _ _ _ _
    unfold expandStr
    have h1 : expandTerm c s vocab = expandTerm c' s vocab := by
      have hv : c.getValue s = c'.getValue s := by
        unfold ACtx.getValue
        split
        · have := h.type
          cases hx : c.typeDef <;> cases hy : c'.typeDef <;> rw [hx, hy] at this <;> first | rfl | cases this
        · have := congrArg (Option.map (·.value)) (h.terms s hs)
          rw [Option.map_map, Option.map_map] at this
          exact this
      unfold expandTerm
      rw [hv]
    have h2 : ((compactIri E.toIriEnv s).bind fun q => expandPrefix E.toIriEnv c q.1 q.2) =
        (compactIri E.toIriEnv s).bind fun q => expandPrefix E.toIriEnv c' q.1 q.2 := by
      unfold compactIri
      cases hsp : splitOnce ':' s with
      | none => rfl
      | some q =>
        obtain ⟨p, x⟩ := q
        dsimp only
        have : expandPrefix E.toIriEnv c p x = expandPrefix E.toIriEnv c' p x := by
          have := h.terms p (H.before hs hsp)
          unfold expandPrefix
          cases hx : c.getNormal p <;> cases hy : c'.getNormal p <;> rw [hx, hy] at this <;> first | rfl | cases this | skip
          rename_i d d'
          have h1 : d.prefix_ = d'.prefix_ := congrArg (fun x => (x.map (·.prefix_)).getD false) this
          have h2 : d.value = d'.value := congrArg (fun x => x.bind (·.value)) this
          dsimp only
          rw [h1, h2]
        split
        · split
          · exact this
          · rfl
        · rfl
    rw [h1, h2, htail]

theorem agree_xIri (H : Simulates E.process P M L R) {c c' : ACtx} (hc : R c c') {s : Str} (hs : M s) {docRel : Bool}
    {vocab : Option Action} : xIri E c s docRel vocab = xIri (E.with P) c' s docRel vocab := by
  unfold xIri
  rw [agree_iri H hc hs]

theorem agree_xKey (H : Simulates E.process P M L R) {c c' : ACtx} (hc : R c c') {s : Str} (hs : M s) :
    xKey E c s = xKey (E.with P) c' s := agree_xIri H hc hs

/-! ## Contexts -/

theorem both_process {a a' : ACtx} {l : SCtx} {base base' : Option Str} {o : Opts}
    (h : Alike R (E.process a l base o) (P a' l base' o)) : Both R (xProcess E a l base o) (xProcess (E.with P) a' l base' o) := by
  unfold xProcess
  show Both R (match E.process a l base o with | .ok c => .ok c | .error e => .error (.contextProcessing e))
    (match P a' l base' o with | .ok c => .ok c | .error e => .error (.contextProcessing e))
  cases hx : E.process a l base o <;> cases hy : P a' l base' o <;> rw [hx, hy] at h
  · exact .inl ⟨_, rfl, by rw [show _ = _ from h]⟩
  · exact h.elim
  · exact h.elim
  · exact .inr ⟨_, _, rfl, rfl, h⟩

theorem both_scoped (H : Simulates E.process P M L R) {a a' c c' : ACtx} (ha : R a a') (hc : R c c') {t : Str} (ht : M t) {o : Opts} :
    Both R (scopedCtx E (c.get t) a o) (scopedCtx (E.with P) (c'.get t) a' o) := by
  have h := agree_get (H.agree hc) ht
  have hn : ∀ {c : ACtx} {d : TermDef} {l : SCtx}, c.get t = some d → d.context = some l → c.getNormal t = some d := by
    intro c d l hg hd
    unfold ACtx.get at hg
    split at hg
    · cases htd : c.typeDef with
      | none => rw [htd] at hg; cases hg
      | some p => rw [htd] at hg; cases hg; cases hd
    · exact hg
  unfold scopedCtx
  cases hg : c.get t <;> cases hg' : c'.get t <;> rw [hg, hg'] at h
  · exact .inr ⟨_, _, rfl, rfl, ha⟩
  · cases h
  · cases h
  · rename_i d d'
    have hd : d.context = d'.context := congrArg (fun x => x.bind (·.context)) h
    dsimp only
    rw [← hd]
    cases hl : d.context with
    | none => exact .inr ⟨_, _, rfl, rfl, ha⟩
    | some l => exact both_process (H.scopedContext (d := d) (d' := d') ha hc ht (hn hg hl) (hn hg' (hd ▸ hl)) hl)

/-- The active property, if any, is a name of the set. -/
def PropIn (M : Str → Prop) (prop : Option Str) : Prop := ∀ k, prop = some k → M k

theorem both_scopedProp (H : Simulates E.process P M L R) {a a' c c' : ACtx} (ha : R a a') (hc : R c c') {prop : Option Str}
    (hp : PropIn M prop) {o : Opts} :
    Both R (scopedCtx E (prop.bind c.get) a o) (scopedCtx (E.with P) (prop.bind c'.get) a' o) := by
  cases prop with
  | none => exact .inr ⟨_, _, rfl, rfl, ha⟩
  | some k => exact both_scoped H ha hc (hp k rfl)

theorem agree_prop (H : Simulates E.process P M L R) {c c' : ACtx} (hc : R c c') {prop : Option Str} (hp : PropIn M prop) :
    SameUse (prop.bind c.get) (prop.bind c'.get) := by
  cases prop with
  | none => exact sameUse rfl
  | some k => exact agree_use (H.agree hc) (hp k rfl)

/-! ## Documents that mention these names only -/

structure NamesIn (E : XEnv) (M : Str → Prop) (L : SCtx → Prop) (j : Json) : Prop where
  said : ∀ s, Said s j → M s
  context : ∀ v l, ContextIn v j → readCtx E.isRef v = .ok l → L l

theorem NamesIn.value {k : Str} {v : Json} {m : List (Str × Json)} (h : NamesIn E M L (.obj m)) (hm : (k, v) ∈ m) : NamesIn E M L v :=
  ⟨fun _ hs => h.said _ (.entry hm hs), fun _ _ hv => h.context _ _ (.entry hm hv)⟩

theorem NamesIn.key {k : Str} {v : Json} {m : List (Str × Json)} (h : NamesIn E M L (.obj m)) (hm : (k, v) ∈ m) : M k :=
  h.said _ (.key hm)

theorem NamesIn.item {v : Json} {l : List Json} (h : NamesIn E M L (.arr l)) (hm : v ∈ l) : NamesIn E M L v :=
  ⟨fun _ hs => h.said _ (.item hm hs), fun _ _ hv => h.context _ _ (.item hm hv)⟩

theorem NamesIn.force {v w : Json} (h : NamesIn E M L v) (hw : w ∈ forceArray v) : NamesIn E M L w := by
  cases v with
  | arr l => exact h.item hw
  | _ => rw [List.mem_singleton.1 hw]; exact h

/-- Entries of an object, contexts aside. -/
def ObjIn (E : XEnv) (M : Str → Prop) (L : SCtx → Prop) (m : List (Str × Json)) : Prop :=
  ∀ e ∈ m, e.1 ≠ "@context".toList → M e.1 ∧ NamesIn E M L e.2

/-- The same with expanded keys. -/
def EntryIn (E : XEnv) (M : Str → Prop) (L : SCtx → Prop) (e : XEntry) : Prop :=
  e.term ≠ .keyword .context → M e.key ∧ NamesIn E M L e.value

theorem NamesIn.obj {m : List (Str × Json)} (h : NamesIn E M L (.obj m)) : ObjIn E M L m :=
  fun e he _ => ⟨h.key (v := e.2) he, h.value he⟩

structure RecX (E : XEnv) (M : Str → Prop) (L : SCtx → Prop) (R : ACtx → ACtx → Prop) (r r' : XRec) : Prop where
  elem : ∀ {c c' prop j fm}, R c c' → PropIn M prop → NamesIn E M L j → r.elem c prop j fm = r'.elem c' prop j fm
  entries : ∀ {s c c' t t' prop es}, R c c' → R t t' → PropIn M prop → (∀ e ∈ es, EntryIn E M L e) →
    r.entries s c t prop es = r'.entries s c' t' prop es

theorem collectM_on {α β : Type} {f g : α → Except XErr (List β)} {l : List α} (h : ∀ a ∈ l, f a = g a) :
    collectM f l = collectM g l :=
  collectM_eq (T := fun a b => a = b ∧ a ∈ l) (forall₂_refl_mem fun _ ha => ⟨rfl, ha⟩)
    (by rintro a b ⟨rfl, ha⟩; exact h a ha)

theorem foldlM_on {α σ ε : Type} {f g : σ → α → Except ε σ} {l : List α} (h : ∀ s, ∀ a ∈ l, f s a = g s a) (s : σ) :
    l.foldlM f s = l.foldlM g s :=
  foldlM_eq (T := fun a b => a = b ∧ a ∈ l) (forall₂_refl_mem fun _ ha => ⟨rfl, ha⟩)
    (by rintro s a b ⟨rfl, ha⟩; exact h s a ha) s

theorem propIn_some {k : Str} (h : M k) : PropIn M (some k) := by
  rintro _ ⟨⟩
  exact h

/-! ## Values of properties -/

section
variable (H : Simulates E.process P M L R) {r r' : XRec} (hr : RecX E M L R r r')
include H

theorem literal_m {c c' : ACtx} (hc : R c c') {prop : Option Str} (hp : PropIn M prop) {l : Literal} (hl : ∀ s, l = .str s → M s) :
    expandLiteral E.toIriEnv E.opts.vocab c prop l = expandLiteral E.toIriEnv E.opts.vocab c' prop l := by
  have h := H.agree hc
  have hd := agree_prop H hc hp
  unfold expandLiteral
  dsimp only
  generalize prop.bind c.get = d at hd ⊢
  generalize prop.bind c'.get = d' at hd ⊢
  have h1 : untypedLiteral c d l = untypedLiteral c' d' l := by
    cases l <;> first | rfl | skip
    show untypedString c d _ = untypedString c' d' _
    unfold untypedString literalLanguage literalDirection
    rw [h.language, h.direction, hd.language, hd.direction]
  rw [← hd.typ]
  split
  · rw [agree_iri H hc (hl _ rfl)]
  · rw [agree_iri H hc (hl _ rfl)]
  · rfl
  · rfl
  · rw [h1]

theorem langMap_m {c c' : ACtx} (hc : R c c') {d d' : Option TermDef} (hd : SameUse d d') {m : List (Str × Json)}
    (hm : NamesIn E M L (.obj m)) : langMap E c d m = langMap (E.with P) c' d' m := by
  unfold langMap literalDirection
  rw [(H.agree hc).direction, hd.direction]
  refine collectM_on fun e he => collectM_on fun v _ => ?_
  have : M e.1 := hm.key (v := e.2) ((sortIf_perm _ _ _).mem_iff.1 he)
  unfold langMapItem
  split
  · rfl
  · rw [agree_xKey H hc this]
  · rfl

theorem mapContext_m {c c' : ACtx} (hc : R c c') {cm : Container} {i : Str} (hi : M i) :
    Both R (mapContext E c cm i) (mapContext (E.with P) c' cm i) := by
  have hp : R (c.previous.getD c) (c'.previous.getD c') := by
    have := H.previous hc
    cases h1 : c.previous <;> cases h2 : c'.previous <;> rw [h1, h2] at this
    · exact hc
    · exact this.elim
    · exact this.elim
    · exact this
  unfold mapContext
  dsimp only
  cases (cm.contains .type || cm.contains .id) <;> cases cm.contains .type
  · exact .inr ⟨_, _, rfl, rfl, hc⟩
  · exact both_scoped H hc hc hi
  · exact .inr ⟨_, _, rfl, rfl, hp⟩
  · exact both_scoped H hp hp hi

theorem indexItem_m {c c' : ACtx} (hc : R c c') {cm : Container} {k i : Str} (hk : k ≠ "@index".toList → M k) (hi : M i)
    {t : CTerm} {o : Obj} : indexItem E c cm k i t o = indexItem (E.with P) c' cm k i t o := by
  unfold indexItem
  split
  · rename_i h
    have hk : M k := hk (by simpa using (Bool.and_eq_true_iff.1 h).2)
    unfold indexProp
    rw [literal_m H hc (propIn_some hk) (l := .str i) (by rintro _ ⟨⟩; exact hi), agree_xKey H hc hk]
  · split
    · rfl
    · split
      · have : indexId E c i o = indexId (E.with P) c' i o := by
          unfold indexId
          split
          · rw [agree_xIri H hc hi]
          · rfl
        rw [this]
      · rfl

theorem mapItem_m {c c' : ACtx} (hc : R c c') {cm : Container} {k i : Str} (hk : k ≠ "@index".toList → M k) (hi : M i)
    {t : Option CTerm} {o : Obj} : mapItem E c cm k i t o = mapItem (E.with P) c' cm k i t o := by
  unfold mapItem
  cases t with
  | none => rfl
  | some t =>
    dsimp only
    rw [indexItem_m H hc hk hi]

theorem indexKey_m {c c' : ACtx} (hc : R c c') {key : Str} (hk : M key) :
    indexKeyOf (c.get key) ≠ "@index".toList → M (indexKeyOf (c.get key)) := by
  unfold indexKeyOf
  cases hg : c.get key with
  | none => exact fun h => absurd rfl h
  | some d =>
    show (match d.index with | some i => i | none => "@index".toList) ≠ _ → M (match d.index with | some i => i | none => "@index".toList)
    cases hd : d.index with
    | none => exact fun h => absurd rfl h
    | some i =>
      intro _
      refine H.index hc hk ?_ hd
      unfold ACtx.get at hg
      split at hg
      · cases htd : c.typeDef with
        | none => rw [htd] at hg; cases hg
        | some p => rw [htd] at hg; cases hg; cases hd
      · exact hg

include hr

theorem propValue_m {c c' : ACtx} (hc : R c c') {key : Str} (hk : M key) {v : Json} (hv : NamesIn E M L v) :
    propValue E r c (c.get key) key v = propValue (E.with P) r' c' (c'.get key) key v := by
  have hel : ∀ w, NamesIn E M L w → r.elem c (some key) w false = r'.elem c' (some key) w false :=
    fun w hw => hr.elem hc (propIn_some hk) hw
  have hik := indexKey_m H hc hk
  have hd := agree_use (H.agree hc) hk
  generalize c.get key = d at hik hd ⊢
  generalize c'.get key = d' at hd ⊢
  unfold propValue
  dsimp only
  rw [← hd.typ, ← hd.container, ← hd.index]
  split
  · rfl
  · cases v with
    | obj m =>
      dsimp only
      split
      · rw [langMap_m H hc hd hv]
      · split
        · have : collectM (xMapEntry E r c (containerOf d) (indexKeyOf d) key) (sortIf E.opts.ordered Prod.fst m) =
              collectM (xMapEntry (E.with P) r' c' (containerOf d) (indexKeyOf d) key) (sortIf E.opts.ordered Prod.fst m) := by
            refine collectM_on fun e he => ?_
            have he' : (e.1, e.2) ∈ m := (sortIf_perm _ _ _).mem_iff.1 he
            have hke := hv.key he'
            unfold xMapEntry
            refine (mapContext_m H hc hke).bind fun a a' _ ha => ?_
            have h1 : expandedIndex E c e.1 = expandedIndex (E.with P) c' e.1 := by
              unfold expandedIndex
              rw [agree_xKey H hc hke]
            rw [h1, hr.elem ha (propIn_some hk) (hv.value he')]
            exact congrArg _ (funext fun t => congrArg _ (funext fun x => collectM_on fun o _ => mapItem_m H hc hik hke))
          exact congrArg _ this
        · exact hel _ hv
    | _ => exact hel _ hv

theorem propEntry_m {c c' : ACtx} (hc : R c c') {key : Str} (hk : M key) {v : Json} (hv : NamesIn E M L v) {p : Id} {s : XState} :
    propEntry E r c key p v s = propEntry (E.with P) r' c' key p v s := by
  unfold propEntry
  dsimp only
  have hd := agree_use (H.agree hc) hk
  rw [propValue_m H hr hc hk hv, hd.container]
  unfold addProp
  rw [hd.reverse]

theorem reverse_m {c c' : ACtx} (hc : R c c') {v : Json} (hv : NamesIn E M L v) {s : XState} :
    keyReverse E r c v s = keyReverse (E.with P) r' c' v s := by
  cases v with
  | obj m =>
    refine foldlM_on (f := reverseStep E r c) (g := reverseStep (E.with P) r' c') (fun s e he => ?_) s
    have he' : (e.1, e.2) ∈ m := (sortIf_perm _ _ _).mem_iff.1 he
    have hp : ∀ p, reverseProp r c p e.1 e.2 s = reverseProp r' c' p e.1 e.2 s := fun p => by
      unfold reverseProp
      rw [hr.elem hc (propIn_some (hv.key he')) (hv.value he'), (agree_use (H.agree hc) (hv.key he')).reverse]
    unfold reverseStep
    rw [← agree_xKey H hc (hv.key he')]
    refine congrArg _ (funext fun t => ?_)
    split
    · rfl
    · rw [hp]
    · rfl
  | _ => rfl

omit hr in
theorem key_m {c c' : ACtx} (hc : R c c') {m : List (Str × Json)} (hm : ObjIn E M L m) {e : Str × Json} (he : e ∈ m) :
    xKey E c e.1 = xKey (E.with P) c' e.1 := by
  by_cases h : e.1 = "@context".toList
  · rw [h]
    rfl
  · exact agree_xKey H hc (hm e he h).1

omit hr in
theorem entries_m {c c' : ACtx} (hc : R c c') {m : List (Str × Json)} (hm : ObjIn E M L m) :
    xEntries E c m = xEntries (E.with P) c' m ∧ ∀ es, xEntries E c m = .ok es → ∀ e ∈ es, EntryIn E M L e := by
  constructor
  · induction m with
    | nil => rfl
    | cons e m ih =>
      obtain ⟨k, v⟩ := e
      unfold xEntries
      rw [show xKey E c k = _ from key_m H hc hm (e := (k, v)) List.mem_cons_self,
        ih fun e he => hm e (List.mem_cons_of_mem _ he)]
  · intro es hes e he ht
    refine hm _ (xEntries_mem hes he) fun hk => ht ?_
    have := xEntries_term hes he
    dsimp only at hk
    rw [hk] at this
    exact (Option.some.inj (Except.ok.inj this)).symm

theorem nest_m {c c' t t' : ACtx} (hc : R c c') (ht : R t t') {prop : Option Str} (hp : PropIn M prop) {key : Str} (hk : M key)
    {v : Json} (hv : NamesIn E M L v) {s : XState} :
    nestStep E r c t prop key s v = nestStep (E.with P) r' c' t' prop key s v := by
  unfold nestStep
  refine (both_scoped H hc hc hk).bind fun a a' _ ha => ?_
  cases v with
  | obj m =>
    dsimp only
    have hm : ObjIn E M L (sortIf E.opts.ordered Prod.fst m) := fun e he => hv.obj e ((sortIf_perm _ _ _).mem_iff.1 he)
    obtain ⟨h1, h2⟩ := entries_m H ha hm
    rw [← show _ = xEntries (E.with P) a' (sortIf (E.with P).opts.ordered Prod.fst m) from h1]
    exact bind_on fun es hes => hr.entries ha ht hp (h2 es hes)
  | _ => rfl

theorem step_m {c c' t t' : ACtx} (hc : R c c') (ht : R t t') {prop : Option Str} (hp : PropIn M prop) {e : XEntry}
    (he : EntryIn E M L e) {s : XState} :
    entryStep E r c t prop s e = entryStep (E.with P) r' c' t' prop s e := by
  obtain ⟨key, term, v⟩ := e
  unfold EntryIn at he
  dsimp only at he
  unfold entryStep
  dsimp only
  split
  · rfl
  · rfl
  · rename_i hne
    obtain ⟨hk, hv⟩ := he fun h => hne (by cases h; rfl)
    have : ∀ k, keywordEntry E r c t prop key k v s = keywordEntry (E.with P) r' c' t' prop key k v s := by
      intro k
      unfold keywordEntry
      split
      · unfold keyId
        cases v <;> first | rfl | skip
        dsimp only
        rw [agree_xIri H hc (hv.said _ .str)]
      · refine foldlM_on (fun s w hw => ?_) s
        have hw := hv.force hw
        unfold keyType1
        cases w <;> first | rfl | skip
        dsimp only
        rw [agree_xIri H ht (hw.said _ .str)]
      · unfold keyGraph
        rw [hr.elem hc (propIn_some H.graph) hv]
      · unfold keyIncluded
        rw [hr.elem hc (propIn_some H.included) hv]
      · rfl
      · rfl
      · rfl
      · exact reverse_m H hr hc hv
      · exact foldlM_on (fun s w hw => nest_m H hr hc ht hp hk (hv.force hw)) s
      · rfl
      · rfl
    rw [this]
  · obtain ⟨hk, hv⟩ := he nofun
    unfold idEntry
    have : ∀ p, propEntry E r c key p v s = propEntry (E.with P) r' c' key p v s := fun p => propEntry_m H hr hc hk hv
    simp only [this]
    rfl

theorem body_m {c c' t t' : ACtx} (hc : R c c') (ht : R t t') {prop : Option Str} (hp : PropIn M prop) {es : List XEntry}
    (he : ∀ e ∈ es, EntryIn E M L e) {s : XState} :
    entriesBody E r s c t prop es = entriesBody (E.with P) r' s c' t' prop es :=
  foldlM_on (f := entryStep E r c t prop) (g := entryStep (E.with P) r' c' t' prop)
    (fun _ e h => step_m H hr hc ht hp (he e h)) s

/-! ## Elements -/

omit hr in
theorem prelim_m {c c' : ACtx} (hc : R c c') {m : List (Str × Json)} (hm : ObjIn E M L m) :
    prelim E c m = prelim (E.with P) c' m := by
  induction m with
  | nil => rfl
  | cons e m ih =>
    obtain ⟨k, v⟩ := e
    unfold prelim
    rw [show xKey E c k = _ from key_m H hc hm (e := (k, v)) List.mem_cons_self,
      ih fun e he => hm e (List.mem_cons_of_mem _ he)]

omit hr in
theorem objContext_m {c c' : ACtx} (hc : R c c') {prop : Option Str} (hp : PropIn M prop) {m : List (Str × Json)} {fm : Bool}
    (hm : NamesIn E M L (.obj m)) : Both R (objContext E c prop m fm) (objContext (E.with P) c' prop m fm) := by
  unfold objContext
  rw [← prelim_m H hc hm.obj]
  cases prelim E c m with
  | error x => exact .inl ⟨x, rfl, rfl⟩
  | ok b =>
    have hrev : R (revert c m fm b) (revert c' m fm b) := by
      have := H.previous hc
      unfold revert
      cases h1 : c.previous <;> cases h2 : c'.previous <;> rw [h1, h2] at this
      · exact hc
      · exact this.elim
      · exact this.elim
      · dsimp only
        split
        · exact this
        · exact hc
    show Both R ((scopedCtx E _ _ _).bind _) ((scopedCtx (E.with P) _ _ _).bind _)
    rcases both_scopedProp H hrev hc hp (o := E.opts.proc.withOverride) with ⟨x, h1, h2⟩ | ⟨a, a', h1, h2, ha⟩
    · rw [h1]
      refine .inl ⟨x, rfl, ?_⟩
      rw [show scopedCtx (E.with P) (prop.bind c'.get) (revert c' m fm b) (E.with P).opts.proc.withOverride = _ from h2]
      rfl
    · rw [h1, show scopedCtx (E.with P) (prop.bind c'.get) (revert c' m fm b) (E.with P).opts.proc.withOverride = _ from h2]
      show Both R (localContext E a m) (localContext (E.with P) a' m)
      unfold localContext
      have hmem : ∀ e ∈ m.filter (fun e => decide (e.1 = "@context".toList)), ContextIn e.2 (.obj m) := fun e he => by
        obtain ⟨h1, h2⟩ := List.mem_filter.1 he
        have : e.1 = "@context".toList := of_decide_eq_true h2
        exact .here (by rw [← this]; exact h1)
      generalize m.filter (fun e => decide (e.1 = "@context".toList)) = f at hmem ⊢
      match f, hmem with
      | [], _ => exact .inr ⟨_, _, rfl, rfl, ha⟩
      | [e], hmem =>
        dsimp only
        cases hl : readCtx E.isRef e.2 with
        | error x => exact .inl ⟨_, rfl, rfl⟩
        | ok l => exact both_process (H.embedded ha (hm.context _ _ (hmem e List.mem_cons_self) hl))
      | _ :: _ :: _, _ => exact .inl ⟨_, rfl, rfl⟩

omit hr in
theorem typeScoped_m {c c' : ACtx} (hc : R c c') {ts : List Str} (hts : ∀ t ∈ ts, M t) {o : Opts} : ∀ {a a' : ACtx}, R a a' →
    Both R (ts.foldlM (fun a t => scopedCtx E (c.get t) a o) a) (ts.foldlM (fun a t => scopedCtx (E.with P) (c'.get t) a o) a') := by
  induction ts with
  | nil => exact fun ha => .inr ⟨_, _, rfl, rfl, ha⟩
  | cons t ts ih =>
    intro a a' ha
    rw [List.foldlM_cons, List.foldlM_cons]
    rcases both_scoped H ha hc (hts t List.mem_cons_self) (o := o) with ⟨x, h1, h2⟩ | ⟨b, b', h1, h2, hb⟩
    · rw [h1, h2]
      exact .inl ⟨x, rfl, rfl⟩
    · rw [h1, h2]
      exact ih (fun t ht => hts t (List.mem_cons_of_mem _ ht)) hb

omit hr in
theorem typeEntries_m {c c' : ACtx} (hc : R c c') {m : List (Str × Json)} (hm : ObjIn E M L m) :
    typeEntries E c m = typeEntries (E.with P) c' m ∧
      ∀ tes, typeEntries E c m = .ok tes → ∀ e ∈ tes, M e.1 ∧ NamesIn E M L e.2 := by
  constructor
  · unfold typeEntries
    rw [collectM_on fun e he => ?_]
    rw [key_m H hc hm he]
  · intro tes h e he
    obtain ⟨x, hx, rfl⟩ := exMap_ok h
    replace he : e ∈ x := (List.perm_insertionSort _ x).mem_iff.1 he
    clear h
    induction m generalizing x with
    | nil => cases hx; exact nomatch he
    | cons a m ih =>
      obtain ⟨y, hy, h2⟩ := exBind_ok hx
      obtain ⟨z, hz, rfl⟩ := exMap_ok h2
      rcases List.mem_append.1 he with he | he
      · obtain ⟨t, ht, rfl⟩ := exMap_ok hy
        split at he
        · rename_i h
          rw [List.mem_singleton.1 he]
          refine hm a List.mem_cons_self fun hk => ?_
          rw [hk, h] at ht
          cases Option.some.inj (Except.ok.inj ht)
        · exact nomatch he
      · exact ih (fun e he => hm e (List.mem_cons_of_mem _ he)) z hz he

theorem elemKind_m {c c' t t' : ACtx} (hc : R c c') (ht : R t t') {prop : Option Str} (hp : PropIn M prop) {it : Option CTerm}
    {es : List XEntry} (he : ∀ e ∈ es, EntryIn E M L e) :
    elemKind E r c t prop it es = elemKind (E.with P) r' c' t' prop it es := by
  have hlast : ∀ k v, k ≠ .context → lastEntry k es = some v → NamesIn E M L v := by
    intro k v hk h
    unfold lastEntry at h
    rw [Option.map_eq_some_iff] at h
    obtain ⟨e, h, rfl⟩ := h
    obtain ⟨h1, h2⟩ := List.mem_filter.1 (List.mem_of_getLast? h)
    refine (he e h1 fun hx => hk ?_).2
    rw [of_decide_eq_true h2] at hx
    exact CTerm.keyword.inj hx
  unfold elemKind
  split
  · rename_i v h
    have hv : NamesIn E M L v := by
      split at h
      · cases h
      · exact hlast _ _ (by decide) h
    unfold elemList xItems
    refine congrArg _ (funext fun i => ?_)
    rw [collectM_on (f := fun j => (r.elem c prop j false).map Expanded.toList)
      (g := fun j => (r'.elem c' prop j false).map Expanded.toList) fun w hw => by rw [hr.elem hc hp (hv.force hw)]]
  · rename_i v _ h
    exact congrArg _ (funext fun _ => hr.elem hc hp (hlast _ _ (by decide) h))
  · unfold elemValue expandValue
    have : es.foldlM (valueStep E.toIriEnv E.opts.vocab t) { isJson := decide (it = some (.keyword .json)) } =
        es.foldlM (valueStep E.toIriEnv E.opts.vocab t') { isJson := decide (it = some (.keyword .json)) } := by
      refine foldlM_on (fun s e hm => ?_) _
      unfold valueStep
      split <;> try rfl
      rename_i hty
      have hv := (he e hm (by rw [hty]; exact nofun)).2
      generalize e.value = v at hv
      cases v <;> first | rfl | skip
      unfold valueType
      dsimp only
      rw [agree_iri H ht (hv.said _ .str)]
    rw [this]
  · unfold expandNode
    rw [body_m H hr hc ht hp he]

/-- Objects, once their contexts are known. -/
theorem objWith_m {c c' : ACtx} {prop : Option Str} (hp : PropIn M prop) {m : List (Str × Json)} {fm : Bool}
    (hx : Both R (objContext E c prop m fm) (objContext (E.with P) c' prop m fm)) (hm : ObjIn E M L m) :
    elemObj E r c prop m fm = elemObj (E.with P) r' c' prop m fm := by
  unfold elemObj
  refine hx.bind fun t t' _ ht => ?_
  obtain ⟨h1, h2⟩ := typeEntries_m H ht hm
  rw [← h1]
  refine bind_on fun tes htes => ?_
  have hin : ∀ e ∈ tes, NamesIn E M L e.2 := fun e he => (h2 tes htes e he).2
  have hsc : ∀ s ∈ scopedTypes tes, M s := by
    intro s hs
    obtain ⟨e, he, hs⟩ := List.mem_flatMap.1 hs
    have hs : s ∈ strings (forceArray e.2) := (List.perm_insertionSort _ _).mem_iff.1 hs
    obtain ⟨j, hj, hs⟩ := List.mem_filterMap.1 hs
    have hj := (hin e he).force hj
    cases j <;> cases hs
    exact hj.said _ .str
  refine Both.bind (Q := R) (typeScoped_m H ht hsc ht) fun a a' _ ha => ?_
  have hit : inputType E a tes = inputType (E.with P) a' tes := by
    unfold inputType
    cases tes with
    | nil => rfl
    | cons e tes =>
      dsimp only
      split
      · rename_i s hs
        exact agree_xKey H ha (((hin e List.mem_cons_self).force (List.mem_of_getLast? hs)).said _ .str)
      · rfl
  rw [hit]
  refine congrArg _ (funext fun it => ?_)
  obtain ⟨h3, h4⟩ := entries_m H ha hm
  rw [← h3]
  exact bind_on fun es hes => elemKind_m H hr ha ht hp (h4 es hes)

theorem elem_m {c c' : ACtx} (hc : R c c') {prop : Option Str} (hp : PropIn M prop) {j : Json} {fm : Bool} (hj : NamesIn E M L j) :
    elemBody E r c prop j fm = elemBody (E.with P) r' c' prop j fm := by
  have hs : ∀ l : Literal, (∀ s, l = .str s → M s) → elemScalar E c prop l = elemScalar (E.with P) c' prop l := by
    intro l hl
    unfold elemScalar
    split
    · rfl
    · refine (both_scopedProp H hc hc hp).bind fun a a' _ ha => ?_
      rw [literal_m H ha hp hl]
  cases j with
  | null => rfl
  | arr l =>
    show elemArr _ _ _ _ _ = elemArr _ _ _ _ _
    unfold elemArr xItems
    rw [collectM_on (f := fun j => (r.elem c prop j fm).map Expanded.toList)
      (g := fun j => (r'.elem c' prop j fm).map Expanded.toList) fun w hw => by rw [hr.elem hc hp (hj.item hw)],
      (agree_prop H hc hp).container]
  | obj m => exact objWith_m H hr hp (objContext_m H hc hp hj) hj.obj
  | str s => exact hs _ (by rintro _ ⟨⟩; exact hj.said _ .str)
  | num n => exact hs _ nofun
  | bool b => exact hs _ nofun

end

theorem rec_m (H : Simulates E.process P M L R) : ∀ n, RecX E M L R (xrecN E n) (xrecN (E.with P) n)
  | 0 => ⟨fun _ _ _ => rfl, fun _ _ _ _ => rfl⟩
  | n + 1 => ⟨fun hc hp hj => elem_m H (rec_m H n) hc hp hj, fun hc ht hp he => body_m H (rec_m H n) hc ht hp he⟩

theorem doc_m (H : Simulates E.process P M L R) {c c' : ACtx} (hc : R c c') {j : Json} (hj : NamesIn E M L j) :
    expandDoc E c j = expandDoc (E.with P) c' j := by
  unfold expandDoc expandElement
  rw [(rec_m H _).elem (prop := none) hc (fun _ h => by cases h) hj]

end JsonLd
