import Verif.Spec.ScopedDoc
import Verif.Proofs.RoundDoc
import Verif.Proofs.FlattenOut
/-!
# Expanding a compacted document with scoped contexts
-/

namespace JsonLd.Sc
open JsonLd Spec Props Relation

/-! ## Contexts whose terms are names -/

section
variable {c : ACtx} (hc : NamedCtx c)
include hc

theorem get_named {k : Str} {d : TermDef} (h : c.get k = some d) : NamedDef d := by
  unfold ACtx.get at h
  split at h
  · rw [hc.typeDef] at h; cases h
  · exact hc.defs (k, d) (lookupKey_mem h)

theorem get_keyword {k : Str} {d : TermDef} (h : c.get k = some d) {w : Keyword} (hw : d.value = some (.keyword w)) :
    d.context = none := by
  unfold ACtx.get at h
  split at h
  · rw [hc.typeDef] at h; cases h
  · exact hc.keywords (k, d) (lookupKey_mem h) w hw

theorem bind_named {prop : Option Str} {d : TermDef} (h : prop.bind c.get = some d) : NamedDef d := by
  cases prop with
  | none => cases h
  | some k => exact get_named hc h

theorem defContainer_named (prop : Option Str) : defContainer (prop.bind c.get) = .none := by
  cases h : prop.bind c.get with
  | none => rfl
  | some d => exact (bind_named hc h).container

theorem containerOf_named (prop : Option Str) : containerOf (prop.bind c.get) = .none := by
  cases h : prop.bind c.get with
  | none => rfl
  | some d => exact (bind_named hc h).container

theorem defLanguage_named (prop : Option Str) : defLanguage c (prop.bind c.get) = c.language := by
  cases h : prop.bind c.get with
  | none => rfl
  | some d => simp [defLanguage, (bind_named hc h).language]

theorem defDirection_named (prop : Option Str) : defDirection c (prop.bind c.get) = c.direction := by
  cases h : prop.bind c.get with
  | none => rfl
  | some d => simp [defDirection, (bind_named hc h).direction]

theorem typ_named (prop : Option Str) : (prop.bind c.get).bind (·.typ) = none := by
  cases h : prop.bind c.get with
  | none => rfl
  | some d => exact (bind_named hc h).typ

theorem reverseOf_named (prop : Option Str) : reverseOf (prop.bind c.get) = false := by
  cases h : prop.bind c.get with
  | none => rfl
  | some d => exact (bind_named hc h).reverse

theorem removeIndex_named (p i : Option Str) : removeIndex (p.bind c.get) i = i.isNone := by
  unfold removeIndex
  rw [defContainer_named hc, contains_none]
  simp

theorem valueIn_named {E : CEnv} (p q : Option Str) (i : Option Str) (v : Value) :
    valueIn E c (p.bind c.get) i v = valueIn E c (q.bind c.get) i v := by
  have h1 : ∀ p : Option Str, valueBare c (p.bind c.get) v = valueBare c none v := by
    intro p
    unfold valueBare
    rw [defLanguage_named hc, defDirection_named hc, typ_named hc]
    rfl
  have h2 : ∀ p : Option Str, cValueIndex E c (p.bind c.get) i = cValueIndex E c none i := by
    intro p
    unfold cValueIndex
    cases i with
    | none => rfl
    | some i =>
      dsimp only
      rw [removeIndex_named hc p]
      rfl
  unfold valueIn
  rw [removeIndex_named hc p, removeIndex_named hc q, h1 p, h1 q, h2 p, h2 q]

theorem itemKey_named {E : CEnv} {p : CTerm} {rev : Bool} {o : Obj} {k : Option Str}
    (h : itemKey E c p rev o = .ok k) : plainKey E c p = .ok k :=
  itemKey_for (fun b hb _ => hc.defs b hb) h

theorem inNest_named (key : Str) (m : JMap) (f : JMap → Except CompErr JMap) : inNest c key m f = f m := by
  unfold inNest
  cases h : c.get key with
  | none => rfl
  | some d =>
    dsimp only [Option.bind]
    rw [(get_named hc h).nest]

end

/-! ## Scoped contexts of properties -/

/-- The scoped context of the property, with its base URL. -/
def scopeOf (c : ACtx) (prop : Option Str) : Option (SCtx × Option Str) :=
  (prop.bind c.get).bind fun d => d.context.map fun l => (l, d.baseUrl)

theorem scopeOf_none {c : ACtx} {prop : Option Str} : scopeOf c prop = none ↔ NoScope c prop := by
  unfold scopeOf NoScope Unscoped
  cases prop with
  | none => simp
  | some k =>
    simp only [Option.bind_some, Option.bind_eq_none_iff, Option.map_eq_none_iff, Option.some.injEq]
    exact ⟨fun h _ hk d hd => h d (hk ▸ hd), fun h d hd => h k rfl d hd⟩

/-- The environment has the same context processing. -/
structure Envs (E : CEnv) (X : XEnv) : Prop where
  process : X.process = E.process
  modes : E.opts.mode = .v11 ∧ X.opts.mode = .v11

theorem envs {E : CEnv} {X : XEnv} {c : ACtx} (H : NamedEnv E X c) : Envs E X := ⟨H.process, H.modes, H.mode⟩

section
variable {E : CEnv} {X : XEnv} {c : ACtx}

theorem cScoped_scope (h : cScoped E (p.bind c.get) a E.opts.proc.withOverride = .ok b) (hX : Envs E X)
    (hp : scopeOf c p = scopeOf c p') : Scope X true c p' a b := by
  unfold cScoped at h
  split at h
  · rename_i d hd
    split at h
    · rename_i l hl
      split at h
      · rename_i b' hb
        cases h
        have h1 : scopeOf c p' = some (l, d.baseUrl) := by rw [← hp]; unfold scopeOf; rw [hd]; simp [hl]
        unfold scopeOf at h1
        obtain ⟨d', h2, h3⟩ := Option.bind_eq_some_iff.1 h1
        obtain ⟨l', h4, h5⟩ := Option.map_eq_some_iff.1 h3
        obtain ⟨rfl, hbase⟩ := Prod.mk.inj h5
        cases p' with
        | none => cases h2
        | some k =>
          refine .within k d' l' a b rfl h2 h4 ?_
          rw [hX.process, hX.modes.2]
          rw [CompOpts.proc, hX.modes.1] at hb
          rw [hbase]
          exact hb
      · cases h
    · rename_i hl
      cases h
      refine .none _ (scopeOf_none.1 ?_)
      rw [← hp]; unfold scopeOf; rw [hd]; simp [hl]
  · rename_i hd
    cases h
    refine .none _ (scopeOf_none.1 ?_)
    rw [← hp]; unfold scopeOf; rw [hd]; rfl

theorem scope_scoped {over : Bool} (h : Scope X over c prop a b) :
    scopedCtx X (prop.bind c.get) a { X.opts.proc with override := over } = .ok b := by
  cases h with
  | none _ h =>
    unfold scopedCtx
    split
    · rename_i d hd
      cases prop with
      | none => cases hd
      | some k => rw [h k rfl d hd]
    · rfl
  | within k d l _ _ h1 h2 h3 h4 =>
    subst h1
    unfold scopedCtx
    rw [show (some k).bind c.get = c.get k from rfl, h2]
    dsimp only
    rw [h3]
    dsimp only
    unfold xProcess
    have : X.process a l d.baseUrl { X.opts.proc with override := over } = .ok b := h4
    rw [this]

theorem scopedTypes_applied {ts : List Str} (hX : Envs E X) : ∀ {a b : ACtx},
    ts.foldlM (fun a t => cScoped E (c.get t) a E.opts.proc.withoutPropagation) a = .ok b → Applied X c ts a b := by
  induction ts with
  | nil => intro a b h; cases h; exact .nil _
  | cons t ts ih =>
    intro a b h
    rw [List.foldlM_cons] at h
    obtain ⟨a', h1, h2⟩ := bindOk.1 h
    unfold cScoped at h1
    split at h1
    · rename_i d hd
      split at h1
      · rename_i l hl
        split at h1
        · rename_i hb
          cases h1
          refine .within t d l ts a a' b hd hl ?_ (ih h2)
          rw [hX.process, hX.modes.2]
          rw [CompOpts.proc, hX.modes.1] at hb
          exact hb
        · cases h1
      · rename_i hl
        cases h1
        exact .plain t ts a b (fun d' hd' => by rw [hd] at hd'; cases hd'; exact hl) (ih h2)
    · rename_i hd
      cases h1
      exact .plain t ts a b (fun d' hd' => by rw [hd] at hd'; cases hd') (ih h2)

theorem applied_fold {tl : List Str} {a b : ACtx} (h : Applied X c tl a b) {c1 : ACtx}
    (hg : ∀ s ∈ tl, c1.get s = c.get s) : tl.foldlM
      (fun a t => scopedCtx X (c1.get t) a X.opts.proc.withoutPropagation) a = .ok b := by
  induction h with
  | nil => rfl
  | plain t l a b hu _ ih =>
    rw [List.foldlM_cons, hg t (by simp)]
    have : scopedCtx X (c.get t) a X.opts.proc.withoutPropagation = .ok a := by
      unfold scopedCtx
      split
      · rename_i d hd
        rw [hu d hd]
      · rfl
    rw [this]
    exact ih fun s hs => hg s (List.mem_cons_of_mem _ hs)
  | within t d x l a a' b h1 h2 h3 _ ih =>
    rw [List.foldlM_cons, hg t (by simp), h1]
    have : scopedCtx X (some d) a X.opts.proc.withoutPropagation = .ok a' := by
      unfold scopedCtx
      dsimp only
      rw [h2]
      dsimp only
      unfold xProcess
      have : X.process a x d.baseUrl X.opts.proc.withoutPropagation = .ok a' := h3
      rw [this]
    rw [this]
    exact ih fun s hs => hg s (List.mem_cons_of_mem _ hs)

theorem typeTerms_names {ts : List Id} {ss : List Str} (h : typeTerms E c ts = .ok ss) :
    List.Forall₂ (fun s t => compactIriPlain E.toCompEnv c (.id t) true false E.opts = .ok (some s)) ss ts := by
  induction ts generalizing ss with
  | nil => cases h; exact .nil
  | cons t ts ih =>
    unfold typeTerms at h
    obtain ⟨s, h1, h⟩ := exBind_ok h
    obtain ⟨r, h2, rfl⟩ := exMap_ok h
    refine .cons ?_ (ih h2)
    unfold cIriU at h1
    split at h1
    · rename_i h3; cases h1; exact h3
    · cases h1
    · cases h1

theorem names_unique {ss ss' : List Str} {ts : List Id}
    (h : List.Forall₂ (fun s t => compactIriPlain E.toCompEnv c (.id t) true false E.opts = .ok (some s)) ss ts)
    (h' : List.Forall₂ (fun s t => compactIriPlain E.toCompEnv c (.id t) true false E.opts = .ok (some s)) ss' ts) :
    ss = ss' := by
  induction h generalizing ss' with
  | nil => cases h'; rfl
  | cons h1 _ ih =>
    cases h' with
    | cons h2 h3 =>
      rw [h1] at h2
      cases h2
      rw [ih h3]

theorem Starts_of (c : ACtx) (n : Node) : Starts c n (nodeStart c n) := by
  unfold nodeStart
  split
  · rename_i h
    rw [Bool.and_eq_true] at h
    exact .reference h.1 h.2
  · rename_i h
    rw [Bool.and_eq_true] at h
    refine .node _ h ?_
    cases hp : c.previous with
    | none => exact .stay hp
    | some p => exact .back p hp

/-- The contexts of a compacted node. -/
theorem nodeContexts_of (hX : Envs E X) {p p' : Option Str} (hp : scopeOf c p = scopeOf c p') {n : Node} {c' : ACtx}
    (h : nodeContext E c c p n = .ok c') : ∃ c1 ss, NodeContexts E X c p' n c1 ss c' := by
  unfold nodeContext at h
  obtain ⟨c1, h1, h⟩ := exBind_ok h
  unfold typeContexts at h
  obtain ⟨ss, h2, h⟩ := exBind_ok h
  exact ⟨c1, ss, ⟨_, Starts_of c n, cScoped_scope h1 hX hp⟩, typeTerms_names h2,
    ⟨sortByKey id ss, List.perm_insertionSort _ _, by
      have := sortByKey_sorted id ss
      exact this, scopedTypes_applied hX h⟩⟩

end

/-! ## What can be compacted -/

section
variable {E : CEnv} {X : XEnv} {c : ACtx}

theorem Scope.alike {over : Bool} {p p' : Option Str} (hp : scopeOf c p = scopeOf c p') {a b : ACtx}
    (h : Scope X over c p a b) : Scope X over c p' a b := by
  cases h with
  | none _ h => exact .none _ (scopeOf_none.1 (hp ▸ scopeOf_none.2 h))
  | within k d l _ _ h1 h2 h3 h4 =>
    subst h1
    have h1 : scopeOf c p' = some (l, d.baseUrl) := by
      rw [← hp]; unfold scopeOf; simp [h2, h3]
    unfold scopeOf at h1
    obtain ⟨d', h5, h6⟩ := Option.bind_eq_some_iff.1 h1
    obtain ⟨l', h7, h8⟩ := Option.map_eq_some_iff.1 h6
    obtain ⟨rfl, hbase⟩ := Prod.mk.inj h8
    cases p' with
    | none => cases h5
    | some k' => exact .within k' d' l' a b rfl h5 h7 (by rw [hbase]; exact h4)

theorem NodeContexts.alike {p p' : Option Str} (hp : scopeOf c p = scopeOf c p') {n : Node} {c1 : ACtx} {ss : List Str}
    {c' : ACtx} (h : NodeContexts E X c p n c1 ss c') : NodeContexts E X c p' n c1 ss c' := by
  obtain ⟨⟨a, h1, h2⟩, h3, h4⟩ := h
  exact ⟨⟨a, h1, Scope.alike hp h2⟩, h3, h4⟩

/-- Only the scoped context of the property matters. -/
theorem Carries.alike {p p' : Option Str} {o : Obj} (h : Carries E X c p o) (hp : scopeOf c p = scopeOf c p') :
    Carries E X c p' o := by
  induction h with
  | value c p i v h =>
    refine .value c p' i v fun c1 h1 => ?_
    obtain ⟨h2, h3, h4, h5, h6⟩ := h c1 (Scope.alike hp.symm h1)
    exact ⟨h2, Scope.alike hp h3, h4, h5, h6⟩
  | list c p i l h1 h2 h3 _ ih =>
    exact .list c p' i l h1 h2 (scopeOf_none.1 (hp ▸ scopeOf_none.2 h3)) fun o ho => ih o ho hp
  | node c p n h0 h1 h2 h3 h4 h5 =>
    refine .node c p' n (fun hg => ⟨(h0 hg).1, scopeOf_none.1 (hp ▸ scopeOf_none.2 (h0 hg).2)⟩) (fun c1 ss c' h => ?_) (fun c1 ss c' h => h2 c1 ss c' (NodeContexts.alike hp.symm h))
      (fun c1 ss c' h => h3 c1 ss c' (NodeContexts.alike hp.symm h))
      (fun c1 ss c' h => h4 c1 ss c' (NodeContexts.alike hp.symm h))
      (fun c1 ss c' h => h5 c1 ss c' (NodeContexts.alike hp.symm h))
    obtain ⟨g1, g2, g3, g4, g5, g6, g7, g8⟩ := h1 c1 ss c' (NodeContexts.alike hp.symm h)
    exact ⟨g1, g2, g3, g4, g5, g6, g7, g8⟩

end

/-! ## Items -/

/-- The compacted form `j` under the property stands for the object `o`. -/
structure BackAt (X : XEnv) (c : ACtx) (prop : Option Str) (j : Json) (o : Obj) : Prop where
  notArray : NotArray j
  notNull : j.isNull = false
  expand : expandElement X c prop j false = .ok (.object o)

/-- The recursive call gives what is wanted. -/
def RecAt (E : CEnv) (X : XEnv) (R : CRec) : Prop :=
  ∀ c p p' o j, scopeOf c p = scopeOf c p' → p' ≠ some "@reverse".toList → (noProp p' = true → Says o) → o.WF →
    Carries E X c p' o → R c c p o = .ok j → BackAt X c p' j o

/-- What is asked of an item. -/
structure Fit (E : CEnv) (X : XEnv) (c : ACtx) (p : Option Str) (o : Obj) : Prop where
  meant : noProp p = true → Says o
  wf : o.WF
  carries : Carries E X c p o

section
variable {E : CEnv} {X : XEnv} {c : ACtx}

theorem items_at {prop : Option Str} {vs : List Json} {os : List Obj} (h : List.Forall₂ (BackAt X c prop) vs os) :
    xItems (unlimited X) c prop false vs = .ok os := by
  unfold xItems
  induction h with
  | nil => rfl
  | cons h _ ih =>
    unfold collectM
    rw [show (unlimited X).elem c prop _ false = _ from h.expand, ih]
    rfl

theorem pack_at (hc : NamedCtx c) {prop : Option Str} {vs : List Json} {os : List Obj}
    (h : List.Forall₂ (BackAt X c prop) vs os) (a : Bool) :
    ∃ x, expandElement X c prop (pack a vs) false = .ok x ∧ x.toList = os ∧ x.isNull = false := by
  have harr : expandElement X c prop (.arr vs) false = .ok (.array os) := by
    rw [C49_unfold]
    show elemArr (unlimited X) c prop vs false = _
    unfold elemArr
    rw [items_at h, containerOf_named hc, contains_none]
    rfl
  match vs, os, h with
  | [], _, h => exact ⟨_, harr, rfl, rfl⟩
  | [v], [o], h =>
    cases a with
    | true => exact ⟨_, harr, rfl, rfl⟩
    | false =>
      cases h with
      | cons h _ => exact ⟨.object o, h.expand, rfl, rfl⟩
  | _ :: _ :: _, _, h => exact ⟨_, harr, rfl, rfl⟩

theorem force_at {prop : Option Str} {vs : List Json} {os : List Obj} (h : List.Forall₂ (BackAt X c prop) vs os) (a : Bool) :
    forceArray (pack a vs) = vs := by
  match vs, os, h with
  | [], _, _ => rfl
  | [v], _, h =>
    cases a with
    | true => rfl
    | false =>
      cases h with
      | cons h _ =>
        show forceArray v = [v]
        have := h.notArray
        cases v with
        | arr l => exact absurd rfl (this l)
        | _ => rfl
  | _ :: _ :: _, _, _ => rfl

theorem wrap_at {prop : Option Str} {vs : List Json} {os : List Obj} (h : List.Forall₂ (BackAt X c prop) vs os) (a : Bool) :
    wrapArray (pack a vs) = .arr vs := by
  have := force_at h a
  cases hp : pack a vs with
  | arr l => rw [hp] at this; rw [← this]; rfl
  | _ => rw [hp] at this; rw [← this]; rfl

theorem notArray_at {prop : Option Str} {vs : List Json} {os : List Obj} (h : List.Forall₂ (BackAt X c prop) vs os) :
    ∀ v ∈ vs, NotArray v := by
  induction h with
  | nil => nofun
  | cons h _ ih =>
    intro v hv
    rcases List.mem_cons.1 hv with rfl | hv
    · exact h.notArray
    · exact ih v hv

theorem compactItems_at {R : CRec} (hR : RecAt E X R) {p p' : Option Str} (hp : scopeOf c p = scopeOf c p')
    (hr : p' ≠ some "@reverse".toList) {items : List Obj} {vs : List Json}
    (hi : ∀ o ∈ items, Fit E X c p' o) (h : compactItems (R c c p) items = .ok vs) :
    List.Forall₂ (BackAt X c p') vs items := by
  induction items generalizing vs with
  | nil => cases h; exact .nil
  | cons o os ih =>
    unfold compactItems at h
    obtain ⟨v, h1, h⟩ := bindOk.1 h
    obtain ⟨r, h2, h⟩ := bindOk.1 h
    have ho := hi o (by simp)
    have hb := hR c p p' o v hp hr ho.meant ho.wf ho.carries h1
    rw [hb.notNull] at h
    cases h
    exact .cons hb (ih (fun o ho => hi o (List.mem_cons_of_mem _ ho)) h2)

theorem collection_at {R : CRec} (hR : RecAt E X R) {p p' q : Option Str} (hp : scopeOf c p = scopeOf c p')
    (hr : p' ≠ some "@reverse".toList) {o : CompOpts} {items : List Obj} {v : Json}
    (hi : ∀ o ∈ items, Fit E X c p' o) (h : compactCollection (R c c p) c q o items = .ok v) :
    ∃ vs a, v = pack a vs ∧ List.Forall₂ (BackAt X c p') vs items := by
  unfold compactCollection at h
  obtain ⟨vs, h1, h⟩ := bindOk.1 h
  cases h
  refine ⟨vs, ?_⟩
  have := compactItems_at hR hp hr hi h1
  unfold collect
  match vs with
  | [] => exact ⟨true, rfl, this⟩
  | [v] =>
    dsimp only
    split
    · exact ⟨true, rfl, this⟩
    · exact ⟨false, rfl, this⟩
  | _ :: _ :: _ => exact ⟨true, rfl, this⟩

end

/-! ## Values -/

section
variable {E : CEnv} {X : XEnv} {c : ACtx} (H : NamedEnv E X c)
include H

theorem faithful_named {v : Value} (hv : CarriedValue E.toCompEnv c v) (t : Str) :
    Faithful E.toCompEnv c t v ∧ CasedAs (defLanguage c (c.get t)) v := by
  have hl : defLanguage c (c.get t) = c.language := defLanguage_named H.named (some t)
  cases hv with
  | plain l h => exact ⟨.plain l h, nofun⟩
  | typed l ty h hn =>
    refine ⟨.typed l ty h ?_ hn.clear, nofun⟩
    have hk := hn.kind
    unfold Id.classify at hk
    split at hk
    · assumption
    · split at hk <;> cases hk
  | lang s h1 h2 h3 h4 h5 =>
    refine ⟨.lang s h1 h2 ?_ (fun h => .inr ⟨?_, (h3 h).symm⟩) (fun h => .inr ⟨?_, (h4 h).symm⟩), by rw [hl]; exact h5⟩
    · rintro ⟨d, m, hd, hm, _⟩
      rw [(get_named H.named hd).typ] at hm
      cases hm
    · exact fun d hd => (get_named H.named hd).language
    · exact fun d hd => (get_named H.named hd).direction
  | json j =>
    refine ⟨.json j fun d hd => ?_, nofun⟩
    rw [(get_named H.named hd).typ]
    exact nofun

theorem value_json {v : Value} (hv : CarriedValue E.toCompEnv c v) {prop i : Option Str} {j : Json}
    (h : valueIn E c (prop.bind c.get) i v = .ok j) : NotArray j ∧ j.isNull = false := by
  unfold valueIn at h
  split at h
  · rename_i j' hj
    cases h
    split at hj
    · unfold valueBare at hj
      cases hv with
      | plain l h =>
        dsimp only at hj
        split at hj
        · split at hj
          · split at hj
            · cases hj; exact ⟨nofun, rfl⟩
            · cases hj
          · cases hj; exact literal_json l h
        · cases hj
      | typed l ty h =>
        dsimp only at hj
        split at hj
        · split at hj
          · split at hj
            · cases hj; exact ⟨nofun, rfl⟩
            · cases hj
          · cases hj; exact literal_json l h
        · cases hj
      | lang s =>
        dsimp only at hj
        split at hj
        · cases hj; exact ⟨nofun, rfl⟩
        · cases hj
      | json j =>
        dsimp only at hj
        rw [typ_named H.named, if_neg (by simp)] at hj
        cases hj
    · cases hj
  · obtain ⟨es, h1, h⟩ := exBind_ok h
    obtain ⟨ei, h2, rfl⟩ := exMap_ok h
    exact ⟨nofun, rfl⟩

/-- A term that is defined stands for what the definition says. -/
theorem term_value {s : Str} {d : TermDef} (hd : c.get s = some d) {t : CTerm} (ht : t ≠ .null) (h : xKey X c s = .ok (some t)) :
    d.value = some t := by
  have hd : lookupKey s c.defs = some d := by
    unfold ACtx.get at hd
    split at hd
    · rw [H.named.typeDef] at hd; cases hd
    · exact hd
  have hk := H.clean.terms s d hd
  have := Expands.term (env := X.toIriEnv) (docRel := false) (voc := some .keep) d hk ⟨hd, .inl rfl⟩
  have := (C33_exact ..).2 this
  unfold xKey xIri at h
  rw [H.vocab, ofStr_plain hk] at h
  unfold expandIri at h
  dsimp only at h
  rw [this] at h
  cases hv : d.value with
  | none => rw [hv] at h; cases h; exact absurd rfl ht
  | some v => rw [hv] at h; cases h; rfl

theorem keyword_unscoped {s : Str} {w : Keyword} (h : xKey X c s = .ok (some (.keyword w))) : Unscoped c s :=
  fun _ hd => get_keyword H.named hd (term_value H hd nofun h)

theorem keyword_noScope {s : Str} {w : Keyword} (h : xKey X c s = .ok (some (.keyword w))) : scopeOf c (some s) = none :=
  scopeOf_none.2 fun k hk => by cases hk; exact keyword_unscoped H h

end

theorem xKey_alias {X : XEnv} {c c' : ACtx} (h : SameAliases X c c') (k : Str) (w : Keyword) :
    xKey X c k = .ok (some (.keyword w)) ↔ xKey X c' k = .ok (some (.keyword w)) := by
  have := h k w
  have he : ∀ c, xKey X c k = .ok (some (.keyword w)) ↔
      expandIri X.toIriEnv c (some (.ofStr k)) false (some X.opts.vocab) = .ok (some (.keyword w)) := by
    intro c
    unfold xKey xIri
    cases expandIri X.toIriEnv c (some (.ofStr k)) false (some X.opts.vocab) <;> simp
  rw [he, he]
  exact this

/-- Values. -/
theorem value_at {E : CEnv} {X : XEnv} {c : ACtx} (hX : Envs E X) {p p' : Option Str} (hp : scopeOf c p = scopeOf c p')
    {i : Option Str} {v : Value} (hn : noProp p' = false) (hc : Carries E X c p' (.value i v)) {j : Json}
    (h : compactValue E c p i v = .ok j) : BackAt X c p' j (.value i v) := by
  unfold compactValue at h
  obtain ⟨c1, h1, h⟩ := exBind_ok h
  have hsc := cScoped_scope h1 hX hp
  cases hc with
  | value _ _ _ _ hc =>
  obtain ⟨H, hsc', hal, hv, hdt⟩ := hc c1 hsc
  obtain ⟨h2, h3⟩ := value_json H hv h
  refine ⟨h2, h3, ?_⟩
  cases p' with
  | none => cases hn
  | some t =>
    have ht : t ≠ "@graph".toList := by
      rintro rfl
      revert hn
      decide
    obtain ⟨hf, hcased⟩ := faithful_named H hv t
    have hr : ReadIn X c c1 t := ⟨scope_scoped hsc', scope_scoped hsc, fun k hk => (xKey_alias hal k .value).2 hk⟩
    rw [valueIn_named H.named p (some t)] at h
    obtain ⟨v', h4, -, h5⟩ := value_back_in H.env H.vocab H.iris H.facts H.clean H.keywords hr ht (v := v) (fun s y hy hd => by
      cases v with
      | literal l ty =>
        cases ty with
        | none => cases hd
        | some ty =>
          cases hd
          exact fun d hd => hdt l ty rfl s d hd (term_value H hd nofun hy)
      | json x => cases hd; exact keyword_unscoped H hy
      | langString s => cases hd) hf
      (show valueIn E c1 (c1.get t) i v = .ok j from h) false
    rw [h4, h5 hcased]
    have : removeIndex (c1.get t) i = i.isNone := removeIndex_named H.named (some t) i
    rw [this]
    cases i <;> rfl

end JsonLd.Sc
