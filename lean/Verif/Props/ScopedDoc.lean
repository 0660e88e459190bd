import Verif.Proofs.ScopedTop
import Verif.Props.Processor
/-!
# C70: compaction with scoped contexts can be expanded back
-/

namespace JsonLd.Props
open JsonLd.Spec

/-- **C70.** Expanding the compacted form of a document gives the same document, with the same order, if the terms
of the context are names, with or without scoped contexts: contexts that apply to the values of a property, or to
nodes of a type.

The document is well-formed, its objects say something, and they can be compacted without loss (`Carries`): in each
node and value, the scoped contexts that compaction uses leave the names of the keywords as they are, they do not
change what the types stand for, and identifiers, properties and values can be expressed in the contexts where they
are. Without these conditions the claim is false, see below. -/
theorem C70_document (E : CEnv) (X : XEnv) (c : ACtx) (H : NamedEnv E X c) (hp : c.previous = none) (c0 : ACtx)
    (h0 : c0.previous = none) (l : SCtx) (hl : CtxOk X.isRef l) (hw : WrittenContext X c0 c l) (d : Doc) (hd : d.WF)
    (hs : ∀ o ∈ d, Says o) (hc : ∀ o ∈ d, Carries E X c none o)
    (hg : E.opts.compactArrays = true → ∀ x g, d ≠ [.node (.mk x none none (some g) none [] none)])
    (j : Json) (h : compactDoc E c l d = .ok j) : expandDoc X c0 j = .ok d := by
  refine Sc.doc_at H hp h0 hl hw hd hc hs (fun ha o ho => ?_) h
  subst ho
  obtain ⟨⟨x, i, ty, g, inc, ps, rv⟩, rfl, -⟩ := hs o (by simp)
  unfold unnamedGraph
  dsimp only
  split
  · rename_i hx
    unfold Node.isGraph Node.id at hx
    simp only [Bool.and_eq_true, Option.isSome_iff_exists, Option.isNone_iff_eq_none, List.isEmpty_iff] at hx
    obtain ⟨⟨⟨⟨⟨⟨g, rfl⟩, rfl⟩, rfl⟩, rfl⟩, rfl⟩, rfl⟩ := hx
    exact absurd rfl (hg ha x g)
  · rfl

/-- **C70.** Different documents have different compacted forms. -/
theorem C70_injective (E : CEnv) (X : XEnv) (c : ACtx) (H : NamedEnv E X c) (hp : c.previous = none) (c0 : ACtx)
    (h0 : c0.previous = none) (l : SCtx) (hl : CtxOk X.isRef l) (hw : WrittenContext X c0 c l) (d d' : Doc)
    (hd : d.WF) (hd' : d'.WF) (hs : ∀ o ∈ d, Says o) (hs' : ∀ o ∈ d', Says o) (hc : ∀ o ∈ d, Carries E X c none o)
    (hc' : ∀ o ∈ d', Carries E X c none o)
    (hg : ∀ x g, d ≠ [.node (.mk x none none (some g) none [] none)])
    (hg' : ∀ x g, d' ≠ [.node (.mk x none none (some g) none [] none)])
    (j : Json) (h : compactDoc E c l d = .ok j) (h' : compactDoc E c l d' = .ok j) : d = d' := by
  have h1 := C70_document E X c H hp c0 h0 l hl hw d hd hs hc (fun _ => hg) j h
  rw [C70_document E X c H hp c0 h0 l hl hw d' hd' hs' hc' (fun _ => hg') j h'] at h1
  exact (Except.ok.inj h1).symm

/-! ## An example, with the actual context processing -/

/-- Compaction with the actual context processing. -/
def exScopedE : CEnv := { exCompEnv with process := exPEnv.process, opts := {} }

/-- Expansion with the actual context processing. -/
def exScopedX : XEnv := { exCompEnv.toIriEnv with process := exPEnv.process, base := none, opts := {} }

/-- A written context with the bindings. -/
def exBindings (b : List (Str × Option STerm)) : SCtx := .one (.defn { SDef.empty with bindings := b })

/-- A name. -/
def exBinding (k v : String) : Str × Option STerm := (k.toList, some (.simple v.toList))

/-- A name with a scoped context. -/
def exScopedTerm (k v : String) (l : SCtx) : Str × Option STerm :=
  (k.toList, some (.expanded { SExp.empty with id := some (some (.term v.toList)), context := some l }))

/-- `p` and `T` with scoped contexts, and an alias of `@id`. -/
def exScopedSyntax : SCtx :=
  exBindings [exBinding "id" "@id",
    exScopedTerm "p" "http:p" (exBindings [exBinding "r" "http:r"]),
    exScopedTerm "T" "http:T" (exBindings [exBinding "q" "http:q"])]

/-- The result of processing, if there is one. -/
def okCtx {ε : Type} (r : Except ε ACtx) : ACtx :=
  match r with
  | .ok c => c
  | .error _ => {}

/-- The context, processed. -/
def exScopedCtx : ACtx := okCtx (exScopedX.process {} exScopedSyntax none {})

/-- A text. -/
def exPlainText (s : String) : Obj := .value none (.literal (.str s.toList) none)

/-- The node inside, with a list. -/
def exScopedInner : Node := .mk none none none none none
  [(.iri "http:r".toList, [.list none [exPlainText "b"]]), (.iri "http:q".toList, [exPlainText "c"])] none

/-- A node of the type `http:T`. -/
def exScopedTop : Node := .mk none (some (.iri "http:x".toList)) (some [.iri "http:T".toList]) none none
  [(.iri "http:p".toList, [exPlainText "a", .node exScopedInner]), (.iri "http:q".toList, [exPlainText "c"])] none

/-- The compacted document: `q` is a name in the context of the type, `r` in that of the property. -/
example : (compactDoc exScopedE exScopedCtx exScopedSyntax [.node exScopedTop]).toOption.map
      (fun j => match j with | .obj m => m.tail | _ => []) =
    some [("id".toList, .str "http:x".toList), ("@type".toList, .str "T".toList),
      ("p".toList, .arr [.str "a".toList, .obj [("r".toList, .obj [("@list".toList, .arr [.str "b".toList])]),
        ("http:q".toList, .str "c".toList)]]),
      ("q".toList, .str "c".toList)] := by
  decide +kernel

/-- A context with names only, checked. -/
def exNamed (c : ACtx) : Bool :=
  decide (c.defs.map Prod.fst).Nodup && decide (c.vocab = none) && decide (c.base = none) && c.typeDef.isNone && (lookupKey "id".toList c.defs).isSome &&
  c.defs.all fun b => !isKeywordLike b.1 && !b.2.prefix_ && !exHttp b.1 && !exCompEnv.isBlank b.1 && b.2.typ.isNone &&
    b.2.language.isNone && b.2.direction.isNone && decide (b.2.container = .none) && b.2.nest.isNone &&
    b.2.index.isNone && !b.2.reverse && (decide (b.2.value = some (.keyword .id)) == decide (b.1 = "id".toList)) &&
    (match b.2.value with | some (.keyword _) => b.2.context.isNone && decide (b.1 = "id".toList) | _ => true)

/-- What the check says. -/
structure ExNamed (c : ACtx) : Prop where
  distinct : (c.defs.map Prod.fst).Nodup
  vocab : c.vocab = none
  base : c.base = none
  typeDef : c.typeDef = none
  id : ∃ d, lookupKey "id".toList c.defs = some d
  keys : ∀ b ∈ c.defs, ¬ KeywordForm b.1 ∧ b.2.prefix_ = false ∧ exCompEnv.isIri b.1 = false ∧
    exCompEnv.isBlank b.1 = false
  defs : ∀ b ∈ c.defs, NamedDef b.2
  values : ∀ b ∈ c.defs, b.2.value = some (.keyword .id) ↔ b.1 = "id".toList
  keywords : ∀ b ∈ c.defs, ∀ k, b.2.value = some (.keyword k) → b.2.context = none ∧ b.1 = "id".toList

theorem exNamed_iff {c : ACtx} (h : exNamed c = true) : ExNamed c := by
  unfold exNamed at h
  simp only [Bool.and_eq_true, decide_eq_true_eq, Option.isNone_iff_eq_none, Option.isSome_iff_exists,
    List.all_eq_true, Bool.not_eq_true', beq_iff_eq] at h
  obtain ⟨⟨⟨⟨⟨h1, h2⟩, h3⟩, h4⟩, h5⟩, h6⟩ := h
  refine ⟨h1, h2, h3, h4, h5, fun b hb => ?_, fun b hb => ?_, fun b hb => ?_, fun b hb k hk => ?_⟩
  · obtain ⟨⟨⟨⟨⟨⟨⟨⟨⟨⟨⟨⟨a1, a2⟩, a3⟩, a4⟩, a5⟩, a6⟩, a7⟩, a8⟩, a9⟩, a10⟩, a11⟩, a12⟩, a13⟩ := h6 b hb
    exact ⟨by rw [← C01_form, Bool.not_eq_true]; exact a1, a2, a3, a4⟩
  · obtain ⟨⟨⟨⟨⟨⟨⟨⟨⟨⟨⟨⟨a1, a2⟩, a3⟩, a4⟩, a5⟩, a6⟩, a7⟩, a8⟩, a9⟩, a10⟩, a11⟩, a12⟩, a13⟩ := h6 b hb
    exact ⟨a5, a6, a7, a8, a9, a10, a11⟩
  · obtain ⟨⟨⟨⟨⟨⟨⟨⟨⟨⟨⟨⟨a1, a2⟩, a3⟩, a4⟩, a5⟩, a6⟩, a7⟩, a8⟩, a9⟩, a10⟩, a11⟩, a12⟩, a13⟩ := h6 b hb
    exact decide_eq_decide.1 a12
  · obtain ⟨⟨⟨⟨⟨⟨⟨⟨⟨⟨⟨⟨a1, a2⟩, a3⟩, a4⟩, a5⟩, a6⟩, a7⟩, a8⟩, a9⟩, a10⟩, a11⟩, a12⟩, a13⟩ := h6 b hb
    rw [hk] at a13
    simpa using a13

section
variable {c : ACtx} (h : ExNamed c)
include h

theorem ExNamed.lookup {k : Str} {d : TermDef} (hd : lookupKey k c.defs = some d) : (k, d) ∈ c.defs :=
  (lookupKey_iff_mem h.distinct).1 hd

theorem ExNamed.noPrefix (p : Str) (m : CTerm) : ¬ PrefixFor c p m := by
  rintro ⟨d, h1, h2, h3⟩
  have := (h.keys _ (h.lookup h1)).2.1
  rw [this] at h2
  cases h2

theorem ExNamed.env : NamedEnv exScopedE exScopedX c where
  env := rfl
  vocab := rfl
  sorted := ⟨rfl, rfl⟩
  mode := rfl
  iris := exComp_facts.1
  facts := exComp_facts.2
  clean := ⟨h.distinct, fun k d hd => (h.keys _ (h.lookup hd)).1, fun p m hp => absurd hp (h.noPrefix p m),
    fun k d hd hk => by
      have := h.keys _ (h.lookup hd)
      rcases hk with hk | hk
      · exact absurd (this.2.2.1.symm.trans hk) (by simp)
      · exact absurd (this.2.2.2.symm.trans hk) (by simp),
    fun t ht => by rw [h.vocab] at ht; (cases ht), fun b hb => by rw [h.base] at hb; (cases hb)⟩
  keywords := ⟨fun p m hp => absurd hp (h.noPrefix p m), fun v hv => by rw [h.vocab] at hv; (cases hv)⟩
  named := ⟨h.defs, fun b hb k hk => (h.keywords b hb k hk).1, h.typeDef⟩
  process := rfl
  modes := rfl

theorem ExNamed.nameable (voc : Bool) {i : Id} (h1 : Id.classify exScopedE.toIriEnv i.str = i)
    (h2 : exScopedE.isIri i.str = true ∨ exScopedE.isBlank i.str = true) : Nameable exScopedE.toCompEnv c voc i :=
  ⟨h1, h2, fun _ v x hv => by rw [h.vocab] at hv; (cases hv), fun p m x hp => absurd hp (h.noPrefix p m),
    fun _ i b _ hb => by rw [h.base] at hb; cases hb⟩

theorem ExNamed.alias (k : Str) (kw : Keyword) :
    expandIri exScopedX.toIriEnv c (some (.ofStr k)) false (some exScopedX.opts.vocab) = .ok (some (.keyword kw)) ↔
      Keyword.tryFrom k = some kw ∨ Keyword.tryFrom k = none ∧ k = "id".toList ∧ kw = .id := by
  unfold Expandable.ofStr
  cases hk : Keyword.tryFrom k with
  | some kw' =>
    show Except.ok (some (CTerm.keyword kw')) = _ ↔ _
    simp
  | none =>
    show expandStr exScopedX.toIriEnv c k false (some .keep) = _ ↔ _
    rw [C33_exact]
    simp only [reduceCtorEq, true_and, false_or]
    constructor
    · intro hx
      generalize ht : CTerm.keyword kw = t at hx
      cases hx with
      | keywordLike => cases ht
      | term d _ hd =>
        cases hv : d.value with
        | none => rw [hv] at ht; cases ht
        | some v =>
          rw [hv] at ht
          have hv : d.value = some (.keyword kw) := by rw [hv]; exact congrArg some ht.symm
          have h1 := (h.keywords _ (h.lookup hd.1) _ hv).2
          refine ⟨h1, ?_⟩
          have := (h.values _ (h.lookup hd.1)).2 h1
          rw [hv] at this
          simpa using this
      | _ => cases ht
    · rintro ⟨rfl, rfl⟩
      obtain ⟨d, hd⟩ := h.id
      have := Expands.term (env := exScopedX.toIriEnv) (docRel := false) (voc := some .keep) d
        (h.keys _ (h.lookup hd)).1 ⟨hd, .inl rfl⟩
      rw [(h.values _ (h.lookup hd)).2 rfl] at this
      exact this

end

theorem ExNamed.same {c c' : ACtx} (h : ExNamed c) (h' : ExNamed c') : SameAliases exScopedX c c' :=
  fun k kw => (h.alias k kw).trans (h'.alias k kw).symm

/-- The result of the scoped context of a property. -/
def exScope (over : Bool) (c : ACtx) (prop : Option Str) (a : ACtx) : Except XErr ACtx :=
  scopedCtx exScopedX (prop.bind c.get) a { exScopedX.opts.proc with override := over }

theorem exScope_eq {over : Bool} {c a b : ACtx} {prop : Option Str} (h : Scope exScopedX over c prop a b) :
    b = okCtx (exScope over c prop a) := by
  have := Sc.scope_scoped h
  unfold exScope
  rw [this]
  rfl

theorem exScope_of {over : Bool} {c a b : ACtx} {prop : Option Str} (h : exScope over c prop a = .ok b) :
    Scope exScopedX over c prop a b := by
  unfold exScope scopedCtx at h
  split at h
  · rename_i d hd
    obtain ⟨k, rfl, hk⟩ := Option.bind_eq_some_iff.1 hd
    split at h
    · rename_i l hl
      unfold xProcess at h
      split at h
      · rename_i b' hb
        cases h
        exact .within k d l a _ rfl hk hl hb
      · cases h
    · rename_i hl
      cases h
      exact .none _ fun k' hk' d' hd' => by cases hk'; rw [hk] at hd'; cases hd'; exact hl
  · rename_i hd
    cases h
    refine .none _ fun k hk d hd' => ?_
    subst hk
    have hd : c.get k = none := hd
    rw [hd] at hd'
    cases hd'

/-- The context of a node of the type `T`. -/
def exScopedT : ACtx :=
  okCtx (scopedCtx exScopedX (exScopedCtx.get "T".toList) exScopedCtx exScopedX.opts.proc.withoutPropagation)

/-- The context of values of `p` there. -/
def exScopedV : ACtx := okCtx (exScope true exScopedT (some "p".toList) exScopedT)

/-- The context of nodes under `p` there. -/
def exScopedP : ACtx := okCtx (exScope true exScopedT (some "p".toList) (exScopedT.previous.getD {}))

theorem exScoped_named : ExNamed exScopedCtx ∧ ExNamed exScopedT ∧ ExNamed exScopedV ∧ ExNamed exScopedP :=
  ⟨exNamed_iff (by decide +kernel), exNamed_iff (by decide +kernel), exNamed_iff (by decide +kernel),
    exNamed_iff (by decide +kernel)⟩

theorem exScoped_scalar : exScope false exScopedT (some "p".toList) exScopedT = .ok exScopedV := by
  rfl

/-- The term has no scoped context, checked. -/
theorem exNoScope {c : ACtx} {k : Str} (h : ((c.get k).bind (·.context)).isNone = true) : NoScope c (some k) := by
  intro k' hk d hd
  cases hk
  rw [hd] at h
  simpa using h

/-- Texts under a property without scoped context. -/
theorem exPlainText_carries {c : ACtx} (h : ExNamed c) {k : Str} (hk : NoScope c (some k)) (s : String) :
    Carries exScopedE exScopedX c (some k) (exPlainText s) := by
  refine .value _ _ _ _ fun c1 h1 => ?_
  have : c1 = c := by
    cases h1 with
    | none => rfl
    | within k' d l _ _ h1 h2 h3 => exact absurd (hk k' h1 d h2) (by rw [h3]; simp)
  subst this
  exact ⟨h.env, .none _ hk, h.same h, .plain _ (by simp), nofun⟩

/-- The text under `p`. -/
theorem exText_carries : Carries exScopedE exScopedX exScopedT (some "p".toList) (exPlainText "a") := by
  refine .value _ _ _ _ fun c1 h1 => ?_
  have : c1 = exScopedV := exScope_eq h1
  subst this
  obtain ⟨-, h2, h3, -⟩ := exScoped_named
  exact ⟨h3.env, exScope_of exScoped_scalar, h2.same h3, .plain _ (by simp), nofun⟩

/-- The contexts of the node inside. -/
theorem exInner_contexts {c1 c' : ACtx} {ss : List Str}
    (h : NodeContexts exScopedE exScopedX exScopedT (some "p".toList) exScopedInner c1 ss c') :
    c1 = exScopedP ∧ ss = [] ∧ c' = exScopedP := by
  obtain ⟨⟨a, h1, h2⟩, h3, ss', h4, -, h5⟩ := h
  have ha : a = exScopedT.previous.getD {} := by
    cases h1 with
    | reference h => exact absurd h (by decide)
    | node _ _ h =>
      cases h with
      | stay h => exact absurd (congrArg Option.isSome h) (by decide +kernel)
      | back p h => rw [h]; rfl
  subst ha
  have hc := exScope_eq h2
  have hss : ss = [] := by
    cases h3
    rfl
  subst hss
  rw [List.perm_nil.1 h4] at h5
  cases h5
  exact ⟨hc, rfl, hc⟩

/-- The node inside can be compacted without loss. -/
theorem exInner_carries : Carries exScopedE exScopedX exScopedT (some "p".toList) (.node exScopedInner) := by
  obtain ⟨-, h2, -, h4⟩ := exScoped_named
  refine .node _ _ _ (fun h => absurd h (by decide)) (fun c1 ss c' hx => ?_) (fun c1 ss c' _ => nofun)
    (fun c1 ss c' _ => nofun) (fun c1 ss c' hx p hp o ho key hk => ?_) (fun c1 ss c' _ => nofun)
  · obtain ⟨rfl, rfl, rfl⟩ := exInner_contexts hx
    refine ⟨h4.env, ⟨h2.same h4, h4.same h4⟩, nofun, fun p hp => ?_, nofun, ⟨nofun, .nil, nofun⟩, nofun, fun h => absurd h (by decide)⟩
    rcases List.mem_cons.1 hp with rfl | hp
    · exact h4.nameable _ (by decide) (by decide)
    · rw [List.mem_singleton.1 hp]
      exact h4.nameable _ (by decide) (by decide)
  · obtain ⟨rfl, rfl, rfl⟩ := exInner_contexts hx
    rcases List.mem_cons.1 hp with rfl | hp
    · rw [List.mem_singleton.1 ho] at hk ⊢
      have : key = "r".toList := by
        have h1 : (compactIriWith exScopedE.toCompEnv exScopedP (.id (.iri "http:r".toList)) (.list none [exPlainText "b"]) true
          false exScopedE.opts).toOption = some (some "r".toList) := by decide +kernel
        rw [show compactIriWith exScopedE.toCompEnv exScopedP (.id (.iri "http:r".toList)) (.list none [exPlainText "b"]) true
          false exScopedE.opts = _ from hk] at h1
        simpa [Except.toOption] using h1
      subst this
      have hn : NoScope exScopedP (some "r".toList) := exNoScope (by decide +kernel)
      refine .list _ _ _ _ h4.env (Option.isNone_iff_eq_none.1 (by decide +kernel)) hn fun o ho => ?_
      rw [List.mem_singleton.1 ho]
      exact exPlainText_carries h4 hn _
    · rw [List.mem_singleton.1 hp] at ho hk
      rw [List.mem_singleton.1 ho] at hk ⊢
      have : key = "http:q".toList := by
        have h1 : (compactIriWith exScopedE.toCompEnv exScopedP (.id (.iri "http:q".toList)) (exPlainText "c") true
          false exScopedE.opts).toOption = some (some "http:q".toList) := by decide +kernel
        rw [show compactIriWith exScopedE.toCompEnv exScopedP (.id (.iri "http:q".toList)) (exPlainText "c") true
          false exScopedE.opts = _ from hk] at h1
        simpa [Except.toOption] using h1
      subst this
      exact exPlainText_carries h4 (exNoScope (by decide +kernel)) _

/-- The contexts of the node at the top. -/
theorem exTop_contexts {c1 c' : ACtx} {ss : List Str}
    (h : NodeContexts exScopedE exScopedX exScopedCtx none exScopedTop c1 ss c') :
    c1 = exScopedCtx ∧ ss = ["T".toList] ∧ c' = exScopedT := by
  obtain ⟨⟨a, h1, h2⟩, h3, ss', h4, -, h5⟩ := h
  have ha : a = exScopedCtx := by
    cases h1 with
    | reference h => rfl
    | node _ _ h =>
      cases h with
      | stay h => rfl
      | back p h =>
        have h1 : exScopedCtx.previous.isSome = false := by decide +kernel
        rw [h] at h1
        cases h1
  subst ha
  have hc : c1 = exScopedCtx := by
    cases h2 with
    | none => rfl
    | within _ _ _ _ _ h => cases h
  subst hc
  have hss : ss = ["T".toList] := by
    cases h3 with
    | cons h6 h7 =>
      cases h7
      have h1 : (compactIriPlain exScopedE.toCompEnv exScopedCtx (.id (.iri "http:T".toList)) true false
        exScopedE.opts).toOption = some (some "T".toList) := by decide +kernel
      rw [show compactIriPlain exScopedE.toCompEnv exScopedCtx (.id (.iri "http:T".toList)) true false
        exScopedE.opts = _ from h6] at h1
      simpa [Except.toOption] using h1
  subst hss
  rw [List.perm_singleton.1 h4] at h5
  refine ⟨rfl, rfl, ?_⟩
  have := Sc.applied_fold h5 (fun _ _ => rfl)
  rw [List.foldlM_cons] at this
  unfold exScopedT
  revert this
  cases scopedCtx exScopedX (exScopedCtx.get "T".toList) exScopedCtx exScopedX.opts.proc.withoutPropagation with
  | error e => intro h; cases h
  | ok b => intro h; cases h; rfl

/-- The document can be compacted without loss. -/
theorem exTop_carries : Carries exScopedE exScopedX exScopedCtx none (.node exScopedTop) := by
  obtain ⟨h1, h2, h3, h4⟩ := exScoped_named
  refine .node _ _ _ (fun h => absurd h (by decide)) (fun c1 ss c' hx => ?_) (fun c1 ss c' _ => nofun)
    (fun c1 ss c' _ => nofun) (fun c1 ss c' hx p hp o ho key hk => ?_) (fun c1 ss c' _ => nofun)
  · obtain ⟨rfl, rfl, rfl⟩ := exTop_contexts hx
    refine ⟨h2.env, ⟨h1.same h2, h1.same h2⟩, fun i hi => ?_, fun p hp => ?_, nofun,
      ⟨by simp [exScopedTop, Node.types], .cons ⟨?_, .inl rfl⟩ .nil, fun _ _ => rfl⟩, nofun, fun h => absurd h (by decide)⟩
    · cases hi
      exact h2.nameable _ (by decide) (by decide)
    · rcases List.mem_cons.1 hp with rfl | hp
      · exact h2.nameable _ (by decide) (by decide)
      · rw [List.mem_singleton.1 hp]
        exact h2.nameable _ (by decide) (by decide)
    · rfl
  · obtain ⟨rfl, rfl, rfl⟩ := exTop_contexts hx
    have hkey : ∀ (p k : String) (o : Obj), (compactIriWith exScopedE.toCompEnv exScopedT (.id (.iri p.toList)) o true
        false exScopedE.opts).toOption = some (some k.toList) → compactIriWith exScopedE.toCompEnv exScopedT
          (.id (.iri p.toList)) o true false exScopedE.opts = .ok (some key) → key = k.toList := by
      intro p k o h1 h2
      rw [h2] at h1
      simpa [Except.toOption] using h1
    rcases List.mem_cons.1 hp with rfl | hp
    · rcases List.mem_cons.1 ho with rfl | ho
      · have := hkey "http:p" "p" (exPlainText "a") (by decide +kernel) hk
        subst this
        exact exText_carries
      · rw [List.mem_singleton.1 ho] at hk ⊢
        have := hkey "http:p" "p" (.node exScopedInner) (by decide +kernel) hk
        subst this
        exact exInner_carries
    · rw [List.mem_singleton.1 hp] at ho hk
      rw [List.mem_singleton.1 ho] at hk ⊢
      have := hkey "http:q" "q" (exPlainText "c") (by decide +kernel) hk
      subst this
      exact exPlainText_carries h2 (exNoScope (by decide +kernel)) _

/-- The hypotheses of C70 are met. -/
example : NamedEnv exScopedE exScopedX exScopedCtx ∧ exScopedCtx.previous = none ∧ CtxOk exScopedX.isRef exScopedSyntax ∧
    WrittenContext exScopedX {} exScopedCtx exScopedSyntax ∧ Doc.WF [.node exScopedTop] ∧ Says (.node exScopedTop) ∧
    Carries exScopedE exScopedX exScopedCtx none (.node exScopedTop) := by
  refine ⟨exScoped_named.1.env, Option.isNone_iff_eq_none.1 (by decide +kernel), ?_, ?_, ?_, ⟨_, rfl, .inl rfl⟩, exTop_carries⟩
  · simp [exScopedSyntax, exBindings, exBinding, exScopedTerm, CtxOk, EntryOk, DefOk, BindingsOk, SDef.empty, SExp.empty, TermOk, ExpOk, ScopedOk, IdText]
    decide
  · unfold WrittenContext
    rw [if_neg (by decide)]
    rfl
  · simp [Doc.WF, exScopedTop, exScopedInner, exPlainText, gWF, incWF, rvWF, Node.WF, psWF, objsWF, Obj.WF]

/-! ## Where the conditions are needed -/

/-- A document, compacted with the context and expanded again. -/
def exScopedBack (l : SCtx) (d : Doc) : Option Doc :=
  (exScopedE.process {} l none {}).toOption.bind fun c => (compactDoc exScopedE c l d).toOption.bind fun j =>
    (expandDoc exScopedX {} j).toOption

/-- A node with types and properties. -/
def exNodeOf (ts : List String) (ps : List (String × List Obj)) : Node :=
  .mk none none (if ts = [] then none else some (ts.map fun t => .iri t.toList)) none none
    (ps.map fun p => (.iri p.1.toList, p.2)) none

/-- C70 is false if the term for a type is defined in the context of the type of the node outside: the term is used for
the node inside, but expansion does not find it. -/
theorem C70_type_outside : exScopedBack
      (exBindings [exScopedTerm "T" "http:T" (exBindings [exBinding "U" "http:U"]), exBinding "p" "http:p"])
      [.node (exNodeOf ["http:T"] [("http:p", [.node (exNodeOf ["http:U"] [("http:q", [])])])])] =
    some [.node (exNodeOf ["http:T"] [("http:p", [.node (.mk none none (some [.invalid "U".toList]) none none
      [(.iri "http:q".toList, [])] none)])])] := by
  decide +kernel

/-- C70 is false if the context of a property redefines the term for a type: the type of the node is another one after
expansion. -/
theorem C70_type_redefined : exScopedBack
      (exBindings [exScopedTerm "p" "http:p" (exBindings [exBinding "U" "http:V"]), exBinding "U" "http:U"])
      [.node (exNodeOf [] [("http:p", [.node (exNodeOf ["http:U"] [("http:q", [])])])])] =
    some [.node (exNodeOf [] [("http:p", [.node (exNodeOf ["http:V"] [("http:q", [])])])])] := by
  decide +kernel

/-- C70 is false if the context of a type defines an alias of `@type`: the types are written with this alias, and are
lost. -/
theorem C70_alias : exScopedBack (exBindings [exScopedTerm "T" "http:T" (exBindings [exBinding "kind" "@type"])])
      [.node (exNodeOf ["http:T"] [("http:q", [])])] =
    some [.node (exNodeOf [] [("http:q", [])])] := by
  decide +kernel

/-- C70 is false of a reference with an index in a node whose type has a context with a base IRI: its identifier is
written relative to this base IRI, but read without it. -/
theorem C70_reference : exScopedBack
      (exBindings [exScopedTerm "T" "http:T" (.one (.defn { SDef.empty with base := some (some "http:b".toList) }))])
      [.node (exNodeOf ["http:T"] [("http:p", [.node (.mk (some "i".toList) (some (.iri "http:bx".toList)) none none none [] none)])])] =
    some [.node (exNodeOf ["http:T"] [("http:p", [.node (.mk (some "i".toList) (some (.invalid "x".toList)) none none none [] none)])])] := by
  decide +kernel

/-- C70 is false of a list in a node whose type has a context with a default language: the language is lost. -/
theorem C70_list : exScopedBack
      (exBindings [exScopedTerm "T" "http:T" (.one (.defn { SDef.empty with language := some (some "en".toList) }))])
      [.node (exNodeOf ["http:T"] [("http:p", [.list none [.value none (.langString ⟨"a".toList, some "en".toList, none⟩)]])])] =
    some [.node (exNodeOf ["http:T"] [("http:p", [.list none [exPlainText "a"]])])] := by
  decide +kernel

/-- C70 is false if the context of a property redefines a protected term, which is allowed: the compacted document has a
text, and expansion fails. -/
theorem C70_protected : exScopedBack (.one (.defn { SDef.empty with
        protected_ := some true, bindings := [exBinding "r" "http:r",
          exScopedTerm "p" "http:p" (exBindings [exBinding "r" "http:z"])] }))
      [.node (exNodeOf [] [("http:p", [exPlainText "a"])])] = none ∧
    exScopedBack (.one (.defn { SDef.empty with
        protected_ := some true, bindings := [exBinding "r" "http:r",
          exScopedTerm "p" "http:p" (exBindings [exBinding "r" "http:z"])] }))
      [.node (exNodeOf [] [("http:p", [.node (exNodeOf [] [("http:q", [exPlainText "a"])])])])] =
      some [.node (exNodeOf [] [("http:p", [.node (exNodeOf [] [("http:q", [exPlainText "a"])])])])] := by
  decide +kernel

end JsonLd.Props
