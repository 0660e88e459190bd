import Verif.Proofs.Mentioned
import Verif.Props.KeyOrder
/-!
# C98: expansion depends on the terms that are mentioned only
-/

namespace JsonLd.Props
open JsonLd.Spec

/-- **C98.** Expansion cannot tell active contexts apart that are related in the sense of `Simulates`: these agree on all
names of a set that contains those of the document. The ways to process contexts may differ as well. -/
theorem C98_simulates (E : XEnv) (P : ACtx → SCtx → Option Str → Opts → Except CtxErr ACtx) (M : Str → Prop) (L : SCtx → Prop)
    (R : ACtx → ACtx → Prop) (H : Simulates E.process P M L R) (c c' : ACtx) (hc : R c c') (j : Json)
    (hs : ∀ s, Said s j → M s) (hl : ∀ v l, ContextIn v j → readCtx E.isRef v = .ok l → L l) :
    expandDoc E c j = expandDoc { E with process := P } c' j :=
  doc_m H hc ⟨hs, hl⟩

/-- The relation of two contexts, in the absence of other contexts. -/
private theorem two_contexts {Q P : ACtx → SCtx → Option Str → Opts → Except CtxErr ACtx} {c c' : ACtx} {j : Json}
    (ha : AgreeOn (Mentioned c j) c c') (hp : c.previous = none ∧ c'.previous = none)
    (hs : ∀ t d, Mentioned c j t → c.getNormal t = some d → d.context = none) :
    Simulates Q P (Mentioned c j) (fun _ => False) fun a a' => a = c ∧ a' = c' where
  agree := by rintro _ _ ⟨rfl, rfl⟩; exact ha
  previous := by
    rintro _ _ ⟨rfl, rfl⟩
    rw [hp.1, hp.2]
    trivial
  before := .before
  index := by rintro _ _ _ _ _ ⟨rfl, rfl⟩ ht hg hd; exact .index ht hg hd
  graph := .graph
  included := .included
  embedded := fun _ h => h.elim
  scopedContext := by
    rintro _ _ _ _ _ _ _ _ _ _ ⟨rfl, rfl⟩ ht hg _ hd
    rw [hs _ _ ht hg] at hd
    cases hd

/-- **C98.** If two contexts agree on the terms that a document mentions and have the same settings, the document is expanded
to the same result, or refused with the same error. Terms that are not mentioned may be added, removed or changed at will.
This is for documents without contexts, and mentioned terms without scoped contexts. -/
theorem C98_mentioned (E : XEnv) (P : ACtx → SCtx → Option Str → Opts → Except CtxErr ACtx) (c c' : ACtx) (j : Json)
    (ha : AgreeOn (Mentioned c j) c c') (hp : c.previous = none ∧ c'.previous = none) (hj : ∀ v, ¬ ContextIn v j)
    (hs : ∀ t d, Mentioned c j t → c.getNormal t = some d → d.context = none) :
    expandDoc E c j = expandDoc { E with process := P } c' j :=
  C98_simulates E P _ _ _ (two_contexts ha hp hs) c c' ⟨rfl, rfl⟩ j (fun _ h => .said h) fun v _ hv _ => (hj v hv).elim

/-- **C98.** The same for a document with a context at the top: if the context is processed to contexts that agree on the
terms mentioned in the rest of the document, the result is the same. Think of a context that is loaded in two versions. -/
theorem C98_context (E : XEnv) (P : ACtx → SCtx → Option Str → Opts → Except CtxErr ACtx) (c₀ c c' : ACtx)
    (v : Json) (l : SCtx) (m m' : List (Str × Json)) (h₀ : c₀.previous = none) (hv : readCtx E.isRef v = .ok l)
    (h : E.process c₀ l E.base E.opts.proc = .ok c) (h' : P c₀ l E.base E.opts.proc = .ok c')
    (ha : AgreeOn (Mentioned c (.obj (m ++ m'))) c c') (hp : c.previous = none ∧ c'.previous = none)
    (hj : ∀ w, ¬ ContextIn w (.obj (m ++ m')))
    (hs : ∀ t d, Mentioned c (.obj (m ++ m')) t → c.getNormal t = some d → d.context = none) :
    expandDoc E c₀ (.obj (m ++ ("@context".toList, v) :: m')) =
      expandDoc { E with process := P } c₀ (.obj (m ++ ("@context".toList, v) :: m')) := by
  have H : Simulates E.process P _ _ _ := two_contexts ha hp hs
  have hf : (m ++ ("@context".toList, v) :: m').filter (fun e => decide (e.1 = "@context".toList)) = [("@context".toList, v)] := by
    have hn : ∀ l : List (Str × Json), (∀ e ∈ l, e ∈ m ++ m') → l.filter (fun e => decide (e.1 = "@context".toList)) = [] := by
      intro l hl
      refine List.filter_eq_nil_iff.2 fun e he hk => hj e.2 (.here ?_)
      rw [← of_decide_eq_true hk]
      exact hl e he
    rw [List.filter_append, List.filter_cons, hn m fun e he => List.mem_append_left _ he,
      hn m' fun e he => List.mem_append_right _ he]
    rfl
  have hctx : ∀ E : XEnv, ∀ a : ACtx, readCtx E.isRef v = .ok l → E.process c₀ l E.base E.opts.proc = .ok a →
      objContext E c₀ none (m ++ ("@context".toList, v) :: m') false =
        (prelim E c₀ (m ++ ("@context".toList, v) :: m')).bind fun _ => .ok a := by
    intro E a hv ha
    unfold objContext
    refine congrArg _ (funext fun b => ?_)
    have hr : revert c₀ (m ++ ("@context".toList, v) :: m') false b = c₀ := by
      unfold revert
      rw [h₀]
    rw [hr]
    show localContext E c₀ _ = _
    unfold localContext
    rw [hf]
    dsimp only
    rw [hv]
    dsimp only
    unfold xProcess
    rw [ha]
  have hpre : prelim E c₀ (m ++ ("@context".toList, v) :: m') =
      prelim { E with process := P } c₀ (m ++ ("@context".toList, v) :: m') := by
    generalize m ++ ("@context".toList, v) :: m' = x
    induction x with
    | nil => rfl
    | cons e x ih =>
      unfold prelim
      rw [ih]
      rfl
  unfold expandDoc expandElement
  congr 1
  cases (Json.obj (m ++ ("@context".toList, v) :: m')).depth with
  | zero => rfl
  | succ n =>
    refine objWith_m H (rec_m H n) (prop := none) (fun _ h => by cases h) ?_ ?_
    · rw [hctx E c hv h, hctx { E with process := P } c' hv h', ← hpre]
      cases prelim E c₀ (m ++ ("@context".toList, v) :: m') with
      | error x => exact .inl ⟨x, rfl, rfl⟩
      | ok b => exact .inr ⟨_, _, rfl, rfl, rfl, rfl⟩
    · intro e he hk
      have he : (e.1, e.2) ∈ m ++ m' := by
        rcases List.mem_append.1 he with he | he
        · exact List.mem_append_left _ he
        · rcases List.mem_cons.1 he with rfl | he
          · exact absurd rfl hk
          · exact List.mem_append_right _ he
      exact ⟨.said (.key he), fun s hs => .said (.entry he hs), fun w l hw _ => (hj w (.entry he hw)).elim⟩

/-! ## An example -/

/-- `{"@id": "ex:a", "by": {"k": {"label": "x"}}}` -/
def exMentionDoc : Json :=
  .obj ([] ++ [("@id".toList, .str "ex:a".toList),
    ("by".toList, .obj [("k".toList, .obj [("label".toList, .str "x".toList)])])])

/-- A context for it; the values of `by` are indexed by the property `key`. -/
def exMentionCtx : ACtx :=
  { defs := [("ex".toList, { value := some (.id (.iri "http:ex/".toList)), prefix_ := true }),
      ("by".toList, { value := some (.id (.iri "http:by".toList)), container := .index, index := some "key".toList }),
      ("key".toList, { value := some (.id (.iri "http:key".toList)) }),
      ("label".toList, { value := some (.id (.iri "http:label".toList)) })] }

/-- The same with other terms, one of them with a scoped context; `label` is protected. -/
def exMentionCtx' : ACtx :=
  { defs := [("x:y".toList, {}), ("ex".toList, { value := some (.id (.iri "http:ex/".toList)), prefix_ := true }),
      ("more".toList, { value := some (.id (.iri "http:more".toList)), context := some (.one .null) }),
      ("by".toList, { value := some (.id (.iri "http:by".toList)), container := .index, index := some "key".toList }),
      ("key".toList, { value := some (.id (.iri "http:key".toList)) }),
      ("label".toList, { value := some (.id (.iri "http:label".toList)), protected_ := true })] }

/-- What is mentioned. -/
def exMentionNames : List Str :=
  ["@id".toList, "ex:a".toList, "ex".toList, "by".toList, "key".toList, "k".toList, "label".toList, "x".toList,
    "@graph".toList, "@included".toList]

private theorem exMention_names {t : Str} (h : Mentioned exMentionCtx exMentionDoc t) : t ∈ exMentionNames := by
  induction h with
  | said h =>
    rcases h with _ | h | ⟨h, h'⟩ | _
    · simp only [List.nil_append, List.mem_cons, Prod.mk.injEq, List.not_mem_nil, or_false] at h
      rcases h with ⟨rfl, -⟩ | ⟨rfl, -⟩ <;> decide
    · simp only [List.nil_append, List.mem_cons, Prod.mk.injEq, List.not_mem_nil, or_false] at h
      rcases h with ⟨-, rfl⟩ | ⟨-, rfl⟩
      · cases h'; decide
      · rcases h' with _ | h | ⟨h, h'⟩ | _
        · cases List.mem_singleton.1 h; decide
        · cases List.mem_singleton.1 h
          rcases h' with _ | h | ⟨h, h'⟩ | _
          · cases List.mem_singleton.1 h; decide
          · cases List.mem_singleton.1 h
            cases h'; decide
  | @before s p x _ hs ih =>
    have : ∀ s ∈ exMentionNames, ∀ q ∈ splitOnce ':' s, q.1 ∈ exMentionNames := by decide +kernel
    exact this s ih _ hs
  | @index t i d _ hg hd ih =>
    have : ∀ s ∈ exMentionNames, ∀ i ∈ (exMentionCtx.getNormal s).bind (·.index), i ∈ exMentionNames := by decide +kernel
    refine this t ih i ?_
    rw [hg]
    exact hd
  | graph => decide
  | included => decide

/-- The example meets the hypotheses. -/
theorem exMention_agree : AgreeOn (Mentioned exMentionCtx exMentionDoc) exMentionCtx exMentionCtx' where
  terms := fun t ht => by
    have ht := exMention_names ht
    simp only [exMentionNames, List.mem_cons, List.not_mem_nil, or_false] at ht
    rcases ht with rfl | rfl | rfl | rfl | rfl | rfl | rfl | rfl | rfl | rfl <;> rfl
  type := rfl
  base := rfl
  vocab := rfl
  language := rfl
  direction := rfl

theorem exMention_unscoped : ∀ t d, Mentioned exMentionCtx exMentionDoc t → exMentionCtx.getNormal t = some d →
    d.context = none := by
  intro t d ht hg
  have ht := exMention_names ht
  simp only [exMentionNames, List.mem_cons, List.not_mem_nil, or_false] at ht
  rcases ht with rfl | rfl | rfl | rfl | rfl | rfl | rfl | rfl | rfl | rfl <;> cases hg <;> rfl

theorem exMention_plain : ∀ v, ¬ ContextIn v exMentionDoc := by
  intro v h
  rcases h with h | ⟨h, h'⟩
  · simp only [List.nil_append, List.mem_cons, Prod.mk.injEq, List.not_mem_nil, or_false] at h
    rcases h with ⟨h, -⟩ | ⟨h, -⟩ <;> revert h <;> decide
  · simp only [List.nil_append, List.mem_cons, Prod.mk.injEq, List.not_mem_nil, or_false] at h
    rcases h with ⟨-, rfl⟩ | ⟨-, rfl⟩
    · cases h'
    · rcases h' with h | ⟨h, h'⟩
      · have : "@context".toList = "k".toList := congrArg Prod.fst (List.mem_singleton.1 h)
        revert this; decide
      · cases List.mem_singleton.1 h
        rcases h' with h | ⟨h, h'⟩
        · have : "@context".toList = "label".toList := congrArg Prod.fst (List.mem_singleton.1 h)
          revert this; decide
        · cases List.mem_singleton.1 h
          cases h'

/-- So both contexts give the same result, … -/
example : expandDoc exBackEnv exMentionCtx exMentionDoc = expandDoc exBackEnv exMentionCtx' exMentionDoc :=
  C98_mentioned exBackEnv exBackEnv.process _ _ _ exMention_agree ⟨rfl, rfl⟩ exMention_plain exMention_unscoped

/-- … also if the context is processed to them, with two versions of the loader, … -/
example : expandDoc { exBackEnv with process := fun _ _ _ _ => .ok exMentionCtx } {} (.obj ([] ++ ("@context".toList, .str "u".toList) ::
      [("@id".toList, .str "ex:a".toList), ("by".toList, .obj [("k".toList, .obj [("label".toList, .str "x".toList)])])])) =
    expandDoc { exBackEnv with process := fun _ _ _ _ => .ok exMentionCtx' } {} (.obj ([] ++ ("@context".toList, .str "u".toList) ::
      [("@id".toList, .str "ex:a".toList), ("by".toList, .obj [("k".toList, .obj [("label".toList, .str "x".toList)])])])) := by
  have hl : ∃ l, readCtx exBackEnv.isRef (.str "u".toList) = .ok l := by
    cases h : readCtx exBackEnv.isRef (.str "u".toList) with
    | ok l => exact ⟨l, rfl⟩
    | error =>
      have h2 : (readCtx exBackEnv.isRef (.str "u".toList)).isOk = true := by decide +kernel
      rw [h] at h2
      cases h2
  obtain ⟨l, hl⟩ := hl
  exact C98_context { exBackEnv with process := fun _ _ _ _ => .ok exMentionCtx } (fun _ _ _ _ => .ok exMentionCtx') {}
    exMentionCtx exMentionCtx' (.str "u".toList) l [] _ rfl hl rfl rfl exMention_agree ⟨rfl, rfl⟩ exMention_plain exMention_unscoped

/-- … namely this one. -/
example : (expandDoc exBackEnv exMentionCtx' exMentionDoc).toOption = some [.node (.mk none (some (.iri "http:ex/a".toList)) none none none
    [(.iri "http:by".toList, [.node (.mk none none none none none
      [(.iri "http:label".toList, [.value none (.literal (.str "x".toList) none)]),
       (.iri "http:key".toList, [.value none (.literal (.str "k".toList) none)])] none)])] none)] := by
  decide +kernel

/-! ## Why more than the strings of the document counts -/

/-- The definition of a prefix and that of an index property matter although neither is a string of the document. -/
theorem C98_needed :
    (expandDoc exBackEnv { exMentionCtx with defs := exMentionCtx.defs.filter fun e => decide (e.1 ≠ "ex".toList) } exMentionDoc).toOption ≠
      (expandDoc exBackEnv exMentionCtx exMentionDoc).toOption ∧
    (expandDoc exBackEnv { exMentionCtx with defs := exMentionCtx.defs.filter fun e => decide (e.1 ≠ "key".toList) } exMentionDoc).toOption ≠
      (expandDoc exBackEnv exMentionCtx exMentionDoc).toOption := by
  decide +kernel

/-- With a definition of `@graph`, which the code accepts as a term (C28), the members of a graph are other ones although the
key `@graph` stands for the keyword. -/
theorem C98_graph :
    (expandDoc exBackEnv {} (.obj [("@id".toList, .str "http:a".toList), ("@graph".toList, .arr [.obj [("@id".toList, .str "http:b".toList),
      ("http:p".toList, .bool true)]])])).toOption ≠
    (expandDoc exBackEnv { defs := [("@graph".toList, { value := some (.id (.iri "http:g".toList)), container := .list })] }
      (.obj [("@id".toList, .str "http:a".toList), ("@graph".toList, .arr [.obj [("@id".toList, .str "http:b".toList),
      ("http:p".toList, .bool true)]])])).toOption := by
  decide +kernel

end JsonLd.Props
