import Verif.Props.SaysOrder
import Verif.Props.Sequence
import Verif.Props.Mentioned
import Verif.Props.GivenContext
/-!
# C99: terms of a context that others do not depend on
-/

namespace JsonLd.Props
open JsonLd.Spec

/-- A context definition in a list of its own, possibly of a remote context. -/
theorem process_defn {E : ProcEnv} {n : Nat} {c c' : ACtx} {d : SDef} {rc : List Str} {base : Option Str} {o : Opts}
    (h : (recN E n).process c (.one (.defn d)) rc base o = .ok c') : ∃ n' o', stepPropagation (.one (.defn d)) o = .ok o' ∧
      processDef (recN E n') E (startContext c o') d rc base o' = .ok c' := by
  cases n with
  | zero => cases h
  | succ n =>
    obtain ⟨o', ho, x2⟩ := processBody_ok h
    unfold SCtx.entries processEntries at x2
    rw [bindOk] at x2
    obtain ⟨⟨r1, q1⟩, x3, x4⟩ := x2
    cases x4
    cases processEntry_ok x3 with
    | defn _ _ x5 => exact ⟨n, o', ho, x5⟩

theorem dependsOn_start {E : ProcEnv} {c : ACtx} {d : SDef} {o : Opts} {k u : Str} :
    DependsOn E (startContext c o) d k u → DependsOn E c d k u := by
  obtain ⟨p, e⟩ := startContext_eq c o
  rw [e]
  rintro (⟨b, h1, h2⟩ | ⟨b, s, h1, h2, h3, h4, h5⟩ | ⟨b, h1, h2, h3⟩)
  · exact .term b h1 h2
  · exact .pre b s h1 h2 h3 h4 h5 ‹_› ‹_›
  · exact .name b h1 h2 h3

/-- Two versions of a context definition, possibly of a remote context. -/
theorem process_on {E E' : ProcEnv} (hE : E'.toIriEnv = E.toIriEnv) {n n' : Nat} {c c1 c2 : ACtx} {d : SDef}
    {bs : List (Str × Option STerm)} {rc : List Str} {base : Option Str} {o : Opts} (hi : d.import_ = none) {K : Str → Prop}
    (hK : ∀ k u, K k → DependsOn E c d k u → K u) (hbs : ∀ k, K k → lookupKey k bs = lookupKey k d.bindings)
    (h1 : (recN E n).process c (.one (.defn d)) rc base o = .ok c1)
    (h2 : (recN E' n').process c (.one (.defn { d with bindings := bs })) rc base o = .ok c2) :
    { c1 with defs := [] } = { c2 with defs := [] } ∧ ∀ k, K k → (c1.getNormal k).map forget = (c2.getNormal k).map forget := by
  obtain ⟨_, o1, e1, x1⟩ := process_defn h1
  obtain ⟨_, o2, e2, x2⟩ := process_defn h2
  have e : o1 = o2 := Except.ok.inj (e1.symm.trans e2)
  subst e
  exact processDef_on hE hi (fun k u hk hu => hK k u hk (dependsOn_start hu)) hbs x1 x2

/-- **C99.** Let two context definitions differ in their terms. The terms of a set come out the same, base URLs of scoped
contexts and protection aside (see C88), if both definitions say the same about them and they depend on terms in the set
only. The other settings come out the same as well. (Whether a definition is accepted depends on all its terms.) -/
theorem C99_terms_partial (E : ProcEnv) (c : ACtx) (d : SDef) (bs : List (Str × Option STerm)) (base : Option Str) (o : Opts)
    (hi : d.import_ = none) (K : Str → Prop) (hK : ∀ k u, K k → DependsOn E c d k u → K u)
    (hbs : ∀ k, K k → lookupKey k bs = lookupKey k d.bindings) (c1 c2 : ACtx)
    (h1 : Processed E c (.one (.defn d)) base o (.ok c1))
    (h2 : Processed E c (.one (.defn { d with bindings := bs })) base o (.ok c2)) :
    { c1 with defs := [] } = { c2 with defs := [] } ∧
    ∀ k, K k → (c1.getNormal k).map forget = (c2.getNormal k).map forget := by
  obtain ⟨_, n1, h1⟩ := h1
  obtain ⟨_, n2, h2⟩ := h2
  exact process_on rfl hi hK hbs h1 h2

theorem lookupKey_more {α : Type} {k : Str} {extra : List (Str × α)} (hk : ∀ b, (k, b) ∉ extra) (l : List (Str × α)) :
    lookupKey k (l ++ extra) = lookupKey k l := by
  induction l with
  | nil =>
    show lookupKey k extra = none
    induction extra with
    | nil => rfl
    | cons e es ih =>
      show (if e.1 = k then some e.2 else lookupKey k es) = none
      rw [if_neg, ih fun b hb => hk b (List.mem_cons_of_mem _ hb)]
      rintro rfl
      exact hk e.2 List.mem_cons_self
  | cons e l ih =>
    show (if e.1 = k then some e.2 else lookupKey k (l ++ extra)) = if e.1 = k then some e.2 else lookupKey k l
    rw [ih]

/-- **C99.** Terms may be added to a context definition: if no term of the definition depends on an added one, the terms
that are not added come out the same. -/
theorem C99_added_partial (E : ProcEnv) (c : ACtx) (d : SDef) (extra : List (Str × Option STerm)) (base : Option Str) (o : Opts)
    (hi : d.import_ = none) (hx : ∀ k u b, DependsOn E c d k u → (u, b) ∉ extra) (c1 c2 : ACtx)
    (h1 : Processed E c (.one (.defn d)) base o (.ok c1))
    (h2 : Processed E c (.one (.defn { d with bindings := d.bindings ++ extra })) base o (.ok c2)) (k : Str)
    (hk : ∀ b, (k, b) ∉ extra) : (c1.getNormal k).map forget = (c2.getNormal k).map forget := by
  refine (C99_terms_partial E c d (d.bindings ++ extra) base o hi (fun k => ∀ b, (k, b) ∉ extra) (fun k u _ hu b => hx k u b hu)
    (fun k hk => ?_) c1 c2 h1 h2).2 k hk
  exact lookupKey_more hk d.bindings

/-- Two versions of a remote context. -/
theorem process_ref_on {E E' : ProcEnv} (hE : E'.toIriEnv = E.toIriEnv) {c c1 c2 : ACtx} {d : SDef}
    {bs : List (Str × Option STerm)} {r u : Str} {base : Option Str} {o : Opts} (hi : d.import_ = none)
    (hu : resolveIri E.toIriEnv r base = some u) (hd : E.load u = .ok (.one (.defn d)))
    (hd' : E'.load u = .ok (.one (.defn { d with bindings := bs }))) {K : Str → Prop}
    (hK : ∀ k u, K k → DependsOn E c d k u → K u) (hbs : ∀ k, K k → lookupKey k bs = lookupKey k d.bindings)
    (h1 : Processed E c (.one (.ref r)) base o (.ok c1)) (h2 : Processed E' c (.one (.ref r)) base o (.ok c2)) :
    { c1 with defs := [] } = { c2 with defs := [] } ∧ ∀ k, K k → (c1.getNormal k).map forget = (c2.getNormal k).map forget := by
  have run : ∀ {E : ProcEnv} {c' : ACtx}, resolveIri E.toIriEnv r base = some u →
      Processed E c (.one (.ref r)) base o (.ok c') → ∃ n l, E.load u = .ok l ∧
        (recN E n).process (startContext c o) l [u] (some u) ⟨o.mode, false, true, o.vocab⟩ = .ok c' := by
    rintro E c' hu ⟨_, n, h⟩
    cases n with
    | zero => cases h
    | succ n =>
      obtain ⟨o', ho, x2⟩ := processBody_ok h
      cases ho
      unfold SCtx.entries processEntries at x2
      rw [bindOk] at x2
      obtain ⟨⟨r1, q1⟩, x3, x4⟩ := x2
      cases x4
      cases processEntry_ok x3 with
      | skip _ u' x5 x6 => cases x6
      | ref _ u' l c' x5 x6 x7 x8 =>
        rw [hu] at x5
        cases x5
        exact ⟨n, l, x7, x8⟩
  obtain ⟨_, l1, y1, z1⟩ := run hu h1
  obtain ⟨_, l2, y2, z2⟩ := run (hE ▸ hu) h2
  rw [hd] at y1
  rw [hd'] at y2
  cases y1
  cases y2
  exact process_on hE hi (fun k u hk hu => hK k u hk (dependsOn_start hu)) hbs z1 z2

/-- **C99.** A document is not affected by a new version of the context it refers to, if the terms it mentions, and those on
which these depend, are the same in both. The other terms of the context may be added, changed or removed. This is for
documents without other contexts that mention terms without scoped contexts (for which see `C98_simulates`). -/
theorem C99_version (E : XEnv) (P : ACtx → SCtx → Option Str → Opts → Except CtxErr ACtx) (pe pe' : ProcEnv)
    (he : ContextsBy E pe) (he' : ContextsBy { E with process := P } pe') (c₀ c c' : ACtx) (r u : Str) (d : SDef)
    (bs : List (Str × Option STerm)) (m m' : List (Str × Json)) (h₀ : c₀.previous = none) (hi : d.import_ = none)
    (hr : E.isRef r = true) (hu : resolveIri E.toIriEnv r E.base = some u) (hd : pe.load u = .ok (.one (.defn d)))
    (hd' : pe'.load u = .ok (.one (.defn { d with bindings := bs })))
    (h : E.process c₀ (.one (.ref r)) E.base E.opts.proc = .ok c) (h' : P c₀ (.one (.ref r)) E.base E.opts.proc = .ok c')
    (hp : c.previous = none) (K : Str → Prop) (hK : ∀ k u, K k → DependsOn pe c₀ d k u → K u)
    (hbs : ∀ k, K k → lookupKey k bs = lookupKey k d.bindings)
    (hm : ∀ k, Mentioned c (.obj (m ++ m')) k → K k) (hj : ∀ w, ¬ ContextIn w (.obj (m ++ m')))
    (hs : ∀ t d, Mentioned c (.obj (m ++ m')) t → c.getNormal t = some d → d.context = none) :
    expandDoc E c₀ (.obj (m ++ ("@context".toList, .str r) :: m')) =
      expandDoc { E with process := P } c₀ (.obj (m ++ ("@context".toList, .str r) :: m')) := by
  have hread : readCtx E.isRef (.str r) = .ok (.one (.ref r)) :=
    readCtx_toJson (.one (.ref r)) (by simp only [CtxOk, EntryOk]; exact hr)
  obtain ⟨hset, hdef⟩ := process_ref_on (E := pe) (E' := pe') (he'.env.trans he.env.symm) hi (he.env ▸ hu) hd hd' hK hbs
    (he.process _ _ _ _ _ h) (he'.process _ _ _ _ _ h')
  have hset := fun {α : Type} (f : ACtx → α) => congrArg f hset
  refine C98_context E P c₀ c c' (.str r) _ m m' h₀ hread h h' ⟨fun t ht => hdef t (hm t ht), ?_, hset (·.base), hset (·.vocab),
    hset (·.language), hset (·.direction)⟩ ⟨hp, (hset (·.previous)).symm.trans hp⟩ hj hs
  have := hset (·.typeDef)
  dsimp only at this
  rw [this]

/-! ## An example -/

/-- `{"ex": "http:ex/", "label": "ex:label", "other": "http:o1"}` -/
def exVersion : SDef :=
  { SDef.empty with bindings := [("ex".toList, some (.simple "http:ex/".toList)), ("label".toList, some (.simple "ex:label".toList)),
      ("other".toList, some (.simple "http:o1".toList))] }

/-- The next version: `{"more": "ex:more", "ex": "http:ex/", "label": "ex:label", "other": "http:o2"}` -/
def exVersionNext : List (Str × Option STerm) :=
  [("more".toList, some (.simple "ex:more".toList)), ("ex".toList, some (.simple "http:ex/".toList)),
    ("label".toList, some (.simple "ex:label".toList)), ("other".toList, some (.simple "http:o2".toList))]

/-- All URLs lead to this context. -/
def exVersionProc (d : SDef) : ProcEnv := { exIriEnv with load := fun _ => .ok (.one (.defn d)) }

def exVersionEnv (d : SDef) : XEnv :=
  { exIriEnv with process := fun c l b o => (recN (exVersionProc d) 9).process c l [] b o, base := none, opts := {} }

/-- `{"@id": "ex:a", "label": "x"}`, which the context is put in front of. -/
def exVersionDoc : List (Str × Json) := [("@id".toList, .str "ex:a".toList), ("label".toList, .str "x".toList)]

def exVersionCtx (d : SDef) : ACtx :=
  (((exVersionEnv d).process {} (.one (.ref "http:c".toList)) none (exVersionEnv d).opts.proc).toOption).getD {}

theorem exVersion_run (d : SDef) (h : ((exVersionEnv d).process {} (.one (.ref "http:c".toList)) none
    (exVersionEnv d).opts.proc).toOption.isSome = true) :
    (exVersionEnv d).process {} (.one (.ref "http:c".toList)) none (exVersionEnv d).opts.proc = .ok (exVersionCtx d) := by
  unfold exVersionCtx
  revert h
  cases (exVersionEnv d).process {} (.one (.ref "http:c".toList)) none (exVersionEnv d).opts.proc with
  | error => exact nofun
  | ok c => exact fun _ => rfl

/-- What is mentioned. -/
def exVersionNames : List Str :=
  ["@id".toList, "ex:a".toList, "ex".toList, "label".toList, "x".toList, "@graph".toList, "@included".toList]

theorem exVersion_names {t : Str} (h : Mentioned (exVersionCtx exVersion) (.obj ([] ++ exVersionDoc)) t) : t ∈ exVersionNames := by
  induction h with
  | said h =>
    rcases h with _ | h | ⟨h, h'⟩ | _
    · simp only [exVersionDoc, List.nil_append, List.mem_cons, Prod.mk.injEq, List.not_mem_nil, or_false] at h
      rcases h with ⟨rfl, -⟩ | ⟨rfl, -⟩ <;> decide
    · simp only [exVersionDoc, List.nil_append, List.mem_cons, Prod.mk.injEq, List.not_mem_nil, or_false] at h
      rcases h with ⟨-, rfl⟩ | ⟨-, rfl⟩ <;> cases h' <;> decide
  | @before s p x _ hs ih =>
    have : ∀ s ∈ exVersionNames, ∀ q ∈ splitOnce ':' s, q.1 ∈ exVersionNames := by decide +kernel
    exact this s ih _ hs
  | @index t i d _ hg hd ih =>
    have : ∀ s ∈ exVersionNames, ((exVersionCtx exVersion).getNormal s).bind (·.index) = none := by decide +kernel
    have := this t ih
    rw [hg] at this
    exact nomatch hd.symm.trans this
  | graph => decide
  | included => decide

/-- The terms that are the same in both versions. -/
def exVersionSame (k : Str) : Prop := k ≠ "other".toList ∧ k ≠ "more".toList

theorem exVersion_closed (k u : Str) (hk : exVersionSame k) (h : DependsOn (exVersionProc exVersion) {} exVersion k u) :
    exVersionSame u := by
  have hb : ∀ b, lookupKey k exVersion.bindings = some b → b = some (.simple "http:ex/".toList) ∨ b = some (.simple "ex:label".toList) := by
    intro b hb
    have hb := lookupKey_mem hb
    simp only [exVersion, List.mem_cons, Prod.mk.injEq, List.not_mem_nil, or_false] at hb
    rcases hb with ⟨-, rfl⟩ | ⟨-, rfl⟩ | ⟨rfl, -⟩
    · exact .inl rfl
    · exact .inr rfl
    · exact absurd rfl hk.1
  have hm : ∀ b x, lookupKey k exVersion.bindings = some b → Mentions k b x → x = "http:ex/".toList ∨ x = "ex:label".toList := by
    rintro b x h ⟨-, ⟨rfl, -⟩ | ⟨y, rfl, -⟩⟩
    · rcases hb _ h with h | h <;> cases h
      · exact .inl rfl
      · exact .inr rfl
    · rcases hb _ h with h | h <;> cases h
  have hp : ∀ x y : Str, HasPrefix (exVersionProc exVersion) x y → (splitOnce ':' x).map Prod.fst = some y := by
    rintro x y ⟨z, h1, h2, -⟩
    rw [splitOnce_eq_some.2 ⟨h1, h2⟩]
    rfl
  have fin : ∀ x ∈ ["http:ex/".toList, "ex:label".toList, "http".toList, "ex".toList], exVersionSame x := by
    simp only [List.mem_cons, List.not_mem_nil, or_false, exVersionSame]
    rintro x (rfl | rfl | rfl | rfl) <;> decide
  have pre : ∀ x ∈ ["http:ex/".toList, "ex:label".toList, "ex".toList, "label".toList], ∀ y, HasPrefix (exVersionProc exVersion) x y →
      y ∈ ["http".toList, "ex".toList] := by
    intro x hx y hy
    have : ∀ x ∈ ["http:ex/".toList, "ex:label".toList, "ex".toList, "label".toList],
        ∀ y ∈ (splitOnce ':' x).map Prod.fst, y ∈ ["http".toList, "ex".toList] := by decide +kernel
    exact this x hx y (hp x y hy)
  have up : ∀ y ∈ ["http".toList, "ex".toList], exVersionSame y := fun y hy => fin y (by
    simp only [List.mem_cons, List.not_mem_nil, or_false] at hy ⊢
    rcases hy with rfl | rfl
    · exact .inr (.inr (.inl rfl))
    · exact .inr (.inr (.inr rfl)))
  rcases h with ⟨b, h1, h2⟩ | ⟨b, s, h1, h2, -, -, -, h3, -⟩ | ⟨b, h1, -, h3⟩
  · rcases hm b u h1 h2 with rfl | rfl
    · exact fin _ (.head _)
    · exact fin _ (.tail _ (.head _))
  · rcases hm b s h1 h2 with rfl | rfl
    · exact up _ (pre _ (.head _) u h3)
    · exact up _ (pre _ (.tail _ (.head _)) u h3)
  · have hk' := lookupKey_mem h1
    simp only [exVersion, List.mem_cons, Prod.mk.injEq, List.not_mem_nil, or_false] at hk'
    rcases hk' with ⟨rfl, -⟩ | ⟨rfl, -⟩ | ⟨rfl, -⟩
    · exact up _ (pre _ (.tail _ (.tail _ (.head _))) u h3)
    · exact up _ (pre _ (.tail _ (.tail _ (.tail _ (.head _)))) u h3)
    · exact absurd rfl hk.1

theorem exVersion_same (k : Str) (hk : exVersionSame k) : lookupKey k exVersionNext = lookupKey k exVersion.bindings := by
  unfold exVersionNext exVersion
  simp only [lookupKey]
  rw [if_neg (Ne.symm hk.2), if_neg (Ne.symm hk.1), if_neg (Ne.symm hk.1)]

theorem exVersion_plain : ∀ v, ¬ ContextIn v (.obj ([] ++ exVersionDoc)) := by
  intro v h
  rcases h with h | ⟨h, h'⟩
  · simp only [exVersionDoc, List.nil_append, List.mem_cons, Prod.mk.injEq, List.not_mem_nil, or_false] at h
    rcases h with ⟨h, -⟩ | ⟨h, -⟩ <;> revert h <;> decide
  · simp only [exVersionDoc, List.nil_append, List.mem_cons, Prod.mk.injEq, List.not_mem_nil, or_false] at h
    rcases h with ⟨-, rfl⟩ | ⟨-, rfl⟩ <;> cases h'

theorem exVersion_unscoped : ∀ t d, Mentioned (exVersionCtx exVersion) (.obj ([] ++ exVersionDoc)) t →
    (exVersionCtx exVersion).getNormal t = some d → d.context = none := by
  intro t d ht hg
  have : ∀ s ∈ exVersionNames, (((exVersionCtx exVersion).getNormal s).bind (·.context)).isNone = true := by decide +kernel
  have := this t (exVersion_names ht)
  rw [hg] at this
  simpa using this

/-- With both versions, the document is expanded to the same result. -/
example : expandDoc (exVersionEnv exVersion) {} (.obj (("@context".toList, .str "http:c".toList) :: exVersionDoc)) =
    expandDoc (exVersionEnv { exVersion with bindings := exVersionNext }) {}
      (.obj (("@context".toList, .str "http:c".toList) :: exVersionDoc)) :=
  C99_version (exVersionEnv exVersion) (exVersionEnv { exVersion with bindings := exVersionNext }).process
    (exVersionProc exVersion) (exVersionProc { exVersion with bindings := exVersionNext })
    ⟨rfl, fun _ _ _ _ _ h => ⟨nofun, 9, h⟩⟩ ⟨rfl, fun _ _ _ _ _ h => ⟨nofun, 9, h⟩⟩ {} _ _ "http:c".toList "http:c".toList exVersion
    exVersionNext [] exVersionDoc rfl rfl rfl (by decide +kernel) rfl rfl (exVersion_run _ (by decide +kernel))
    (exVersion_run _ (by decide +kernel)) (by
      have : (exVersionCtx exVersion).previous.isNone = true := by decide +kernel
      simpa using this) exVersionSame exVersion_closed exVersion_same
    (fun k hk => by
      have hk := exVersion_names hk
      simp only [exVersionNames, List.mem_cons, List.not_mem_nil, or_false] at hk
      unfold exVersionSame
      rcases hk with rfl | rfl | rfl | rfl | rfl | rfl | rfl <;> decide) exVersion_plain exVersion_unscoped

/-- … namely this one. -/
example : (expandDoc (exVersionEnv { exVersion with bindings := exVersionNext }) {}
      (.obj (("@context".toList, .str "http:c".toList) :: exVersionDoc))).toOption =
    some [.node (.mk none (some (.iri "http:ex/a".toList)) none none none
      [(.iri "http:ex/label".toList, [.value none (.literal (.str "x".toList) none)])] none)] := by
  decide +kernel

/-- If a prefix is changed, the terms that depend on it are changed. -/
theorem C99_needed : (expandDoc (exVersionEnv { exVersion with bindings := [("ex".toList, some (.simple "http:new/".toList)),
      ("label".toList, some (.simple "ex:label".toList))] }) {}
      (.obj [("@context".toList, .str "http:c".toList), ("label".toList, .str "x".toList)])).toOption =
    some [.node (.mk none none none none none
      [(.iri "http:new/label".toList, [.value none (.literal (.str "x".toList) none)])] none)] := by
  decide +kernel

end JsonLd.Props
