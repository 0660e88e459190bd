import Verif.Props.CompactIri
import Verif.Props.ValueBack
/-!
# C108: Names that look like keywords
-/

namespace JsonLd.Props
open JsonLd.Spec

/-- C108: a string that has the form of a keyword but is none means nothing, whatever terms, prefixes,
vocabulary mapping and base IRI the context has. -/
theorem C108_meaningless (env : IriEnv) (c : ACtx) (docRel : Bool) (voc : Option Action) (s : Str)
    (h : KeywordForm s) (hk : Keyword.tryFrom s = none) :
    expandIri env c (some (.ofStr s)) docRel voc = .ok (some .null) := by
  rw [C33_keywords env c docRel voc s h, hk]

/-- C108: a string of the form of a keyword never stands for an identifier. -/
theorem C108_no_identifier (env : IriEnv) (c : ACtx) (docRel : Bool) (voc : Option Action) (s : Str)
    (h : KeywordForm s) (j : Id) :
    expandIri env c (some (.ofStr s)) docRel voc ≠ .ok (some (.id j)) := by
  rw [C33_keywords env c docRel voc s h]
  cases Keyword.tryFrom s <;> simp

private theorem keywordForm_colon {s : Str} (h : KeywordForm s) : ':' ∉ s := by
  obtain ⟨n, rfl, _, hn⟩ := h
  intro hc
  rcases List.mem_cons.1 hc with hc | hc
  · exact absurd hc (by decide)
  · exact absurd (hn _ hc) (by unfold AsciiLetter; decide)

/-- The ways in which the identifier `j` is compacted to `s`, which looks like a keyword: `s` is a term
for it, it is the vocabulary mapping followed by `s`, or `s` is a keyword and the reference to it
relative to the base IRI. -/
private theorem looks_by {env : CompEnv} (f : IriFacts env.toIriEnv) (g : CompactFacts env) {c : ACtx}
    {j : Id} (hv : env.isIri j.str = true ∨ env.isBlank j.str = true) {n vocab : Bool} {s : Str}
    (hs : KeywordForm s) (h : CompactedBy env c (.id j) n vocab s) :
    (vocab = true ∧ ∃ d, lookupKey s c.defs = some d ∧ d.value = some (.id j)) ∨
    (vocab = true ∧ ∃ v, c.vocab = some v ∧ j.str = v.str ++ s) ∨
    (vocab = false ∧ ∃ i b k, j = .iri i ∧ c.base = some b ∧ s = env.relativeTo i b ∧
      Keyword.tryFrom s = some k) := by
  have hc := keywordForm_colon hs
  cases h with
  | term d h1 h2 h3 => exact .inl ⟨h1, d, h2, h3⟩
  | vocab v h1 h2 h3 _ _ => exact .inr (.inl ⟨h1, v, h2, h3⟩)
  | prefixed hp =>
    obtain ⟨p, _, x, _, _, _, hx, _⟩ := hp
    exact absurd (by rw [hx]; simp) hc
  | relative i b h1 _ h3 h4 h5 _ =>
    refine .inr (.inr ⟨h1, i, b, ?_⟩)
    split at h5
    · obtain ⟨m, hm, _⟩ := hs
      rw [h5] at hm
      injection hm with hm
      exact absurd hm (by decide)
    · rename_i hn
      rw [← h5] at hn
      cases hk : Keyword.tryFrom s with
      | some k => exact ⟨k, by injection h3, h4, h5, rfl⟩
      | none => exact absurd ⟨(C01_form s).2 hs, by rw [hk]; rfl⟩ hn
  | itself _ h2 _ =>
    exfalso
    have h2 : s = j.str := h2
    rcases hv with hv | hv
    · obtain ⟨p, x, hx, _⟩ := f.scheme _ hv
      exact hc (by rw [h2, hx]; simp)
    · obtain ⟨x, hx⟩ := g.blank _ hv
      exact hc (by rw [h2, hx]; simp)

/-- C108: an identifier is compacted to a string that looks like a keyword only if the context has it as
a term for the identifier, if it follows the vocabulary mapping, or if it is a keyword and a reference
relative to the base IRI. -/
theorem C108_plain (env : CompEnv) (f : IriFacts env.toIriEnv) (g : CompactFacts env) (c : ACtx)
    (hn : (c.defs.map Prod.fst).Nodup) (j : Id)
    (hv : env.isIri j.str = true ∨ env.isBlank j.str = true) (vocab reverse : Bool) (o : CompOpts)
    (s : Str) (hs : KeywordForm s)
    (h : compactIriPlain env c (.id j) vocab reverse o = .ok (some s)) :
    (vocab = true ∧ ∃ d, lookupKey s c.defs = some d ∧ d.value = some (.id j)) ∨
    (vocab = true ∧ ∃ v, c.vocab = some v ∧ j.str = v.str ++ s) ∨
    (vocab = false ∧ ∃ i b k, j = .iri i ∧ c.base = some b ∧ s = env.relativeTo i b ∧
      Keyword.tryFrom s = some k) :=
  looks_by f g hv hs (compactIriPlain_by hn h)

/-- C108: the same considering a value of the property that is compacted. -/
theorem C108_value (env : CompEnv) (f : IriFacts env.toIriEnv) (g : CompactFacts env) (c : ACtx)
    (hn : (c.defs.map Prod.fst).Nodup) (j : Id)
    (hv : env.isIri j.str = true ∨ env.isBlank j.str = true) (value : Obj) (vocab reverse : Bool)
    (o : CompOpts) (s : Str) (hs : KeywordForm s)
    (h : compactIriWith env c (.id j) value vocab reverse o = .ok (some s)) :
    (vocab = true ∧ ∃ d, lookupKey s c.defs = some d ∧ d.value = some (.id j)) ∨
    (vocab = true ∧ ∃ v, c.vocab = some v ∧ j.str = v.str ++ s) ∨
    (vocab = false ∧ ∃ i b k, j = .iri i ∧ c.base = some b ∧ s = env.relativeTo i b ∧
      Keyword.tryFrom s = some k) :=
  looks_by f g hv hs (compactIriWith_by hn h)

/-- C108: properties and types never look like keywords, if no term does and no IRI is the vocabulary
mapping followed by such a string. -/
theorem C108_never (env : CompEnv) (f : IriFacts env.toIriEnv) (g : CompactFacts env) (c : ACtx)
    (hn : (c.defs.map Prod.fst).Nodup) (ht : ∀ k d, lookupKey k c.defs = some d → ¬ KeywordForm k)
    (j : Id) (hv : env.isIri j.str = true ∨ env.isBlank j.str = true)
    (hw : ∀ v x, c.vocab = some v → j.str = v.str ++ x → ¬ KeywordForm x) (reverse : Bool)
    (o : CompOpts) (s : Str) :
    (compactIriPlain env c (.id j) true reverse o = .ok (some s) → ¬ KeywordForm s) ∧
    ∀ value, compactIriWith env c (.id j) value true reverse o = .ok (some s) → ¬ KeywordForm s := by
  have hx : (true = true ∧ ∃ d, lookupKey s c.defs = some d ∧ d.value = some (.id j)) ∨
      (true = true ∧ ∃ v, c.vocab = some v ∧ j.str = v.str ++ s) ∨
      (true = false ∧ ∃ i b k, j = .iri i ∧ c.base = some b ∧ s = env.relativeTo i b ∧
        Keyword.tryFrom s = some k) → ¬ KeywordForm s := by
    rintro (⟨_, d, h1, _⟩ | ⟨_, v, h1, h2⟩ | ⟨h, _⟩)
    · exact ht s d h1
    · exact hw v s h1 h2
    · cases h
  exact ⟨fun h hs => hx (C108_plain env f g c hn j hv true reverse o s hs h) hs,
    fun value h hs => hx (C108_value env f g c hn j hv value true reverse o s hs h) hs⟩

/-! ## Where this goes wrong -/

/-- `{"@foo": "http:p"}` -/
def exFoo : SDef :=
  { SDef.empty with bindings := [("@foo".toList, some (.simple "http:p".toList))] }

/-- A node with a property. -/
def exFooDoc (p : String) : Doc :=
  [.node (.mk none (some (.iri "http:x".toList)) none none none
    [(.iri p.toList, [.value none (.literal (.str "v".toList) none)])] none)]

/-- C108: context processing does not ignore terms that look like keywords (the recommendation says it
should): the term is defined, and used by compaction, where it means nothing. -/
theorem C108_defined : ∃ c, Processed exProcEnv {} (.one (.defn exFoo)) none {} (.ok c) ∧
    compactIriPlain exCompEnv c (.id (.iri "http:p".toList)) true false {} = .ok (some "@foo".toList) ∧
    exBack c (exFooDoc "http:p") = some [] := by
  refine ⟨_, ⟨nofun, 9, rfl⟩, ?_⟩
  decide +kernel

/-- C108: what follows the vocabulary mapping is not tested (`disambiguate_keyword` is applied to relative
references only, iri.rs:400-412 and 490): the property `http:v@foo` is lost, and `http:v@type` becomes
a type. -/
theorem C108_vocab :
    exBack exCompCtx (exFooDoc "http:v@foo") = some [] ∧
    exBack exCompCtx (exFooDoc "http:v@type") =
      some [.node (.mk none (some (.iri "http:x".toList)) (some [.iri "http:vv".toList]) none none [] none)] := by
  decide +kernel

/-- The hypotheses of `C108_never` hold of properties of the example context. -/
example : (∀ k d, lookupKey k exCompCtx.defs = some d → ¬ KeywordForm k) ∧
    compactIriPlain exCompEnv exCompCtx (.id (.iri "http:vx".toList)) true false {} =
      .ok (some "x".toList) :=
  ⟨exComp_clean.terms, by decide +kernel⟩

end JsonLd.Props
