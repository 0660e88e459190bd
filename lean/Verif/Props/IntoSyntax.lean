import Verif.Proofs.IntoSyntaxAll
import Verif.Props.CtxKeys
/-!
# C61: contexts are written down and read again
-/

namespace JsonLd.Props
open JsonLd.Spec

private def VocabId (c : ACtx) : Prop := ∀ t, c.vocab = some t → ∃ i, t = .id i

private theorem process_vocabId (E : ProcEnv) (n : Nat) :
    ∀ (c c' : ACtx) (l : SCtx) (rc : List Str) (base : Option Str) (o : Opts),
    (recN E n).process c l rc base o = .ok c' → VocabId c → VocabId c' := by
  induction n with
  | zero => intro c c' l rc base o h; cases h
  | succ n ih =>
    intro c c' l rc base o h hc
    obtain ⟨o', h1, h2⟩ := processBody_ok h
    have hs : VocabId (startContext c o') := by unfold startContext; split <;> exact hc
    obtain ⟨_, hI⟩ := entries_inv (I := fun c1 _ => VocabId c1) l.entries _ _ rc hs
      (fun e he c1 c2 rc1 rc2 hI hr => by
        cases hr with
        | null => exact nofun
        | skip => exact hI
        | ref r u l' _ _ _ h8 h9 => exact ih _ _ _ _ _ _ h9 hI
        | defn d' _ h6 =>
          obtain ⟨i, a1, a2, a3, s1, s2, _, g2, g3, g4, g5, g6, rfl⟩ := processDef_ok h6
          have f1 : s1.ctx.vocab = a3.vocab := (defineTypeEntry_rel (framed_rel _)
            (fun s s' t prot h => define_framed E n s s' _ t _ base prot o' h) g5).vocab
          have f2 : s2.ctx.vocab = s1.ctx.vocab := (defineAll_rel (framed_rel _)
            (fun s s' t h => define_framed E n s s' _ t _ base _ o' h) _ _ _ g6).vocab
          obtain ⟨lg, dir, rfl⟩ := stepLang_defs g4
          obtain ⟨bse, rfl⟩ := stepBase_defs g2
          intro t ht
          rw [f2, f1] at ht
          change a2.vocab = some t at ht
          unfold stepVocab at g3
          split at g3
          · cases g3; exact hI t ht
          · cases g3; cases ht
          · split at g3
            · cases g3
            · cases g3; cases ht; exact ⟨_, rfl⟩
            · cases g3) h2
    exact hI

/-- C61: the conversion into syntax does not panic for a context obtained by processing (from the initial
context). -/
theorem C61_no_panic (E : ProcEnv) (b : Option Str) (c : ACtx) (l : SCtx) (base : Option Str) (o : Opts)
    (h : Processed E (ACtx.new b) l base o (.ok c)) : ∃ d, c.intoSyntax = some d := by
  have hw := C28_wellFormed E _ c l base o (C28_initial b) h
  have hn := C34_distinct E (ACtx.new b) c l base o List.nodup_nil h
  obtain ⟨_, n, h⟩ := h
  have hv := process_vocabId E n _ c l [] base o h nofun
  unfold ACtx.intoSyntax
  obtain ⟨v, hv⟩ : ∃ v, vocabIntoSyntax c.vocab = some v := by
    cases hc : c.vocab with
    | none => exact ⟨_, rfl⟩
    | some t => obtain ⟨i, rfl⟩ := hv t hc; exact ⟨_, rfl⟩
  obtain ⟨bs, hbs⟩ : ∃ bs, bindingsIntoSyntax c.defs = some bs := by
    have ht : ∀ p ∈ c.defs, p.2.reverse = true → ∃ i, p.2.value = some (.id i) :=
      fun p hp => (hw p.1 p.2 ((lookupKey_iff_mem hn).2 hp)).reverseValue
    revert ht
    generalize c.defs = ds
    intro ht
    induction ds with
    | nil => exact ⟨_, rfl⟩
    | cons p ds ih =>
      obtain ⟨k, d⟩ := p
      obtain ⟨bs, hbs⟩ := ih fun p h => ht p (by simp [h])
      obtain ⟨b, hb⟩ : ∃ b, d.intoSyntax = some b := by
        unfold TermDef.intoSyntax
        cases hr : d.reverse with
        | true =>
          obtain ⟨i, hi⟩ := ht (k, d) (by simp) hr
          rw [if_pos rfl, hi]
          exact ⟨_, rfl⟩
        | false => exact ⟨_, rfl⟩
      exact ⟨(k, b) :: bs, by unfold bindingsIntoSyntax; rw [hb, hbs]; rfl⟩
  rw [hv, hbs]
  exact ⟨_, rfl⟩

/-- C61: a context that can be written down is written down, and processing the result, in whatever order its
entries are, gives the same context again: the same settings, and the same definition for each term. The
exceptions (see `Writable`) are necessary: `C61_prefix`, `C61_null`, `C61_base`, `C61_language`. -/
theorem C61_back_partial (E : ProcEnv) (c : ACtx) (hc : Writable E.toIriEnv c) :
    ∃ d, c.intoSyntax = some d ∧
      ∀ (bs : List (Str × Option STerm)) (base : Option Str) (o : Opts), bs.Perm d.bindings →
        o.mode = .v11 → o.vocab = .keep → o.propagate = true →
        ∃ defs, defs.Perm c.defs ∧
          Processed E (ACtx.new c.originalBase) (.one (.defn { d with bindings := bs })) base o
            (.ok { c with defs := defs }) := by
  obtain ⟨d, hd⟩ := intoSyntax_total hc
  refine ⟨d, hd, fun bs base o hp ho hk hpr => ?_⟩
  obtain ⟨defs, h1, h2⟩ := process_back hc hd hp (base := base) ho hk hpr
  exact ⟨defs, h1, nofun, 3, h2⟩

/-- C61 is false for an IRI that could be a prefix: `{"t": {"@id": "http:a/"}}` does not make `t` a prefix, but is
written down as `{"t": "http:a/"}`, which does. -/
theorem C61_prefix : ∃ c c' d, Processed exProcEnv (ACtx.new none) (.one (.defn { SDef.empty with bindings :=
      [("t".toList, some (.expanded { SExp.empty with id := some (some (.term "http:a/".toList)) }))] })) none {} (.ok c) ∧
    c.intoSyntax = some d ∧
    d.bindings.map Prod.fst = ["t".toList] ∧
    Processed exProcEnv (ACtx.new none) (.one (.defn d)) none {} (.ok c') ∧
    expandIri exProcEnv.toIriEnv c (some (Expandable.ofStr "t:x".toList)) false (some .keep) =
      .ok (some (.id (.invalid "t:x".toList))) ∧
    expandIri exProcEnv.toIriEnv c' (some (Expandable.ofStr "t:x".toList)) false (some .keep) =
      .ok (some (.id (.iri "http:a/x".toList))) := by
  refine ⟨_, _, _, ⟨nofun, 9, rfl⟩, rfl, rfl, ⟨nofun, 9, rfl⟩, ?_⟩
  decide +kernel

/-- C61 is false for a term that stands for nothing: `{"@vocab": "http:v", "t": {"@id": null, "@protected": true}}`
is written down without the `@id`, and then `t` is found in the vocabulary. -/
theorem C61_null : ∃ c c' d, Processed exProcEnv (ACtx.new none) (.one (.defn { SDef.empty with
      vocab := some (some "http:v".toList), bindings :=
      [("t".toList, some (.expanded { SExp.empty with id := some none, protected_ := some true }))] })) none {} (.ok c) ∧
    c.intoSyntax = some d ∧ Processed exProcEnv (ACtx.new none) (.one (.defn d)) none {} (.ok c') ∧
    expandIri exProcEnv.toIriEnv c (some (Expandable.ofStr "t".toList)) false (some .keep) =
      .ok (some .null) ∧
    expandIri exProcEnv.toIriEnv c' (some (Expandable.ofStr "t".toList)) false (some .keep) =
      .ok (some (.id (.iri "http:vt".toList))) := by
  refine ⟨_, _, _, ⟨nofun, 9, rfl⟩, rfl, ⟨nofun, 9, rfl⟩, ?_⟩
  decide +kernel

/-- C61 is false for a base IRI that was removed: `{"@base": null}` is written down as `{}`. -/
theorem C61_base : ∃ c c' d, Processed exProcEnv (ACtx.new (some "http:b".toList)) (.one (.defn { SDef.empty with
      base := some none })) none {} (.ok c) ∧
    c.intoSyntax = some d ∧ Processed exProcEnv (ACtx.new c.originalBase) (.one (.defn d)) none {} (.ok c') ∧
    c.base = none ∧ c'.base = some "http:b".toList := by
  exact ⟨_, _, _, ⟨nofun, 9, rfl⟩, rfl, ⟨nofun, 9, rfl⟩, rfl, rfl⟩

/-- C61 is false for the language of a type map: `{"t": {"@id": "http:t", "@container": "@type",
"@language": "en"}}` has the type mapping `@id` by default; it is written down, and makes the language
disappear. -/
theorem C61_language : ∃ c c' d, Processed exProcEnv (ACtx.new none) (.one (.defn { SDef.empty with bindings :=
      [("t".toList, some (.expanded { SExp.empty with
        id := some (some (.term "http:t".toList)), container := some (some (.one .type)),
        language := some (some "en".toList) }))] })) none {} (.ok c) ∧
    c.intoSyntax = some d ∧ Processed exProcEnv (ACtx.new none) (.one (.defn d)) none {} (.ok c') ∧
    (c.getNormal "t".toList).map (·.language) = some (some (some "en".toList)) ∧
    (c'.getNormal "t".toList).map (·.language) = some none := by
  refine ⟨_, _, _, ⟨nofun, 9, rfl⟩, rfl, ⟨nofun, 9, rfl⟩, ?_⟩
  decide +kernel

/-- A context with all kinds of terms. -/
def exWritable : ACtx :=
  { originalBase := some "http:o".toList, base := some "http:b".toList, vocab := some (.id (.iri "http:v".toList)),
    language := some "en".toList, direction := some .ltr, typeDef := some true
    defs := [("p".toList, { value := some (.id (.iri "http:p/".toList)), prefix_ := true }),
      ("n".toList, { value := some (.id (.iri "http:n".toList)), typ := some (.iri "http:T".toList), protected_ := true }),
      ("t".toList, { value := some (.keyword .type) }),
      ("r".toList, { value := some (.id (.iri "http:r".toList)), reverse := true, container := .set }),
      ("x".toList, {}),
      ("y".toList, { value := some (.id (.blank "_:y".toList)), container := .type, typ := some .id }),
      ("i".toList, { value := some (.id (.iri "http:i".toList)), container := .index, index := some "j".toList,
                     language := some none, nest := some (.term "x".toList) })] }

private theorem exUnbound {s p x : Str} (h1 : compactIri exProcEnv.toIriEnv s = some (p, x))
    (h2 : (lookupKey s exWritable.defs).isNone = true) (h3 : (lookupKey p exWritable.defs).isNone = true)
    (h4 : isKeywordLike s = false) : Unbound exProcEnv.toIriEnv exWritable s :=
  ⟨Option.isNone_iff_eq_none.1 h2, fun p' x' h => by rw [h1] at h; cases h; exact Option.isNone_iff_eq_none.1 h3, h4⟩

/-- It can be written down. -/
theorem exWritable_writable : Writable exProcEnv.toIriEnv exWritable where
  terms := by
    intro k d h
    simp only [exWritable, List.mem_cons, Prod.mk.injEq, List.not_mem_nil, or_false] at h
    rcases h with ⟨rfl, rfl⟩ | ⟨rfl, rfl⟩ | ⟨rfl, rfl⟩ | ⟨rfl, rfl⟩ | ⟨rfl, rfl⟩ | ⟨rfl, rfl⟩ | ⟨rfl, rfl⟩
    · exact ⟨by decide, .inr ⟨_, rfl, .iri _ ⟨exUnbound (p := "http".toList) rfl rfl rfl rfl, rfl, rfl, rfl, by decide⟩⟩, ⟨rfl, rfl⟩, nofun, nofun, nofun, nofun,
        fun _ => ⟨rfl, nofun⟩, nofun, nofun⟩
    · refine ⟨by decide, .inr ⟨_, rfl, .iri _ ⟨exUnbound (p := "http".toList) rfl rfl rfl rfl, rfl, rfl, rfl, by decide⟩⟩, ⟨rfl, rfl⟩, ?_, nofun, fun _ => ⟨rfl, rfl⟩, nofun,
        nofun, fun _ t _ _ ho => ?_, nofun⟩
      · intro s hs
        cases hs
        exact ⟨exUnbound (p := "http".toList) rfl rfl rfl rfl, rfl, rfl, rfl, by decide⟩
      · exact absurd ho.2.1 nofun
    · refine ⟨by decide, .inr ⟨_, rfl, .keyword _ nofun⟩, ⟨rfl, rfl⟩, nofun, nofun, nofun, nofun, nofun, ?_, nofun⟩
      intro _ t ht hg
      cases ht
      cases hg
    · refine ⟨by decide, .inr ⟨_, rfl, .iri _ ⟨exUnbound (p := "http".toList) rfl rfl rfl rfl, rfl, rfl, rfl, by decide⟩⟩, ⟨rfl, rfl⟩, nofun, nofun, nofun, nofun, nofun,
        fun _ t _ _ ho => absurd ho.1 nofun, fun _ => ⟨⟨_, rfl⟩, rfl, rfl, rfl, rfl, .inr (.inl rfl)⟩⟩
    · exact ⟨by decide, .inl ⟨rfl, ⟨rfl, rfl, rfl, rfl, rfl, rfl, rfl, rfl, rfl⟩, rfl⟩, ⟨rfl, rfl⟩, nofun, nofun, nofun, nofun, nofun,
        nofun, nofun⟩
    · refine ⟨by decide, .inr ⟨_, rfl, .blank _ ⟨⟨rfl, fun p x h => ?_, rfl⟩, rfl, rfl⟩⟩, ⟨rfl, rfl⟩, nofun, fun _ => .inl rfl, fun _ => ⟨rfl, rfl⟩, nofun, nofun,
        fun _ t _ _ ho => absurd ho.2.1 nofun, nofun⟩
      have : compactIri exProcEnv.toIriEnv "_:y".toList = none := rfl
      rw [this] at h
      cases h
    · refine ⟨by decide, .inr ⟨_, rfl, .iri _ ⟨exUnbound (p := "http".toList) rfl rfl rfl rfl, rfl, rfl, rfl, by decide⟩⟩, ⟨rfl, rfl⟩, nofun, nofun, fun h => absurd rfl h, ?_,
        nofun, fun _ t _ _ ho => absurd ho.2.2.2.1 nofun, nofun⟩
      intro i hi
      cases hi
      refine ⟨rfl, .vocab _ _ rfl rfl rfl ⟨rfl, fun p x h => ?_, rfl⟩⟩
      have : compactIri exProcEnv.toIriEnv "j".toList = none := rfl
      rw [this] at h
      cases h
  keys := by decide
  vocab := .iri _ ⟨⟨rfl, fun _ _ _ => rfl, rfl⟩, rfl, rfl, rfl, by decide⟩
  base := .inl ⟨_, rfl, rfl⟩
  previous := rfl

/-- It is the result of processing, e.g. of what it is written down as. -/
example : ∃ d c, exWritable.intoSyntax = some d ∧ d.bindings.map (fun b => STerm.isSimple b.2) =
      [false, false, true, false, true, false, false] ∧
    Processed exProcEnv (ACtx.new (some "http:o".toList)) (.one (.defn d)) none {} (.ok c) ∧
    c.defs.map Prod.fst = ["i".toList, "y".toList, "x".toList, "r".toList, "t".toList, "n".toList, "p".toList] := by
  exact ⟨_, _, rfl, rfl, ⟨nofun, 9, rfl⟩, rfl⟩

end JsonLd.Props
