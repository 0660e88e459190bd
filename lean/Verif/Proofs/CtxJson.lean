import Verif.Model.CtxJson
import Verif.Spec.CtxJson
import Verif.Proofs.DocJson
import Verif.Props.Syntax
/-!
# Reading what was written
-/

namespace JsonLd

open Spec

theorem kw_tryFrom_intoStr (k : Keyword) : Keyword.tryFrom k.intoStr = some k := by
  cases k <;> rfl

theorem kw_of_tryFrom {s : Str} {k : Keyword} (h : Keyword.tryFrom s = some k) : s = k.intoStr :=
  (Props.C01_exact s k).1 h

theorem dir_tryFrom_asStr (d : Direction) : Direction.tryFrom d.asStr = some d := by cases d <;> rfl

theorem kind_tryFrom_asStr (k : ContainerKind) : ContainerKind.tryFrom k.asStr = some k := by
  cases k <;> rfl

theorem readNullable_ok {α : Type} {f : Json → Except CtxReadErr α} {w : α → Json} {o : Option α}
    (h : ∀ a, o = some a → f (w a) = .ok a) (hn : ∀ a, w a ≠ .null) :
    readNullable f (nullableJson w o) = .ok o := by
  cases o with
  | none => rfl
  | some a =>
    have := h a rfl
    have hn := hn a
    unfold nullableJson readNullable
    split
    · contradiction
    · rw [this]; rfl

theorem readSId_ok {i : SId} (h : IdText i) : readSId (.str i.str) = .ok i := by
  cases i with
  | keyword k => simp [readSId, readText, SId.str, SId.ofStr, kw_tryFrom_intoStr, Except.map]
  | term s =>
    simp only [IdText, isKeyword, Option.isSome_eq_false_iff, Option.isNone_iff_eq_none] at h
    simp [readSId, readText, SId.str, SId.ofStr, h, Except.map]

theorem stk_tryFrom_none {s : Str} : STypeKeyword.tryFrom s = none ↔ s ∉ typeKeywords := by
  unfold STypeKeyword.tryFrom
  constructor
  · intro h hm
    simp only [typeKeywords, List.mem_cons, List.not_mem_nil, or_false] at hm
    rcases hm with rfl | rfl | rfl | rfl <;> exact absurd h (by decide)
  · intro h
    split
    all_goals first | rfl | (rename_i e; have := kw_of_tryFrom e; subst this; exact absurd h (by decide))

theorem readSType_ok {t : SType} (h : TypeText t) : readSType (.str t.str) = .ok t := by
  cases t with
  | keyword k => cases k <;> rfl
  | term s =>
    simp only [TypeText] at h
    simp [readSType, readText, SType.str, SType.ofStr, stk_tryFrom_none.2 h, Except.map]

theorem readNest_ok {n : SNest} (h : NestText n) : readNest (.str n.str) = .ok n := by
  cases n with
  | nest => rfl
  | term s =>
    simp only [NestText] at h
    have : s ≠ "@nest".toList := by rintro rfl; exact absurd h (by decide)
    simp only [readNest, readText, SNest.str, SNest.ofStr, h, if_neg this, Except.bind]
    rfl

theorem readKinds_ok (ks : List ContainerKind) :
    (ks.map fun k => Json.str k.asStr).mapM readKind = .ok ks := by
  induction ks with
  | nil => rfl
  | cons k ks ih =>
    rw [List.map_cons, List.mapM_cons, ih]
    simp only [readKind, kind_tryFrom_asStr]
    rfl

theorem readContainer_ok (c : SynContainer) : readContainer c.toJson = .ok c := by
  cases c with
  | one k => simp [SynContainer.toJson, readContainer, readKind, kind_tryFrom_asStr, Except.map]
  | many ks =>
    simp only [SynContainer.toJson, readContainer]
    rw [readKinds_ok]; rfl

theorem readDir_ok (d : Direction) : readDir (dirJson d) = .ok d := by
  simp [readDir, dirJson, dir_tryFrom_asStr]

theorem readTypeDef_ok (p : Option Bool) : readTypeDef (typeDefJson p) = .ok p := by
  cases p with
  | none => rfl
  | some b => cases b <;> rfl

section
variable {isRef : Str → Bool}

theorem readRef_ok {s : Str} (h : isRef s = true) : readRef isRef (.str s) = .ok s := by
  simp [readRef, readText, refOfStr, h, Except.bind]

/-- One optional entry of an expanded term definition. -/
theorem readExp_opt {α : Type} {key : Str} {k : Keyword} (hk : Keyword.tryFrom key = some k)
    (hc : k ≠ .context) {w : α → Json} {o : Option α} {x x' : SExp} {rest : List (Str × Json)}
    (hnone : o = none → x' = x) (hsome : ∀ a, o = some a → readExpKey (w a) x k = .ok x') :
    readExp isRef x (entryJson key w o ++ rest) = readExp isRef x' rest := by
  cases o with
  | none => rw [hnone rfl]; rfl
  | some a =>
    have := hsome a rfl
    simp only [entryJson, List.cons_append, List.nil_append]
    rw [readExp, hk]
    cases k <;> first | (simp only [this]; rfl) | contradiction

/-- One optional entry of a context definition. -/
theorem readDef_opt {α : Type} {key : Str} {k : Keyword} (hk : Keyword.tryFrom key = some k)
    {w : α → Json} {o : Option α} {x x' : SDef} {rest : List (Str × Json)}
    (hnone : o = none → x' = x) (hsome : ∀ a, o = some a → readDefKey isRef (w a) x k = some (.ok x')) :
    readDef isRef x (entryJson key w o ++ rest) = readDef isRef x' rest := by
  cases o with
  | none => rw [hnone rfl]; rfl
  | some a =>
    have := hsome a rfl
    simp only [entryJson, List.cons_append, List.nil_append]
    rw [readDef, hk]
    simp only [Option.bind_some, this]
    rfl

theorem entryJson_key {α : Type} {k x : Str} {w : α → Json} {o : Option α}
    (h : x ∈ (entryJson k w o).map Prod.fst) : x = k := by
  cases o <;> simp_all [entryJson]

theorem entryJson_sub {α : Type} {k : Str} {w : α → Json} {o : Option α} :
    ((entryJson k w o).map Prod.fst).Sublist [k] := by
  cases o <;> simp [entryJson]

theorem optCtxJson_sub {o : Option SCtx} :
    ((optCtxJson o).map Prod.fst).Sublist ["@context".toList] := by
  cases o <;> simp [optCtxJson]

theorem bindingsToJson_keys (bs : List (Str × Option STerm)) :
    (bindingsToJson bs).map Prod.fst = bs.map Prod.fst := by
  induction bs with
  | nil => rfl
  | cons b bs ih =>
    obtain ⟨k, o⟩ := b
    cases o <;> simp [bindingsToJson, ih]

theorem lookupKey_none_append {α : Type} {k : Str} {m : List (Str × α)} (h : k ∉ m.map Prod.fst) :
    lookupKey k m = none := by
  induction m with
  | nil => rfl
  | cons p m ih =>
    obtain ⟨k', v⟩ := p
    simp only [List.map_cons, List.mem_cons, not_or] at h
    rw [lookupKey, if_neg (fun e => h.1 e.symm), ih h.2]

theorem readDefKey_none {k : Str} (h : k ∉ contextKeys) (v : Json) (d : SDef) :
    (Keyword.tryFrom k).bind (readDefKey isRef v d) = none := by
  cases hk : Keyword.tryFrom k with
  | none => rfl
  | some w =>
    have := kw_of_tryFrom hk
    subst this
    cases w <;> first | rfl | exact absurd h (by decide)

/-- The term definitions are read back. -/
theorem readDef_bindings (bs : List (Str × Option STerm)) :
    ∀ d : SDef, ((d.bindings ++ bs).map Prod.fst).Nodup → (∀ k ∈ bs.map Prod.fst, k ∉ contextKeys) →
    (∀ b ∈ bs, ∀ t, b.2 = some t → readTerm isRef t.toJson = .ok (some t)) →
    readDef isRef d (bindingsToJson bs) = .ok { d with bindings := d.bindings ++ bs } := by
  induction bs with
  | nil => intro d _ _ _; cases d; simp [bindingsToJson, readDef]
  | cons b bs ih =>
    intro d hn hc hr
    obtain ⟨k, o⟩ := b
    have hkc : k ∉ contextKeys := hc k (by simp)
    have hkd : k ∉ d.bindings.map Prod.fst := by
      intro hm
      simp only [List.map_append, List.map_cons] at hn
      exact (List.nodup_append.1 hn).2.2 k hm k (by simp) rfl
    have step : ∀ v, readTerm isRef v = .ok o → bindingsToJson ((k, o) :: bs) = (k, v) :: bindingsToJson bs →
        readDef isRef d (bindingsToJson ((k, o) :: bs)) =
          .ok { d with bindings := d.bindings ++ (k, o) :: bs } := by
      intro v hv he
      rw [he, readDef, readDefKey_none hkc]
      simp only [hv, Except.bind]
      rw [if_neg (by rw [lookupKey_none_append hkd]; simp)]
      rw [ih]
      · simp
      · simpa using hn
      · intro k' hk'; exact hc k' (by simp at hk' ⊢; exact .inr hk')
      · intro b hb; exact hr b (by simp [hb])
    cases o with
    | none => exact step .null rfl rfl
    | some t => exact step t.toJson (hr (k, some t) (by simp) t rfl) rfl

theorem readExp_toJson {id type context reverse index language direction container nest pfx propagate prot}
    (h : ExpOk isRef ⟨id, type, context, reverse, index, language, direction, container, nest, pfx,
      propagate, prot⟩)
    (hctx : ∀ c, context = some c → readCtx isRef c.toJson = .ok c) :
    readTerm isRef (SExp.toJson ⟨id, type, context, reverse, index, language, direction, container, nest,
      pfx, propagate, prot⟩) = .ok (some (.expanded ⟨id, type, context, reverse, index, language,
        direction, container, nest, pfx, propagate, prot⟩)) := by
  simp only [ExpOk] at h
  obtain ⟨h1, h2, h3, -⟩ := h
  rw [SExp.toJson, jObject_nodup]
  · simp only [readTerm]
    simp only [List.append_assoc]
    rw [show SExp.empty = ⟨none, none, none, none, none, none, none, none, none, none, none, none⟩ from rfl]
    rw [readExp_opt (k := .id) rfl (by decide)
      (x' := ⟨id, none, none, none, none, none, none, none, none, none, none, none⟩)
      (by rintro rfl; rfl)
      (by
        rintro a rfl
        simp only [readExpKey]
        rw [readNullable_ok (fun i hi => readSId_ok (h1 i (by rw [hi]))) (by intro a h; cases h)]
        rfl)]
    rw [readExp_opt (k := .type) rfl (by decide)
      (x' := ⟨id, type, none, none, none, none, none, none, none, none, none, none⟩)
      (by rintro rfl; rfl)
      (by
        rintro a rfl
        simp only [readExpKey]
        rw [readNullable_ok (fun i hi => readSType_ok (h2 i (by rw [hi]))) (by intro a h; cases h)]
        rfl)]
    have hc : ∀ rest, readExp isRef
        ⟨id, type, none, none, none, none, none, none, none, none, none, none⟩
        (optCtxJson context ++ rest) = readExp isRef
        ⟨id, type, context, none, none, none, none, none, none, none, none, none⟩ rest := by
      intro rest
      cases context with
      | none => rfl
      | some c =>
        simp only [optCtxJson, List.cons_append, List.nil_append]
        rw [readExp, show Keyword.tryFrom "@context".toList = some .context from rfl]
        simp only [hctx c rfl]
        rfl
    rw [hc]
    rw [readExp_opt (k := .reverse) rfl (by decide)
      (x' := ⟨id, type, context, reverse, none, none, none, none, none, none, none, none⟩)
      (by rintro rfl; rfl) (by rintro a rfl; rfl)]
    rw [readExp_opt (k := .index) rfl (by decide)
      (x' := ⟨id, type, context, reverse, index, none, none, none, none, none, none, none⟩)
      (by rintro rfl; rfl) (by rintro a rfl; rfl)]
    rw [readExp_opt (k := .language) rfl (by decide)
      (x' := ⟨id, type, context, reverse, index, language, none, none, none, none, none, none⟩)
      (by rintro rfl; rfl)
      (by
        rintro a rfl
        simp only [readExpKey]
        rw [readNullable_ok (f := readText) (w := Json.str) (fun i _ => rfl) (by intro a h; cases h)]
        rfl)]
    rw [readExp_opt (k := .direction) rfl (by decide)
      (x' := ⟨id, type, context, reverse, index, language, direction, none, none, none, none, none⟩)
      (by rintro rfl; rfl)
      (by
        rintro a rfl
        simp only [readExpKey]
        rw [readNullable_ok (fun i _ => readDir_ok i) (by intro a h; cases h)]
        rfl)]
    rw [readExp_opt (k := .container) rfl (by decide)
      (x' := ⟨id, type, context, reverse, index, language, direction, container, none, none, none, none⟩)
      (by rintro rfl; rfl)
      (by
        rintro a rfl
        simp only [readExpKey]
        rw [readNullable_ok (fun i _ => readContainer_ok i) (by intro a h; cases a <;> cases h)]
        rfl)]
    rw [readExp_opt (k := .nest) rfl (by decide)
      (x' := ⟨id, type, context, reverse, index, language, direction, container, nest, none, none, none⟩)
      (by rintro rfl; rfl)
      (by
        rintro a rfl
        simp only [readExpKey]
        rw [readNest_ok (h3 a rfl)]
        rfl)]
    rw [readExp_opt (k := .prefix_) rfl (by decide)
      (x' := ⟨id, type, context, reverse, index, language, direction, container, nest, pfx, none, none⟩)
      (by rintro rfl; rfl) (by rintro a rfl; rfl)]
    rw [readExp_opt (k := .propagate) rfl (by decide)
      (x' := ⟨id, type, context, reverse, index, language, direction, container, nest, pfx, propagate,
        none⟩)
      (by rintro rfl; rfl) (by rintro a rfl; rfl)]
    rw [← List.append_nil (entryJson "@protected".toList _ _)]
    rw [readExp_opt (k := .protected_) rfl (by decide)
      (x' := ⟨id, type, context, reverse, index, language, direction, container, nest, pfx, propagate,
        prot⟩)
      (by rintro rfl; rfl) (by rintro a rfl; rfl)]
    rfl
  · simp only [List.map_append]
    refine List.Sublist.nodup (l₂ := ["@id".toList] ++ ["@type".toList] ++ ["@context".toList] ++
      ["@reverse".toList] ++ ["@index".toList] ++ ["@language".toList] ++ ["@direction".toList] ++
      ["@container".toList] ++ ["@nest".toList] ++ ["@prefix".toList] ++ ["@propagate".toList] ++
      ["@protected".toList]) ?_ (by decide)
    repeat' apply List.Sublist.append
    all_goals first | exact entryJson_sub | exact optCtxJson_sub

theorem readDef_toJson {base import_ language direction propagate prot type version vocab bindings}
    (h : DefOk isRef ⟨base, import_, language, direction, propagate, prot, type, version, vocab,
      bindings⟩)
    (hb : ∀ b ∈ bindings, ∀ t, b.2 = some t → readTerm isRef t.toJson = .ok (some t)) :
    readEntry isRef (SDef.toJson ⟨base, import_, language, direction, propagate, prot, type, version,
      vocab, bindings⟩) = .ok (.defn ⟨base, import_, language, direction, propagate, prot, type, version,
        vocab, bindings⟩) := by
  simp only [DefOk] at h
  obtain ⟨h1, h2, h3, h4, -⟩ := h
  rw [SDef.toJson, jObject_nodup]
  · simp only [readEntry]
    simp only [List.append_assoc]
    rw [show SDef.empty = ⟨none, none, none, none, none, none, none, false, none, []⟩ from rfl]
    rw [readDef_opt (k := .base) rfl
      (x' := ⟨base, none, none, none, none, none, none, false, none, []⟩)
      (by rintro rfl; rfl)
      (by
        rintro a rfl
        simp only [readDefKey]
        rw [readNullable_ok (fun i hi => readRef_ok (h1 i (by rw [hi]))) (by intro a h; cases h)]
        rfl)]
    rw [readDef_opt (k := .import_) rfl
      (x' := ⟨base, import_, none, none, none, none, none, false, none, []⟩)
      (by rintro rfl; rfl)
      (by
        rintro a rfl
        simp only [readDefKey]
        rw [readRef_ok (h2 a rfl)]
        rfl)]
    rw [readDef_opt (k := .language) rfl
      (x' := ⟨base, import_, language, none, none, none, none, false, none, []⟩)
      (by rintro rfl; rfl)
      (by
        rintro a rfl
        simp only [readDefKey]
        rw [readNullable_ok (f := readText) (w := Json.str) (fun i _ => rfl) (by intro a h; cases h)]
        rfl)]
    rw [readDef_opt (k := .direction) rfl
      (x' := ⟨base, import_, language, direction, none, none, none, false, none, []⟩)
      (by rintro rfl; rfl)
      (by
        rintro a rfl
        simp only [readDefKey]
        rw [readNullable_ok (fun i _ => readDir_ok i) (by intro a h; cases h)]
        rfl)]
    rw [readDef_opt (k := .propagate) rfl
      (x' := ⟨base, import_, language, direction, propagate, none, none, false, none, []⟩)
      (by rintro rfl; rfl) (by rintro a rfl; rfl)]
    rw [readDef_opt (k := .protected_) rfl
      (x' := ⟨base, import_, language, direction, propagate, prot, none, false, none, []⟩)
      (by rintro rfl; rfl) (by rintro a rfl; rfl)]
    rw [readDef_opt (k := .type) rfl
      (x' := ⟨base, import_, language, direction, propagate, prot, type, false, none, []⟩)
      (by rintro rfl; rfl)
      (by
        rintro a rfl
        simp only [readDefKey]
        rw [readTypeDef_ok]
        rfl)]
    have hv : ∀ rest, readDef isRef
        ⟨base, import_, language, direction, propagate, prot, type, false, none, []⟩
        ((if version = true then [("@version".toList, Json.num "1.1".toList)] else []) ++ rest) =
        readDef isRef
        ⟨base, import_, language, direction, propagate, prot, type, version, none, []⟩ rest := by
      intro rest
      cases version with
      | false => rfl
      | true =>
        rw [if_pos rfl]
        simp only [List.cons_append, List.nil_append]
        rw [readDef]
        rfl
    rw [hv]
    rw [readDef_opt (k := .vocab) rfl
      (x' := ⟨base, import_, language, direction, propagate, prot, type, version, vocab, []⟩)
      (by rintro rfl; rfl)
      (by
        rintro a rfl
        simp only [readDefKey]
        rw [readNullable_ok (f := readText) (w := Json.str) (fun i _ => rfl) (by intro a h; cases h)]
        rfl)]
    rw [readDef_bindings bindings _ (by simpa using h3) h4 hb]
    rfl
  · simp only [List.map_append, bindingsToJson_keys]
    have hsub : ∀ v : Bool, (List.map Prod.fst (if v = true then [("@version".toList, Json.num "1.1".toList)]
        else [])).Sublist ["@version".toList] := by
      intro v; cases v <;> simp
    refine List.nodup_append.2 ⟨?_, h3, ?_⟩
    · refine List.Sublist.nodup (l₂ := ["@base".toList] ++ ["@import".toList] ++ ["@language".toList] ++
        ["@direction".toList] ++ ["@propagate".toList] ++ ["@protected".toList] ++ ["@type".toList] ++
        ["@version".toList] ++ ["@vocab".toList]) ?_ (by decide)
      repeat' apply List.Sublist.append
      all_goals first | exact entryJson_sub | exact hsub version
    · rintro a ha b hb' rfl
      refine h4 a hb' ?_
      have : a ∈ ["@base".toList] ++ ["@import".toList] ++ ["@language".toList] ++
        ["@direction".toList] ++ ["@propagate".toList] ++ ["@protected".toList] ++ ["@type".toList] ++
        ["@version".toList] ++ ["@vocab".toList] := by
        refine List.Sublist.subset ?_ ha
        repeat' apply List.Sublist.append
        all_goals first | exact entryJson_sub | exact hsub version
      exact this

theorem readEntry_notArr {e : SEntry} {v : SEntry} (h : readEntry isRef e.toJson = .ok v) :
    readCtx isRef e.toJson = .ok (.one v) := by
  cases e with
  | null => cases h; rfl
  | ref s =>
    simp only [SEntry.toJson, readEntry, readCtx] at *
    cases hs : refOfStr isRef s <;> simp_all [Except.map]
  | defn d =>
    obtain ⟨⟩ := d
    simp only [SEntry.toJson, SDef.toJson, readEntry, readCtx] at *
    generalize readDef isRef _ _ = r at *
    cases r <;> simp_all [Except.map]

mutual
theorem readCtx_toJson : ∀ c : SCtx, CtxOk isRef c → readCtx isRef c.toJson = .ok c
  | .one e, h => by
    simp only [CtxOk] at h
    rw [SCtx.toJson]
    exact readEntry_notArr (readEntry_toJson e h)
  | .many es, h => by
    simp only [CtxOk] at h
    simp only [SCtx.toJson, readCtx]
    rw [readEntries_toJson es h]
    rfl
theorem readEntry_toJson : ∀ e : SEntry, EntryOk isRef e → readEntry isRef e.toJson = .ok e
  | .null, _ => rfl
  | .ref s, h => by
    simp only [EntryOk] at h
    simp [SEntry.toJson, readEntry, refOfStr, h, Except.map]
  | .defn ⟨b, i, l, d, pg, pt, t, v, vo, bs⟩, h => by
    simp only [EntryOk] at h
    have hb : BindingsOk isRef bs := by simp only [DefOk] at h; exact h.2.2.2.2
    rw [SEntry.toJson]
    exact readDef_toJson h (readBindings_toJson bs hb)
theorem readEntries_toJson : ∀ es : List SEntry, EntriesOk isRef es →
    readEntries isRef (sentriesToJson es) = .ok es
  | [], _ => rfl
  | e :: es, h => by
    simp only [EntriesOk] at h
    simp only [sentriesToJson, readEntries]
    rw [readEntry_toJson e h.1, readEntries_toJson es h.2]
    rfl
theorem readBindings_toJson : ∀ bs : List (Str × Option STerm), BindingsOk isRef bs →
    ∀ b ∈ bs, ∀ t, b.2 = some t → readTerm isRef t.toJson = .ok (some t)
  | [], _ => by simp
  | (k, none) :: bs, h => by
    simp only [BindingsOk] at h
    intro b hb t ht
    rcases List.mem_cons.1 hb with rfl | hb
    · cases ht
    · exact readBindings_toJson bs h b hb t ht
  | (k, some t) :: bs, h => by
    simp only [BindingsOk] at h
    intro b hb t' ht
    rcases List.mem_cons.1 hb with rfl | hb
    · cases ht
      exact readTerm_toJson t h.1
    · exact readBindings_toJson bs h.2 b hb t' ht
theorem readTerm_toJson : ∀ t : STerm, TermOk isRef t → readTerm isRef t.toJson = .ok (some t)
  | .simple s, _ => rfl
  | .expanded ⟨i, t, c, r, ix, l, d, co, n, p, pg, pt⟩, h => by
    simp only [TermOk] at h
    have hc : ScopedOk isRef c := by simp only [ExpOk] at h; exact h.2.2.2
    rw [STerm.toJson]
    exact readExp_toJson h (readScoped_toJson c hc)
theorem readScoped_toJson : ∀ o : Option SCtx, ScopedOk isRef o →
    ∀ c, o = some c → readCtx isRef c.toJson = .ok c
  | none, _ => by intro c h; cases h
  | some c, h => by
    simp only [ScopedOk] at h
    intro c' hc
    cases hc
    exact readCtx_toJson c h
end

end
end JsonLd
