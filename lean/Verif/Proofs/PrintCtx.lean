import Verif.Model.PrintCtx
import Verif.Proofs.Print
import Verif.Proofs.CtxJson
/-!
# A context is printed like the JSON value written for it
-/

namespace JsonLd
open Spec

section
variable {P : Printer}

/-! ## Keys -/

theorem exp_keys_nodup {id : Option (Option SId)} {type : Option (Option SType)} {context : Option SCtx}
    {reverse index : Option Str} {language : Option (Option Str)} {direction : Option (Option Direction)}
    {container : Option (Option SynContainer)} {nest : Option SNest} {pfx propagate prot : Option Bool} :
    ((entryJson "@id".toList (nullableJson fun i : SId => .str i.str) id ++
      entryJson "@type".toList (nullableJson fun t : SType => .str t.str) type ++
      optCtxJson context ++
      entryJson "@reverse".toList .str reverse ++
      entryJson "@index".toList .str index ++
      entryJson "@language".toList (nullableJson .str) language ++
      entryJson "@direction".toList (nullableJson dirJson) direction ++
      entryJson "@container".toList (nullableJson SynContainer.toJson) container ++
      entryJson "@nest".toList (fun n : SNest => .str n.str) nest ++
      entryJson "@prefix".toList .bool pfx ++
      entryJson "@propagate".toList .bool propagate ++
      entryJson "@protected".toList .bool prot).map Prod.fst).Nodup := by
  simp only [List.map_append]
  refine List.Sublist.nodup (l₂ := ["@id".toList] ++ ["@type".toList] ++ ["@context".toList] ++
    ["@reverse".toList] ++ ["@index".toList] ++ ["@language".toList] ++ ["@direction".toList] ++
    ["@container".toList] ++ ["@nest".toList] ++ ["@prefix".toList] ++ ["@propagate".toList] ++
    ["@protected".toList]) ?_ (by decide)
  repeat' apply List.Sublist.append
  all_goals first | exact entryJson_sub | exact optCtxJson_sub

theorem def_keys_nodup {base : Option (Option Str)} {import_ : Option Str} {language : Option (Option Str)}
    {direction : Option (Option Direction)} {propagate prot : Option Bool} {type : Option (Option Bool)}
    {version : Bool} {vocab : Option (Option Str)} {bindings : List (Str × Option STerm)}
    (h3 : (bindings.map Prod.fst).Nodup) (h4 : ∀ k ∈ bindings.map Prod.fst, k ∉ contextKeys) :
    ((entryJson "@base".toList (nullableJson .str) base ++
      entryJson "@import".toList .str import_ ++
      entryJson "@language".toList (nullableJson .str) language ++
      entryJson "@direction".toList (nullableJson dirJson) direction ++
      entryJson "@propagate".toList .bool propagate ++
      entryJson "@protected".toList .bool prot ++
      entryJson "@type".toList typeDefJson type ++
      (if version then [("@version".toList, Json.num "1.1".toList)] else []) ++
      entryJson "@vocab".toList (nullableJson .str) vocab ++
      bindingsToJson bindings).map Prod.fst).Nodup := by
  simp only [List.map_append, bindingsToJson_keys]
  have hsub : ∀ v : Bool, (List.map Prod.fst (if v = true then [("@version".toList, Json.num "1.1".toList)]
      else [])).Sublist ["@version".toList] := by
    intro v; cases v <;> simp
  refine List.nodup_append.2 ⟨?_, h3, ?_⟩
  · refine List.Sublist.nodup (l₂ := ["@base".toList] ++ ["@import".toList] ++ ["@language".toList] ++
      ["@direction".toList] ++ ["@propagate".toList] ++ ["@protected".toList] ++ ["@type".toList] ++
      ["@version".toList] ++ ["@vocab".toList]) ?_ (by decide)
    repeat' apply List.Sublist.append
    all_goals first | exact entryJson_sub | exact hsub version
  · rintro a ha b hb' rfl
    refine h4 a hb' ?_
    have : a ∈ ["@base".toList] ++ ["@import".toList] ++ ["@language".toList] ++
      ["@direction".toList] ++ ["@propagate".toList] ++ ["@protected".toList] ++ ["@type".toList] ++
      ["@version".toList] ++ ["@vocab".toList] := by
      refine List.Sublist.subset ?_ ha
      repeat' apply List.Sublist.append
      all_goals first | exact entryJson_sub | exact hsub version
    exact this

theorem typeDef_keys_nodup (prot : Option Bool) :
    ((("@container".toList, Json.str "@set".toList) :: entryJson "@protected".toList .bool prot).map
      Prod.fst).Nodup := by
  cases prot <;> decide +revert

/-! ## Sizes -/

theorem optMember_pre {α : Type} {k : Str} {f : α → Pre} {w : α → Json} (h : ∀ a, f a = (w a).pre P)
    (o : Option α) : optMember k f o = (entryJson k w o).map fun e => (e.1, e.2.pre P) := by
  cases o with
  | none => rfl
  | some a => simp only [optMember, entryJson, List.map_cons, List.map_nil, h a]

theorem preStr_json (s : Str) : preStr P s = (Json.str s).pre P := by rw [Json.pre]

theorem preBool_json (b : Bool) : preBool b = (Json.bool b).pre P := by cases b <;> rfl

theorem preNullable_json {α : Type} {f : α → Str} {w : α → Json} (h : ∀ a, w a = .str (f a))
    (o : Option α) : preNullable P f o = (nullableJson w o).pre P := by
  cases o with
  | none => simp only [preNullable, nullableJson, Json.pre]
  | some a => simp only [preNullable, nullableJson, h a, Json.pre]

theorem preContainer_json (c : Option SynContainer) :
    preContainer P c = (nullableJson SynContainer.toJson c).pre P := by
  rcases c with _ | (k | ks)
  · simp only [preContainer, nullableJson, Json.pre]
  · simp only [preContainer, nullableJson, SynContainer.toJson, Json.pre]
  · simp only [preContainer, nullableJson, SynContainer.toJson, Json.pre, jsonsPre_eq, List.map_map]
    exact congrArg (preArr P) (List.map_congr_left fun k _ => preStr_json _)

theorem preTypeDef_json (p : Option Bool) : preTypeDef P p = (typeDefJson p).pre P := by
  rw [typeDefJson, jObject_nodup (typeDef_keys_nodup p), Json.pre, membersPre_eq, preTypeDef,
    List.map_cons, optMember_pre (w := .bool) preBool_json, preStr_json]

theorem preVersion_json (v : Bool) :
    (if v then [("@version".toList, ((.width 3, []) : Pre))] else []) =
      (if v then [("@version".toList, Json.num "1.1".toList)] else []).map fun e => (e.1, e.2.pre P) := by
  cases v with
  | false => rfl
  | true => simp only [if_true, List.map_cons, List.map_nil, Json.pre]; rfl

section
variable {isRef : Str → Bool}

mutual
theorem ctx_pre : ∀ c : SCtx, CtxOk isRef c → c.pre P = c.toJson.pre P
  | .one e, h => by
    simp only [CtxOk] at h
    rw [SCtx.pre, SCtx.toJson, entry_pre e h]
  | .many es, h => by
    simp only [CtxOk] at h
    rw [SCtx.pre, SCtx.toJson, Json.pre, entries_pre es h, jsonsPre_eq]
theorem entry_pre : ∀ e : SEntry, EntryOk isRef e → e.pre P = e.toJson.pre P
  | .null, _ => by rw [SEntry.pre, SEntry.toJson, Json.pre]
  | .ref s, _ => by rw [SEntry.pre, SEntry.toJson, Json.pre]
  | .defn ⟨b, i, l, d, pg, pt, t, v, vo, bs⟩, h => by
    simp only [EntryOk, DefOk] at h
    obtain ⟨-, -, h3, h4, h5⟩ := h
    rw [SEntry.pre, SEntry.toJson, SDef.pre, SDef.toJson, jObject_nodup (def_keys_nodup h3 h4), Json.pre,
      membersPre_eq, bindings_pre bs h5]
    simp only [List.map_append]
    rw [optMember_pre (f := preNullable P fun s => s) (w := nullableJson .str) (preNullable_json fun _ => rfl) b,
      optMember_pre (w := .str) preStr_json i,
      optMember_pre (f := preNullable P fun s => s) (w := nullableJson .str) (preNullable_json fun _ => rfl) l,
      optMember_pre (f := preNullable P Direction.asStr) (w := nullableJson dirJson) (preNullable_json fun _ => rfl) d,
      optMember_pre (w := .bool) preBool_json pg, optMember_pre (w := .bool) preBool_json pt,
      optMember_pre (w := typeDefJson) preTypeDef_json t, preVersion_json v,
      optMember_pre (f := preNullable P fun s => s) (w := nullableJson .str) (preNullable_json fun _ => rfl) vo]
theorem entries_pre : ∀ es : List SEntry, EntriesOk isRef es →
    sentriesPre P es = (sentriesToJson es).map (Json.pre P)
  | [], _ => rfl
  | e :: es, h => by
    simp only [EntriesOk] at h
    rw [sentriesPre, sentriesToJson, List.map_cons, entry_pre e h.1, entries_pre es h.2]
theorem bindings_pre : ∀ bs : List (Str × Option STerm), BindingsOk isRef bs →
    bindingsPre P bs = (bindingsToJson bs).map fun e => (e.1, e.2.pre P)
  | [], _ => rfl
  | (k, none) :: bs, h => by
    simp only [BindingsOk] at h
    rw [bindingsPre, bindingsToJson, List.map_cons, bindings_pre bs h, Json.pre]
  | (k, some t) :: bs, h => by
    simp only [BindingsOk] at h
    rw [bindingsPre, bindingsToJson, List.map_cons, term_pre t h.1, bindings_pre bs h.2]
theorem term_pre : ∀ t : STerm, TermOk isRef t → t.pre P = t.toJson.pre P
  | .simple s, _ => by rw [STerm.pre, STerm.toJson, Json.pre]
  | .expanded ⟨i, t, c, r, ix, l, d, co, n, p, pg, pt⟩, h => by
    simp only [TermOk] at h
    have hc : ScopedOk isRef c := by simp only [ExpOk] at h; exact h.2.2.2
    rw [STerm.pre, STerm.toJson, SExp.pre, SExp.toJson, jObject_nodup exp_keys_nodup, Json.pre,
      membersPre_eq, scoped_pre c hc]
    simp only [List.map_append]
    rw [optMember_pre (f := preNullable P SId.str) (w := nullableJson fun i => .str i.str) (preNullable_json fun _ => rfl) i,
      optMember_pre (f := preNullable P SType.str) (w := nullableJson fun t => .str t.str) (preNullable_json fun _ => rfl) t,
      optMember_pre (w := .str) preStr_json r, optMember_pre (w := .str) preStr_json ix,
      optMember_pre (f := preNullable P fun s => s) (w := nullableJson .str) (preNullable_json fun _ => rfl) l,
      optMember_pre (f := preNullable P Direction.asStr) (w := nullableJson dirJson) (preNullable_json fun _ => rfl) d,
      optMember_pre (w := nullableJson SynContainer.toJson) preContainer_json co,
      optMember_pre (f := fun n => preStr P n.str) (w := fun n => .str n.str) (fun _ => preStr_json _) n,
      optMember_pre (w := .bool) preBool_json p, optMember_pre (w := .bool) preBool_json pg,
      optMember_pre (w := .bool) preBool_json pt]
theorem scoped_pre : ∀ o : Option SCtx, ScopedOk isRef o →
    optCtxPre P o = (optCtxJson o).map fun e => (e.1, e.2.pre P)
  | none, _ => rfl
  | some c, h => by
    simp only [ScopedOk] at h
    rw [optCtxPre, optCtxJson, List.map_cons, List.map_nil, ctx_pre c h]
end
end

/-! ## Text -/

theorem optMember_fmt {α : Type} {k : Str} {f : α → Fmt} {w : α → Json} (h : ∀ a, f a = (w a).fmt P)
    (o : Option α) : optMember k f o = (entryJson k w o).map fun e => (e.1, e.2.fmt P) := by
  cases o with
  | none => rfl
  | some a => simp only [optMember, entryJson, List.map_cons, List.map_nil, h a]

theorem fmtStr_json (s : Str) : fmtStr P s = (Json.str s).fmt P := by rw [Json.fmt]

theorem fmtBool_json (b : Bool) : fmtBool b = (Json.bool b).fmt P := by cases b <;> rfl

theorem fmtNullable_json {α : Type} {f : α → Str} {w : α → Json} (h : ∀ a, w a = .str (f a))
    (o : Option α) : fmtNullable P f o = (nullableJson w o).fmt P := by
  cases o with
  | none => simp only [fmtNullable, nullableJson, Json.fmt]
  | some a => simp only [fmtNullable, nullableJson, h a, Json.fmt]

theorem fmtContainer_json (c : Option SynContainer) :
    fmtContainer P c = (nullableJson SynContainer.toJson c).fmt P := by
  rcases c with _ | (k | ks)
  · simp only [fmtContainer, nullableJson, Json.fmt]
  · simp only [fmtContainer, nullableJson, SynContainer.toJson, Json.fmt]
  · simp only [fmtContainer, nullableJson, SynContainer.toJson, Json.fmt, jsonsFmt_eq, List.map_map]
    exact congrArg (fmtArr P) (List.map_congr_left fun k _ => fmtStr_json _)

theorem fmtTypeDef_json (p : Option Bool) : fmtTypeDef P p = (typeDefJson p).fmt P := by
  rw [typeDefJson, jObject_nodup (typeDef_keys_nodup p), Json.fmt, membersFmt_eq, fmtTypeDef,
    List.map_cons, optMember_fmt (w := .bool) fmtBool_json, fmtStr_json]

theorem fmtVersion_json (v : Bool) :
    (if v then [("@version".toList, fmtText "1.1".toList)] else []) =
      (if v then [("@version".toList, Json.num "1.1".toList)] else []).map fun e => (e.1, e.2.fmt P) := by
  cases v with
  | false => rfl
  | true => simp only [if_true, List.map_cons, List.map_nil, Json.fmt]

section
variable {isRef : Str → Bool}

mutual
theorem ctx_fmt : ∀ c : SCtx, CtxOk isRef c → c.fmt P = c.toJson.fmt P
  | .one e, h => by
    simp only [CtxOk] at h
    rw [SCtx.fmt, SCtx.toJson, entry_fmt e h]
  | .many es, h => by
    simp only [CtxOk] at h
    rw [SCtx.fmt, SCtx.toJson, Json.fmt, entries_fmt es h, jsonsFmt_eq]
theorem entry_fmt : ∀ e : SEntry, EntryOk isRef e → e.fmt P = e.toJson.fmt P
  | .null, _ => by rw [SEntry.fmt, SEntry.toJson, Json.fmt]
  | .ref s, _ => by rw [SEntry.fmt, SEntry.toJson, Json.fmt]
  | .defn ⟨b, i, l, d, pg, pt, t, v, vo, bs⟩, h => by
    simp only [EntryOk, DefOk] at h
    obtain ⟨-, -, h3, h4, h5⟩ := h
    rw [SEntry.fmt, SEntry.toJson, SDef.fmt, SDef.toJson, jObject_nodup (def_keys_nodup h3 h4), Json.fmt,
      membersFmt_eq, bindings_fmt bs h5]
    simp only [List.map_append]
    rw [optMember_fmt (f := fmtNullable P fun s => s) (w := nullableJson .str) (fmtNullable_json fun _ => rfl) b,
      optMember_fmt (w := .str) fmtStr_json i,
      optMember_fmt (f := fmtNullable P fun s => s) (w := nullableJson .str) (fmtNullable_json fun _ => rfl) l,
      optMember_fmt (f := fmtNullable P Direction.asStr) (w := nullableJson dirJson) (fmtNullable_json fun _ => rfl) d,
      optMember_fmt (w := .bool) fmtBool_json pg, optMember_fmt (w := .bool) fmtBool_json pt,
      optMember_fmt (w := typeDefJson) fmtTypeDef_json t, fmtVersion_json v,
      optMember_fmt (f := fmtNullable P fun s => s) (w := nullableJson .str) (fmtNullable_json fun _ => rfl) vo]
theorem entries_fmt : ∀ es : List SEntry, EntriesOk isRef es →
    sentriesFmt P es = (sentriesToJson es).map (Json.fmt P)
  | [], _ => rfl
  | e :: es, h => by
    simp only [EntriesOk] at h
    rw [sentriesFmt, sentriesToJson, List.map_cons, entry_fmt e h.1, entries_fmt es h.2]
theorem bindings_fmt : ∀ bs : List (Str × Option STerm), BindingsOk isRef bs →
    bindingsFmt P bs = (bindingsToJson bs).map fun e => (e.1, e.2.fmt P)
  | [], _ => rfl
  | (k, none) :: bs, h => by
    simp only [BindingsOk] at h
    rw [bindingsFmt, bindingsToJson, List.map_cons, bindings_fmt bs h, Json.fmt]
  | (k, some t) :: bs, h => by
    simp only [BindingsOk] at h
    rw [bindingsFmt, bindingsToJson, List.map_cons, term_fmt t h.1, bindings_fmt bs h.2]
theorem term_fmt : ∀ t : STerm, TermOk isRef t → t.fmt P = t.toJson.fmt P
  | .simple s, _ => by rw [STerm.fmt, STerm.toJson, Json.fmt]
  | .expanded ⟨i, t, c, r, ix, l, d, co, n, p, pg, pt⟩, h => by
    simp only [TermOk] at h
    have hc : ScopedOk isRef c := by simp only [ExpOk] at h; exact h.2.2.2
    rw [STerm.fmt, STerm.toJson, SExp.fmt, SExp.toJson, jObject_nodup exp_keys_nodup, Json.fmt,
      membersFmt_eq, scoped_fmt c hc]
    simp only [List.map_append]
    rw [optMember_fmt (f := fmtNullable P SId.str) (w := nullableJson fun i => .str i.str) (fmtNullable_json fun _ => rfl) i,
      optMember_fmt (f := fmtNullable P SType.str) (w := nullableJson fun t => .str t.str) (fmtNullable_json fun _ => rfl) t,
      optMember_fmt (w := .str) fmtStr_json r, optMember_fmt (w := .str) fmtStr_json ix,
      optMember_fmt (f := fmtNullable P fun s => s) (w := nullableJson .str) (fmtNullable_json fun _ => rfl) l,
      optMember_fmt (f := fmtNullable P Direction.asStr) (w := nullableJson dirJson) (fmtNullable_json fun _ => rfl) d,
      optMember_fmt (w := nullableJson SynContainer.toJson) fmtContainer_json co,
      optMember_fmt (f := fun n => fmtStr P n.str) (w := fun n => .str n.str) (fun _ => fmtStr_json _) n,
      optMember_fmt (w := .bool) fmtBool_json p, optMember_fmt (w := .bool) fmtBool_json pg,
      optMember_fmt (w := .bool) fmtBool_json pt]
theorem scoped_fmt : ∀ o : Option SCtx, ScopedOk isRef o →
    optCtxFmt P o = (optCtxJson o).map fun e => (e.1, e.2.fmt P)
  | none, _ => rfl
  | some c, h => by
    simp only [ScopedOk] at h
    rw [optCtxFmt, optCtxJson, List.map_cons, List.map_nil, ctx_fmt c h]
end

theorem print_ctx (ind : Nat) (c : SCtx) (h : CtxOk isRef c) :
    c.print P ind = some (text P ind c.toJson, []) := by
  have := fmt_text (P := P) c.toJson ind []
  rw [List.append_nil] at this
  rw [SCtx.print, ctx_pre c h, ctx_fmt c h, this]
end
end
end JsonLd
