import Verif.Props.CtxTraverse
/-!
# C86: the kinds and items of the fragments of a context
-/

namespace JsonLd
namespace Props

/-- The value of an entry of a context definition. -/
def defValue : DEntry → Json
  | .base v => nullableJson .str v
  | .import_ v => .str v
  | .language v => nullableJson .str v
  | .direction v => nullableJson dirJson v
  | .propagate v => .bool v
  | .protected_ v => .bool v
  | .type v => typeDefJson v
  | .version => .num "1.1".toList
  | .vocab v => nullableJson .str v
  | .definition _ v => nullableJson STerm.toJson v

/-- The value of an entry of a term definition. -/
def termEntryValue : TEntry → Json
  | .id v => nullableJson (fun i => .str i.str) v
  | .type v => nullableJson (fun t => .str t.str) v
  | .context v => v.toJson
  | .reverse v => .str v
  | .index v => .str v
  | .language v => nullableJson .str v
  | .direction v => nullableJson dirJson v
  | .container v => nullableJson SynContainer.toJson v
  | .nest v => .str v.str
  | .prefix_ v => .bool v
  | .propagate v => .bool v
  | .protected_ v => .bool v

/-- The part of the JSON value of the context that a fragment is: a value, or an entry of an object. -/
def fragJson : CFrag → Json ⊕ (Str × Json)
  | .array es => .inl (.arr (es.map SEntry.toJson))
  | .context e => .inl e.toJson
  | .entry e => .inr (e.key, defValue e)
  | .key e => .inl (.str e.key)
  | .value e => .inl (defValue e)
  | .termEntry e => .inr (e.key, termEntryValue e)
  | .termKey e => .inl (.str e.key)
  | .termValue e => .inl (termEntryValue e)
  | .kind k => .inl (.str k.asStr)

/-- The value is an array. -/
def IsArr (v : Json ⊕ (Str × Json)) : Prop := ∃ l, v = .inl (.arr l)

/-- The value is an object. -/
def IsObj (v : Json ⊕ (Str × Json)) : Prop := ∃ m, v = .inl (.obj m)

/-- The fragment is a scoped context that is an array. -/
def IsScopedArray (f : CFrag) : Prop := ∃ es, f = .termValue (.context (.many es))

theorem def_isObj (d : SDef) : ∃ m, d.toJson = .obj m := by
  cases d
  exact ⟨_, by unfold SDef.toJson; rfl⟩

theorem exp_isObj (x : SExp) : ∃ m, x.toJson = .obj m := by
  cases x
  exact ⟨_, by unfold SExp.toJson; rfl⟩

theorem entry_kind (e : SEntry) : ((CFrag.context e).isArray = true ↔ ∃ l, e.toJson = .arr l) ∧
    ((CFrag.context e).isObject = true ↔ ∃ m, e.toJson = .obj m) := by
  cases e with
  | null => simp [SEntry.toJson, CFrag.isArray, CFrag.isObject]
  | ref s => simp [SEntry.toJson, CFrag.isArray, CFrag.isObject]
  | defn d =>
    obtain ⟨m, h⟩ := def_isObj d
    simp [SEntry.toJson, CFrag.isArray, CFrag.isObject, h]

/-- C86: a fragment is said to be an array exactly if it is one, and an object exactly if it is one;
except for scoped contexts that are arrays. -/
theorem C86_kind (f : CFrag) (hf : ¬ IsScopedArray f) :
    (f.isArray = true ↔ IsArr (fragJson f)) ∧ (f.isObject = true ↔ IsObj (fragJson f)) := by
  unfold IsArr IsObj
  cases f with
  | array es => simp [CFrag.isArray, CFrag.isObject, fragJson]
  | context e =>
    have := entry_kind e
    simpa [fragJson] using this
  | entry e => simp [CFrag.isArray, CFrag.isObject, fragJson]
  | key e => simp [CFrag.isArray, CFrag.isObject, fragJson]
  | termEntry e => simp [CFrag.isArray, CFrag.isObject, fragJson]
  | termKey e => simp [CFrag.isArray, CFrag.isObject, fragJson]
  | kind k => simp [CFrag.isArray, CFrag.isObject, fragJson]
  | value e =>
    cases e with
    | definition k v =>
      cases v with
      | none => simp [CFrag.isArray, CFrag.isObject, fragJson, defValue, nullableJson]
      | some t =>
        cases t with
        | simple s => simp [CFrag.isArray, CFrag.isObject, fragJson, defValue, nullableJson, STerm.toJson]
        | expanded x =>
          obtain ⟨m, h⟩ := exp_isObj x
          simp [CFrag.isArray, CFrag.isObject, fragJson, defValue, nullableJson, STerm.toJson, h]
    | type v => simp [CFrag.isArray, CFrag.isObject, fragJson, defValue, typeDefJson]
    | base v => cases v <;> simp [CFrag.isArray, CFrag.isObject, fragJson, defValue, nullableJson]
    | import_ v => simp [CFrag.isArray, CFrag.isObject, fragJson, defValue]
    | language v => cases v <;> simp [CFrag.isArray, CFrag.isObject, fragJson, defValue, nullableJson]
    | direction v => cases v <;> simp [CFrag.isArray, CFrag.isObject, fragJson, defValue, nullableJson, dirJson]
    | propagate v => simp [CFrag.isArray, CFrag.isObject, fragJson, defValue]
    | protected_ v => simp [CFrag.isArray, CFrag.isObject, fragJson, defValue]
    | version => simp [CFrag.isArray, CFrag.isObject, fragJson, defValue]
    | vocab v => cases v <;> simp [CFrag.isArray, CFrag.isObject, fragJson, defValue, nullableJson]
  | termValue e =>
    cases e with
    | context v =>
      cases v with
      | many es => exact absurd ⟨es, rfl⟩ hf
      | one e =>
        have := entry_kind e
        cases e with
        | null => simp [CFrag.isArray, CFrag.isObject, fragJson, termEntryValue, SCtx.toJson, SEntry.toJson]
        | ref s => simp [CFrag.isArray, CFrag.isObject, fragJson, termEntryValue, SCtx.toJson, SEntry.toJson]
        | defn d =>
          obtain ⟨m, h⟩ := def_isObj d
          simp [CFrag.isArray, CFrag.isObject, fragJson, termEntryValue, SCtx.toJson, SEntry.toJson, h]
    | container v =>
      cases v with
      | none => simp [CFrag.isArray, CFrag.isObject, fragJson, termEntryValue, nullableJson]
      | some c => cases c <;> simp [CFrag.isArray, CFrag.isObject, fragJson, termEntryValue, nullableJson, SynContainer.toJson]
    | id v => cases v <;> simp [CFrag.isArray, CFrag.isObject, fragJson, termEntryValue, nullableJson]
    | type v => cases v <;> simp [CFrag.isArray, CFrag.isObject, fragJson, termEntryValue, nullableJson]
    | reverse v => simp [CFrag.isArray, CFrag.isObject, fragJson, termEntryValue]
    | index v => simp [CFrag.isArray, CFrag.isObject, fragJson, termEntryValue]
    | language v => cases v <;> simp [CFrag.isArray, CFrag.isObject, fragJson, termEntryValue, nullableJson]
    | direction v => cases v <;> simp [CFrag.isArray, CFrag.isObject, fragJson, termEntryValue, nullableJson, dirJson]
    | nest v => simp [CFrag.isArray, CFrag.isObject, fragJson, termEntryValue]
    | prefix_ v => simp [CFrag.isArray, CFrag.isObject, fragJson, termEntryValue]
    | propagate v => simp [CFrag.isArray, CFrag.isObject, fragJson, termEntryValue]
    | protected_ v => simp [CFrag.isArray, CFrag.isObject, fragJson, termEntryValue]

/-- C86: a scoped context that is an array is not said to be one (term_definition/mod.rs:495-500). -/
theorem C86_scoped_array (es : List SEntry) :
    (CFrag.termValue (.context (.many es))).isArray = false ∧
    IsArr (fragJson (.termValue (.context (.many es)))) :=
  ⟨rfl, _, by simp [fragJson, termEntryValue, SCtx.toJson]; rfl⟩

/-- C86: the items of an array are the fragments below it, in their order; except for scoped
contexts. -/
theorem C86_items (f : CFrag) (hf : ¬ IsScopedArray f) (l : List Json) (h : fragJson f = .inl (.arr l)) :
    f.subItems.map fragJson = l.map .inl := by
  have hk := (C86_kind f hf).1.2 ⟨l, h⟩
  cases f with
  | array es =>
    simp only [fragJson, Sum.inl.injEq, Json.arr.injEq] at h
    subst h
    simp [CFrag.subItems, fragJson]
  | termValue e =>
    cases e with
    | container v =>
      cases v with
      | none => cases hk
      | some c =>
        cases c with
        | one k => cases hk
        | many ks =>
          simp only [fragJson, termEntryValue, nullableJson, SynContainer.toJson, Sum.inl.injEq,
            Json.arr.injEq] at h
          subst h
          simp [CFrag.subItems, fragJson]
    | _ => cases hk
  | _ => cases hk

theorem entryJson_map {α β : Type} {k : Str} {w : α → Json} {c : α → β} {g : β → Str × Json}
    (h : ∀ a, g (c a) = (k, w a)) (o : Option α) : (o.map c).toList.map g = entryJson k w o := by
  cases o with
  | none => rfl
  | some a => simp [entryJson, h]

/-- An entry of a context definition. -/
def defEntryOf (e : DEntry) : Str × Json := (e.key, defValue e)

/-- An entry of a term definition. -/
def termEntryOf (e : TEntry) : Str × Json := (e.key, termEntryValue e)

theorem bindings_map (bs : List (Str × Option STerm)) :
    (bs.map fun b => DEntry.definition b.1 b.2).map defEntryOf = bindingsToJson bs := by
  induction bs with
  | nil => rw [bindingsToJson]; rfl
  | cons b bs ih =>
    obtain ⟨k, v⟩ := b
    rw [List.map_cons, List.map_cons, ih]
    cases v <;> rw [bindingsToJson] <;> rfl

theorem version_map (v : Bool) : (if v then [DEntry.version] else []).map defEntryOf =
    if v then [("@version".toList, .num "1.1".toList)] else [] := by
  cases v <;> rfl

theorem def_entries (d : SDef) : d.toJson = .obj (jObject (d.left.map defEntryOf)) := by
  obtain ⟨base, import_, language, direction, propagate, prot, type, version, vocab, bindings⟩ := d
  have h0 := entryJson_map (c := DEntry.base) (g := defEntryOf) (k := "@base".toList) (w := nullableJson .str) (fun _ => rfl) base
  have h1 := entryJson_map (c := DEntry.import_) (g := defEntryOf) (k := "@import".toList) (w := .str) (fun _ => rfl) import_
  have h2 := entryJson_map (c := DEntry.language) (g := defEntryOf) (k := "@language".toList) (w := nullableJson .str) (fun _ => rfl) language
  have h3 := entryJson_map (c := DEntry.direction) (g := defEntryOf) (k := "@direction".toList) (w := nullableJson dirJson) (fun _ => rfl) direction
  have h4 := entryJson_map (c := DEntry.propagate) (g := defEntryOf) (k := "@propagate".toList) (w := .bool) (fun _ => rfl) propagate
  have h5 := entryJson_map (c := DEntry.protected_) (g := defEntryOf) (k := "@protected".toList) (w := .bool) (fun _ => rfl) prot
  have h6 := entryJson_map (c := DEntry.type) (g := defEntryOf) (k := "@type".toList) (w := typeDefJson) (fun _ => rfl) type
  have h7 := entryJson_map (c := DEntry.vocab) (g := defEntryOf) (k := "@vocab".toList) (w := nullableJson .str) (fun _ => rfl) vocab
  unfold SDef.toJson SDef.left
  rw [List.map_append, List.map_append, List.map_append, List.map_append, List.map_append, List.map_append,
    List.map_append, List.map_append, List.map_append, bindings_map, version_map, h0, h1, h2, h3, h4, h5, h6, h7]

theorem exp_entries (x : SExp) : x.toJson = .obj (jObject (x.left.map termEntryOf)) := by
  obtain ⟨id, type, context, reverse, index, language, direction, container, nest, pfx, propagate, prot⟩ := x
  have hc : (context.map TEntry.context).toList.map termEntryOf = optCtxJson context := by
    cases context <;> rw [optCtxJson] <;> rfl
  have h0 := entryJson_map (c := TEntry.id) (g := termEntryOf) (k := "@id".toList) (w := nullableJson fun i => .str i.str) (fun _ => rfl) id
  have h1 := entryJson_map (c := TEntry.type) (g := termEntryOf) (k := "@type".toList) (w := nullableJson fun t => .str t.str) (fun _ => rfl) type
  have h2 := entryJson_map (c := TEntry.reverse) (g := termEntryOf) (k := "@reverse".toList) (w := .str) (fun _ => rfl) reverse
  have h3 := entryJson_map (c := TEntry.index) (g := termEntryOf) (k := "@index".toList) (w := .str) (fun _ => rfl) index
  have h4 := entryJson_map (c := TEntry.language) (g := termEntryOf) (k := "@language".toList) (w := nullableJson .str) (fun _ => rfl) language
  have h5 := entryJson_map (c := TEntry.direction) (g := termEntryOf) (k := "@direction".toList) (w := nullableJson dirJson) (fun _ => rfl) direction
  have h6 := entryJson_map (c := TEntry.container) (g := termEntryOf) (k := "@container".toList) (w := nullableJson SynContainer.toJson) (fun _ => rfl) container
  have h7 := entryJson_map (c := TEntry.nest) (g := termEntryOf) (k := "@nest".toList) (w := fun n => .str n.str) (fun _ => rfl) nest
  have h8 := entryJson_map (c := TEntry.prefix_) (g := termEntryOf) (k := "@prefix".toList) (w := .bool) (fun _ => rfl) pfx
  have h9 := entryJson_map (c := TEntry.propagate) (g := termEntryOf) (k := "@propagate".toList) (w := .bool) (fun _ => rfl) propagate
  have h10 := entryJson_map (c := TEntry.protected_) (g := termEntryOf) (k := "@protected".toList) (w := .bool) (fun _ => rfl) prot
  unfold SExp.toJson SExp.left
  rw [List.map_append, List.map_append, List.map_append, List.map_append, List.map_append, List.map_append,
    List.map_append, List.map_append, List.map_append, List.map_append, List.map_append, hc, h0, h1, h2, h3, h4,
    h5, h6, h7, h8, h9, h10]

/-- C86: the entries of an object are the fragments below it, in their order; except for the definition
of `@type` and for scoped contexts, which have nothing below them. -/
theorem C86_entries (f : CFrag) (m : List (Str × Json)) (h : fragJson f = .inl (.obj m)) :
    (∃ es, f.subItems.map fragJson = es.map .inr ∧ m = jObject es) ∨
    (f.subItems = [] ∧ ((∃ p, f = .value (.type p)) ∨ ∃ c, f = .termValue (.context c))) := by
  by_cases hs : IsScopedArray f
  · obtain ⟨es, rfl⟩ := hs
    exact .inr ⟨rfl, .inr ⟨_, rfl⟩⟩
  have hk := (C86_kind f hs).2.2 ⟨m, h⟩
  cases f with
  | context e =>
    cases e with
    | defn d =>
      left
      refine ⟨d.left.map defEntryOf, ?_, ?_⟩
      rotate_left
      · simp only [fragJson, SEntry.toJson, def_entries, Sum.inl.injEq, Json.obj.injEq] at h
        exact h.symm
      · simp only [CFrag.subItems, List.map_map]; rfl
    | _ => cases hk
  | value e =>
    cases e with
    | type p => exact .inr ⟨rfl, .inl ⟨p, rfl⟩⟩
    | definition k v =>
      cases v with
      | none => cases hk
      | some t =>
        cases t with
        | simple s => cases hk
        | expanded x =>
          left
          refine ⟨x.left.map termEntryOf, ?_, ?_⟩
          rotate_left
          · simp only [fragJson, defValue, nullableJson, STerm.toJson, exp_entries, Sum.inl.injEq,
              Json.obj.injEq] at h
            exact h.symm
          · simp only [CFrag.subItems, List.map_map]; rfl
    | _ => cases hk
  | termValue e =>
    cases e with
    | context c => exact .inr ⟨by cases c <;> rfl, .inr ⟨c, rfl⟩⟩
    | _ => cases hk
  | _ => cases hk

/-- C86: an entry has its key and its value below it, in this order; an entry of a term definition has
nothing below it (term_definition/mod.rs:641-648). -/
theorem C86_entry (e : DEntry) : ∃ k v, (CFrag.entry e).subItems = [.key e, .value e] ∧
    fragJson (.key e) = .inl (.str k) ∧ fragJson (.value e) = .inl v ∧ fragJson (.entry e) = .inr (k, v) :=
  ⟨_, _, rfl, rfl, rfl, rfl⟩

/-- A list of containers is an array with two items, a scoped context an object. -/
example : ¬ IsScopedArray (.termValue (.container (some (.many [.graph, .set])))) ∧
    (CFrag.termValue (.container (some (.many [.graph, .set])))).isArray = true ∧
    (CFrag.termValue (.container (some (.many [.graph, .set])))).subItems.length = 2 :=
  ⟨(fun ⟨_, h⟩ => by cases h), rfl, rfl⟩

end Props
end JsonLd
