import Verif.Proofs.ExpandTerms
import Verif.Props.ExpandMaps
/-!
# C57: the values of terms without maps
-/

namespace JsonLd.Props
open JsonLd.Spec

private theorem value_plain {E : XEnv} {c : ACtx} {key : Str} {d : TermDef} {v : Json} (ht : d.typ ≠ some .json) (hc : NoMap d.container v ∨
    d.container = .list ∨ d.container = .graph ∨ d.container = .graphSet) :
    propValue E (unlimited E) c (some d) key v = expandElement E c (some key) v false := by
  unfold propValue
  simp only [Option.bind_some, if_neg ht]
  cases v with
  | obj m =>
    dsimp only
    have hno : d.container.contains .language = false ∧ d.container.contains .index = false ∧
        d.container.contains .type = false ∧ d.container.contains .id = false := by
      rcases hc with (h | h | ⟨_, h⟩) | h | h | h
      · rw [h]; decide
      · rw [h]; decide
      · exact absurd rfl (h m)
      · rw [h]; decide
      · rw [h]; decide
      · rw [h]; decide
    show (if d.container.contains .language = true then _ else
      if (d.container.contains .index || d.container.contains .type || d.container.contains .id) = true then _ else _) = _
    simp only [hno.1, hno.2.1, hno.2.2.1, hno.2.2.2, Bool.or_self, Bool.false_eq_true, if_false]
    rfl
  | _ => rfl

section
variable (E : XEnv) (c : ACtx) (key : Str) (p : Id) (hp : IsProperty E c key p) (d : TermDef)
  (fm : Bool) (hr : fm = true ∨ c.previous = none) (v : Json) (x : Expanded)
include hp hr

/-- C57: any value of a term of type `@json` becomes one JSON literal, as it is. -/
theorem C57_json (hd : c.get key = some d) (ht : d.typ = some .json)
    (hl : d.container.contains .list = false) (hg : d.container.contains .graph = false) :
    expandElement E c none (.obj [(key, v)]) fm = .ok x ↔ OfTerm d p [.value none (.json v)] x := by
  rw [single_values hp hd hr (by simp)]
  have hv : propValue E (unlimited E) c (some d) key v = .ok (.object (.value none (.json v))) := by
    unfold propValue
    simp only [Option.bind_some, ht, if_true]
  have hw : ∀ y, wrapGraph d.container (wrapList d.container y) = y := by
    intro y
    unfold wrapGraph wrapList
    simp only [hl, hg, Bool.false_and, Bool.false_eq_true, if_false]
  simp only [hv, hw]
  constructor
  · rintro ⟨y, hy, h⟩
    cases hy
    exact (add_single rfl).1 h
  · intro h
    exact ⟨_, rfl, (add_single rfl).2 h⟩

/-- C57: the values of a term without a container, with a set container, or with a map container (for values that
are no objects), and of a key that is no term, are the objects the value expands to. -/
theorem C57_plain (hd : Defined c key d) (ht : d.typ ≠ some .json) (hc : NoMap d.container v) :
    expandElement E c none (.obj [(key, v)]) fm = .ok x ↔
      ∃ y, expandElement E c (some key) v false = .ok y ∧ Kept d p y x := by
  rw [single_defined hp hd hr (by simp), value_plain ht (.inl hc)]
  have hw : ∀ y, wrapGraph d.container (wrapList d.container y) = y := by
    intro y
    have : d.container.contains .list = false ∧ d.container.contains .graph = false := by
      rcases hc with h | h | ⟨h | h | h | h | h | h | h | h, _⟩ <;> rw [h] <;> decide
    unfold wrapGraph wrapList
    simp only [this.1, this.2, Bool.false_and, Bool.false_eq_true, if_false]
  simp only [hw, kept_iff]

/-- C57: the value of a term with a list container is one list; `null` becomes the empty list. -/
theorem C57_list (hd : c.get key = some d) (ht : d.typ ≠ some .json) (hc : d.container = .list) :
    expandElement E c none (.obj [(key, v)]) fm = .ok x ↔
      ∃ y l, expandElement E c (some key) v false = .ok y ∧ AsList y l ∧ OfTerm d p [l] x := by
  rw [single_values hp hd hr (by simp), value_plain ht (.inr (.inl hc))]
  have hw : ∀ y, wrapGraph d.container (wrapList d.container y) = wrapList .list y := by
    intro y
    rw [hc]
    rfl
  simp only [hw]
  have key : ∀ y l, AsList y l ↔ wrapList .list y = .object l := by
    intro y l
    constructor
    · rintro (_ | ⟨o, h⟩ | _ | _)
      · rfl
      · cases o with
        | list i l => exact absurd rfl (h i l)
        | _ => rfl
      · rfl
      · rfl
    · intro h
      cases y with
      | null => cases h; exact .null
      | array os => cases h; exact .array os
      | object o =>
        cases o with
        | list i l => cases h; exact .list i l
        | value i v => cases h; exact .object _ nofun
        | node n => cases h; exact .object _ nofun
  constructor
  · rintro ⟨y, hy, h⟩
    obtain ⟨l, hl⟩ : ∃ l, wrapList .list y = .object l := by
      unfold wrapList
      split
      · exact ⟨_, rfl⟩
      · rename_i hn
        cases y with
        | null => exact absurd rfl hn
        | array os => exact absurd rfl hn
        | object o => exact ⟨o, rfl⟩
    rw [hl] at h
    exact ⟨y, l, hy, (key y l).2 hl, (add_single rfl).1 h⟩
  · rintro ⟨y, l, hy, hl, h⟩
    rw [key] at hl
    exact ⟨y, hy, by rw [hl]; exact (add_single rfl).2 h⟩

/-- C57: each value of a term with a graph container is put in a graph of its own, even if it is a graph. -/
theorem C57_graph (hd : c.get key = some d) (ht : d.typ ≠ some .json)
    (hc : d.container = .graph ∨ d.container = .graphSet) :
    expandElement E c none (.obj [(key, v)]) fm = .ok x ↔
      ∃ y, expandElement E c (some key) v false = .ok y ∧
        OfTerm d p (y.toList.map fun o => .node (.mk none none none (some [o]) none [] none)) x := by
  rw [single_values hp hd hr (by simp), value_plain ht (.inr (.inr hc))]
  have hw : ∀ y, wrapGraph d.container (wrapList d.container y) = .array (y.toList.map graphNode) := by
    intro y
    rcases hc with h | h <;> rw [h] <;> rfl
  simp only [hw]
  constructor
  · rintro ⟨y, hy, h⟩
    exact ⟨y, hy, (add_single rfl).1 h⟩
  · rintro ⟨y, hy, h⟩
    exact ⟨y, hy, (add_single rfl).2 h⟩

end

section
variable (E : XEnv) (c : ACtx) (prop : Option Str) (fm : Bool) (x : Expanded)

/-- C57: an array expands to what its items expand to, one after the other: a list if the property has a list
container. -/
theorem C57_array (l : List Json) : expandElement E c prop (.arr l) fm = .ok x ↔
    ∃ os, ItemsOf E c prop fm l os ∧
      ((∃ k d, prop = some k ∧ c.get k = some d ∧ d.container = .list ∧ x = .object (.list none os)) ∨
       ((∀ k d, prop = some k → c.get k = some d → d.container ≠ .list) ∧ x = .array os)) := by
  rw [C49_unfold]
  show (xItems (unlimited E) c prop fm l).map _ = _ ↔ _
  rw [exMap_iff]
  have hl : ∀ k : Container, k.contains .list = true ↔ k = .list := by
    intro k; cases k <;> decide
  simp only [itemsOf_iff]
  refine exists_congr fun os => and_congr_right fun _ => ?_
  cases prop with
  | none =>
    show (if Container.none.contains .list = true then _ else _) = x ↔ _
    rw [if_neg (by decide)]
    simp [eq_comm]
  | some k =>
    cases hk : c.get k with
    | none =>
      show (if (containerOf (c.get k)).contains .list = true then _ else _) = x ↔ _
      rw [hk, if_neg (by decide)]
      constructor
      · rintro rfl
        exact .inr ⟨fun k' d h1 h2 => (by cases h1; rw [hk] at h2; cases h2), rfl⟩
      · rintro (⟨k', d, h1, h2, _⟩ | ⟨_, rfl⟩)
        · cases h1; rw [hk] at h2; cases h2
        · rfl
    | some d =>
      show (if (containerOf (c.get k)).contains .list = true then _ else _) = x ↔ _
      rw [hk]
      show (if d.container.contains .list = true then _ else _) = x ↔ _
      by_cases h : d.container = .list
      · rw [if_pos ((hl _).2 h)]
        simp [hk, h, eq_comm]
      · rw [if_neg fun h' => h ((hl _).1 h')]
        constructor
        · rintro rfl
          exact .inr ⟨fun k' d' h1 h2 => by cases h1; rw [hk] at h2; cases h2; exact h, rfl⟩
        · rintro (⟨k', d', h1, h2, h3, _⟩ | ⟨_, rfl⟩)
          · cases h1; rw [hk] at h2; cases h2; exact absurd h3 h
          · rfl

/-- C57: a set object expands to what its value expands to. -/
theorem C57_set_object (hr : fm = true ∨ c.previous = none) (hs : ∀ k, prop = some k → Unscoped c k) (key : Str)
    (hk : expandIri E.toIriEnv c (some (.ofStr key)) false (some E.opts.vocab) = .ok (some (.keyword .set)))
    (v : Json) : expandElement E c prop (.obj [(key, v)]) fm = expandElement E c prop v false := by
  rw [object_kind (E := E) (m := [(key, v)]) (es := [⟨key, .keyword .set, v⟩]) ⟨rfl, by simpa [xKey_iff] using hk,
    by simp⟩ hr fun k d h => hs k h d]
  unfold elemKind
  rw [show lastEntry .list [⟨key, .keyword .set, v⟩] = none from rfl,
    show lastEntry .set [⟨key, .keyword .set, v⟩] = some v from rfl]
  have : (if noProp prop = true then (none : Option Json) else none) = none := by split <;> rfl
  rw [this]
  rfl

/-- C57: a list object expands to a list of what the items of its value expand to, if there is an active
property; its index is kept. -/
theorem C57_list_object (q : Str) (hq : q ≠ "@graph".toList) (hr : fm = true ∨ c.previous = none)
    (hs : Unscoped c q) (key : Str)
    (hk : expandIri E.toIriEnv c (some (.ofStr key)) false (some E.opts.vocab) = .ok (some (.keyword .list)))
    (v : Json) (i : Option Str) :
    expandElement E c (some q) (.obj ((key, v) :: (i.map fun s => ("@index".toList, Json.str s)).toList)) fm = .ok x ↔
      ∃ os, ItemsOf E c (some q) false (itemsIn v) os ∧ x = .object (.list i os) := by
  have hi : xKey E c "@index".toList = .ok (some (.keyword .index)) := by
    have := C01_roundtrip .index
    show xKey E c Keyword.index.intoStr = _
    unfold xKey xIri Expandable.ofStr
    rw [this]
    rfl
  have hn : noProp (some q) = false := by
    unfold noProp
    simp only [Option.isNone_some, Bool.false_or, Option.some.injEq]
    exact decide_eq_false hq
  have hf : forceArray v = itemsIn v := by cases v <;> rfl
  rw [object_kind (E := E) (es := ⟨key, .keyword .list, v⟩ ::
    (i.map fun s => (⟨"@index".toList, .keyword .index, .str s⟩ : XEntry)).toList) ⟨?_, ?_, ?_⟩ hr
    fun k d h => by cases h; exact hs d]
  · unfold elemKind
    have : lastEntry .list (⟨key, .keyword .list, v⟩ ::
        (i.map fun s => (⟨"@index".toList, .keyword .index, .str s⟩ : XEntry)).toList) = some v := by
      cases i <;> rfl
    rw [this, hn]
    have : listIndex none (⟨key, .keyword .list, v⟩ ::
        (i.map fun s => (⟨"@index".toList, .keyword .index, .str s⟩ : XEntry)).toList) = .ok i := by
      cases i <;> rfl
    show elemList _ _ _ _ _ = _ ↔ _
    unfold elemList
    rw [this, hf]
    show (xItems _ _ _ _ _).map _ = _ ↔ _
    rw [exMap_iff]
    simp only [itemsOf_iff]
    refine exists_congr fun os => and_congr_right fun _ => eq_comm
  · cases i <;> rfl
  · intro e he
    rcases List.mem_cons.1 he with rfl | he
    · exact xKey_iff.2 hk
    · cases i with
      | none => cases he
      | some s =>
        rcases List.mem_cons.1 he with rfl | he
        · exact hi
        · cases he
  · intro e he
    rcases List.mem_cons.1 he with rfl | he
    · exact ⟨nofun, nofun⟩
    · cases i with
      | none => cases he
      | some s =>
        rcases List.mem_cons.1 he with rfl | he
        · exact ⟨nofun, nofun⟩
        · cases he

end

/-! ## Examples (see `exMapCtx_property` for the hypotheses) -/

/-- `{"json": [1, null]}`: the value is kept. -/
example : exMapped "json".toList (.arr [.num "1".toList, .null]) =
    some (onlyProp (.iri "http:json".toList) [.value none (.json (.arr [.num "1".toList, .null]))]) := rfl

/-- `{"set": [["a", null], "b"]}`. -/
example : exMapped "set".toList (.arr [.arr [.str "a".toList, .null], .str "b".toList]) =
    some (onlyProp (.iri "http:set".toList) [exPlain "a", exPlain "b"]) := rfl

/-- `{"lang": "a"}`: a string, not a map. -/
example : exMapped "index".toList (.str "a".toList) = some (onlyProp (.iri "http:index".toList) [exPlain "a"]) := rfl

/-- `{"http:q": null}`: nothing is left. -/
example : exMapped "http:q".toList .null = some .null := rfl

example : Defined exMapCtx "http:q".toList {} := .undefined rfl

/-- `{"list": "a"}`, `{"list": null}`, `{"list": [["a"], "b"]}` and `{"list": {"@list": "a"}}`. -/
example : exMapped "list".toList (.str "a".toList) =
    some (onlyProp (.iri "http:list".toList) [.list none [exPlain "a"]]) := rfl

example : exMapped "list".toList .null = some (onlyProp (.iri "http:list".toList) [.list none []]) := rfl

example : exMapped "list".toList (.arr [.arr [.str "a".toList], .str "b".toList]) =
    some (onlyProp (.iri "http:list".toList) [.list none [.list none [exPlain "a"], exPlain "b"]]) := rfl

example : exMapped "list".toList (.obj [("@list".toList, .str "a".toList)]) =
    some (onlyProp (.iri "http:list".toList) [.list none [exPlain "a"]]) := rfl

/-- `{"graph": [{"p": "a"}, {"@graph": []}]}`: a graph is put in a graph. -/
example : exMapped "graph".toList (.arr [.obj [("p".toList, .str "a".toList)], .obj [("@graph".toList, .arr [])]]) =
    some (onlyProp (.iri "http:graph".toList) [
      .node (.mk none none none (some [.node (.mk none none none none none
        [(.iri "http:p".toList, [exPlain "a"])] none)]) none [] none),
      .node (.mk none none none (some [.node (.mk none none none (some []) none [] none)]) none [] none)]) := rfl

/-- `{"p": {"@set": ["a", "b"]}}` and `{"p": {"@list": ["a"], "@index": "i"}}`. -/
example : exMapped "p".toList (.obj [("@set".toList, .arr [.str "a".toList, .str "b".toList])]) =
    some (onlyProp (.iri "http:p".toList) [exPlain "a", exPlain "b"]) := rfl

example : exMapped "p".toList (.obj [("@list".toList, .arr [.str "a".toList]), ("@index".toList, .str "i".toList)]) =
    some (onlyProp (.iri "http:p".toList) [.list (some "i".toList) [exPlain "a"]]) := rfl

end JsonLd.Props
