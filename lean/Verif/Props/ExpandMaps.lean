import Verif.Proofs.ExpandMaps
/-!
# C56: the values of terms with maps
-/

namespace JsonLd.Props
open JsonLd.Spec

section
variable {E : XEnv} {c : ACtx}

private theorem langString_iff {s : Str} {l : Option Str} {dir : Option Direction} {o : Obj} :
    langItem s l dir = o ↔ Tagged s l dir o := by
  unfold langItem LangString.new
  constructor
  · rintro rfl
    cases l with
    | none =>
      cases dir with
      | none => exact .plain
      | some x => exact .tagged ⟨s, none, some x⟩ rfl (.inr nofun)
    | some l =>
      exact .tagged ⟨s, some l, dir⟩ rfl (.inl nofun)
  · rintro (_ | ⟨⟨s, l, dir⟩, rfl, h⟩)
    · rfl
    · cases l with
      | none =>
        cases dir with
        | none => rcases h with h | h <;> exact absurd rfl h
        | some x => rfl
      | some l => rfl

private theorem langMapItem_iff {dir : Option Direction} {k : Str} {j : Json} {part : List Obj} :
    langMapItem E c dir k j = .ok part ↔ LangMapItem E c dir k j part := by
  cases j with
  | null =>
    constructor
    · intro h; cases h; exact .null
    · intro h; cases h; rfl
  | str s =>
    show (xKey E c k).map _ = _ ↔ _
    rw [exMap_iff]
    constructor
    · rintro ⟨t, ht, rfl⟩
      rw [xKey_iff] at ht
      by_cases h : t = some (.keyword .none)
      · subst h
        exact .none s _ ht (langString_iff.1 (by rw [if_pos rfl]))
      · exact .lang s _ t ht h (langString_iff.1 (by rw [if_neg h]))
    · intro h
      cases h with
      | none _ o ht h => exact ⟨_, xKey_iff.2 ht, by rw [if_pos rfl, langString_iff.2 h]⟩
      | lang _ o t ht hn h => exact ⟨_, xKey_iff.2 ht, by rw [if_neg hn, langString_iff.2 h]⟩
  | num n => exact ⟨nofun, nofun⟩
  | bool b => exact ⟨nofun, nofun⟩
  | arr l => exact ⟨nofun, nofun⟩
  | obj m => exact ⟨nofun, nofun⟩

private theorem directionOf_iff {d : TermDef} {dir : Option Direction} :
    literalDirection c (some d) = dir ↔ DirectionOf c d dir := by
  unfold literalDirection
  constructor
  · rintro rfl
    rw [Option.bind_some]
    cases h : d.direction with
    | none => exact .default h
    | some x => exact .own x h
  · rintro (⟨x, h⟩ | h) <;> simp [h]

private theorem langMap_iff {d : TermDef} {m : List (Str × Json)} {os : List Obj} :
    langMap E c (some d) m = .ok os ↔ LanguageMap E c d (sortIf E.opts.ordered Prod.fst m) os := by
  unfold langMap
  rw [collectM_flat (h := Prod.fst) (g := fun e : Str × Json => forceArray e.2)
    (f := langMapItem E c (literalDirection c (some d))), collectM_iff]
  have hf : (fun j => forceArray j) = itemsIn := by
    funext j; cases j <;> rfl
  simp only [langMapItem_iff, hf]
  constructor
  · rintro ⟨parts, h, h'⟩
    exact ⟨_, parts, directionOf_iff.1 rfl, h, h'⟩
  · rintro ⟨dir, parts, hd, h, h'⟩
    rw [← directionOf_iff] at hd
    subst hd
    exact ⟨parts, h, h'⟩

private theorem indexItem_iff {cm : Container} (hc : cm.contains .index = true) {k : Str} {t : Option CTerm} {o : Obj}
    {part : List Obj} : (match t with
      | none => Except.ok [o]
      | some t => (indexItem E c cm "@index".toList k t o).map Option.toList) = .ok part ↔ IndexedBy k t o part := by
  cases t with
  | none =>
    constructor
    · intro h; cases h; exact .none o
    · intro h; cases h; rfl
  | some t =>
    dsimp only
    unfold indexItem
    rw [hc]
    simp only [ne_eq, not_true_eq_false, decide_false, Bool.and_false, Bool.false_eq_true, if_false, Bool.true_and]
    cases hi : o.index with
    | none =>
      simp only [Option.isNone_none, if_true]
      constructor
      · intro h; cases h; exact .set t o hi
      · intro h
        cases h with
        | kept _ _ h => exact absurd hi h
        | set => rfl
    | some i =>
      have hno : cm.contains .id = false ∧ cm.contains .type = false := by
        revert hc; cases cm <;> decide
      simp only [Option.isNone_some, Bool.false_eq_true, if_false, hno.1, hno.2, Bool.false_and]
      constructor
      · intro h; cases h; exact .kept t o (by rw [hi]; simp)
      · intro h
        cases h with
        | kept => rfl
        | set _ _ h => rw [hi] at h; cases h

private theorem propertyItem_iff {cm : Container} (hc : cm.contains .index = true) {ik : Str}
    (hk : ik ≠ "@index".toList) {k : Str} {t : Option CTerm} {o : Obj} {part : List Obj} :
    (match t with
      | none => Except.ok [o]
      | some t => (indexItem E c cm ik k t o).map Option.toList) = .ok part ↔ PropertyBy E c ik k t o part := by
  cases t with
  | none =>
    constructor
    · intro h; cases h; exact .none o
    · intro h; cases h; rfl
  | some t =>
    dsimp only
    unfold indexItem
    rw [hc, Bool.true_and, if_pos (decide_eq_true hk)]
    unfold indexProp
    cases hl : expandLiteral E.toIriEnv E.opts.vocab c (some ik) (.str k) with
    | error e =>
      constructor
      · intro h; cases h
      · intro h
        cases h with
        | added _ p r i id ty g inc ps rv h => rw [hl] at h; cases h
        | dropped _ _ r u h => rw [hl] at h; cases h
    | ok r =>
      dsimp only
      rw [exMap_iff]
      constructor
      · rintro ⟨u, hu, rfl⟩
        obtain ⟨v, hv, hu⟩ := exBind_ok hu
        rw [xKey_iff] at hv
        split at hu
        · rename_i p
          cases o with
          | node n => cases n; cases hu; exact .added t p r _ _ _ _ _ _ _ hl hv
          | value i v => cases hu
          | list i v => cases hu
        · rename_i hne
          cases hu
          exact .dropped t o r v hl hv fun p hp => hne p hp
      · intro h
        cases h with
        | added _ p r' i id ty g inc ps rv h1 h2 =>
          rw [hl] at h1; cases h1
          exact ⟨_, exBind_iff.2 ⟨_, xKey_iff.2 h2, rfl⟩, rfl⟩
        | dropped _ _ r' u h1 h2 h3 =>
          refine ⟨none, exBind_iff.2 ⟨_, xKey_iff.2 h2, ?_⟩, rfl⟩
          split
          · exact absurd rfl (h3 _)
          · rfl

private theorem idItem_iff {cm : Container} (hc : cm.contains .id = true) {ik k : Str} {t : Option CTerm} {o : Obj}
    {part : List Obj} : (match t with
      | none => Except.ok [o]
      | some t => (indexItem E c cm ik k t o).map Option.toList) = .ok part ↔ NamedBy E c k t o part := by
  cases t with
  | none =>
    constructor
    · intro h; cases h; exact .none o
    · intro h; cases h; rfl
  | some t =>
    have hno : cm.contains .index = false ∧ cm.contains .type = false := by
      revert hc; cases cm <;> decide
    dsimp only
    unfold indexItem
    rw [hc, hno.1, hno.2]
    simp only [Bool.false_and, Bool.false_eq_true, if_false, Bool.true_and]
    cases o with
    | value i v =>
      simp only [Obj.nodeId, Option.isNone_none, if_true, indexId]
      constructor
      · intro h; cases h; exact .other t _ nofun
      · intro h; cases h; rfl
    | list i v =>
      simp only [Obj.nodeId, Option.isNone_none, if_true, indexId]
      constructor
      · intro h; cases h; exact .other t _ nofun
      · intro h; cases h; rfl
    | node n =>
      obtain ⟨i, id, ty, g, inc, ps, rv⟩ := n
      cases id with
      | none =>
        simp only [Obj.nodeId, Node.id, Option.isNone_none, if_true, indexId]
        constructor
        · intro h
          obtain ⟨x, h1, rfl⟩ := exMap_ok h
          obtain ⟨y, h2, rfl⟩ := exMap_ok h1
          obtain ⟨u, h3, rfl⟩ := exMap_ok h2
          exact .set t u _ _ _ _ _ _ (xIri_iff.1 h3)
        · intro h
          cases h with
          | other _ _ h => exact absurd rfl (h _)
          | kept _ _ h => exact absurd rfl h
          | set _ u _ _ _ _ _ _ h =>
            rw [xIri_iff.2 h]
            rfl
      | some x =>
        simp only [Obj.nodeId, Node.id, Option.isNone_some, if_false, Bool.false_eq_true]
        constructor
        · intro h; cases h; exact .kept t _ nofun
        · intro h; cases h <;> rfl

private theorem typeItem_iff {cm : Container} (hc : cm.contains .type = true) {ik k : Str} {t : Option CTerm}
    (ht : t ≠ some .null) {o : Obj} {part : List Obj} : (match t with
      | none => Except.ok [o]
      | some t => (indexItem E c cm ik k t o).map Option.toList) = .ok part ↔ TypedBy t o part := by
  cases t with
  | none =>
    constructor
    · intro h; cases h; exact .none o
    · intro h; cases h; rfl
  | some t =>
    have hno : cm.contains .index = false ∧ cm.contains .id = false := by
      revert hc; cases cm <;> decide
    dsimp only
    unfold indexItem
    rw [hc, hno.1, hno.2]
    simp only [Bool.false_and, Bool.false_eq_true, if_false, if_true]
    unfold indexType
    cases t with
    | null => exact absurd rfl ht
    | keyword k => exact ⟨nofun, nofun⟩
    | id i =>
      cases o with
      | value i v =>
        constructor
        · intro h; cases h; exact .other _ _ nofun
        · intro h; cases h; rfl
      | list i v =>
        constructor
        · intro h; cases h; exact .other _ _ nofun
        · intro h; cases h; rfl
      | node n =>
        obtain ⟨x, id, ty, g, inc, ps, rv⟩ := n
        constructor
        · intro h; cases h; exact .set ..
        · intro h
          cases h with
          | other _ _ h => exact absurd rfl (h _)
          | set => rfl

private theorem mapItem_plain {cm : Container} (hg : cm.contains .graph = false) {ik k : Str} {t : Option CTerm} {o : Obj} :
    mapItem E c cm ik k t o = (match t with
      | none => Except.ok [o]
      | some t => (indexItem E c cm ik k t o).map Option.toList) := by
  unfold mapItem
  rw [hg]
  rfl

private theorem mapItem_graph {cm : Container} (hg : cm.contains .graph = true) {ik k : Str} {t : Option CTerm} {o : Obj}
    {f : Option CTerm → Obj → List Obj → Prop} {part : List Obj}
    (hf : ∀ o, (match t with
      | none => Except.ok [o]
      | some t => (indexItem E c cm ik k t o).map Option.toList) = .ok part ↔ f t o part) :
    mapItem E c cm ik k t o = .ok part ↔ GraphBy f t o part := by
  have key : ∀ o', InGraph o o' ↔ (if cm.contains .graph && !o.isGraph then graphNode o else o) = o' := by
    intro o'
    rw [hg, Bool.true_and]
    constructor
    · rintro (⟨n, h⟩ | ⟨_, h⟩)
      · simp [Obj.isGraph, h]
      · cases o with
        | node n => simp [Obj.isGraph, h n rfl, graphNode]
        | _ => simp [Obj.isGraph, graphNode]
    · rintro rfl
      cases o with
      | node n =>
        cases hn : n.isGraph with
        | true => simpa [Obj.isGraph, hn] using InGraph.graph n hn
        | false =>
          simp only [Obj.isGraph, hn]
          exact .other _ fun m hm => by cases hm; exact hn
      | value i v => exact .other _ nofun
      | list i v => exact .other _ nofun
  unfold GraphBy
  simp only [key]
  unfold mapItem
  constructor
  · intro h
    exact ⟨_, rfl, (hf _).1 h⟩
  · rintro ⟨o', rfl, h⟩
    exact (hf _).2 h

private theorem mapContext_index {cm : Container} (hc : cm.contains .index = true) (k : Str) (c' : ACtx) :
    mapContext E c cm k = .ok c' ↔ c' = c := by
  have hno : cm.contains .id = false ∧ cm.contains .type = false := by
    revert hc; cases cm <;> decide
  unfold mapContext
  simp only [hno.1, hno.2, Bool.or_self, Bool.false_eq_true, if_false, Except.ok.injEq]
  exact eq_comm

private theorem returned_iff {b : ACtx} : c.previous.getD c = b ↔ Returned c b := by
  constructor
  · rintro rfl
    cases h : c.previous with
    | none => exact .stay h
    | some p => exact .back p h
  · rintro (h | ⟨p, h⟩) <;> simp [h]

private theorem mapContext_id {cm : Container} (hc : cm.contains .id = true) (k : Str) (c' : ACtx) :
    mapContext E c cm k = .ok c' ↔ Returned c c' := by
  have hno : cm.contains .type = false := by
    revert hc; cases cm <;> decide
  unfold mapContext
  simp only [hc, hno, Bool.or_true, Bool.false_eq_true, if_false, if_true, Except.ok.injEq]
  exact returned_iff

private theorem mapContext_type {cm : Container} (hc : cm.contains .type = true) (k : Str) (c' : ACtx) :
    mapContext E c cm k = .ok c' ↔ TypeContext E c k c' := by
  unfold mapContext
  simp only [hc, Bool.true_or, if_true]
  obtain ⟨b, hb⟩ : ∃ b, c.previous.getD c = b := ⟨_, rfl⟩
  rw [hb]
  have hret : ∀ b', Returned c b' ↔ b' = b := fun b' => by rw [← returned_iff, hb]; exact eq_comm
  unfold scopedCtx xProcess
  constructor
  · intro h
    split at h
    · rename_i d hd
      split at h
      · rename_i l hl
        split at h
        · rename_i c'' hp
          cases h
          exact .within b d l c' ((hret b).2 rfl) hd hl hp
        · cases h
      · rename_i hl
        cases h
        refine .plain c' ((hret c').2 rfl) fun d' hd' => ?_
        rw [hd] at hd'
        cases hd'
        exact hl
    · rename_i hd
      cases h
      exact .plain c' ((hret c').2 rfl) fun d' hd' => by rw [hd] at hd'; cases hd'
  · intro h
    cases h with
    | plain _ h1 h2 =>
      rw [hret] at h1
      subst h1
      cases hd : c'.get k with
      | none => rfl
      | some d => simp only [h2 d hd]
    | within b' d l _ h1 h2 h3 h4 =>
      rw [hret] at h1
      subst h1
      rw [h2]
      simp only [h3]
      have : XOpts.proc E.opts = { mode := E.opts.mode } := rfl
      rw [this, h4]

end

/-- The entries in the order in which they are read: that of the keys if requested. -/
abbrev inOrder (E : XEnv) (m : List (Str × Json)) : List (Str × Json) := sortIf E.opts.ordered Prod.fst m

section
variable (E : XEnv) (c : ACtx) (key : Str) (p : Id) (hp : IsProperty E c key p) (d : TermDef)
  (hd : c.get key = some d) (ht : d.typ ≠ some .json) (fm : Bool) (hr : fm = true ∨ c.previous = none)
  (m : List (Str × Json)) (x : Expanded)
include hp hd ht hr

/-- C56: under a term with a language container, an object is expanded exactly if it is a language map, to
strings in the languages of the map. -/
theorem C56_language (hc : d.container = .language ∨ d.container = .languageSet) :
    expandElement E c none (.obj [(key, .obj m)]) fm = .ok x ↔
      ∃ os, LanguageMap E c d (inOrder E m) os ∧ OfTerm d p os x := by
  have hl : d.container.contains .language = true ∧ d.container.contains .list = false ∧
      d.container.contains .graph = false := by
    rcases hc with h | h <;> rw [h] <;> decide
  rw [single_values hp hd hr (by simp)]
  have hv : propValue E (unlimited E) c (some d) key (.obj m) = (langMap E c (some d) m).map .array := by
    unfold propValue
    simp only [Option.bind_some, if_neg ht]
    exact if_pos hl.1
  have hw : ∀ y, wrapGraph d.container (wrapList d.container y) = y := by
    intro y
    unfold wrapGraph wrapList
    simp only [hl.2.1, hl.2.2, Bool.false_and, Bool.false_eq_true, if_false]
  rw [hv]
  simp only [hw]
  constructor
  · rintro ⟨y, hy, h⟩
    obtain ⟨os, ho, rfl⟩ := exMap_ok hy
    exact ⟨os, langMap_iff.1 ho, (add_single rfl).1 h⟩
  · rintro ⟨os, ho, h⟩
    exact ⟨.array os, exMap_iff.2 ⟨os, langMap_iff.2 ho, rfl⟩, (add_single rfl).2 h⟩

/-- C56: under a term with an index container, the keys of a map become the indexes of the objects in it that
have none. -/
theorem C56_index (hc : d.container = .index ∨ d.container = .indexSet)
    (hi : d.index = none ∨ d.index = some "@index".toList) :
    expandElement E c none (.obj [(key, .obj m)]) fm = .ok x ↔
      ∃ os, MapOf E c key (fun _ c' => c' = c) IndexedBy (inOrder E m) os ∧ OfTerm d p os x := by
  have hl : d.container.contains .index = true ∧ d.container.contains .graph = false := by
    rcases hc with h | h <;> rw [h] <;> decide
  have hik : indexKeyOf (some d) = "@index".toList := by
    unfold indexKeyOf
    rcases hi with h | h <;> simp only [Option.bind_some, h]
  rw [single_map hp hd hr (by simp) ht (.inl hl.1)]
  have key := fun os => mapOf_iff (E := E) (c := c) (cm := d.container) (ik := indexKeyOf (some d)) (key := key)
    (f := IndexedBy) (m := inOrder E m) (os := os) (mapContext_index hl.1) fun k t o part hn => by
      rw [hik, mapItem_plain hl.2, indexItem_iff hl.1]
  simp only [key]

/-- C56: if the term has an index property, the keys of the map become values of this property of the nodes. -/
theorem C56_index_property (hc : d.container = .index ∨ d.container = .indexSet) (ik : Str)
    (hi : d.index = some ik) (hk : ik ≠ "@index".toList) :
    expandElement E c none (.obj [(key, .obj m)]) fm = .ok x ↔
      ∃ os, MapOf E c key (fun _ c' => c' = c) (PropertyBy E c ik) (inOrder E m) os ∧ OfTerm d p os x := by
  have hl : d.container.contains .index = true ∧ d.container.contains .graph = false := by
    rcases hc with h | h <;> rw [h] <;> decide
  have hik : indexKeyOf (some d) = ik := by
    unfold indexKeyOf
    simp only [Option.bind_some, hi]
  rw [single_map hp hd hr (by simp) ht (.inl hl.1)]
  have key := fun os => mapOf_iff (E := E) (c := c) (cm := d.container) (ik := indexKeyOf (some d)) (key := key)
    (f := PropertyBy E c ik) (m := inOrder E m) (os := os) (mapContext_index hl.1) fun k t o part hn => by
      rw [hik, mapItem_plain hl.2, propertyItem_iff hl.1 hk]
  simp only [key]

/-- C56: under a term with an id container, the keys of a map become the identifiers of the nodes in it that
have none; the values are expanded with the context to return to. -/
theorem C56_id (hc : d.container = .id ∨ d.container = .idSet) :
    expandElement E c none (.obj [(key, .obj m)]) fm = .ok x ↔
      ∃ os, MapOf E c key (fun _ => Returned c) (NamedBy E c) (inOrder E m) os ∧ OfTerm d p os x := by
  have hl : d.container.contains .id = true ∧ d.container.contains .graph = false := by
    rcases hc with h | h <;> rw [h] <;> decide
  rw [single_map hp hd hr (by simp) ht (.inr (.inl hl.1))]
  have key := fun os => mapOf_iff (E := E) (c := c) (cm := d.container) (ik := indexKeyOf (some d)) (key := key)
    (f := NamedBy E c) (m := inOrder E m) (os := os) (mapContext_id hl.1) fun k t o part hn => by
      rw [mapItem_plain hl.2, idItem_iff hl.1]
  simp only [key]

/-- C56: under a term with a type container, the keys of a map become the first types of the nodes in it; the
values are expanded with the context to return to and the scoped context of the type. -/
theorem C56_type (hc : d.container = .type ∨ d.container = .setType) :
    expandElement E c none (.obj [(key, .obj m)]) fm = .ok x ↔
      ∃ os, MapOf E c key (TypeContext E c) (fun _ => TypedBy) (inOrder E m) os ∧ OfTerm d p os x := by
  have hl : d.container.contains .type = true ∧ d.container.contains .graph = false := by
    rcases hc with h | h <;> rw [h] <;> decide
  rw [single_map hp hd hr (by simp) ht (.inr (.inr hl.1))]
  have key := fun os => mapOf_iff (E := E) (c := c) (cm := d.container) (ik := indexKeyOf (some d)) (key := key)
    (f := fun _ => TypedBy) (m := inOrder E m) (os := os) (mapContext_type hl.1) fun k t o part hn => by
      rw [mapItem_plain hl.2, typeItem_iff hl.1 hn]
  simp only [key]

/-- C56: under a term with a container for graphs by index, the objects are put in graphs, with the keys of the
map as indexes. -/
theorem C56_graph_index (hc : d.container = .graphIndex ∨ d.container = .graphIndexSet)
    (hi : d.index = none ∨ d.index = some "@index".toList) :
    expandElement E c none (.obj [(key, .obj m)]) fm = .ok x ↔
      ∃ os, MapOf E c key (fun _ c' => c' = c) (fun k => GraphBy (IndexedBy k)) (inOrder E m) os ∧
        OfTerm d p os x := by
  have hl : d.container.contains .index = true ∧ d.container.contains .graph = true := by
    rcases hc with h | h <;> rw [h] <;> decide
  have hik : indexKeyOf (some d) = "@index".toList := by
    unfold indexKeyOf
    rcases hi with h | h <;> simp only [Option.bind_some, h]
  rw [single_map hp hd hr (by simp) ht (.inl hl.1)]
  have key := fun os => mapOf_iff (E := E) (c := c) (cm := d.container) (ik := indexKeyOf (some d)) (key := key)
    (f := fun k => GraphBy (IndexedBy k)) (m := inOrder E m) (os := os) (mapContext_index hl.1) fun k t o part hn => 
      mapItem_graph (f := IndexedBy k) hl.2 fun o => by rw [hik]; exact indexItem_iff hl.1
  simp only [key]

/-- C56: under a term with a container for graphs by identifier, the objects are put in graphs, with the keys of
the map as identifiers. -/
theorem C56_graph_id (hc : d.container = .graphId ∨ d.container = .graphIdSet) :
    expandElement E c none (.obj [(key, .obj m)]) fm = .ok x ↔
      ∃ os, MapOf E c key (fun _ => Returned c) (fun k => GraphBy (NamedBy E c k)) (inOrder E m) os ∧
        OfTerm d p os x := by
  have hl : d.container.contains .id = true ∧ d.container.contains .graph = true := by
    rcases hc with h | h <;> rw [h] <;> decide
  rw [single_map hp hd hr (by simp) ht (.inr (.inl hl.1))]
  have key := fun os => mapOf_iff (E := E) (c := c) (cm := d.container) (ik := indexKeyOf (some d)) (key := key)
    (f := fun k => GraphBy (NamedBy E c k)) (m := inOrder E m) (os := os) (mapContext_id hl.1) fun k t o part hn => 
      mapItem_graph (f := NamedBy E c k) hl.2 fun o => idItem_iff hl.1
  simp only [key]

end

/-! ## Examples -/

/-- A definition with a container. -/
def exDef (s : Str) (k : Container) : TermDef := { value := some (.id (.iri s)), container := k }

/-- A context with a term for each container, and types. -/
def exMapCtx : ACtx where
  defs := [("lang".toList, { exDef "http:lang".toList .language with direction := some (some .rtl) }),
    ("index".toList, exDef "http:index".toList .index),
    ("byprop".toList, { exDef "http:byprop".toList .indexSet with index := some "p".toList }),
    ("id".toList, exDef "http:id".toList .id),
    ("type".toList, { exDef "http:type".toList .type with reverse := true }),
    ("gi".toList, exDef "http:gi".toList .graphIndex),
    ("gid".toList, exDef "http:gid".toList .graphIdSet),
    ("none".toList, { value := some (.keyword .none) }),
    ("p".toList, exDef "http:p".toList .none),
    ("T".toList, exDef "http:T".toList .none),
    ("json".toList, { exDef "http:json".toList .none with typ := some .json }),
    ("list".toList, exDef "http:list".toList .list),
    ("set".toList, exDef "http:set".toList .set),
    ("graph".toList, exDef "http:graph".toList .graph)]

/-- The keys of this context. -/
def exMapKeys : List Str := ["lang", "index", "byprop", "id", "type", "gi", "gid", "p", "T", "json", "list", "set",
  "graph"].map String.toList

/-- They stand for properties. -/
theorem exMapCtx_property : ∀ s ∈ exMapKeys, IsProperty exXEnv exMapCtx s (.iri ("http:".toList ++ s)) := by
  intro s hs
  refine ⟨?_, ?_, .inl rfl⟩
  · revert s
    decide +kernel
  · simp [Id.str]

/-- What the value of the key expands to. -/
def exMapped (key : Str) (v : Json) : Option Expanded :=
  (expandElement exXEnv exMapCtx none (.obj [(key, v)]) false).toOption

/-- An expanded string. -/
def exPlain (s : String) : Obj := .value none (.literal (.str s.toList) none)

/-- `{"lang": {"en": ["a", null], "none": "b"}}`: the direction is that of the term. -/
example : exMapped "lang".toList (.obj [("en".toList, .arr [.str "a".toList, .null]), ("none".toList, .str "b".toList)]) =
    some (onlyProp (.iri "http:lang".toList) [.value none (.langString ⟨"a".toList, some "en".toList, some .rtl⟩),
      .value none (.langString ⟨"b".toList, none, some .rtl⟩)]) := rfl

/-- `{"index": {"1": {"@value": "a", "@index": "0"}, "2": ["b", "c"], "none": "d"}}`. -/
example : exMapped "index".toList (.obj [("1".toList, .obj [("@value".toList, .str "a".toList),
      ("@index".toList, .str "0".toList)]), ("2".toList, .arr [.str "b".toList, .str "c".toList]),
      ("none".toList, .str "d".toList)]) =
    some (onlyProp (.iri "http:index".toList) [.value (some "0".toList) (.literal (.str "a".toList) none),
      .value (some "2".toList) (.literal (.str "b".toList) none),
      .value (some "2".toList) (.literal (.str "c".toList) none), exPlain "d"]) := rfl

/-- `{"byprop": {"1": {"p": "a"}}}`: the key is added to the values of `p`. -/
example : exMapped "byprop".toList (.obj [("1".toList, .obj [("p".toList, .str "a".toList)])]) =
    some (onlyProp (.iri "http:byprop".toList) [.node (.mk none none none none none
      [(.iri "http:p".toList, [exPlain "a", exPlain "1"])] none)]) := rfl

/-- `{"id": {"http:a": {"p": "x"}, "http:b": {"@id": "http:c"}, "none": {"p": "y"}}}`. -/
example : exMapped "id".toList (.obj [("http:a".toList, .obj [("p".toList, .str "x".toList)]),
      ("http:b".toList, exRef "http:c".toList), ("none".toList, .obj [("p".toList, .str "y".toList)])]) =
    some (onlyProp (.iri "http:id".toList) [
      .node (.mk none (some (.iri "http:a".toList)) none none none [(.iri "http:p".toList, [exPlain "x"])] none),
      .node (.mk none (some (.iri "http:c".toList)) none none none [] none),
      .node (.mk none none none none none [(.iri "http:p".toList, [exPlain "y"])] none)]) := rfl

/-- `{"type": {"T": {"@type": "http:U"}}}`, with a reverse property: the key is the first type. -/
example : exMapped "type".toList (.obj [("T".toList, .obj [("@type".toList, .str "http:U".toList)])]) =
    some (onlyReverse (.iri "http:type".toList) [.mk none none
      (some [.iri "http:T".toList, .iri "http:U".toList]) none none [] none]) := rfl

/-- `{"gi": {"1": {"p": "x"}, "2": {"@graph": []}}}`: what is no graph is put in one. -/
example : exMapped "gi".toList (.obj [("1".toList, .obj [("p".toList, .str "x".toList)]),
      ("2".toList, .obj [("@graph".toList, .arr [])])]) =
    some (onlyProp (.iri "http:gi".toList) [
      .node (.mk (some "1".toList) none none (some [.node (.mk none none none none none
        [(.iri "http:p".toList, [exPlain "x"])] none)]) none [] none),
      .node (.mk (some "2".toList) none none (some []) none [] none)]) := rfl

/-- `{"gid": {"http:g": {"p": "x"}}}`. -/
example : exMapped "gid".toList (.obj [("http:g".toList, .obj [("p".toList, .str "x".toList)])]) =
    some (onlyProp (.iri "http:gid".toList) [
      .node (.mk none (some (.iri "http:g".toList)) none (some [.node (.mk none none none none none
        [(.iri "http:p".toList, [exPlain "x"])] none)]) none [] none)]) := rfl

end JsonLd.Props
