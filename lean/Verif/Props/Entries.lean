import Verif.Spec.Entries
import Verif.Proofs.DocJson
import Verif.Proofs.FlattenInv
/-!
# C80: the iterators over entries
-/

namespace JsonLd
open Spec

/-! ## What is yielded -/

/-- The items left in an iterator over the entries of a value. -/
def VIter.left (it : VIter) : List VEntry :=
  (it.value.map VEntry.value).toList ++ (it.type.map VEntry.type).toList ++
    (it.language.map VEntry.language).toList ++ (it.direction.map VEntry.direction).toList

/-- The items left in an iterator over the entries of a node. -/
def NIter.left (it : NIter) : List NEntry :=
  (it.id.map NEntry.id).toList ++ (it.type.map NEntry.type).toList ++
    (it.graph.map NEntry.graph).toList ++ (it.included.map NEntry.included).toList ++
    (it.reverse.map NEntry.reverse).toList ++ it.properties.map fun p => NEntry.property p.1 p.2

/-- The items left in an iterator over the entries of an object. -/
def OIter.left : OIter → List OEntry
  | .value it => it.left.map OEntry.value
  | .list l => (l.map OEntry.list).toList
  | .node it => it.left.map OEntry.node

/-- The items left in an iterator over the entries of an indexed object. -/
def IIter.left (it : IIter) : List IEntry :=
  (it.index.map IEntry.index).toList ++ it.inner.left.map IEntry.object

theorem VIter.next_left (it : VIter) :
    (it.next.1 = none ∧ it.left = [] ∧ it.next.2.left = []) ∨
      ∃ x, it.next.1 = some x ∧ it.left = x :: it.next.2.left := by
  obtain ⟨v, t, l, d⟩ := it
  cases v <;> cases t <;> cases l <;> cases d <;> simp [VIter.next, VIter.left]

theorem VIter.nextBack_left (it : VIter) :
    (it.nextBack.1 = none ∧ it.left = [] ∧ it.nextBack.2.left = []) ∨
      ∃ x, it.nextBack.1 = some x ∧ it.left = it.nextBack.2.left ++ [x] := by
  obtain ⟨v, t, l, d⟩ := it
  cases v <;> cases t <;> cases l <;> cases d <;> simp [VIter.nextBack, VIter.left]

theorem NIter.next_left (it : NIter) :
    (it.next.1 = none ∧ it.left = [] ∧ it.next.2.left = []) ∨
      ∃ x, it.next.1 = some x ∧ it.left = x :: it.next.2.left := by
  obtain ⟨id, t, g, inc, r, ps⟩ := it
  cases id <;> cases t <;> cases g <;> cases inc <;> cases r <;> cases ps <;>
    simp [NIter.next, NIter.left]

theorem OIter.next_left (it : OIter) :
    (it.next.1 = none ∧ it.left = [] ∧ it.next.2.left = []) ∨
      ∃ x, it.next.1 = some x ∧ it.left = x :: it.next.2.left := by
  cases it with
  | value it =>
    rcases it.next_left with ⟨h1, h2, h3⟩ | ⟨x, h1, h2⟩
    · left; simp [OIter.next, OIter.left, h1, h2, h3]
    · right; exact ⟨.value x, by simp [OIter.next, h1], by simp [OIter.next, OIter.left, h2]⟩
  | list l => cases l <;> simp [OIter.next, OIter.left]
  | node it =>
    rcases it.next_left with ⟨h1, h2, h3⟩ | ⟨x, h1, h2⟩
    · left; simp [OIter.next, OIter.left, h1, h2, h3]
    · right; exact ⟨.node x, by simp [OIter.next, h1], by simp [OIter.next, OIter.left, h2]⟩

theorem IIter.next_left (it : IIter) :
    (it.next.1 = none ∧ it.left = [] ∧ it.next.2.left = []) ∨
      ∃ x, it.next.1 = some x ∧ it.left = x :: it.next.2.left := by
  obtain ⟨i, it⟩ := it
  cases i with
  | some i => right; exact ⟨.index i, rfl, rfl⟩
  | none =>
    rcases it.next_left with ⟨h1, h2, h3⟩ | ⟨x, h1, h2⟩
    · left; simp [IIter.next, IIter.left, h1, h2, h3]
    · right; exact ⟨.object x, by simp [IIter.next, h1], by simp [IIter.next, IIter.left, h2]⟩

theorem yields_of_left {σ α : Type} {next : σ → Option α × σ} {left : σ → List α}
    (h : ∀ s, ((next s).1 = none ∧ left s = [] ∧ left (next s).2 = []) ∨
      ∃ x, (next s).1 = some x ∧ left s = x :: left (next s).2) (s : σ) (l : List α) :
    Yields next s l ↔ l = left s := by
  constructor
  · intro hy
    induction hy with
    | stop s s' hn =>
      rcases h s with ⟨_, h2, _⟩ | ⟨x, h1, _⟩
      · exact h2.symm
      · rw [hn] at h1; cases h1
    | item s s' x l hn _ ih =>
      rcases h s with ⟨h1, _⟩ | ⟨y, h1, h2⟩
      · rw [hn] at h1; cases h1
      · rw [hn] at h1 h2; cases h1; rw [h2, ih]
  · intro hl
    induction l generalizing s with
    | nil =>
      rcases h s with ⟨h1, _⟩ | ⟨y, _, h2⟩
      · exact .stop s (next s).2 (by rw [← h1])
      · rw [h2] at hl; cases hl
    | cons x l ih =>
      rcases h s with ⟨_, h2, _⟩ | ⟨y, h1, h2⟩
      · rw [h2] at hl; cases hl
      · rw [h2] at hl; cases hl
        exact .item s (next s).2 _ _ (by rw [← h1]) (ih _ rfl)

/-- The iterator over the entries of a node yields its identifier, types, graph, included nodes,
reverse properties and properties, each if present, in this order. -/
theorem C80_node (n : Node) (l : List NEntry) :
    Yields NIter.next (NIter.of n) l ↔
      l = (n.id.map NEntry.id).toList ++ (n.types.map NEntry.type).toList ++
        (n.graph.map NEntry.graph).toList ++ (n.included.map NEntry.included).toList ++
        (n.rev.map NEntry.reverse).toList ++ n.props.map fun p => NEntry.property p.1 p.2 := by
  rw [yields_of_left NIter.next_left]
  obtain ⟨i, id, ty, g, inc, ps, rv⟩ := n
  rfl

/-- The iterator over the entries of a value yields its value, type, language and direction, each if
present, in this order. -/
theorem C80_value (v : Value) (l : List VEntry) :
    Yields VIter.next (VIter.of v) l ↔ l = VEntry.value v :: (match v with
      | .literal _ none => []
      | .literal _ (some t) => [.type (some t)]
      | .langString s => (s.language.map VEntry.language).toList ++
          (s.direction.map VEntry.direction).toList
      | .json _ => [.type none]) := by
  rw [yields_of_left VIter.next_left]
  cases v with
  | literal l t => cases t <;> rfl
  | langString s => cases hl : s.language <;> cases hd : s.direction <;> simp [VIter.of, VIter.left, hl, hd]
  | json j => rfl

/-- The entries of an indexed object are its index, if any, and its own entries. -/
theorem C80_indexed (o : Obj) (l : List IEntry) :
    Yields IIter.next (IIter.of o) l ↔ ∃ l',
      (match o with
        | .value _ v => ∃ k, Yields VIter.next (VIter.of v) k ∧ l' = k.map OEntry.value
        | .list _ items => l' = [OEntry.list items]
        | .node n => ∃ k, Yields NIter.next (NIter.of n) k ∧ l' = k.map OEntry.node) ∧
      l = ((match o with
        | .value i _ => i
        | .list i _ => i
        | .node n => n.index).map IEntry.index).toList ++ l'.map IEntry.object := by
  rw [yields_of_left IIter.next_left]
  cases o with
  | value i v =>
    constructor
    · rintro rfl
      exact ⟨_, ⟨_, (yields_of_left VIter.next_left _ _).2 rfl, rfl⟩, rfl⟩
    · rintro ⟨_, ⟨k, hk, rfl⟩, rfl⟩
      rw [(yields_of_left VIter.next_left _ _).1 hk]; rfl
  | list i items =>
    constructor
    · rintro rfl; exact ⟨_, rfl, rfl⟩
    · rintro ⟨_, rfl, rfl⟩; rfl
  | node n =>
    constructor
    · rintro rfl
      exact ⟨_, ⟨_, (yields_of_left NIter.next_left _ _).2 rfl, rfl⟩, rfl⟩
    · rintro ⟨_, ⟨k, hk, rfl⟩, rfl⟩
      rw [(yields_of_left NIter.next_left _ _).1 hk]; rfl

/-- At any moment the announced length is the number of items still to come. -/
theorem C80_length :
    (∀ (it : VIter) l, Yields VIter.next it l → it.len = l.length) ∧
    (∀ (it : NIter) l, Yields NIter.next it l → it.len = l.length) ∧
    (∀ (it : OIter) l, Yields OIter.next it l → it.len = l.length) ∧
    (∀ (it : IIter) l, Yields IIter.next it l → it.len = l.length) := by
  have hv : ∀ it : VIter, it.len = it.left.length := by
    rintro ⟨v, t, l, d⟩
    cases v <;> cases t <;> cases l <;> cases d <;> rfl
  have hn : ∀ it : NIter, it.len = it.left.length := by
    rintro ⟨id, t, g, inc, r, ps⟩
    cases id <;> cases t <;> cases g <;> cases inc <;> cases r <;>
      simp [NIter.len, NIter.left]
  have ho : ∀ it : OIter, it.len = it.left.length := by
    intro it
    cases it with
    | value it => simp [OIter.len, OIter.left, hv]
    | list l => cases l <;> rfl
    | node it => simp [OIter.len, OIter.left, hn]
  have hi : ∀ it : IIter, it.len = it.left.length := by
    rintro ⟨i, it⟩
    cases i <;> simp [IIter.len, IIter.left, ho]
  refine ⟨fun it l h => ?_, fun it l h => ?_, fun it l h => ?_, fun it l h => ?_⟩
  · rw [(yields_of_left VIter.next_left _ _).1 h, hv]
  · rw [(yields_of_left NIter.next_left _ _).1 h, hn]
  · rw [(yields_of_left OIter.next_left _ _).1 h, ho]
  · rw [(yields_of_left IIter.next_left _ _).1 h, hi]

/-- Every iterator ends, and once it has ended it stays so. -/
theorem C80_fused :
    (∀ it : NIter, ∃ l, Yields NIter.next it l) ∧ (∀ it : IIter, ∃ l, Yields IIter.next it l) ∧
    (∀ it : NIter, it.next.1 = none → it.next.2.next.1 = none) ∧
    (∀ it : IIter, it.next.1 = none → it.next.2.next.1 = none) := by
  refine ⟨fun it => ⟨_, (yields_of_left NIter.next_left _ _).2 rfl⟩,
    fun it => ⟨_, (yields_of_left IIter.next_left _ _).2 rfl⟩, fun it h => ?_, fun it h => ?_⟩
  · rcases it.next_left with ⟨_, _, h3⟩ | ⟨x, h1, _⟩
    · rcases it.next.2.next_left with ⟨h, _⟩ | ⟨y, _, h2⟩
      · exact h
      · rw [h2] at h3; cases h3
    · rw [h] at h1; cases h1
  · rcases it.next_left with ⟨_, _, h3⟩ | ⟨x, h1, _⟩
    · rcases it.next.2.next_left with ⟨h, _⟩ | ⟨y, _, h2⟩
      · exact h
      · rw [h2] at h3; cases h3
    · rw [h] at h1; cases h1

/-- Entries of values can be taken from both ends: `next_back` takes the last of the items that
`next` would still yield. -/
theorem C80_both_ends (it : VIter) (l : List VEntry) (h : Yields VIter.next it l) :
    (it.nextBack.1 = none ↔ l = []) ∧
    ∀ x, it.nextBack.1 = some x → ∃ l', Yields VIter.next it.nextBack.2 l' ∧ l = l' ++ [x] := by
  have hl := (yields_of_left VIter.next_left _ _).1 h
  subst hl
  rcases it.nextBack_left with ⟨h1, h2, _⟩ | ⟨x, h1, h2⟩
  · exact ⟨by simp [h1, h2], by simp [h1]⟩
  · refine ⟨by simp [h1, h2], ?_⟩
    rintro y hy
    rw [h1] at hy; cases hy
    exact ⟨_, (yields_of_left VIter.next_left _ _).2 rfl, h2⟩

/-- The traversal of documents (C47) reads these iterators. -/
theorem C80_traversal (n : Node) (v : Value) :
    Yields NIter.next (NIter.of n) n.entries ∧ Yields VIter.nextBack (VIter.of v) v.entriesBack := by
  constructor
  · rw [C80_node]; obtain ⟨i, id, ty, g, inc, ps, rv⟩ := n; rfl
  · have hb : ∀ it : VIter, Yields VIter.nextBack it it.left.reverse := by
      intro it
      rw [yields_of_left (left := fun it : VIter => it.left.reverse)]
      intro s
      rcases s.nextBack_left with ⟨h1, h2, h3⟩ | ⟨x, h1, h2⟩
      · left; simp [h1, h2, h3]
      · right; exact ⟨x, h1, by simp [h2]⟩
    have := hb (VIter.of v)
    have e : (VIter.of v).left.reverse = v.entriesBack := by
      cases v with
      | literal l t => cases t <;> rfl
      | langString s =>
        cases hl : s.language <;> cases hd : s.direction <;>
          simp [VIter.of, VIter.left, Value.entriesBack, hl, hd]
      | json j => rfl
    rwa [e] at this

/-! ## Keys -/

/-- `has_key` says whether an entry with this key is yielded. -/
theorem C80_has_key (n : Node) (l : List NEntry) (h : Yields NIter.next (NIter.of n) l) :
    (∀ k, n.hasKey (.keyword k) = true ↔ ∃ e ∈ l, e.keyword = some k) ∧
    (∀ p, n.hasKey (.id p) = true ↔ ∃ os, NEntry.property p os ∈ l) ∧
    n.hasKey .null = false := by
  rw [C80_node] at h
  subst h
  obtain ⟨i, id, ty, g, inc, ps, rv⟩ := n
  refine ⟨?_, ?_, rfl⟩
  · intro k
    have hp : ¬ ∃ e ∈ ps.map (fun p => NEntry.property p.1 p.2), e.keyword = some k := by
      rintro ⟨e, he, hk⟩
      obtain ⟨p, _, rfl⟩ := List.mem_map.1 he
      cases hk
    have ho : ∀ {α : Type} (o : Option α) (f : α → NEntry) (k0 : Keyword),
        (∀ x, (f x).keyword = some k0) →
        ((∃ e ∈ (o.map f).toList, e.keyword = some k) ↔ o.isSome = true ∧ k0 = k) := by
      intro α o f k0 hf
      cases o <;> simp [hf]
    simp only [Node.id, Node.types, Node.graph, Node.included, Node.rev, Node.props,
      List.mem_append, or_and_right, exists_or, hp, or_false,
      ho id .id .id (fun _ => rfl), ho ty .type .type (fun _ => rfl),
      ho g .graph .graph (fun _ => rfl), ho inc .included .included (fun _ => rfl),
      ho rv .reverse .reverse (fun _ => rfl)]
    cases k <;> simp [Node.hasKey, Node.id, Node.types, Node.graph, Node.included, Node.rev]
  · intro p
    simp only [Node.hasKey, Node.id, Node.types, Node.graph, Node.included, Node.rev, Node.props,
      List.mem_append, Option.mem_toList, Option.map_eq_some_iff, reduceCtorEq, and_false, exists_false,
      false_or, List.mem_map, NEntry.property.injEq, Prod.exists]
    rw [← Option.ne_none_iff_isSome, ne_eq, lookupProp_eq_none, not_not, List.mem_map]
    constructor
    · rintro ⟨⟨k, os⟩, he, rfl⟩; exact ⟨os, k, os, he, rfl, rfl⟩
    · rintro ⟨os, k, os', he, rfl, rfl⟩; exact ⟨_, he, rfl⟩

/-! ## The JSON representation -/

private theorem objs_map (l : List Obj) : objsToJson l = l.map Obj.toJson := by
  induction l with
  | nil => rfl
  | cons o l ih => simp [objsToJson, ih]

private theorem nodes_map (l : List Node) : nodesToJson l = l.map Node.toJson := by
  induction l with
  | nil => rfl
  | cons o l ih => simp [nodesToJson, ih]

private theorem ps_map (l : List (Id × List Obj)) :
    psToJson l = l.map fun p => (p.1.str, Json.arr (p.2.map Obj.toJson)) := by
  induction l with
  | nil => rfl
  | cons o l ih => obtain ⟨k, os⟩ := o; simp [psToJson, ih, objs_map]

private theorem rps_map (l : List (Id × List Node)) :
    rpsToJson l = l.map fun p => (p.1.str, Json.arr (p.2.map Node.toJson)) := by
  induction l with
  | nil => rfl
  | cons o l ih => obtain ⟨k, os⟩ := o; simp [rpsToJson, ih, nodes_map]

private theorem opt_keys {α : Type} (o : Option α) (k : Str) (f : α → Json) :
    ((o.map fun x => (k, f x)).toList.map Prod.fst).Sublist [k] := by
  cases o <;> simp

/-- The entries of an object are, up to order, the members of its JSON representation, if no node is
included and the list of types is not empty.
Not provable: the same for included nodes (`C80_included`) and for empty lists of types
(`C80_no_types`). -/
theorem C80_json_partial (o : Obj) (l : List IEntry) (h : Yields IIter.next (IIter.of o) l)
    (ho : OwnKeys o)
    (hi : ∀ n, o = .node n → n.included = none ∧ n.types ≠ some []) :
    ∃ m, o.toJson = .obj m ∧ m.Perm (l.map fun e => (e.key, iJson e)) := by
  have hl := (yields_of_left IIter.next_left _ _).1 h
  subst hl
  have idx : ∀ i : Option Str, ((indexEntry i).map Prod.fst).Sublist ["@index".toList] :=
    fun i => opt_keys i _ _
  cases o with
  | value i v =>
    refine ⟨v.entries ++ indexEntry i, ?_, ?_⟩
    · rw [Obj.toJson, jObject_nodup]
      have key : ((v.entries ++ indexEntry i).map Prod.fst).Sublist
          (["@language".toList, "@direction".toList, "@type".toList, "@value".toList] ++
            ["@index".toList]) := by
        rw [List.map_append]
        refine List.Sublist.append ?_ (idx i)
        cases v with
        | literal l t =>
          simp only [Value.entries, List.map_append]
          refine List.Sublist.append (l₂ := ["@language".toList, "@direction".toList, "@type".toList])
            (r₂ := ["@value".toList]) ?_ (List.Sublist.refl _)
          exact (opt_keys t _ _).trans (List.sublist_append_right ["@language".toList, "@direction".toList] _)
        | langString s =>
          simp only [Value.entries, List.map_append]
          refine List.Sublist.append (l₂ := ["@language".toList, "@direction".toList, "@type".toList])
            (r₂ := ["@value".toList]) ?_ (List.Sublist.refl _)
          exact (List.Sublist.append (opt_keys s.language _ _) (opt_keys s.direction _ _)).trans
            (List.sublist_append_left ["@language".toList, "@direction".toList] ["@type".toList])
        | json j =>
          exact List.sublist_append_right ["@language".toList, "@direction".toList]
            ["@type".toList, "@value".toList]
      exact List.Nodup.sublist key (by decide)
    · refine List.perm_append_comm.trans ?_
      have e : ((IIter.of (.value i v)).left.map fun e => (e.key, iJson e)) =
          indexEntry i ++ ((VIter.of v).left.map fun e => (e.key, vJson e)) := by
        cases i <;> simp [IIter.of, IIter.indexOf, IIter.left, OIter.of, OIter.left, indexEntry,
          IEntry.key, OEntry.key, iJson]
      rw [e]
      refine List.Perm.append_left _ ?_
      cases v with
      | literal l t =>
        have e' : ((VIter.of (.literal l t)).left.map fun e => (e.key, vJson e)) =
            [("@value".toList, l.toJson)] ++ (t.map fun t => ("@type".toList, Json.str t)).toList := by
          cases l <;> cases t <;> rfl
        rw [e']
        exact List.perm_append_comm
      | langString s =>
        have e' : ((VIter.of (.langString s)).left.map fun e => (e.key, vJson e)) =
            [("@value".toList, Json.str s.data)] ++
            ((s.language.map fun l => ("@language".toList, Json.str l)).toList ++
            (s.direction.map fun d => ("@direction".toList, Json.str d.asStr)).toList) := by
          simp only [VIter.of, VIter.left]
          cases s.language <;> cases s.direction <;> rfl
        rw [e']
        exact List.perm_append_comm
      | json j => exact List.Perm.swap _ _ _
  | list i items =>
    refine ⟨[("@list".toList, .arr (objsToJson items))] ++ indexEntry i, ?_, ?_⟩
    · rw [Obj.toJson, jObject_nodup]
      exact List.Nodup.sublist (List.Sublist.append (List.Sublist.refl ["@list".toList]) (idx i))
        (by decide)
    · refine List.perm_append_comm.trans ?_
      rw [objs_map]
      cases i <;> exact List.Perm.refl _
  | node n =>
    obtain ⟨i, id, ty, g, inc, ps, rv⟩ := n
    obtain ⟨h1, h2⟩ := hi _ rfl
    obtain ⟨h3, h4, h5⟩ := ho
    simp only [Node.included] at h1
    simp only [Node.types] at h2
    simp only [Node.props, Node.rev] at h3 h4 h5
    subst h1
    have et : typesEntry ty = (ty.map fun ts => ("@type".toList,
        Json.arr (ts.map fun t => .str t.str))).toList := by
      match ty, h2 with
      | none, _ => rfl
      | some (t :: ts), _ => rfl
    have eg : gToJson g = (g.map fun l => ("@graph".toList, Json.arr (l.map Obj.toJson))).toList := by
      cases g
      · rfl
      · simp only [gToJson, objs_map]; rfl
    have er : rvToJson rv = (rv.map fun r => ("@reverse".toList,
        Json.obj (r.map fun p => (p.1.str, .arr (p.2.map Node.toJson))))).toList := by
      cases rv with
      | none => rfl
      | some r =>
        simp only [rvToJson, rps_map]
        rw [jObject_nodup (by simpa [Function.comp_def] using h5 r rfl)]; rfl
    refine ⟨(id.map fun x => ("@id".toList, Id.toJson x)).toList ++ typesEntry ty ++ gToJson g ++
      incToJson none ++ rvToJson rv ++ psToJson ps ++ indexEntry i, ?_, ?_⟩
    · rw [Obj.toJson, Node.toJson, jObject_nodup]
      rw [et, eg, er, incToJson, ps_map, List.append_nil]
      have key : (((id.map fun x => ("@id".toList, Id.toJson x)).toList ++
          (ty.map fun ts => ("@type".toList, Json.arr (ts.map fun t => .str t.str))).toList ++
          (g.map fun l => ("@graph".toList, Json.arr (l.map Obj.toJson))).toList ++
          (rv.map fun r => ("@reverse".toList,
            Json.obj (r.map fun p => (p.1.str, .arr (p.2.map Node.toJson))))).toList ++
          (ps.map fun p => (p.1.str, Json.arr (p.2.map Obj.toJson))) ++ indexEntry i).map Prod.fst).Sublist
          (["@id".toList] ++ ["@type".toList] ++ ["@graph".toList] ++ ["@reverse".toList] ++
            (ps.map fun p => p.1.str) ++ ["@index".toList]) := by
        simp only [List.map_append]
        refine (((((opt_keys id _ _).append (opt_keys ty _ _)).append (opt_keys g _ _)).append
          (opt_keys rv _ _)).append ?_).append (idx i)
        rw [List.map_map]
        exact List.Sublist.refl _
      refine List.Nodup.sublist key ?_
      rw [(List.perm_append_comm (l₁ := ["@id".toList] ++ ["@type".toList] ++ ["@graph".toList] ++
        ["@reverse".toList] ++ (ps.map fun p => p.1.str)) (l₂ := ["@index".toList])).nodup_iff]
      rw [← List.append_assoc]
      refine List.Nodup.append (by decide) h3 ?_
      intro x hx hy
      obtain ⟨p, hp, rfl⟩ := List.mem_map.1 hy
      refine h4 p hp ?_
      revert hx
      generalize p.1.str = x
      intro hx
      have : ∀ y ∈ ["@index".toList] ++ (["@id".toList] ++ ["@type".toList] ++ ["@graph".toList] ++
        ["@reverse".toList]), y ∈ ["@id".toList, "@type".toList, "@graph".toList, "@reverse".toList,
        "@index".toList] := by decide
      exact this x hx
    · refine List.perm_append_comm.trans ?_
      rw [et, eg, er, incToJson, ps_map, List.append_nil]
      have e : ((IIter.of (.node (.mk i id ty g none ps rv))).left.map fun e => (e.key, iJson e)) =
          indexEntry i ++ ((NIter.mk id ty g none rv ps).left.map fun e => (e.key, nJson e)) := by
        cases i <;> simp [IIter.of, IIter.indexOf, IIter.left, OIter.of, OIter.left, indexEntry,
          IEntry.key, OEntry.key, iJson, Node.index, NIter.of]
      rw [e]
      refine List.Perm.append_left _ (List.Perm.of_eq ?_)
      simp only [NIter.left, List.map_append, List.map_map]
      congr 1
      cases id <;> cases ty <;> cases g <;> cases rv <;> rfl

/-! ## Where entries and members differ -/

/-- The entry of included nodes is called `@included`; the JSON representation has `@include`. -/
theorem C80_included :
    ∃ (o : Obj) (l : List IEntry) (m : List (Str × Json)), Yields IIter.next (IIter.of o) l ∧
      o.toJson = .obj m ∧ l.map IEntry.key = ["@included".toList] ∧
      m.map Prod.fst = ["@include".toList] :=
  ⟨.node (.mk none none none none (some []) [] none), _, _,
    (yields_of_left IIter.next_left _ _).2 rfl, rfl, rfl, rfl⟩

/-- The entry of an empty list of types is yielded; the JSON representation leaves it out. -/
theorem C80_no_types :
    ∃ (o : Obj) (l : List IEntry), Yields IIter.next (IIter.of o) l ∧
      o.toJson = .obj [] ∧ l.map IEntry.key = ["@type".toList] :=
  ⟨.node (.mk none none (some []) none none [] none), _,
    (yields_of_left IIter.next_left _ _).2 rfl, rfl, rfl⟩

/-- A node with an identifier, a type, a property and an index. -/
example : ∃ l, Yields IIter.next (IIter.of (.node (.mk (some "i".toList) (some (.iri "a:s".toList))
      (some [.iri "a:T".toList]) none none [(.iri "a:p".toList, [.list none []])] none))) l ∧
    l.map IEntry.key = ["@index".toList, "@id".toList, "@type".toList, "a:p".toList] :=
  ⟨_, (yields_of_left IIter.next_left _ _).2 rfl, rfl⟩

end JsonLd
