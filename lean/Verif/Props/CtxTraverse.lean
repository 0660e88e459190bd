import Verif.Spec.CtxTraverse
import Verif.Props.PrintCtx
/-!
# C86: traversing a context
-/

namespace JsonLd
open Spec

/-! ## The order of the traversal -/

/-- The entries of the term definition in a value. -/
def termItems : DEntry → List TEntry
  | .definition _ (some (.expanded x)) => x.left
  | _ => []

/-- A value and what is visited in it. -/
def walkValue (e : DEntry) : List CFrag := .value e :: (termItems e).reverse.map .termEntry

/-- An entry and what is visited in it. -/
def walkEntry (e : DEntry) : List CFrag := .entry e :: (walkValue e ++ [.key e])

/-- A context and what is visited in it. -/
def walkCtx (e : SEntry) : List CFrag :=
  .context e :: match e with
    | .defn d => d.left.reverse.flatMap walkEntry
    | _ => []

/-- Any fragment and what is visited in it. -/
def walk : CFrag → List CFrag
  | .array es => .array es :: es.reverse.flatMap walkCtx
  | .context e => walkCtx e
  | .entry e => walkEntry e
  | .value e => walkValue e
  | .termValue (.container (some (.many ks))) =>
    .termValue (.container (some (.many ks))) :: ks.reverse.map .kind
  | f => [f]

theorem flatMap_single {α β : Type} (g : α → β) (l : List α) : (l.flatMap fun x => [g x]) = l.map g := by
  induction l with
  | nil => rfl
  | cons a l ih => simp [ih]

theorem walk_eq (f : CFrag) : walk f = f :: f.subItems.reverse.flatMap walk := by
  cases f with
  | array es =>
    rw [walk, CFrag.subItems, ← List.map_reverse, List.flatMap_map]
    rfl
  | context e =>
    cases e with
    | null => rfl
    | ref s => rfl
    | defn d =>
      rw [walk, CFrag.subItems, ← List.map_reverse, List.flatMap_map, walkCtx]
      rfl
  | entry e => 
    simp [walk, CFrag.subItems, walkEntry]
  | key e => rfl
  | value e =>
    have h : (CFrag.value e).subItems = (termItems e).map .termEntry := by
      unfold CFrag.subItems termItems
      cases e with
      | definition k o => rcases o with _ | (s | x) <;> rfl
      | _ => rfl
    rw [walk, h, ← List.map_reverse, List.flatMap_map, walkValue]
    exact congrArg _ (flatMap_single _ _).symm
  | termEntry e => rfl
  | termKey e => rfl
  | kind k => rfl
  | termValue e =>
    cases e with
    | container o =>
      rcases o with _ | (k | ks)
      · rfl
      · rfl
      · rw [walk, CFrag.subItems, ← List.map_reverse, List.flatMap_map]
        exact congrArg _ (flatMap_single _ _).symm
    | _ => rfl

theorem traverseNext_left (s : List CFrag) :
    ((traverseNext s).1 = none ∧ s.flatMap walk = [] ∧ (traverseNext s).2.flatMap walk = []) ∨
      ∃ x, (traverseNext s).1 = some x ∧ s.flatMap walk = x :: (traverseNext s).2.flatMap walk := by
  cases s with
  | nil => exact .inl ⟨rfl, rfl, rfl⟩
  | cons f s =>
    refine .inr ⟨f, rfl, ?_⟩
    rw [traverseNext, List.flatMap_cons, walk_eq, List.flatMap_append, List.cons_append]

theorem traverse_iff (c : SCtx) (l : List CFrag) :
    Yields traverseNext c.traverse l ↔ l = walk (rootOf c) := by
  rw [yields_of_left (left := fun s => s.flatMap walk) traverseNext_left]
  cases c <;> simp only [SCtx.traverse, rootOf, List.flatMap_cons, List.flatMap_nil, List.append_nil]

/-! ## Counting -/

theorem compoundsL_eq (l : List Json) : compounds.compoundsL l = (l.map compounds).sum := by
  induction l with
  | nil => rfl
  | cons j l ih => simp [compounds.compoundsL, ih]

theorem compoundsM_eq (m : List (Str × Json)) :
    compounds.compoundsM m = (m.map fun e => compounds e.2).sum := by
  induction m with
  | nil => rfl
  | cons e m ih => obtain ⟨k, j⟩ := e; simp [compounds.compoundsM, ih]

theorem pre_length {P : Printer} (j : Json) : (j.pre P).2.length = compounds j := by
  induction j using Json.ind with
  | hnull => rfl
  | hbool b => cases b <;> rfl
  | hnum n => rfl
  | hstr s => rfl
  | harr l ih =>
    rw [Json.pre, preArr, compounds, compoundsL_eq, jsonsPre_eq, List.length_cons, List.length_flatMap,
      List.map_map, Nat.add_comm]
    exact congrArg (fun x => 1 + List.sum x) (List.map_congr_left ih)
  | hobj m ih =>
    rw [Json.pre, preObj, compounds, compoundsM_eq, membersPre_eq, List.length_cons, List.length_flatMap,
      List.map_map, Nat.add_comm]
    exact congrArg (fun x => 1 + List.sum x) (List.map_congr_left fun e he => ih e.1 e.2 he)

theorem sum_entry {α : Type} {k : Str} {w : α → Json} {o : Option α} {g : α → Nat}
    (h : ∀ a, compounds (w a) = g a) :
    ((entryJson k w o).map fun e => compounds e.2).sum = (o.map g).getD 0 := by
  cases o with
  | none => rfl
  | some a => simp [entryJson, h]

theorem sum_entry0 {α : Type} {k : Str} {w : α → Json} {o : Option α} (h : ∀ a, compounds (w a) = 0) :
    ((entryJson k w o).map fun e => compounds e.2).sum = 0 := by
  cases o with
  | none => rfl
  | some a => simp [entryJson, h]

theorem compounds_nullable {α : Type} {w : α → Json} (h : ∀ a, compounds (w a) = 0) (o : Option α) :
    compounds (nullableJson w o) = 0 := by
  cases o with
  | none => rfl
  | some a => exact h a

theorem compounds_exp (x : SExp) : compounds x.toJson = 1 + insideTerm x := by
  obtain ⟨i, t, c, r, ix, l, d, co, n, p, pg, pt⟩ := x
  rw [SExp.toJson, jObject_nodup exp_keys_nodup, compounds, compoundsM_eq, insideTerm]
  simp only [List.map_append, List.sum_append]
  rw [sum_entry0 (w := nullableJson fun i : SId => .str i.str) (compounds_nullable fun _ => rfl),
    sum_entry0 (w := nullableJson fun t : SType => .str t.str) (compounds_nullable fun _ => rfl),
    sum_entry0 (w := .str) (o := r) (fun _ => rfl), sum_entry0 (w := .str) (o := ix) (fun _ => rfl),
    sum_entry0 (w := nullableJson .str) (compounds_nullable fun _ => rfl),
    sum_entry0 (w := nullableJson dirJson) (compounds_nullable fun _ => rfl),
    sum_entry0 (w := fun n : SNest => .str n.str) (fun _ => rfl), sum_entry0 (w := .bool) (o := p) (fun _ => rfl),
    sum_entry0 (w := .bool) (o := pg) (fun _ => rfl), sum_entry0 (w := .bool) (o := pt) (fun _ => rfl)]
  have e1 : ((optCtxJson c).map fun e => compounds e.2).sum = ofScoped c := by
    cases c with
    | none => rfl
    | some c => simp [optCtxJson, ofScoped]
  have e2 : ((entryJson "@container".toList (nullableJson SynContainer.toJson) co).map
      fun e => compounds e.2).sum = ofContainer co := by
    rcases co with _ | (_ | (k | ks))
    · rfl
    · rfl
    · rfl
    · have : ∀ ks : List ContainerKind, (ks.map (compounds ∘ fun k => Json.str k.asStr)).sum = 0 := by
        intro ks
        induction ks with
        | nil => rfl
        | cons k ks ih => rw [List.map_cons, List.sum_cons, ih]; rfl
      simp only [entryJson, nullableJson, SynContainer.toJson, compounds, compoundsL_eq, List.map_map,
        List.map_cons, List.map_nil, this, List.sum_cons, List.sum_nil, ofContainer, Nat.add_zero]
  rw [e1, e2]
  simp only [Nat.add_zero, Nat.zero_add]

/-- The arrays and objects of the definition of a term. -/
def ofTerm : Option STerm → Nat
  | some (.expanded x) => 1 + insideTerm x
  | _ => 0

theorem bindings_sum (bs : List (Str × Option STerm)) :
    ((bindingsToJson bs).map fun e => compounds e.2).sum = (bs.map fun b => ofTerm b.2).sum := by
  induction bs with
  | nil => rfl
  | cons b bs ih =>
    obtain ⟨k, o⟩ := b
    rcases o with _ | (s | x)
    · rw [bindingsToJson, List.map_cons, List.sum_cons, ih]; rfl
    · rw [bindingsToJson, List.map_cons, List.sum_cons, ih, STerm.toJson]; rfl
    · rw [bindingsToJson, List.map_cons, List.sum_cons, ih, STerm.toJson, compounds_exp]; rfl

theorem compounds_typeDef (p : Option Bool) : compounds (typeDefJson p) = 1 := by
  rw [typeDefJson, jObject_nodup (typeDef_keys_nodup p)]
  cases p <;> rfl

theorem compounds_def {isRef : Str → Bool} (d : SDef) (h : DefOk isRef d) :
    compounds d.toJson = 1 + d.type.isSome.toNat + (d.bindings.map fun b => ofTerm b.2).sum := by
  obtain ⟨b, i, l, d, pg, pt, t, v, vo, bs⟩ := d
  simp only [DefOk] at h
  obtain ⟨-, -, h3, h4, -⟩ := h
  rw [SDef.toJson, jObject_nodup (def_keys_nodup h3 h4), compounds, compoundsM_eq]
  simp only [List.map_append, List.sum_append, bindings_sum]
  rw [sum_entry0 (w := nullableJson .str) (o := b) (compounds_nullable fun _ => rfl),
    sum_entry0 (w := .str) (o := i) (fun _ => rfl),
    sum_entry0 (w := nullableJson .str) (o := l) (compounds_nullable fun _ => rfl),
    sum_entry0 (w := nullableJson dirJson) (compounds_nullable fun _ => rfl),
    sum_entry0 (w := .bool) (o := pg) (fun _ => rfl), sum_entry0 (w := .bool) (o := pt) (fun _ => rfl),
    sum_entry0 (w := nullableJson .str) (o := vo) (compounds_nullable fun _ => rfl),
    sum_entry (w := typeDefJson) (g := fun _ => 1) compounds_typeDef]
  have e : ((if v = true then [("@version".toList, Json.num "1.1".toList)] else []).map
      fun e => compounds e.2).sum = 0 := by cases v <;> rfl
  have e' : (t.map fun _ => 1).getD 0 = t.isSome.toNat := by cases t <;> rfl
  rw [e, e']
  simp only [Nat.add_zero, Nat.zero_add, Nat.add_assoc]

/-- Is the fragment an array or an object? The filter of context/print.rs:10. -/
def CFrag.isCompound (f : CFrag) : Bool := f.isArray || f.isObject

theorem count_map_termEntry (l : List TEntry) : (l.map CFrag.termEntry).countP CFrag.isCompound = 0 := by
  induction l with
  | nil => rfl
  | cons x l ih => rw [List.map_cons, List.countP_cons, ih]; rfl

theorem count_walkEntry (e : DEntry) :
    (walkEntry e).countP CFrag.isCompound = (CFrag.value e).isObject.toNat := by
  rw [walkEntry, walkValue, List.countP_cons, List.countP_append, List.countP_cons,
    count_map_termEntry]
  cases e with
  | definition k o => rcases o with _ | (s | x) <;> rfl
  | _ => rfl

/-- The objects seen among the entries of a definition. -/
theorem count_left (d : SDef) :
    (d.left.map fun e => (CFrag.value e).isObject.toNat).sum =
      d.type.isSome.toNat + (d.bindings.map fun b => min 1 (ofTerm b.2)).sum := by
  have hopt : ∀ {α : Type} (f : α → DEntry) (o : Option α), (∀ a, (CFrag.value (f a)).isObject = false) →
      ((o.map f).toList.map fun e => (CFrag.value e).isObject.toNat).sum = 0 := by
    intro α f o h
    cases o with
    | none => rfl
    | some a => simp [h]
  obtain ⟨b, i, l, d, pg, pt, t, v, vo, bs⟩ := d
  simp only [SDef.left, List.map_append, List.sum_append]
  rw [hopt .base b fun _ => rfl, hopt .import_ i fun _ => rfl, hopt .language l fun _ => rfl,
    hopt .direction d fun _ => rfl, hopt .propagate pg fun _ => rfl, hopt .protected_ pt fun _ => rfl,
    hopt .vocab vo fun _ => rfl]
  have e : ((if v = true then [DEntry.version] else []).map
      fun e => (CFrag.value e).isObject.toNat).sum = 0 := by cases v <;> rfl
  have e' : ((t.map DEntry.type).toList.map fun e => (CFrag.value e).isObject.toNat).sum =
      t.isSome.toNat := by cases t <;> rfl
  have e'' : ((bs.map fun b => DEntry.definition b.1 b.2).map
      fun e => (CFrag.value e).isObject.toNat).sum = (bs.map fun b => min 1 (ofTerm b.2)).sum := by
    rw [List.map_map]
    refine congrArg List.sum (List.map_congr_left fun b _ => ?_)
    obtain ⟨k, o⟩ := b
    rcases o with _ | (s | x)
    · rfl
    · rfl
    · simp only [Function.comp, CFrag.isObject, ofTerm, Bool.toNat_true]
      omega
  rw [e, e', e'']
  simp only [Nat.add_zero, Nat.zero_add]

theorem sum_map_reverse {α : Type} (f : α → Nat) (l : List α) : (l.reverse.map f).sum = (l.map f).sum := by
  rw [List.map_reverse, List.sum_reverse]

theorem bindings_split (bs : List (Str × Option STerm)) :
    (bs.map fun b => min 1 (ofTerm b.2)).sum +
      ((bs.filterMap fun b => asObject b.2).map insideTerm).sum = (bs.map fun b => ofTerm b.2).sum := by
  induction bs with
  | nil => rfl
  | cons b bs ih =>
    obtain ⟨k, o⟩ := b
    rcases o with _ | (s | x)
    · simpa [ofTerm, asObject] using ih
    · simpa [ofTerm, asObject] using ih
    · simp only [List.map_cons, List.sum_cons, List.filterMap_cons, ofTerm, asObject] at ih ⊢
      omega

theorem count_ctx {isRef : Str → Bool} (e : SEntry) (h : EntryOk isRef e) :
    (walkCtx e).countP CFrag.isCompound + ((termsOf e).map insideTerm).sum = compounds e.toJson := by
  cases e with
  | null => rfl
  | ref s => rfl
  | defn d =>
    simp only [EntryOk] at h
    rw [walkCtx, List.countP_cons, List.countP_flatMap, SEntry.toJson, compounds_def d h, termsOf]
    have e1 : (List.countP CFrag.isCompound ∘ walkEntry) = fun e => (CFrag.value e).isObject.toNat :=
      funext count_walkEntry
    have e2 : (CFrag.context (SEntry.defn d)).isCompound = true := rfl
    rw [e1, sum_map_reverse, count_left, e2, if_pos rfl, ← bindings_split]
    omega

theorem sentries_sum {isRef : Str → Bool} (es : List SEntry) (h : EntriesOk isRef es) :
    (es.map fun e => (walkCtx e).countP CFrag.isCompound).sum +
      ((es.flatMap termsOf).map insideTerm).sum = ((sentriesToJson es).map compounds).sum := by
  induction es with
  | nil => rfl
  | cons e es ih =>
    simp only [EntriesOk] at h
    have h1 := count_ctx e h.1
    have h2 := ih h.2
    simp only [List.map_cons, List.sum_cons, List.flatMap_cons, List.map_append, List.sum_append,
      sentriesToJson] at *
    omega

namespace Props

/-- C86. A traversal comes to an end, and goes as follows: the array of contexts first, then its items
from the last to the first; a context, then its entries from the last to the first; an entry, its value,
the entries of the term definition if the value is one, from the last to the first, and the key. -/
theorem C86_order (c : SCtx) (l : List CFrag) :
    Yields traverseNext c.traverse l ↔ l =
      let entry (e : DEntry) : List CFrag :=
        [.entry e, .value e] ++
        (match e with
          | .definition _ (some (.expanded x)) => x.left.reverse.map .termEntry
          | _ => []) ++
        [.key e]
      let context (e : SEntry) : List CFrag :=
        .context e :: match e with
          | .defn d => d.left.reverse.flatMap entry
          | _ => []
      match c with
      | .one e => context e
      | .many es => .array es :: es.reverse.flatMap context := by
  rw [traverse_iff]
  have h : ∀ e, walkEntry e = [.entry e, .value e] ++
      (match e with
        | .definition _ (some (.expanded x)) => x.left.reverse.map .termEntry
        | _ => []) ++ [.key e] := by
    intro e
    cases e with
    | definition k o => rcases o with _ | (s | x) <;> rfl
    | _ => rfl
  have h' : walkEntry = _ := funext h
  have h2 : ∀ e, walkCtx e = .context e :: match e with
      | .defn d => d.left.reverse.flatMap walkEntry
      | _ => [] := fun e => rfl
  have h2' : walkCtx = _ := funext h2
  cases c with
  | one e => simp only [rootOf, walk, h2', h']
  | many es => simp only [rootOf, walk, h2', h']

/-- C86. What is visited is a fragment of the context. -/
theorem C86_sound (c : SCtx) (l : List CFrag) (h : Yields traverseNext c.traverse l) (f : CFrag)
    (hf : f ∈ l) : FragmentOf c f := by
  have hin : ∀ g x, x ∈ CFrag.subItems g → In x g := by
    intro g x hx
    unfold CFrag.subItems at hx
    split at hx
    all_goals first
      | (obtain ⟨y, hy, rfl⟩ := List.mem_map.1 hx; constructor; exact hy)
      | (simp only [List.mem_cons, List.not_mem_nil, or_false] at hx; rcases hx with rfl | rfl <;> constructor)
      | cases hx
  have key : ∀ s l, Yields traverseNext s l → (∀ g ∈ s, FragmentOf c g) → ∀ g ∈ l, FragmentOf c g := by
    intro s l hy
    induction hy with
    | stop => intro _ g hg; cases hg
    | item s s' x l hn _ ih =>
      intro hs g hg
      cases s with
      | nil => cases hn
      | cons f s =>
        cases hn
        rcases List.mem_cons.1 hg with rfl | hg
        · exact hs _ List.mem_cons_self
        · refine ih (fun g hg => ?_) g hg
          rcases List.mem_append.1 hg with hg | hg
          · exact .tail (hs x List.mem_cons_self) (hin x g (List.mem_reverse.1 hg))
          · exact hs g (List.mem_cons_of_mem _ hg)
  refine key _ l h (fun g hg => ?_) f hf
  cases c <;> · cases List.mem_singleton.1 hg; exact .refl

theorem mem_walkEntry (f : CFrag) (x : DEntry) :
    f ∈ walkEntry x ↔ f = .entry x ∨ f = .key x ∨ f = .value x ∨
      ∃ k y, x = .definition k (some (.expanded y)) ∧ ∃ t ∈ y.left, f = .termEntry t := by
  have ht : f ∈ (termItems x).reverse.map CFrag.termEntry ↔
      ∃ k y, x = .definition k (some (.expanded y)) ∧ ∃ t ∈ y.left, f = .termEntry t := by
    rw [List.mem_map]
    constructor
    · rintro ⟨t, ht, rfl⟩
      rw [List.mem_reverse] at ht
      unfold termItems at ht
      split at ht
      · exact ⟨_, _, rfl, t, ht, rfl⟩
      · cases ht
    · rintro ⟨k, y, rfl, t, ht, rfl⟩
      exact ⟨t, List.mem_reverse.2 ht, rfl⟩
  rw [← ht, walkEntry, walkValue, List.mem_cons, List.mem_append, List.mem_cons, List.mem_singleton]
  constructor
  · rintro (h | (h | h) | h)
    exacts [.inl h, .inr (.inr (.inl h)), .inr (.inr (.inr h)), .inr (.inl h)]
  · rintro (h | h | h | h)
    exacts [.inl h, .inr (.inr h), .inr (.inl (.inl h)), .inr (.inl (.inr h))]

theorem mem_walkCtx (f : CFrag) (e : SEntry) :
    f ∈ walkCtx e ↔ f = .context e ∨ ∃ d, e = .defn d ∧ ∃ x ∈ d.left, f ∈ walkEntry x := by
  unfold walkCtx
  rw [List.mem_cons]
  refine or_congr Iff.rfl ?_
  cases e with
  | null => exact ⟨nofun, nofun⟩
  | ref s => exact ⟨nofun, nofun⟩
  | defn d =>
    refine List.mem_flatMap.trans ?_
    constructor
    · rintro ⟨x, hx, h⟩
      exact ⟨d, rfl, x, List.mem_reverse.1 hx, h⟩
    · rintro ⟨d', hd, x, hx, h⟩
      cases hd
      exact ⟨x, List.mem_reverse.2 hx, h⟩

/-- C86 (partial). Which fragments are visited: the array, the contexts in it, the entries of these contexts
with their keys and values, and the entries of their term definitions. Missing: whatever is inside of the
entries of term definitions. -/
theorem C86_visited_partial (c : SCtx) (l : List CFrag) (h : Yields traverseNext c.traverse l) (f : CFrag) :
    f ∈ l ↔ (∃ es, c = .many es ∧ f = .array es) ∨
      ∃ e ∈ entriesOf c, f = .context e ∨ ∃ d, e = .defn d ∧
        ∃ x ∈ d.left, f = .entry x ∨ f = .key x ∨ f = .value x ∨
          ∃ k y, x = .definition k (some (.expanded y)) ∧ ∃ t ∈ y.left, f = .termEntry t := by
  rw [traverse_iff] at h
  subst h
  simp only [← mem_walkEntry, ← mem_walkCtx]
  cases c with
  | one e =>
    simp only [rootOf, walk, entriesOf, List.mem_cons, List.not_mem_nil, or_false, exists_eq_left]
    exact ⟨.inr, fun h => h.resolve_left nofun⟩
  | many es =>
    simp only [rootOf, walk, entriesOf, List.mem_cons, List.mem_flatMap, List.mem_reverse,
      SCtx.many.injEq, exists_eq_left']

/-- The fragments inside of the entries of a term definition, starting with their keys and values, belong to
the context but are not visited: they are for no context and no term. -/
theorem C86_missed (c : SCtx) (l : List CFrag) (h : Yields traverseNext c.traverse l) (e : TEntry)
    (he : .termEntry e ∈ l) : FragmentOf c (.termKey e) ∧ FragmentOf c (.termValue e) ∧
      CFrag.termKey e ∉ l ∧ CFrag.termValue e ∉ l := by
  have hf := C86_sound c l h _ he
  refine ⟨.tail hf .termKey, .tail hf .termValue, ?_, ?_⟩ <;>
    · rw [C86_visited_partial c l h]
      rintro (⟨_, _, h⟩ | ⟨_, _, h | ⟨_, _, _, _, h | h | h | ⟨_, _, _, _, _, h⟩⟩⟩) <;> cases h

/-- C86 (partial). Arrays and objects of the context are seen, other than those inside of its term
definitions (scoped contexts and lists of containers). Missing: those inside. -/
theorem C86_count_partial {isRef : Str → Bool} (c : SCtx) (hc : CtxOk isRef c) (l : List CFrag)
    (h : Yields traverseNext c.traverse l) :
    l.countP (fun f => f.isArray || f.isObject) + (((entriesOf c).flatMap termsOf).map insideTerm).sum =
      compounds c.toJson := by
  rw [traverse_iff] at h
  subst h
  change (walk (rootOf c)).countP CFrag.isCompound + _ = _
  cases c with
  | one e =>
    simp only [CtxOk] at hc
    have := count_ctx e hc
    rw [rootOf, walk, entriesOf, SCtx.toJson, ← this, List.flatMap_cons, List.flatMap_nil, List.append_nil]
  | many es =>
    simp only [CtxOk] at hc
    have := sentries_sum es hc
    rw [rootOf, walk, List.countP_cons, List.countP_flatMap, entriesOf, SCtx.toJson, compounds,
      compoundsL_eq, sum_map_reverse, ← this]
    simp only [Function.comp_def]
    have e2 : (CFrag.array es).isCompound = true := rfl
    rw [e2, if_pos rfl]
    omega

theorem sum_zero_iff (l : List Nat) : l.sum = 0 ↔ ∀ n ∈ l, n = 0 := by
  induction l with
  | nil => simp
  | cons a l ih =>
    rw [List.sum_cons, Nat.add_eq_zero_iff, ih]
    simp

/-- C86. The number of sizes computed when the context is printed is the number of arrays and objects of
its JSON value; so what is set aside for them, by counting fragments, is never too much, and is enough
exactly if no term definition has a scoped context with arrays or objects, or a list of containers. -/
theorem C86_capacity {isRef : Str → Bool} (P : Printer) (c : SCtx) (hc : CtxOk isRef c) (l : List CFrag)
    (h : Yields traverseNext c.traverse l) :
    l.countP (fun f => f.isArray || f.isObject) ≤ (c.pre P).2.length ∧
    (l.countP (fun f => f.isArray || f.isObject) = (c.pre P).2.length ↔
      ∀ e ∈ entriesOf c, ∀ x ∈ termsOf e, insideTerm x = 0) := by
  have h1 := C86_count_partial c hc l h
  rw [ctx_pre c hc, pre_length, ← h1]
  refine ⟨Nat.le_add_right _ _, ?_⟩
  have hz : (((entriesOf c).flatMap termsOf).map insideTerm).sum = 0 ↔
      ∀ e ∈ entriesOf c, ∀ x ∈ termsOf e, insideTerm x = 0 := by
    rw [sum_zero_iff]
    simp only [List.mem_map, List.mem_flatMap]
    constructor
    · exact fun h e he x hx => h _ ⟨x, ⟨e, he, hx⟩, rfl⟩
    · rintro h _ ⟨x, ⟨e, he, hx⟩, rfl⟩
      exact h e he x hx
  rw [← hz]
  omega

/-- The sample context of C41: its traversal ends after 30 fragments, sees the four outer arrays and
objects of six, and sees the entries of the term `t` but neither the containers nor the scoped context in
it. -/
theorem C86_example : ∃ l, Yields traverseNext sampleCtx.traverse l ∧ l.length = 30 ∧
    l.countP (fun f => f.isArray || f.isObject) = 4 ∧ compounds sampleCtx.toJson = 6 :=
  ⟨_, (traverse_iff _ _).2 rfl, by decide +kernel, by decide +kernel, by decide +kernel⟩

end Props
end JsonLd
