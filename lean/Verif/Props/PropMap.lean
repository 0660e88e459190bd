import Verif.Proofs.PropMap
import Verif.Proofs.OrderNode
import Verif.Props.DocEq
import Mathlib.Data.List.Dedup
/-!
# C79: property maps hold what was put in them
-/

namespace JsonLd
open Spec PropMap

/-- After any sequence of calls on a new map, the items found under a property — whatever the type
of the argument that denotes it — are those that the history of the calls says. -/
theorem C79_history {α : Type} (eqv : α → α → Bool) (ops : List (Op α)) (q : PKey)
    (x : Option (List α)) :
    History eqv (denotes q) ops x ↔
      (run eqv ops).get q = x.getD [] ∧ (run eqv ops).contains q = x.isSome := by
  have hr := history_run eqv (denotes q) ops
  have hget : (run eqv ops).get q = (lookupProp (denotes q) (run eqv ops)).getD [] := by
    unfold PropMap.get
    rw [find_eq]
    cases lookupProp (denotes q) (run eqv ops) <;> rfl
  have hcon : (run eqv ops).contains q = (lookupProp (denotes q) (run eqv ops)).isSome := by
    unfold PropMap.contains
    rw [find_eq]
  constructor
  · intro h
    rw [history_det h hr]
    exact ⟨hget, hcon⟩
  · rintro ⟨h1, h2⟩
    rw [hget] at h1
    rw [hcon] at h2
    have : x = lookupProp (denotes q) (run eqv ops) := by
      cases x <;> cases h : lookupProp (denotes q) (run eqv ops) <;> simp_all
    rw [this]
    exact hr

/-- `get_any` returns the item that was bound first of those that are bound, and nothing if there
is none. -/
theorem C79_any {α : Type} (ps : PropMap α) (q : PKey) :
    ps.getAny q = (ps.get q).head? := by
  unfold PropMap.getAny PropMap.get
  cases find q ps <;> rfl

/-- `remove` returns what `get` would have, and says whether the property was bound. -/
theorem C79_removed {α : Type} (ps : PropMap α) (q : PKey) :
    (ps.remove q).2.getD [] = ps.get q ∧ (ps.remove q).2.isSome = ps.contains q := by
  unfold PropMap.get PropMap.contains remove
  cases find q ps <;> exact ⟨rfl, rfl⟩

/-- Every property is listed once, with its items; the length counts the bound properties. -/
theorem C79_listed {α : Type} (eqv : α → α → Bool) (ops : List (Op α)) :
    ((run eqv ops).map Prod.fst).Nodup ∧
    (∀ p vs, (p, vs) ∈ run eqv ops ↔ History eqv p ops (some vs)) ∧
    (∀ ps : List Id, ps.Nodup → (∀ p, p ∈ ps ↔ ∃ vs, History eqv p ops (some vs)) →
      (run eqv ops).len = ps.length) ∧
    ((run eqv ops).isEmpty = true ↔ ∀ p, History eqv p ops none) := by
  have hn := nodup_run eqv ops
  have hm : ∀ p vs, (p, vs) ∈ run eqv ops ↔ History eqv p ops (some vs) := by
    intro p vs
    rw [← lookupProp_iff hn]
    constructor
    · intro h
      have := history_run eqv p ops
      rwa [h] at this
    · intro h
      exact (history_det h (history_run eqv p ops)).symm
  refine ⟨hn, hm, ?_, ?_⟩
  · intro ps hps hb
    have hp : ps.Perm ((run eqv ops).map Prod.fst) := by
      rw [List.perm_ext_iff_of_nodup hps hn]
      intro p
      rw [hb]
      constructor
      · rintro ⟨vs, h⟩
        exact List.mem_map_of_mem ((hm p vs).2 h)
      · intro h
        obtain ⟨⟨p, vs⟩, he, rfl⟩ := List.mem_map.1 h
        exact ⟨vs, (hm p vs).1 he⟩
    rw [hp.length_eq]
    simp [len]
  · unfold PropMap.isEmpty
    rw [List.isEmpty_iff]
    constructor
    · intro h p
      have := history_run eqv p ops
      rwa [h] at this
    · intro h
      cases hr : run eqv ops with
      | nil => rfl
      | cons e ps =>
        have h1 := (hm e.1 e.2).1 (by rw [hr]; exact List.mem_cons_self)
        cases history_det h1 (h e.1)

private theorem addKeys_eq (ks l : List Id) (hk : ks.Nodup) :
    l.foldl addKey ks = ks ++ (l.removeAll ks).eraseDups := by
  induction l generalizing ks with
  | nil => simp [List.removeAll]
  | cons k l ih =>
    simp only [List.foldl_cons]
    have hc := nodup_addKeys [k] hk
    simp only [List.foldl_cons, List.foldl_nil] at hc
    rw [ih _ hc]
    unfold addKey
    by_cases h : k ∈ ks
    · rw [if_pos h]
      simp [List.removeAll, h]
    · rw [if_neg h]
      have h1 : (k :: l).removeAll ks = k :: l.removeAll ks := by simp [List.removeAll, h]
      rw [h1, List.eraseDups_cons]
      have h2 : l.removeAll (ks ++ [k]) = (l.removeAll ks).filter fun b => !b == k := by
        simp only [List.removeAll, List.filter_filter]
        apply List.filter_congr
        intro a _
        by_cases e : a = k <;> simp [e]
      rw [h2]
      simp

/-- As long as nothing is removed, properties are listed in the order in which they were first
mentioned. -/
theorem C79_order {α : Type} (eqv : α → α → Bool) (ops : List (Op α))
    (h : ∀ o ∈ ops, keeps o = true) :
    (run eqv ops).map Prod.fst = (ops.flatMap binds).eraseDups := by
  have key : (run eqv ops).map Prod.fst = (ops.flatMap binds).foldl addKey [] := by
    induction ops using List.reverseRecOn with
    | nil => rfl
    | append_singleton ops o ih =>
      rw [run_append, keys_step eqv _ o (h o (by simp)),
        ih fun o ho => h o (List.mem_append_left _ ho)]
      simp
  rw [key, addKeys_eq [] _ List.nodup_nil]
  simp [List.removeAll]

/-- Removing the last property keeps the order of the others; otherwise the last property takes the
place of the removed one; a property that is not bound changes nothing. -/
theorem C79_remove {α : Type} (q : PKey) (l m : PropMap α) (vs : List α) (e : Id × List α)
    (hl : denotes q ∉ l.map Prod.fst) :
    (PropMap.remove (l ++ [(denotes q, vs)]) q).1 = l ∧
    (PropMap.remove (l ++ (denotes q, vs) :: m ++ [e]) q).1 = l ++ e :: m ∧
    (PropMap.remove l q).1 = l := by
  have skip : ∀ r : PropMap α, swapRemove q (l ++ r) = l ++ swapRemove q r := by
    intro r
    induction l with
    | nil => rfl
    | cons a l ih =>
      obtain ⟨k, ws⟩ := a
      simp only [List.map_cons, List.mem_cons, not_or] at hl
      have hk : ¬ q.matches k = true := fun h => hl.1 ((matches_iff q k).1 h).symm
      simp only [List.cons_append, swapRemove, if_neg hk, ih hl.2]
  have hq : q.matches (denotes q) = true := (matches_iff _ _).2 rfl
  refine ⟨?_, ?_, ?_⟩
  · simp [PropMap.remove, skip, swapRemove, hq]
  · simp only [PropMap.remove, List.append_assoc, skip]
    simp [swapRemove, hq]
  · have := skip []
    simpa [PropMap.remove, swapRemove] using this

/-- The items added by an `…_unique` call: the old items stay as they are, the new ones are some of
the given ones in their order, every given item is there itself or through an equivalent one, and no
added item has an equivalent item before it. -/
theorem C79_once {α : Type} (eqv : α → α → Bool) {ws vs r : List α} (h : AddedOnce eqv ws vs r) :
    ∃ us, r = ws ++ us ∧ us.Sublist vs ∧ (∀ v ∈ vs, ∃ w ∈ r, w = v ∨ eqv w v = true) ∧
      (∀ a u b, us = a ++ u :: b → ∀ w ∈ ws ++ a, eqv w u = false) := by
  induction h with
  | done ws => exact ⟨[], by simp, List.Sublist.refl _, by simp, by simp⟩
  | known ws v vs r hw _ ih =>
    obtain ⟨us, rfl, h2, h3, h4⟩ := ih
    refine ⟨us, rfl, h2.cons _, ?_, h4⟩
    intro x hx
    rcases List.mem_cons.1 hx with rfl | hx
    · obtain ⟨w, hw, he⟩ := hw
      exact ⟨w, List.mem_append_left _ hw, Or.inr he⟩
    · exact h3 x hx
  | fresh ws v vs r hw _ ih =>
    obtain ⟨us, rfl, h2, h3, h4⟩ := ih
    refine ⟨v :: us, by simp, h2.cons_cons _, ?_, ?_⟩
    · intro x hx
      rcases List.mem_cons.1 hx with rfl | hx
      · exact ⟨x, by simp, Or.inl rfl⟩
      · exact h3 x hx
    · intro a u b e w hm
      cases a with
      | nil => cases e; exact hw w (by simpa using hm)
      | cons a0 a =>
        cases e
        exact h4 a u b rfl w (by simpa using hm)

/-- A map filled by `…_unique` calls only never holds an item after an equivalent one. -/
theorem C79_unique {α : Type} (eqv : α → α → Bool) (ops : List (Op α))
    (h : ∀ o ∈ ops, unique eqv o) (q : PKey) :
    ((run eqv ops).get q).Pairwise fun a b => eqv a b = false := by
  have once : ∀ ws vs r, AddedOnce eqv ws vs r → ws.Pairwise (fun a b => eqv a b = false) →
      r.Pairwise fun a b => eqv a b = false := by
    intro ws vs r h
    induction h with
    | done => exact id
    | known _ _ _ _ _ _ ih => exact ih
    | fresh ws v vs r hw _ ih =>
      intro hp
      apply ih
      rw [List.pairwise_append]
      refine ⟨hp, by simp, ?_⟩
      intro a ha b hb
      rw [List.mem_singleton.1 hb]
      exact hw a ha
  have key : ∀ p x, History eqv p ops x → (x.getD []).Pairwise fun a b => eqv a b = false := by
    intro p x hx
    induction hx with
    | new => simp
    | call ops o x y _ he ih =>
      have ih := ih fun o ho => h o (List.mem_append_left _ ho)
      have ho := h o (by simp)
      cases he with
      | insert v => exact absurd ho id
      | insertUnique v _ r hr => exact once _ _ _ hr ih
      | insertAll vs => exact absurd ho id
      | insertAllUnique vs _ r hr => exact once _ _ _ hr ih
      | set vs => exact ho
      | remove => simp
      | clear => simp
      | extend => exact absurd ho id
      | extendUnique es vs _ r _ hr => exact once _ _ _ hr ih
      | other => exact ih
  have := key _ _ (history_run eqv (denotes q) ops)
  have hg := ((C79_history eqv ops q _).1 (history_run eqv (denotes q) ops)).1
  rw [hg]
  exact this

/-- Equivalent nodes are equal and named; equal nodes are equivalent if they are named. -/
theorem C79_equivalent_node (n m : Node) :
    n.equiv m = true ↔ n.eq m = true ∧ n.id ≠ none := by
  obtain ⟨i, id, ty, g, inc, ps, rv⟩ := n
  obtain ⟨i', id', ty', g', inc', ps', rv'⟩ := m
  simp only [Node.equiv, Node.index, Node.id, Bool.and_eq_true, ne_eq]
  constructor
  · rintro ⟨_, ⟨h1, _⟩, h3⟩
    exact ⟨h3, by rintro rfl; cases h1⟩
  · rintro ⟨h, h2⟩
    have h' := h
    simp only [Node.eq, Bool.and_eq_true] at h'
    obtain ⟨⟨⟨⟨⟨⟨hi, hid⟩, _⟩, _⟩, _⟩, _⟩, _⟩ := h'
    have hid := of_decide_eq_true hid
    subst hid
    refine ⟨hi, ⟨?_, ?_⟩, h⟩ <;> cases id <;> simp_all

/-- Equivalent objects are equal, and equal objects are equivalent unless they are lists or nodes
without identifier, which are equivalent to nothing — not even to themselves. -/
theorem C79_equivalent (a b : Obj) :
    a.equiv b = true ↔ a.eq b = true ∧
      (match a with
        | .value _ _ => True
        | .list _ _ => False
        | .node n => n.id ≠ none) := by
  cases a with
  | value i v => cases b <;> simp [Obj.equiv, Obj.eq]
  | list i l => cases b <;> simp [Obj.equiv]
  | node n =>
    cases b with
    | value => simp [Obj.equiv, Obj.eq]
    | list => simp [Obj.equiv, Obj.eq]
    | node m =>
      rw [show (Obj.node n).equiv (.node m) = n.equiv m from rfl, Obj.eq]
      exact C79_equivalent_node n m

/-- The functions used by flattening and by the readers are these. -/
theorem C79_same (ps : PropMap Obj) (k : Id) (v : Obj) (vs : List Obj) {α : Type} (qs : PropMap α)
    (ws : List α) :
    PropMap.insertAllUnique Obj.equiv ps k vs = JsonLd.insertAllUnique ps k vs ∧
    PropMap.insertUnique Obj.equiv ps k v = JsonLd.insertUnique ps k v ∧
    PropMap.insertAll qs k ws = JsonLd.insertAll k ws qs := by
  have h1 : ∀ os, PropMap.addEach Obj.equiv os vs = addUnique os vs := by
    intro os
    induction vs generalizing os with
    | nil => rfl
    | cons v vs ih => simp only [PropMap.addEach, addUnique, ih]
  refine ⟨?_, by
    unfold PropMap.insertUnique JsonLd.insertUnique; cases lookupProp k ps <;> rfl, ?_⟩
  · unfold PropMap.insertAllUnique JsonLd.insertAllUnique
    simp only [h1]
    cases lookupProp k ps <;> rfl
  · unfold PropMap.insertAll
    induction qs with
    | nil => rfl
    | cons e qs ih =>
      obtain ⟨k', us⟩ := e
      simp only [lookupProp, JsonLd.insertAll]
      by_cases h : k' = k
      · simp [h, setKey]
      · simp only [if_neg h, setKey]
        rw [← ih]
        split <;> rfl

/-! ## Examples -/

private def kA : Id := .iri "a:a".toList
private def kB : Id := .iri "a:b".toList
private def kC : Id := .blank "_:c".toList
private def oNum (n : Str) : Obj := .value none (.literal (.num n) none)
private def oAnon : Obj := .node (.mk none none none none none [] none)

/-- The order of properties changes when one is removed. -/
example : (run Obj.equiv [.insert kA (oNum "1".toList), .insert kB (oNum "2".toList),
    .insertUnique kC (oNum "3".toList), .insertUnique kC (oNum "3".toList),
    .remove (.iri "a:a".toList)]) = [(kC, [oNum "3".toList]), (kB, [oNum "2".toList])] := by
  with_unfolding_all rfl

/-- `contains` is documented to check "if the given property is associated to any object": a
property without object is also found. -/
theorem C79_contains_empty :
    ∃ (ops : List (Op Obj)) (q : PKey),
      (run Obj.equiv ops).contains q = true ∧ (run Obj.equiv ops).get q = [] :=
  ⟨[.insertAll kA []], .id kA, by decide, by with_unfolding_all rfl⟩

/-- `insert_unique` is documented to add the object "unless it is already" there: an object that is
not named is added again. -/
theorem C79_not_unique :
    ∃ (k : Id) (o : Obj), (run Obj.equiv [.insertUnique k o, .insertUnique k o]).get (.id k) = [o, o] :=
  ⟨kA, oAnon, by with_unfolding_all rfl⟩

end JsonLd
