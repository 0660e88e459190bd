import Verif.Model.Traverse
import Verif.Spec.Inside
/-!
# Lemmas on traversal
-/

namespace JsonLd
open Spec

/-- Size of the value of an entry. -/
noncomputable def NEntry.content : NEntry → Nat
  | .id _ => 0
  | .type ts => sizeOf ts
  | .graph g => sizeOf g
  | .included l => sizeOf l
  | .reverse r => sizeOf r
  | .property _ os => sizeOf os

/-- Bound on the nesting of fragments. -/
noncomputable def Frag.rank : Frag → Nat
  | .indexEntry _ => 1
  | .object o => 3 * sizeOf o + 2
  | .node n => 3 * sizeOf n + 2
  | .nodeList l => 3 * sizeOf l
  | .vEntry _ => 1
  | .nEntry e => 3 * e.content + 1
  | .nValue e => 3 * e.content
  | _ => 0

theorem mem_entries {i id ty g inc ps rv} {e : NEntry} :
    e ∈ (Node.mk i id ty g inc ps rv).entries ↔
      (∃ x, id = some x ∧ e = .id x) ∨ (∃ x, ty = some x ∧ e = .type x) ∨
      (∃ x, g = some x ∧ e = .graph x) ∨ (∃ x, inc = some x ∧ e = .included x) ∨
      (∃ x, rv = some x ∧ e = .reverse x) ∨ ∃ p ∈ ps, e = .property p.1 p.2 := by
  simp only [Node.entries, List.mem_append, Option.mem_toList, Option.map_eq_some_iff,
    List.mem_map, or_assoc, eq_comm]

theorem content_lt {n : Node} {e : NEntry} (h : e ∈ n.entries) : e.content < sizeOf n := by
  obtain ⟨i, id, ty, g, inc, ps, rv⟩ := n
  rcases mem_entries.1 h with ⟨x, rfl, rfl⟩ | ⟨x, rfl, rfl⟩ | ⟨x, rfl, rfl⟩ | ⟨x, rfl, rfl⟩ |
    ⟨x, rfl, rfl⟩ | ⟨p, hp, rfl⟩ <;> simp only [NEntry.content, Node.mk.sizeOf_spec,
      Option.some.sizeOf_spec] <;> try omega
  have := List.sizeOf_lt_of_mem hp
  obtain ⟨k, l⟩ := p
  simp at this ⊢
  omega

theorem Frag.rank_sub {f h : Frag} (hs : h ∈ f.subs) : h.rank < f.rank := by
  have hnode : ∀ n : Node, h ∈ (n.index.map Frag.indexEntry).toList ++ n.entries.map Frag.nEntry →
      h.rank < 3 * sizeOf n + 2 := by
    intro n hs
    rcases List.mem_append.1 hs with hs | hs
    · simp only [Option.mem_toList, Option.map_eq_some_iff] at hs
      obtain ⟨s, _, rfl⟩ := hs
      simp only [Frag.rank]; omega
    · obtain ⟨e, he, rfl⟩ := List.mem_map.1 hs
      have := content_lt he
      simp only [Frag.rank]; omega
  cases f with
  | indexEntry s => simp only [Frag.subs, List.mem_cons, List.not_mem_nil, or_false] at hs
                    rcases hs with rfl | rfl <;> simp [Frag.rank]
  | indexKey => simp [Frag.subs] at hs
  | indexValue s => simp [Frag.subs] at hs
  | object o =>
    cases o with
    | value i v =>
      simp only [Frag.subs] at hs
      rcases List.mem_append.1 hs with hs | hs
      · simp only [Option.mem_toList, Option.map_eq_some_iff] at hs
        obtain ⟨s, _, rfl⟩ := hs
        simp [Frag.rank]
      · obtain ⟨e, he, rfl⟩ := List.mem_map.1 hs
        simp [Frag.rank]
    | list i l =>
      simp only [Frag.subs] at hs
      rcases List.mem_append.1 hs with hs | hs
      · simp only [Option.mem_toList, Option.map_eq_some_iff] at hs
        obtain ⟨s, _, rfl⟩ := hs
        simp [Frag.rank]
      · rw [List.mem_singleton.1 hs]
        simp [Frag.rank]
    | node n =>
      simp only [Frag.subs] at hs
      have := hnode n hs
      change h.rank < 3 * sizeOf (Obj.node n) + 2
      rw [Obj.node.sizeOf_spec]; omega
  | node n => exact hnode n hs
  | nodeList l =>
    simp only [Frag.subs] at hs
    obtain ⟨n, hn, rfl⟩ := List.mem_map.1 hs
    have := List.sizeOf_lt_of_mem hn
    simp only [Frag.rank]; omega
  | vEntry e => simp only [Frag.subs, List.mem_cons, List.not_mem_nil, or_false] at hs
                rcases hs with rfl | rfl <;> simp [Frag.rank]
  | vKey e => simp [Frag.subs] at hs
  | vValue e => simp [Frag.subs] at hs
  | listEntry l => simp [Frag.subs] at hs
  | nEntry e => simp only [Frag.subs, List.mem_cons, List.not_mem_nil, or_false] at hs
                rcases hs with rfl | rfl <;> simp [Frag.rank]
  | nKey e => simp [Frag.subs] at hs
  | typeFragment t => simp [Frag.subs] at hs
  | nValue e =>
    cases e with
    | id i => simp [Frag.subs] at hs
    | type ts =>
      simp only [Frag.subs] at hs
      obtain ⟨n, hn, rfl⟩ := List.mem_map.1 hs
      have := List.sizeOf_lt_of_mem (List.mem_reverse.1 hn)
      simp only [Frag.rank, NEntry.content]; omega
    | graph g =>
      simp only [Frag.subs] at hs
      obtain ⟨n, hn, rfl⟩ := List.mem_map.1 hs
      have := List.sizeOf_lt_of_mem hn
      simp only [Frag.rank, NEntry.content]; omega
    | included g =>
      simp only [Frag.subs] at hs
      obtain ⟨n, hn, rfl⟩ := List.mem_map.1 hs
      have := List.sizeOf_lt_of_mem hn
      simp only [Frag.rank, NEntry.content]; omega
    | reverse g =>
      simp only [Frag.subs] at hs
      obtain ⟨⟨k, n⟩, hn, rfl⟩ := List.mem_map.1 hs
      have := List.sizeOf_lt_of_mem hn
      simp at this
      simp only [Frag.rank, NEntry.content]; omega
    | property k g =>
      simp only [Frag.subs] at hs
      obtain ⟨n, hn, rfl⟩ := List.mem_map.1 hs
      have := List.sizeOf_lt_of_mem hn
      simp only [Frag.rank, NEntry.content]; omega

/-- The loop ends with the given output, with enough fuel. -/
def Ends (s : List Frag) : Prop := ∃ N out, ∀ fuel, N ≤ fuel → traverseLoop fuel s = some out

theorem ends_append {k : Nat} (hk : ∀ f : Frag, f.rank < k → ∀ rest, Ends rest → Ends (f :: rest))
    {fs rest : List Frag} (hfs : ∀ f ∈ fs, f.rank < k) (hr : Ends rest) : Ends (fs ++ rest) := by
  induction fs with
  | nil => exact hr
  | cons f fs ih =>
    exact hk f (hfs f List.mem_cons_self) _ (ih fun f hf => hfs f (List.mem_cons_of_mem _ hf))

theorem ends_cons (k : Nat) : ∀ f : Frag, f.rank < k → ∀ rest, Ends rest → Ends (f :: rest) := by
  induction k with
  | zero => intro f hf; omega
  | succ k ih =>
    intro f hf rest hr
    obtain ⟨N, out, h⟩ := ends_append ih (fs := f.subs.reverse) (rest := rest)
      (fun h hh => by have := Frag.rank_sub (List.mem_reverse.1 hh); omega) hr
    refine ⟨N + 1, f :: out, ?_⟩
    intro fuel hfuel
    obtain ⟨m, rfl⟩ : ∃ m, fuel = m + 1 := ⟨fuel - 1, by omega⟩
    simp [traverseLoop, h m (by omega)]

theorem ends_all (s : List Frag) : Ends s := by
  induction s with
  | nil => exact ⟨0, [], fun fuel _ => by cases fuel <;> rfl⟩
  | cons f s ih => exact ends_cons (f.rank + 1) f (by omega) s ih

theorem traverseLoop_closed {fuel : Nat} {s out : List Frag} (h : traverseLoop fuel s = some out) :
    (∀ f ∈ s, f ∈ out) ∧ ∀ g ∈ out, ∀ h ∈ g.subs, h ∈ out := by
  induction fuel generalizing s out with
  | zero =>
    cases s <;> simp [traverseLoop] at h
    subst h; simp
  | succ fuel ih =>
    cases s with
    | nil => simp [traverseLoop] at h; subst h; simp
    | cons f s =>
      simp only [traverseLoop, Option.map_eq_some_iff] at h
      obtain ⟨o, ho, rfl⟩ := h
      obtain ⟨h1, h2⟩ := ih ho
      refine ⟨?_, ?_⟩
      · intro x hx
        rcases List.mem_cons.1 hx with rfl | hx
        · exact List.mem_cons_self
        · exact List.mem_cons_of_mem _ (h1 x (List.mem_append_right _ hx))
      · intro g hg x hx
        rcases List.mem_cons.1 hg with rfl | hg
        · exact List.mem_cons_of_mem _ (h1 x (List.mem_append_left _ (List.mem_reverse.2 hx)))
        · exact List.mem_cons_of_mem _ (h2 g hg x hx)

theorem traverseLoop_sound {P : Frag → Prop} (hP : ∀ f, P f → ∀ h ∈ f.subs, P h)
    {fuel : Nat} {s out : List Frag} (h : traverseLoop fuel s = some out) (hs : ∀ f ∈ s, P f) :
    ∀ g ∈ out, P g := by
  induction fuel generalizing s out with
  | zero =>
    cases s <;> simp [traverseLoop] at h
    subst h; simp
  | succ fuel ih =>
    cases s with
    | nil => simp [traverseLoop] at h; subst h; simp
    | cons f s =>
      simp only [traverseLoop, Option.map_eq_some_iff] at h
      obtain ⟨o, ho, rfl⟩ := h
      have hf := hs f List.mem_cons_self
      intro g hg
      rcases List.mem_cons.1 hg with rfl | hg
      · exact hf
      · refine ih ho (fun x hx => ?_) g hg
        rcases List.mem_append.1 hx with hx | hx
        · exact hP f hf x (List.mem_reverse.1 hx)
        · exact hs x (List.mem_cons_of_mem _ hx)

/-- What a visited fragment is, in terms of the document. -/
def Frag.Of (d : Doc) : Frag → Prop
  | .object o => InsideNoList d (.obj o)
  | .node n => InsideNoList d (.node n)
  | .nodeList l => ∀ n ∈ l, InsideNoList d (.node n)
  | .nEntry e => ∃ n, InsideNoList d (.node n) ∧ e ∈ n.entries
  | .nKey e => ∃ n, InsideNoList d (.node n) ∧ e ∈ n.entries
  | .nValue e => ∃ n, InsideNoList d (.node n) ∧ e ∈ n.entries
  | .typeFragment t => ∃ n ts, InsideNoList d (.node n) ∧ n.types = some ts ∧ t ∈ ts
  | _ => True

theorem insideChild {d : Doc} {x y : Item} (h : InsideNoList d x) (hp : Part y x) :
    InsideNoList d y := by
  obtain ⟨o, ho, hr⟩ := h
  exact ⟨o, ho, .head hp hr⟩

theorem Frag.of_sub {d : Doc} (f : Frag) (hf : f.Of d) : ∀ h ∈ f.subs, h.Of d := by
  intro h hs
  have hnode : ∀ n : Node, InsideNoList d (.node n) →
      h ∈ (n.index.map Frag.indexEntry).toList ++ n.entries.map Frag.nEntry → h.Of d := by
    intro n hn hs
    rcases List.mem_append.1 hs with hs | hs
    · simp only [Option.mem_toList, Option.map_eq_some_iff] at hs
      obtain ⟨s, _, rfl⟩ := hs
      trivial
    · obtain ⟨e, he, rfl⟩ := List.mem_map.1 hs
      exact ⟨n, hn, he⟩
  cases f with
  | indexEntry s => simp only [Frag.subs, List.mem_cons, List.not_mem_nil, or_false] at hs
                    rcases hs with rfl | rfl <;> trivial
  | indexKey => simp [Frag.subs] at hs
  | indexValue s => simp [Frag.subs] at hs
  | object o =>
    cases o with
    | value i v =>
      simp only [Frag.subs] at hs
      rcases List.mem_append.1 hs with hs | hs
      · simp only [Option.mem_toList, Option.map_eq_some_iff] at hs
        obtain ⟨s, _, rfl⟩ := hs
        trivial
      · obtain ⟨e, he, rfl⟩ := List.mem_map.1 hs
        trivial
    | list i l =>
      simp only [Frag.subs] at hs
      rcases List.mem_append.1 hs with hs | hs
      · simp only [Option.mem_toList, Option.map_eq_some_iff] at hs
        obtain ⟨s, _, rfl⟩ := hs
        trivial
      · rw [List.mem_singleton.1 hs]
        trivial
    | node n =>
      simp only [Frag.Of] at hf
      exact hnode n (insideChild hf (Part.self n)) hs
  | node n => exact hnode n hf hs
  | nodeList l =>
    simp only [Frag.subs] at hs
    obtain ⟨n, hn, rfl⟩ := List.mem_map.1 hs
    exact hf n hn
  | vEntry e => simp only [Frag.subs, List.mem_cons, List.not_mem_nil, or_false] at hs
                rcases hs with rfl | rfl <;> trivial
  | vKey e => simp [Frag.subs] at hs
  | vValue e => simp [Frag.subs] at hs
  | listEntry l => simp [Frag.subs] at hs
  | nEntry e => simp only [Frag.subs, List.mem_cons, List.not_mem_nil, or_false] at hs
                rcases hs with rfl | rfl <;> exact hf
  | nKey e => simp [Frag.subs] at hs
  | typeFragment t => simp [Frag.subs] at hs
  | nValue e =>
    obtain ⟨n, hn, he⟩ := hf
    obtain ⟨i, id, ty, g, inc, ps, rv⟩ := n
    rcases mem_entries.1 he with ⟨x, rfl, rfl⟩ | ⟨x, rfl, rfl⟩ | ⟨x, rfl, rfl⟩ | ⟨x, rfl, rfl⟩ |
      ⟨x, rfl, rfl⟩ | ⟨p, hp, rfl⟩
    · simp [Frag.subs] at hs
    · simp only [Frag.subs] at hs
      obtain ⟨t, ht, rfl⟩ := List.mem_map.1 hs
      exact ⟨_, x, hn, rfl, List.mem_reverse.1 ht⟩
    · simp only [Frag.subs] at hs
      obtain ⟨o, ho, rfl⟩ := List.mem_map.1 hs
      exact insideChild hn (Part.graph rfl ho)
    · simp only [Frag.subs] at hs
      obtain ⟨o, ho, rfl⟩ := List.mem_map.1 hs
      exact insideChild hn (Part.included rfl ho)
    · simp only [Frag.subs] at hs
      obtain ⟨⟨k, l⟩, ho, rfl⟩ := List.mem_map.1 hs
      intro m hm
      exact insideChild hn (Part.reverse rfl ho hm)
    · simp only [Frag.subs] at hs
      obtain ⟨o, ho, rfl⟩ := List.mem_map.1 hs
      exact insideChild hn (Part.property hp ho)

/-- The item was visited. -/
def Visited (out : List Frag) : Item → Prop
  | .obj o => Frag.object o ∈ out
  | .node n => Frag.node n ∈ out ∨ Frag.object (.node n) ∈ out

section
variable {d : Doc} {fuel : Nat} {out : List Frag} (h : d.traverse fuel = some out)
include h

theorem visited_entry {n : Node} (hv : Visited out (.node n)) {e : NEntry} (he : e ∈ n.entries) :
    Frag.nKey e ∈ out ∧ Frag.nValue e ∈ out := by
  have hc := (traverseLoop_closed h).2
  have h1 : Frag.nEntry e ∈ out := by
    have hm : Frag.nEntry e ∈ (n.index.map Frag.indexEntry).toList ++ n.entries.map Frag.nEntry :=
      List.mem_append_right _ (List.mem_map_of_mem he)
    rcases hv with hv | hv
    · exact hc _ hv _ hm
    · exact hc _ hv _ hm
  exact ⟨hc _ h1 _ (by simp [Frag.subs]), hc _ h1 _ (by simp [Frag.subs])⟩

theorem visited_part {x y : Item} (hp : Part y x) (hv : Visited out x) : Visited out y := by
  have hc := (traverseLoop_closed h).2
  cases hp with
  | self n => exact Or.inr hv
  | graph hg ho =>
    rename_i n l o
    have := visited_entry h hv (e := .graph l) (by
      obtain ⟨i, id, ty, g, inc, ps, rv⟩ := n
      exact mem_entries.2 (Or.inr (Or.inr (Or.inl ⟨l, hg, rfl⟩))))
    exact hc _ this.2 _ (List.mem_map_of_mem ho)
  | included hg ho =>
    rename_i n l o
    have := visited_entry h hv (e := .included l) (by
      obtain ⟨i, id, ty, g, inc, ps, rv⟩ := n
      exact mem_entries.2 (Or.inr (Or.inr (Or.inr (Or.inl ⟨l, hg, rfl⟩)))))
    exact Or.inl (hc _ this.2 _ (List.mem_map_of_mem ho))
  | property hg ho =>
    rename_i n k l o
    have := visited_entry h hv (e := .property k l) (by
      obtain ⟨i, id, ty, g, inc, ps, rv⟩ := n
      exact mem_entries.2 (Or.inr (Or.inr (Or.inr (Or.inr (Or.inr ⟨_, hg, rfl⟩))))))
    exact hc _ this.2 _ (List.mem_map_of_mem ho)
  | reverse hg hk ho =>
    rename_i n r k l o
    have := visited_entry h hv (e := .reverse r) (by
      obtain ⟨i, id, ty, g, inc, ps, rv⟩ := n
      exact mem_entries.2 (Or.inr (Or.inr (Or.inr (Or.inr (Or.inl ⟨_, hg, rfl⟩))))))
    have h2 : Frag.nodeList l ∈ out := hc _ this.2 _ (List.mem_map.2 ⟨_, hk, rfl⟩)
    exact Or.inl (hc _ h2 _ (List.mem_map_of_mem ho))

theorem visited_of_inside {x : Item} (hx : InsideNoList d x) : Visited out x := by
  obtain ⟨o, ho, hr⟩ := hx
  have h0 : Visited out (.obj o) :=
    (traverseLoop_closed h).1 _ (List.mem_reverse.2 (List.mem_map_of_mem ho))
  induction hr using Relation.ReflTransGen.head_induction_on with
  | refl => exact h0
  | head hp _ ih => exact visited_part h hp ih

theorem visited_of : ∀ g ∈ out, g.Of d := by
  refine traverseLoop_sound Frag.of_sub h ?_
  intro f hf
  obtain ⟨o, ho, rfl⟩ := List.mem_map.1 (List.mem_reverse.1 hf)
  exact ⟨o, ho, .refl⟩

theorem inside_of_visited {x : Item} (hx : Visited out x) : InsideNoList d x := by
  cases x with
  | obj o => exact visited_of h _ hx
  | node n =>
    rcases hx with hx | hx
    · exact visited_of h _ hx
    · exact insideChild (visited_of h _ hx) (Part.self n)

end

theorem mem_blankIds {d : Doc} {fuel : Nat} {bs : List Str} (h : d.blankIds fuel = some bs)
    (b : Str) : b ∈ bs ↔ ∃ n, InsideNoList d (.node n) ∧ ownBlanks n b := by
  simp only [Doc.blankIds, Option.map_eq_some_iff] at h
  obtain ⟨out, ho, rfl⟩ := h
  simp only [List.mem_filterMap, Option.bind_eq_some_iff]
  constructor
  · rintro ⟨f, hf, i, hi, hb⟩
    have hof := visited_of ho f hf
    have hib : i = .blank b := by
      cases i <;> simp [Id.asBlank] at hb
      rw [hb]
    subst hib
    unfold Frag.intoId at hi
    split at hi <;> simp only [Option.some.injEq, reduceCtorEq] at hi
    · obtain ⟨n, hn, he⟩ := hof
      refine ⟨n, hn, Or.inr (Or.inr ?_)⟩
      obtain ⟨i, id, ty, g, inc, ps, rv⟩ := n
      rcases mem_entries.1 he with ⟨x, rfl, hx⟩ | ⟨x, rfl, hx⟩ | ⟨x, rfl, hx⟩ | ⟨x, rfl, hx⟩ |
        ⟨x, rfl, hx⟩ | ⟨p, hp, hx⟩ <;> simp at hx
      exact ⟨p, hp, by rw [← hx.1, hi]⟩
    · obtain ⟨n, hn, he⟩ := hof
      refine ⟨n, hn, Or.inl ?_⟩
      obtain ⟨i, id, ty, g, inc, ps, rv⟩ := n
      rcases mem_entries.1 he with ⟨x, rfl, hx⟩ | ⟨x, rfl, hx⟩ | ⟨x, rfl, hx⟩ | ⟨x, rfl, hx⟩ |
        ⟨x, rfl, hx⟩ | ⟨p, hp, hx⟩ <;> simp at hx
      simp only [Node.id, ← hx, hi]
    · obtain ⟨n, ts, hn, ht, hm⟩ := hof
      exact ⟨n, hn, Or.inr (Or.inl ⟨ts, ht, hi ▸ hm⟩)⟩
  · rintro ⟨n, hn, hb⟩
    have hv := visited_of_inside ho hn
    have hc := (traverseLoop_closed ho).2
    rcases hb with hb | ⟨ts, ht, hb⟩ | ⟨p, hp, hb⟩
    · have := visited_entry ho hv (e := .id (.blank b)) (by
        obtain ⟨i, id, ty, g, inc, ps, rv⟩ := n
        exact mem_entries.2 (Or.inl ⟨_, hb, rfl⟩))
      exact ⟨_, this.2, _, rfl, rfl⟩
    · have := visited_entry ho hv (e := .type ts) (by
        obtain ⟨i, id, ty, g, inc, ps, rv⟩ := n
        exact mem_entries.2 (Or.inr (Or.inl ⟨_, ht, rfl⟩)))
      exact ⟨.typeFragment (.blank b), hc _ this.2 _
        (List.mem_map_of_mem (List.mem_reverse.2 hb)), _, rfl, rfl⟩
    · have := visited_entry ho hv (e := .property p.1 p.2) (by
        obtain ⟨i, id, ty, g, inc, ps, rv⟩ := n
        exact mem_entries.2 (Or.inr (Or.inr (Or.inr (Or.inr (Or.inr ⟨_, hp, rfl⟩))))))
      exact ⟨_, this.1, p.1, rfl, by rw [hb]; rfl⟩

end JsonLd
