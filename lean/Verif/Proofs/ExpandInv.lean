import Verif.Proofs.ExpandGood
import Verif.Model.Expand
import Verif.Proofs.DocJsonRead
import Verif.Spec.Inside
/-!
# An invariant of expansion

Everything expansion puts into a document satisfies given conditions (`Leaf`), provided its parts do
(`XInv`).
-/

namespace JsonLd
open Spec Relation

/-- The result satisfies `Q`, or the error satisfies `X`. -/
def Ex {α : Type} (Q : α → Prop) (X : XErr → Prop) : Except XErr α → Prop
  | .ok a => Q a
  | .error e => X e

namespace Ex
variable {α β : Type} {Q Q' : α → Prop} {Q₂ : β → Prop} {X : XErr → Prop}

theorem mono {r : Except XErr α} (h : Ex Q X r) (hq : ∀ a, Q a → Q' a) : Ex Q' X r := by
  cases r with
  | error e => exact h
  | ok a => exact hq a h

theorem bind {r : Except XErr α} {f : α → Except XErr β} (h : Ex Q X r)
    (hf : ∀ a, r = .ok a → Q a → Ex Q₂ X (f a)) : Ex Q₂ X (r.bind f) := by
  cases r with
  | error e => exact h
  | ok a => exact hf a rfl h

theorem map {r : Except XErr α} {f : α → β} (h : Ex Q X r) (hf : ∀ a, r = .ok a → Q a → Q₂ (f a)) :
    Ex Q₂ X (r.map f) := by
  cases r with
  | error e => exact h
  | ok a => exact hf a rfl h

theorem foldlM {σ : Type} {P : σ → Prop} {f : σ → α → Except XErr σ} :
    ∀ {l : List α} {s : σ}, (∀ a ∈ l, ∀ s, P s → Ex P X (f s a)) → P s → Ex P X (l.foldlM f s) := by
  intro l
  induction l with
  | nil => intro s _ hs; exact hs
  | cons a l ih =>
    intro s hf hs
    rw [List.foldlM_cons]
    have := hf a (by simp) s hs
    cases h : f s a with
    | error e => rw [h] at this; exact this
    | ok s' => rw [h] at this; exact ih (fun b hb => hf b (by simp [hb])) this

theorem collectM {f : α → Except XErr (List β)} {l : List α}
    (hf : ∀ a ∈ l, Ex (fun r => ∀ b ∈ r, Q₂ b) X (f a)) :
    Ex (fun r => ∀ b ∈ r, Q₂ b) X (collectM f l) := by
  induction l with
  | nil => intro b hb; cases hb
  | cons a l ih =>
    refine (hf a (by simp)).bind fun x _ hx => (ih fun b hb => hf b (by simp [hb])).map fun y _ hy => ?_
    intro b hb
    rcases List.mem_append.1 hb with hb | hb
    · exact hx b hb
    · exact hy b hb

theorem true {r : Except XErr α} (h : ∀ e, r = .error e → X e) : Ex (fun _ => True) X r := by
  cases r with
  | error e => exact h e rfl
  | ok a => trivial

end Ex

/-- Conditions on the parts of a document: values, identifiers of nodes, types, property keys, reverse
property keys, members of graphs, and objects that are values of no property. -/
structure Leaf where
  V : Value → Prop
  I : Id → Prop
  T : Id → Prop
  K : Id → Prop
  R : Id → Prop
  G : Obj → Prop
  N : Obj → Prop

namespace Leaf

/-- The sets of a node are sets, its maps are maps; its types and its reverse properties are not empty
lists. -/
structure Shape (n : Node) : Prop where
  graph : ∀ l, n.graph = some l → l.Pairwise fun a b => b.eq a = false
  included : ∀ l, n.included = some l → l.Pairwise fun a b => b.eq a = false
  types : n.types ≠ some []
  props : (n.props.map Prod.fst).Nodup
  rev : ∀ r, n.rev = some r → r ≠ [] ∧ (r.map Prod.fst).Nodup

/-- The conditions on a node itself. -/
structure NodeAt (L : Leaf) (n : Node) : Prop where
  id : ∀ i, n.id = some i → L.I i
  types : ∀ ts, n.types = some ts → ∀ t ∈ ts, L.T t
  props : ∀ p ∈ n.props, L.K p.1
  rev : ∀ r, n.rev = some r → ∀ p ∈ r, L.R p.1
  graph : ∀ l, n.graph = some l → ∀ o ∈ l, L.G o
  shape : Shape n

/-- The conditions on an item itself. -/
def At (L : Leaf) : Item → Prop
  | .obj (.value _ v) => L.V v
  | .obj _ => True
  | .node n => L.NodeAt n

/-- The conditions on everything in an item. -/
def All (L : Leaf) (y : Item) : Prop := ∀ x, ReflTransGen PartL x y → L.At x

variable {L : Leaf}

theorem all_iff {y : Item} : L.All y ↔ L.At y ∧ ∀ c, PartL c y → L.All c := by
  constructor
  · exact fun h => ⟨h y .refl, fun c hc x hx => h x (hx.tail hc)⟩
  · rintro ⟨h1, h2⟩ x hx
    rcases ReflTransGen.cases_tail hx with rfl | ⟨c, hxc, hc⟩
    · exact h1
    · exact h2 c hc x hxc

theorem all_value {i : Option Str} {v : Value} : L.All (.obj (.value i v)) ↔ L.V v := by
  rw [all_iff]
  refine ⟨fun h => h.1, fun h => ⟨h, ?_⟩⟩
  rintro c hc
  cases hc with
  | part h => cases h

theorem all_list {i : Option Str} {l : List Obj} :
    L.All (.obj (.list i l)) ↔ ∀ o ∈ l, L.All (.obj o) := by
  rw [all_iff]
  refine ⟨fun h o ho => h.2 _ (.item ho), fun h => ⟨trivial, ?_⟩⟩
  rintro c hc
  cases hc with
  | part h => cases h
  | item h' => exact h _ h'

theorem all_node {n : Node} : L.All (.obj (.node n)) ↔ L.All (.node n) := by
  rw [all_iff]
  refine ⟨fun h => h.2 _ (.part (.self n)), fun h => ⟨trivial, ?_⟩⟩
  rintro c hc
  cases hc with
  | part hp => cases hp; exact h

/-- Everything in the node satisfies the conditions. -/
structure NodeAll (L : Leaf) (n : Node) : Prop where
  at_ : L.NodeAt n
  graph : ∀ l, n.graph = some l → ∀ o ∈ l, L.All (.obj o)
  included : ∀ l, n.included = some l → ∀ m ∈ l, L.All (.node m)
  props : ∀ p ∈ n.props, ∀ o ∈ p.2, L.All (.obj o)
  rev : ∀ r, n.rev = some r → ∀ p ∈ r, ∀ m ∈ p.2, L.All (.node m)

theorem nodeAll_iff {n : Node} : L.All (.node n) ↔ L.NodeAll n := by
  rw [all_iff]
  constructor
  · rintro ⟨h1, h2⟩
    exact ⟨h1, fun l hl o ho => h2 _ (.part (.graph hl ho)),
      fun l hl o ho => h2 _ (.part (.included hl ho)),
      fun p hp o ho => h2 _ (.part (.property (k := p.1) hp ho)),
      fun r hr p hp o ho => h2 _ (.part (.reverse hr (k := p.1) hp ho))⟩
  · rintro ⟨h1, h2, h3, h4, h5⟩
    refine ⟨h1, ?_⟩
    rintro c hc
    cases hc with
    | part h =>
      cases h with
      | graph h h' => exact h2 _ h _ h'
      | included h h' => exact h3 _ h _ h'
      | property h h' => exact h4 _ h _ h'
      | reverse h h' h'' => exact h5 _ h _ h' _ h''

theorem nodeAll_empty : L.All (.node (.mk none none none none none [] none)) := by
  rw [nodeAll_iff]
  exact ⟨⟨nofun, nofun, nofun, nofun, nofun, ⟨nofun, nofun, nofun, .nil, nofun⟩⟩, nofun, nofun, nofun, nofun⟩

theorem nodeAll_setId {n : Node} (h : L.All (.node n)) {i : Option Id} (hi : ∀ j, i = some j → L.I j) :
    L.All (.node (n.setId i)) := by
  rw [nodeAll_iff] at h ⊢
  obtain ⟨x, i0, ty, g, inc, ps, rv⟩ := n
  obtain ⟨⟨a1, a2, a3, a4, a5, ⟨s1, s2, s3, s4, s5⟩⟩, b1, b2, b3, b4⟩ := h
  exact ⟨⟨hi, a2, a3, a4, a5, ⟨s1, s2, s3, s4, s5⟩⟩, b1, b2, b3, b4⟩

theorem nodeAll_setIndex {n : Node} (h : L.All (.node n)) {i : Option Str} :
    L.All (.node (n.setIndex i)) := by
  rw [nodeAll_iff] at h ⊢
  obtain ⟨x, i0, ty, g, inc, ps, rv⟩ := n
  obtain ⟨⟨a1, a2, a3, a4, a5, ⟨s1, s2, s3, s4, s5⟩⟩, b1, b2, b3, b4⟩ := h
  exact ⟨⟨a1, a2, a3, a4, a5, ⟨s1, s2, s3, s4, s5⟩⟩, b1, b2, b3, b4⟩

theorem nodeAll_setIncluded {n : Node} (h : L.All (.node n)) {l : List Node}
    (hl : ∀ m ∈ l, L.All (.node m)) (hs : l.Pairwise fun a b => b.eq a = false) :
    L.All (.node (n.setIncluded (some l))) := by
  rw [nodeAll_iff] at h ⊢
  obtain ⟨x, i0, ty, g, inc, ps, rv⟩ := n
  obtain ⟨⟨a1, a2, a3, a4, a5, ⟨s1, s2, s3, s4, s5⟩⟩, b1, b2, b3, b4⟩ := h
  exact ⟨⟨a1, a2, a3, a4, a5, ⟨s1, fun l' h => by cases h; exact hs, s3, s4, s5⟩⟩, b1, fun l' h m hm => by cases h; exact hl m hm, b3, b4⟩

theorem nodeAll_setGraph {n : Node} (h : L.All (.node n)) {l : List Obj}
    (hl : ∀ o ∈ l, L.All (.obj o) ∧ L.G o) (hs : l.Pairwise fun a b => b.eq a = false) :
    L.All (.node (n.setGraphEntry (some l))) := by
  rw [nodeAll_iff] at h ⊢
  obtain ⟨x, i0, ty, g, inc, ps, rv⟩ := n
  obtain ⟨⟨a1, a2, a3, a4, a5, ⟨s1, s2, s3, s4, s5⟩⟩, b1, b2, b3, b4⟩ := h
  exact ⟨⟨a1, a2, a3, a4, fun l' h o ho => by cases h; exact (hl o ho).2,
      ⟨fun l' h => by cases h; exact hs, s2, s3, s4, s5⟩⟩,
    fun l' h o ho => by cases h; exact (hl o ho).1, b2, b3, b4⟩

theorem nodeAll_pushType {n : Node} (h : L.All (.node n)) {t : Id} (ht : L.T t) :
    L.All (.node (n.pushType t)) := by
  rw [nodeAll_iff] at h ⊢
  obtain ⟨x, i0, ty, g, inc, ps, rv⟩ := n
  obtain ⟨⟨a1, a2, a3, a4, a5, ⟨s1, s2, s3, s4, s5⟩⟩, b1, b2, b3, b4⟩ := h
  refine ⟨⟨a1, ?_, a3, a4, a5, ⟨s1, s2, fun h => ?_, s4, s5⟩⟩, b1, b2, b3, b4⟩
  · intro ts hts t' ht'
    cases hts
    rcases List.mem_append.1 ht' with h | h
    · cases ty with
      | none => cases h
      | some l => exact a2 l rfl t' h
    · rw [List.mem_singleton.1 h]; exact ht
  · have := Option.some.inj h
    simp at this

theorem nodeAll_unshiftType {n : Node} (h : L.All (.node n)) {t : Id} (ht : L.T t) :
    L.All (.node (n.unshiftType t)) := by
  rw [nodeAll_iff] at h ⊢
  obtain ⟨x, i0, ty, g, inc, ps, rv⟩ := n
  obtain ⟨⟨a1, a2, a3, a4, a5, ⟨s1, s2, s3, s4, s5⟩⟩, b1, b2, b3, b4⟩ := h
  refine ⟨⟨a1, ?_, a3, a4, a5, ⟨s1, s2, fun h => ?_, s4, s5⟩⟩, b1, b2, b3, b4⟩
  · intro ts hts t' ht'
    cases hts
    rcases List.mem_cons.1 ht' with h | h
    · rw [h]; exact ht
    · cases ty with
      | none => cases h
      | some l => exact a2 l rfl t' h
  · cases h

theorem nodeAll_insertProp {n : Node} (h : L.All (.node n)) {p : Id} {os : List Obj} (hp : L.K p)
    (ho : ∀ o ∈ os, L.All (.obj o)) : L.All (.node (n.insertProp p os)) := by
  rw [nodeAll_iff] at h ⊢
  obtain ⟨x, i0, ty, g, inc, ps, rv⟩ := n
  obtain ⟨⟨a1, a2, a3, a4, a5, ⟨s1, s2, s3, s4, s5⟩⟩, b1, b2, b3, b4⟩ := h
  refine ⟨⟨a1, a2, ?_, a4, a5, ⟨s1, s2, s3, keys_insertAll s4, s5⟩⟩, b1, b2, ?_, b4⟩
  · intro q hq
    rcases (mem_insertAll hq).1 with h | h
    · rw [h]; exact hp
    · obtain ⟨r, hr, h⟩ := List.mem_map.1 h
      rw [← h]; exact a3 r hr
  · intro q hq o hoq
    rcases (mem_insertAll hq).2 o hoq with h | ⟨r, hr, h⟩
    · exact ho o h
    · exact b3 r hr o h

theorem insertAll_ne {α : Type} {k : Id} {vs : List α} {ps : List (Id × List α)} :
    insertAll k vs ps ≠ [] := by
  cases ps with
  | nil => exact nofun
  | cons p ps => unfold insertAll; split <;> exact nofun

theorem nodeAll_insertRev {n : Node} (h : L.All (.node n)) {p : Id} {ns : List Node} (hp : L.R p)
    (ho : ∀ m ∈ ns, L.All (.node m)) : L.All (.node (n.insertRev p ns)) := by
  rw [nodeAll_iff] at h ⊢
  obtain ⟨x, i0, ty, g, inc, ps, rv⟩ := n
  obtain ⟨⟨a1, a2, a3, a4, a5, ⟨s1, s2, s3, s4, s5⟩⟩, b1, b2, b3, b4⟩ := h
  have hrv : ∀ q ∈ rv.getD [], L.R q.1 ∧ ∀ m ∈ q.2, L.All (.node m) := by
    cases rv with
    | none => nofun
    | some r => exact fun q hq => ⟨a4 r rfl q hq, b4 r rfl q hq⟩
  have hn : ((rv.getD []).map Prod.fst).Nodup := by
    cases rv with
    | none => exact .nil
    | some r => exact (s5 r rfl).2
  refine ⟨⟨a1, a2, a3, ?_, a5, ⟨s1, s2, s3, s4, fun r hr => ?_⟩⟩, b1, b2, b3, ?_⟩
  · intro r hr q hq
    cases hr
    rcases (mem_insertAll hq).1 with h | h
    · rw [h]; exact hp
    · obtain ⟨r, hr, h⟩ := List.mem_map.1 h
      rw [← h]; exact (hrv r hr).1
  · cases hr
    exact ⟨insertAll_ne, keys_insertAll hn⟩
  · intro r hr q hq o hoq
    cases hr
    rcases (mem_insertAll hq).2 o hoq with h | ⟨r, hr, h⟩
    · exact ho o h
    · exact (hrv r hr).2 o h

theorem all_setIndex {o : Obj} (h : L.All (.obj o)) {i : Option Str} : L.All (.obj (o.setIndex i)) := by
  cases o with
  | value _ v => rw [Obj.setIndex, all_value]; exact all_value.1 h
  | list _ l => rw [Obj.setIndex, all_list]; exact all_list.1 h
  | node n => rw [Obj.setIndex, all_node]; exact nodeAll_setIndex (all_node.1 h)

theorem all_graphNode {o : Obj} (h : L.All (.obj o)) (hg : L.G o) : L.All (.obj (graphNode o)) := by
  unfold graphNode
  rw [all_node]
  have := nodeAll_setGraph (L := L) nodeAll_empty (l := [o]) (by simp [h, hg]) (by simp)
  exact this

end Leaf

theorem setFold_pairwise {α : Type} {eq : α → α → Bool} (l acc : List α)
    (h : acc.Pairwise fun a b => eq b a = false) :
    (l.foldl (setInsert eq) acc).Pairwise fun a b => eq b a = false := by
  induction l generalizing acc with
  | nil => exact h
  | cons x l ih =>
    refine ih _ ?_
    unfold setInsert
    split
    · exact h
    · rename_i hx
      rw [List.pairwise_append]
      refine ⟨h, List.pairwise_singleton _ _, ?_⟩
      intro a ha b hb
      rw [List.mem_singleton.1 hb]
      simp only [List.any_eq_true, not_exists, not_and, Bool.not_eq_true] at hx
      exact hx a ha

/-- What the conditions and the contexts have to satisfy. -/
structure XInv (E : XEnv) (P : ACtx → Prop) (L : Leaf) (X : XErr → Prop) : Prop where
  prev : ∀ {c p}, P c → c.previous = some p → P p
  process : ∀ {c l b o c'}, P c → E.process c l b o = .ok c' → P c'
  err : ∀ e, e ≠ .fuel → e ≠ .literal .panic → X e
  id : ∀ {c s voc t i}, P c → expandIri E.toIriEnv c (some (.ofStr s)) true voc = .ok (some t) →
    nodeIdOfTerm t = some i → L.I i
  type : ∀ {c s i}, P c →
    expandIri E.toIriEnv c (some (.ofStr s)) true (some E.opts.vocab) = .ok (some (.id i)) →
    (i.isValid = true ∨ E.opts.invalid = .keep) → L.T i
  typeMap : ∀ {c k d s i}, P c → c.get k = some d → d.container.contains .type = true →
    xKey E c s = .ok (some (.id i)) → L.T i
  prop : ∀ {c s p}, P c → xKey E c s = .ok (some (.id p)) → ':' ∈ p.str →
    (p.isValid = true ∨ E.opts.invalid = .keep) → L.K p ∧ L.R p
  indexProp : ∀ {c k d m p}, P c → c.get k = some d → d.index = some m → m ≠ "@index".toList →
    xKey E c m = .ok (some (.id p)) → L.K p
  lit : ∀ {c prop l i v}, P c → l ≠ .null →
    expandLiteral E.toIriEnv E.opts.vocab c prop l = .ok (.value i v) → L.V v
  value : ∀ {c it es j i v}, P c →
    expandValue E.toIriEnv E.opts.vocab it c es j = .ok (some (.value i v)) → L.V v
  string : ∀ s, L.V (.literal (.str s) none)
  lang : ∀ s : LangString, (s.language ≠ none ∨ s.direction ≠ none) → L.V (.langString s)
  json : ∀ j, L.V (.json j)
  graphTop : ∀ {o}, topLevel o = true → L.N o → L.G o
  graphCont : ∀ {c k d}, P c → c.get k = some d → d.container.contains .graph = true → ∀ o, L.G o
  nNode : ∀ n : Node, (∀ g, n.graph = some g → ∀ o ∈ g, topLevel o = true ∧ L.N o) → L.N (.node n)
  nValue : ∀ i v, L.N (.value i v)
  nList : ∀ {c prop}, P c → noProp prop = true →
    (containerOf (prop.bind c.get)).contains .list = true → ∀ i l, L.N (.list i l)

/-- What an expanded element satisfies. -/
structure EPost (L : Leaf) (prop : Option Str) (x : Expanded) : Prop where
  all : ∀ o ∈ x.toList, L.All (.obj o)
  top : noProp prop = true → ∀ o ∈ x.toList, L.N o

/-- What the entries of an object satisfy. -/
def EntriesOk (E : XEnv) (c : ACtx) (n : Nat) (es : List XEntry) : Prop :=
  ∀ e ∈ es, xKey E c e.key = .ok (some e.term) ∧ e.value.depth < n

/-- What the node being built satisfies: its graph has members that may be at the top level. -/
structure StOk (L : Leaf) (st : XState) : Prop where
  all : L.All (.node st.node)
  graph : ∀ g, st.node.graph = some g → ∀ o ∈ g, topLevel o = true ∧ L.N o

/-- An operation that does not change the graph of the node. -/
theorem StOk.keep {L : Leaf} {st : XState} (h : StOk L st) {f : Node → Node}
    (hf : ∀ n, (f n).graph = n.graph) (ha : L.All (.node (f st.node))) :
    StOk L { st with node := f st.node } :=
  ⟨ha, fun g hg => h.graph g (by rw [← hf]; exact hg)⟩

theorem graph_setId {i : Option Id} (n : Node) : (n.setId i).graph = n.graph := by cases n; rfl
theorem graph_setIndex {i : Option Str} (n : Node) : (n.setIndex i).graph = n.graph := by cases n; rfl
theorem graph_setIncluded {l : Option (List Node)} (n : Node) : (n.setIncluded l).graph = n.graph := by
  cases n; rfl
theorem graph_pushType {t : Id} (n : Node) : (n.pushType t).graph = n.graph := by cases n; rfl
theorem graph_insertProp {p : Id} {os : List Obj} (n : Node) : (n.insertProp p os).graph = n.graph := by
  cases n; rfl
theorem graph_insertRev {p : Id} {ns : List Node} (n : Node) : (n.insertRev p ns).graph = n.graph := by
  cases n; rfl

/-- What the recursive calls satisfy. -/
structure RecOk (E : XEnv) (P : ACtx → Prop) (L : Leaf) (X : XErr → Prop) (n : Nat) (R : XRec) : Prop where
  elem : ∀ {c prop j fm}, P c → j.depth ≤ n → Ex (EPost L prop) X (R.elem c prop j fm)
  entries : ∀ {st c tsc prop es}, 0 < n → P c → P tsc → StOk L st → EntriesOk E c n es →
    Ex (StOk L) X (R.entries st c tsc prop es)

theorem depth_pos (j : Json) : 0 < j.depth := by
  cases j <;> simp [Json.depth]

theorem depth_forceArray {j x : Json} (h : x ∈ forceArray j) : x.depth ≤ j.depth := by
  unfold forceArray at h
  split at h
  · rw [Json.depth]; exact Nat.le_succ_of_le (depth_le_of_mem h)
  · rw [List.mem_singleton.1 h]

theorem depth_arr {l : List Json} {x : Json} (h : x ∈ l) : x.depth < (Json.arr l).depth := by
  rw [Json.depth]; exact Nat.lt_succ_of_le (depth_le_of_mem h)

theorem depth_obj {m : List (Str × Json)} {e : Str × Json} (h : e ∈ m) :
    e.2.depth < (Json.obj m).depth := by
  rw [Json.depth]; exact Nat.lt_succ_of_le (depth_le_of_mem_entries h)

theorem mem_sortByKey {α : Type} {key : α → Str} {l : List α} {a : α} : a ∈ sortByKey key l ↔ a ∈ l := by
  unfold sortByKey
  exact (List.perm_insertionSort _ l).mem_iff

theorem mem_sortIf {α : Type} {b : Bool} {key : α → Str} {l : List α} {a : α} :
    a ∈ sortIf b key l ↔ a ∈ l := by
  unfold sortIf
  split
  · exact mem_sortByKey
  · rfl

section
variable {E : XEnv} {P : ACtx → Prop} {L : Leaf} {X : XErr → Prop} (H : XInv E P L X)
include H

theorem xIri_ex {c : ACtx} {s : Str} {dr : Bool} {voc : Option Action} :
    Ex (fun _ => True) X (xIri E c s dr voc) := by
  unfold xIri
  split
  · trivial
  · exact H.err _ nofun nofun

theorem xKey_ex {c : ACtx} {s : Str} : Ex (fun _ => True) X (xKey E c s) := xIri_ex H

theorem xProcess_ex {c : ACtx} (hc : P c) {l : SCtx} {b : Option Str} {o : Opts} :
    Ex P X (xProcess E c l b o) := by
  unfold xProcess
  split
  · rename_i h; exact H.process hc h
  · exact H.err _ nofun nofun

theorem scopedCtx_ex {c : ACtx} (hc : P c) {d : Option TermDef} {o : Opts} :
    Ex P X (scopedCtx E d c o) := by
  unfold scopedCtx
  split
  · split
    · exact xProcess_ex H hc
    · exact hc
  · exact hc

theorem xEntries_ex {c : ACtx} {m : List (Str × Json)} {n : Nat} (hm : ∀ e ∈ m, e.2.depth < n) :
    Ex (EntriesOk E c n) X (xEntries E c m) := by
  induction m with
  | nil => nofun
  | cons e m ih =>
    obtain ⟨k, v⟩ := e
    rw [xEntries]
    refine (xKey_ex H).bind fun t ht _ => (ih fun e he => hm e (by simp [he])).map fun es _ hes => ?_
    cases t with
    | none => exact hes
    | some t =>
      intro e he
      rcases List.mem_cons.1 he with rfl | he
      · exact ⟨ht, hm (k, v) (by simp)⟩
      · exact hes e he

omit H in
theorem asNodes_ex {os : List Obj} {e : XErr} (he : X e) (h : ∀ o ∈ os, L.All (.obj o)) :
    Ex (fun ns => ∀ m ∈ ns, L.All (.node m)) X (asNodes e os) := by
  induction os with
  | nil => nofun
  | cons o os ih =>
    cases o with
    | node n =>
      rw [asNodes]
      refine (ih fun o ho => h o (by simp [ho])).map fun ns _ hns => ?_
      intro m hm
      rcases List.mem_cons.1 hm with rfl | hm
      · exact Leaf.all_node.1 (h _ (by simp))
      · exact hns m hm
    | value i v => exact he
    | list i l => exact he

theorem xIri_id {c : ACtx} (hc : P c) {s : Str} {voc : Option Action} {t : Option CTerm}
    (h : xIri E c s true voc = .ok t) : ∀ i, t.bind nodeIdOfTerm = some i → L.I i := by
  intro i hi
  cases t with
  | none => cases hi
  | some t =>
    unfold xIri at h
    split at h
    · rename_i h'; cases h; exact H.id hc h' hi
    · cases h

theorem keyId_ex {c : ACtx} (hc : P c) {v : Json} {st : XState} (hs : StOk L st) :
    Ex (StOk L) X (keyId E c v st) := by
  unfold keyId
  split
  · exact (xIri_ex H).map fun t ht _ => hs.keep graph_setId (Leaf.nodeAll_setId hs.all (xIri_id H hc ht))
  · exact H.err _ nofun nofun

theorem keyType1_ex {c : ACtx} (hc : P c) {v : Json} {st : XState} (hs : StOk L st) :
    Ex (StOk L) X (keyType1 E c st v) := by
  unfold keyType1
  split
  · refine (xIri_ex H).bind fun t ht _ => ?_
    have ht' : ∀ i, t = some (.id i) → (i.isValid = true ∨ E.opts.invalid = .keep) → L.T i := by
      rintro i rfl hi
      unfold xIri at ht
      split at ht
      · rename_i h'; cases ht; exact H.type hc h' hi
      · cases ht
    split
    · exact hs
    · split
      · rename_i hk; exact hs.keep graph_pushType (Leaf.nodeAll_pushType hs.all (ht' _ rfl (.inr hk)))
      · exact hs
      · exact H.err _ nofun nofun
    · rename_i i hi
      refine hs.keep graph_pushType (Leaf.nodeAll_pushType hs.all (ht' _ rfl (.inl ?_)))
      cases i with
      | invalid s => exact absurd rfl (hi s)
      | iri s => rfl
      | blank s => rfl
    · exact H.err _ nofun nofun
  · exact H.err _ nofun nofun

variable {n : Nat} {R : XRec} (HR : RecOk E P L X n R)
include HR

theorem keyGraph_ex {c : ACtx} (hc : P c) {v : Json} (hv : v.depth ≤ n) {st : XState} (hs : StOk L st) :
    Ex (StOk L) X (keyGraph R c v st) := by
  refine (HR.elem hc hv).map fun x _ hx => ?_
  have key : ∀ o ∈ setCollect Obj.eq (x.toList.filter topLevel), L.All (.obj o) ∧ topLevel o = true ∧ L.N o := by
    refine (setCollect_spec _ ?_).2
    intro o ho
    rw [List.mem_filter] at ho
    exact ⟨hx.all o ho.1, ho.2, hx.top (by decide +kernel) o ho.1⟩
  refine ⟨Leaf.nodeAll_setGraph hs.all (fun o ho => ?_)
    (setCollect_spec (P := fun _ => True) _ fun _ _ => trivial).1, fun g hg o ho => ?_⟩
  · have := key o ho
    exact ⟨this.1, H.graphTop this.2.1 this.2.2⟩
  · have hg : (st.node.setGraphEntry (some (setCollect Obj.eq (x.toList.filter topLevel)))).graph = some g := hg
    have he : ∀ (n : Node) (g : Option (List Obj)), (n.setGraphEntry g).graph = g := by
      intro n g; cases n; rfl
    rw [he] at hg
    cases hg
    exact (key o ho).2

theorem keyIncluded_ex {c : ACtx} (hc : P c) {v : Json} (hv : v.depth ≤ n) {st : XState}
    (hs : StOk L st) : Ex (StOk L) X (keyIncluded E R c v st) := by
  unfold keyIncluded
  split
  · exact hs
  · refine (HR.elem hc hv).bind fun x _ hx =>
      (asNodes_ex (H.err _ (by simp) (by simp)) hx.all).map fun ns _ hns =>
        hs.keep graph_setIncluded (Leaf.nodeAll_setIncluded hs.all ?_ ?_)
    · have h0 : ∀ m ∈ st.node.included.getD [], L.All (.node m) := by
        intro m hm
        cases hi : st.node.included with
        | none => rw [hi] at hm; cases hm
        | some l =>
          rw [hi] at hm
          exact (Leaf.nodeAll_iff.1 hs.all).included l hi m hm
      have key : ∀ (ns acc : List Node), (∀ m ∈ ns, L.All (.node m)) → (∀ m ∈ acc, L.All (.node m)) →
          ∀ m ∈ ns.foldl (setInsert Node.eq) acc, L.All (.node m) := by
        intro ns
        induction ns with
        | nil => exact fun acc _ h => h
        | cons a ns ih =>
          intro acc h1 h2
          refine ih _ (fun m hm => h1 m (by simp [hm])) ?_
          intro m hm
          unfold setInsert at hm
          split at hm
          · exact h2 m hm
          · rcases List.mem_append.1 hm with hm | hm
            · exact h2 m hm
            · rw [List.mem_singleton.1 hm]; exact h1 a (by simp)
      exact key ns _ hns h0
  
    · refine (setFold_pairwise ns _ ?_)
      cases hi : st.node.included with
      | none => exact .nil
      | some l => exact (Leaf.nodeAll_iff.1 hs.all).at_.shape.included l hi

omit HR in
theorem keyIndex_ex {v : Json} {st : XState} (hs : StOk L st) : Ex (StOk L) X (keyIndex v st) := by
  unfold keyIndex
  split
  · exact hs.keep graph_setIndex (Leaf.nodeAll_setIndex hs.all)
  · exact H.err _ nofun nofun

omit HR in
theorem addReverse_ex {p : Id} (hp : L.R p) {os : List Obj} (ho : ∀ o ∈ os, L.All (.obj o)) {st : XState}
    (hs : StOk L st) : Ex (StOk L) X (addReverse p os st) :=
  (asNodes_ex (H.err _ (by simp) (by simp)) ho).map fun _ _ hns =>
    hs.keep graph_insertRev (Leaf.nodeAll_insertRev hs.all hp hns)

theorem reverseProp_ex {c : ACtx} (hc : P c) {p : Id} (hk : L.K p) (hp : L.R p) {k : Str} {v : Json}
    (hv : v.depth ≤ n) {st : XState} (hs : StOk L st) : Ex (StOk L) X (reverseProp R c p k v st) := by
  refine (HR.elem hc hv).bind fun x _ hx => ?_
  split
  · exact hs.keep graph_insertProp (Leaf.nodeAll_insertProp hs.all hk hx.all)
  · exact addReverse_ex H hp hx.all hs

theorem reverseStep_ex {c : ACtx} (hc : P c) {e : Str × Json}
    (hv : e.2.depth ≤ n) {st : XState} (hs : StOk L st) : Ex (StOk L) X (reverseStep E R c st e) := by
  refine (xKey_ex H).bind fun t ht _ => ?_
  split
  · exact H.err _ nofun nofun
  · rename_i p
    split
    · rename_i hcol
      have hcol : ':' ∈ p.str := by simpa using hcol
      split
      · rename_i hval
        have := H.prop hc ht hcol (.inl hval)
        exact reverseProp_ex H HR hc this.1 this.2 hv hs
      · split
        · rename_i hk
          have := H.prop hc ht hcol (.inr hk)
          exact reverseProp_ex H HR hc this.1 this.2 hv hs
        · exact hs
        · exact H.err _ nofun nofun
    · split
      · exact H.err _ nofun nofun
      · exact hs
  · split
    · exact H.err _ nofun nofun
    · exact hs

theorem keyReverse_ex {c : ACtx} (hc : P c) {v : Json}
    (hv : v.depth ≤ n) {st : XState} (hs : StOk L st) : Ex (StOk L) X (keyReverse E R c v st) := by
  unfold keyReverse
  split
  · refine Ex.foldlM (fun e he st hs => reverseStep_ex H HR hc ?_ hs) hs
    exact Nat.le_trans (Nat.le_of_lt (depth_obj (mem_sortIf.1 he))) hv
  · exact H.err _ nofun nofun

theorem nestStep_ex {c tsc : ACtx} (hc : P c) (ht : P tsc) {prop : Option Str} {key : Str} {v : Json}
    (hv : v.depth ≤ n) {st : XState} (hs : StOk L st) :
    Ex (StOk L) X (nestStep E R c tsc prop key st v) := by
  refine (scopedCtx_ex H hc).bind fun c' _ hc' => ?_
  split
  · refine (xEntries_ex H (n := n) fun e he => ?_).bind fun es _ hes => HR.entries (Nat.lt_of_lt_of_le (depth_pos _) hv) hc' ht hs hes
    exact Nat.lt_of_lt_of_le (depth_obj (mem_sortIf.1 he)) hv
  · exact H.err _ nofun nofun

theorem keywordEntry_ex {c tsc : ACtx} (hc : P c) (ht : P tsc) {prop : Option Str} {key : Str}
    {k : Keyword} {v : Json} (hv : v.depth ≤ n) {st : XState} (hs : StOk L st) :
    Ex (StOk L) X (keywordEntry E R c tsc prop key k v st) := by
  unfold keywordEntry
  split
  · exact keyId_ex H hc hs
  · exact Ex.foldlM (fun e he st hs => keyType1_ex H ht hs) hs
  · exact keyGraph_ex H HR hc hv hs
  · exact keyIncluded_ex H HR hc hv hs
  · exact ⟨hs.all, hs.graph⟩
  · exact ⟨hs.all, hs.graph⟩
  · exact keyIndex_ex H hs
  · exact keyReverse_ex H HR hc hv hs
  · exact Ex.foldlM (fun e he st hs => nestStep_ex H HR hc ht
      (Nat.le_trans (depth_forceArray he) hv) hs) hs
  · exact H.err _ nofun nofun
  · exact hs

omit HR in
theorem langItem_all {s : Str} {l : Option Str} {d : Option Direction} : L.All (.obj (langItem s l d)) := by
  unfold langItem
  split
  · rename_i r hr
    rw [Leaf.all_value]
    unfold LangString.new at hr
    split at hr
    · rename_i h
      cases hr
      exact H.lang _ (by simpa [Option.isSome_iff_ne_none] using h)
    · cases hr
  · rw [Leaf.all_value]
    exact H.string _

omit HR in
theorem langMap_ex {c : ACtx} {d : Option TermDef} {m : List (Str × Json)} :
    Ex (fun os => ∀ o ∈ os, L.All (.obj o)) X (langMap E c d m) := by
  refine Ex.collectM fun e _ => Ex.collectM fun j _ => ?_
  unfold langMapItem
  split
  · nofun
  · refine (xKey_ex H).map fun t _ _ o ho => ?_
    rw [List.mem_singleton.1 ho]
    exact langItem_all H
  · exact H.err _ nofun nofun

omit HR in
theorem mapContext_ex {c : ACtx} (hc : P c) {cm : Container} {i : Str} :
    Ex P X (mapContext E c cm i) := by
  have hc' : P (if (cm.contains .type || cm.contains .id) = true then c.previous.getD c else c) := by
    split
    · cases hp : c.previous with
      | none => exact hc
      | some p => exact H.prev hc hp
    · exact hc
  unfold mapContext
  dsimp only
  split
  · exact scopedCtx_ex H hc'
  · exact hc'

omit H HR in
theorem expandLiteral_form {env : IriEnv} {vocab : Action} {c : ACtx} {prop : Option Str} {l : Literal}
    {o : Obj} (h : expandLiteral env vocab c prop l = .ok o) :
    (∃ i v, o = .value i v) ∨ ∃ t voc s, expandIri env c (some (.ofStr s)) true voc = .ok t ∧
      o = idNode (t.bind nodeIdOfTerm) := by
  unfold expandLiteral at h
  dsimp only at h
  split at h
  · split at h
    · rename_i ht
      cases h
      exact .inr ⟨_, _, _, ht, rfl⟩
    · cases h
  · split at h
    · cases h
    · rename_i ht
      cases h
      exact .inr ⟨_, _, _, ht, rfl⟩
  · cases h
  · cases h; exact .inl ⟨_, _, rfl⟩
  · cases h
    left
    unfold untypedLiteral
    split
    · unfold untypedString
      split <;> exact ⟨_, _, rfl⟩
    · exact ⟨_, _, rfl⟩

omit HR in
theorem expandLiteral_all {c : ACtx} (hc : P c) {prop : Option Str} {l : Literal} (hl : l ≠ .null)
    {o : Obj} (h : expandLiteral E.toIriEnv E.opts.vocab c prop l = .ok o) : L.All (.obj o) := by
  rcases expandLiteral_form h with ⟨i, v, rfl⟩ | ⟨t, voc, s, ht, rfl⟩
  · rw [Leaf.all_value]
    exact H.lit hc hl h
  · unfold idNode
    rw [Leaf.all_node]
    have := Leaf.nodeAll_setId (L := L) Leaf.nodeAll_empty (i := t.bind nodeIdOfTerm) (by
      intro j hj
      cases t with
      | none => cases hj
      | some t => exact H.id hc ht hj)
    exact this

omit HR in
theorem literal_err {c : ACtx} {prop : Option Str} {l : Literal} {e : LitErr}
    (h : expandLiteral E.toIriEnv E.opts.vocab c prop l = .error e) : X (.literal e) :=
  H.err _ nofun fun he => by cases he; exact expandLiteral_no_panic h

omit HR in
theorem indexProp_ex {c : ACtx} (hc : P c) {d : TermDef} {k m index : Str} (hd : c.get k = some d)
    (hm : d.index = some m) (hn : m ≠ "@index".toList) {o : Obj} (ho : L.All (.obj o)) :
    Ex (fun r => ∀ x, r = some x → L.All (.obj x)) X (indexProp E c m index o) := by
  unfold indexProp
  split
  · rename_i h; exact literal_err H h
  · rename_i r hr
    refine (xKey_ex H).bind fun t ht _ => ?_
    split
    · split
      · intro x hx
        cases hx
        rw [Leaf.all_node]
        refine Leaf.nodeAll_insertProp (Leaf.all_node.1 ho) (H.indexProp hc hd hm hn ht) ?_
        intro y hy
        rw [List.mem_singleton.1 hy]
        exact expandLiteral_all H hc (by simp) hr
      · exact H.err _ nofun nofun
    · nofun

omit HR in
theorem indexItem_ex {c : ACtx} (hc : P c) {d : Option TermDef} {k index : Str} (hd : c.get k = d)
    {t : CTerm} (ht : expandedIndex E c index = .ok (some t)) {o : Obj} (ho : L.All (.obj o)) :
    Ex (fun r => ∀ x, r = some x → L.All (.obj x)) X
      (indexItem E c (containerOf d) (indexKeyOf d) index t o) := by
  unfold indexItem
  split
  · rename_i h
    simp only [Bool.and_eq_true, decide_eq_true_eq] at h
    cases d with
    | none => exact absurd rfl h.2
    | some d =>
      cases hm : d.index with
      | none => exact absurd (by simp [indexKeyOf, hm]) h.2
      | some m =>
        have : indexKeyOf (some d) = m := by simp [indexKeyOf, hm]
        rw [this] at h ⊢
        exact indexProp_ex H hc hd hm h.2 ho
  · split
    · intro x hx
      cases hx
      exact Leaf.all_setIndex ho
    · split
      · refine Ex.map (Q := fun x => L.All (.obj x)) ?_ (fun a _ ha x hx => by cases hx; exact ha)
        unfold indexId
        split
        · refine (xIri_ex H).map fun t ht _ => ?_
          rw [Leaf.all_node]
          exact Leaf.nodeAll_setId (Leaf.all_node.1 ho) (xIri_id H hc ht)
        · exact ho
      · split
        · rename_i hty
          refine Ex.map (Q := fun x => L.All (.obj x)) ?_ (fun a _ ha x hx => by cases hx; exact ha)
          unfold indexType
          split
          · rename_i i
            have hT : L.T i := by
              cases d with
              | none => exact absurd hty (by decide)
              | some d =>
                refine H.typeMap hc hd hty (s := index) ?_
                unfold expandedIndex at ht
                cases hk : xKey E c index with
                | error e => rw [hk] at ht; cases ht
                | ok t' =>
                  rw [hk] at ht
                  have ht := Except.ok.inj ht
                  dsimp only at ht
                  split at ht
                  · cases ht
                  · rw [ht]
            split
            · refine Leaf.all_node.2 ?_
              exact Leaf.nodeAll_unshiftType (Leaf.all_node.1 ho) hT
            · exact ho
          · exact H.err _ nofun nofun
        · intro x hx
          cases hx
          exact ho

omit HR in
theorem mapItem_ex {c : ACtx} (hc : P c) {d : Option TermDef} {k index : Str} (hd : c.get k = d)
    {t : Option CTerm} (ht : expandedIndex E c index = .ok t) {o : Obj} (ho : L.All (.obj o)) :
    Ex (fun r => ∀ x ∈ r, L.All (.obj x)) X
      (mapItem E c (containerOf d) (indexKeyOf d) index t o) := by
  unfold mapItem
  dsimp only
  have ho' : L.All (.obj (if ((containerOf d).contains .graph && !o.isGraph) = true then graphNode o
      else o)) := by
    split
    · rename_i h
      rw [Bool.and_eq_true] at h
      cases d with
      | none => exact absurd h.1 (by decide)
      | some d => exact Leaf.all_graphNode ho (H.graphCont hc hd h.1 o)
    · exact ho
  generalize (if ((containerOf d).contains .graph && !o.isGraph) = true then graphNode o else o) = o' at ho'
  split
  · intro x hx
    rw [List.mem_singleton.1 hx]
    exact ho'
  · refine (indexItem_ex H hc hd ht ho').map fun r _ hr x hx => ?_
    exact hr x (by simpa using hx)

theorem xMapEntry_ex {c : ACtx} (hc : P c) {d : Option TermDef} {k : Str} (hd : c.get k = d)
    {key : Str} {e : Str × Json} (he : e.2.depth ≤ n) :
    Ex (fun r => ∀ x ∈ r, L.All (.obj x)) X
      (xMapEntry E R c (containerOf d) (indexKeyOf d) key e) := by
  refine (mapContext_ex H hc).bind fun c' _ hc' => ?_
  have hx : Ex (fun _ => True) X (expandedIndex E c e.1) := (xKey_ex H).map fun _ _ _ => trivial
  refine hx.bind fun t ht _ => (HR.elem hc' he).bind fun x _ hx => ?_
  exact Ex.collectM fun o ho => mapItem_ex H hc hd ht (hx.all o ho)

theorem propValue_ex {c : ACtx} (hc : P c) {key : Str} {v : Json} (hv : v.depth ≤ n) :
    Ex (fun x => ∀ o ∈ x.toList, L.All (.obj o)) X (propValue E R c (c.get key) key v) := by
  unfold propValue
  dsimp only
  split
  · intro o ho
    rw [List.mem_singleton.1 ho, Leaf.all_value]
    exact H.json _
  · split
    · rename_i m
      split
      · exact (langMap_ex H).map fun _ _ h => h
      · split
        · refine (Ex.collectM (Q₂ := fun o => L.All (.obj o)) fun e he => ?_).map fun _ _ h => h
          exact xMapEntry_ex H HR hc rfl
            (Nat.le_trans (Nat.le_of_lt (depth_obj (mem_sortIf.1 he))) hv)
        · exact (HR.elem hc hv).mono fun x h => h.all
    · exact (HR.elem hc hv).mono fun x h => h.all

omit H HR in
theorem wrapList_all {cm : Container} {x : Expanded} (h : ∀ o ∈ x.toList, L.All (.obj o)) :
    ∀ o ∈ (wrapList cm x).toList, L.All (.obj o) := by
  unfold wrapList
  split
  · intro o ho
    rw [List.mem_singleton.1 ho, Leaf.all_list]
    exact h
  · exact h

omit HR in
theorem wrapGraph_all {c : ACtx} (hc : P c) {k : Str} {x : Expanded} (h : ∀ o ∈ x.toList, L.All (.obj o)) :
    ∀ o ∈ (wrapGraph (containerOf (c.get k)) x).toList, L.All (.obj o) := by
  unfold wrapGraph
  split
  · rename_i hg
    simp only [Bool.and_eq_true] at hg
    intro o ho
    obtain ⟨o', ho', rfl⟩ := List.mem_map.1 ho
    cases hd : c.get k with
    | none => rw [hd] at hg; exact absurd hg.1.1 (by decide)
    | some d =>
      rw [hd] at hg
      exact Leaf.all_graphNode (h o' ho') (H.graphCont hc hd hg.1.1 o')
  · exact h

omit HR in
theorem addProp_ex {d : Option TermDef} {p : Id} (hk : L.K p) (hp : L.R p) {x : Expanded}
    (h : ∀ o ∈ x.toList, L.All (.obj o)) {st : XState} (hs : StOk L st) :
    Ex (StOk L) X (addProp d p x st) := by
  unfold addProp
  split
  · exact hs
  · split
    · exact addReverse_ex H hp h hs
    · exact hs.keep graph_insertProp (Leaf.nodeAll_insertProp hs.all hk h)

theorem propEntry_ex {c : ACtx} (hc : P c) {key : Str} {p : Id} (hk : L.K p) (hp : L.R p) {v : Json}
    (hv : v.depth ≤ n) {st : XState} (hs : StOk L st) : Ex (StOk L) X (propEntry E R c key p v st) :=
  (propValue_ex H HR hc hv).bind fun _ _ hx =>
    addProp_ex H hk hp (wrapGraph_all H hc (wrapList_all hx)) hs

theorem entryStep_ex {c tsc : ACtx} (hc : P c) (ht : P tsc) {prop : Option Str} {e : XEntry}
    (hx : xKey E c e.key = .ok (some e.term)) (hv : e.value.depth ≤ n) {st : XState} (hs : StOk L st) :
    Ex (StOk L) X (entryStep E R c tsc prop st e) := by
  unfold entryStep
  split
  · exact hs
  · exact hs
  · split
    · exact H.err _ nofun nofun
    · split
      · exact H.err _ nofun nofun
      · exact keywordEntry_ex H HR hc ht hv hs
  · rename_i p hp
    rw [hp] at hx
    split
    · rename_i hcol
      have hcol : ':' ∈ p.str := by simpa using hcol
      unfold idEntry
      split
      · split
        · rename_i hk
          have := H.prop hc hx hcol (.inr hk)
          exact propEntry_ex H HR hc this.1 this.2 hv hs
        · exact hs
        · exact H.err _ nofun nofun
      · rename_i hi
        have := H.prop hc hx hcol (.inl (by
          cases p with
          | invalid s => exact absurd rfl (hi s)
          | iri s => rfl
          | blank s => rfl))
        exact propEntry_ex H HR hc this.1 this.2 hv hs
    · unfold plainEntry
      split
      · exact H.err _ nofun nofun
      · split
        · exact H.err _ nofun nofun
        · exact hs

theorem entriesBody_ex {st : XState} {c tsc : ACtx} {prop : Option Str} {es : List XEntry} (hc : P c)
    (ht : P tsc) (hs : StOk L st) (he : EntriesOk E c (n + 1) es) :
    Ex (StOk L) X (entriesBody E R st c tsc prop es) :=
  Ex.foldlM (fun e hm _ hs => entryStep_ex H HR hc ht (he e hm).1 (Nat.le_of_lt_succ (he e hm).2) hs) hs

omit H in
theorem xItems_ex {c : ACtx} (hc : P c) {prop : Option Str} {fm : Bool} {l : List Json}
    (hl : ∀ j ∈ l, j.depth ≤ n) :
    Ex (fun os => ∀ o ∈ os, L.All (.obj o) ∧ (noProp prop = true → L.N o)) X
      (xItems R c prop fm l) :=
  Ex.collectM fun j hj => (HR.elem hc (hl j hj)).map fun _ _ hx o ho =>
    ⟨hx.all o ho, fun hp => hx.top hp o ho⟩

theorem expandNode_ex {c tsc : ACtx} (hc : P c) (ht : P tsc) {prop : Option Str} {es : List XEntry}
    (he : EntriesOk E c (n + 1) es) : Ex (EPost L prop) X (expandNode E R c tsc prop es) := by
  refine (entriesBody_ex H HR hc ht ⟨Leaf.nodeAll_empty, fun _ h => by cases h⟩ he).map fun st _ hs => ?_
  unfold nodeResult
  split
  · exact ⟨nofun, nofun⟩
  · split
    · exact ⟨nofun, nofun⟩
    · constructor
      · intro o ho
        rw [List.mem_singleton.1 ho, Leaf.all_node]
        exact hs.all
      · intro _ o ho
        rw [List.mem_singleton.1 ho]
        exact H.nNode _ hs.graph

omit HR in
theorem elemValue_ex {tsc : ACtx} (ht : P tsc) {it : Option CTerm} {es : List XEntry} {v : Json}
    {prop : Option Str} : Ex (EPost L prop) X (elemValue E tsc it es v) := by
  unfold elemValue
  split
  · exact H.err _ nofun nofun
  · rename_i o ho
    have hv : ∃ i w, o = .value i w := by
      unfold expandValue at ho
      split at ho
      · cases ho
      · unfold valueResult at ho
        split at ho
        · split at ho
          · cases ho
          · cases ho; exact ⟨_, _, rfl⟩
        · split at ho
          · cases ho
          · cases ho
          · split at ho
            · unfold langValue at ho
              split at ho
              · cases ho
              · split at ho
                · split at ho
                  · cases ho; exact ⟨_, _, rfl⟩
                  · cases ho
                · cases ho
            · cases ho; exact ⟨_, _, rfl⟩
    obtain ⟨i, w, rfl⟩ := hv
    constructor
    · intro x hx
      rw [List.mem_singleton.1 hx, Leaf.all_value]
      exact H.value ht ho
    · intro _ x hx
      rw [List.mem_singleton.1 hx]
      exact H.nValue _ _
  · exact ⟨nofun, nofun⟩

omit H HR in
theorem lastEntry_mem {k : Keyword} {es : List XEntry} {v : Json} (h : lastEntry k es = some v) :
    ∃ e ∈ es, e.value = v ∧ e.term = .keyword k := by
  unfold lastEntry at h
  cases hl : (es.filter fun e => decide (e.term = .keyword k)).getLast? with
  | none => rw [hl] at h; cases h
  | some e =>
    rw [hl] at h
    have := List.mem_of_getLast? hl
    rw [List.mem_filter] at this
    exact ⟨e, this.1, Option.some.inj h, by simpa using this.2⟩

omit HR in
theorem listIndex_ex {i : Option Str} {es : List XEntry} : Ex (fun _ => True) X (listIndex i es) := by
  induction es generalizing i with
  | nil => trivial
  | cons e es ih =>
    rw [listIndex]
    split
    · split
      · exact ih
      · exact H.err _ nofun nofun
    · exact ih
    · exact H.err _ nofun nofun

theorem elemKind_ex {c tsc : ACtx} (hc : P c) (ht : P tsc) {prop : Option Str} {it : Option CTerm}
    {es : List XEntry} (he : EntriesOk E c (n + 1) es) :
    Ex (EPost L prop) X (elemKind E R c tsc prop it es) := by
  unfold elemKind
  split
  · rename_i v _ _ hv
    split at hv
    · cases hv
    · rename_i hp
      obtain ⟨e, hm, rfl, _⟩ := lastEntry_mem hv
      refine (listIndex_ex H).bind fun i _ _ => ?_
      refine (xItems_ex HR hc fun j hj =>
        Nat.le_trans (depth_forceArray hj) (Nat.le_of_lt_succ (he e hm).2)).map fun os _ hos => ?_
      constructor
      · intro o ho
        rw [List.mem_singleton.1 ho, Leaf.all_list]
        exact fun o ho => (hos o ho).1
      · exact fun h => absurd h hp
  · rename_i hv
    obtain ⟨e, hm, rfl, _⟩ := lastEntry_mem hv
    have : Ex (fun _ => True) X (setEntries es) := by
      unfold setEntries
      split
      · trivial
      · exact H.err _ nofun nofun
    exact this.bind fun _ _ _ => HR.elem hc (Nat.le_of_lt_succ (he e hm).2)
  · exact elemValue_ex H ht
  · exact expandNode_ex H HR hc ht he

omit HR in
theorem prelim_ex {c : ACtx} {m : List (Str × Json)} : Ex (fun _ => True) X (prelim E c m) := by
  induction m with
  | nil => trivial
  | cons e m ih =>
    exact (xKey_ex H).bind fun _ _ _ => ih.map fun _ _ _ => trivial

omit HR in
theorem objContext_ex {c : ACtx} (hc : P c) {prop : Option Str} {m : List (Str × Json)} {fm : Bool} :
    Ex P X (objContext E c prop m fm) := by
  refine (prelim_ex H).bind fun r _ _ => ?_
  have hr : P (revert c m fm r) := by
    unfold revert
    split
    · rename_i p hp
      split
      · exact H.prev hc hp
      · exact hc
    · exact hc
  refine (scopedCtx_ex H hr).bind fun c' _ hc' => ?_
  unfold localContext
  split
  · exact hc'
  · split
    · exact H.err _ nofun nofun
    · exact xProcess_ex H hc'
  · exact H.err _ nofun nofun

theorem elemObj_ex {c : ACtx} (hc : P c) {prop : Option Str} {m : List (Str × Json)} {fm : Bool}
    (hm : ∀ e ∈ m, e.2.depth ≤ n) : Ex (EPost L prop) X (elemObj E R c prop m fm) := by
  refine (objContext_ex H hc).bind fun tsc _ ht => ?_
  have h1 : Ex (fun _ => True) X (typeEntries E tsc m) := by
    unfold typeEntries
    refine Ex.map (Q := fun _ => True) ?_ fun _ _ _ => trivial
    refine (Ex.collectM (Q₂ := fun _ => True) fun e _ => ?_).mono fun _ _ => trivial
    exact (xKey_ex H).map fun _ _ _ _ _ => trivial
  refine h1.bind fun tes _ _ => ?_
  have h2 : Ex P X (typeScoped E tsc tes) :=
    Ex.foldlM (fun t _ a ha => scopedCtx_ex H ha) ht
  refine h2.bind fun c' _ hc' => ?_
  have h3 : Ex (fun _ => True) X (inputType E c' tes) := by
    unfold inputType
    split
    · trivial
    · split
      · exact xKey_ex H
      · trivial
  refine h3.bind fun it _ _ => (xEntries_ex H (n := n + 1) fun e he =>
    Nat.lt_succ_of_le (hm e he)).bind fun es _ hes => elemKind_ex H HR hc' ht hes

omit HR in
theorem elemScalar_ex {c : ACtx} (hc : P c) {prop : Option Str} {l : Literal} (hl : l ≠ .null) :
    Ex (EPost L prop) X (elemScalar E c prop l) := by
  unfold elemScalar
  split
  · exact ⟨nofun, nofun⟩
  · rename_i hp
    refine (scopedCtx_ex H hc).bind fun c' _ hc' => ?_
    split
    · rename_i h; exact literal_err H h
    · rename_i o ho
      constructor
      · intro x hx
        rw [List.mem_singleton.1 hx]
        exact expandLiteral_all H hc' hl ho
      · exact fun h => absurd h hp

theorem elemArr_ex {c : ACtx} (hc : P c) {prop : Option Str} {l : List Json} {fm : Bool}
    (hl : ∀ j ∈ l, j.depth ≤ n) : Ex (EPost L prop) X (elemArr R c prop l fm) := by
  refine (xItems_ex HR hc hl).map fun os _ hos => ?_
  split
  · rename_i hlist
    constructor
    · intro o ho
      rw [List.mem_singleton.1 ho, Leaf.all_list]
      exact fun o ho => (hos o ho).1
    · exact fun hp o ho => by rw [List.mem_singleton.1 ho]; exact H.nList hc hp hlist _ _
  · exact ⟨fun o ho => (hos o ho).1, fun hp o ho => (hos o ho).2 hp⟩

theorem elemBody_ex {c : ACtx} (hc : P c) {prop : Option Str} {j : Json} {fm : Bool}
    (hj : j.depth ≤ n + 1) : Ex (EPost L prop) X (elemBody E R c prop j fm) := by
  unfold elemBody
  split
  · exact ⟨nofun, nofun⟩
  · exact elemArr_ex H HR hc fun x hx => Nat.le_of_lt_succ (Nat.lt_of_lt_of_le (depth_arr hx) hj)
  · exact elemObj_ex H HR hc fun x hx => Nat.le_of_lt_succ (Nat.lt_of_lt_of_le (depth_obj hx) hj)
  · exact elemScalar_ex H hc nofun
  · exact elemScalar_ex H hc nofun
  · exact elemScalar_ex H hc nofun

end

variable {E : XEnv} {P : ACtx → Prop} {L : Leaf} {X : XErr → Prop}

theorem xrecN_ok (H : XInv E P L X) (n : Nat) : RecOk E P L X n (xrecN E n) := by
  induction n with
  | zero =>
    refine ⟨fun {c prop j fm} _ h => ?_, fun h => absurd h (Nat.lt_irrefl 0)⟩
    exact absurd h (Nat.not_le.2 (depth_pos j))
  | succ n ih => exact ⟨fun hc hj => elemBody_ex H ih hc hj, fun _ hc ht hs he => entriesBody_ex H ih hc ht hs he⟩

/-- Everything in an expanded element satisfies the conditions. -/
theorem expandElement_ex (H : XInv E P L X) {c : ACtx} (hc : P c) {prop : Option Str} {j : Json} {fm : Bool} :
    Ex (EPost L prop) X (expandElement E c prop j fm) :=
  (xrecN_ok H j.depth).elem hc (Nat.le_refl _)

end JsonLd
