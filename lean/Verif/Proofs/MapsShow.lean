import Verif.Proofs.MapsKey
import Verif.Proofs.MapsAdd
import Verif.Proofs.RoundWhole
import Verif.Props.Expand
/-!
# What compacted objects expand to, up to equality
-/

namespace JsonLd
open Spec Props Relation

/-! ## Parts of objects -/

/-- The object is well formed, and `Q` holds for it and everything in it. -/
structure Thru (Q : Item → Prop) (o : Obj) : Prop where
  wf : o.WF
  items : ∀ y, ReflTransGen PartL y (.obj o) → Q y

section
variable {Q : Item → Prop}

theorem thru_node {m : Node} (hw : m.WF) (h0 : Q (.obj (.node m))) (h : ∀ y, ReflTransGen PartL y (.node m) → Q y) :
    Thru Q (.node m) := by
  refine ⟨hw, fun y hy => ?_⟩
  rcases hy.cases_tail with h1 | ⟨z, h1, h2⟩
  · rw [← h1]; exact h0
  · cases h2 with
    | part h2 => cases h2 with | self => exact h y h1

theorem Thru.at {n : Node} (h : Thru Q (.node n)) (y : Item) (hy : ReflTransGen PartL y (.node n)) :
    Q y := h.items y (hy.tail (.part (.self n)))

theorem Thru.item {i : Option Str} {l : List Obj} (h : Thru Q (.list i l)) : ∀ o ∈ l, Thru Q o :=
  fun o ho => ⟨objsWF_iff.1 (show objsWF l from h.wf) o ho, fun y hy => h.items y (hy.tail (.item ho))⟩

theorem Thru.graph {n : Node} (h : Thru Q (.node n)) {g : List Obj} (hg : n.graph = some g) :
    ∀ o ∈ g, Thru Q o := by
  intro o ho
  refine ⟨?_, fun y hy => h.at y (hy.tail (.part (.graph hg ho)))⟩
  cases n with
  | mk i id ty g' inc ps rv =>
    cases hg
    exact objsWF_iff.1 h.wf.1.2 o ho

theorem Thru.prop {n : Node} (h : Thru Q (.node n)) {p : Id × List Obj} (hp : p ∈ n.props) :
    ∀ o ∈ p.2, Thru Q o := by
  intro o ho
  refine ⟨?_, fun y hy => h.at y (hy.tail (.part (.property hp ho)))⟩
  cases n with
  | mk i id ty g' inc ps rv => exact psWF_iff.1 h.wf.2.2.2.1 p hp o ho

theorem Thru.included (h0 : ∀ n, Q (.obj (.node n))) {n : Node} (h : Thru Q (.node n)) {l : List Node} (hl : n.included = some l) :
    ∀ m ∈ l, Thru Q (.node m) := by
  intro o ho
  refine thru_node ?_ (h0 o) fun y hy => h.at y (hy.tail (.part (.included hl ho)))
  cases n with
  | mk i id ty g' inc ps rv =>
    cases hl
    exact nodesWF_iff.1 h.wf.2.1.2 o ho

theorem Thru.rev (h0 : ∀ n, Q (.obj (.node n))) {n : Node} (h : Thru Q (.node n)) {r : List (Id × List Node)} (hr : n.rev = some r)
    {p : Id × List Node} (hp : p ∈ r) : ∀ m ∈ p.2, Thru Q (.node m) := by
  intro o ho
  refine thru_node ?_ (h0 o) fun y hy => h.at y (hy.tail (.part (.reverse hr hp ho)))
  cases n with
  | mk i id ty g' inc ps rv =>
    cases hr
    exact rpsWF_iff.1 h.wf.2.2.2.2.2 p hp o ho

end

/-- What is asked of the objects inside. -/
structure PlacedItem (env : CompEnv) (c : ACtx) (y : Item) : Prop where
  node : ∀ n, y = .node n → PlacedNode env c n
  value : ∀ i v, y = .obj (.value i v) → PlacedValue env c v ∧ ∀ x, i = some x → NotNone c x
  list : ∀ i l, y = .obj (.list i l) → ∀ o ∈ l, ¬ IsList o

/-- The object can be compacted without loss. -/
abbrev PlacedObj (env : CompEnv) (c : ACtx) (o : Obj) : Prop := Thru (PlacedItem env c) o

theorem placed_obj (env : CompEnv) (c : ACtx) (n : Node) : PlacedItem env c (.obj (.node n)) := ⟨nofun, nofun, nofun⟩

theorem Thru.placed {env : CompEnv} {c : ACtx} {n : Node} (h : PlacedObj env c (.node n)) : PlacedNode env c n :=
  (h.at _ .refl).node n rfl

/-! ## Equal objects -/

/-- Equal well-formed objects. -/
structure Same (o' o : Obj) : Prop where
  wf' : o'.WF
  wf : o.WF
  eq : o'.eq o = true

theorem Same.refl {o : Obj} (h : o.WF) : Same o o := ⟨h, h, (Obj.eqOk h).1⟩

theorem Same.symm {a b : Obj} (h : Same a b) : Same b a := ⟨h.wf, h.wf', (Obj.eqOk h.wf').2.1 _ h.wf h.eq⟩

theorem Same.trans {a b d : Obj} (h : Same a b) (h' : Same b d) : Same a d :=
  ⟨h.wf', h'.wf, (Obj.eqOk h.wf').2.2 _ _ h.wf h'.wf h.eq h'.eq⟩

/-- The object without index if `b`. -/
def Obj.unindexed (b : Bool) (o : Obj) : Obj := if b then o.setIndex none else o

/-- The node without index if `b`. -/
def Node.unindexed (b : Bool) (n : Node) : Node := if b then n.setIndex none else n

theorem unindexed_node (b : Bool) (n : Node) : Obj.unindexed b (.node n) = .node (n.unindexed b) := by
  cases b <;> rfl

theorem wf_setIndex {n : Node} (h : n.WF) (x : Option Str) : (n.setIndex x).WF := by
  cases n; exact h

theorem Obj.wf_setIndex {o : Obj} (h : o.WF) (x : Option Str) : (o.setIndex x).WF := by
  cases o with
  | node n => exact JsonLd.wf_setIndex h x
  | _ => exact h

theorem Same.setIndex {a b : Obj} (h : Same a b) (x : Option Str) : Same (a.setIndex x) (b.setIndex x) := by
  refine ⟨Obj.wf_setIndex h.wf' x, Obj.wf_setIndex h.wf x, ?_⟩
  have he := h.eq
  cases a <;> cases b <;> try (simp only [Obj.eq, Bool.false_eq_true] at he; done)
  · simp only [Obj.eq, Bool.and_eq_true, decide_eq_true_eq] at he
    simp [Obj.setIndex, Obj.eq, he.2]
  · simp only [Obj.eq, Bool.and_eq_true, decide_eq_true_eq] at he
    simp [Obj.setIndex, Obj.eq, he.2]
  · rename_i n m
    simp only [Obj.eq] at he
    simp only [Obj.eq, Obj.setIndex]
    have h1 := (node_eq_iff (show n.WF from h.wf') (show m.WF from h.wf)).1 he
    refine (node_eq_iff (wf_setIndex h.wf' x) (wf_setIndex h.wf x)).2 ?_
    cases n; cases m
    exact ⟨rfl, h1.2⟩

theorem setIndex_same {o : Obj} {x : Option Str} (h : o.index = x) : o.setIndex x = o := by
  subst h
  cases o with
  | node n => cases n; rfl
  | _ => rfl

theorem setIndex_twice (o : Obj) (x y : Option Str) : (o.setIndex x).setIndex y = o.setIndex y := by
  cases o with
  | node n => cases n; rfl
  | _ => rfl

theorem same_value {i : Option Str} {v v' : Value} (h : v'.eq v = true) : Same (.value i v') (.value i v) :=
  ⟨trivial, trivial, by simp [Obj.eq, h]⟩

theorem same_list {i : Option Str} {l l' : List Obj} (h : List.Forall₂ Same l' l) : Same (.list i l') (.list i l) := by
  refine ⟨objsWF_iff.2 ?_, objsWF_iff.2 ?_, ?_⟩
  · exact forall₂_left h fun a b h => h.wf'
  · have : List.Forall₂ Same l l' := forall₂_flip_mem h fun a _ b _ h => h.symm
    exact forall₂_left this fun a b h => h.wf'
  · simp only [Obj.eq, decide_true, Bool.true_and, objsListEq_iff]
    exact h.imp fun a b h => h.eq

/-! ## Objects under keys -/

/-- The compacted form `j` under the key stands for the object `o`; the index is left to the map of the key, if it
is one by index. -/
structure Shows (X : XEnv) (c : ACtx) (key : Str) (j : Json) (o : Obj) : Prop where
  notArray : NotArray j
  notNull : j.isNull = false
  expand : ∀ fm, ∃ o', expandElement X c (some key) j fm = .ok (.object o') ∧
    Same o' (o.unindexed ((defContainer (c.get key)).contains .index))

theorem value_notArray {E : CEnv} {c : ACtx} {v : Value} (hv : PlacedValue E.toCompEnv c v) {d : Option TermDef}
    (hd : d.bind (·.typ) ≠ some .json) {i : Option Str} {j : Json} (h : valueIn E c d i v = .ok j) :
    NotArray j ∧ j.isNull = false := by
  unfold valueIn at h
  split at h
  · rename_i j' hj
    cases h
    split at hj
    · unfold valueBare at hj
      cases hv with
      | plain l h =>
        dsimp only at hj
        split at hj
        · split at hj
          · split at hj
            · cases hj; exact ⟨nofun, rfl⟩
            · cases hj
          · cases hj; exact literal_json l h
        · cases hj
      | typed l ty h =>
        dsimp only at hj
        split at hj
        · split at hj
          · split at hj
            · cases hj; exact ⟨nofun, rfl⟩
            · cases hj
          · cases hj; exact literal_json l h
        · cases hj
      | lang s =>
        dsimp only at hj
        split at hj
        · cases hj; exact ⟨nofun, rfl⟩
        · cases hj
      | json j =>
        dsimp only at hj
        rw [if_neg hd] at hj
        cases hj
    · cases hj
  · obtain ⟨es, h1, h⟩ := exBind_ok h
    obtain ⟨ei, h2, rfl⟩ := exMap_ok h
    exact ⟨nofun, rfl⟩

section
variable {E : CEnv} {X : XEnv} {c : ACtx} (H : MapEnv E X c)
include H

theorem placed_faithful {v : Value} (hv : PlacedValue E.toCompEnv c v) {t : Str}
    (hl : ∀ s, v = .langString s → ¬ Coerces c t) : Faithful E.toCompEnv c t v := by
  cases hv with
  | plain l h => exact .plain l h
  | typed l ty h hn =>
    refine .typed l ty h ?_ hn.clear
    have hk := hn.kind
    unfold Id.classify at hk
    split at hk
    · assumption
    · split at hk <;> cases hk
  | lang s h1 h2 h3 h4 =>
    refine .lang s h1 ?_ (hl s rfl) (fun h => ?_) (fun h => ?_)
    · intro h
      exact (h2 _ h).1 ((C01_form _).1 (by decide))
    · obtain ⟨g1, g2⟩ := h3 h
      cases hd : c.get t with
      | none => exact .inr ⟨fun d hd' => by (rw [hd] at hd'; cases hd'), g1.symm⟩
      | some d =>
        have := g2 t d hd
        cases hx : d.language with
        | none => exact .inr ⟨fun d' hd' => by rw [hd] at hd'; cases hd'; exact hx, g1.symm⟩
        | some y =>
          rw [hx] at this
          refine .inl ⟨d, hd, ?_⟩
          rw [hx]
          exact congrArg some this
    · obtain ⟨g1, g2⟩ := h4 h
      cases hd : c.get t with
      | none => exact .inr ⟨fun d hd' => by (rw [hd] at hd'; cases hd'), g1.symm⟩
      | some d =>
        have := g2 t d hd
        cases hx : d.direction with
        | none => exact .inr ⟨fun d' hd' => by rw [hd] at hd'; cases hd'; exact hx, g1.symm⟩
        | some y =>
          rw [hx] at this
          refine .inl ⟨d, hd, ?_⟩
          rw [hx]
          exact congrArg some this
  | json j => exact .json j fun d hd => (get_value H.ctx hd).typ

/-- Values. -/
theorem value_shows {v : Value} (hv : PlacedValue E.toCompEnv c v) {t : Str} (ht : t ≠ "@graph".toList)
    (hl : ∀ s, v = .langString s → ¬ Coerces c t) {i : Option Str} {j : Json}
    (h : compactValue E c (some t) i v = .ok j) : Shows X c t j (.value i v) := by
  unfold compactValue at h
  rw [cScoped_value H.ctx] at h
  have h : valueIn E c (c.get t) i v = .ok j := h
  obtain ⟨h1, h2⟩ := value_notArray hv (typ_json H.ctx t) h
  refine ⟨h1, h2, fun fm => ?_⟩
  obtain ⟨v', h3, h4, -⟩ := value_back H.env H.vocab H.iris H.facts H.clean H.keywords (value_calm H.ctx).noScoped ht
    (placed_faithful H hv hl) h fm
  refine ⟨_, h3, ?_⟩
  have : Obj.unindexed ((defContainer (c.get t)).contains .index) (.value i v) =
      .value (if removeIndex (c.get t) i then none else i) v := by
    unfold Obj.unindexed removeIndex
    cases i <;> cases (defContainer (c.get t)).contains .index <;> rfl
  rw [this]
  exact same_value h4

/-! ## Nodes -/

/-- The entries of the object make the parts of a node. -/
def Parts (E : CEnv) (X : XEnv) (c : ACtx) (j : Json) (i : Option Id) (ty : Option (List Id)) (x : Option Str)
    (g : Option (List Obj)) (inc : Option (List Node)) (ps : List (Id × List Obj))
    (rv : Option (List (Id × List Node))) : Prop :=
  ∃ e1 e2 e3, j = .obj (xObj (e1 ++ e2 ++ e3)) ∧ IdPart E X c i e1 ∧ TypePart E X c ty e2 ∧
    (∀ i ty, KeySteps X c e3 (.mk none i ty none none [] none) (.mk x i ty g inc ps rv)) ∧
    ∀ e ∈ e3, e.term ≠ .keyword .id ∧ e.term ≠ .keyword .type

/-- Entries that make an equal node. -/
def Made (X : XEnv) (c : ACtx) (j : Json) (n : Node) : Prop :=
  ∃ es n', j = .obj (xObj es) ∧ KeySteps X c es Node.blank n' ∧ Same (.node n') (.node n)

omit H in
theorem Parts.steps (H : BaseEnv E X c) {j : Json} {i ty x g inc ps rv} (h : Parts E X c j i ty x g inc ps rv) :
    ∃ es, j = .obj (xObj es) ∧ KeySteps X c es Node.blank (.mk x i ty g inc ps rv) := by
  obtain ⟨e1, e2, e3, rfl, h1, h2, h3, -⟩ := h
  exact ⟨_, rfl, (h1.steps.append (h2.steps H)).append (h3 i ty)⟩

/-- How a node is compacted: to a string, or to an object. -/
inductive NodeShown (E : CEnv) (X : XEnv) (c : ACtx) (prop : Option Str) (j : Json) (n : Node) : Prop
  | string (key s : Str) (i : Id) : prop = some key → j = .str s → n = Node.onlyId i →
      (c.get key).bind (·.typ) = some .id ∨ (c.get key).bind (·.typ) = some .vocab →
      (∀ fm, expandElement X c (some key) (.str s) fm = .ok (.object (.node (Node.onlyId i)))) →
      NodeShown E X c prop j n
  | object (x g inc ps rv) : Parts E X c j n.id n.types x g inc ps rv →
      Same (.node (.mk x n.id n.types g inc ps rv))
        (.node (n.unindexed ((defContainer (prop.bind c.get)).contains .index))) →
      NodeShown E X c prop j n

/-- The recursive call gives what is wanted. -/
structure RecShown (E : CEnv) (X : XEnv) (c : ACtx) (R : CRec) : Prop where
  node : ∀ prop n j, PlacedObj E.toCompEnv c (.node n) → R c c prop (.node n) = .ok j → NodeShown E X c prop j n
  value : ∀ t i v j, PlacedValue E.toCompEnv c v → t ≠ "@graph".toList → (∀ s, v = .langString s → ¬ Coerces c t) →
    R c c (some t) (.value i v) = .ok j → Shows X c t j (.value i v)

/-- Nodes compacted to strings. -/
theorem string_shows {n : Node} (hn : PlacedNode E.toCompEnv c n) {key : Str} (hk : key ≠ "@graph".toList) {r : Except CompErr Json}
    (h : nodeString E c (some key) n = some r) {j : Json} (hj : r = .ok j) : NodeShown E X c (some key) j n := by
  subst hj
  unfold nodeString at h
  split at h
  · rename_i i hi
    split at h
    · rename_i he
      have hem : n = Node.onlyId i ∨ n.index ≠ none := by
        cases n with
        | mk x id ty g inc ps rv =>
          cases hi
          cases x with
          | some x => exact .inr nofun
          | none =>
            left
            simp only [Node.isEmpty, Bool.and_eq_true, List.isEmpty_iff, Option.isNone_iff_eq_none] at he
            obtain ⟨⟨⟨⟨rfl, rfl⟩, rfl⟩, rfl⟩, rfl⟩ := he
            rfl
      have hdef : ∀ m, (c.get key).bind (·.typ) = some m → TypedTerm c m := by
        intro m hm
        cases hd : c.get key with
        | none => rw [hd] at hm; cases hm
        | some d => rw [hd] at hm; exact ⟨key, d, hd, hm⟩
      have hstr : ∀ s fm, expandElement X c (some key) (.str s) fm =
          match expandLiteral X.toIriEnv X.opts.vocab c (some key) (.str s) with
          | .error e => .error (.literal e)
          | .ok o => .ok (.object o) := fun s fm =>
        expand_scalar (value_calm H.ctx).noScoped hk (l := .str s) nofun fm
      split at h
      · rename_i ht
        have hem := hem.resolve_right fun hx => hx (hn.reference (by rw [hi]; simp) he (.inl (hdef _ ht)))
        obtain ⟨s, h1, rfl⟩ := exMap_ok (Option.some.inj h)
        obtain ⟨s, rfl, h2⟩ := cIri_id H.toBaseEnv (hn.id i hi) h1
        refine .string key s i rfl rfl hem (.inl ht) fun fm => ?_
        rw [hstr]
        unfold expandLiteral
        have ht : (c.get key).bind (·.typ) = some .id := ht
        simp only [Option.bind_some, ht, h2]
        rfl
      · rename_i ht
        have hem := hem.resolve_right fun hx => hx (hn.reference (by rw [hi]; simp) he (.inr (hdef _ ht)))
        obtain ⟨s, h1, rfl⟩ := exMap_ok (Option.some.inj h)
        obtain ⟨s, rfl, h2, -⟩ := cIri_type H.toBaseEnv (hn.term i hi (hdef _ ht)) h1
        refine .string key s i rfl rfl hem (.inr ht) fun fm => ?_
        rw [hstr]
        unfold expandLiteral
        have ht : (c.get key).bind (·.typ) = some .vocab := ht
        simp only [Option.bind_some, ht, H.vocab, h2]
        rfl
      · cases h
    · cases h
  · cases h

/-- An object with entries, under any key. -/
theorem expand_steps {es : List XEntry} {n : Node} (h : KeySteps X c es Node.blank n) {prop : Option Str}
    (hp : prop ≠ some "@reverse".toList) (hs : noProp prop = true → Says (.node n)) (fm : Bool) :
    expandElement X c prop (.obj (xObj es)) fm = .ok (.object (.node n)) :=
  (steps_back H.toBaseEnv (value_calm H.ctx) h).expand prop fm hp hs

omit H in
theorem noProp_key {key : Str} (h : key ≠ "@graph".toList) : noProp (some key) = false := by
  unfold noProp
  rw [Option.isNone_some, Bool.false_or, decide_eq_false_iff_not]
  exact fun h' => h (Option.some.inj h')

/-- Nodes under keys. -/
theorem NodeShown.shows {n : Node} {key : Str} {j : Json} (h : NodeShown E X c (some key) j n)
    (hk : key ≠ "@graph".toList) (hr : key ≠ "@reverse".toList) : Shows X c key j (.node n) := by
  cases h with
  | string key' s i h1 h2 h3 _ h4 =>
    cases h1
    subst h2 h3
    refine ⟨nofun, rfl, fun fm => ⟨_, h4 fm, ?_⟩⟩
    have : Obj.unindexed ((defContainer (c.get key)).contains .index) (.node (Node.onlyId i)) = .node (Node.onlyId i) := by
      cases (defContainer (c.get key)).contains .index <;> rfl
    rw [this]
    exact .refl (by simp [Obj.WF, Node.onlyId, Node.WF, gWF, incWF, psWF, rvWF])
  | object x g inc ps rv h1 h2 =>
    obtain ⟨es, rfl, hs⟩ := h1.steps H.toBaseEnv
    refine ⟨nofun, rfl, fun fm => ⟨_, expand_steps H hs (fun h => hr (Option.some.inj h)) (by rw [noProp_key hk]; nofun) fm, ?_⟩⟩
    rw [unindexed_node]
    exact h2

/-- Nodes in objects. -/
theorem NodeShown.made {n : Node} {prop : Option Str} {j : Json} (h : NodeShown E X c prop j n)
    (hi : (defContainer (prop.bind c.get)).contains .index = false)
    (hs : ∀ key i, prop = some key → n = Node.onlyId i → (c.get key).bind (·.typ) ≠ some .id ∧ (c.get key).bind (·.typ) ≠ some .vocab) :
    Made X c j n := by
  cases h with
  | string key s i h1 h2 h3 h4 _ =>
    obtain ⟨g1, g2⟩ := hs key i h1 h3
    rcases h4 with h4 | h4
    · exact absurd h4 g1
    · exact absurd h4 g2
  | object x g inc ps rv h1 h2 =>
    obtain ⟨es, rfl, hs⟩ := h1.steps H.toBaseEnv
    rw [hi] at h2
    exact ⟨es, _, rfl, hs, h2⟩

end

end JsonLd
