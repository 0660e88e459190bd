import Verif.Proofs.LdSerialize
import Verif.Proofs.DocEq
import Verif.Proofs.ExpandInv
import Verif.Spec.LinkedData
/-!
# Documents that survive as linked data
-/

namespace JsonLd
open Spec

variable {E : LdEnv}

/-! ### Lists -/

theorem filterMap_self {α : Type} {f : α → Option α} {l : List α} (h : l.filterMap f = l) :
    ∀ x ∈ l, f x = some x := by
  induction l with
  | nil => simp
  | cons x l ih =>
    cases hx : f x with
    | none =>
      rw [List.filterMap_cons_none hx] at h
      have := List.length_filterMap_le f l
      rw [h, List.length_cons] at this
      omega
    | some y =>
      rw [List.filterMap_cons_some hx] at h
      injection h with h1 h2
      subst h1
      intro z hz
      rcases List.mem_cons.1 hz with rfl | hz
      · exact hx
      · exact ih h2 z hz

theorem filter_map_self {α : Type} {p : α → Bool} {f : α → α} {l : List α}
    (h : (l.map f).filter p = l) : (∀ x ∈ l, f x = x) ∧ ∀ x ∈ l, p x = true := by
  have hl : ((l.map f).filter p).length = (l.map f).length := by rw [h]; simp
  have hk := List.length_filter_eq_length_iff.1 hl
  rw [List.filter_eq_self.2 hk] at h
  have hf : ∀ x ∈ l, f x = x := by
    intro x hx
    obtain ⟨k, hk, rfl⟩ := List.getElem_of_mem hx
    have : (l.map f)[k]'(by simpa using hk) = l[k] := by simp only [h]
    simpa using this
  refine ⟨hf, fun x hx => ?_⟩
  have := hk (f x) (List.mem_map_of_mem hx)
  rwa [hf x hx] at this

theorem map_self {α : Type} {f : α → α} {l : List α} (h : l.map f = l) : ∀ x ∈ l, f x = x :=
  (filter_map_self (p := fun _ => true) (l := l) (f := f) (by
    rw [List.filter_eq_self.2 (by simp)]; exact h)).1

theorem setFold_cases {α : Type} {eq : α → α → Bool} (l acc : List α) :
    l.foldl (setInsert eq) acc = acc ++ l ∨
      (l.foldl (setInsert eq) acc).length < acc.length + l.length := by
  induction l generalizing acc with
  | nil => simp
  | cons x l ih =>
    rw [List.foldl_cons, setInsert]
    split
    · rcases ih acc with h | h
      · right
        rw [h]
        simp
      · right
        rw [List.length_cons]
        omega
    · rcases ih (acc ++ [x]) with h | h
      · left
        rw [h]
        simp
      · right
        rw [List.length_append, List.length_singleton] at h
        rw [List.length_cons]
        omega

theorem setFold_map_self {α : Type} {eq : α → α → Bool} {f : α → α} {l : List α}
    (h : (l.map f).foldl (setInsert eq) [] = l) : ∀ x ∈ l, f x = x := by
  rcases setFold_cases (eq := eq) (l.map f) [] with h' | h'
  · rw [h] at h'
    exact map_self (by simpa using h'.symm)
  · rw [h] at h'
    simp at h'

theorem setFold_distinct {α : Type} {eq : α → α → Bool} (l acc : List α)
    (h : (acc ++ l).Pairwise fun a b => eq b a = false) : l.foldl (setInsert eq) acc = acc ++ l := by
  induction l generalizing acc with
  | nil => simp
  | cons x l ih =>
    rw [List.foldl_cons, setInsert, if_neg]
    · rw [ih]
      · simp
      · simpa using h
    · simp only [List.any_eq_true, not_exists, not_and, Bool.not_eq_true]
      intro y hy
      exact (List.pairwise_append.1 h).2.2 y hy x List.mem_cons_self

theorem setProp_new {α : Type} {p : Id} {v : α} {l : List (Id × α)} (h : p ∉ l.map Prod.fst) :
    setProp p v l = l ++ [(p, v)] := by
  induction l with
  | nil => rfl
  | cons q l ih =>
    simp only [List.map_cons, List.mem_cons, not_or] at h
    rw [setProp, if_neg (fun hq => h.1 hq.symm), ih h.2]
    rfl

/-! ### Success -/

/-- The object that comes back. -/
def bO (E : LdEnv) (o : Obj) : Obj := (serObject E (o.toLD E)).toOption.getD default
/-- The node that comes back. -/
def bN (E : LdEnv) (n : Node) : Node := (serNode E (n.toLD E)).toOption.getD default

theorem bO_ok {o o' : Obj} (h : serObject E (o.toLD E) = .ok o') : bO E o = o' := by
  simp [bO, h, Except.toOption]

theorem bN_ok {o o' : Node} (h : serNode E (o.toLD E) = .ok o') : bN E o = o' := by
  simp [bN, h, Except.toOption]

/-- Serialization does not fail. -/
def GoodO (E : LdEnv) (o : Obj) : Prop := serObject E (o.toLD E) = .ok (bO E o)
/-- Serialization does not fail. -/
def GoodN (E : LdEnv) (n : Node) : Prop := serNode E (n.toLD E) = .ok (bN E n)

theorem goodO {o o' : Obj} (h : serObject E (o.toLD E) = .ok o') : GoodO E o := by
  rw [GoodO, bO_ok h, h]

theorem goodN {o o' : Node} (h : serNode E (o.toLD E) = .ok o') : GoodN E o := by
  rw [GoodN, bN_ok h, h]

theorem objsLD_eq (os : List Obj) : objsLD E os = os.map (Obj.toLD E) := by
  induction os with
  | nil => rfl
  | cons o os ih => rw [objsLD, ih]; rfl

theorem nodesLD_eq (os : List Node) : nodesLD E os = os.map (Node.toLD E) := by
  induction os with
  | nil => rfl
  | cons o os ih => rw [nodesLD, ih]; rfl

theorem serObjects_ok {os : List Obj} (h : ∀ o ∈ os, GoodO E o) :
    serObjects E (objsLD E os) = .ok (os.map (bO E)) := by
  induction os with
  | nil => rfl
  | cons o os ih =>
    rw [objsLD, serObjects, h o List.mem_cons_self, ih fun o ho => h o (List.mem_cons_of_mem _ ho)]
    rfl

theorem serNodes_ok {os : List Node} (h : ∀ o ∈ os, GoodN E o) :
    serNodes E (nodesLD E os) = .ok (os.map (bN E)) := by
  induction os with
  | nil => rfl
  | cons o os ih =>
    rw [nodesLD, serNodes, h o List.mem_cons_self, ih fun o ho => h o (List.mem_cons_of_mem _ ho)]
    rfl

theorem serObjects_good {os : List Obj} {r : List Obj} (h : serObjects E (objsLD E os) = .ok r) :
    ∀ o ∈ os, GoodO E o := by
  intro o ho
  cases hs : serObject E (o.toLD E) with
  | ok o' => exact goodO hs
  | error e =>
    obtain ⟨e', he⟩ := serObjects_failed (E := E) (vs := objsLD E os) (v := o.toLD E)
      (by rw [objsLD_eq]; exact List.mem_map_of_mem ho) ⟨e, hs⟩
    rw [h] at he
    cases he

theorem serNodes_good {os : List Node} {r : List Node} (h : serNodes E (nodesLD E os) = .ok r) :
    ∀ o ∈ os, GoodN E o := by
  intro o ho
  cases hs : serNode E (o.toLD E) with
  | ok o' => exact goodN hs
  | error e =>
    obtain ⟨e', he⟩ := serNodes_failed (E := E) (vs := nodesLD E os) (v := o.toLD E)
      (by rw [nodesLD_eq]; exact List.mem_map_of_mem ho) ⟨e, hs⟩
    rw [h] at he
    cases he

theorem nodeVisits_append {a b : List LVisit} {n : Node} : nodeVisits E (a ++ b) n =
    (nodeVisits E a n).bind (nodeVisits E b) := by
  induction a generalizing n with
  | nil => rfl
  | cons v a ih =>
    rw [List.cons_append, nodeVisits, nodeVisits]
    cases nodeVisit E v n with
    | error e => rfl
    | ok m => exact ih

theorem nodeVisits_append_ok {a b : List LVisit} {n r : Node} :
    nodeVisits E (a ++ b) n = .ok r ↔ ∃ m, nodeVisits E a n = .ok m ∧ nodeVisits E b m = .ok r := by
  rw [nodeVisits_append]
  cases nodeVisits E a n <;> simp [Except.bind]

/-! ### The entries of a node -/

theorem unlessEmpty_append {l m : List α} : unlessEmpty (l ++ m) =
    if m = [] then unlessEmpty l else some ((unlessEmpty l).getD [] ++ m) := by
  cases l <;> cases m <;> simp [unlessEmpty]

theorem unlessEmpty_getD {l : List α} : (unlessEmpty l).getD [] = l := by
  cases l <;> simp [unlessEmpty]

theorem pushTypes {x : Option Str} {i : Option Id} {T : List Id} {g : Option (List Obj)}
    {inc : Option (List Node)} {ps : List (Id × List Obj)} {rv : Option (List (Id × List Node))}
    (l : List Id) : l.foldl (fun n t => Node.pushType t n) (Node.mk x i (unlessEmpty T) g inc ps rv) =
      .mk x i (unlessEmpty (T ++ l)) g inc ps rv := by
  induction l generalizing T with
  | nil => simp
  | cons t l ih =>
    rw [List.foldl_cons, Node.pushType, unlessEmpty_getD,
      show some (T ++ [t]) = unlessEmpty (T ++ [t]) by simp [unlessEmpty], ih]
    simp

/-- A property is set. -/
def propStep (p : Id) (os : List Obj) (acc : List (Id × List Obj)) : List (Id × List Obj) :=
  if p = rdfType then if (nonTypeObjs os).isEmpty then acc else setProp p (nonTypeObjs os) acc
  else setProp p os acc

theorem nodePredicate_mk {x : Option Str} {i : Option Id} {T : List Id} {g : Option (List Obj)}
    {inc : Option (List Node)} {ps : List (Id × List Obj)} {rv : Option (List (Id × List Node))}
    {p : Id} {os : List Obj} : nodePredicate p os (.mk x i (unlessEmpty T) g inc ps rv) =
      .mk x i (unlessEmpty (T ++ if p = rdfType then typeObjs os else [])) g inc (propStep p os ps) rv := by
  unfold nodePredicate propStep
  split
  · rw [pushTypes]
    split <;> rfl
  · simp [Node.setProps, Node.props]

theorem typesLD_eq (ts : List Id) : typesLD ts =
    (ts.filter Id.isValid).map fun t => .mk (some (.id t)) [] := by
  induction ts with
  | nil => rfl
  | cons t ts ih => cases t <;> simp [typesLD, Id.ldTerm, Id.isValid, ih, List.filter]

theorem types_ok {i : Option Id} (ty : Option (List Id)) :
    nodeVisits E (typesVisit ty) (startNode i) =
      .ok (.mk none i (unlessEmpty ((ty.getD []).filter Id.isValid)) none none [] none) := by
  have key : ∀ ts : List Id, serObjects E (typesLD ts) =
      .ok ((ts.filter Id.isValid).map fun t => .node (startNode (some t))) := by
    intro ts
    rw [typesLD_eq]
    generalize ts.filter Id.isValid = l
    induction l with
    | nil => rfl
    | cons t l ih =>
      rw [List.map_cons, serObjects, ih]
      rfl
  have ht : ∀ l : List Id, typeObjs (l.map fun t => .node (startNode (some t))) = l := by
    intro l
    induction l with
    | nil => rfl
    | cons t l ih =>
      unfold typeObjs at ih ⊢
      rw [List.map_cons, List.filterMap_cons_some (f := intoType) (b := t) rfl, ih]
  have hn : ∀ l : List Id, nonTypeObjs (l.map fun t => .node (startNode (some t))) = [] := by
    intro l
    induction l with
    | nil => rfl
    | cons t l ih =>
      unfold nonTypeObjs at ih ⊢
      rw [List.map_cons, List.filter_cons_of_neg (by simp [intoType, startNode, Node.isEmpty,
        Node.index, Node.id]), ih]
  match ty with
  | none => rfl
  | some [] => rfl
  | some (t :: ts) =>
    rw [typesVisit, nodeVisits, nodeVisit]
    · rw [key]
      simp only [Except.map]
      rw [nodeVisits, startNode, show (none : Option (List Id)) = unlessEmpty [] from rfl,
        nodePredicate_mk, if_pos rfl, ht, propStep, if_pos rfl, hn]
      rfl
    · nofun

theorem Id.ldTerm_valid {i : Id} (h : i.isValid = true) : i.ldTerm = some (.id i) := by
  cases i <;> simp [Id.isValid, Id.ldTerm] at *

theorem Id.ldTerm_invalid {i : Id} (h : ¬ i.isValid = true) : i.ldTerm = none := by
  cases i <;> simp [Id.isValid, Id.ldTerm] at *

/-- The types told by `rdf:type`. -/
def pTypes (E : LdEnv) (ps : List (Id × List Obj)) : List Id :=
  ps.flatMap fun p => if p.1.isValid ∧ p.1 = rdfType then typeObjs (p.2.map (bO E)) else []

/-- The properties that come back. -/
def pProps (E : LdEnv) (ps acc : List (Id × List Obj)) : List (Id × List Obj) :=
  ps.foldl (fun acc p => if p.1.isValid then propStep p.1 (p.2.map (bO E)) acc else acc) acc

theorem props_ok {x : Option Str} {i : Option Id} {T : List Id} {g : Option (List Obj)}
    {inc : Option (List Node)} {acc : List (Id × List Obj)} {rv : Option (List (Id × List Node))}
    (ps : List (Id × List Obj)) (h : ∀ p ∈ ps, p.1.isValid = true → ∀ o ∈ p.2, GoodO E o) :
    nodeVisits E (propsLD E ps) (.mk x i (unlessEmpty T) g inc acc rv) =
      .ok (.mk x i (unlessEmpty (T ++ pTypes E ps)) g inc (pProps E ps acc) rv) := by
  induction ps generalizing T acc with
  | nil => simp [propsLD, nodeVisits, pTypes, pProps]
  | cons p ps ih =>
    obtain ⟨p, os⟩ := p
    have ih := fun T acc => ih (T := T) (acc := acc) fun q hq => h q (List.mem_cons_of_mem _ hq)
    by_cases hp : p.isValid = true
    · rw [propsLD, Id.ldTerm_valid hp]
      dsimp only
      rw [nodeVisits, nodeVisit]
      · rw [serObjects_ok (h (p, os) List.mem_cons_self hp)]
        simp only [Except.map]
        rw [nodePredicate_mk, ih]
        simp [pTypes, pProps, hp]
    · rw [propsLD, Id.ldTerm_invalid hp]
      dsimp only
      rw [ih]
      simp [pTypes, pProps, hp]

theorem props_good {n r : Node} (ps : List (Id × List Obj))
    (h : nodeVisits E (propsLD E ps) n = .ok r) :
    ∀ p ∈ ps, p.1.isValid = true → ∀ o ∈ p.2, GoodO E o := by
  induction ps generalizing n with
  | nil => simp
  | cons p ps ih =>
    obtain ⟨p, os⟩ := p
    by_cases hp : p.isValid = true
    · rw [propsLD, Id.ldTerm_valid hp] at h
      dsimp only at h
      rw [nodeVisits] at h
      split at h
      · cases h
      · rename_i m hm
        rw [nodeVisit] at hm
        · cases hs : serObjects E (objsLD E os) with
          | error e => rw [hs] at hm; cases hm
          | ok os' =>
            intro q hq hv
            rcases List.mem_cons.1 hq with rfl | hq
            · exact serObjects_good hs
            · exact ih h q hq hv
    · rw [propsLD, Id.ldTerm_invalid hp] at h
      intro q hq hv
      rcases List.mem_cons.1 hq with rfl | hq
      · exact absurd hv hp
      · exact ih h q hq hv

/-- The reverse properties that come back. -/
def pRev (E : LdEnv) (ps : List (Id × List Node)) (acc : List (Id × List Node)) :
    List (Id × List Node) :=
  ps.foldl (fun acc p => if p.1.isValid then setProp p.1 (p.2.map (bN E)) acc else acc) acc

theorem setProp_ne {α : Type} {p : Id} {v : α} {l : List (Id × α)} : setProp p v l ≠ [] := by
  cases l with
  | nil => simp [setProp]
  | cons q l => rw [setProp]; split <;> simp

theorem unlessEmpty_ne {l : List α} (h : l ≠ []) : unlessEmpty l = some l := by
  cases l <;> simp_all [unlessEmpty]

theorem revs_ok {x : Option Str} {i : Option Id} {T : Option (List Id)} {g : Option (List Obj)}
    {inc : Option (List Node)} {ps : List (Id × List Obj)} {acc : List (Id × List Node)}
    (rv : List (Id × List Node)) (h : ∀ p ∈ rv, p.1.isValid = true → ∀ o ∈ p.2, GoodN E o) :
    nodeVisits E (revsLD E rv) (.mk x i T g inc ps (unlessEmpty acc)) =
      .ok (.mk x i T g inc ps (unlessEmpty (pRev E rv acc))) := by
  induction rv generalizing acc with
  | nil => simp [revsLD, nodeVisits, pRev]
  | cons p rv ih =>
    obtain ⟨p, os⟩ := p
    have ih := fun acc => ih (acc := acc) fun q hq => h q (List.mem_cons_of_mem _ hq)
    by_cases hp : p.isValid = true
    · rw [revsLD, Id.ldTerm_valid hp]
      dsimp only
      rw [nodeVisits, nodeVisit]
      · rw [serNodes_ok (h (p, os) List.mem_cons_self hp)]
        simp only [Except.map]
        rw [Node.setRev, unlessEmpty_getD, ← unlessEmpty_ne setProp_ne, ih]
        simp [pRev, hp]
    · rw [revsLD, Id.ldTerm_invalid hp]
      dsimp only
      rw [ih]
      simp [pRev, hp]

theorem revs_good {n r : Node} (ps : List (Id × List Node))
    (h : nodeVisits E (revsLD E ps) n = .ok r) :
    ∀ p ∈ ps, p.1.isValid = true → ∀ o ∈ p.2, GoodN E o := by
  induction ps generalizing n with
  | nil => simp
  | cons p ps ih =>
    obtain ⟨p, os⟩ := p
    by_cases hp : p.isValid = true
    · rw [revsLD, Id.ldTerm_valid hp] at h
      dsimp only at h
      rw [nodeVisits] at h
      split at h
      · cases h
      · rename_i m hm
        rw [nodeVisit] at hm
        · cases hs : serNodes E (nodesLD E os) with
          | error e => rw [hs] at hm; cases hm
          | ok os' =>
            intro q hq hv
            rcases List.mem_cons.1 hq with rfl | hq
            · exact serNodes_good hs
            · exact ih h q hq hv
    · rw [revsLD, Id.ldTerm_invalid hp] at h
      intro q hq hv
      rcases List.mem_cons.1 hq with rfl | hq
      · exact absurd hv hp
      · exact ih h q hq hv

theorem setInsert_ne {α : Type} {eq : α → α → Bool} {l : List α} {x : α} :
    setInsert eq l x ≠ [] := by
  unfold setInsert
  split
  · rename_i h
    cases l <;> simp_all
  · simp

theorem includes_ok {x : Option Str} {i : Option Id} {T : Option (List Id)} {g : Option (List Obj)}
    {acc : List Node} {ps : List (Id × List Obj)} {rv : Option (List (Id × List Node))}
    (ns : List Node) (h : ∀ o ∈ ns, GoodN E o) :
    nodeVisits E (includesLD E ns) (.mk x i T g (unlessEmpty acc) ps rv) =
      .ok (.mk x i T g (unlessEmpty ((ns.map (bN E)).foldl (setInsert Node.eq) acc)) ps rv) := by
  induction ns generalizing acc with
  | nil => simp [includesLD, nodeVisits]
  | cons n ns ih =>
    rw [includesLD, nodeVisits, nodeVisit, h n List.mem_cons_self]
    simp only [Except.map]
    rw [Node.insertIncluded, unlessEmpty_getD, ← unlessEmpty_ne setInsert_ne,
      ih fun q hq => h q (List.mem_cons_of_mem _ hq)]
    simp

theorem includes_good {n r : Node} (ns : List Node)
    (h : nodeVisits E (includesLD E ns) n = .ok r) : ∀ o ∈ ns, GoodN E o := by
  induction ns generalizing n with
  | nil => simp
  | cons m ns ih =>
    rw [includesLD, nodeVisits] at h
    split at h
    · cases h
    · rename_i m' hm
      rw [nodeVisit] at hm
      cases hs : serNode E (m.toLD E) with
      | error e => rw [hs] at hm; cases hm
      | ok os' =>
        intro q hq
        rcases List.mem_cons.1 hq with rfl | hq
        · exact goodN hs
        · exact ih h q hq

/-- What is told about a node. -/
def Node.told (E : LdEnv) : Node → List LVisit
  | .mk x id ty g inc ps rv => typesVisit ty ++ propsLD E ps ++ revLD E rv ++
      graphLD E (Node.mk x id ty g inc ps rv).isGraph g ++ includedLD E inc

theorem Node.toLD_eq (n : Node) : n.toLD E = .mk (n.id.bind Id.ldTerm) (n.told E) := by
  cases n
  rw [Node.toLD]
  rfl

/-- All the parts that are told can be serialized. -/
structure GoodParts (E : LdEnv) (ty : Option (List Id)) (g : Option (List Obj))
    (inc : Option (List Node)) (ps : List (Id × List Obj)) (rv : Option (List (Id × List Node))) :
    Prop where
  graph : (Node.mk none none ty g inc ps rv).isGraph = true → ∀ o ∈ g.getD [], GoodO E o
  inc : ∀ o ∈ inc.getD [], GoodN E o
  props : ∀ p ∈ ps, p.1.isValid = true → ∀ o ∈ p.2, GoodO E o
  rev : ∀ p ∈ rv.getD [], p.1.isValid = true → ∀ o ∈ p.2, GoodN E o

theorem revLD_eq (rv : Option (List (Id × List Node))) : revLD E rv = revsLD E (rv.getD []) := by
  cases rv <;> simp [revLD, revsLD]

theorem includedLD_eq (rv : Option (List Node)) : includedLD E rv = includesLD E (rv.getD []) := by
  cases rv <;> simp [includedLD, includesLD]

/-- The node that comes back. -/
def back (E : LdEnv) (i : Option Id) (ty : Option (List Id)) (g : Option (List Obj))
    (inc : Option (List Node)) (ps : List (Id × List Obj)) (rv : Option (List (Id × List Node))) :
    Node :=
  .mk none i (unlessEmpty ((ty.getD []).filter Id.isValid ++ pTypes E ps))
    (if (Node.mk none none ty g inc ps rv).isGraph then
      some (((g.getD []).map (bO E)).foldl (setInsert Obj.eq) []) else none)
    (unlessEmpty (((inc.getD []).map (bN E)).foldl (setInsert Node.eq) []))
    (pProps E ps []) (unlessEmpty (pRev E (rv.getD []) []))

theorem told_ok {x : Option Str} {i id : Option Id} {ty : Option (List Id)} {g : Option (List Obj)}
    {inc : Option (List Node)} {ps : List (Id × List Obj)} {rv : Option (List (Id × List Node))}
    (h : GoodParts E ty g inc ps rv) :
    nodeVisits E ((Node.mk x id ty g inc ps rv).told E) (startNode i) = .ok (back E i ty g inc ps rv) := by
  rw [Node.told, revLD_eq, includedLD_eq]
  refine nodeVisits_append_ok.2 ⟨_, nodeVisits_append_ok.2 ⟨_, nodeVisits_append_ok.2 ⟨_,
    nodeVisits_append_ok.2 ⟨_, types_ok ty, props_ok ps h.props⟩, revs_ok (acc := []) _ h.rev⟩, ?_⟩,
    includes_ok (acc := []) _ h.inc⟩
  · have hg : (Node.mk x id ty g inc ps rv).isGraph = (Node.mk none none ty g inc ps rv).isGraph := rfl
    rw [hg]
    by_cases hb : (Node.mk none none ty g inc ps rv).isGraph = true
    · match g with
      | none => simp [Node.isGraph] at hb
      | some g =>
        rw [hb, graphLD, nodeVisits, nodeVisit, serObjects_ok (os := g) (h.graph hb)]
        rfl
    · rw [if_neg hb]
      simp only [Bool.not_eq_true] at hb
      rw [hb]
      cases g <;> rfl

theorem told_good {x : Option Str} {id : Option Id} {ty : Option (List Id)} {g : Option (List Obj)}
    {inc : Option (List Node)} {ps : List (Id × List Obj)} {rv : Option (List (Id × List Node))}
    {n r : Node} (h : nodeVisits E ((Node.mk x id ty g inc ps rv).told E) n = .ok r) :
    GoodParts E ty g inc ps rv := by
  rw [Node.told, revLD_eq, includedLD_eq] at h
  obtain ⟨m4, h, hi⟩ := nodeVisits_append_ok.1 h
  obtain ⟨m3, h, hg⟩ := nodeVisits_append_ok.1 h
  obtain ⟨m2, h, hr⟩ := nodeVisits_append_ok.1 h
  obtain ⟨m1, h, hp⟩ := nodeVisits_append_ok.1 h
  refine ⟨fun hb => ?_, includes_good _ hi, props_good _ hp, revs_good _ hr⟩
  have hb' : (Node.mk x id ty g inc ps rv).isGraph = true := hb
  match g with
  | none => simp
  | some g =>
    rw [hb', graphLD, nodeVisits] at hg
    split at hg
    · cases hg
    · rename_i m hm
      rw [nodeVisit] at hm
      cases hs : serObjects E (objsLD E g) with
      | error e => rw [hs] at hm; cases hm
      | ok os' => exact serObjects_good hs

end JsonLd
