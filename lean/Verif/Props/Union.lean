import Verif.Props.ExpandTerms
import Verif.Props.SameStatements
import Verif.Props.Expand
import Verif.Props.ValueBack
import Verif.Proofs.Canonical
import Verif.Base.DocDec
/-!
# C100: documents put together
-/

namespace JsonLd.Props
open JsonLd.Spec

/-- An object that is a graph without identifier, and nothing else. -/
def LoneGraph (o : Obj) : Prop := ∃ x g, o = .node (.mk x none none (some g) none [] none)

/-- The value is not expanded to such a graph. -/
def NoLoneGraph (E : XEnv) (c : ACtx) (j : Json) : Prop :=
  ∀ x, expandElement E c none j false = .ok x → ∀ o ∈ x.toList, ¬ LoneGraph o

/-- The document contains an object equal to this one. -/
def Holds (d : Doc) (o : Obj) : Prop := ∃ x ∈ d, x.eq o = true

theorem unnamed_of {o : Obj} (h : ¬ LoneGraph o) : unnamedGraph o = none := by
  rcases o with _ | _ | ⟨⟨x, i, ty, g, inc, ps, rv⟩⟩
  · rfl
  · rfl
  · unfold unnamedGraph
    dsimp only
    rw [if_neg]
    intro hg
    refine h ?_
    cases i <;> cases ty <;> cases g <;> cases inc <;> cases ps <;> cases rv <;>
      first | exact ⟨_, _, rfl⟩ | cases hg

section
variable (E : XEnv) (c : ACtx)

/-- What an item contributes. -/
def itemsOf (j : Json) : Except XErr (List Obj) := (expandElement E c none j false).map Expanded.toList

theorem expandDoc_arr (l : List Json) :
    expandDoc E c (.arr l) = (collectM (itemsOf E c) l).map fun os => docResult (.array os) := by
  unfold expandDoc
  rw [C49_unfold]
  show ((collectM _ l).map _).map _ = _
  have : (fun j => ((unlimited E).elem c none j false).map Expanded.toList) = itemsOf E c := by
    funext j
    unfold itemsOf
    rfl
  rw [this]
  cases collectM (itemsOf E c) l <;> rfl

variable {E : XEnv} {c : ACtx}

theorem collectM_all {P : Obj → Prop} {l : List Json} {os : List Obj} (h : collectM (itemsOf E c) l = .ok os)
    (hP : ∀ j ∈ l, ∀ x, expandElement E c none j false = .ok x → ∀ o ∈ x.toList, P o) : ∀ o ∈ os, P o := by
  induction l generalizing os with
  | nil => cases h; exact nofun
  | cons j l ih =>
    have h : (itemsOf E c j).bind (fun x => (collectM (itemsOf E c) l).map fun y => x ++ y) = .ok os := h
    cases hx : expandElement E c none j false with
    | error e =>
      have : itemsOf E c j = .error e := by unfold itemsOf; rw [hx]; rfl
      rw [this] at h
      cases h
    | ok x =>
      have : itemsOf E c j = .ok x.toList := by unfold itemsOf; rw [hx]; rfl
      rw [this] at h
      cases hy : collectM (itemsOf E c) l with
      | error e => rw [hy] at h; cases h
      | ok ys =>
        rw [hy] at h
        cases h
        intro o ho
        rcases List.mem_append.1 ho with ho | ho
        · exact hP j List.mem_cons_self x hx o ho
        · exact ih hy (fun j hj => hP j (List.mem_cons_of_mem _ hj)) o ho

theorem docResult_plain {os : List Obj} (h : ∀ o ∈ os, ¬ LoneGraph o) :
    docResult (.array os) = setCollect Obj.eq (os.filter topLevel) := by
  unfold docResult
  show (match os with | [o] => _ | os => _) = _
  match os with
  | [] => rfl
  | [o] =>
    dsimp only
    rw [unnamed_of (h o List.mem_cons_self)]
    dsimp only
    cases ht : topLevel o
    · rw [List.filter_cons, ht]; rfl
    · rw [List.filter_cons, ht]; rfl
  | _ :: _ :: _ => rfl

theorem holds_iff {os : List Obj} (hw : ∀ o ∈ os, o.WF) {o : Obj} (ho : o.WF) :
    Holds (setCollect Obj.eq (os.filter topLevel)) o ↔ ∃ x ∈ os, topLevel x = true ∧ x.eq o = true := by
  constructor
  · rintro ⟨x, hx, he⟩
    have := List.mem_filter.1 (setCollect_mem hx)
    exact ⟨x, this.1, this.2, he⟩
  · rintro ⟨x, hx, ht, he⟩
    obtain ⟨y, hy, hxy⟩ := setCollect_covers (l := os.filter topLevel) (Obj.eqOk (hw x hx)).1 (List.mem_filter.2 ⟨hx, ht⟩)
    have hyw := hw y (List.mem_filter.1 (setCollect_mem hy)).1
    have hyx := (Obj.eqOk (hw x hx)).2.1 y hyw hxy
    exact ⟨y, hy, (Obj.eqOk hyw).2.2 x o (hw x hx) ho hyx he⟩

theorem collectM_app (l l' : List Json) : collectM (itemsOf E c) (l ++ l') = (collectM (itemsOf E c) l).bind fun x =>
      (collectM (itemsOf E c) l').map fun y => x ++ y := by
  induction l with
  | nil => show collectM _ l' = Except.map _ _; cases collectM (itemsOf E c) l' <;> rfl
  | cons j l ih =>
    show (itemsOf E c j).bind (fun x => (collectM (itemsOf E c) (l ++ l')).map _) =
      ((itemsOf E c j).bind fun x => (collectM (itemsOf E c) l).map _).bind _
    rw [ih]
    cases itemsOf E c j with
    | error => rfl
    | ok x =>
      cases collectM (itemsOf E c) l with
      | error => rfl
      | ok y =>
        show Except.map _ (Except.map _ _) = Except.map _ _
        cases collectM (itemsOf E c) l' with
        | error => rfl
        | ok z => exact congrArg Except.ok (List.append_assoc ..).symm

theorem expandDoc_members_wf {j : Json} {d : Doc} (h : expandDoc E c j = .ok d) : ∀ o ∈ d, o.WF :=
  objsWF_iff.1 (C44_sets _ _ _ _ h).1.2

theorem reached_append {d d' : Doc} {g : Option Id} {x : Item} (h : Reached (d ++ d') g x) : Reached d g x ∨ Reached d' g x := by
  induction h with
  | top h => exact (List.mem_append.1 h).imp .top .top
  | self _ ih => exact ih.imp .self .self
  | item _ h ih => exact ih.imp (.item · h) (.item · h)
  | graph _ h1 h2 h3 ih => exact ih.imp (.graph · h1 h2 h3) (.graph · h1 h2 h3)
  | included _ h1 h2 h3 ih => exact ih.imp (.included · h1 h2 h3) (.included · h1 h2 h3)
  | property _ h1 h2 h3 ih => exact ih.imp (.property · h1 h2 h3) (.property · h1 h2 h3)
  | reverse _ h1 h2 h3 h4 ih => exact ih.imp (.reverse · h1 h2 h3 h4) (.reverse · h1 h2 h3 h4)

theorem asserts_append {d d' : Doc} {q : Quad} (h : Asserts (d ++ d') q) : Asserts d q ∨ Asserts d' q := by
  cases h with
  | type h h1 h2 h3 => exact (reached_append h).imp (.type · h1 h2 h3) (.type · h1 h2 h3)
  | property h h1 h2 h3 => exact (reached_append h).imp (.property · h1 h2 h3) (.property · h1 h2 h3)
  | reverse h h1 h2 h3 h4 h5 => exact (reached_append h).imp (.reverse · h1 h2 h3 h4 h5) (.reverse · h1 h2 h3 h4 h5)

/-- **C100.** The first error counts. -/
theorem C100_error (l l' : List Json) (e : XErr) : expandDoc E c (.arr (l ++ l')) = .error e ↔
    expandDoc E c (.arr l) = .error e ∨ (∃ d, expandDoc E c (.arr l) = .ok d) ∧ expandDoc E c (.arr l') = .error e := by
  rw [expandDoc_arr, expandDoc_arr, expandDoc_arr]
  rw [collectM_app]
  cases collectM (itemsOf E c) l with
  | error x =>
    constructor
    · exact .inl
    · rintro (h | ⟨⟨d, h⟩, -⟩)
      · exact h
      · cases h
  | ok x =>
    cases collectM (itemsOf E c) l' with
    | error y =>
      constructor
      · exact fun h => .inr ⟨⟨_, rfl⟩, h⟩
      · rintro (h | ⟨-, h⟩)
        · cases h
        · exact h
    | ok y =>
      constructor
      · nofun
      · rintro (h | ⟨-, h⟩) <;> cases h

/-- **C100.** Documents can be put together in an array: the result holds the objects that are in one of the results, and
no others. Graphs without identifier are excepted (`C100_graph`). -/
theorem C100_union_partial (l l' : List Json) (hg : ∀ j ∈ l ++ l', NoLoneGraph E c j) (d d' : Doc)
    (h : expandDoc E c (.arr l) = .ok d) (h' : expandDoc E c (.arr l') = .ok d') :
    ∃ d'', expandDoc E c (.arr (l ++ l')) = .ok d'' ∧ ∀ o : Obj, o.WF → (Holds d'' o ↔ Holds d o ∨ Holds d' o) := by
  rw [expandDoc_arr] at h h' ⊢
  obtain ⟨os, h1, rfl⟩ := (exMap_iff).1 h
  clear h
  obtain ⟨os', h2, rfl⟩ := (exMap_iff).1 h'
  clear h'
  have hc : collectM (itemsOf E c) (l ++ l') = .ok (os ++ os') := collectM_append.2 ⟨os, os', h1, h2, rfl⟩
  rw [hc]
  refine ⟨_, rfl, fun o ho => ?_⟩
  have g1 := collectM_all h1 fun j hj => hg j (List.mem_append_left _ hj)
  have g2 := collectM_all h2 fun j hj => hg j (List.mem_append_right _ hj)
  have w1 := collectM_all h1 fun j hj x hx => element_wf hx
  have w2 := collectM_all h2 fun j hj x hx => element_wf hx
  show Holds (docResult (.array (os ++ os'))) o ↔ _
  rw [docResult_plain g1, docResult_plain g2, docResult_plain (collectM_all hc hg), holds_iff w1 ho, holds_iff w2 ho,
    holds_iff (collectM_all hc fun j hj x hx => element_wf hx) ho]
  constructor
  · rintro ⟨x, hx, r⟩
    rcases List.mem_append.1 hx with hx | hx
    · exact .inl ⟨x, hx, r⟩
    · exact .inr ⟨x, hx, r⟩
  · rintro (⟨x, hx, r⟩ | ⟨x, hx, r⟩)
    · exact ⟨x, List.mem_append_left _ hx, r⟩
    · exact ⟨x, List.mem_append_right _ hx, r⟩

/-- **C100.** So the result makes the statements that one of the results makes, and no others, up to equality of their
objects. -/
theorem C100_statements_partial (l l' : List Json) (hg : ∀ j ∈ l ++ l', NoLoneGraph E c j) (d d' d'' : Doc)
    (h : expandDoc E c (.arr l) = .ok d) (h' : expandDoc E c (.arr l') = .ok d')
    (h'' : expandDoc E c (.arr (l ++ l')) = .ok d'') :
    (∀ q, Asserts d'' q → ∃ o, (Asserts d ⟨q.graph, q.subject, q.property, o⟩ ∨ Asserts d' ⟨q.graph, q.subject, q.property, o⟩) ∧
      SameObject q.object o) ∧
    (∀ q, Asserts d q ∨ Asserts d' q → ∃ o, Asserts d'' ⟨q.graph, q.subject, q.property, o⟩ ∧ SameObject q.object o) := by
  obtain ⟨d₁, e, hu⟩ := C100_union_partial l l' hg d d' h h'
  rw [h''] at e
  cases e
  have w : ∀ {j d}, expandDoc E c j = .ok d → ∀ o ∈ d, o.WF := fun h => expandDoc_members_wf h
  have holds : ∀ {d : Doc} {o : Obj}, (∀ o ∈ d, o.WF) → o.WF → Holds d o → ∃ y ∈ d, o.eq y = true := by
    rintro d o hd ho ⟨x, hx, he⟩
    exact ⟨x, hx, (Obj.eqOk (hd x hx)).2.1 o ho he⟩
  have self : ∀ {d : Doc} {o : Obj}, (∀ o ∈ d, o.WF) → o ∈ d → Holds d o := fun hd ho => ⟨_, ho, (Obj.eqOk (hd _ ho)).1⟩
  have up : ∀ {d : Doc}, (∀ o ∈ d, o.WF) → (∀ o, o.WF → Holds d o → Holds d'' o) → ∀ q, Asserts d q →
      ∃ o, Asserts d'' ⟨q.graph, q.subject, q.property, o⟩ ∧ SameObject q.object o := by
    intro d hd hh q hq
    obtain ⟨o, ho, hs⟩ := asserts_same hd (w h'') (fun x hx => holds (w h'') (hd x hx) (hh x (hd x hx) (self hd hx))) hq
    exact ⟨o, ho, sameObject_of hs⟩
  refine ⟨fun q hq => ?_, ?_⟩
  · have hw : ∀ o ∈ d ++ d', o.WF := fun o ho => (List.mem_append.1 ho).elim (w h o) (w h' o)
    obtain ⟨o, ho, hs⟩ := asserts_same (e := d ++ d') (w h'') hw (fun x hx => by
      rcases (hu x (w h'' x hx)).1 (self (w h'') hx) with hx' | hx'
      · obtain ⟨y, hy, r⟩ := holds (w h) (w h'' x hx) hx'
        exact ⟨y, List.mem_append_left _ hy, r⟩
      · obtain ⟨y, hy, r⟩ := holds (w h') (w h'' x hx) hx'
        exact ⟨y, List.mem_append_right _ hy, r⟩) hq
    exact ⟨o, asserts_append ho, sameObject_of hs⟩
  · rintro q (hq | hq)
    · exact up (w h) (fun o ho hh => (hu o ho).2 (.inl hh)) q hq
    · exact up (w h') (fun o ho hh => (hu o ho).2 (.inr hh)) q hq

/-- **C100.** An item in an array of its own is the same document. -/
theorem C100_single (j : Json) : expandDoc E c (.arr [j]) = expandDoc E c j := by
  rw [expandDoc_arr]
  unfold expandDoc
  show ((itemsOf E c j).bind fun x => Except.ok (x ++ [])).map _ = _
  unfold itemsOf
  cases expandElement E c none j false with
  | error => rfl
  | ok x =>
    show Except.ok (docResult (.array (x.toList ++ []))) = Except.ok (docResult x)
    rw [List.append_nil]
    rfl

/-- **C100.** Arrays in arrays have no meaning of their own. -/
theorem C100_nested (l m l' : List Json) : expandDoc E c (.arr (l ++ .arr m :: l')) = expandDoc E c (.arr (l ++ m ++ l')) := by
  rw [expandDoc_arr, expandDoc_arr]
  refine congrArg _ ?_
  have hm : itemsOf E c (.arr m) = collectM (itemsOf E c) m := by
    unfold itemsOf
    rw [C49_unfold]
    show ((collectM _ m).map _).map _ = _
    cases h : collectM (fun j => ((unlimited E).elem c none j false).map Expanded.toList) m with
    | error e => exact h.symm
    | ok os => exact h.symm
  rw [collectM_app, collectM_app, collectM_app]
  show (collectM (itemsOf E c) l).bind (fun x => Except.map _ ((itemsOf E c (.arr m)).bind fun y => _)) = _
  rw [hm]
  cases collectM (itemsOf E c) l with
  | error => rfl
  | ok x =>
    cases collectM (itemsOf E c) m with
    | error => rfl
    | ok y =>
      show Except.map _ (Except.map _ _) = Except.map _ _
      cases collectM (itemsOf E c) l' with
      | error => rfl
      | ok z => exact congrArg Except.ok (List.append_assoc ..).symm

end

/-! ## Examples -/

/-- `{"@id": "http:s", "http:p": v}` -/
def exPart (s v : String) : Json :=
  .obj [("@id".toList, .str ("http:".toList ++ s.toList)), ("http:p".toList, .str v.toList)]

theorem exPart_ok (s v : String) (h : ((expandElement exBackEnv {} none (exPart s v) false).toOption.map fun x =>
    x.toList.all fun o => (unnamedGraph o).isNone) = some true) : NoLoneGraph exBackEnv {} (exPart s v) := by
  rintro x hx o ho ⟨i, g, rfl⟩
  rw [hx] at h
  have := List.all_eq_true.1 (Option.some.inj h) _ ho
  cases this

def exPartNode (s : String) : Node :=
  .mk none (some (.iri ("http:".toList ++ s.toList))) none none none
    [(.iri "http:p".toList, [.value none (.literal (.str "x".toList) none)])] none

/-- Three nodes, the first and the last being equal: the union has two nodes. -/
example : ∃ d'', expandDoc exBackEnv {} (.arr ([exPart "a" "x"] ++ [exPart "b" "x", exPart "a" "x"])) = .ok d'' ∧ d''.length = 2 ∧
    ∀ o : Obj, o.WF → (Holds d'' o ↔ Holds [.node (exPartNode "a")] o ∨
      Holds [.node (exPartNode "b"),
        .node (exPartNode "a")] o) := by
  have ok : ∀ {r : Except XErr Doc} {d : Doc}, r.toOption = some d → r = .ok d := by
    intro r d h
    cases r with
    | error => cases h
    | ok => exact congrArg _ (Option.some.inj h)
  obtain ⟨d, h, hu⟩ := C100_union_partial (E := exBackEnv) (c := {}) [exPart "a" "x"] [exPart "b" "x", exPart "a" "x"] (fun j hj => by
    simp only [List.cons_append, List.nil_append, List.mem_cons, List.not_mem_nil, or_false] at hj
    rcases hj with rfl | rfl | rfl <;> exact exPart_ok _ _ (by decide +kernel))
    [.node (exPartNode "a")] [.node (exPartNode "b"), .node (exPartNode "a")] (ok (by decide +kernel)) (ok (by decide +kernel))
  refine ⟨d, h, ?_, hu⟩
  have : ((expandDoc exBackEnv {} (.arr ([exPart "a" "x"] ++ [exPart "b" "x", exPart "a" "x"]))).toOption.map List.length) = some 2 := by
    decide +kernel
  rw [h] at this
  exact Option.some.inj this

/-- C100 is false of a graph without identifier: alone, even in an array, its nodes become the document; together with other
nodes, it remains a graph, which is not part of the default graph. -/
theorem C100_graph :
    (expandDoc exBackEnv {} (.arr [.obj [("@graph".toList, .arr [exPart "a" "x"])]])).toOption =
      some [.node (exPartNode "a")] ∧
    (expandDoc exBackEnv {} (.arr [.obj [("@graph".toList, .arr [exPart "a" "x"])], exPart "b" "x"])).toOption =
      some [.node (.mk none none none (some [.node (exPartNode "a")]) none [] none),
        .node (exPartNode "b")] := by
  decide +kernel

end JsonLd.Props
