import Verif.Spec.Rdf
/-!
# The statement iterator gives the statements
-/

namespace JsonLd
open Spec

theorem quadLoop_det : Det QuadLoop := by
  intro s o o' h h'
  rw [QuadLoop] at h h'
  rw [← h, ← h']

/-- The iterator gives the statements of an object pushed on its stack. -/
def ObjSteps (o : Obj) : Prop := ∀ g st, Steps QuadLoop (pushObject g o st) (objQuads g o) st
/-- See `ObjSteps`. -/
def NodeSteps (n : Node) : Prop := ∀ g st, Steps QuadLoop (pushNode g n st) (nodeQuads g n) st

theorem steps_objs {l : List Obj} (h : ∀ o ∈ l, ObjSteps o) (g : Option Id) (st : List Frame) :
    Steps QuadLoop (.objs g l :: st) (objsQuads g l) st := by
  induction l with
  | nil => exact .again rfl .refl
  | cons o l ih =>
    exact .again rfl ((h o List.mem_cons_self g _).trans
      (ih fun x hx => h x (List.mem_cons_of_mem _ hx)))

theorem steps_nodes {l : List Node} (h : ∀ o ∈ l, NodeSteps o) (g : Option Id) (st : List Frame) :
    Steps QuadLoop (.nodes g l :: st) (nodesQuads g l) st := by
  induction l with
  | nil => exact .again rfl .refl
  | cons o l ih =>
    exact .again rfl ((h o List.mem_cons_self g _).trans
      (ih fun x hx => h x (List.mem_cons_of_mem _ hx)))

theorem steps_types (g : Option Id) (s : Id) (l : List Id) (st : List Frame) :
    Steps QuadLoop (.types g s l :: st) (l.map fun t => ⟨g, s, .type, .ref t⟩) st := by
  induction l with
  | nil => exact .again rfl .refl
  | cons o l ih => exact .emit rfl ih

theorem steps_vals {l : List Obj} (h : ∀ o ∈ l, ObjSteps o) (g : Option Id) (s k : Id)
    (st : List Frame) : Steps QuadLoop (.propObjs g s k l :: st) (valsQuads g s k l) st := by
  induction l with
  | nil => exact .again rfl .refl
  | cons o l ih =>
    exact .emit rfl ((h o List.mem_cons_self g _).trans
      (ih fun x hx => h x (List.mem_cons_of_mem _ hx)))

theorem steps_props {l : List (Id × List Obj)} (h : ∀ p ∈ l, ∀ o ∈ p.2, ObjSteps o) (g : Option Id)
    (s : Id) (st : List Frame) : Steps QuadLoop (.props g s l :: st) (psQuads g s l) st := by
  induction l with
  | nil => exact .again rfl .refl
  | cons p l ih =>
    obtain ⟨k, os⟩ := p
    exact .again rfl ((steps_vals (h _ List.mem_cons_self) g s k _).trans
      (ih fun x hx => h x (List.mem_cons_of_mem _ hx)))

theorem steps_subs {l : List Node} (h : ∀ o ∈ l, NodeSteps o) (g : Option Id) (n : Node) (k : Id)
    (st : List Frame) : Steps QuadLoop (.revSubs g n k l :: st) (subsQuads g n k l) st := by
  induction l with
  | nil => exact .again rfl .refl
  | cons m l ih =>
    have hs := (h m List.mem_cons_self g (.revSubs g n k l :: st)).trans
      (ih fun x hx => h x (List.mem_cons_of_mem _ hx))
    rw [subsQuads]
    cases hm : m.id with
    | none => exact .again (by simp [QuadLoop, quadStep, hm]) hs
    | some id => exact .emit (by simp [QuadLoop, quadStep, hm]) hs

theorem steps_revs {l : List (Id × List Node)} (h : ∀ p ∈ l, ∀ o ∈ p.2, NodeSteps o) (g : Option Id)
    (n : Node) (st : List Frame) : Steps QuadLoop (.revs g n l :: st) (rpsQuads g n l) st := by
  induction l with
  | nil => exact .again rfl .refl
  | cons p l ih =>
    obtain ⟨k, os⟩ := p
    exact .again rfl ((steps_subs (h _ List.mem_cons_self) g n k _).trans
      (ih fun x hx => h x (List.mem_cons_of_mem _ hx)))

theorem steps_all : (∀ o, ObjSteps o) ∧ (∀ n, NodeSteps n) := by
  apply Doc.ind
  · intro i v g st
    exact .refl
  · intro i l ih g st
    exact steps_objs ih g st
  · intro n ih g st
    exact ih g st
  · intro i id ty gr inc ps rv ig iinc ips irv g st
    cases id with
    | none => exact .refl
    | some s =>
      rw [nodeQuads]
      simp only [pushNode, Node.id, Node.types, Node.props, Node.rev, Node.included, Node.graph,
        List.append_assoc, List.cons_append]
      refine Steps.trans (s' := .props g s ps ::
        ((rv.map fun r => Frame.revs g (.mk i (some s) ty gr inc ps rv) r).toList ++
        ((inc.map fun l => Frame.nodes g l).toList ++
        ((gr.map fun l => Frame.objs (some s) l).toList ++ st)))) ?_
        ((steps_props ips g s _).trans ?_)
      · cases ty with
        | none => exact .refl
        | some ts => exact steps_types g s ts _
      refine Steps.trans (s' := (inc.map fun l => Frame.nodes g l).toList ++
        ((gr.map fun l => Frame.objs (some s) l).toList ++ st)) ?_ (Steps.trans
        (s' := (gr.map fun l => Frame.objs (some s) l).toList ++ st) ?_ ?_)
      · cases rv with
        | none => exact .refl
        | some r => exact steps_revs (irv r rfl) g _ _
      · cases inc with
        | none => exact .refl
        | some r => exact steps_nodes (iinc r rfl) g _
      · cases gr with
        | none => exact .refl
        | some r => exact steps_objs (ig r rfl) _ _

/-- The iterator over the statements of a document ends and gives `statements`. -/
theorem quads_steps (d : Doc) : Steps QuadLoop d.quadsInit (statements d) [] :=
  steps_objs (fun o _ => steps_all.1 o) none []

theorem flat_steps (f : List Node) : Steps QuadLoop (flatQuadsInit f) (nodesQuads none f) [] :=
  steps_nodes (fun o _ => steps_all.2 o) none []

theorem collects_of_steps_nil {l : List Quad} {s : List Frame} (h : Steps QuadLoop s l []) :
    Collects QuadLoop s l [] := by
  have := Collects.of_steps h (.nil (.stop rfl))
  simpa using this

/-! ## The written statements are those stated -/

theorem mem_objsQuads {g : Option Id} {l : List Obj} {q : Quad} :
    q ∈ objsQuads g l ↔ ∃ o ∈ l, q ∈ objQuads g o := by
  induction l with
  | nil => simp [objsQuads]
  | cons o l ih => simp [objsQuads, ih]

theorem mem_nodesQuads {g : Option Id} {l : List Node} {q : Quad} :
    q ∈ nodesQuads g l ↔ ∃ o ∈ l, q ∈ nodeQuads g o := by
  induction l with
  | nil => simp [nodesQuads]
  | cons o l ih => simp [nodesQuads, ih]

theorem mem_valsQuads {g : Option Id} {s k : Id} {l : List Obj} {q : Quad} :
    q ∈ valsQuads g s k l ↔ ∃ o ∈ l, q = ⟨g, s, .ref k, .obj o⟩ ∨ q ∈ objQuads g o := by
  induction l with
  | nil => simp [valsQuads]
  | cons o l ih => simp [valsQuads, ih, or_assoc]

theorem mem_psQuads {g : Option Id} {s : Id} {l : List (Id × List Obj)} {q : Quad} :
    q ∈ psQuads g s l ↔ ∃ p ∈ l, q ∈ valsQuads g s p.1 p.2 := by
  induction l with
  | nil => simp [psQuads]
  | cons p l ih => obtain ⟨k, os⟩ := p; simp [psQuads, ih]

theorem mem_subsQuads {g : Option Id} {n : Node} {k : Id} {l : List Node} {q : Quad} :
    q ∈ subsQuads g n k l ↔
      ∃ m ∈ l, (∃ s, m.id = some s ∧ q = ⟨g, s, .ref k, .node n⟩) ∨ q ∈ nodeQuads g m := by
  induction l with
  | nil => simp [subsQuads]
  | cons m l ih =>
    rw [subsQuads, List.mem_append, List.mem_append, ih]
    simp only [List.mem_cons, exists_eq_or_imp, Option.mem_toList, Option.map_eq_some_iff]
    constructor
    · rintro (⟨s, hs, rfl⟩ | h | h)
      · exact .inl (.inl ⟨s, hs, rfl⟩)
      · exact .inl (.inr h)
      · exact .inr h
    · rintro ((⟨s, hs, rfl⟩ | h) | h)
      · exact .inl ⟨s, hs, rfl⟩
      · exact .inr (.inl h)
      · exact .inr (.inr h)

theorem mem_rpsQuads {g : Option Id} {n : Node} {l : List (Id × List Node)} {q : Quad} :
    q ∈ rpsQuads g n l ↔ ∃ p ∈ l, q ∈ subsQuads g n p.1 p.2 := by
  induction l with
  | nil => simp [rpsQuads]
  | cons p l ih => obtain ⟨k, os⟩ := p; simp [rpsQuads, ih]

theorem mem_nodeQuads {g : Option Id} {n : Node} {q : Quad} : q ∈ nodeQuads g n ↔
    ∃ s, n.id = some s ∧ ((∃ ts t, n.types = some ts ∧ t ∈ ts ∧ q = ⟨g, s, .type, .ref t⟩) ∨
      (∃ p ∈ n.props, q ∈ valsQuads g s p.1 p.2) ∨
      (∃ r, n.rev = some r ∧ ∃ p ∈ r, q ∈ subsQuads g n p.1 p.2) ∨
      (∃ l, n.included = some l ∧ ∃ m ∈ l, q ∈ nodeQuads g m) ∨
      (∃ l, n.graph = some l ∧ ∃ o ∈ l, q ∈ objQuads (some s) o)) := by
  obtain ⟨i, id, ty, gr, inc, ps, rv⟩ := n
  cases id with
  | none => simp [nodeQuads, Node.id]
  | some s =>
    have e1 : q ∈ (ty.getD []).map (fun t => (⟨g, s, .type, .ref t⟩ : Quad)) ↔
        ∃ ts t, ty = some ts ∧ t ∈ ts ∧ q = ⟨g, s, .type, .ref t⟩ := by
      cases ty with
      | none => simp
      | some ts =>
        simp only [Option.getD_some, List.mem_map, Option.some.injEq]
        constructor
        · rintro ⟨t, h, rfl⟩; exact ⟨ts, t, rfl, h, rfl⟩
        · rintro ⟨_, t, rfl, h, rfl⟩; exact ⟨t, h, rfl⟩
    have e3 : ∀ m, q ∈ rvQuads g m rv ↔ ∃ r, rv = some r ∧ ∃ p ∈ r, q ∈ subsQuads g m p.1 p.2 := by
      intro m
      cases rv with
      | none => simp [rvQuads]
      | some r => simp [rvQuads, mem_rpsQuads]
    have e4 : q ∈ incQuads g inc ↔ ∃ l, inc = some l ∧ ∃ m ∈ l, q ∈ nodeQuads g m := by
      cases inc with
      | none => simp [incQuads]
      | some r => simp [incQuads, mem_nodesQuads]
    have e5 : q ∈ grQuads (some s) gr ↔ ∃ l, gr = some l ∧ ∃ o ∈ l, q ∈ objQuads (some s) o := by
      cases gr with
      | none => simp [grQuads]
      | some r => simp [grQuads, mem_objsQuads]
    rw [nodeQuads]
    simp only [List.mem_append, e1, mem_psQuads, e3, e4, e5, Node.id, Node.types, Node.props,
      Node.rev, Node.included, Node.graph, Option.some.injEq, exists_eq_left', or_assoc]

theorem statements_sound {d : Doc} :
    (∀ o : Obj, ∀ g q, Reached d g (.obj o) → q ∈ objQuads g o → Asserts d q) ∧
    (∀ n : Node, ∀ g q, Reached d g (.node n) → q ∈ nodeQuads g n → Asserts d q) := by
  apply Doc.ind
  · intro i v g q _ h; cases h
  · intro i l ih g q ho h
    obtain ⟨o, hm, h⟩ := mem_objsQuads.1 h
    exact ih o hm g q (.item ho hm) h
  · intro n ih g q ho h
    exact ih g q (.self ho) h
  · intro i id ty gr inc ps rv ig iinc ips irv g q ho h
    obtain ⟨s, hs, h⟩ := mem_nodeQuads.1 h
    rcases h with ⟨ts, t, hts, ht, rfl⟩ | ⟨p, hp, h⟩ | ⟨r, hr, p, hp, h⟩ | ⟨l, hl, m, hm, h⟩ |
      ⟨l, hl, o, hm, h⟩
    · exact .type ho hs hts ht
    · obtain ⟨o, hm, rfl | h⟩ := mem_valsQuads.1 h
      · exact .property ho hs hp hm
      · exact ips p hp o hm g q (.property (k := p.1) ho hs hp hm) h
    · obtain ⟨m, hm, ⟨x, hx, rfl⟩ | h⟩ := mem_subsQuads.1 h
      · exact .reverse ho hs hr hp hm hx
      · exact irv r hr p hp m hm g q (.reverse (k := p.1) ho hs hr hp hm) h
    · exact iinc l hl m hm g q (.included ho hs hl hm) h
    · exact ig l hl o hm _ q (.graph ho hs hl hm) h

/-- All statements of the item, in the graph, are among the statements of the document. -/
def Within (d : Doc) (g : Option Id) : Item → Prop
  | .obj o => ∀ q ∈ objQuads g o, q ∈ statements d
  | .node n => ∀ q ∈ nodeQuads g n, q ∈ statements d

theorem within_of_occurs {d : Doc} {g : Option Id} {x : Item} (h : Reached d g x) : Within d g x := by
  induction h with
  | top h => intro q hq; exact mem_objsQuads.2 ⟨_, h, hq⟩
  | self _ ih => exact ih
  | item _ hm ih => intro q hq; exact ih q (mem_objsQuads.2 ⟨_, hm, hq⟩)
  | graph _ hs hl hm ih =>
    intro q hq
    exact ih q (mem_nodeQuads.2 ⟨_, hs, .inr (.inr (.inr (.inr ⟨_, hl, _, hm, hq⟩)))⟩)
  | included _ hs hl hm ih =>
    intro q hq
    exact ih q (mem_nodeQuads.2 ⟨_, hs, .inr (.inr (.inr (.inl ⟨_, hl, _, hm, hq⟩)))⟩)
  | property _ hs hp hm ih =>
    intro q hq
    exact ih q (mem_nodeQuads.2 ⟨_, hs, .inr (.inl ⟨_, hp, mem_valsQuads.2 ⟨_, hm, .inr hq⟩⟩)⟩)
  | reverse _ hs hr hp hm ih =>
    intro q hq
    exact ih q (mem_nodeQuads.2 ⟨_, hs, .inr (.inr (.inl ⟨_, hr, _, hp,
      mem_subsQuads.2 ⟨_, hm, .inr hq⟩⟩))⟩)

theorem mem_statements_iff {d : Doc} {q : Quad} : q ∈ statements d ↔ Asserts d q := by
  constructor
  · intro h
    obtain ⟨o, ho, h⟩ := mem_objsQuads.1 h
    exact statements_sound.1 o none q (.top ho) h
  · intro h
    cases h with
    | type ho hs hts ht =>
      exact within_of_occurs ho _ (mem_nodeQuads.2 ⟨_, hs, .inl ⟨_, _, hts, ht, rfl⟩⟩)
    | property ho hs hp hm =>
      exact within_of_occurs ho _ (mem_nodeQuads.2 ⟨_, hs, .inr (.inl ⟨_, hp,
        mem_valsQuads.2 ⟨_, hm, .inl rfl⟩⟩)⟩)
    | reverse ho hs hr hp hm hx =>
      exact within_of_occurs ho _ (mem_nodeQuads.2 ⟨_, hs, .inr (.inr (.inl ⟨_, hr, _, hp,
        mem_subsQuads.2 ⟨_, hm, .inl ⟨_, hx, rfl⟩⟩⟩))⟩)

end JsonLd
