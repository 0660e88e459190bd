import Verif.Proofs.SameStatements
import Verif.Proofs.Identify
import Verif.Proofs.Rdf
/-!
# From a document to RDF: names, literals, statements
-/

namespace JsonLd
open Spec

/-! ## Headers of what is in a document -/

/-- The headers of an item. -/
def itemHeaders : Item → List (Option Id × Option (List Id))
  | .obj o => objHeaders o
  | .node n => nodeHeaders n

theorem mem_objHeaders_of_mem {l : List Obj} {o : Obj} (ho : o ∈ l) : objHeaders o ⊆ objsHeaders l :=
  fun _ hh => mem_objsHeaders ho hh

theorem partL_headers {x y : Item} (h : PartL x y) : itemHeaders x ⊆ itemHeaders y := by
  intro a ha
  cases h with
  | part h =>
    cases h with
    | self n => exact ha
    | graph hg ho =>
      rename_i n l o
      obtain ⟨i, id, ty, g, inc, ps, rv⟩ := n
      have hg : g = some l := hg
      subst hg
      simp only [itemHeaders, nodeHeaders, gHeaders, List.mem_cons, List.mem_append]
      exact .inr (.inl (.inl (.inl (mem_objsHeaders ho ha))))
    | included hg ho =>
      rename_i n l o
      obtain ⟨i, id, ty, g, inc, ps, rv⟩ := n
      have hg : inc = some l := hg
      subst hg
      simp only [itemHeaders, nodeHeaders, incHeaders, List.mem_cons, List.mem_append]
      exact .inr (.inl (.inl (.inr (mem_nodesHeaders ho ha))))
    | property hp ho =>
      rename_i n k l o
      obtain ⟨i, id, ty, g, inc, ps, rv⟩ := n
      simp only [itemHeaders, nodeHeaders, List.mem_cons, List.mem_append]
      exact .inr (.inl (.inr (mem_psHeaders hp ho ha)))
    | reverse hg hp ho =>
      rename_i n r k l m
      obtain ⟨i, id, ty, g, inc, ps, rv⟩ := n
      have hg : rv = some r := hg
      subst hg
      simp only [itemHeaders, nodeHeaders, rvHeaders, List.mem_cons, List.mem_append]
      exact .inr (.inr (mem_rpsHeaders hp ho ha))
  | item ho => exact mem_objsHeaders ho ha

theorem inside_headers {d : Doc} {x : Item} (h : Inside d x) : itemHeaders x ⊆ docHeaders d := by
  obtain ⟨o, ho, h⟩ := h
  have : itemHeaders x ⊆ objHeaders o := by
    induction h using Relation.ReflTransGen.head_induction_on with
    | refl => exact List.Subset.refl _
    | head h _ ih => exact fun a ha => ih (partL_headers h ha)
  exact fun a ha => mem_objsHeaders ho (this ha)

theorem reached_inside {d : Doc} {g : Option Id} {x : Item} (h : Reached d g x) : Inside d x := by
  induction h with
  | top ho => exact ⟨_, ho, .refl⟩
  | self _ ih => obtain ⟨o, ho, h⟩ := ih; exact ⟨o, ho, .head (.part (.self _)) h⟩
  | item _ hm ih => obtain ⟨o, ho, h⟩ := ih; exact ⟨o, ho, .head (.item hm) h⟩
  | graph _ _ hl hm ih => obtain ⟨o, ho, h⟩ := ih; exact ⟨o, ho, .head (.part (.graph hl hm)) h⟩
  | included _ _ hl hm ih => obtain ⟨o, ho, h⟩ := ih; exact ⟨o, ho, .head (.part (.included hl hm)) h⟩
  | property _ _ hl hm ih => obtain ⟨o, ho, h⟩ := ih; exact ⟨o, ho, .head (.part (.property hl hm)) h⟩
  | reverse _ _ hr hl hm ih =>
    obtain ⟨o, ho, h⟩ := ih; exact ⟨o, ho, .head (.part (.reverse hr hl hm)) h⟩

theorem inside_node_header {d : Doc} {n : Node} (h : Inside d (.node n)) :
    (n.id, n.types) ∈ docHeaders d := by
  refine inside_headers h ?_
  obtain ⟨i, id, ty, g, inc, ps, rv⟩ := n
  exact List.mem_cons_self

/-- When every node has an identifier, everything in the document is reached. -/
theorem inside_reached {d : Doc} (hid : ∀ h ∈ docHeaders d, h.1.isSome = true) {x : Item}
    (h : Inside d x) : ∃ g, Reached d g x := by
  obtain ⟨o, ho, h⟩ := h
  have key : ∀ x, Relation.ReflTransGen PartL x (.obj o) → ∃ g, Reached d g x := by
    intro x h
    induction h using Relation.ReflTransGen.head_induction_on with
    | refl => exact ⟨none, .top ho⟩
    | head h _ ih =>
      obtain ⟨g, hg⟩ := ih
      cases h with
      | item hm => exact ⟨g, .item hg hm⟩
      | part h =>
        have hsome : ∀ n : Node, Reached d g (.node n) → ∃ s, n.id = some s := by
          intro n hn
          have := hid _ (inside_node_header (reached_inside hn))
          exact Option.isSome_iff_exists.1 this
        cases h with
        | self n => exact ⟨g, .self hg⟩
        | graph hl hm => obtain ⟨s, hs⟩ := hsome _ hg; exact ⟨some s, .graph hg hs hl hm⟩
        | included hl hm => obtain ⟨s, hs⟩ := hsome _ hg; exact ⟨g, .included hg hs hl hm⟩
        | property hl hm => obtain ⟨s, hs⟩ := hsome _ hg; exact ⟨g, .property hg hs hl hm⟩
        | reverse hr hl hm => obtain ⟨s, hs⟩ := hsome _ hg; exact ⟨g, .reverse hg hs hr hl hm⟩
  exact key x h

theorem asserts_subject {d : Doc} {q : Quad} (h : Asserts d q) :
    ∃ hd ∈ docHeaders d, hd.1 = some q.subject := by
  cases h with
  | type hn hs _ _ => exact ⟨_, inside_node_header (reached_inside hn), hs⟩
  | property hn hs _ _ => exact ⟨_, inside_node_header (reached_inside hn), hs⟩
  | reverse hn hid hr hp hm hs =>
    exact ⟨_, inside_node_header (reached_inside (.reverse hn hid hr hp hm)), hs⟩

/-! ## Relabelling -/

/-- The invariants can be read off a document with other identifiers. -/
theorem wf_of_map (f t) :
    (∀ o, (mapObj f t o).WF → o.WF) ∧ (∀ n, (mapNode f t n).WF → n.WF) := by
  apply Doc.ind
  · intro i v _; trivial
  · intro i l ih h
    simp only [mapObj, Obj.WF, objsWF_iff, mapObjs_eq, List.forall_mem_map] at h
    exact objsWF_iff.2 fun o ho => ih o ho (h o ho)
  · intro n ih h; exact ih h
  · intro i id ty g inc ps rv ihg ihi ihp ihr h
    obtain ⟨wg, winc, wk, wps, wrv⟩ := h
    refine ⟨?_, ?_, ?_, ?_, ?_⟩
    · cases g with
      | none => trivial
      | some l =>
        simp only [mapG, gWF, mapObjs_eq, objsWF_iff, List.pairwise_map, List.forall_mem_map] at wg
        refine ⟨?_, objsWF_iff.2 fun o ho => ihg l rfl o ho (wg.2 o ho)⟩
        have hmem : l.Pairwise fun a b => a ∈ l ∧ b ∈ l :=
          List.pairwise_of_forall_mem_list fun a ha b hb => ⟨ha, hb⟩
        refine (hmem.and wg.1).imp ?_
        rintro a b ⟨⟨ha, hb⟩, hne⟩
        cases hab : b.eq a with
        | false => rfl
        | true =>
          have := (eq_map f t).1 b a (wg.2 b hb) (wg.2 a ha) hab
          simp [this] at hne
    · cases inc with
      | none => trivial
      | some l =>
        simp only [mapInc, incWF, mapNodes_eq, nodesWF_iff, List.pairwise_map, List.forall_mem_map] at winc
        refine ⟨?_, nodesWF_iff.2 fun o ho => ihi l rfl o ho (winc.2 o ho)⟩
        have hmem : l.Pairwise fun a b => a ∈ l ∧ b ∈ l :=
          List.pairwise_of_forall_mem_list fun a ha b hb => ⟨ha, hb⟩
        refine (hmem.and winc.1).imp ?_
        rintro a b ⟨⟨ha, hb⟩, hne⟩
        cases hab : b.eq a with
        | false => rfl
        | true =>
          have := (eq_map f t).2 b a (winc.2 b hb) (winc.2 a ha) hab
          simp [this] at hne
    · rw [mapPs_eq, List.map_map] at wk; exact wk
    · simp only [mapPs_eq, psWF_iff, List.forall_mem_map] at wps
      exact psWF_iff.2 fun p hp o ho => ihp p hp o ho (wps p hp o ho)
    · cases rv with
      | none => trivial
      | some l =>
        obtain ⟨w1, w2⟩ := wrv
        simp only [mapRps_eq, rpsWF_iff, List.forall_mem_map] at w2
        rw [mapRps_eq, List.map_map] at w1
        exact ⟨w1, rpsWF_iff.2 fun p hp o ho => ihr l rfl p hp o ho (w2 p hp o ho)⟩

theorem relabel_ids_run {gen : Nat → Id} (hg : ∀ i j, gen i = gen j → i = j) (hs : List Header)
    (s : Relabeling) (hI : RelInv gen s) :
    s.count ≤ (runH (relabelHeader gen) hs s).2.count ∧
    ∀ h' ∈ (runH (relabelHeader gen) hs s).1, ∀ i, h'.1 = some i →
      (∃ h ∈ hs, h.1 = some i ∧ ∀ b, i ≠ .blank b) ∨
        ∃ k < (runH (relabelHeader gen) hs s).2.count, i = gen k := by
  induction hs generalizing s with
  | nil => exact ⟨Nat.le_refl _, by simp [runH]⟩
  | cons h hs ih =>
    obtain ⟨i0, ty⟩ := h
    have l1 := relabelNodeId_spec hg i0 s
    have l2 := relabelTypesOpt_spec hg ty (relabelNodeId gen i0 s).2
    have hI' : RelInv gen (relabelHeader gen (i0, ty) s).2 := l2.2 (l1.2 hI)
    have hc : s.count ≤ (relabelHeader gen (i0, ty) s).2.count := Nat.le_trans l1.1.1 l2.1.1
    obtain ⟨h1, h2⟩ := ih _ hI'
    refine ⟨Nat.le_trans hc h1, ?_⟩
    intro h' hh' i hi
    rcases List.mem_cons.1 hh' with rfl | hh'
    · have hi : (relabelNodeId gen i0 s).1 = some i := hi
      have hlt : (relabelNodeId gen i0 s).2.count ≤
          (runH (relabelHeader gen) ((i0, ty) :: hs) s).2.count := Nat.le_trans l2.1.1 h1
      rcases i0 with _ | i0
      · injection hi with hi
        refine .inr ⟨s.count, ?_, hi.symm⟩
        exact Nat.lt_of_lt_of_le (Nat.lt_succ_self _) hlt
      · cases i0 with
        | blank b =>
          injection hi with hi
          obtain ⟨k, hk, e⟩ := (l1.2 hI).1 b _ (relabelBlank_spec hg b s).2.1
          exact .inr ⟨k, Nat.lt_of_lt_of_le hk hlt, hi ▸ e⟩
        | iri x => cases hi; exact .inl ⟨_, List.mem_cons_self, rfl, nofun⟩
        | invalid x => cases hi; exact .inl ⟨_, List.mem_cons_self, rfl, nofun⟩
    · rcases h2 h' hh' i hi with ⟨h, hh, e⟩ | h
      · exact .inl ⟨h, List.mem_cons_of_mem _ hh, e⟩
      · exact .inr h

theorem relabelCanonObjs_eq (c : CanonEnv) (gen : Nat → Id) (l : List Obj) (s : Relabeling) :
    relabelCanonObjs c gen l s =
      (objsCanon c (objsWalk (relabelHeader gen) l s).1, (objsWalk (relabelHeader gen) l s).2) := by
  induction l generalizing s with
  | nil => rfl
  | cons o os ih => simp only [relabelCanonObjs, objsWalk, objsCanon, ih]

/-- What relabelling gives, in one place. -/
theorem relabel_facts {gen : Nat → Id} (hinj : ∀ i j, gen i = gen j → i = j) {d : Doc} (hd : d.WF)
    (hfresh : ∀ h ∈ docHeaders d, ∀ i ∈ headerIds h, (∀ b, i ≠ .blank b) → ∀ k, gen k ≠ i) :
    (d.relabel gen 0).1.WF ∧
    (∀ h ∈ docHeaders (d.relabel gen 0).1, h.1.isSome = true) ∧
    (∀ h ∈ docHeaders (d.relabel gen 0).1, ∀ k, h.1 ≠ some (gen ((d.relabel gen 0).2.count + k))) ∧
    ∀ c, d.relabelCanon c gen 0 = ((d.relabel gen 0).1.canon c, (d.relabel gen 0).2) := by
  have hI : RelInv gen ⟨0, []⟩ := by
    constructor <;> simp [Relabeling.get]
  have ok0 := relabel_ok (gen := gen) hinj hI
  have hf : RelInv gen (runH (relabelHeader gen) (docHeaders d) ⟨0, []⟩).2 :=
    runH_I ok0 _ _ hI
  have ok := relabel_ok hinj hf
  obtain ⟨h1, h2, h3⟩ := doc_walk_ok ok hd hfresh ⟨0, []⟩ hI (ok.refl _)
  have hr := relabel_run hinj hf (docHeaders d) ⟨0, []⟩ hI (ok.refl _)
  have hids := relabel_ids_run hinj (docHeaders d) ⟨0, []⟩ hI
  have hw' := objsWF_iff.1 hd.2
  have ho := objsWalk_ok ok (l := d) (fun o ho => (walk_ok ok).1 o (hw' o ho) fun h hh =>
    hfresh h (mem_objsHeaders ho hh)) ⟨0, []⟩ hI (by rw [objsWalk_state]; exact ok.refl _)
  have hc := collect_objs ho.1 hd
  refine ⟨?_, ?_, ?_, ?_⟩
  · refine ⟨?_, ?_⟩
    · exact setCollect_pairwise _
    · have : ∀ o ∈ (d.relabel gen 0).1, (mapObj (unRelabelId gen (runH (relabelHeader gen) (docHeaders d) ⟨0, []⟩).2)
          (unRelabelTy (runH (relabelHeader gen) (docHeaders d) ⟨0, []⟩).2) o).WF := by
        intro o ho
        apply hw'
        have h1' : mapDoc _ _ (d.relabel gen 0).1 = d := h1
        rw [mapDoc, mapObjs_eq] at h1'
        have := List.mem_map_of_mem (f := mapObj (unRelabelId gen (runH (relabelHeader gen) (docHeaders d) ⟨0, []⟩).2)
          (unRelabelTy (runH (relabelHeader gen) (docHeaders d) ⟨0, []⟩).2)) ho
        rw [h1'] at this
        exact this
      exact objsWF_iff.2 fun o ho => (wf_of_map _ _).1 o (this o ho)
  · intro h hh
    have hh : h ∈ docHeaders (d.walk (relabelHeader gen) ⟨0, []⟩).1 := hh
    rw [h2] at hh
    obtain ⟨x, _, hx⟩ := forall₂_exists_right hr.1.flip hh
    exact hx.2.1
  · intro h hh k hk
    have hh : h ∈ docHeaders (d.walk (relabelHeader gen) ⟨0, []⟩).1 := hh
    rw [h2] at hh
    have hcount : (d.relabel gen 0).2.count =
      (runH (relabelHeader gen) (docHeaders d) ⟨0, []⟩).2.count := by
      show (d.walk (relabelHeader gen) ⟨0, []⟩).2.count = _
      rw [h3]
    rcases hids.2 h hh _ hk with ⟨x, hx, e, hb⟩ | ⟨j, hj, e⟩
    · exact hfresh x hx _ (by simp [headerIds, e]) hb _ rfl
    · have := hinj _ _ e
      omega
  · intro c
    have e1 : (d.relabel gen 0).1 = (objsWalk (relabelHeader gen) d ⟨0, []⟩).1 := hc
    simp only [Doc.relabelCanon, relabelCanonObjs_eq, Doc.canon, e1]
    rfl

/-! ## Canonical literals and statements -/

section
variable (c : CanonEnv)

/-- The item with canonical literals. -/
def Spec.Item.canon : Item → Item
  | .obj o => .obj (o.canon c)
  | .node n => .node (n.canon c)

theorem node_canon_id (n : Node) : (n.canon c).id = n.id := by cases n; rfl
theorem node_canon_types (n : Node) : (n.canon c).types = n.types := by cases n; rfl
theorem node_canon_graph (n : Node) : (n.canon c).graph = n.graph := by cases n; rfl
theorem node_canon_included (n : Node) : (n.canon c).included = n.included := by cases n; rfl
theorem node_canon_props (n : Node) :
    (n.canon c).props = n.props.map fun p => (p.1, p.2.map (Obj.canon c)) := by
  cases n; exact psCanon_eq c _
theorem node_canon_rev (n : Node) :
    (n.canon c).rev = n.rev.map (List.map fun p => (p.1, p.2.map (Node.canon c))) := by
  cases n; exact rvCanon_eq c _

theorem reached_canon {d : Doc} {g : Option Id} {x : Item} (h : Reached d g x) :
    Reached (objsCanon c d) g x ∨ Reached (objsCanon c d) g (x.canon c) := by
  induction h with
  | top ho =>
    refine .inr (.top ?_)
    rw [objsCanon_eq]
    exact List.mem_map_of_mem ho
  | self _ ih =>
    rcases ih with ih | ih
    · exact .inl (.self ih)
    · exact .inr (.self ih)
  | item _ hm ih =>
    rcases ih with ih | ih
    · exact .inl (.item ih hm)
    · refine .inr (.item ih ?_)
      rw [objsCanon_eq]
      exact List.mem_map_of_mem hm
  | graph _ hs hl hm ih =>
    rcases ih with ih | ih
    · exact .inl (.graph ih hs hl hm)
    · exact .inl (.graph ih ((node_canon_id c _).trans hs) ((node_canon_graph c _).trans hl) hm)
  | included _ hs hl hm ih =>
    rcases ih with ih | ih
    · exact .inl (.included ih hs hl hm)
    · exact .inl (.included ih ((node_canon_id c _).trans hs) ((node_canon_included c _).trans hl) hm)
  | property _ hs hp hm ih =>
    rename_i k l o _
    rcases ih with ih | ih
    · exact .inl (.property ih hs hp hm)
    · refine .inr (.property (k := k) ih ((node_canon_id c _).trans hs) ?_ (List.mem_map_of_mem hm))
      rw [node_canon_props]
      exact List.mem_map_of_mem (f := fun p => (p.1, List.map (Obj.canon c) p.2)) hp
  | reverse _ hs hr hp hm ih =>
    rename_i k _ l m _
    rcases ih with ih | ih
    · exact .inl (.reverse ih hs hr hp hm)
    · refine .inr (.reverse (k := k) ih ((node_canon_id c _).trans hs)
        ((node_canon_rev c _).trans (congrArg (Option.map _) hr)) ?_ (List.mem_map_of_mem hm))
      exact List.mem_map_of_mem (f := fun p => (p.1, List.map (Node.canon c) p.2)) hp

/-- The object of a statement with canonical literals. -/
def QObj.canon : QObj → QObj
  | .obj o => .obj (o.canon c)
  | .node n => .node (n.canon c)
  | .ref i => .ref i

theorem asserts_canon {d : Doc} {q : Quad} (h : Asserts d q) :
    Asserts (objsCanon c d) q ∨
      Asserts (objsCanon c d) ⟨q.graph, q.subject, q.property, q.object.canon c⟩ := by
  cases h with
  | type hn hs ht hm =>
    rcases reached_canon c hn with h | h
    · exact .inl (.type h hs ht hm)
    · exact .inr (.type h ((node_canon_id c _).trans hs) ((node_canon_types c _).trans ht) hm)
  | property hn hs hp hm =>
    rcases reached_canon c hn with h | h
    · exact .inl (.property h hs hp hm)
    · refine .inr (.property h ((node_canon_id c _).trans hs) ?_ (List.mem_map_of_mem hm))
      rw [node_canon_props]
      exact List.mem_map_of_mem (f := fun p => (p.1, List.map (Obj.canon c) p.2)) hp
  | reverse hn hid hr hp hm hs =>
    rcases reached_canon c hn with h | h
    · exact .inl (.reverse h hid hr hp hm hs)
    · refine .inr (.reverse h ((node_canon_id c _).trans hid)
        ((node_canon_rev c _).trans (congrArg (Option.map _) hr)) ?_ (List.mem_map_of_mem hm)
        ((node_canon_id c _).trans hs))
      exact List.mem_map_of_mem (f := fun p => (p.1, List.map (Node.canon c) p.2)) hp

theorem reached_uncanon {d : Doc} {g : Option Id} {x : Item} (h : Reached (objsCanon c d) g x) :
    Reached d g x ∨ ∃ y, Reached d g y ∧ x = y.canon c := by
  induction h with
  | top ho =>
    rw [objsCanon_eq] at ho
    obtain ⟨o, ho', rfl⟩ := List.mem_map.1 ho
    exact .inr ⟨.obj o, .top ho', rfl⟩
  | self _ ih =>
    rcases ih with ih | ⟨y, hy, e⟩
    · exact .inl (.self ih)
    · cases y with
      | node => cases e
      | obj o =>
        cases o with
        | node n => cases e; exact .inr ⟨_, .self hy, rfl⟩
        | value => cases e
        | list => cases e
  | item _ hm ih =>
    rcases ih with ih | ⟨y, hy, e⟩
    · exact .inl (.item ih hm)
    · cases y with
      | node => cases e
      | obj o =>
        cases o with
        | node => cases e
        | value => cases e
        | list i l =>
          cases e
          rw [objsCanon_eq] at hm
          obtain ⟨o, ho, rfl⟩ := List.mem_map.1 hm
          exact .inr ⟨_, .item hy ho, rfl⟩
  | graph _ hs hl hm ih =>
    rcases ih with ih | ⟨y, hy, e⟩
    · exact .inl (.graph ih hs hl hm)
    · cases y with
      | obj => cases e
      | node n =>
        cases e
        rw [node_canon_id] at hs
        rw [node_canon_graph] at hl
        exact .inl (.graph hy hs hl hm)
  | included _ hs hl hm ih =>
    rcases ih with ih | ⟨y, hy, e⟩
    · exact .inl (.included ih hs hl hm)
    · cases y with
      | obj => cases e
      | node n =>
        cases e
        rw [node_canon_id] at hs
        rw [node_canon_included] at hl
        exact .inl (.included hy hs hl hm)
  | property _ hs hp hm ih =>
    rcases ih with ih | ⟨y, hy, e⟩
    · exact .inl (.property ih hs hp hm)
    · cases y with
      | obj => cases e
      | node n =>
        cases e
        rw [node_canon_id] at hs
        rw [node_canon_props] at hp
        obtain ⟨p, hp', e'⟩ := List.mem_map.1 hp
        cases e'
        obtain ⟨o, ho, rfl⟩ := List.mem_map.1 hm
        exact .inr ⟨.obj o, .property hy hs hp' ho, rfl⟩
  | reverse _ hs hr hp hm ih =>
    rcases ih with ih | ⟨y, hy, e⟩
    · exact .inl (.reverse ih hs hr hp hm)
    · cases y with
      | obj => cases e
      | node n =>
        cases e
        rw [node_canon_id] at hs
        rw [node_canon_rev] at hr
        obtain ⟨r, hr', rfl⟩ := Option.map_eq_some_iff.1 hr
        obtain ⟨p, hp', e'⟩ := List.mem_map.1 hp
        cases e'
        obtain ⟨m, ho, rfl⟩ := List.mem_map.1 hm
        exact .inr ⟨.node m, .reverse hy hs hr' hp' ho, rfl⟩

theorem asserts_uncanon {d : Doc} {q : Quad} (h : Asserts (objsCanon c d) q) :
    Asserts d q ∨ ∃ o, Asserts d ⟨q.graph, q.subject, q.property, o⟩ ∧ q.object = o.canon c := by
  cases h with
  | type hn hs ht hm =>
    rcases reached_uncanon c hn with h | ⟨y, hy, e⟩
    · exact .inl (.type h hs ht hm)
    · cases y with
      | obj => cases e
      | node n =>
        cases e
        rw [node_canon_id] at hs
        rw [node_canon_types] at ht
        exact .inl (.type hy hs ht hm)
  | property hn hs hp hm =>
    rcases reached_uncanon c hn with h | ⟨y, hy, e⟩
    · exact .inl (.property h hs hp hm)
    · cases y with
      | obj => cases e
      | node n =>
        cases e
        rw [node_canon_id] at hs
        rw [node_canon_props] at hp
        obtain ⟨p, hp', e'⟩ := List.mem_map.1 hp
        cases e'
        obtain ⟨o, ho, rfl⟩ := List.mem_map.1 hm
        exact .inr ⟨.obj o, .property hy hs hp' ho, rfl⟩
  | reverse hn hid hr hp hm hs =>
    rcases reached_uncanon c hn with h | ⟨y, hy, e⟩
    · exact .inl (.reverse h hid hr hp hm hs)
    · cases y with
      | obj => cases e
      | node n =>
        cases e
        rw [node_canon_id] at hid
        rw [node_canon_rev] at hr
        obtain ⟨r, hr', rfl⟩ := Option.map_eq_some_iff.1 hr
        obtain ⟨p, hp', e'⟩ := List.mem_map.1 hp
        cases e'
        obtain ⟨m, ho, rfl⟩ := List.mem_map.1 hm
        rw [node_canon_id] at hs
        exact .inr ⟨.node n, .reverse hy hid hr' hp' ho hs, rfl⟩

end

theorem reached_mono {d e : Doc} (h : d ⊆ e) {g : Option Id} {x : Item} (hx : Reached d g x) :
    Reached e g x := by
  induction hx with
  | top ho => exact .top (h ho)
  | self _ ih => exact .self ih
  | item _ hm ih => exact .item ih hm
  | graph _ hs hl hm ih => exact .graph ih hs hl hm
  | included _ hs hl hm ih => exact .included ih hs hl hm
  | property _ hs hl hm ih => exact .property ih hs hl hm
  | reverse _ hs hr hl hm ih => exact .reverse ih hs hr hl hm

theorem asserts_mono {d e : Doc} (h : d ⊆ e) {q : Quad} (hq : Asserts d q) : Asserts e q := by
  cases hq with
  | type hn hs ht hm => exact .type (reached_mono h hn) hs ht hm
  | property hn hs hp hm => exact .property (reached_mono h hn) hs hp hm
  | reverse hn hid hr hp hm hs => exact .reverse (reached_mono h hn) hid hr hp hm hs

/-! ## Which objects have RDF values -/

theorem representable_canon (c : CanonEnv) (env : RdfEnv) :
    (∀ o, Representable env o → Representable env (o.canon c)) ∧ (∀ _ : Node, True) := by
  apply Doc.ind
  · intro i v h
    cases v with
    | json => trivial
    | langString s => exact h
    | literal l t => trivial
  · intro i l ih h
    simp only [Obj.canon]
    show RepresentableAll env (objsCanon c l)
    replace h : RepresentableAll env l := h
    induction l with
    | nil => trivial
    | cons o os iho =>
      exact ⟨ih o List.mem_cons_self h.1,
        iho (fun x hx => ih x (List.mem_cons_of_mem _ hx)) h.2⟩
  · intro n _ h
    obtain ⟨id, h1, h2⟩ := h
    exact ⟨id, (node_canon_id c n).trans h1, h2⟩
  · intros; trivial

theorem representable_eq (env : RdfEnv)
    (hcase : ∀ l l', langEq l l' = true → env.wellFormed l = env.wellFormed l') :
    (∀ a b : Obj, a.WF → b.WF → a.eq b = true → Representable env a → Representable env b) ∧
      (∀ _ : Node, True) := by
  apply Doc.ind
  · intro i v b _ _ h hr
    cases b <;> simp only [Obj.eq, Bool.false_eq_true, Bool.and_eq_true] at h
    rename_i j w _
    cases w with
    | json => trivial
    | literal => trivial
    | langString s' =>
      cases v with
      | json => simp [Value.eq] at h
      | literal => simp [Value.eq] at h
      | langString s =>
        intro l' hl'
        have hs := (LangString.eq_iff.1 (by simpa [Value.eq] using h.2 : s.eq s' = true))
        cases hl : s.language with
        | none => simp [hl, hl'] at hs
        | some l =>
          simp only [hl, hl', Option.map_some, Option.some.injEq] at hs
          have he : langEq l l' = true := by simp [langEq, hs]
          rw [← hcase l l' he]
          exact hr l hl
  · intro i l ih b hw hw' h hr
    cases b <;> simp only [Obj.eq, Bool.false_eq_true, Bool.and_eq_true, objsListEq_iff] at h
    rename_i j l'
    simp only [Obj.WF, objsWF_iff] at hw hw'
    replace hr : RepresentableAll env l := hr
    show RepresentableAll env l'
    replace h := h.2
    induction h with
    | nil => trivial
    | cons hab _ iho =>
      exact ⟨ih _ List.mem_cons_self _ (hw _ List.mem_cons_self) (hw' _ List.mem_cons_self) hab hr.1,
        iho (fun x hx => ih x (List.mem_cons_of_mem _ hx))
          (fun x hx => hw x (List.mem_cons_of_mem _ hx)) (fun x hx => hw' x (List.mem_cons_of_mem _ hx)) hr.2⟩
  · intro n _ b hw hw' h hr
    cases b <;> simp only [Obj.eq, Bool.false_eq_true] at h
    obtain ⟨id, h1, h2⟩ := hr
    exact ⟨id, ((node_eq_iff hw hw').1 h).2.1 ▸ h1, h2⟩
  · intros; trivial

end JsonLd

namespace JsonLd
open Spec

theorem representable_env_gen (env : RdfEnv) (gen : Nat → Id) :
    (∀ o, Representable env o → Representable { env with gen := gen } o) ∧ (∀ _ : Node, True) := by
  apply Doc.ind
  · intro i v h; cases v <;> exact h
  · intro i l ih h
    replace h : RepresentableAll env l := h
    show RepresentableAll { env with gen := gen } l
    induction l with
    | nil => trivial
    | cons o os iho =>
      exact ⟨ih o List.mem_cons_self h.1, iho (fun x hx => ih x (List.mem_cons_of_mem _ hx)) h.2⟩
  · intro n _ h; exact h
  · intros; trivial

theorem representable_env_gen' (env : RdfEnv) (gen : Nat → Id) :
    (∀ o, Representable { env with gen := gen } o → Representable env o) ∧ (∀ _ : Node, True) := by
  have := representable_env_gen { env with gen := gen } env.gen
  exact this

end JsonLd
