import Verif.Proofs.FlattenRdf
import Verif.Proofs.FlattenRename
import Verif.Proofs.InsideShape
import Verif.Props.FlattenAgain
import Verif.Props.Reexpand
import Verif.Spec.Plainly
/-!
# Where a flattened document comes from
-/

namespace JsonLd
open Spec Props

theorem mem_blankLabels_of {b : Str} {l : List Id} (h : Id.blank b ∈ l) : b ∈ blankLabels l := by
  induction l with
  | nil => cases h
  | cons i l ih =>
    rcases List.mem_cons.1 h with e | e
    · subst e; exact List.mem_cons_self
    · cases i with
      | blank x => exact List.mem_cons_of_mem _ (ih e)
      | iri x => exact ih e
      | invalid x => exact ih e

/-- The identifiers and types after relabelling are those of the document or from the generator. -/
theorem relabel_names {gen : Nat → Id} {d : Doc} (h : Relabelable gen d) (n : Nat) {P Q : Id → Prop}
    (hP : ∀ k, P (gen k)) (hQ : ∀ k, Q (gen k))
    (hd : ∀ x ∈ docHeaders d, (∀ i, x.1 = some i → P i) ∧ ∀ ts, x.2 = some ts → ts ≠ [] ∧ ∀ t ∈ ts, Q t) :
    ∀ x ∈ docHeaders (d.relabel gen n).1,
      (∀ i, x.1 = some i → P i) ∧ ∀ ts, x.2 = some ts → ts ≠ [] ∧ ∀ t ∈ ts, Q t := by
  obtain ⟨ρ, h1, h2, -⟩ := C14_relabel_partial gen h.injective d h.wf h.fresh n
  intro x hx
  refine ⟨?_, ?_⟩
  · have hI : RelInv gen ⟨n, []⟩ := by
      constructor <;> simp [Relabeling.get]
    have ok0 := relabel_ok (gen := gen) h.injective hI
    have hf : RelInv gen (runH (relabelHeader gen) (docHeaders d) ⟨n, []⟩).2 := runH_I ok0 _ _ hI
    obtain ⟨_, e2, _⟩ := doc_walk_ok (relabel_ok h.injective hf) h.wf h.fresh ⟨n, []⟩ hI
      ((relabel_ok h.injective hf).refl _)
    have hx' : x ∈ docHeaders (d.walk (relabelHeader gen) ⟨n, []⟩).1 := hx
    rw [e2] at hx'
    intro i hi
    rcases (relabel_ids_run h.injective (docHeaders d) ⟨n, []⟩ hI).2 x hx' i hi with ⟨y, hy, e, _⟩ | ⟨k, _, rfl⟩
    · exact (hd y hy).1 i e
    · exact hP k
  · obtain ⟨y, hy, e, -⟩ := forall₂_exists_right h1.flip hx
    intro ts hts
    rw [hts] at e
    cases hy2 : y.2 with
    | none => rw [hy2] at e; cases e
    | some us =>
      rw [hy2] at e
      cases e
      obtain ⟨hne, hq⟩ := (hd y hy).2 us hy2
      refine ⟨by simpa using hne, fun t ht => ?_⟩
      obtain ⟨u, hu, rfl⟩ := List.mem_map.1 ht
      cases u with
      | iri s => exact hq _ hu
      | invalid s => exact hq _ hu
      | blank b =>
        obtain ⟨k, e⟩ := h2 b (mem_blankLabels_of (List.mem_flatMap.2
          ⟨y, hy, List.mem_append_right _ (by rw [hy2]; exact hu)⟩))
        show Q (ρ b)
        rw [e]
        exact hQ k

/-- What is in a flattened document, and where it comes from. -/
def Sourced (d : Doc) (f : List Node) (g : Option Id) : Item → Prop
  | .node p => FlatNode f g p ∨ ∃ m, Inside d (.node m) ∧ Obj.node p = bareNode m.id
  | .obj o => (∃ p, o = .node p ∧ FlatNode f g p) ∨ (∃ o', Inside d (.obj o') ∧ o = reference o') ∨
      ∃ m, Inside d (.node m) ∧ o = bareNode m.id

theorem references_mem {l : List Obj} {o : Obj} (h : o ∈ references l) : ∃ o' ∈ l, o = reference o' := by
  induction l with
  | nil => cases h
  | cons a l ih =>
    rcases List.mem_cons.1 h with h | h
    · exact ⟨a, List.mem_cons_self, h⟩
    · obtain ⟨o', h1, h2⟩ := ih h
      exact ⟨o', List.mem_cons_of_mem _ h1, h2⟩

theorem inside_part {d : Doc} {x y : Item} (h : Inside d y) (hp : PartL x y) : Inside d x := by
  obtain ⟨o, ho, hr⟩ := h
  exact ⟨o, ho, .head hp hr⟩

theorem flat_sourced {d : Doc} {f : List Node}
    (hm : ∀ p ∈ f, ∀ l, p.graph = some l → ∃ ns : List Node, l = ns.map Obj.node)
    (hp : ∀ g p, FlatNode f g p → p.included = none ∧ p.rev = none ∧ (g ≠ none → p.graph = none) ∧
      ∀ k os, (k, os) ∈ p.props → ∀ o ∈ os, (∃ o', Inside d (.obj o') ∧ o = reference o') ∨
        ∃ m, Inside d (.node m) ∧ o = bareNode m.id) {g : Option Id} {x : Item}
    (h : Reached (f.map Obj.node) g x) : Sourced d f g x := by
  induction h with
  | top ho =>
    obtain ⟨p, hp, rfl⟩ := List.mem_map.1 ho
    exact .inl ⟨p, rfl, hp⟩
  | self _ ih =>
    rcases ih with ⟨p, e, h⟩ | ⟨o', h, e⟩ | h
    · cases e; exact .inl h
    · cases o' with
      | value => cases e
      | list => cases e
      | node m => exact .inr ⟨m, inside_part h (.part (.self m)), e⟩
    · exact .inr h
  | item _ ho ih =>
    rcases ih with ⟨p, e, h⟩ | ⟨o', h, e⟩ | ⟨m, _, e⟩
    · cases e
    · cases o' with
      | value => cases e
      | node => cases e
      | list i l =>
        cases e
        obtain ⟨o', h1, h2⟩ := references_mem ho
        exact .inr (.inl ⟨o', inside_part h (.item h1), h2⟩)
    · cases e
  | @graph g n id l o _ hi hl ho ih =>
    rcases ih with h | ⟨i, _, e⟩
    · cases g with
      | none =>
        obtain ⟨ns, rfl⟩ := hm n h l hl
        obtain ⟨p, hp, rfl⟩ := List.mem_map.1 ho
        exact .inl ⟨p, rfl, n, h, hi, _, hl, ho⟩
      | some j =>
        rw [(hp _ _ h).2.2.1 nofun] at hl
        cases hl
    · cases e; cases hl
  | included _ _ hl _ ih =>
    rcases ih with h | ⟨i, _, e⟩
    · rw [(hp _ _ h).1] at hl; cases hl
    · cases e; cases hl
  | property _ _ hl ho ih =>
    rcases ih with h | ⟨i, _, e⟩
    · exact .inr ((hp _ _ h).2.2.2 _ _ hl _ ho)
    · cases e; cases hl
  | reverse _ _ hl _ _ ih =>
    rcases ih with h | ⟨i, _, e⟩
    · rw [(hp _ _ h).2.1] at hl; cases hl
    · cases e; cases hl

theorem occurs_inside {d : Doc} {g : Option Id} {x : Item} (h : Occurs d g x) : Inside d x := by
  induction h with
  | top h => exact ⟨_, h, .refl⟩
  | item _ hm ih => exact inside_part ih (.item hm)
  | self _ ih => exact inside_part ih (.part (.self _))
  | graph _ _ hl hm ih => exact inside_part ih (.part (.graph hl hm))
  | included _ hl hm ih => exact inside_part ih (.part (.included hl hm))
  | property _ hl hm ih => exact inside_part ih (.part (.property hl hm))
  | reverse _ hr hl hm ih => exact inside_part ih (.part (.reverse hr hl hm))

section
variable {gen : Nat → Id} {d : Doc} {n : Nat} {f : List Node}

/-- The identifiers, types and keys of the nodes of a flattened document. -/
theorem flat_names (h : Relabelable gen d) (hf : Flattened gen d n f) {g : Option Id} {p : Node}
    (hp : FlatNode f g p) :
    (∃ q, Inside (d.relabel gen n).1 (.node q) ∧ q.id = p.id) ∧
    (∀ ts, p.types = some ts → ∃ q, Inside (d.relabel gen n).1 (.node q) ∧ q.types = some ts) ∧
    ∀ k os, (k, os) ∈ p.props → ∃ q, Inside (d.relabel gen n).1 (.node q) ∧
      (k ∈ q.props.map Prod.fst ∨ ∃ r, q.rev = some r ∧ k ∈ r.map Prod.fst) := by
  obtain ⟨m, ent, hi, hfo⟩ := flattened_ok h hf
  have hn := allNamed h n
  have hev := doc_evs_sound hn
  refine ⟨?_, ?_, ?_⟩
  · obtain ⟨x, hx, ⟨i, he⟩ | he⟩ := flatNode_id hi hfo hp
    · obtain ⟨q, h1, h2, _⟩ := hev _ he
      exact ⟨q, occurs_inside h1, h2.trans hx.symm⟩
    · obtain ⟨g', q, l, h1, h2, _⟩ := hev _ he
      exact ⟨q, occurs_inside h1, h2.trans hx.symm⟩
  · intro ts hts
    obtain ⟨x, hx⟩ := flatNode_facts hi hfo hp
    obtain ⟨q, h1, _, h3⟩ := hev _ (hx.types ts hts)
    exact ⟨q, occurs_inside h1, h3⟩
  · intro k os hk
    obtain ⟨x, hx⟩ := flatNode_facts hi hfo hp
    obtain ⟨vs, he⟩ := hx.source k os ((lookupProp_iff hx.keys).2 hk)
    rcases hev _ he with ⟨q, l, h1, _, h3, _⟩ | ⟨q, m, r, l, h1, h2, h3, _⟩
    · exact ⟨q, occurs_inside h1, .inl (List.mem_map.2 ⟨_, h3, rfl⟩)⟩
    · exact ⟨q, occurs_inside h1, .inr ⟨r, h2, List.mem_map.2 ⟨_, h3, rfl⟩⟩⟩

/-- All that is inside a flattened document has its source. -/
theorem flattened_sourced (h : Relabelable gen d) (hf : Flattened gen d n f) {x : Item}
    (hx : Inside (f.map Obj.node) x) : ∃ g, Sourced (d.relabel gen n).1 f g x := by
  have hfd := C90_flat h hf
  obtain ⟨g, hg⟩ := inside_reached (Again.doc_named hfd) hx
  refine ⟨g, flat_sourced (fun p hp l hl => ?_) (fun g p hp => ?_) hg⟩
  · obtain ⟨ns, e, _⟩ := hfd.members p hp l hl
    exact ⟨ns, e⟩
  · have hpl := hfd.plain g p hp
    refine ⟨hpl.included, hpl.rev, fun hne => ?_, fun k os hk o ho => ?_⟩
    · cases g with
      | none => exact absurd rfl hne
      | some i => exact (hfd.nested i p hp).1
    · obtain ⟨s, hs⟩ := Option.isSome_iff_exists.1 hpl.id
      cases (C17_statements h hf).1 g p s k os o hp hs hk ho with
      | forward h1 _ h3 h4 =>
        exact .inl ⟨_, inside_part (occurs_inside h1) (.part (.property h3 h4)), rfl⟩
      | backward h1 => exact .inr ⟨_, occurs_inside h1, rfl⟩

end

end JsonLd
