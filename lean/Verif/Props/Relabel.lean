import Verif.Proofs.Identify
import Verif.Base.DocDec
import Mathlib.Data.List.Dedup
/-!
# C13, C14: assigning identifiers, relabelling
-/

namespace JsonLd.Props
open JsonLd Spec

/-- C13. After `identify_all` on a document whose sets are sets, with a generator that never
repeats and never yields an identifier of the document:
every node has an identifier; nodes that had one keep it; types are kept;
the identifiers of the formerly unnamed nodes are pairwise distinct, come from the generator, and
are none of the document's; and erasing identifiers gives back the same document, so nothing else
changed. -/
theorem C13_identify (gen : Nat → Id) (hinj : ∀ i j, gen i = gen j → i = j) (d : Doc) (hd : d.WF)
    (hfresh : ∀ h ∈ docHeaders d, ∀ k, h.1 ≠ some (gen k)) (n : Nat) :
    List.Forall₂ (fun h h' => h'.2 = h.2 ∧ h'.1.isSome = true ∧ ∀ i, h.1 = some i → h'.1 = some i)
      (docHeaders d) (docHeaders (d.identifyAll gen n).1) ∧
    (newIds (docHeaders d) (docHeaders (d.identifyAll gen n).1)).Nodup ∧
    (∀ i ∈ newIds (docHeaders d) (docHeaders (d.identifyAll gen n).1),
      (∃ k, i = gen k) ∧ ∀ h ∈ docHeaders d, h.1 ≠ some i) ∧
    withoutIds (d.identifyAll gen n).1 = withoutIds d := by
  obtain ⟨h1, h2, h3⟩ := doc_walk_ok (identify_ok gen _) hd hfresh n trivial (Nat.le_refl _)
  have hr := identify_run gen (docHeaders d) n
  refine ⟨?_, ?_, ?_, ?_⟩
  · simp only [Doc.identifyAll, h2]; exact hr.1
  · simp only [Doc.identifyAll, h2, hr.2.1]
    refine List.Nodup.map_on (fun a _ b _ => hinj a b) (List.nodup_range' (step := 1))
  · simp only [Doc.identifyAll, h2, hr.2.1]
    intro i hi
    obtain ⟨k, _, rfl⟩ := List.mem_map.1 hi
    exact ⟨⟨k, rfl⟩, fun h hh => hfresh h hh k⟩
  · have : withoutIds d = withoutIds (mapDoc (unIdentify gen) (fun t => t) (d.identifyAll gen n).1) := by
      rw [show mapDoc (unIdentify gen) (fun t => t) (d.identifyAll gen n).1 = d from h1]
    rw [this]
    simp only [withoutIds, mapDoc_mapDoc]
    rfl

/-- A node with an identifier, a type and a nested unnamed node in a list. -/
def exDoc : Doc :=
  [.node (.mk none (some (.iri "ex:a".toList)) (some [.iri "ex:T".toList])
    none none [(.iri "ex:p".toList, [.list none [.node (.mk none none none none none
      [(.iri "ex:q".toList, [.value none (.literal (.str "x".toList) none)])] none)],
      .node (.mk none (some (.blank "_:b".toList)) (some [.blank "_:t".toList]) none none [] none)])]
      (some [(.iri "ex:r".toList, [.mk none none none none none [] none])]))]

/-- The hypotheses of `C13_identify` hold of `exDoc` with the usual generator, and both unnamed
nodes get a name. -/
example : newIds (docHeaders exDoc)
    (docHeaders (exDoc.identifyAll (fun k => .blank (List.replicate k 'b')) 0).1) =
      [.blank [], .blank ['b']] := by decide
example : exDoc.WF := by
  simp [exDoc, Doc.WF, gWF, objsWF, Obj.WF, Node.WF, incWF, rvWF, psWF, rpsWF, nodesWF]
example : ∀ h ∈ docHeaders exDoc, ∀ k, h.1 ≠ some (.blank (List.replicate k 'b')) := by
  have : ∀ k, List.replicate k 'b' ≠ "_:b".toList := by
    intro k h
    have : ('_' : Char) ∈ List.replicate k 'b' := by rw [h]; decide
    have := List.eq_of_mem_replicate this
    revert this; decide
  intro h hh k
  simp [exDoc, docHeaders, objsHeaders, objHeaders, nodeHeaders, gHeaders, incHeaders, psHeaders,
    rvHeaders, rpsHeaders, nodesHeaders] at hh
  rcases hh with rfl | rfl | rfl | rfl <;> simp
  exact fun h => this k h.symm

/-- C14. Relabelling a document with a generator that never repeats (and never yields one of the
document's IRIs) applies one renaming `ρ` of blank node labels to every `@id` and `@type` at every
depth, keeps IRIs and invalid identifiers, and names every unnamed node; `ρ` is injective on the
labels of the document, its values are drawn from the generator, no two unnamed nodes get the
same identifier nor one that stands for a label; and apart from `@id` and `@type` nothing changes.
Partial: the property keys are not renamed, see `C14_property_keys_kept`. -/
theorem C14_relabel_partial (gen : Nat → Id) (hinj : ∀ i j, gen i = gen j → i = j) (d : Doc)
    (hd : d.WF)
    (hfresh : ∀ h ∈ docHeaders d, ∀ i ∈ headerIds h, (∀ b, i ≠ .blank b) → ∀ k, gen k ≠ i)
    (n : Nat) :
    ∃ ρ : Str → Id,
      List.Forall₂ (fun h h' => h'.2 = h.2.map (List.map (renameId ρ)) ∧ h'.1.isSome = true ∧
          ∀ i, h.1 = some i → h'.1 = some (renameId ρ i))
        (docHeaders d) (docHeaders (d.relabel gen n).1) ∧
      (∀ b ∈ blankLabels (docIds d), ∃ k, ρ b = gen k) ∧
      (newIds (docHeaders d) (docHeaders (d.relabel gen n).1) ++
        (blankLabels (docIds d)).dedup.map ρ).Nodup ∧
      shape (d.relabel gen n).1 = shape d ∧
      ((∀ h ∈ docHeaders d, h.1.isSome = true) →
        (d.relabel gen n).1 = mapDoc (Option.map (renameId ρ)) (renameId ρ) d) := by
  have hI : RelInv gen ⟨n, []⟩ := by
    constructor <;> simp [Relabeling.get]
  have ok0 := relabel_ok (gen := gen) hinj hI
  have hf : RelInv gen (runH (relabelHeader gen) (docHeaders d) ⟨n, []⟩).2 :=
    runH_I ok0 _ _ hI
  have ok := relabel_ok hinj hf
  obtain ⟨h1, h2, h3⟩ := doc_walk_ok ok hd hfresh ⟨n, []⟩ hI (ok.refl _)
  have hr := relabel_run hinj hf (docHeaders d) ⟨n, []⟩ hI (ok.refl _)
  revert hr h1
  generalize (runH (relabelHeader gen) (docHeaders d) ⟨n, []⟩).2 = fin at *
  intro h1 hr
  obtain ⟨r1, r2, ks, k1, k2, k3⟩ := hr
  have hval : ∀ b ∈ blankLabels (docIds d), fin.get b = some (finalRen fin b) := by
    intro b hb
    obtain ⟨v, hv⟩ := r2 b hb
    rw [finalRen_eq hv, hv]
  refine ⟨finalRen fin, ?_, ?_, ?_, ?_, ?_⟩
  · simp only [Doc.relabel, h2]; exact r1
  · intro b hb
    obtain ⟨k, _, e⟩ := hf.1 b _ (hval b hb)
    exact ⟨k, e⟩
  · simp only [Doc.relabel, h2, k1]
    rw [List.nodup_append]
    refine ⟨List.Nodup.map_on (fun a _ b _ => hinj a b) k2, ?_, ?_⟩
    · refine List.Nodup.map_on ?_ (List.nodup_dedup _)
      intro a ha b hb e
      have h1 := hval a (List.mem_dedup.1 ha)
      have h2 := hval b (List.mem_dedup.1 hb)
      rw [e] at h1
      exact hf.2 _ _ _ h1 h2
    · intro x hx y hy e
      obtain ⟨k, hk, rfl⟩ := List.mem_map.1 hx
      obtain ⟨b, hb, rfl⟩ := List.mem_map.1 hy
      exact (k3 k hk).2 b (by rw [e]; exact hval b (List.mem_dedup.1 hb))
  · have : shape d = shape (mapDoc (unRelabelId gen fin) (unRelabelTy fin) (d.relabel gen n).1) := by
      rw [show mapDoc (unRelabelId gen fin) (unRelabelTy fin) (d.relabel gen n).1 = d from h1]
    rw [this]
    simp only [shape, mapDoc_mapDoc]
    rfl
  · intro hall
    have h1' : mapDoc (unRelabelId gen fin) (unRelabelTy fin) (d.relabel gen n).1 = d := h1
    conv_rhs => rw [← h1']
    rw [mapDoc_mapDoc]
    symm
    apply mapDoc_fix
    have r1' := r1
    rw [← h2] at r1'
    change List.Forall₂ _ (docHeaders d) (docHeaders (d.relabel gen n).1) at r1'
    have hback : docHeaders d = (docHeaders (d.relabel gen n).1).map
        fun h => (unRelabelId gen fin h.1, h.2.map (List.map (unRelabelTy fin))) := by
      conv_lhs => rw [← h1']
      exact docHeaders_mapDoc _ _ _
    intro x hx
    have hx' : (unRelabelId gen fin x.1, x.2.map (List.map (unRelabelTy fin))) ∈ docHeaders d := by
      rw [hback]; exact List.mem_map.2 ⟨x, hx, rfl⟩
    rw [hback, List.forall₂_map_left_iff] at r1'
    have hall' := hall _ hx'
    have key := (List.forall₂_same.1 r1') x hx
    obtain ⟨x1, x2⟩ := x
    obtain ⟨e1, e2, e3⟩ := key
    obtain ⟨i, hi⟩ := Option.isSome_iff_exists.1 hall'
    have hid := e3 i hi
    simp only at hid hi e1
    refine Prod.ext ?_ ?_
    · simp only [Function.comp_apply, hi, Option.map_some]
      exact hid.symm
    · simp only
      conv_rhs => rw [e1]
      cases x2 <;> simp

/-- C14, the part that does not hold of the code: a blank node label used as property key is kept
as it is, even though the same label is renamed where it identifies a node. -/
theorem C14_property_keys_kept :
    ∃ d : Doc, (d.relabel (fun k => .blank (List.replicate k 'c')) 0).1 =
      [.node (.mk none (some (.blank [])) none none none
        [(.blank "_:p".toList, [.node (.mk none (some (.blank ['c'])) none none none [] none)])] none)] ∧
      d = [.node (.mk none (some (.blank "_:p".toList)) none none none
        [(.blank "_:p".toList, [.node (.mk none (some (.blank "_:q".toList)) none none none [] none)])]
        none)] := by
  refine ⟨_, ?_, rfl⟩
  decide +kernel

/-- The labels of `exDoc` are renamed consistently. -/
example : (exDoc.relabel (fun k => .blank (List.replicate k 'c')) 0).2.map =
    [("_:t".toList, .blank ['c', 'c']), ("_:b".toList, .blank ['c'])] := by decide

end JsonLd.Props
