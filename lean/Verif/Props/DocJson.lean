import Verif.Proofs.DocJsonRead
import Verif.Base.DocDec
/-!
# C11: expanded documents survive JSON serialisation, as far as they do
-/

namespace JsonLd.Props
open JsonLd JsonLd.Spec

/-- What must hold for any choice of the syntax of IRIs and blank node labels: a round trip gives back
the document itself. The full property C11; it is false of the code. -/
def RoundTrip (validIri validBlank : Str → Bool) (d : Doc) : Prop :=
  Doc.read validIri validBlank d.toJson = .ok d

/-- C11, as far as it holds: a document without included nodes, without empty lists of types and
without properties named like other entries is read back exactly as it was written, whatever it is
otherwise (graphs, lists, reverse properties, indexes, values at any depth). `WF` says that the sets
are sets and the maps are maps, `Typed` that IRIs are IRIs and so on; both hold of every document read
(`C11_read_wellformed`). Missing: included nodes and empty lists of types, where it is false. -/
theorem C11_round_trip_partial (validIri validBlank : Str → Bool) (d : Doc) (hw : d.WF)
    (ht : Typed validIri validBlank d) (hp : Plain d) : RoundTrip validIri validBlank d := by
  rw [Doc.WF, gWF, objsWF_iff] at hw
  have hg : ∀ o ∈ d, Good validIri validBlank (.obj o) := fun o ho =>
    ⟨fun i v hr => ht.values i v ⟨o, ho, hr⟩, fun n hr => ⟨ht.nodes n ⟨o, ho, hr⟩,
      hp.included n ⟨o, ho, hr⟩, hp.types n ⟨o, ho, hr⟩, hp.keys n ⟨o, ho, hr⟩⟩⟩
  unfold RoundTrip Doc.toJson Doc.read
  rw [objsToJson_eq]
  have : (d.map Obj.toJson).mapM (readObj validIri validBlank (jsonsDepth (d.map Obj.toJson))) =
      .ok d := by
    apply mapM_ok
    intro o ho
    obtain ⟨n, hn⟩ := read_written.1 o (hw.2 o ho) (hg o ho)
    have hd : o.toJson.depth ≤ jsonsDepth (d.map Obj.toJson) :=
      depth_le_of_mem (List.mem_map_of_mem ho)
    have hs := (read_safe (validIri := validIri) (validBlank := validBlank) o.toJson.depth o.toJson
      (jsonsDepth (d.map Obj.toJson)) (max n o.toJson.depth) (Nat.le_refl _) hd
      (Nat.le_max_right _ _)).1
    rw [hs.1]
    exact hn _ (Nat.le_max_left _ _)
  simp only [this, bind, Except.bind, setCollect_of_pairwise hw.1]

/-- Reading any JSON value ends with a document or with one of the documented errors: neither the
bound on the nesting nor the panic is reached. -/
theorem C11_read_total (validIri validBlank : Str → Bool) (j : Json) :
    Doc.read validIri validBlank j ≠ .error .fuel ∧ Doc.read validIri validBlank j ≠ .error .panic := by
  have : Safe (Doc.read validIri validBlank j) (Doc.read validIri validBlank j) := by
    cases j with
    | arr l =>
      refine (Safe.mapM fun x hx => ?_).bind fun _ _ => Safe.ok _
      have hd := depth_le_of_mem hx
      exact (read_safe _ x _ _ (Nat.le_refl _) hd hd).1
    | _ => exact Safe.error (by simp) (by simp)
  exact this.2

/-- The outcome does not depend on the bound on the nesting. -/
theorem C11_read_bound (validIri validBlank : Str → Bool) (j : Json) (f : Nat) (h : j.depth ≤ f) :
    readObj validIri validBlank f j = readObj validIri validBlank j.depth j :=
  (read_safe _ j f j.depth (Nat.le_refl _) h (Nat.le_refl _)).1.1

/-- Every document that is read is well-formed. -/
theorem C11_read_wellformed (validIri validBlank : Str → Bool) (j : Json) (d : Doc)
    (h : Doc.read validIri validBlank j = .ok d) : d.WF ∧ Typed validIri validBlank d := by
  have key : Ens (fun r => r.Pairwise (fun a b => Obj.eq b a = false) ∧
      ∀ o ∈ r, OkObj validIri validBlank o) (Doc.read validIri validBlank j) := by
    cases j with
    | arr l =>
      exact (Ens.mapM (fun j => (read_ok _ j).1) l).bind fun r hr => Ens.ok (setCollect_spec r hr)
    | _ => exact Ens.error
  obtain ⟨hp, ho⟩ := key d h
  refine ⟨⟨hp, objsWF_iff.2 fun o h => (ho o h).1⟩, ?_, ?_⟩
  · rintro i v ⟨o, h, hr⟩
    exact (ho o h).2.values i v hr
  · rintro n ⟨o, h, hr⟩
    exact (ho o h).2.nodes n hr

/-- Once read, a document (without included nodes, empty lists of types or properties named like other
entries) can be written and read any number of times. -/
theorem C11_reread_partial (validIri validBlank : Str → Bool) (j : Json) (d : Doc)
    (h : Doc.read validIri validBlank j = .ok d) (hp : Plain d) : RoundTrip validIri validBlank d :=
  have hw := C11_read_wellformed validIri validBlank j d h
  C11_round_trip_partial validIri validBlank d hw.1 hw.2 hp

/-! ## Where it fails -/

/-- `a:…` are the IRIs. -/
def exIri (s : Str) : Bool := s.take 2 == "a:".toList
/-- `_:…` are the blank node labels. -/
def exBlank (s : Str) : Bool := s.take 2 == "_:".toList

/-- `{"@id": "a:x", "@included": [{"@id": "a:y"}]}`. -/
def exIncluded : Doc :=
  [.node (.mk none (some (.iri "a:x".toList)) none none
    (some [.mk none (some (.iri "a:y".toList)) none none none [] none]) [] none)]

/-- The included node comes back as a property, of the invalid name `@include`. -/
theorem C11_included_lost :
    Doc.read exIri exBlank exIncluded.toJson =
      .ok [.node (.mk none (some (.iri "a:x".toList)) none none none
        [(.invalid "@include".toList,
          [.node (.mk none (some (.iri "a:y".toList)) none none none [] none)])] none)] := by
  decide +kernel

/-- The full property is false: included nodes are not read back. -/
theorem C11_round_trip_false : ¬ ∀ d : Doc, d.WF → Typed exIri exBlank d → RoundTrip exIri exBlank d := by
  intro h
  have hr := C11_read_wellformed exIri exBlank
    (.arr [.obj [("@id".toList, .str "a:x".toList),
      ("@included".toList, .arr [.obj [("@id".toList, .str "a:y".toList)]])]]) exIncluded
    (by decide +kernel)
  have := h exIncluded hr.1 hr.2
  unfold RoundTrip at this
  rw [C11_included_lost] at this
  revert this
  decide +kernel

/-- `{"@id": "a:x", "@type": []}`. -/
def exNoTypes : Doc := [.node (.mk none (some (.iri "a:x".toList)) (some []) none none [] none)]

/-- An empty list of types is read back as no types, which is another document. -/
theorem C11_empty_types_lost :
    Doc.read exIri exBlank (.arr [.obj [("@id".toList, .str "a:x".toList), ("@type".toList, .arr [])]])
      = .ok exNoTypes ∧ ∃ d, Doc.read exIri exBlank exNoTypes.toJson = .ok d ∧
        Doc.eq d exNoTypes = false :=
  ⟨by decide +kernel,
    [.node (.mk none (some (.iri "a:x".toList)) none none none [] none)], by decide +kernel,
    by decide +kernel⟩

/-! ## A concrete case -/

/-- Graph, list, typed and language values, reverse property, index, blank property. -/
def exRich : Doc :=
  [.node (.mk (some "i".toList) (some (.iri "a:x".toList)) (some [.iri "a:T".toList, .blank "_:t".toList])
    (some [.node (.mk none (some (.blank "_:g".toList)) none none none
      [(.iri "a:p".toList, [.value none (.literal (.num "1".toList) (some "a:int".toList))])] none)])
    none
    [(.iri "a:p".toList, [.list none [.value (some "j".toList) (.langString ⟨"s".toList, some "en".toList, none⟩),
        .value none (.json (.obj [("k".toList, .null)]))]]),
     (.blank "_:q".toList, [.node (.mk none none none none none [] none)])]
    (some [(.iri "a:r".toList, [.mk none (some (.invalid "zz".toList)) none none none [] none])]))]

/-- The same as JSON. -/
def exRichJson : Json :=
  .arr [.obj [("@id".toList, .str "a:x".toList), ("@type".toList, .arr [.str "a:T".toList, .str "_:t".toList]),
    ("@graph".toList, .arr [.obj [("@id".toList, .str "_:g".toList),
      ("a:p".toList, .arr [.obj [("@type".toList, .str "a:int".toList), ("@value".toList, .num "1".toList)]])]]),
    ("@reverse".toList, .obj [("a:r".toList, .arr [.obj [("@id".toList, .str "zz".toList)]])]),
    ("a:p".toList, .arr [.obj [("@list".toList, .arr [
      .obj [("@language".toList, .str "en".toList), ("@value".toList, .str "s".toList), ("@index".toList, .str "j".toList)],
      .obj [("@type".toList, .str "@json".toList), ("@value".toList, .obj [("k".toList, .null)])]])]]),
    ("_:q".toList, .arr [.obj []]),
    ("@index".toList, .str "i".toList)]]

/-- This is what is written, and it is read back. -/
example : exRich.toJson = exRichJson ∧ RoundTrip exIri exBlank exRich :=
  ⟨by decide +kernel, by unfold RoundTrip; decide +kernel⟩

/-- The hypotheses of the theorems hold of a document with a typed value. -/
example : Plain [.value none (.literal (.num "1".toList) (some "a:int".toList))] ∧
    Typed exIri exBlank [.value none (.literal (.num "1".toList) (some "a:int".toList))] := by
  have h : ∀ x, Inside [.value none (.literal (.num "1".toList) (some "a:int".toList))] x →
      x = .obj (.value none (.literal (.num "1".toList) (some "a:int".toList))) := by
    rintro x ⟨o, ho, hr⟩
    rw [List.mem_singleton.1 ho] at hr
    rcases Relation.ReflTransGen.cases_tail hr with e | ⟨y, _, hp⟩
    · exact e.symm
    · rcases hp with ⟨⟨⟩⟩ | _
  refine ⟨⟨fun n hn => ?_, fun n hn => ?_, fun n hn => ?_⟩, ⟨fun i v hv => ?_, fun n hn => ?_⟩⟩
  · cases h _ hn
  · cases h _ hn
  · cases h _ hn
  · cases h _ hv
    exact ⟨by decide, by decide⟩
  · cases h _ hn

end JsonLd.Props
