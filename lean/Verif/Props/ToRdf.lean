import Verif.Proofs.ToRdf
import Verif.Props.Canonical
import Verif.Props.SameStatements
import Verif.Props.Relabel
/-!
# C65: the RDF of a document, from beginning to end
-/

namespace JsonLd.Props
open JsonLd Spec

/-- `d₁` is the document `d` with all nodes named: one renaming of blank labels applied to every
identifier and type, a new name for each unnamed node, and nothing else changed (see C14). -/
def NamedVersion (gen : Nat → Id) (d d₁ : Doc) : Prop :=
  ∃ ρ : Str → Id,
    List.Forall₂ (fun h h' => h'.2 = h.2.map (List.map (renameId ρ)) ∧ h'.1.isSome = true ∧
        ∀ i, h.1 = some i → h'.1 = some (renameId ρ i)) (docHeaders d) (docHeaders d₁) ∧
    (∀ b ∈ blankLabels (docIds d), ∃ k, ρ b = gen k) ∧
    (newIds (docHeaders d) (docHeaders d₁) ++ (blankLabels (docIds d)).dedup.map ρ).Nodup ∧
    shape d₁ = shape d

/-- The object of a statement is kept, or given canonical literals. -/
def KeptOrCanonical (c : CanonEnv) : QObj → QObj → Prop
  | .obj a, .obj b => a = b ∨ CanonicalVersion c a b
  | .node a, .node b => a = b ∨ CanonicalVersion c (.node a) (.node b)
  | .ref i, .ref j => i = j
  | _, _ => False

theorem kept_refl (c : CanonEnv) (o : QObj) : KeptOrCanonical c o o := by
  cases o <;> simp [KeptOrCanonical]

theorem kept_canon (c : CanonEnv) (o : QObj) : KeptOrCanonical c o (o.canon c) := by
  cases o with
  | obj a => exact .inr (canon_version c a)
  | node n => exact .inr (canon_version c (.node n))
  | ref i => rfl

/-- C65. The RDF of any document whose sets are sets, with a generator that never repeats and never
yields an IRI of the document: there is a version `d₁` of the document with all nodes named, in which
nothing is out of reach of the conversion, such that every statement of `d₁` that RDF can express is
in the output, in its graph, with an object standing for (an object equal to) the object of the
statement, possibly with canonical literals; and every quad of the output comes from a statement of
`d₁` or is part of the collection of a list. Nothing has to be assumed about the blank labels of the
document. Partial: see `C65_conflation`. -/
theorem C65_to_rdf_partial (c : CanonEnv) (env : RdfEnv) (opts : RdfOpts) (d : Doc) (hd : d.WF)
    (hinj : ∀ i j, env.gen i = env.gen j → i = j)
    (hfresh : ∀ h ∈ docHeaders d, ∀ i ∈ headerIds h, (∀ b, i ≠ .blank b) → ∀ k, env.gen k ≠ i)
    (hcase : ∀ l l', langEq l l' = true → env.wellFormed l = env.wellFormed l')
    {out : List RQuad}
    (hout : Output { env with gen := (d.toRdf c env.gen).2 } opts (d.toRdf c env.gen).1 out) :
    ∃ d₁, NamedVersion env.gen d d₁ ∧
      (∀ x, Inside d₁ x → ∃ g, Reached d₁ g x) ∧
      (∀ q, Asserts d₁ q → Stateable opts.generalized q → RepresentableObj env q.object →
        ∃ o₁ o, KeptOrCanonical c q.object o₁ ∧ SameObject o₁ o ∧
        ∃ t, (⟨q.subject, property q.property, t, q.graph⟩ : RQuad) ∈ out ∧
          DenotesObj { env with gen := (d.toRdf c env.gen).2 } opts.direction
            (fun s p t => (⟨s, p, t, q.graph⟩ : RQuad) ∈ out) o t) ∧
      (∀ r ∈ out, ∃ q o₁, Asserts d₁ q ∧ KeptOrCanonical c q.object o₁ ∧
        Stateable opts.generalized q ∧ r.graph = q.graph ∧
        ((r.subject = q.subject ∧ r.property = property q.property ∧
            (RepresentableObj env o₁ ∨ ∃ i l, o₁ = .obj (.list i l))) ∨
          ((∃ k, r.subject = env.gen k ∧ ∀ h ∈ docHeaders d₁, h.1 ≠ some (env.gen k)) ∧
            (r.property = rdfFirst ∨ r.property = rdfRest) ∧
            ∃ i x l, o₁ = .obj (.list i (x :: l))))) := by
  obtain ⟨hw, hsome, hnew, hrc⟩ := relabel_facts hinj hd hfresh
  have hw' := objsWF_iff.1 hw.2
  have e1 : (d.toRdf c env.gen).1 = (d.relabel env.gen 0).1.canon c := by
    simp only [Doc.toRdf, hrc c]
  have e2 : (d.toRdf c env.gen).2 = fun k => env.gen ((d.relabel env.gen 0).2.count + k) := by
    simp only [Doc.toRdf, hrc c]
  rw [e1, e2] at hout
  rw [e2]
  generalize hg : (fun k => env.gen ((d.relabel env.gen 0).2.count + k)) = gen' at hout ⊢
  have hsub : (d.relabel env.gen 0).1.canon c ⊆ objsCanon c (d.relabel env.gen 0).1 :=
    fun o ho => setCollect_mem ho
  have hwc : ∀ o ∈ objsCanon c (d.relabel env.gen 0).1, o.WF := by
    intro o ho
    rw [objsCanon_eq] at ho
    obtain ⟨o, ho', rfl⟩ := List.mem_map.1 ho
    exact (wf_canon c).1 o (hw' o ho')
  have hff : FreshFor { env with gen := gen' } ((d.relabel env.gen 0).1.canon c) := by
    constructor
    · intro i j hij
      subst hg
      have := hinj _ _ hij
      omega
    · intro q hq k hk
      subst hg
      have hq := asserts_mono hsub hq
      have : ∃ o, Asserts (d.relabel env.gen 0).1 ⟨q.graph, q.subject, q.property, o⟩ := by
        rcases asserts_uncanon c hq with h | ⟨o, h, _⟩
        · exact ⟨_, h⟩
        · exact ⟨o, h⟩
      obtain ⟨o, ho⟩ := this
      obtain ⟨h, hh, e⟩ := asserts_subject ho
      exact hnew h hh k (e.trans (congrArg some hk))
  refine ⟨(d.relabel env.gen 0).1, ?_, ?_, ?_, ?_⟩
  · obtain ⟨ρ, h1, h2, h3, h4, _⟩ := C14_relabel_partial env.gen hinj d hd hfresh 0
    exact ⟨ρ, h1, h2, h3, h4⟩
  · intro x hx
    exact inside_reached hsome hx
  · intro q hq hs hr
    have hcan : ∃ o₁, Asserts (objsCanon c (d.relabel env.gen 0).1) ⟨q.graph, q.subject, q.property, o₁⟩ ∧
        KeptOrCanonical c q.object o₁ ∧ RepresentableObj env o₁ := by
      rcases asserts_canon c hq with h | h
      · exact ⟨_, h, kept_refl c _, hr⟩
      · refine ⟨_, h, kept_canon c _, ?_⟩
        cases ho : q.object with
        | obj o => rw [ho] at hr; exact (representable_canon c env).1 o hr
        | node n =>
          rw [ho] at hr
          obtain ⟨i, h1, h2⟩ := hr
          exact ⟨i, (node_canon_id c n).trans h1, h2⟩
        | ref i => rw [ho] at hr; exact hr
    obtain ⟨o₁, ho₁, hk, hr₁⟩ := hcan
    obtain ⟨o, ho, hsame⟩ := asserts_same hwc (objsWF_iff.1 (doc_canon_wf c hw').2)
      (fun x hx => setCollect_covers (Obj.eqOk (hwc x hx)).1 hx) ho₁
    have hro : RepresentableObj { env with gen := gen' } o := by
      cases o₁ with
      | ref i =>
        cases o with
        | ref j => have : i = j := hsame; subst this; exact hr₁
        | _ => exact hsame.elim
      | node n =>
        cases o with
        | node m =>
          obtain ⟨w1, w2, w3⟩ := hsame
          obtain ⟨i, h1, h2⟩ := hr₁
          exact ⟨i, ((node_eq_iff w1 w2).1 w3).2.1 ▸ h1, h2⟩
        | _ => exact hsame.elim
      | obj a =>
        cases o with
        | obj b =>
          obtain ⟨w1, w2, w3⟩ := hsame
          exact (representable_env_gen env gen').1 b ((representable_eq env hcase).1 a b w1 w2 w3 hr₁)
        | _ => exact hsame.elim
    obtain ⟨t, ht, hden⟩ := C21_complete hff hout (q := ⟨q.graph, q.subject, q.property, o⟩) ho hs hro
    exact ⟨o₁, o, hk, sameObject_of hsame, t, ht, hden⟩
  · intro r hr
    obtain ⟨q, hq, hst, hgr, hrest⟩ := C21_sound hout r hr
    have hq := asserts_mono hsub hq
    have : ∃ o, Asserts (d.relabel env.gen 0).1 ⟨q.graph, q.subject, q.property, o⟩ ∧
        KeptOrCanonical c o q.object := by
      rcases asserts_uncanon c hq with h | ⟨o, h, e⟩
      · exact ⟨_, h, kept_refl c _⟩
      · exact ⟨o, h, e ▸ kept_canon c o⟩
    obtain ⟨o, ho, hk⟩ := this
    refine ⟨_, q.object, ho, hk, hst, hgr, ?_⟩
    rcases hrest with ⟨h1, h2, h3⟩ | ⟨⟨k, hk⟩, h2, h3⟩
    · refine .inl ⟨h1, h2, ?_⟩
      rcases h3 with h3 | h3
      · left
        cases hqo : q.object with
        | obj a => rw [hqo] at h3; exact (representable_env_gen' env gen').1 a h3
        | node n => rw [hqo] at h3; exact h3
        | ref i => rw [hqo] at h3; exact h3
      · exact .inr h3
    · subst hg
      exact .inr ⟨⟨_, hk, fun h hh => hnew h hh k⟩, h2, h3⟩

/-- A node named by a blank label, which is also the property of an unnamed node. -/
def exBlankKey : Doc :=
  [.node (.mk none (some (.blank ['b'])) (some [.iri "T".toList]) none none [] none),
   .node (.mk none none none none none [(.blank ['b'], [exStr "x"])] none)]

theorem exBlankKey_wf : exBlankKey.WF := by
  refine ⟨by decide +kernel, ?_⟩
  simp [exBlankKey, gWF, objsWF, Obj.WF, Node.WF, incWF, rvWF, psWF, exStr]

theorem exBlankKey_fresh : ∀ h ∈ docHeaders exBlankKey, ∀ i ∈ headerIds h, (∀ b, i ≠ .blank b) →
    ∀ k, exEnv.gen k ≠ i := by
  intro h _ i _ hb k hk
  exact hb _ hk.symm

/-- C65, what does not hold of the code: in generalized RDF the property, which is the blank node of
type `T` in the document, is the other node in the output. All hypotheses of `C65_to_rdf_partial`
hold. -/
theorem C65_conflation :
    Output { exEnv with gen := (exBlankKey.toRdf exCanon exEnv.gen).2 } ⟨none, true⟩
        (exBlankKey.toRdf exCanon exEnv.gen).1
      [⟨.blank [], rdfType, .id (.iri "T".toList), none⟩,
       ⟨.blank ['b'], .blank ['b'], .lit "x".toList (.any (xsdNs "string")), none⟩] := by
  have := collects_doc (env := { exEnv with gen := (exBlankKey.toRdf exCanon exEnv.gen).2 })
    (opts := ⟨none, true⟩) (exBlankKey.toRdf exCanon exEnv.gen).1
  have e : (emitAll { exEnv with gen := (exBlankKey.toRdf exCanon exEnv.gen).2 } ⟨none, true⟩
      (statements (exBlankKey.toRdf exCanon exEnv.gen).1) 0).1 =
      [⟨.blank [], rdfType, .id (.iri "T".toList), none⟩,
       ⟨.blank ['b'], .blank ['b'], .lit "x".toList (.any (xsdNs "string")), none⟩] := by
    decide +kernel
  rw [e] at this
  exact .expanded this

/-- An unnamed node with a list containing an unnamed node, whose blank labels are among those the
generator yields. -/
def exUnnamed : Doc :=
  [.node (.mk none none none none none [(.iri "p".toList, [.list none
    [.node (.mk none (some (.blank ['b', 'b'])) none none none [] none),
     .node (.mk none none none none none [] none), .value none (.literal (.num ['1', '.', '0']) none)]])] none)]

example : exUnnamed.WF ∧ (∀ h ∈ docHeaders exUnnamed, ∀ i ∈ headerIds h, (∀ b, i ≠ .blank b) →
    ∀ k, exEnv.gen k ≠ i) ∧ (∀ l l', langEq l l' = true → exEnv.wellFormed l = exEnv.wellFormed l') := by
  refine ⟨⟨by decide +kernel, ?_⟩, ?_, ?_⟩
  · simp [exUnnamed, gWF, objsWF, Obj.WF, Node.WF, incWF, rvWF, psWF]
  · intro h _ i _ hb k hk
    exact hb _ hk.symm
  · intro l l' h
    simp only [langEq, beq_iff_eq] at h
    have := congrArg List.length h
    simp only [List.length_map] at this
    cases l <;> cases l' <;> simp_all [exEnv]

/-- Its quads. -/
example : (emitAll { exEnv with gen := (exUnnamed.toRdf exCanon exEnv.gen).2 } ⟨none, false⟩
      (statements (exUnnamed.toRdf exCanon exEnv.gen).1) 0).1 =
    let b := fun k => Id.blank (List.replicate k 'b')
    [⟨b 0, .iri "p".toList, .id (b 3), none⟩,
     ⟨b 3, rdfFirst, .id (b 1), none⟩,
     ⟨b 3, rdfRest, .id (b 4), none⟩,
     ⟨b 4, rdfFirst, .id (b 2), none⟩,
     ⟨b 4, rdfRest, .id (b 5), none⟩,
     ⟨b 5, rdfFirst, .lit ['1'] (.any (xsdNs "integer")), none⟩,
     ⟨b 5, rdfRest, .id rdfNil, none⟩] := by decide +kernel

end JsonLd.Props
