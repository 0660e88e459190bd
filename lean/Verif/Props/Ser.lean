import Verif.Proofs.SerDoc
import Verif.Spec.Inside
import Verif.Base.DocDec
/-!
# C24, C25: documents built from RDF quads
-/

namespace JsonLd.Props
open JsonLd Spec

section
variable {R : Type} [DecidableEq R] {I : Interp R}

omit [DecidableEq R] in
theorem litValue_of_means {text : Str} {ty : LitType} {v : Value} (h : LitMeans I text ty v) :
    litValue I text ty = .ok v := by
  have n1 : xsdNs "boolean" ≠ rdfNs "JSON" := by decide
  have n2 : xsdNs "integer" ≠ rdfNs "JSON" := by decide
  have n3 : xsdNs "double" ≠ rdfNs "JSON" := by decide
  have n4 : xsdNs "string" ≠ rdfNs "JSON" := by decide
  have n5 : xsdNs "integer" ≠ xsdNs "boolean" := by decide
  have n6 : xsdNs "double" ≠ xsdNs "boolean" := by decide
  have n7 : xsdNs "string" ≠ xsdNs "boolean" := by decide
  have n8 : ¬ (xsdNs "string" = xsdNs "integer" ∨ xsdNs "string" = xsdNs "double") := by decide
  have m1 : ∀ t : Str, t = ['f', 'a', 'l', 's', 'e'] ∨ t = ['0'] → ¬ (t = ['t', 'r', 'u', 'e'] ∨ t = ['1']) := by
    rintro t (rfl | rfl) <;> decide
  cases h with
  | json hj => simp only [litValue, if_true, hj]
  | true ht =>
    have ht : text = ['t', 'r', 'u', 'e'] ∨ text = ['1'] := ht
    rw [litValue, if_neg n1, if_pos rfl, if_pos ht]
  | false ht =>
    have ht : text = ['f', 'a', 'l', 's', 'e'] ∨ text = ['0'] := ht
    rw [litValue, if_neg n1, if_pos rfl, if_neg (m1 _ ht), if_pos ht]
  | number hty hn =>
    rcases hty with rfl | rfl
    · rw [litValue, if_neg n2, if_neg n5, if_pos (.inl rfl), hn]
    · rw [litValue, if_neg n3, if_neg n6, if_pos (.inr rfl), hn]
  | string => rw [litValue, if_neg n4, if_neg n7, if_neg n8, if_pos rfl]
  | other h1 h2 h3 h4 h5 =>
    rw [litValue, if_neg h1, if_neg h2, if_neg (by rintro (e | e); exacts [h3 e, h4 e]), if_neg h5]
  | lang => rfl

/-- C24, termination. Whatever the quads — cycles included — there is a depth of recursion from which
the result no longer changes; it is then a document or the error of a literal that cannot be read,
never a panic. -/
theorem C24_terminates (o : SerOrders R) (qs : List (IQuad R)) : ∃ b0, ∀ b, b0 ≤ b →
    fromQuads I o b qs = fromQuads I o b0 qs ∧
    ((∃ d, fromQuads I o b qs = .ok d) ∨
      ∃ e, fromQuads I o b qs = .error e ∧ (e = .invalidJson ∨ e = .invalidBoolean ∨ e = .number)) := by
  have hP : ∀ q ∈ qs, OnlyErr (fun e => e = .invalidJson ∨ e = .invalidBoolean ∨ e = .number)
      (renderRef I q.object) := by
    intro q _ e he
    unfold renderRef at he
    split at he
    · cases he
    · split at he
      · rename_i text ty _ _
        cases hv : litValue I text ty with
        | ok v => rw [hv] at he; cases he
        | error e' =>
          rw [hv] at he
          cases he
          cases ty with
          | lang tag => cases hv
          | any ty =>
            unfold litValue at hv
            dsimp only at hv
            split at hv
            · split at hv <;> cases hv
              exact .inl rfl
            · split at hv
              · split at hv
                · cases hv
                · split at hv <;> cases hv
                  exact .inr (.inl rfl)
              · split at hv
                · split at hv <;> cases hv
                  exact .inr (.inr rfl)
                · split at hv <;> cases hv
      · cases he
  obtain ⟨b0, h⟩ := fromQuads_ends I o qs hP
  refine ⟨b0, fun b hb => ⟨(h b hb).1, ?_⟩⟩
  cases hr : fromQuads I o b qs with
  | ok d => exact .inl ⟨d, rfl⟩
  | error e => exact .inr ⟨e, rfl, (h b hb).2 e hr⟩

/-- C24, termination. If every literal among the objects can be read, a document is built. -/
theorem C24_succeeds (o : SerOrders R) (qs : List (IQuad R))
    (h : ∀ q ∈ qs, ∀ x ∈ I.literals q.object, ∃ v, LitMeans I x.1 x.2 v) :
    ∃ d b0, ∀ b, b0 ≤ b → fromQuads I o b qs = .ok d := by
  have hP : ∀ q ∈ qs, OnlyErr (fun _ => False) (renderRef I q.object) := by
    intro q hq e he
    unfold renderRef at he
    split at he
    · cases he
    · split at he
      · rename_i text ty l hl
        obtain ⟨v, hv⟩ := h q hq (text, ty) (by rw [hl]; exact List.mem_cons_self)
        rw [litValue_of_means hv] at he
        cases he
      · cases he
  obtain ⟨b0, h⟩ := fromQuads_ends I o qs hP
  cases hr : fromQuads I o b0 qs with
  | ok d => exact ⟨d, b0, fun b hb => by rw [(h b hb).1, hr]⟩
  | error e => exact ((h b0 (le_refl _)).2 e hr).elim

/-- C24. The full statement is: every quad is stated by the document. What is proved: the document
states exactly the quads whose subject is found by following quads from a resource that is not the
object of exactly one quad, their graph likewise. Missing: the other quads are lost
(`C24_lost_self`, `C24_lost_cycle`, `C24_lost_type`); and `rdf:first` has to come after the last
`rdf:type` (`C24_first_as_type`). -/
theorem C24_exact_partial {o : SerOrders R} {qs : List (IQuad R)} (hp : PlainQuads I qs)
    (hk : FirstKept I qs) {b : Nat} {d : Doc} (h : fromQuads I o b qs = .ok d) :
    (∀ q ∈ qs, Visible I qs q ↔ ∃ x, Asserts d x ∧ SameQuad I q x) ∧
    (∀ x, Asserts d x → ∃ q ∈ qs, Visible I qs q ∧ SameQuad I q x) := by
  refine ⟨fun q hq => ⟨stated_of_visible o hp hk h hq, ?_⟩, fun x hx => visible_of_stated o hp hk h hx⟩
  rintro ⟨x, hx, hs⟩
  obtain ⟨q', _, hv, hs'⟩ := visible_of_stated o hp hk h hx
  have e1 : q'.subject = q.subject := hp.inj _ _ _ hs'.subject hs.subject
  have e2 : q'.graph = q.graph := by
    have h1 := hs.graph
    have h2 := hs'.graph
    cases hg : q.graph with
    | none =>
      rw [hg] at h1
      generalize x.graph = gi at h1 h2
      cases h1
      generalize q'.graph = g' at h2
      cases h2
      rfl
    | some r =>
      rw [hg] at h1
      generalize x.graph = gi at h1 h2
      cases h1 with
      | named n1 =>
        generalize q'.graph = g' at h2
        cases h2 with
        | named n2 => rw [hp.inj _ _ _ n1 n2]
  unfold Visible at hv ⊢
  rw [e1, e2] at hv
  exact hv

/-- C24. Nothing is lost from a graph without cycles in which types are not described. -/
theorem C24_acyclic_partial {o : SerOrders R} {qs : List (IQuad R)} (hp : PlainQuads I qs)
    (hk : FirstKept I qs) {rank : Option R → R → Nat}
    (hr : ∀ q ∈ qs, rank q.graph q.subject < rank q.graph q.object)
    (ht : ∀ q ∈ qs, Name I q.property rdfType → ∀ x ∈ qs, x.subject ≠ q.object ∧ x.graph ≠ some q.object)
    {b : Nat} {d : Doc} (h : fromQuads I o b qs = .ok d) :
    ∀ q ∈ qs, ∃ x, Asserts d x ∧ SameQuad I q x := by
  have shown : ∀ n g r, rank g r = n → (∃ x ∈ qs, x.subject = r ∨ x.graph = some r) → Shown I qs g r := by
    intro n
    induction n using Nat.strong_induction_on with
    | _ n ih =>
      intro g r e hx
      by_cases ho : ReferredOnce qs g r
      · obtain ⟨q, hq⟩ := ho
        have hm : q ∈ qs.filter (fun q => decide (q.graph = g) && decide (q.object = r)) := by
          rw [hq]; exact List.mem_singleton.2 rfl
        simp only [List.mem_filter, Bool.and_eq_true, decide_eq_true_eq] at hm
        obtain ⟨hm, rfl, rfl⟩ := hm
        refine .step hm rfl (fun hc => ?_) (ih _ (e ▸ hr q hm) _ _ rfl ⟨q, hm, .inl rfl⟩)
        obtain ⟨x, hx, hx'⟩ := hx
        have := ht q hm hc x hx
        rcases hx' with hx' | hx'
        · exact this.1 hx'
        · exact this.2 hx'
      · exact .root ho
  intro q hq
  exact stated_of_visible o hp hk h hq ⟨shown _ _ _ rfl ⟨q, hq, .inl rfl⟩,
    fun g hg => shown _ _ _ rfl ⟨q, hq, .inr hg⟩⟩

/-! ## C25 -/

/-- There is no list in the object. -/
def NoLists (x : Obj) : Prop := ∀ i l, ¬ Relation.ReflTransGen PartL (.obj (.list i l)) (.obj x)

theorem noLists_value {i : Option Str} {v : Value} : NoLists (.value i v) := by
  intro j l h
  rcases h.cases_tail with e | ⟨c, _, hc⟩
  · cases e
  · cases hc with
    | part hc => cases hc

theorem noLists_node {i : Option Str} {id : Option Id} {ty : Option (List Id)} {g : Option (List Obj)}
    {ps : List (Id × List Obj)} (hg : ∀ l, g = some l → ∀ x ∈ l, NoLists x)
    (hp : ∀ j x, HasVal ps j x → NoLists x) : NoLists (.node (.mk i id ty g none ps none)) := by
  intro j l h
  rcases h.cases_tail with e | ⟨c, h', hc⟩
  · cases e
  · cases hc with
    | part hc =>
      cases hc with
      | self =>
        rcases h'.cases_tail with e | ⟨c, h'', hc⟩
        · cases e
        · cases hc with
          | part hc =>
            cases hc with
            | graph e hx => exact hg _ e _ hx _ _ h''
            | included e _ => cases e
            | property hl hx => exact hp _ _ ⟨_, hl, hx⟩ _ _ h''
            | reverse e _ _ => cases e

omit [DecidableEq R] in
theorem renderRef_noLists {r : R} {x : Obj} (h : renderRef I r = .ok x) : NoLists x := by
  have hn : ∀ i, NoLists (.node (.mk none i none none none [] none)) := by
    intro i
    refine noLists_node (fun l e => by cases e) ?_
    rintro j x ⟨l, hl, _⟩
    cases hl
  unfold renderRef at h
  split at h
  · cases h
    exact hn _
  · split at h
    · obtain ⟨v, -, h⟩ := bind_ok h
      cases h
      exact noLists_value
    · cases h
      exact hn _

theorem drawnTop_noLists {o : SerOrders R} {qs : List (IQuad R)} {k : Nat} {g : Option R} {l : List Obj}
    (hd : ∀ r x, Drawn I o qs k g r x → NoLists x) (h : DrawnTop I o qs k g l) : ∀ x ∈ l, NoLists x := by
  unfold DrawnTop renderTop at h
  obtain ⟨l', h1, h2⟩ := bind_ok h
  cases h2
  refine (setCollect_spec l' fun x hx => ?_).2
  obtain ⟨⟨r, e⟩, hp, hx⟩ := (mapM_mem h1).2 x hx
  obtain ⟨hp, -⟩ := List.mem_filter.1 hp
  have hp := (o.resources_perm _).mem_iff.1 hp
  have he := find_entry ((find_iff (ready_at I qs g).nodup).2 hp)
  subst he
  exact hd r x hx

theorem drawn_noLists {o : SerOrders R} {qs : List (IQuad R)} : ∀ (k : Nat) (g : Option R) (r : R) (x : Obj),
    Drawn I o qs k g r x → NoLists x := by
  intro k
  induction k with
  | zero => intro g r x h; cases h
  | succ k ih =>
    intro g r x h
    by_cases hf : Full qs g r
    · obtain ⟨k', types, graph, ps, e, rfl, -, h4, h3⟩ := drawn_node I o qs hf h
      cases e
      refine noLists_node ?_ ?_
      · rintro l rfl
        cases g with
        | some g => cases h4
        | none =>
          cases hG : subAt I qs none r with
          | none => rw [hG] at h4; cases h4
          | some G =>
            rw [hG] at h4
            obtain ⟨-, rfl⟩ := named_graph I hG
            obtain ⟨l', h5, h6⟩ := bind_ok h4
            cases h6
            exact drawnTop_noLists (g := some r) (ih (some r)) h5
      · intro j y hv
        obtain ⟨p, v, -, -, hz⟩ := ((renderProps_val I o _ h3).1 j y).1 hv
        rcases drawnChild_cases I o qs hz with ⟨-, -, hd⟩ | ⟨-, hr⟩
        · exact ih _ _ _ hd
        · exact renderRef_noLists hr
    · have he : (entry r (graphAt I qs g)).isEmpty (subAt I qs g r) = true := by
        by_contra hc
        rw [Bool.not_eq_true] at hc
        exact hf ((full_iff I qs).1 hc)
      unfold Drawn at h
      simp only [renderObj, he, if_true] at h
      exact renderRef_noLists h

/-- C25 is false: no document built from quads contains a list, whatever the quads. -/
theorem C25_never_lists {o : SerOrders R} {qs : List (IQuad R)} {b : Nat} {d : Doc}
    (h : fromQuads I o b qs = .ok d) : ∀ i l, ¬ Inside d (.obj (.list i l)) := by
  rintro i l ⟨x, hx, hr⟩
  rw [fromQuads_eq] at h
  exact drawnTop_noLists (g := none) (drawn_noLists b none) h x hx i l hr

end

/-! ## Examples -/

/-- Terms stand for themselves. -/
def termInterp : Interp Term where
  iris
    | .id (.iri i) => [i]
    | _ => []
  blanks
    | .id (.blank b) => [b]
    | _ => []
  literals
    | .lit t ty => [(t, ty)]
    | _ => []
  parseJson := fun _ => none
  parseNumber := some

/-- Everything in the order of insertion. -/
def sameOrders {R : Type} : SerOrders R :=
  ⟨id, id, id, id, fun _ => .refl _, fun _ => .refl _, fun _ => .refl _, fun _ => .refl _⟩

theorem termInterp_inj (r r' : Term) (i : Id) (h : Name termInterp r i) (h' : Name termInterp r' i) :
    r = r' := by
  have key : ∀ (r : Term) (i : Id), Name termInterp r i → r = .id i := by
    intro r i h
    cases h with
    | iri h1 _ =>
      cases r with
      | lit => cases h1
      | id j =>
        cases j with
        | iri j => cases h1; rfl
        | blank => cases h1
        | invalid => cases h1
    | blank _ h1 =>
      cases r with
      | lit => cases h1
      | id j =>
        cases j with
        | blank j => cases h1; rfl
        | iri => cases h1
        | invalid => cases h1
  rw [key r i h, key r' i h']

/-- An IRI. -/
def tIri (s : String) : Term := .id (.iri s.toList)
/-- A blank node. -/
def tBlank (s : String) : Term := .id (.blank s.toList)
/-- A string. -/
def tStr (s : String) : Term := .lit s.toList (.any (xsdNs "string"))
/-- A property of RDF. -/
def tRdf (s : String) : Term := .id (.iri (rdfNs s))

/-- The quads of identifiers and literals are plain. -/
theorem plain_of_check {qs : List (IQuad Term)}
    (h : ∀ q ∈ qs, (∃ i, Name termInterp q.subject i) ∧ (∃ i, Name termInterp q.property i) ∧
      ((∃ i, Name termInterp q.object i) ∨ ∃ t ty, q.property ≠ .id rdfType ∧ q.object = .lit t ty) ∧
      ∀ g, q.graph = some g → ∃ i, Name termInterp g i) : PlainQuads termInterp qs where
  subject := fun q hq => (h q hq).1
  property := fun q hq => (h q hq).2.1
  object := fun q hq => (h q hq).2.2.1.elim .inl fun ⟨t, ty, _, e⟩ => .inr ⟨t, ty, by rw [e]; exact ⟨rfl, rfl, rfl⟩⟩
  type := fun q hq hn => (h q hq).2.2.1.elim id fun ⟨t, ty, hne, _⟩ =>
    absurd (termInterp_inj _ (.id rdfType) rdfType hn (.iri rfl rfl)) hne
  graph := fun q hq => (h q hq).2.2.2
  inj := termInterp_inj

theorem name_iri (s : String) : ∃ i, Name termInterp (tIri s) i := ⟨_, .iri rfl rfl⟩
theorem name_blank (s : String) : ∃ i, Name termInterp (tBlank s) i := ⟨_, .blank rfl rfl⟩
theorem name_rdf (s : String) : ∃ i, Name termInterp (tRdf s) i := ⟨_, .iri rfl rfl⟩

/-- A document with a cell of a list, two graphs, a shared node and a literal. -/
def exQuads : List (IQuad Term) :=
  [⟨tIri "a:s", tRdf "type", tIri "a:T", none⟩,
   ⟨tIri "a:s", tIri "a:p", tBlank "c", none⟩,
   ⟨tBlank "c", tRdf "first", tStr "x", none⟩,
   ⟨tBlank "c", tRdf "rest", tRdf "nil", none⟩,
   ⟨tIri "a:s", tIri "a:q", tIri "a:g", none⟩,
   ⟨tIri "a:u", tIri "a:q", tStr "y", some (tIri "a:g")⟩]

/-- The hypotheses of `C24_acyclic_partial` hold of it. -/
example : PlainQuads termInterp exQuads ∧ FirstKept termInterp exQuads ∧
    ∃ d, fromQuads termInterp sameOrders 30 exQuads = .ok d ∧
      ∀ q ∈ exQuads, ∃ x, Asserts d x ∧ SameQuad termInterp q x := by
  have hp : PlainQuads termInterp exQuads := by
    refine plain_of_check fun q hq => ?_
    simp only [exQuads, List.mem_cons, List.not_mem_nil, or_false] at hq
    rcases hq with rfl | rfl | rfl | rfl | rfl | rfl
    · exact ⟨name_iri _, name_rdf _, .inl (name_iri _), by simp⟩
    · exact ⟨name_iri _, name_iri _, .inl (name_blank _), by simp⟩
    · exact ⟨name_blank _, name_rdf _, .inr ⟨_, _, by decide, rfl⟩, by simp⟩
    · exact ⟨name_blank _, name_rdf _, .inl (name_rdf _), by simp⟩
    · exact ⟨name_iri _, name_iri _, .inl (name_iri _), by simp⟩
    · refine ⟨name_iri _, name_iri _, .inr ⟨_, _, by decide, rfl⟩, ?_⟩
      rintro g e
      cases e
      exact name_iri _
  have hk : FirstKept termInterp exQuads := by
    intro pre q post e hq _
    have hq : q.property = tRdf "type" := termInterp_inj _ _ _ hq (.iri rfl rfl)
    cases pre with
    | nil =>
      cases e
      exact ⟨⟨tBlank "c", tRdf "first", tStr "x", none⟩, by simp, .iri rfl rfl⟩
    | cons a pre =>
      exfalso
      have hmem : q ∈ exQuads.tail := by rw [e]; simp
      simp only [exQuads, List.tail_cons, List.mem_cons, List.not_mem_nil, or_false] at hmem
      rcases hmem with rfl | rfl | rfl | rfl | rfl <;> revert hq <;> decide
  have ho : (match fromQuads termInterp sameOrders 30 exQuads with | .ok _ => true | _ => false) = true := by
    decide +kernel
  refine ⟨hp, hk, ?_⟩
  cases hd : fromQuads termInterp sameOrders 30 exQuads with
  | error e => rw [hd] at ho; cases ho
  | ok d =>
    refine ⟨d, rfl, C24_acyclic_partial hp hk
      (rank := fun _ t => if t = tIri "a:s" ∨ t = tIri "a:u" then 0 else if t = tBlank "c" then 1 else 2)
      ?_ ?_ hd⟩
    · decide +kernel
    · intro q hq hn
      have hn : q.property = tRdf "type" := termInterp_inj _ _ _ hn (.iri rfl rfl)
      have key : ∀ q ∈ exQuads, q.property = tRdf "type" →
          ∀ x ∈ exQuads, x.subject ≠ q.object ∧ x.graph ≠ some q.object := by decide +kernel
      exact key q hq hn

/-- `a:s a:p a:s`: the test for self references compares the property with the object. -/
theorem C24_lost_self : fromQuads termInterp sameOrders 30
    [⟨tIri "a:s", tIri "a:p", tIri "a:s", none⟩] = .ok [] := by decide +kernel

/-- Two nodes that refer to each other are lost. -/
theorem C24_lost_cycle : fromQuads termInterp sameOrders 30
    [⟨tIri "a:s", tIri "a:p", tIri "a:t", none⟩, ⟨tIri "a:t", tIri "a:p", tIri "a:s", none⟩] = .ok [] := by
  decide +kernel

/-- What is said of a type used once is lost. -/
theorem C24_lost_type : fromQuads termInterp sameOrders 30
    [⟨tIri "a:s", tRdf "type", tIri "a:T", none⟩, ⟨tIri "a:T", tIri "a:label", tStr "x", none⟩] =
    .ok [.node (.mk none (some (.iri "a:s".toList)) (some [.iri "a:T".toList]) none none [] none)] := by
  decide +kernel

/-- After a type, `rdf:first` is written `rdf:type`. -/
theorem C24_first_as_type : fromQuads termInterp sameOrders 30
    [⟨tBlank "c", tRdf "first", tStr "x", none⟩, ⟨tIri "a:s", tRdf "type", tIri "a:T", none⟩] =
    .ok [.node (.mk none (some (.blank "c".toList)) none none none
          [(.iri (rdfNs "type"), [.value none (.literal (.str "x".toList) none)])] none),
         .node (.mk none (some (.iri "a:s".toList)) (some [.iri "a:T".toList]) none none [] none)] := by
  decide +kernel

/-- A well-formed anonymous collection of one item, referred to once, and the document built from it. -/
theorem C25_not_a_list : fromQuads termInterp sameOrders 30
    [⟨tIri "a:s", tIri "a:p", tBlank "c", none⟩, ⟨tBlank "c", tRdf "first", tStr "x", none⟩,
     ⟨tBlank "c", tRdf "rest", tRdf "nil", none⟩] =
    .ok [.node (.mk none (some (.iri "a:s".toList)) none none none
      [(.iri "a:p".toList, [.node (.mk none (some (.blank "c".toList)) none none none
        [(.iri (rdfNs "first"), [.value none (.literal (.str "x".toList) none)]),
         (.iri (rdfNs "rest"), [.node (.mk none (some rdfNil) none none none [] none)])] none)])] none)] := by
  decide +kernel

end JsonLd.Props
