import Verif.Proofs.Rdf
/-!
# C20, C21, C22, C23: conversion to RDF
-/

namespace JsonLd.Props
open JsonLd Spec

/-- `out` is what the iterator `rdf_quads_full` of an expanded or flattened document yields. -/
inductive Output (env : RdfEnv) (opts : RdfOpts) : Doc → List RQuad → Prop where
  | expanded {d : Doc} {out : List RQuad} {s : RdfState} :
      Collects (RdfLoop env opts) d.rdfInit out s → Output env opts d out
  | flattened {f : List Node} {out : List RQuad} {s : RdfState} :
      Collects (RdfLoop env opts) (flatRdfInit f) out s → Output env opts (f.map Obj.node) out

section
variable {env : RdfEnv} {opts : RdfOpts} {d : Doc}

theorem output_eq {out : List RQuad} (h : Output env opts d out) :
    out = (emitAll env opts (statements d) 0).1 := by
  cases h with
  | expanded h => exact (h.det (rdfLoop_det env opts) (collects_doc d)).1
  | flattened h => exact (h.det (rdfLoop_det env opts) (collects_flat _)).1

/-- C20. Every quad of the output has valid graph, subject, property and object identifiers, a blank
node property only if generalized RDF is asked for, and a well-formed language tag if any; the
generator has to yield valid identifiers. -/
theorem C20_well_formed (hgen : ∀ k, (env.gen k).valid = true) {out : List RQuad}
    (h : Output env opts d out) : ∀ r ∈ out,
      (∀ g, r.graph = some g → g.valid = true) ∧ r.subject.valid = true ∧ r.property.valid = true ∧
      (r.property.isBlank = true → opts.generalized = true) ∧
      (∀ i, r.object = .id i → i.valid = true) ∧
      (∀ t l, r.object = .lit t (.lang l) → env.wellFormed l = true) := by
  intro r hr
  rw [output_eq h] at hr
  obtain ⟨q, _, k, x, hc, hr⟩ := emitAll_source hr
  obtain ⟨h1, h2, h3, h4, ho, hs, hp, hg⟩ := convert_some hc
  have good : GoodTerm env r.object → (∀ i, r.object = .id i → i.valid = true) ∧
      (∀ t l, r.object = .lit t (.lang l) → env.wellFormed l = true) := by
    intro hgood
    constructor
    · intro i hi; rw [hi] at hgood; exact hgood
    · intro t l hl; rw [hl] at hgood; exact hgood
  rcases hr with rfl | ⟨t, ht, rfl⟩
  · refine ⟨by rw [hg]; exact h1, by rw [hs]; exact h2, by rw [hp]; exact h3, ?_, good (qobj_good hgen ho)⟩
    intro hb
    rw [hp] at hb
    rcases h4 with h4 | h4
    · exact h4
    · rw [h4] at hb; cases hb
  · obtain ⟨⟨j, _, _, hj⟩, hpr⟩ := (objCells_bound ho).2.2 t ht
    refine ⟨h1, ?_, ?_, ?_, good (objCells_good hgen ho t ht)⟩
    · show t.subject.valid = true
      rw [hj]; exact hgen j
    · show t.property.valid = true
      rcases hpr with e | e <;> rw [e] <;> rfl
    · intro hb
      have hb : t.property.isBlank = true := hb
      rw [first_rest_not_blank hpr] at hb
      cases hb

/-- C21, termination. The iterator ends, and what it yields is determined by the document, the
options and the generator. -/
theorem C21_output (env : RdfEnv) (opts : RdfOpts) (d : Doc) :
    ∃ out, Output env opts d out ∧ ∀ out', Output env opts d out' → out' = out :=
  ⟨_, .expanded (collects_doc d), fun _ h => output_eq h⟩

/-- A generator that never repeats and never yields the subject of a statement. -/
structure FreshFor (env : RdfEnv) (d : Doc) : Prop where
  injective : Function.Injective env.gen
  fresh : ∀ q, Asserts d q → ∀ k, q.subject ≠ env.gen k

/-- C21, completeness. Every statement of the document whose identifiers are valid and whose object
has an RDF value has its quad in the output, in its graph, and the object of this quad stands for the
object of the statement: in particular a list is given by a whole collection in the same graph. -/
theorem C21_complete (hf : FreshFor env d) {out : List RQuad} (h : Output env opts d out) {q : Quad}
    (hq : Asserts d q) (hs : Stateable opts.generalized q) (hr : RepresentableObj env q.object) :
    ∃ t, (⟨q.subject, property q.property, t, q.graph⟩ : RQuad) ∈ out ∧
      DenotesObj env opts.direction (fun s p t => (⟨s, p, t, q.graph⟩ : RQuad) ∈ out) q.object t := by
  rw [output_eq h]
  obtain ⟨y, hy⟩ := representableObj_rdf (opts := opts) hr 0
  obtain ⟨k, x, hp⟩ := placed_of_mem hf.injective (fun q hq => hf.fresh q (mem_statements_iff.1 hq))
    (mem_statements_iff.2 hq) 0 0 (convert_of hs hy)
  obtain ⟨_, _, _, _, _, h1, h2, h3⟩ := convert_some hp.conv
  refine ⟨x.1.object, ?_, hp.denotes hf.injective hr⟩
  rw [← h1, ← h2, ← h3]
  exact hp.mem

/-- C21, soundness. Every quad of the output comes from a statement of the document, either as its
quad or as part of the collection of a list. -/
theorem C21_sound {out : List RQuad} (h : Output env opts d out) : ∀ r ∈ out,
    ∃ q, Asserts d q ∧ Stateable opts.generalized q ∧ r.graph = q.graph ∧
      ((r.subject = q.subject ∧ r.property = property q.property ∧
          (RepresentableObj env q.object ∨ ∃ i l, q.object = .obj (.list i l))) ∨
        ((∃ k, r.subject = env.gen k) ∧ (r.property = rdfFirst ∨ r.property = rdfRest) ∧
          ∃ i o l, q.object = .obj (.list i (o :: l)))) := by
  intro r hr
  rw [output_eq h] at hr
  obtain ⟨q, hq, k, x, hc, hr⟩ := emitAll_source hr
  obtain ⟨_, _, _, _, ho, hs, hp, hg⟩ := convert_some hc
  obtain ⟨hst, hrep⟩ := convertible_iff.1 ⟨x, hc⟩
  refine ⟨q, mem_statements_iff.1 hq, hst, ?_⟩
  rcases hr with rfl | ⟨t, ht, rfl⟩
  · exact ⟨hg, .inl ⟨hs, hp, hrep⟩⟩
  · obtain ⟨⟨j, _, _, hj⟩, hpr⟩ := (objCells_bound ho).2.2 t ht
    refine ⟨rfl, .inr ⟨⟨j, hj⟩, hpr, ?_⟩⟩
    cases hqo : q.object with
    | obj o =>
      rw [hqo] at ht ho
      cases o with
      | list i l =>
        cases l with
        | nil =>
          have : x.2 = (none, k) := (congrArg Prod.snd (Option.some.inj ho)).symm
          rw [this] at ht
          cases ht
        | cons o l => exact ⟨i, o, l, rfl⟩
      | value => cases ht
      | node => cases ht
    | node => rw [hqo] at ht; cases ht
    | ref => rw [hqo] at ht; cases ht

open Classical in
/-- C21, exactly once. Apart from the quads of collections, the quads of the output are, in order, one
for each of the statements (`statements` lists each of them once, and exactly those asserted) whose
identifiers are valid and whose object has an RDF value or is a list. -/
theorem C21_exactly_once (hf : FreshFor env d) {out : List RQuad} (h : Output env opts d out) :
    (∀ q, q ∈ statements d ↔ Asserts d q) ∧
    (out.filter fun r => decide (∀ k, r.subject ≠ env.gen k)).map
        (fun r => (r.subject, r.property, r.graph)) =
      ((statements d).filter fun q => decide (Stateable opts.generalized q ∧
        (RepresentableObj env q.object ∨ ∃ i l, q.object = .obj (.list i l)))).map
        (fun q => (q.subject, property q.property, q.graph)) := by
  refine ⟨fun q => mem_statements_iff, ?_⟩
  have := emitAll_keys (env := env) (opts := opts) (statements d) 0
    (fun q hq => hf.fresh q (mem_statements_iff.1 hq))
  rw [output_eq h]
  have e : (fun q : Quad => decide (∃ x, convert env opts 0 q = some x)) =
      fun q => decide (Stateable opts.generalized q ∧
        (RepresentableObj env q.object ∨ ∃ i l, q.object = .obj (.list i l))) := by
    funext q
    exact decide_eq_decide.2 convertible_iff
  rw [e] at this
  exact this

/-- C22. A list all of whose items have an RDF value, stated about `s`, becomes a collection in the
graph of the statement: the items, in order, are the firsts of a chain of cells ending in `rdf:nil`;
each cell is a generated identifier with one `rdf:first` and one `rdf:rest` and nothing else, and the
same for the lists among the items.
Partial: an item without RDF value breaks the chain, see `C22_broken`. -/
theorem C22_collection_partial (hf : FreshFor env d) {out : List RQuad} (h : Output env opts d out)
    {g : Option Id} {s p : Id} {i : Option Str} {l : List Obj} (hq : Asserts d ⟨g, s, .ref p, .obj (.list i l)⟩)
    (hs : Stateable opts.generalized ⟨g, s, .ref p, .obj (.list i l)⟩)
    (hl : ∀ o ∈ l, Representable env o) :
    ∃ t, (⟨s, p, t, g⟩ : RQuad) ∈ out ∧
      DenotesList env opts.direction (fun s p t => (⟨s, p, t, g⟩ : RQuad) ∈ out) l t := by
  have hr : RepresentableObj env (.obj (.list i l)) := by
    show RepresentableAll env l
    clear hq hs
    induction l with
    | nil => trivial
    | cons o l ih =>
      exact ⟨hl o List.mem_cons_self, ih fun x hx => hl x (List.mem_cons_of_mem _ hx)⟩
  obtain ⟨t, h1, h2⟩ := C21_complete hf h hq hs hr
  refine ⟨t, h1, ?_⟩
  cases h2 with
  | list h => exact h

/-! ## C47 -/

theorem litForm_rdf {v : Value} {text ty : Str} (h : LitForm env v text ty) (dir : Option RdfDirection)
    (n : Nat) : v.rdf env dir n = some (.lit text (.any ty), n) := by
  cases h with
  | json => rfl
  | typed => rfl
  | string => rfl
  | @bool b ty => cases ty <;> cases b <;> rfl
  | integer h1 h2 =>
    rename_i ty
    have : (env.isI64 text && !(ty == some (xsdNs "double"))) = true := by
      rw [h1, Bool.true_and, Bool.not_eq_true', beq_eq_false_iff_ne]
      exact h2
    simp only [Value.rdf, litRdf, this, if_true]
    cases ty <;> rfl
  | @double m ty h1 =>
    have : (env.isI64 m && !(ty == some (xsdNs "double"))) = false := by
      rcases h1 with h1 | h1
      · rw [h1, Bool.false_and]
      · subst h1; simp
    simp only [Value.rdf, litRdf, this]
    cases ty <;> rfl
  | @null ty => cases ty <;> rfl

/-- C47. A statement whose object is a value without language or direction becomes a quad whose object
is one literal, with the datatype written in the document if there is one and otherwise that of the
JSON value, and with the canonical form of booleans and numbers; strings are kept as they are. -/
theorem C47_literals {out : List RQuad} (hf : FreshFor env d) (h : Output env opts d out) {q : Quad}
    (hq : Asserts d q) (hs : Stateable opts.generalized q) {i : Option Str} {v : Value}
    (ho : q.object = .obj (.value i v)) (hv : ∀ s, v ≠ .langString s) :
    ∃ text ty, LitForm env v text ty ∧
      (⟨q.subject, property q.property, .lit text (.any ty), q.graph⟩ : RQuad) ∈ out := by
  obtain ⟨text, ty, hl⟩ : ∃ text ty, LitForm env v text ty := by
    cases v with
    | json j => exact ⟨_, _, .json⟩
    | langString s => exact absurd rfl (hv s)
    | literal l ty =>
      cases l with
      | null => exact ⟨_, _, .null⟩
      | bool b => exact ⟨_, _, .bool⟩
      | str s =>
        cases ty with
        | none => exact ⟨_, _, .string⟩
        | some t => exact ⟨_, _, .typed⟩
      | num n =>
        by_cases h1 : env.isI64 n = true ∧ ty ≠ some (xsdNs "double")
        · exact ⟨_, _, .integer h1.1 h1.2⟩
        · refine ⟨_, _, .double ?_⟩
          by_cases h2 : env.isI64 n = true
          · exact .inr (by_contra fun h3 => h1 ⟨h2, h3⟩)
          · exact .inl (by simpa using h2)
  refine ⟨text, ty, hl, ?_⟩
  have hr : RepresentableObj env q.object := by
    rw [ho]
    cases v with
    | json j => trivial
    | langString s => exact absurd rfl (hv s)
    | literal l ty => trivial
  obtain ⟨t, ht, hd⟩ := C21_complete hf h hq hs hr
  rw [ho] at hd
  cases hd with
  | value e =>
    rw [litForm_rdf hl] at e
    have : t = _ := (congrArg Prod.fst (Option.some.inj e)).symm
    rw [this] at ht
    exact ht

/-- The literal of a value is unique, so that the two values of a typed number and of an untyped one
cannot be confused unless the datatypes agree. -/
theorem C47_unique {v : Value} {t t' ty ty' : Str} (h : LitForm env v t ty) (h' : LitForm env v t' ty') :
    t = t' ∧ ty = ty' := by
  have := litForm_rdf h none 0
  rw [litForm_rdf h' none 0] at this
  injection this with this
  injection this with this _
  injection this with e1 e2
  injection e2 with e2
  exact ⟨e1.symm, e2.symm⟩

end

/-- The cells of a collection, read off the graph. -/
inductive Cells (G : Id → Id → Term → Prop) : Term → List Id → Prop where
  | nil : Cells G (.id rdfNil) []
  | cons {c : Id} {t : Term} {cs : List Id} : G c rdfRest t → Cells G t cs → Cells G (.id c) (c :: cs)

/-- What a collection determines: the values of its items. -/
inductive Reads (G : Id → Id → Term → Prop) : Term → List Term → Prop where
  | nil : Reads G (.id rdfNil) []
  | cons {c : Id} {t t' : Term} {ts : List Term} : G c rdfFirst t → G c rdfRest t' → Reads G t' ts →
      Reads G (.id c) (t :: ts)

section
variable {env : RdfEnv} {dir : Option RdfDirection} {G : Id → Id → Term → Prop}

/-- C22, reading back. A collection of the output can be read in one way only: following the chain
gives terms that stand for the items, in order, and any other reading gives the same terms. -/
theorem C22_read_back (hnil : ∀ k, env.gen k ≠ rdfNil) {l : List Obj} {t : Term}
    (h : DenotesList env dir G l t) : ∃ ts, Reads G t ts ∧ List.Forall₂ (Denotes env dir G) l ts ∧
      ((∀ p t, ¬ G rdfNil p t) → ∀ ts', Reads G t ts' → ts' = ts) := by
  match l, t, h with
  | [], _, .nil =>
    refine ⟨[], .nil, .nil, fun hn ts' h' => ?_⟩
    generalize ht : Term.id rdfNil = x at h'
    cases h' with
    | nil => rfl
    | cons h1 _ _ => cases ht; exact absurd h1 (hn _ _)
  | o :: l, _, .cons h1 h2 _ h4 h5 =>
    obtain ⟨ts, r1, r2, r3⟩ := C22_read_back hnil h5
    refine ⟨_ :: ts, .cons ((h1 _).2 rfl) ((h2 _).2 rfl) r1, .cons h4 r2, fun hn ts' h' => ?_⟩
    generalize hc : env.gen _ = c at h' h1 h2
    cases h' with
    | nil => exact absurd hc (hnil _)
    | cons a1 a2 a3 =>
      rw [(h1 _).1 a1]
      rw [(h2 _).1 a2] at a3
      rw [r3 hn _ a3]

theorem denotesList_length (hnil : ∀ k, env.gen k ≠ rdfNil) {l l' : List Obj} {t : Term}
    (h : DenotesList env dir G l t) (h' : DenotesList env dir G l' t) : l.length = l'.length := by
  induction l generalizing l' t with
  | nil =>
    cases h
    generalize ht : Term.id rdfNil = x at h'
    cases h' with
    | nil => rfl
    | cons => injection ht with ht; exact absurd ht.symm (hnil _)
  | cons o l ih =>
    cases h with
    | cons h1 h2 _ _ h5 =>
      generalize hc : Term.id (env.gen _) = c at h'
      cases h' with
      | nil => injection hc with hc; exact absurd hc (hnil _)
      | cons a1 a2 _ _ a5 =>
        injection hc with hc
        rw [← hc] at a2
        have e := (h2 _).1 ((a2 _).2 rfl)
        rw [e] at a5
        simp only [List.length_cons, ih h5 a5]

/-- C22, distinct cells. The cells of a collection are pairwise different generated identifiers, as
many as there are items. -/
theorem C22_distinct_cells (hnil : ∀ k, env.gen k ≠ rdfNil) {l : List Obj} {t : Term}
    (h : DenotesList env dir G l t) : ∃ cs, Cells G t cs ∧ cs.length = l.length ∧ cs.Nodup ∧
      ∀ c ∈ cs, ∃ k, c = env.gen k := by
  have key : ∀ (l : List Obj) (t : Term), DenotesList env dir G l t → ∃ cs, Cells G t cs ∧
      cs.length = l.length ∧ cs.Nodup ∧ (∀ c ∈ cs, ∃ k, c = env.gen k) ∧
      (∀ c ∈ cs, ∃ l', DenotesList env dir G l' (.id c) ∧ l'.length ≤ l.length) := by
    intro l
    induction l with
    | nil =>
      intro t h
      cases h
      exact ⟨[], .nil, rfl, .nil, by simp, by simp⟩
    | cons o l ih =>
      intro t h
      cases h with
      | cons h1 h2 h3 h4 h5 =>
        rename_i k _ _
        obtain ⟨cs, c1, c2, c3, c4, c5⟩ := ih _ h5
        have hall := DenotesList.cons h1 h2 h3 h4 h5
        refine ⟨env.gen k :: cs, .cons ((h2 _).2 rfl) c1, by simp [c2], ?_, ?_, ?_⟩
        · refine List.nodup_cons.2 ⟨fun hm => ?_, c3⟩
          obtain ⟨l', d1, d2⟩ := c5 _ hm
          have := denotesList_length hnil hall d1
          simp only [List.length_cons] at this
          omega
        · intro c hc
          rcases List.mem_cons.1 hc with rfl | hc
          · exact ⟨k, rfl⟩
          · exact c4 c hc
        · intro c hc
          rcases List.mem_cons.1 hc with rfl | hc
          · exact ⟨_, hall, Nat.le_refl _⟩
          · obtain ⟨l', d1, d2⟩ := c5 c hc
            exact ⟨l', d1, by simp only [List.length_cons]; omega⟩
  obtain ⟨cs, c1, c2, c3, c4, _⟩ := key l t h
  exact ⟨cs, c1, c2, c3, c4⟩

end

/-! ## Directions -/

section
variable {env : RdfEnv}

theorem direction_asStr_inj {d d' : Direction} (h : d.asStr = d'.asStr) : d = d' := by
  cases d <;> cases d' <;> first | rfl | exact absurd h (by decide)

theorem direction_len (d : Direction) : d.asStr.length = 3 := by cases d <;> rfl

theorem affix_inj (ns : Str) {a b : Str} {l l' : Option Str} (hab : a.length = b.length)
    (h : (match l with | some l => ns ++ l ++ ['_'] ++ a | none => ns ++ a) =
      (match l' with | some l => ns ++ l ++ ['_'] ++ b | none => ns ++ b)) : l = l' ∧ a = b := by
  have hl := congrArg List.length h
  cases l with
  | none =>
    cases l' with
    | none => exact ⟨rfl, List.append_cancel_left h⟩
    | some y => simp only [List.length_append, List.length_cons, List.length_nil] at hl; omega
  | some x =>
    cases l' with
    | none => simp only [List.length_append, List.length_cons, List.length_nil] at hl; omega
    | some y =>
      obtain ⟨h1, h2⟩ := List.append_inj' h hab
      have h1 := List.append_cancel_right h1
      exact ⟨by rw [List.append_cancel_left h1], h2⟩

theorem i18n_injective {l l' : Option Str} {d d' : Direction} (h : i18n l d = i18n l' d') :
    l = l' ∧ d = d' := by
  obtain ⟨h1, h2⟩ := affix_inj i18nNs (a := d.asStr) (b := d'.asStr) (l := l) (l' := l')
    (by rw [direction_len, direction_len]) h
  exact ⟨h1, direction_asStr_inj h2⟩

/-- C23, i18n. With the encoding as a datatype, the literal determines the text, the language and the
direction: different direction-tagged strings never give the same literal.
Partial: of the two encodings, the other one keeps nothing, see `C23_compound_lost`. -/
theorem C23_i18n_partial {s s' : LangString} (hs : s.direction.isSome = true)
    (hs' : s'.direction.isSome = true) {n n' m m' : Nat} {t : Term}
    (h : (Value.langString s).rdf env (some .i18nDatatype) n = some (t, n'))
    (h' : (Value.langString s').rdf env (some .i18nDatatype) m = some (t, m')) :
    s.data = s'.data ∧ s.language = s'.language ∧ s.direction = s'.direction := by
  obtain ⟨d, hd⟩ := Option.isSome_iff_exists.1 hs
  obtain ⟨d', hd'⟩ := Option.isSome_iff_exists.1 hs'
  simp only [Value.rdf, langRdf, hd] at h
  simp only [Value.rdf, langRdf, hd'] at h'
  split at h
  · split at h'
    · cases h
      have e := congrArg Prod.fst (Option.some.inj h')
      injection e with e1 e2
      injection e2 with e2
      obtain ⟨e3, e4⟩ := i18n_injective e2
      exact ⟨e1.symm, e3.symm, by rw [hd, hd', e4]⟩
    · cases h'
  · cases h

/-- C23, every direction-tagged string whose language is well-formed has such a literal. -/
theorem C23_i18n_total {s : LangString} {d : Direction} (hs : s.direction = some d)
    (hl : ∀ l, s.language = some l → env.wellFormed l = true) (n : Nat) :
    ∃ t, (Value.langString s).rdf env (some .i18nDatatype) n = some (.lit s.data t, n) := by
  have : s.language.all env.wellFormed = true := by
    cases h : s.language with
    | none => rfl
    | some l => exact hl l h
  exact ⟨_, by simp only [Value.rdf, langRdf, hs, this, if_true]; rfl⟩

/-- The document stating that `a` has the value `v` for the property `p`. -/
def statement (a p : Id) (v : Value) : Doc :=
  [.node (.mk none (some a) none none none [(p, [.value none v])] none)]

/-- C23 does not hold of compound literals: all direction-tagged strings are converted to the same
thing, a blank node about which nothing is said. -/
theorem C23_compound_lost (gen : Bool) (a p : Str) (s : LangString) (hs : s.direction.isSome = true)
    (hl : ∀ l, s.language = some l → env.wellFormed l = true) :
    Output env ⟨some .compoundLiteral, gen⟩ (statement (.iri a) (.iri p) (.langString s))
      [⟨.iri a, .iri p, .id (env.gen 0), none⟩] := by
  have hw : s.language.all env.wellFormed = true := by
    cases h : s.language with
    | none => rfl
    | some l => exact hl l h
  obtain ⟨d, hd⟩ := Option.isSome_iff_exists.1 hs
  have := collects_doc (env := env) (opts := ⟨some .compoundLiteral, gen⟩)
    (statement (.iri a) (.iri p) (.langString s))
  have e : (emitAll env ⟨some .compoundLiteral, gen⟩
      (statements (statement (.iri a) (.iri p) (.langString s))) 0).1 =
      [⟨.iri a, .iri p, .id (env.gen 0), none⟩] := by
    simp [statements, statement, objsQuads, objQuads, nodeQuads, psQuads, valsQuads, rvQuads, incQuads,
      grQuads, emitAll, convert, Id.valid, QProp.rdf, Id.isBlank, QObj.rdf, Obj.rdf, Value.rdf, hw, langRdf,
      hd, objCells, subCells]
  rw [e] at this
  exact .expanded this

end

/-! ## Examples -/

/-- A generator of blank nodes, and every language tag well-formed but the empty one. -/
def exEnv : RdfEnv where
  wellFormed := fun l => !l.isEmpty
  printJson := fun _ => []
  isI64 := fun _ => true
  dtoa := id
  gen := fun k => .blank (List.replicate k 'b')

theorem exEnv_injective : Function.Injective exEnv.gen := by
  intro a b h
  injection h with h
  simpa using congrArg List.length h

/-- A string. -/
def exStr (s : String) : Obj := .value none (.literal (.str s.toList) none)

/-- A node with a list in a named graph; the list has a string, another list and a typed node, which
makes a statement itself. -/
def exLists : Doc :=
  [.node (.mk none (some (.iri "g".toList)) none (some
    [.node (.mk none (some (.iri "a".toList)) none none none
      [(.iri "p".toList, [.list none [exStr "x", .list none [exStr "y"],
        .node (.mk none (some (.iri "n".toList)) (some [.iri "T".toList]) none none [] none)]])] none)])
    none [] none)]

theorem exLists_statements : statements exLists =
    [⟨some (.iri "g".toList), .iri "a".toList, .ref (.iri "p".toList),
      .obj (.list none [exStr "x", .list none [exStr "y"],
        .node (.mk none (some (.iri "n".toList)) (some [.iri "T".toList]) none none [] none)])⟩,
     ⟨some (.iri "g".toList), .iri "n".toList, .type, .ref (.iri "T".toList)⟩] := rfl

/-- The hypotheses of C21 and C22 hold of it. -/
example : FreshFor exEnv exLists := by
  refine ⟨exEnv_injective, fun q hq k => ?_⟩
  rw [← mem_statements_iff, exLists_statements] at hq
  rcases List.mem_cons.1 hq with rfl | hq
  · simp [exEnv]
  · rw [List.mem_singleton.1 hq]; simp [exEnv]

/-- Its quads. -/
example : Output exEnv ⟨none, false⟩ exLists
    (let g := some (Id.iri "g".toList)
     let b := fun k => Id.blank (List.replicate k 'b')
     let str := fun s : String => Term.lit s.toList (.any (xsdNs "string"))
     [⟨.iri "a".toList, .iri "p".toList, .id (b 0), g⟩,
      ⟨b 0, rdfFirst, str "x", g⟩,
      ⟨b 0, rdfRest, .id (b 1), g⟩,
      ⟨b 1, rdfFirst, .id (b 2), g⟩,
      ⟨b 2, rdfFirst, str "y", g⟩,
      ⟨b 2, rdfRest, .id rdfNil, g⟩,
      ⟨b 1, rdfRest, .id (b 3), g⟩,
      ⟨b 3, rdfFirst, .id (.iri "n".toList), g⟩,
      ⟨b 3, rdfRest, .id rdfNil, g⟩,
      ⟨.iri "n".toList, rdfType, .id (.iri "T".toList), g⟩]) := by
  have := collects_doc (env := exEnv) (opts := ⟨none, false⟩) exLists
  rw [exLists_statements] at this
  exact .expanded this

/-- A list with an unnamed node in the middle. -/
def exBroken : Doc :=
  [.node (.mk none (some (.iri "a".toList)) none none none
    [(.iri "p".toList, [.list none [exStr "x", .node (.mk none none none none none [] none), exStr "y"]])]
    none)]

/-- C22 does not hold of all lists: an item without RDF value breaks the chain. Here the second cell
is never pointed to, and it has no `rdf:first`; the items after it cannot be reached. -/
theorem C22_broken : ∃ out, Output exEnv ⟨none, false⟩ exBroken out ∧ FreshFor exEnv exBroken ∧
    out =
      [⟨.iri "a".toList, .iri "p".toList, .id (exEnv.gen 0), none⟩,
       ⟨exEnv.gen 0, rdfFirst, .lit "x".toList (.any (xsdNs "string")), none⟩,
       ⟨exEnv.gen 1, rdfRest, .id (exEnv.gen 2), none⟩,
       ⟨exEnv.gen 2, rdfFirst, .lit "y".toList (.any (xsdNs "string")), none⟩,
       ⟨exEnv.gen 2, rdfRest, .id rdfNil, none⟩] := by
  refine ⟨_, .expanded (collects_doc _), ⟨exEnv_injective, fun q hq k => ?_⟩, by decide +kernel⟩
  rw [← mem_statements_iff] at hq
  have hq : q ∈ [_] := hq
  rw [List.mem_singleton.1 hq]
  simp [exEnv]

/-- A direction-tagged string: C23 is not vacuous. -/
example : (Value.langString ⟨"hi".toList, some "en".toList, some .rtl⟩).rdf exEnv (some .i18nDatatype) 0 =
    some (.lit "hi".toList (.any "https://www.w3.org/ns/i18n#en_rtl".toList), 0) := by decide +kernel

/-- A typed number, as in the hypotheses of `C47_literals`. -/
def exTypedNumber : Doc :=
  [.node (.mk none (some (.iri "a:s".toList)) none none none
    [(.iri "a:p".toList, [.value none (.literal (.num "1".toList) (some (xsdNs "double")))])] none)]

example : ∃ q, Asserts exTypedNumber q ∧ Stateable false q ∧
    q.object = .obj (.value none (.literal (.num "1".toList) (some (xsdNs "double")))) ∧
    ∀ text ty, LitForm exEnv (.literal (.num "1".toList) (some (xsdNs "double"))) text ty →
      text = exEnv.dtoa "1".toList ∧ ty = xsdNs "double" := by
  refine ⟨⟨none, .iri "a:s".toList, .ref (.iri "a:p".toList), _⟩,
    .property (.self (.top (List.mem_singleton.2 rfl))) rfl (List.mem_singleton.2 rfl)
      (List.mem_singleton.2 rfl), ⟨by simp, rfl, rfl, .inr rfl⟩, rfl, ?_⟩
  intro text ty h
  exact C47_unique h (.double (.inr rfl))

end JsonLd.Props
