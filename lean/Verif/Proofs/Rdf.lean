import Verif.Proofs.Quads
import Verif.Proofs.RdfList
/-!
# The quads of a document
-/

namespace JsonLd
open Spec

section
variable (env : RdfEnv) (opts : RdfOpts)

/-- The triples that come with the object of a statement. -/
def objCells : QObj → Option ListFrame → Nat → List Triple × Nat
  | .obj o, sub, n => subCells env opts.direction o sub n
  | _, _, n => ([], n)

/-- A triple in a graph. -/
def Triple.inGraph (t : Triple) (g : Option Id) : RQuad := ⟨t.subject, t.property, t.object, g⟩

/-- The quads of several statements. -/
def emitAll : List Quad → Nat → List RQuad × Nat
  | [], n => ([], n)
  | q :: qs, n =>
    match convert env opts n q with
    | none => emitAll qs n
    | some r =>
      let c := objCells env opts q.object r.2.1 r.2.2
      let e := emitAll qs c.2
      (r.1 :: (c.1.map (·.inGraph r.1.graph) ++ e.1), e.2)

/-! ## The iterator gives these quads -/

theorem rdfRest_det : Det (RdfRest env opts) := by
  intro s o o' h h'
  cases h with
  | done hn =>
    cases h' with
    | done hn' => rw [(hn.det quadLoop_det hn').2]
    | skip hn' _ => exact absurd (hn.det quadLoop_det hn').1 (by simp)
    | emit hn' _ => exact absurd (hn.det quadLoop_det hn').1 (by simp)
    | emitCompound hn' _ => exact absurd (hn.det quadLoop_det hn').1 (by simp)
  | skip hn hc =>
    cases h' with
    | done hn' => exact absurd (hn.det quadLoop_det hn').1 (by simp)
    | skip hn' _ => rw [(hn.det quadLoop_det hn').2]
    | emit hn' hc' =>
      cases (hn.det quadLoop_det hn').1
      rw [hc] at hc'; cases hc'
    | emitCompound hn' hc' =>
      cases (hn.det quadLoop_det hn').1
      rw [hc] at hc'; cases hc'
  | emit hn hc =>
    cases h' with
    | done hn' => exact absurd (hn.det quadLoop_det hn').1 (by simp)
    | skip hn' hc' =>
      cases (hn.det quadLoop_det hn').1
      rw [hc] at hc'; cases hc'
    | emit hn' hc' =>
      obtain ⟨h1, h2⟩ := hn.det quadLoop_det hn'
      cases h1
      rw [hc] at hc'; cases hc'; rw [h2]
    | emitCompound hn' hc' =>
      cases (hn.det quadLoop_det hn').1
      rw [hc] at hc'; cases hc'
  | emitCompound hn hc =>
    cases h' with
    | done hn' => exact absurd (hn.det quadLoop_det hn').1 (by simp)
    | skip hn' hc' =>
      cases (hn.det quadLoop_det hn').1
      rw [hc] at hc'; cases hc'
    | emit hn' hc' =>
      cases (hn.det quadLoop_det hn').1
      rw [hc] at hc'; cases hc'
    | emitCompound hn' hc' =>
      obtain ⟨h1, h2⟩ := hn.det quadLoop_det hn'
      cases h1
      rw [hc] at hc'; cases hc'; rw [h2]

theorem rdfLoop_det : Det (RdfLoop env opts) := by
  intro s o o' h h'
  have ld := listLoop_det env opts.direction
  cases h with
  | none hc hr =>
    cases h' with
    | none _ hr' => exact rdfRest_det env opts _ _ _ hr hr'
    | triple hc' _ _ => rw [hc] at hc'; cases hc'
    | skipped hc' _ _ _ => rw [hc] at hc'; cases hc'
    | finished hc' _ _ => rw [hc] at hc'; cases hc'
  | triple hc hn hb =>
    cases h' with
    | none hc' _ => rw [hc] at hc'; cases hc'
    | triple hc' hn' _ =>
      rw [hc] at hc'; cases hc'
      obtain ⟨h1, h2⟩ := hn.det ld hn'
      cases h1; rw [h2]
    | skipped hc' hn' hb' _ =>
      rw [hc] at hc'; cases hc'
      cases (hn.det ld hn').1
      rw [hb] at hb'; cases hb'
    | finished hc' hn' _ =>
      rw [hc] at hc'; cases hc'
      exact absurd (hn.det ld hn').1 (by simp)
  | skipped hc hn hb hr =>
    cases h' with
    | none hc' _ => rw [hc] at hc'; cases hc'
    | triple hc' hn' hb' =>
      rw [hc] at hc'; cases hc'
      cases (hn.det ld hn').1
      rw [hb] at hb'; cases hb'
    | skipped hc' hn' _ hr' =>
      rw [hc] at hc'; cases hc'
      obtain ⟨h1, h2⟩ := hn.det ld hn'
      subst h2
      exact rdfRest_det env opts _ _ _ hr hr'
    | finished hc' hn' _ =>
      rw [hc] at hc'; cases hc'
      exact absurd (hn.det ld hn').1 (by simp)
  | finished hc hn hr =>
    cases h' with
    | none hc' _ => rw [hc] at hc'; cases hc'
    | triple hc' hn' _ =>
      rw [hc] at hc'; cases hc'
      exact absurd (hn.det ld hn').1 (by simp)
    | skipped hc' hn' _ _ =>
      rw [hc] at hc'; cases hc'
      exact absurd (hn.det ld hn').1 (by simp)
    | finished hc' hn' hr' =>
      rw [hc] at hc'; cases hc'
      obtain ⟨_, h2⟩ := hn.det ld hn'
      subst h2
      exact rdfRest_det env opts _ _ _ hr hr'

variable {env opts}

/-- The rest of the quads, when a list is finished. -/
theorem collects_finish {g : Option Id} {st : List ListFrame} {p : Option Triple} {n : Nat}
    {ls : ListState} {fs : List Frame} {out : List RQuad} {s' : RdfState}
    (hn : Next (ListLoop env opts.direction) ⟨st, p, n⟩ none ls)
    (h : Collects (RdfLoop env opts) ⟨none, fs, ls.n⟩ out s') :
    Collects (RdfLoop env opts) ⟨some (g, st, p), fs, n⟩ out s' := by
  have wrap : ∀ o, RdfLoop env opts ⟨none, fs, ls.n⟩ o → RdfLoop env opts ⟨some (g, st, p), fs, n⟩ o := by
    intro o ho
    cases ho with
    | none _ hr => exact .finished rfl hn hr
    | triple hc _ _ => cases hc
    | skipped hc _ _ _ => cases hc
    | finished hc _ _ => cases hc
  have wrapN : ∀ r s, Next (RdfLoop env opts) ⟨none, fs, ls.n⟩ r s →
      Next (RdfLoop env opts) ⟨some (g, st, p), fs, n⟩ r s := by
    intro r s h
    cases h with
    | stop h => exact .stop (wrap _ h)
    | emit h => exact .emit (wrap _ h)
    | again h h' => exact .again (wrap _ h) h'
  cases h with
  | nil h => exact .nil (wrapN _ _ h)
  | cons h h' => exact .cons (wrapN _ _ h) h'

/-- The triples of a list, then the rest. -/
theorem collects_list {g : Option Id} {s : ListState} {ts : List Triple}
    {ls : ListState} {fs : List Frame} {out : List RQuad} {s' : RdfState}
    (hc : Collects (ListLoop env opts.direction) s ts ls)
    (hb : ∀ t ∈ ts, t.property.isBlank = false)
    (h : Collects (RdfLoop env opts) ⟨none, fs, ls.n⟩ out s') :
    Collects (RdfLoop env opts) ⟨some (g, s.stack, s.pending), fs, s.n⟩ (ts.map (·.inGraph g) ++ out) s' := by
  induction hc with
  | nil hn => exact collects_finish hn h
  | cons hn _ ih =>
    refine .cons (.emit (.triple rfl hn ?_)) (ih (fun t ht => hb t (List.mem_cons_of_mem _ ht)) h)
    rw [hb _ List.mem_cons_self]
    simp

theorem first_rest_not_blank {p : Id} (h : p = rdfFirst ∨ p = rdfRest) : p.isBlank = false := by
  rcases h with rfl | rfl <;> rfl

theorem convert_some {n : Nat} {q : Quad} {r : RQuad × Option ListFrame × Nat}
    (h : convert env opts n q = some r) :
    (∀ g, q.graph = some g → g.valid = true) ∧ q.subject.valid = true ∧
      (property q.property).valid = true ∧
      (opts.generalized = true ∨ (property q.property).isBlank = false) ∧
      q.object.rdf env opts.direction n = some (r.1.object, r.2) ∧
      r.1.subject = q.subject ∧ r.1.property = property q.property ∧ r.1.graph = q.graph := by
  unfold convert at h
  split at h
  · rename_i hv
    rw [Bool.and_eq_true] at hv
    have hp : ∀ p, q.property.rdf = some p → p = property q.property ∧ (property q.property).valid = true := by
      intro p hp
      cases hq : q.property with
      | type => rw [hq] at hp; cases hp; exact ⟨rfl, rfl⟩
      | ref i =>
        rw [hq, QProp.rdf] at hp
        split at hp
        · cases hp; exact ⟨rfl, by assumption⟩
        · cases hp
    split at h
    · cases h
    · rename_i p hpe
      obtain ⟨rfl, hpv⟩ := hp p hpe
      split at h
      · cases h
      · rename_i hb
        split at h
        · cases h
        · rename_i t sub n' ho
          cases h
          refine ⟨?_, hv.2, hpv, ?_, ho, rfl, rfl, rfl⟩
          · intro g hg
            have := hv.1
            rw [hg] at this
            exact this
          · cases hgen : opts.generalized with
            | true => exact .inl rfl
            | false =>
              refine .inr ?_
              rw [hgen] at hb
              simpa using hb
  · cases h

theorem convert_of {n : Nat} {q : Quad} {x : Term × Option ListFrame × Nat}
    (hs : Stateable opts.generalized q) (ho : q.object.rdf env opts.direction n = some x) :
    convert env opts n q = some (⟨q.subject, property q.property, x.1, q.graph⟩, x.2) := by
  obtain ⟨h1, h2, h3, h4⟩ := hs
  unfold convert
  have hg : q.graph.all Id.valid = true := by
    cases hgr : q.graph with
    | none => rfl
    | some g => exact h1 g hgr
  have hp : q.property.rdf = some (property q.property) := by
    cases hq : q.property with
    | type => rfl
    | ref i =>
      rw [hq] at h3
      rw [QProp.rdf]
      exact if_pos h3
  rw [hg, h2, hp, ho]
  rcases h4 with h4 | h4
  · simp [h4]
  · simp [h4]

/-- The triples coming with an object use identifiers generated in between. -/
theorem objCells_bound {q : QObj} {n : Nat} {x : Term × Option ListFrame × Nat}
    (h : q.rdf env opts.direction n = some x) :
    n ≤ x.2.2 ∧ x.2.2 ≤ (objCells env opts q x.2.1 x.2.2).2 ∧
      ∀ t ∈ (objCells env opts q x.2.1 x.2.2).1,
        Gen env n (objCells env opts q x.2.1 x.2.2).2 t.subject ∧
        (t.property = rdfFirst ∨ t.property = rdfRest) := by
  cases q with
  | obj o => exact sub_bound.1 o n x h
  | node m =>
    simp only [QObj.rdf, Option.map_eq_some_iff] at h
    obtain ⟨_, _, rfl⟩ := h
    exact ⟨Nat.le_refl _, Nat.le_refl _, by intro t ht; cases ht⟩
  | ref i =>
    simp only [QObj.rdf, Option.map_eq_some_iff] at h
    obtain ⟨_, _, rfl⟩ := h
    exact ⟨Nat.le_refl _, Nat.le_refl _, by intro t ht; cases ht⟩

theorem objCells_none (q : QObj) (n : Nat) : objCells env opts q none n = ([], n) := by
  cases q with
  | obj o => cases o <;> simp [objCells, subCells]
  | node => rfl
  | ref => rfl

/-- The iterator gives the quads of the statements. -/
theorem collects_emitAll {fs fs' : List Frame} {qs : List Quad} (h : Collects QuadLoop fs qs fs') (n : Nat) :
    Collects (RdfLoop env opts) ⟨none, fs, n⟩ (emitAll env opts qs n).1
      ⟨none, fs', (emitAll env opts qs n).2⟩ := by
  induction h generalizing n with
  | nil hn => exact .nil (.stop (.none rfl (.done hn)))
  | cons hn _ ih =>
    rename_i fs fs1 fs2 q qs _
    rw [emitAll]
    cases hc : convert env opts n q with
    | none =>
      exact .again (.none rfl (.skip (s := ⟨none, fs, n⟩) hn hc)) (ih n)
    | some r =>
      obtain ⟨r, sub, n'⟩ := r
      cases sub with
      | none =>
        simp only [objCells_none, List.map_nil, List.nil_append]
        exact .cons (.emit (.none rfl (.emit (s := ⟨none, fs, n⟩) hn hc))) (ih n')
      | some f =>
        refine .cons (.emit (.none rfl (.emitCompound (s := ⟨none, fs, n⟩) hn hc))) ?_
        obtain ⟨_, _, _, _, ho, _⟩ := convert_some hc
        have hb := objCells_bound ho
        cases hq : q.object with
        | obj o =>
          rw [hq] at ho hb
          have hl := list_collects env opts.direction (o := o) (n := n) (t := r.object) (f := f) (n' := n') ho
          exact collects_list (s := f.start n') hl (fun t ht => first_rest_not_blank (hb.2.2 t ht).2) (ih _)
        | node m =>
          rw [hq] at ho
          simp only [QObj.rdf, Option.map_eq_some_iff] at ho
          obtain ⟨_, _, ho⟩ := ho
          cases ho
        | ref i =>
          rw [hq] at ho
          simp only [QObj.rdf, Option.map_eq_some_iff] at ho
          obtain ⟨_, _, ho⟩ := ho
          cases ho

theorem collects_doc (d : Doc) : Collects (RdfLoop env opts) d.rdfInit (emitAll env opts (statements d) 0).1
    ⟨none, [], (emitAll env opts (statements d) 0).2⟩ :=
  collects_emitAll (collects_of_steps_nil (quads_steps d)) 0

/-! ## What the quads are -/

theorem emitAll_bound (qs : List Quad) (n : Nat) : n ≤ (emitAll env opts qs n).2 ∧
    ∀ r ∈ (emitAll env opts qs n).1, (∃ q ∈ qs, r.subject = q.subject) ∨
      Gen env n (emitAll env opts qs n).2 r.subject := by
  induction qs generalizing n with
  | nil => exact ⟨Nat.le_refl _, by intro r hr; cases hr⟩
  | cons q qs ih =>
    rw [emitAll]
    cases hc : convert env opts n q with
    | none =>
      obtain ⟨h1, h2⟩ := ih n
      refine ⟨h1, fun r hr => ?_⟩
      rcases h2 r hr with ⟨q', hq', h⟩ | h
      · exact .inl ⟨q', List.mem_cons_of_mem _ hq', h⟩
      · exact .inr h
    | some x =>
      obtain ⟨_, _, _, _, ho, hs, _⟩ := convert_some hc
      obtain ⟨b1, b2, b3⟩ := objCells_bound ho
      simp only at b1 b2 b3 ⊢
      obtain ⟨h1, h2⟩ := ih (objCells env opts q.object x.2.1 x.2.2).2
      refine ⟨by omega, fun r hr => ?_⟩
      rcases List.mem_cons.1 hr with rfl | hr
      · exact .inl ⟨q, List.mem_cons_self, hs⟩
      · rcases List.mem_append.1 hr with hr | hr
        · obtain ⟨t, ht, rfl⟩ := List.mem_map.1 hr
          exact .inr ((b3 t ht).1.mono (Nat.le_refl _) h1)
        · rcases h2 r hr with ⟨q', hq', h⟩ | h
          · exact .inl ⟨q', List.mem_cons_of_mem _ hq', h⟩
          · exact .inr (h.mono (by omega) (Nat.le_refl _))

/-- How one statement is found in the output: its quad is there, and its list has its own part of the
identifiers. -/
structure Placed (env : RdfEnv) (opts : RdfOpts) (q : Quad) (lo hi : Nat) (out : List RQuad)
    (n : Nat) (x : RQuad × Option ListFrame × Nat) : Prop where
  conv : convert env opts n q = some x
  lo : lo ≤ n
  hi : (objCells env opts q.object x.2.1 x.2.2).2 ≤ hi
  mem : x.1 ∈ out
  own : ∀ s p t, Gen env n (objCells env opts q.object x.2.1 x.2.2).2 s →
    ((⟨s, p, t, q.graph⟩ : RQuad) ∈ out ↔ (⟨s, p, t⟩ : Triple) ∈ (objCells env opts q.object x.2.1 x.2.2).1)

theorem convertible_any {q : Quad} {n : Nat} {x : RQuad × Option ListFrame × Nat}
    (h : convert env opts n q = some x) (m : Nat) : ∃ y, convert env opts m q = some y := by
  obtain ⟨h1, h2, h3, h4, ho, _⟩ := convert_some h
  have : ∃ y, q.object.rdf env opts.direction m = some y := by
    cases hq : q.object with
    | obj o =>
      rw [hq] at ho
      cases o with
      | value i v =>
        cases v with
        | literal => exact ⟨_, rfl⟩
        | json => exact ⟨_, rfl⟩
        | langString s =>
          simp only [QObj.rdf, Obj.rdf, Value.rdf] at ho ⊢
          split at ho
          · rename_i hw
            exact ⟨_, by rw [if_pos hw]; rfl⟩
          · cases ho
      | list i l => cases l with
        | nil => exact ⟨_, rfl⟩
        | cons => exact ⟨_, rfl⟩
      | node nd =>
        simp only [QObj.rdf, Obj.rdf, Option.map_eq_some_iff] at ho ⊢
        obtain ⟨a, ha, _⟩ := ho
        exact ⟨_, a, ha, rfl⟩
    | node nd =>
      rw [hq] at ho
      simp only [QObj.rdf, Option.map_eq_some_iff] at ho ⊢
      obtain ⟨a, ha, _⟩ := ho
      exact ⟨_, a, ha, rfl⟩
    | ref i =>
      rw [hq] at ho
      simp only [QObj.rdf, Option.map_eq_some_iff] at ho ⊢
      obtain ⟨a, ha, _⟩ := ho
      exact ⟨_, a, ha, rfl⟩
  obtain ⟨y, hy⟩ := this
  exact ⟨_, convert_of ⟨h1, h2, h3, h4⟩ hy⟩

/-- Every statement that can be converted has its place. -/
theorem placed_of_mem (hinj : Function.Injective env.gen) {qs : List Quad}
    (hfresh : ∀ q ∈ qs, ∀ k, q.subject ≠ env.gen k) {q : Quad} (hq : q ∈ qs) (n m : Nat)
    {y : RQuad × Option ListFrame × Nat} (hy : convert env opts m q = some y) :
    ∃ k x, Placed env opts q n (emitAll env opts qs n).2 (emitAll env opts qs n).1 k x := by
  induction qs generalizing n with
  | nil => cases hq
  | cons q' qs ih =>
    have hf' : ∀ q ∈ qs, ∀ k, q.subject ≠ env.gen k := fun x hx => hfresh x (List.mem_cons_of_mem _ hx)
    rw [emitAll]
    cases hc : convert env opts n q' with
    | none =>
      rcases List.mem_cons.1 hq with rfl | hq
      · obtain ⟨z, hz⟩ := convertible_any hy n
        rw [hc] at hz; cases hz
      · exact ih hf' hq n
    | some x =>
      obtain ⟨_, _, _, _, ho, hs, _, hg⟩ := convert_some hc
      obtain ⟨b1, b2, b3⟩ := objCells_bound ho
      simp only at b1 b2 b3 ⊢
      have eb := emitAll_bound (env := env) (opts := opts) qs (objCells env opts q'.object x.2.1 x.2.2).2
      rcases List.mem_cons.1 hq with rfl | hq
      · refine ⟨n, x, hc, Nat.le_refl _, eb.1, List.mem_cons_self, ?_⟩
        intro s p t hgen
        obtain ⟨k, k1, k2, rfl⟩ := hgen
        constructor
        · intro h
          rcases List.mem_cons.1 h with h | h
          · exact absurd (congrArg RQuad.subject h).symm (by rw [hs]; exact hfresh q List.mem_cons_self k)
          · rcases List.mem_append.1 h with h | h
            · obtain ⟨⟨a, b, c⟩, ht', e⟩ := List.mem_map.1 h
              injection e with e1 e2 e3
              simp only at e1 e2 e3
              rw [← e1, ← e2, ← e3]
              exact ht'
            · rcases eb.2 _ h with ⟨q2, hq2, e⟩ | ⟨j, j1, _, e⟩
              · exact absurd e.symm (hf' q2 hq2 k)
              · have := hinj e
                omega
        · intro h
          rw [← hg]
          exact List.mem_cons_of_mem _ (List.mem_append_left _ (List.mem_map.2 ⟨_, h, rfl⟩))
      · obtain ⟨k, z, hz⟩ := ih hf' hq (objCells env opts q'.object x.2.1 x.2.2).2
        obtain ⟨_, _, _, _, ho2, _⟩ := convert_some hz.conv
        have zb := objCells_bound ho2
        simp only at zb
        refine ⟨k, z, hz.conv, ?_, hz.hi, ?_, ?_⟩
        · have := hz.lo; omega
        · exact List.mem_cons_of_mem _ (List.mem_append_right _ hz.mem)
        · intro s p t hgen
          rw [← hz.own s p t hgen]
          obtain ⟨j, j1, j2, rfl⟩ := hgen
          constructor
          · intro h
            rcases List.mem_cons.1 h with h | h
            · exact absurd (congrArg RQuad.subject h).symm (by rw [hs]; exact hfresh q' List.mem_cons_self j)
            · rcases List.mem_append.1 h with h | h
              · obtain ⟨t', ht', e⟩ := List.mem_map.1 h
                obtain ⟨i, _, i2, e1⟩ := (b3 t' ht').1
                have e' : t'.subject = env.gen j := congrArg RQuad.subject e
                have := hinj (e'.symm.trans e1)
                have := hz.lo
                omega
              · exact h
          · intro h
            exact List.mem_cons_of_mem _ (List.mem_append_right _ h)

/-- The object of a placed statement stands for what it should. -/
theorem Placed.denotes (hinj : Function.Injective env.gen) {q : Quad} {lo hi : Nat} {out : List RQuad}
    {n : Nat} {x : RQuad × Option ListFrame × Nat} (h : Placed env opts q lo hi out n x)
    (hr : RepresentableObj env q.object) :
    DenotesObj env opts.direction (fun s p t => (⟨s, p, t, q.graph⟩ : RQuad) ∈ out) q.object x.1.object := by
  obtain ⟨_, _, _, _, ho, _⟩ := convert_some h.conv
  have own := h.own
  cases hq : q.object with
  | obj o =>
    rw [hq] at ho hr own
    exact (sub_denotes hinj).1 o hr n _ ho _ own
  | node m =>
    rw [hq] at ho hr
    obtain ⟨id, hid, hv⟩ := hr
    refine ⟨id, hid, hv, ?_⟩
    simp only [QObj.rdf, Option.map_eq_some_iff] at ho
    obtain ⟨a, ha, e⟩ := ho
    have : a = .id id := by cases id <;> simp_all [Node.rdfValue, Id.rdfValue, Id.valid]
    rw [← this]
    exact (congrArg Prod.fst e).symm
  | ref i =>
    rw [hq] at ho hr
    refine ⟨hr, ?_⟩
    have hi : i.valid = true := hr
    simp only [QObj.rdf, Option.map_eq_some_iff] at ho
    obtain ⟨a, ha, e⟩ := ho
    have : a = .id i := by cases i <;> simp_all [Id.rdfValue, Id.valid]
    rw [← this]
    exact (congrArg Prod.fst e).symm

theorem representableObj_rdf {q : QObj} (h : RepresentableObj env q) (n : Nat) :
    ∃ x, q.rdf env opts.direction n = some x := by
  cases q with
  | obj o => exact representable_rdf h n
  | node m =>
    obtain ⟨id, hid, hv⟩ := h
    cases id with
    | invalid s => cases hv
    | iri s => exact ⟨_, by simp only [QObj.rdf, Node.rdfValue, hid, Id.rdfValue, Option.bind_some, Option.map_some]; rfl⟩
    | blank s => exact ⟨_, by simp only [QObj.rdf, Node.rdfValue, hid, Id.rdfValue, Option.bind_some, Option.map_some]; rfl⟩
  | ref i =>
    cases i with
    | invalid s => cases h
    | iri s => exact ⟨_, rfl⟩
    | blank s => exact ⟨_, rfl⟩

/-- Where a quad comes from. -/
theorem emitAll_source {qs : List Quad} {n : Nat} {r : RQuad} (h : r ∈ (emitAll env opts qs n).1) :
    ∃ q ∈ qs, ∃ k x, convert env opts k q = some x ∧ (r = x.1 ∨
      ∃ t ∈ (objCells env opts q.object x.2.1 x.2.2).1, r = t.inGraph q.graph) := by
  induction qs generalizing n with
  | nil => cases h
  | cons q qs ih =>
    rw [emitAll] at h
    cases hc : convert env opts n q with
    | none =>
      rw [hc] at h
      obtain ⟨q', hq', e⟩ := ih h
      exact ⟨q', List.mem_cons_of_mem _ hq', e⟩
    | some x =>
      rw [hc] at h
      obtain ⟨_, _, _, _, _, _, _, hg⟩ := convert_some hc
      rcases List.mem_cons.1 h with rfl | h
      · exact ⟨q, List.mem_cons_self, n, x, hc, .inl rfl⟩
      · rcases List.mem_append.1 h with h | h
        · obtain ⟨t, ht, rfl⟩ := List.mem_map.1 h
          exact ⟨q, List.mem_cons_self, n, x, hc, .inr ⟨t, ht, by rw [hg]⟩⟩
        · obtain ⟨q', hq', e⟩ := ih h
          exact ⟨q', List.mem_cons_of_mem _ hq', e⟩

theorem collects_flat (f : List Node) :
    Collects (RdfLoop env opts) (flatRdfInit f) (emitAll env opts (statements (f.map Obj.node)) 0).1
    ⟨none, [], (emitAll env opts (statements (f.map Obj.node)) 0).2⟩ := by
  have e : statements (f.map Obj.node) = nodesQuads none f := by
    unfold statements
    induction f with
    | nil => rfl
    | cons n f ih => simp only [List.map_cons, objsQuads, objQuads, nodesQuads, ih]
  rw [e]
  exact collects_emitAll (collects_of_steps_nil (flat_steps f)) 0

/-! ## Well-formed terms -/

/-- A term with a valid identifier or a well-formed language tag. -/
def GoodTerm (env : RdfEnv) : Term → Prop
  | .id i => i.valid = true
  | .lit _ (.lang l) => env.wellFormed l = true
  | .lit _ (.any _) => True

theorem langLit_good {s : Str} {l : Option Str} (h : l.all env.wellFormed = true) :
    GoodTerm env (langLit s l) := by
  cases l with
  | none => trivial
  | some l => exact h

theorem obj_good (hgen : ∀ k, (env.gen k).valid = true) {dir : Option RdfDirection} {o : Obj} {n : Nat}
    {x : Term × Option ListFrame × Nat} (h : o.rdf env dir n = some x) : GoodTerm env x.1 := by
  cases o with
  | value i v =>
    simp only [Obj.rdf, Option.map_eq_some_iff] at h
    obtain ⟨y, hy, rfl⟩ := h
    cases v with
    | literal l ty => cases hy; trivial
    | json j => cases hy; trivial
    | langString s =>
      rw [Value.rdf] at hy
      split at hy
      · rename_i hw
        cases hy
        simp only [langRdf]
        split
        · split
          · trivial
          · exact hgen _
          · exact langLit_good hw
        · exact langLit_good hw
      · cases hy
  | list i l =>
    cases l with
    | nil => cases h; rfl
    | cons => cases h; exact hgen _
  | node m =>
    simp only [Obj.rdf, Option.map_eq_some_iff, Node.rdfValue, Option.bind_eq_some_iff] at h
    obtain ⟨y, ⟨id, _, hid⟩, rfl⟩ := h
    cases id with
    | invalid s => cases hid
    | iri s => cases hid; rfl
    | blank s => cases hid; rfl

theorem qobj_good (hgen : ∀ k, (env.gen k).valid = true) {o : QObj} {n : Nat} {dir : Option RdfDirection}
    {x : Term × Option ListFrame × Nat} (h : o.rdf env dir n = some x) : GoodTerm env x.1 := by
  cases o with
  | obj o => exact obj_good hgen h
  | node m => exact obj_good (o := .node m) (dir := dir) hgen h
  | ref i =>
    simp only [QObj.rdf, Option.map_eq_some_iff] at h
    obtain ⟨y, hid, rfl⟩ := h
    cases i with
    | invalid s => cases hid
    | iri s => cases hid; rfl
    | blank s => cases hid; rfl

/-- Nested lists give good terms. -/
def SubGood (env : RdfEnv) (dir : Option RdfDirection) (o : Obj) : Prop :=
  ∀ n r, o.rdf env dir n = some r → ∀ t ∈ (subCells env dir o r.2.1 r.2.2).1, GoodTerm env t.object

theorem cells_good (hgen : ∀ k, (env.gen k).valid = true) {dir : Option RdfDirection} {l : List Obj}
    (h : ∀ o ∈ l, SubGood env dir o) (prev head : Option Id) (hh : ∀ i ∈ head, i.valid = true) (n : Nat) :
    ∀ t ∈ (cells env dir l prev head n).1, GoodTerm env t.object := by
  induction l generalizing prev head n with
  | nil =>
    intro t ht
    cases prev with
    | none => cases ht
    | some p => rw [List.mem_singleton.1 ht]; rfl
  | cons o l ih =>
    have ih' := ih fun x hx => h x (List.mem_cons_of_mem _ hx)
    have hc : (cellId env head n).1.valid = true := by
      cases head with
      | none => exact hgen _
      | some i => exact hh i rfl
    rw [cells]
    cases hr : o.rdf env dir (cellId env head n).2 with
    | none => exact ih' _ _ (by intro i hi; cases hi) _
    | some r =>
      intro t ht
      simp only at ht
      rcases List.mem_append.1 ht with ht | ht
      · cases prev with
        | none => cases ht
        | some p => rw [List.mem_singleton.1 ht]; exact hc
      · rcases List.mem_cons.1 ht with rfl | ht
        · exact obj_good hgen hr
        · rcases List.mem_append.1 ht with ht | ht
          · exact h o List.mem_cons_self _ r hr t ht
          · exact ih' _ _ (by intro i hi; cases hi) _ t ht

theorem sub_good (hgen : ∀ k, (env.gen k).valid = true) {dir : Option RdfDirection} :
    (∀ o, SubGood env dir o) ∧ (∀ _ : Node, True) := by
  apply Doc.ind
  · intro i v n r h t ht
    cases ht
  · intro i l ih n r h
    cases l with
    | nil => cases h; intro t ht; cases ht
    | cons o l =>
      cases h
      exact cells_good hgen ih _ _ (by intro i hi; cases hi; exact hgen _) _
  · intro m _ n r h t ht
    cases ht
  · intros; trivial

theorem objCells_good (hgen : ∀ k, (env.gen k).valid = true) {q : QObj} {n : Nat}
    {x : Term × Option ListFrame × Nat} (h : q.rdf env opts.direction n = some x) :
    ∀ t ∈ (objCells env opts q x.2.1 x.2.2).1, GoodTerm env t.object := by
  cases q with
  | obj o => exact (sub_good hgen).1 o n x h
  | node m => intro t ht; cases ht
  | ref i => intro t ht; cases ht

/-! ## Each statement once -/

/-- The subject, property and graph of a quad. -/
def RQuad.key (r : RQuad) : Id × Id × Option Id := (r.subject, r.property, r.graph)

/-- The subject, property and graph of a statement. -/
def Quad.key (q : Quad) : Id × Id × Option Id := (q.subject, Spec.property q.property, q.graph)

open Classical in
theorem emitAll_keys (qs : List Quad) (n : Nat) (hfresh : ∀ q ∈ qs, ∀ k, q.subject ≠ env.gen k) :
    ((emitAll env opts qs n).1.filter fun r => decide (∀ k, r.subject ≠ env.gen k)).map RQuad.key =
      (qs.filter fun q => decide (∃ x, convert env opts 0 q = some x)).map Quad.key := by
  induction qs generalizing n with
  | nil => rfl
  | cons q qs ih =>
    have hf' : ∀ q ∈ qs, ∀ k, q.subject ≠ env.gen k := fun x hx => hfresh x (List.mem_cons_of_mem _ hx)
    rw [emitAll]
    cases hc : convert env opts n q with
    | none =>
      have : ¬ ∃ x, convert env opts 0 q = some x := by
        rintro ⟨x, hx⟩
        obtain ⟨y, hy⟩ := convertible_any hx n
        rw [hc] at hy; cases hy
      rw [List.filter_cons_of_neg (by simpa using this)]
      exact ih n hf'
    | some x =>
      obtain ⟨_, _, _, _, ho, hs, hp, hg⟩ := convert_some hc
      have hb := (objCells_bound ho).2.2
      have h1 : decide (∃ x, convert env opts 0 q = some x) = true := decide_eq_true (convertible_any hc 0)
      have h2 : decide (∀ k, x.1.subject ≠ env.gen k) = true :=
        decide_eq_true (by rw [hs]; exact hfresh q List.mem_cons_self)
      simp only [List.filter_cons, h1, h2, if_true, List.filter_append]
      have hnil : (((objCells env opts q.object x.2.1 x.2.2).1.map (·.inGraph x.1.graph)).filter
          fun r => decide (∀ k, r.subject ≠ env.gen k)) = [] := by
        rw [List.filter_eq_nil_iff]
        intro r hr
        obtain ⟨t, ht, rfl⟩ := List.mem_map.1 hr
        obtain ⟨k, _, _, e⟩ := (hb t ht).1
        simp only [decide_eq_true_eq]
        intro h
        exact h k e
      rw [hnil, List.nil_append, List.map_cons, List.map_cons, ih _ hf']
      congr 1
      simp only [RQuad.key, Quad.key, hs, hp, hg]

/-- Which statements can be converted. -/
theorem convertible_iff {q : Quad} {n : Nat} : (∃ x, convert env opts n q = some x) ↔
    Stateable opts.generalized q ∧
      (RepresentableObj env q.object ∨ ∃ i l, q.object = .obj (.list i l)) := by
  constructor
  · rintro ⟨x, hx⟩
    obtain ⟨h1, h2, h3, h4, ho, _⟩ := convert_some hx
    refine ⟨⟨h1, h2, h3, h4⟩, ?_⟩
    have hnode : ∀ m : Node, m.rdfValue.map (fun t => ((t, none, n) : Term × Option ListFrame × Nat)) =
        some (x.1.object, x.2) → ∃ id, m.id = some id ∧ id.valid = true := by
      intro m hm
      simp only [Option.map_eq_some_iff, Node.rdfValue, Option.bind_eq_some_iff] at hm
      obtain ⟨y, ⟨id, hid, hv⟩, _⟩ := hm
      refine ⟨id, hid, ?_⟩
      cases id with
      | invalid s => cases hv
      | iri s => rfl
      | blank s => rfl
    cases hq : q.object with
    | obj o =>
      rw [hq] at ho
      cases o with
      | list i l => exact .inr ⟨i, l, rfl⟩
      | node m => exact .inl (hnode m ho)
      | value i v =>
        refine .inl ?_
        cases v with
        | literal => exact trivial
        | json => exact trivial
        | langString s =>
          intro l hl
          simp only [QObj.rdf, Obj.rdf, Value.rdf, hl, Option.all_some] at ho
          split at ho
          · assumption
          · cases ho
    | node m => rw [hq] at ho; exact .inl (hnode m ho)
    | ref i =>
      rw [hq] at ho
      refine .inl ?_
      cases i with
      | invalid s => cases ho
      | iri s => rfl
      | blank s => rfl
  · rintro ⟨hs, h | ⟨i, l, h⟩⟩
    · obtain ⟨y, hy⟩ := representableObj_rdf (opts := opts) h n
      exact ⟨_, convert_of hs hy⟩
    · have : ∃ y, q.object.rdf env opts.direction n = some y := by
        rw [h]
        cases l with
        | nil => exact ⟨_, rfl⟩
        | cons => exact ⟨_, rfl⟩
      obtain ⟨y, hy⟩ := this
      exact ⟨_, convert_of hs hy⟩

end
end JsonLd
