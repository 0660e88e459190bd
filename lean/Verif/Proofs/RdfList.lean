import Verif.Spec.Rdf
/-!
# The triples of lists
-/

namespace JsonLd
open Spec

section
variable (env : RdfEnv) (dir : Option RdfDirection)

/-- The identifier of the next cell. -/
def cellId (env : RdfEnv) (head : Option Id) (n : Nat) : Id × Nat :=
  match head with
  | some id => (id, n)
  | none => (env.gen n, n + 1)

mutual
/-- The triples of the rest of a list, from the cell `previous` on. -/
def cells : List Obj → Option Id → Option Id → Nat → List Triple × Nat
  | [], prev, _, n => (prev.toList.map fun p => ⟨p, rdfRest, .id rdfNil⟩, n)
  | o :: l, prev, head, n =>
    match o.rdf env dir (cellId env head n).2 with
    | none => cells l (some (cellId env head n).1) none (cellId env head n).2
    | some r =>
      let a := subCells o r.2.1 r.2.2
      let b := cells l (some (cellId env head n).1) none a.2
      (prev.toList.map (fun p => ⟨p, rdfRest, .id (cellId env head n).1⟩) ++
        ⟨(cellId env head n).1, rdfFirst, r.1⟩ :: (a.1 ++ b.1), b.2)
/-- The triples of a list inside a list. -/
def subCells : Obj → Option ListFrame → Nat → List Triple × Nat
  | .list _ l, some f, n => cells l f.previous f.headRef n
  | _, _, n => ([], n)
end

theorem listLoop_det : Det (ListLoop env dir) := by
  intro s o o' h h'
  rw [ListLoop] at h h'
  rw [← h, ← h']

/-- The iterator gives the triples of a nested list. -/
def SubSteps (o : Obj) : Prop := ∀ n r st, o.rdf env dir n = some r →
  Steps (ListLoop env dir) ⟨r.2.1.toList ++ st, none, r.2.2⟩ (subCells env dir o r.2.1 r.2.2).1
    ⟨st, none, (subCells env dir o r.2.1 r.2.2).2⟩

theorem list_steps {l : List Obj} (h : ∀ o ∈ l, SubSteps env dir o) (prev head : Option Id) (n : Nat)
    (st : List ListFrame) : Steps (ListLoop env dir) ⟨⟨head, prev, l⟩ :: st, none, n⟩
      (cells env dir l prev head n).1 ⟨st, none, (cells env dir l prev head n).2⟩ := by
  induction l generalizing prev head n with
  | nil =>
    cases prev with
    | none => exact .again rfl .refl
    | some p => exact .emit rfl .refl
  | cons o l ih =>
    have ih' := ih fun x hx => h x (List.mem_cons_of_mem _ hx)
    have key : listStep env dir ⟨⟨head, prev, o :: l⟩ :: st, none, n⟩ =
        match o.rdf env dir (cellId env head n).2 with
        | none => .again ⟨⟨none, some (cellId env head n).1, l⟩ :: st, none, (cellId env head n).2⟩
        | some r => match prev with
          | some p => .emit ⟨p, rdfRest, .id (cellId env head n).1⟩
              ⟨r.2.1.toList ++ ⟨none, some (cellId env head n).1, l⟩ :: st,
                some ⟨(cellId env head n).1, rdfFirst, r.1⟩, r.2.2⟩
          | none => .again ⟨r.2.1.toList ++ ⟨none, some (cellId env head n).1, l⟩ :: st,
                some ⟨(cellId env head n).1, rdfFirst, r.1⟩, r.2.2⟩ := by
      cases head with
      | none =>
        simp only [listStep, cellId]
        cases o.rdf env dir (n + 1) with
        | none => rfl
        | some r => rfl
      | some id =>
        simp only [listStep, cellId]
        cases o.rdf env dir n with
        | none => rfl
        | some r => rfl
    cases hr : o.rdf env dir (cellId env head n).2 with
    | none =>
      rw [hr] at key
      have e : cells env dir (o :: l) prev head n =
          cells env dir l (some (cellId env head n).1) none (cellId env head n).2 := by
        rw [cells, hr]
      rw [e]
      exact .again key (ih' _ _ _)
    | some r =>
      rw [hr] at key
      rw [cells, hr]
      have hp : Steps (ListLoop env dir)
          ⟨r.2.1.toList ++ ⟨none, some (cellId env head n).1, l⟩ :: st,
            some ⟨(cellId env head n).1, rdfFirst, r.1⟩, r.2.2⟩
          (⟨(cellId env head n).1, rdfFirst, r.1⟩ :: ((subCells env dir o r.2.1 r.2.2).1 ++
            (cells env dir l (some (cellId env head n).1) none (subCells env dir o r.2.1 r.2.2).2).1))
          ⟨st, none,
            (cells env dir l (some (cellId env head n).1) none (subCells env dir o r.2.1 r.2.2).2).2⟩ :=
        .emit rfl ((h o List.mem_cons_self _ r _ hr).trans (ih' _ _ _))
      cases prev with
      | none => exact .again key hp
      | some p => exact .emit key hp

theorem sub_steps : (∀ o, SubSteps env dir o) ∧ (∀ _ : Node, True) := by
  apply Doc.ind
  · intro i v n r st h
    simp only [Obj.rdf, Option.map_eq_some_iff] at h
    obtain ⟨x, _, rfl⟩ := h
    exact .refl
  · intro i l ih n r st h
    cases l with
    | nil => cases h; exact .refl
    | cons o l => cases h; exact list_steps env dir ih _ _ _ _
  · intro m _ n r st h
    simp only [Obj.rdf, Option.map_eq_some_iff] at h
    obtain ⟨x, _, rfl⟩ := h
    exact .refl
  · intros; trivial

/-- The triples of a list given by `Object::rdf_value_with`. -/
theorem list_collects {o : Obj} {n : Nat} {t : Term} {f : ListFrame} {n' : Nat}
    (h : o.rdf env dir n = some (t, some f, n')) :
    Collects (ListLoop env dir) (f.start n') (subCells env dir o (some f) n').1
      ⟨[], none, (subCells env dir o (some f) n').2⟩ := by
  have := Collects.of_steps ((sub_steps env dir).1 o n _ [] h) (.nil (.stop rfl))
  simpa [ListFrame.start] using this

/-! ## What the triples look like -/

variable {env dir}

theorem Value.rdf_le {v : Value} {n : Nat} {r : Term × Nat} (h : v.rdf env dir n = some r) :
    n ≤ r.2 := by
  cases v with
  | json j => cases h; exact Nat.le_refl _
  | literal l ty => cases h; exact Nat.le_refl _
  | langString s =>
    rw [Value.rdf] at h
    split at h
    · cases h
      rw [langRdf]
      split
      · split <;> simp
      · simp
    · cases h

/-- The identifiers used are among those generated in between. -/
def Gen (env : RdfEnv) (n n' : Nat) (i : Id) : Prop := ∃ k, n ≤ k ∧ k < n' ∧ i = env.gen k

theorem Gen.mono {a b a' b' : Nat} {i : Id} (h : Gen env a b i) (ha : a' ≤ a) (hb : b ≤ b') :
    Gen env a' b' i := by
  obtain ⟨k, h1, h2, h3⟩ := h
  exact ⟨k, by omega, by omega, h3⟩

/-- The triples of a nested list use identifiers generated in between. -/
def SubBound (env : RdfEnv) (dir : Option RdfDirection) (o : Obj) : Prop :=
  ∀ n r, o.rdf env dir n = some r → n ≤ r.2.2 ∧ r.2.2 ≤ (subCells env dir o r.2.1 r.2.2).2 ∧
    ∀ t ∈ (subCells env dir o r.2.1 r.2.2).1,
      Gen env n (subCells env dir o r.2.1 r.2.2).2 t.subject ∧
        (t.property = rdfFirst ∨ t.property = rdfRest)

theorem cells_bound {l : List Obj} (h : ∀ o ∈ l, SubBound env dir o) (prev head : Option Id) (n : Nat) :
    n ≤ (cells env dir l prev head n).2 ∧ ∀ t ∈ (cells env dir l prev head n).1,
      (t.subject ∈ prev ∨ t.subject ∈ head ∨ Gen env n (cells env dir l prev head n).2 t.subject) ∧
      (t.property = rdfFirst ∨ t.property = rdfRest) := by
  induction l generalizing prev head n with
  | nil =>
    rw [cells]
    refine ⟨Nat.le_refl _, fun t ht => ?_⟩
    cases prev with
    | none => cases ht
    | some p =>
      have := List.mem_singleton.1 ht
      subst this
      exact ⟨.inl rfl, .inr rfl⟩
  | cons o l ih =>
    have ih' := ih fun x hx => h x (List.mem_cons_of_mem _ hx)
    have hc : n ≤ (cellId env head n).2 := by cases head <;> simp [cellId]
    have hi : (cellId env head n).1 ∈ head ∨ Gen env n (cellId env head n).2 (cellId env head n).1 := by
      cases head with
      | none => exact .inr ⟨n, Nat.le_refl _, by simp [cellId], rfl⟩
      | some x => exact .inl rfl
    rw [cells]
    cases hr : o.rdf env dir (cellId env head n).2 with
    | none =>
      simp only
      obtain ⟨h1, h2⟩ := ih' (some (cellId env head n).1) none (cellId env head n).2
      refine ⟨by omega, fun t ht => ?_⟩
      obtain ⟨a | a | a, b⟩ := h2 t ht
      · have a' : t.subject = (cellId env head n).1 := (Option.some.inj a).symm
        rw [a']
        refine ⟨.inr ?_, b⟩
        rcases hi with hi | hi
        · exact .inl hi
        · exact .inr (hi.mono (Nat.le_refl _) h1)
      · cases a
      · exact ⟨.inr (.inr (a.mono hc (Nat.le_refl _))), b⟩
    | some r =>
      simp only
      obtain ⟨s1, s2, s3⟩ := h o List.mem_cons_self _ r hr
      obtain ⟨h1, h2⟩ := ih' (some (cellId env head n).1) none (subCells env dir o r.2.1 r.2.2).2
      have hi' : ∀ m, (cellId env head n).2 ≤ m →
          ((cellId env head n).1 ∈ head ∨ Gen env n m (cellId env head n).1) :=
        fun m hm => hi.imp_right fun x => x.mono (Nat.le_refl _) hm
      refine ⟨by omega, fun t ht => ?_⟩
      rcases List.mem_append.1 ht with ht | ht
      · cases prev with
        | none => cases ht
        | some p =>
          have := List.mem_singleton.1 ht
          subst this
          exact ⟨.inl rfl, .inr rfl⟩
      · rcases List.mem_cons.1 ht with rfl | ht
        · exact ⟨.inr (hi' _ (by omega)), .inl rfl⟩
        · rcases List.mem_append.1 ht with ht | ht
          · obtain ⟨a, b⟩ := s3 t ht
            exact ⟨.inr (.inr (a.mono hc h1)), b⟩
          · obtain ⟨a | a | a, b⟩ := h2 t ht
            · have a' : t.subject = (cellId env head n).1 := (Option.some.inj a).symm
              rw [a']
              exact ⟨.inr (hi' _ (by omega)), b⟩
            · cases a
            · exact ⟨.inr (.inr (a.mono (by omega) (Nat.le_refl _))), b⟩

theorem sub_bound : (∀ o, SubBound env dir o) ∧ (∀ _ : Node, True) := by
  apply Doc.ind
  · intro i v n r h
    simp only [Obj.rdf, Option.map_eq_some_iff] at h
    obtain ⟨x, hx, rfl⟩ := h
    exact ⟨Value.rdf_le hx, Nat.le_refl _, by intro t ht; cases ht⟩
  · intro i l ih n r h
    cases l with
    | nil => cases h; exact ⟨Nat.le_refl _, Nat.le_refl _, by intro t ht; cases ht⟩
    | cons o l =>
      cases h
      obtain ⟨h1, h2⟩ := cells_bound ih none (some (env.gen n)) (n + 1)
      refine ⟨Nat.le_succ _, h1, fun t ht => ?_⟩
      obtain ⟨a | a | a, b⟩ := h2 t ht
      · cases a
      · have a' : t.subject = env.gen n := (Option.some.inj a).symm
        rw [a']
        exact ⟨⟨n, Nat.le_refl _, by simp only [subCells]; omega, rfl⟩, b⟩
      · exact ⟨a.mono (Nat.le_succ _) (Nat.le_refl _), b⟩
  · intro m _ n r h
    simp only [Obj.rdf, Option.map_eq_some_iff] at h
    obtain ⟨x, _, rfl⟩ := h
    exact ⟨Nat.le_refl _, Nat.le_refl _, by intro t ht; cases ht⟩
  · intros; trivial

/-! ## Collections -/

theorem representable_rdf {o : Obj} (h : Representable env o) (n : Nat) :
    ∃ r, o.rdf env dir n = some r := by
  cases o with
  | value i v =>
    cases v with
    | literal l ty => exact ⟨_, rfl⟩
    | json j => exact ⟨_, rfl⟩
    | langString s =>
      have : s.language.all env.wellFormed = true := by
        cases hl : s.language with
        | none => rfl
        | some l => exact h l hl
      exact ⟨_, by simp [Obj.rdf, Value.rdf, this]; rfl⟩
  | list i l =>
    cases l with
    | nil => exact ⟨_, rfl⟩
    | cons => exact ⟨_, rfl⟩
  | node m =>
    obtain ⟨id, hid, hv⟩ := h
    refine ⟨(.id id, none, n), ?_⟩
    cases id <;> simp_all [Obj.rdf, Node.rdfValue, Id.rdfValue, Id.valid]

/-- Whatever the graph says about the identifiers of a range is in the list of triples, and
conversely. -/
def Local (G : Id → Id → Term → Prop) (S : Id → Prop) (ts : List Triple) : Prop :=
  ∀ s p t, S s → (G s p t ↔ (⟨s, p, t⟩ : Triple) ∈ ts)

/-- In any graph agreeing with the triples, the term stands for the object. -/
def SubDenotes (env : RdfEnv) (dir : Option RdfDirection) (o : Obj) : Prop :=
  Representable env o → ∀ n r, o.rdf env dir n = some r → ∀ G,
    Local G (Gen env n (subCells env dir o r.2.1 r.2.2).2) (subCells env dir o r.2.1 r.2.2).1 →
    Denotes env dir G o r.1

/-- What the rest of a list is pointed to. -/
def chainHead (env : RdfEnv) (n : Nat) : List Obj → Term
  | [] => .id rdfNil
  | _ :: _ => .id (env.gen n)

/-- The triples after the cell `p`: its rest, then the remaining cells. -/
theorem cells_some {l : List Obj} (h : RepresentableAll env l) (p : Id) (n : Nat) :
    ∃ m, cells env dir l (some p) none n = (⟨p, rdfRest, chainHead env n l⟩ :: m.1, m.2) ∧
      ((l = [] ∧ m = ([], n)) ∨ (l ≠ [] ∧ m = cells env dir l none (some (env.gen n)) (n + 1))) := by
  cases l with
  | nil => exact ⟨([], n), rfl, .inl ⟨rfl, rfl⟩⟩
  | cons o l =>
    obtain ⟨r, hr⟩ := representable_rdf (dir := dir) h.1 (n + 1)
    refine ⟨cells env dir (o :: l) none (some (env.gen n)) (n + 1), ?_, .inr ⟨by simp, rfl⟩⟩
    rw [cells, cells]
    simp only [cellId, hr]
    rfl

theorem cells_denotes {l : List Obj} (hinj : Function.Injective env.gen)
    (h : ∀ o ∈ l, SubDenotes env dir o) (hr : RepresentableAll env l) (hl : l ≠ []) (n : Nat)
    (G : Id → Id → Term → Prop)
    (hG : Local G (Gen env n (cells env dir l none (some (env.gen n)) (n + 1)).2)
      (cells env dir l none (some (env.gen n)) (n + 1)).1) :
    DenotesList env dir G l (.id (env.gen n)) := by
  induction l generalizing n with
  | nil => exact absurd rfl hl
  | cons o l ih =>
    obtain ⟨r, hor⟩ := representable_rdf (dir := dir) hr.1 (n + 1)
    obtain ⟨m, hm, hcase⟩ := cells_some (dir := dir) hr.2 (env.gen n) (subCells env dir o r.2.1 r.2.2).2
    obtain ⟨s1, s2, s3⟩ := sub_bound.1 o _ r hor
    have e : cells env dir (o :: l) none (some (env.gen n)) (n + 1) =
        (⟨env.gen n, rdfFirst, r.1⟩ :: ((subCells env dir o r.2.1 r.2.2).1 ++
          ⟨env.gen n, rdfRest, chainHead env (subCells env dir o r.2.1 r.2.2).2 l⟩ :: m.1), m.2) := by
      rw [cells]
      simp only [cellId, hor, hm]
      rfl
    rw [e] at hG
    simp only at hG
    generalize hsub : subCells env dir o r.2.1 r.2.2 = sub at *
    -- the remaining cells
    have hm2 : sub.2 ≤ m.2 ∧ (∀ t ∈ m.1, Gen env sub.2 m.2 t.subject) := by
      rcases hcase with ⟨_, rfl⟩ | ⟨_, rfl⟩
      · exact ⟨Nat.le_refl _, by simp⟩
      · obtain ⟨a, b⟩ := cells_bound (env := env) (dir := dir) (fun o _ => sub_bound.1 o) (l := l) none
          (some (env.gen sub.2)) (sub.2 + 1)
        refine ⟨by omega, fun t ht => ?_⟩
        rcases (b t ht).1 with c | c | c
        · cases c
        · exact ⟨sub.2, Nat.le_refl _, by omega, (Option.some.inj c).symm⟩
        · exact c.mono (Nat.le_succ _) (Nat.le_refl _)
    -- who may have the subject `gen n`
    have notgen : ∀ a b, n < a → ¬ Gen env a b (env.gen n) := by
      rintro a b hab ⟨k, h1, _, h3⟩
      have := hinj h3
      omega
    have hn : Gen env n m.2 (env.gen n) := ⟨n, Nat.le_refl _, by omega, rfl⟩
    have own : ∀ p t, G (env.gen n) p t ↔ (p = rdfFirst ∧ t = r.1) ∨
        (p = rdfRest ∧ t = chainHead env sub.2 l) := by
      intro p t
      rw [hG _ p t hn]
      constructor
      · intro ht
        rcases List.mem_cons.1 ht with ht | ht
        · cases ht; exact .inl ⟨rfl, rfl⟩
        · rcases List.mem_append.1 ht with ht | ht
          · exact absurd (s3 _ ht).1 (notgen _ _ (by omega))
          · rcases List.mem_cons.1 ht with ht | ht
            · cases ht; exact .inr ⟨rfl, rfl⟩
            · exact absurd (hm2.2 _ ht) (notgen _ _ (by omega))
      · rintro (⟨rfl, rfl⟩ | ⟨rfl, rfl⟩)
        · exact List.mem_cons_self
        · exact List.mem_cons_of_mem _ (List.mem_append_right _ List.mem_cons_self)
    have ne : rdfFirst ≠ rdfRest := by decide
    refine .cons (t := r.1) (t' := chainHead env sub.2 l) ?_ ?_ ?_ ?_ ?_
    · intro t'
      rw [own]
      constructor
      · rintro (⟨_, h⟩ | ⟨h, _⟩)
        · exact h
        · exact absurd h ne
      · exact fun h => .inl ⟨rfl, h⟩
    · intro t'
      rw [own]
      constructor
      · rintro (⟨h, _⟩ | ⟨_, h⟩)
        · exact absurd h.symm ne
        · exact h
      · exact fun h => .inr ⟨rfl, h⟩
    · intro p t h
      rcases (own p t).1 h with ⟨h, _⟩ | ⟨h, _⟩
      · exact .inl h
      · exact .inr h
    · refine h o List.mem_cons_self hr.1 (n + 1) r hor G ?_
      rw [hsub]
      intro s p t hs
      obtain ⟨k, k1, k2, rfl⟩ := hs
      rw [hG _ p t ⟨k, by omega, by omega, rfl⟩]
      constructor
      · intro ht
        rcases List.mem_cons.1 ht with ht | ht
        · injection ht with hk
          have := hinj hk
          omega
        · rcases List.mem_append.1 ht with ht | ht
          · exact ht
          · rcases List.mem_cons.1 ht with ht | ht
            · injection ht with hk
              have := hinj hk
              omega
            · obtain ⟨j, j1, _, j3⟩ := hm2.2 _ ht
              have := hinj j3
              omega
      · intro ht
        exact List.mem_cons_of_mem _ (List.mem_append_left _ ht)
    · cases l with
      | nil => exact .nil
      | cons o' l' =>
        rcases hcase with ⟨hx, _⟩ | ⟨_, rfl⟩
        · cases hx
        refine ih (fun x hx => h x (List.mem_cons_of_mem _ hx)) hr.2 (by simp) sub.2 ?_
        intro s p t hs
        obtain ⟨k, k1, k2, rfl⟩ := hs
        rw [hG _ p t ⟨k, by omega, k2, rfl⟩]
        constructor
        · intro ht
          rcases List.mem_cons.1 ht with ht | ht
          · injection ht with hk
            have := hinj hk
            omega
          · rcases List.mem_append.1 ht with ht | ht
            · obtain ⟨j, _, j2, j3⟩ := (s3 _ ht).1
              have := hinj j3
              omega
            · rcases List.mem_cons.1 ht with ht | ht
              · injection ht with hk
                have := hinj hk
                omega
              · exact ht
        · intro ht
          exact List.mem_cons_of_mem _ (List.mem_append_right _ (List.mem_cons_of_mem _ ht))

theorem sub_denotes (hinj : Function.Injective env.gen) :
    (∀ o, SubDenotes env dir o) ∧ (∀ _ : Node, True) := by
  apply Doc.ind
  · intro i v _ n r h G _
    simp only [Obj.rdf, Option.map_eq_some_iff] at h
    obtain ⟨x, hx, rfl⟩ := h
    exact .value (n := n) (n' := x.2) hx
  · intro i l ih hrep n r h G hG
    cases l with
    | nil => cases h; exact .list .nil
    | cons o l =>
      cases h
      exact .list (cells_denotes hinj ih hrep (by simp) n G hG)
  · intro m _ hrep n r h G _
    simp only [Obj.rdf, Option.map_eq_some_iff] at h
    obtain ⟨x, hx, rfl⟩ := h
    obtain ⟨id, hid, hv⟩ := hrep
    have : x = .id id := by
      cases id <;> simp_all [Node.rdfValue, Id.rdfValue, Id.valid]
    subst this
    exact .node hid hv
  · intros; trivial

end
end JsonLd
