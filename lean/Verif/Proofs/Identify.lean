import Verif.Proofs.Relabel
/-!
# Assigning identifiers, relabelling: the step along the headers
-/

namespace JsonLd
open Spec Classical

/-! ## Assigning identifiers -/

/-- Forget generated identifiers. -/
noncomputable def unIdentify (gen : Nat → Id) : Option Id → Option Id
  | none => none
  | some x => if ∃ k, gen k = x then none else some x

theorem identify_ok (gen : Nat → Id) (fin : Nat) :
    StepOk (identifyHeader gen) (unIdentify gen) (fun t => t) (fun a b : Nat => a ≤ b)
      (fun _ => True) (fun h => ∀ k, h.1 ≠ some (gen k)) fin where
  refl := Nat.le_refl
  trans := fun _ _ _ => Nat.le_trans
  infl := by
    rintro ⟨_ | i, ty⟩ s <;> simp [identifyHeader]
  pres := fun _ _ _ => trivial
  inv := by
    rintro ⟨_ | i, ty⟩ s _ hP _
    · have : ∃ k, gen k = gen s := ⟨s, rfl⟩
      simp [identifyHeader, unIdentify]
    · have : ¬ ∃ k, gen k = i := by
        rintro ⟨k, rfl⟩; exact hP k rfl
      simp [identifyHeader, unIdentify, this]

theorem identify_run (gen : Nat → Id) (hs : List Header) (n : Nat) :
    List.Forall₂ (fun h h' : Header => h'.2 = h.2 ∧ h'.1.isSome = true ∧
      ∀ i, h.1 = some i → h'.1 = some i) hs (runH (identifyHeader gen) hs n).1 ∧
    newIds hs (runH (identifyHeader gen) hs n).1 =
      (List.range' n ((runH (identifyHeader gen) hs n).2 - n)).map gen ∧
    n ≤ (runH (identifyHeader gen) hs n).2 := by
  induction hs generalizing n with
  | nil => simp [runH, newIds]
  | cons h hs ih =>
    obtain ⟨_ | i, ty⟩ := h
    · obtain ⟨h1, h2, h3⟩ := ih (n + 1)
      simp only [runH, identifyHeader]
      refine ⟨.cons (by simp) h1, ?_, by omega⟩
      simp only [newIds, List.zip_cons_cons] at h2 ⊢
      rw [List.filterMap_cons_some (b := gen n) (by simp), h2]
      have : (runH (identifyHeader gen) hs (n + 1)).2 - n =
          ((runH (identifyHeader gen) hs (n + 1)).2 - (n + 1)) + 1 := by omega
      rw [this, List.range'_succ, List.map_cons]
    · obtain ⟨h1, h2, h3⟩ := ih n
      simp only [runH, identifyHeader]
      refine ⟨.cons (by simp) h1, ?_, h3⟩
      simp only [newIds, List.zip_cons_cons] at h2 ⊢
      rw [List.filterMap_cons_none (by simp), h2]

/-! ## Relabelling -/

/-- The state invariant: the map is injective and its values were drawn from the generator. -/
def RelInv (gen : Nat → Id) (s : Relabeling) : Prop :=
  (∀ b v, s.get b = some v → ∃ k < s.count, v = gen k) ∧
    ∀ b b' v, s.get b = some v → s.get b' = some v → b = b'

/-- The map grows. -/
def RelLe (gen : Nat → Id) (s t : Relabeling) : Prop :=
  s.count ≤ t.count ∧ (∀ b v, s.get b = some v → t.get b = some v) ∧
    ∀ b k, t.get b = some (gen k) → k < s.count → s.get b = some (gen k)

theorem relLe_refl (gen) (s : Relabeling) : RelLe gen s s :=
  ⟨Nat.le_refl _, fun _ _ h => h, fun _ _ h _ => h⟩

theorem relLe_trans (gen) (s t u : Relabeling) (h : RelLe gen s t) (h' : RelLe gen t u) :
    RelLe gen s u :=
  ⟨Nat.le_trans h.1 h'.1, fun b v hb => h'.2.1 b v (h.2.1 b v hb), fun b k hb hk =>
    h.2.2 b k (h'.2.2 b k hb (by have := h.1; omega)) hk⟩

theorem get_cons (n : Nat) (b b' : Str) (v : Id) (m : List (Str × Id)) :
    Relabeling.get ⟨n, (b, v) :: m⟩ b' = if b' = b then some v else Relabeling.get ⟨n, m⟩ b' := by
  simp only [Relabeling.get, List.lookup_cons]
  by_cases h : b' = b
  · subst h; simp
  · have : (b' == b) = false := by simpa using h
    simp [this, h]

theorem get_count (n n' : Nat) (m : List (Str × Id)) (b : Str) :
    Relabeling.get ⟨n, m⟩ b = Relabeling.get ⟨n', m⟩ b := rfl

theorem relabelBlank_spec {gen : Nat → Id} (hg : ∀ i j, gen i = gen j → i = j) (b : Str)
    (s : Relabeling) :
    RelLe gen s (relabelBlank gen b s).2 ∧
      (relabelBlank gen b s).2.get b = some (relabelBlank gen b s).1 ∧
      (RelInv gen s → RelInv gen (relabelBlank gen b s).2) := by
  unfold relabelBlank
  cases h : s.get b with
  | some v => exact ⟨relLe_refl _ _, h, fun h => h⟩
  | none =>
    obtain ⟨n, m⟩ := s
    simp only
    refine ⟨⟨Nat.le_succ _, ?_, ?_⟩, by simp [get_cons], ?_⟩
    · intro b' v hb
      rw [get_cons]
      split
      · rename_i he; subst he; rw [h] at hb; cases hb
      · exact hb
    · intro b' k hb hk
      rw [get_cons] at hb
      split at hb
      · have := hg n k (by simpa using hb)
        simp only at hk; omega
      · exact hb
    · rintro ⟨h1, h2⟩
      refine ⟨?_, ?_⟩
      · intro b' v hb
        rw [get_cons] at hb
        split at hb
        · exact ⟨n, Nat.lt_succ_self _, by simpa using hb.symm⟩
        · obtain ⟨k, hk, e⟩ := h1 b' v hb
          exact ⟨k, Nat.lt_succ_of_lt hk, e⟩
      · intro b1 b2 v hb1 hb2
        rw [get_cons] at hb1 hb2
        split at hb1 <;> split at hb2
        · rename_i e1 e2; rw [e1, e2]
        · obtain ⟨k, hk, e⟩ := h1 b2 v hb2
          have hv : gen n = v := by simpa using hb1
          have := hg n k (hv.trans e)
          simp only at hk; omega
        · obtain ⟨k, hk, e⟩ := h1 b1 v hb1
          have hv : gen n = v := by simpa using hb2
          have := hg n k (hv.trans e)
          simp only at hk; omega
        · exact h2 b1 b2 v hb1 hb2

theorem relabelTypes_spec {gen : Nat → Id} (hg : ∀ i j, gen i = gen j → i = j) (ts : List Id)
    (s : Relabeling) :
    RelLe gen s (relabelTypes gen ts s).2 ∧
      (RelInv gen s → RelInv gen (relabelTypes gen ts s).2) := by
  induction ts generalizing s with
  | nil => exact ⟨relLe_refl _ _, fun h => h⟩
  | cons t ts ih =>
    cases t with
    | blank b =>
      have h1 := relabelBlank_spec hg b s
      have h2 := ih (relabelBlank gen b s).2
      exact ⟨relLe_trans _ _ _ _ h1.1 h2.1, fun h => h2.2 (h1.2.2 h)⟩
    | iri i => exact ih s
    | invalid i => exact ih s

theorem relabelTypesOpt_spec {gen : Nat → Id} (hg : ∀ i j, gen i = gen j → i = j)
    (ts : Option (List Id)) (s : Relabeling) :
    RelLe gen s (relabelTypesOpt gen ts s).2 ∧
      (RelInv gen s → RelInv gen (relabelTypesOpt gen ts s).2) := by
  cases ts with
  | none => exact ⟨relLe_refl _ _, fun h => h⟩
  | some ts => exact relabelTypes_spec hg ts s

theorem relabelNodeId_spec {gen : Nat → Id} (hg : ∀ i j, gen i = gen j → i = j)
    (i : Option Id) (s : Relabeling) :
    RelLe gen s (relabelNodeId gen i s).2 ∧
      (RelInv gen s → RelInv gen (relabelNodeId gen i s).2) := by
  rcases i with _ | i
  · refine ⟨⟨Nat.le_succ _, fun b v h => h, fun b k h _ => h⟩, ?_⟩
    rintro ⟨h1, h2⟩
    refine ⟨fun b v h => ?_, h2⟩
    obtain ⟨k, hk, e⟩ := h1 b v h
    exact ⟨k, Nat.lt_succ_of_lt hk, e⟩
  · cases i with
    | blank b => exact ⟨(relabelBlank_spec hg b s).1, (relabelBlank_spec hg b s).2.2⟩
    | iri i => exact ⟨relLe_refl _ _, fun h => h⟩
    | invalid i => exact ⟨relLe_refl _ _, fun h => h⟩

/-- Undo a relabelling on types. -/
noncomputable def unRelabelTy (fin : Relabeling) (x : Id) : Id :=
  if h : ∃ b, fin.get b = some x then .blank h.choose else x

/-- Undo a relabelling on node identifiers. -/
noncomputable def unRelabelId (gen : Nat → Id) (fin : Relabeling) : Option Id → Option Id
  | none => none
  | some x => if h : ∃ b, fin.get b = some x then some (.blank h.choose)
    else if ∃ k, gen k = x then none else some x

/-- No generated identifier is an IRI (or invalid identifier) of the header. -/
def RelFresh (gen : Nat → Id) (h : Header) : Prop :=
  ∀ i ∈ headerIds h, (∀ b, i ≠ .blank b) → ∀ k, gen k ≠ i

theorem choose_label {gen : Nat → Id} {fin : Relabeling} (hf : RelInv gen fin) {b : Str} {v : Id}
    (hb : fin.get b = some v) (h : ∃ b, fin.get b = some v) : h.choose = b :=
  hf.2 _ _ _ h.choose_spec hb

theorem not_label {gen : Nat → Id} {fin : Relabeling} (hf : RelInv gen fin) {i : Id}
    (hi : ∀ k, gen k ≠ i) : ¬ ∃ b, fin.get b = some i := by
  rintro ⟨b, hb⟩
  obtain ⟨k, _, e⟩ := hf.1 b i hb
  exact hi k e.symm

theorem relabelTypes_inv {gen : Nat → Id} (hg : ∀ i j, gen i = gen j → i = j) {fin : Relabeling}
    (hf : RelInv gen fin) (ts : List Id) (s : Relabeling)
    (hP : ∀ i ∈ ts, (∀ b, i ≠ .blank b) → ∀ k, gen k ≠ i)
    (hle : RelLe gen (relabelTypes gen ts s).2 fin) :
    (relabelTypes gen ts s).1.map (unRelabelTy fin) = ts := by
  induction ts generalizing s with
  | nil => rfl
  | cons t ts ih =>
    have hP' := fun i hi => hP i (List.mem_cons_of_mem _ hi)
    have other : ∀ i : Id, (∀ b, i ≠ .blank b) → i = t → unRelabelTy fin i = i := by
      intro i hi e
      have := not_label hf (hP i (by rw [e]; exact List.mem_cons_self) hi)
      simp [unRelabelTy, this]
    cases t with
    | blank b =>
      simp only [relabelTypes] at hle ⊢
      have h1 := relabelBlank_spec hg b s
      have h2 := relabelTypes_spec hg ts (relabelBlank gen b s).2
      have hb := hle.2.1 _ _ (h2.1.2.1 _ _ h1.2.1)
      have hex : ∃ b', fin.get b' = some (relabelBlank gen b s).1 := ⟨b, hb⟩
      simp only [List.map_cons, ih _ hP' hle, List.cons.injEq, and_true]
      rw [unRelabelTy, dif_pos hex, choose_label hf hb hex]
    | iri i =>
      simp only [relabelTypes] at hle ⊢
      simp only [List.map_cons, ih _ hP' hle, other (.iri i) (by simp) rfl]
    | invalid i =>
      simp only [relabelTypes] at hle ⊢
      simp only [List.map_cons, ih _ hP' hle, other (.invalid i) (by simp) rfl]

theorem relabel_ok {gen : Nat → Id} (hg : ∀ i j, gen i = gen j → i = j) {fin : Relabeling}
    (hf : RelInv gen fin) :
    StepOk (relabelHeader gen) (unRelabelId gen fin) (unRelabelTy fin) (RelLe gen) (RelInv gen)
      (RelFresh gen) fin where
  refl := relLe_refl gen
  trans := relLe_trans gen
  infl := by
    intro h s
    exact relLe_trans _ _ _ _ (relabelNodeId_spec hg h.1 s).1 (relabelTypesOpt_spec hg h.2 _).1
  pres := by
    intro h s hs
    exact (relabelTypesOpt_spec hg h.2 _).2 ((relabelNodeId_spec hg h.1 s).2 hs)
  inv := by
    rintro ⟨i, ty⟩ s hs hP hle
    have hle1 : RelLe gen (relabelTypesOpt gen ty (relabelNodeId gen i s).2).2 fin := hle
    have hle0 : RelLe gen (relabelNodeId gen i s).2 fin :=
      relLe_trans _ _ _ _ (relabelTypesOpt_spec hg ty _).1 hle1
    simp only [relabelHeader, Prod.mk.injEq]
    constructor
    · have other : ∀ x : Id, (∀ b, x ≠ .blank b) → i = some x →
          unRelabelId gen fin (some x) = some x := by
        rintro x hx rfl
        have hk := hP x (by simp [headerIds]) hx
        have hn : ¬ ∃ k, gen k = x := fun ⟨k, e⟩ => hk k e
        simp [unRelabelId, not_label hf hk, hn]
      rcases i with _ | i
      · simp only [relabelNodeId] at hle0 ⊢
        have hn : ¬ ∃ b, fin.get b = some (gen s.count) := by
          rintro ⟨b, hb⟩
          have h1 := hle0.2.2 b s.count hb (Nat.lt_succ_self _)
          obtain ⟨k, hk, e⟩ := hs.1 b _ h1
          have := hg _ _ e
          omega
        have hk : ∃ k, gen k = gen s.count := ⟨_, rfl⟩
        simp [unRelabelId, hn]
      · cases i with
        | blank b =>
          simp only [relabelNodeId] at hle0 ⊢
          have hb := hle0.2.1 _ _ (relabelBlank_spec hg b s).2.1
          have hex : ∃ b', fin.get b' = some (relabelBlank gen b s).1 := ⟨b, hb⟩
          rw [unRelabelId, dif_pos hex, choose_label hf hb hex]
        | iri x => exact other _ (by simp) rfl
        | invalid x => exact other _ (by simp) rfl
    · cases ty with
      | none => rfl
      | some ts =>
        simp only [relabelTypesOpt, Option.map_some, Option.some.injEq] at hle1 ⊢
        exact relabelTypes_inv hg hf ts _ (fun t ht => hP t (by simp [headerIds, ht])) hle1

/-- The renaming read off the final state. -/
def finalRen (fin : Relabeling) (b : Str) : Id := (fin.get b).getD (.blank b)

theorem finalRen_eq {fin : Relabeling} {b : Str} {v : Id} (h : fin.get b = some v) :
    finalRen fin b = v := by simp [finalRen, h]

theorem blankLabels_append (a b : List Id) :
    blankLabels (a ++ b) = blankLabels a ++ blankLabels b := by
  induction a with
  | nil => rfl
  | cons x xs ih => cases x <;> simp [blankLabels, ih]

theorem relabelTypes_run {gen : Nat → Id} (hg : ∀ i j, gen i = gen j → i = j) {fin : Relabeling}
    (ts : List Id) (s : Relabeling) (hle : RelLe gen (relabelTypes gen ts s).2 fin) :
    (relabelTypes gen ts s).1 = ts.map (renameId (finalRen fin)) ∧
      ∀ b ∈ blankLabels ts, ∃ v, fin.get b = some v := by
  induction ts generalizing s with
  | nil => exact ⟨rfl, by simp [blankLabels]⟩
  | cons t ts ih =>
    cases t with
    | blank b =>
      simp only [relabelTypes] at hle ⊢
      have h1 := relabelBlank_spec hg b s
      have h2 := relabelTypes_spec hg ts (relabelBlank gen b s).2
      have hb := hle.2.1 _ _ (h2.1.2.1 _ _ h1.2.1)
      obtain ⟨e, hl⟩ := ih _ hle
      refine ⟨by simp [e, renameId, finalRen_eq hb], ?_⟩
      simp only [blankLabels, List.forall_mem_cons]
      exact ⟨⟨_, hb⟩, hl⟩
    | iri i =>
      obtain ⟨e, hl⟩ := ih s hle
      exact ⟨by simp [relabelTypes, e, renameId], hl⟩
    | invalid i =>
      obtain ⟨e, hl⟩ := ih s hle
      exact ⟨by simp [relabelTypes, e, renameId], hl⟩

theorem relabelHeader_run {gen : Nat → Id} (hg : ∀ i j, gen i = gen j → i = j) {fin : Relabeling}
    (h : Header) (s : Relabeling) (hs : RelInv gen s)
    (hle : RelLe gen (relabelHeader gen h s).2 fin) :
    ((relabelHeader gen h s).1.2 = h.2.map (List.map (renameId (finalRen fin))) ∧
      (relabelHeader gen h s).1.1.isSome = true ∧
      ∀ i, h.1 = some i → (relabelHeader gen h s).1.1 = some (renameId (finalRen fin) i)) ∧
    (∀ b ∈ blankLabels (headerIds h), ∃ v, fin.get b = some v) ∧
    (h.1 = none → (relabelHeader gen h s).1.1 = some (gen s.count) ∧
      s.count < (relabelHeader gen h s).2.count ∧ ∀ b, fin.get b ≠ some (gen s.count)) := by
  obtain ⟨i, ty⟩ := h
  have hle1 : RelLe gen (relabelTypesOpt gen ty (relabelNodeId gen i s).2).2 fin := hle
  have hle0 : RelLe gen (relabelNodeId gen i s).2 fin :=
    relLe_trans _ _ _ _ (relabelTypesOpt_spec hg ty _).1 hle1
  have hty : (relabelTypesOpt gen ty (relabelNodeId gen i s).2).1 =
      ty.map (List.map (renameId (finalRen fin))) ∧
      ∀ b ∈ blankLabels (ty.getD []), ∃ v, fin.get b = some v := by
    cases ty with
    | none => exact ⟨rfl, by simp [blankLabels]⟩
    | some ts =>
      have := relabelTypes_run hg ts _ hle1
      exact ⟨by simp [relabelTypesOpt, this.1], this.2⟩
  have hid : (relabelNodeId gen i s).1.isSome = true ∧
      (∀ x, i = some x → (relabelNodeId gen i s).1 = some (renameId (finalRen fin) x)) ∧
      ∀ b ∈ blankLabels i.toList, ∃ v, fin.get b = some v := by
    rcases i with _ | i
    · simp [relabelNodeId, blankLabels]
    · cases i with
      | blank b =>
        have hb := hle0.2.1 _ _ (relabelBlank_spec hg b s).2.1
        refine ⟨rfl, ?_, ?_⟩
        · rintro x hx
          cases hx
          simp only [relabelNodeId, renameId, finalRen_eq hb]
        · simp only [Option.toList, blankLabels, List.forall_mem_cons]
          exact ⟨⟨_, hb⟩, by simp⟩
      | iri x => simp [relabelNodeId, blankLabels, renameId]
      | invalid x => simp [relabelNodeId, blankLabels, renameId]
  refine ⟨⟨hty.1, hid.1, hid.2.1⟩, ?_, ?_⟩
  · intro b hb
    simp only [headerIds, blankLabels_append, List.mem_append] at hb
    rcases hb with hb | hb
    · exact hid.2.2 b hb
    · exact hty.2 b hb
  · rintro rfl
    have hlt : s.count < (relabelHeader gen (none, ty) s).2.count := by
      have := (relabelTypesOpt_spec hg ty (relabelNodeId gen none s).2).1.1
      simp only [relabelNodeId] at this
      simp only [relabelHeader, relabelNodeId]
      omega
    refine ⟨rfl, hlt, ?_⟩
    intro b hb
    have h1 := hle0.2.2 b s.count hb (Nat.lt_succ_self _)
    obtain ⟨k, hk, e⟩ := hs.1 b _ h1
    have := hg _ _ e
    omega

theorem relabel_run {gen : Nat → Id} (hg : ∀ i j, gen i = gen j → i = j) {fin : Relabeling}
    (hf : RelInv gen fin) (hs : List Header) (s : Relabeling) (hI : RelInv gen s)
    (hle : RelLe gen (runH (relabelHeader gen) hs s).2 fin) :
    List.Forall₂ (fun h h' : Header => h'.2 = h.2.map (List.map (renameId (finalRen fin))) ∧
      h'.1.isSome = true ∧ ∀ i, h.1 = some i → h'.1 = some (renameId (finalRen fin) i)) hs
      (runH (relabelHeader gen) hs s).1 ∧
    (∀ b ∈ blankLabels (hs.flatMap headerIds), ∃ v, fin.get b = some v) ∧
    ∃ ks : List Nat, newIds hs (runH (relabelHeader gen) hs s).1 = ks.map gen ∧ ks.Nodup ∧
      ∀ k ∈ ks, s.count ≤ k ∧ ∀ b, fin.get b ≠ some (gen k) := by
  induction hs generalizing s with
  | nil => exact ⟨.nil, by simp [blankLabels], [], by simp [newIds, runH]⟩
  | cons h hs ih =>
    have ok := relabel_ok hg hf
    simp only [runH] at hle ⊢
    have hle0 : RelLe gen (relabelHeader gen h s).2 fin :=
      relLe_trans _ _ _ _ (runH_le ok _ _) hle
    obtain ⟨h1, h2, ks, hk1, hk2, hk3⟩ := ih _ (ok.pres h s hI) hle
    obtain ⟨e1, e2, e3⟩ := relabelHeader_run hg h s hI hle0
    refine ⟨.cons e1 h1, ?_, ?_⟩
    · intro b hb
      simp only [List.flatMap_cons, blankLabels_append, List.mem_append] at hb
      rcases hb with hb | hb
      · exact e2 b hb
      · exact h2 b hb
    · have hinf := (ok.infl h s).1
      cases hi : h.1 with
      | none =>
        obtain ⟨f1, f2, f3⟩ := e3 hi
        refine ⟨s.count :: ks, ?_, ?_, ?_⟩
        · simp only [newIds, List.zip_cons_cons] at hk1 ⊢
          rw [List.filterMap_cons_some (b := gen s.count) (by simp [hi, f1]), hk1, List.map_cons]
        · refine List.nodup_cons.2 ⟨fun hm => ?_, hk2⟩
          have := (hk3 _ hm).1
          omega
        · simp only [List.forall_mem_cons]
          exact ⟨⟨Nat.le_refl _, f3⟩, fun k hk => ⟨by have := (hk3 k hk).1; omega, (hk3 k hk).2⟩⟩
      | some x =>
        refine ⟨ks, ?_, hk2, fun k hk => ⟨by have := (hk3 k hk).1; omega, (hk3 k hk).2⟩⟩
        simp only [newIds, List.zip_cons_cons] at hk1 ⊢
        rw [List.filterMap_cons_none (by simp [hi]), hk1]

/-- Rewriting that fixes every header is the identity. -/
theorem map_fix (f t) :
    (∀ o, (∀ h ∈ objHeaders o, (f h.1, h.2.map (List.map t)) = h) → mapObj f t o = o) ∧
    (∀ n, (∀ h ∈ nodeHeaders n, (f h.1, h.2.map (List.map t)) = h) → mapNode f t n = n) := by
  apply Doc.ind
  · intro i v _; rfl
  · intro i l ih h
    simp only [mapObj, mapObjs_eq, Obj.list.injEq, true_and]
    rw [List.map_congr_left (g := fun x => x)
      (fun o ho => ih o ho fun x hx => h x (mem_objsHeaders ho hx))]
    simp
  · intro n ih h; simp only [mapObj, ih h]
  · intro i id ty g inc ps rv ihg ihi ihp ihr h
    simp only [nodeHeaders, List.forall_mem_cons, List.forall_mem_append, Prod.mk.injEq] at h
    obtain ⟨h0, ⟨⟨hg, hi⟩, hp⟩, hr⟩ := h
    simp only [mapNode, h0, Node.mk.injEq, true_and, mapG_eq, mapInc_eq, mapPs_eq, mapRv_eq]
    refine ⟨?_, ?_, ?_, ?_⟩
    · cases g with
      | none => rfl
      | some l =>
        simp only [Option.map_some, Option.some.injEq]
        rw [List.map_congr_left (g := fun x => x)
          (fun o ho => ihg l rfl o ho fun x hx => by
            simpa using hg x (mem_objsHeaders ho hx))]
        simp
    · cases inc with
      | none => rfl
      | some l =>
        simp only [Option.map_some, Option.some.injEq]
        rw [List.map_congr_left (g := fun x => x)
          (fun o ho => ihi l rfl o ho fun x hx => by
            simpa using hi x (mem_nodesHeaders ho hx))]
        simp
    · have : ∀ p ∈ ps, (p.1, p.2.map (mapObj f t)) = p := by
        intro p hpp
        rw [List.map_congr_left (g := fun x => x)
          (fun o ho => ihp p hpp o ho fun x hx => by simpa using hp x (mem_psHeaders hpp ho hx))]
        simp
      rw [List.map_congr_left (g := fun x => x) this]
      simp
    · cases rv with
      | none => rfl
      | some l =>
        simp only [Option.map_some, Option.some.injEq]
        have : ∀ p ∈ l, (p.1, p.2.map (mapNode f t)) = p := by
          intro p hpp
          rw [List.map_congr_left (g := fun x => x)
            (fun o ho => ihr l rfl p hpp o ho fun x hx => by
              simpa using hr x (mem_rpsHeaders hpp ho hx))]
          simp
        rw [List.map_congr_left (g := fun x => x) this]
        simp

theorem mapDoc_fix (f t) (d : Doc)
    (h : ∀ x ∈ docHeaders d, (f x.1, x.2.map (List.map t)) = x) : mapDoc f t d = d := by
  simp only [mapDoc, mapObjs_eq]
  rw [List.map_congr_left (g := fun x => x)
    (fun o ho => (map_fix f t).1 o fun x hx => h x (mem_objsHeaders ho hx))]
  simp

/-- The headers of a rewritten document. -/
theorem headers_map (f t) :
    (∀ o, objHeaders (mapObj f t o) = (objHeaders o).map fun h => (f h.1, h.2.map (List.map t))) ∧
    (∀ n, nodeHeaders (mapNode f t n) =
      (nodeHeaders n).map fun h => (f h.1, h.2.map (List.map t))) := by
  have hobjs : ∀ l : List Obj, (∀ o ∈ l, objHeaders (mapObj f t o) =
      (objHeaders o).map fun h => (f h.1, h.2.map (List.map t))) →
      objsHeaders (mapObjs f t l) = (objsHeaders l).map fun h => (f h.1, h.2.map (List.map t)) := by
    intro l
    induction l with
    | nil => intro _; rfl
    | cons o os ih =>
      intro h
      simp only [mapObjs, objsHeaders, List.map_append, h o List.mem_cons_self,
        ih fun o ho => h o (List.mem_cons_of_mem _ ho)]
  have hnodes : ∀ l : List Node, (∀ o ∈ l, nodeHeaders (mapNode f t o) =
      (nodeHeaders o).map fun h => (f h.1, h.2.map (List.map t))) →
      nodesHeaders (mapNodes f t l) =
        (nodesHeaders l).map fun h => (f h.1, h.2.map (List.map t)) := by
    intro l
    induction l with
    | nil => intro _; rfl
    | cons o os ih =>
      intro h
      simp only [mapNodes, nodesHeaders, List.map_append, h o List.mem_cons_self,
        ih fun o ho => h o (List.mem_cons_of_mem _ ho)]
  have hps : ∀ l : List (Id × List Obj), (∀ p ∈ l, ∀ o ∈ p.2, objHeaders (mapObj f t o) =
      (objHeaders o).map fun h => (f h.1, h.2.map (List.map t))) →
      psHeaders (mapPs f t l) = (psHeaders l).map fun h => (f h.1, h.2.map (List.map t)) := by
    intro l
    induction l with
    | nil => intro _; rfl
    | cons o os ih =>
      intro h
      obtain ⟨k, v⟩ := o
      simp only [mapPs, psHeaders, List.map_append, hobjs v (h _ List.mem_cons_self),
        ih fun o ho => h o (List.mem_cons_of_mem _ ho)]
  have hrps : ∀ l : List (Id × List Node), (∀ p ∈ l, ∀ o ∈ p.2, nodeHeaders (mapNode f t o) =
      (nodeHeaders o).map fun h => (f h.1, h.2.map (List.map t))) →
      rpsHeaders (mapRps f t l) = (rpsHeaders l).map fun h => (f h.1, h.2.map (List.map t)) := by
    intro l
    induction l with
    | nil => intro _; rfl
    | cons o os ih =>
      intro h
      obtain ⟨k, v⟩ := o
      simp only [mapRps, rpsHeaders, List.map_append, hnodes v (h _ List.mem_cons_self),
        ih fun o ho => h o (List.mem_cons_of_mem _ ho)]
  apply Doc.ind
  · intro i v; rfl
  · intro i l ih; simp only [mapObj, objHeaders]; exact hobjs l ih
  · intro n ih; simp only [mapObj, objHeaders]; exact ih
  · intro i id ty g inc ps rv ihg ihi ihp ihr
    have e1 : gHeaders (mapG f t g) =
        (gHeaders g).map fun h => (f h.1, h.2.map (List.map t)) := by
      cases g with
      | none => rfl
      | some l => simp only [mapG, gHeaders]; exact hobjs l (ihg l rfl)
    have e2 : incHeaders (mapInc f t inc) =
        (incHeaders inc).map fun h => (f h.1, h.2.map (List.map t)) := by
      cases inc with
      | none => rfl
      | some l => simp only [mapInc, incHeaders]; exact hnodes l (ihi l rfl)
    have e4 : rvHeaders (mapRv f t rv) =
        (rvHeaders rv).map fun h => (f h.1, h.2.map (List.map t)) := by
      cases rv with
      | none => rfl
      | some l => simp only [mapRv, rvHeaders]; exact hrps l (ihr l rfl)
    simp only [mapNode, nodeHeaders, List.map_cons, List.map_append, e1, e2, hps ps ihp, e4]

theorem docHeaders_mapDoc (f t) (d : Doc) :
    docHeaders (mapDoc f t d) = (docHeaders d).map fun h => (f h.1, h.2.map (List.map t)) := by
  have := (headers_map f t).1 (.list none d)
  simpa only [mapObj, objHeaders, docHeaders, mapDoc] using this

end JsonLd
