import Verif.Proofs.SerInv
import Mathlib.Data.Finset.Card
import Mathlib.Data.Finset.Dedup
/-!
# Building a document from quads ends
-/

namespace JsonLd

section
variable {R : Type} [DecidableEq R] (I : Interp R)

/-! ## References -/

theorem refsOf_snoc (l : List (IQuad R)) (q : IQuad R) :
    refsOf (l ++ [q]) = if q.property = q.object then usizeMax else min (refsOf l + 1) usizeMax := by
  simp [refsOf, List.foldl_append]

theorem usizeMax_gt : 1 < usizeMax := by decide

theorem refsOf_eq_zero {l : List (IQuad R)} : refsOf l = 0 ↔ l = [] := by
  induction l using List.reverseRecOn with
  | nil => simp [refsOf]
  | append_singleton l q _ =>
    rw [refsOf_snoc]
    have := usizeMax_gt
    constructor
    · intro h
      split at h <;> omega
    · simp

theorem refsOf_eq_one {l : List (IQuad R)} :
    refsOf l = 1 ↔ ∃ q, l = [q] ∧ q.property ≠ q.object := by
  have := usizeMax_gt
  induction l using List.reverseRecOn with
  | nil => simp [refsOf]
  | append_singleton l q _ =>
    rw [refsOf_snoc]
    constructor
    · intro h
      split at h
      · omega
      · rename_i hn
        have : refsOf l = 0 := by omega
        rw [refsOf_eq_zero] at this
        exact ⟨q, by simp [this], hn⟩
    · rintro ⟨x, hx, hn⟩
      have hl : l = [] := by
        have := congrArg List.length hx
        simp at this
        exact this
      subst hl
      have hq : q = x := by simpa using hx
      subst hq
      rw [if_neg hn]
      simp [refsOf]
      omega

/-! ## Chains of nested resources -/

/-- The resources around the first one, which are nested in one another, up to one that is not nested.
The quads are those of the graph. -/
inductive Chain (L : List (IQuad R)) (G : SGraph R) : List R → Prop where
  | root {r : R} : (entry r G).references ≠ 1 → r ∈ G.map Prod.fst → Chain L G [r]
  | cons {q : IQuad R} {l : List R} : q ∈ L → (entry q.object G).references = 1 →
      Chain L G (q.subject :: l) → Chain L G (q.object :: q.subject :: l)

theorem once {L : List (IQuad R)} {G : SGraph R} (h : Ready I L G) {q x : IQuad R}
    (hr : (entry q.object G).references = 1) (hq : q ∈ L) (hx : x ∈ L) (e : x.object = q.object) :
    x = q := by
  rw [(h.entry _).references, refsOf_eq_one] at hr
  obtain ⟨y, hy, -⟩ := hr
  have h1 : q ∈ L.filter fun x => decide (x.object = q.object) := by simp [hq]
  have h2 : x ∈ L.filter fun x => decide (x.object = q.object) := by simp [hx, e]
  rw [hy, List.mem_singleton] at h1 h2
  rw [h1, h2]

theorem chain_mem {L : List (IQuad R)} {G : SGraph R} (h : Ready I L G) {l : List R} (hc : Chain L G l) :
    ∀ r ∈ l, r ∈ G.map Prod.fst := by
  induction hc with
  | root _ hm =>
    intro r hr
    rw [List.mem_singleton.1 hr]
    exact hm
  | cons hq hr hc ih =>
    intro r hr
    rcases List.mem_cons.1 hr with rfl | hr
    · exact (h.keys _ hq).2
    · exact ih r hr

/-- Inside a chain, a resource referred to once is preceded by the subject of the quad. -/
theorem chain_parent {L : List (IQuad R)} {G : SGraph R} (h : Ready I L G) {q : IQuad R} (hq : q ∈ L)
    (hr : (entry q.object G).references = 1) {l : List R} (hc : Chain L G l) (hm : q.object ∈ l) :
    ∃ l1 l2, l = l1 ++ q.object :: q.subject :: l2 := by
  induction hc with
  | root hn _ =>
    rw [List.mem_singleton] at hm
    rw [hm] at hr
    exact absurd hr hn
  | @cons x l hx hr' hc ih =>
    rcases List.mem_cons.1 hm with e | hm
    · have : q = x := once I h hr' hx hq e
      subst this
      exact ⟨[], l, rfl⟩
    · obtain ⟨l1, l2, e⟩ := ih hm
      exact ⟨x.object :: l1, l2, by rw [e]; rfl⟩

theorem chain_nodup {L : List (IQuad R)} {G : SGraph R} (h : Ready I L G) {l : List R}
    (hc : Chain L G l) : l.Nodup := by
  induction hc with
  | root => simp
  | @cons q l hq hr hc ih =>
    refine List.nodup_cons.2 ⟨fun hm => ?_, ih⟩
    obtain ⟨l1, l2, e⟩ := chain_parent I h hq hr hc hm
    rw [e] at ih
    cases l1 with
    | nil =>
      simp only [List.nil_append, List.cons.injEq] at e
      rw [List.nil_append, ← e.1, List.nodup_cons] at ih
      exact ih.1 (by simp)
    | cons y l1 =>
      simp only [List.cons_append, List.cons.injEq] at e
      rw [List.cons_append, ← e.1, List.nodup_cons] at ih
      exact ih.1 (by simp)

theorem chain_length {L : List (IQuad R)} {G : SGraph R} (h : Ready I L G) {l : List R}
    (hc : Chain L G l) : l.length ≤ G.length := by
  have h1 := chain_nodup I h hc
  have h2 := chain_mem I h hc
  have : l.toFinset ⊆ (G.map Prod.fst).toFinset := by
    intro x hx
    rw [List.mem_toFinset] at hx ⊢
    exact h2 x hx
  have := Finset.card_le_card this
  rw [List.toFinset_card_of_nodup h1, List.toFinset_card_of_nodup h.nodup, List.length_map] at this
  exact this

/-! ## Errors -/

/-- Only these errors. -/
def OnlyErr (P : SerErr → Prop) {α : Type} (a : Except SerErr α) : Prop := ∀ e, a = .error e → P e

section
variable {P : SerErr → Prop} {α β : Type}

theorem OnlyErr.ok (a : α) : OnlyErr P (.ok a : Except SerErr α) := fun _ h => by cases h

theorem OnlyErr.bind' {a : Except SerErr α} {f : α → Except SerErr β} (ha : OnlyErr P a)
    (hf : ∀ x, OnlyErr P (f x)) : OnlyErr P (a >>= f) := by
  intro e h
  cases a with
  | error e' => exact ha e (by simpa [bind, Except.bind] using h)
  | ok x => exact hf x e h

theorem OnlyErr.mapM' {l : List α} {f : α → Except SerErr β} (h : ∀ x ∈ l, OnlyErr P (f x)) :
    OnlyErr P (l.mapM f) := by
  induction l with
  | nil => exact OnlyErr.ok _
  | cons x l ih =>
    rw [List.mapM_cons]
    exact (h x List.mem_cons_self).bind' fun y => (ih fun z hz => h z (List.mem_cons_of_mem _ hz)).bind'
      fun ys => OnlyErr.ok _

theorem OnlyErr.foldlM' {l : List α} {f : β → α → Except SerErr β} (h : ∀ x ∈ l, ∀ b, OnlyErr P (f b x)) :
    ∀ b, OnlyErr P (l.foldlM f b) := by
  induction l with
  | nil => intro b; exact OnlyErr.ok _
  | cons x l ih =>
    intro b
    rw [List.foldlM_cons]
    exact (h x List.mem_cons_self b).bind' fun y => ih (fun z hz => h z (List.mem_cons_of_mem _ hz)) y

theorem mapM_congr' {l : List α} {f g : α → Except SerErr β} (h : ∀ x ∈ l, f x = g x) :
    l.mapM f = l.mapM g := by
  induction l with
  | nil => rfl
  | cons x l ih =>
    rw [List.mapM_cons, List.mapM_cons, h x List.mem_cons_self,
      ih fun z hz => h z (List.mem_cons_of_mem _ hz)]

theorem foldlM_congr' {l : List α} {f g : β → α → Except SerErr β} (h : ∀ x ∈ l, ∀ b, f b x = g b x) :
    ∀ b, l.foldlM f b = l.foldlM g b := by
  induction l with
  | nil => intro b; rfl
  | cons x l ih =>
    intro b
    rw [List.foldlM_cons, List.foldlM_cons, h x List.mem_cons_self]
    congr 1
    funext y
    exact ih (fun z hz => h z (List.mem_cons_of_mem _ hz)) y

end

/-- The value is an object of the resource, other than a type. -/
def Res.Objects (e : Res R) (v : R) : Prop :=
  (∃ p l, (p, l) ∈ e.properties ∧ v ∈ l) ∨ v ∈ e.first ∨ v ∈ e.rest

variable (o : SerOrders R) (s : SerState R)

omit [DecidableEq R] in
theorem insertProperty_congr {f g : R → Except SerErr Obj} {p : R} {values : List R}
    {ps : List (Id × List Obj)} (h : ∀ v ∈ values, f v = g v) :
    insertProperty I f p values ps = insertProperty I g p values ps := by
  unfold insertProperty
  split
  · rfl
  · exact foldlM_congr' (fun v hv b => by rw [h v hv]) ps

omit [DecidableEq R] in
theorem insertCells_congr {f g : R → Except SerErr Obj} {p : Option R} {values : List R}
    {ps : List (Id × List Obj)} (h : ∀ v ∈ values, f v = g v) :
    insertCells I f p values ps = insertCells I g p values ps := by
  unfold insertCells
  split
  · rfl
  · split
    · rfl
    · exact insertProperty_congr I h

omit [DecidableEq R] in
theorem renderProps_congr {f g : R → Except SerErr Obj} {e : Res R} (h : ∀ v, e.Objects v → f v = g v) :
    renderProps I o s f e = renderProps I o s g e := by
  unfold renderProps
  have h1 : (o.properties e.properties).foldlM (fun ps p => insertProperty I f p.1 (o.set p.2) ps) [] =
      (o.properties e.properties).foldlM (fun ps p => insertProperty I g p.1 (o.set p.2) ps) [] :=
    foldlM_congr' (fun p hp b => insertProperty_congr I fun v hv =>
      h v (.inl ⟨p.1, p.2, (o.properties_perm _).mem_iff.1 hp, (o.set_perm _).mem_iff.1 hv⟩)) []
  have h2 : ∀ ps, insertCells I f s.first (o.set e.first) ps = insertCells I g s.first (o.set e.first) ps :=
    fun ps => insertCells_congr I fun v hv => h v (.inr (.inl ((o.set_perm _).mem_iff.1 hv)))
  have h3 : ∀ ps, insertCells I f s.rest (o.set e.rest) ps = insertCells I g s.rest (o.set e.rest) ps :=
    fun ps => insertCells_congr I fun v hv => h v (.inr (.inr ((o.set_perm _).mem_iff.1 hv)))
  simp only [h1, h2, h3]

variable {P : SerErr → Prop}

omit [DecidableEq R] in
theorem insertProperty_only {f : R → Except SerErr Obj} {p : R} {values : List R}
    {ps : List (Id × List Obj)} (h : ∀ v ∈ values, OnlyErr P (f v)) :
    OnlyErr P (insertProperty I f p values ps) := by
  unfold insertProperty
  split
  · exact OnlyErr.ok _
  · exact OnlyErr.foldlM' (fun v hv b => (h v hv).bind' fun _ => OnlyErr.ok _) ps

omit [DecidableEq R] in
theorem insertCells_only {f : R → Except SerErr Obj} {p : Option R} {values : List R}
    {ps : List (Id × List Obj)} (h : ∀ v ∈ values, OnlyErr P (f v))
    (hp : ∀ v ∈ values, ∃ x, p = some x) : OnlyErr P (insertCells I f p values ps) := by
  unfold insertCells
  cases values with
  | nil => exact OnlyErr.ok _
  | cons v l =>
    obtain ⟨x, rfl⟩ := hp v List.mem_cons_self
    exact insertProperty_only I h

omit [DecidableEq R] in
theorem renderProps_only {f : R → Except SerErr Obj} {e : Res R}
    (h : ∀ v, e.Objects v → OnlyErr P (f v)) (hf : ∀ v ∈ e.first, ∃ x, s.first = some x)
    (hr : ∀ v ∈ e.rest, ∃ x, s.rest = some x) : OnlyErr P (renderProps I o s f e) := by
  unfold renderProps
  refine OnlyErr.bind' (OnlyErr.foldlM' (fun p hp b => insertProperty_only I fun v hv =>
      h v (.inl ⟨p.1, p.2, (o.properties_perm _).mem_iff.1 hp, (o.set_perm _).mem_iff.1 hv⟩)) []) fun ps => ?_
  refine OnlyErr.bind' (insertCells_only I
    (fun v hv => h v (.inr (.inl ((o.set_perm _).mem_iff.1 hv))))
    (fun v hv => hf v ((o.set_perm _).mem_iff.1 hv))) fun ps => ?_
  exact insertCells_only I (fun v hv => h v (.inr (.inr ((o.set_perm _).mem_iff.1 hv))))
    (fun v hv => hr v ((o.set_perm _).mem_iff.1 hv))

omit [DecidableEq R] in
theorem renderTypes_only {list : Option R} {l : List (RType R)}
    (h : ∀ t ∈ l, t = .list → ∃ r, list = some r) : OnlyErr P (renderTypes I list l) := by
  induction l with
  | nil => exact OnlyErr.ok _
  | cons t l ih =>
    have ih := ih fun x hx => h x (List.mem_cons_of_mem _ hx)
    cases t with
    | list =>
      obtain ⟨r, rfl⟩ := h .list List.mem_cons_self rfl
      exact ih.bind' fun _ => OnlyErr.ok _
    | other r => exact ih.bind' fun _ => OnlyErr.ok _

/-- What rendering needs to know of the graph and of the terms of lists. -/
structure Sound (L : List (IQuad R)) (G : SGraph R) : Prop extends Ready I L G where
  list : ∀ q ∈ L, rdfProperty I q.property = some .type → rdfTypeOf I q.object = .list →
    ∃ r, s.list = some r
  first : ∀ q ∈ L, rdfProperty I q.property = some .first → ∃ p, s.first = some p
  rest : ∀ q ∈ L, rdfProperty I q.property = some .rest → ∃ p, s.rest = some p

theorem Describes.objects {L : List (IQuad R)} {r : R} {e : Res R} (h : Describes I L r e) {v : R} :
    e.Objects v ↔ ∃ q ∈ L, q.subject = r ∧ rdfProperty I q.property ≠ some .type ∧ q.object = v := by
  constructor
  · rintro (⟨p, l, h1, h2⟩ | h1 | h1)
    · obtain ⟨q, hq, e1, e2, e3, e4⟩ := (h.properties p v).1 ⟨l, h1, h2⟩
      exact ⟨q, hq, e1, by rw [e2]; simp, e4⟩
    · obtain ⟨q, hq, e1, e2, e3⟩ := (h.first v).1 h1
      exact ⟨q, hq, e1, by rw [e2]; simp, e3⟩
    · obtain ⟨q, hq, e1, e2, e3⟩ := (h.rest v).1 h1
      exact ⟨q, hq, e1, by rw [e2]; simp, e3⟩
  · rintro ⟨q, hq, e1, e2, e3⟩
    cases hp : rdfProperty I q.property with
    | none =>
      obtain ⟨l, h1, h2⟩ := (h.properties q.property v).2 ⟨q, hq, e1, hp, rfl, e3⟩
      exact .inl ⟨_, l, h1, h2⟩
    | some x =>
      cases x with
      | type => exact absurd hp e2
      | first => exact .inr (.inl ((h.first v).2 ⟨q, hq, e1, hp, e3⟩))
      | rest => exact .inr (.inr ((h.rest v).2 ⟨q, hq, e1, hp, e3⟩))

theorem find_eq_entry {G : SGraph R} {r : R} (h : r ∈ G.map Prod.fst) : find r G = some (entry r G) := by
  obtain ⟨e, he⟩ := Option.isSome_iff_exists.1 (find_isSome.2 h)
  rw [he, find_entry he]

/-- A node is rendered in this way. -/
theorem renderObj_succ {k : Nat} {sub : R → Option (SGraph R)} {G : SGraph R} {r : R} {e : Res R}
    (he : e.isEmpty (sub r) = false) (hv : e.values = none) : renderObj I o s (k + 1) sub G r e = (do
      let types ← renderTypes I s.list (o.types e.types)
      let graph ← renderSub o (fun G' => renderObj I o s k (fun _ => none) G') (sub r)
      let ps ← renderProps I o s (renderChild I (renderObj I o s k sub G) sub G) e
      .ok (.node (.mk none (idOf I r) (if types.isEmpty then none else some types) graph none ps none))) := by
  simp only [renderObj, he, hv]
  rfl

/-- Enough fuel gives one result, without other errors than those of the literals. -/
theorem renderObj_ends {L : List (IQuad R)} {G : SGraph R} (h : Sound I s L G)
    (hP : ∀ q ∈ L, OnlyErr P (renderRef I q.object)) (sub : R → Option (SGraph R)) (m : Nat)
    (hsub : ∀ r G', sub r = some G' → ∀ k, m ≤ k →
      renderSub o (fun G' => renderObj I o s k (fun _ => none) G') (some G') =
        renderSub o (fun G' => renderObj I o s m (fun _ => none) G') (some G') ∧
      OnlyErr P (renderSub o (fun G' => renderObj I o s k (fun _ => none) G') (some G'))) :
    ∀ (n : Nat) (r : R) (l : List R), Chain L G (r :: l) → G.length ≤ n + l.length →
      (entry r G).isEmpty (sub r) = false → ∀ k, n + m + 1 ≤ k →
      renderObj I o s k sub G r (entry r G) = renderObj I o s (n + m + 1) sub G r (entry r G) ∧
      OnlyErr P (renderObj I o s k sub G r (entry r G)) := by
  intro n
  induction n with
  | zero =>
    intro r l hc hl
    have := chain_length I h.toReady hc
    simp at this
    omega
  | succ n ih =>
    intro r l hc hl he k hk
    obtain ⟨k, rfl⟩ : ∃ k', k = k' + 1 := ⟨k - 1, by omega⟩
    have hd := h.toReady.entry r
    -- the children
    have child : ∀ v, (entry r G).Objects v → ∀ k, n + m + 1 ≤ k →
        renderChild I (renderObj I o s k sub G) sub G v =
          renderChild I (renderObj I o s (n + m + 1) sub G) sub G v ∧
        OnlyErr P (renderChild I (renderObj I o s k sub G) sub G v) := by
      intro v hv k hk
      obtain ⟨q, hq, e1, -, e2⟩ := (hd.objects).1 hv
      subst e1 e2
      unfold renderChild
      rw [find_eq_entry (h.keys q hq).2]
      dsimp only
      split
      · rename_i hc'
        exact ih q.object (q.subject :: l) (.cons hq hc'.1 hc) (by simp; omega) hc'.2 k hk
      · exact ⟨rfl, hP q hq⟩
    have hsub' : ∀ k, n + m + 1 ≤ k →
        renderSub o (fun G' => renderObj I o s k (fun _ => none) G') (sub r) =
          renderSub o (fun G' => renderObj I o s m (fun _ => none) G') (sub r) ∧
        OnlyErr P (renderSub o (fun G' => renderObj I o s k (fun _ => none) G') (sub r)) := by
      intro k hk
      cases hs : sub r with
      | none => exact ⟨rfl, OnlyErr.ok _⟩
      | some G' => exact hsub r G' hs k (by omega)
    have hprops : ∀ k, n + m + 1 ≤ k →
        renderProps I o s (renderChild I (renderObj I o s k sub G) sub G) (entry r G) =
        renderProps I o s (renderChild I (renderObj I o s (n + m + 1) sub G) sub G) (entry r G) :=
      fun k hk => renderProps_congr I o s fun v hv => (child v hv k hk).1
    rw [show n + 1 + m + 1 = (n + m + 1) + 1 by omega]
    rw [renderObj_succ I o s he hd.values, renderObj_succ I o s he hd.values]
    rw [hprops k (by omega), (hsub' k (by omega)).1, (hsub' (n + m + 1) (by omega)).1]
    refine ⟨rfl, ?_⟩
    refine OnlyErr.bind' (renderTypes_only I fun t ht e => ?_) fun types => ?_
    · subst e
      obtain ⟨q, hq, e1, e2, e3⟩ := (hd.types _).1 ((o.types_perm _).mem_iff.1 ht)
      exact h.list q hq e2 e3
    rw [← (hsub' k (by omega)).1]
    refine OnlyErr.bind' (hsub' k (by omega)).2 fun graph => ?_
    refine OnlyErr.bind' ?_ fun ps => OnlyErr.ok _
    refine renderProps_only I o s (fun v hv => (child v hv _ (le_refl _)).2) (fun v hv => ?_) fun v hv => ?_
    · obtain ⟨q, hq, e1, e2, e3⟩ := (hd.first v).1 hv
      exact h.first q hq e2
    · obtain ⟨q, hq, e1, e2, e3⟩ := (hd.rest v).1 hv
      exact h.rest q hq e2

theorem renderTop_ends {L : List (IQuad R)} {G : SGraph R} (h : Sound I s L G)
    (hP : ∀ q ∈ L, OnlyErr P (renderRef I q.object)) (sub : R → Option (SGraph R)) (m : Nat)
    (hsub : ∀ r G', sub r = some G' → ∀ k, m ≤ k →
      renderSub o (fun G' => renderObj I o s k (fun _ => none) G') (some G') =
        renderSub o (fun G' => renderObj I o s m (fun _ => none) G') (some G') ∧
      OnlyErr P (renderSub o (fun G' => renderObj I o s k (fun _ => none) G') (some G')))
    (k : Nat) (hk : G.length + m + 1 ≤ k) :
    renderTop o (renderObj I o s k sub G) sub G =
      renderTop o (renderObj I o s (G.length + m + 1) sub G) sub G ∧
    OnlyErr P (renderTop o (renderObj I o s k sub G) sub G) := by
  have key : ∀ p ∈ (o.resources G).filter
      (fun r => decide (r.2.references ≠ 1) && !r.2.isEmpty (sub r.1)),
      renderObj I o s k sub G p.1 p.2 = renderObj I o s (G.length + m + 1) sub G p.1 p.2 ∧
      OnlyErr P (renderObj I o s k sub G p.1 p.2) := by
    intro p hp
    obtain ⟨hp, hc⟩ := List.mem_filter.1 hp
    have hp := (o.resources_perm _).mem_iff.1 hp
    have he : entry p.1 G = p.2 := find_entry ((find_iff h.nodup).2 hp)
    simp only [Bool.and_eq_true, decide_eq_true_eq, Bool.not_eq_true'] at hc
    have := renderObj_ends I o s h hP sub m hsub G.length p.1 []
      (.root (by rw [he]; exact hc.1) (List.mem_map.2 ⟨p, hp, rfl⟩)) (by simp) (by rw [he]; exact hc.2) k hk
    rwa [he] at this
  unfold renderTop
  rw [mapM_congr' fun p hp => (key p hp).1]
  refine ⟨rfl, OnlyErr.bind' (OnlyErr.mapM' fun p hp => ?_) fun _ => OnlyErr.ok _⟩
  rw [← (key p hp).1]
  exact (key p hp).2

theorem sound_of_state (qs : List (IQuad R)) (g : Option R) {G : SGraph R} (h : Ready I (inGraph qs g) G) :
    Sound I (stateOf I qs) (inGraph qs g) G where
  toReady := h
  list := fun q hq => (stateInv I qs).list q (List.mem_filter.1 hq).1
  first := fun q hq => (stateInv I qs).first q (List.mem_filter.1 hq).1
  rest := fun q hq => (stateInv I qs).rest q (List.mem_filter.1 hq).1

theorem named_graph {qs : List (IQuad R)} {r : R} {G : SGraph R}
    (h : find r (stateOf I qs).named = some G) :
    inGraph qs (some r) ≠ [] ∧ G = graphOf I (inGraph qs (some r)) := by
  rw [(stateInv I qs).named] at h
  split at h
  · cases h
  · rename_i hn
    exact ⟨hn, (Option.some.inj h).symm⟩

theorem foldl_max_le (l : List Nat) (a : Nat) : a ≤ l.foldl max a ∧ ∀ x ∈ l, x ≤ l.foldl max a := by
  induction l generalizing a with
  | nil => simp
  | cons y l ih =>
    obtain ⟨h1, h2⟩ := ih (max a y)
    refine ⟨by rw [List.foldl_cons]; omega, ?_⟩
    intro x hx
    rw [List.foldl_cons]
    rcases List.mem_cons.1 hx with rfl | hx
    · omega
    · exact h2 x hx

theorem fromQuads_ends (qs : List (IQuad R)) (hP : ∀ q ∈ qs, OnlyErr P (renderRef I q.object)) :
    ∃ b0, ∀ b, b0 ≤ b → fromQuads I o b qs = fromQuads I o b0 qs ∧ OnlyErr P (fromQuads I o b qs) := by
  have hPg : ∀ g, ∀ q ∈ inGraph qs g, OnlyErr P (renderRef I q.object) :=
    fun g q hq => hP q (List.mem_filter.1 hq).1
  obtain ⟨M, hM⟩ : ∃ M, ∀ p ∈ (stateOf I qs).named, p.2.length ≤ M :=
    ⟨((stateOf I qs).named.map fun p => p.2.length).foldl max 0, fun p hp =>
      (foldl_max_le _ 0).2 _ (List.mem_map.2 ⟨p, hp, rfl⟩)⟩
  have hsub : ∀ r G', find r (stateOf I qs).named = some G' → ∀ k, M + 1 ≤ k →
      renderSub o (fun G' => renderObj I o (stateOf I qs) k (fun _ => none) G') (some G') =
        renderSub o (fun G' => renderObj I o (stateOf I qs) (M + 1) (fun _ => none) G') (some G') ∧
      OnlyErr P (renderSub o (fun G' => renderObj I o (stateOf I qs) k (fun _ => none) G') (some G')) := by
    intro r G' hr k hk
    have hl := hM _ ((find_iff (stateInv I qs).nodup).1 hr)
    obtain ⟨-, rfl⟩ := named_graph I hr
    have hs := sound_of_state I qs (some r) (graphInv_graphOf I (inGraph qs (some r))).ready
    have key := fun k => renderTop_ends I o (stateOf I qs) hs (hPg _) (fun _ => none) 0 (by simp) k
    have h1 := key k (by dsimp only at hl; omega)
    have h2 := key (M + 1) (by dsimp only at hl; omega)
    simp only [renderSub]
    rw [h1.1, h2.1]
    refine ⟨rfl, OnlyErr.bind' ?_ fun _ => OnlyErr.ok _⟩
    rw [← h1.1]
    exact h1.2
  refine ⟨(stateOf I qs).fold.length + (M + 1) + 1, fun b hb => ?_⟩
  rw [fromQuads_eq, fromQuads_eq]
  exact renderTop_ends I o (stateOf I qs) (sound_of_state I qs none (ready_fold I qs)) (hPg _) _ (M + 1) hsub
    b hb

end
end JsonLd
