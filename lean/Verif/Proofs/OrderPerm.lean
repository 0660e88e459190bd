import Verif.Proofs.OrderValue
/-!
# Objects whose entries are in another order
-/

namespace JsonLd
open Spec Props

/-! ## Loops over lists in another order -/

/-- Steps that can be exchanged can be done in any order. -/
theorem foldlM_perm {ε α σ : Type} {P : σ → σ → Prop} (hsymm : ∀ {s t}, P s t → P t s) (htrans : ∀ {s t u}, P s t → P t u → P s u)
    {f : σ → α → Except ε σ} {R : α → α → Prop} (hR : ∀ {a b}, R a b → R b a) {l l' : List α} (h : l.Perm l')
    (hl : l.Pairwise R)
    (hc : ∀ a ∈ l, ∀ s s' t, P s s' → f s a = .ok t → ∃ t', f s' a = .ok t' ∧ P t t')
    (hx : ∀ a ∈ l, ∀ b ∈ l, R a b → ∀ s t u, P s s → f s a = .ok t → f t b = .ok u →
      ∃ t' u', f s b = .ok t' ∧ f t' a = .ok u' ∧ P u u') :
    ∀ {s s' t}, P s s' → l.foldlM f s = .ok t → ∃ t', l'.foldlM f s' = .ok t' ∧ P t t' := by
  have cong : ∀ (l : List α), (∀ a ∈ l, ∀ s s' t, P s s' → f s a = .ok t → ∃ t', f s' a = .ok t' ∧ P t t') →
      ∀ {s s' t}, P s s' → l.foldlM f s = .ok t → ∃ t', l.foldlM f s' = .ok t' ∧ P t t' := by
    intro l
    induction l with
    | nil =>
      intro _ s s' t hs h
      cases h
      exact ⟨s', rfl, hs⟩
    | cons a l ih =>
      intro hc s s' t hs h
      rw [List.foldlM_cons] at h
      obtain ⟨u, h1, h⟩ := exBind_ok h
      obtain ⟨u', h1', hu⟩ := hc a (by simp) s s' u hs h1
      obtain ⟨t', h', ht⟩ := ih (fun a ha => hc a (by simp [ha])) hu h
      refine ⟨t', ?_, ht⟩
      rw [List.foldlM_cons, h1']
      exact h'
  induction h with
  | nil =>
    intro s s' t hs h
    cases h
    exact ⟨s', rfl, hs⟩
  | cons a _ ih =>
    intro s s' t hs h
    rw [List.foldlM_cons] at h
    obtain ⟨u, h1, h⟩ := exBind_ok h
    obtain ⟨u', h1', hu⟩ := hc a (by simp) s s' u hs h1
    obtain ⟨t', h', ht⟩ := ih (List.pairwise_cons.1 hl).2 (fun a ha => hc a (by simp [ha]))
      (fun a ha b hb => hx a (by simp [ha]) b (by simp [hb])) hu h
    refine ⟨t', ?_, ht⟩
    rw [List.foldlM_cons, h1']
    exact h'
  | swap a b l =>
    intro s s' t hs h
    rw [List.foldlM_cons] at h
    obtain ⟨u, h1, h⟩ := exBind_ok h
    rw [List.foldlM_cons] at h
    obtain ⟨v, h2, h⟩ := exBind_ok h
    obtain ⟨u₁, h1₁, hu₁⟩ := hc b (by simp) s s' u hs h1
    obtain ⟨v₁, h2₁, hv₁⟩ := hc a (by simp) u u₁ v hu₁ h2
    obtain ⟨u₂, v₂, h1₂, h2₂, hv₂⟩ := hx b (by simp) a (by simp) ((List.pairwise_cons.1 hl).1 a (by simp)) s' u₁ v₁
      (htrans (hsymm hs) hs) h1₁ h2₁
    obtain ⟨t', h', ht⟩ := cong l (fun a ha => hc a (by simp [ha])) (htrans hv₁ hv₂) h
    refine ⟨t', ?_, ht⟩
    rw [List.foldlM_cons, h1₂]
    show List.foldlM f u₂ (b :: l) = _
    rw [List.foldlM_cons, h2₂]
    exact h'
  | trans h1 h2 ih1 ih2 =>
    intro s s' t hs h
    obtain ⟨t₁, h', ht₁⟩ := ih1 hl hc hx hs h
    obtain ⟨t₂, h'', ht₂⟩ := ih2 (h1.pairwise hl (fun h => hR h)) (fun a ha => hc a (h1.symm.subset ha))
      (fun a ha b hb => hx a (h1.symm.subset ha) b (h1.symm.subset hb)) (htrans (hsymm hs) hs) h'
    exact ⟨t₂, h'', htrans ht₁ ht₂⟩

theorem collectM_perm {α β : Type} {f : α → Except XErr (List β)} {l l' : List α} (h : l.Perm l') :
    To List.Perm (collectM f l) (collectM f l') := by
  induction h with
  | nil => exact .ok (.refl _)
  | cons a _ ih => exact To.after fun x _ => ih.map fun y z _ _ h => .append_left _ h
  | swap a b l =>
    intro r hr
    obtain ⟨p, q, h1, h2, rfl⟩ := collectM_cons.1 hr
    obtain ⟨p', q', h3, h4, rfl⟩ := collectM_cons.1 h2
    refine ⟨p' ++ (p ++ q'), collectM_cons.2 ⟨p', _, h3, collectM_cons.2 ⟨p, q', h1, h4, rfl⟩, rfl⟩, ?_⟩
    rw [← List.append_assoc, ← List.append_assoc]
    exact List.perm_append_comm.append_right _
  | trans _ _ ih1 ih2 =>
    intro r hr
    obtain ⟨r', hr', h'⟩ := ih1 r hr
    obtain ⟨r'', hr'', h''⟩ := ih2 r' hr'
    exact ⟨r'', hr'', h'.trans h''⟩

theorem permRel_of_perm {α : Type} {S : α → α → Prop} {l l' : List α} (h : l.Perm l') (hS : ∀ a ∈ l, S a a) : PermRel S l l' :=
  ⟨l, h, forall₂_refl_mem hS⟩

theorem sortByKey_eq {α : Type} {key : α → Str} {l l' : List α} (h : l.Perm l') (hn : (l.map key).Nodup) :
    sortByKey key l = sortByKey key l' := by
  have hp : (sortByKey key l).Perm l := List.perm_insertionSort _ l
  have hp' : (sortByKey key l').Perm l' := List.perm_insertionSort _ l'
  refine List.Perm.eq_of_pairwise (fun a b ha hb h1 h2 => ?_) (sortByKey_sorted key l) (sortByKey_sorted key l')
    (hp.trans (h.trans hp'.symm))
  exact List.inj_on_of_nodup_map hn (hp.subset ha) (h.symm.subset (hp'.subset hb)) (List.le_antisymm h1 h2)

theorem sortIf_both {α : Type} {b : Bool} {key : α → Str} {l l' : List α} (h : l.Perm l') :
    (sortIf b key l).Perm (sortIf b key l') := (sortIf_perm b key l).trans (h.trans (sortIf_perm b key l').symm)

/-! ## The parts of objects -/

variable {E : XEnv} {K : ACtx → Prop}

theorem xEntries_collect {c : ACtx} {m : List (Str × Json)} :
    xEntries E c m = collectM (fun e => (xKey E c e.1).map fun t => (t.map fun t => (⟨e.1, t, e.2⟩ : XEntry)).toList) m := by
  induction m with
  | nil => rfl
  | cons e m ih =>
    obtain ⟨k, v⟩ := e
    show (xKey E c k).bind _ = ((xKey E c k).map _).bind _
    rw [ih]
    cases xKey E c k with
    | error => rfl
    | ok t => cases t <;> (show Except.map _ _ = Except.map _ _; cases collectM _ m <;> rfl)

theorem xEntries_perm {c : ACtx} {m m' : List (Str × Json)} (h : m.Perm m') : To List.Perm (xEntries E c m) (xEntries E c m') := by
  rw [xEntries_collect, xEntries_collect]
  exact collectM_perm h

theorem xEntries_term {c : ACtx} {m : List (Str × Json)} {es : List XEntry} (h : xEntries E c m = .ok es) {e : XEntry} (he : e ∈ es) :
    xKey E c e.key = .ok (some e.term) := by
  induction m generalizing es with
  | nil => cases h; cases he
  | cons a m ih =>
    obtain ⟨k, v⟩ := a
    unfold xEntries at h
    obtain ⟨t, ht, h⟩ := exBind_ok h
    obtain ⟨es', h', rfl⟩ := exMap_ok h
    cases t with
    | none => exact ih h' he
    | some t =>
      rcases List.mem_cons.1 he with rfl | he
      · exact ht
      · exact ih h' he

theorem xEntries_keys {c : ACtx} {m : List (Str × Json)} {es : List XEntry} (h : xEntries E c m = .ok es)
    (hn : (m.map Prod.fst).Nodup) : (es.map XEntry.key).Nodup := by
  suffices hs : (es.map XEntry.key).Sublist (m.map Prod.fst) from hs.nodup hn
  clear hn
  induction m generalizing es with
  | nil => cases h; exact .slnil
  | cons e m ih =>
    obtain ⟨k, v⟩ := e
    unfold xEntries at h
    obtain ⟨t, ht, h⟩ := exBind_ok h
    obtain ⟨es', he, rfl⟩ := exMap_ok h
    cases t with
    | none => exact (ih he).cons _
    | some t => exact (ih he).cons_cons _

theorem prelim_collect {c : ACtx} {m : List (Str × Json)} :
    prelim E c m = (collectM (fun e => (xKey E c e.1).map fun t => [t]) m).map fun ts =>
      (ts.any fun t => decide (t = some (.keyword .value)), ts.any fun t => decide (t = some (.keyword .id))) := by
  induction m with
  | nil => rfl
  | cons e m ih =>
    obtain ⟨k, v⟩ := e
    show (xKey E c k).bind _ = (((xKey E c k).map _).bind _).map _
    rw [ih]
    cases xKey E c k with
    | error => rfl
    | ok t =>
      show Except.map _ (Except.map _ _) = Except.map _ (Except.map _ _)
      cases collectM _ m with
      | error => rfl
      | ok ts =>
        refine congrArg Except.ok (Prod.ext ?_ ?_)
        · exact Bool.or_comm ..
        · exact Bool.or_comm ..

theorem any_perm {α : Type} {p : α → Bool} {l l' : List α} (h : l.Perm l') : l.any p = l'.any p := by
  rw [Bool.eq_iff_iff, List.any_eq_true, List.any_eq_true]
  exact ⟨fun ⟨x, hx, hp⟩ => ⟨x, h.subset hx, hp⟩, fun ⟨x, hx, hp⟩ => ⟨x, h.symm.subset hx, hp⟩⟩

theorem all_perm {α : Type} {p : α → Bool} {l l' : List α} (h : l.Perm l') : l.all p = l'.all p := by
  rw [Bool.eq_iff_iff, List.all_eq_true, List.all_eq_true]
  exact ⟨fun hx x hp => hx x (h.symm.subset hp), fun hx x hp => hx x (h.subset hp)⟩

theorem prelim_perm {c : ACtx} {m m' : List (Str × Json)} (h : m.Perm m') : To Eq (prelim E c m) (prelim E c m') := by
  rw [prelim_collect, prelim_collect]
  refine (collectM_perm h).map fun x y _ _ hxy => ?_
  rw [any_perm hxy, any_perm hxy]

theorem localContext_perm {c : ACtx} {m m' : List (Str × Json)} (h : m.Perm m') :
    To Eq (localContext E c m) (localContext E c m') := by
  have hp := h.filter (fun e => decide (e.1 = "@context".toList))
  unfold localContext
  generalize m.filter _ = x at hp ⊢
  generalize m'.filter _ = y at hp ⊢
  match x, hp with
  | [], hp =>
    rw [← List.nil_perm.1 hp]
    exact To.same fun _ _ => rfl
  | [e], hp =>
    rw [← List.singleton_perm.1 hp]
    exact To.same fun _ _ => rfl
  | _ :: _ :: _, _ => exact .err

theorem objContext_perm {c : ACtx} {prop : Option Str} {fm : Bool} {m m' : List (Str × Json)} (h : m.Perm m') :
    To Eq (objContext E c prop m fm) (objContext E c prop m' fm) := by
  unfold objContext
  refine To.bind (prelim_perm h) ?_
  rintro r _ - - rfl
  have h1 : revert c m fm r = revert c m' fm r := by
    unfold revert
    rw [h.length_eq]
  rw [h1]
  exact To.after fun c' _ => localContext_perm h

theorem typeEntries_perm {c : ACtx} {m m' : List (Str × Json)} (h : m.Perm m') (hn : (m.map Prod.fst).Nodup) :
    To Eq (typeEntries E c m) (typeEntries E c m') := by
  unfold typeEntries
  refine To.map (collectM_perm h) fun x y hx _ hxy => sortByKey_eq hxy ?_
  suffices hs : x.Sublist m from (hs.map Prod.fst).nodup hn
  clear h hxy hn
  induction m generalizing x with
  | nil => cases hx; exact .slnil
  | cons e m ih =>
    obtain ⟨p, q, h1, h2, rfl⟩ := collectM_cons.1 hx
    obtain ⟨t, -, rfl⟩ := exMap_ok h1
    split
    · exact (ih _ h2).cons_cons _
    · exact (ih _ h2).cons _

/-! ## Writes -/

/-- The parts of the state that entries write to. -/
inductive Slot
  | id | type | graph | included | value | index | prop | rev
  deriving DecidableEq

/-- What an entry does to the state. -/
inductive Write
  | id (i : Option Id)
  | type (t : Id)
  | graph (g : List Obj)
  | included (ns : List Node)
  | value
  | index (i : Str)
  | prop (p : Id) (os : List Obj)
  | rev (p : Id) (ns : List Node)

namespace Write

def slot : Write → Slot
  | .id _ => .id
  | .type _ => .type
  | .graph _ => .graph
  | .included _ => .included
  | .value => .value
  | .index _ => .index
  | .prop .. => .prop
  | .rev .. => .rev

def apply (s : XState) : Write → XState
  | .id i => { s with node := s.node.setId i }
  | .type t => { s with node := s.node.pushType t }
  | .graph g => { s with node := s.node.setGraphEntry (some g) }
  | .included ns => { s with node := s.node.setIncluded (some (ns.foldl (setInsert Node.eq) (s.node.included.getD []))) }
  | .value => { s with hasValue := true }
  | .index i => { s with node := s.node.setIndex (some i) }
  | .prop p os => { s with node := s.node.insertProp p os }
  | .rev p ns => { s with node := s.node.insertRev p ns }

/-- The objects written are well-formed. -/
def Fine : Write → Prop
  | .graph g => PermRel Same g g ∧ g.Pairwise fun a b => b.eq a = false
  | .included ns => List.Forall₂ SameN ns ns
  | .prop _ os => PermRel Same os os
  | .rev _ ns => PermRel SameN ns ns
  | _ => True

theorem cong {s s' : XState} (h : SimSt s s') {w : Write} (hw : w.Fine) : SimSt (w.apply s) (w.apply s') := by
  cases w with
  | id i => exact ⟨h.flag, h.node.setId _⟩
  | type t => exact ⟨h.flag, h.node.pushType _⟩
  | graph g => exact ⟨h.flag, h.node.setGraph hw.1 hw.2 hw.2⟩
  | included ns =>
    have hp := h.node.parts
    refine ⟨h.flag, h.node.setIncluded (setFold_same (eq := Node.eq) (S := SameN) (fun _ _ _ _ h h' => sameN_congr h h')
      (fun _ _ h => h.symm) hw (optRel_getD hp.included)) (setFold_pairwise _ _ ?_) (setFold_pairwise _ _ ?_)⟩
    · cases hi : s.node.included with
      | none => exact .nil
      | some l => exact hp.includedL l hi
    · cases hi : s'.node.included with
      | none => exact .nil
      | some l => exact hp.includedR l hi
  | value => exact ⟨rfl, h.node⟩
  | index i => exact ⟨h.flag, h.node.setIndex _⟩
  | prop p os => exact ⟨h.flag, h.node.insertProp hw⟩
  | rev p ns => exact ⟨h.flag, h.node.insertRev hw⟩

/-- Writes to these slots can be exchanged. -/
def Free (a b : Slot) : Prop := a ≠ b ∨ a = .prop ∨ a = .rev ∨ a = .value

theorem exchange {s : XState} (h : SimSt s s) {v w : Write} (hv : v.Fine) (hw : w.Fine) (hf : Free v.slot w.slot) :
    SimSt (w.apply (v.apply s)) (v.apply (w.apply s)) := by
  by_cases he : v.slot = w.slot
  · cases v <;> cases w <;> try cases he
    all_goals rcases hf with hf | hf | hf | hf
    all_goals try first | cases hf | exact absurd rfl hf
    · exact ⟨rfl, h.node⟩
    · exact ⟨h.flag, swap_insertProp h.node hv hw⟩
    · exact ⟨h.flag, swap_insertRev h.node hv hw⟩
  · have : w.apply (v.apply s) = v.apply (w.apply s) := by
      obtain ⟨⟨i, id, ty, g, inc, ps, rv⟩, b⟩ := s
      cases v <;> cases w <;> first | rfl | exact absurd rfl he
    rw [this]
    exact cong (cong h hw) hv

/-- Writes one after the other. -/
def run (s : XState) (ws : List Write) : XState := ws.foldl apply s

theorem run_cong {ws : List Write} (hw : ∀ w ∈ ws, w.Fine) {s s' : XState} (h : SimSt s s') : SimSt (run s ws) (run s' ws) := by
  induction ws generalizing s s' with
  | nil => exact h
  | cons w ws ih => exact ih (fun w hw' => hw w (by simp [hw'])) (cong h (hw w (by simp)))

theorem run_one {v : Write} (hv : v.Fine) {ws : List Write} (hw : ∀ w ∈ ws, w.Fine ∧ Free v.slot w.slot) {s : XState} (h : SimSt s s) :
    SimSt (run (v.apply s) ws) (v.apply (run s ws)) := by
  induction ws generalizing s with
  | nil => exact cong h hv
  | cons w ws ih =>
    have h1 := hw w (by simp)
    have h2 := run_cong (ws := ws) (fun w hw' => (hw w (by simp [hw'])).1) (exchange h hv h1.1 h1.2)
    refine SimSt.trans h2 ?_
    exact ih (fun w hw' => hw w (by simp [hw'])) (cong h h1.1)

theorem run_exchange {vs ws : List Write} (hv : ∀ v ∈ vs, v.Fine) (hw : ∀ w ∈ ws, w.Fine)
    (hf : ∀ v ∈ vs, ∀ w ∈ ws, Free v.slot w.slot) {s : XState} (h : SimSt s s) :
    SimSt (run (run s vs) ws) (run (run s ws) vs) := by
  induction vs generalizing s with
  | nil => exact run_cong hw h
  | cons v vs ih =>
    have h1 := ih (fun v hv' => hv v (by simp [hv'])) (fun v hv' => hf v (by simp [hv'])) (cong h (hv v (by simp)))
    refine h1.trans (run_cong (fun v hv' => hv v (by simp [hv'])) ?_)
    exact run_one (hv v (by simp)) (fun w hw' => ⟨hw w hw', hf v (by simp) w hw'⟩) h

/-- The slot of a keyword. -/
def slotOf : Keyword → Option Slot
  | .id => some .id
  | .type => some .type
  | .graph => some .graph
  | .included => some .included
  | .reverse => some .rev
  | _ => none

theorem apply_keyword {s : XState} {w : Write} {k : Keyword} (h : slotOf k ≠ some w.slot) :
    (w.apply s).node.hasKeyword k = s.node.hasKeyword k := by
  obtain ⟨⟨i, id, ty, g, inc, ps, rv⟩, b⟩ := s
  cases w <;> cases k <;> first | rfl | exact absurd rfl h

theorem run_keyword {ws : List Write} {k : Keyword} (h : ∀ w ∈ ws, slotOf k ≠ some w.slot) {s : XState} :
    (run s ws).node.hasKeyword k = s.node.hasKeyword k := by
  induction ws generalizing s with
  | nil => rfl
  | cons w ws ih => exact (ih fun w hw => h w (by simp [hw])).trans (apply_keyword (h w (by simp)))

end Write

/-! ## Entries as writes -/

/-- The function fails always, or does the same writes to the slots in every state. -/
def Does (S : Slot → Prop) (f : XState → Except XErr XState) : Prop :=
  ∃ r : Option (List Write), (∀ ws, r = some ws → ∀ w ∈ ws, w.Fine ∧ S w.slot) ∧
    ∀ st t, f st = .ok t ↔ ∃ ws, r = some ws ∧ t = Write.run st ws

namespace Does
variable {S : Slot → Prop} {f : XState → Except XErr XState}

theorem err {e : XErr} : Does S fun _ => .error e := ⟨none, nofun, fun _ _ => ⟨nofun, fun ⟨_, h, _⟩ => nomatch h⟩⟩

theorem nop : Does S fun st => .ok st :=
  ⟨some [], fun ws h => by cases h; nofun, fun st t => ⟨fun h => ⟨[], rfl, by cases h; rfl⟩, fun ⟨ws, h, ht⟩ => by cases h; rw [ht]; rfl⟩⟩

theorem one {w : Write} (hw : w.Fine) (hs : S w.slot) : Does S fun st => .ok (w.apply st) := by
  refine ⟨some [w], fun ws h v hv => ?_, fun st t => ⟨fun h => ⟨[w], rfl, by cases h; rfl⟩, fun ⟨ws, h, ht⟩ => ?_⟩⟩
  · cases h
    rw [List.mem_singleton] at hv
    subst hv
    exact ⟨hw, hs⟩
  · cases h; rw [ht]; rfl

theorem after {α : Type} {r : Except XErr α} {g : α → XState → Except XErr XState} (h : ∀ x, r = .ok x → Does S (g x)) :
    Does S fun st => r.bind fun x => g x st := by
  cases r with
  | error e => exact err
  | ok x => exact h x rfl

theorem after_map {α : Type} {r : Except XErr α} {w : α → Write} (h : ∀ x, r = .ok x → (w x).Fine ∧ S (w x).slot) :
    Does S fun st => r.map fun x => (w x).apply st := by
  cases r with
  | error e => exact err
  | ok x => exact one (h x rfl).1 (h x rfl).2

theorem fold {α : Type} {g : XState → α → Except XErr XState} {l : List α} (h : ∀ a ∈ l, Does S fun st => g st a) :
    Does S fun st => l.foldlM g st := by
  induction l with
  | nil => exact nop
  | cons a l ih =>
    obtain ⟨r, h1, h2⟩ := h a (by simp)
    obtain ⟨r', h1', h2'⟩ := ih fun a ha => h a (by simp [ha])
    refine ⟨r.bind fun ws => r'.map fun ws' => ws ++ ws', fun ws hws w hw => ?_, fun st t => ?_⟩
    · cases r with
      | none => cases hws
      | some a =>
        cases r' with
        | none => cases hws
        | some b =>
          cases hws
          rcases List.mem_append.1 hw with hw | hw
          · exact h1 a rfl w hw
          · exact h1' b rfl w hw
    · dsimp only
      rw [List.foldlM_cons]
      constructor
      · intro ht
        obtain ⟨u, hu, ht⟩ := exBind_ok ht
        obtain ⟨ws, rfl, rfl⟩ := (h2 _ _).1 hu
        obtain ⟨ws', rfl, rfl⟩ := (h2' _ _).1 ht
        exact ⟨ws ++ ws', rfl, (List.foldl_append ..).symm⟩
      · rintro ⟨ws, hws, rfl⟩
        cases r with
        | none => cases hws
        | some a =>
          cases r' with
          | none => cases hws
          | some b =>
            cases hws
            show Except.bind _ _ = _
            rw [show g st _ = _ from (h2 st _).2 ⟨a, rfl, rfl⟩]
            refine (h2' _ _).2 ⟨b, rfl, ?_⟩
            exact List.foldl_append ..

theorem mono {S' : Slot → Prop} (h : Does S f) (hs : ∀ x, S x → S' x) : Does S' f := by
  obtain ⟨r, h1, h2⟩ := h
  exact ⟨r, fun ws hw w hw' => ⟨(h1 ws hw w hw').1, hs _ (h1 ws hw w hw').2⟩, h2⟩

end Does

variable {c tsc : ACtx}

theorem objs_fine {l : List Obj} (h : ∀ o ∈ l, o.WF) : PermRel Same l l := permRel_of_perm (.refl _) fun o ho => Same.refl (h o ho)

theorem nodes_fine {e : XErr} {l : List Obj} (h : ∀ o ∈ l, o.WF) {ns : List Node} (hn : asNodes e l = .ok ns) :
    ∀ n ∈ ns, SameN n n := by
  intro n hn'
  rw [asNodes_eq.1 hn] at h
  exact Same.refl (h _ (List.mem_map_of_mem hn'))

theorem keyId_does {v : Json} : Does (· = .id) (keyId E c v) := by
  unfold keyId
  split
  · exact Does.after_map (w := fun t : Option CTerm => .id (t.bind nodeIdOfTerm)) fun t _ => ⟨trivial, rfl⟩
  · exact .err

theorem keyType1_does {v : Json} : Does (· = .type) (fun st => keyType1 E tsc st v) := by
  unfold keyType1
  split
  · refine Does.after fun t _ => ?_
    split
    · exact .nop
    · split
      · exact Does.one (w := .type _) trivial rfl
      · exact .nop
      · exact .err
    · exact Does.one (w := .type _) trivial rfl
    · exact .err
  · exact .err

theorem keyGraph_does {v : Json} : Does (· = .graph) (keyGraph (unlimited E) c v) := by
  refine Does.after_map (w := fun x : Expanded => .graph (setCollect Obj.eq (x.toList.filter topLevel))) fun x hx => ⟨⟨?_, ?_⟩, rfl⟩
  · exact collect_same (forall₂_refl_mem fun o ho => Same.refl (element_wf hx o (List.mem_filter.1 ho).1))
  · exact setFold_pairwise _ _ .nil

theorem keyIncluded_does {v : Json} : Does (· = .included) (keyIncluded E (unlimited E) c v) := by
  unfold keyIncluded
  split
  · exact .nop
  · refine Does.after fun x hx => Does.after_map (w := fun ns => .included ns) fun ns hns => ⟨?_, rfl⟩
    exact forall₂_refl_mem (nodes_fine (element_wf hx) hns)

theorem keyIndex_does {v : Json} : Does (· = .index) (keyIndex v) := by
  unfold keyIndex
  split
  · exact Does.one (w := .index _) trivial rfl
  · exact .err

theorem addReverse_does {p : Id} {os : List Obj} (h : ∀ o ∈ os, o.WF) : Does (· = .rev) (addReverse p os) :=
  Does.after_map (w := fun ns => .rev p ns) fun _ hns => ⟨permRel_of_perm (.refl _) (nodes_fine h hns), rfl⟩

theorem reverseProp_does {p : Id} {k : Str} {v : Json} :
    Does (fun s => s = .prop ∨ s = .rev) (reverseProp (unlimited E) c p k v) := by
  refine Does.after fun x hx => ?_
  split
  · exact Does.one (w := .prop _ _) (objs_fine (element_wf hx)) (.inl rfl)
  · exact (addReverse_does (element_wf hx)).mono fun _ h => .inr h

theorem reverseStep_does {e : Str × Json} : Does (fun s => s = .prop ∨ s = .rev) (fun st => reverseStep E (unlimited E) c st e) := by
  refine Does.after fun t _ => ?_
  split
  · exact .err
  · split
    · split
      · exact reverseProp_does
      · split
        · exact reverseProp_does
        · exact .nop
        · exact .err
    · split
      · exact .err
      · exact .nop
  · split
    · exact .err
    · exact .nop

theorem keyReverse_does {v : Json} : Does (fun s => s = .prop ∨ s = .rev) (keyReverse E (unlimited E) c v) := by
  unfold keyReverse
  split
  · exact Does.fold fun _ _ => reverseStep_does
  · exact .err

/-- The slot of a property. -/
def PSlot (c : ACtx) (key : Str) (s : Slot) : Prop := if reverseOf (c.get key) then s = .rev else s = .prop

/-- The slots of an entry. -/
def Slots (c : ACtx) (e : XEntry) (s : Slot) : Prop :=
  match e.term with
  | .keyword .id => s = .id
  | .keyword .type => s = .type
  | .keyword .graph => s = .graph
  | .keyword .included => s = .included
  | .keyword .language => s = .value
  | .keyword .direction => s = .value
  | .keyword .index => s = .index
  | .keyword .reverse => s = .prop ∨ s = .rev
  | .id _ => PSlot c e.key s
  | _ => False

theorem alike₂_fine {x : Expanded} (h : Alike₂ x x) : PermRel Same x.toList x.toList := h.toList

theorem wf_of_same {l : List Obj} (h : PermRel Same l l) : ∀ o ∈ l, o.WF := permRel_left h fun _ _ h => h.wf'

theorem propEntry_does (H : KClosed E K) (hc : K c) {key : Str} {p : Id} {v : Json} :
    Does (PSlot c key) (propEntry E (unlimited E) c key p v) := by
  refine Does.after fun x hx => ?_
  obtain ⟨x', hx', h⟩ := (vc_refl H v).prop (d := c.get key) (key := key) hc (fun _ => rfl) x hx
  rw [hx] at hx'
  cases hx'
  have h1 := wrapGraph_to (cm := containerOf (c.get key)) (wrapList_to h)
  unfold addProp
  split
  · exact .nop
  · split
    · rename_i hr
      exact (addReverse_does (wf_of_same h1.toList)).mono fun s hs => by unfold PSlot; rw [if_pos hr]; exact hs
    · rename_i hr
      exact Does.one (w := .prop _ _) h1.toList (by unfold PSlot; rw [if_neg hr]; rfl)

theorem idEntry_does (H : KClosed E K) (hc : K c) {key : Str} {p : Id} {v : Json} :
    Does (PSlot c key) (idEntry E (unlimited E) c key p v) := by
  unfold idEntry
  split
  · split
    · exact propEntry_does H hc
    · exact .nop
    · exact .err
  · exact propEntry_does H hc

theorem plainEntry_does {S : Slot → Prop} {p : Id} : Does S (plainEntry E p) := by
  unfold plainEntry
  split
  · exact .err
  · split
    · exact .err
    · exact .nop

theorem keywordEntry_does {prop : Option Str} {e : XEntry} {k : Keyword} (hk : e.term = .keyword k) (hn : k ≠ .nest) :
    Does (Slots c e) (keywordEntry E (unlimited E) c tsc prop e.key k e.value) := by
  unfold keywordEntry
  cases k
  all_goals dsimp only
  all_goals first
    | exact absurd rfl hn
    | exact keyId_does.mono fun s h => by simpa only [Slots, hk] using h
    | exact (Does.fold fun _ _ => keyType1_does).mono fun s h => by simpa only [Slots, hk] using h
    | exact keyGraph_does.mono fun s h => by simpa only [Slots, hk] using h
    | exact keyIncluded_does.mono fun s h => by simpa only [Slots, hk] using h
    | exact keyIndex_does.mono fun s h => by simpa only [Slots, hk] using h
    | exact keyReverse_does.mono fun s h => by simpa only [Slots, hk] using h
    | exact Does.one (w := .value) trivial (by simp only [Slots, hk]; rfl)
    | exact .err
    | exact .nop

/-- The keyword that must not be there already. -/
def guardOf (E : XEnv) (e : XEntry) : Option Keyword :=
  match e.term with
  | .keyword .context => none
  | .keyword k => if (decide (E.opts.mode = .v10) || (decide (k ≠ .included) && decide (k ≠ .type))) then some k else none
  | _ => none

/-- Guarded writes. -/
def GDoes (g : Option Keyword) (S : Slot → Prop) (f : XState → Except XErr XState) : Prop :=
  ∃ r : Option (List Write), (∀ ws, r = some ws → ∀ w ∈ ws, w.Fine ∧ S w.slot) ∧
    ∀ st t, f st = .ok t ↔ (∀ k, g = some k → st.node.hasKeyword k = false) ∧ ∃ ws, r = some ws ∧ t = Write.run st ws

theorem Does.unguarded {S : Slot → Prop} {f : XState → Except XErr XState} (h : Does S f) : GDoes none S f := by
  obtain ⟨r, h1, h2⟩ := h
  exact ⟨r, h1, fun st t => by rw [h2]; exact ⟨fun h => ⟨nofun, h⟩, fun h => h.2⟩⟩

theorem GDoes.fails {g : Option Keyword} {S : Slot → Prop} {e : XErr} : GDoes g S fun _ => .error e :=
  ⟨none, nofun, fun _ _ => ⟨nofun, fun ⟨_, _, h, _⟩ => nomatch h⟩⟩

theorem entryStep_keyword {R : XRec} {prop : Option Str} {st : XState} {e : XEntry} {k : Keyword} (ht : e.term = .keyword k)
    (hk : k ≠ .context) : entryStep E R c tsc prop st e =
      if prop = some "@reverse".toList then .error .invalidReversePropertyMap
      else if (decide (E.opts.mode = .v10) || (decide (k ≠ .included) && decide (k ≠ .type))) &&
          st.node.hasKeyword k then .error .collidingKeywords
      else keywordEntry E R c tsc prop e.key k e.value st := by
  unfold entryStep
  rw [ht]
  cases k <;> first | rfl | exact absurd rfl hk

theorem guardOf_keyword {e : XEntry} {k : Keyword} (ht : e.term = .keyword k) (hk : k ≠ .context) : guardOf E e =
    if (decide (E.opts.mode = .v10) || (decide (k ≠ .included) && decide (k ≠ .type))) then some k else none := by
  unfold guardOf
  rw [ht]
  cases k <;> first | rfl | exact absurd rfl hk

theorem entryStep_does (H : KClosed E K) (hc : K c) {prop : Option Str} {e : XEntry} (hn : e.term ≠ .keyword .nest) :
    GDoes (guardOf E e) (Slots c e) (fun st => entryStep E (unlimited E) c tsc prop st e) := by
  cases ht : e.term with
  | null =>
    simp only [entryStep, guardOf, ht]
    exact Does.nop.unguarded
  | id p =>
    have hs : Slots c e = PSlot c e.key := by
      funext s
      simp only [Slots, ht]
    rw [hs]
    simp only [entryStep, guardOf, ht]
    split
    · exact (idEntry_does H hc).unguarded
    · exact plainEntry_does.unguarded
  | keyword k =>
    by_cases hk : k = .context
    · subst hk
      simp only [entryStep, guardOf, ht]
      exact Does.nop.unguarded
    · rw [guardOf_keyword ht hk]
      simp only [entryStep_keyword ht hk]
      by_cases hp : prop = some "@reverse".toList
      · simp only [if_pos hp]
        exact .fails
      · simp only [if_neg hp]
        obtain ⟨r, h1, h2⟩ := keywordEntry_does (E := E) (c := c) (tsc := tsc) (prop := prop) ht (fun h => hn (by rw [ht, h]))
        refine ⟨r, h1, fun st t => ?_⟩
        generalize (decide (E.opts.mode = .v10) || (decide (k ≠ .included) && decide (k ≠ .type))) = b
        cases b with
        | false =>
          simp only [Bool.false_and, Bool.false_eq_true, if_false]
          rw [h2]
          exact ⟨fun h => ⟨nofun, h⟩, fun h => h.2⟩
        | true =>
          simp only [Bool.true_and, if_true]
          cases hb : st.node.hasKeyword k with
          | true =>
            simp only [if_true]
            refine ⟨nofun, fun h => ?_⟩
            have := h.1 k rfl
            rw [hb] at this
            cases this
          | false =>
            simp only [Bool.false_eq_true, if_false]
            rw [h2]
            exact ⟨fun h => ⟨fun k' hk' => by cases hk'; exact hb, h⟩, fun h => h.2⟩

/-- Entries that can be exchanged. -/
structure EntriesApart (c : ACtx) (e e' : XEntry) : Prop where
  keyword : ∀ k, e.term = .keyword k → e'.term ≠ .keyword k
  left : e.term = .keyword .reverse → reverseOf (c.get e'.key) = false
  right : e'.term = .keyword .reverse → reverseOf (c.get e.key) = false

theorem EntriesApart.symm {e e' : XEntry} (h : EntriesApart c e e') : EntriesApart c e' e :=
  ⟨fun k h1 h2 => h.keyword k h2 h1, h.right, h.left⟩

/-- The keyword of a slot. -/
def kwOf : Slot → Keyword
  | .id => .id
  | .type => .type
  | .graph => .graph
  | .included => .included
  | .index => .index
  | .rev => .reverse
  | _ => .value

theorem slots_inv {e : XEntry} {s : Slot} (h : Slots c e s) :
    e.term = .keyword (kwOf s) ∨ s = .value ∨ s = .prop ∨ s = .rev ∧ reverseOf (c.get e.key) = true := by
  unfold Slots at h
  cases ht : e.term with
  | null => rw [ht] at h; exact h.elim
  | id p =>
    rw [ht] at h
    dsimp only [PSlot] at h
    split at h
    · rename_i hr
      exact .inr (.inr (.inr ⟨h, hr⟩))
    · exact .inr (.inr (.inl h))
  | keyword k =>
    rw [ht] at h
    cases k <;> first
      | exact h.elim
      | (obtain rfl : s = _ := h; first | exact .inl rfl | exact .inr (.inl rfl))
      | (rcases h with rfl | rfl; exact .inr (.inr (.inl rfl)); exact .inl rfl)

theorem apart_free {e e' : XEntry} (h : EntriesApart c e e') {s s' : Slot} (hs : Slots c e s) (hs' : Slots c e' s') : Write.Free s s' := by
  by_cases hss : s = s'
  · subst hss
    refine .inr ?_
    rcases slots_inv hs with h1 | h1 | h1 | h1
    · rcases slots_inv hs' with h2 | h2 | h2 | h2
      · exact (h.keyword _ h1 h2).elim
      · exact .inr (.inr h2)
      · exact .inl h2
      · exact .inr (.inl h2.1)
    · exact .inr (.inr h1)
    · exact .inl h1
    · exact .inr (.inl h1.1)
  · exact .inl hss

theorem guard_free {e e' : XEntry} (h : EntriesApart c e e') {k : Keyword} (hg : guardOf E e = some k) {s : Slot} (hs : Slots c e' s) :
    Write.slotOf k ≠ some s := by
  have ht : e.term = .keyword k := by
    unfold guardOf at hg
    split at hg
    · cases hg
    · rename_i k' ht
      split at hg
      · cases hg; exact ht
      · cases hg
    · cases hg
  have hk := h.keyword k ht
  intro hslot
  rcases slots_inv hs with h1 | h1 | h1 | ⟨h1, h2⟩
  · refine hk ?_
    rw [h1]
    cases k <;> cases hslot <;> rfl
  · subst h1; cases k <;> cases hslot
  · subst h1; cases k <;> cases hslot
  · subst h1
    cases k <;> cases hslot
    rw [h.left ht] at h2
    cases h2

theorem entries_perm (H : KClosed E K) (hc : K c) (ht : K tsc) {prop : Option Str} {es es' : List XEntry} (h : es.Perm es')
    (hn : ∀ e ∈ es, e.term ≠ .keyword .nest) (ha : es.Pairwise (EntriesApart c)) {s s' : XState} (hs : SimSt s s') :
    To SimSt (entriesBody E (unlimited E) s c tsc prop es) (entriesBody E (unlimited E) s' c tsc prop es') := by
  intro t hst
  refine foldlM_perm (P := SimSt) (fun h => h.symm) (fun h h' => h.trans h') (fun h => EntriesApart.symm h) h ha ?_ ?_ hs hst
  · intro e _ s s' t hs hst
    exact entryStep_to hc ht ⟨rfl, rfl, vc_refl H _, fun _ => rfl⟩ hs t hst
  · intro e he e' he' hap s t u hs h1 h2
    obtain ⟨r, hr, hi⟩ := entryStep_does (tsc := tsc) (prop := prop) H hc (hn e he)
    obtain ⟨r', hr', hi'⟩ := entryStep_does (tsc := tsc) (prop := prop) H hc (hn e' he')
    obtain ⟨g, vs, rfl, rfl⟩ := (hi _ _).1 h1
    obtain ⟨g', ws, rfl, rfl⟩ := (hi' _ _).1 h2
    refine ⟨Write.run s ws, Write.run (Write.run s ws) vs, (hi' _ _).2 ⟨fun k hk => ?_, ws, rfl, rfl⟩,
      (hi _ _).2 ⟨fun k hk => ?_, vs, rfl, rfl⟩, ?_⟩
    · rw [← g' k hk, Write.run_keyword fun w hw => guard_free hap.symm hk (hr vs rfl w hw).2]
    · rw [← g k hk, Write.run_keyword fun w hw => guard_free hap hk (hr' ws rfl w hw).2]
    · exact Write.run_exchange (fun w hw => (hr vs rfl w hw).1) (fun w hw => (hr' ws rfl w hw).1)
        (fun v hv w hw => apart_free hap (hr vs rfl v hv).2 (hr' ws rfl w hw).2) hs

end JsonLd
