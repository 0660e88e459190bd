import Verif.Spec.PropMap
import Verif.Proofs.FlattenInv
import Mathlib.Data.List.Nodup
import Mathlib.Data.List.Induction
/-!
# Property maps: lemmas
-/

namespace JsonLd
open Spec

namespace PropMap
variable {α : Type}

theorem matches_iff (q : PKey) (k : Id) : q.matches k = true ↔ k = denotes q := by
  cases q <;> cases k <;> simp [PKey.matches, denotes, eq_comm]

theorem find_eq (q : PKey) (ps : PropMap α) : find q ps = lookupProp (denotes q) ps := by
  induction ps with
  | nil => rfl
  | cons e ps ih =>
    obtain ⟨k, vs⟩ := e
    simp only [find, lookupProp, matches_iff, ih]

theorem setKey_same {β : Type} {k : Id} {v : β} {l : List (Id × β)} (h : lookupProp k l = some v) :
    setKey k v l = l := by
  induction l with
  | nil => rfl
  | cons e l ih =>
    obtain ⟨a, x⟩ := e
    simp only [lookupProp] at h
    simp only [setKey]
    split at h
    · cases h; simp [*]
    · simp [*, ih h]

/-- A binding is replaced or added at the end. -/
def put {β : Type} (ps : List (Id × β)) (k : Id) (f : Option β → β) : List (Id × β) :=
  match lookupProp k ps with
  | some vs => setKey k (f (some vs)) ps
  | none => ps ++ [(k, f none)]

theorem put_lookup {β : Type} (ps : List (Id × β)) (k : Id) (f : Option β → β) (k' : Id) :
    lookupProp k' (put ps k f) =
      if k' = k then some (f (lookupProp k ps)) else lookupProp k' ps := by
  unfold put
  split
  · rename_i os h
    rw [lookupProp_setKey]
    split <;> simp [h]
  · rename_i h
    rw [lookupProp_append]
    by_cases e : k' = k
    · subst e; simp [h, lookupProp]
    · simp [e, Ne.symm e, lookupProp]

theorem put_keys {β : Type} (ps : List (Id × β)) (k : Id) (f : Option β → β) :
    (put ps k f).map Prod.fst =
      if k ∈ ps.map Prod.fst then ps.map Prod.fst else ps.map Prod.fst ++ [k] := by
  unfold put
  split
  · rename_i os h
    rw [setKey_keys, if_pos]
    by_contra hn
    rw [lookupProp_eq_none.2 hn] at h
    cases h
  · rename_i h
    rw [if_neg (lookupProp_eq_none.1 h)]
    simp

theorem insertAll_put (ps : PropMap α) (k : Id) (vs : List α) :
    ps.insertAll k vs = put ps k fun x => x.getD [] ++ vs := by
  unfold insertAll put
  split <;> rename_i h <;> rw [h] <;> simp

theorem insert_eq (ps : PropMap α) (k : Id) (v : α) : ps.insert k v = ps.insertAll k [v] := rfl

theorem insertAllUnique_put (eqv : α → α → Bool) (ps : PropMap α) (k : Id) (vs : List α) :
    ps.insertAllUnique eqv k vs = put ps k fun x => addEach eqv (x.getD []) vs := by
  unfold insertAllUnique put
  split <;> rename_i h <;> rw [h] <;> simp

theorem insertUnique_all (eqv : α → α → Bool) (ps : PropMap α) (k : Id) (v : α) :
    ps.insertUnique eqv k v = ps.insertAllUnique eqv k [v] := by
  unfold insertUnique insertAllUnique
  split
  · rename_i vs h
    simp only [addEach]
    split
    · rfl
    · rw [setKey_same h]
  · simp [addEach]

theorem set_put (ps : PropMap α) (k : Id) (vs : List α) :
    ps.set k vs = put ps k fun _ => vs := by
  unfold set put
  split <;> rename_i h <;> rw [h]

theorem addedOnce_iff (eqv : α → α → Bool) (ws vs r : List α) :
    AddedOnce eqv ws vs r ↔ r = addEach eqv ws vs := by
  constructor
  · intro h
    induction h with
    | done => rfl
    | known ws v vs r hw _ ih =>
      obtain ⟨w, hw, he⟩ := hw
      rw [ih, addEach, if_neg]
      simp only [List.all_eq_true, Bool.not_eq_true', not_forall, Bool.not_eq_false]
      exact ⟨w, hw, he⟩
    | fresh ws v vs r hw _ ih =>
      rw [ih, addEach, if_pos]
      simpa using hw
  · rintro rfl
    induction vs generalizing ws with
    | nil => exact .done ws
    | cons v vs ih =>
      simp only [addEach]
      split
      · rename_i h
        exact .fresh ws v vs _ (by simpa using h) (ih _)
      · rename_i h
        exact .known ws v vs _ (by simpa using h) (ih _)

theorem addEach_append (eqv : α → α → Bool) (ws vs us : List α) :
    addEach eqv ws (vs ++ us) = addEach eqv (addEach eqv ws vs) us := by
  induction vs generalizing ws with
  | nil => rfl
  | cons v vs ih => simp [addEach, ih]

/-! ## Look-ups after a call -/

theorem lookup_insertAll (ps : PropMap α) (k : Id) (vs : List α) (k' : Id) :
    lookupProp k' (ps.insertAll k vs) =
      if k' = k then some ((lookupProp k ps).getD [] ++ vs) else lookupProp k' ps := by
  rw [insertAll_put, put_lookup]

theorem lookup_insertAllUnique (eqv : α → α → Bool) (ps : PropMap α) (k : Id) (vs : List α)
    (k' : Id) : lookupProp k' (ps.insertAllUnique eqv k vs) =
      if k' = k then some (addEach eqv ((lookupProp k ps).getD []) vs) else lookupProp k' ps := by
  rw [insertAllUnique_put, put_lookup]

theorem lookup_set (ps : PropMap α) (k : Id) (vs : List α) (k' : Id) :
    lookupProp k' (ps.set k vs) = if k' = k then some vs else lookupProp k' ps := by
  rw [set_put, put_lookup]

theorem boundIn_nil (p : Id) : boundIn p ([] : List (Id × List α)) = none := rfl

theorem boundIn_cons (p : Id) (e : Id × List α) (es : List (Id × List α)) :
    boundIn p (e :: es) =
      if e.1 = p then some (e.2 ++ (boundIn p es).getD []) else boundIn p es := by
  unfold boundIn
  by_cases h : e.1 = p
  · simp only [h, decide_true, List.filter_cons_of_pos, if_true]
    generalize es.filter (fun e => decide (e.1 = p)) = l
    cases l <;> simp
  · simp [h]

theorem lookup_extend (ps : PropMap α) (es : List (Id × List α)) (p : Id) :
    lookupProp p (ps.extend es) = match boundIn p es with
      | some vs => some ((lookupProp p ps).getD [] ++ vs)
      | none => lookupProp p ps := by
  induction es generalizing ps with
  | nil => rfl
  | cons e es ih =>
    have : ps.extend (e :: es) = (ps.insertAll e.1 e.2).extend es := rfl
    rw [this, ih, boundIn_cons, lookup_insertAll]
    by_cases h : e.1 = p
    · subst h
      simp only [if_true]
      cases boundIn e.1 es <;> simp
    · rw [if_neg (Ne.symm h), if_neg h]

theorem lookup_extendUnique (eqv : α → α → Bool) (ps : PropMap α) (es : List (Id × List α))
    (p : Id) : lookupProp p (ps.extendUnique eqv es) = match boundIn p es with
      | some vs => some (addEach eqv ((lookupProp p ps).getD []) vs)
      | none => lookupProp p ps := by
  induction es generalizing ps with
  | nil => rfl
  | cons e es ih =>
    have : ps.extendUnique eqv (e :: es) = (ps.insertAllUnique eqv e.1 e.2).extendUnique eqv es := rfl
    rw [this, ih, boundIn_cons, lookup_insertAllUnique]
    by_cases h : e.1 = p
    · subst h
      simp only [if_true]
      cases boundIn e.1 es <;> simp [addEach_append]
    · rw [if_neg (Ne.symm h), if_neg h]

/-! ## Removal -/

/-- Nothing is removed, or an entry is replaced by the last one. -/
theorem swapRemove_cases (q : PKey) (ps : PropMap α) :
    (denotes q ∉ ps.map Prod.fst ∧ swapRemove q ps = ps) ∨
    (∃ l vs, ps = l ++ [(denotes q, vs)] ∧ denotes q ∉ l.map Prod.fst ∧ swapRemove q ps = l) ∨
    (∃ l vs m e, ps = l ++ (denotes q, vs) :: m ++ [e] ∧ denotes q ∉ l.map Prod.fst ∧
      swapRemove q ps = l ++ e :: m) := by
  induction ps with
  | nil => left; simp [swapRemove]
  | cons e ps ih =>
    obtain ⟨k, vs⟩ := e
    simp only [swapRemove]
    by_cases h : q.matches k = true
    · have hk := (matches_iff q k).1 h
      subst hk
      rw [if_pos h]
      right
      rcases List.eq_nil_or_concat ps with rfl | ⟨m, e, rfl⟩
      · left; exact ⟨[], vs, rfl, by simp, rfl⟩
      · right
        refine ⟨[], vs, m, e, by simp, by simp, ?_⟩
        simp
    · have hk : k ≠ denotes q := fun e => h ((matches_iff q k).2 e)
      rw [if_neg h]
      rcases ih with ⟨h1, h2⟩ | ⟨l, ws, rfl, h1, h2⟩ | ⟨l, ws, m, e, rfl, h1, h2⟩
      · left
        refine ⟨?_, by rw [h2]⟩
        simp only [List.map_cons, List.mem_cons, not_or]
        exact ⟨Ne.symm hk, h1⟩
      · right; left
        refine ⟨(k, vs) :: l, ws, by simp, ?_, by rw [h2]⟩
        simp only [List.map_cons, List.mem_cons, not_or]
        exact ⟨Ne.symm hk, h1⟩
      · right; right
        refine ⟨(k, vs) :: l, ws, m, e, by simp, ?_, by rw [h2]; rfl⟩
        simp only [List.map_cons, List.mem_cons, not_or]
        exact ⟨Ne.symm hk, h1⟩

theorem swapRemove_perm {q : PKey} {ps : PropMap α} (hn : (ps.map Prod.fst).Nodup) :
    (swapRemove q ps).Perm (ps.filter fun e => decide (e.1 ≠ denotes q)) := by
  have keep : ∀ l : PropMap α, denotes q ∉ l.map Prod.fst →
      l.filter (fun e => decide (e.1 ≠ denotes q)) = l := by
    intro l hl
    rw [List.filter_eq_self]
    intro e he
    simp only [decide_eq_true_eq]
    rintro h
    exact hl (h ▸ List.mem_map_of_mem he)
  rcases swapRemove_cases q ps with ⟨h1, h2⟩ | ⟨l, vs, rfl, h1, h2⟩ | ⟨l, vs, m, e, rfl, h1, h2⟩
  · rw [h2, keep ps h1]
  · rw [h2, List.filter_append, keep l h1]; simp
  · have hm : denotes q ∉ (m ++ [e]).map Prod.fst := by
      rw [List.append_assoc, List.map_append, List.nodup_append] at hn
      have := hn.2.1
      simp only [List.cons_append, List.map_cons, List.nodup_cons] at this
      exact this.1
    rw [h2, List.append_assoc, List.filter_append, keep l h1]
    refine List.Perm.append_left l ?_
    rw [List.cons_append, List.filter_cons_of_neg (by simp), keep _ hm]
    exact (List.perm_append_singleton e m).symm

theorem nodup_swapRemove {q : PKey} {ps : PropMap α} (hn : (ps.map Prod.fst).Nodup) :
    ((swapRemove q ps).map Prod.fst).Nodup :=
  (((swapRemove_perm hn).map Prod.fst).nodup_iff).2
    (hn.sublist ((List.filter_sublist).map Prod.fst))

theorem lookup_swapRemove {q : PKey} {ps : PropMap α} (hn : (ps.map Prod.fst).Nodup) (p : Id) :
    lookupProp p (swapRemove q ps) = if p = denotes q then none else lookupProp p ps := by
  have hp := swapRemove_perm (q := q) hn
  by_cases h : p = denotes q
  · rw [if_pos h, lookupProp_eq_none, (hp.map Prod.fst).mem_iff]
    intro hm
    obtain ⟨e, he, rfl⟩ := List.mem_map.1 hm
    have := (List.mem_filter.1 he).2
    simp [h] at this
  · rw [if_neg h]
    apply Option.ext
    intro vs
    rw [lookupProp_iff (nodup_swapRemove hn), lookupProp_iff hn, hp.mem_iff, List.mem_filter]
    simp [h]

/-! ## Keys -/

/-- A key is added at the end unless it is there. -/
def addKey (ks : List Id) (k : Id) : List Id := if k ∈ ks then ks else ks ++ [k]

theorem keys_insertAll' (ps : PropMap α) (k : Id) (vs : List α) :
    (ps.insertAll k vs).map Prod.fst = addKey (ps.map Prod.fst) k := by
  rw [insertAll_put, put_keys]; rfl

theorem keys_insertAllUnique (eqv : α → α → Bool) (ps : PropMap α) (k : Id) (vs : List α) :
    (ps.insertAllUnique eqv k vs).map Prod.fst = addKey (ps.map Prod.fst) k := by
  rw [insertAllUnique_put, put_keys]; rfl

theorem keys_set (ps : PropMap α) (k : Id) (vs : List α) :
    (ps.set k vs).map Prod.fst = addKey (ps.map Prod.fst) k := by
  rw [set_put, put_keys]; rfl

theorem keys_step (eqv : α → α → Bool) (ps : PropMap α) (o : Op α) (h : keeps o = true) :
    (step eqv ps o).map Prod.fst = (binds o).foldl addKey (ps.map Prod.fst) := by
  cases o with
  | insert k v => rw [step, insert_eq, keys_insertAll']; rfl
  | insertUnique k v => rw [step, insertUnique_all, keys_insertAllUnique]; rfl
  | insertAll k vs => exact keys_insertAll' ps k vs
  | insertAllUnique k vs => exact keys_insertAllUnique eqv ps k vs
  | set k vs => exact keys_set ps k vs
  | remove q => cases h
  | clear => cases h
  | extend es =>
    clear h
    simp only [step, binds]
    induction es generalizing ps with
    | nil => rfl
    | cons e es ih =>
      have : ps.extend (e :: es) = (ps.insertAll e.1 e.2).extend es := rfl
      rw [this, ih, keys_insertAll']; rfl
  | extendUnique es =>
    clear h
    simp only [step, binds]
    induction es generalizing ps with
    | nil => rfl
    | cons e es ih =>
      have : ps.extendUnique eqv (e :: es) = (ps.insertAllUnique eqv e.1 e.2).extendUnique eqv es := rfl
      rw [this, ih, keys_insertAllUnique]; rfl

theorem nodup_addKeys {ks : List Id} (l : List Id) (h : ks.Nodup) : (l.foldl addKey ks).Nodup := by
  induction l generalizing ks with
  | nil => exact h
  | cons k l ih =>
    apply ih
    unfold addKey
    split
    · exact h
    · rename_i hk
      rw [List.nodup_append]
      refine ⟨h, by simp, ?_⟩
      rintro a ha b hb rfl
      exact hk (List.mem_singleton.1 hb ▸ ha)

theorem nodup_step (eqv : α → α → Bool) {ps : PropMap α} (o : Op α) (hn : (ps.map Prod.fst).Nodup) :
    ((step eqv ps o).map Prod.fst).Nodup := by
  by_cases h : keeps o = true
  · rw [keys_step eqv ps o h]; exact nodup_addKeys _ hn
  · cases o with
    | remove q => exact nodup_swapRemove hn
    | clear => exact List.nodup_nil
    | insert k v => exact absurd rfl h
    | insertUnique k v => exact absurd rfl h
    | insertAll k vs => exact absurd rfl h
    | insertAllUnique k vs => exact absurd rfl h
    | set k vs => exact absurd rfl h
    | extend es => exact absurd rfl h
    | extendUnique es => exact absurd rfl h

theorem run_append (eqv : α → α → Bool) (ops : List (Op α)) (o : Op α) :
    run eqv (ops ++ [o]) = step eqv (run eqv ops) o := by
  simp [run]

theorem nodup_run (eqv : α → α → Bool) (ops : List (Op α)) :
    ((run eqv ops).map Prod.fst).Nodup := by
  induction ops using List.reverseRecOn with
  | nil => exact List.nodup_nil
  | append_singleton ops o ih => rw [run_append]; exact nodup_step eqv o ih

/-! ## The effect of a call -/

theorem effect_step (eqv : α → α → Bool) (p : Id) (o : Op α) {ps : PropMap α}
    (hn : (ps.map Prod.fst).Nodup) : Effect eqv p o (lookupProp p ps) (lookupProp p (step eqv ps o)) := by
  cases o with
  | insert k v =>
    rw [step, insert_eq, lookup_insertAll]
    by_cases h : p = k
    · subst h; rw [if_pos rfl]; exact .insert v _
    · rw [if_neg h]; exact .other _ _ (Ne.symm h)
  | insertUnique k v =>
    rw [step, insertUnique_all, lookup_insertAllUnique]
    by_cases h : p = k
    · subst h; rw [if_pos rfl]; exact .insertUnique v _ _ ((addedOnce_iff ..).2 rfl)
    · rw [if_neg h]; exact .other _ _ (Ne.symm h)
  | insertAll k vs =>
    rw [step, lookup_insertAll]
    by_cases h : p = k
    · subst h; rw [if_pos rfl]; exact .insertAll vs _
    · rw [if_neg h]; exact .other _ _ (Ne.symm h)
  | insertAllUnique k vs =>
    rw [step, lookup_insertAllUnique]
    by_cases h : p = k
    · subst h; rw [if_pos rfl]; exact .insertAllUnique vs _ _ ((addedOnce_iff ..).2 rfl)
    · rw [if_neg h]; exact .other _ _ (Ne.symm h)
  | set k vs =>
    rw [step, lookup_set]
    by_cases h : p = k
    · subst h; rw [if_pos rfl]; exact .set vs _
    · rw [if_neg h]; exact .other _ _ (Ne.symm h)
  | remove q =>
    rw [step, remove, lookup_swapRemove hn]
    by_cases h : p = denotes q
    · rw [if_pos h]; exact .remove q _ h.symm
    · rw [if_neg h]; exact .other _ _ (Ne.symm h)
  | clear => exact .clear _
  | extend es =>
    rw [step, lookup_extend]
    cases h : boundIn p es with
    | none => exact .other _ _ h
    | some vs => exact .extend es vs _ h
  | extendUnique es =>
    rw [step, lookup_extendUnique]
    cases h : boundIn p es with
    | none => exact .other _ _ h
    | some vs => exact .extendUnique es vs _ _ h ((addedOnce_iff ..).2 rfl)

theorem effect_det {eqv : α → α → Bool} {p : Id} {o : Op α} {x y z : Option (List α)}
    (h : Effect eqv p o x y) (h' : Effect eqv p o x z) : y = z := by
  have bn : ∀ {es : List (Id × List α)} {vs}, boundIn p es = some vs → boundIn p es ≠ none := by
    intro es vs h h'; rw [h] at h'; cases h'
  cases h with
  | insert v => cases h' with
    | insert => rfl
    | other _ _ hk => exact absurd rfl hk
  | insertUnique v _ r hr => cases h' with
    | insertUnique _ _ r' hr' => rw [(addedOnce_iff ..).1 hr, (addedOnce_iff ..).1 hr']
    | other _ _ hk => exact absurd rfl hk
  | insertAll vs => cases h' with
    | insertAll => rfl
    | other _ _ hk => exact absurd rfl hk
  | insertAllUnique v _ r hr => cases h' with
    | insertAllUnique _ _ r' hr' => rw [(addedOnce_iff ..).1 hr, (addedOnce_iff ..).1 hr']
    | other _ _ hk => exact absurd rfl hk
  | set vs => cases h' with
    | set => rfl
    | other _ _ hk => exact absurd rfl hk
  | remove q _ hq => cases h' with
    | remove => rfl
    | other _ _ hk => exact absurd hq hk
  | clear => cases h' with
    | clear => rfl
    | other _ _ hk => exact absurd hk id
  | extend es vs _ hb => cases h' with
    | extend _ vs' _ hb' => rw [hb] at hb'; cases hb'; rfl
    | other _ _ hk => exact absurd hk (bn hb)
  | extendUnique es vs _ r hb hr => cases h' with
    | extendUnique _ vs' _ r' hb' hr' =>
      rw [hb] at hb'; cases hb'
      rw [(addedOnce_iff ..).1 hr, (addedOnce_iff ..).1 hr']
    | other _ _ hk => exact absurd hk (bn hb)
  | other _ _ hk => cases h' with
    | insert v => exact absurd rfl hk
    | insertUnique v _ r hr => exact absurd rfl hk
    | insertAll vs => exact absurd rfl hk
    | insertAllUnique v _ r hr => exact absurd rfl hk
    | set vs => exact absurd rfl hk
    | remove q _ hq => exact absurd hq hk
    | clear => exact absurd hk id
    | extend es vs _ hb => exact absurd hk (bn hb)
    | extendUnique es vs _ r hb hr => exact absurd hk (bn hb)
    | other _ _ hk => rfl

theorem history_det {eqv : α → α → Bool} {p : Id} {ops : List (Op α)} {x y : Option (List α)}
    (h : History eqv p ops x) (h' : History eqv p ops y) : x = y := by
  induction h generalizing y with
  | new =>
    generalize e : ([] : List (Op α)) = l at h'
    cases h' with
    | new => rfl
    | call ops o a b _ _ => exact absurd e.symm (by simp)
  | call ops o a b _ he ih =>
    generalize e : ops ++ [o] = l at h'
    cases h' with
    | new => exact absurd e (by simp)
    | call ops' o' a' b' hh he' =>
      obtain ⟨h1, h2⟩ := List.append_inj' e rfl
      subst h1; cases h2
      rw [← ih hh] at he'
      exact effect_det he he'

theorem history_run (eqv : α → α → Bool) (p : Id) (ops : List (Op α)) :
    History eqv p ops (lookupProp p (run eqv ops)) := by
  induction ops using List.reverseRecOn with
  | nil => exact .new
  | append_singleton ops o ih =>
    rw [run_append]
    exact .call ops o _ _ ih (effect_step eqv p o (nodup_run eqv ops))

end PropMap

end JsonLd
