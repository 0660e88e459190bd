import Verif.Model.AddValue
import Verif.Spec.AddValue
/-!
# Adding values to objects
-/

namespace JsonLd
open Spec

/-- The keys of an object are distinct. -/
def DistinctKeys (m : List (Str × Json)) : Prop := (m.map Prod.fst).Nodup

theorem lookup_filter {k k' : Str} (h : k' ≠ k) (m : List (Str × Json)) :
    lookupKey k' (m.filter fun e => decide (e.1 ≠ k)) = lookupKey k' m := by
  induction m with
  | nil => rfl
  | cons e m ih =>
    obtain ⟨x, w⟩ := e
    by_cases hx : x = k
    · subst hx
      simp [lookupKey, Ne.symm h] at ih ⊢
      exact ih
    · by_cases hk : x = k'
      · simp [lookupKey, hk, h]
      · simp [lookupKey, hx, hk] at ih ⊢
        exact ih

theorem filter_key {k : Str} {m : List (Str × Json)} (h : DistinctKeys m) :
    m.filter (fun e => decide (e.1 = k)) = (lookupKey k m).toList.map fun v => (k, v) := by
  induction m with
  | nil => rfl
  | cons e m ih =>
    obtain ⟨x, w⟩ := e
    simp only [DistinctKeys, List.map_cons, List.nodup_cons] at h
    by_cases hx : x = k
    · subst hx
      have : m.filter (fun e => decide (e.1 = x)) = [] := by
        rw [List.filter_eq_nil_iff]
        intro e he
        simp only [decide_eq_true_eq]
        intro hk
        exact h.1 (List.mem_map.2 ⟨e, he, hk⟩)
      simp [lookupKey, this]
    · simp [lookupKey, hx, ih h.2]

theorem jGet_eq {k : Str} {m : List (Str × Json)} (h : DistinctKeys m) :
    jGet k m = .ok (lookupKey k m) := by
  unfold jGet
  rw [filter_key h]
  cases lookupKey k m <;> rfl

/-- `m'` is `m` with the value `v` for the key `k`. -/
structure WithEntry (m : List (Str × Json)) (k : Str) (v : Option Json) (m' : List (Str × Json)) : Prop where
  distinct : DistinctKeys m'
  others : m'.filter (fun e => decide (e.1 ≠ k)) = m.filter (fun e => decide (e.1 ≠ k))
  value : lookupKey k m' = v

theorem distinct_filter {m : List (Str × Json)} (h : DistinctKeys m) (p : Str × Json → Bool) :
    DistinctKeys (m.filter p) :=
  List.Sublist.nodup (List.Sublist.map _ List.filter_sublist) h

theorem jInsert_keys (k : Str) (v : Json) {m : List (Str × Json)} (h : DistinctKeys m) :
    ∀ x, x ∈ (jInsert k v m).map Prod.fst ↔ x = k ∨ x ∈ m.map Prod.fst := by
  induction m with
  | nil => intro x; simp [jInsert]
  | cons e m ih =>
    obtain ⟨y, w⟩ := e
    simp only [DistinctKeys, List.map_cons, List.nodup_cons] at h
    intro x
    by_cases hy : y = k
    · subst hy
      simp only [jInsert, if_pos]
      have : m.filter (fun e => decide (e.1 ≠ y)) = m := by
        rw [List.filter_eq_self]
        intro e he
        simp only [ne_eq, decide_eq_true_eq]
        intro hk
        exact h.1 (List.mem_map.2 ⟨e, he, hk⟩)
      rw [this]
      simp
    · simp only [jInsert, hy, if_false, List.map_cons, List.mem_cons, ih h.2 x]
      grind

theorem jInsert_entry (k : Str) (v : Json) {m : List (Str × Json)} (h : DistinctKeys m) :
    WithEntry m k (some v) (jInsert k v m) := by
  induction m with
  | nil => exact ⟨by simp [jInsert, DistinctKeys], by simp [jInsert], by simp [jInsert, lookupKey]⟩
  | cons e m ih =>
    obtain ⟨y, w⟩ := e
    simp only [DistinctKeys, List.map_cons, List.nodup_cons] at h
    by_cases hy : y = k
    · subst hy
      have : m.filter (fun e => decide (e.1 ≠ y)) = m := by
        rw [List.filter_eq_self]
        intro e he
        simp only [ne_eq, decide_eq_true_eq]
        intro hk
        exact h.1 (List.mem_map.2 ⟨e, he, hk⟩)
      refine ⟨?_, ?_, ?_⟩
      · simp only [jInsert, if_pos, this]
        exact List.nodup_cons.2 h
      · simp only [jInsert, if_pos, this]
        simp
      · simp [jInsert, lookupKey]
    · obtain ⟨h1, h2, h3⟩ := ih h.2
      refine ⟨?_, ?_, ?_⟩
      · simp only [jInsert, hy, if_false, DistinctKeys, List.map_cons, List.nodup_cons]
        refine ⟨?_, h1⟩
        rw [jInsert_keys k v h.2]
        rintro (e | e)
        · exact hy e
        · exact h.1 e
      · simp [jInsert, hy] at h2 ⊢
        exact h2
      · simp [jInsert, hy, lookupKey, h3]

theorem mapEntry (k : Str) (v : Json) {m : List (Str × Json)} (h : DistinctKeys m) {w : Json}
    (hw : lookupKey k m = some w) :
    WithEntry m k (some v) (m.map fun e => if e.1 = k then (e.1, v) else e) := by
  have keys : ∀ m : List (Str × Json),
      (m.map fun e => if e.1 = k then (e.1, v) else e).map Prod.fst = m.map Prod.fst := by
    intro m
    induction m with
    | nil => rfl
    | cons e m ih => simp only [List.map_cons, ih]; split <;> rfl
  refine ⟨by unfold DistinctKeys; rw [keys]; exact h, ?_, ?_⟩
  · clear hw h
    induction m with
    | nil => rfl
    | cons e m ih =>
      by_cases he : e.1 = k
      · simp [he] at ih ⊢; exact ih
      · simp [he] at ih ⊢; exact ih
  · clear h
    induction m with
    | nil => simp [lookupKey] at hw
    | cons e m ih =>
      obtain ⟨y, u⟩ := e
      by_cases he : y = k
      · simp [he, lookupKey]
      · simp only [lookupKey, he, if_false, List.map_cons] at hw ⊢
        exact ih hw

/-- The first part of an addition, on the value of the key. -/
def startOn (s : Option Json) (a : Bool) : Option Json :=
  match s with
  | some (.arr l) => some (.arr l)
  | some v => some (.arr [v])
  | none => if a then some (.arr []) else none

/-- The last part of an addition, on the value of the key. -/
def leafOn (s : Option Json) (v : Json) : Option Json :=
  match s with
  | some (.arr l) => some (.arr (l ++ [v]))
  | _ => some v

mutual
/-- An addition, on the value of the key. -/
def addOn (s : Option Json) (v : Json) (a : Bool) : Option Json :=
  match v with
  | .arr l => addAllOn (startOn s a) l
  | v => leafOn (startOn s a) v
/-- Additions, on the value of the key. -/
def addAllOn (s : Option Json) : List Json → Option Json
  | [] => s
  | v :: l => addAllOn (addOn s v false) l
end

theorem WithEntry.refl {m : List (Str × Json)} (h : DistinctKeys m) (k : Str) :
    WithEntry m k (lookupKey k m) m := ⟨h, rfl, rfl⟩

theorem addStart_entry {m : List (Str × Json)} (h : DistinctKeys m) (k : Str) (a : Bool) :
    ∃ m', addStart m k a = .ok m' ∧ WithEntry m k (startOn (lookupKey k m) a) m' := by
  have hg := jGet_eq (k := k) h
  cases hl : lookupKey k m with
  | none =>
    rw [hl] at hg
    cases a with
    | false =>
      exact ⟨m, by simp [addStart, hg, bind, Except.bind], by
        have := WithEntry.refl h k; rw [hl] at this; exact this⟩
    | true =>
      exact ⟨_, by simp [addStart, hg, bind, Except.bind], jInsert_entry k _ h⟩
  | some w =>
    rw [hl] at hg
    have fin : ∃ m', Except.ok (ε := CompErr) (jInsert k (.arr [w]) (m.filter fun e => decide (e.1 ≠ k))) = .ok m' ∧
        WithEntry m k (some (.arr [w])) m' := by
      refine ⟨_, rfl, ?_⟩
      obtain ⟨h1, h2, h3⟩ := jInsert_entry k (.arr [w]) (distinct_filter h fun e => decide (e.1 ≠ k))
      exact ⟨h1, by rw [h2, List.filter_filter]; simp, h3⟩
    cases w with
    | arr l =>
      exact ⟨m, by simp [addStart, hg, bind, Except.bind], by
        have := WithEntry.refl h k; rw [hl] at this; exact this⟩
    | null => simpa [addStart, hg, bind, Except.bind, startOn] using fin
    | bool b => simpa [addStart, hg, bind, Except.bind, startOn] using fin
    | num b => simpa [addStart, hg, bind, Except.bind, startOn] using fin
    | str b => simpa [addStart, hg, bind, Except.bind, startOn] using fin
    | obj b => simpa [addStart, hg, bind, Except.bind, startOn] using fin

/-- The value of the key is an array or there is none. -/
def ArrayOrNone (s : Option Json) : Prop := s = none ∨ ∃ l, s = some (.arr l)

theorem startOn_form (s : Option Json) (a : Bool) : ArrayOrNone (startOn s a) := by
  cases s with
  | none => cases a <;> simp [startOn, ArrayOrNone]
  | some v => cases v <;> simp [startOn, ArrayOrNone]

theorem addLeaf_entry {m : List (Str × Json)} (h : DistinctKeys m) (k : Str) (v : Json)
    (hf : ArrayOrNone (lookupKey k m)) :
    ∃ m', addLeaf m k v = .ok m' ∧ WithEntry m k (leafOn (lookupKey k m) v) m' := by
  have hg := jGet_eq (k := k) h
  rcases hf with hl | ⟨l, hl⟩
  · rw [hl] at hg ⊢
    exact ⟨_, by simp [addLeaf, hg, bind, Except.bind], jInsert_entry k _ h⟩
  · rw [hl] at hg
    refine ⟨_, by simp [addLeaf, hg, bind, Except.bind]; rfl, ?_⟩
    rw [hl]
    exact mapEntry k _ h hl

theorem WithEntry.comp {m m' m'' : List (Str × Json)} {k : Str} {v w : Option Json}
    (h : WithEntry m k v m') (h' : WithEntry m' k w m'') : WithEntry m k w m'' :=
  ⟨h'.distinct, h'.others.trans h.others, h'.value⟩

theorem addValue_entry (k : Str) (v : Json) : ∀ (m : List (Str × Json)) (a : Bool), DistinctKeys m →
    ∃ m', addValue m k v a = .ok m' ∧ WithEntry m k (addOn (lookupKey k m) v a) m' := by
  have scalar : ∀ (v : Json), (∀ m a, addValue m k v a = (addStart m k a).bind fun m => addLeaf m k v) → (∀ s a, addOn s v a = leafOn (startOn s a) v) →
      ∀ (m : List (Str × Json)) (a : Bool), DistinctKeys m →
        ∃ m', addValue m k v a = .ok m' ∧ WithEntry m k (addOn (lookupKey k m) v a) m' := by
    intro v h1 h2 m a hd
    obtain ⟨m1, e1, w1⟩ := addStart_entry hd k a
    obtain ⟨m2, e2, w2⟩ := addLeaf_entry w1.distinct k v (by rw [w1.value]; exact startOn_form _ _)
    rw [w1.value] at w2
    exact ⟨m2, by rw [h1, e1]; exact e2, by rw [h2]; exact w1.comp w2⟩
  induction v using Json.ind with
  | hnull => exact scalar _ (fun m a => by simp [addValue]) (fun s a => by simp [addOn])
  | hbool => exact scalar _ (fun m a => by simp [addValue]) (fun s a => by simp [addOn])
  | hnum => exact scalar _ (fun m a => by simp [addValue]) (fun s a => by simp [addOn])
  | hstr => exact scalar _ (fun m a => by simp [addValue]) (fun s a => by simp [addOn])
  | hobj => exact scalar _ (fun m a => by simp [addValue]) (fun s a => by simp [addOn])
  | harr l ih =>
    intro m a hd
    obtain ⟨m1, e1, w1⟩ := addStart_entry hd k a
    have loop : ∀ (l : List Json), (∀ x ∈ l, ∀ (m : List (Str × Json)) (a : Bool), DistinctKeys m →
          ∃ m', addValue m k x a = .ok m' ∧ WithEntry m k (addOn (lookupKey k m) x a) m') →
        ∀ m : List (Str × Json), DistinctKeys m →
          ∃ m', addValues m k l = .ok m' ∧ WithEntry m k (addAllOn (lookupKey k m) l) m' := by
      intro l
      induction l with
      | nil => intro _ m hd; exact ⟨m, by rw [addValues], by rw [addAllOn]; exact .refl hd k⟩
      | cons x l ihl =>
        intro hx m hd
        obtain ⟨m1, e1, w1⟩ := hx x (by simp) m false hd
        obtain ⟨m2, e2, w2⟩ := ihl (fun y hy => hx y (by simp [hy])) m1 w1.distinct
        rw [w1.value] at w2
        exact ⟨m2, by rw [addValues, e1]; exact e2, by rw [addAllOn]; exact w1.comp w2⟩
    obtain ⟨m2, e2, w2⟩ := loop l ih m1 w1.distinct
    rw [w1.value] at w2
    exact ⟨m2, by rw [addValue, e1]; exact e2, by rw [addOn]; exact w1.comp w2⟩

/-! ## The values held -/

theorem held_startOn (s : Option Json) (a : Bool) : held (startOn s a) = held s := by
  cases s with
  | none => cases a <;> rfl
  | some v => cases v <;> rfl

theorem held_leafOn {s : Option Json} (h : ArrayOrNone s) {v : Json} (hv : NotArray v) :
    held (leafOn s v) = held s ++ [v] := by
  rcases h with rfl | ⟨l, rfl⟩
  · cases v with
    | arr l => exact absurd rfl (hv l)
    | _ => rfl
  · rfl

theorem held_addOn (v : Json) : ∀ (s : Option Json) (a : Bool), held (addOn s v a) = held s ++ leaves v := by
  have scalar : ∀ v : Json, NotArray v → (∀ s a, addOn s v a = leafOn (startOn s a) v) →
      leaves v = [v] → ∀ s a, held (addOn s v a) = held s ++ leaves v := by
    intro v h1 h2 h3 s a
    rw [h2, held_leafOn (startOn_form _ _) h1, held_startOn, h3]
  induction v using Json.ind with
  | hnull => exact scalar _ nofun (fun s a => by simp [addOn]) (by simp [leaves])
  | hbool => exact scalar _ nofun (fun s a => by simp [addOn]) (by simp [leaves])
  | hnum => exact scalar _ nofun (fun s a => by simp [addOn]) (by simp [leaves])
  | hstr => exact scalar _ nofun (fun s a => by simp [addOn]) (by simp [leaves])
  | hobj => exact scalar _ nofun (fun s a => by simp [addOn]) (by simp [leaves])
  | harr l ih =>
    intro s a
    rw [addOn, leaves]
    have loop : ∀ s, held (addAllOn s l) = held s ++ leavesAll l := by
      clear s a
      induction l with
      | nil => intro s; rw [addAllOn, leavesAll]; simp
      | cons x l ihl =>
        intro s
        rw [addAllOn, ihl (fun y hy => ih y (by simp [hy])), ih x (by simp), leavesAll,
          List.append_assoc]
    rw [loop, held_startOn]

/-! ## The form of the value -/

theorem addOn_array (v : Json) : ∀ (s : Option Json) (a : Bool),
    (a = true ∨ s ≠ none) → ∃ l, addOn s v a = some (.arr l) := by
  have start : ∀ (s : Option Json) (a : Bool), (a = true ∨ s ≠ none) → ∃ l, startOn s a = some (.arr l) := by
    intro s a h
    cases s with
    | none => rcases h with rfl | h; exacts [⟨_, rfl⟩, absurd rfl h]
    | some v => cases v <;> exact ⟨_, rfl⟩
  have scalar : ∀ v : Json, (∀ s a, addOn s v a = leafOn (startOn s a) v) →
      ∀ (s : Option Json) (a : Bool), (a = true ∨ s ≠ none) → ∃ l, addOn s v a = some (.arr l) := by
    intro v h2 s a h
    obtain ⟨l, hl⟩ := start s a h
    rw [h2, hl]
    exact ⟨_, rfl⟩
  induction v using Json.ind with
  | hnull => exact scalar _ (fun s a => by simp [addOn])
  | hbool => exact scalar _ (fun s a => by simp [addOn])
  | hnum => exact scalar _ (fun s a => by simp [addOn])
  | hstr => exact scalar _ (fun s a => by simp [addOn])
  | hobj => exact scalar _ (fun s a => by simp [addOn])
  | harr l ih =>
    intro s a h
    obtain ⟨l', hl⟩ := start s a h
    rw [addOn, hl]
    clear hl
    induction l generalizing l' with
    | nil => exact ⟨l', by rw [addAllOn]⟩
    | cons x l ihl =>
      rw [addAllOn]
      obtain ⟨l2, h2⟩ := ih x (by simp) (some (.arr l')) false (.inr nofun)
      rw [h2]
      exact ihl (fun y hy => ih y (by simp [hy])) l2

theorem addOn_none (v : Json) : ∀ (s : Option Json) (a : Bool),
    addOn s v a = none ↔ s = none ∧ a = false ∧ leaves v = [] := by
  have start : ∀ (s : Option Json) (a : Bool), startOn s a = none ↔ s = none ∧ a = false := by
    intro s a
    cases s with
    | none => cases a <;> simp [startOn]
    | some v => cases v <;> simp [startOn]
  have leaf : ∀ (s : Option Json) (v : Json), leafOn s v ≠ none := by
    intro s v
    cases s with
    | none => simp [leafOn]
    | some w => cases w <;> simp [leafOn]
  have scalar : ∀ v : Json, (∀ s a, addOn s v a = leafOn (startOn s a) v) → leaves v = [v] →
      ∀ (s : Option Json) (a : Bool), addOn s v a = none ↔ s = none ∧ a = false ∧ leaves v = [] := by
    intro v h2 h3 s a
    rw [h2, h3]
    simp [leaf]
  induction v using Json.ind with
  | hnull => exact scalar _ (fun s a => by simp [addOn]) (by simp [leaves])
  | hbool => exact scalar _ (fun s a => by simp [addOn]) (by simp [leaves])
  | hnum => exact scalar _ (fun s a => by simp [addOn]) (by simp [leaves])
  | hstr => exact scalar _ (fun s a => by simp [addOn]) (by simp [leaves])
  | hobj => exact scalar _ (fun s a => by simp [addOn]) (by simp [leaves])
  | harr l ih =>
    intro s a
    rw [addOn, leaves]
    have loop : ∀ s, addAllOn s l = none ↔ s = none ∧ leavesAll l = [] := by
      clear s a
      induction l with
      | nil => intro s; rw [addAllOn, leavesAll]; simp
      | cons x l ihl =>
        intro s
        rw [addAllOn, ihl (fun y hy => ih y (by simp [hy])), ih x (by simp), leavesAll]
        simp [and_assoc]
    rw [loop, start, and_assoc]

/-! ## Sequences of additions -/

/-- Additions, on the value of a key. -/
def seqOn (s : Option Json) (k : Str) : List Addition → Option Json
  | [] => s
  | a :: as => seqOn (if a.key = k then addOn s a.value a.asArray else s) k as

theorem filter_others {m m' : List (Str × Json)} {k : Str}
    (h : m'.filter (fun e => decide (e.1 ≠ k)) = m.filter (fun e => decide (e.1 ≠ k)))
    {p : Str × Json → Bool} (hp : ∀ e : Str × Json, p e = true → e.1 ≠ k) : m'.filter p = m.filter p := by
  have : ∀ l : List (Str × Json), (l.filter (fun e => decide (e.1 ≠ k))).filter p = l.filter p := by
    intro l
    rw [List.filter_filter]
    congr 1
    funext e
    cases hq : p e with
    | false => simp
    | true => simp [hp e hq]
  rw [← this m', ← this m, h]

theorem addSeq_entries (as : List Addition) : ∀ m : List (Str × Json), DistinctKeys m →
    ∃ m', addSeq m as = .ok m' ∧ DistinctKeys m' ∧ (∀ k, lookupKey k m' = seqOn (lookupKey k m) k as) ∧
      m'.filter (fun e => as.all fun a => decide (a.key ≠ e.1)) =
        m.filter (fun e => as.all fun a => decide (a.key ≠ e.1)) := by
  induction as with
  | nil => intro m h; exact ⟨m, rfl, h, fun _ => rfl, rfl⟩
  | cons a as ih =>
    intro m h
    obtain ⟨m1, e1, w1⟩ := addValue_entry a.key a.value m a.asArray h
    obtain ⟨m2, e2, h2, l2, f2⟩ := ih m1 w1.distinct
    refine ⟨m2, by rw [addSeq, e1]; exact e2, h2, ?_, ?_⟩
    · intro k
      rw [l2 k, seqOn]
      congr 1
      by_cases hk : a.key = k
      · subst hk
        rw [if_pos rfl, w1.value]
      · rw [if_neg hk, ← lookup_filter (Ne.symm hk) m1, w1.others, lookup_filter (Ne.symm hk)]
    · have : ∀ l : List (Str × Json), l.filter (fun e => (a :: as).all fun a => decide (a.key ≠ e.1)) =
          (l.filter (fun e => as.all fun a => decide (a.key ≠ e.1))).filter fun e => decide (e.1 ≠ a.key) := by
        intro l
        rw [List.filter_filter]
        congr 1
        funext e
        simp only [List.all_cons]
        congr 1
        simp only [ne_eq, decide_eq_decide]
        exact ⟨fun h e => h e.symm, fun h e => h e.symm⟩
      rw [this, this, f2, List.filter_filter, List.filter_filter]
      exact filter_others w1.others fun e he => by
        simp only [Bool.and_eq_true, decide_eq_true_eq] at he
        exact he.1

theorem held_seqOn (k : Str) (as : List Addition) : ∀ s,
    held (seqOn s k as) = held s ++ added (additionsTo k as) := by
  induction as with
  | nil => intro s; simp [seqOn, added, additionsTo]
  | cons a as ih =>
    intro s
    rw [seqOn, ih]
    by_cases hk : a.key = k
    · rw [if_pos hk, held_addOn]
      simp [additionsTo, added, hk]
    · rw [if_neg hk]
      simp [additionsTo, added, hk]

theorem seqOn_unchanged {k : Str} {as : List Addition} (h : ∀ a ∈ as, a.key ≠ k) (s : Option Json) :
    seqOn s k as = s := by
  induction as generalizing s with
  | nil => rfl
  | cons a as ih =>
    rw [seqOn, if_neg (h a (by simp)), ih (fun b hb => h b (by simp [hb]))]

theorem seqOn_array {k : Str} {as : List Addition} : ∀ {s : Option Json} {l : List Json},
    s = some (.arr l) → ∃ l', seqOn s k as = some (.arr l') := by
  induction as with
  | nil => intro s l h; exact ⟨l, h⟩
  | cons a as ih =>
    intro s l h
    rw [seqOn]
    by_cases hk : a.key = k
    · rw [if_pos hk]
      obtain ⟨l', h'⟩ := addOn_array a.value s a.asArray (.inr (by rw [h]; nofun))
      exact ih h'
    · rw [if_neg hk]
      exact ih h

/-- Once there is a value, any further addition makes it an array. -/
theorem seqOn_scalar {k : Str} {as : List Addition} : ∀ {s : Option Json} {w : Json},
    seqOn s k as = some w → NotArray w → s ≠ none → s = some w ∧ ∀ a ∈ as, a.key ≠ k := by
  induction as with
  | nil => intro s w h _ _; exact ⟨h, nofun⟩
  | cons a as ih =>
    intro s w h hw hs
    rw [seqOn] at h
    by_cases hk : a.key = k
    · rw [if_pos hk] at h
      obtain ⟨l', h'⟩ := addOn_array a.value s a.asArray (.inr hs)
      rw [h'] at h
      obtain ⟨l2, h2⟩ := seqOn_array (k := k) (as := as) (s := some (.arr l')) rfl
      rw [h2] at h
      exact absurd (Option.some.inj h).symm (hw l2)
    · rw [if_neg hk] at h
      obtain ⟨h1, h2⟩ := ih h hw hs
      refine ⟨h1, fun b hb => ?_⟩
      rcases List.mem_cons.1 hb with e | e
      · rw [e]; exact hk
      · exact h2 b e

theorem seqOn_single {k : Str} {as : List Addition} : ∀ {w : Json}, seqOn none k as = some w →
    NotArray w → (∀ a ∈ additionsTo k as, a.asArray = false) ∧ added (additionsTo k as) = [w] := by
  intro w h hw
  have hh := held_seqOn k as none
  rw [h] at hh
  have hw' : held (some w) = [w] := by
    cases w with
    | arr l => exact absurd rfl (hw l)
    | _ => rfl
  rw [hw'] at hh
  refine ⟨?_, by simpa [held] using hh.symm⟩
  clear hh hw'
  induction as with
  | nil => simp [additionsTo]
  | cons a as ih =>
    rw [seqOn] at h
    by_cases hk : a.key = k
    · rw [if_pos hk] at h
      simp only [additionsTo, List.filter_cons, hk, decide_true, if_true]
      intro b hb
      have ha : a.asArray = false := by
        cases hq : a.asArray with
        | false => rfl
        | true =>
          obtain ⟨l', h'⟩ := addOn_array a.value none a.asArray (.inl hq)
          rw [h'] at h
          obtain ⟨l2, h2⟩ := seqOn_array (k := k) (as := as) (s := some (.arr l')) rfl
          rw [h2] at h
          exact absurd (Option.some.inj h).symm (hw l2)
      rcases List.mem_cons.1 hb with e | e
      · rw [e]; exact ha
      · cases hq : addOn none a.value a.asArray with
        | none => rw [hq] at h; exact ih h b e
        | some v =>
          rw [hq] at h
          have := (seqOn_scalar h hw nofun).2 b (List.mem_filter.1 e).1
          simp at e
          exact absurd e.2 this
    · rw [if_neg hk] at h
      simp only [additionsTo, List.filter_cons, hk, decide_false]
      exact ih h

theorem seqOn_none {k : Str} {as : List Addition} : ∀ s, seqOn s k as = none ↔
    s = none ∧ (∀ a ∈ additionsTo k as, a.asArray = false) ∧ added (additionsTo k as) = [] := by
  induction as with
  | nil => intro s; simp [seqOn, additionsTo, added]
  | cons a as ih =>
    intro s
    rw [seqOn, ih]
    by_cases hk : a.key = k
    · rw [if_pos hk, addOn_none]
      simp only [additionsTo, List.filter_cons, hk, decide_true, if_true, added, List.flatMap_cons,
        List.append_eq_nil_iff, List.mem_cons, forall_eq_or_imp]
      grind
    · rw [if_neg hk]
      simp [additionsTo, hk]

/-! ## Collections -/

theorem compactItems_ok {α : Type} {f : α → Except CompErr Json} {items : List α} {l : List Json}
    (h : compactItems f items = .ok l) :
    ∃ vs : List Json, items.map f = vs.map .ok ∧ l = vs.filter fun v => !v.isNull := by
  induction items generalizing l with
  | nil => exact ⟨[], rfl, by simpa [compactItems] using h.symm⟩
  | cons x items ih =>
    simp only [compactItems, bind, Except.bind] at h
    cases hx : f x with
    | error e => rw [hx] at h; cases h
    | ok v =>
      rw [hx] at h
      dsimp only at h
      cases hr : compactItems f items with
      | error e => rw [hr] at h; cases h
      | ok r =>
        rw [hr] at h
        dsimp only at h
        obtain ⟨vs, h1, h2⟩ := ih hr
        refine ⟨v :: vs, by simp [hx, h1], ?_⟩
        injection h with h
        rw [← h, h2]
        cases hn : v.isNull <;> simp [hn]

theorem compactItems_error {α : Type} {f : α → Except CompErr Json} {items : List α} {e : CompErr}
    (h : compactItems f items = .error e) :
    ∃ pre x post, ∃ vs : List Json, items = pre ++ x :: post ∧ pre.map f = vs.map .ok ∧ f x = .error e := by
  induction items with
  | nil => cases h
  | cons x items ih =>
    simp only [compactItems, bind, Except.bind] at h
    cases hx : f x with
    | error e' =>
      rw [hx] at h
      exact ⟨[], x, items, [], rfl, rfl, by injection h with h; rw [hx, h]⟩
    | ok v =>
      rw [hx] at h
      dsimp only at h
      cases hr : compactItems f items with
      | ok r => rw [hr] at h; cases h
      | error e' =>
        rw [hr] at h
        injection h with h
        obtain ⟨pre, y, post, vs, h1, h2, h3⟩ := ih (by rw [hr, h])
        exact ⟨x :: pre, y, post, v :: vs, by rw [h1]; rfl, by simp [hx, h2], h3⟩

end JsonLd
