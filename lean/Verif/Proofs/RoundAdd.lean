import Verif.Model.Compact
import Verif.Proofs.AddValue
import Verif.Proofs.DocJson
/-!
# Adding the values of one key, one after the other
-/

namespace JsonLd
open Spec

/-- The values of a key: an array unless there is just one and no array was requested. -/
def pack (a : Bool) : List Json → Json
  | [v] => if a then .arr [v] else v
  | l => .arr l

theorem pack_two (a : Bool) {l : List Json} (h : 2 ≤ l.length) : pack a l = .arr l := by
  match l, h with
  | _ :: _ :: _, _ => rfl

theorem filter_fresh {k : Str} {m : JMap} (h : k ∉ m.map Prod.fst) :
    m.filter (fun e => decide (e.1 = k)) = [] := by
  rw [List.filter_eq_nil_iff]
  intro e he
  simp only [decide_eq_true_eq]
  rintro rfl
  exact h (List.mem_map.2 ⟨e, he, rfl⟩)

theorem filter_others_fresh {k : Str} {m : JMap} (h : k ∉ m.map Prod.fst) :
    m.filter (fun e => decide (e.1 ≠ k)) = m := by
  rw [List.filter_eq_self]
  intro e he
  simp only [ne_eq, decide_eq_true_eq]
  rintro rfl
  exact h (List.mem_map.2 ⟨e, he, rfl⟩)

theorem jGet_fresh {k : Str} {m : JMap} (h : k ∉ m.map Prod.fst) : jGet k m = .ok none := by
  unfold jGet
  rw [filter_fresh h]

theorem jGet_last {k : Str} {m : JMap} (h : k ∉ m.map Prod.fst) (w : Json) : jGet k (m ++ [(k, w)]) = .ok (some w) := by
  unfold jGet
  rw [List.filter_append, filter_fresh h]
  simp

section
variable {k : Str} {m : JMap} (h : k ∉ m.map Prod.fst)
include h

theorem addStart_fresh (a : Bool) : addStart m k a = .ok (if a then m ++ [(k, .arr [])] else m) := by
  unfold addStart
  rw [jGet_fresh h]
  cases a with
  | false => rfl
  | true =>
    show Except.ok (jInsert k (.arr []) m) = _
    rw [jInsert_fresh h]
    rfl

theorem addStart_arr (l : List Json) (a : Bool) : addStart (m ++ [(k, .arr l)]) k a = .ok (m ++ [(k, .arr l)]) := by
  unfold addStart
  rw [jGet_last h]
  rfl

theorem addStart_one {w : Json} (hw : NotArray w) (a : Bool) :
    addStart (m ++ [(k, w)]) k a = .ok (m ++ [(k, .arr [w])]) := by
  unfold addStart
  rw [jGet_last h]
  have hf : (m ++ [(k, w)]).filter (fun e => decide (e.1 ≠ k)) = m := by
    rw [List.filter_append, filter_others_fresh h]
    simp
  have : (jInsert k (.arr [w]) ((m ++ [(k, w)]).filter fun e => decide (e.1 ≠ k))) = m ++ [(k, .arr [w])] := by
    rw [hf, jInsert_fresh h]
  cases w with
  | arr l => exact absurd rfl (hw l)
  | _ => exact congrArg Except.ok this

theorem addLeaf_fresh (v : Json) : addLeaf m k v = .ok (m ++ [(k, v)]) := by
  unfold addLeaf
  rw [jGet_fresh h]
  show Except.ok (jInsert k v m) = _
  rw [jInsert_fresh h]

theorem addLeaf_arr (l : List Json) (v : Json) :
    addLeaf (m ++ [(k, .arr l)]) k v = .ok (m ++ [(k, .arr (l ++ [v]))]) := by
  unfold addLeaf
  rw [jGet_last h]
  show Except.ok _ = _
  congr 1
  rw [List.map_append]
  congr 1
  · have : ∀ l' : JMap, k ∉ l'.map Prod.fst → l'.map (fun e => if e.1 = k then (e.1, Json.arr (l ++ [v])) else e) = l' := by
      intro l'
      induction l' with
      | nil => intro _; rfl
      | cons e l' ih =>
        intro hn
        simp only [List.map_cons, List.mem_cons, not_or] at hn
        rw [List.map_cons, if_neg (Ne.symm hn.1), ih hn.2]
    exact this m h
  · simp

omit h in
theorem addValue_notArray {v : Json} (hv : NotArray v) (m : JMap) (k : Str) (a : Bool) :
    addValue m k v a = (addStart m k a).bind fun m => addLeaf m k v := by
  cases v with
  | arr l => exact absurd rfl (hv l)
  | _ => rw [addValue]; simp

theorem addValue_fresh {v : Json} (hv : NotArray v) (a : Bool) :
    addValue m k v a = .ok (m ++ [(k, pack a [v])]) := by
  rw [addValue_notArray hv, addStart_fresh h]
  cases a with
  | false => exact addLeaf_fresh h v
  | true =>
    show addLeaf (m ++ [(k, .arr [])]) k v = _
    rw [addLeaf_arr h]
    rfl

theorem addValue_more {v : Json} (hv : NotArray v) {l : List Json} (hl : ∀ x ∈ l, NotArray x) (hne : l ≠ [])
    (a a' : Bool) : addValue (m ++ [(k, pack a l)]) k v a' = .ok (m ++ [(k, pack a (l ++ [v]))]) := by
  rw [addValue_notArray hv, pack_two a (l := l ++ [v]) (by cases l with | nil => exact absurd rfl hne | cons => simp)]
  have : addStart (m ++ [(k, pack a l)]) k a' = .ok (m ++ [(k, .arr l)]) := by
    match l, hne with
    | [w], _ =>
      cases a with
      | false => exact addStart_one h (hl w (by simp)) a'
      | true => exact addStart_arr h [w] a'
    | w :: w' :: l, _ => exact addStart_arr h _ a'
  rw [this]
  exact addLeaf_arr h l v

/-- Adding values one after the other to a key that has some. -/
theorem addAll_more {vs : List Json} (hv : ∀ x ∈ vs, NotArray x) (a a' : Bool) : ∀ {l : List Json},
    (∀ x ∈ l, NotArray x) → l ≠ [] →
    vs.foldlM (fun m v => addValue m k v a') (m ++ [(k, pack a l)]) = .ok (m ++ [(k, pack a (l ++ vs))]) := by
  induction vs with
  | nil => intro l _ _; rw [List.append_nil]; rfl
  | cons v vs ih =>
    intro l hl hne
    rw [List.foldlM_cons, addValue_more h (hv v (by simp)) hl hne]
    show vs.foldlM _ (m ++ [(k, pack a (l ++ [v]))]) = _
    rw [ih (fun x hx => hv x (List.mem_cons_of_mem _ hx)) (fun x hx => by
      rcases List.mem_append.1 hx with hx | hx
      · exact hl x hx
      · rw [List.mem_singleton.1 hx]; exact hv v (by simp)) (by simp)]
    simp

/-- Adding values one after the other to a new key. -/
theorem addAll_fresh {vs : List Json} (hv : ∀ x ∈ vs, NotArray x) (hne : vs ≠ []) (a : Bool) :
    vs.foldlM (fun m v => addValue m k v a) m = .ok (m ++ [(k, pack a vs)]) := by
  cases vs with
  | nil => exact absurd rfl hne
  | cons v vs =>
    rw [List.foldlM_cons, addValue_fresh h (hv v (by simp))]
    exact addAll_more h (fun x hx => hv x (List.mem_cons_of_mem _ hx)) a a
      (fun x hx => by rw [List.mem_singleton.1 hx]; exact hv v (by simp)) (by simp)

omit h in
theorem addValues_fold (m : JMap) (k : Str) (l : List Json) :
    addValues m k l = l.foldlM (fun m v => addValue m k v false) m := by
  induction l generalizing m with
  | nil => rw [addValues]; rfl
  | cons v l ih =>
    rw [addValues, List.foldlM_cons]
    cases addValue m k v false with
    | error e => rfl
    | ok m => exact ih m

/-- Adding an array to a new key. -/
theorem addArr_fresh {vs : List Json} (hv : ∀ x ∈ vs, NotArray x) (hne : vs ≠ []) (a : Bool) :
    addValue m k (.arr vs) a = .ok (m ++ [(k, pack a vs)]) := by
  rw [addValue, addStart_fresh h]
  cases a with
  | false =>
    show addValues m k vs = _
    rw [addValues_fold, addAll_fresh h hv hne]
  | true =>
    show addValues (m ++ [(k, .arr [])]) k vs = _
    rw [addValues_fold]
    cases vs with
    | nil => exact absurd rfl hne
    | cons v vs =>
      have h1 : addValue (m ++ [(k, .arr [])]) k v false = .ok (m ++ [(k, .arr [v])]) := by
        rw [addValue_notArray (hv v (by simp)), addStart_arr h]
        exact addLeaf_arr h [] v
      rw [List.foldlM_cons, h1]
      have := addAll_more h (fun x hx => hv x (List.mem_cons_of_mem _ hx)) true false (l := [v])
        (fun x hx => by rw [List.mem_singleton.1 hx]; exact hv v (by simp)) (by simp)
      exact this

theorem addEmpty_fresh : addValue m k (.arr []) true = .ok (m ++ [(k, .arr [])]) := by
  rw [addValue, addStart_fresh h]
  show addValues (m ++ [(k, .arr [])]) k [] = _
  rw [addValues]

end

end JsonLd
