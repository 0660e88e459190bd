import Verif.Proofs.RoundAdd
import Verif.Proofs.CtxJsonRead
import Mathlib.Data.List.Forall2
/-!
# Adding objects to maps, grouped by keys
-/

namespace JsonLd
open Spec

/-- The entries hold the objects: those under the key `k` with the value `w` are related by `H k w`. -/
def Grouped (H : Str → Json → List Obj → Prop) (m : JMap) (os : List Obj) : Prop :=
  ∃ gs : List (Str × Json × List Obj), m = gs.map (fun g => (g.1, g.2.1)) ∧ (m.map Prod.fst).Nodup ∧
    (∀ g ∈ gs, H g.1 g.2.1 g.2.2) ∧ (gs.flatMap fun g => g.2.2).Perm os

/-- The operation adds the object `o` under the key `k` to maps that hold objects among `os`. -/
structure AddsTo (H : Str → Json → List Obj → Prop) (op : JMap → Except CompErr JMap) (k : Str) (o : Obj)
    (os : List Obj) : Prop where
  fresh : ∀ a r, k ∉ a.map Prod.fst → op a = .ok r → ∃ w, r = a ++ [(k, w)] ∧ H k w [o]
  more : ∀ a b w l r, k ∉ a.map Prod.fst → k ∉ b.map Prod.fst → H k w l → l ⊆ os →
    op (a ++ (k, w) :: b) = .ok r →
    ∃ w', (r = a ++ (k, w') :: b ∨ r = a ++ (b ++ [(k, w')])) ∧ H k w' (l ++ [o])

theorem Grouped.nil (H : Str → Json → List Obj → Prop) : Grouped H [] [] :=
  ⟨[], rfl, List.nodup_nil, nofun, .refl _⟩

theorem Grouped.step {H : Str → Json → List Obj → Prop} {m0 m r : JMap} {os : List Obj} {o : Obj} {k : Str}
    {op : JMap → Except CompErr JMap} (h : Grouped H m os) (h0 : k ∉ m0.map Prod.fst) (ha : AddsTo H op k o os)
    (hr : op (m0 ++ m) = .ok r) :
    ∃ m', r = m0 ++ m' ∧ Grouped H m' (os ++ [o]) ∧ ∀ x, x ∈ m'.map Prod.fst ↔ x = k ∨ x ∈ m.map Prod.fst := by
  obtain ⟨gs, rfl, hn, hh, hp⟩ := h
  by_cases hk : k ∈ (gs.map fun g => (g.1, g.2.1)).map Prod.fst
  · obtain ⟨e, he, hek⟩ := List.mem_map.1 hk
    obtain ⟨g, hg, rfl⟩ := List.mem_map.1 he
    obtain ⟨g1, g2, rfl⟩ := List.append_of_mem hg
    obtain ⟨k', w, l⟩ := g
    cases hek
    simp only [List.map_append, List.map_cons, List.map_map] at hn hr
    rw [List.nodup_append, List.nodup_cons] at hn
    have hk1 : k' ∉ (g1.map fun g => (g.1, g.2.1)).map Prod.fst := by
      intro hx
      rw [List.map_map] at hx
      exact hn.2.2 _ hx _ (by simp) rfl
    have hk2 : k' ∉ (g2.map fun g => (g.1, g.2.1)).map Prod.fst := by
      rw [List.map_map]; exact hn.2.1.1
    have hl : l ⊆ os := fun x hx => hp.subset (by simp [hx])
    rw [← List.append_assoc] at hr
    obtain ⟨w', h1, h2⟩ := ha.more _ _ w l r (by
      rw [List.map_append, List.mem_append, not_or]
      exact ⟨h0, hk1⟩) hk2 (hh _ hg) hl hr
    have hperm : (((g1.flatMap fun g => g.2.2) ++ ((l ++ [o]) ++ (g2.flatMap fun g => g.2.2)))).Perm (os ++ [o]) := by
      have : (((g1.flatMap fun g => g.2.2) ++ ((l ++ [o]) ++ (g2.flatMap fun g => g.2.2)))).Perm
          (((g1.flatMap fun g => g.2.2) ++ (l ++ (g2.flatMap fun g => g.2.2))) ++ [o]) := by
        simp only [List.append_assoc]
        exact List.Perm.append_left _ (List.Perm.append_left _ List.perm_append_comm)
      refine this.trans (List.Perm.append_right _ ?_)
      simpa using hp
    rcases h1 with h1 | h1
    · refine ⟨(g1 ++ (k', w', l ++ [o]) :: g2).map fun g => (g.1, g.2.1), ?_,
        ⟨g1 ++ (k', w', l ++ [o]) :: g2, rfl, ?_, ?_, ?_⟩, ?_⟩
      · simp [h1]
      · simp only [List.map_append, List.map_cons, List.map_map]
        rw [List.nodup_append, List.nodup_cons]
        exact hn
      · intro g hg
        simp only [List.mem_append, List.mem_cons] at hg
        rcases hg with hg | rfl | hg
        · exact hh g (by simp [hg])
        · exact h2
        · exact hh g (by simp [hg])
      · simpa using hperm
      · intro x
        simp only [List.map_append, List.map_cons, List.map_map, List.mem_append, List.mem_cons]
        tauto
    · refine ⟨(g1 ++ (g2 ++ [(k', w', l ++ [o])])).map fun g => (g.1, g.2.1), ?_,
        ⟨g1 ++ (g2 ++ [(k', w', l ++ [o])]), rfl, ?_, ?_, ?_⟩, ?_⟩
      · simp [h1]
      · have hq : ((g1.map (Prod.fst ∘ fun g => (g.1, g.2.1))) ++ (k' :: g2.map (Prod.fst ∘ fun g => (g.1, g.2.1)))).Nodup := by
          rw [List.nodup_append, List.nodup_cons]
          exact hn
        refine (List.Perm.nodup_iff ?_).1 hq
        simp only [List.map_append, List.map_cons, List.map_map, List.map_nil]
        exact List.Perm.append_left _ (by
          have := List.perm_append_comm (l₁ := [k']) (l₂ := g2.map (Prod.fst ∘ fun g => (g.1, g.2.1)))
          simpa using this)
      · intro g hg
        simp only [List.mem_append, List.mem_cons, List.not_mem_nil, or_false] at hg
        rcases hg with hg | hg | rfl
        · exact hh g (by simp [hg])
        · exact hh g (by simp [hg])
        · exact h2
      · simp only [List.flatMap_append, List.flatMap_cons, List.flatMap_nil, List.append_nil]
        exact (List.Perm.append_left _ List.perm_append_comm).trans hperm
      · intro x
        simp only [List.map_append, List.map_cons, List.map_map, List.mem_append, List.mem_cons, List.map_nil,
          List.not_mem_nil, or_false]
        tauto
  · obtain ⟨w, rfl, hw⟩ := ha.fresh _ r (by
      rw [List.map_append, List.mem_append, not_or]
      exact ⟨h0, hk⟩) hr
    refine ⟨(gs ++ [(k, w, [o])]).map fun g => (g.1, g.2.1), by simp, ⟨gs ++ [(k, w, [o])], rfl, ?_, ?_, ?_⟩, ?_⟩
    · rw [List.map_append, List.map_append, List.nodup_append]
      refine ⟨hn, by simp, ?_⟩
      intro a hx b hb
      simp only [List.map_cons, List.map_nil, List.mem_singleton] at hb
      subst hb
      rintro rfl
      exact hk hx
    · intro g hg
      rcases List.mem_append.1 hg with hg | hg
      · exact hh g hg
      · rw [List.mem_singleton.1 hg]; exact hw
    · rw [List.flatMap_append]
      exact List.Perm.append hp (by simp)
    · intro x
      simp only [List.map_append, List.map_cons, List.mem_append, List.map_nil, List.mem_singleton]
      tauto

/-- Values under a key. -/
def Packed (S : Str → Json → Obj → Prop) (k : Str) (w : Json) (os : List Obj) : Prop :=
  ∃ a vs, vs ≠ [] ∧ w = pack a vs ∧ List.Forall₂ (S k) vs os

/-- A map under a key. -/
def Mapped (H : Str → Str → Json → List Obj → Prop) (k : Str) (w : Json) (os : List Obj) : Prop :=
  ∃ m, w = .obj m ∧ Grouped (H k) m os

theorem forall₂_snoc {α β : Type} {R : α → β → Prop} {as : List α} {bs : List β} {a : α} {b : β}
    (h : List.Forall₂ R as bs) (hab : R a b) : List.Forall₂ R (as ++ [a]) (bs ++ [b]) := by
  induction h with
  | nil => exact .cons hab .nil
  | cons h _ ih => exact .cons h ih

theorem forall₂_left {α β : Type} {R : α → β → Prop} {P : α → Prop} {as : List α} {bs : List β}
    (h : List.Forall₂ R as bs) (hp : ∀ a b, R a b → P a) : ∀ a ∈ as, P a := by
  induction h with
  | nil => nofun
  | cons h _ ih =>
    intro a ha
    rcases List.mem_cons.1 ha with rfl | ha
    · exact hp _ _ h
    · exact ih a ha

section
variable {k : Str} {a b : JMap} (ha : k ∉ a.map Prod.fst) (hb : k ∉ b.map Prod.fst)
include ha hb

theorem jGet_mid (w : Json) : jGet k (a ++ (k, w) :: b) = .ok (some w) := by
  unfold jGet
  rw [List.filter_append, filter_fresh ha, List.filter_cons, filter_fresh hb]
  simp

theorem filter_mid (w : Json) : (a ++ (k, w) :: b).filter (fun e => decide (e.1 ≠ k)) = a ++ b := by
  rw [List.filter_append, filter_others_fresh ha, List.filter_cons, filter_others_fresh hb]
  simp

theorem replace_mid (w w' : Json) :
    (a ++ (k, w) :: b).map (fun e => if e.1 = k then (e.1, w') else e) = a ++ (k, w') :: b := by
  have : ∀ l : JMap, k ∉ l.map Prod.fst → l.map (fun e => if e.1 = k then (e.1, w') else e) = l := by
    intro l
    induction l with
    | nil => intro _; rfl
    | cons e l ih =>
      intro hn
      simp only [List.map_cons, List.mem_cons, not_or] at hn
      rw [List.map_cons, if_neg (Ne.symm hn.1), ih hn.2]
  rw [List.map_append, List.map_cons, this a ha, this b hb]
  simp

theorem addValue_mid {v : Json} (hv : NotArray v) {l : List Json} (hl : ∀ x ∈ l, NotArray x) (hne : l ≠ [])
    (s s' : Bool) : ∃ r, addValue (a ++ (k, pack s l) :: b) k v s' = .ok r ∧
      (r = a ++ (k, pack s (l ++ [v])) :: b ∨ r = a ++ (b ++ [(k, pack s (l ++ [v]))])) := by
  rw [addValue_notArray hv, pack_two s (l := l ++ [v]) (by cases l with | nil => exact absurd rfl hne | cons => simp)]
  have arr : ∀ l, addStart (a ++ (k, .arr l) :: b) k s' = .ok (a ++ (k, .arr l) :: b) := by
    intro l
    unfold addStart
    rw [jGet_mid ha hb]
    rfl
  have leaf : addLeaf (a ++ (k, .arr l) :: b) k v = .ok (a ++ (k, .arr (l ++ [v])) :: b) := by
    unfold addLeaf
    rw [jGet_mid ha hb]
    show Except.ok _ = _
    rw [replace_mid ha hb]
  have more : ∀ s, pack s l = .arr l → ∃ r, ((addStart (a ++ (k, pack s l) :: b) k s').bind fun m => addLeaf m k v) = .ok r ∧
      (r = a ++ (k, .arr (l ++ [v])) :: b ∨ r = a ++ (b ++ [(k, .arr (l ++ [v]))])) := by
    intro s hs
    rw [hs, arr]
    exact ⟨_, leaf, .inl rfl⟩
  match l, hne, hl, leaf, more with
  | [w], _, hl, leaf, more =>
    cases s with
    | true => exact more true rfl
    | false =>
      have h1 : addStart (a ++ (k, w) :: b) k s' = .ok (a ++ b ++ [(k, .arr [w])]) := by
        have hn := hl w (by simp)
        unfold addStart
        rw [jGet_mid ha hb]
        have hab : k ∉ (a ++ b).map Prod.fst := by
          rw [List.map_append, List.mem_append, not_or]; exact ⟨ha, hb⟩
        have : (jInsert k (.arr [w]) ((a ++ (k, w) :: b).filter fun e => decide (e.1 ≠ k))) = a ++ b ++ [(k, .arr [w])] := by
          rw [filter_mid ha hb, jInsert_fresh hab]
        cases w with
        | arr l => exact absurd rfl (hn l)
        | _ => exact congrArg Except.ok this
      refine ⟨a ++ (b ++ [(k, .arr ([w] ++ [v]))]), ?_, .inr rfl⟩
      rw [show pack false [w] = w from rfl, h1]
      have hab : k ∉ (a ++ b).map Prod.fst := by
        rw [List.map_append, List.mem_append, not_or]; exact ⟨ha, hb⟩
      show addLeaf _ k v = _
      rw [addLeaf_arr hab, List.append_assoc]
  | _ :: _ :: _, _, _, _, more => exact more s (pack_two s (by simp))

end

/-- The beginning of `add_value` twice. -/
theorem addStart_again {m m' : JMap} {k : Str} {s : Bool} (h : addStart m k s = .ok m') : addStart m' k false = .ok m' := by
  have last : ∀ {m : JMap}, k ∉ m.map Prod.fst → ∀ l, addStart (jInsert k (.arr l) m) k false = .ok (jInsert k (.arr l) m) := by
    intro m hm l
    rw [jInsert_fresh hm, addStart_arr hm]
  have h0 := h
  unfold addStart at h
  obtain ⟨w, h1⟩ : ∃ w, jGet k m = .ok w := by
    cases h1 : jGet k m with
    | error e => rw [h1] at h; cases h
    | ok w => exact ⟨w, rfl⟩
  rw [h1] at h
  dsimp only [bind, Except.bind] at h
  split at h
  · rename_i l
    cases h
    unfold addStart
    rw [h1]
    rfl
  · cases h
    exact last (by simp) _
  · have hf : k ∉ m.map Prod.fst := by
      intro hk
      obtain ⟨e, he, rfl⟩ := List.mem_map.1 hk
      unfold jGet at h1
      have hm : e ∈ m.filter fun e' => decide (e'.1 = e.1) := List.mem_filter.2 ⟨he, by simp⟩
      split at h1
      · rename_i hx
        rw [hx] at hm
        cases hm
      · cases h1
      · cases h1
    split at h
    · cases h
      exact last hf _
    · cases h
      exact addStart_fresh hf false

/-- An array with one value. -/
theorem addValue_pack {v : Json} (hv : NotArray v) (m : JMap) (k : Str) (a s : Bool) :
    addValue m k (pack a [v]) s = addValue m k v s := by
  cases a with
  | false => rfl
  | true =>
    show addValue m k (.arr [v]) s = _
    rw [addValue, addValue_notArray hv]
    cases h : addStart m k s with
    | error e => rfl
    | ok m' =>
      show addValues m' k [v] = addLeaf m' k v
      rw [addValues, addValue_notArray hv, addStart_again h]
      show (addLeaf m' k v).bind (fun m => addValues m k []) = _
      cases addLeaf m' k v with
      | error e => rfl
      | ok m2 => show addValues m2 k [] = _; rw [addValues]

/-- `add_value` adds to the values. -/
theorem addsTo_value {S : Str → Json → Obj → Prop} (hS : ∀ k v o, S k v o → NotArray v) {k : Str} {v : Json} {o : Obj}
    (h : S k v o) (s : Bool) (os : List Obj) : AddsTo (Packed S) (fun m => addValue m k v s) k o os := by
  refine ⟨fun a r ha hr => ?_, fun a b w l r ha hb hw _ hr => ?_⟩
  · rw [addValue_fresh ha (hS _ _ _ h)] at hr
    cases hr
    exact ⟨_, rfl, s, [v], by simp, rfl, .cons h .nil⟩
  · obtain ⟨s0, vs, hne, rfl, hvs⟩ := hw
    obtain ⟨r', h1, h2⟩ := addValue_mid ha hb (hS _ _ _ h) (forall₂_left hvs (hS k)) hne s0 s
    rw [h1] at hr
    cases hr
    exact ⟨_, h2, s0, vs ++ [v], by simp, rfl, forall₂_snoc hvs h⟩

/-- Adding in a map under a key. -/
theorem addsTo_map {H : Str → Str → Json → List Obj → Prop} {k mk : Str} {f : JMap → Except CompErr JMap} {o : Obj}
    {os : List Obj} (hf : ∀ l, l ⊆ os → AddsTo (H k) f mk o l) : AddsTo (Mapped H) (fun m => inObject k m f) k o os := by
  refine ⟨fun a r ha hr => ?_, fun a b w l r ha hb hw hl hr => ?_⟩
  · unfold inObject at hr
    rw [jGet_fresh ha] at hr
    obtain ⟨m, h1, rfl⟩ := exMap_ok (show (f []).map _ = _ from hr)
    obtain ⟨m', rfl, hg, -⟩ := (Grouped.nil (H k)).step (m0 := []) (by simp) (hf [] nofun) h1
    rw [jInsert_fresh ha]
    exact ⟨_, rfl, _, rfl, hg⟩
  · obtain ⟨m, rfl, hg⟩ := hw
    unfold inObject at hr
    rw [jGet_mid ha hb] at hr
    obtain ⟨m', h1, rfl⟩ := exMap_ok (show (f m).map _ = _ from hr)
    obtain ⟨m', rfl, hg', -⟩ := hg.step (m0 := []) (by simp) (hf l hl) h1
    refine ⟨.obj m', .inl ?_, _, rfl, hg'⟩
    exact replace_mid ha hb _ _

end JsonLd
