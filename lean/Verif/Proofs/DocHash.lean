import Verif.Model.DocHash
import Verif.Proofs.DocEq
/-!
# Equal documents hash equally
-/

namespace JsonLd

variable (fin : List Tok → UInt64)

theorem objsSum_eq (l : List Obj) : objsSum fin l = (l.map fun o => fin (o.hash fin)).sum := by
  induction l with
  | nil => rfl
  | cons o os ih => simp [objsSum, ih]

theorem nodesSum_eq (l : List Node) : nodesSum fin l = (l.map fun o => fin (o.hash fin)).sum := by
  induction l with
  | nil => rfl
  | cons o os ih => simp [nodesSum, ih]

theorem psSum_eq (l : List (Id × List Obj)) :
    psSum fin l = (l.map fun p => fin [.id p.1, .word (objsSum fin p.2)]).sum := by
  induction l with
  | nil => rfl
  | cons o os ih => obtain ⟨k, v⟩ := o; simp [psSum, ih]

theorem rpsSum_eq (l : List (Id × List Node)) :
    rpsSum fin l = (l.map fun p => fin [.id p.1, .word (nodesSum fin p.2)]).sum := by
  induction l with
  | nil => rfl
  | cons o os ih => obtain ⟨k, v⟩ := o; simp [rpsSum, ih]

theorem sum_perm {l m : List UInt64} (h : l.Perm m) : l.sum = m.sum := by
  induction h with
  | nil => rfl
  | cons x _ ih => simp [ih]
  | swap x y l =>
    simp only [List.sum_cons]
    rw [← UInt64.add_assoc, ← UInt64.add_assoc, UInt64.add_comm y x]
  | trans _ _ h1 h2 => exact h1.trans h2

theorem sum_permRel {α β : Type} {R : α → β → Prop} {f : α → UInt64} {g : β → UInt64}
    {as : List α} {bs : List β} (h : PermRel R as bs)
    (hf : ∀ a ∈ as, ∀ b ∈ bs, R a b → f a = g b) : (as.map f).sum = (bs.map g).sum := by
  obtain ⟨bs', hp, hr⟩ := h
  rw [← sum_perm (hp.map g)]
  have hsub : ∀ b ∈ bs', b ∈ bs := fun b hb => hp.subset hb
  clear hp
  induction hr with
  | nil => rfl
  | cons hab _ ih =>
    simp only [List.map_cons, List.sum_cons]
    rw [hf _ List.mem_cons_self _ (hsub _ List.mem_cons_self) hab,
      ih (fun a ha => hf a (List.mem_cons_of_mem _ ha)) fun b hb =>
        hsub b (List.mem_cons_of_mem _ hb)]

theorem Value.hash_eq {v w : Value} (h : v.eq w = true) : v.hash = w.hash := by
  rw [Value.eq_iff] at h
  cases v <;> cases w <;> simp only [Value.key, reduceCtorEq, Value.literal.injEq,
    Value.langString.injEq, Value.json.injEq, LangString.mk.injEq] at h
  · obtain ⟨rfl, rfl⟩ := h; rfl
  · obtain ⟨h1, h2, h3⟩ := h
    rename_i s s'
    have : optLangHash s.language = optLangHash s'.language := by
      cases hs : s.language <;> cases hs' : s'.language <;> simp [hs, hs', optLangHash] at h2 ⊢
      exact h2
    simp only [Value.hash, h1, h3, this]
  · subst h; rfl

theorem hash_eq :
    (∀ a b : Obj, a.WF → b.WF → a.eq b = true → a.hash fin = b.hash fin) ∧
    (∀ a b : Node, a.WF → b.WF → a.eq b = true → a.hash fin = b.hash fin) := by
  apply Doc.ind
  · intro i v b _ _ h
    cases b <;> simp only [Obj.eq, Bool.false_eq_true, Bool.and_eq_true, decide_eq_true_eq] at h
    simp only [Obj.hash, h.1, Value.hash_eq h.2]
  · intro i l ih b hw hw' h
    cases b <;> simp only [Obj.eq, Bool.false_eq_true, Bool.and_eq_true, decide_eq_true_eq,
      objsListEq_iff] at h
    rename_i j m
    simp only [Obj.WF, objsWF_iff] at hw hw'
    obtain ⟨rfl, h⟩ := h
    have hl : l.length = m.length := h.length_eq
    have : objsHash fin l = objsHash fin m := by
      clear hl
      induction h with
      | nil => rfl
      | cons hab _ ih' =>
        simp only [objsHash]
        rw [ih _ List.mem_cons_self _ (hw _ List.mem_cons_self) (hw' _ List.mem_cons_self) hab,
          ih' (fun o ho => ih o (List.mem_cons_of_mem _ ho))
            (fun o ho => hw o (List.mem_cons_of_mem _ ho))
            (fun o ho => hw' o (List.mem_cons_of_mem _ ho))]
    simp only [Obj.hash, hl, this]
  · intro n ih b hw hw' h
    cases b <;> simp only [Obj.eq, Bool.false_eq_true] at h
    simp only [Obj.hash]
    exact ih _ hw hw' h
  · intro i id ty g inc ps rv ihg ihi ihp ihr b hw hw' h
    obtain ⟨i', id', ty', g', inc', ps', rv'⟩ := b
    obtain ⟨h1, h2, h3, h4, h5, h6, h7⟩ := (node_eq_iff hw hw').1 h
    obtain ⟨wg, winc, wk, wps, wrv⟩ := hw
    obtain ⟨wg', winc', wk', wps', wrv'⟩ := hw'
    simp only [Node.index, Node.id, Node.types, Node.graph, Node.included, Node.props, Node.rev]
      at h1 h2 h3 h4 h5 h6 h7
    have e3 : typesHash fin ty = typesHash fin ty' := by
      cases ty <;> cases ty' <;> simp only [OptRel] at h3
      · rfl
      · simp only [typesHash]; rw [sum_perm (h3.map _)]
    have e4 : gHash fin g = gHash fin g' := by
      cases g <;> cases g' <;> simp only [OptRel] at h4
      · rfl
      · simp only [gHash, objsSum_eq]
        rw [sum_permRel h4 fun a ha b hb hab => by
          rw [ihg _ rfl a ha b (objsWF_iff.1 wg.2 a ha) (objsWF_iff.1 wg'.2 b hb) hab]]
    have e5 : incHash fin inc = incHash fin inc' := by
      cases inc <;> cases inc' <;> simp only [OptRel] at h5
      · rfl
      · simp only [incHash, nodesSum_eq]
        rw [sum_permRel h5 fun a ha b hb hab => by
          rw [ihi _ rfl a ha b (nodesWF_iff.1 winc.2 a ha) (nodesWF_iff.1 winc'.2 b hb) hab]]
    have e6 : psSum fin ps = psSum fin ps' := by
      simp only [psSum_eq, objsSum_eq]
      refine sum_permRel h6 fun p hp q hq hpq => ?_
      rw [hpq.1, sum_permRel hpq.2 fun a ha b hb hab => by
        rw [ihp p hp a ha b (psWF_iff.1 wps p hp a ha) (psWF_iff.1 wps' q hq b hb) hab]]
    have e7 : rvHash fin rv = rvHash fin rv' := by
      cases rv <;> cases rv' <;> simp only [OptRel] at h7
      · rfl
      · simp only [rvHash, rpsSum_eq, nodesSum_eq]
        congr 3
        refine sum_permRel h7 fun p hp q hq hpq => ?_
        rw [hpq.1, sum_permRel hpq.2 fun a ha b hb hab => by
          rw [ihr _ rfl p hp a ha b (rpsWF_iff.1 wrv.2 p hp a ha)
            (rpsWF_iff.1 wrv'.2 q hq b hb) hab]]
    simp only [Node.hash, h1, h2, e3, e4, e5, e6, e7]

end JsonLd
