import Verif.Proofs.CtxJson
/-!
# What the reader of contexts returns can be written
-/

namespace JsonLd

open Spec

theorem exMap_ok {ε α β : Type} {f : α → β} {x : Except ε α} {b : β} (h : x.map f = .ok b) :
    ∃ a, x = .ok a ∧ f a = b := by
  cases x with
  | error e => cases h
  | ok a => exact ⟨a, rfl, by injection h⟩

theorem exBind_ok {ε α β : Type} {f : α → Except ε β} {x : Except ε α} {b : β}
    (h : x.bind f = .ok b) : ∃ a, x = .ok a ∧ f a = .ok b := by
  cases x with
  | error e => cases h
  | ok a => exact ⟨a, rfl, h⟩

theorem readNullable_some {α : Type} {f : Json → Except CtxReadErr α} {j : Json} {a : α}
    (h : readNullable f j = .ok (some a)) : f j = .ok a := by
  unfold readNullable at h
  split at h
  · cases h
  · obtain ⟨b, hb, e⟩ := exMap_ok h
    cases e
    exact hb

theorem readText_ok {j : Json} {s : Str} (h : readText j = .ok s) : j = .str s := by
  cases j <;> cases h
  rfl

theorem IdText_ofStr (s : Str) : IdText (SId.ofStr s) := by
  unfold SId.ofStr
  cases h : Keyword.tryFrom s with
  | none => simp [IdText, isKeyword, h]
  | some k => trivial

theorem TypeText_ofStr (s : Str) : TypeText (SType.ofStr s) := by
  unfold SType.ofStr
  cases h : STypeKeyword.tryFrom s with
  | none => exact stk_tryFrom_none.1 h
  | some k => trivial

theorem NestText_ofStr {s : Str} {n : SNest} (h : SNest.ofStr s = .ok n) : NestText n := by
  unfold SNest.ofStr at h
  split at h
  · cases h; trivial
  · split at h
    · cases h
    · rename_i hk
      cases h
      simpa [NestText] using hk

section
variable {isRef : Str → Bool}

theorem refOfStr_ok {s r : Str} (h : refOfStr isRef s = .ok r) : isRef r = true := by
  unfold refOfStr at h
  split at h
  · rename_i hs; cases h; exact hs
  · cases h

theorem readRef_isRef {j : Json} {r : Str} (h : readRef isRef j = .ok r) : isRef r = true := by
  obtain ⟨s, -, h⟩ := exBind_ok h
  exact refOfStr_ok h

theorem BindingsOk_append {a b : List (Str × Option STerm)} (ha : BindingsOk isRef a)
    (hb : BindingsOk isRef b) : BindingsOk isRef (a ++ b) := by
  induction a with
  | nil => exact hb
  | cons p a ih =>
    obtain ⟨k, o⟩ := p
    cases o with
    | none => simp only [BindingsOk, List.cons_append] at *; exact ih ha
    | some t => simp only [BindingsOk, List.cons_append] at *; exact ⟨ha.1, ih ha.2⟩

theorem readDefKey_ok {v : Json} {d d' : SDef} {k : Keyword} (hd : DefOk isRef d)
    (h : readDefKey isRef v d k = some (.ok d')) : DefOk isRef d' := by
  obtain ⟨b, i, l, dr, pg, pt, t, ve, vo, bs⟩ := d
  simp only [DefOk] at hd
  obtain ⟨h1, h2, h3⟩ := hd
  unfold readDefKey at h
  split at h
  all_goals first
    | cases h
    | (have h := Option.some.inj h
       obtain ⟨x, hx, e⟩ := exMap_ok h
       subst e
       simp only [DefOk]
       refine ⟨?_, ?_, h3⟩
       · first
         | exact h1
         | (intro s hs; cases hs; exact readRef_isRef (readNullable_some hx))
       · first
         | exact h2
         | (intro s hs; cases hs; exact readRef_isRef hx))

theorem readExpKey_ok {v : Json} {d d' : SExp} {k : Keyword} (hd : ExpOk isRef d)
    (h : readExpKey v d k = .ok d') : ExpOk isRef d' := by
  obtain ⟨i, t, c, r, ix, l, dr, co, n, p, pg, pt⟩ := d
  simp only [ExpOk] at hd
  obtain ⟨h1, h2, h3, h4⟩ := hd
  unfold readExpKey at h
  split at h
  all_goals first
    | cases h
    | (obtain ⟨x, hx, e⟩ := exMap_ok h
       subst e
       simp only [ExpOk]
       refine ⟨?_, ?_, ?_, h4⟩
       · first
         | exact h1
         | (intro s hs; cases hs
            obtain ⟨y, -, e⟩ := exMap_ok (readNullable_some hx)
            rw [← e]; exact IdText_ofStr y)
       · first
         | exact h2
         | (intro s hs; cases hs
            obtain ⟨y, -, e⟩ := exMap_ok (readNullable_some hx)
            rw [← e]; exact TypeText_ofStr y)
       · first
         | exact h3
         | (intro s hs; cases hs
            obtain ⟨y, -, e⟩ := exBind_ok hx
            exact NestText_ofStr e))

theorem not_contextKey {k : Str} {v : Json} {d : SDef}
    (h : (Keyword.tryFrom k).bind (readDefKey isRef v d) = none) : k ∉ contextKeys := by
  intro hk
  simp only [contextKeys, List.mem_cons, List.not_mem_nil, or_false] at hk
  rcases hk with rfl | rfl | rfl | rfl | rfl | rfl | rfl | rfl | rfl <;> cases h

theorem lookupKey_none_mem {α : Type} {k : Str} {m : List (Str × α)}
    (h : ¬(lookupKey k m).isSome = true) : k ∉ m.map Prod.fst := by
  induction m with
  | nil => simp
  | cons p m ih =>
    obtain ⟨k', v⟩ := p
    unfold lookupKey at h
    split at h
    · simp at h
    · rename_i hne
      simp only [List.map_cons, List.mem_cons, not_or]
      exact ⟨fun e => hne e.symm, ih h⟩

theorem DefOk_empty : DefOk isRef .empty := by simp [SDef.empty, DefOk, BindingsOk]
theorem ExpOk_empty : ExpOk isRef .empty := by simp [SExp.empty, ExpOk, ScopedOk]

theorem DefOk_bind {d : SDef} {k : Str} {t : Option STerm} (hd : DefOk isRef d)
    (hk : k ∉ contextKeys) (hl : ¬(lookupKey k d.bindings).isSome = true)
    (ht : ∀ x, t = some x → TermOk isRef x) :
    DefOk isRef { d with bindings := d.bindings ++ [(k, t)] } := by
  obtain ⟨b, i, l, dr, pg, pt, ty, ve, vo, bs⟩ := d
  simp only [DefOk] at hd ⊢
  obtain ⟨h1, h2, h3, h4, h5⟩ := hd
  refine ⟨h1, h2, ?_, ?_, BindingsOk_append h5 ?_⟩
  · rw [List.map_append, List.nodup_append]
    refine ⟨h3, by simp, ?_⟩
    rintro a ha b hb rfl
    simp only [List.map_cons, List.map_nil, List.mem_singleton] at hb
    subst hb
    exact lookupKey_none_mem hl ha
  · intro a ha
    rw [List.map_append, List.mem_append] at ha
    rcases ha with ha | ha
    · exact h4 a ha
    · simp only [List.map_cons, List.map_nil, List.mem_singleton] at ha
      subst ha
      exact hk
  · cases t with
    | none => simp [BindingsOk]
    | some x => simp only [BindingsOk]; exact ⟨ht x rfl, trivial⟩

mutual
theorem readCtx_ok : ∀ (j : Json) (c : SCtx), readCtx isRef j = .ok c → CtxOk isRef c
  | .arr l, c, h => by
    simp only [readCtx] at h
    obtain ⟨es, he, rfl⟩ := exMap_ok h
    simp only [CtxOk]
    exact readEntries_ok l es he
  | .null, c, h => by
    simp only [readCtx] at h
    cases h
    simp [CtxOk, EntryOk]
  | .str s, c, h => by
    simp only [readCtx] at h
    obtain ⟨r, hr, rfl⟩ := exMap_ok h
    simp only [CtxOk, EntryOk]
    exact refOfStr_ok hr
  | .obj m, c, h => by
    simp only [readCtx] at h
    obtain ⟨d, hd, rfl⟩ := exMap_ok h
    simp only [CtxOk, EntryOk]
    exact readDef_ok m .empty d DefOk_empty hd
  | .bool _, c, h => by simp only [readCtx] at h; cases h
  | .num _, c, h => by simp only [readCtx] at h; cases h
theorem readEntries_ok : ∀ (l : List Json) (es : List SEntry), readEntries isRef l = .ok es →
    EntriesOk isRef es
  | [], es, h => by
    simp only [readEntries] at h
    cases h
    simp [EntriesOk]
  | j :: l, es, h => by
    simp only [readEntries] at h
    obtain ⟨e, he, h⟩ := exBind_ok h
    obtain ⟨es', hes, rfl⟩ := exMap_ok h
    simp only [EntriesOk]
    exact ⟨readEntry_ok j e he, readEntries_ok l es' hes⟩
theorem readEntry_ok : ∀ (j : Json) (e : SEntry), readEntry isRef j = .ok e → EntryOk isRef e
  | .null, c, h => by
    simp only [readEntry] at h
    cases h
    simp [EntryOk]
  | .str s, c, h => by
    simp only [readEntry] at h
    obtain ⟨r, hr, rfl⟩ := exMap_ok h
    simp only [EntryOk]
    exact refOfStr_ok hr
  | .obj m, c, h => by
    simp only [readEntry] at h
    obtain ⟨d, hd, rfl⟩ := exMap_ok h
    simp only [EntryOk]
    exact readDef_ok m .empty d DefOk_empty hd
  | .arr _, c, h => by simp only [readEntry] at h; cases h
  | .bool _, c, h => by simp only [readEntry] at h; cases h
  | .num _, c, h => by simp only [readEntry] at h; cases h
theorem readDef_ok : ∀ (m : List (Str × Json)) (d d' : SDef), DefOk isRef d →
    readDef isRef d m = .ok d' → DefOk isRef d'
  | [], d, d', hd, h => by
    simp only [readDef] at h
    cases h
    exact hd
  | (k, v) :: m, d, d', hd, h => by
    rw [readDef] at h
    split at h
    · rename_i r hr
      obtain ⟨x, hx, h⟩ := exBind_ok h
      subst hx
      refine readDef_ok m x d' ?_ h
      cases hk : Keyword.tryFrom k with
      | none => rw [hk] at hr; cases hr
      | some w => rw [hk] at hr; exact readDefKey_ok hd hr
    · rename_i hr
      obtain ⟨t, ht, h⟩ := exBind_ok h
      split at h
      · cases h
      · rename_i hl
        exact readDef_ok m _ d' (DefOk_bind hd (not_contextKey hr) hl
          (fun x hx => readTerm_ok v x (by rw [ht, hx]))) h
theorem readTerm_ok : ∀ (j : Json) (t : STerm), readTerm isRef j = .ok (some t) → TermOk isRef t
  | .null, t, h => by simp only [readTerm] at h; cases h
  | .str s, t, h => by
    simp only [readTerm] at h
    cases h
    simp [TermOk]
  | .obj m, t, h => by
    simp only [readTerm] at h
    obtain ⟨x, hx, e⟩ := exMap_ok h
    cases e
    simp only [TermOk]
    exact readExp_ok m .empty x ExpOk_empty hx
  | .arr _, t, h => by simp only [readTerm] at h; cases h
  | .bool _, t, h => by simp only [readTerm] at h; cases h
  | .num _, t, h => by simp only [readTerm] at h; cases h
theorem readExp_ok : ∀ (m : List (Str × Json)) (x x' : SExp), ExpOk isRef x →
    readExp isRef x m = .ok x' → ExpOk isRef x'
  | [], x, x', hx, h => by
    simp only [readExp] at h
    cases h
    exact hx
  | (k, v) :: m, x, x', hx, h => by
    rw [readExp] at h
    split at h
    · obtain ⟨c, hc, h⟩ := exBind_ok h
      refine readExp_ok m _ x' ?_ h
      have hok := readCtx_ok v c hc
      obtain ⟨i, t, c, r, ix, l, dr, co, n, p, pg, pt⟩ := x
      simp only [ExpOk, ScopedOk] at hx ⊢
      exact ⟨hx.1, hx.2.1, hx.2.2.1, hok⟩
    · obtain ⟨y, hy, h⟩ := exBind_ok h
      exact readExp_ok m y x' (readExpKey_ok hx hy) h
    · cases h
end

/-! ## Extraction -/

theorem filter_valuesOf (k : Str) (m : List (Str × Json)) :
    (m.filter fun e => decide (e.1 = k)).map Prod.snd = valuesOf k m := by
  induction m with
  | nil => rfl
  | cons e m ih =>
    obtain ⟨k', v⟩ := e
    by_cases h : k' = k <;> simp [valuesOf, h, ih]

theorem removeUnique_values (k : Str) (m : List (Str × Json)) :
    (valuesOf k m = [] ∧ ∃ r, removeUnique k m = .ok (none, r)) ∨
    (∃ v, valuesOf k m = [v] ∧ ∃ r, removeUnique k m = .ok (some v, r)) ∨
    (2 ≤ (valuesOf k m).length ∧ removeUnique k m = .error (.duplicateKey k)) := by
  rw [← filter_valuesOf]
  unfold removeUnique
  cases m.filter (fun e => decide (e.1 = k)) with
  | nil => exact .inl ⟨rfl, _, rfl⟩
  | cons a l =>
    cases l with
    | nil => exact .inr (.inl ⟨a.2, rfl, _, rfl⟩)
    | cons b l => exact .inr (.inr ⟨by simp, rfl⟩)

end
end JsonLd
