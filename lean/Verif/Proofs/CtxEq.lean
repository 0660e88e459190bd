import Verif.Model.Ctx
/-!
# Comparison of contexts is transitive
-/

namespace JsonLd

theorem langOptEq_lower {a b : Option Str} :
    langOptEq a b = true ↔ a.map (·.map lowerChar) = b.map (·.map lowerChar) := by
  cases a <;> cases b <;> simp [langOptEq, langEq]

theorem langOptOptEq_iff {a b : Option (Option Str)} : langOptOptEq a b = true ↔
    a.map (·.map (·.map lowerChar)) = b.map (·.map (·.map lowerChar)) := by
  cases a <;> cases b <;> simp [langOptOptEq, langOptEq_lower]

theorem langOptOptEq_trans {a b c : Option (Option Str)} (h : langOptOptEq a b = true)
    (h' : langOptOptEq b c = true) : langOptOptEq a c = true := by
  rw [langOptOptEq_iff] at *
  exact h.trans h'

theorem bindingsEqv_lookup {b c : List (Str × Option STerm)} (h : bindingsEqv b c = true) {k : Str}
    {t : Option STerm} (hk : lookupKey k b = some t) :
    ∃ t', lookupKey k c = some t' ∧ optTermEqv t t' = true := by
  induction b with
  | nil => cases hk
  | cons p b ih =>
    obtain ⟨a, v⟩ := p
    simp only [bindingsEqv, Bool.and_eq_true] at h
    unfold lookupKey at hk
    split at hk
    · rename_i ha
      cases hk
      subst ha
      cases hl : lookupKey a c with
      | none => rw [hl] at h; cases h.1
      | some t' =>
        rw [hl] at h
        exact ⟨t', rfl, h.1⟩
    · exact ih h.2 hk

mutual
theorem SCtx.eqv_trans : ∀ a b c : SCtx, a.eqv b = true → b.eqv c = true → a.eqv c = true
  | .one e, .one e', .one e'', h, h' => by
    simp only [SCtx.eqv] at *
    exact SEntry.eqv_trans e e' e'' h h'
  | .many e, .many e', .many e'', h, h' => by
    simp only [SCtx.eqv] at *
    exact entriesEqv_trans e e' e'' h h'
  | .one _, .many _, _, h, _ => by simp [SCtx.eqv] at h
  | .many _, .one _, _, h, _ => by simp [SCtx.eqv] at h
  | .one _, .one _, .many _, _, h => by simp [SCtx.eqv] at h
  | .many _, .many _, .one _, _, h => by simp [SCtx.eqv] at h
theorem SEntry.eqv_trans : ∀ a b c : SEntry, a.eqv b = true → b.eqv c = true → a.eqv c = true
  | .null, .null, _, _, h' => h'
  | .ref s, .ref s', .ref s'', h, h' => by
    simp only [SEntry.eqv, beq_iff_eq] at *
    exact h.trans h'
  | .defn d, .defn d', .defn d'', h, h' => by
    simp only [SEntry.eqv] at *
    exact SDef.eqv_trans d d' d'' h h'
  | .null, .ref _, _, h, _ => by simp [SEntry.eqv] at h
  | .null, .defn _, _, h, _ => by simp [SEntry.eqv] at h
  | .ref _, .null, _, h, _ => by simp [SEntry.eqv] at h
  | .ref _, .defn _, _, h, _ => by simp [SEntry.eqv] at h
  | .defn _, .null, _, h, _ => by simp [SEntry.eqv] at h
  | .defn _, .ref _, _, h, _ => by simp [SEntry.eqv] at h
  | .ref _, .ref _, .null, _, h => by simp [SEntry.eqv] at h
  | .ref _, .ref _, .defn _, _, h => by simp [SEntry.eqv] at h
  | .defn _, .defn _, .null, _, h => by simp [SEntry.eqv] at h
  | .defn _, .defn _, .ref _, _, h => by simp [SEntry.eqv] at h
theorem SDef.eqv_trans : ∀ a b c : SDef, a.eqv b = true → b.eqv c = true → a.eqv c = true
  | ⟨b, i, l, d, pg, pt, t, v, vo, bs⟩, ⟨b', i', l', d', pg', pt', t', v', vo', bs'⟩,
    ⟨b'', i'', l'', d'', pg'', pt'', t'', v'', vo'', bs''⟩, h, h' => by
    simp only [SDef.eqv, Bool.and_eq_true, decide_eq_true_eq] at *
    obtain ⟨⟨⟨⟨⟨⟨⟨⟨⟨⟨h1, h2⟩, h3⟩, h4⟩, h5⟩, h6⟩, h7⟩, h8⟩, h9⟩, h10⟩, h11⟩ := h
    obtain ⟨⟨⟨⟨⟨⟨⟨⟨⟨⟨g1, g2⟩, g3⟩, g4⟩, g5⟩, g6⟩, g7⟩, g8⟩, g9⟩, g10⟩, g11⟩ := h'
    exact ⟨⟨⟨⟨⟨⟨⟨⟨⟨⟨h1.trans g1, h2.trans g2⟩, langOptOptEq_trans h3 g3⟩, h4.trans g4⟩, h5.trans g5⟩,
      h6.trans g6⟩, h7.trans g7⟩, h8.trans g8⟩, h9.trans g9⟩, h10.trans g10⟩,
      bindingsEqv_trans bs bs' bs'' h11 g11⟩
theorem STerm.eqv_trans : ∀ a b c : STerm, a.eqv b = true → b.eqv c = true → a.eqv c = true
  | .simple s, .simple s', .simple s'', h, h' => by
    simp only [STerm.eqv, beq_iff_eq] at *
    exact h.trans h'
  | .expanded d, .expanded d', .expanded d'', h, h' => by
    simp only [STerm.eqv] at *
    exact SExp.eqv_trans d d' d'' h h'
  | .simple _, .expanded _, _, h, _ => by simp [STerm.eqv] at h
  | .expanded _, .simple _, _, h, _ => by simp [STerm.eqv] at h
  | .simple _, .simple _, .expanded _, _, h => by simp [STerm.eqv] at h
  | .expanded _, .expanded _, .simple _, _, h => by simp [STerm.eqv] at h
theorem SExp.eqv_trans : ∀ a b c : SExp, a.eqv b = true → b.eqv c = true → a.eqv c = true
  | ⟨i, t, c, r, ix, l, d, co, n, p, pg, pt⟩, ⟨i', t', c', r', ix', l', d', co', n', p', pg', pt'⟩,
    ⟨i'', t'', c'', r'', ix'', l'', d'', co'', n'', p'', pg'', pt''⟩, h, h' => by
    simp only [SExp.eqv, Bool.and_eq_true, decide_eq_true_eq] at *
    obtain ⟨⟨⟨⟨⟨⟨⟨⟨⟨⟨⟨h1, h2⟩, h3⟩, h4⟩, h5⟩, h6⟩, h7⟩, h8⟩, h9⟩, h10⟩, h11⟩, h12⟩ := h
    obtain ⟨⟨⟨⟨⟨⟨⟨⟨⟨⟨⟨g1, g2⟩, g3⟩, g4⟩, g5⟩, g6⟩, g7⟩, g8⟩, g9⟩, g10⟩, g11⟩, g12⟩ := h'
    exact ⟨⟨⟨⟨⟨⟨⟨⟨⟨⟨⟨h1.trans g1, h2.trans g2⟩, optCtxEqv_trans c c' c'' h3 g3⟩, h4.trans g4⟩,
      h5.trans g5⟩, langOptOptEq_trans h6 g6⟩, h7.trans g7⟩, h8.trans g8⟩, h9.trans g9⟩,
      h10.trans g10⟩, h11.trans g11⟩, h12.trans g12⟩
theorem optCtxEqv_trans : ∀ a b c : Option SCtx,
    optCtxEqv a b = true → optCtxEqv b c = true → optCtxEqv a c = true
  | none, none, _, _, h' => h'
  | some a, some b, some c, h, h' => by
    simp only [optCtxEqv] at *
    exact SCtx.eqv_trans a b c h h'
  | none, some _, _, h, _ => by simp [optCtxEqv] at h
  | some _, none, _, h, _ => by simp [optCtxEqv] at h
  | some _, some _, none, _, h => by simp [optCtxEqv] at h
theorem optTermEqv_trans : ∀ a b c : Option STerm,
    optTermEqv a b = true → optTermEqv b c = true → optTermEqv a c = true
  | none, none, _, _, h' => h'
  | some a, some b, some c, h, h' => by
    simp only [optTermEqv] at *
    exact STerm.eqv_trans a b c h h'
  | none, some _, _, h, _ => by simp [optTermEqv] at h
  | some _, none, _, h, _ => by simp [optTermEqv] at h
  | some _, some _, none, _, h => by simp [optTermEqv] at h
theorem entriesEqv_trans : ∀ a b c : List SEntry,
    entriesEqv a b = true → entriesEqv b c = true → entriesEqv a c = true
  | [], [], _, _, h' => h'
  | e :: es, e' :: es', e'' :: es'', h, h' => by
    simp only [entriesEqv, Bool.and_eq_true] at *
    exact ⟨SEntry.eqv_trans e e' e'' h.1 h'.1, entriesEqv_trans es es' es'' h.2 h'.2⟩
  | [], _ :: _, _, h, _ => by simp [entriesEqv] at h
  | _ :: _, [], _, h, _ => by simp [entriesEqv] at h
  | _ :: _, _ :: _, [], _, h => by simp [entriesEqv] at h
theorem bindingsEqv_trans : ∀ a b c : List (Str × Option STerm),
    bindingsEqv a b = true → bindingsEqv b c = true → bindingsEqv a c = true
  | [], _, _, _, _ => by simp [bindingsEqv]
  | (k, t) :: bs, b, c, h, h' => by
    simp only [bindingsEqv, Bool.and_eq_true] at h ⊢
    refine ⟨?_, bindingsEqv_trans bs b c h.2 h'⟩
    cases hl : lookupKey k b with
    | none => rw [hl] at h; cases h.1
    | some t' =>
      rw [hl] at h
      obtain ⟨t'', h1, h2⟩ := bindingsEqv_lookup h' hl
      rw [h1]
      exact optTermEqv_trans t t' t'' h.1 h2
end

end JsonLd
