import Verif.Model.CtxCache
import Verif.Spec.CtxCache
import Verif.Proofs.Inverse
import Verif.Proofs.ProcessFrame
import Mathlib.Data.List.Nodup
/-!
# C105: The inverse of a context is up to date, and its parts are what was set
-/

namespace JsonLd.Props
open JsonLd.Spec

/-- The context with a given history: each step calls the method of the same name. -/
def contextOf : CtxHistory → CCtx
  | .new b => CCtx.new b
  | .normal h k d => ((contextOf h).setNormal k d).1
  | .type h t => ((contextOf h).setType t).1
  | .base h b => (contextOf h).setBase b
  | .vocab h v => (contextOf h).setVocab v
  | .language h l => (contextOf h).setLanguage l
  | .direction h d => (contextOf h).setDirection d
  | .previous h p => (contextOf h).setPrevious (contextOf p)
  | .readInverse h => (contextOf h).inverse.1
  | .clone h => (contextOf h).clone

/-! ## The inverse depends on the terms, the language and the direction only -/

private theorem add_congr {c c' : ACtx} (hl : c.language = c'.language) (hd : c.direction = c'.direction) :
    InvCtx.add c = InvCtx.add c' := by
  have ht : termLangs c = termLangs c' := by
    funext d
    unfold termLangs
    rw [hl, hd]
  have he : InvContainer.enter c = InvContainer.enter c' := by
    funext k d i
    unfold InvContainer.enter
    rw [ht]
  funext I b
  unfold InvCtx.add
  rw [he]

private theorem sorted_unique {l l' : List (Str × TermDef)} (hp : l.Perm l')
    (hn : (l.map Prod.fst).Nodup) (hs : l.Pairwise fun a b => termLe a.1 b.1 = true)
    (hs' : l'.Pairwise fun a b => termLe a.1 b.1 = true) : l = l' := by
  refine hp.eq_of_pairwise (fun a b ha hb h1 h2 => ?_) hs hs'
  have hk : a.1 = b.1 := by
    rw [termLe_iff] at h1 h2
    rcases h1 with h1 | h1
    · exact h1
    · rcases h2 with h2 | h2
      · exact h2.symm
      · exact absurd (before_trans h1 h2) (before_irrefl _)
  exact List.inj_on_of_nodup_map hn ha (hp.mem_iff.2 hb) hk

private theorem inverse_congr {c c' : ACtx} (hn : (c.defs.map Prod.fst).Nodup)
    (hn' : (c'.defs.map Prod.fst).Nodup) (hg : ∀ k, c.getNormal k = c'.getNormal k)
    (hl : c.language = c'.language) (hd : c.direction = c'.direction) : c.inverse = c'.inverse := by
  have hp : c.defs.Perm c'.defs := by
    refine (List.perm_ext_iff_of_nodup (List.Nodup.of_map _ hn) (List.Nodup.of_map _ hn')).2 fun b => ?_
    obtain ⟨k, d⟩ := b
    rw [← lookupKey_iff_mem hn, ← lookupKey_iff_mem hn']
    have := hg k
    unfold ACtx.getNormal at this
    rw [this]
  unfold ACtx.inverse
  rw [add_congr hl hd]
  congr 1
  have p1 := sortTerms_perm c.defs
  have p2 := sortTerms_perm c'.defs
  exact sorted_unique ((p1.trans hp).trans p2.symm) ((p1.map _).nodup_iff.2 hn)
    (sortTerms_sorted _) (sortTerms_sorted _)

private theorem plain_fields (c : CCtx) : c.plain.defs = c.defs ∧ c.plain.language = c.language ∧
    c.plain.direction = c.direction := by
  obtain ⟨ob, b, v, l, d, p, ds, t, i⟩ := c
  cases p <;> simp [CCtx.plain]

private theorem plain_inverse (c c' : CCtx) (hd : c.defs = c'.defs) (hl : c.language = c'.language)
    (hr : c.direction = c'.direction) : c.plain.inverse = c'.plain.inverse := by
  obtain ⟨a1, a2, a3⟩ := plain_fields c
  obtain ⟨b1, b2, b3⟩ := plain_fields c'
  unfold ACtx.inverse
  rw [add_congr (c := c.plain) (c' := c'.plain) (by rw [a2, b2, hl]) (by rw [a3, b3, hr]), a1, b1, hd]

private theorem clone_fields (c : CCtx) :
    c.clone.originalBase = c.originalBase ∧ c.clone.base = c.base ∧ c.clone.vocab = c.vocab ∧
    c.clone.language = c.language ∧ c.clone.direction = c.direction ∧ c.clone.defs = c.defs ∧
    c.clone.typeDef = c.typeDef ∧ c.clone.cell = none ∧ c.clone.previous = c.previous.map CCtx.clone := by
  obtain ⟨ob, b, v, l, d, p, ds, t, i⟩ := c
  cases p <;> simp [CCtx.clone]

private theorem inverse_fields (c : CCtx) :
    c.inverse.1.originalBase = c.originalBase ∧ c.inverse.1.base = c.base ∧ c.inverse.1.vocab = c.vocab ∧
    c.inverse.1.language = c.language ∧ c.inverse.1.direction = c.direction ∧ c.inverse.1.defs = c.defs ∧
    c.inverse.1.typeDef = c.typeDef ∧ c.inverse.1.previous = c.previous ∧
    c.inverse.1.cell = some c.inverse.2 := by
  unfold CCtx.inverse
  split <;> simp [*]

private theorem keys_erase {k : Str} {m : List (Str × TermDef)} (h : (m.map Prod.fst).Nodup) :
    ((mapErase k m).map Prod.fst).Nodup :=
  h.sublist ((List.filter_sublist).map _)

private theorem keys_insert {k : Str} {d : TermDef} {m : List (Str × TermDef)}
    (h : (m.map Prod.fst).Nodup) : ((mapInsert k d m).map Prod.fst).Nodup := by
  unfold mapInsert
  rw [List.map_cons, List.nodup_cons]
  refine ⟨?_, keys_erase h⟩
  simp [mapErase]

/-! ## The parts of a context -/

/-- Each part of a context is what was last set: the terms, `@type`, the base IRI, the vocabulary, the
default language and direction. The original base IRI never changes. Reading the inverse and cloning
change nothing. -/
theorem C105_parts (h : CtxHistory) :
    (∀ k, (contextOf h).getNormal k = h.lastNormal k) ∧ (contextOf h).typeDef = h.lastType ∧
    (contextOf h).originalBase = h.firstBase ∧ (contextOf h).base = h.lastBase ∧
    (contextOf h).vocab = h.lastVocab ∧ (contextOf h).language = h.lastLanguage ∧
    (contextOf h).direction = h.lastDirection := by
  induction h with
  | new b => simp [contextOf, CCtx.new, CCtx.getNormal, lookupKey, CtxHistory.lastNormal, CtxHistory.lastType,
      CtxHistory.firstBase, CtxHistory.lastBase, CtxHistory.lastVocab, CtxHistory.lastLanguage, CtxHistory.lastDirection]
  | normal h k d ih =>
    obtain ⟨h1, h2⟩ := ih
    refine ⟨fun k' => ?_, h2⟩
    unfold CCtx.getNormal at h1 ⊢
    cases d with
    | none => simp [contextOf, CCtx.setNormal, lookupKey_erase, CtxHistory.lastNormal, h1]
    | some d => simp [contextOf, CCtx.setNormal, lookupKey_insert, CtxHistory.lastNormal, h1]
  | type h t ih => exact ⟨ih.1, rfl, ih.2.2⟩
  | base h b ih => exact ⟨ih.1, ih.2.1, ih.2.2.1, rfl, ih.2.2.2.2⟩
  | vocab h v ih => exact ⟨ih.1, ih.2.1, ih.2.2.1, ih.2.2.2.1, rfl, ih.2.2.2.2.2⟩
  | language h l ih => exact ⟨ih.1, ih.2.1, ih.2.2.1, ih.2.2.2.1, ih.2.2.2.2.1, rfl, ih.2.2.2.2.2.2⟩
  | direction h d ih =>
    exact ⟨ih.1, ih.2.1, ih.2.2.1, ih.2.2.2.1, ih.2.2.2.2.1, ih.2.2.2.2.2.1, rfl⟩
  | previous h p ih _ => exact ih
  | readInverse h ih =>
    obtain ⟨f1, f2, f3, f4, f5, f6, f7, -⟩ := inverse_fields (contextOf h)
    simpa only [contextOf, CCtx.getNormal, f1, f2, f3, f4, f5, f6, f7, CtxHistory.lastNormal,
      CtxHistory.lastType, CtxHistory.firstBase, CtxHistory.lastBase, CtxHistory.lastVocab, CtxHistory.lastLanguage,
      CtxHistory.lastDirection] using ih
  | clone h ih =>
    obtain ⟨f1, f2, f3, f4, f5, f6, f7, -⟩ := clone_fields (contextOf h)
    simpa only [contextOf, CCtx.getNormal, f1, f2, f3, f4, f5, f6, f7, CtxHistory.lastNormal,
      CtxHistory.lastType, CtxHistory.firstBase, CtxHistory.lastBase, CtxHistory.lastVocab, CtxHistory.lastLanguage,
      CtxHistory.lastDirection] using ih

/-- The previous context is the one last given, or a clone of it. -/
theorem C105_previous (h : CtxHistory) : (contextOf h).previous = h.lastPrevious.map contextOf := by
  induction h with
  | readInverse h ih =>
    obtain ⟨-, -, -, -, -, -, -, f, -⟩ := inverse_fields (contextOf h)
    exact f.trans ih
  | clone h ih =>
    obtain ⟨-, -, -, -, -, -, -, -, f⟩ := clone_fields (contextOf h)
    refine f.trans ?_
    rw [ih]
    simp only [CtxHistory.lastPrevious, Option.map_map]
    rfl
  | previous h p _ _ => rfl
  | new b => rfl
  | _ => assumption

/-- Setting a definition returns the one before. -/
theorem C105_replaced (h : CtxHistory) (k : Str) (d : Option TermDef) (t : Option Bool) :
    ((contextOf h).setNormal k d).2 = h.lastNormal k ∧ ((contextOf h).setType t).2 = h.lastType :=
  ⟨(C105_parts h).1 k, (C105_parts h).2.1⟩

private theorem keys_nodup (h : CtxHistory) : ((contextOf h).defs.map Prod.fst).Nodup := by
  induction h with
  | new b => exact List.nodup_nil
  | normal h k d ih =>
    cases d with
    | none => exact keys_erase ih
    | some d => exact keys_insert ih
  | readInverse h ih =>
    obtain ⟨-, -, -, -, -, f, -⟩ := inverse_fields (contextOf h)
    simpa only [contextOf, f] using ih
  | clone h ih =>
    obtain ⟨-, -, -, -, -, f, -⟩ := clone_fields (contextOf h)
    simpa only [contextOf, f] using ih
  | previous h p ih _ => exact ih
  | _ => assumption

private theorem mem_defs (h : CtxHistory) (k : Str) (d : TermDef) :
    (k, d) ∈ (contextOf h).defs ↔ h.lastNormal k = some d := by
  rw [← (C105_parts h).1 k]
  exact (lookupKey_iff_mem (keys_nodup h)).symm

/-- The length is the number of terms with a definition, `@type` counted too. -/
theorem C105_len (h : CtxHistory) (ks : List Str) (hks : ks.Nodup)
    (hk : ∀ k, k ∈ ks ↔ (h.lastNormal k).isSome) :
    (contextOf h).len = ks.length + (if h.lastType.isSome then 1 else 0) := by
  have hp : ((contextOf h).defs.map Prod.fst).Perm ks := by
    refine (List.perm_ext_iff_of_nodup (keys_nodup h) hks).2 fun k => ?_
    rw [hk, List.mem_map, Option.isSome_iff_exists]
    constructor
    · rintro ⟨⟨k', d⟩, hm, rfl⟩
      exact ⟨d, (mem_defs h k' d).1 hm⟩
    · rintro ⟨d, hd⟩
      exact ⟨(k, d), (mem_defs h k d).2 hd, rfl⟩
  have hl := hp.length_eq
  rw [List.length_map] at hl
  unfold CCtx.len
  rw [(C105_parts h).2.1, hl]
  split <;> rfl

/-- A context is empty exactly if nothing is defined. -/
theorem C105_empty (h : CtxHistory) :
    (contextOf h).isEmpty = true ↔ h.lastType = none ∧ ∀ k, h.lastNormal k = none := by
  unfold CCtx.isEmpty
  rw [(C105_parts h).2.1, Bool.and_eq_true, Option.isNone_iff_eq_none, List.isEmpty_iff]
  refine and_congr_right fun _ => ⟨fun he k => ?_, fun hn => ?_⟩
  · rw [← (C105_parts h).1 k]
    simp [CCtx.getNormal, he, lookupKey]
  · refine List.eq_nil_iff_forall_not_mem.2 fun b hb => ?_
    have := (mem_defs h b.1 b.2).1 hb
    rw [hn] at this
    cases this

/-- A context has protected items exactly if a definition that is in force is protected. -/
theorem C105_protected (h : CtxHistory) :
    (contextOf h).hasProtected = true ↔
      h.lastType = some true ∨ ∃ k d, h.lastNormal k = some d ∧ d.protected_ = true := by
  unfold CCtx.hasProtected
  rw [(C105_parts h).2.1, Bool.or_eq_true, beq_iff_eq, List.any_eq_true]
  refine or_congr_right ⟨?_, ?_⟩
  · rintro ⟨⟨k, d⟩, hm, hp⟩
    exact ⟨k, d, (mem_defs h k d).1 hm, hp⟩
  · rintro ⟨k, d, hd, hp⟩
    exact ⟨(k, d), (mem_defs h k d).2 hd, hp⟩

/-- A term other than `@type` is contained exactly if it has a definition; a definition given to the
key `@type` as to a normal term does not count. -/
theorem C105_contains (h : CtxHistory) (k : Str) :
    (contextOf h).containsTerm k =
      if k = "@type".toList then h.lastType.isSome else (h.lastNormal k).isSome := by
  unfold CCtx.containsTerm
  rw [(C105_parts h).2.1]
  have := (C105_parts h).1 k
  unfold CCtx.getNormal at this
  rw [this]

/-! ## The inverse -/

private theorem cell_valid (h : CtxHistory) :
    (contextOf h).cell = none ∨ (contextOf h).cell = some (contextOf h).plain.inverse := by
  induction h with
  | type h t ih =>
    rcases ih with ih | ih
    · exact .inl ih
    · refine .inr ?_
      rw [plain_inverse (contextOf (.type h t)) (contextOf h) rfl rfl rfl]
      exact ih
  | readInverse h ih =>
    obtain ⟨-, -, -, f4, f5, f6, -, -, f9⟩ := inverse_fields (contextOf h)
    refine .inr ?_
    rw [plain_inverse (contextOf (.readInverse h)) (contextOf h) f6 f4 f5]
    refine f9.trans ?_
    unfold CCtx.inverse
    rcases ih with ih | ih <;> rw [ih]
  | clone h ih =>
    obtain ⟨-, -, -, -, -, -, -, f, -⟩ := clone_fields (contextOf h)
    exact .inl f
  | new b => exact .inl rfl
  | normal h k d ih => exact .inl rfl
  | base h b ih => exact .inl rfl
  | vocab h v ih => exact .inl rfl
  | language h l ih => exact .inl rfl
  | direction h d ih => exact .inl rfl
  | previous h p ih _ => exact .inl rfl

/-- The inverse that is read is the one of the context as it is now, whatever was read before. -/
theorem C105_fresh (h : CtxHistory) : (contextOf h).inverse.2 = (contextOf h).plain.inverse := by
  unfold CCtx.inverse
  rcases cell_valid h with e | e <;> rw [e]

/-- Two contexts with the same terms, default language and default direction have the same inverse,
whatever was done with them before. -/
theorem C105_inverse (h h' : CtxHistory) (hk : ∀ k, h.lastNormal k = h'.lastNormal k)
    (hl : h.lastLanguage = h'.lastLanguage) (hd : h.lastDirection = h'.lastDirection) :
    (contextOf h).inverse.2 = (contextOf h').inverse.2 := by
  have pd := plain_fields
  rw [C105_fresh, C105_fresh]
  refine inverse_congr ?_ ?_ (fun k => ?_) ?_ ?_
  · rw [(pd _).1]; exact keys_nodup h
  · rw [(pd _).1]; exact keys_nodup h'
  · have h1 := (C105_parts h).1 k
    have h2 := (C105_parts h').1 k
    unfold CCtx.getNormal at h1 h2
    unfold ACtx.getNormal
    rw [(pd _).1, (pd _).1, h1, h2, hk]
  · rw [(pd _).2.1, (pd _).2.1, (C105_parts h).2.2.2.2.2.1, (C105_parts h').2.2.2.2.2.1, hl]
  · rw [(pd _).2.2, (pd _).2.2, (C105_parts h).2.2.2.2.2.2, (C105_parts h').2.2.2.2.2.2, hd]

/-- So the term found for an IRI is the one found without a cache. -/
theorem C105_select (h : CtxHistory) (v : CTerm) (cs : List Container) (s : Selection) :
    (contextOf h).inverse.2.select v cs s = (contextOf h).plain.inverse.select v cs s := by
  rw [C105_fresh]

/-! ## Cases -/

private def exDef (s : String) : TermDef := { value := some (.id (.iri s.toList)) }

/-- A term is defined and found, then defined anew, with a `@type` definition in between. -/
private def exHist : CtxHistory :=
  .normal (.type (.readInverse (.normal (.new none) "n".toList (some (exDef "a:x")))) (some true))
    "n".toList (some (exDef "a:y"))

/-- The inverse was read before the last definition, and is found anew. -/
example : (contextOf exHist).inverse.2.select (.id (.iri "a:y".toList)) [.none] .any = some "n".toList ∧
    (contextOf exHist).inverse.2.select (.id (.iri "a:x".toList)) [.none] .any = none ∧
    (contextOf exHist).len = 2 ∧ (contextOf exHist).hasProtected = true := by decide +kernel

/-- The hypotheses of `C105_inverse` for histories of different length. -/
example (k : Str) : exHist.lastNormal k =
    (CtxHistory.normal (.new (some "b:".toList)) "n".toList (some (exDef "a:y"))).lastNormal k := by
  by_cases hk : "n".toList = k <;> simp only [exHist, CtxHistory.lastNormal, hk, if_true, if_false]

/-- The hypotheses of `C105_len`. -/
example (k : Str) : k ∈ ["n".toList] ↔ (exHist.lastNormal k).isSome := by
  by_cases hk : "n".toList = k
  · subst hk
    exact ⟨fun _ => rfl, fun _ => List.mem_singleton.2 rfl⟩
  · simp only [exHist, CtxHistory.lastNormal, hk, if_false, List.mem_singleton, Option.isSome_none,
      Bool.false_eq_true, iff_false]
    exact fun h => hk h.symm

/-- A normal definition of `@type` is stored but not seen by `contains_term`. -/
theorem C105_type_key :
    let c := contextOf (.normal (.new none) "@type".toList (some (exDef "a:x")))
    c.containsTerm "@type".toList = false ∧ (c.getNormal "@type".toList).isSome = true ∧ c.len = 1 := by
  decide +kernel

end JsonLd.Props
