import Verif.Props.Warn
import Verif.Spec.WarnNode
/-!
# C109: Warnings of literals, identifiers and types
-/

namespace JsonLd.Props
open JsonLd.Spec

private theorem iriW_snd (env : IriEnv) (c : ACtx) (docRel : Bool) (voc : Option Action) (s : Str) :
    (expandIriW env c (some (.ofStr s)) docRel voc).2 = iriWarns env c docRel voc s := by
  unfold Expandable.ofStr iriWarns
  cases hk : Keyword.tryFrom s with
  | some w => simp [expandIriW]
  | none =>
    have h := C104_iri env c s docRel voc
    by_cases hn : NotUnderstood env c docRel voc s
    · rw [if_pos ⟨rfl, hn⟩]; exact h.1 hn
    · rw [if_neg fun x => hn x.2]; exact h.2 hn

private theorem xIriW_fst (E : XEnv) (c : ACtx) (s : Str) (d : Bool) (voc : Option Action) :
    (xIriW E c s d voc).1 = xIri E c s d voc := by
  unfold xIriW xIri
  rw [← C104_iri_result]
  generalize expandIriW E.toIriEnv c (some (.ofStr s)) d voc = x
  obtain ⟨r, w⟩ := x
  cases r <;> rfl

private theorem xIriW_snd (E : XEnv) (c : ACtx) (s : Str) (d : Bool) (voc : Option Action) :
    (xIriW E c s d voc).2 = iriWarns E.toIriEnv c d voc s := by
  rw [← iriW_snd]
  unfold xIriW
  generalize expandIriW E.toIriEnv c (some (.ofStr s)) d voc = x
  obtain ⟨r, w⟩ := x
  cases r <;> rfl

/-! ## Literals -/

/-- C109: the expansion of literals with warnings is the expansion of literals. -/
theorem C109_literal_result (env : IriEnv) (a : Action) (c : ACtx) (prop : Option Str) (l : Literal) :
    (expandLiteralW env a c prop l).1 = expandLiteral env a c prop l := by
  unfold expandLiteralW expandLiteral
  simp only
  rcases (prop.bind c.get).bind (·.typ) with _ | t
  · rfl
  · cases t with
    | id =>
      cases l with
      | str s =>
        simp only
        rw [← C104_iri_result]
        generalize expandIriW env c (some (.ofStr s)) true none = x
        obtain ⟨r, w⟩ := x
        rcases r with _ | _ | _ <;> rfl
      | _ => rfl
    | vocab =>
      cases l with
      | str s =>
        simp only
        rw [← C104_iri_result]
        generalize expandIriW env c (some (.ofStr s)) true (some a) = x
        obtain ⟨r, w⟩ := x
        rcases r with _ | _ | _ <;> rfl
      | _ => rfl
    | _ => cases l <;> rfl

/-- C109: there is a warning for a literal exactly if it is a string, the type of the property is `@id`
or `@vocab`, and the string is not understood as a reference. -/
theorem C109_literal (env : IriEnv) (a : Action) (c : ACtx) (prop : Option Str) (l : Literal) :
    (expandLiteralW env a c prop l).2 =
      match (prop.bind c.get).bind (·.typ), l with
      | some .id, .str s => iriWarns env c true none s
      | some .vocab, .str s => iriWarns env c true (some a) s
      | _, _ => [] := by
  unfold expandLiteralW
  simp only
  rcases (prop.bind c.get).bind (·.typ) with _ | t
  · rfl
  · cases t with
    | id =>
      cases l with
      | str s =>
        simp only
        rw [← iriW_snd]
        generalize expandIriW env c (some (.ofStr s)) true none = x
        obtain ⟨r, w⟩ := x
        rcases r with _ | _ | _ <;> rfl
      | _ => rfl
    | vocab =>
      cases l with
      | str s =>
        simp only
        rw [← iriW_snd]
        generalize expandIriW env c (some (.ofStr s)) true (some a) = x
        obtain ⟨r, w⟩ := x
        rcases r with _ | _ | _ <;> rfl
      | _ => rfl
    | _ => cases l <;> rfl

/-- C109: with a base IRI, references of type `@id` are never reported if they are IRI references. -/
theorem C109_base (env : IriEnv) (c : ACtx) (b s : Str) (hb : c.base = some b)
    (hs : env.isRef s = true) : iriWarns env c true none s = [] := by
  unfold iriWarns
  rw [if_neg]
  rintro ⟨_, _, _, ⟨h, _⟩ | ⟨_, h⟩⟩
  · cases h
  · rw [hb] at h; cases (h rfl hs).1

/-! ## Identifiers and types -/

/-- C109: the expansion of `@id` with warnings is the expansion of `@id`. -/
theorem C109_id_result (E : XEnv) (c : ACtx) (v : Json) (st : XState) :
    (keyIdW E c v st).1 = keyId E c v st := by
  unfold keyIdW keyId
  cases v with
  | str s =>
    simp only
    rw [andThen_fst, xIriW_fst]
    cases xIri E c s true none <;> rfl
  | _ => rfl

/-- C109: an identifier is reported exactly if it is not understood as a reference. -/
theorem C109_id (E : XEnv) (c : ACtx) (s : Str) (st : XState) :
    (keyIdW E c (.str s) st).2 = iriWarns E.toIriEnv c true none s := by
  rw [← xIriW_snd]
  unfold keyIdW
  simp only
  generalize xIriW E c s true none = x
  obtain ⟨r, w⟩ := x
  cases r <;> simp [Warned.andThen]

private theorem type1_fst (E : XEnv) (tsc : ACtx) (st : XState) (v : Json) :
    (keyType1W E tsc st v).1 = keyType1 E tsc st v := by
  unfold keyType1W keyType1
  cases v with
  | str s =>
    simp only
    rw [andThen_fst, xIriW_fst]
    congr 1
    funext t
    rcases t with _ | _ | ⟨_ | _ | i⟩ | k
    · rfl
    · rfl
    · rfl
    · rfl
    · cases E.opts.invalid <;> rfl
    · rfl
  | _ => rfl

/-- C109: the expansion of `@type` with warnings is the expansion of `@type`. -/
theorem C109_types_result (E : XEnv) (tsc : ACtx) (l : List Json) (st : XState) :
    (keyTypesW E tsc l st).1 = l.foldlM (keyType1 E tsc) st := by
  induction l generalizing st with
  | nil => rfl
  | cons v l ih =>
    show (Warned.andThen _ _).1 = _
    rw [andThen_fst, type1_fst, List.foldlM_cons]
    show _ = Except.bind _ _
    congr 1
    funext a
    exact ih a

private theorem type1_snd (E : XEnv) (tsc : ACtx) (st : XState) (v : Json) :
    (keyType1W E tsc st v).2 = match v with
      | .str s => iriWarns E.toIriEnv tsc true (some E.opts.vocab) s
      | _ => [] := by
  unfold keyType1W
  cases v with
  | str s =>
    simp only
    rw [← xIriW_snd]
    generalize xIriW E tsc s true (some E.opts.vocab) = x
    obtain ⟨r, w⟩ := x
    rcases r with _ | _ | _ | ⟨_ | _ | i⟩ | k
    · rfl
    · simp [Warned.andThen]
    · simp [Warned.andThen]
    · simp [Warned.andThen]
    · simp [Warned.andThen]
    · cases E.opts.invalid <;> simp [Warned.andThen]
    · simp [Warned.andThen]
  | _ => rfl

/-- C109: types are reported in order, exactly if they are not understood; if there is an error the
warnings are the first ones of these. -/
theorem C109_types (E : XEnv) (tsc : ACtx) (l : List Json) (st : XState) :
    ((keyTypesW E tsc l st).2 <+: (stringsIn l).flatMap (iriWarns E.toIriEnv tsc true (some E.opts.vocab))) ∧
    ∀ st', (keyTypesW E tsc l st).1 = .ok st' → (keyTypesW E tsc l st).2 =
      (stringsIn l).flatMap (iriWarns E.toIriEnv tsc true (some E.opts.vocab)) := by
  induction l generalizing st with
  | nil => exact ⟨List.prefix_rfl, fun _ _ => rfl⟩
  | cons v l ih =>
    have h1 := type1_snd E tsc st v
    have he : (stringsIn (v :: l)).flatMap (iriWarns E.toIriEnv tsc true (some E.opts.vocab)) =
        (keyType1W E tsc st v).2 ++
          (stringsIn l).flatMap (iriWarns E.toIriEnv tsc true (some E.opts.vocab)) := by
      rw [h1]
      cases v <;> simp [stringsIn]
    rw [he]
    have hu : keyTypesW E tsc (v :: l) st = (keyType1W E tsc st v).andThen (keyTypesW E tsc l) := rfl
    rw [hu]
    generalize keyType1W E tsc st v = x
    obtain ⟨r, w⟩ := x
    cases r with
    | error e => exact ⟨List.prefix_append _ _, fun _ h => by cases h⟩
    | ok a =>
      refine ⟨(List.prefix_append_right_inj _).2 (ih a).1, fun st' h => ?_⟩
      show w ++ _ = _
      rw [(ih a).2 st' h]

/-- A context without base IRI and vocabulary mapping, with a property of type `@id`. -/
def exRefCtx : ACtx :=
  { defs := [("r".toList, { value := some (.id (.iri "http://r".toList)), typ := some .id })] }

/-- A relative reference without base IRI is reported, an IRI is not. -/
example :
    (expandLiteralW exIriEnv .keep exRefCtx (some "r".toList) (.str "z".toList)).2 =
      [.malformedIri "z".toList] ∧
    (expandLiteralW exIriEnv .keep exRefCtx (some "r".toList) (.str "http://x".toList)).2 = [] ∧
    (expandLiteralW exIriEnv .keep exRefCtx none (.str "z".toList)).2 = [] := by
  decide +kernel

/-- With the base IRI of `exCtx` it is not reported (`C109_base`). -/
example : ∃ b, exCtx.base = some b ∧ exIriEnv.isRef "z".toList = true := by
  exact ⟨_, rfl, by decide +kernel⟩

/-- Two types that are not understood; the second is refused by the policy only after it is reported. -/
example :
    (keyTypesW exWarnEnv exRefCtx [.str "z".toList, .str "http://x".toList, .str "y".toList] ⟨.mk none none none none none [] none, false⟩).2 =
      [.malformedIri "z".toList, .malformedIri "y".toList] ∧
    (keyTypesW { exWarnEnv with opts := { invalid := .reject } } exRefCtx
      [.str "z".toList, .str "y".toList] ⟨.mk none none none none none [] none, false⟩).2 = [.malformedIri "z".toList] ∧
    (keyIdW exWarnEnv exRefCtx (.str "z".toList)
      ⟨.mk none none none none none [] none, false⟩).2 = [.malformedIri "z".toList] := by
  decide +kernel

end JsonLd.Props
