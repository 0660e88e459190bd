import Verif.Proofs.ValueBack
import Verif.Props.Compact
import Verif.Base.DocDec
/-!
# C37: compacted values expand back
-/

namespace JsonLd.Props
open JsonLd.Spec

/-- **C37**, in part. A value compacted with the term `t` expands to the same value with this term: same
literal, same datatype, same language tag up to case, same direction; and to the same index unless the
term has an `@index` container, where the index is left to the map. The context has no scoped contexts
and redefines no keywords; the values are those of `Faithful` (in general C37 is false, see the
examples below). -/
theorem C37_back_partial (E : CEnv) (X : XEnv) (hX : X.toIriEnv = E.toIriEnv) (hv : X.opts.vocab = .keep)
    (f : IriFacts E.toIriEnv) (g : CompactFacts E.toCompEnv) (c : ACtx) (hc : CleanTerms E.toCompEnv c)
    (hk : KeywordsFree c) (hs : NoScoped c) (t : Str) (ht : t ≠ "@graph".toList) (i : Option Str) (v : Value)
    (hf : Faithful E.toCompEnv c t v) (j : Json) (h : compactValue E c (some t) i v = .ok j) (fm : Bool) :
    ∃ i' v', expandElement X c (some t) j fm = .ok (.object (.value i' v')) ∧ v'.eq v = true ∧
      (IndexInMap c t → i' = none) ∧ (¬ IndexInMap c t → i' = i) := by
  have h : valueIn E c (c.get t) i v = .ok j := by
    unfold compactValue at h
    simp only [Option.bind_some] at h
    have h1 : cScoped E (c.get t) c E.opts.proc.withOverride = .ok c := by
      unfold cScoped
      cases hd : c.get t with
      | none => rfl
      | some d =>
        have : d.context = none := hs t d hd
        simp [this]
    rw [h1] at h
    exact h
  obtain ⟨v', h1, h2, -⟩ := value_back hX hv f g hc hk hs ht hf h fm
  refine ⟨_, v', h1, h2, ?_, ?_⟩
  · rintro ⟨d, h3, h4⟩
    cases i with
    | none => simp
    | some i =>
      have : (defContainer (c.get t)).contains .index = true := by
        rw [h3]
        simpa [defContainer, Container.contains] using h4
      simp [removeIndex, this]
  · intro h3
    cases i with
    | none => simp
    | some i =>
      have : (defContainer (c.get t)).contains .index = false := by
        rw [← Bool.not_eq_true]
        intro h4
        apply h3
        cases hd : c.get t with
        | none => rw [hd] at h4; cases h4
        | some d => rw [hd] at h4; exact ⟨d, hd, by simpa [defContainer, Container.contains] using h4⟩
      simp [removeIndex, this]

/-- **C37.** A JSON literal without index is compacted to the JSON itself with a term of type `@json`, and
the value of such a term expands to the literal, whatever JSON it is. -/
theorem C37_json (E : CEnv) (X : XEnv) (R : XRec) (c : ACtx) (t : Str) (d : TermDef) (hd : c.get t = some d)
    (hj : d.typ = some .json) (hs : d.context = none) (x : Json) :
    compactValue E c (some t) none (.json x) = .ok x ∧
      propValue X R c (c.get t) t x = .ok (.object (.value none (.json x))) := by
  constructor
  · unfold compactValue cScoped
    simp only [Option.bind_some, hd, hs]
    show valueIn E c (c.get t) none (.json x) = .ok x
    simp [valueIn, removeIndex, valueBare, hd, hj]
  · simp [propValue, hd, hj]

/-! ## Examples -/

/-- The environment of `exCEnv` for expansion. -/
def exBackEnv : XEnv := { exCompEnv.toIriEnv with process := fun c _ _ _ => .ok c, base := none, opts := {} }

/-- A node with the value `v` of the property `http:t`. -/
def exOne (i : Option Str) (v : Value) : Doc := [exNodeT [.value i v]]

/-- Compaction and expansion with the same context. -/
def exBack (c : ACtx) (d : Doc) : Option Doc :=
  (compactDoc exCEnv c (.one .null) d).toOption.bind fun j => (expandDoc exBackEnv c j).toOption

/-- A term with a type. -/
def exTypedTerm (t : TypeMap) : TermDef := { value := some (.id (.iri "http:t".toList)), typ := some t }

/-- A context with a default language. -/
def exBackCtx : ACtx := { exCompCtx with language := some "en".toList }

/-- The hypotheses of `C37_back_partial` hold of a string with language and direction, an integer with a
datatype and a JSON literal. -/
example : exBackEnv.toIriEnv = exCEnv.toIriEnv ∧ exBackEnv.opts.vocab = .keep ∧
    CleanTerms exCEnv.toCompEnv exBackCtx ∧ KeywordsFree exBackCtx ∧ NoScoped exBackCtx ∧
    Faithful exCEnv.toCompEnv exBackCtx "t".toList (.langString ⟨"a".toList, some "FR".toList, some .ltr⟩) ∧
    Faithful exCEnv.toCompEnv exBackCtx "t".toList (.literal (.num "1".toList) (some "http:px".toList)) ∧
    Faithful exCEnv.toCompEnv exBackCtx "t".toList (.json .null) := by
  have hget : ∀ k d, exBackCtx.get k = some d → d.context = none ∧ d.typ = none := by
    intro k d h
    have h : lookupKey k exCompCtx.defs = some d := by
      unfold ACtx.get at h
      split at h
      · cases h
      · exact h
    have := exComp_lookup h
    simp only [exCompCtx, List.mem_cons, Prod.mk.injEq, List.not_mem_nil, or_false] at this
    rcases this with ⟨rfl, rfl⟩ | ⟨rfl, rfl⟩ | ⟨rfl, rfl⟩ <;> exact ⟨rfl, rfl⟩
  refine ⟨rfl, rfl, ⟨exComp_clean.1, exComp_clean.2, exComp_clean.3, exComp_clean.4, exComp_clean.5,
    exComp_clean.6⟩, ⟨fun p m h k => ?_, fun v h k => ?_⟩, fun k d h => (hget k d h).1,
    .lang _ (.inl (by simp)) (by decide) ?_ (by simp) (by simp), .typed _ _ (by simp) (by decide) ?_,
    .json _ fun d h => by rw [(hget _ d h).2]; simp⟩
  · obtain ⟨rfl, rfl⟩ := exComp_prefix (p := p) (m := m) h
    cases k <;> decide
  · cases h
    cases k <;> decide
  · rintro ⟨d, m, h1, h2, _⟩
    rw [(hget _ d h1).2] at h2
    cases h2
  · refine ⟨fun _ v x h1 h2 => ?_, fun p m x h1 h2 => ?_, nofun⟩
    · cases h1
      simp [Id.str, CTerm.str] at h2
    · obtain ⟨rfl, rfl⟩ := exComp_prefix (p := p) (m := m) h1
      simp [Id.str, CTerm.str] at h2
      subst h2
      decide

/-- C37 is false of a string with a direction only, if there is a default language: it is compacted to a
string and expands to a string with this language. -/
theorem C37_direction :
    exBack { exBackCtx with direction := some .ltr } (exOne none (.langString ⟨"a".toList, none, some .ltr⟩)) =
      some (exOne none (.langString ⟨"a".toList, some "en".toList, some .ltr⟩)) := by
  decide +kernel

/-- C37 is false of a string with a language only, if there is a default direction. -/
theorem C37_language :
    exBack { exBackCtx with direction := some .ltr } (exOne none (.langString ⟨"a".toList, some "en".toList, none⟩)) =
      some (exOne none (.langString ⟨"a".toList, some "en".toList, some .ltr⟩)) := by
  decide +kernel

/-- C37 is false of a string with the default language, if the IRI of the property is defined as a term
with a type: the string expands to a value of this type. -/
theorem C37_coerced :
    exBack { defs := [("http:t".toList, exTypedTerm (.iri "http:int".toList))], language := some "en".toList }
      (exOne none (.langString ⟨"a".toList, some "en".toList, none⟩)) =
      some (exOne none (.literal (.str "a".toList) (some "http:int".toList))) := by
  decide +kernel

/-- C37 is false of a JSON literal with an index, if the term is of type `@json` without `@index` container:
the value object itself becomes the JSON literal. -/
theorem C37_json_index :
    exBack { defs := [("t".toList, exTypedTerm .json)] }
      (exOne (some "i".toList) (.json (.bool true))) =
      some (exOne none (.json (.obj [("@value".toList, .bool true), ("@type".toList, .str "@json".toList),
        ("@index".toList, .str "i".toList)]))) := by
  decide +kernel

/-- C37 is false of the language tag `@none`, which expansion drops. -/
theorem C37_none : exBack {} (exOne none (.langString ⟨"a".toList, some "@none".toList, none⟩)) =
    some (exOne none (.literal (.str "a".toList) none)) := by
  decide +kernel

/-- C37 is false of `null`, which expansion drops. -/
theorem C37_null : exBack {} (exOne none (.literal .null none)) = some [] := by
  decide +kernel

end JsonLd.Props
