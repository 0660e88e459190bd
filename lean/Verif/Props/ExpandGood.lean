import Verif.Proofs.ExpandGood
import Verif.Base.DocDec
import Verif.Proofs.ProcessEnd
/-!
# C40: expanded values are well formed
-/

namespace JsonLd.Props
open JsonLd.Spec

/-- C40: whatever its entries, a value object that is accepted stands for nothing or for a well-formed
value: not `null`, with a type that is an IRI or with a language or direction on a string. -/
theorem C40_value_good (env : IriEnv) (f : EnvFacts env) (vocab : Action) (expected : Option CTerm)
    (tsc : ACtx) (hc : GoodCtx env tsc) (es : List XEntry) (v : Json) (o : Obj)
    (h : expandValue env vocab expected tsc es v = .ok (some o)) :
    ∃ i w, o = .value i w ∧ GoodValue env w :=
  expandValue_good f hc h

/-- C40: a scalar stands for a well-formed value, or for a node with at most an identifier, which is of
the kind its text says. -/
theorem C40_scalar_good (env : IriEnv) (f : EnvFacts env) (vocab : Action) (c : ACtx)
    (hc : GoodCtx env c) (prop : Option Str) (l : Literal) (hl : l ≠ .null) (o : Obj)
    (h : expandLiteral env vocab c prop l = .ok o) :
    (∃ i w, o = .value i w ∧ GoodValue env w) ∨
      ∃ i, o = idOnly i ∧ ∀ j, i = some j → GoodId env j :=
  expandLiteral_good f hc hl h

/-- C40: the expansion of a scalar does not panic. -/
theorem C40_no_panic (env : IriEnv) (vocab : Action) (c : ACtx) (prop : Option Str) (l : Literal) :
    expandLiteral env vocab c prop l ≠ .error .panic :=
  expandLiteral_no_panic

/-- The example environment meets the hypotheses. -/
theorem exIriEnv_envFacts : EnvFacts exIriEnv where
  scheme i h := by
    have h : i.take 5 = ['h', 't', 't', 'p', ':'] := by simpa [exIriEnv] using h
    refine ⟨['h', 't', 't', 'p'], i.drop 5, ?_, by decide, by decide, by decide, by decide⟩
    have := List.take_append_drop 5 i
    rw [h] at this
    exact this.symm
  resolve := exIriEnv_facts.resolve
  blank b h := by
    have h : b.take 2 = ['_', ':'] := by
      have : b.take 2 = ['_', ':'] ∧ b.length > 2 := by simpa [exIriEnv] using h
      exact this.1
    refine ⟨b.drop 2, ?_⟩
    have := List.take_append_drop 2 b
    rw [h] at this
    exact this.symm

/-- A context with terms for references, typed values and strings in a language. -/
def exValueCtx : ACtx :=
  { language := some "en".toList,
    defs := [("knows".toList, { value := some (.id (.iri "http:k".toList)), typ := some .id }),
      ("age".toList, { value := some (.id (.iri "http:a".toList)), typ := some (.iri "http:int".toList) }),
      ("nom".toList, { value := some (.id (.iri "http:n".toList)), language := some (some "fr".toList) })] }

theorem exValueCtx_good : GoodCtx exIriEnv exValueCtx := by
  have hd : ∀ k d, lookupKey k exValueCtx.defs = some d → (k, d) ∈ exValueCtx.defs :=
    fun k d h => lookupKey_mem h
  refine .intro _ ?_ ?_ ?_
  · intro k d i h hv
    have := hd k d h
    simp only [exValueCtx, List.mem_cons, List.not_mem_nil, or_false, Prod.mk.injEq] at this
    rcases this with ⟨_, rfl⟩ | ⟨_, rfl⟩ | ⟨_, rfl⟩ <;> cases hv <;>
      show exIriEnv.isIri _ = true <;> decide +kernel
  · intro k d t h hv
    have := hd k d h
    simp only [exValueCtx, List.mem_cons, List.not_mem_nil, or_false, Prod.mk.injEq] at this
    rcases this with ⟨_, rfl⟩ | ⟨_, rfl⟩ | ⟨_, rfl⟩ <;> cases hv
    decide +kernel
  · intro p h; cases h

/-- The four kinds of results of expanding scalars. -/
example : expandLiteral exIriEnv .keep exValueCtx (some "knows".toList) (.str "http:b".toList) =
      .ok (idOnly (some (.iri "http:b".toList))) ∧
    expandLiteral exIriEnv .keep exValueCtx (some "age".toList) (.num "3".toList) =
      .ok (.value none (.literal (.num "3".toList) (some "http:int".toList))) ∧
    expandLiteral exIriEnv .keep exValueCtx (some "nom".toList) (.str "x".toList) =
      .ok (.value none (.langString ⟨"x".toList, some "fr".toList, none⟩)) ∧
    expandLiteral exIriEnv .keep exValueCtx (some "x".toList) (.str "x".toList) =
      .ok (.value none (.langString ⟨"x".toList, some "en".toList, none⟩)) ∧
    expandLiteral exIriEnv .keep exValueCtx (some "nom".toList) (.bool true) =
      .ok (.value none (.literal (.bool true) none)) := by
  decide +kernel

/-- The entries of `{"@value": v, "@type": t}`. -/
def exTypedEntries (v : Json) (t : Str) : List XEntry :=
  [⟨"@value".toList, .keyword .value, v⟩, ⟨"@type".toList, .keyword .type, .str t⟩]

/-- Value objects: a typed value, a JSON literal, `null`, and a type that is not accepted. -/
example : expandValue exIriEnv .keep none exValueCtx (exTypedEntries (.str "3".toList) "http:int".toList)
      (.str "3".toList) =
      .ok (some (.value none (.literal (.str "3".toList) (some "http:int".toList)))) ∧
    expandValue exIriEnv .keep none exValueCtx (exTypedEntries (.arr []) "@json".toList) (.arr []) =
      .ok (some (.value none (.json (.arr [])))) ∧
    expandValue exIriEnv .keep none exValueCtx (exTypedEntries .null "http:int".toList) .null = .ok none ∧
    expandValue exIriEnv .keep none exValueCtx (exTypedEntries (.str "3".toList) "_:b".toList)
      (.str "3".toList) = .error .typedValue := by
  decide +kernel

end JsonLd.Props
