import Verif.Proofs.Idle
import Verif.Props.KeyOrder
/-!
# C97: entries whose keys mean nothing have no effect on expansion
-/

namespace JsonLd.Props
open JsonLd.Spec

/-- **C97.** If entries that mean nothing are removed from nodes of a document, at any depth, expansion gives the same
result, or the same error.

A key means nothing if in no context that may be active it stands for a keyword or a property (`Idle`): it is mapped to
null, or there is no vocabulary mapping to make an IRI of it. What the entry has as a value, contexts included, is of no
importance. The order of the other entries is kept, sorted or not. Values of value objects, JSON literals, contexts and
the keys of language maps and index maps are not touched. -/
theorem C97_idle_partial (E : XEnv) (c : ACtx) (j j' : Json) (h : Pruned E (MayBeActive E c j) j j') :
    expandDoc E c j = expandDoc E c j' := by
  have hs := (pruned_x (active_closed c j) h (active_loc c j)).1
  unfold expandDoc
  rw [hs.elem .start]

/-! ## An example -/

/-- Does the key mean nothing in the context? -/
def idleIn (E : XEnv) (c : ACtx) (key : Str) : Bool :=
  match expandIri E.toIriEnv c (some (.ofStr key)) false (some E.opts.vocab) with
  | .ok none => true
  | .ok (some .null) => true
  | .ok (some (.id p)) => !p.str.contains ':'
  | _ => false

theorem idleIn_means {E : XEnv} {c : ACtx} {key : Str} (h : idleIn E c key = true) : MeansNothing E c key := by
  unfold idleIn at h
  split at h
  · rename_i h'; exact .dropped h'
  · rename_i h'; exact .null h'
  · rename_i p h'; exact .undefined h' (by simpa using h)
  · cases h

/-- The context that the `@context` of the example stands for: `none` is mapped to null. -/
def exIdleCtx : ACtx :=
  { defs := [("none".toList, {}),
      ("label".toList, { value := some (.id (.iri "http:label".toList)), container := .language }),
      ("by".toList, { value := some (.id (.iri "http:by".toList)), container := .index }),
      ("knows".toList, { value := some (.id (.iri "http:knows".toList)) })] }

/-- Every context is processed to this one. -/
def exIdleEnv : XEnv := { exBackEnv with process := fun _ _ _ _ => .ok exIdleCtx }

theorem exIdle_active {a : ACtx} {j : Json} (h : MayBeActive exIdleEnv {} j a) : a = {} ∨ a = exIdleCtx := by
  induction h with
  | start => exact .inl rfl
  | embedded _ _ _ hp => cases hp; exact .inr rfl
  | scopedContext _ _ _ _ hp => cases hp; exact .inr rfl
  | previous _ hp ih =>
    rcases ih with rfl | rfl <;> cases hp

/-- A document with the given entries in the innermost node.
`{"@context": …, "@id": "http:a", "knows": [true, {"by": {"x": {…}}}], "label": {"en": "x"}}` -/
def exIdleDoc (inner : List (Str × Json)) (more : List (Str × Json)) : Json :=
  .obj ([("@context".toList, .obj []), ("@id".toList, .str "http:a".toList)] ++
    ("knows".toList, .arr ([.bool true] ++ .obj ([] ++ ("by".toList, .obj ([] ++ ("x".toList, .obj inner) :: [])) :: []) :: [])) ::
      ("label".toList, .obj [("en".toList, .str "x".toList)]) :: more)

/-- Its entries, without those that mean nothing. -/
def exIdleInner : List (Str × Json) := [("@id".toList, .str "http:b".toList), ("http:p".toList, .bool false)]

private theorem exIdle_idle {j : Json} {k : Str} (h : ∀ c, c = {} ∨ c = exIdleCtx → idleIn exIdleEnv c k = true) :
    Idle exIdleEnv (MayBeActive exIdleEnv {} j) k :=
  ⟨by decide +kernel, rfl, fun c hc => idleIn_means (h c (exIdle_active hc))⟩

private theorem exIdle_node {j : Json} {m : List (Str × Json)}
    (h : ∀ c, c = {} ∨ c = exIdleCtx → ∀ e ∈ m, kwOfKey exIdleEnv c e.1 ≠ some .value ∧
      kwOfKey exIdleEnv c e.1 ≠ some .list ∧ kwOfKey exIdleEnv c e.1 ≠ some .set) :
    NodeEntries exIdleEnv (MayBeActive exIdleEnv {} j) m := by
  intro c hc e he
  obtain ⟨h1, h2, h3⟩ := h c (exIdle_active hc) e he
  exact ⟨fun h => h1 (kwOfKey_iff.1 h), fun h => h2 (kwOfKey_iff.1 h), fun h => h3 (kwOfKey_iff.1 h)⟩

private theorem exIdle_touched {j : Json} {key : Str} (h0 : key ≠ "@context".toList)
    (h : ∀ c, c = {} ∨ c = exIdleCtx → kwOfKey exIdleEnv c key ≠ some .value ∧
      (c.get key).bind (·.typ) ≠ some .json) : ¬ Untouched exIdleEnv (MayBeActive exIdleEnv {} j) key := by
  rintro (h1 | ⟨hc, hk⟩ | ⟨hc, hg, ht⟩)
  · exact h0 h1
  · exact (h _ (exIdle_active hc)).1 (kwOfKey_iff.1 hk)
  · refine (h _ (exIdle_active hc)).2 ?_
    rw [hg]
    exact ht

private theorem exIdle_previous {j : Json} {c : ACtx} (h : MayBeActive exIdleEnv {} j c) : c.previous = none := by
  rcases exIdle_active h with rfl | rfl <;> rfl

private theorem exIdle_map {j : Json} {key : Str} (h : ∀ c, c = {} ∨ c = exIdleCtx → ∀ d, c.get key = some d →
      (d.container.contains .language || d.container.contains .index || d.container.contains .type ||
        d.container.contains .id) = false) : ¬ MapKey (MayBeActive exIdleEnv {} j) key := by
  rintro ⟨c, d, hc, hd, h'⟩
  rw [h c (exIdle_active hc) d hd] at h'
  cases h'

/-- The document of the example, with a term mapped to null in a node inside an index map, and an undefined key whose
value has a context, next to a language map. -/
def exIdleFull : Json := exIdleDoc ([("@id".toList, .str "http:b".toList)] ++ ("none".toList, .str "y".toList) :: [("http:p".toList, .bool false)])
  ([] ++ ("junk".toList, .obj [("@context".toList, .obj [])]) :: [])

/-- The example meets the hypotheses. -/
example : Pruned exIdleEnv (MayBeActive exIdleEnv {} exIdleFull) exIdleFull (exIdleDoc exIdleInner []) := by
  refine .trans (b := exIdleDoc exIdleInner ([] ++ ("junk".toList, .obj [("@context".toList, .obj [])]) :: [])) ?_ ?_
  · refine .entry _ _ (exIdle_touched (by decide +kernel) ?_) (fun _ _ h => nomatch h) (.item _ _ (.map [] [] [] []
      (exIdle_touched (by decide +kernel) ?_) (exIdle_touched (by decide +kernel) ?_) (fun h => (exIdle_map ?_ h).elim)
      (.drop [("@id".toList, .str "http:b".toList)] [("http:p".toList, .bool false)] (exIdle_idle ?_) (exIdle_node ?_)
        fun e he c hc hp => absurd (exIdle_previous hc) hp)))
    all_goals rintro c (rfl | rfl)
    all_goals decide +kernel
  · refine .drop ([("@context".toList, .obj []), ("@id".toList, .str "http:a".toList)] ++
      ("knows".toList, .arr [.bool true, .obj [("by".toList, .obj [("x".toList, .obj exIdleInner)])]]) ::
      [("label".toList, .obj [("en".toList, .str "x".toList)])]) [] (exIdle_idle ?_) (exIdle_node ?_)
        fun e he c hc hp => absurd (exIdle_previous hc) hp
    all_goals rintro c (rfl | rfl) <;> decide +kernel

/-- Its expansion. -/
example : (expandDoc exIdleEnv {} exIdleFull).toOption = some [.node (.mk none (some (.iri "http:a".toList)) none none none
    [(.iri "http:knows".toList, [.value none (.literal (.bool true) none),
      .node (.mk none none none none none
        [(.iri "http:by".toList, [.node (.mk (some "x".toList) (some (.iri "http:b".toList)) none none none
          [(.iri "http:p".toList, [.value none (.literal (.bool false) none)])] none)])] none)]),
     (.iri "http:label".toList, [.value none (.langString ⟨"x".toList, some "en".toList, none⟩)])] none)] := by
  decide +kernel

/-! ## Where such entries matter -/

/-- A document with a single property `http:p`. -/
def exJunkDoc (m : List (Str × Json)) : Json := .obj [("http:p".toList, .obj m)]

/-- The key means nothing, and the policies allow it. -/
theorem exJunk_idle (j : Json) : Idle exIdleEnv (MayBeActive exIdleEnv {} j) "junk".toList := by
  refine exIdle_idle ?_
  rintro c (rfl | rfl) <;> decide +kernel

/-- In a value object, list object or set object such an entry is an error. -/
theorem C97_objects :
    (expandDoc exIdleEnv {} (exJunkDoc [("@value".toList, .bool true)])).isOk = true ∧
    (expandDoc exIdleEnv {} (exJunkDoc [("@value".toList, .bool true), ("junk".toList, .bool true)])).isOk = false ∧
    (expandDoc exIdleEnv {} (exJunkDoc [("@list".toList, .bool true)])).isOk = true ∧
    (expandDoc exIdleEnv {} (exJunkDoc [("@list".toList, .bool true), ("junk".toList, .bool true)])).isOk = false ∧
    (expandDoc exIdleEnv {} (exJunkDoc [("@set".toList, .bool true)])).isOk = true ∧
    (expandDoc exIdleEnv {} (exJunkDoc [("@set".toList, .bool true), ("junk".toList, .bool true)])).isOk = false := by
  decide +kernel

/-- A context that is not propagated, with another meaning of `x` than the previous one. -/
def exLoneCtx : ACtx :=
  { defs := [("knows".toList, { value := some (.id (.iri "http:knows".toList)) }),
      ("x".toList, { value := some (.id (.iri "http:x".toList)), prefix_ := true })],
    previous := some { defs := [("x".toList, { value := some (.id (.iri "http:y".toList)), prefix_ := true })] } }

/-- Every context is processed to this one. -/
def exLoneEnv : XEnv := { exBackEnv with process := fun _ _ _ _ => .ok exLoneCtx }

/-- `{"@context": …, "knows": {"@id": "x:a", …}}` -/
def exLoneDoc (m : List (Str × Json)) : Json :=
  .obj [("@context".toList, .obj []), ("knows".toList, .obj (("@id".toList, .str "x:a".toList) :: m))]

/-- With a context that is not propagated, an entry next to `@id` that means nothing makes the previous context active,
and with it the node is another one. -/
theorem C97_lone :
    (expandDoc exLoneEnv {} (exLoneDoc [])).toOption = some [.node (.mk none none none none none
      [(.iri "http:knows".toList, [.node (.mk none (some (.iri "http:xa".toList)) none none none [] none)])] none)] ∧
    (expandDoc exLoneEnv {} (exLoneDoc [("junk".toList, .bool true)])).toOption = some [.node (.mk none none none none none
      [(.iri "http:knows".toList, [.node (.mk none (some (.iri "http:ya".toList)) none none none [] none)])] none)] := by
  decide +kernel

end JsonLd.Props
