import Verif.Proofs.OrderDoc
import Verif.Props.DocEq
import Verif.Props.ValueBack
import Verif.Base.DocDec
/-!
# C68: the order of the keys does not matter for expansion
-/

namespace JsonLd.Props
open JsonLd.Spec

/-- A way back. -/
private theorem reordered_symm {E : XEnv} {K : ACtx → Prop} {j j' : Json} (h : Reordered E K j j') : Reordered E K j' j := by
  induction h with
  | refl j => exact .refl j
  | trans _ _ ih1 ih2 => exact .trans ih2 ih1
  | move hm hp => exact .move (movable_perm hp hm) hp.symm
  | entry m m' hu _ ih => exact .entry m m' hu ih
  | item l l' _ ih => exact .item l l' ih

/-- **C68.** If the entries of objects in a document are moved, at any depth, expansion gives an equal document.

Entries can be moved if there are no duplicate keys and in no context that may be active two keys stand for the same
keyword, a key stands for `@nest`, or there is a reverse property next to `@reverse` (`Movable`). Contexts, values of
value objects and JSON literals are left as they are (`Untouched`). Without the conditions the claim is false, see
below.

Missing: objects with a key for `@nest`, and with two keys for `@type` or `@included`. -/
theorem C68_order_partial (E : XEnv) (c : ACtx) (j j' : Json) (h : Reordered E (MayBeActive E c j) j j') (d : Doc)
    (hd : expandDoc E c j = .ok d) : ∃ d', expandDoc E c j' = .ok d' ∧ d.eq d' = true := by
  obtain ⟨d', hd', hp⟩ := expandDoc_reordered h d hd
  exact ⟨d', hd', (doc_eq_iff (C44_sets E c j d hd).1 (C44_sets E c j' d' hd').1).2 (hp.mono fun _ _ _ _ h => h.eq)⟩

/-- **C68.** Such a document is accepted if and only if the other one is. -/
theorem C68_accepted_partial (E : XEnv) (c : ACtx) (j j' : Json) (h : Reordered E (MayBeActive E c j) j j') :
    (∃ d, expandDoc E c j = .ok d) ↔ ∃ d, expandDoc E c j' = .ok d := by
  constructor
  · rintro ⟨d, hd⟩
    obtain ⟨d', hd', -⟩ := C68_order_partial E c j j' h d hd
    exact ⟨d', hd'⟩
  · rintro ⟨d, hd⟩
    obtain ⟨-, hl⟩ := reordered_vc (active_closed c j) h (active_loc c j)
    have hv := (reordered_vc (active_closed c j) (reordered_symm h) hl).1
    obtain ⟨x, hx, rfl⟩ := exMap_ok hd
    obtain ⟨x', hx', -⟩ := hv.elem .start x hx
    refine ⟨docResult x', ?_⟩
    unfold expandDoc
    rw [hx']
    rfl

/-- In a document without contexts, for a context without scoped contexts that replaces no other one, this context
is the only one that is ever active. -/
theorem C68_active (E : XEnv) (c : ACtx) (j : Json) (hp : c.previous = none)
    (hs : ∀ t d, c.get t = some d → d.context = none) (hj : ∀ v, ¬ ContextIn v j) (a : ACtx) :
    MayBeActive E c j a ↔ a = c := by
  constructor
  · intro h
    induction h with
    | start => rfl
    | embedded _ hv => exact absurd hv (hj _)
    | scopedContext _ _ hg hc _ _ ih =>
      subst ih
      rw [hs _ _ hg] at hc
      cases hc
    | previous _ hp' ih =>
      subst ih
      rw [hp] at hp'
      cases hp'
  · rintro rfl
    exact .start

/-! ## An example -/

/-- The keyword a key stands for. -/
def kwOfKey (E : XEnv) (c : ACtx) (key : Str) : Option Keyword :=
  match expandIri E.toIriEnv c (some (.ofStr key)) false (some E.opts.vocab) with
  | .ok (some (.keyword k)) => some k
  | _ => none

theorem kwOfKey_iff {E : XEnv} {c : ACtx} {key : Str} {k : Keyword} : KeyFor E c key k ↔ kwOfKey E c key = some k := by
  unfold KeyFor kwOfKey
  constructor
  · intro h; rw [h]
  · intro h
    split at h
    · rename_i h'
      cases h
      exact h'
    · cases h

/-- The context that the `@context` of the example stands for. -/
def exOrderCtx : ACtx :=
  { defs := [("id".toList, { value := some (.keyword .id) }),
      ("label".toList, { value := some (.id (.iri "http:label".toList)), container := .language }),
      ("of".toList, { value := some (.id (.iri "http:has".toList)), reverse := true }),
      ("knows".toList, { value := some (.id (.iri "http:knows".toList)) })] }

/-- Every context is processed to this one. -/
def exOrderEnv : XEnv := { exBackEnv with process := fun _ _ _ _ => .ok exOrderCtx }

def exOrderInner : List (Str × Json) :=
  [("id".toList, .str "http:b".toList),
   ("label".toList, .obj [("en".toList, .str "x".toList), ("de".toList, .str "y".toList)])]

def exOrderOuter (inner : Json) : List (Str × Json) :=
  [("@context".toList, .obj []), ("id".toList, .str "http:a".toList), ("@type".toList, .str "http:T".toList),
   ("knows".toList, inner), ("http:knows".toList, .bool true), ("of".toList, .obj [("id".toList, .str "http:c".toList)])]

/-- `{"@context": …, "id": …, "@type": …, "knows": {"id": …, "label": {"en": …, "de": …}}, "http:knows": true, "of": …}` -/
def exOrderDoc : Json := .obj (exOrderOuter (.obj exOrderInner))

/-- The entries in reverse order, in all objects. -/
def exOrderDoc' : Json :=
  .obj (exOrderOuter (.obj [("label".toList, .obj [("de".toList, .str "y".toList), ("en".toList, .str "x".toList)]),
    ("id".toList, .str "http:b".toList)])).reverse

private theorem exOrder_active {a : ACtx} {j : Json} (h : MayBeActive exOrderEnv {} j a) : a = {} ∨ a = exOrderCtx := by
  induction h with
  | start => exact .inl rfl
  | embedded _ _ _ hp => cases hp; exact .inr rfl
  | scopedContext _ _ _ _ hp => cases hp; exact .inr rfl
  | previous _ hp ih =>
    rcases ih with rfl | rfl <;> cases hp

/-- Entries of the example can be moved if this can be seen from what the keys stand for. -/
private theorem exOrder_movable {j : Json} {m : List (Str × Json)} (hn : (m.map Prod.fst).Nodup)
    (h : ∀ c, c = {} ∨ c = exOrderCtx → (∀ e ∈ m, ∀ e' ∈ m, kwOfKey exOrderEnv c e.1 = none ∨
        kwOfKey exOrderEnv c e.1 ≠ kwOfKey exOrderEnv c e'.1 ∨ e.1 = e'.1) ∧
      ∀ e ∈ m, kwOfKey exOrderEnv c e.1 ≠ some .nest ∧ kwOfKey exOrderEnv c e.1 ≠ some .reverse) :
    Movable exOrderEnv (MayBeActive exOrderEnv {} j) m where
  nodup := hn
  single := fun c hc e he e' he' k h1 h2 => by
    rw [kwOfKey_iff] at h1 h2
    rcases (h c (exOrder_active hc)).1 e he e' he' with h' | h' | h'
    · rw [h'] at h1; cases h1
    · exact absurd (h1.trans h2.symm) h'
    · exact h'
  noNest := fun c hc e he hk => ((h c (exOrder_active hc)).2 e he).1 (kwOfKey_iff.1 hk)
  noReverse := fun c hc e he hk => (((h c (exOrder_active hc)).2 e he).2 (kwOfKey_iff.1 hk)).elim

private theorem exOrder_touched {j : Json} {key : Str} (h0 : key ≠ "@context".toList)
    (h : ∀ c, c = {} ∨ c = exOrderCtx → kwOfKey exOrderEnv c key ≠ some .value ∧
      (c.get key).bind (·.typ) ≠ some .json) : ¬ Untouched exOrderEnv (MayBeActive exOrderEnv {} j) key := by
  rintro (h1 | ⟨hc, hk⟩ | ⟨hc, hg, ht⟩)
  · exact h0 h1
  · exact (h _ (exOrder_active hc)).1 (kwOfKey_iff.1 hk)
  · refine (h _ (exOrder_active hc)).2 ?_
    rw [hg]
    exact ht

/-- The example meets the hypotheses. -/
example : Reordered exOrderEnv (MayBeActive exOrderEnv {} exOrderDoc) exOrderDoc exOrderDoc' := by
  refine .trans (.entry [("@context".toList, .obj []), ("id".toList, .str "http:a".toList), ("@type".toList, .str "http:T".toList)]
    [("http:knows".toList, .bool true), ("of".toList, .obj [("id".toList, .str "http:c".toList)])] ?_
    (.trans (.entry [("id".toList, .str "http:b".toList)] [] ?_ (.move ?_ (List.reverse_perm _).symm))
      (.move ?_ (List.reverse_perm _).symm))) (.move ?_ (List.reverse_perm _).symm)
  · refine exOrder_touched (by decide +kernel) ?_
    rintro c (rfl | rfl) <;> decide +kernel
  · refine exOrder_touched (by decide +kernel) ?_
    rintro c (rfl | rfl) <;> decide +kernel
  · refine exOrder_movable (by decide +kernel) ?_
    rintro c (rfl | rfl) <;> decide +kernel
  · refine exOrder_movable (by decide +kernel) ?_
    rintro c (rfl | rfl) <;> decide +kernel
  · refine exOrder_movable (by decide +kernel) ?_
    rintro c (rfl | rfl) <;> decide +kernel

/-- It expands to a node with everything in it. -/
example : (expandDoc exOrderEnv {} exOrderDoc').toOption = some [.node (.mk none (some (.iri "http:a".toList))
    (some [.iri "http:T".toList]) none none
    [(.iri "http:knows".toList, [.value none (.literal (.bool true) none),
      .node (.mk none (some (.iri "http:b".toList)) none none none
        [(.iri "http:label".toList, [.value none (.langString ⟨"y".toList, some "de".toList, none⟩),
          .value none (.langString ⟨"x".toList, some "en".toList, none⟩)])] none)])]
    (some [(.iri "http:has".toList, [.mk none (some (.iri "http:c".toList)) none none none [] none])]))] := by
  decide +kernel

/-! ## Where the order matters -/

/-- A document for `exOrderEnv`. -/
def exOrderWith (m : List (Str × Json)) : Json := .obj (("@context".toList, .obj []) :: m)

/-- A reverse property next to `@reverse`: accepted if `@reverse` comes first, otherwise an error. -/
theorem C68_reverse :
    (expandDoc exOrderEnv {} (exOrderWith [("@reverse".toList, .obj [("http:p".toList, .obj [])]), ("of".toList, .obj [])])).isOk = true ∧
    (match expandDoc exOrderEnv {} (exOrderWith [("of".toList, .obj []), ("@reverse".toList, .obj [("http:p".toList, .obj [])])]) with
      | .error .collidingKeywords => true
      | _ => false) = true := by
  decide +kernel

/-- Two keys for `@id`, one of them with a value that looks like a keyword and is ignored: accepted in one order,
otherwise an error. -/
theorem C68_id :
    (expandDoc exOrderEnv {} (exOrderWith [("id".toList, .str "@other".toList), ("@id".toList, .str "http:a".toList),
      ("http:p".toList, .bool true)])).isOk = true ∧
    (match expandDoc exOrderEnv {} (exOrderWith [("@id".toList, .str "http:a".toList), ("id".toList, .str "@other".toList),
        ("http:p".toList, .bool true)]) with
      | .error .collidingKeywords => true
      | _ => false) = true := by
  decide +kernel

/-- A context with another key for `@value`. -/
def exValueKey : ACtx := { defs := [("v".toList, { value := some (.keyword .value) })] }

/-- Two keys for `@value`: the last one counts, without an error. -/
theorem C68_value :
    (expandDoc exBackEnv exValueKey (.obj [("http:p".toList, .obj [("@value".toList, .bool true), ("v".toList, .bool false)])])).toOption =
      some [.node (.mk none none none none none [(.iri "http:p".toList, [.value none (.literal (.bool false) none)])] none)] ∧
    (expandDoc exBackEnv exValueKey (.obj [("http:p".toList, .obj [("v".toList, .bool false), ("@value".toList, .bool true)])])).toOption =
      some [.node (.mk none none none none none [(.iri "http:p".toList, [.value none (.literal (.bool true) none)])] none)] := by
  decide +kernel

/-- A JSON literal. -/
def exJsonLit (m : List (Str × Json)) : Json :=
  .obj [("http:p".toList, .obj [("@type".toList, .str "@json".toList), ("@value".toList, .obj m)])]

/-- JSON literals: the order of their keys is kept, and the documents are not equal. -/
theorem C68_json :
    (match expandDoc exBackEnv {} (exJsonLit [("a".toList, .null), ("b".toList, .null)]),
        expandDoc exBackEnv {} (exJsonLit [("b".toList, .null), ("a".toList, .null)]) with
      | .ok d, .ok d' => some (d.eq d')
      | _, _ => none) = some false := by
  decide +kernel

end JsonLd.Props
