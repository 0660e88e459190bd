import Verif.Props.ExpandPolicy
import Verif.Proofs.CtxJsonRead
import Verif.Spec.ExpandMaps
import Verif.Spec.Compact
import Verif.Spec.CompactDoc
/-!
# The values of a term
-/

namespace JsonLd
open Spec Props

theorem exBind_iff {ε α β : Type} {f : α → Except ε β} {x : Except ε α} {b : β} :
    x.bind f = .ok b ↔ ∃ a, x = .ok a ∧ f a = .ok b := by
  refine ⟨exBind_ok, ?_⟩
  rintro ⟨a, rfl, h⟩
  exact h

theorem exMap_iff {ε α β : Type} {f : α → β} {x : Except ε α} {b : β} :
    x.map f = .ok b ↔ ∃ a, x = .ok a ∧ f a = b := by
  refine ⟨exMap_ok, ?_⟩
  rintro ⟨a, rfl, h⟩
  exact congrArg _ h

theorem collectM_cons {α β : Type} {f : α → Except XErr (List β)} {a : α} {l : List α} {r : List β} :
    collectM f (a :: l) = .ok r ↔ ∃ p q, f a = .ok p ∧ collectM f l = .ok q ∧ r = p ++ q := by
  show (f a).bind _ = _ ↔ _
  rw [exBind_iff]
  constructor
  · rintro ⟨p, hp, h⟩
    obtain ⟨q, hq, rfl⟩ := exMap_ok h
    exact ⟨p, q, hp, hq, rfl⟩
  · rintro ⟨p, q, hp, hq, rfl⟩
    exact ⟨p, hp, exMap_iff.2 ⟨q, hq, rfl⟩⟩

theorem collectM_iff {α β : Type} {f : α → Except XErr (List β)} {l : List α} {r : List β} :
    collectM f l = .ok r ↔ ∃ parts, List.Forall₂ (fun a p => f a = .ok p) l parts ∧ r = parts.flatten := by
  induction l generalizing r with
  | nil =>
    constructor
    · intro h; cases h; exact ⟨[], .nil, rfl⟩
    · rintro ⟨parts, h, rfl⟩; cases h; rfl
  | cons a l ih =>
    unfold collectM
    rw [exBind_iff]
    constructor
    · rintro ⟨p, hp, h⟩
      obtain ⟨q, hq, rfl⟩ := exMap_ok h
      obtain ⟨parts, h1, rfl⟩ := ih.1 hq
      exact ⟨p :: parts, .cons hp h1, rfl⟩
    · rintro ⟨_, h, rfl⟩
      cases h with
      | cons hp h1 =>
        exact ⟨_, hp, exMap_iff.2 ⟨_, ih.2 ⟨_, h1, rfl⟩, rfl⟩⟩

theorem collectM_append {α β : Type} {f : α → Except XErr (List β)} {a b : List α} {r : List β} :
    collectM f (a ++ b) = .ok r ↔ ∃ x y, collectM f a = .ok x ∧ collectM f b = .ok y ∧ r = x ++ y := by
  induction a generalizing r with
  | nil =>
    constructor
    · intro h; exact ⟨[], r, rfl, h, rfl⟩
    · rintro ⟨x, y, h, h', rfl⟩; cases h; exact h'
  | cons a l ih =>
    rw [List.cons_append, collectM_cons]
    constructor
    · rintro ⟨p, q, hp, hq, rfl⟩
      obtain ⟨x, y, h1, h2, rfl⟩ := ih.1 hq
      exact ⟨p ++ x, y, collectM_cons.2 ⟨p, x, hp, h1, rfl⟩, h2, (List.append_assoc ..).symm⟩
    · rintro ⟨x, y, hx, hy, rfl⟩
      obtain ⟨p, x, hp, hx', rfl⟩ := collectM_cons.1 hx
      exact ⟨p, x ++ y, hp, ih.2 ⟨x, y, hx', hy, rfl⟩, List.append_assoc ..⟩

/-- Nested loops are one loop. -/
theorem collectM_flat {α β γ δ : Type} {g : α → List γ} {h : α → δ} {f : δ → γ → Except XErr (List β)} {l : List α}
    {r : List β} : collectM (fun a => collectM (f (h a)) (g a)) l = .ok r ↔
      collectM (fun x : δ × γ => f x.1 x.2) (l.flatMap fun a => (g a).map fun y => (h a, y)) = .ok r := by
  have inner : ∀ a (ys : List γ), collectM (fun x : δ × γ => f x.1 x.2) (ys.map fun y => (a, y)) =
      collectM (f a) ys := by
    intro a ys
    induction ys with
    | nil => rfl
    | cons y ys ih =>
      rw [List.map_cons]
      unfold collectM
      rw [ih]
  induction l generalizing r with
  | nil => exact Iff.rfl
  | cons a l ih =>
    rw [List.flatMap_cons, collectM_append, inner]
    conv => lhs; unfold collectM
    rw [exBind_iff]
    constructor
    · rintro ⟨p, hp, h⟩
      obtain ⟨q, hq, rfl⟩ := exMap_ok h
      exact ⟨p, q, hp, ih.1 hq, rfl⟩
    · rintro ⟨p, q, hp, hq, rfl⟩
      exact ⟨p, hp, exMap_iff.2 ⟨q, ih.2 hq, rfl⟩⟩

section
variable {E : XEnv} {c : ACtx}

theorem xIri_iff {s : Str} {dr : Bool} {v : Option Action} {t : Option CTerm} :
    xIri E c s dr v = .ok t ↔ expandIri E.toIriEnv c (some (.ofStr s)) dr v = .ok t := by
  unfold xIri
  cases expandIri E.toIriEnv c (some (.ofStr s)) dr v with
  | ok t' => simp
  | error e => simp

theorem xKey_iff {s : Str} {t : Option CTerm} :
    xKey E c s = .ok t ↔ expandIri E.toIriEnv c (some (.ofStr s)) false (some E.opts.vocab) = .ok t := xIri_iff

/-- Objects whose keys stand for properties. -/
structure PropKeys (E : XEnv) (c : ACtx) (m : List (Str × Json)) (es : List XEntry) : Prop where
  obj : m = es.map fun e => (e.key, e.value)
  keys : ∀ e ∈ es, xKey E c e.key = .ok (some e.term)
  props : ∀ e ∈ es, ∃ p, e.term = .id p

theorem xEntries_props' {es : List XEntry} (h : ∀ e ∈ es, xKey E c e.key = .ok (some e.term)) :
    xEntries E c (es.map fun e => (e.key, e.value)) = .ok es := by
  induction es with
  | nil => rfl
  | cons e es ih =>
    show (xKey E c e.key).bind _ = _
    rw [h e (by simp)]
    show (xEntries E c _).map _ = _
    rw [ih fun e he => h e (by simp [he])]
    rfl

theorem prelim_props {es : List XEntry} (h : ∀ e ∈ es, xKey E c e.key = .ok (some e.term)) :
    ∃ r, prelim E c (es.map fun e => (e.key, e.value)) = .ok r := by
  induction es with
  | nil => exact ⟨_, rfl⟩
  | cons e es ih =>
    obtain ⟨r, hr⟩ := ih fun e he => h e (by simp [he])
    refine ⟨?_, ?_⟩
    rotate_left
    · show (xKey E c e.key).bind _ = _
      rw [h e (by simp)]
      show (prelim E c _).map _ = _
      rw [hr]
      rfl

/-- The key `@context` is a keyword. -/
theorem context_key : xKey E c "@context".toList = .ok (some (.keyword .context)) := by
  have := C01_roundtrip .context
  show xKey E c Keyword.context.intoStr = _
  unfold xKey xIri Expandable.ofStr
  rw [this]
  rfl

/-- Objects whose keys stand for something, not for `@context` or `@type`. -/
structure KindKeys (E : XEnv) (c : ACtx) (m : List (Str × Json)) (es : List XEntry) : Prop where
  obj : m = es.map fun e => (e.key, e.value)
  keys : ∀ e ∈ es, xKey E c e.key = .ok (some e.term)
  others : ∀ e ∈ es, e.term ≠ .keyword .context ∧ e.term ≠ .keyword .type

theorem object_kind {m : List (Str × Json)} {es : List XEntry} (h : KindKeys E c m es) {prop : Option Str}
    {fm : Bool} (hr : fm = true ∨ c.previous = none)
    (hp : ∀ k d, prop = some k → c.get k = some d → d.context = none) :
    expandElement E c prop (.obj m) fm = elemKind E (unlimited E) c c prop none es := by
  obtain ⟨rfl, hk, hi⟩ := h
  have ctx : objContext E c prop (es.map fun e => (e.key, e.value)) fm = .ok c := by
    obtain ⟨r, hr'⟩ := prelim_props hk
    unfold objContext
    rw [hr']
    show (scopedCtx E (prop.bind c.get) (revert c _ fm r) _).bind _ = _
    have : revert c (es.map fun e => (e.key, e.value)) fm r = c := by
      unfold revert
      split
      · rename_i p hc
        rcases hr with rfl | hr
        · rfl
        · rw [hr] at hc; cases hc
      · rfl
    rw [this]
    have : scopedCtx E (prop.bind c.get) c E.opts.proc.withOverride = .ok c := by
      unfold scopedCtx
      cases hq : prop.bind c.get with
      | none => rfl
      | some d =>
        cases prop with
        | none => cases hq
        | some k => dsimp only; rw [hp k d rfl hq]
    rw [this]
    show localContext E c _ = _
    unfold localContext
    rw [List.filter_eq_nil_iff.2]
    intro e he
    obtain ⟨e', he', rfl⟩ := List.mem_map.1 he
    simp only [decide_eq_true_eq]
    intro hx
    have h1 := hk e' he'
    rw [hx, context_key] at h1
    exact (hi e' he').1 (Option.some.inj (Except.ok.inj h1)).symm
  have tes : typeEntries E c (es.map fun e => (e.key, e.value)) = .ok [] := by
    unfold typeEntries
    have : collectM (fun e : Str × Json => (xKey E c e.1).map fun t =>
        if t = some (.keyword .type) then [e] else []) (es.map fun e => (e.key, e.value)) = .ok [] := by
      clear ctx
      induction es with
      | nil => rfl
      | cons e es ih =>
        rw [List.map_cons]
        unfold collectM
        rw [ih (fun e he => hk e (by simp [he])) (fun e he => hi e (by simp [he]))]
        show ((xKey E c e.key).map _).bind _ = _
        rw [hk e (by simp)]
        show ((if some e.term = some (.keyword .type) then [(e.key, e.value)] else [] : List (Str × Json)) ++ [] |>
          Except.ok) = _
        rw [if_neg fun h => (hi e (by simp)).2 (Option.some.inj h)]
        rfl
    rw [this]
    rfl
  rw [C49_unfold]
  show elemObj E (unlimited E) c prop _ fm = _
  unfold elemObj
  rw [ctx]
  show (typeEntries E c _).bind _ = _
  rw [tes]
  show (xEntries E c _).bind _ = _
  rw [xEntries_props' hk]
  rfl

theorem object_props {m : List (Str × Json)} {es : List XEntry} (h : PropKeys E c m es) {prop : Option Str}
    {fm : Bool} (hr : fm = true ∨ c.previous = none)
    (hp : ∀ k d, prop = some k → c.get k = some d → d.context = none) :
    expandElement E c prop (.obj m) fm =
      (es.foldlM (entryStep E (unlimited E) c c prop) ⟨.mk none none none none none [] none, false⟩).map
        (nodeResult prop) := by
  have hi := h.props
  have last : ∀ k, lastEntry k es = none := by
    intro k
    unfold lastEntry
    rw [List.filter_eq_nil_iff.2]
    · rfl
    · intro e he
      obtain ⟨p, hp⟩ := hi e he
      rw [hp]
      simp
  rw [object_kind ⟨h.obj, h.keys, fun e he => by obtain ⟨p, hp⟩ := hi e he; rw [hp]; simp⟩ hr hp]
  unfold elemKind
  rw [last, last, last]
  have : (if noProp prop = true then (none : Option Json) else none) = none := by split <;> rfl
  rw [this]
  rfl

/-- The step for a property. -/
theorem step_prop {key : Str} {p : Id} (hp : IsProperty E c key p) {tsc : ACtx} {prop : Option Str} {st : XState}
    {v : Json} : entryStep E (unlimited E) c tsc prop st ⟨key, .id p, v⟩ =
      propEntry E (unlimited E) c key p v st := by
  show (if p.str.contains ':' then idEntry .. else plainEntry ..) = _
  rw [if_pos (by simpa using hp.absolute)]
  unfold idEntry
  split
  · rcases hp.admitted with h | h
    · cases h
    · rw [h]
  · rfl

theorem single_prop {key : Str} {p : Id} (hp : IsProperty E c key p) {prop : Option Str}
    {fm : Bool} (hr : fm = true ∨ c.previous = none)
    (hs : ∀ k d, prop = some k → c.get k = some d → d.context = none) (v : Json) :
    expandElement E c prop (.obj [(key, v)]) fm =
      (propEntry E (unlimited E) c key p v ⟨.mk none none none none none [] none, false⟩).map
        (nodeResult prop) := by
  rw [object_props (E := E) (m := [(key, v)]) (es := [⟨key, .id p, v⟩]) ⟨rfl, ?_, ?_⟩ hr hs]
  · rw [List.foldlM_cons, step_prop hp]
    congr 1
    cases propEntry E (unlimited E) c key p v ⟨.mk none none none none none [] none, false⟩ <;> rfl
  · simpa [xKey_iff] using hp.expands
  · simp

theorem asNodes_iff {e : XErr} {os : List Obj} {ns : List Node} :
    asNodes e os = .ok ns ↔ os = ns.map Obj.node := by
  constructor
  · intro h
    induction os generalizing ns with
    | nil => cases h; rfl
    | cons o os ih =>
      cases o with
      | node n =>
        obtain ⟨ns, h', rfl⟩ := exMap_ok h
        rw [ih h', List.map_cons]
      | value i v => cases h
      | list i l => cases h
  · rintro rfl
    induction ns with
    | nil => rfl
    | cons n ns ih =>
      rw [List.map_cons]
      unfold asNodes
      rw [ih]
      rfl

/-- The values are added to the empty node. -/
theorem add_single {d : TermDef} {p : Id} {y : Expanded} (hy : y.isNull = false) {prop : Option Str} {x : Expanded} :
    (addProp (some d) p y ⟨.mk none none none none none [] none, false⟩).map (nodeResult prop) = .ok x ↔
      OfTerm d p y.toList x := by
  unfold addProp
  rw [hy]
  simp only [Bool.false_eq_true, if_false]
  cases hd : d.reverse with
  | false =>
    simp only [reverseOf, hd, Bool.false_eq_true, if_false]
    constructor
    · intro h
      obtain ⟨st, h1, h2⟩ := exMap_ok h
      cases h1
      rw [← h2]
      have : nodeResult prop ⟨Node.insertProp p y.toList (.mk none none none none none [] none), false⟩ =
          onlyProp p y.toList := by
        simp [nodeResult, Node.isEmpty, Node.insertProp, insertAll, onlyProp]
      rw [this]
      exact .forward _ hd
    · intro h
      generalize hy' : y.toList = os at h
      cases h with
      | forward => simp [Except.map, nodeResult, Node.isEmpty, Node.insertProp, insertAll, onlyProp]
      | backward ns h' => rw [hd] at h'; cases h'
  | true =>
    simp only [reverseOf, hd, if_true]
    unfold addReverse
    have res : ∀ ns, nodeResult prop ⟨Node.insertRev p ns (.mk none none none none none [] none), false⟩ =
        onlyReverse p ns := by
      intro ns
      simp [nodeResult, Node.isEmpty, Node.insertRev, insertAll, onlyReverse]
    constructor
    · intro h
      obtain ⟨st, h1, h2⟩ := exMap_ok h
      obtain ⟨ns, h1, h3⟩ := exMap_ok h1
      rw [asNodes_iff] at h1
      rw [h1, ← h2, ← h3]
      rw [res]
      exact .backward ns hd
    · intro h
      generalize hy' : y.toList = os at h
      cases h with
      | forward _ h' => rw [hd] at h'; cases h'
      | backward ns h' =>
        rw [(asNodes_iff (e := .invalidReversePropertyValue)).2 rfl]
        show Except.ok (nodeResult _ _) = _
        rw [res]

theorem expandedIndex_iff {k : Str} {t : Option CTerm} : expandedIndex E c k = .ok t ↔ MapTerm E c k t := by
  unfold expandedIndex
  rw [exMap_iff]
  constructor
  · rintro ⟨u, hu, rfl⟩
    rw [xKey_iff] at hu
    split
    · rename_i h
      exact .none u hu (.inr h)
    · rename_i h
      cases u with
      | none => exact .none _ hu (.inl rfl)
      | some t =>
        refine .some t hu ?_ ?_
        · rintro rfl; exact h (.inl rfl)
        · rintro rfl; exact h (.inr rfl)
  · rintro (⟨u, hu, h⟩ | ⟨t, hu, h1, h2⟩)
    · refine ⟨u, xKey_iff.2 hu, ?_⟩
      rcases h with rfl | h
      · simp
      · rw [if_pos h]
    · exact ⟨_, xKey_iff.2 hu, by simp [h1, h2]⟩

/-- The map is what the relations for contexts and items say. -/
theorem mapOf_iff {cm : Container} {ik key : Str} {ctx : Str → ACtx → Prop}
    {f : Str → Option CTerm → Obj → List Obj → Prop}
    (hctx : ∀ k c', mapContext E c cm k = .ok c' ↔ ctx k c')
    (hf : ∀ k t o part, t ≠ some .null → (mapItem E c cm ik k t o = .ok part ↔ f k t o part)) {m : List (Str × Json)} {os : List Obj} :
    collectM (xMapEntry E (unlimited E) c cm ik key) m = .ok os ↔ MapOf E c key ctx f m os := by
  rw [collectM_iff]
  unfold MapOf
  have : ∀ (e : Str × Json) part, xMapEntry E (unlimited E) c cm ik key e = .ok part ↔
      ∃ c' t x ps, ctx e.1 c' ∧ MapTerm E c e.1 t ∧ expandElement E c' (some key) e.2 true = .ok x ∧
        List.Forall₂ (f e.1 t) x.toList ps ∧ part = ps.flatten := by
    intro e part
    have hf' : ∀ k t, MapTerm E c k t → (fun o p => mapItem E c cm ik k t o = .ok p) = f k t := by
      intro k t ht
      funext o p
      exact propext (hf k t o p (by rintro rfl; cases ht; contradiction))
    unfold xMapEntry
    rw [exBind_iff]
    constructor
    · rintro ⟨c', h1, h⟩
      obtain ⟨t, h2, h⟩ := exBind_ok h
      obtain ⟨x, h3, h⟩ := exBind_ok h
      obtain ⟨ps, h4, h5⟩ := collectM_iff.1 h
      rw [hf' _ _ (expandedIndex_iff.1 h2)] at h4
      exact ⟨c', t, x, ps, (hctx _ _).1 h1, expandedIndex_iff.1 h2, h3, h4, h5⟩
    · rintro ⟨c', t, x, ps, h1, h2, h3, h4, h5⟩
      rw [← hf' _ _ h2] at h4
      exact ⟨c', (hctx _ _).2 h1, exBind_iff.2 ⟨t, expandedIndex_iff.2 h2, exBind_iff.2 ⟨x, h3,
        collectM_iff.2 ⟨ps, h4, h5⟩⟩⟩⟩
  simp only [this]

/-- The values of a term, before they are added. -/
theorem single_values {key : Str} {p : Id} (hp : IsProperty E c key p) {d : TermDef} (hd : c.get key = some d)
    {prop : Option Str} {fm : Bool} (hr : fm = true ∨ c.previous = none)
    (hs : ∀ k d, prop = some k → c.get k = some d → d.context = none) {v : Json} {x : Expanded} :
    expandElement E c prop (.obj [(key, v)]) fm = .ok x ↔
      ∃ y, propValue E (unlimited E) c (some d) key v = .ok y ∧
        (addProp (some d) p (wrapGraph d.container (wrapList d.container y))
          ⟨.mk none none none none none [] none, false⟩).map (nodeResult prop) = .ok x := by
  rw [single_prop hp hr hs]
  unfold propEntry
  rw [hd]
  constructor
  · intro h
    obtain ⟨st, h1, h2⟩ := exMap_ok h
    obtain ⟨y, h3, h4⟩ := exBind_ok h1
    exact ⟨y, h3, exMap_iff.2 ⟨st, h4, h2⟩⟩
  · rintro ⟨y, h3, h⟩
    obtain ⟨st, h4, h2⟩ := exMap_ok h
    exact exMap_iff.2 ⟨st, exBind_iff.2 ⟨y, h3, h4⟩, h2⟩

/-- The values of a term whose container makes a map. -/
theorem single_map {key : Str} {p : Id} (hp : IsProperty E c key p) {d : TermDef} (hd : c.get key = some d)
    {prop : Option Str} {fm : Bool} (hr : fm = true ∨ c.previous = none)
    (hs : ∀ k d, prop = some k → c.get k = some d → d.context = none) (ht : d.typ ≠ some .json)
    (hc : d.container.contains .index = true ∨ d.container.contains .id = true ∨ d.container.contains .type = true)
    {m : List (Str × Json)} {x : Expanded} :
    expandElement E c prop (.obj [(key, .obj m)]) fm = .ok x ↔
      ∃ os, collectM (xMapEntry E (unlimited E) c d.container (indexKeyOf (some d)) key)
        (sortIf E.opts.ordered Prod.fst m) = .ok os ∧ OfTerm d p os x := by
  have h1 : d.container.contains .language = false ∧ d.container.contains .list = false ∧
      ((d.container.contains .graph && !d.container.contains .id && !d.container.contains .index) = true →
        d.container.contains .type = true ∧ False) ∧
      (d.container.contains .index || d.container.contains .type || d.container.contains .id) = true := by
    revert hc
    cases d.container <;> decide
  have hw : ∀ os, wrapGraph d.container (wrapList d.container (.array os)) = .array os := by
    intro os
    unfold wrapGraph wrapList
    rw [h1.2.1]
    simp only [Bool.false_and, Bool.false_eq_true, if_false]
    rw [if_neg fun h => (h1.2.2.1 h).2]
  rw [single_values hp hd hr hs]
  have hv : propValue E (unlimited E) c (some d) key (.obj m) =
      (collectM (xMapEntry E (unlimited E) c d.container (indexKeyOf (some d)) key)
        (sortIf E.opts.ordered Prod.fst m)).map .array := by
    unfold propValue
    simp only [Option.bind_some, if_neg ht]
    show (if d.container.contains .language = true then _ else _) = _
    rw [if_neg (by rw [h1.1]; simp)]
    exact if_pos h1.2.2.2
  rw [hv]
  constructor
  · rintro ⟨y, hy, h⟩
    obtain ⟨os, ho, rfl⟩ := exMap_ok hy
    rw [hw] at h
    exact ⟨os, ho, (add_single rfl).1 h⟩
  · rintro ⟨os, ho, h⟩
    refine ⟨.array os, exMap_iff.2 ⟨os, ho, rfl⟩, ?_⟩
    rw [hw]
    exact (add_single rfl).2 h

end

end JsonLd
