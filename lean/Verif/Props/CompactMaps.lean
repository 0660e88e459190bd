import Verif.Proofs.MapsDoc
import Verif.Proofs.Items
import Verif.Props.ValueBack
import Verif.Props.Reexpand
import Verif.Props.DocEq
import Verif.Base.DocDec
/-!
# C66: expanding a document compacted with typed terms, lists and maps gives an equal document
-/

namespace JsonLd.Props
open JsonLd.Spec

/-- **C66.** Expanding the compacted form of a document gives an equal document (`Doc.eq`: up to the order of
values), also if the terms of the context have types, languages, directions and containers (`MapEnv`): lists,
sets, graphs, maps by language, index, identifier and type, and maps of graphs. The compacted document contains the context `l`; expansion
starts with `c0` and processing `l` leads to the context `c` of the compaction.

The document is well-formed, and compaction can express all nodes, values and lists inside (`PlacedDoc`). With
`compact_arrays` it is not just one graph without a name, which expansion takes for the `@graph` of the document.
Without these conditions the claim is false, see below. -/
theorem C66_document (E : CEnv) (X : XEnv) (c : ACtx) (H : MapEnv E X c) (c0 : ACtx) (h0 : c0.previous = none)
    (l : SCtx) (hl : CtxOk X.isRef l) (hw : WrittenContext X c0 c l) (d : Doc) (hd : d.WF)
    (hc : PlacedDoc E.toCompEnv c d)
    (hg : E.opts.compactArrays = true → ∀ x g, d ≠ [.node (.mk x none none (some g) none [] none)])
    (j : Json) (h : compactDoc E c l d = .ok j) : ∃ d', expandDoc X c0 j = .ok d' ∧ d'.WF ∧ d'.eq d = true := by
  suffices h : ∃ d', expandDoc X c0 j = .ok d' ∧ List.Forall₂ Same d' d by
    obtain ⟨d', h1, h2⟩ := h
    exact ⟨d', h1, same_docs h2 hd⟩
  refine doc_made H h0 hl hw hd (fun o ho => ⟨?_, fun y hy => ⟨?_, ?_, ?_⟩⟩) hc.top (fun ha o ho => ?_) h
  · exact objsWF_iff.1 hd.2 o ho
  · rintro n rfl
    exact hc.nodes n ⟨o, ho, hy⟩
  · rintro i v rfl
    exact hc.values i v ⟨o, ho, hy⟩
  · rintro i l rfl
    exact hc.lists i l ⟨o, ho, hy⟩
  · subst ho
    obtain ⟨⟨x, i, ty, g, inc, ps, rv⟩, rfl, -⟩ := hc.top o (by simp)
    unfold unnamedGraph
    dsimp only
    split
    · rename_i hx
      unfold Node.isGraph Node.id at hx
      simp only [Bool.and_eq_true, Option.isSome_iff_exists, Option.isNone_iff_eq_none, List.isEmpty_iff] at hx
      obtain ⟨⟨⟨⟨⟨⟨g, rfl⟩, rfl⟩, rfl⟩, rfl⟩, rfl⟩, rfl⟩ := hx
      exact absurd rfl (hg ha x g)
    · rfl

/-- **C66.** Documents that are not equal have different compacted forms. -/
theorem C66_injective (E : CEnv) (X : XEnv) (c : ACtx) (H : MapEnv E X c) (c0 : ACtx) (h0 : c0.previous = none)
    (l : SCtx) (hl : CtxOk X.isRef l) (hw : WrittenContext X c0 c l) (d d' : Doc) (hd : d.WF) (hd' : d'.WF)
    (hc : PlacedDoc E.toCompEnv c d) (hc' : PlacedDoc E.toCompEnv c d')
    (hg : ∀ x g, d ≠ [.node (.mk x none none (some g) none [] none)])
    (hg' : ∀ x g, d' ≠ [.node (.mk x none none (some g) none [] none)])
    (j : Json) (h : compactDoc E c l d = .ok j) (h' : compactDoc E c l d' = .ok j) : d.eq d' = true := by
  obtain ⟨e, h1, h2, h3⟩ := C66_document E X c H c0 h0 l hl hw d hd hc (fun _ => hg) j h
  obtain ⟨e', h1', -, h3'⟩ := C66_document E X c H c0 h0 l hl hw d' hd' hc' (fun _ => hg') j h'
  rw [h1] at h1'
  cases h1'
  exact C46_equivalence.2.2 d e d' hd h2 hd' (C46_equivalence.2.1 e d h2 hd h3) h3'

/-! ## An example -/

/-- A term for an IRI. -/
def exMapsTerm (i : String) (k : Container) (t : Option TypeMap) : TermDef :=
  { value := some (.id (.iri i.toList)), container := k, typ := t }

/-- A context with a list of identifiers, a map by language, a set of identifiers, and maps by index, by
identifier and by type. -/
def exMapsCtx : ACtx :=
  { defs := [("kind".toList, { value := some (.keyword .type) }),
      ("list".toList, exMapsTerm "http:list" .list (some .id)),
      ("label".toList, exMapsTerm "http:label" .language none),
      ("knows".toList, exMapsTerm "http:knows" .set (some .id)),
      ("at".toList, exMapsTerm "http:at" .index none),
      ("by".toList, exMapsTerm "http:by" .id none),
      ("as".toList, exMapsTerm "http:as" .type (some .id))] }

/-- A node that has only an identifier. -/
def exPoint (i : String) : Node := .mk none (some (.iri i.toList)) none none none [] none

/-- A number. -/
def exNum (i : Option Str) (s : String) : Obj := .value i (.literal (.num s.toList) none)

/-- A string with a language. -/
def exLang (s l : String) : Obj := .value none (.langString ⟨s.toList, some l.toList, none⟩)

/-- Properties that use all the terms. -/
def exMapsProps : List (Id × List Obj) :=
    [(.iri "http:list".toList, [.list none [.node (exPoint "http:b"), .node (exPoint "http:c")]]),
     (.iri "http:label".toList, [exLang "a" "en", exLang "b" "fr", exLang "c" "en", exText none "d".toList]),
     (.iri "http:knows".toList, [.node (exPoint "http:b")]),
     (.iri "http:at".toList, [exNum (some "i".toList) "1", exNum none "2", exNum (some "i".toList) "3"]),
     (.iri "http:by".toList, [.node (.mk none (some (.iri "http:b".toList)) none none none
        [(.iri "http:at".toList, [])] none)]),
     (.iri "http:as".toList, [.node (.mk none none (some [.iri "http:T".toList, .iri "http:U".toList]) none none
        [(.iri "http:knows".toList, [])] none)])]

/-- A node with these properties. -/
def exMapsDoc : Doc :=
  [.node (.mk none (some (.iri "http:a".toList)) (some [.iri "http:T".toList]) none none exMapsProps none)]


theorem exMaps_defs {t : Str} {d : TermDef} (h : lookupKey t exMapsCtx.defs = some d) : (t, d) ∈ exMapsCtx.defs :=
  lookupKey_mem h

theorem exMaps_get {t : Str} {d : TermDef} (h : exMapsCtx.get t = some d) : (t, d) ∈ exMapsCtx.defs := by
  unfold ACtx.get at h
  split at h
  · cases h
  · exact lookupKey_mem h

theorem exMaps_noPrefix {p : Str} {m : CTerm} (h : PrefixFor exMapsCtx p m) : False := by
  obtain ⟨d, h1, h2, -⟩ := h
  have := exMaps_defs h1
  simp only [exMapsCtx, exMapsTerm, List.mem_cons, Prod.mk.injEq, List.not_mem_nil, or_false] at this
  rcases this with ⟨-, rfl⟩ | ⟨-, rfl⟩ | ⟨-, rfl⟩ | ⟨-, rfl⟩ | ⟨-, rfl⟩ | ⟨-, rfl⟩ | ⟨-, rfl⟩ <;> cases h2

theorem exMaps_env : MapEnv exCEnv exBackEnv exMapsCtx where
  env := rfl
  vocab := rfl
  mode := rfl
  iris := exComp_facts.1
  facts := exComp_facts.2
  clean := {
    distinct := by decide
    terms := fun k d h => by
      rw [← C01_form, Bool.not_eq_true]
      have := exMaps_defs h
      simp only [exMapsCtx, List.mem_cons, Prod.mk.injEq, List.not_mem_nil, or_false] at this
      rcases this with ⟨rfl, -⟩ | ⟨rfl, -⟩ | ⟨rfl, -⟩ | ⟨rfl, -⟩ | ⟨rfl, -⟩ | ⟨rfl, -⟩ | ⟨rfl, -⟩ <;> decide
    prefixes := fun p m h => (exMaps_noPrefix h).elim
    ids := fun k d h h' => by
      have := exMaps_defs h
      simp only [exMapsCtx, List.mem_cons, Prod.mk.injEq, List.not_mem_nil, or_false] at this
      rcases this with ⟨rfl, -⟩ | ⟨rfl, -⟩ | ⟨rfl, -⟩ | ⟨rfl, -⟩ | ⟨rfl, -⟩ | ⟨rfl, -⟩ | ⟨rfl, -⟩ <;>
        exact absurd h' (by decide)
    vocab := nofun
    base := nofun }
  keywords := ⟨fun p m h => (exMaps_noPrefix h).elim, nofun⟩
  ctx := {
    defs := fun b hb => by
      simp only [exMapsCtx, List.mem_cons, List.not_mem_nil, or_false] at hb
      rcases hb with rfl | rfl | rfl | rfl | rfl | rfl | rfl <;>
        exact ⟨⟨_, rfl, nofun⟩, by decide, rfl, rfl, rfl, rfl⟩
    keywords := fun b hb k hk => by
      simp only [exMapsCtx, exMapsTerm, List.mem_cons, List.not_mem_nil, or_false] at hb
      rcases hb with rfl | rfl | rfl | rfl | rfl | rfl | rfl <;> first
        | exact ⟨rfl, rfl, rfl, rfl, rfl, rfl, rfl, rfl⟩
        | cases hk
    iris := fun b hb h => by
      simp only [exMapsCtx, List.mem_cons, List.not_mem_nil, or_false] at hb
      rcases hb with rfl | rfl | rfl | rfl | rfl | rfl | rfl <;> exact absurd h (by decide)
    typeDef := rfl
    previous := rfl }

theorem exMaps_name {i : Str} (h : Id.classify exCEnv.toIriEnv i = .iri i) (h' : exCEnv.isIri i = true) (voc : Bool) :
    Nameable exCEnv.toCompEnv exMapsCtx voc (.iri i) :=
  ⟨h, .inl h', nofun, fun _ _ _ h => (exMaps_noPrefix h).elim, nofun⟩

theorem exMaps_wf : exMapsDoc.WF := by
  simp [Doc.WF, exMapsDoc, exMapsProps, exPoint, exNum, exLang, exText, gWF, incWF, rvWF, Node.WF, psWF, objsWF, Obj.WF]

theorem exMaps_without {i : String} {k : ContainerKind}
    (h : exMapsCtx.defs.all fun b => !(decide (b.2.value = some (.id (.iri i.toList)))) || !b.2.container.asSlice.contains k) :
    NoTermWith exMapsCtx (.id (.iri i.toList)) k := by
  intro t d hd hv hk
  have := List.all_eq_true.1 h _ (exMaps_get hd)
  simp [hv, hk] at this

theorem exMaps_lists : ∀ p ∈ exMapsProps, ∀ o ∈ p.2, IsList o → NoTermWith exMapsCtx (.id p.1) .index := by
  intro p hp o ho h
  simp only [exMapsProps, List.mem_cons, List.not_mem_nil, or_false] at hp
  rcases hp with rfl | rfl | rfl | rfl | rfl | rfl
  · exact exMaps_without (by decide)
  · refine absurd h ?_
    simp only [List.mem_cons, List.not_mem_nil, or_false] at ho
    rcases ho with rfl | rfl | rfl | rfl <;> simp [IsList, exLang, exText]
  · refine absurd h ?_
    simp only [List.mem_singleton] at ho
    subst ho
    simp [IsList]
  · refine absurd h ?_
    simp only [List.mem_cons, List.not_mem_nil, or_false] at ho
    rcases ho with rfl | rfl | rfl <;> simp [IsList, exNum]
  · refine absurd h ?_
    simp only [List.mem_singleton] at ho
    subst ho
    simp [IsList]
  · refine absurd h ?_
    simp only [List.mem_singleton] at ho
    subst ho
    simp [IsList]

theorem exMaps_graphs : ∀ p ∈ exMapsProps, ∀ g, .node g ∈ p.2 → g.isGraph = true → ∀ t d, exMapsCtx.get t = some d →
    d.value = some (.id p.1) → InGraphTerm d.container g := by
  intro p hp g hg h
  exfalso
  simp only [exMapsProps, exLang, exText, exNum, List.mem_cons, List.not_mem_nil, or_false] at hp
  rcases hp with rfl | rfl | rfl | rfl | rfl | rfl <;>
    simp only [List.mem_cons, List.not_mem_nil, or_false, reduceCtorEq, Obj.node.injEq] at hg <;> subst hg <;> cases h

theorem exMaps_langs : ∀ p ∈ exMapsProps, ∀ v, .value none v ∈ p.2 → ∀ t d, exMapsCtx.get t = some d →
    d.value = some (.id p.1) → .language ∈ d.container.asSlice → InLanguageMap exMapsCtx t v := by
  intro p hp v hv t d hd hp' hk
  have ht : (t, d) = ("label".toList, exMapsTerm "http:label" .language none) := by
    have := exMaps_get hd
    simp only [exMapsCtx, List.mem_cons, List.not_mem_nil, or_false] at this
    rcases this with h | h | h | h | h | h | h
    iterate 2
      obtain ⟨-, rfl⟩ := Prod.mk.inj h
      exact absurd hk (by decide)
    · exact h
    all_goals
      obtain ⟨-, rfl⟩ := Prod.mk.inj h
      exact absurd hk (by decide)
  obtain ⟨rfl, rfl⟩ := Prod.mk.inj ht
  have hdir : DefaultDirection exMapsCtx "label".toList none :=
    .inr ⟨fun d' h => by rw [hd] at h; cases h; rfl, rfl⟩
  simp only [exMapsProps, List.mem_cons, List.not_mem_nil, or_false] at hp
  rcases hp with rfl | rfl | rfl | rfl | rfl | rfl
  · exact absurd hp' (by decide)
  · simp only [exLang, exText, List.mem_cons, List.not_mem_nil, or_false, Obj.value.injEq, true_and] at hv
    rcases hv with rfl | rfl | rfl | rfl
    · exact hdir
    · exact hdir
    · exact hdir
    · exact ⟨⟨_, rfl⟩, hdir⟩
  all_goals exact absurd hp' (by decide)

/-- A small node: its types and identifier are IRIs, and its properties have no values. -/
theorem exMaps_small (i : Option Id) (ts : Option (List Id)) (ps : List (Id × List Obj))
    (h1 : ∀ j, i = some j → ∀ voc, Nameable exCEnv.toCompEnv exMapsCtx voc j)
    (h2 : ∀ l, ts = some l → l ≠ [] ∧ ∀ t ∈ l, ∀ voc, Nameable exCEnv.toCompEnv exMapsCtx voc t)
    (h3 : ∀ p ∈ ps, (∀ voc, Nameable exCEnv.toCompEnv exMapsCtx voc p.1) ∧ p.2 = []) :
    PlacedNode exCEnv.toCompEnv exMapsCtx (.mk none i ts none none ps none) where
  id := fun j h => h1 j h false
  term := fun j h _ => h1 j h true
  reference := fun _ _ _ => rfl
  types := fun l h => ⟨(h2 l h).1, fun t ht => (h2 l h).2 t ht true⟩
  graph := nofun
  props := fun p hp => (h3 p hp).1 true
  lists := fun p hp => .inr (by rw [(h3 p hp).2]; exact .nil)
  maps := fun p hp o ho => by rw [(h3 p hp).2] at ho; cases ho
  graphs := fun p hp o ho => by rw [(h3 p hp).2] at ho; cases ho
  rev := nofun
  langs := fun p hp o ho => by rw [(h3 p hp).2] at ho; cases ho
  index := nofun

theorem exMaps_placed : PlacedDoc exCEnv.toCompEnv exMapsCtx exMapsDoc := by
  refine ⟨fun n hn => ?_, fun i v hv => ?_, fun i l hl => ?_, fun o ho => ?_⟩
  · have := inside_items hn
    simp only [exMapsDoc, itemsOfObjs, Obj.items, Node.items, itemsOfGraph, itemsOfIncluded, itemsOfRev, List.mem_append,
      List.mem_cons, List.not_mem_nil, or_false, reduceCtorEq, false_or, Item.node.injEq] at this
    rcases this with rfl | this
    · exact {
        id := fun i h => by cases h; exact exMaps_name (by decide) (by decide) _
        term := fun i h _ => by cases h; exact exMaps_name (by decide) (by decide) _
        reference := fun _ _ _ => rfl
        types := fun ts h => by
          cases h
          exact ⟨by simp, fun t ht => by rw [List.mem_singleton.1 ht]; exact exMaps_name (by decide) (by decide) _⟩
        graph := nofun
        props := fun p hp => by
          simp only [Node.props, exMapsProps, List.mem_cons, List.not_mem_nil, or_false] at hp
          rcases hp with rfl | rfl | rfl | rfl | rfl | rfl <;> exact exMaps_name (by decide) (by decide) _
        lists := fun p hp => by
          simp only [Node.props, exMapsProps, List.mem_cons, List.not_mem_nil, or_false] at hp
          rcases hp with rfl | rfl | rfl | rfl | rfl | rfl <;> refine .inr ?_ <;>
            simp [IsList, exLang, exText, exNum]
        maps := exMaps_lists
        graphs := exMaps_graphs
        rev := nofun
        langs := exMaps_langs
        index := nofun }
    · simp only [exMapsProps, exPoint, exNum, exText, exLang, itemsOfObjs, Obj.items, Node.items, itemsOfGraph,
        itemsOfIncluded, itemsOfProps, itemsOfRev, List.mem_append, List.mem_cons, List.not_mem_nil, or_false, reduceCtorEq,
        false_or, or_assoc, Item.node.injEq] at this
      rcases this with rfl | rfl | rfl | rfl | rfl
      all_goals
        refine exMaps_small _ _ _ ?_ ?_ ?_
        · intro j h
          cases h
          try exact exMaps_name (by decide) (by decide)
        · intro l h
          cases h
          try
            refine ⟨by simp, fun t ht => ?_⟩
            rcases List.mem_cons.1 ht with rfl | ht
            · exact exMaps_name (by decide) (by decide)
            · rw [List.mem_singleton.1 ht]
              exact exMaps_name (by decide) (by decide)
        · intro p hp
          first
            | cases hp; done
            | rw [List.mem_singleton.1 hp]
              exact ⟨exMaps_name (by decide) (by decide), rfl⟩
  · have := inside_items hv
    simp only [exMapsDoc, exMapsProps, exPoint, exNum, exText, exLang, itemsOfObjs, Obj.items, Node.items, itemsOfGraph,
      itemsOfIncluded, itemsOfProps, itemsOfRev, List.mem_append, List.mem_cons, List.not_mem_nil, or_false, reduceCtorEq,
      false_or, or_assoc, Item.obj.injEq, Obj.value.injEq] at this
    have hlang : ∀ t d, exMapsCtx.get t = some d → d.language.join = none ∧ d.direction.join = none := by
      intro t d h
      have := exMaps_get h
      simp only [exMapsCtx, List.mem_cons, Prod.mk.injEq, List.not_mem_nil, or_false] at this
      rcases this with ⟨-, rfl⟩ | ⟨-, rfl⟩ | ⟨-, rfl⟩ | ⟨-, rfl⟩ | ⟨-, rfl⟩ | ⟨-, rfl⟩ | ⟨-, rfl⟩ <;> exact ⟨rfl, rfl⟩
    have hnone : ∀ i, isKeywordLike i = false → NotNone exMapsCtx i := by
      intro i hi
      refine ⟨fun h => ?_, fun d h hv => ?_⟩
      · rw [← C01_form, hi] at h
        cases h
      · have := exMaps_get h
        simp only [exMapsCtx, exMapsTerm, List.mem_cons, Prod.mk.injEq, List.not_mem_nil, or_false] at this
        rcases this with ⟨-, rfl⟩ | ⟨-, rfl⟩ | ⟨-, rfl⟩ | ⟨-, rfl⟩ | ⟨-, rfl⟩ | ⟨-, rfl⟩ | ⟨-, rfl⟩ <;> cases hv
    rcases this with ⟨rfl, rfl⟩ | ⟨rfl, rfl⟩ | ⟨rfl, rfl⟩ | ⟨rfl, rfl⟩ | ⟨rfl, rfl⟩ | ⟨rfl, rfl⟩ | ⟨rfl, rfl⟩
    iterate 3
      exact ⟨.lang _ (.inl nofun) (fun l h => by cases h; exact hnone _ (by decide)) nofun
        (fun _ => ⟨rfl, fun t d h => (hlang t d h).2⟩), nofun⟩
    · exact ⟨.plain _ nofun, nofun⟩
    · exact ⟨.plain _ nofun, fun x h => by cases h; exact hnone _ (by decide)⟩
    · exact ⟨.plain _ nofun, nofun⟩
    · exact ⟨.plain _ nofun, fun x h => by cases h; exact hnone _ (by decide)⟩
  · have := inside_items hl
    simp only [exMapsDoc, exMapsProps, exPoint, exNum, exText, exLang, itemsOfObjs, Obj.items, Node.items, itemsOfGraph,
      itemsOfIncluded, itemsOfProps, itemsOfRev, List.mem_append, List.mem_cons, List.not_mem_nil, or_false, reduceCtorEq,
      false_or, Item.obj.injEq, Obj.list.injEq] at this
    obtain ⟨-, rfl⟩ := this
    intro o ho
    simp only [List.mem_cons, List.not_mem_nil, or_false] at ho
    rcases ho with rfl | rfl <;> simp [IsList]
  · rw [List.mem_singleton.1 ho]
    exact ⟨_, rfl, .inl rfl⟩

/-- The hypotheses of C66 are met. -/
example : WrittenContext exBackEnv exMapsCtx exMapsCtx (.one .null) ∧ CtxOk exBackEnv.isRef (.one .null) ∧
    ∀ x g, exMapsDoc ≠ [.node (.mk x none none (some g) none [] none)] := by
  refine ⟨?_, ?_, by simp [exMapsDoc]⟩
  · unfold WrittenContext
    rw [if_pos (by decide)]
  · simp [CtxOk, EntryOk]

/-- The compacted document. -/
def exMapsJson : Json :=
  .obj [("@id".toList, .str "http:a".toList), ("kind".toList, .str "http:T".toList),
    ("list".toList, .arr [.str "http:b".toList, .str "http:c".toList]),
    ("label".toList, .obj [("fr".toList, .str "b".toList), ("en".toList, .arr [.str "a".toList, .str "c".toList]),
      ("@none".toList, .str "d".toList)]),
    ("knows".toList, .arr [.str "http:b".toList]),
    ("at".toList, .obj [("@none".toList, .num "2".toList), ("i".toList, .arr [.num "1".toList, .num "3".toList])]),
    ("by".toList, .obj [("http:b".toList, .obj [("at".toList, .arr [])])]),
    ("as".toList, .obj [("http:T".toList, .obj [("knows".toList, .arr []), ("kind".toList, .str "http:U".toList)])])]

/-- The compacted document; its expansion is an equal document, in which the values of `label` and `at` have another
order. -/
example : compactDoc exCEnv exMapsCtx (.one .null) exMapsDoc = .ok exMapsJson ∧
    ((expandDoc exBackEnv exMapsCtx exMapsJson).toOption.map fun d => d.eq exMapsDoc) = some true ∧
    (expandDoc exBackEnv exMapsCtx exMapsJson).toOption ≠ some exMapsDoc := by
  decide +kernel

/-- The same environments with sorted keys. -/
def exSortedCEnv : CEnv := { exCEnv with opts := { exCEnv.opts with ordered := true } }

@[inherit_doc exSortedCEnv]
def exSortedXEnv : XEnv := { exBackEnv with opts := { exBackEnv.opts with ordered := true } }

/-- The conditions do not mention the order. -/
theorem exSorted_env : MapEnv exSortedCEnv exSortedXEnv exMapsCtx :=
  { exMaps_env with }

/-- The output with sorted properties is different, and its expansion is equal to the document. -/
example : compactDoc exSortedCEnv exMapsCtx (.one .null) exMapsDoc ≠ .ok exMapsJson ∧
    (((compactDoc exSortedCEnv exMapsCtx (.one .null) exMapsDoc).bind fun j => .ok (expandDoc exSortedXEnv exMapsCtx j)).toOption.map
      fun r => r.toOption.map fun d => d.eq exMapsDoc) = some (some true) := by
  decide +kernel

/-! ## Where the conditions are needed -/

/-- C66 is false of two lists under a term with the container `@list`: the first one is lost. -/
theorem C66_two_lists : exBack (exTermCtx .list) [exNodeT [.list none [exNum none "1"], .list none [exNum none "2"]]] =
    some [exNodeT [.list none [exNum none "2"]]] := by
  decide +kernel

/-- A context with a term of a type. -/
def exTypedCtx (m : TypeMap) : ACtx := { defs := [("t".toList, exTypedTerm m)] }

/-- C66 is false of terms of type `@json`: the array `[1]` becomes the number `1`, and two values become one array. -/
theorem C66_json :
    exBack (exTypedCtx .json) [exNodeT [.value none (.json (.arr [.num "1".toList]))]] =
      some [exNodeT [.value none (.json (.num "1".toList))]] ∧
    exBack (exTypedCtx .json) [exNodeT [.value none (.json (.num "1".toList)), .value none (.json (.num "2".toList))]] =
      some [exNodeT [.value none (.json (.arr [.num "1".toList, .num "2".toList]))]] := by
  decide +kernel

/-- C66 is false of lists in lists: a term of type `@id` is chosen for a list with a list of strings, and the strings
are taken for identifiers; under a term with the container `@list` the index of the inner list is lost. -/
theorem C66_list_in_list :
    exBack (exTypedCtx .id) [exNodeT [.list none [.list none [exText none "http:a".toList]]]] =
      some [exNodeT [.list none [.list none [.node (exPoint "http:a")]]]] ∧
    exBack (exTermCtx .list) [exNodeT [.list none [.list (some "i".toList) []]]] =
      some [exNodeT [.list none [.list none []]]] := by
  decide +kernel

/-- C66 is false of a node with only an identifier and an index under a term of type `@id`: the index is lost. -/
theorem C66_reference_index :
    exBack (exTypedCtx .id) [exNodeT [.node (.mk (some "i".toList) (some (.iri "http:b".toList)) none none none [] none)]] =
      some [exNodeT [.node (exPoint "http:b")]] := by
  decide +kernel

/-- C66 is false of strings with a direction in a map by language: the direction is lost. -/
theorem C66_direction_in_map :
    exBack (exTermCtx .language) [exNodeT [.value none (.langString ⟨"a".toList, some "en".toList, some .ltr⟩)]] =
      some [exNodeT [exLang "a" "en"]] := by
  decide +kernel

/-- C66 is false of numbers under a term with the container `@language`: they are put in the map, and expansion
rejects it. -/
theorem C66_number_in_map :
    compactDoc exCEnv (exTermCtx .language) (.one .null) [exNodeT [exNum none "1"]] =
      .ok (.obj [("t".toList, .obj [("@none".toList, .num "1".toList)])]) ∧
    exBack (exTermCtx .language) [exNodeT [exNum none "1"]] = none := by
  decide +kernel

/-- C66 is false of lists and graphs under a term with the container `@index`: the list or graph object is not put in a map,
but expansion takes it for the map. -/
theorem C66_list_for_map :
    exBack (exTermCtx .index) [exNodeT [.list none [exNum none "1"]]] =
      some [exNodeT [exNum (some "@list".toList) "1"]] ∧
    exBack (exTermCtx .index) [exNodeT [.node (.mk none none none (some [exNodeT []]) none [] none)]] =
      some [exNodeT [.node (.mk (some "@graph".toList) none none none none [(.iri "http:t".toList, [])] none)]] := by
  decide +kernel

/-- C66 is false of reverse properties with a term with the container `@index`: the nodes are put in a map, which
expansion takes for a node. -/
theorem C66_reverse_map :
    exBack (exTermCtx .index) [.node (.mk none none none none none [] (some [(.iri "http:t".toList, [exPoint "http:b"])]))] =
      some [.node (.mk none none none none none [] (some [(.iri "http:t".toList,
        [.mk none none none none none [] none])]))] := by
  decide +kernel

/-- C66 is false of an index of the form of a keyword: as the key of a map it is lost. -/
theorem C66_keyword_index : exBack (exTermCtx .index) [exNodeT [exNum (some "@foo".toList) "1"]] =
    some [exNodeT [exNum none "1"]] := by
  decide +kernel

/-- C66 is false of a term that is an IRI with the container `@list`: it is not chosen for a value that is no list,
but the IRI is written, and expansion takes it for the term. -/
theorem C66_iri_term :
    exBack { defs := [("http:t".toList, { value := some (.id (.iri "http:t".toList)), container := .list })] }
      [exNodeT [exNum none "1"]] = some [exNodeT [.list none [exNum none "1"]]] := by
  decide +kernel

end JsonLd.Props
