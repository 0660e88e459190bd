import Verif.Proofs.RoundDoc
import Verif.Proofs.Items
import Verif.Props.ValueBack
import Verif.Props.Reexpand
import Verif.Base.DocDec
/-!
# C55: expanding a compacted document gives the document back
-/

namespace JsonLd.Props
open JsonLd.Spec

/-- **C55.** Expanding the compacted form of a document gives the same document, with the same order, if the
terms of the context are only names (`RoundEnv`): terms and prefixes for IRIs, aliases of keywords, a vocabulary
mapping, a base IRI, a default language and a default direction are allowed. The compacted document contains the
context `l`; expansion starts with `c0` and processing `l` leads to the context `c` of the compaction.

The document is well-formed, and compaction can express all nodes and values inside (`CarriedDoc`). With
`compact_arrays` it is not just one graph without a name, which expansion takes for the `@graph` of the document.
Without these conditions the claim is false, see below. -/
theorem C55_document (E : CEnv) (X : XEnv) (c : ACtx) (H : RoundEnv E X c) (c0 : ACtx) (h0 : c0.previous = none)
    (l : SCtx) (hl : CtxOk X.isRef l) (hw : WrittenContext X c0 c l) (d : Doc) (hd : d.WF)
    (hc : CarriedDoc E.toCompEnv c d)
    (hg : E.opts.compactArrays = true → ∀ x g, d ≠ [.node (.mk x none none (some g) none [] none)])
    (j : Json) (h : compactDoc E c l d = .ok j) : expandDoc X c0 j = .ok d := by
  refine doc_back H h0 hl hw hd (fun o ho => ⟨?_, fun y hy => ⟨?_, ?_⟩⟩) hc.top (fun ha o ho => ?_) h
  · exact objsWF_iff.1 hd.2 o ho
  · rintro n rfl
    exact hc.nodes n ⟨o, ho, hy⟩
  · rintro i v rfl
    exact hc.values i v ⟨o, ho, hy⟩
  · subst ho
    obtain ⟨⟨x, i, ty, g, inc, ps, rv⟩, rfl, -⟩ := hc.top o (by simp)
    unfold unnamedGraph
    dsimp only
    split
    · rename_i hx
      unfold Node.isGraph Node.id at hx
      simp only [Bool.and_eq_true, Option.isSome_iff_exists, Option.isNone_iff_eq_none, List.isEmpty_iff] at hx
      obtain ⟨⟨⟨⟨⟨⟨g, rfl⟩, rfl⟩, rfl⟩, rfl⟩, rfl⟩, rfl⟩ := hx
      exact absurd rfl (hg ha x g)
    · rfl

/-- **C55.** Different documents have different compacted forms. -/
theorem C55_injective (E : CEnv) (X : XEnv) (c : ACtx) (H : RoundEnv E X c) (c0 : ACtx) (h0 : c0.previous = none)
    (l : SCtx) (hl : CtxOk X.isRef l) (hw : WrittenContext X c0 c l) (d d' : Doc) (hd : d.WF) (hd' : d'.WF)
    (hc : CarriedDoc E.toCompEnv c d) (hc' : CarriedDoc E.toCompEnv c d')
    (hg : ∀ x g, d ≠ [.node (.mk x none none (some g) none [] none)])
    (hg' : ∀ x g, d' ≠ [.node (.mk x none none (some g) none [] none)])
    (j : Json) (h : compactDoc E c l d = .ok j) (h' : compactDoc E c l d' = .ok j) : d = d' := by
  have h1 := C55_document E X c H c0 h0 l hl hw d hd hc (fun _ => hg) j h
  rw [C55_document E X c H c0 h0 l hl hw d' hd' hc' (fun _ => hg') j h'] at h1
  exact (Except.ok.inj h1).symm

/-! ## An example -/

/-- Expansion with a written context that is processed to `exBackCtx`. -/
def exRoundX : XEnv := { exBackEnv with process := fun _ _ _ _ => .ok exBackCtx }

theorem exRound_env : RoundEnv exCEnv exRoundX exBackCtx where
  env := rfl
  vocab := rfl
  sorted := ⟨rfl, rfl⟩
  mode := rfl
  iris := exComp_facts.1
  facts := exComp_facts.2
  clean := ⟨exComp_clean.1, exComp_clean.2, exComp_clean.3, exComp_clean.4, exComp_clean.5, exComp_clean.6⟩
  keywords := by
    refine ⟨fun p m h k => ?_, fun v h k => ?_⟩
    · obtain ⟨rfl, rfl⟩ := exComp_prefix (p := p) (m := m) h
      cases k <;> decide
    · cases h
      cases k <;> decide
  plain := by
    refine ⟨fun b hb => ?_, rfl, rfl⟩
    simp only [exBackCtx, exCompCtx, List.mem_cons, List.not_mem_nil, or_false] at hb
    rcases hb with rfl | rfl | rfl <;> exact ⟨rfl, rfl, rfl, rfl, rfl, rfl, rfl, rfl⟩

theorem exName_vocab : Nameable exCEnv.toCompEnv exBackCtx true (.iri "http:px".toList) ∧
    Nameable exCEnv.toCompEnv exBackCtx true (.iri "http:t".toList) ∧
    Nameable exCEnv.toCompEnv exBackCtx true (.iri "http:vr".toList) := by
  refine ⟨⟨by decide, by decide, fun _ v x h1 h2 => ?_, fun p m x h1 h2 => ?_, nofun⟩,
    ⟨by decide, by decide, fun _ v x h1 h2 => ?_, fun p m x h1 h2 => ?_, nofun⟩,
    ⟨by decide, by decide, fun _ v x h1 h2 => ?_, fun p m x h1 h2 => ?_, nofun⟩⟩
  · cases h1
    simp [Id.str, CTerm.str] at h2
  · obtain ⟨rfl, rfl⟩ := exComp_prefix (p := p) (m := m) h1
    simp [Id.str, CTerm.str] at h2
    subst h2
    decide
  · cases h1
    simp [Id.str, CTerm.str] at h2
  · obtain ⟨rfl, rfl⟩ := exComp_prefix (p := p) (m := m) h1
    simp [Id.str, CTerm.str] at h2
  · cases h1
    simp [Id.str, CTerm.str] at h2
    subst h2
    refine ⟨?_, ?_⟩
    · rw [← C01_form]
      decide
    · rintro ⟨p, y, h, -⟩
      have : ':' ∈ ['r'] := by rw [h]; simp
      revert this
      decide
  · obtain ⟨rfl, rfl⟩ := exComp_prefix (p := p) (m := m) h1
    simp [Id.str, CTerm.str] at h2

theorem exName_id : Nameable exCEnv.toCompEnv exBackCtx false (.iri "http:bx".toList) ∧
    Nameable exCEnv.toCompEnv exBackCtx false (.blank "_:b".toList) := by
  refine ⟨⟨by decide, by decide, nofun, fun p m x h1 h2 => ?_, fun _ i b h1 h2 => ?_⟩,
    ⟨by decide, by decide, nofun, fun p m x h1 h2 => ?_, nofun⟩⟩
  · obtain ⟨rfl, rfl⟩ := exComp_prefix (p := p) (m := m) h1
    simp [Id.str, CTerm.str] at h2
  · cases h1
    cases h2
    refine ⟨by decide, fun r d k hr hd => ?_⟩
    have := exComp_lookup hd
    simp only [exCompCtx, List.mem_cons, Prod.mk.injEq, List.not_mem_nil, or_false] at this
    rcases hr with rfl | rfl <;> rcases this with ⟨h, -⟩ | ⟨h, -⟩ | ⟨h, -⟩ <;> exact absurd h (by decide)
  · obtain ⟨rfl, rfl⟩ := exComp_prefix (p := p) (m := m) h1
    simp [Id.str, CTerm.str] at h2

/-- A node `_:b` with a list. -/
def exRoundInner : Node := .mk (some "i".toList) (some (.blank "_:b".toList)) none none none
  [(.iri "http:t".toList, [.list none [.value none (.json .null), .list (some "j".toList) []]])] none

/-- A node with an identifier, a type, a graph, an included node, properties and a reverse property. -/
def exRoundDoc : Doc :=
  [.node (.mk none (some (.iri "http:bx".toList)) (some [.iri "http:t".toList]) (some [.node exRoundInner])
    (some [exRoundInner])
    [(.iri "http:px".toList, [.value none (.langString ⟨"a".toList, some "en".toList, none⟩),
       .value (some "k".toList) (.langString ⟨"a".toList, some "fr".toList, some .ltr⟩)]),
     (.iri "http:t".toList, [])]
    (some [(.iri "http:vr".toList, [exRoundInner])]))]

/-- The context written in the document. -/
def exRoundCtx : SCtx := .one (.defn { SDef.empty with language := some (some "en".toList) })

theorem exRound_wf : exRoundDoc.WF := by
  have h : exRoundInner.WF := by
    simp [exRoundInner, Node.WF, gWF, incWF, rvWF, psWF, objsWF, Obj.WF]
  simp [Doc.WF, exRoundDoc, gWF, incWF, rvWF, Node.WF, psWF, rpsWF, nodesWF, objsWF, Obj.WF, h]

theorem exRound_carried : CarriedDoc exCEnv.toCompEnv exBackCtx exRoundDoc := by
  obtain ⟨h1, h2, h3⟩ := exName_vocab
  obtain ⟨h4, h5⟩ := exName_id
  refine ⟨fun n hn => ?_, fun i v hv => ?_, fun o ho => ?_⟩
  · have := inside_items hn
    simp only [exRoundDoc, exRoundInner, itemsOfObjs, Obj.items, Node.items, itemsOfGraph, itemsOfIncluded, itemsOfProps,
      itemsOfRev, itemsOfRps, itemsOfNodes, List.mem_append, List.mem_cons, List.not_mem_nil, or_false, reduceCtorEq,
      false_or, or_assoc, Item.node.injEq] at this
    rcases this with rfl | rfl | rfl | rfl
    · refine ⟨fun i h => by cases h; exact h4, fun ts h => ?_, fun g h o ho => ?_, fun p hp => ?_, fun r h => ?_⟩
      · cases h
        exact ⟨by simp, fun t ht => by rw [List.mem_singleton.1 ht]; exact h2⟩
      · cases h
        rw [List.mem_singleton.1 ho]
        exact ⟨_, rfl, .inl rfl⟩
      · rcases List.mem_cons.1 hp with rfl | hp
        · exact h1
        · rw [List.mem_singleton.1 hp]; exact h2
      · cases h
        exact ⟨by simp, fun t ht => by rw [List.mem_singleton.1 ht]; exact h3⟩
    all_goals
      exact ⟨fun i h => by cases h; exact h5, nofun, nofun, fun p hp => by rw [List.mem_singleton.1 hp]; exact h2, nofun⟩
  · have := inside_items hv
    simp only [exRoundDoc, exRoundInner, itemsOfObjs, Obj.items, Node.items, itemsOfGraph, itemsOfIncluded, itemsOfProps,
      itemsOfRev, itemsOfRps, itemsOfNodes, List.mem_append, List.mem_cons, List.not_mem_nil, or_false, reduceCtorEq,
      false_or, or_assoc, Item.obj.injEq, Obj.value.injEq] at this
    rcases this with ⟨rfl, rfl⟩ | ⟨rfl, rfl⟩ | ⟨rfl, rfl⟩ | ⟨rfl, rfl⟩ | ⟨rfl, rfl⟩
    all_goals first
      | exact .json _
      | exact .lang _ (.inl (by simp)) (by decide) (by simp) (fun _ => rfl) (by
          intro s x h1 h2 h3
          cases h1
          cases h2
          first | rfl | exact absurd h3 (by decide))
  · rw [List.mem_singleton.1 ho]
    exact ⟨_, rfl, .inl rfl⟩

/-- The hypotheses of C55 are met. -/
example : WrittenContext exRoundX {} exBackCtx exRoundCtx ∧ CtxOk exRoundX.isRef exRoundCtx ∧
    ∀ x g, exRoundDoc ≠ [.node (.mk x none none (some g) none [] none)] := by
  refine ⟨?_, ?_, by simp [exRoundDoc]⟩
  · unfold WrittenContext
    rw [if_neg (by decide)]
    rfl
  · simp [exRoundCtx, CtxOk, EntryOk, DefOk, BindingsOk, SDef.empty]

/-- The list in `exRoundInner`, compacted. -/
def exRoundList : Json := .arr [.obj [("@value".toList, .null), ("kind".toList, .str "@json".toList)],
  .obj [("@list".toList, .arr []), ("@index".toList, .str "j".toList)]]

/-- The node `exRoundInner`, compacted. -/
def exRoundInnerJson : Json :=
  .obj [("@id".toList, .str "_:b".toList), ("@index".toList, .str "i".toList),
    ("t".toList, .obj [("@list".toList, exRoundList)])]

/-- The compacted document. -/
def exRoundJson : Json :=
  .obj [("@context".toList, .obj [("@language".toList, .str "en".toList)]),
    ("@id".toList, .str "x".toList), ("kind".toList, .str "t".toList),
    ("@reverse".toList, .obj [("r".toList, exRoundInnerJson)]),
    ("@graph".toList, .arr [exRoundInnerJson]),
    ("p:x".toList, .arr [.str "a".toList, .obj [("@value".toList, .str "a".toList),
      ("@language".toList, .str "fr".toList), ("@direction".toList, .str "ltr".toList),
      ("@index".toList, .str "k".toList)]]),
    ("t".toList, .arr []),
    ("@included".toList, exRoundInnerJson)]

/-- The compacted document and its expansion. -/
example : compactDoc exCEnv exBackCtx exRoundCtx exRoundDoc = .ok exRoundJson ∧
    (expandDoc exRoundX {} exRoundJson).toOption = some exRoundDoc := by
  decide +kernel

/-! ## Where the conditions are needed -/

/-- C55 is false of a graph without a name: the graph is lost, only its members remain. -/
theorem C55_unnamed_graph : exBack {} [.node (.mk none none none (some [.node exP]) none [] none)] = some [.node exP] := by
  decide +kernel

/-- C55 is false of a reference at the top of the document, which is lost. -/
theorem C55_reference : exBack {} [.node (.mk none (some (.iri "http:x".toList)) none none none [] none)] = some [] := by
  decide +kernel

/-- C55 is false of an empty list of types, which is lost. -/
theorem C55_no_types : exBack {} [.node (.mk none none (some []) none none [(.iri "http:q".toList, [])] none)] =
    some [.node (.mk none none none none none [(.iri "http:q".toList, [])] none)] := by
  decide +kernel

/-- C55 is false of an empty map of reverse properties, which is lost. -/
theorem C55_no_reverse : exBack {} [.node (.mk none none none none none [(.iri "http:q".toList, [])] (some []))] =
    some [.node (.mk none none none none none [(.iri "http:q".toList, [])] none)] := by
  decide +kernel

/-- C55 is false of identifiers that are neither IRIs nor blank node identifiers, if there is a base IRI. -/
theorem C55_relative : exBack { base := some "http:b/".toList }
    [.node (.mk none (some (.invalid "a".toList)) none none none [(.iri "http:q".toList, [])] none)] =
    some [.node (.mk none (some (.iri (exCompEnv.resolve "a".toList "http:b/".toList))) none none none
      [(.iri "http:q".toList, [])] none)] := by
  decide +kernel

end JsonLd.Props
