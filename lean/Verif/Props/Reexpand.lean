import Verif.Proofs.Reexpand
import Verif.Proofs.Items
import Verif.Props.Expand
/-!
# C45: expanding an expanded document
-/

namespace JsonLd.Props
open JsonLd.Spec

/-- C45, partial: a well-formed expanded document that is settled is left as it is, in any context without
terms and without vocabulary mapping. (Other documents are not left as they are, see below.) With the option
`ordered`, the reverse properties have to be in order. -/
theorem C45_fixed_partial (E : XEnv) (f : EnvFacts E.toIriEnv) (c : ACtx) (hc : EmptyCtx c) (d : Doc)
    (ho : E.opts.ordered = true → ∀ n, Inside d (.node n) → ∀ r, n.rev = some r →
      r.Pairwise fun p q => p.1.str ≤ q.1.str)
    (hd : GoodDoc E.toIriEnv d) (hw : d.WF)
    (hn : ∀ n, Inside d (.node n) → n.types ≠ some [] ∧ n.rev ≠ some [] ∧ AbsoluteKeys E n)
    (hs : Settled E c d) : expandDoc E c d.toJson = .ok d := by
  have hk : ∀ o ∈ d, expandElement E c none o.toJson false = .ok (.object o) := by
    intro o hm
    refine (reexpand hc f).1 o (objsWF_iff.1 hw.2 o hm) (fun y hy => ?_) none false nofun fun _ => hs.top o hm
    have hin : Inside d y := ⟨o, hm, hy⟩
    exact ⟨fun i v h => hd.values i v (h ▸ hin), fun i s h => hs.languages i s (h ▸ hin),
      fun n h => hd.nodes n (h ▸ hin), fun n h => hs.nodes n (h ▸ hin), fun n h => (hn n (h ▸ hin)).2.2,
      fun n h => (hn n (h ▸ hin)).1, fun n h => (hn n (h ▸ hin)).2.1, fun n h ht => ho ht n (h ▸ hin)⟩
  unfold expandDoc Doc.toJson
  rw [objsToJson_eq, arr_ok hc hk]
  show Except.ok (docResult (.array d)) = _
  congr 1
  have htop : d.filter topLevel = d := by
    apply List.filter_eq_self.2
    intro o hm
    obtain ⟨n, rfl, -⟩ := hs.top o hm
    rfl
  have hcol : setCollect Obj.eq d = d := setCollect_of_pairwise hw.1
  unfold docResult
  rw [show (Expanded.array d).toList = d from rfl]
  split
  · rename_i o
    obtain ⟨n, rfl, -⟩ := hs.top o (by simp)
    have h1 : unnamedGraph (.node n) = none := by
      unfold unnamedGraph
      dsimp only
      rw [if_neg]
      intro h
      rw [Bool.and_eq_true] at h
      rw [hs.unnamed n rfl (Option.isNone_iff_eq_none.1 h.2)] at h
      cases h.1
    rw [h1]
    rfl
  · rw [htop, hcol]

/-- C45, partial: expanding the result of an expansion in a context without terms changes nothing, if the
result is settled; provided that no index mappings were used, and that reverse properties are in order if the
option `ordered` is used. -/
theorem C45_idempotent_partial (E : XEnv) (pe : ProcEnv) (hp : ContextsBy E pe) (f : EnvFacts E.toIriEnv)
    (c : ACtx) (hc : GoodCtx E.toIriEnv c) (hi : ContextsOf NoIndexMappings E c)
    (j : Json) (d : Doc) (h : expandDoc E c j = .ok d)
    (ho : E.opts.ordered = true → ∀ n, Inside d (.node n) → ∀ r, n.rev = some r →
      r.Pairwise fun p q => p.1.str ≤ q.1.str)
    (c' : ACtx) (hc' : EmptyCtx c') (hs : Settled E c' d) :
    expandDoc E c' d.toJson = .ok d := by
  have h1 := C44_sets E c j d h
  exact C45_fixed_partial E f c' hc' d ho (C44_wellFormed E pe hp f c hc j d h) h1.1 (fun n hn =>
    ⟨(h1.2 n hn).1, (h1.2 n hn).2, C44_absolute_partial E pe hp f c hc hi j d h n hn,
      fun r hr => C44_reverse_absolute E pe hp f c hc j d h n hn r hr⟩) hs

/-! ## An example -/

/-- The expansion of `exXDoc`. -/
def exXRes : Doc :=
  [.node (.mk none (some (.iri "http:s".toList)) none none none
    [(.iri "http:l".toList, [.list none [.value none (.literal (.bool true) none)]]),
     (.iri "http:n".toList, [.value none (.langString ⟨"x".toList, some "en".toList, none⟩)]),
     (.iri "http:a".toList, [.value none (.literal (.str "1".toList) (some "http:int".toList))])]
    (some [(.iri "http:r".toList, [.mk none (some (.blank "_:b".toList)) none none none [] none])]))]

/-- It is settled. -/
theorem exXRes_settled : Settled exXEnv {} exXRes := by
  refine ⟨fun n hn => ?_, fun i s hs => ?_, fun o ho => ?_, fun n h _ => ?_⟩
  · have := inside_items hn
    simp only [exXRes, itemsOfObjs, Obj.items, Node.items, itemsOfGraph, itemsOfIncluded, itemsOfProps, itemsOfRev,
      itemsOfRps, itemsOfNodes, List.mem_append, List.mem_cons, List.not_mem_nil, or_false, reduceCtorEq, false_or,
      Item.node.injEq] at this
    rcases this with rfl | rfl
    · exact ⟨fun i h => by cases h; exact .inl rfl, nofun, nofun, rfl⟩
    · exact ⟨fun i h => by cases h; exact .inl rfl, nofun, nofun, rfl⟩
  · have := inside_items hs
    simp only [exXRes, itemsOfObjs, Obj.items, Node.items, itemsOfGraph, itemsOfIncluded, itemsOfProps, itemsOfRev,
      itemsOfRps, itemsOfNodes, List.mem_append, List.mem_cons, List.not_mem_nil, or_false, reduceCtorEq, false_or,
      Item.obj.injEq, Obj.value.injEq, Value.langString.injEq, and_false] at this
    rw [this.2]
    exact fun h => absurd (Option.some.inj h) (by decide)
  · rw [List.mem_singleton.1 ho]
    exact ⟨_, rfl, .inl rfl⟩
  · cases h
    rfl

/-- It is the result of an expansion, and left as it is. -/
example : (expandDoc exXEnv {} exXDoc).toOption = some exXRes ∧
    (expandDoc exXEnv {} exXRes.toJson).toOption = some exXRes := by
  decide +kernel

example : EmptyCtx ({} : ACtx) := ⟨rfl, rfl, rfl, rfl⟩

/-! ## Where the conditions are needed -/

/-- `{"http:p": "x"}`, expanded. -/
def exP : Node := .mk none none none none none [(.iri "http:p".toList, [.value none (.literal (.str "x".toList) none)])] none

/-- C45 is false of a graph without a name inside another one: `{"@graph": {"@graph": {"http:p": "x"}}}`
expands to one graph, which is removed as well when it is expanded again. -/
theorem C45_unnamed_graph : ∃ j d d', (expandDoc exXEnv {} j).toOption = some d ∧
    (expandDoc exXEnv {} d.toJson).toOption = some d' ∧
    d = [.node (.mk none none none (some [.node exP]) none [] none)] ∧ d' = [.node exP] :=
  ⟨.obj [("@graph".toList, .obj [("@graph".toList, .obj [("http:p".toList, .str "x".toList)])])], _, _,
    by decide +kernel, by decide +kernel, rfl, rfl⟩

/-- Two reverse properties. -/
def exRevs (a b : Str) : Doc :=
  [.node (.mk none none none none none []
    (some [(.iri a, [.mk none (some (.iri "http:n".toList)) none none none [] none]),
      (.iri b, [.mk none (some (.iri "http:n".toList)) none none none [] none])]))]

/-- C45 with the option `ordered`: the order is that of the keys before they are expanded. Here the terms are
`a` for `http:z` and `b` for `http:y`; expanding again changes the order of the reverse properties (the documents
are equal, as this order is not compared). -/
theorem C45_ordered :
    (expandDoc { exXEnv with opts := { ordered := true } }
      { defs := [("a".toList, { value := some (.id (.iri "http:z".toList)) }),
        ("b".toList, { value := some (.id (.iri "http:y".toList)) })] }
      (.obj [("@reverse".toList, .obj [("b".toList, .obj [("@id".toList, .str "http:n".toList)]),
        ("a".toList, .obj [("@id".toList, .str "http:n".toList)])])])).toOption =
      some (exRevs "http:z".toList "http:y".toList) ∧
    (expandDoc { exXEnv with opts := { ordered := true } } {}
      (exRevs "http:z".toList "http:y".toList).toJson).toOption = some (exRevs "http:y".toList "http:z".toList) := by
  decide +kernel

/-- C45 is false of included nodes: they are written with the key `@include` and lost when read again. -/
theorem C45_included : ∃ j d d', (expandDoc exXEnv {} j).toOption = some d ∧
    (expandDoc exXEnv {} d.toJson).toOption = some d' ∧
    d = [.node (.mk none none none none (some [exP]) [(.iri "http:q".toList, [])] none)] ∧
    d' = [.node (.mk none none none none none [(.iri "http:q".toList, [])] none)] :=
  ⟨.obj [("@included".toList, .obj [("http:p".toList, .str "x".toList)]), ("http:q".toList, .arr [])], _, _,
    by decide +kernel, by decide +kernel, rfl, rfl⟩

/-- C45 is false of references in graph containers: they are lost when expanded again. -/
theorem C45_graph_reference : ∃ j d d', (expandDoc exXEnv {} j).toOption = some d ∧
    (expandDoc exXEnv {} d.toJson).toOption = some d' ∧
    d = [.node (.mk none none none none none [(.iri "http:p".toList, [.node (.mk none none none
      (some [.node (.mk none (some (.iri "http:y".toList)) none none none [] none)]) none [] none)])] none)] ∧
    d' = [.node (.mk none none none none none [(.iri "http:p".toList, [.node (.mk none none none
      (some []) none [] none)])] none)] :=
  ⟨exCtxDoc [("p".toList, exTerm "http:p".toList "@graph".toList [])] [("p".toList, exRef "http:y".toList)], _, _,
    by decide +kernel, by decide +kernel, rfl, rfl⟩

/-- C45 is false of relative identifiers if the second context has a base IRI. -/
theorem C45_relative : ∃ d d', (expandDoc exXEnv {} (.obj [("@id".toList, .str "a".toList),
      ("http:q".toList, .arr [])])).toOption = some d ∧
    (expandDoc exXEnv { base := some "http:b/".toList } d.toJson).toOption = some d' ∧ d ≠ d' :=
  ⟨[.node (.mk none (some (.invalid "a".toList)) none none none [(.iri "http:q".toList, [])] none)],
    [.node (.mk none (some (.iri (exIriEnv.resolve "a".toList "http:b/".toList))) none none none
      [(.iri "http:q".toList, [])] none)],
    by decide +kernel, by decide +kernel, by decide +kernel⟩

end JsonLd.Props
