import Verif.Proofs.ExpandInv
import Verif.Proofs.ProcessGood
import Verif.Props.ExpandGood
import Verif.Spec.ExpandDoc
/-!
# C44, C49, C50: what expansion gives
-/

namespace JsonLd.Props
open JsonLd.Spec

section
variable {E : XEnv} {P : ACtx → Prop}

private theorem xKey_good (f : EnvFacts E.toIriEnv) {c : ACtx} (hc : GoodCtx E.toIriEnv c) {s : Str}
    {i : Id} (h : xKey E c s = .ok (some (.id i))) : GoodId E.toIriEnv i := by
  unfold xKey xIri at h
  split at h
  · rename_i h'; cases h; exact expandIri_good f hc h'
  · cases h

private theorem docResult_ok {L : Leaf} {x : Expanded} (hx : EPost L none x)
    (hN : ∀ n, L.N (.node n) → ∀ g, n.graph = some g → ∀ o ∈ g, topLevel o = true) :
    ∀ o ∈ docResult x, L.All (.obj o) ∧ topLevel o = true ∧
      (L.N o ∨ ∃ n g, L.N (.node n) ∧ n.graph = some g ∧ o ∈ g) := by
  have key : ∀ o ∈ setCollect Obj.eq (x.toList.filter topLevel),
      L.All (.obj o) ∧ topLevel o = true ∧ L.N o := by
    refine (setCollect_spec _ ?_).2
    intro o ho
    rw [List.mem_filter] at ho
    exact ⟨hx.all o ho.1, ho.2, hx.top rfl o ho.1⟩
  intro o ho
  unfold docResult at ho
  split at ho
  · rename_i o' hl
    have h1 : L.All (.obj o') := hx.all o' (by rw [hl]; simp)
    have h2 : L.N o' := hx.top rfl o' (by rw [hl]; simp)
    split at ho
    · rename_i g hg
      cases o' with
      | node n =>
        have hg : n.graph = some g := by
          unfold unnamedGraph at hg
          dsimp only at hg
          split at hg
          · exact hg
          · cases hg
        exact ⟨(Leaf.nodeAll_iff.1 (Leaf.all_node.1 h1)).graph g hg o ho, hN n h2 g hg o ho,
          .inr ⟨n, g, h2, hg, ho⟩⟩
      | value i v => cases hg
      | list i l => cases hg
    · split at ho
      · rename_i ht
        rw [List.mem_singleton.1 ho]
        exact ⟨h1, ht, .inl h2⟩
      · cases ho
  · have := key o ho
    exact ⟨this.1, this.2.1, .inl this.2.2⟩

/-- The conditions of `XInv` on values and identifiers, given those on keys, types and graphs. -/
private theorem xinv (f : EnvFacts E.toIriEnv) (hg : ∀ c, P c → GoodCtx E.toIriEnv c)
    (hprev : ∀ {c p}, P c → c.previous = some p → P p)
    (hproc : ∀ {c l b o c'}, P c → E.process c l b o = .ok c' → P c')
    {K R T : Id → Prop} {G N : Obj → Prop}
    (type : ∀ i, (i.isValid = true ∨ E.opts.invalid = .keep) → GoodId E.toIriEnv i → T i)
    (typeMap : ∀ {c k d i}, P c → c.get k = some d → d.container.contains .type = true →
      GoodId E.toIriEnv i → T i)
    (prop : ∀ p, GoodId E.toIriEnv p → ':' ∈ p.str → (p.isValid = true ∨ E.opts.invalid = .keep) →
      K p ∧ R p)
    (indexProp : ∀ {c k d m p}, P c → c.get k = some d → d.index = some m → m ≠ "@index".toList →
      GoodId E.toIriEnv p → K p)
    (graphTop : ∀ {o}, topLevel o = true → N o → G o)
    (graphCont : ∀ {c k d}, P c → c.get k = some d → d.container.contains .graph = true → ∀ o, G o)
    (nNode : ∀ n : Node, (∀ g, n.graph = some g → ∀ o ∈ g, topLevel o = true ∧ N o) → N (.node n))
    (nValue : ∀ i v, N (.value i v))
    (nList : ∀ {c prop}, P c → noProp prop = true →
      (containerOf (prop.bind c.get)).contains .list = true → ∀ i l, N (.list i l)) :
    XInv E P ⟨GoodValue E.toIriEnv, GoodId E.toIriEnv, T, K, R, G, N⟩ (fun _ => True) where
  prev := hprev
  process := hproc
  err _ _ _ := trivial
  id hc h hi := nodeId_good f (hg _ hc) h hi
  type hc h hi := type _ hi (expandIri_good f (hg _ hc) h)
  typeMap hc hd hT h := typeMap hc hd hT (xKey_good f (hg _ hc) h)
  prop hc h hcol hv := prop _ (xKey_good f (hg _ hc) h) hcol hv
  indexProp hc hd hm hn h := indexProp hc hd hm hn (xKey_good f (hg _ hc) h)
  lit hc hl h := by
    rcases expandLiteral_good f (hg _ hc) hl h with ⟨i, w, h, hw⟩ | ⟨i, h, _⟩
    · cases h; exact hw
    · cases h
  value hc h := by
    obtain ⟨i, w, h, hw⟩ := expandValue_good f (hg _ hc) h
    cases h; exact hw
  string s := ⟨by simp, nofun⟩
  lang s h := h
  json j := trivial
  graphTop := graphTop
  graphCont := graphCont
  nNode := nNode
  nValue := nValue
  nList := nList

/-- What an expanded document satisfies. -/
private theorem doc_all {L : Leaf} (H : XInv E P L fun _ => True) {c : ACtx} (hc : P c) {j : Json} {d : Doc}
    (hN : ∀ n, L.N (.node n) → ∀ g, n.graph = some g → ∀ o ∈ g, topLevel o = true)
    (h : expandDoc E c j = .ok d) : ∀ o ∈ d, L.All (.obj o) ∧ topLevel o = true ∧
      (L.N o ∨ ∃ n g, L.N (.node n) ∧ n.graph = some g ∧ o ∈ g) := by
  have := expandElement_ex H hc (prop := none) (j := j) (fm := false)
  unfold expandDoc at h
  cases hx : expandElement E c none j false with
  | error e => rw [hx] at h; cases h
  | ok x =>
    rw [hx] at h this
    cases h
    exact docResult_ok this hN

private theorem goodCtx_process {pe : ProcEnv} (hp : ContextsBy E pe) (f : EnvFacts E.toIriEnv) {c c' : ACtx}
    {l : SCtx} {b : Option Str} {o : Opts} (hc : GoodCtx E.toIriEnv c) (h : E.process c l b o = .ok c') :
    GoodCtx E.toIriEnv c' := by
  have h := hp.process _ _ _ _ _ h
  rw [← hp.env] at f hc ⊢
  exact processed_good f hc h

/-- Graphs directly in a node contain no values. -/
private def TopN (o : Obj) : Prop :=
  ∀ n, o = .node n → ∀ g, n.graph = some g → ∀ x ∈ g, topLevel x = true

private theorem topN_node (n : Node) (h : ∀ g, n.graph = some g → ∀ o ∈ g, topLevel o = true ∧ TopN o) :
    TopN (.node n) := by
  intro m hm g hg x hx
  cases hm
  exact (h g hg x hx).1

private theorem absolute_of {p : Id} (h : ':' ∈ p.str) (h' : p.isValid = true ∨ E.opts.invalid = .keep) :
    Absolute E p := by
  refine ⟨h, ?_⟩
  rcases h' with h' | h'
  · right
    rintro s rfl
    cases h'
  · exact .inl h'

private theorem everywhere_self {Q : ACtx → Prop} {c : ACtx} (h : Everywhere Q c) : Q c := by
  cases h; assumption

private theorem everywhere_previous {Q : ACtx → Prop} {c p : ACtx} (h : Everywhere Q c)
    (hp : c.previous = some p) : Everywhere Q p := by
  cases h with
  | intro _ _ h => exact h p hp

private abbrev anyLeaf : Leaf :=
  ⟨fun _ => True, fun _ => True, fun _ => True, fun _ => True, fun _ => True, fun _ => True, fun _ => True⟩

private theorem any_xinv (E : XEnv) : XInv E (fun _ => True) anyLeaf (fun e => e ≠ .fuel ∧ e ≠ .literal .panic) :=
  { prev := fun _ _ => trivial, process := fun _ _ => trivial, err := fun _ h h' => ⟨h, h'⟩
    id := fun _ _ _ => trivial, type := fun _ _ _ => trivial, typeMap := fun _ _ _ _ => trivial
    prop := fun _ _ _ _ => ⟨trivial, trivial⟩, indexProp := fun _ _ _ _ _ => trivial
    lit := fun _ _ _ => trivial, value := fun _ _ => trivial, string := fun _ => trivial
    lang := fun _ _ => trivial, json := fun _ => trivial, graphTop := fun _ _ => trivial
    graphCont := fun _ _ _ _ => trivial, nNode := fun _ _ => trivial, nValue := fun _ _ => trivial
    nList := fun _ _ _ _ _ => trivial }

private theorem shape_wf {L : Leaf} : (∀ o, L.All (.obj o) → o.WF) ∧ (∀ n, L.All (.node n) → n.WF) := by
  apply Doc.ind
  · intro i v _; exact trivial
  · intro i l ih h
    exact objsWF_iff.2 fun o ho => ih o ho (Leaf.all_list.1 h o ho)
  · intro n ih h
    exact ih (Leaf.all_node.1 h)
  · intro i id ty g inc ps rv hg hinc hps hrv h
    obtain ⟨⟨_, _, _, _, _, s⟩, b1, b2, b3, b4⟩ := Leaf.nodeAll_iff.1 h
    refine ⟨?_, ?_, s.props, psWF_iff.2 fun p hp o ho => hps p hp o ho (b3 p hp o ho), ?_⟩
    · cases g with
      | none => exact trivial
      | some l => exact ⟨s.graph l rfl, objsWF_iff.2 fun o ho => hg l rfl o ho (b1 l rfl o ho)⟩
    · cases inc with
      | none => exact trivial
      | some l => exact ⟨s.included l rfl, nodesWF_iff.2 fun o ho => hinc l rfl o ho (b2 l rfl o ho)⟩
    · cases rv with
      | none => exact trivial
      | some l => exact ⟨(s.rev l rfl).2, rpsWF_iff.2 fun p hp o ho => hrv l rfl p hp o ho (b4 l rfl p hp o ho)⟩

/-- Expanded objects are well formed. -/
theorem element_wf {E : XEnv} {c : ACtx} {prop : Option Str} {j : Json} {fm : Bool} {x : Expanded}
    (h : expandElement E c prop j fm = .ok x) : ∀ o ∈ x.toList, o.WF := by
  have hx := expandElement_ex (any_xinv E) (c := c) trivial (prop := prop) (j := j) (fm := fm)
  rw [h] at hx
  exact fun o ho => shape_wf.1 o (hx.all o ho)

private theorem no_panic (E : XEnv) (c : ACtx) (j : Json) :
    Ex (fun _ => True) (fun e => e ≠ .fuel ∧ e ≠ .literal .panic) (expandDoc E c j) := by
  exact (expandElement_ex (any_xinv E) (c := c) trivial).map fun _ _ _ => trivial

end

/-- C44: whatever JSON is expanded, in whatever context, the result is a well-formed document: the values
inside are well formed, no `null` among them; identifiers, types and property keys are of the kind their
texts say; no value is at the top. -/
theorem C44_wellFormed (E : XEnv) (pe : ProcEnv) (hp : ContextsBy E pe) (f : EnvFacts E.toIriEnv)
    (c : ACtx) (hc : GoodCtx E.toIriEnv c) (j : Json) (d : Doc) (h : expandDoc E c j = .ok d) :
    GoodDoc E.toIriEnv d := by
  have H := xinv (E := E) (P := GoodCtx E.toIriEnv) f (fun c h => h) goodCtx_previous
    (goodCtx_process hp f) (K := GoodId E.toIriEnv) (R := GoodId E.toIriEnv) (T := GoodId E.toIriEnv)
    (G := fun _ => True) (N := TopN) (fun _ _ h => h) (fun _ _ _ h => h) (fun _ h _ _ => ⟨h, h⟩)
    (fun _ _ _ _ h => h) (fun _ _ => trivial) (fun _ _ _ _ => trivial) topN_node nofun
    (fun _ _ _ _ _ => nofun)
  have h := doc_all H hc (fun n hn g hg o ho => hn n rfl g hg o ho) h
  refine ⟨?_, ?_, ?_⟩
  · rintro i v ⟨o, ho, hin⟩
    exact (h o ho).1 _ hin
  · rintro n ⟨o, ho, hin⟩
    have := (h o ho).1 _ hin
    exact ⟨this.id, this.types, this.props, this.rev⟩
  · intro i v hm
    have := (h _ hm).2.1
    cases this

/-- The initial context meets the hypothesis. -/
theorem C44_initial (env : IriEnv) (base : Option Str) : GoodCtx env (ACtx.new base) := goodCtx_new env base

/-- C44: the keys of reverse properties contain a colon; if the policy does not keep invalid terms, they
are IRIs or blank node identifiers. -/
theorem C44_reverse_absolute (E : XEnv) (pe : ProcEnv) (hp : ContextsBy E pe) (f : EnvFacts E.toIriEnv)
    (c : ACtx) (hc : GoodCtx E.toIriEnv c) (j : Json) (d : Doc) (h : expandDoc E c j = .ok d)
    (n : Node) (hn : Inside d (.node n)) (r : List (Id × List Node)) (hr : n.rev = some r) :
    ∀ p ∈ r, Absolute E p.1 := by
  have H := xinv (E := E) (P := GoodCtx E.toIriEnv) f (fun c h => h) goodCtx_previous
    (goodCtx_process hp f) (K := fun _ => True) (R := Absolute E) (T := fun _ => True)
    (G := fun _ => True) (N := TopN) (fun _ _ _ => trivial) (fun _ _ _ _ => trivial)
    (fun _ _ h h' => ⟨trivial, absolute_of h h'⟩)
    (fun _ _ _ _ _ => trivial) (fun _ _ => trivial) (fun _ _ _ _ => trivial) topN_node nofun
    (fun _ _ _ _ _ => nofun)
  have h := doc_all H hc (fun n hn g hg o ho => hn n rfl g hg o ho) h
  obtain ⟨o, ho, hin⟩ := hn
  exact ((h o ho).1 _ hin).rev r hr

/-- C44: the keys of properties contain a colon, and if the policy does not keep invalid terms, they are
IRIs or blank node identifiers; provided that there are no index mappings. (The key an index mapping
gives is not checked again, see `C44_index_key`.) -/
theorem C44_absolute_partial (E : XEnv) (pe : ProcEnv) (hp : ContextsBy E pe) (f : EnvFacts E.toIriEnv)
    (c : ACtx) (hc : GoodCtx E.toIriEnv c) (hi : ContextsOf NoIndexMappings E c) (j : Json) (d : Doc)
    (h : expandDoc E c j = .ok d) (n : Node) (hn : Inside d (.node n)) :
    ∀ p ∈ n.props, Absolute E p.1 := by
  have H := xinv (E := E) (P := fun c => GoodCtx E.toIriEnv c ∧ Everywhere NoIndexMappings c) f
    (fun c h => h.1) (fun h hp => ⟨goodCtx_previous h.1 hp, everywhere_previous h.2 hp⟩)
    (fun h hpr => ⟨goodCtx_process hp f h.1 hpr, hi.process _ _ _ _ _ hpr⟩)
    (K := Absolute E) (R := fun _ => True) (T := fun _ => True)
    (G := fun _ => True) (N := TopN) (fun _ _ _ => trivial) (fun _ _ _ _ => trivial)
    (fun _ _ h h' => ⟨absolute_of h h', trivial⟩)
    (fun hc hd hm hn _ => absurd (everywhere_self hc.2 _ _ _ hd hm) hn) (fun _ _ => trivial)
    (fun _ _ _ _ => trivial) topN_node nofun (fun _ _ _ _ _ => nofun)
  have h := doc_all H ⟨hc, hi.start⟩ (fun n hn g hg o ho => hn n rfl g hg o ho) h
  obtain ⟨o, ho, hin⟩ := hn
  exact ((h o ho).1 _ hin).props

/-- C44: if the policy does not keep invalid terms, types are IRIs or blank node identifiers; provided
that there are no type maps. (The keys of a type map are not checked, see `C44_type_map`.) -/
theorem C44_types_partial (E : XEnv) (pe : ProcEnv) (hp : ContextsBy E pe) (f : EnvFacts E.toIriEnv)
    (c : ACtx) (hc : GoodCtx E.toIriEnv c) (hi : ContextsOf (NoContainer .type) E c)
    (hk : E.opts.invalid ≠ .keep) (j : Json) (d : Doc)
    (h : expandDoc E c j = .ok d) (n : Node) (hn : Inside d (.node n)) (ts : List Id)
    (ht : n.types = some ts) : ∀ t ∈ ts, ∀ s, t ≠ .invalid s := by
  have H := xinv (E := E) (P := fun c => GoodCtx E.toIriEnv c ∧ Everywhere (NoContainer .type) c) f
    (fun c h => h.1) (fun h hp => ⟨goodCtx_previous h.1 hp, everywhere_previous h.2 hp⟩)
    (fun h hpr => ⟨goodCtx_process hp f h.1 hpr, hi.process _ _ _ _ _ hpr⟩)
    (K := fun _ => True) (R := fun _ => True) (T := fun t => ∀ s, t ≠ .invalid s)
    (G := fun _ => True) (N := TopN)
    (fun i h _ s hs => by
      rcases h with h | h
      · rw [hs] at h; cases h
      · exact hk h)
    (fun hc hd hT _ => absurd (List.contains_iff_mem.1 hT) (everywhere_self hc.2 _ _ hd))
    (fun _ _ _ _ => ⟨trivial, trivial⟩) (fun _ _ _ _ _ => trivial) (fun _ _ => trivial)
    (fun _ _ _ _ => trivial) topN_node nofun (fun _ _ _ _ _ => nofun)
  have h := doc_all H ⟨hc, hi.start⟩ (fun n hn g hg o ho => hn n rfl g hg o ho) h
  obtain ⟨o, ho, hin⟩ := hn
  exact ((h o ho).1 _ hin).types ts ht

/-- C44: no value is directly in a graph, provided that there are no graph containers. (Those wrap
values, see `C44_graph_value`.) -/
theorem C44_graphs_partial (E : XEnv) (pe : ProcEnv) (hp : ContextsBy E pe) (f : EnvFacts E.toIriEnv)
    (c : ACtx) (hc : GoodCtx E.toIriEnv c) (hi : ContextsOf (NoContainer .graph) E c) (j : Json) (d : Doc)
    (h : expandDoc E c j = .ok d) (n : Node) (hn : Inside d (.node n)) (g : List Obj)
    (hg : n.graph = some g) : ∀ i v, .value i v ∉ g := by
  have H := xinv (E := E) (P := fun c => GoodCtx E.toIriEnv c ∧ Everywhere (NoContainer .graph) c) f
    (fun c h => h.1) (fun h hp => ⟨goodCtx_previous h.1 hp, everywhere_previous h.2 hp⟩)
    (fun h hpr => ⟨goodCtx_process hp f h.1 hpr, hi.process _ _ _ _ _ hpr⟩)
    (K := fun _ => True) (R := fun _ => True) (T := fun _ => True)
    (G := fun o => topLevel o = true) (N := TopN) (fun _ _ _ => trivial) (fun _ _ _ _ => trivial)
    (fun _ _ _ _ => ⟨trivial, trivial⟩) (fun _ _ _ _ _ => trivial) (fun h _ => h)
    (fun hc hd hT _ => absurd (List.contains_iff_mem.1 hT) (everywhere_self hc.2 _ _ hd))
    topN_node nofun (fun _ _ _ _ _ => nofun)
  have h := doc_all H ⟨hc, hi.start⟩ (fun n hn g hg o ho => hn n rfl g hg o ho) h
  obtain ⟨o, ho, hin⟩ := hn
  intro i v hm
  have := ((h o ho).1 _ hin).graph g hg _ hm
  cases this

private def listObj : Obj → Bool
  | .list _ _ => true
  | _ => false

/-- Neither the object nor the members of its graph are lists. -/
private def TopNoList (o : Obj) : Prop :=
  listObj o = false ∧ ∀ n, o = .node n → ∀ g, n.graph = some g →
    ∀ x ∈ g, topLevel x = true ∧ listObj x = false

/-- C44: the objects at the top are nodes, provided that `@graph` is not bound to a term with a list
container. (A context may do so, see `C44_top_list`.) -/
theorem C44_top_nodes_partial (E : XEnv) (pe : ProcEnv) (hp : ContextsBy E pe) (f : EnvFacts E.toIriEnv)
    (c : ACtx) (hc : GoodCtx E.toIriEnv c) (hi : ContextsOf NoGraphLists E c) (j : Json) (d : Doc)
    (h : expandDoc E c j = .ok d) : ∀ o ∈ d, ∃ n, o = .node n := by
  have H := xinv (E := E) (P := fun c => GoodCtx E.toIriEnv c ∧ Everywhere NoGraphLists c) f
    (fun c h => h.1) (fun h hp => ⟨goodCtx_previous h.1 hp, everywhere_previous h.2 hp⟩)
    (fun h hpr => ⟨goodCtx_process hp f h.1 hpr, hi.process _ _ _ _ _ hpr⟩)
    (K := fun _ => True) (R := fun _ => True) (T := fun _ => True)
    (G := fun _ => True) (N := TopNoList) (fun _ _ _ => trivial) (fun _ _ _ _ => trivial)
    (fun _ _ _ _ => ⟨trivial, trivial⟩) (fun _ _ _ _ _ => trivial) (fun _ _ => trivial)
    (fun _ _ _ _ => trivial)
    (fun n h => ⟨rfl, fun m hm g hg x hx => by cases hm; exact ⟨(h g hg x hx).1, (h g hg x hx).2.1⟩⟩)
    (fun i v => ⟨rfl, nofun⟩)
    (fun {c prop} hc hp hl i l => by
      exfalso
      unfold noProp at hp
      cases prop with
      | none => exact absurd hl (by rw [Option.bind_none]; decide)
      | some k =>
        have hk : k = "@graph".toList := by simpa using hp
        subst hk
        cases hd : c.get "@graph".toList with
        | none => rw [Option.bind_some, hd] at hl; exact absurd hl (by decide)
        | some d =>
          rw [Option.bind_some, hd] at hl
          exact everywhere_self hc.2 d hd (List.contains_iff_mem.1 hl))
  have h := doc_all H ⟨hc, hi.start⟩ (fun n hn g hg o ho => (hn.2 n rfl g hg o ho).1) h
  intro o ho
  obtain ⟨_, h1, h2⟩ := h o ho
  have h3 : listObj o = false := by
    rcases h2 with h2 | ⟨n, g, h2, hg, hm⟩
    · exact h2.1
    · exact (h2.2 n rfl g hg o hm).2
  cases o with
  | node n => exact ⟨n, rfl⟩
  | value i v => cases h1
  | list i l => cases h3

/-- C44: the sets of an expanded document have no equal members, its maps no equal keys, at any depth; no
node has an empty list of types or empty reverse properties. -/
theorem C44_sets (E : XEnv) (c : ACtx) (j : Json) (d : Doc) (h : expandDoc E c j = .ok d) :
    d.WF ∧ ∀ n, Inside d (.node n) → n.types ≠ some [] ∧ n.rev ≠ some [] := by
  have hx := expandElement_ex (any_xinv E) (c := c) trivial (prop := none) (j := j) (fm := false)
  unfold expandDoc at h
  cases he : expandElement E c none j false with
  | error e => rw [he] at h; cases h
  | ok x =>
    rw [he] at h hx
    cases h
    have all : ∀ o ∈ x.toList, anyLeaf.All (.obj o) := hx.all
    have key : (docResult x).Pairwise (fun a b => b.eq a = false) ∧ ∀ o ∈ docResult x, anyLeaf.All (.obj o) := by
      unfold docResult
      split
      · rename_i o ho
        have h1 := all o (by rw [ho]; simp)
        split
        · rename_i g hg
          cases o with
          | node n =>
            have hg : n.graph = some g := by
              unfold unnamedGraph at hg
              dsimp only at hg
              split at hg
              · exact hg
              · cases hg
            have h2 := Leaf.nodeAll_iff.1 (Leaf.all_node.1 h1)
            exact ⟨h2.at_.shape.graph g hg, h2.graph g hg⟩
          | value i v => cases hg
          | list i l => cases hg
        · split
          · exact ⟨by simp, by simpa using h1⟩
          · exact ⟨.nil, nofun⟩
      · exact setCollect_spec _ fun o ho => all o (List.mem_filter.1 ho).1
    refine ⟨⟨key.1, objsWF_iff.2 fun o ho => shape_wf.1 o (key.2 o ho)⟩, ?_⟩
    rintro n ⟨o, ho, hr⟩
    have hn : anyLeaf.NodeAt n := key.2 o ho _ hr
    exact ⟨hn.shape.types, fun h => (hn.shape.rev [] h).1 rfl⟩

/-- C49: the recursion limit of the model is never reached: expansion ends for every document. -/
theorem C49_enough (E : XEnv) (c : ACtx) (j : Json) : expandDoc E c j ≠ .error .fuel := by
  have := no_panic E c j
  intro h
  rw [h] at this
  exact this.1 rfl

/-- C50: expansion does not panic, if context processing does not. -/
theorem C50_no_panic (E : XEnv) (c : ACtx) (j : Json) : expandDoc E c j ≠ .error (.literal .panic) := by
  have := no_panic E c j
  intro h
  rw [h] at this
  exact this.2 rfl

/-! ## Examples, and where the conditions are needed -/

/-- Contexts are processed by the algorithm, as far as twelve nested calls suffice. -/
def exXEnv : XEnv :=
  { exIriEnv with process := fun c l b o => (recN exProcEnv 12).process c l [] b o, base := none, opts := {} }

theorem exXEnv_by : ContextsBy exXEnv exProcEnv :=
  ⟨rfl, fun _ _ _ _ _ h => ⟨nofun, 12, h⟩⟩

/-- `{"@context": {…}, …}` with term definitions. -/
def exCtxDoc (ctx : List (Str × Json)) (m : List (Str × Json)) : Json :=
  .obj (("@context".toList, .obj ctx) :: m)

/-- A document with a property-valued index, a list, a reverse property, a language map and a value. -/
def exXDoc : Json :=
  exCtxDoc [("l".toList, .obj [("@id".toList, .str "http:l".toList), ("@container".toList, .str "@list".toList)]),
      ("r".toList, .obj [("@reverse".toList, .str "http:r".toList)]),
      ("n".toList, .obj [("@id".toList, .str "http:n".toList), ("@container".toList, .str "@language".toList)]),
      ("a".toList, .obj [("@id".toList, .str "http:a".toList), ("@type".toList, .str "http:int".toList)])]
    [("@id".toList, .str "http:s".toList), ("l".toList, .arr [.bool true, .null]),
     ("r".toList, .obj [("@id".toList, .str "_:b".toList)]),
     ("n".toList, .obj [("en".toList, .str "x".toList)]), ("a".toList, .str "1".toList),
     ("undefined".toList, .str "x".toList)]

/-- Its expansion. -/
example : (expandDoc exXEnv {} exXDoc).toOption = some [.node (.mk none (some (.iri "http:s".toList)) none none none
    [(.iri "http:l".toList, [.list none [.value none (.literal (.bool true) none)]]),
     (.iri "http:n".toList, [.value none (.langString ⟨"x".toList, some "en".toList, none⟩)]),
     (.iri "http:a".toList, [.value none (.literal (.str "1".toList) (some "http:int".toList))])]
    (some [(.iri "http:r".toList,
      [.mk none (some (.blank "_:b".toList)) none none none [] none])]))] := by
  decide +kernel

/-- A term with a container. -/
def exTerm (id container : Str) (more : List (Str × Json)) : Json :=
  .obj ([("@id".toList, .str id), ("@container".toList, .str container)] ++ more)

/-- A node reference. -/
def exRef (i : Str) : Json := .obj [("@id".toList, .str i)]

/-- Without the condition on index mappings C44 is false: in
`{"@context": [{"@vocab": "http:v/", "p": {"@id": "http:p", "@container": "@index", "@index": "q"}},
{"@vocab": null}], "p": {"x": {"@id": "http:y"}}}` the index property expands to `q`, which is not
absolute, and becomes a property key, although the policy rejects undefined terms. -/
theorem C44_index_key : (expandDoc { exXEnv with opts := { invalid := .reject, allowUndefined := false } } {}
    (.obj [("@context".toList, .arr [.obj [("@vocab".toList, .str "http:v/".toList),
        ("p".toList, exTerm "http:p".toList "@index".toList [("@index".toList, .str "q".toList)])],
        .obj [("@vocab".toList, .null)]]),
      ("p".toList, .obj [("x".toList, exRef "http:y".toList)])])).toOption =
    some [.node (.mk none none none none none [(.iri "http:p".toList,
      [.node (.mk none (some (.iri "http:y".toList)) none none none [(.invalid "q".toList,
        [.value none (.literal (.str "x".toList) none)])] none)])] none)] := by
  decide +kernel

/-- Without the condition on type maps C44 is false: their keys become types although the policy rejects
invalid types. -/
theorem C44_type_map : (expandDoc { exXEnv with opts := { invalid := .reject, allowUndefined := false } } {}
    (exCtxDoc [("p".toList, exTerm "http:p".toList "@type".toList [])]
      [("p".toList, .obj [("t".toList, exRef "http:y".toList)])])).toOption =
    some [.node (.mk none none none none none [(.iri "http:p".toList,
      [.node (.mk none (some (.iri "http:y".toList)) (some [.invalid "t".toList]) none none [] none)])] none)] := by
  decide +kernel

/-- Without the condition on graph containers C44 is false: a string is wrapped in a graph. -/
theorem C44_graph_value : (expandDoc exXEnv {}
    (exCtxDoc [("p".toList, exTerm "http:p".toList "@graph".toList [])]
      [("p".toList, .str "x".toList)])).toOption =
    some [.node (.mk none none none none none [(.iri "http:p".toList,
      [.node (.mk none none none (some [.value none (.literal (.str "x".toList) none)]) none [] none)])] none)] := by
  decide +kernel

/-- Without the condition on `@graph` C44 is false: a list is at the top. -/
theorem C44_top_list : (expandDoc exXEnv {}
    (exCtxDoc [("@graph".toList, exTerm "http:g".toList "@list".toList [])]
      [("@graph".toList, .arr [.obj [("http:p".toList, .str "x".toList)]])])).toOption =
    some [.list none [.node (.mk none none none none none [(.iri "http:p".toList,
      [.value none (.literal (.str "x".toList) none)])] none)]] := by
  decide +kernel

/-- The conditions on contexts are met e.g. where every context stands for `exValueCtx`. -/
theorem exXEnv_contexts (Q : ACtx → Prop) (hQ : Q exValueCtx) :
    ContextsOf Q { exXEnv with process := fun _ _ _ _ => .ok exValueCtx } exValueCtx :=
  have h : Everywhere Q exValueCtx := .intro _ hQ nofun
  ⟨h, fun _ _ _ _ _ hp => by cases hp; exact h⟩

private theorem exValueCtx_get {k : Str} {d : TermDef} (h : exValueCtx.get k = some d) :
    d.index = none ∧ d.container = .none := by
  unfold ACtx.get at h
  split at h
  · cases h
  · have := lookupKey_mem h
    simp only [exValueCtx, List.mem_cons, List.not_mem_nil, or_false, Prod.mk.injEq] at this
    rcases this with ⟨_, rfl⟩ | ⟨_, rfl⟩ | ⟨_, rfl⟩ <;> exact ⟨rfl, rfl⟩

example : NoIndexMappings exValueCtx ∧ NoContainer .type exValueCtx ∧ NoContainer .graph exValueCtx ∧
    NoGraphLists exValueCtx := by
  refine ⟨fun k d m h hm => ?_, fun k d h => ?_, fun k d h => ?_, fun d h => ?_⟩
  · rw [(exValueCtx_get h).1] at hm; cases hm
  all_goals rw [(exValueCtx_get h).2]; decide

/-- C50 is about expansion itself: the error of context processing is passed on, and it may be a panic. -/
example : (match expandDoc exXEnv {} (exCtxDoc [("p".toList, .obj [("@id".toList, .null), ("@prefix".toList, .bool true)])] []) with
    | .error (.contextProcessing .panic) => true
    | _ => false) = true := by
  decide +kernel

end JsonLd.Props
