import Verif.Proofs.CompactSafeNode
import Verif.Props.CompactMaps
/-!
# C75: compaction succeeds
-/

namespace JsonLd.Props
open JsonLd.Spec Relation

/-- **C75.** Compaction, also with maps, `@nest`, reverse terms and scoped contexts, gives a document or fails for
one of two reasons: an IRI of the document has a scheme that is a term of some context (`IRI confused with prefix`),
or a scoped context cannot be processed. It does not panic, and does not reject the `@nest` entries.

The contexts of the compaction satisfy `SafeCtx`, the nodes of the document `SafeNode` in all of them, and the JSON
literals have no duplicate keys. Without these conditions the claim is false, see below and `C54_panic`. -/
theorem C75_outcome (E : CEnv) (Q : ACtx → Prop) (c : ACtx) (l : SCtx) (d : Doc) (hi : IriFacts E.toIriEnv)
    (hb : ∀ s, E.isBlank s = true → ∃ x, s = '_' :: ':' :: x) (hc : CompactsIn Q E c)
    (hs : ∀ c, Q c → SafeCtx E.toCompEnv c) (hn : ∀ n, Inside d (.node n) → ∀ c, Q c → SafeNode E.toCompEnv c n)
    (hd : ∀ o ∈ d, CleanLiterals (.obj o)) :
    (∃ j, compactDoc E c l d = .ok j) ∨
    (compactDoc E c l d = .error .iriConfusedWithPrefix ∧
      ∃ c' y i, Q c' ∧ Inside d y ∧ NamesIri y i ∧ ¬ FreeScheme c' i) ∨
    ∃ c' l' b o e, E.process c' l' b o = .error e ∧ compactDoc E c l d = .error (.context e) := by
  have here : ∀ {c}, Everywhere Q c → Q c := fun h => by cases h with | intro _ h _ => exact h
  have A : Steady E (fun e => (e = .iriConfusedWithPrefix ∧ ∃ c' y i, Q c' ∧ Inside d y ∧ NamesIri y i ∧ ¬ FreeScheme c' i) ∨
      ∃ c' l' b o x, E.process c' l' b o = .error x ∧ e = .context x) (Everywhere Q)
      (fun i => ∃ y, Inside d y ∧ NamesIri y i) :=
    { iris := hi
      blank := hb
      safe := fun c h => hs c (here h)
      scoped_ := fun c tsc k t o hc' _ _ => by
        unfold cScoped
        dsimp only
        split
        · rename_i l' _
          split
          · rename_i c1 h1
            exact hc.process c l' t.baseUrl o c1 h1
          · rename_i e h1
            exact .inr ⟨c, l', t.baseUrl, o, e, h1, rfl⟩
        · exact hc'
      previous := fun c c' h hp => by cases h with | intro _ _ h => exact h c' hp
      free := fun c i h hF => by
        by_cases hfree : FreeScheme c i
        · exact .inr hfree
        · obtain ⟨y, hy, hm⟩ := hF
          exact .inl (.inl ⟨rfl, c, y, i, here h, hy, hm, hfree⟩) }
  have := A.doc hc.start l (d := d) fun o ho y hy =>
    ⟨fun i j h => hd o ho i j (h ▸ hy), fun n h c hc => hn n ⟨o, ho, h ▸ hy⟩ c (here hc), fun i h => ⟨y, ⟨o, ho, hy⟩, h⟩⟩
  cases hr : compactDoc E c l d with
  | ok j => exact .inl ⟨j, rfl⟩
  | error e =>
    rw [hr] at this
    rcases this with ⟨rfl, h⟩ | ⟨c', l', b, o, x, h, rfl⟩
    · exact .inr (.inl ⟨rfl, h⟩)
    · exact .inr (.inr ⟨c', l', b, o, x, h, rfl⟩)

/-- **C75.** Without scoped contexts, and if no scheme of an IRI of the document is a term, compaction succeeds. -/
theorem C75_succeeds (E : CEnv) (c : ACtx) (l : SCtx) (d : Doc) (hi : IriFacts E.toIriEnv)
    (hb : ∀ s, E.isBlank s = true → ∃ x, s = '_' :: ':' :: x) (hs : SafeCtx E.toCompEnv c) (hsc : NoScoped c)
    (hp : c.previous = none) (hn : ∀ n, Inside d (.node n) → SafeNode E.toCompEnv c n)
    (hf : ∀ y i, Inside d y → NamesIri y i → FreeScheme c i) (hd : ∀ o ∈ d, CleanLiterals (.obj o)) :
    ∃ j, compactDoc E c l d = .ok j := by
  have A : Steady E (fun _ => False) (· = c) (FreeScheme c) :=
    { iris := hi
      blank := hb
      safe := by rintro _ rfl; exact hs
      scoped_ := by
        rintro _ _ k t o rfl rfl ht
        unfold cScoped
        dsimp only
        rw [hsc k t ht]
        exact Eq.refl _
      previous := by
        rintro _ c' rfl h
        rw [hp] at h
        cases h
      free := by
        rintro _ i rfl h
        exact .inr h }
  have := A.doc rfl l (d := d) fun o ho y hy =>
    ⟨fun i j h => hd o ho i j (h ▸ hy), fun n h c' hc => by subst hc; exact hn n ⟨o, ho, h ▸ hy⟩,
      fun i h => hf y i ⟨o, ho, hy⟩ h⟩
  cases hr : compactDoc E c l d with
  | ok j => exact ⟨j, rfl⟩
  | error e =>
    rw [hr] at this
    exact this.elim

/-! ## Compaction and expansion back always work -/

/-- The item is well-formed. -/
def ItemWF : Item → Prop
  | .obj o => o.WF
  | .node n => n.WF

theorem itemWF_part {x y : Item} (h : PartL x y) (hy : ItemWF y) : ItemWF x := by
  cases h with
  | item ho => exact objsWF_iff.1 hy _ ho
  | part h =>
    cases h with
    | self => exact hy
    | graph hg ho => rename_i n l o; cases n; cases hg; exact objsWF_iff.1 hy.1.2 o ho
    | included hl ho => rename_i n l m; cases n; cases hl; exact nodesWF_iff.1 hy.2.1.2 m ho
    | property hp ho => rename_i n k l o; cases n; exact psWF_iff.1 hy.2.2.2.1 _ hp o ho
    | reverse hr hp ho => rename_i n r k l m; cases n; cases hr; exact rpsWF_iff.1 hy.2.2.2.2.2 _ hp m ho

theorem itemWF_inside {d : Doc} (hd : d.WF) {x : Item} (h : Inside d x) : ItemWF x := by
  obtain ⟨o, ho, h⟩ := h
  have : ItemWF (.obj o) := objsWF_iff.1 hd.2 o ho
  induction h using ReflTransGen.head_induction_on with
  | refl => exact this
  | head h _ ih => exact itemWF_part h ih

theorem valueCtx_safe {E : CEnv} {X : XEnv} {c : ACtx} (H : MapEnv E X c) : SafeCtx E.toCompEnv c where
  distinct := H.clean.distinct
  terms := H.clean.terms
  ids k d hd h := by
    have hm := lookupKey_mem hd
    refine ⟨?_, fun x hx => ?_⟩
    · rw [(H.ctx.iris _ hm h).container]
      exact not_makesMap_none
    · rw [H.clean.ids k d hd h] at hx
      cases hx
  aliases k d x hd hx := by
    have hp := H.ctx.keywords _ (lookupKey_mem hd) x hx
    rw [hp.container]
    exact ⟨not_makesMap_none, hp.reverse⟩
  reverse k d hd h := by
    have := (H.ctx.defs _ (lookupKey_mem hd)).reverse
    rw [h] at this
    cases this
  nest k d n hd h := by
    have := (H.ctx.defs _ (lookupKey_mem hd)).nest
    rw [h] at this
    cases this
  keywords := H.keywords

theorem placed_safe {E : CEnv} {c : ACtx} {n : Node} (hw : n.WF) (h : PlacedNode E.toCompEnv c n) :
    SafeNode E.toCompEnv c n where
  keys := by cases n; exact hw.2.2.1
  props p hp := ⟨(h.props p hp).valid, fun v x h1 h2 => ((h.props p hp).clear.vocab rfl v x h1 h2).1⟩
  lists := h.maps
  graphs p hp g hg hgr t d h1 h2 h3 := by
    have := h.graphs p hp g hg hgr t d h1 h2
    revert this h3
    cases d.container <;> simp [Container.asSlice, InGraphTerm]
    all_goals exact fun h _ _ _ _ => h
  revKeys r hr := by cases n; cases hr; exact hw.2.2.2.2.1
  rev r hr p hp := by
    have := ((h.rev r hr).2 p hp).1
    exact ⟨this.valid, fun v x h1 h2 => (this.clear.vocab rfl v x h1 h2).1⟩
  revGraphs r hr p hp g _ _ t d h1 h2 h3 := absurd h3 (((h.rev r hr).2 p hp).2 t d h1 h2)

/-- **C75.** A document that can be compacted without loss (see `C66_document`) is compacted, and the result can be
expanded and gives an equal document, if no scheme of its IRIs is a term and the JSON literals have no duplicate
keys. -/
theorem C75_round_trip (E : CEnv) (X : XEnv) (c : ACtx) (H : MapEnv E X c) (c0 : ACtx) (h0 : c0.previous = none)
    (l : SCtx) (hl : CtxOk X.isRef l) (hw : WrittenContext X c0 c l) (d : Doc) (hd : d.WF)
    (hc : PlacedDoc E.toCompEnv c d)
    (hg : E.opts.compactArrays = true → ∀ x g, d ≠ [.node (.mk x none none (some g) none [] none)])
    (hf : ∀ y i, Inside d y → NamesIri y i → FreeScheme c i) (hj : ∀ o ∈ d, CleanLiterals (.obj o)) :
    ∃ j d', compactDoc E c l d = .ok j ∧ expandDoc X c0 j = .ok d' ∧ d'.WF ∧ d'.eq d = true := by
  have hsc : NoScoped c := by
    intro k t ht
    unfold ACtx.get at ht
    split at ht
    · rw [H.ctx.typeDef] at ht
      cases ht
    · exact (H.ctx.defs _ (lookupKey_mem ht)).context
  obtain ⟨j, h⟩ := C75_succeeds E c l d H.iris H.facts.blank (valueCtx_safe H) hsc H.ctx.previous
    (fun n hn => placed_safe (itemWF_inside hd hn) (hc.nodes n hn)) hf hj
  obtain ⟨d', h1, h2, h3⟩ := C66_document E X c H c0 h0 l hl hw d hd hc hg j h
  exact ⟨j, d', h, h1, h2, h3⟩

/-! ## An example -/

/-- A term for an IRI, under a key for `@nest`. -/
def exNestTerm (i : String) (n : Option SNest) (k : Container) : TermDef :=
  { value := some (.id (.iri i.toList)), nest := n, container := k }

/-- A context with an alias of `@nest`, two terms under it, one of them a map by index, a reverse term, and an alias
of `@type`. -/
def exSafeCtx : ACtx :=
  { defs := [("n".toList, { value := some (.keyword .nest) }),
      ("p".toList, exNestTerm "http:p" (some (.term "n".toList)) .none),
      ("q".toList, exNestTerm "http:q" (some (.term "n".toList)) .index),
      ("r".toList, { exNestTerm "http:r" none .set with reverse := true }),
      ("kind".toList, { value := some (.keyword .type), container := .set })] }

/-- A node with values for these terms. -/
def exSafeNode : Node := .mk none (some (.iri "http:a".toList)) (some [.iri "http:T".toList]) none none
  [(.iri "http:p".toList, [exText none "x".toList]),
   (.iri "http:q".toList, [exText (some "i".toList) "x".toList, exText none "y".toList])]
  (some [(.iri "http:r".toList, [exPoint "http:b"])])

theorem exSafe_defs {k : Str} {d : TermDef} (h : lookupKey k exSafeCtx.defs = some d) : (k, d) ∈ exSafeCtx.defs :=
  lookupKey_mem h

theorem exSafe_get {k : Str} {d : TermDef} (h : exSafeCtx.get k = some d) : (k, d) ∈ exSafeCtx.defs := by
  unfold ACtx.get at h
  split at h
  · cases h
  · exact lookupKey_mem h

theorem exSafe_ctx : SafeCtx exCEnv.toCompEnv exSafeCtx where
  distinct := by decide
  terms k d h := by
    have := exSafe_defs h
    simp only [exSafeCtx, List.mem_cons, Prod.mk.injEq, List.not_mem_nil, or_false] at this
    rcases this with ⟨rfl, -⟩ | ⟨rfl, -⟩ | ⟨rfl, -⟩ | ⟨rfl, -⟩ | ⟨rfl, -⟩ <;> exact fun h => absurd ((C01_form _).2 h) (by decide)
  ids k d h hk := by
    have := exSafe_defs h
    simp only [exSafeCtx, List.mem_cons, Prod.mk.injEq, List.not_mem_nil, or_false] at this
    rcases this with ⟨rfl, -⟩ | ⟨rfl, -⟩ | ⟨rfl, -⟩ | ⟨rfl, -⟩ | ⟨rfl, -⟩ <;> exact absurd hk (by decide)
  aliases k d x h hx := by
    have := exSafe_defs h
    simp only [exSafeCtx, List.mem_cons, Prod.mk.injEq, List.not_mem_nil, or_false] at this
    rcases this with ⟨-, rfl⟩ | ⟨-, rfl⟩ | ⟨-, rfl⟩ | ⟨-, rfl⟩ | ⟨-, rfl⟩
    · exact ⟨not_makesMap_none, rfl⟩
    · cases hx
    · cases hx
    · cases hx
    · exact ⟨not_makesMap_set, rfl⟩
  reverse k d h hr := by
    have := exSafe_defs h
    simp only [exSafeCtx, List.mem_cons, Prod.mk.injEq, List.not_mem_nil, or_false] at this
    rcases this with ⟨-, rfl⟩ | ⟨-, rfl⟩ | ⟨-, rfl⟩ | ⟨-, rfl⟩ | ⟨-, rfl⟩
    · cases hr
    · cases hr
    · cases hr
    · exact not_makesMap_set
    · cases hr
  nest k d n h hn := by
    have := exSafe_defs h
    have halias : ∃ t d', SNest.term "n".toList = .term t ∧ lookupKey t exSafeCtx.defs = some d' ∧
        d'.value = some (.keyword .nest) := ⟨_, _, rfl, rfl, rfl⟩
    simp only [exSafeCtx, List.mem_cons, Prod.mk.injEq, List.not_mem_nil, or_false] at this
    rcases this with ⟨-, rfl⟩ | ⟨-, rfl⟩ | ⟨-, rfl⟩ | ⟨-, rfl⟩ | ⟨-, rfl⟩
    · cases hn
    · cases hn; exact .inr halias
    · cases hn; exact .inr halias
    · cases hn
    · cases hn
  keywords := by
    refine ⟨fun p m h => ?_, nofun⟩
    obtain ⟨d, h1, h2, -⟩ := h
    have := exSafe_defs h1
    simp only [exSafeCtx, exNestTerm, List.mem_cons, Prod.mk.injEq, List.not_mem_nil, or_false] at this
    rcases this with ⟨-, rfl⟩ | ⟨-, rfl⟩ | ⟨-, rfl⟩ | ⟨-, rfl⟩ | ⟨-, rfl⟩ <;> cases h2

theorem exSafe_inside {x : Item} (h : Inside [.node exSafeNode] x) : x = .obj (.node exSafeNode) ∨ x = .node exSafeNode ∨
    (∃ i s, x = .obj (exText i s)) ∨ x = .node (exPoint "http:b") := by
  have := inside_items h
  simp only [exSafeNode, exPoint, exText, itemsOfObjs, Obj.items, Node.items, itemsOfGraph, itemsOfIncluded, itemsOfRev,
    itemsOfProps, itemsOfRps, itemsOfNodes, List.mem_append, List.mem_cons, List.not_mem_nil, or_false, false_or, or_assoc] at this
  rcases this with h | h | h | h | h | h
  · exact .inl h
  · exact .inr (.inl h)
  · exact .inr (.inr (.inl ⟨_, _, h⟩))
  · exact .inr (.inr (.inl ⟨_, _, h⟩))
  · exact .inr (.inr (.inl ⟨_, _, h⟩))
  · exact .inr (.inr (.inr h))

/-- The hypotheses of `C75_succeeds` are met. -/
example : ∃ j, compactDoc exCEnv exSafeCtx (.one .null) [.node exSafeNode] = .ok j := by
  refine C75_succeeds _ _ _ _ exComp_facts.1 exComp_facts.2.blank exSafe_ctx ?_ rfl ?_ ?_ ?_
  · intro k d h
    have := exSafe_get h
    simp only [exSafeCtx, List.mem_cons, Prod.mk.injEq, List.not_mem_nil, or_false] at this
    rcases this with ⟨-, rfl⟩ | ⟨-, rfl⟩ | ⟨-, rfl⟩ | ⟨-, rfl⟩ | ⟨-, rfl⟩ <;> rfl
  · intro n hn
    rcases exSafe_inside hn with h | h | ⟨i, s, h⟩ | h
    · cases h
    · cases h
      refine ⟨by decide, fun p hp => ⟨.inl ?_, nofun⟩, fun p hp o ho hl => ?_, fun p hp g hg => ?_,
        fun r h => ?_, fun r h p hp => ⟨.inl ?_, nofun⟩, fun r h p hp g hg hgr => ?_⟩
      · simp only [exSafeNode, Node.props, List.mem_cons, List.not_mem_nil, or_false] at hp
        rcases hp with rfl | rfl <;> decide
      · simp only [exSafeNode, Node.props, List.mem_cons, List.not_mem_nil, or_false] at hp
        obtain ⟨i, l, rfl⟩ := hl
        rcases hp with rfl | rfl <;> simp [exText] at ho
      · simp only [exSafeNode, Node.props, List.mem_cons, List.not_mem_nil, or_false] at hp
        rcases hp with rfl | rfl <;> simp [exText] at hg
      · cases h
        decide
      · cases h
        rw [List.mem_singleton.1 hp]
        decide
      · cases h
        rw [List.mem_singleton.1 hp] at hg
        rw [List.mem_singleton.1 hg] at hgr
        cases hgr
    · cases h
    · cases h
      exact ⟨.nil, (nofun), (nofun), (nofun), fun r h => (by cases h), fun r h => (by cases h), fun r h => (by cases h)⟩
  · intro y i hy hm
    suffices ∃ x, i = "http".toList ++ ':' :: x from
      this.elim fun x hx => ⟨_, x, hx, by decide, by decide⟩
    rcases exSafe_inside hy with rfl | rfl | ⟨j, s, rfl⟩ | rfl
    · exact hm.elim
    · rcases hm with h | ⟨ts, h, h'⟩ | ⟨p, h, h'⟩ | ⟨r, h, p, h', h''⟩
      · cases h; exact ⟨_, rfl⟩
      · cases h
        cases List.mem_singleton.1 h'
        exact ⟨_, rfl⟩
      · simp only [exSafeNode, Node.props, List.mem_cons, List.not_mem_nil, or_false] at h
        rcases h with rfl | rfl <;> cases h' <;> exact ⟨_, rfl⟩
      · cases h
        rw [List.mem_singleton.1 h'] at h''
        cases h''
        exact ⟨_, rfl⟩
    · exact hm.elim
    · rcases hm with h | ⟨ts, h, h'⟩ | ⟨p, h, h'⟩ | ⟨r, h, p, h', h''⟩
      · cases h; exact ⟨_, rfl⟩
      · cases h
      · cases h
      · cases h
  · intro o ho i j hx
    rcases exSafe_inside ⟨o, ho, hx⟩ with h | h | ⟨i, s, h⟩ | h <;> cases h

/-- The contexts of `C75_outcome`, if context processing only gives this context. -/
example : CompactsIn (· = exSafeCtx) { exCEnv with process := fun _ _ _ _ => .ok exSafeCtx } exSafeCtx :=
  ⟨.intro _ rfl nofun, fun _ _ _ _ c' h => by cases h; exact .intro _ rfl nofun⟩

/-- The compacted document: `p` and `q` are under `n`. -/
example : compactDoc exCEnv exSafeCtx (.one .null) [.node exSafeNode] = .ok (.obj
    [("@id".toList, .str "http:a".toList), ("kind".toList, .arr [.str "http:T".toList]),
     ("r".toList, .arr [.obj [("@id".toList, .str "http:b".toList)]]),
     ("n".toList, .obj [("p".toList, .str "x".toList),
       ("q".toList, .obj [("i".toList, .str "x".toList), ("@none".toList, .str "y".toList)])])]) := by
  decide +kernel

/-! ## Where the conditions are needed -/

/-- **C75.** Compaction fails if the scheme of an IRI is a term, even one that is no prefix. -/
theorem C75_confused : compactDoc exCEnv { defs := [("http".toList, exNestTerm "urn:t" none .none)] } (.one .null)
    [exNodeT [exText none "a".toList]] = .error .iriConfusedWithPrefix := by
  decide +kernel

/-- **C75.** Compaction fails if the `@nest` entry of a term is not an alias of `@nest`. -/
theorem C75_nest : compactDoc exCEnv { defs := [("t".toList, exNestTerm "http:t" (some (.term "n".toList)) .none)] }
    (.one .null) [exNodeT [exText none "a".toList]] = .error .invalidNestValue := by
  decide +kernel

/-- A named or unnamed graph. -/
def exSafeGraph (i : Option Id) : Node := .mk none i none (some [exText none "g".toList]) none [] none

/-- **C75.** Compaction panics if a term with the container `@graph` and `@index` is chosen for named graphs, which
are not put in the map, and then for an unnamed one. -/
theorem C75_named_graphs : compactDoc exCEnv (exTermCtx .graphIndex) (.one .null)
    [exNodeT [.node (exSafeGraph (some (.iri "http:g".toList))), .node (exSafeGraph (some (.iri "http:h".toList))),
      .node (exSafeGraph none)]] = .error .panic := by
  decide +kernel

/-- **C75.** Compaction panics on a node without identifier in a map by type if a property is compacted to `@id`. -/
theorem C75_id_in_type_map : compactDoc exCEnv { exTermCtx .type with vocab := some (.id (.iri "http:v".toList)) }
    (.one .null) [exNodeT [.node (.mk none none (some [.iri "http:T".toList]) none none
      [(.iri "http:v@id".toList, [exText none "a".toList])] none)]] = .error .panic := by
  decide +kernel

/-- **C75.** With `compact_arrays` off, the map by index of a reverse term is put in an array, which expansion does
not take for a map. -/
theorem C75_reverse_map : compactDoc { exCEnv with opts := { compactArrays := false } }
    { defs := [("r".toList, { exNestTerm "http:r" none .index with reverse := true })] } (.one .null)
    [.node (.mk none none none none none [] (some [(.iri "http:r".toList,
      [.mk (some "i".toList) (some (.iri "http:b".toList)) none none none [] none])]))] =
    .ok (.obj [("@graph".toList, .arr [.obj [("r".toList, .arr [.obj [("i".toList,
      .arr [.obj [("@id".toList, .str "http:b".toList)]])]])]])]) := by
  decide +kernel

end JsonLd.Props
