import Verif.Props.Processor
import Verif.Props.Flatten
import Verif.Props.ExpandPolicy
import Verif.Proofs.PropOrder
/-!
# C83: what the options of the processor do
-/

namespace JsonLd.Props
open JsonLd.Spec

/-! ## Order -/

/-- **C83**, partial. With the option `ordered` the compacted document does not depend on the order in which
properties of nodes are listed, at any depth. (It does depend on the order of reverse properties: `C83_reverse`.) -/
theorem C83_ordered_partial (E : PEnv) (d d' : Doc) (h : ObjsReordered d d') (url : Option Str) (x : ContextRef) (o : POpts)
    (ho : o.ordered = true) : compactExpanded E d url x o = compactExpanded E d' url x o := by
  unfold compactExpanded
  congr 1
  funext l
  congr 1
  funext c
  rw [compactDoc_same (E := E.compaction o) ho _ l h]

/-- A node with two properties, in this order. -/
def exTwoProps (a b : String) : Doc :=
  [.node (.mk none none none none none
    [(.iri a.toList, [.value none (.literal (.str "1".toList) none)]),
      (.iri b.toList, [.value none (.literal (.str "2".toList) none)])] none)]

/-- The hypotheses are met: the same node with its properties in the other order. -/
example : ObjsReordered (exTwoProps "http:p" "http:q")
    [.node (.mk none none none none none
      [(.iri "http:q".toList, [.value none (.literal (.str "2".toList) none)]),
        (.iri "http:p".toList, [.value none (.literal (.str "1".toList) none)])] none)] := by
  simp only [exTwoProps, ObjsReordered, PropsReordered, NodeReordered, OptObjsReordered, OptNodesReordered, OptRevReordered,
    and_true, true_and]
  refine ⟨by decide +kernel, _, List.Perm.swap _ _ _, ?_⟩
  simp only [EachPropReordered, ObjsReordered, PropsReordered, and_true]

/-- A node with two reverse properties, in this order. -/
def exTwoReverse (a b : String) : Doc :=
  [.node (.mk none (some (.iri "http:s".toList)) none none none []
    (some [(.iri a.toList, [.mk none (some (.iri "http:x".toList)) none none none [] none]),
      (.iri b.toList, [.mk none (some (.iri "http:x".toList)) none none none [] none])]))]

/-- An empty context. -/
def exNoContext : ContextRef := .loaded (.one (.defn SDef.empty))

/-- C83: reverse properties are written in the order in which they are listed, even with the option `ordered`. -/
theorem C83_reverse :
    (compactExpanded exPEnv (exTwoReverse "http:p" "http:q") none exNoContext { ordered := true }).toOption ≠
      (compactExpanded exPEnv (exTwoReverse "http:q" "http:p") none exNoContext { ordered := true }).toOption ∧
    (compactExpanded exPEnv (exTwoReverse "http:p" "http:q") none exNoContext { ordered := true }).toOption.isSome = true := by
  decide +kernel

/-- C83: expansion lists the properties of a node in the order of the document, even with the option `ordered`. -/
theorem C83_expansion :
    (expandFull exPEnv { document := .obj [("http:q".toList, .str "2".toList), ("http:p".toList, .str "1".toList)] }
      { ordered := true }).toOption =
    some [.node (.mk none none none none none
      [(.iri "http:q".toList, [.value none (.literal (.str "2".toList) none)]),
        (.iri "http:p".toList, [.value none (.literal (.str "1".toList) none)])] none)] := by
  decide +kernel

/-! ## The base IRI of compaction -/

/-- **C83.** If nothing is to be compacted to a relative IRI, the URL of the document makes no difference, unless the
context is read differently. -/
theorem C83_absolute (E : PEnv) (d : Doc) (url url' : Option Str) (x : ContextRef) (o : POpts) (hb : o.base = none)
    (hr : o.compactToRelative = false)
    (hp : ∀ l, E.loadContext x = .ok l → E.process (ACtx.new none) l url o.proc = E.process (ACtx.new none) l url' o.proc) :
    compactExpanded E d url x o = compactExpanded E d url' x o := by
  unfold compactExpanded
  cases hl : E.loadContext x with
  | error => rfl
  | ok l =>
    show (mapErr _ _).bind _ = (mapErr _ _).bind _
    have hu : ∀ u : Option Str, u.or o.base = u := fun u => by rw [hb]; cases u <;> rfl
    rw [hu, hu, hp l hl]
    congr 1
    funext c
    unfold compactBase
    rw [hb, hr]
    rfl

/-- **C83.** Otherwise IRIs are compacted relative to the URL of the document, as if it were given with the option
`base`, if the context does not give a base IRI. -/
theorem C83_relative (E : PEnv) (d : Doc) (u : Str) (x : ContextRef) (o : POpts) (hb : o.base = none)
    (hr : o.compactToRelative = true)
    (hp : ∀ l c, E.loadContext x = .ok l → E.process (ACtx.new none) l (some u) o.proc = .ok c → c.base = none) :
    compactExpanded E d (some u) x o = compactExpanded E d (some u) x { o with base := some u } := by
  unfold compactExpanded
  cases hl : E.loadContext x with
  | error => rfl
  | ok l =>
    show (mapErr PErr.contextProcessing (E.process (ACtx.new none) l (some u) o.proc)).bind _ =
      (mapErr PErr.contextProcessing (E.process (ACtx.new none) l (some u) o.proc)).bind _
    cases hc : E.process (ACtx.new none) l (some u) o.proc with
    | error => rfl
    | ok c =>
      show mapErr _ (compactDoc _ (compactBase o _ c) l d) = mapErr _ (compactDoc _ (compactBase _ _ c) l d)
      have e : compactBase o (some u) c = compactBase { o with base := some u } (some u) c := by
        unfold compactBase
        rw [hb, hr, hp l c hl hc]
        rfl
      rw [e]
      rfl

/-- **C83.** If the context gives a base IRI and there is no option `base`, that of the context is used. -/
theorem C83_context_base (E : PEnv) (d : Doc) (u : Option Str) (x : ContextRef) (o : POpts) (hb : o.base = none)
    (hp : ∀ l c, E.loadContext x = .ok l → E.process (ACtx.new none) l u o.proc = .ok c → c.base ≠ none) :
    compactExpanded E d u x o = compactExpanded E d u x { o with compactToRelative := false } := by
  unfold compactExpanded
  cases hl : E.loadContext x with
  | error => rfl
  | ok l =>
    have hu : u.or o.base = u := by rw [hb]; cases u <;> rfl
    show (mapErr PErr.contextProcessing (E.process (ACtx.new none) l (u.or o.base) o.proc)).bind _ =
      (mapErr PErr.contextProcessing (E.process (ACtx.new none) l (u.or o.base) o.proc)).bind _
    rw [hu]
    cases hc : E.process (ACtx.new none) l u o.proc with
    | error => rfl
    | ok c =>
      show mapErr _ (compactDoc _ (compactBase o _ c) l d) = mapErr _ (compactDoc _ (compactBase _ _ c) l d)
      have e : compactBase o u c = compactBase { o with compactToRelative := false } u c := by
        have := hp l c hl hc
        unfold compactBase
        rw [hb]
        cases hcb : c.base with
        | none => exact absurd hcb this
        | some b => simp
      rw [e]
      rfl

/-- The options matter: relative to the URL of the document or not. -/
example : (compactExpanded exPEnv [.node (.mk none (some (.iri "http:b/x".toList)) none none none
      [(.iri "http:p".toList, [])] none)] (some "http:b/".toList) exNoContext {}).toOption ≠
    (compactExpanded exPEnv [.node (.mk none (some (.iri "http:b/x".toList)) none none none
      [(.iri "http:p".toList, [])] none)] (some "http:b/".toList) exNoContext { compactToRelative := false }).toOption := by
  decide +kernel

/-! ## Policies -/

private theorem expandFull_sim {E : PEnv} {r : Remote} {o o' : POpts} {X : XErr → Prop}
    (hb : o.base = o'.base) (hx : o.expandContext = o'.expandContext) (hm : o.proc = o'.proc)
    (S : Sim o.expansion o'.expansion X) :
    expandFull E r o = expandFull E r o' ∨ ∃ e, expandFull E r o = .error (.expansion e) ∧ X e := by
  have h1 : ∀ c, E.expandContext o c = E.expandContext o' c := by
    intro c
    unfold PEnv.expandContext PEnv.addContext
    rw [hx, hm]
  have h2 : ∀ u c, E.linkContext o u c = E.linkContext o' u c := by
    intro u c
    unfold PEnv.linkContext PEnv.addContext
    rw [hm]
  unfold expandFull
  rw [hb, h1]
  cases E.expandContext o' (ACtx.new (o'.base.or r.url)) with
  | error e => exact .inl rfl
  | ok c =>
    show (E.linkContext o r.contextUrl c).bind _ = (E.linkContext o' r.contextUrl c).bind _ ∨
      ∃ e, (E.linkContext o r.contextUrl c).bind _ = _ ∧ _
    rw [h2]
    cases E.linkContext o' r.contextUrl c with
    | error e => exact .inl rfl
    | ok c =>
      have key := Le.map (f := docResult) ((xrecN_le (E := E.expansion (r.url.or o'.base) o') S r.document.depth _ _ (Nat.le_refl _)
        (Nat.le_refl _)).elem (c := c) (prop := none) (fm := false) (Nat.le_refl r.document.depth))
      rcases key with h | ⟨e, h, he⟩
      · left
        show mapErr _ (expandDoc _ c r.document) = mapErr _ (expandDoc _ c r.document)
        congr 1
      · right
        refine ⟨e, ?_, he⟩
        show mapErr _ (expandDoc _ c r.document) = _
        rw [show expandDoc (E.expansion (r.url.or o'.base) o) c r.document = .error e from h]
        rfl

/-- **C83.** Rejecting what is resolved against the vocabulary changes nothing, or the document is rejected for that. -/
theorem C83_vocab (E : PEnv) (r : Remote) (o : POpts) :
    expandFull E r { o with vocab := .reject } = expandFull E r o ∨
      ∃ e, expandFull E r { o with vocab := .reject } = .error (.expansion e) ∧
        (e = .forbiddenVocab ∨ e = .literal .forbiddenVocab ∨ e = .value .forbiddenVocab) :=
  expandFull_sim rfl rfl rfl
    { mode := rfl, ordered := rfl, vocab := .inr ⟨rfl, .inl rfl, .inr (.inl rfl), .inr (.inr rfl)⟩, invalid := .inl rfl,
      undefined := .inl rfl }

/-- **C83.** Rejecting invalid terms changes nothing, or the document is rejected for a key or a type. -/
theorem C83_invalid (E : PEnv) (r : Remote) (o : POpts) :
    expandFull E r { o with invalid := .reject } = expandFull E r o ∨
      ∃ e, expandFull E r { o with invalid := .reject } = .error (.expansion e) ∧
        (e = .invalidTypeValue ∨ ∃ s, e = .keyExpansionFailed s) :=
  expandFull_sim rfl rfl rfl
    { mode := rfl, ordered := rfl, vocab := .inl rfl, invalid := .inr ⟨rfl, .inl rfl, fun s => .inr ⟨s, rfl⟩⟩,
      undefined := .inl rfl }

/-- **C83.** Not allowing undefined keys changes nothing, or the document is rejected for a key. -/
theorem C83_undefined (E : PEnv) (r : Remote) (o : POpts) :
    expandFull E r { o with allowUndefined := false } = expandFull E r o ∨
      ∃ s, expandFull E r { o with allowUndefined := false } = .error (.expansion (.keyExpansionFailed s)) := by
  rcases expandFull_sim (E := E) (r := r) (o := { o with allowUndefined := false }) (o' := o)
    (X := fun e => ∃ s, e = .keyExpansionFailed s) rfl rfl rfl
    { mode := rfl, ordered := rfl, vocab := .inl rfl, invalid := .inl rfl, undefined := .inr ⟨rfl, fun s => ⟨s, rfl⟩⟩ } with
    h | ⟨_, h, s, rfl⟩
  · exact .inl h
  · exact .inr ⟨s, h⟩

/-! ## Flattening -/

/-- **C83.** A flattened document is the JSON of a flat list of nodes that makes the statements of the expanded document
(see C16 and C17), in the order of the identifiers if the option `ordered` is set; with a context, it is this list
compacted. -/
theorem C83_flatten (E : PEnv) (gen : Nat → Id) (i : Orders) (n : Nat) (r : Remote) (x : Option ContextRef) (o : POpts)
    (d : Doc) (hd : expandFull E r o.unordered = .ok d) (h : Relabelable gen d) (j : Json)
    (hj : flattenFull E gen i n r x o = .ok j) :
    ∃ f : List Node, (f.map Node.id).Nodup ∧
      (∀ g s k v, States (d.relabel gen n).1 g s k v →
        ∃ p os v', FlatNode f g p ∧ p.id = some s ∧ (k, os) ∈ p.props ∧ v' ∈ os ∧ v'.eq v = true) ∧
      (∀ g p s k os v, FlatNode f g p → p.id = some s → (k, os) ∈ p.props → v ∈ os →
        FlatValue v ∧ States (d.relabel gen n).1 g s k v) ∧
      (o.ordered = true → f.Pairwise fun a b => a.idStr ≤ b.idStr) ∧
      (x = none → j = Doc.toJson (f.map .node)) ∧
      (∀ y, x = some y → compactExpanded E (f.map .node) r.url y o = .ok j) := by
  unfold flattenFull at hj
  rw [hd] at hj
  replace hj : (mapErr PErr.conflictingIndexes (d.flatten gen i o.ordered n)).bind _ = .ok j := hj
  cases hf : d.flatten gen i o.ordered n with
  | error e => rw [hf] at hj; cases hj
  | ok f =>
    rw [hf] at hj
    have hF : Flattened gen d n f := .list hf
    refine ⟨f, (C16_flat h hF).1, fun g s k v hs => (C17_statements h hF).2 g s k v hs,
      fun g p s k os v hp hs hk hv => ⟨((C16_flat h hF).2.2 g p hp).2.2.2.2.2 k os hk v hv,
        (C17_statements h hF).1 g p s k os v hp hs hk hv⟩, fun ho => ?_, ?_, ?_⟩
    · rw [ho] at hf
      exact (C19_sorted h hf).1
    · rintro rfl
      cases hj
      rfl
    · rintro y rfl
      exact hj

/-- **C83.** With the option `ordered` the flattened document does not depend on the order in which the hash maps of the
node map are traversed. -/
theorem C83_flatten_deterministic (E : PEnv) (gen : Nat → Id) (i i' : Orders) (n : Nat) (r : Remote)
    (x : Option ContextRef) (o : POpts) (ho : o.ordered = true)
    (h : ∀ d, expandFull E r o.unordered = .ok d → Relabelable gen d ∧
      ∀ g g' p q a b, Occurs (d.relabel gen n).1 g (.node p) → Occurs (d.relabel gen n).1 g' (.node q) →
        p.id = some a → q.id = some b → a.str = b.str → a = b) :
    flattenFull E gen i n r x o = flattenFull E gen i' n r x o := by
  unfold flattenFull
  cases hd : expandFull E r o.unordered with
  | error e => rfl
  | ok d =>
    show (mapErr _ (d.flatten gen i o.ordered n)).bind _ = (mapErr _ (d.flatten gen i' o.ordered n)).bind _
    rw [ho, C19_deterministic (h d hd).1 n (h d hd).2 i i']

end JsonLd.Props
