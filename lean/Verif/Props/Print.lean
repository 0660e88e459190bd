import Verif.Proofs.PrintRead
import Verif.Props.DocJson
import Verif.Props.Entries
/-!
# C84: a printed document is the document
-/

namespace JsonLd.Props
open JsonLd JsonLd.Spec

/-- C84. Printing a document never runs out of sizes, uses up all that were computed, and gives the text
of the JSON value that shows the document, every array and object in it laid out according to its own
size: for all options and functions of the external printer, at any indentation, for every document. -/
theorem C84_text (P : Printer) (ind : Nat) (d : Doc) :
    d.print P ind = some (text P ind (shownDoc d), []) := print_doc ind d

/-- The same for a single node; its index, being outside of the node, is not shown. -/
theorem C84_node_text (P : Printer) (ind : Nat) (n : Node) :
    n.print P ind = some (text P ind (shownNode
      (.mk none n.id n.types n.graph n.included n.props n.rev)), []) := by
  obtain ⟨i, id, ty, g, inc, ps, rv⟩ := n
  have h := fmt_text (P := P) (shownNode (.mk none id ty g inc ps rv)) ind []
  rw [List.append_nil] at h
  rw [Node.print, pre_shown.2, fmt_shown.2, h]
  rfl

theorem member_keys {α : Type} (k : Str) (x : Option α) (f : α → Json) :
    (member k (x.map f)).map Prod.fst = (x.map fun _ => k).toList := by cases x <;> rfl

theorem index_keys (i : Option Str) :
    (i.map IEntry.index).toList.map IEntry.key = (member "@index".toList (i.map .str)).map Prod.fst := by
  rw [member_keys]
  cases i with
  | none => rfl
  | some s => rfl

theorem nentry_keys {α : Type} (x : Option α) (f : α → NEntry) (k : Str) (hk : ∀ a, (f a).key = k) :
    (x.map f).toList.map (IEntry.key ∘ IEntry.object ∘ OEntry.node) = (x.map fun _ => k).toList := by
  cases x with
  | none => rfl
  | some a => exact congrArg (fun y => [y]) (hk a)

theorem value_keys (v : Value) (l : List VEntry) (h : Yields VIter.next (VIter.of v) l) :
    (shownValue v).map Prod.fst = l.map VEntry.key := by
  rw [C80_value] at h
  subst h
  have k1 : ∀ v, (VEntry.value v).key = "@value".toList := fun _ => rfl
  have k2 : ∀ v, (VEntry.type v).key = "@type".toList := fun _ => rfl
  have k3 : ∀ v, (VEntry.language v).key = "@language".toList := fun _ => rfl
  have k4 : ∀ v, (VEntry.direction v).key = "@direction".toList := fun _ => rfl
  rcases v with ⟨l, _ | t⟩ | ⟨data, _ | lang, _ | dir⟩ | j <;>
    simp only [shownValue, member, Option.map_none, Option.map_some, Option.toList_none,
      Option.toList_some, List.map_cons, List.map_nil, List.append_nil, List.nil_append,
      List.cons_append, k1, k2, k3, k4]

theorem node_keys (n : Node) (l : List NEntry) (h : Yields NIter.next (NIter.of n) l) :
    ∃ m, shownNode n = .obj (member "@index".toList (n.index.map .str) ++ m) ∧
      m.map Prod.fst = l.map (IEntry.key ∘ IEntry.object ∘ OEntry.node) := by
  rw [C80_node] at h
  subst h
  obtain ⟨i, id, ty, g, inc, ps, rv⟩ := n
  refine ⟨_, by rw [shownNode, Node.index], ?_⟩
  have e : (shownProps ps).map Prod.fst = (ps.map fun p => NEntry.property p.1 p.2).map
      (IEntry.key ∘ IEntry.object ∘ OEntry.node) := by
    rw [shownProps_eq, List.map_map, List.map_map]; rfl
  have e1 : (shownGraph g).map Prod.fst = (g.map fun _ => "@graph".toList).toList := by
    cases g <;> simp only [shownGraph] <;> rfl
  have e2 : (shownIncluded inc).map Prod.fst = (inc.map fun _ => "@included".toList).toList := by
    cases inc <;> simp only [shownIncluded] <;> rfl
  have e3 : (shownReverse rv).map Prod.fst = (rv.map fun _ => "@reverse".toList).toList := by
    cases rv <;> simp only [shownReverse] <;> rfl
  have k1 := nentry_keys id NEntry.id "@id".toList fun _ => rfl
  have k2 := nentry_keys ty NEntry.type "@type".toList fun _ => rfl
  have k3 := nentry_keys g NEntry.graph "@graph".toList fun _ => rfl
  have k4 := nentry_keys inc NEntry.included "@included".toList fun _ => rfl
  have k5 := nentry_keys rv NEntry.reverse "@reverse".toList fun _ => rfl
  simp only [List.map_append, member_keys, e, e1, e2, e3, Node.id, Node.types, Node.graph,
    Node.included, Node.rev, Node.props, k1, k2, k3, k4, k5]

/-- What is shown of an object are the entries which the iterator over it (C80) yields, in this order. -/
theorem C84_entries (o : Obj) (l : List IEntry) (h : Yields IIter.next (IIter.of o) l) :
    ∃ m, shown o = .obj m ∧ m.map Prod.fst = l.map IEntry.key := by
  rw [C80_indexed] at h
  obtain ⟨l', h1, rfl⟩ := h
  cases o with
  | value i v =>
    obtain ⟨k, hk, rfl⟩ := h1
    refine ⟨_, by rw [shown], ?_⟩
    rw [List.map_append, List.map_append, index_keys, value_keys v k hk, List.map_map, List.map_map]
    rfl
  | list i items =>
    subst h1
    refine ⟨_, by rw [shown], ?_⟩
    rw [List.map_append, List.map_append, index_keys]
    rfl
  | node n =>
    obtain ⟨k, hk, rfl⟩ := h1
    obtain ⟨m, h1, h2⟩ := node_keys n k hk
    refine ⟨_, by rw [shown, h1], ?_⟩
    rw [List.map_append, List.map_append, index_keys, h2, List.map_map, List.map_map]
    rfl

/-- C84. The JSON value shown for a document is read back as that document, graphs, lists, reverse
properties, indexes, included nodes and empty lists of types among it. Unlike the JSON value made by
`into_json` (`C11_included_lost`, `C11_empty_types_lost`). `WF` says that the sets are sets and the maps
are maps, `Typed` that IRIs are IRIs and so on; both hold of every document read
(`C11_read_wellformed`). -/
theorem C84_reread (validIri validBlank : Str → Bool) (d : Doc) (hw : d.WF)
    (ht : Typed validIri validBlank d)
    (hk : ∀ n, Inside d (.node n) → ∀ p ∈ n.props, p.1.str ∉ reserved) :
    Doc.read validIri validBlank (shownDoc d) = .ok d := by
  rw [Doc.WF, gWF, objsWF_iff] at hw
  have hg : ∀ o ∈ d, Showable validIri validBlank (.obj o) := fun o ho =>
    ⟨fun i v hr => ht.values i v ⟨o, ho, hr⟩, fun n hr => ⟨ht.nodes n ⟨o, ho, hr⟩, hk n ⟨o, ho, hr⟩⟩⟩
  unfold shownDoc Doc.read
  rw [shownObjs_eq]
  have : (d.map shown).mapM (readObj validIri validBlank (jsonsDepth (d.map shown))) = .ok d := by
    apply mapM_ok
    intro o ho
    obtain ⟨n, hn⟩ := read_shown.1 o (hw.2 o ho) (hg o ho)
    have hd : (shown o).depth ≤ jsonsDepth (d.map shown) := depth_le_of_mem (List.mem_map_of_mem ho)
    have hs := (read_safe (validIri := validIri) (validBlank := validBlank) (shown o).depth (shown o)
      (jsonsDepth (d.map shown)) (max n (shown o).depth) (Nat.le_refl _) hd
      (Nat.le_max_right _ _)).1
    rw [hs.1]
    exact hn _ (Nat.le_max_left _ _)
  simp only [this, bind, Except.bind, setCollect_of_pairwise hw.1]

/-- Putting both together: if a parser reads the text of any JSON value as that value, then a printed
document, parsed and read, is the document. -/
theorem C84_round_trip (P : Printer) (ind : Nat) (parse : Str → Option Json)
    (hp : ∀ j, parse (text P ind j) = some j) (validIri validBlank : Str → Bool) (d : Doc) (hw : d.WF)
    (ht : Typed validIri validBlank d)
    (hk : ∀ n, Inside d (.node n) → ∀ p ∈ n.props, p.1.str ∉ reserved) :
    ∃ t, d.print P ind = some (t, []) ∧
      (parse t).map (Doc.read validIri validBlank) = some (.ok d) := by
  refine ⟨_, C84_text P ind d, ?_⟩
  rw [hp, Option.map_some, C84_reread validIri validBlank d hw ht hk]

/-- Different documents are printed differently, if the printer tells JSON values apart. -/
theorem C84_injective (P : Printer) (ind : Nat) (hp : ∀ j j', text P ind j = text P ind j' → j = j')
    (validIri validBlank : Str → Bool) (d e : Doc) (hd : d.WF) (he : e.WF)
    (htd : Typed validIri validBlank d) (hte : Typed validIri validBlank e)
    (hkd : ∀ n, Inside d (.node n) → ∀ p ∈ n.props, p.1.str ∉ reserved)
    (hke : ∀ n, Inside e (.node n) → ∀ p ∈ n.props, p.1.str ∉ reserved)
    (h : d.print P ind = e.print P ind) : d = e := by
  rw [C84_text, C84_text] at h
  have := hp _ _ (Prod.mk.inj (Option.some.inj h)).1
  have h1 := C84_reread validIri validBlank d hd htd hkd
  rw [this, C84_reread validIri validBlank e he hte hke] at h1
  exact (Except.ok.inj h1).symm

/-! ## A concrete case -/

/-- A node with an index, an empty list of types, an included node, a reverse property and a list. -/
def exPrinted : Doc := [.node (.mk (some "i".toList) (some (.iri "a".toList)) (some []) none
  (some [.mk none (some (.iri "b".toList)) none none none [] none])
  [(.iri "p".toList, [.list none [.value none (.literal (.bool true) none)]])]
  (some [(.iri "q".toList, [.mk none (some (.iri "c".toList)) none none none [] none])]))]

/-- A printer that writes everything on one line if it is short enough. -/
def exPrinter : Printer where
  strSize s := s.length + 2
  strText s := '"' :: s ++ ['"']
  arrSize l := if l.length ≤ 1 then .width 2 else .expanded
  objSize l := if l.length ≤ 1 then .width 2 else .expanded
  inner s i := match s with | .expanded => i + 1 | .width _ => i
  arrText s _ ts := match s with
    | .width _ => '[' :: ts.flatten ++ [']']
    | .expanded => '[' :: (ts.map fun t => '\n' :: t ++ [',']).flatten ++ [']']
  objText s _ ts := match s with
    | .width _ => '{' :: (ts.map fun t => t.1 ++ [':'] ++ t.2).flatten ++ ['}']
    | .expanded => '{' :: (ts.map fun t => '\n' :: t.1 ++ [':'] ++ t.2 ++ [',']).flatten ++ ['}']

/-- The text of the document printed. -/
def exPrintedText : String := "[{\n@index:\"i\",\n@id:\"a\",\n@type:[],\n@included:[{@id:\"b\"}],\n@reverse:{q:[{@id:\"c\"}]},\np:[{@list:[{@value:true}]}],}]"

/-- The document is printed, with its objects and arrays on one line or on several. -/
theorem C84_example : (exPrinted.print exPrinter 0).map (fun r => String.ofList r.1) = some exPrintedText := by
  decide +kernel

/-- It satisfies the hypotheses of `C84_reread`; `into_json` loses its included node and its list of
types, what is printed does not. -/
theorem C84_example_reread :
    (Doc.read (fun _ => true) (fun _ => false) (shownDoc exPrinted)).toOption = some exPrinted ∧
    (Doc.read (fun _ => true) (fun _ => false) exPrinted.toJson).toOption ≠ some exPrinted := by
  constructor <;> decide +kernel

end JsonLd.Props
