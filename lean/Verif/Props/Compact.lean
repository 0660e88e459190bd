import Verif.Proofs.CompactInv
import Verif.Props.CompactIri
/-!
# C52–C54: compaction ends, gives distinct keys, and when it panics
-/

namespace JsonLd.Props
open JsonLd.Spec

/-! ## C52: compaction ends -/

/-- **C52.** The recursion of compaction goes no deeper than the object is nested: with that many levels
(or more) the result is the same. -/
theorem C52_enough (E : CEnv) (c tsc : ACtx) (prop : Option Str) (o : Obj) {n : Nat} (h : o.depth ≤ n) :
    crecN E n c tsc prop o = compactObject E c tsc prop o :=
  crecN_eq E h c tsc prop

/-- **C52.** The result satisfies the equation of the code: compacting an object is
`compact_indexed_fragment`, with compaction itself for the recursive calls. -/
theorem C52_unfold (E : CEnv) (c tsc : ACtx) (prop : Option Str) (o : Obj) :
    compactObject E c tsc prop o = compactBody E (compactObject E) c tsc prop o :=
  compactObject_eq E c tsc prop o

private theorem everywhere_previous {Q : ACtx → Prop} {c p : ACtx} (h : Everywhere Q c)
    (hp : c.previous = some p) : Everywhere Q p := by
  cases h with | intro _ _ h => exact h p hp

/-- **C52.** Compacting a document never runs out of levels: it gives a document, an error of the
code or one of its panics. -/
theorem C52_no_limit (E : CEnv) (c : ACtx) (l : SCtx) (d : Doc) : compactDoc E c l d ≠ .error .fuel := by
  have A : Allows E (· ≠ .fuel) (fun _ => True) (fun _ => True) :=
    { shape := shape_any (by simp)
      iri := by simp
      nest := by simp
      context := by simp
      process := fun _ _ _ _ _ _ _ => trivial
      previous := fun _ _ _ _ => trivial
      plain := fun _ _ => .inl (by simp) }
  have := A.doc (c := c) trivial (l := l) trivial (d := d) (fun _ _ _ _ _ => trivial)
  intro h
  rw [h] at this
  exact this rfl

/-! ## C53: distinct keys -/

/-- **C53.** A compacted document has no duplicate keys, at any depth, if the JSON literals and the
context in it have none. -/
theorem C53_distinct (E : CEnv) (c : ACtx) (l : SCtx) (d : Doc) (hl : NoDupKeys l.toJson)
    (hd : ∀ o ∈ d, CleanLiterals (.obj o)) {j : Json} (h : compactDoc E c l d = .ok j) : NoDupKeys j := by
  have A : Allows E (fun _ => True) (fun _ => True) NoDupKeys :=
    { shape := shape_noDup _
      iri := trivial
      nest := trivial
      context := fun _ => trivial
      process := fun _ _ _ _ _ _ _ => trivial
      previous := fun _ _ _ _ => trivial
      plain := fun _ _ => .inl trivial }
  exact (A.doc (c := c) trivial hl hd).ok h

/-! ## C54: panics -/

/-- **C54**, in part. Compaction does not panic if no context has a term with a `@nest` entry or with a
container that makes a map. (In general it does panic, see `C54_panic`; nested and map terms are
missing here.) -/
theorem C54_plain_partial (E : CEnv) (c : ACtx) (l : SCtx) (d : Doc) (hc : CompactsIn PlainTerms E c)
    (hl : NoDupKeys l.toJson) (hd : ∀ o ∈ d, CleanLiterals (.obj o)) :
    compactDoc E c l d ≠ .error .panic := by
  have A : Allows E (· ≠ .panic) (Everywhere PlainTerms) NoDupKeys :=
    { shape := shape_noDup _
      iri := by simp
      nest := by simp
      context := by simp
      process := fun c l b o c' _ h => hc.process c l b o c' h
      previous := fun _ _ h hp => everywhere_previous h hp
      plain := fun c h => by cases h with | intro _ h _ => exact .inr h }
  have := A.doc hc.start hl hd
  intro h
  rw [h] at this
  exact this rfl

/-! ## Examples -/

/-- An environment without context processing. -/
def exCEnv : CEnv := { exCompEnv with process := fun c _ _ _ => .ok c, opts := {} }

/-- A context with the term `t`. -/
def exTermCtx (k : Container) : ACtx :=
  { defs := [("t".toList, { value := some (.id (.iri "http:t".toList)), container := k })] }

/-- A string. -/
def exText (i : Option Str) (s : Str) : Obj := .value i (.literal (.str s) none)

/-- A node with values of the property `http:t`. -/
def exNodeT (l : List Obj) : Obj := .node (.mk none none none none none [(.iri "http:t".toList, l)] none)

/-- **C54.** Compaction panics if a term with an `@index` container is chosen for several lists, which are
not put in the map, and then for a value with an index. -/
theorem C54_panic : compactDoc exCEnv (exTermCtx .index) (.one .null)
    [exNodeT [.list none [exText none "a".toList], .list none [exText none "c".toList],
      exText (some "i".toList) "b".toList]] = .error .panic := by
  decide +kernel

/-- **C54.** With one list there is no panic, but the list object is taken for the map: the result
`{"t": {"@list": ["a"], "i": "b"}}` says something else. -/
theorem C54_list_in_map : compactDoc exCEnv (exTermCtx .index) (.one .null)
    [exNodeT [.list none [exText none "a".toList], exText (some "i".toList) "b".toList]] =
    .ok (.obj [("t".toList, .obj [("@list".toList, .arr [.str "a".toList]), ("i".toList, .str "b".toList)])]) := by
  decide +kernel

/-- **C54.** The same happens with an unnamed graph. -/
theorem C54_graph_in_map : compactDoc exCEnv (exTermCtx .index) (.one .null)
    [exNodeT [.node (.mk none none none (some [exNodeT [exText none "g".toList]]) none [] none),
      exText (some "i".toList) "b".toList]] =
    .ok (.obj [("t".toList, .obj [("@graph".toList, .obj [("t".toList, .obj [("@none".toList, .str "g".toList)])]),
      ("i".toList, .str "b".toList)])]) := by
  decide +kernel

private theorem exTerm_get (k : Container) {s : Str} {d : TermDef} (h : (exTermCtx k).get s = some d) :
    d = { value := some (.id (.iri "http:t".toList)), container := k } := by
  unfold ACtx.get ACtx.getNormal exTermCtx at h
  split at h
  · cases h
  · simp only [lookupKey] at h
    split at h
    · cases h; rfl
    · cases h

/-- The hypotheses of `C53_distinct` and `C54_plain_partial` for a context with a set term and a document
with a JSON literal. -/
example : CompactsIn PlainTerms { exCEnv with process := fun _ _ _ _ => .ok (exTermCtx .set) } (exTermCtx .set) ∧
    NoDupKeys (SCtx.one .null).toJson ∧
    ∀ o ∈ [exNodeT [.value none (.json (.obj [("a".toList, .null)])), exText (some "i".toList) "b".toList]],
      CleanLiterals (.obj o) := by
  have h : Everywhere PlainTerms (exTermCtx .set) := by
    refine .intro _ (fun k d hd => ?_) nofun
    rw [exTerm_get _ hd]
    decide
  refine ⟨⟨h, fun _ _ _ _ c' hc => by cases hc; exact h⟩, .null, ?_⟩
  intro o ho i j hx
  rw [List.mem_singleton.1 ho] at hx
  rcases Relation.ReflTransGen.cases_tail hx with hx | ⟨y, hx, hp⟩
  · cases hx
  cases hp with
  | part hp =>
    cases hp
    rcases Relation.ReflTransGen.cases_tail hx with hx | ⟨y, hx, hp⟩
    · cases hx
    cases hp with
    | part hp =>
      cases hp with
      | graph h _ => cases h
      | included h _ => cases h
      | reverse h _ _ => cases h
      | property h ho =>
        simp only [Node.props, List.mem_singleton, Prod.mk.injEq] at h
        obtain ⟨rfl, rfl⟩ := h
        simp only [List.mem_cons, List.not_mem_nil, or_false] at ho
        rcases ho with rfl | rfl
        · rcases Relation.ReflTransGen.cases_tail hx with hx | ⟨y, hx, hp⟩
          · cases hx
            exact .obj (by simp) (by simpa using .null)
          · cases hp with | part hp => cases hp
        · rcases Relation.ReflTransGen.cases_tail hx with hx | ⟨y, hx, hp⟩
          · cases hx
          · cases hp with | part hp => cases hp

/-- The document of the example is compacted to
`{"t": [{"@value": {"a": null}, "@type": "@json"}, {"@value": "b", "@index": "i"}]}`. -/
example : compactDoc exCEnv (exTermCtx .set) (.one .null)
    [exNodeT [.value none (.json (.obj [("a".toList, .null)])), exText (some "i".toList) "b".toList]] =
    .ok (.obj [("t".toList, .arr [.obj [("@value".toList, .obj [("a".toList, .null)]), ("@type".toList, .str "@json".toList)],
      .obj [("@value".toList, .str "b".toList), ("@index".toList, .str "i".toList)]])]) := by
  decide +kernel

end JsonLd.Props
