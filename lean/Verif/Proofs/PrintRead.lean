import Verif.Proofs.Print
import Verif.Proofs.DocJsonRead
/-!
# Reading the JSON value shown for a document
-/

namespace JsonLd
open Spec

section
variable {validIri validBlank : Str → Bool}

theorem member_eq (k : Str) (o : Option Json) : member k o = optEntry k o := by cases o <;> rfl

theorem not_mem_shownProps {k : Str} {ps : List (Id × List Obj)}
    (hk : ∀ p ∈ ps, p.1.str ∉ reserved) (h : k ∈ reserved) : k ∉ (shownProps ps).map Prod.fst := by
  rw [shownProps_eq]
  intro hm
  simp only [List.map_map, List.mem_map, Function.comp] at hm
  obtain ⟨p, hp, rfl⟩ := hm
  exact hk p hp h

/-- Proves that a key is not among the other entries of a node. -/
macro "notshown" : tactic => `(tactic| (
  try simp only [List.map_append, List.mem_append, not_or, List.map_nil, List.not_mem_nil,
    not_false_eq_true, true_and, and_true]
  repeat' apply And.intro
  all_goals first
    | exact not_mem_optEntry (by decide)
    | exact not_mem_shownProps (by assumption) (by decide)))

/-- The members shown for a node, from the reverse properties on. -/
def shownRest1 (ps : List (Id × List Obj)) (rv : Option (List (Id × List Node))) : List (Str × Json) :=
  optEntry "@reverse".toList (rv.map fun l => .obj (shownReverseProps l)) ++ shownProps ps

/-- From the included nodes on. -/
def shownRest2 (inc : Option (List Node)) (ps : List (Id × List Obj))
    (rv : Option (List (Id × List Node))) : List (Str × Json) :=
  optEntry "@included".toList (inc.map fun l => .arr (l.map shownNode)) ++ shownRest1 ps rv

/-- From the graph on. -/
def shownRest3 (g : Option (List Obj)) (inc : Option (List Node)) (ps : List (Id × List Obj))
    (rv : Option (List (Id × List Node))) : List (Str × Json) :=
  optEntry "@graph".toList (g.map fun l => .arr (l.map shown)) ++ shownRest2 inc ps rv

/-- From the types on. -/
def shownRest4 (ty : Option (List Id)) (g : Option (List Obj)) (inc : Option (List Node))
    (ps : List (Id × List Obj)) (rv : Option (List (Id × List Node))) : List (Str × Json) :=
  optEntry "@type".toList (ty.map fun ts => .arr (ts.map Id.toJson)) ++ shownRest3 g inc ps rv

/-- All but the index. -/
def shownRest5 (id : Option Id) (ty : Option (List Id)) (g : Option (List Obj))
    (inc : Option (List Node)) (ps : List (Id × List Obj)) (rv : Option (List (Id × List Node))) :
    List (Str × Json) :=
  optEntry "@id".toList (id.map Id.toJson) ++ shownRest4 ty g inc ps rv

theorem shownNode_eq {i id ty g inc ps rv} : shownNode (.mk i id ty g inc ps rv) =
    .obj (optEntry "@index".toList (i.map .str) ++ shownRest5 id ty g inc ps rv) := by
  have e3 : shownGraph g = optEntry "@graph".toList (g.map fun l => .arr (l.map shown)) := by
    cases g <;> simp [shownGraph, optEntry, shownObjs_eq]
  have e4 : shownIncluded inc = optEntry "@included".toList (inc.map fun l => .arr (l.map shownNode)) := by
    cases inc <;> simp [shownIncluded, optEntry, shownNodes_eq]
  have e5 : shownReverse rv = optEntry "@reverse".toList (rv.map fun l => .obj (shownReverseProps l)) := by
    cases rv <;> simp [shownReverse, optEntry]
  rw [shownNode, e3, e4, e5]
  simp only [member_eq, shownRest5, shownRest4, shownRest3, shownRest2, shownRest1, List.append_assoc]
  rfl

theorem not_mem_rest5 {k : Str} {id : Option Id} {ty : Option (List Id)} {g : Option (List Obj)}
    {inc : Option (List Node)} {ps : List (Id × List Obj)} {rv : Option (List (Id × List Node))}
    (hk : ∀ p ∈ ps, p.1.str ∉ reserved)
    (h : k ∈ ["@index".toList, "@context".toList, "@value".toList, "@list".toList]) :
    k ∉ (shownRest5 id ty g inc ps rv).map Prod.fst := by
  simp only [shownRest5, shownRest4, shownRest3, shownRest2, shownRest1]
  simp only [List.mem_cons, List.not_mem_nil, or_false] at h
  rcases h with rfl | rfl | rfl | rfl <;> notshown

theorem readNodeBody_shown {ro : Json → Except JErr Obj} {rn : Json → Except JErr Node}
    {i id ty g inc ps rv} (hi : ∀ x, id = some x → IdOk validIri validBlank x)
    (ht : ∀ ts, ty = some ts → ∀ t ∈ ts, IdOk validIri validBlank t)
    (hg : ∀ l, g = some l → l.Pairwise fun a b => b.eq a = false)
    (hinc : ∀ l, inc = some l → l.Pairwise fun a b => b.eq a = false)
    (hn : (ps.map Prod.fst).Nodup) (hid : ∀ p ∈ ps, IdOk validIri validBlank p.1)
    (hk : ∀ p ∈ ps, p.1.str ∉ reserved)
    (hrn : ∀ l, rv = some l → (l.map Prod.fst).Nodup)
    (hrid : ∀ l, rv = some l → ∀ p ∈ l, IdOk validIri validBlank p.1)
    (rg : ∀ l, g = some l → ∀ o ∈ l, ro (shown o) = .ok o)
    (rinc : ∀ l, inc = some l → ∀ n ∈ l, rn (shownNode n) = .ok n)
    (rps : ∀ p ∈ ps, ∀ o ∈ p.2, ro (shown o) = .ok o)
    (rrv : ∀ l, rv = some l → ∀ p ∈ l, ∀ n ∈ p.2, rn (shownNode n) = .ok n) :
    readNodeBody validIri validBlank ro rn i (shownRest5 id ty g inc ps rv) =
      .ok (.mk i id ty g inc ps rv) := by
  have r1 := readOpt_map (f := Id.read validIri validBlank) (g := Id.toJson) (o := id)
    fun a ha => read_toJson (hi a ha)
  have r2 := readOpt_map (f := readVec (Id.read validIri validBlank))
    (g := fun ts => .arr (ts.map Id.toJson)) (o := ty)
    fun ts hts => mapM_ok fun t h => read_toJson (ht ts hts t h)
  have r3 := readOpt_map (f := readSet Obj.eq ro) (g := fun l => .arr (l.map shown)) (o := g)
    fun l hl => by
      simp only [readSet, mapM_ok (rg l hl), bind, Except.bind, setCollect_of_pairwise (hg l hl)]
  have r6 := readOpt_map (f := readSet Node.eq rn) (g := fun l => .arr (l.map shownNode)) (o := inc)
    fun l hl => by
      simp only [readSet, mapM_ok (rinc l hl), bind, Except.bind, setCollect_of_pairwise (hinc l hl)]
  have r4 := readOpt_map (f := readRev validIri validBlank rn)
    (g := fun l => .obj (shownReverseProps l)) (o := rv) fun l hl => by
      rw [shownReverseProps_eq]
      exact readProps_ok (hrn l hl) (hrid l hl) (rrv l hl)
  have r5 := readProps_ok (f := ro) hn hid rps
  rw [← shownProps_eq] at r5
  have u1 := removeUnique_opt (k := "@id".toList) (o := id.map Id.toJson) (a := [])
    (b := shownRest4 ty g inc ps rv) (by simp)
    (by simp only [shownRest4, shownRest3, shownRest2, shownRest1]; notshown)
  have u2 := removeUnique_opt (k := "@type".toList)
    (o := ty.map fun ts => .arr (ts.map Id.toJson)) (a := [])
    (b := shownRest3 g inc ps rv) (by simp)
    (by simp only [shownRest3, shownRest2, shownRest1]; notshown)
  have u3 := removeUnique_opt (k := "@graph".toList)
    (o := g.map fun l => .arr (l.map shown)) (a := [])
    (b := shownRest2 inc ps rv) (by simp) (by simp only [shownRest2, shownRest1]; notshown)
  have u4 := removeUnique_opt (k := "@included".toList)
    (o := inc.map fun l => .arr (l.map shownNode)) (a := [])
    (b := shownRest1 ps rv) (by simp) (by simp only [shownRest1]; notshown)
  have u5 := removeUnique_opt (k := "@reverse".toList)
    (o := rv.map fun l => .obj (shownReverseProps l)) (a := [])
    (b := shownProps ps) (by simp) (by notshown)
  simp only [List.nil_append] at u1 u2 u3 u4 u5
  simp only [readNodeBody, shownRest5, u1, r1, bind, Except.bind]
  simp only [shownRest4, u2, r2]
  simp only [shownRest3, u3, r3]
  simp only [shownRest2, u4, r6]
  simp only [shownRest1, u5, r4, r5]

theorem readIndex_first {a : List (Str × Json)} {i : Option Str} (h : "@index".toList ∉ a.map Prod.fst) :
    readIndex (optEntry "@index".toList (i.map .str) ++ a) = .ok (i, a) := by
  have := removeUnique_opt (o := i.map .str) (a := []) (by simp) h
  simp only [List.nil_append] at this
  simp only [readIndex, this, bind, Except.bind]
  cases i <;> rfl

theorem readIndexed_shownValue {ro : Json → Except JErr Obj} {rn : Json → Except JErr Node}
    {i : Option Str} {v : Value} (h : ValueOk validIri v) :
    readIndexed (readObjBody validIri validBlank ro rn) (shown (.value i v)) = .ok (.value i v) := by
  have key : ∀ (es : List (Str × Json)) (j : Json), "@index".toList ∉ es.map Prod.fst →
      "@context".toList ∉ es.map Prod.fst → "@value".toList ∉ es.map Prod.fst →
      shownValue v = ("@value".toList, j) :: es → Value.read validIri es j = .ok v →
      readIndexed (readObjBody validIri validBlank ro rn) (shown (.value i v)) = .ok (.value i v) := by
    intro es j hi hc hv he hr
    have hi' : "@index".toList ∉ (shownValue v).map Prod.fst := by
      rw [he, List.map_cons, List.mem_cons]
      rintro (h | h)
      · exact absurd h (show ¬ "@index".toList = "@value".toList by decide)
      · exact hi h
    have hc' : "@context".toList ∉ (shownValue v).map Prod.fst := by
      rw [he, List.map_cons, List.mem_cons]
      rintro (h | h)
      · exact absurd h (show ¬ "@context".toList = "@value".toList by decide)
      · exact hc h
    have hm : removeUnique "@value".toList (shownValue v) = .ok (some j, es) := by
      have := removeUnique_opt (k := "@value".toList) (o := some j) (a := []) (b := es) (by simp) hv
      rw [he]
      simpa [optEntry] using this
    rw [shown, member_eq]
    simp only [readIndexed, readIndex_first hi', bind, Except.bind, readObjBody,
      removeUnique_absent hc', hm, hr]
  have e0 : ∀ k, removeUnique k [] = .ok (none, []) := fun k => rfl
  cases v with
  | literal l ty =>
    cases ty with
    | none =>
      refine key [] l.toJson (by simp) (by simp) (by simp) (by cases l <;> rfl) ?_
      simp [Value.read, e0, bind, Except.bind, Literal.read_toJson]
    | some t =>
      refine key [("@type".toList, .str t)] l.toJson (by simp) (by simp) (by simp)
        (by cases l <;> rfl) ?_
      have e : removeUnique "@type".toList [("@type".toList, .str t)] = .ok (some (.str t), []) := by
        simp [removeUnique]
      simp only [Value.read, e, bind, Except.bind, h.2, if_false, h.1, if_true, Literal.read_toJson]
  | json j =>
    refine key [("@type".toList, .str "@json".toList)] j (by decide) (by decide) (by decide) rfl ?_
    have e : removeUnique "@type".toList [("@type".toList, .str "@json".toList)] =
        .ok (some (.str "@json".toList), []) := rfl
    simp only [Value.read, e, bind, Except.bind, if_true]
  | langString s =>
    obtain ⟨data, lang, dir⟩ := s
    have hd : ∀ d : Direction, Direction.tryFrom d.asStr = some d := by intro d; cases d <;> rfl
    have n1 : ∀ (k1 k2 : Str) (a : Json), k1 ≠ k2 → removeUnique k1 [(k2, a)] = .ok (none, [(k2, a)]) := by
      intro k1 k2 a h; simp [removeUnique, Ne.symm h]
    have n2 : ∀ (k1 k2 k3 : Str) (a b : Json), k1 ≠ k2 → k1 ≠ k3 →
        removeUnique k1 [(k2, a), (k3, b)] = .ok (none, [(k2, a), (k3, b)]) := by
      intro k1 k2 k3 a b h h'; simp [removeUnique, Ne.symm h, Ne.symm h']
    have y1 : ∀ (k : Str) (a : Json), removeUnique k [(k, a)] = .ok (some a, []) := by
      intro k a; simp [removeUnique]
    have y2 : ∀ (k k' : Str) (a b : Json), k ≠ k' →
        removeUnique k [(k, a), (k', b)] = .ok (some a, [(k', b)]) := by
      intro k k' a b h; simp [removeUnique, Ne.symm h]
    rcases lang with _ | l <;> rcases dir with _ | d
    · exact absurd h (by simp [ValueOk])
    · refine key [("@direction".toList, .str d.asStr)] (.str data) (by simp) (by simp) (by simp) rfl ?_
      simp only [Value.read, n1 "@type".toList "@direction".toList _ (by decide),
        n1 "@language".toList "@direction".toList _ (by decide), y1, bind, Except.bind]
      simp [LangString.read, readOpt, readString, readDirection, LangString.new, hd, bind, Except.bind]
    · refine key [("@language".toList, .str l)] (.str data) (by simp) (by simp) (by simp) rfl ?_
      simp only [Value.read, n1 "@type".toList "@language".toList _ (by decide),
        e0, y1, bind, Except.bind]
      simp [LangString.read, readOpt, readString, LangString.new, bind, Except.bind]
    · refine key [("@language".toList, .str l), ("@direction".toList, .str d.asStr)] (.str data)
        (by simp) (by simp) (by simp) rfl ?_
      simp only [Value.read, n2 "@type".toList "@language".toList "@direction".toList _ _ (by decide)
        (by decide), y2 "@language".toList "@direction".toList _ _ (by decide), y1, bind, Except.bind]
      simp [LangString.read, readOpt, readString, readDirection, LangString.new, hd, bind, Except.bind]

theorem readIndexed_shownList {ro : Json → Except JErr Obj} {rn : Json → Except JErr Node}
    {i : Option Str} {l : List Obj} (h : ∀ o ∈ l, ro (shown o) = .ok o) :
    readIndexed (readObjBody validIri validBlank ro rn) (shown (.list i l)) = .ok (.list i l) := by
  have hi : "@index".toList ∉ ([("@list".toList, Json.arr (l.map shown))]).map Prod.fst := by
    simp
  have c1 : ∀ k, k ≠ "@list".toList → ∀ j : Json, removeUnique k [("@list".toList, j)] =
      .ok (none, [("@list".toList, j)]) := by
    intro k hk j
    exact removeUnique_absent (by simpa using hk)
  have c2 : ∀ j : Json, removeUnique "@list".toList [("@list".toList, j)] = .ok (some j, []) := by
    intro j; rfl
  rw [shown, member_eq, shownObjs_eq]
  simp only [readIndexed, readIndex_first hi, bind, Except.bind, readObjBody,
    c1 "@context".toList (by decide), c1 "@value".toList (by decide), c2, readVec_arr, mapM_ok h]

/-- Everything at or below an item is as required. -/
structure Showable (validIri validBlank : Str → Bool) (x : Item) : Prop where
  values : ∀ i v, Relation.ReflTransGen PartL (.obj (.value i v)) x → ValueOk validIri v
  nodes : ∀ n, Relation.ReflTransGen PartL (.node n) x → NodeIdsOk validIri validBlank n ∧
    ∀ p ∈ n.props, p.1.str ∉ reserved

theorem Showable.part {x y : Item} (h : Showable validIri validBlank x) (hp : PartL y x) :
    Showable validIri validBlank y :=
  ⟨fun i v hr => h.values i v (hr.tail hp), fun n hr => h.nodes n (hr.tail hp)⟩

theorem read_shown :
    (∀ o : Obj, o.WF → Showable validIri validBlank (.obj o) →
      ∃ n, ∀ f, n ≤ f → readObj validIri validBlank f (shown o) = .ok o) ∧
    (∀ m : Node, m.WF → Showable validIri validBlank (.node m) →
      ∃ n, ∀ f, n ≤ f → readNode validIri validBlank f (shownNode m) = .ok m ∧
        readObj validIri validBlank f (shownNode m) = .ok (.node m)) := by
  apply Doc.ind
  · intro i v _ hg
    refine ⟨1, fun f hf => ?_⟩
    obtain ⟨f, rfl⟩ : ∃ g, f = g + 1 := ⟨f - 1, by omega⟩
    rw [readObj]
    exact readIndexed_shownValue (hg.values i v .refl)
  · intro i l ih hw hg
    rw [Obj.WF, objsWF_iff] at hw
    obtain ⟨n, hn⟩ := bound_all fun o ho => ih o ho (hw o ho) (hg.part (.item ho))
    refine ⟨n + 1, fun f hf => ?_⟩
    obtain ⟨f, rfl⟩ : ∃ g, f = g + 1 := ⟨f - 1, by omega⟩
    rw [readObj]
    exact readIndexed_shownList (hn f (by omega))
  · intro n ih hw hg
    obtain ⟨b, hb⟩ := ih hw (hg.part (.part (.self n)))
    exact ⟨b, fun f hf => by rw [shown]; exact (hb f hf).2⟩
  · intro i id ty g inc ps rv ig iinc ips irv hw hg
    obtain ⟨hi, hk⟩ := hg.nodes _ .refl
    simp only [Node.props] at hk
    rw [Node.WF] at hw
    obtain ⟨wg, winc, wn, wps, wrv⟩ := hw
    have eg : ∃ n, ∀ f, n ≤ f → ∀ l, g = some l → ∀ o ∈ l,
        readObj validIri validBlank f (shown o) = .ok o := by
      cases g with
      | none => exact ⟨0, by simp⟩
      | some l =>
        rw [gWF, objsWF_iff] at wg
        obtain ⟨n, hn⟩ := bound_all fun o ho =>
          ig l rfl o ho (wg.2 o ho) (hg.part (.part (.graph rfl ho)))
        exact ⟨n, fun f hf l' e => by cases e; exact hn f hf⟩
    have einc : ∃ n, ∀ f, n ≤ f → ∀ l, inc = some l → ∀ m ∈ l,
        readNode validIri validBlank f (shownNode m) = .ok m := by
      cases inc with
      | none => exact ⟨0, by simp⟩
      | some l =>
        rw [incWF, nodesWF_iff] at winc
        obtain ⟨n, hn⟩ := bound_all fun o ho =>
          iinc l rfl o ho (winc.2 o ho) (hg.part (.part (.included rfl ho)))
        exact ⟨n, fun f hf l' e => by cases e; exact fun m hm => (hn f hf m hm).1⟩
    have eps : ∃ n, ∀ f, n ≤ f → ∀ p ∈ ps, ∀ o ∈ p.2,
        readObj validIri validBlank f (shown o) = .ok o := by
      rw [psWF_iff] at wps
      exact bound_all fun p hp => bound_all fun o ho =>
        ips p hp o ho (wps p hp o ho) (hg.part (.part (.property (k := p.1) hp ho)))
    have erv : ∃ n, ∀ f, n ≤ f → ∀ l, rv = some l → ∀ p ∈ l, ∀ m ∈ p.2,
        readNode validIri validBlank f (shownNode m) = .ok m := by
      cases rv with
      | none => exact ⟨0, by simp⟩
      | some l =>
        rw [rvWF, rpsWF_iff] at wrv
        obtain ⟨n, hn⟩ := bound_all fun p hp => bound_all fun m hm =>
          irv l rfl p hp m hm (wrv.2 p hp m hm) (hg.part (.part (.reverse (k := p.1) rfl hp hm)))
        exact ⟨n, fun f hf l' e => by
          cases e; exact fun p hp m hm => (hn f hf p hp m hm).1⟩
    obtain ⟨n1, h1⟩ := eg
    obtain ⟨n2, h2⟩ := eps
    obtain ⟨n3, h3⟩ := erv
    obtain ⟨n4, h4⟩ := einc
    refine ⟨n1 + n2 + n3 + n4 + 1, fun f hf => ?_⟩
    obtain ⟨f, rfl⟩ : ∃ g, f = g + 1 := ⟨f - 1, by omega⟩
    have hb := readNodeBody_shown (ro := readObj validIri validBlank f)
      (rn := readNode validIri validBlank f) (i := i) (id := id) (ty := ty) (inc := inc) hi.id hi.types
      (g := g) (by rintro l rfl; exact wg.1) (by rintro l rfl; exact winc.1) wn hi.props hk
      (rv := rv) (by rintro l rfl; exact wrv.1) hi.rev (h1 f (by omega)) (h4 f (by omega))
      (h2 f (by omega)) (h3 f (by omega))
    have nx := fun k h => not_mem_rest5 (k := k) (id := id) (ty := ty) (g := g) (inc := inc)
      (rv := rv) hk h
    have hx := readIndex_first (i := i) (nx "@index".toList (by simp))
    rw [readObj, readNode, shownNode_eq]
    constructor
    · simp only [readIndexed, bind, Except.bind]
      rw [hx]
      exact hb
    · simp only [readIndexed, bind, Except.bind]
      rw [hx]
      simp only [readObjBody, bind, Except.bind]
      rw [removeUnique_absent (nx "@context".toList (by simp))]
      simp only
      rw [removeUnique_absent (nx "@value".toList (by simp))]
      simp only
      rw [removeUnique_absent (nx "@list".toList (by simp))]
      simp only
      rw [hb]

end
end JsonLd
