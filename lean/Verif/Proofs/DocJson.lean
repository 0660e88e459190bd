import Verif.Model.DocJson
import Verif.Spec.DocJson
import Verif.Proofs.Relabel
import Mathlib.Data.List.Nodup
/-!
# Lemmas about writing and reading documents
-/

namespace JsonLd
open Spec

/-! ## JSON objects -/

theorem jInsert_fresh {k : Str} {v : Json} {m : List (Str × Json)} (h : k ∉ m.map Prod.fst) :
    jInsert k v m = m ++ [(k, v)] := by
  induction m with
  | nil => rfl
  | cons e m ih =>
    obtain ⟨k', w⟩ := e
    simp only [List.map_cons, List.mem_cons, not_or] at h
    simp [jInsert, Ne.symm h.1, ih h.2]

theorem jObject_nodup {es : List (Str × Json)} (h : (es.map Prod.fst).Nodup) : jObject es = es := by
  have key : ∀ (l acc : List (Str × Json)), ((acc ++ l).map Prod.fst).Nodup →
      l.foldl (fun m e => jInsert e.1 e.2 m) acc = acc ++ l := by
    intro l
    induction l with
    | nil => intro acc _; simp
    | cons e l ih =>
      intro acc h
      have hn : e.1 ∉ acc.map Prod.fst := by
        rw [List.map_append, List.map_cons] at h
        have := List.disjoint_of_nodup_append h
        intro he
        exact this he List.mem_cons_self
      rw [List.foldl_cons, jInsert_fresh hn, ih]
      · simp
      · simpa using h
  simpa [jObject] using key es [] (by simpa using h)

theorem filter_eq_nil_of {k : Str} {m : List (Str × Json)} (h : k ∉ m.map Prod.fst) :
    m.filter (fun e => decide (e.1 = k)) = [] := by
  rw [List.filter_eq_nil_iff]
  intro e he hk
  exact h (List.mem_map.2 ⟨e, he, by simpa using hk⟩)

theorem filter_eq_self_of {k : Str} {m : List (Str × Json)} (h : k ∉ m.map Prod.fst) :
    m.filter (fun e => decide (e.1 ≠ k)) = m := by
  rw [List.filter_eq_self]
  intro e he
  have : e.1 ≠ k := fun hk => h (List.mem_map.2 ⟨e, he, hk⟩)
  simpa using this

/-- An entry that may be there. -/
def optEntry (k : Str) (o : Option Json) : List (Str × Json) := (o.map fun x => (k, x)).toList

theorem removeUnique_opt {k : Str} {o : Option Json} {a b : List (Str × Json)}
    (ha : k ∉ a.map Prod.fst) (hb : k ∉ b.map Prod.fst) :
    removeUnique k (a ++ (optEntry k o ++ b)) = .ok (o, a ++ b) := by
  have fa := filter_eq_nil_of ha
  have fb := filter_eq_nil_of hb
  have ga := filter_eq_self_of ha
  have gb := filter_eq_self_of hb
  cases o with
  | none => simp [removeUnique, optEntry, List.filter_append, fa, fb]
  | some v =>
    simp only [removeUnique, optEntry, List.filter_append, fa, fb, Option.map_some,
      Option.toList_some, List.filter_cons, decide_true, if_true, List.filter_nil, List.append_nil,
      List.nil_append, ga, gb]
    simp

theorem removeUnique_absent {k : Str} {m : List (Str × Json)} (h : k ∉ m.map Prod.fst) :
    removeUnique k m = .ok (none, m) := by
  have := removeUnique_opt (k := k) (o := none) (a := m) (b := []) h (by simp)
  simpa [optEntry] using this

theorem not_mem_optEntry {k k' : Str} {o : Option Json} (h : k ≠ k') :
    k ∉ (optEntry k' o).map Prod.fst := by
  cases o <;> simp [optEntry, h]

theorem nodup_optEntry {k : Str} {o : Option Json} : ((optEntry k o).map Prod.fst).Nodup := by
  cases o <;> simp [optEntry]

theorem mem_optEntry_fst {k x : Str} {o : Option Json} (h : x ∈ (optEntry k o).map Prod.fst) :
    x = k := by
  cases o <;> simp_all [optEntry]

/-! ## The writer -/

theorem objsToJson_eq (l : List Obj) : objsToJson l = l.map Obj.toJson := by
  induction l with
  | nil => rfl
  | cons o os ih => simp [objsToJson, ih]

theorem nodesToJson_eq (l : List Node) : nodesToJson l = l.map Node.toJson := by
  induction l with
  | nil => rfl
  | cons o os ih => simp [nodesToJson, ih]

theorem psToJson_eq (l : List (Id × List Obj)) :
    psToJson l = l.map fun p => (p.1.str, .arr (p.2.map Obj.toJson)) := by
  induction l with
  | nil => rfl
  | cons o os ih => simp [psToJson, ih, objsToJson_eq]

theorem rpsToJson_eq (l : List (Id × List Node)) :
    rpsToJson l = l.map fun p => (p.1.str, .arr (p.2.map Node.toJson)) := by
  induction l with
  | nil => rfl
  | cons o os ih => simp [rpsToJson, ih, nodesToJson_eq]

theorem indexEntry_eq (i : Option Str) : indexEntry i = optEntry "@index".toList (i.map .str) := by
  cases i <;> rfl

/-! ## Reading one level -/

section
variable {validIri validBlank : Str → Bool}

theorem ofStr_str {i : Id} (h : IdOk validIri validBlank i) : Id.ofStr validIri validBlank i.str = i := by
  cases i <;> simp_all [IdOk, Id.ofStr, Id.str]

theorem idOk_inj {i j : Id} (hi : IdOk validIri validBlank i) (hj : IdOk validIri validBlank j)
    (h : i.str = j.str) : i = j := by
  rw [← ofStr_str hi, ← ofStr_str hj, h]

theorem read_toJson {i : Id} (h : IdOk validIri validBlank i) :
    Id.read validIri validBlank i.toJson = .ok i := by
  simp [Id.read, Id.toJson, ofStr_str h]

theorem mapM_ok {α β : Type} {g : α → β} {f : β → Except JErr α} {l : List α}
    (h : ∀ x ∈ l, f (g x) = .ok x) : (l.map g).mapM f = .ok l := by
  induction l with
  | nil => rfl
  | cons x l ih =>
    rw [List.map_cons, List.mapM_cons, h x List.mem_cons_self,
      ih fun y hy => h y (List.mem_cons_of_mem _ hy)]
    rfl

theorem insertAll_fresh {α : Type} {k : Id} {vs : List α} {ps : List (Id × List α)}
    (h : k ∉ ps.map Prod.fst) : insertAll k vs ps = ps ++ [(k, vs)] := by
  induction ps with
  | nil => rfl
  | cons p ps ih =>
    obtain ⟨k', w⟩ := p
    simp only [List.map_cons, List.mem_cons, not_or] at h
    simp [insertAll, Ne.symm h.1, ih h.2]

theorem readVec_arr {α : Type} (f : Json → Except JErr α) (l : List Json) :
    readVec f (.arr l) = l.mapM f := rfl

theorem readProps_ok {α : Type} {g : α → Json} {f : Json → Except JErr α} {ps : List (Id × List α)}
    (hn : (ps.map Prod.fst).Nodup) (hid : ∀ p ∈ ps, IdOk validIri validBlank p.1)
    (h : ∀ p ∈ ps, ∀ x ∈ p.2, f (g x) = .ok x) :
    readProps validIri validBlank f (ps.map fun p => (p.1.str, .arr (p.2.map g))) = .ok ps := by
  have key : ∀ (l acc : List (Id × List α)), ((acc ++ l).map Prod.fst).Nodup →
      (∀ p ∈ l, IdOk validIri validBlank p.1) → (∀ p ∈ l, ∀ x ∈ p.2, f (g x) = .ok x) →
      (l.map fun p => (p.1.str, Json.arr (p.2.map g))).foldlM (init := acc) (fun ps e => do
        let l ← readVec f e.2
        .ok (insertAll (Id.ofStr validIri validBlank e.1) l ps)) = Except.ok (acc ++ l) := by
    intro l
    induction l with
    | nil => intro acc _ _ _; simp [pure, Except.pure]
    | cons e l ih =>
      intro acc hn hid h
      have hf : e.1 ∉ acc.map Prod.fst := by
        rw [List.map_append, List.map_cons] at hn
        intro he
        exact List.disjoint_of_nodup_append hn he List.mem_cons_self
      rw [List.map_cons, List.foldlM_cons]
      simp only [readVec_arr, mapM_ok (h e List.mem_cons_self), bind, Except.bind,
        ofStr_str (hid e List.mem_cons_self), insertAll_fresh hf]
      have := ih (acc ++ [(e.1, e.2)]) (by simpa using hn)
        (fun p hp => hid p (List.mem_cons_of_mem _ hp)) (fun p hp => h p (List.mem_cons_of_mem _ hp))
      simp only [bind, Except.bind] at this
      rw [this]
      simp
  exact key ps [] (by simpa using hn) hid h

theorem nodup_strs {α : Type} {ps : List (Id × List α)} (hn : (ps.map Prod.fst).Nodup)
    (hid : ∀ p ∈ ps, IdOk validIri validBlank p.1) : (ps.map fun p => p.1.str).Nodup := by
  have : (ps.map fun p => p.1.str) = (ps.map Prod.fst).map Id.str := by simp
  rw [this]
  refine List.Nodup.map_on ?_ hn
  intro x hx y hy h
  obtain ⟨p, hp, rfl⟩ := List.mem_map.1 hx
  obtain ⟨q, hq, rfl⟩ := List.mem_map.1 hy
  exact idOk_inj (hid p hp) (hid q hq) h

/-- The texts of the property keys are not those of the other entries. -/
theorem not_mem_ps {k : Str} {ps : List (Id × List Obj)}
    (hk : ∀ p ∈ ps, p.1.str ∉ reserved) (h : k ∈ reserved) : k ∉ (psToJson ps).map Prod.fst := by
  rw [psToJson_eq]
  intro hm
  simp only [List.map_map, List.mem_map, Function.comp] at hm
  obtain ⟨p, hp, rfl⟩ := hm
  exact hk p hp h

/-- Proves that a key is not among the other entries of a node. -/
macro "notmem" : tactic => `(tactic| (
  try simp only [List.map_append, List.mem_append, not_or, List.map_nil, List.not_mem_nil,
    not_false_eq_true, true_and, and_true]
  repeat' apply And.intro
  all_goals first
    | exact not_mem_optEntry (by decide)
    | exact not_mem_ps (by assumption) (by decide)))

/-- The entries of a written node object. -/
def nodeEntries (id : Option Id) (ty : Option (List Id)) (g : Option (List Obj))
    (ps : List (Id × List Obj)) (rv : Option (List (Id × List Node))) (i : Option Str) :
    List (Str × Json) :=
  optEntry "@id".toList (id.map Id.toJson) ++
  (optEntry "@type".toList (ty.map fun ts => .arr (ts.map Id.toJson)) ++
  (optEntry "@graph".toList (g.map fun l => .arr (l.map Obj.toJson)) ++
  (optEntry "@reverse".toList (rv.map fun l => .obj (jObject (rpsToJson l))) ++
  (psToJson ps ++ optEntry "@index".toList (i.map .str)))))

theorem Node.toJson_eq {i id ty g ps rv} (ht : ty ≠ some [])
    (hn : (ps.map Prod.fst).Nodup) (hid : ∀ p ∈ ps, IdOk validIri validBlank p.1)
    (hk : ∀ p ∈ ps, p.1.str ∉ reserved) :
    Node.toJson (.mk i id ty g none ps rv) = .obj (nodeEntries id ty g ps rv i) := by
  have e : (id.map fun x => ("@id".toList, Id.toJson x)).toList ++
      typesEntry ty ++
      gToJson g ++ incToJson none ++ rvToJson rv ++ psToJson ps ++ indexEntry i =
      nodeEntries id ty g ps rv i := by
    have e1 : (id.map fun x => ("@id".toList, Id.toJson x)).toList =
        optEntry "@id".toList (id.map Id.toJson) := by cases id <;> rfl
    have e2 : typesEntry ty = optEntry "@type".toList (ty.map fun ts => .arr (ts.map Id.toJson)) := by
      rcases ty with _ | (_ | ⟨t, ts⟩)
      · rfl
      · exact absurd rfl ht
      · rfl
    have e3 : gToJson g = optEntry "@graph".toList (g.map fun l => .arr (l.map Obj.toJson)) := by
      cases g <;> simp [gToJson, optEntry, objsToJson_eq]
    have e4 : rvToJson rv = optEntry "@reverse".toList (rv.map fun l => .obj (jObject (rpsToJson l))) := by
      cases rv <;> simp [rvToJson, optEntry]
    rw [e1, e2, e3, e4, indexEntry_eq]
    simp [incToJson, nodeEntries, List.append_assoc]
  rw [Node.toJson, e, jObject_nodup]
  have hps : ((psToJson ps).map Prod.fst).Nodup := by
    rw [psToJson_eq, List.map_map]; exact nodup_strs hn hid
  have d : ∀ (k : Str) (o : Option Json) (l : List (Str × Json)), k ∉ l.map Prod.fst →
      (l.map Prod.fst).Nodup → ((optEntry k o ++ l).map Prod.fst).Nodup := by
    intro k o l h hl
    rw [List.map_append, List.nodup_append]
    refine ⟨nodup_optEntry, hl, ?_⟩
    rintro a ha b hb rfl
    exact h (mem_optEntry_fst ha ▸ hb)
  unfold nodeEntries
  apply d _ _ _ (by notmem)
  apply d _ _ _ (by notmem)
  apply d _ _ _ (by notmem)
  apply d _ _ _ (by notmem)
  rw [List.map_append, List.nodup_append]
  refine ⟨hps, nodup_optEntry, ?_⟩
  rintro a ha b hb rfl
  cases mem_optEntry_fst hb
  exact not_mem_ps hk (by decide) ha


theorem readOpt_map {α : Type} {f : Json → Except JErr α} {g : α → Json} {o : Option α}
    (h : ∀ a, o = some a → f (g a) = .ok a) : readOpt f (o.map g) = .ok o := by
  cases o with
  | none => rfl
  | some a => simp [readOpt, h a rfl, bind, Except.bind]

theorem readIndex_ok {a : List (Str × Json)} {i : Option Str} (h : "@index".toList ∉ a.map Prod.fst) :
    readIndex (a ++ optEntry "@index".toList (i.map .str)) = .ok (i, a) := by
  have := removeUnique_opt (o := i.map .str) (b := []) h (by simp)
  simp only [List.append_nil] at this
  simp only [readIndex, this, bind, Except.bind]
  cases i <;> rfl

theorem readNodeBody_ok {ro : Json → Except JErr Obj} {rn : Json → Except JErr Node}
    {i id ty g ps rv} (hi : ∀ x, id = some x → IdOk validIri validBlank x)
    (ht : ∀ ts, ty = some ts → ∀ t ∈ ts, IdOk validIri validBlank t)
    (hg : ∀ l, g = some l → l.Pairwise fun a b => b.eq a = false)
    (hn : (ps.map Prod.fst).Nodup) (hid : ∀ p ∈ ps, IdOk validIri validBlank p.1)
    (hk : ∀ p ∈ ps, p.1.str ∉ reserved)
    (hrn : ∀ l, rv = some l → (l.map Prod.fst).Nodup)
    (hrid : ∀ l, rv = some l → ∀ p ∈ l, IdOk validIri validBlank p.1)
    (rg : ∀ l, g = some l → ∀ o ∈ l, ro o.toJson = .ok o)
    (rps : ∀ p ∈ ps, ∀ o ∈ p.2, ro o.toJson = .ok o)
    (rrv : ∀ l, rv = some l → ∀ p ∈ l, ∀ n ∈ p.2, rn n.toJson = .ok n) :
    readNodeBody validIri validBlank ro rn i (
      optEntry "@id".toList (id.map Id.toJson) ++
      (optEntry "@type".toList (ty.map fun ts => .arr (ts.map Id.toJson)) ++
      (optEntry "@graph".toList (g.map fun l => .arr (l.map Obj.toJson)) ++
      (optEntry "@reverse".toList (rv.map fun l => .obj (jObject (rpsToJson l))) ++
      psToJson ps)))) = .ok (.mk i id ty g none ps rv) := by
  have r1 := readOpt_map (f := Id.read validIri validBlank) (g := Id.toJson) (o := id)
    fun a ha => read_toJson (hi a ha)
  have r2 := readOpt_map (f := readVec (Id.read validIri validBlank))
    (g := fun ts => .arr (ts.map Id.toJson)) (o := ty)
    fun ts hts => mapM_ok fun t h => read_toJson (ht ts hts t h)
  have r3 := readOpt_map (f := readSet Obj.eq ro) (g := fun l => .arr (l.map Obj.toJson)) (o := g)
    fun l hl => by
      simp only [readSet, mapM_ok (rg l hl), bind, Except.bind, setCollect_of_pairwise (hg l hl)]
  have r4 := readOpt_map (f := readRev validIri validBlank rn)
    (g := fun l => .obj (jObject (rpsToJson l))) (o := rv) fun l hl => by
      have hnd : ((rpsToJson l).map Prod.fst).Nodup := by
        rw [rpsToJson_eq, List.map_map]; exact nodup_strs (hrn l hl) (hrid l hl)
      rw [jObject_nodup hnd, rpsToJson_eq]
      exact readProps_ok (hrn l hl) (hrid l hl) (rrv l hl)
  have r5 := readProps_ok (f := ro) hn hid rps
  rw [← psToJson_eq] at r5
  have u1 := removeUnique_opt (k := "@id".toList) (o := id.map Id.toJson) (a := [])
    (b := optEntry "@type".toList (ty.map fun ts => .arr (ts.map Id.toJson)) ++
      (optEntry "@graph".toList (g.map fun l => .arr (l.map Obj.toJson)) ++
      (optEntry "@reverse".toList (rv.map fun l => .obj (jObject (rpsToJson l))) ++
      psToJson ps))) (by notmem) (by notmem)
  have u2 := removeUnique_opt (k := "@type".toList)
    (o := ty.map fun ts => .arr (ts.map Id.toJson)) (a := [])
    (b := optEntry "@graph".toList (g.map fun l => .arr (l.map Obj.toJson)) ++
      (optEntry "@reverse".toList (rv.map fun l => .obj (jObject (rpsToJson l))) ++
      psToJson ps)) (by notmem) (by notmem)
  have u3 := removeUnique_opt (k := "@graph".toList)
    (o := g.map fun l => .arr (l.map Obj.toJson)) (a := [])
    (b := optEntry "@reverse".toList (rv.map fun l => .obj (jObject (rpsToJson l))) ++
      psToJson ps) (by notmem) (by notmem)
  have u4 := removeUnique_absent (k := "@included".toList)
    (m := optEntry "@reverse".toList (rv.map fun l => .obj (jObject (rpsToJson l))) ++
      psToJson ps) (by notmem)
  have u5 := removeUnique_opt (k := "@reverse".toList)
    (o := rv.map fun l => .obj (jObject (rpsToJson l))) (a := [])
    (b := psToJson ps) (by notmem) (by notmem)
  simp only [List.nil_append] at u1 u2 u3 u5
  have u6 : readOpt (readSet Node.eq rn) none = .ok none := rfl
  simp only [readNodeBody, u1, r1, u2, r2, u3, r3, u4, u6, u5, r4, r5, bind, Except.bind]

/-- A written node, as read by the function for objects and by the one for nodes. -/
theorem readIndexed_node {ro : Json → Except JErr Obj} {rn : Json → Except JErr Node}
    {i id ty g ps rv} (ht0 : ty ≠ some []) (hi : ∀ x, id = some x → IdOk validIri validBlank x)
    (ht : ∀ ts, ty = some ts → ∀ t ∈ ts, IdOk validIri validBlank t)
    (hg : ∀ l, g = some l → l.Pairwise fun a b => b.eq a = false)
    (hn : (ps.map Prod.fst).Nodup) (hid : ∀ p ∈ ps, IdOk validIri validBlank p.1)
    (hk : ∀ p ∈ ps, p.1.str ∉ reserved)
    (hrn : ∀ l, rv = some l → (l.map Prod.fst).Nodup)
    (hrid : ∀ l, rv = some l → ∀ p ∈ l, IdOk validIri validBlank p.1)
    (rg : ∀ l, g = some l → ∀ o ∈ l, ro o.toJson = .ok o)
    (rps : ∀ p ∈ ps, ∀ o ∈ p.2, ro o.toJson = .ok o)
    (rrv : ∀ l, rv = some l → ∀ p ∈ l, ∀ n ∈ p.2, rn n.toJson = .ok n) :
    readIndexed (readNodeBody validIri validBlank ro rn) (Node.toJson (.mk i id ty g none ps rv)) =
      .ok (.mk i id ty g none ps rv) ∧
    readIndexed (readObjBody validIri validBlank ro rn) (Node.toJson (.mk i id ty g none ps rv)) =
      .ok (.node (.mk i id ty g none ps rv)) := by
  have hb := readNodeBody_ok (ro := ro) (rn := rn) (i := i) hi ht hg hn hid hk hrn hrid rg rps rrv
  rw [Node.toJson_eq ht0 hn hid hk]
  have hx : readIndex (nodeEntries id ty g ps rv i) = .ok (i, optEntry "@id".toList (id.map Id.toJson) ++
      (optEntry "@type".toList (ty.map fun ts => .arr (ts.map Id.toJson)) ++
      (optEntry "@graph".toList (g.map fun l => .arr (l.map Obj.toJson)) ++
      (optEntry "@reverse".toList (rv.map fun l => .obj (jObject (rpsToJson l))) ++
      psToJson ps)))) := by
    rw [← readIndex_ok (i := i) (a := optEntry "@id".toList (id.map Id.toJson) ++
      (optEntry "@type".toList (ty.map fun ts => .arr (ts.map Id.toJson)) ++
      (optEntry "@graph".toList (g.map fun l => .arr (l.map Obj.toJson)) ++
      (optEntry "@reverse".toList (rv.map fun l => .obj (jObject (rpsToJson l))) ++
      psToJson ps)))) (by notmem)]
    simp only [nodeEntries, List.append_assoc]
  have v1 := removeUnique_absent (k := "@context".toList)
    (m := optEntry "@id".toList (id.map Id.toJson) ++
      (optEntry "@type".toList (ty.map fun ts => .arr (ts.map Id.toJson)) ++
      (optEntry "@graph".toList (g.map fun l => .arr (l.map Obj.toJson)) ++
      (optEntry "@reverse".toList (rv.map fun l => .obj (jObject (rpsToJson l))) ++
      psToJson ps)))) (by notmem)
  have v2 := removeUnique_absent (k := "@value".toList)
    (m := optEntry "@id".toList (id.map Id.toJson) ++
      (optEntry "@type".toList (ty.map fun ts => .arr (ts.map Id.toJson)) ++
      (optEntry "@graph".toList (g.map fun l => .arr (l.map Obj.toJson)) ++
      (optEntry "@reverse".toList (rv.map fun l => .obj (jObject (rpsToJson l))) ++
      psToJson ps)))) (by notmem)
  have v3 := removeUnique_absent (k := "@list".toList)
    (m := optEntry "@id".toList (id.map Id.toJson) ++
      (optEntry "@type".toList (ty.map fun ts => .arr (ts.map Id.toJson)) ++
      (optEntry "@graph".toList (g.map fun l => .arr (l.map Obj.toJson)) ++
      (optEntry "@reverse".toList (rv.map fun l => .obj (jObject (rpsToJson l))) ++
      psToJson ps)))) (by notmem)
  constructor
  · simp only [readIndexed, hx, bind, Except.bind, hb]
  · simp only [readIndexed, hx, bind, Except.bind, readObjBody, v1, v2, v3, hb]

/-! ## Values and lists -/

theorem nodup_append_opt {a : List (Str × Json)} {k : Str} {o : Option Json}
    (ha : (a.map Prod.fst).Nodup) (hk : k ∉ a.map Prod.fst) :
    ((a ++ optEntry k o).map Prod.fst).Nodup := by
  rw [List.map_append, List.nodup_append]
  refine ⟨ha, nodup_optEntry, ?_⟩
  rintro x hx y hy rfl
  cases mem_optEntry_fst hy
  exact hk hx

theorem Literal.read_toJson (l : Literal) : Literal.read l.toJson = .ok l := by cases l <;> rfl

theorem readIndexed_value {ro : Json → Except JErr Obj} {rn : Json → Except JErr Node} {i : Option Str}
    {v : Value} (h : ValueOk validIri v) :
    readIndexed (readObjBody validIri validBlank ro rn) (Obj.toJson (.value i v)) =
      .ok (.value i v) := by
  have key : ∀ (es : List (Str × Json)) (j : Json), (es.map Prod.fst).Nodup →
      "@index".toList ∉ es.map Prod.fst → "@context".toList ∉ es.map Prod.fst →
      "@value".toList ∉ es.map Prod.fst → v.entries = es ++ [("@value".toList, j)] →
      Value.read validIri es j = .ok v →
      readIndexed (readObjBody validIri validBlank ro rn) (Obj.toJson (.value i v)) =
        .ok (.value i v) := by
    intro es j hn hi hc hv he hr
    have hn' : ((v.entries).map Prod.fst).Nodup := by
      rw [he]
      exact nodup_append_opt (o := some j) hn hv
    have hi' : "@index".toList ∉ (v.entries).map Prod.fst := by
      rw [he, List.map_append, List.mem_append]
      rintro (h | h)
      · exact hi h
      · revert h; simp
    have hc' : "@context".toList ∉ (v.entries).map Prod.fst := by
      rw [he, List.map_append, List.mem_append]
      rintro (h | h)
      · exact hc h
      · revert h; simp
    have hm : removeUnique "@value".toList v.entries = .ok (some j, es) := by
      have := removeUnique_opt (k := "@value".toList) (o := some j) (a := es) (b := []) hv (by simp)
      rw [he]
      simpa [optEntry] using this
    rw [Obj.toJson, indexEntry_eq, jObject_nodup (nodup_append_opt hn' hi')]
    simp only [readIndexed, readIndex_ok hi', bind, Except.bind, readObjBody,
      removeUnique_absent hc', hm, hr]
  cases v with
  | literal l ty =>
    cases ty with
    | none =>
      refine key [] l.toJson (by simp) (by simp) (by simp) (by simp) rfl ?_
      have e : ∀ k, removeUnique k [] = .ok (none, []) := fun k => rfl
      simp [Value.read, e, bind, Except.bind, Literal.read_toJson]
    | some t =>
      refine key [("@type".toList, .str t)] l.toJson (by simp) (by simp) (by simp)
        (by simp) rfl ?_
      have e : removeUnique "@type".toList [("@type".toList, .str t)] = .ok (some (.str t), []) := by
        simp [removeUnique]
      simp only [Value.read, e, bind, Except.bind, h.2, if_false, h.1, if_true, Literal.read_toJson]
  | json j =>
    refine key [("@type".toList, .str "@json".toList)] j (by simp) (by decide) (by decide)
      (by decide) rfl ?_
    have e : removeUnique "@type".toList [("@type".toList, .str "@json".toList)] =
        .ok (some (.str "@json".toList), []) := rfl
    simp only [Value.read, e, bind, Except.bind, if_true]
  | langString s =>
    obtain ⟨data, lang, dir⟩ := s
    have hd : ∀ d : Direction, Direction.tryFrom d.asStr = some d := by intro d; cases d <;> rfl
    have n1 : ∀ (k1 k2 : Str) (a : Json), k1 ≠ k2 → removeUnique k1 [(k2, a)] = .ok (none, [(k2, a)]) := by
      intro k1 k2 a h; simp [removeUnique, Ne.symm h]
    have n2 : ∀ (k1 k2 k3 : Str) (a b : Json), k1 ≠ k2 → k1 ≠ k3 →
        removeUnique k1 [(k2, a), (k3, b)] = .ok (none, [(k2, a), (k3, b)]) := by
      intro k1 k2 k3 a b h h'; simp [removeUnique, Ne.symm h, Ne.symm h']
    have y1 : ∀ (k : Str) (a : Json), removeUnique k [(k, a)] = .ok (some a, []) := by
      intro k a; simp [removeUnique]
    have y2 : ∀ (k k' : Str) (a b : Json), k ≠ k' →
        removeUnique k [(k, a), (k', b)] = .ok (some a, [(k', b)]) := by
      intro k k' a b h; simp [removeUnique, Ne.symm h]
    rcases lang with _ | l <;> rcases dir with _ | d
    · exact absurd h (by simp [ValueOk])
    · refine key [("@direction".toList, .str d.asStr)] (.str data) (by simp) (by simp) (by simp)
        (by simp) rfl ?_
      simp only [Value.read, n1 "@type".toList "@direction".toList _ (by decide),
        n1 "@language".toList "@direction".toList _ (by decide), y1, bind, Except.bind]
      simp [LangString.read, readOpt, readString, readDirection, LangString.new, hd, bind, Except.bind]
    · refine key [("@language".toList, .str l)] (.str data) (by simp) (by simp) (by simp)
        (by simp) rfl ?_
      have e : ∀ k, removeUnique k [] = .ok (none, []) := fun k => rfl
      simp only [Value.read, n1 "@type".toList "@language".toList _ (by decide),
        e, y1, bind, Except.bind]
      simp [LangString.read, readOpt, readString, LangString.new, bind, Except.bind]
    · refine key [("@language".toList, .str l), ("@direction".toList, .str d.asStr)] (.str data)
        (by simp) (by simp) (by simp) (by simp) rfl ?_
      simp only [Value.read, n2 "@type".toList "@language".toList "@direction".toList _ _ (by decide)
        (by decide), y2 "@language".toList "@direction".toList _ _ (by decide), y1, bind, Except.bind]
      simp [LangString.read, readOpt, readString, readDirection, LangString.new, hd, bind, Except.bind]

theorem readIndexed_list {ro : Json → Except JErr Obj} {rn : Json → Except JErr Node} {i : Option Str}
    {l : List Obj} (h : ∀ o ∈ l, ro o.toJson = .ok o) :
    readIndexed (readObjBody validIri validBlank ro rn) (Obj.toJson (.list i l)) =
      .ok (.list i l) := by
  have hi : "@index".toList ∉ ([("@list".toList, Json.arr (l.map Obj.toJson))]).map Prod.fst := by
    simp; 
  have c1 : ∀ k, k ≠ "@list".toList → ∀ j : Json, removeUnique k [("@list".toList, j)] =
      .ok (none, [("@list".toList, j)]) := by
    intro k hk j
    exact removeUnique_absent (by simpa using hk)
  have c2 : ∀ j : Json, removeUnique "@list".toList [("@list".toList, j)] = .ok (some j, []) := by
    intro j; rfl
  rw [Obj.toJson, indexEntry_eq, objsToJson_eq, jObject_nodup (nodup_append_opt (by simp) hi)]
  simp only [readIndexed, readIndex_ok hi, bind, Except.bind, readObjBody,
    c1 "@context".toList (by decide), c1 "@value".toList (by decide), c2, readVec_arr, mapM_ok h]

end
end JsonLd
