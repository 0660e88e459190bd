import Verif.Props.MoreTerms
/-!
# C89, C96 and C99 for context definitions with `@import`
-/

namespace JsonLd.Props
open JsonLd.Spec

/-- The bindings after an import: those of the definition, then those of the imported one. -/
theorem mergeDefs_lookup (d i : SDef) (k : Str) :
    lookupKey k (mergeDefs d i).bindings = (lookupKey k d.bindings).or (lookupKey k i.bindings) := by
  have h := merge_binding d i k
  unfold Merged.binding at h
  simpa using h

/-- **C99** with `@import`. Let two versions of a context definition import two versions of a context, and let these differ
in their terms. The terms of a set come out the same, base URLs of scoped contexts and protection aside, if both versions
say the same about them and they depend on terms in the set only. What the imported versions say about terms of the
importing definition does not matter. -/
theorem C99_import_partial (E E' : ProcEnv) (hE : E'.toIriEnv = E.toIriEnv) (c : ACtx) (d i : SDef)
    (bs bs' : List (Str × Option STerm)) (base : Option Str) (o : Opts) (ho : o.mode = .v11) (hd : Imports E base d i)
    (hd' : Imports E' base { d with bindings := bs } { i with bindings := bs' }) (hi : i.import_ = none)
    (K : Str → Prop) (hK : ∀ k u, K k → DependsOn E c (mergeDefs d i) k u → K u)
    (hbs : ∀ k, K k → lookupKey k bs = lookupKey k d.bindings)
    (hbs' : ∀ k, K k → lookupKey k d.bindings = none → lookupKey k bs' = lookupKey k i.bindings) (c1 c2 : ACtx)
    (h1 : Processed E c (.one (.defn d)) base o (.ok c1))
    (h2 : Processed E' c (.one (.defn { d with bindings := bs })) base o (.ok c2)) :
    { c1 with defs := [] } = { c2 with defs := [] } ∧
    ∀ k, K k → (c1.getNormal k).map forget = (c2.getNormal k).map forget := by
  obtain ⟨_, n1, h1⟩ := (C42_merge_one E c d i base o ho hd hi _).1 h1
  obtain ⟨_, n2, h2⟩ := (C42_merge_one E' c { d with bindings := bs } { i with bindings := bs' } base o ho hd' hi _).1 h2
  refine process_on (d := mergeDefs d i) (bs := (mergeDefs { d with bindings := bs } { i with bindings := bs' }).bindings)
    hE rfl hK (fun k hk => ?_) h1 h2
  rw [mergeDefs_lookup, mergeDefs_lookup]
  show (lookupKey k bs).or (lookupKey k bs') = _
  rw [hbs k hk]
  cases h : lookupKey k d.bindings with
  | some b => rfl
  | none => rw [hbs' k hk h]

/-- **C89** with `@import`: neither the order of the terms of a definition nor that of the terms it imports matters. -/
theorem C89_import_partial (E E' : ProcEnv) (hE : E'.toIriEnv = E.toIriEnv) (c : ACtx) (d i : SDef)
    (bs bs' : List (Str × Option STerm)) (base : Option Str) (o : Opts) (ho : o.mode = .v11) (hd : Imports E base d i)
    (hd' : Imports E' base { d with bindings := bs } { i with bindings := bs' }) (hi : i.import_ = none)
    (hbs : ∀ k, lookupKey k bs = lookupKey k d.bindings) (hbs' : ∀ k, lookupKey k bs' = lookupKey k i.bindings)
    (c1 c2 : ACtx) (h1 : Processed E c (.one (.defn d)) base o (.ok c1))
    (h2 : Processed E' c (.one (.defn { d with bindings := bs })) base o (.ok c2)) :
    { c1 with defs := [] } = { c2 with defs := [] } ∧
    ∀ k, (c1.getNormal k).map forget = (c2.getNormal k).map forget := by
  obtain ⟨x, y⟩ := C99_import_partial E E' hE c d i bs bs' base o ho hd hd' hi (fun _ => True) (fun _ _ _ _ => trivial)
    (fun k _ => hbs k) (fun k _ _ => hbs' k) c1 c2 h1 h2
  exact ⟨x, fun k => y k trivial⟩

/-- **C96** with `@import`: repeating a context definition changes nothing. -/
theorem C96_import_partial (E : ProcEnv) (c : ACtx) (d i : SDef) (base : Option Str) (o : Opts) (ho : o.mode = .v11)
    (hd : Imports E base d i) (hi : i.import_ = none) (c1 c2 : ACtx)
    (h1 : Processed E c (.one (.defn d)) base o (.ok c1)) (h2 : Processed E c1 (.one (.defn d)) base o (.ok c2))
    (hv : c1.vocab = c2.vocab) (hb : c1.base = c2.base) :
    { c1 with defs := [] } = { c2 with defs := [] } ∧
      ∀ k, (c1.getNormal k).map forget = (c2.getNormal k).map forget :=
  C96_repeat_partial E c (mergeDefs d i) rfl base o c1 c2 ((C42_merge_one E c d i base o ho hd hi _).1 h1)
    ((C42_merge_one E c1 d i base o ho hd hi _).1 h2) hv hb

/-! ## An example -/

/-- `{"@import": "http:c", "t": "ex:t"}` -/
def exImporting : SDef :=
  { SDef.empty with import_ := some "http:c".toList, bindings := [("t".toList, some (.simple "ex:t".toList))] }

/-- The two versions of the imported context are those of C99. Both are accepted, and `t` and `label` come out the same. -/
theorem C99_import_example :
    Imports (exVersionProc exVersion) none exImporting exVersion ∧
    Imports (exVersionProc { exVersion with bindings := exVersionNext }) none exImporting { exVersion with bindings := exVersionNext } ∧
    ((recN (exVersionProc exVersion) 9).process {} (.one (.defn exImporting)) [] none {}).toOption.map
      (fun c => (["t", "label", "other"].map fun k => ((c.getNormal k.toList).bind (·.value)))) =
      some [some (.id (.iri "http:ex/t".toList)), some (.id (.iri "http:ex/label".toList)), some (.id (.iri "http:o1".toList))] ∧
    ((recN (exVersionProc { exVersion with bindings := exVersionNext }) 9).process {} (.one (.defn exImporting)) [] none {}).toOption.map
      (fun c => (["t", "label", "other"].map fun k => ((c.getNormal k.toList).bind (·.value)))) =
      some [some (.id (.iri "http:ex/t".toList)), some (.id (.iri "http:ex/label".toList)), some (.id (.iri "http:o2".toList))] := by
  refine ⟨⟨"http:c".toList, "http:c".toList, rfl, by decide +kernel, rfl⟩, ⟨"http:c".toList, "http:c".toList, rfl, by decide +kernel, rfl⟩, by decide +kernel, by decide +kernel⟩

end JsonLd.Props
