import Verif.Props.CtxBack
import Verif.Props.CtxJson
import Verif.Props.SaysOrder
import Verif.Proofs.Inverse
/-!
# C89: the order of the members of a context in JSON
-/

namespace JsonLd.Props

open Spec

/-- C89 for contexts in JSON: if the members of a context without `@import` are moved, and both contexts are
accepted, the resulting contexts are the same up to the order of their terms, the base URLs of scoped contexts and
the protection of terms. Unlike in `C89_order_partial`, all members move, keywords included. -/
theorem C89_json_partial (E : ProcEnv) (isRef : Str → Bool) {m m' : List (Str × Json)} {s s' : SCtx}
    (hm : (m.map Prod.fst).Nodup) (hp : m.Perm m') (hi : "@import".toList ∉ m.map Prod.fst)
    (hs : readCtx isRef (.obj m) = .ok s) (hs' : readCtx isRef (.obj m') = .ok s')
    (c : ACtx) (base : Option Str) (o : Opts) (c1 c2 : ACtx)
    (h1 : Processed E c s base o (.ok c1)) (h2 : Processed E c s' base o (.ok c2)) :
    { c1 with defs := [] } = { c2 with defs := [] } ∧
    ∀ k, (c1.getNormal k).map forget = (c2.getNormal k).map forget := by
  obtain ⟨d, rfl, -, hd⟩ := C41_terms hs
  obtain ⟨d', hd', he, hb⟩ := C111_order hm hp hs
  obtain rfl := Except.ok.inj (hd'.symm.trans hs')
  have hi' : d.import_ = none := by
    simp only [readCtx] at hs
    obtain ⟨x, hx, e⟩ := exMap_ok hs
    cases e
    exact read_import m hi hx
  have hl : ∀ k, lookupKey k d'.bindings = lookupKey k d.bindings := by
    intro k
    have hd2 := (hb.map Prod.fst).nodup_iff.1 hd
    refine Option.ext fun v => ?_
    rw [lookupKey_iff_mem hd2, lookupKey_iff_mem hd]
    exact hb.mem_iff.symm
  rw [he] at h2
  exact C89_order_partial E c d d'.bindings base o hi' hl c1 c2 h1 h2

/-- `{"@vocab": "http:v/", "b": {"@id": "http:b", "@type": "@id"}, "a": "b"}`. -/
private def exMoved : List (Str × Json) :=
  [("@vocab".toList, .str "http:v/".toList),
   ("b".toList, .obj [("@id".toList, .str "http:b".toList), ("@type".toList, .str "@id".toList)]),
   ("a".toList, .str "b".toList)]

private def exMovedRun (m : List (Str × Json)) : Bool :=
  match readCtx (fun _ => true) (.obj m) with
  | .ok s => ((recN exProcEnv 9).process {} s [] none {}).isOk
  | .error _ => false

/-- The hypotheses of `C89_json_partial` are met. -/
example : (exMoved.map Prod.fst).Nodup ∧ exMoved.Perm exMoved.reverse ∧
    "@import".toList ∉ exMoved.map Prod.fst ∧ exMovedRun exMoved = true ∧ exMovedRun exMoved.reverse = true :=
  ⟨by decide, (List.reverse_perm _).symm, by decide, by decide +kernel, by decide +kernel⟩

end JsonLd.Props
