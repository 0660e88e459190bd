import Verif.Spec.Print
/-!
# Lemmas about printing
-/

namespace JsonLd
open Spec

section
variable {P : Printer}

/-! ## Lists of things -/

theorem jsonsPre_eq (l : List Json) : jsonsPre P l = l.map (Json.pre P) := by
  induction l with
  | nil => rfl
  | cons j l ih => simp [jsonsPre, ih]

theorem membersPre_eq (m : List (Str × Json)) : membersPre P m = m.map fun e => (e.1, e.2.pre P) := by
  induction m with
  | nil => rfl
  | cons e m ih => obtain ⟨k, j⟩ := e; simp [membersPre, ih]

theorem jsonsFmt_eq (l : List Json) : jsonsFmt P l = l.map (Json.fmt P) := by
  induction l with
  | nil => rfl
  | cons j l ih => simp [jsonsFmt, ih]

theorem membersFmt_eq (m : List (Str × Json)) : membersFmt P m = m.map fun e => (e.1, e.2.fmt P) := by
  induction m with
  | nil => rfl
  | cons e m ih => obtain ⟨k, j⟩ := e; simp [membersFmt, ih]

theorem shownObjs_eq (l : List Obj) : shownObjs l = l.map shown := by
  induction l with
  | nil => rfl
  | cons j l ih => simp [shownObjs, ih]

theorem shownNodes_eq (l : List Node) : shownNodes l = l.map shownNode := by
  induction l with
  | nil => rfl
  | cons j l ih => simp [shownNodes, ih]

theorem shownProps_eq (l : List (Id × List Obj)) :
    shownProps l = l.map fun p => (p.1.str, .arr (p.2.map shown)) := by
  induction l with
  | nil => rfl
  | cons p l ih => obtain ⟨k, j⟩ := p; simp [shownProps, shownObjs_eq, ih]

theorem shownReverseProps_eq (l : List (Id × List Node)) :
    shownReverseProps l = l.map fun p => (p.1.str, .arr (p.2.map shownNode)) := by
  induction l with
  | nil => rfl
  | cons p l ih => obtain ⟨k, j⟩ := p; simp [shownReverseProps, shownNodes_eq, ih]

theorem objsPre_eq (l : List Obj) : objsPre P l = l.map (Obj.pre P) := by
  induction l with
  | nil => rfl
  | cons j l ih => simp [objsPre, ih]

theorem nodesPre_eq (l : List Node) : nodesPre P l = l.map (Node.pre P) := by
  induction l with
  | nil => rfl
  | cons j l ih => simp [nodesPre, ih]

theorem psPre_eq (l : List (Id × List Obj)) :
    psPre P l = l.map fun p => (p.1.str, preArr P (p.2.map (Obj.pre P))) := by
  induction l with
  | nil => rfl
  | cons p l ih => obtain ⟨k, j⟩ := p; simp [psPre, objsPre_eq, ih]

theorem rpsPre_eq (l : List (Id × List Node)) :
    rpsPre P l = l.map fun p => (p.1.str, preArr P (p.2.map (Node.pre P))) := by
  induction l with
  | nil => rfl
  | cons p l ih => obtain ⟨k, j⟩ := p; simp [rpsPre, nodesPre_eq, ih]

theorem objsFmt_eq (l : List Obj) : objsFmt P l = l.map (Obj.fmt P) := by
  induction l with
  | nil => rfl
  | cons j l ih => simp [objsFmt, ih]

theorem nodesFmt_eq (l : List Node) : nodesFmt P l = l.map (Node.fmt P) := by
  induction l with
  | nil => rfl
  | cons j l ih => simp [nodesFmt, ih]

theorem psFmt_eq (l : List (Id × List Obj)) :
    psFmt P l = l.map fun p => (p.1.str, fmtArr P (p.2.map (Obj.fmt P))) := by
  induction l with
  | nil => rfl
  | cons p l ih => obtain ⟨k, j⟩ := p; simp [psFmt, objsFmt_eq, ih]

theorem rpsFmt_eq (l : List (Id × List Node)) :
    rpsFmt P l = l.map fun p => (p.1.str, fmtArr P (p.2.map (Node.fmt P))) := by
  induction l with
  | nil => rfl
  | cons p l ih => obtain ⟨k, j⟩ := p; simp [rpsFmt, nodesFmt_eq, ih]

/-! ## A document is printed like the JSON value shown for it -/

theorem preIndex_eq (i : Option Str) :
    preIndex P i = (member "@index".toList (i.map .str)).map fun e => (e.1, e.2.pre P) := by
  cases i <;> simp [preIndex, member, Json.pre]

theorem fmtIndex_eq (i : Option Str) :
    fmtIndex P i = (member "@index".toList (i.map .str)).map fun e => (e.1, e.2.fmt P) := by
  cases i <;> simp [fmtIndex, member, Json.fmt]

theorem Value.preEntries_eq (v : Value) :
    v.preEntries P = (shownValue v).map fun e => (e.1, e.2.pre P) := by
  cases v with
  | literal l ty =>
    cases l <;> cases ty <;>
      simp [Value.preEntries, shownValue, member, Literal.pre, typeRefPre, Json.pre]
  | langString s =>
    cases hl : s.language <;> cases hd : s.direction <;>
      simp [Value.preEntries, shownValue, member, Json.pre, hl, hd]
  | json j => simp [Value.preEntries, shownValue, typeRefPre, Json.pre]

theorem Value.fmtEntries_eq (v : Value) :
    v.fmtEntries P = (shownValue v).map fun e => (e.1, e.2.fmt P) := by
  cases v with
  | literal l ty =>
    cases l <;> cases ty <;>
      simp [Value.fmtEntries, shownValue, member, Literal.fmt, typeRefFmt, Json.fmt]
  | langString s =>
    cases hl : s.language <;> cases hd : s.direction <;>
      simp [Value.fmtEntries, shownValue, member, Json.fmt, hl, hd]
  | json j => simp [Value.fmtEntries, shownValue, typeRefFmt, Json.fmt]

theorem map_congr_shown {α β γ : Type} {f : α → β} {g : γ → β} {s : α → γ} {l : List α}
    (h : ∀ x ∈ l, f x = g (s x)) : l.map f = (l.map s).map g := by
  rw [List.map_map]
  exact List.map_congr_left h

theorem pre_shown : (∀ o : Obj, o.pre P = (shown o).pre P) ∧ ∀ n : Node, n.pre P = (shownNode n).pre P := by
  apply Doc.ind
  · intro i v
    rw [Obj.pre, shown, Json.pre, membersPre_eq, preIndex_eq, Value.preEntries_eq, List.map_append]
  · intro i l ih
    rw [Obj.pre, shown, Json.pre, membersPre_eq, preIndex_eq, objsPre_eq, map_congr_shown ih,
      List.map_append, shownObjs_eq]
    simp only [List.map_cons, List.map_nil, Json.pre, jsonsPre_eq]
  · intro n ih
    rw [Obj.pre, shown, ih]
  · intro i id ty g inc ps rv ig iinc ips irv
    have e1 : (id.map fun x => ("@id".toList, x.pre P)).toList =
        (member "@id".toList (id.map fun x => .str x.str)).map fun e => (e.1, e.2.pre P) := by
      cases id <;> simp [member, Id.pre, Json.pre]
    have e2 : (ty.map fun ts => ("@type".toList, preArr P (ts.map (Id.pre P)))).toList =
        (member "@type".toList (ty.map fun ts => .arr (ts.map fun t => .str t.str))).map
          fun e => (e.1, e.2.pre P) := by
      cases ty with
      | none => rfl
      | some ts =>
        simp only [Option.map_some, Option.toList_some, member, List.map_cons, List.map_nil, Json.pre,
          jsonsPre_eq, List.map_map]
        rfl
    have e3 : gPre P g = (shownGraph g).map fun e => (e.1, e.2.pre P) := by
      cases g with
      | none => simp [gPre, shownGraph]
      | some l => 
        simp only [gPre, shownGraph, objsPre_eq, shownObjs_eq, map_congr_shown (ig l rfl), List.map_cons,
          List.map_nil, Json.pre, jsonsPre_eq]
    have e4 : incPre P inc = (shownIncluded inc).map fun e => (e.1, e.2.pre P) := by
      cases inc with
      | none => simp [incPre, shownIncluded]
      | some l => 
        simp only [incPre, shownIncluded, nodesPre_eq, shownNodes_eq, map_congr_shown (iinc l rfl),
          List.map_cons, List.map_nil, Json.pre, jsonsPre_eq]
    have e5 : psPre P ps = (shownProps ps).map fun e => (e.1, e.2.pre P) := by
      rw [psPre_eq, shownProps_eq, List.map_map]
      refine List.map_congr_left fun p hp => ?_
      simp only [Function.comp, Json.pre, jsonsPre_eq, map_congr_shown (ips p hp)]
    have e6 : rvPre P rv = (shownReverse rv).map fun e => (e.1, e.2.pre P) := by
      cases rv with
      | none => simp [rvPre, shownReverse]
      | some l => 
        simp only [rvPre, shownReverse, List.map_cons, List.map_nil, Json.pre, membersPre_eq,
          rpsPre_eq, shownReverseProps_eq, List.map_map]
        have e : (l.map fun p => (p.1.str, preArr P (p.2.map (Node.pre P)))) =
            l.map ((fun e : Str × Json => (e.1, Json.pre P e.2)) ∘
              fun p => (p.1.str, Json.arr (p.2.map shownNode))) := by
          refine List.map_congr_left fun p hp => ?_
          simp only [Function.comp, Json.pre, jsonsPre_eq, map_congr_shown (irv l rfl p hp)]
        rw [e]
    rw [Node.pre, shownNode, Json.pre, membersPre_eq, preIndex_eq, e1, e2, e3, e4, e5, e6]
    simp only [List.map_append]

theorem fmt_shown : (∀ o : Obj, o.fmt P = (shown o).fmt P) ∧ ∀ n : Node, n.fmt P = (shownNode n).fmt P := by
  apply Doc.ind
  · intro i v
    rw [Obj.fmt, shown, Json.fmt, membersFmt_eq, fmtIndex_eq, Value.fmtEntries_eq, List.map_append]
  · intro i l ih
    rw [Obj.fmt, shown, Json.fmt, membersFmt_eq, fmtIndex_eq, objsFmt_eq, map_congr_shown ih,
      List.map_append, shownObjs_eq]
    simp only [List.map_cons, List.map_nil, Json.fmt, jsonsFmt_eq]
  · intro n ih
    rw [Obj.fmt, shown, ih]
  · intro i id ty g inc ps rv ig iinc ips irv
    have e1 : (id.map fun x => ("@id".toList, x.fmt P)).toList =
        (member "@id".toList (id.map fun x => .str x.str)).map fun e => (e.1, e.2.fmt P) := by
      cases id <;> simp [member, Id.fmt, Json.fmt]
    have e2 : (ty.map fun ts => ("@type".toList, fmtArr P (ts.map (Id.fmt P)))).toList =
        (member "@type".toList (ty.map fun ts => .arr (ts.map fun t => .str t.str))).map
          fun e => (e.1, e.2.fmt P) := by
      cases ty with
      | none => rfl
      | some ts =>
        simp only [Option.map_some, Option.toList_some, member, List.map_cons, List.map_nil, Json.fmt,
          jsonsFmt_eq, List.map_map]
        rfl
    have e3 : gFmt P g = (shownGraph g).map fun e => (e.1, e.2.fmt P) := by
      cases g with
      | none => simp [gFmt, shownGraph]
      | some l => 
        simp only [gFmt, shownGraph, objsFmt_eq, shownObjs_eq, map_congr_shown (ig l rfl), List.map_cons,
          List.map_nil, Json.fmt, jsonsFmt_eq]
    have e4 : incFmt P inc = (shownIncluded inc).map fun e => (e.1, e.2.fmt P) := by
      cases inc with
      | none => simp [incFmt, shownIncluded]
      | some l => 
        simp only [incFmt, shownIncluded, nodesFmt_eq, shownNodes_eq, map_congr_shown (iinc l rfl),
          List.map_cons, List.map_nil, Json.fmt, jsonsFmt_eq]
    have e5 : psFmt P ps = (shownProps ps).map fun e => (e.1, e.2.fmt P) := by
      rw [psFmt_eq, shownProps_eq, List.map_map]
      refine List.map_congr_left fun p hp => ?_
      simp only [Function.comp, Json.fmt, jsonsFmt_eq, map_congr_shown (ips p hp)]
    have e6 : rvFmt P rv = (shownReverse rv).map fun e => (e.1, e.2.fmt P) := by
      cases rv with
      | none => simp [rvFmt, shownReverse]
      | some l => 
        simp only [rvFmt, shownReverse, List.map_cons, List.map_nil, Json.fmt, membersFmt_eq,
          rpsFmt_eq, shownReverseProps_eq, List.map_map]
        have e : (l.map fun p => (p.1.str, fmtArr P (p.2.map (Node.fmt P)))) =
            l.map ((fun e : Str × Json => (e.1, Json.fmt P e.2)) ∘
              fun p => (p.1.str, Json.arr (p.2.map shownNode))) := by
          refine List.map_congr_left fun p hp => ?_
          simp only [Function.comp, Json.fmt, jsonsFmt_eq, map_congr_shown (irv l rfl p hp)]
        rw [e]
    rw [Node.fmt, shownNode, Json.fmt, membersFmt_eq, fmtIndex_eq, e1, e2, e3, e4, e5, e6]
    simp only [List.map_append]

/-! ## Printing JSON values -/

theorem sizes_eq (l : List Json) : sizes P l = l.map (size P) := by
  induction l with
  | nil => rfl
  | cons j l ih => simp [sizes, ih]

theorem memberSizes_eq (m : List (Str × Json)) : memberSizes P m = m.map fun e => (e.1, size P e.2) := by
  induction m with
  | nil => rfl
  | cons e m ih => obtain ⟨k, j⟩ := e; simp [memberSizes, ih]

theorem texts_eq (ind : Nat) (l : List Json) : texts P ind l = l.map (text P ind) := by
  induction l with
  | nil => rfl
  | cons j l ih => simp [texts, ih]

theorem memberTexts_eq (ind : Nat) (m : List (Str × Json)) :
    memberTexts P ind m = m.map fun e => (e.1, text P ind e.2) := by
  induction m with
  | nil => rfl
  | cons e m ih => obtain ⟨k, j⟩ := e; simp [memberTexts, ih]

theorem pre_size (j : Json) : (j.pre P).1 = size P j := by
  induction j using Json.ind with
  | hnull => simp [Json.pre, size]
  | hbool b => cases b <;> simp [Json.pre, size]
  | hnum n => simp [Json.pre, size]
  | hstr s => simp [Json.pre, preStr, size]
  | harr l ih =>
    rw [Json.pre, preArr, size, jsonsPre_eq, sizes_eq, List.map_map]
    exact congrArg P.arrSize (List.map_congr_left ih)
  | hobj m ih =>
    rw [Json.pre, preObj, size, membersPre_eq, memberSizes_eq, List.map_map]
    refine congrArg P.objSize (List.map_congr_left fun e he => ?_)
    simp only [Function.comp, ih e.1 e.2 he]

/-- The items take their own sizes, one after the other. -/
theorem fmtItems_ok {ind : Nat} {l : List Json}
    (h : ∀ j ∈ l, ∀ rest, j.fmt P ind ((j.pre P).2 ++ rest) = some (text P ind j, rest)) (rest : List PSize) :
    fmtItems ind (l.map (Json.fmt P)) (l.flatMap (fun j => (j.pre P).2) ++ rest) =
      some (l.map (text P ind), rest) := by
  induction l with
  | nil => rfl
  | cons j l ih =>
    have h1 := h j List.mem_cons_self (l.flatMap (fun j => (j.pre P).2) ++ rest)
    have h2 := ih fun k hk => h k (List.mem_cons_of_mem _ hk)
    simp only [List.map_cons, List.flatMap_cons, fmtItems, List.append_assoc, h1, h2,
      Option.bind_eq_bind, Option.bind_some]

theorem fmt_text (j : Json) : ∀ (ind : Nat) (rest : List PSize),
    j.fmt P ind ((j.pre P).2 ++ rest) = some (text P ind j, rest) := by
  induction j using Json.ind with
  | hnull => intro ind rest; simp [Json.fmt, Json.pre, fmtText, text]
  | hbool b => intro ind rest; cases b <;> simp [Json.fmt, Json.pre, fmtText, text]
  | hnum n => intro ind rest; simp [Json.fmt, Json.pre, fmtText, text]
  | hstr s => intro ind rest; simp [Json.fmt, Json.pre, fmtStr, preStr, fmtText, text]
  | harr l ih =>
    intro ind rest
    have hs := pre_size (P := P) (.arr l)
    rw [Json.pre, preArr] at hs
    rw [Json.fmt, Json.pre, preArr]
    simp only at hs ⊢
    rw [hs, List.cons_append, fmtArr, jsonsFmt_eq, jsonsPre_eq, List.flatMap_map]
    rw [fmtItems_ok (fun j hj rest => ih j hj _ rest) rest]
    simp only [Option.bind_eq_bind, Option.bind_some, text, texts_eq]
  | hobj m ih =>
    intro ind rest
    have hs := pre_size (P := P) (.obj m)
    rw [Json.pre, preObj] at hs
    rw [Json.fmt, Json.pre, preObj]
    simp only at hs ⊢
    rw [hs, List.cons_append, fmtObj, membersFmt_eq, membersPre_eq, List.flatMap_map, List.map_map,
      List.map_map]
    have h := fmtItems_ok (P := P) (ind := P.inner (size P (.obj m)) ind) (l := m.map (·.2))
      (fun j hj rest => by
        obtain ⟨e, he, rfl⟩ := List.mem_map.1 hj
        exact ih e.1 e.2 he _ rest) rest
    rw [List.map_map, List.flatMap_map, List.map_map] at h
    have e1 : (Prod.snd ∘ fun e : Str × Json => (e.1, Json.fmt P e.2)) = Json.fmt P ∘ Prod.snd := rfl
    have e2 : (Prod.fst ∘ fun e : Str × Json => (e.1, Json.fmt P e.2)) = Prod.fst := rfl
    rw [e1, e2, h]
    simp only [Option.bind_eq_bind, Option.bind_some, text, memberTexts_eq]
    rw [List.zip_map']
    rfl

theorem print_doc (ind : Nat) (d : Doc) : d.print P ind = some (text P ind (shownDoc d), []) := by
  have e1 : d.pre P = (shownDoc d).pre P := by
    rw [Doc.pre, shownDoc, Json.pre, objsPre_eq, jsonsPre_eq, shownObjs_eq,
      map_congr_shown fun o _ => pre_shown.1 o]
  have e2 : d.fmt P = (shownDoc d).fmt P := by
    rw [Doc.fmt, shownDoc, Json.fmt, objsFmt_eq, jsonsFmt_eq, shownObjs_eq,
      map_congr_shown fun o _ => fmt_shown.1 o]
  have h := fmt_text (P := P) (shownDoc d) ind []
  rw [List.append_nil] at h
  rw [Doc.print, e1, e2, h]

end
end JsonLd
