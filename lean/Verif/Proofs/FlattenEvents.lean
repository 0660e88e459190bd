import Verif.Model.Flatten
import Verif.Spec.Flat
/-!
# Flattening as labelling followed by a sequence of updates

`Obj.pwalk` labels the nodes of a document; `oEvs` lists the updates of the node map for a labelled
document. `extendObj_eq` shows that the flattening algorithm does one after the other.
-/

namespace JsonLd
open Spec

section pwalk
variable {σ : Type} (f : Header → σ → Header × σ)
mutual
/-- Rewriting identifiers and types, without collecting sets again. -/
def Obj.pwalk : Obj → σ → Obj × σ
  | .value i v, s => (.value i v, s)
  | .list i l, s => let r := objsPwalk l s; (.list i r.1, r.2)
  | .node n, s => let r := n.pwalk s; (.node r.1, r.2)
/-- See `Obj.pwalk`. -/
def Node.pwalk : Node → σ → Node × σ
  | .mk i id ty g inc ps rv, s =>
    let h := f (id, ty) s
    let rg := gPwalk g h.2
    let ri := incPwalk inc rg.2
    let rp := psPwalk ps ri.2
    let rr := rvPwalk rv rp.2
    (.mk i h.1.1 h.1.2 rg.1 ri.1 rp.1 rr.1, rr.2)
/-- See `Obj.pwalk`. -/
def gPwalk : Option (List Obj) → σ → Option (List Obj) × σ
  | none, s => (none, s)
  | some l, s => let r := objsPwalk l s; (some r.1, r.2)
/-- See `Obj.pwalk`. -/
def incPwalk : Option (List Node) → σ → Option (List Node) × σ
  | none, s => (none, s)
  | some l, s => let r := nodesPwalk l s; (some r.1, r.2)
/-- See `Obj.pwalk`. -/
def rvPwalk : Option (List (Id × List Node)) → σ → Option (List (Id × List Node)) × σ
  | none, s => (none, s)
  | some l, s => let r := rpsPwalk l s; (some r.1, r.2)
/-- See `Obj.pwalk`. -/
def objsPwalk : List Obj → σ → List Obj × σ
  | [], s => ([], s)
  | o :: os, s => let r := o.pwalk s; let rs := objsPwalk os r.2; (r.1 :: rs.1, rs.2)
/-- See `Obj.pwalk`. -/
def nodesPwalk : List Node → σ → List Node × σ
  | [], s => ([], s)
  | o :: os, s => let r := o.pwalk s; let rs := nodesPwalk os r.2; (r.1 :: rs.1, rs.2)
/-- See `Obj.pwalk`. -/
def psPwalk : List (Id × List Obj) → σ → List (Id × List Obj) × σ
  | [], s => ([], s)
  | (k, l) :: ps, s => let r := objsPwalk l s; let rs := psPwalk ps r.2; ((k, r.1) :: rs.1, rs.2)
/-- See `Obj.pwalk`. -/
def rpsPwalk : List (Id × List Node) → σ → List (Id × List Node) × σ
  | [], s => ([], s)
  | (k, l) :: ps, s => let r := nodesPwalk l s; let rs := rpsPwalk ps r.2; ((k, r.1) :: rs.1, rs.2)
end
end pwalk

/-- Updates of a node map. -/
inductive Ev where
  | declare (g : Option Id) (id : Id) (i : Option Str)
  | types (g : Option Id) (id : Id) (ts : List Id)
  | decl (id : Id)
  | gadd (g : Option Id) (id : Id) (os : List Obj)
  | props (g : Option Id) (id k : Id) (os : List Obj)

/-- Performing an update. -/
def NodeMap.apply (m : NodeMap) : Ev → Except FlatErr NodeMap
  | .declare g id i => m.declare g id i
  | .types g id ts => m.modify g id (Node.setTypes (some ts))
  | .decl id => pure (m.declareGraph id)
  | .gadd g id os => m.modify g id (extendGraphEntry os)
  | .props g id k os => m.modify g id fun n => n.setProps (insertAllUnique n.props k os)

/-- The identifier of a labelled node. -/
def rid (i : Option Id) : Id := i.getD (.invalid [])

/-- Updates for types. -/
def tyEvs (g : Option Id) (id : Id) : Option (List Id) → List Ev
  | none => []
  | some ts => [.types g id ts]

mutual
/-- The updates made for a labelled object. -/
def oEvs (g : Option Id) : Obj → List Ev
  | .value _ _ => []
  | .list _ l => osEvs g l
  | .node n => nEvs g n
/-- See `oEvs`. -/
def nEvs (g : Option Id) : Node → List Ev
  | .mk i id ty gr inc ps rv => .declare g (rid id) i ::
      (tyEvs g (rid id) ty ++ (grEvs g (rid id) gr ++ (incEvs g inc ++ (psEvs g (rid id) ps ++
        rvEvs g (rid id) rv))))
/-- See `oEvs`. -/
def grEvs (g : Option Id) (id : Id) : Option (List Obj) → List Ev
  | none => []
  | some l => .decl id :: (osEvs (some id) l ++ [.gadd g id (references l)])
/-- See `oEvs`. -/
def incEvs (g : Option Id) : Option (List Node) → List Ev
  | none => []
  | some l => nsEvs g l
/-- See `oEvs`. -/
def rvEvs (g : Option Id) (id : Id) : Option (List (Id × List Node)) → List Ev
  | none => []
  | some l => rpsEvs g id l
/-- See `oEvs`. -/
def osEvs (g : Option Id) : List Obj → List Ev
  | [] => []
  | o :: os => oEvs g o ++ osEvs g os
/-- See `oEvs`. -/
def nsEvs (g : Option Id) : List Node → List Ev
  | [] => []
  | o :: os => nEvs g o ++ nsEvs g os
/-- See `oEvs`. -/
def psEvs (g : Option Id) (id : Id) : List (Id × List Obj) → List Ev
  | [] => []
  | (k, os) :: ps => osEvs g os ++ .props g id k (references os) :: psEvs g id ps
/-- See `oEvs`. -/
def rpsEvs (g : Option Id) (id : Id) : List (Id × List Node) → List Ev
  | [] => []
  | (k, ns) :: ps => subEvs g id k ns ++ rpsEvs g id ps
/-- See `oEvs`. -/
def subEvs (g : Option Id) (id k : Id) : List Node → List Ev
  | [] => []
  | n :: ns => nEvs g n ++ .props g (rid n.id) k [bareNode (some id)] :: subEvs g id k ns
end

/-- Performing updates in sequence. -/
def NodeMap.applyAll (m : NodeMap) (es : List Ev) : Except FlatErr NodeMap :=
  es.foldlM NodeMap.apply m

theorem applyAll_nil (m : NodeMap) : m.applyAll [] = pure m := rfl

theorem applyAll_cons (m : NodeMap) (e : Ev) (es : List Ev) :
    m.applyAll (e :: es) = m.apply e >>= fun m' => m'.applyAll es := rfl

theorem applyAll_append (m : NodeMap) (a b : List Ev) :
    m.applyAll (a ++ b) = m.applyAll a >>= fun m' => m'.applyAll b := by
  simp [NodeMap.applyAll, List.foldlM_append]

theorem relabelNodeId_eq (gen : Nat → Id) (id : Option Id) (s : Relabeling) :
    relabelNodeId gen id s = (some (assignNodeId gen id s).1, (assignNodeId gen id s).2) := by
  rcases id with _ | (_ | _ | _) <;> rfl

theorem relabelTypes_eq (gen : Nat → Id) (ts : List Id) (s : Relabeling) :
    relabelTypes gen ts s = assignTypes gen ts s := by
  induction ts generalizing s with
  | nil => rfl
  | cons t ts ih => cases t <;> simp [relabelTypes, assignTypes, assignNodeId, ih]

theorem insertUnique_eq (ps : List (Id × List Obj)) (k : Id) (v : Obj) :
    insertUnique ps k v = insertAllUnique ps k [v] := by
  unfold insertUnique insertAllUnique
  split
  · rename_i os h
    simp only [addUnique]
    split
    · rfl
    · rename_i h'
      clear h'
      induction ps with
      | nil => rfl
      | cons p ps ih =>
        obtain ⟨k', a⟩ := p
        simp only [lookupProp] at h
        simp only [setKey]
        split
        · rename_i hk; rw [if_pos hk] at h; cases h; rfl
        · rename_i hk; rw [if_neg hk] at h; rw [← ih h]
  · simp [addUnique]

theorem references_eq (l : List Obj) : references l = l.map reference := by
  induction l with
  | nil => rfl
  | cons o os ih => simp [references, ih]

section
variable (gen : Nat → Id)

theorem extendTypes_eq (g : Option Id) (id : Id) (ty : Option (List Id)) (s : Relabeling)
    (m : NodeMap) :
    extendTypes gen g id ty (s, m) =
      m.applyAll (tyEvs g id (relabelTypesOpt gen ty s).1) >>=
        fun m' => pure ((relabelTypesOpt gen ty s).2, m') := by
  cases ty with
  | none => rfl
  | some ts =>
    simp [extendTypes, relabelTypesOpt, relabelTypes_eq, tyEvs, applyAll_cons, applyAll_nil,
      NodeMap.apply]

local notation "F" => relabelHeader gen

theorem extendObjs_eq_of {l : List Obj}
    (h : ∀ o ∈ l, ∀ g s m, extendObj gen g o (s, m) =
      m.applyAll (oEvs g (o.pwalk F s).1) >>= fun m' => pure (reference (o.pwalk F s).1,
        ((o.pwalk F s).2, m'))) (g : Option Id) (s : Relabeling) (m : NodeMap) :
    extendObjs gen g l (s, m) =
      m.applyAll (osEvs g (objsPwalk F l s).1) >>= fun m' => pure (references (objsPwalk F l s).1,
        ((objsPwalk F l s).2, m')) := by
  induction l generalizing s m with
  | nil => rfl
  | cons o os ih =>
    have ih' := ih fun o ho => h o (List.mem_cons_of_mem _ ho)
    simp only [extendObjs, h o List.mem_cons_self, ih', bind_assoc, pure_bind, objsPwalk, osEvs,
      applyAll_append, references]

theorem extendNodes_eq_of {l : List Node}
    (h : ∀ o ∈ l, ∀ g s m, extendNode gen g o (s, m) =
      m.applyAll (nEvs g (o.pwalk F s).1) >>= fun m' => pure (rid (o.pwalk F s).1.id,
        ((o.pwalk F s).2, m'))) (g : Option Id) (s : Relabeling) (m : NodeMap) :
    extendNodes gen g l (s, m) =
      m.applyAll (nsEvs g (nodesPwalk F l s).1) >>= fun m' => pure ((nodesPwalk F l s).2, m') := by
  induction l generalizing s m with
  | nil => rfl
  | cons o os ih =>
    have ih' := ih fun o ho => h o (List.mem_cons_of_mem _ ho)
    simp only [extendNodes, h o List.mem_cons_self, ih', bind_assoc, pure_bind, nodesPwalk, nsEvs,
      applyAll_append]

theorem extendSubjects_eq_of {l : List Node}
    (h : ∀ o ∈ l, ∀ g s m, extendNode gen g o (s, m) =
      m.applyAll (nEvs g (o.pwalk F s).1) >>= fun m' => pure (rid (o.pwalk F s).1.id,
        ((o.pwalk F s).2, m'))) (g : Option Id) (id k : Id) (s : Relabeling) (m : NodeMap) :
    extendSubjects gen g id k l (s, m) =
      m.applyAll (subEvs g id k (nodesPwalk F l s).1) >>=
        fun m' => pure ((nodesPwalk F l s).2, m') := by
  induction l generalizing s m with
  | nil => rfl
  | cons o os ih =>
    have ih' := ih fun o ho => h o (List.mem_cons_of_mem _ ho)
    simp only [extendSubjects, h o List.mem_cons_self, ih', bind_assoc, pure_bind, nodesPwalk,
      subEvs, applyAll_append, applyAll_cons, NodeMap.apply, insertUnique_eq]
    rfl

theorem extend_eq :
    (∀ (o : Obj) (g : Option Id) (s : Relabeling) (m : NodeMap), extendObj gen g o (s, m) =
      m.applyAll (oEvs g (o.pwalk F s).1) >>= fun m' => pure (reference (o.pwalk F s).1,
        ((o.pwalk F s).2, m'))) ∧
    (∀ (n : Node) (g : Option Id) (s : Relabeling) (m : NodeMap), extendNode gen g n (s, m) =
      m.applyAll (nEvs g (n.pwalk F s).1) >>= fun m' => pure (rid (n.pwalk F s).1.id,
        ((n.pwalk F s).2, m'))) := by
  apply Doc.ind
  · intro i v g s m; rfl
  · intro i l ih g s m
    simp only [extendObj, extendObjs_eq_of gen ih, bind_assoc, pure_bind, Obj.pwalk, oEvs, reference]
  · intro n ih g s m
    simp only [extendObj, ih, bind_assoc, pure_bind, Obj.pwalk, oEvs, reference]
    congr 1
    funext m'
    congr 3
    obtain ⟨i, id, ty, gr, inc, ps, rv⟩ := n
    simp [Node.pwalk, relabelHeader, relabelNodeId_eq, Node.id, rid, Node.withId]
  · intro i id ty gr inc ps rv hg hinc hps hrv g s m
    have hgr : ∀ (g : Option Id) (id : Id) s m, extendGraph gen g id gr (s, m) =
        m.applyAll (grEvs g id (gPwalk F gr s).1) >>= fun m' => pure ((gPwalk F gr s).2, m') := by
      intro g id s m
      cases gr with
      | none => rfl
      | some l =>
        simp only [extendGraph, extendObjs_eq_of gen (hg l rfl), bind_assoc, pure_bind, gPwalk, grEvs,
          applyAll_cons, applyAll_append, NodeMap.apply, applyAll_nil]
    have hin : ∀ (g : Option Id) s m, extendIncluded gen g inc (s, m) =
        m.applyAll (incEvs g (incPwalk F inc s).1) >>= fun m' => pure ((incPwalk F inc s).2, m') := by
      intro g s m
      cases inc with
      | none => rfl
      | some l =>
        simp only [extendIncluded, extendNodes_eq_of gen (hinc l rfl), incPwalk, incEvs]
    have hpp : ∀ (g : Option Id) (id : Id) s m, extendProps gen g id ps (s, m) =
        m.applyAll (psEvs g id (psPwalk F ps s).1) >>= fun m' => pure ((psPwalk F ps s).2, m') := by
      intro g id
      clear hgr hin
      induction ps with
      | nil => intro s m; rfl
      | cons p ps ih =>
        intro s m
        obtain ⟨k, os⟩ := p
        have ih' := ih fun p hp => hps p (List.mem_cons_of_mem _ hp)
        simp only [extendProps, extendObjs_eq_of gen (hps _ List.mem_cons_self), ih', bind_assoc,
          pure_bind, psPwalk, psEvs, applyAll_append, applyAll_cons, NodeMap.apply]
    have hrr : ∀ (g : Option Id) (id : Id) s m, extendRev gen g id rv (s, m) =
        m.applyAll (rvEvs g id (rvPwalk F rv s).1) >>= fun m' => pure ((rvPwalk F rv s).2, m') := by
      intro g id
      cases rv with
      | none => intro s m; rfl
      | some l =>
        intro s m
        simp only [extendRev, rvPwalk, rvEvs]
        have hrv' := hrv l rfl
        clear hgr hin hpp hrv
        induction l generalizing s m with
        | nil => rfl
        | cons p ps ih =>
          obtain ⟨k, os⟩ := p
          have ih' := fun s m => ih s m fun p hp => hrv' p (List.mem_cons_of_mem _ hp)
          simp only [extendRps, extendSubjects_eq_of gen (hrv' _ List.mem_cons_self), ih',
            bind_assoc, pure_bind, rpsPwalk, rpsEvs, applyAll_append]
    simp only [extendNode, Node.pwalk, relabelHeader, relabelNodeId_eq, nEvs, applyAll_cons,
      applyAll_append, extendTypes_eq, hgr, hin, hpp, hrr, bind_assoc, pure_bind, rid, Node.id,
      Option.getD_some, NodeMap.apply]

theorem nodeMap_eq (d : Doc) (n : Nat) :
    d.nodeMap gen n = (⟨[], []⟩ : NodeMap).applyAll (osEvs none (objsPwalk F d ⟨n, []⟩).1) := by
  simp only [Doc.nodeMap, extendObjs_eq_of gen (fun o _ => (extend_eq gen).1 o), bind_assoc, pure_bind,
    bind_pure]

end

end JsonLd
