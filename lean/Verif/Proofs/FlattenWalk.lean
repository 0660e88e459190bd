import Verif.Proofs.FlattenEvents
import Verif.Proofs.Identify
/-!
# Labelling is relabelling
-/

namespace JsonLd
open Spec

section ok
variable {σ : Type} {f : Header → σ → Header × σ} {fi : Option Id → Option Id} {ti : Id → Id}
  {le : σ → σ → Prop} {I : σ → Prop} {P : Header → Prop} {fin : σ}

theorem objsPwalk_eq (ok : StepOk f fi ti le I P fin) {l : List Obj}
    (h : ∀ o ∈ l, ∀ s, I s → le (o.walk f s).2 fin → o.pwalk f s = o.walk f s) (s : σ) (hI : I s)
    (hle : le (objsWalk f l s).2 fin) : objsPwalk f l s = objsWalk f l s := by
  induction l generalizing s with
  | nil => rfl
  | cons o os ih =>
    have hle' : le (objsWalk f os (o.walk f s).2).2 fin := hle
    have h1 := h o List.mem_cons_self s hI
      (ok.trans _ _ _ (by rw [objsWalk_state]; exact runH_le ok _ _) hle')
    have h2 := ih (fun o ho => h o (List.mem_cons_of_mem _ ho)) (o.walk f s).2
      (by rw [(walk_state f).1]; exact runH_I ok _ _ hI) hle'
    simp only [objsPwalk, objsWalk, h1, h2]

theorem nodesPwalk_eq (ok : StepOk f fi ti le I P fin) {l : List Node}
    (h : ∀ o ∈ l, ∀ s, I s → le (o.walk f s).2 fin → o.pwalk f s = o.walk f s) (s : σ) (hI : I s)
    (hle : le (nodesWalk f l s).2 fin) : nodesPwalk f l s = nodesWalk f l s := by
  induction l generalizing s with
  | nil => rfl
  | cons o os ih =>
    have hle' : le (nodesWalk f os (o.walk f s).2).2 fin := hle
    have h1 := h o List.mem_cons_self s hI
      (ok.trans _ _ _ (by rw [nodesWalk_state]; exact runH_le ok _ _) hle')
    have h2 := ih (fun o ho => h o (List.mem_cons_of_mem _ ho)) (o.walk f s).2
      (by rw [(walk_state f).2]; exact runH_I ok _ _ hI) hle'
    simp only [nodesPwalk, nodesWalk, h1, h2]

theorem psPwalk_eq (ok : StepOk f fi ti le I P fin) {l : List (Id × List Obj)}
    (h : ∀ p ∈ l, ∀ o ∈ p.2, ∀ s, I s → le (o.walk f s).2 fin → o.pwalk f s = o.walk f s) (s : σ)
    (hI : I s) (hle : le (psWalk f l s).2 fin) : psPwalk f l s = psWalk f l s := by
  induction l generalizing s with
  | nil => rfl
  | cons p ps ih =>
    obtain ⟨k, os⟩ := p
    have hle' : le (psWalk f ps (objsWalk f os s).2).2 fin := hle
    have h1 := objsPwalk_eq ok (h _ List.mem_cons_self) s hI
      (ok.trans _ _ _ (by rw [psWalk_state]; exact runH_le ok _ _) hle')
    have h2 := ih (fun p hp => h p (List.mem_cons_of_mem _ hp)) (objsWalk f os s).2
      (by rw [objsWalk_state]; exact runH_I ok _ _ hI) hle'
    simp only [psPwalk, psWalk, h1, h2]

theorem rpsPwalk_eq (ok : StepOk f fi ti le I P fin) {l : List (Id × List Node)}
    (h : ∀ p ∈ l, ∀ o ∈ p.2, ∀ s, I s → le (o.walk f s).2 fin → o.pwalk f s = o.walk f s) (s : σ)
    (hI : I s) (hle : le (rpsWalk f l s).2 fin) : rpsPwalk f l s = rpsWalk f l s := by
  induction l generalizing s with
  | nil => rfl
  | cons p ps ih =>
    obtain ⟨k, os⟩ := p
    have hle' : le (rpsWalk f ps (nodesWalk f os s).2).2 fin := hle
    have h1 := nodesPwalk_eq ok (h _ List.mem_cons_self) s hI
      (ok.trans _ _ _ (by rw [rpsWalk_state]; exact runH_le ok _ _) hle')
    have h2 := ih (fun p hp => h p (List.mem_cons_of_mem _ hp)) (nodesWalk f os s).2
      (by rw [nodesWalk_state]; exact runH_I ok _ _ hI) hle'
    simp only [rpsPwalk, rpsWalk, h1, h2]

theorem pwalk_eq (ok : StepOk f fi ti le I P fin) :
    (∀ o : Obj, o.WF → (∀ h ∈ objHeaders o, P h) → ∀ s, I s → le (o.walk f s).2 fin →
      o.pwalk f s = o.walk f s) ∧
    (∀ n : Node, n.WF → (∀ h ∈ nodeHeaders n, P h) → ∀ s, I s → le (n.walk f s).2 fin →
      n.pwalk f s = n.walk f s) := by
  apply Doc.ind
  · intro i v _ _ s _ _; rfl
  · intro i l ih hw hP s hI hle
    simp only [Obj.WF, objsWF_iff] at hw
    have := objsPwalk_eq ok (fun o ho => ih o ho (hw o ho) fun h hh =>
      hP h (mem_objsHeaders ho hh)) s hI hle
    simp only [Obj.walk, Obj.pwalk, this]
  · intro n ih hw hP s hI hle
    have := ih hw hP s hI hle
    simp only [Obj.walk, Obj.pwalk, this]
  · intro i id ty g inc ps rv ihg ihi ihp ihr hw hP s hI hle
    obtain ⟨wg, winc, wk, wps, wrv⟩ := hw
    simp only [nodeHeaders, List.forall_mem_cons, List.forall_mem_append] at hP
    obtain ⟨hP0, ⟨⟨hPg, hPi⟩, hPp⟩, hPr⟩ := hP
    have l4 : le (rvWalk f rv (psWalk f ps (incWalk f inc (gWalk f g
      (f (id, ty) s).2).2).2).2).2 fin := hle
    have l3 : le (psWalk f ps (incWalk f inc (gWalk f g (f (id, ty) s).2).2).2).2 fin :=
      ok.trans _ _ _ (by rw [rvWalk_state]; exact runH_le ok _ _) l4
    have l2 : le (incWalk f inc (gWalk f g (f (id, ty) s).2).2).2 fin :=
      ok.trans _ _ _ (by rw [psWalk_state]; exact runH_le ok _ _) l3
    have l1 : le (gWalk f g (f (id, ty) s).2).2 fin :=
      ok.trans _ _ _ (by rw [incWalk_state]; exact runH_le ok _ _) l2
    have i0 := ok.pres (id, ty) s hI
    have i1 : I (gWalk f g (f (id, ty) s).2).2 := by
      rw [gWalk_state]; exact runH_I ok _ _ i0
    have i2 : I (incWalk f inc (gWalk f g (f (id, ty) s).2).2).2 := by
      rw [incWalk_state]; exact runH_I ok _ _ i1
    have i3 : I (psWalk f ps (incWalk f inc (gWalk f g (f (id, ty) s).2).2).2).2 := by
      rw [psWalk_state]; exact runH_I ok _ _ i2
    have h1 : gPwalk f g (f (id, ty) s).2 = gWalk f g (f (id, ty) s).2 := by
      cases g with
      | none => rfl
      | some l =>
        have hm := objsWalk_ok ok (fun o ho => (walk_ok ok).1 o (objsWF_iff.1 wg.2 o ho) fun h hh =>
          hPg h (mem_objsHeaders ho hh)) (f (id, ty) s).2 i0 l1
        have hc := collect_objs hm.1 wg
        have := objsPwalk_eq ok (fun o ho => ihg l rfl o ho (objsWF_iff.1 wg.2 o ho) fun h hh =>
          hPg h (mem_objsHeaders ho hh)) (f (id, ty) s).2 i0 l1
        simp only [gWalk, gPwalk, hc, this]
    have h2 : ∀ s', I s' → le (incWalk f inc s').2 fin → incPwalk f inc s' = incWalk f inc s' := by
      intro s' hI' l2
      cases inc with
      | none => rfl
      | some l =>
        have hm := nodesWalk_ok ok (fun o ho => (walk_ok ok).2 o (nodesWF_iff.1 winc.2 o ho) fun h hh =>
          hPi h (mem_nodesHeaders ho hh)) s' hI' l2
        have hc := collect_nodes hm.1 winc
        have := nodesPwalk_eq ok (fun o ho => ihi l rfl o ho (nodesWF_iff.1 winc.2 o ho) fun h hh =>
          hPi h (mem_nodesHeaders ho hh)) s' hI' l2
        simp only [incWalk, incPwalk, hc, this]
    have h3 := fun s' hI' l3 => psPwalk_eq ok (fun p hp o ho => ihp p hp o ho
      (psWF_iff.1 wps p hp o ho) fun h hh => hPp h (mem_psHeaders hp ho hh)) s' hI' l3
    have h4 : ∀ s', I s' → le (rvWalk f rv s').2 fin → rvPwalk f rv s' = rvWalk f rv s' := by
      intro s' hI' l4
      cases rv with
      | none => rfl
      | some l =>
        have := rpsPwalk_eq ok (fun p hp o ho => ihr l rfl p hp o ho
          (rpsWF_iff.1 wrv.2 p hp o ho) fun h hh => hPr h (mem_rpsHeaders hp ho hh)) s' hI' l4
        simp only [rvWalk, rvPwalk, this]
    simp only [Node.walk, Node.pwalk, h1, h2 _ i1 l2, h3 _ i2 l3, h4 _ i3 l4]

end ok

/-- The labelled document of flattening is the relabelled document. -/
theorem pwalk_relabel (gen : Nat → Id) (hinj : ∀ i j, gen i = gen j → i = j) (d : Doc) (hd : d.WF)
    (hfresh : ∀ h ∈ docHeaders d, ∀ i ∈ headerIds h, (∀ b, i ≠ .blank b) → ∀ k, gen k ≠ i)
    (n : Nat) : (objsPwalk (relabelHeader gen) d ⟨n, []⟩).1 = (d.relabel gen n).1 := by
  have hI : RelInv gen ⟨n, []⟩ := by
    constructor <;> simp [Relabeling.get]
  have ok0 := relabel_ok (gen := gen) hinj hI
  have hf : RelInv gen (runH (relabelHeader gen) (docHeaders d) ⟨n, []⟩).2 :=
    runH_I ok0 _ _ hI
  have ok := relabel_ok hinj hf
  have hw' := objsWF_iff.1 hd.2
  have hle := ok.refl (runH (relabelHeader gen) (docHeaders d) ⟨n, []⟩).2
  have hle' : RelLe gen (objsWalk (relabelHeader gen) d ⟨n, []⟩).2
      (runH (relabelHeader gen) (docHeaders d) ⟨n, []⟩).2 := by
    rw [objsWalk_state]; exact hle
  have h1 := objsWalk_ok ok (l := d) (fun o ho => (walk_ok ok).1 o (hw' o ho) fun h hh =>
    hfresh h (mem_objsHeaders ho hh)) ⟨n, []⟩ hI hle'
  have h2 := objsPwalk_eq ok (l := d) (fun o ho => (pwalk_eq ok).1 o (hw' o ho) fun h hh =>
    hfresh h (mem_objsHeaders ho hh)) ⟨n, []⟩ hI hle'
  have hc := collect_objs h1.1 hd
  simp only [Doc.relabel, Doc.walk, hc, h2]

end JsonLd
