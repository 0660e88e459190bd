import Verif.Proofs.LinkedDataDoc
/-!
# Serialized linked data is well formed
-/

namespace JsonLd
open Spec

variable {E : LdEnv}

theorem mem_setInsert {α : Type} {eq : α → α → Bool} {l : List α} {x y : α}
    (h : y ∈ setInsert eq l x) : y ∈ l ∨ y = x := by
  unfold setInsert at h
  split at h
  · exact .inl h
  · simpa using h

theorem mem_setFold {α : Type} {eq : α → α → Bool} {l acc : List α} {y : α}
    (h : y ∈ l.foldl (setInsert eq) acc) : y ∈ acc ∨ y ∈ l := by
  induction l generalizing acc with
  | nil => exact .inl h
  | cons x l ih =>
    rcases ih h with h | h
    · rcases mem_setInsert h with h | rfl
      · exact .inl h
      · exact .inr List.mem_cons_self
    · exact .inr (List.mem_cons_of_mem _ h)

theorem gWF_collect {os : List Obj} (h : ∀ o ∈ os, o.WF) : gWF (some (setCollect Obj.eq os)) := by
  refine ⟨setFold_pairwise os [] .nil, objsWF_iff.2 fun o ho => ?_⟩
  rcases mem_setFold ho with ho | ho
  · cases ho
  · exact h o ho

theorem keys_setProp {α : Type} {p : Id} {v : α} {l : List (Id × α)} :
    (setProp p v l).map Prod.fst = if p ∈ l.map Prod.fst then l.map Prod.fst else l.map Prod.fst ++ [p] := by
  induction l with
  | nil => rfl
  | cons q l ih =>
    rw [setProp]
    by_cases h : q.1 = p
    · rw [if_pos h]
      simp [h]
    · rw [if_neg h, List.map_cons, ih]
      have : ¬ p = q.1 := fun e => h e.symm
      simp only [List.map_cons, List.mem_cons, this, false_or]
      split <;> simp

theorem nodup_setProp {α : Type} {p : Id} {v : α} {l : List (Id × α)} (h : (l.map Prod.fst).Nodup) :
    ((setProp p v l).map Prod.fst).Nodup := by
  rw [keys_setProp]
  split
  · exact h
  · rename_i hn
    rw [List.nodup_append]
    refine ⟨h, by simp, fun a ha b hb => ?_⟩
    rw [List.mem_singleton.1 hb]
    rintro rfl
    exact hn ha

theorem mem_setProp {α : Type} {p : Id} {v : α} {l : List (Id × α)} {q : Id × α}
    (h : q ∈ setProp p v l) : q ∈ l ∨ q = (p, v) := by
  induction l with
  | nil => simpa [setProp] using h
  | cons r l ih =>
    rw [setProp] at h
    split at h
    · rename_i hr
      rcases List.mem_cons.1 h with rfl | h
      · right
        rw [← hr]
      · exact .inl (List.mem_cons_of_mem _ h)
    · rcases List.mem_cons.1 h with rfl | h
      · exact .inl List.mem_cons_self
      · rcases ih h with h | h
        · exact .inl (List.mem_cons_of_mem _ h)
        · exact .inr h

theorem psWF_set {p : Id} {os : List Obj} {ps : List (Id × List Obj)} (h : psWF ps)
    (ho : ∀ o ∈ os, o.WF) : psWF (setProp p os ps) := by
  rw [psWF_iff] at h ⊢
  intro q hq
  rcases mem_setProp hq with hq | rfl
  · exact h q hq
  · exact ho

theorem rpsWF_set {p : Id} {os : List Node} {ps : List (Id × List Node)} (h : rpsWF ps)
    (ho : ∀ o ∈ os, o.WF) : rpsWF (setProp p os ps) := by
  rw [rpsWF_iff] at h ⊢
  intro q hq
  rcases mem_setProp hq with hq | rfl
  · exact h q hq
  · exact ho

theorem nonType_wf {os : List Obj} (h : ∀ o ∈ os, o.WF) : ∀ o ∈ nonTypeObjs os, o.WF :=
  fun o ho => h o (List.mem_of_mem_filter ho)

theorem pushTypes_wf {n : Node} {l : List Id} (h : n.WF) :
    (l.foldl (fun n t => Node.pushType t n) n).WF := by
  induction l generalizing n with
  | nil => exact h
  | cons t l ih =>
    refine ih ?_
    cases n
    exact h

theorem nodePredicate_wf {p : Id} {os : List Obj} {n : Node} (h : n.WF) (ho : ∀ o ∈ os, o.WF) :
    (nodePredicate p os n).WF := by
  have set : ∀ {n : Node} {os : List Obj}, n.WF → (∀ o ∈ os, o.WF) →
      (n.setProps (setProp p os n.props)).WF := by
    intro n os h ho
    cases n with
    | mk x i ty g inc ps rv =>
      exact ⟨h.1, h.2.1, nodup_setProp h.2.2.1, psWF_set h.2.2.2.1 ho, h.2.2.2.2⟩
  unfold nodePredicate
  split
  · dsimp only
    split
    · exact pushTypes_wf h
    · exact set (pushTypes_wf h) (nonType_wf ho)
  · exact set h ho

/-- What is serialized is well formed. -/
structure Wf (E : LdEnv) (v : LD) : Prop where
  obj : ∀ o, serObject E v = .ok o → o.WF
  node : ∀ n, serNode E v = .ok n → n.WF
  tail : ∀ s, serTail E v = .ok s → ∀ o ∈ s.finish, o.WF

theorem serObjects_wf {vs : List LD} {os : List Obj} (hv : ∀ v ∈ vs, Wf E v)
    (h : serObjects E vs = .ok os) : ∀ o ∈ os, o.WF := by
  induction vs generalizing os with
  | nil => cases h; simp
  | cons v vs ih =>
    rw [serObjects] at h
    split at h
    · cases h
    · rename_i o ho
      cases hs : serObjects E vs with
      | error e => rw [hs] at h; cases h
      | ok os' =>
        rw [hs] at h
        obtain rfl : o :: os' = os := Except.ok.inj h
        intro x hx
        rcases List.mem_cons.1 hx with rfl | hx
        · exact (hv v List.mem_cons_self).obj _ ho
        · exact ih (fun v hm => hv v (List.mem_cons_of_mem _ hm)) hs x hx

theorem serNodes_wf {vs : List LD} {os : List Node} (hv : ∀ v ∈ vs, Wf E v)
    (h : serNodes E vs = .ok os) : ∀ o ∈ os, o.WF := by
  induction vs generalizing os with
  | nil => cases h; simp
  | cons v vs ih =>
    rw [serNodes] at h
    split at h
    · cases h
    · rename_i o ho
      cases hs : serNodes E vs with
      | error e => rw [hs] at h; cases h
      | ok os' =>
        rw [hs] at h
        obtain rfl : o :: os' = os := Except.ok.inj h
        intro x hx
        rcases List.mem_cons.1 hx with rfl | hx
        · exact (hv v List.mem_cons_self).node _ ho
        · exact ih (fun v hm => hv v (List.mem_cons_of_mem _ hm)) hs x hx

theorem serFirst_wf {vs : List LD} {f r : Option Obj} (hv : ∀ v ∈ vs, Wf E v)
    (hf : ∀ o, f = some o → o.WF) (h : serFirst E vs f = .ok r) : ∀ o, r = some o → o.WF := by
  induction vs generalizing f with
  | nil =>
    obtain rfl : f = r := Except.ok.inj h
    exact hf
  | cons v vs ih =>
    rw [serFirst] at h
    split at h
    · cases h
    · rename_i o ho
      refine ih (fun v hm => hv v (List.mem_cons_of_mem _ hm)) ?_ h
      intro o' he
      obtain rfl : o = o' := Option.some.inj he
      exact (hv v List.mem_cons_self).obj _ ho

theorem serRest_wf {vs : List LD} {f r : List Obj} (hv : ∀ v ∈ vs, Wf E v)
    (hf : ∀ o ∈ f, o.WF) (h : serRest E vs f = .ok r) : ∀ o ∈ r, o.WF := by
  induction vs generalizing f with
  | nil =>
    obtain rfl : f = r := Except.ok.inj h
    exact hf
  | cons v vs ih =>
    rw [serRest_cons] at h
    split at h
    · cases h
    · rename_i s hs
      exact ih (fun v hm => hv v (List.mem_cons_of_mem _ hm)) ((hv v List.mem_cons_self).tail s hs) h

theorem nodeVisit_wf {v : LVisit} {n r : Node} (hv : ∀ o ∈ v.parts, Wf E o) (hn : n.WF)
    (h : nodeVisit E v n = .ok r) : r.WF := by
  cases v with
  | predicate p os =>
    unfold nodeVisit at h
    split at h
    · cases hs : serObjects E os with
      | error e => rw [hs] at h; cases h
      | ok os' =>
        rw [hs] at h
        obtain rfl : _ = r := Except.ok.inj h
        exact nodePredicate_wf hn (serObjects_wf hv hs)
    · cases h
  | reverse p os =>
    unfold nodeVisit at h
    split at h
    · cases hs : serNodes E os with
      | error e => rw [hs] at h; cases h
      | ok os' =>
        rw [hs] at h
        obtain rfl : _ = r := Except.ok.inj h
        cases n with
        | mk x i ty g inc ps rv =>
          refine ⟨hn.1, hn.2.1, hn.2.2.1, hn.2.2.2.1, ?_⟩
          have : ((rv.getD []).map Prod.fst).Nodup ∧ rpsWF (rv.getD []) := by
            match rv, hn.2.2.2.2 with
            | none, _ => exact ⟨by simp, trivial⟩
            | some l, h => exact h
          exact ⟨nodup_setProp this.1, rpsWF_set this.2 (serNodes_wf hv hs)⟩
    · cases h
  | graph os =>
    rw [nodeVisit] at h
    cases hs : serObjects E os with
    | error e => rw [hs] at h; cases h
    | ok os' =>
      rw [hs] at h
      obtain rfl : _ = r := Except.ok.inj h
      cases n with
      | mk x i ty g inc ps rv => exact ⟨gWF_collect (serObjects_wf hv hs), hn.2⟩
  | included o =>
    rw [nodeVisit] at h
    cases hs : serNode E o with
    | error e => rw [hs] at h; cases h
    | ok m =>
      rw [hs] at h
      obtain rfl : _ = r := Except.ok.inj h
      cases n with
      | mk x i ty g inc ps rv =>
        refine ⟨hn.1, ?_, hn.2.2⟩
        have : (inc.getD []).Pairwise (fun a b => b.eq a = false) ∧ nodesWF (inc.getD []) := by
          match inc, hn.2.1 with
          | none, _ => exact ⟨.nil, trivial⟩
          | some l, h => exact h
        refine ⟨setFold_pairwise [m] _ this.1, nodesWF_iff.2 fun o ho => ?_⟩
        rcases mem_setInsert ho with ho | rfl
        · exact nodesWF_iff.1 this.2 o ho
        · exact (hv _ List.mem_cons_self).node _ hs

theorem nodeVisits_wf {vs : List LVisit} {n r : Node} (hv : ∀ v ∈ vs, ∀ o ∈ v.parts, Wf E o)
    (hn : n.WF) (h : nodeVisits E vs n = .ok r) : r.WF := by
  induction vs generalizing n with
  | nil => cases h; exact hn
  | cons v vs ih =>
    rw [nodeVisits] at h
    split at h
    · cases h
    · rename_i m hm
      exact ih (fun w hw => hv w (List.mem_cons_of_mem _ hw))
        (nodeVisit_wf (hv v List.mem_cons_self) hn hm) h

/-- First and rest are well formed. -/
def LObjState.Wfs (s : LObjState) : Prop := (∀ o, s.first = some o → o.WF) ∧
  ∀ r, s.rest = some r → ∀ o ∈ r, o.WF

theorem objVisit_wfs {v : LVisit} {s s' : LObjState} (hv : ∀ o ∈ v.parts, Wf E o) (hs : s.Wfs)
    (h : objVisit E v s = .ok s') : s'.Wfs := by
  cases v with
  | predicate p os =>
    unfold objVisit at h
    split at h
    · split at h
      · cases h
      · rename_i t ht
        cases ho : serObjects E os with
        | error e => rw [ho] at h; cases h
        | ok os' =>
          rw [ho] at h
          obtain rfl : _ = s' := Except.ok.inj h
          unfold LObjState.Wfs
          rw [predicate_first.1, predicate_first.2]
          split at ht
          · cases hf : serFirst E os none with
            | error e => rw [hf] at ht; cases ht
            | ok f =>
              rw [hf] at ht
              obtain rfl : _ = t := Except.ok.inj ht
              exact ⟨serFirst_wf hv (by simp) hf, hs.2⟩
          · split at ht
            · cases hf : serRest E os [] with
              | error e => rw [hf] at ht; cases ht
              | ok f =>
                rw [hf] at ht
                obtain rfl : _ = t := Except.ok.inj ht
                refine ⟨hs.1, ?_⟩
                rintro r hr
                obtain rfl : f = r := Option.some.inj hr
                exact serRest_wf hv (by simp) hf
            · obtain rfl : s = t := Except.ok.inj ht
              exact hs
    · cases h
  | reverse p os =>
    unfold objVisit at h
    split at h
    · cases ho : serNodes E os <;> rw [ho] at h <;> cases h
      exact hs
    · cases h
  | graph os =>
    rw [objVisit] at h
    cases ho : serObjects E os <;> rw [ho] at h <;> cases h
    exact hs
  | included o =>
    rw [objVisit] at h
    cases ho : serNode E o <;> rw [ho] at h <;> cases h
    exact hs

theorem objVisits_wfs {vs : List LVisit} {s s' : LObjState} (hv : ∀ v ∈ vs, ∀ o ∈ v.parts, Wf E o)
    (hs : s.Wfs) (h : objVisits E vs s = .ok s') : s'.Wfs := by
  induction vs generalizing s with
  | nil => cases h; exact hs
  | cons v vs ih =>
    rw [objVisits] at h
    split at h
    · cases h
    · rename_i m hm
      exact ih (fun w hw => hv w (List.mem_cons_of_mem _ hw))
        (objVisit_wfs (hv v List.mem_cons_self) hs hm) h

theorem listVisit_wf {v : LVisit} {s s' : LListState} (hv : ∀ o ∈ v.parts, Wf E o)
    (hs : ∀ o ∈ s.finish, o.WF) (h : listVisit E v s = .ok s') : ∀ o ∈ s'.finish, o.WF := by
  have split' : ∀ {s : LListState}, (∀ o ∈ s.finish, o.WF) ↔
      (∀ o, s.first = some o → o.WF) ∧ ∀ o ∈ s.rest, o.WF := by
    intro s
    unfold LListState.finish
    constructor
    · intro h
      refine ⟨fun o ho => ?_, fun o ho => h o (List.mem_append_left _ ho)⟩
      exact h o (by rw [ho]; simp)
    · rintro ⟨h1, h2⟩ o ho
      rcases List.mem_append.1 ho with ho | ho
      · exact h2 o ho
      · rw [List.mem_singleton.1 ho]
        cases hf : s.first with
        | none => trivial
        | some f => exact h1 f hf
  rw [split'] at hs ⊢
  cases v with
  | predicate p os =>
    unfold listVisit at h
    split at h
    · split at h
      · cases hf : serFirst E os none with
        | error e => rw [hf] at h; cases h
        | ok f =>
          rw [hf] at h
          obtain rfl : _ = s' := Except.ok.inj h
          exact ⟨serFirst_wf hv (by simp) hf, hs.2⟩
      · split at h
        · cases hf : serRest E os [] with
          | error e => rw [hf] at h; cases h
          | ok f =>
            rw [hf] at h
            obtain rfl : _ = s' := Except.ok.inj h
            exact ⟨hs.1, serRest_wf hv (by simp) hf⟩
        · obtain rfl : s = s' := Except.ok.inj h
          exact hs
    · cases h
  | reverse p os => rw [listVisit] at h; cases h
  | graph os =>
    rw [listVisit] at h
    obtain rfl : s = s' := Except.ok.inj h
    exact hs
  | included o => rw [listVisit] at h; cases h

theorem listVisits_wf {vs : List LVisit} {s s' : LListState} (hv : ∀ v ∈ vs, ∀ o ∈ v.parts, Wf E o)
    (hs : ∀ o ∈ s.finish, o.WF) (h : listVisits E vs s = .ok s') : ∀ o ∈ s'.finish, o.WF := by
  induction vs generalizing s with
  | nil => cases h; exact hs
  | cons v vs ih =>
    rw [listVisits] at h
    split at h
    · cases h
    · rename_i m hm
      exact ih (fun w hw => hv w (List.mem_cons_of_mem _ hw))
        (listVisit_wf (hv v List.mem_cons_self) hs hm) h

theorem startNode_wf (i : Option Id) : (startNode i).WF := ⟨trivial, trivial, by simp, trivial, trivial⟩

theorem insertAll_wf {p : Id} {o : Obj} {ps : List (Id × List Obj)} (h : (ps.map Prod.fst).Nodup ∧ psWF ps)
    (ho : o.WF) : ((insertAll p [o] ps).map Prod.fst).Nodup ∧ psWF (insertAll p [o] ps) := by
  have key : ∀ ps : List (Id × List Obj), (insertAll p [o] ps).map Prod.fst =
      if p ∈ ps.map Prod.fst then ps.map Prod.fst else ps.map Prod.fst ++ [p] := by
    intro ps
    induction ps with
    | nil => rfl
    | cons q l ih =>
      rw [insertAll]
      by_cases h : q.1 = p
      · rw [if_pos h]
        simp [h]
      · rw [if_neg h, List.map_cons, ih]
        have : ¬ p = q.1 := fun e => h e.symm
        simp only [List.map_cons, List.mem_cons, this, false_or]
        split <;> simp
  constructor
  · rw [key]
    split
    · exact h.1
    · rename_i hn
      rw [List.nodup_append]
      refine ⟨h.1, by simp, fun a ha b hb => ?_⟩
      rw [List.mem_singleton.1 hb]
      rintro rfl
      exact hn ha
  · replace h := h.2
    clear key
    induction ps with
    | nil => exact ⟨⟨ho, trivial⟩, trivial⟩
    | cons q l ih =>
      obtain ⟨q, os⟩ := q
      rw [insertAll]
      split
      · refine ⟨objsWF_iff.2 fun x hx => ?_, h.2⟩
        rcases List.mem_append.1 hx with hx | hx
        · exact objsWF_iff.1 h.1 x hx
        · rw [List.mem_singleton.1 hx]
          exact ho
      · exact ⟨h.1, ih h.2⟩

theorem wf (v : LD) : Wf E v := by
  induction v using LD.ind with
  | h t vs ih =>
    constructor
    · intro o h
      match t with
      | some (.lit l) =>
        rw [serObject] at h
        obtain rfl : _ = o := Except.ok.inj h
        trivial
      | some (.id i) =>
        rw [serObject] at h
        cases hs : nodeVisits E vs (startNode (some i)) with
        | error e => rw [hs] at h; cases h
        | ok n =>
          rw [hs] at h
          obtain rfl : _ = o := Except.ok.inj h
          exact nodeVisits_wf ih (startNode_wf _) hs
      | none =>
        rw [serObject] at h
        cases hs : objVisits E vs {} with
        | error e => rw [hs] at h; cases h
        | ok s =>
          rw [hs] at h
          obtain rfl : s.finish = o := Except.ok.inj h
          have hn := nodeVisits_wf ih (startNode_wf none) (objVisits_node hs)
          have hw : s.Wfs := objVisits_wfs ih ⟨by simp, by simp⟩ hs
          rw [finish_eq (objVisits_inv inv_start hs)]
          obtain ⟨w1, w2, w3, w4, w5⟩ := hn
          have : (s.ext.map Prod.fst).Nodup ∧ psWF s.ext := by
            unfold LObjState.ext
            have h1 : ((match s.first with
                | some f => insertAll rdfFirst [f] s.props
                | none => s.props).map Prod.fst).Nodup ∧ psWF (match s.first with
                | some f => insertAll rdfFirst [f] s.props
                | none => s.props) := by
              cases hf : s.first with
              | none => exact ⟨w3, w4⟩
              | some f => exact insertAll_wf ⟨w3, w4⟩ (hw.1 f hf)
            cases hr : s.rest with
            | none => exact h1
            | some r => exact insertAll_wf h1 (objsWF_iff.2 (hw.2 r hr))
          exact ⟨w1, w2, this.1, this.2, w5⟩
    · intro n h
      match t with
      | some (.lit l) => rw [serNode] at h; cases h
      | some (.id i) =>
        rw [serNode] at h
        exact nodeVisits_wf ih (startNode_wf _) h
      | none =>
        rw [serNode] at h
        exact nodeVisits_wf ih (startNode_wf _) h
    · intro s h
      rw [serTail] at h
      refine listVisits_wf ih ?_ h
      intro o ho
      rw [show LListState.finish {} = [.value none (.literal .null none)] from rfl,
        List.mem_singleton] at ho
      rw [ho]
      trivial

theorem setInsert_docWF {d : Doc} {o : Obj} (hd : d.WF) (ho : o.WF) : Doc.WF (setInsert Obj.eq d o) := by
  refine ⟨setFold_pairwise [o] d hd.1, objsWF_iff.2 fun x hx => ?_⟩
  rcases mem_setInsert hx with hx | rfl
  · exact objsWF_iff.1 hd.2 x hx
  · exact ho

theorem serDefault_wf {ss : List LD} {d r : Doc} (hd : d.WF) (h : serDefault E d ss = .ok r) : r.WF := by
  induction ss generalizing d with
  | nil => cases h; exact hd
  | cons s ss ih =>
    rw [serDefault] at h
    split at h
    · cases h
    · rename_i o ho
      refine ih (setInsert_docWF hd ?_) h
      obtain ⟨t, vs⟩ := s
      match t with
      | some (.lit l) =>
        rw [serSubject] at ho
        obtain rfl : _ = o := Except.ok.inj ho
        trivial
      | some (.id i) =>
        rw [serSubject] at ho
        exact (wf (.mk (some (.id i)) vs)).obj o (by rw [serObject]; exact ho)
      | none =>
        rw [serSubject] at ho
        cases hs : nodeVisits E vs (startNode none) with
        | error e => rw [hs] at ho; cases ho
        | ok n =>
          rw [hs] at ho
          obtain rfl : _ = o := Except.ok.inj ho
          exact nodeVisits_wf (fun v _ o _ => wf o) (startNode_wf _) hs

theorem ldSerialize_wf {gs : List LGraph} {d : Doc} (h : ldSerialize E gs = .ok d) : d.WF := by
  unfold ldSerialize at h
  have key : ∀ d0 : Doc, d0.WF → gs.foldlM (serGraph E) d0 = .ok d → d.WF := by
    clear h
    induction gs with
    | nil =>
      intro d0 h0 h
      obtain rfl : d0 = d := Except.ok.inj h
      exact h0
    | cons g gs ih =>
      intro d0 h0 h
      rw [List.foldlM_cons] at h
      cases hg : serGraph E d0 g with
      | error e => rw [hg] at h; cases h
      | ok d1 =>
        rw [hg] at h
        refine ih d1 ?_ h
        cases g with
        | default ss => exact serDefault_wf h0 hg
        | named t ss =>
          have gn : ∀ (i : Option Id) (os : List Obj), serObjects E ss = .ok os →
              Obj.WF (.node ((startNode i).setGraphEntry (some (setCollect Obj.eq os)))) := by
            intro i os hs
            exact ⟨gWF_collect (serObjects_wf (fun v _ => wf v) hs), trivial, by simp, trivial, trivial⟩
          unfold serGraph at hg
          match t with
          | some (.lit l) => cases hg
          | some (.id i) =>
            cases hs : serObjects E ss with
            | error e => simp only [hs] at hg; cases hg
            | ok os =>
              simp only [hs] at hg
              obtain rfl : _ = d1 := Except.ok.inj hg
              exact setInsert_docWF h0 (gn _ os hs)
          | none =>
            cases hs : serObjects E ss with
            | error e => simp only [hs] at hg; cases hg
            | ok os =>
              simp only [hs] at hg
              obtain rfl : _ = d1 := Except.ok.inj hg
              exact setInsert_docWF h0 (gn _ os hs)
  exact key [] ⟨.nil, trivial⟩ h

end JsonLd
