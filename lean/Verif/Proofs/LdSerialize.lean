import Verif.Spec.LdSerialize
/-!
# Faults of linked data
-/

namespace JsonLd
open Spec

/-- The resources that occur in something told about a node. -/
def LVisit.parts : LVisit → List LD
  | .predicate _ os => os
  | .reverse _ os => os
  | .graph os => os
  | .included o => [o]

/-- Induction over linked data. -/
theorem LD.ind {P : LD → Prop}
    (h : ∀ t vs, (∀ v ∈ vs, ∀ o ∈ v.parts, P o) → P (.mk t vs)) (v : LD) : P v :=
  LD.rec (motive_1 := P) (motive_2 := fun v => ∀ o ∈ v.parts, P o)
    (motive_3 := fun vs => ∀ v ∈ vs, ∀ o ∈ v.parts, P o) (motive_4 := fun os => ∀ o ∈ os, P o)
    h (fun _ _ h => h) (fun _ _ h => h) (fun _ h => h)
    (fun v hv o ho => by rw [List.mem_singleton.1 ho]; exact hv)
    (by simp) (by intro v vs h hs w hw; rcases List.mem_cons.1 hw with rfl | hw; exacts [h, hs w hw])
    (by simp) (by intro v vs h hs w hw; rcases List.mem_cons.1 hw with rfl | hw; exacts [h, hs w hw]) v

/-- The tail of a list. -/
def serTail (E : LdEnv) : LD → Except LdErr LListState
  | .mk _ vs => listVisits E vs {}

/-- An error. -/
def Failed {α : Type} (x : Except LdErr α) : Prop := ∃ e, x = .error e

theorem Failed.map {α β : Type} {x : Except LdErr α} {f : α → β} : Failed (x.map f) ↔ Failed x := by
  cases x <;> simp [Failed, Except.map]

theorem map_error {α β : Type} {x : Except LdErr α} {f : α → β} {e : LdErr} :
    x.map f = .error e ↔ x = .error e := by
  cases x <;> simp [Except.map]

section Seq
variable {E : LdEnv}

theorem nodeVisits_error {vs : List LVisit} {n : Node} {e : LdErr} (h : nodeVisits E vs n = .error e) :
    ∃ v ∈ vs, ∃ n, nodeVisit E v n = .error e := by
  induction vs generalizing n with
  | nil => simp [nodeVisits] at h
  | cons v vs ih =>
    rw [nodeVisits] at h
    split at h
    · rename_i e' he
      cases h
      exact ⟨v, List.mem_cons_self, n, he⟩
    · obtain ⟨w, hw, hn⟩ := ih h
      exact ⟨w, List.mem_cons_of_mem _ hw, hn⟩

theorem nodeVisits_failed {vs : List LVisit} {v : LVisit} (hv : v ∈ vs)
    (h : ∀ n, Failed (nodeVisit E v n)) (n : Node) : Failed (nodeVisits E vs n) := by
  induction vs generalizing n with
  | nil => cases hv
  | cons w vs ih =>
    rw [nodeVisits]
    split
    · exact ⟨_, rfl⟩
    · rename_i m hm
      rcases List.mem_cons.1 hv with rfl | hv
      · obtain ⟨e, he⟩ := h n
        rw [he] at hm
        cases hm
      · exact ih hv m

theorem objVisits_error {vs : List LVisit} {n : LObjState} {e : LdErr}
    (h : objVisits E vs n = .error e) : ∃ v ∈ vs, ∃ n, objVisit E v n = .error e := by
  induction vs generalizing n with
  | nil => simp [objVisits] at h
  | cons v vs ih =>
    rw [objVisits] at h
    split at h
    · rename_i e' he
      cases h
      exact ⟨v, List.mem_cons_self, n, he⟩
    · obtain ⟨w, hw, hn⟩ := ih h
      exact ⟨w, List.mem_cons_of_mem _ hw, hn⟩

theorem objVisits_failed {vs : List LVisit} {v : LVisit} (hv : v ∈ vs)
    (h : ∀ n, Failed (objVisit E v n)) (n : LObjState) : Failed (objVisits E vs n) := by
  induction vs generalizing n with
  | nil => cases hv
  | cons w vs ih =>
    rw [objVisits]
    split
    · exact ⟨_, rfl⟩
    · rename_i m hm
      rcases List.mem_cons.1 hv with rfl | hv
      · obtain ⟨e, he⟩ := h n
        rw [he] at hm
        cases hm
      · exact ih hv m

theorem listVisits_error {vs : List LVisit} {n : LListState} {e : LdErr}
    (h : listVisits E vs n = .error e) : ∃ v ∈ vs, ∃ n, listVisit E v n = .error e := by
  induction vs generalizing n with
  | nil => simp [listVisits] at h
  | cons v vs ih =>
    rw [listVisits] at h
    split at h
    · rename_i e' he
      cases h
      exact ⟨v, List.mem_cons_self, n, he⟩
    · obtain ⟨w, hw, hn⟩ := ih h
      exact ⟨w, List.mem_cons_of_mem _ hw, hn⟩

theorem listVisits_failed {vs : List LVisit} {v : LVisit} (hv : v ∈ vs)
    (h : ∀ n, Failed (listVisit E v n)) (n : LListState) : Failed (listVisits E vs n) := by
  induction vs generalizing n with
  | nil => cases hv
  | cons w vs ih =>
    rw [listVisits]
    split
    · exact ⟨_, rfl⟩
    · rename_i m hm
      rcases List.mem_cons.1 hv with rfl | hv
      · obtain ⟨e, he⟩ := h n
        rw [he] at hm
        cases hm
      · exact ih hv m

theorem serObjects_error {vs : List LD} {e : LdErr} (h : serObjects E vs = .error e) :
    ∃ v ∈ vs, serObject E v = .error e := by
  induction vs with
  | nil => simp [serObjects] at h
  | cons v vs ih =>
    rw [serObjects] at h
    split at h
    · rename_i e' he
      cases h
      exact ⟨v, List.mem_cons_self, he⟩
    · obtain ⟨w, hw, hn⟩ := ih (map_error.1 h)
      exact ⟨w, List.mem_cons_of_mem _ hw, hn⟩

theorem serObjects_failed {vs : List LD} {v : LD} (hv : v ∈ vs) (h : Failed (serObject E v)) :
    Failed (serObjects E vs) := by
  induction vs with
  | nil => cases hv
  | cons w vs ih =>
    rw [serObjects]
    split
    · exact ⟨_, rfl⟩
    · rename_i m hm
      rcases List.mem_cons.1 hv with rfl | hv
      · obtain ⟨e, he⟩ := h
        rw [he] at hm
        cases hm
      · exact Failed.map.2 (ih hv)

theorem serNodes_error {vs : List LD} {e : LdErr} (h : serNodes E vs = .error e) :
    ∃ v ∈ vs, serNode E v = .error e := by
  induction vs with
  | nil => simp [serNodes] at h
  | cons v vs ih =>
    rw [serNodes] at h
    split at h
    · rename_i e' he
      cases h
      exact ⟨v, List.mem_cons_self, he⟩
    · obtain ⟨w, hw, hn⟩ := ih (map_error.1 h)
      exact ⟨w, List.mem_cons_of_mem _ hw, hn⟩

theorem serNodes_failed {vs : List LD} {v : LD} (hv : v ∈ vs) (h : Failed (serNode E v)) :
    Failed (serNodes E vs) := by
  induction vs with
  | nil => cases hv
  | cons w vs ih =>
    rw [serNodes]
    split
    · exact ⟨_, rfl⟩
    · rename_i m hm
      rcases List.mem_cons.1 hv with rfl | hv
      · obtain ⟨e, he⟩ := h
        rw [he] at hm
        cases hm
      · exact Failed.map.2 (ih hv)

theorem serFirst_error {vs : List LD} {f : Option Obj} {e : LdErr} (h : serFirst E vs f = .error e) :
    ∃ v ∈ vs, serObject E v = .error e := by
  induction vs generalizing f with
  | nil => simp [serFirst] at h
  | cons v vs ih =>
    rw [serFirst] at h
    split at h
    · rename_i e' he
      cases h
      exact ⟨v, List.mem_cons_self, he⟩
    · obtain ⟨w, hw, hn⟩ := ih h
      exact ⟨w, List.mem_cons_of_mem _ hw, hn⟩

theorem serFirst_failed {vs : List LD} {f : Option Obj} {v : LD} (hv : v ∈ vs)
    (h : Failed (serObject E v)) : Failed (serFirst E vs f) := by
  induction vs generalizing f with
  | nil => cases hv
  | cons w vs ih =>
    rw [serFirst]
    split
    · exact ⟨_, rfl⟩
    · rename_i m hm
      rcases List.mem_cons.1 hv with rfl | hv
      · obtain ⟨e, he⟩ := h
        rw [he] at hm
        cases hm
      · exact ih hv

theorem serRest_cons {v : LD} {vs : List LD} {r : List Obj} : serRest E (v :: vs) r =
    match serTail E v with
    | .error e => .error e
    | .ok s => serRest E vs s.finish := by
  cases v
  rw [serRest, serTail]
  cases listVisits E _ _ <;> rfl

theorem serRest_error {vs : List LD} {f : List Obj} {e : LdErr} (h : serRest E vs f = .error e) :
    ∃ v ∈ vs, serTail E v = .error e := by
  induction vs generalizing f with
  | nil => simp [serRest] at h
  | cons v vs ih =>
    rw [serRest_cons] at h
    split at h
    · rename_i e' he
      cases h
      exact ⟨v, List.mem_cons_self, he⟩
    · obtain ⟨w, hw, hn⟩ := ih h
      exact ⟨w, List.mem_cons_of_mem _ hw, hn⟩

theorem serRest_failed {vs : List LD} {f : List Obj} {v : LD} (hv : v ∈ vs)
    (h : Failed (serTail E v)) : Failed (serRest E vs f) := by
  induction vs generalizing f with
  | nil => cases hv
  | cons w vs ih =>
    rw [serRest_cons]
    split
    · exact ⟨_, rfl⟩
    · rename_i m hm
      rcases List.mem_cons.1 hv with rfl | hv
      · obtain ⟨e, he⟩ := h
        rw [he] at hm
        cases hm
      · exact ih hv

end Seq

/-- The faults of a resource are exactly the reasons of failure. -/
structure Faults (E : LdEnv) (v : LD) : Prop where
  obj : ∀ e, serObject E v = .error e → ObjFault e v
  obj' : ∀ e, ObjFault e v → Failed (serObject E v)
  node : ∀ e, serNode E v = .error e → NodeFault e v
  node' : ∀ e, NodeFault e v → Failed (serNode E v)
  tail : ∀ e, serTail E v = .error e → TailFault e v
  tail' : ∀ e, TailFault e v → Failed (serTail E v)

variable {E : LdEnv}

theorem notId_of {p : Option LTerm} (h : ∀ i, p = some (.id i) → False) : ∀ i, p ≠ some (.id i) := h

theorem nodeVisit_fault {v : LVisit} (hp : ∀ o ∈ v.parts, Faults E o) :
    (∀ n e, nodeVisit E v n = .error e → VisitFault e v) ∧
    ∀ e, VisitFault e v → ∀ n, Failed (nodeVisit E v n) := by
  refine ⟨fun n e h => ?_, fun e h n => ?_⟩
  · cases v with
    | predicate p os =>
      unfold nodeVisit at h
      split at h
      · obtain ⟨o, ho, h⟩ := serObjects_error (map_error.1 h)
        exact .object ho ((hp o ho).obj e h)
      · rename_i hn
        cases h
        exact .predicate hn
    | reverse p os =>
      unfold nodeVisit at h
      split at h
      · obtain ⟨o, ho, h⟩ := serNodes_error (map_error.1 h)
        exact .subject ho ((hp o ho).node e h)
      · rename_i hn
        cases h
        exact .reverse hn
    | graph os =>
      rw [nodeVisit] at h
      obtain ⟨o, ho, h⟩ := serObjects_error (map_error.1 h)
      exact .graph ho ((hp o ho).obj e h)
    | included o =>
      rw [nodeVisit] at h
      exact .included ((hp o List.mem_cons_self).node e (map_error.1 h))
  · cases h with
    | predicate h =>
      unfold nodeVisit
      split
      · exact absurd rfl (h _)
      · exact ⟨_, rfl⟩
    | object ho h =>
      rw [nodeVisit]
      exact Failed.map.2 (serObjects_failed ho ((hp _ ho).obj' e h))
    | reverse h =>
      unfold nodeVisit
      split
      · exact absurd rfl (h _)
      · exact ⟨_, rfl⟩
    | subject ho h =>
      rw [nodeVisit]
      exact Failed.map.2 (serNodes_failed ho ((hp _ ho).node' e h))
    | graph ho h =>
      rw [nodeVisit]
      exact Failed.map.2 (serObjects_failed ho ((hp _ ho).obj' e h))
    | included h =>
      rw [nodeVisit]
      exact Failed.map.2 ((hp _ List.mem_cons_self).node' e h)

/-- A fault of the tail of a list. -/
def RestFault (e : LdErr) (v : LVisit) : Prop :=
  ∃ os, v = .predicate (some (.id rdfRest)) os ∧ ∃ o ∈ os, TailFault e o

theorem objVisit_fault {v : LVisit} (hp : ∀ o ∈ v.parts, Faults E o) :
    (∀ n e, objVisit E v n = .error e → VisitFault e v ∨ RestFault e v) ∧
    ∀ e, VisitFault e v ∨ RestFault e v → ∀ n, Failed (objVisit E v n) := by
  refine ⟨fun n e h => ?_, fun e h n => ?_⟩
  · cases v with
    | predicate p os =>
      unfold objVisit at h
      split at h
      · rename_i i
        split at h
        · rename_i e' he
          cases h
          split at he
          · obtain ⟨o, ho, h⟩ := serFirst_error (map_error.1 he)
            exact .inl (.object ho ((hp o ho).obj e h))
          · split at he
            · rename_i hi
              obtain ⟨o, ho, h⟩ := serRest_error (map_error.1 he)
              exact .inr ⟨os, by rw [hi], o, ho, (hp o ho).tail e h⟩
            · cases he
        · obtain ⟨o, ho, h⟩ := serObjects_error (map_error.1 h)
          exact .inl (.object ho ((hp o ho).obj e h))
      · rename_i hn
        cases h
        exact .inl (.predicate hn)
    | reverse p os =>
      unfold objVisit at h
      split at h
      · obtain ⟨o, ho, h⟩ := serNodes_error (map_error.1 h)
        exact .inl (.subject ho ((hp o ho).node e h))
      · rename_i hn
        cases h
        exact .inl (.reverse hn)
    | graph os =>
      rw [objVisit] at h
      obtain ⟨o, ho, h⟩ := serObjects_error (map_error.1 h)
      exact .inl (.graph ho ((hp o ho).obj e h))
    | included o =>
      rw [objVisit] at h
      exact .inl (.included ((hp o List.mem_cons_self).node e (map_error.1 h)))
  · rcases h with h | ⟨os, rfl, o, ho, h⟩
    · cases h with
      | predicate h =>
        unfold objVisit
        split
        · exact absurd rfl (h _)
        · exact ⟨_, rfl⟩
      | object ho h =>
        rw [objVisit]
        split
        · exact ⟨_, rfl⟩
        · exact Failed.map.2 (serObjects_failed ho ((hp _ ho).obj' e h))
      | reverse h =>
        unfold objVisit
        split
        · exact absurd rfl (h _)
        · exact ⟨_, rfl⟩
      | subject ho h =>
        rw [objVisit]
        exact Failed.map.2 (serNodes_failed ho ((hp _ ho).node' e h))
      | graph ho h =>
        rw [objVisit]
        exact Failed.map.2 (serObjects_failed ho ((hp _ ho).obj' e h))
      | included h =>
        rw [objVisit]
        exact Failed.map.2 ((hp _ List.mem_cons_self).node' e h)
    · rw [objVisit]
      rw [if_neg (by decide), if_pos rfl]
      obtain ⟨e', he⟩ := serRest_failed (f := []) ho ((hp _ ho).tail' e h)
      rw [he]
      exact ⟨e', rfl⟩

/-- A fault of a list. -/
inductive ListFault : LdErr → LVisit → Prop
  | predicate {p : Option LTerm} {os : List LD} (hp : ∀ i, p ≠ some (.id i)) :
      ListFault .invalidPredicate (.predicate p os)
  | first {e : LdErr} {os : List LD} {o : LD} (ho : o ∈ os) (h : ObjFault e o) :
      ListFault e (.predicate (some (.id rdfFirst)) os)
  | rest {e : LdErr} {os : List LD} {o : LD} (ho : o ∈ os) (h : TailFault e o) :
      ListFault e (.predicate (some (.id rdfRest)) os)
  | reverse {p : Option LTerm} {os : List LD} : ListFault .listReverseProperty (.reverse p os)
  | included {o : LD} : ListFault .listInclude (.included o)

theorem listVisit_fault {v : LVisit} (hp : ∀ o ∈ v.parts, Faults E o) :
    (∀ n e, listVisit E v n = .error e → ListFault e v) ∧
    ∀ e, ListFault e v → ∀ n, Failed (listVisit E v n) := by
  refine ⟨fun n e h => ?_, fun e h n => ?_⟩
  · cases v with
    | predicate p os =>
      unfold listVisit at h
      split at h
      · rename_i i
        split at h
        · rename_i hi
          subst hi
          obtain ⟨o, ho, h⟩ := serFirst_error (map_error.1 h)
          exact .first ho ((hp o ho).obj e h)
        · split at h
          · rename_i hi
            subst hi
            obtain ⟨o, ho, h⟩ := serRest_error (map_error.1 h)
            exact .rest ho ((hp o ho).tail e h)
          · cases h
      · rename_i hn
        cases h
        exact .predicate hn
    | reverse p os => rw [listVisit] at h; cases h; exact .reverse
    | graph os => rw [listVisit] at h; cases h
    | included o => rw [listVisit] at h; cases h; exact .included
  · cases h with
    | predicate h =>
      unfold listVisit
      split
      · exact absurd rfl (h _)
      · exact ⟨_, rfl⟩
    | first ho h =>
      rw [listVisit]
      rw [if_pos rfl]
      exact Failed.map.2 (serFirst_failed ho ((hp _ ho).obj' e h))
    | rest ho h =>
      rw [listVisit]
      rw [if_neg (by decide), if_pos rfl]
      exact Failed.map.2 (serRest_failed ho ((hp _ ho).tail' e h))
    | reverse => rw [listVisit]; exact ⟨_, rfl⟩
    | included => rw [listVisit]; exact ⟨_, rfl⟩

theorem faults (v : LD) : Faults E v := by
  induction v using LD.ind with
  | h t vs ih =>
    have hn := fun v hv => nodeVisit_fault (ih v hv)
    have ho := fun v hv => objVisit_fault (ih v hv)
    have hl := fun v hv => listVisit_fault (ih v hv)
    constructor
    · intro e h
      match t with
      | some (.lit l) => simp [serObject] at h
      | some (.id i) =>
        rw [serObject] at h
        obtain ⟨v, hv, n, h⟩ := nodeVisits_error (map_error.1 h)
        exact .visit (by nofun) hv ((hn v hv).1 n e h)
      | none =>
        rw [serObject] at h
        obtain ⟨v, hv, n, h⟩ := objVisits_error (map_error.1 h)
        rcases (ho v hv).1 n e h with h | ⟨os, rfl, o, hm, h⟩
        · exact .visit (by nofun) hv h
        · exact .rest hv hm h
    · intro e h
      cases h with
      | visit ht hv h =>
        match t with
        | some (.lit l) => exact absurd rfl (ht l)
        | some (.id i) =>
          rw [serObject]
          exact Failed.map.2 (nodeVisits_failed hv ((hn _ hv).2 e h) _)
        | none =>
          rw [serObject]
          exact Failed.map.2 (objVisits_failed hv ((ho _ hv).2 e (.inl h)) _)
      | rest hv hm h =>
        rw [serObject]
        exact Failed.map.2 (objVisits_failed hv ((ho _ hv).2 e (.inr ⟨_, rfl, _, hm, h⟩)) _)
    · intro e h
      match t with
      | some (.lit l) => rw [serNode] at h; cases h; exact .literal
      | some (.id i) =>
        rw [serNode] at h
        obtain ⟨v, hv, n, h⟩ := nodeVisits_error h
        exact .visit (by nofun) hv ((hn v hv).1 n e h)
      | none =>
        rw [serNode] at h
        obtain ⟨v, hv, n, h⟩ := nodeVisits_error h
        exact .visit (by nofun) hv ((hn v hv).1 n e h)
    · intro e h
      cases h with
      | literal => rw [serNode]; exact ⟨_, rfl⟩
      | visit ht hv h =>
        match t with
        | some (.lit l) => exact absurd rfl (ht l)
        | some (.id i) =>
          rw [serNode]
          exact nodeVisits_failed hv ((hn _ hv).2 e h) _
        | none =>
          rw [serNode]
          exact nodeVisits_failed hv ((hn _ hv).2 e h) _
    · intro e h
      rw [serTail] at h
      obtain ⟨v, hv, n, h⟩ := listVisits_error h
      cases (hl v hv).1 n e h with
      | predicate hp => exact .predicate hv hp
      | first hm h' => exact .first hv hm h'
      | rest hm h' => exact .rest hv hm h'
      | reverse => exact .reverse hv
      | included => exact .included hv
    · intro e h
      rw [serTail]
      cases h with
      | predicate hv hp => exact listVisits_failed hv ((hl _ hv).2 _ (.predicate hp)) _
      | first hv hm h => exact listVisits_failed hv ((hl _ hv).2 _ (.first hm h)) _
      | rest hv hm h => exact listVisits_failed hv ((hl _ hv).2 _ (.rest hm h)) _
      | reverse hv => exact listVisits_failed hv ((hl _ hv).2 _ .reverse) _
      | included hv => exact listVisits_failed hv ((hl _ hv).2 _ .included) _

theorem serSubject_fault {t : Option LTerm} {vs : List LVisit} :
    (∀ e, serSubject E (.mk t vs) = .error e → (∀ l, t ≠ some (.lit l)) ∧ ∃ v ∈ vs, VisitFault e v) ∧
    ∀ e v, (∀ l, t ≠ some (.lit l)) → v ∈ vs → VisitFault e v → Failed (serSubject E (.mk t vs)) := by
  have hn := fun v => nodeVisit_fault (E := E) (v := v) fun o _ => faults o
  refine ⟨fun e h => ?_, fun e v ht hv h => ?_⟩
  · match t with
    | some (.lit l) => simp [serSubject] at h
    | some (.id i) =>
      rw [serSubject] at h
      obtain ⟨v, hv, n, h⟩ := nodeVisits_error (map_error.1 h)
      exact ⟨by nofun, v, hv, (hn v).1 n e h⟩
    | none =>
      rw [serSubject] at h
      obtain ⟨v, hv, n, h⟩ := nodeVisits_error (map_error.1 h)
      exact ⟨by nofun, v, hv, (hn v).1 n e h⟩
  · match t with
    | some (.lit l) => exact absurd rfl (ht l)
    | some (.id i) =>
      rw [serSubject]
      exact Failed.map.2 (nodeVisits_failed hv ((hn _).2 e h) _)
    | none =>
      rw [serSubject]
      exact Failed.map.2 (nodeVisits_failed hv ((hn _).2 e h) _)

theorem serDefault_error {ss : List LD} {d : Doc} {e : LdErr} (h : serDefault E d ss = .error e) :
    ∃ s ∈ ss, serSubject E s = .error e := by
  induction ss generalizing d with
  | nil => simp [serDefault] at h
  | cons v vs ih =>
    rw [serDefault] at h
    split at h
    · rename_i e' he
      cases h
      exact ⟨v, List.mem_cons_self, he⟩
    · obtain ⟨w, hw, hn⟩ := ih h
      exact ⟨w, List.mem_cons_of_mem _ hw, hn⟩

theorem serDefault_failed {vs : List LD} {d : Doc} {v : LD} (hv : v ∈ vs)
    (h : Failed (serSubject E v)) : Failed (serDefault E d vs) := by
  induction vs generalizing d with
  | nil => cases hv
  | cons w vs ih =>
    rw [serDefault]
    split
    · exact ⟨_, rfl⟩
    · rename_i m hm
      rcases List.mem_cons.1 hv with rfl | hv
      · obtain ⟨e, he⟩ := h
        rw [he] at hm
        cases hm
      · exact ih hv

theorem serGraph_fault {g : LGraph} :
    (∀ d e, serGraph E d g = .error e → GraphFault e g) ∧
    ∀ e, GraphFault e g → ∀ d, Failed (serGraph E d g) := by
  refine ⟨fun d e h => ?_, fun e h d => ?_⟩
  · cases g with
    | default ss =>
      obtain ⟨⟨t, vs⟩, hs, h⟩ := serDefault_error h
      obtain ⟨ht, v, hv, h⟩ := serSubject_fault.1 e h
      exact .subject hs ht hv h
    | named t ss =>
      match t with
      | some (.lit l) => cases h; exact .name
      | some (.id i) =>
        obtain ⟨o, ho, h⟩ := serObjects_error (map_error.1 h)
        exact .object (by nofun) ho ((faults o).obj e h)
      | none =>
        obtain ⟨o, ho, h⟩ := serObjects_error (map_error.1 h)
        exact .object (by nofun) ho ((faults o).obj e h)
  · cases h with
    | subject hs ht hv h => exact serDefault_failed hs (serSubject_fault.2 e _ ht hv h)
    | name => exact ⟨_, rfl⟩
    | @object _ t _ _ ht ho h =>
      match t with
      | some (.lit l) => exact absurd rfl (ht l)
      | some (.id i) => exact Failed.map.2 (serObjects_failed ho ((faults _).obj' e h))
      | none => exact Failed.map.2 (serObjects_failed ho ((faults _).obj' e h))

theorem ldSerialize_fault {gs : List LGraph} :
    (∀ e, ldSerialize E gs = .error e → ∃ g ∈ gs, GraphFault e g) ∧
    ∀ e, (∃ g ∈ gs, GraphFault e g) → Failed (ldSerialize E gs) := by
  unfold ldSerialize
  generalize ([] : Doc) = d
  induction gs generalizing d with
  | nil => simp [List.foldlM, pure, Except.pure]
  | cons g gs ih =>
    rw [List.foldlM_cons]
    cases hg : serGraph E d g with
    | error e =>
      refine ⟨fun e' h => ?_, fun e' _ => ⟨e, rfl⟩⟩
      cases h
      exact ⟨g, List.mem_cons_self, serGraph_fault.1 d e hg⟩
    | ok d' =>
      refine ⟨fun e h => ?_, fun e ⟨g', hm, h⟩ => ?_⟩
      · obtain ⟨g', hm, h⟩ := (ih d').1 e h
        exact ⟨g', List.mem_cons_of_mem _ hm, h⟩
      · rcases List.mem_cons.1 hm with rfl | hm
        · obtain ⟨e', h'⟩ := serGraph_fault.2 e h d
          rw [hg] at h'
          cases h'
        · exact (ih d').2 e ⟨g', hm, h⟩

end JsonLd
