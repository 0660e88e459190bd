import Verif.Proofs.DocJson
/-!
# Reading documents: the whole recursion
-/

namespace JsonLd
open Spec

section
variable {validIri validBlank : Str → Bool}

/-! ## The bound on the nesting -/

theorem depth_le_of_mem {l : List Json} {x : Json} (h : x ∈ l) : x.depth ≤ jsonsDepth l := by
  induction l with
  | nil => cases h
  | cons y l ih =>
    rw [jsonsDepth]
    rcases List.mem_cons.1 h with rfl | h
    · exact Nat.le_max_left _ _
    · exact Nat.le_trans (ih h) (Nat.le_max_right _ _)

theorem depth_le_of_mem_entries {m : List (Str × Json)} {e : Str × Json} (h : e ∈ m) :
    e.2.depth ≤ entriesDepth m := by
  induction m with
  | nil => cases h
  | cons y l ih =>
    obtain ⟨k, j⟩ := y
    rw [entriesDepth]
    rcases List.mem_cons.1 h with rfl | h
    · exact Nat.le_max_left _ _
    · exact Nat.le_trans (ih h) (Nat.le_max_right _ _)

/-- What `removeUnique` takes out and leaves was there. -/
theorem removeUnique_sub {k : Str} {m m' : List (Str × Json)} {o : Option Json}
    (h : removeUnique k m = .ok (o, m')) :
    (∀ v, o = some v → (k, v) ∈ m) ∧ ∀ e ∈ m', e ∈ m := by
  unfold removeUnique at h
  split at h
  · cases h; exact ⟨by simp, fun e he => he⟩
  · rename_i e he
    cases h
    have hm : e ∈ m.filter (fun e => decide (e.1 = k)) := by rw [he]; exact List.mem_cons_self
    have := List.mem_filter.1 hm
    refine ⟨fun v hv => ?_, fun e he => (List.mem_filter.1 he).1⟩
    cases hv
    have hk : e.1 = k := by simpa using this.2
    rw [← hk]; exact this.1
  · cases h

/-- The value is nested less deep than `D`. -/
def Below (D : Nat) (m : List (Str × Json)) : Prop := ∀ e ∈ m, e.2.depth < D

theorem Below.removed {D : Nat} {k : Str} {m m' : List (Str × Json)} {o : Option Json}
    (hm : Below D m) (h : removeUnique k m = .ok (o, m')) :
    (∀ v, o = some v → v.depth < D) ∧ Below D m' :=
  ⟨fun v hv => hm _ ((removeUnique_sub h).1 v hv), fun e he => hm e ((removeUnique_sub h).2 e he)⟩

/-! ### A relation between two outcomes: the same, and not a crash -/

/-- The outcomes are the same, and neither a panic nor an exhausted bound. -/
def Safe {α : Type} (r r' : Except JErr α) : Prop := r = r' ∧ r ≠ .error .fuel ∧ r ≠ .error .panic

theorem Safe.ok {α : Type} (a : α) : Safe (.ok a) (.ok a) := ⟨rfl, by simp, by simp⟩

theorem Safe.error {α : Type} {e : JErr} (h1 : e ≠ .fuel) (h2 : e ≠ .panic) :
    Safe (.error e : Except JErr α) (.error e) := ⟨rfl, by simpa using h1, by simpa using h2⟩

theorem Safe.bind {α β : Type} {r r' : Except JErr α} {f f' : α → Except JErr β} (h : Safe r r')
    (hf : ∀ a, r = .ok a → Safe (f a) (f' a)) : Safe (r >>= f) (r' >>= f') := by
  obtain ⟨rfl, h1, h2⟩ := h
  cases r with
  | ok a => exact hf a rfl
  | error e =>
    refine ⟨rfl, ?_, ?_⟩
    · intro h; exact h1 (by cases h; rfl)
    · intro h; exact h2 (by cases h; rfl)

theorem Safe.removeUnique (k : Str) (m : List (Str × Json)) :
    Safe (removeUnique k m) (removeUnique k m) := by
  unfold JsonLd.removeUnique
  split
  · exact Safe.ok _
  · exact Safe.ok _
  · exact Safe.error (by simp) (by simp)

theorem Safe.mapM {α : Type} {f f' : Json → Except JErr α} {l : List Json}
    (h : ∀ x ∈ l, Safe (f x) (f' x)) : Safe (l.mapM f) (l.mapM f') := by
  induction l with
  | nil => exact Safe.ok _
  | cons x l ih =>
    rw [List.mapM_cons, List.mapM_cons]
    exact (h x List.mem_cons_self).bind fun a _ =>
      (ih fun y hy => h y (List.mem_cons_of_mem _ hy)).bind fun as _ => Safe.ok _

theorem Safe.readVec {α : Type} {D : Nat} {f f' : Json → Except JErr α}
    (h : ∀ x : Json, x.depth < D → Safe (f x) (f' x)) {j : Json} (hj : j.depth < D) :
    Safe (readVec f j) (readVec f' j) := by
  cases j with
  | arr l =>
    exact Safe.mapM fun x hx => h x (by
      have := depth_le_of_mem hx
      rw [Json.depth] at hj
      omega)
  | _ => exact Safe.error (by simp) (by simp)

theorem Safe.readSet {α : Type} {eq : α → α → Bool} {D : Nat} {f f' : Json → Except JErr α}
    (h : ∀ x : Json, x.depth < D → Safe (f x) (f' x)) {j : Json} (hj : j.depth < D) :
    Safe (readSet eq f j) (readSet eq f' j) := by
  cases j with
  | arr l =>
    exact (Safe.mapM fun x hx => h x (by
      have := depth_le_of_mem hx
      rw [Json.depth] at hj
      omega)).bind fun _ _ => Safe.ok _
  | _ => exact Safe.error (by simp) (by simp)

theorem Safe.readOpt {α : Type} {f f' : Json → Except JErr α} {o : Option Json}
    (h : ∀ v, o = some v → Safe (f v) (f' v)) : Safe (readOpt f o) (readOpt f' o) := by
  cases o with
  | none => exact Safe.ok _
  | some v => exact (h v rfl).bind fun _ _ => Safe.ok _

theorem Safe.readProps {α : Type} {D : Nat} {f f' : Json → Except JErr α}
    (h : ∀ x : Json, x.depth < D → Safe (f x) (f' x)) {m : List (Str × Json)} (hm : Below D m) :
    Safe (readProps validIri validBlank f m) (readProps validIri validBlank f' m) := by
  have key : ∀ (m : List (Str × Json)) (acc : List (Id × List α)), Below D m →
      Safe (m.foldlM (init := acc) fun ps e => do
          let l ← JsonLd.readVec f e.2
          .ok (insertAll (Id.ofStr validIri validBlank e.1) l ps))
        (m.foldlM (init := acc) fun ps e => do
          let l ← JsonLd.readVec f' e.2
          .ok (insertAll (Id.ofStr validIri validBlank e.1) l ps)) := by
    intro m
    induction m with
    | nil => intro acc _; exact Safe.ok _
    | cons e m ih =>
      intro acc hm
      rw [List.foldlM_cons, List.foldlM_cons]
      refine Safe.bind ?_ fun a _ => ih a fun e he => hm e (List.mem_cons_of_mem _ he)
      exact (Safe.readVec h (hm e List.mem_cons_self)).bind fun _ _ => Safe.ok _
  exact key m [] hm

theorem Safe.readRev {D : Nat} {f f' : Json → Except JErr Node}
    (h : ∀ x : Json, x.depth < D → Safe (f x) (f' x)) {j : Json} (hj : j.depth < D) :
    Safe (readRev validIri validBlank f j) (readRev validIri validBlank f' j) := by
  cases j with
  | obj m =>
    exact Safe.readProps h fun e he => by
      have := depth_le_of_mem_entries he
      rw [Json.depth] at hj
      omega
  | _ => exact Safe.error (by simp) (by simp)

theorem Safe.readId (j : Json) :
    Safe (Id.read validIri validBlank j) (Id.read validIri validBlank j) := by
  cases j with
  | str s => exact Safe.ok _
  | _ => exact Safe.error (by simp) (by simp)

theorem Safe.readNodeBody {D : Nat} {ro ro' : Json → Except JErr Obj}
    {rn rn' : Json → Except JErr Node} (ho : ∀ x : Json, x.depth < D → Safe (ro x) (ro' x))
    (hn : ∀ x : Json, x.depth < D → Safe (rn x) (rn' x)) {i : Option Str} {m : List (Str × Json)}
    (hm : Below D m) : Safe (readNodeBody validIri validBlank ro rn i m)
      (readNodeBody validIri validBlank ro' rn' i m) := by
  unfold JsonLd.readNodeBody
  refine (Safe.removeUnique _ _).bind ?_
  rintro ⟨o1, m1⟩ h1
  have b1 := hm.removed h1
  refine (Safe.readOpt fun v _ => Safe.readId v).bind fun _ _ => ?_
  refine (Safe.removeUnique _ _).bind ?_
  rintro ⟨o2, m2⟩ h2
  have b2 := b1.2.removed h2
  refine (Safe.readOpt fun v hv => Safe.readVec (fun x _ => Safe.readId x) (b2.1 v hv)).bind
    fun _ _ => ?_
  refine (Safe.removeUnique _ _).bind ?_
  rintro ⟨o3, m3⟩ h3
  have b3 := b2.2.removed h3
  refine (Safe.readOpt fun v hv => Safe.readSet ho (b3.1 v hv)).bind fun _ _ => ?_
  refine (Safe.removeUnique _ _).bind ?_
  rintro ⟨o4, m4⟩ h4
  have b4 := b3.2.removed h4
  refine (Safe.readOpt fun v hv => Safe.readSet hn (b4.1 v hv)).bind fun _ _ => ?_
  refine (Safe.removeUnique _ _).bind ?_
  rintro ⟨o5, m5⟩ h5
  have b5 := b4.2.removed h5
  refine (Safe.readOpt fun v hv => Safe.readRev hn (b5.1 v hv)).bind fun _ _ => ?_
  exact (Safe.readProps ho b5.2).bind fun _ _ => Safe.ok _

theorem Safe.readLiteral (j : Json) : Safe (Literal.read j) (Literal.read j) := by
  cases j
  case arr => exact Safe.error (by simp) (by simp)
  case obj => exact Safe.error (by simp) (by simp)
  all_goals exact Safe.ok _

theorem Safe.readLangString {m : List (Str × Json)} {v : Json} {l d : Option Json}
    (h : l.isSome = true ∨ d.isSome = true) :
    Safe (LangString.read m v l d) (LangString.read m v l d) := by
  have hs : ∀ j, Safe (readString j) (readString j) := by
    intro j
    cases j
    case str => exact Safe.ok _
    all_goals exact Safe.error (by simp) (by simp)
  have hd : ∀ j, Safe (readDirection j) (readDirection j) := by
    intro j
    unfold readDirection
    split
    · split
      · exact Safe.ok _
      · exact Safe.error (by simp) (by simp)
    · exact Safe.error (by simp) (by simp)
  unfold LangString.read
  refine (hs v).bind fun data _ => ?_
  refine (Safe.readOpt fun j _ => hs j).bind fun lang hlang => ?_
  refine (Safe.readOpt fun j _ => hd j).bind fun dir hdir => ?_
  have some_of : ∀ {α : Type} {f : Json → Except JErr α} {o : Option Json} {r : Option α},
      o.isSome = true → JsonLd.readOpt f o = .ok r → r.isSome = true := by
    intro α f o r h hr
    cases o with
    | none => cases h
    | some j =>
      simp only [JsonLd.readOpt, Bind.bind, Except.bind] at hr
      split at hr
      · cases hr
      · cases hr; rfl
  split
  · have : LangString.new data lang dir = .ok ⟨data, lang, dir⟩ := by
      unfold LangString.new
      rw [if_pos]
      rcases h with h | h
      · simp [some_of h hlang]
      · simp [some_of h hdir]
    rw [this]
    exact Safe.ok _
  · exact Safe.error (by simp) (by simp)

theorem Safe.readValue (m : List (Str × Json)) (v : Json) :
    Safe (Value.read validIri m v) (Value.read validIri m v) := by
  unfold Value.read
  refine (Safe.removeUnique _ _).bind ?_
  rintro ⟨o, m1⟩ _
  dsimp only
  split
  · split
    · exact Safe.ok _
    · split
      · exact (Safe.readLiteral v).bind fun _ _ => Safe.ok _
      · exact Safe.error (by simp) (by simp)
  · exact Safe.error (by simp) (by simp)
  · refine (Safe.removeUnique _ _).bind ?_
    rintro ⟨l, m2⟩ _
    refine (Safe.removeUnique _ _).bind ?_
    rintro ⟨d, m3⟩ _
    dsimp only
    split
    · rename_i h
      exact (Safe.readLangString (by simpa using h)).bind fun _ _ => Safe.ok _
    · exact (Safe.readLiteral v).bind fun _ _ => Safe.ok _

theorem Safe.readObjBody {D : Nat} {ro ro' : Json → Except JErr Obj}
    {rn rn' : Json → Except JErr Node} (ho : ∀ x : Json, x.depth < D → Safe (ro x) (ro' x))
    (hn : ∀ x : Json, x.depth < D → Safe (rn x) (rn' x)) {i : Option Str} {m : List (Str × Json)}
    (hm : Below D m) : Safe (readObjBody validIri validBlank ro rn i m)
      (readObjBody validIri validBlank ro' rn' i m) := by
  unfold JsonLd.readObjBody
  refine (Safe.removeUnique _ _).bind ?_
  rintro ⟨o1, m1⟩ h1
  have b1 := hm.removed h1
  cases o1 with
  | some _ => exact Safe.error (by simp) (by simp)
  | none =>
    refine (Safe.removeUnique _ _).bind ?_
    rintro ⟨o2, m2⟩ h2
    have b2 := b1.2.removed h2
    cases o2 with
    | some v => exact (Safe.readValue m2 v).bind fun _ _ => Safe.ok _
    | none =>
      refine (Safe.removeUnique _ _).bind ?_
      rintro ⟨o3, m3⟩ h3
      have b3 := b2.2.removed h3
      cases o3 with
      | some v =>
        refine (Safe.readVec ho (b3.1 v rfl)).bind fun l _ => ?_
        cases m3 with
        | nil => exact Safe.ok _
        | cons => exact Safe.error (by simp) (by simp)
      | none => exact (Safe.readNodeBody ho hn b3.2).bind fun _ _ => Safe.ok _

theorem Safe.readIndexed {α : Type} {D : Nat} {b b' : Option Str → List (Str × Json) → Except JErr α}
    (h : ∀ i m, Below D m → Safe (b i m) (b' i m)) {j : Json} (hj : j.depth ≤ D) :
    Safe (readIndexed b j) (readIndexed b' j) := by
  cases j with
  | obj m =>
    have hm : Below D m := fun e he => by
      have := depth_le_of_mem_entries he
      rw [Json.depth] at hj
      omega
    unfold JsonLd.readIndexed JsonLd.readIndex
    simp only [bind_assoc]
    refine (Safe.removeUnique _ _).bind ?_
    rintro ⟨o, m'⟩ hr
    have hb := (hm.removed hr).2
    rcases o with _ | j
    · exact h _ _ hb
    · cases j with
      | str s => exact h _ _ hb
      | _ => exact Safe.error (by simp) (by simp)
  | _ => exact Safe.error (by simp) (by simp)

/-- With any bound above the nesting of the value the outcome is the same, and not a crash. -/
theorem read_safe (D : Nat) : ∀ (j : Json) (f f' : Nat), j.depth ≤ D → j.depth ≤ f → j.depth ≤ f' →
    Safe (readObj validIri validBlank f j) (readObj validIri validBlank f' j) ∧
    Safe (readNode validIri validBlank f j) (readNode validIri validBlank f' j) := by
  induction D with
  | zero => intro j f f' h; cases j <;> simp [Json.depth] at h
  | succ D ih =>
    intro j f f' hD hf hf'
    have hpos : 0 < j.depth := by cases j <;> simp [Json.depth]
    obtain ⟨f, rfl⟩ : ∃ g, f = g + 1 := ⟨f - 1, by omega⟩
    obtain ⟨f', rfl⟩ : ∃ g, f' = g + 1 := ⟨f' - 1, by omega⟩
    rw [readObj, readObj, readNode, readNode]
    have ho : ∀ x : Json, x.depth < j.depth →
        Safe (readObj validIri validBlank f x) (readObj validIri validBlank f' x) :=
      fun x hx => (ih x f f' (by omega) (by omega) (by omega)).1
    have hn : ∀ x : Json, x.depth < j.depth →
        Safe (readNode validIri validBlank f x) (readNode validIri validBlank f' x) :=
      fun x hx => (ih x f f' (by omega) (by omega) (by omega)).2
    exact ⟨Safe.readIndexed (fun i m hm => Safe.readObjBody ho hn hm) (Nat.le_refl _),
      Safe.readIndexed (fun i m hm => Safe.readNodeBody ho hn hm) (Nat.le_refl _)⟩

/-! ## Reading what was written -/

theorem bound_all {α : Type} {R : Nat → α → Prop} {l : List α}
    (h : ∀ x ∈ l, ∃ n, ∀ f, n ≤ f → R f x) : ∃ n, ∀ f, n ≤ f → ∀ x ∈ l, R f x := by
  induction l with
  | nil => exact ⟨0, by simp⟩
  | cons x l ih =>
    obtain ⟨a, ha⟩ := h x List.mem_cons_self
    obtain ⟨b, hb⟩ := ih fun y hy => h y (List.mem_cons_of_mem _ hy)
    refine ⟨max a b, fun f hf y hy => ?_⟩
    rcases List.mem_cons.1 hy with rfl | hy
    · exact ha f (by omega)
    · exact hb f (by omega) y hy

/-- Everything at or below an item is as required. -/
structure Good (validIri validBlank : Str → Bool) (x : Item) : Prop where
  values : ∀ i v, Relation.ReflTransGen PartL (.obj (.value i v)) x → ValueOk validIri v
  nodes : ∀ n, Relation.ReflTransGen PartL (.node n) x → NodeIdsOk validIri validBlank n ∧
    n.included = none ∧ n.types ≠ some [] ∧ ∀ p ∈ n.props, p.1.str ∉ reserved

theorem Good.part {x y : Item} (h : Good validIri validBlank x) (hp : PartL y x) :
    Good validIri validBlank y :=
  ⟨fun i v hr => h.values i v (hr.tail hp), fun n hr => h.nodes n (hr.tail hp)⟩

theorem read_written :
    (∀ o : Obj, o.WF → Good validIri validBlank (.obj o) →
      ∃ n, ∀ f, n ≤ f → readObj validIri validBlank f o.toJson = .ok o) ∧
    (∀ m : Node, m.WF → Good validIri validBlank (.node m) →
      ∃ n, ∀ f, n ≤ f → readNode validIri validBlank f m.toJson = .ok m ∧
        readObj validIri validBlank f m.toJson = .ok (.node m)) := by
  apply Doc.ind
  · intro i v _ hg
    refine ⟨1, fun f hf => ?_⟩
    obtain ⟨f, rfl⟩ : ∃ g, f = g + 1 := ⟨f - 1, by omega⟩
    rw [readObj]
    exact readIndexed_value (hg.values i v .refl)
  · intro i l ih hw hg
    rw [Obj.WF, objsWF_iff] at hw
    obtain ⟨n, hn⟩ := bound_all fun o ho => ih o ho (hw o ho) (hg.part (.item ho))
    refine ⟨n + 1, fun f hf => ?_⟩
    obtain ⟨f, rfl⟩ : ∃ g, f = g + 1 := ⟨f - 1, by omega⟩
    rw [readObj]
    exact readIndexed_list (hn f (by omega))
  · intro n ih hw hg
    obtain ⟨b, hb⟩ := ih hw (hg.part (.part (.self n)))
    exact ⟨b, fun f hf => by rw [Obj.toJson]; exact (hb f hf).2⟩
  · intro i id ty g inc ps rv ig _ ips irv hw hg
    obtain ⟨hi, hinc, ht0, hk⟩ := hg.nodes _ .refl
    simp only [Node.included, Node.types, Node.props] at hinc ht0 hk
    subst hinc
    rw [Node.WF] at hw
    obtain ⟨wg, -, wn, wps, wrv⟩ := hw
    have eg : ∃ n, ∀ f, n ≤ f → ∀ l, g = some l → ∀ o ∈ l,
        readObj validIri validBlank f o.toJson = .ok o := by
      cases g with
      | none => exact ⟨0, by simp⟩
      | some l =>
        rw [gWF, objsWF_iff] at wg
        obtain ⟨n, hn⟩ := bound_all fun o ho =>
          ig l rfl o ho (wg.2 o ho) (hg.part (.part (.graph rfl ho)))
        exact ⟨n, fun f hf l' e => by cases e; exact hn f hf⟩
    have eps : ∃ n, ∀ f, n ≤ f → ∀ p ∈ ps, ∀ o ∈ p.2,
        readObj validIri validBlank f o.toJson = .ok o := by
      rw [psWF_iff] at wps
      exact bound_all fun p hp => bound_all fun o ho =>
        ips p hp o ho (wps p hp o ho) (hg.part (.part (.property (k := p.1) hp ho)))
    have erv : ∃ n, ∀ f, n ≤ f → ∀ l, rv = some l → ∀ p ∈ l, ∀ m ∈ p.2,
        readNode validIri validBlank f m.toJson = .ok m := by
      cases rv with
      | none => exact ⟨0, by simp⟩
      | some l =>
        rw [rvWF, rpsWF_iff] at wrv
        obtain ⟨n, hn⟩ := bound_all fun p hp => bound_all fun m hm =>
          irv l rfl p hp m hm (wrv.2 p hp m hm) (hg.part (.part (.reverse (k := p.1) rfl hp hm)))
        exact ⟨n, fun f hf l' e => by
          cases e; exact fun p hp m hm => (hn f hf p hp m hm).1⟩
    obtain ⟨n1, h1⟩ := eg
    obtain ⟨n2, h2⟩ := eps
    obtain ⟨n3, h3⟩ := erv
    refine ⟨n1 + n2 + n3 + 1, fun f hf => ?_⟩
    obtain ⟨f, rfl⟩ : ∃ g, f = g + 1 := ⟨f - 1, by omega⟩
    rw [readObj, readNode]
    refine readIndexed_node ht0 hi.id hi.types ?_ wn hi.props hk ?_ hi.rev (h1 f (by omega))
      (h2 f (by omega)) (h3 f (by omega))
    · rintro l rfl
      exact wg.1
    · rintro l rfl
      exact wrv.1

/-! ## What is read is well-formed -/

/-- Everything at or below an item has identifiers of the right kind and well-formed values. -/
structure TypedItem (validIri validBlank : Str → Bool) (x : Item) : Prop where
  values : ∀ i v, Relation.ReflTransGen PartL (.obj (.value i v)) x → ValueOk validIri v
  nodes : ∀ n, Relation.ReflTransGen PartL (.node n) x → NodeIdsOk validIri validBlank n

theorem TypedItem.intro {x : Item} (hv : ∀ i v, x = .obj (.value i v) → ValueOk validIri v)
    (hn : ∀ n, x = .node n → NodeIdsOk validIri validBlank n)
    (h : ∀ y, PartL y x → TypedItem validIri validBlank y) : TypedItem validIri validBlank x := by
  constructor
  · intro i v hr
    rcases Relation.ReflTransGen.cases_tail hr with e | ⟨y, hr, hp⟩
    · exact hv i v e
    · exact (h y hp).values i v hr
  · intro n hr
    rcases Relation.ReflTransGen.cases_tail hr with e | ⟨y, hr, hp⟩
    · exact hn n e
    · exact (h y hp).nodes n hr

/-- The object is well-formed. -/
def OkObj (validIri validBlank : Str → Bool) (o : Obj) : Prop :=
  o.WF ∧ TypedItem validIri validBlank (.obj o)

/-- The node is well-formed. -/
def OkNode (validIri validBlank : Str → Bool) (n : Node) : Prop :=
  n.WF ∧ TypedItem validIri validBlank (.node n)

/-- If the outcome is a value, it satisfies the predicate. -/
def Ens {α : Type} (P : α → Prop) (r : Except JErr α) : Prop := ∀ a, r = .ok a → P a

theorem Ens.ok {α : Type} {P : α → Prop} {a : α} (h : P a) : Ens P (.ok a) := by
  intro b hb; cases hb; exact h

theorem Ens.error {α : Type} {P : α → Prop} {e : JErr} : Ens P (.error e : Except JErr α) := by
  intro b hb; cases hb

theorem Ens.bind {α β : Type} {P : α → Prop} {Q : β → Prop} {r : Except JErr α}
    {f : α → Except JErr β} (h : Ens P r) (hf : ∀ a, P a → Ens Q (f a)) : Ens Q (r >>= f) := by
  cases r with
  | ok a => exact hf a (h a rfl)
  | error e => exact Ens.error

theorem Ens.trivial {α : Type} (r : Except JErr α) : Ens (fun _ => True) r := fun _ _ => True.intro

theorem Ens.mapM {α : Type} {P : α → Prop} {f : Json → Except JErr α} (h : ∀ j, Ens P (f j))
    (l : List Json) : Ens (fun r => ∀ x ∈ r, P x) (l.mapM f) := by
  induction l with
  | nil => exact Ens.ok (by simp)
  | cons j l ih =>
    rw [List.mapM_cons]
    refine (h j).bind fun a ha => ih.bind fun as has => Ens.ok ?_
    intro x hx
    rcases List.mem_cons.1 hx with rfl | hx
    exacts [ha, has x hx]

theorem Ens.readVec {α : Type} {P : α → Prop} {f : Json → Except JErr α} (h : ∀ j, Ens P (f j))
    (j : Json) : Ens (fun r => ∀ x ∈ r, P x) (readVec f j) := by
  cases j with
  | arr l => exact Ens.mapM h l
  | _ => exact Ens.error

theorem setCollect_spec {α : Type} {eq : α → α → Bool} {P : α → Prop} (l : List α)
    (h : ∀ x ∈ l, P x) : (setCollect eq l).Pairwise (fun a b => eq b a = false) ∧
      ∀ x ∈ setCollect eq l, P x := by
  have key : ∀ (l acc : List α), (∀ x ∈ l, P x) →
      (acc.Pairwise (fun a b => eq b a = false) ∧ ∀ x ∈ acc, P x) →
      ((l.foldl (setInsert eq) acc).Pairwise (fun a b => eq b a = false) ∧
        ∀ x ∈ l.foldl (setInsert eq) acc, P x) := by
    intro l
    induction l with
    | nil => intro acc _ h; exact h
    | cons x l ih =>
      intro acc hl ha
      rw [List.foldl_cons]
      refine ih _ (fun y hy => hl y (List.mem_cons_of_mem _ hy)) ?_
      unfold setInsert
      split
      · exact ha
      · rename_i hx
        constructor
        · rw [List.pairwise_append]
          refine ⟨ha.1, List.pairwise_singleton _ _, ?_⟩
          intro a haa b hb
          rw [List.mem_singleton.1 hb]
          have := hx
          simp only [List.any_eq_true, not_exists, not_and, Bool.not_eq_true] at this
          exact this a haa
        · intro y hy
          rcases List.mem_append.1 hy with hy | hy
          · exact ha.2 y hy
          · rw [List.mem_singleton.1 hy]; exact hl x List.mem_cons_self
  exact key l [] h ⟨List.Pairwise.nil, by simp⟩

theorem Ens.readSet {α : Type} {P : α → Prop} {eq : α → α → Bool} {f : Json → Except JErr α}
    (h : ∀ j, Ens P (f j)) (j : Json) :
    Ens (fun r => r.Pairwise (fun a b => eq b a = false) ∧ ∀ x ∈ r, P x) (readSet eq f j) := by
  cases j with
  | arr l => exact (Ens.mapM h l).bind fun r hr => Ens.ok (setCollect_spec r hr)
  | _ => exact Ens.error

theorem Ens.readOpt {α : Type} {P : α → Prop} {f : Json → Except JErr α} (h : ∀ j, Ens P (f j))
    (o : Option Json) : Ens (fun r => ∀ a, r = some a → P a) (readOpt f o) := by
  cases o with
  | none => exact Ens.ok (by simp)
  | some j => exact (h j).bind fun a ha => Ens.ok (by rintro b ⟨⟩; exact ha)

theorem idOk_ofStr (s : Str) : IdOk validIri validBlank (Id.ofStr validIri validBlank s) := by
  unfold Id.ofStr
  split
  · assumption
  · split <;> simp_all [IdOk]

theorem mem_insertAll {α : Type} {k : Id} {vs : List α} {ps : List (Id × List α)} {p : Id × List α}
    (h : p ∈ insertAll k vs ps) :
    (p.1 = k ∨ p.1 ∈ ps.map Prod.fst) ∧ ∀ x ∈ p.2, x ∈ vs ∨ ∃ q ∈ ps, x ∈ q.2 := by
  induction ps with
  | nil =>
    rw [insertAll, List.mem_singleton] at h
    subst h
    exact ⟨.inl rfl, fun x hx => .inl hx⟩
  | cons q ps ih =>
    obtain ⟨k', ws⟩ := q
    rw [insertAll] at h
    split at h
    · rcases List.mem_cons.1 h with rfl | h
      · refine ⟨.inr (by simp), fun x hx => ?_⟩
        rcases List.mem_append.1 hx with hx | hx
        · exact .inr ⟨_, List.mem_cons_self, hx⟩
        · exact .inl hx
      · exact ⟨.inr (List.mem_map.2 ⟨p, List.mem_cons_of_mem _ h, rfl⟩),
          fun x hx => .inr ⟨p, List.mem_cons_of_mem _ h, hx⟩⟩
    · rcases List.mem_cons.1 h with rfl | h
      · exact ⟨.inr (by simp), fun x hx => .inr ⟨_, List.mem_cons_self, hx⟩⟩
      · obtain ⟨h1, h2⟩ := ih h
        refine ⟨h1.imp_right fun h => ?_, fun x hx => (h2 x hx).imp_right ?_⟩
        · rw [List.map_cons]; exact List.mem_cons_of_mem _ h
        · rintro ⟨q, hq, hxq⟩; exact ⟨q, List.mem_cons_of_mem _ hq, hxq⟩

theorem keys_insertAll {α : Type} {k : Id} {vs : List α} {ps : List (Id × List α)}
    (h : (ps.map Prod.fst).Nodup) : ((insertAll k vs ps).map Prod.fst).Nodup := by
  induction ps with
  | nil => simp [insertAll]
  | cons q ps ih =>
    obtain ⟨k', ws⟩ := q
    rw [List.map_cons, List.nodup_cons] at h
    rw [insertAll]
    split
    · rw [List.map_cons, List.nodup_cons]; exact h
    · rename_i hk
      rw [List.map_cons, List.nodup_cons]
      refine ⟨fun hm => ?_, ih h.2⟩
      obtain ⟨p, hp, e⟩ := List.mem_map.1 hm
      rcases (mem_insertAll hp).1 with h' | h'
      · exact hk (by rw [← h', e])
      · simp only at e; rw [e] at h'; exact h.1 h'

/-- Properties with distinct keys of the right kind and values satisfying `P`. -/
def OkProps {α : Type} (validIri validBlank : Str → Bool) (P : α → Prop) (ps : List (Id × List α)) :
    Prop :=
  (ps.map Prod.fst).Nodup ∧ (∀ p ∈ ps, IdOk validIri validBlank p.1) ∧ ∀ p ∈ ps, ∀ x ∈ p.2, P x

theorem Ens.readProps {α : Type} {P : α → Prop} {f : Json → Except JErr α} (h : ∀ j, Ens P (f j))
    (m : List (Str × Json)) :
    Ens (OkProps validIri validBlank P) (readProps validIri validBlank f m) := by
  have key : ∀ (m : List (Str × Json)) (acc : List (Id × List α)), OkProps validIri validBlank P acc →
      Ens (OkProps validIri validBlank P) (m.foldlM (init := acc) fun ps e => do
          let l ← JsonLd.readVec f e.2
          .ok (insertAll (Id.ofStr validIri validBlank e.1) l ps)) := by
    intro m
    induction m with
    | nil => intro acc ha; exact Ens.ok ha
    | cons e m ih =>
      intro acc ha
      rw [List.foldlM_cons]
      refine Ens.bind (P := OkProps validIri validBlank P) ?_ fun a ha => ih a ha
      refine (Ens.readVec h e.2).bind fun l hl => Ens.ok ⟨keys_insertAll ha.1, ?_, ?_⟩
      · intro p hp
        rcases (mem_insertAll hp).1 with h' | h'
        · rw [h']; exact idOk_ofStr _
        · obtain ⟨q, hq, e⟩ := List.mem_map.1 h'
          rw [← e]; exact ha.2.1 q hq
      · intro p hp x hx
        rcases (mem_insertAll hp).2 x hx with h' | ⟨q, hq, hxq⟩
        · exact hl x h'
        · exact ha.2.2 q hq x hxq
  exact key m [] ⟨by simp, by simp, by simp⟩

theorem Ens.readRev {P : Node → Prop} {f : Json → Except JErr Node} (h : ∀ j, Ens P (f j))
    (j : Json) : Ens (OkProps validIri validBlank P) (readRev validIri validBlank f j) := by
  cases j with
  | obj m => exact Ens.readProps h m
  | _ => exact Ens.error

theorem Ens.readId (j : Json) :
    Ens (IdOk validIri validBlank) (Id.read validIri validBlank j) := by
  cases j with
  | str s => exact Ens.ok (idOk_ofStr s)
  | _ => exact Ens.error

theorem okNode_mk {i id ty g inc ps rv} (hid : ∀ x, id = some x → IdOk validIri validBlank x)
    (hty : ∀ ts, ty = some ts → ∀ t ∈ ts, IdOk validIri validBlank t)
    (hg : ∀ l, g = some l → l.Pairwise (fun a b => Obj.eq b a = false) ∧
      ∀ o ∈ l, OkObj validIri validBlank o)
    (hinc : ∀ l, inc = some l → l.Pairwise (fun a b => Node.eq b a = false) ∧
      ∀ o ∈ l, OkNode validIri validBlank o)
    (hps : OkProps validIri validBlank (OkObj validIri validBlank) ps)
    (hrv : ∀ l, rv = some l → OkProps validIri validBlank (OkNode validIri validBlank) l) :
    OkNode validIri validBlank (.mk i id ty g inc ps rv) := by
  constructor
  · rw [Node.WF]
    refine ⟨?_, ?_, hps.1, psWF_iff.2 fun p hp o ho => (hps.2.2 p hp o ho).1, ?_⟩
    · cases g with
      | none => trivial
      | some l => exact ⟨(hg l rfl).1, objsWF_iff.2 fun o ho => ((hg l rfl).2 o ho).1⟩
    · cases inc with
      | none => trivial
      | some l => exact ⟨(hinc l rfl).1, nodesWF_iff.2 fun o ho => ((hinc l rfl).2 o ho).1⟩
    · cases rv with
      | none => trivial
      | some l => exact ⟨(hrv l rfl).1, rpsWF_iff.2 fun p hp o ho => ((hrv l rfl).2.2 p hp o ho).1⟩
  · refine TypedItem.intro (by simp) ?_ ?_
    · rintro n ⟨⟩
      exact ⟨hid, hty, hps.2.1, fun r hr => (hrv r hr).2.1⟩
    · rintro y (hp | hp)
      cases hp with
      | graph h ho => exact ((hg _ h).2 _ ho).2
      | included h ho => exact ((hinc _ h).2 _ ho).2
      | property h ho => exact (hps.2.2 _ h _ ho).2
      | reverse h hp hm => exact ((hrv _ h).2.2 _ hp _ hm).2

theorem Ens.readNodeBody {ro : Json → Except JErr Obj} {rn : Json → Except JErr Node}
    (ho : ∀ j, Ens (OkObj validIri validBlank) (ro j))
    (hn : ∀ j, Ens (OkNode validIri validBlank) (rn j)) (i : Option Str) (m : List (Str × Json)) :
    Ens (OkNode validIri validBlank) (readNodeBody validIri validBlank ro rn i m) := by
  unfold JsonLd.readNodeBody
  refine (Ens.trivial _).bind ?_
  rintro ⟨o1, m1⟩ _
  refine (Ens.readOpt Ens.readId _).bind fun id hid => ?_
  refine (Ens.trivial _).bind ?_
  rintro ⟨o2, m2⟩ _
  refine (Ens.readOpt (Ens.readVec Ens.readId) _).bind fun ty hty => ?_
  refine (Ens.trivial _).bind ?_
  rintro ⟨o3, m3⟩ _
  refine (Ens.readOpt (Ens.readSet ho) _).bind fun g hg => ?_
  refine (Ens.trivial _).bind ?_
  rintro ⟨o4, m4⟩ _
  refine (Ens.readOpt (Ens.readSet hn) _).bind fun inc hinc => ?_
  refine (Ens.trivial _).bind ?_
  rintro ⟨o5, m5⟩ _
  refine (Ens.readOpt (Ens.readRev hn) _).bind fun rv hrv => ?_
  exact (Ens.readProps ho _).bind fun ps hps => Ens.ok (okNode_mk hid hty hg hinc hps hrv)

theorem Ens.readValue (m : List (Str × Json)) (v : Json) :
    Ens (ValueOk validIri) (Value.read validIri m v) := by
  unfold Value.read
  refine (Ens.trivial _).bind ?_
  rintro ⟨o, m1⟩ _
  dsimp only
  split
  · rename_i ty
    split
    · exact Ens.ok True.intro
    · rename_i hj
      split
      · rename_i hv
        exact (Ens.trivial _).bind fun l _ => Ens.ok ⟨hv, hj⟩
      · exact Ens.error
  · exact Ens.error
  · refine (Ens.trivial _).bind ?_
    rintro ⟨l, m2⟩ _
    refine (Ens.trivial _).bind ?_
    rintro ⟨d, m3⟩ _
    dsimp only
    split
    · refine Ens.bind (P := fun s : LangString => s.language ≠ none ∨ s.direction ≠ none) ?_ fun s hs => Ens.ok hs
      unfold LangString.read
      refine (Ens.trivial _).bind fun data _ => (Ens.trivial _).bind fun lang _ =>
        (Ens.trivial _).bind fun dir _ => ?_
      split
      · unfold LangString.new
        split
        · rename_i hx
          split at hx
          · rename_i hc
            cases hx
            refine Ens.ok ?_
            revert hc
            cases lang <;> cases dir <;> simp
          · cases hx
        · exact Ens.error
      · exact Ens.error
    · exact (Ens.trivial _).bind fun l _ => Ens.ok True.intro

theorem Ens.readObjBody {ro : Json → Except JErr Obj} {rn : Json → Except JErr Node}
    (ho : ∀ j, Ens (OkObj validIri validBlank) (ro j))
    (hn : ∀ j, Ens (OkNode validIri validBlank) (rn j)) (i : Option Str) (m : List (Str × Json)) :
    Ens (OkObj validIri validBlank) (readObjBody validIri validBlank ro rn i m) := by
  unfold JsonLd.readObjBody
  refine (Ens.trivial _).bind ?_
  rintro ⟨o1, m1⟩ _
  cases o1 with
  | some _ => exact Ens.error
  | none =>
    refine (Ens.trivial _).bind ?_
    rintro ⟨o2, m2⟩ _
    cases o2 with
    | some v =>
      refine (Ens.readValue m2 v).bind fun v hv => Ens.ok ⟨True.intro, ?_⟩
      refine TypedItem.intro (by rintro i v ⟨⟩; exact hv) (by simp) ?_
      rintro y (⟨⟨⟩⟩ | _)
    | none =>
      refine (Ens.trivial _).bind ?_
      rintro ⟨o3, m3⟩ _
      cases o3 with
      | some v =>
        refine (Ens.readVec ho v).bind fun l hl => ?_
        cases m3 with
        | nil =>
          refine Ens.ok ⟨objsWF_iff.2 fun o h => (hl o h).1, ?_⟩
          refine TypedItem.intro (by simp) (by simp) ?_
          rintro y (⟨⟨⟩⟩ | ho)
          exact (hl _ ho).2
        | cons => exact Ens.error
      | none =>
        refine (Ens.readNodeBody ho hn i _).bind fun n hn => Ens.ok ⟨hn.1, ?_⟩
        refine TypedItem.intro (by simp) (by simp) ?_
        rintro y (hp | _)
        cases hp
        exact hn.2

theorem Ens.readIndexed {α : Type} {P : α → Prop}
    {b : Option Str → List (Str × Json) → Except JErr α} (h : ∀ i m, Ens P (b i m)) (j : Json) :
    Ens P (readIndexed b j) := by
  cases j with
  | obj m => exact (Ens.trivial _).bind fun x _ => h _ _
  | _ => exact Ens.error

theorem read_ok (f : Nat) : ∀ j, Ens (OkObj validIri validBlank) (readObj validIri validBlank f j) ∧
    Ens (OkNode validIri validBlank) (readNode validIri validBlank f j) := by
  induction f with
  | zero => intro j; exact ⟨Ens.error, Ens.error⟩
  | succ f ih =>
    intro j
    rw [readObj, readNode]
    exact ⟨Ens.readIndexed (Ens.readObjBody (fun j => (ih j).1) fun j => (ih j).2) j,
      Ens.readIndexed (Ens.readNodeBody (fun j => (ih j).1) fun j => (ih j).2) j⟩

end
end JsonLd
