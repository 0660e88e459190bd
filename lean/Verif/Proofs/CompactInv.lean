import Verif.Proofs.CompactRec
import Verif.Proofs.AddValue
import Verif.Spec.CompactDoc
/-!
# Invariants of compaction: distinct keys, and which errors are possible
-/

namespace JsonLd
open Spec

/-- The result satisfies `Q`, or it is one of the errors `X`. -/
def Post {α : Type} (X : CompErr → Prop) (Q : α → Prop) : Except CompErr α → Prop
  | .ok a => Q a
  | .error e => X e

namespace Post
variable {α β σ : Type} {X : CompErr → Prop}

theorem bind {Q : α → Prop} {Q' : β → Prop} {r : Except CompErr α} {f : α → Except CompErr β}
    (h : Post X Q r) (hf : ∀ a, Q a → Post X Q' (f a)) : Post X Q' (r.bind f) := by
  cases r with
  | error e => exact h
  | ok a => exact hf a h

theorem map {Q : α → Prop} {Q' : β → Prop} {r : Except CompErr α} {f : α → β}
    (h : Post X Q r) (hf : ∀ a, Q a → Q' (f a)) : Post X Q' (r.map f) := by
  cases r with
  | error e => exact h
  | ok a => exact hf a h

theorem foldlM {I : σ → Prop} {f : σ → α → Except CompErr σ} : ∀ {l : List α} {s : σ},
    (∀ a ∈ l, ∀ s, I s → Post X I (f s a)) → I s → Post X I (l.foldlM f s) := by
  intro l
  induction l with
  | nil => intro s _ hs; exact hs
  | cons a l ih =>
    intro s hf hs
    rw [List.foldlM_cons]
    exact bind (hf a (by simp) s hs) fun s' hs' => ih (fun b hb => hf b (by simp [hb])) hs'

theorem ok {Q : α → Prop} {a : α} {r : Except CompErr α} (h : Post X Q r) (hr : r = .ok a) : Q a := by
  rw [hr] at h
  exact h

theorem mono {Q Q' : α → Prop} {r : Except CompErr α} (h : Post X Q r) (hq : ∀ a, Q a → Q' a) :
    Post X Q' r := by
  cases r with
  | error e => exact h
  | ok a => exact hq a h

end Post

/-! ## Objects with distinct keys -/

/-- The keys are distinct, here and inside the values. -/
def MapOk (m : JMap) : Prop := DistinctKeys m ∧ ∀ e ∈ m, NoDupKeys e.2

theorem MapOk.nil : MapOk [] := ⟨List.nodup_nil, by simp⟩

theorem MapOk.obj {m : JMap} (h : MapOk m) : NoDupKeys (.obj m) := .obj h.1 h.2

theorem NoDupKeys.mapOk {m : JMap} (h : NoDupKeys (.obj m)) : MapOk m := by
  cases h with | obj hd h => exact ⟨hd, h⟩

theorem NoDupKeys.items {l : List Json} (h : NoDupKeys (.arr l)) : ∀ x ∈ l, NoDupKeys x := by
  cases h with | arr h => exact h

theorem lookup_mem {k : Str} {m : JMap} {v : Json} (h : lookupKey k m = some v) : (k, v) ∈ m := by
  induction m with
  | nil => cases h
  | cons e m ih =>
    obtain ⟨x, w⟩ := e
    by_cases hx : x = k
    · subst hx
      simp only [lookupKey, if_pos] at h
      cases h
      exact List.mem_cons_self
    · simp only [lookupKey, hx, if_false] at h
      exact List.mem_cons_of_mem _ (ih h)

theorem mem_lookup {k : Str} {m : JMap} {v : Json} (hd : DistinctKeys m) (h : (k, v) ∈ m) :
    lookupKey k m = some v := by
  induction m with
  | nil => cases h
  | cons e m ih =>
    obtain ⟨x, w⟩ := e
    simp only [DistinctKeys, List.map_cons, List.nodup_cons] at hd
    rcases List.mem_cons.1 h with h | h
    · cases h; simp [lookupKey]
    · have : x ≠ k := by
        rintro rfl
        exact hd.1 (List.mem_map.2 ⟨_, h, rfl⟩)
      simp only [lookupKey, this, if_false]
      exact ih hd.2 h

theorem MapOk.with {m m' : JMap} {k : Str} {v : Option Json} (h : MapOk m) (hw : WithEntry m k v m')
    (hv : ∀ w, v = some w → NoDupKeys w) : MapOk m' := by
  refine ⟨hw.distinct, fun e he => ?_⟩
  by_cases hk : e.1 = k
  · refine hv e.2 ?_
    rw [← hw.value, ← hk]
    exact mem_lookup hw.distinct he
  · have : e ∈ m'.filter (fun e => decide (e.1 ≠ k)) := List.mem_filter.2 ⟨he, by simpa using hk⟩
    rw [hw.others] at this
    exact h.2 e (List.mem_filter.1 this).1

theorem MapOk.insert {m : JMap} (h : MapOk m) (k : Str) {v : Json} (hv : NoDupKeys v) :
    MapOk (jInsert k v m) :=
  h.with (jInsert_entry k v h.1) fun w hw => by cases hw; exact hv

theorem MapOk.filter {m : JMap} (h : MapOk m) (p : Str × Json → Bool) : MapOk (m.filter p) :=
  ⟨distinct_filter h.1 p, fun e he => h.2 e (List.mem_filter.1 he).1⟩

theorem MapOk.jObject {es : JMap} (h : ∀ e ∈ es, NoDupKeys e.2) : MapOk (jObject es) := by
  have : ∀ (es : JMap) (m : JMap), (∀ e ∈ es, NoDupKeys e.2) → MapOk m →
      MapOk (es.foldl (fun m e => jInsert e.1 e.2 m) m) := by
    intro es
    induction es with
    | nil => intro m _ hm; exact hm
    | cons e es ih => intro m he hm; exact ih _ (fun x hx => he x (by simp [hx])) (hm.insert _ (he e (by simp)))
  exact this es [] h .nil

theorem startOn_ok {s : Option Json} (hs : ∀ w, s = some w → NoDupKeys w) (a : Bool) :
    ∀ w, startOn s a = some w → NoDupKeys w := by
  intro w hw
  unfold startOn at hw
  split at hw
  · cases hw; exact hs _ rfl
  · rename_i v _
    cases hw
    exact .arr (by simpa using hs v rfl)
  · split at hw
    · cases hw; exact .arr (by simp)
    · cases hw

theorem leafOn_ok {s : Option Json} (hs : ∀ w, s = some w → NoDupKeys w) {v : Json} (hv : NoDupKeys v) :
    ∀ w, leafOn s v = some w → NoDupKeys w := by
  intro w hw
  unfold leafOn at hw
  split at hw
  · rename_i l
    cases hw
    refine .arr fun x hx => ?_
    rcases List.mem_append.1 hx with hx | hx
    · exact NoDupKeys.items (hs _ rfl) x hx
    · rw [List.mem_singleton.1 hx]; exact hv
  · cases hw; exact hv

theorem addAllOn_ok : ∀ (l : List Json) (s : Option Json),
    (∀ v ∈ l, ∀ (s : Option Json) (a : Bool), (∀ w, s = some w → NoDupKeys w) → NoDupKeys v →
      ∀ w, addOn s v a = some w → NoDupKeys w) →
    (∀ v ∈ l, NoDupKeys v) → (∀ w, s = some w → NoDupKeys w) → ∀ w, addAllOn s l = some w → NoDupKeys w := by
  intro l
  induction l with
  | nil => intro s _ _ hs w hw; rw [addAllOn] at hw; exact hs w hw
  | cons x l ihl =>
    intro s ih hv hs w hw
    rw [addAllOn] at hw
    exact ihl _ (fun y hy => ih y (by simp [hy])) (fun y hy => hv y (by simp [hy]))
      (ih x (by simp) _ _ hs (hv x (by simp))) w hw

theorem addOn_ok (v : Json) : ∀ (s : Option Json) (a : Bool), (∀ w, s = some w → NoDupKeys w) → NoDupKeys v →
    ∀ w, addOn s v a = some w → NoDupKeys w := by
  have scalar : ∀ v : Json, (∀ s a, addOn s v a = leafOn (startOn s a) v) →
      ∀ (s : Option Json) (a : Bool), (∀ w, s = some w → NoDupKeys w) → NoDupKeys v →
      ∀ w, addOn s v a = some w → NoDupKeys w := by
    intro v h s a hs hv w hw
    rw [h] at hw
    exact leafOn_ok (startOn_ok hs a) hv w hw
  induction v using Json.ind with
  | hnull => exact scalar _ (fun s a => by simp [addOn])
  | hbool => exact scalar _ (fun s a => by simp [addOn])
  | hnum => exact scalar _ (fun s a => by simp [addOn])
  | hstr => exact scalar _ (fun s a => by simp [addOn])
  | hobj => exact scalar _ (fun s a => by simp [addOn])
  | harr l ih =>
    intro s a hs hv w hw
    rw [addOn] at hw
    have hv := NoDupKeys.items hv
    exact addAllOn_ok l _ ih hv (startOn_ok hs a) w hw

theorem MapOk.add {m : JMap} (h : MapOk m) (k : Str) {v : Json} (hv : NoDupKeys v) (a : Bool) :
    ∃ m', addValue m k v a = .ok m' ∧ MapOk m' := by
  obtain ⟨m', h1, h2⟩ := addValue_entry k v m a h.1
  exact ⟨m', h1, h.with h2 (addOn_ok v _ a (fun w hw => h.2 _ (lookup_mem hw)) hv)⟩

theorem MapOk.postAdd {X : CompErr → Prop} {m : JMap} (h : MapOk m) (k : Str) {v : Json} (hv : NoDupKeys v)
    (a : Bool) : Post X MapOk (addValue m k v a) := by
  obtain ⟨m', h1, h2⟩ := h.add k hv a
  rw [h1]
  exact h2

/-! ## The parts of compaction -/

/-- Compacted objects satisfy `K`. -/
def ObjOk (K : Json → Prop) (m : JMap) : Prop := K (.obj m)

/-- The condition `K` on JSON values is kept by the changes that compaction makes, up to the errors `X`. -/
structure Shape (X : CompErr → Prop) (K : Json → Prop) : Prop where
  null : K .null
  bool : ∀ b, K (.bool b)
  num : ∀ n, K (.num n)
  str : ∀ s, K (.str s)
  arr : ∀ {l}, K (.arr l) ↔ ∀ x ∈ l, K x
  nil : ObjOk K []
  values : ∀ {m}, ObjOk K m → ∀ e ∈ m, K e.2
  insert : ∀ {m}, ObjOk K m → ∀ k {v}, K v → ObjOk K (jInsert k v m)
  filter : ∀ {m}, ObjOk K m → ∀ p, ObjOk K (m.filter p)
  replace : ∀ {m}, ObjOk K m → ∀ k {v}, K v → ObjOk K (m.map fun e => if e.1 = k then (e.1, v) else e)
  front : ∀ {m}, ObjOk K m → ∀ k {v}, K v → ObjOk K ((k, v) :: m.filter fun e => decide (e.1 ≠ k))
  get : ∀ {m}, ObjOk K m → ∀ k, Post X (fun w => ∀ v, w = some v → K v) (jGet k m)
  add : ∀ {m}, ObjOk K m → ∀ k {v}, K v → ∀ a, Post X (ObjOk K) (addValue m k v a)

/-- The errors `X` are possible, in contexts that satisfy `P`. -/
structure Allows (E : CEnv) (X : CompErr → Prop) (P : ACtx → Prop) (K : Json → Prop) : Prop where
  shape : Shape X K
  iri : X .iriConfusedWithPrefix
  nest : X .invalidNestValue
  context : ∀ e, X (.context e)
  process : ∀ c l b o c', P c → E.process c l b o = .ok c' → P c'
  previous : ∀ c c', P c → c.previous = some c' → P c'
  plain : ∀ c, P c → X .panic ∨ PlainTerms c

section
variable {X : CompErr → Prop} {K : Json → Prop} (S : Shape X K)
include S

theorem Shape.optStr (s : Option Str) : K (optStr s) := by
  cases s with
  | none => exact S.null
  | some s => exact S.str s

theorem Shape.literal (l : Literal) : K l.toJson := by
  cases l with
  | null => exact S.null
  | bool b => exact S.bool b
  | num n => exact S.num n
  | str s => exact S.str s

theorem Shape.collect {c : ACtx} {prop : Option Str} {o : CompOpts} {l : List Json}
    (h : ∀ x ∈ l, K x) : K (collect c prop o l) := by
  unfold JsonLd.collect
  split
  · split
    · exact S.arr.2 h
    · exact h _ (by simp)
  · exact S.arr.2 h

theorem Shape.wrap {v : Json} (h : K v) : K (wrapArray v) := by
  unfold wrapArray
  split
  · exact h
  · exact S.arr.2 (by simpa using h)

theorem Shape.firstValue {j : Json} (h : K j) : ∀ x ∈ (firstValue j).2, K x := by
  unfold JsonLd.firstValue
  split
  · simp
  · simp
  · intro x hx
    exact S.arr.1 h x (List.mem_cons_of_mem _ hx)
  · simpa using h

theorem Shape.jObject {es : JMap} (h : ∀ e ∈ es, K e.2) : ObjOk K (jObject es) := by
  have : ∀ (es : JMap) (m : JMap), (∀ e ∈ es, K e.2) → ObjOk K m →
      ObjOk K (es.foldl (fun m e => jInsert e.1 e.2 m) m) := by
    intro es
    induction es with
    | nil => intro m _ hm; exact hm
    | cons e es ih =>
      intro m he hm
      exact ih _ (fun x hx => he x (by simp [hx])) (S.insert hm _ (he e (by simp)))
  exact this es [] h S.nil

theorem Shape.one (k : Str) {v : Json} (h : K v) : ObjOk K [(k, v)] := S.insert S.nil k h

end

theorem plain_container {c : ACtx} (hp : PlainTerms c) (key : Str) :
    (defContainer (c.get key)).contains .language = false ∧ (defContainer (c.get key)).contains .index = false ∧
    (defContainer (c.get key)).contains .id = false ∧ (defContainer (c.get key)).contains .type = false := by
  unfold defContainer
  cases h : c.get key with
  | none => simp [Container.contains, Container.asSlice]
  | some d =>
    obtain ⟨_, h1, h2, h3, h4⟩ := hp key d h
    simp [Container.contains, h1, h2, h3, h4]

section
variable {E : CEnv} {X : CompErr → Prop} {P : ACtx → Prop} {K : Json → Prop} (A : Allows E X P K)
include A

theorem Allows.scoped {c : ACtx} (hc : P c) (d : Option TermDef) (o : Opts) : Post X P (cScoped E d c o) := by
  unfold cScoped
  split
  · split
    · split
      · exact A.process _ _ _ _ _ hc (by assumption)
      · exact A.context _
    · exact hc
  · exact hc

theorem Allows.previousGetD {c : ACtx} (hc : P c) : P (c.previous.getD c) := by
  cases h : c.previous with
  | none => exact hc
  | some p => exact A.previous c p hc h

theorem Allows.noTerm (c : ACtx) (t : CTerm) (b vocab : Bool) :
    Post X (fun _ => True) (compactNoTerm E.toCompEnv c t b vocab) := by
  unfold compactNoTerm
  split
  · trivial
  · simp only
    split
    · trivial
    · unfold compactRest
      split
      · split
        · exact A.iri
        · split <;> trivial
      · trivial

theorem Allows.cIri {c : ACtx} (t : CTerm) (vocab : Bool) :
    Post X (fun s => t ≠ .null → s ≠ none) (cIri E c t vocab) := by
  unfold JsonLd.cIri compactIriPlain
  split
  · rename_i h
    intro hn
    exact absurd h hn
  · split
    · intro _; nofun
    · exact (A.noTerm c t true vocab).map fun s _ _ => by simp

theorem Allows.cIriU {c : ACtx} {t : CTerm} (ht : t ≠ .null) (vocab : Bool) :
    Post X (fun _ => True) (cIriU E c t vocab) := by
  have := A.cIri (c := c) t vocab
  unfold JsonLd.cIriU
  revert this
  cases JsonLd.cIri E c t vocab with
  | error e => exact id
  | ok s =>
    cases s with
    | none => intro h; exact absurd rfl (h ht)
    | some s => intro _; trivial

theorem Allows.cKey {c : ACtx} (k : Keyword) : Post X (fun _ => True) (cKey E c k) :=
  A.cIriU (by simp) true

theorem Allows.itemKey {c : ACtx} (p : CTerm) (rev : Bool) (o : Obj) :
    Post X (fun _ => True) (itemKey E c p rev o) := by
  unfold JsonLd.itemKey compactIriWith
  split
  · trivial
  · have hid : ∀ t, Post X (fun _ => True) (idHasTerm E.toCompEnv c E.opts t o) := by
      intro t
      unfold idHasTerm
      split
      · trivial
      · rename_i i _
        split
        · have := A.cIri (c := c) (.id i) true
          unfold JsonLd.cIri at this
          revert this
          cases compactIriPlain E.toCompEnv c (.id i) true false E.opts with
          | error e => exact id
          | ok s =>
            cases s with
            | none => intro h; exact absurd rfl (h (by simp))
            | some s => intro _; trivial
        · trivial
    have hsel : Post X (fun _ => True) (fullSelection E.toCompEnv c E.opts o rev) := by
      unfold fullSelection
      split
      · trivial
      · split
        · rename_i t _
          have := hid t
          revert this
          cases idHasTerm E.toCompEnv c E.opts t o with
          | error e => exact id
          | ok s => intro _; trivial
        · trivial
        · trivial
    have hterm : Post X (fun _ => True) (compactTermWith E.toCompEnv c p o rev E.opts) := by
      unfold compactTermWith
      split
      · trivial
      · revert hsel
        cases fullSelection E.toCompEnv c E.opts o rev with
        | error e => exact id
        | ok s => intro _; trivial
    simp only [if_true]
    revert hterm
    cases compactTermWith E.toCompEnv c p o rev E.opts with
    | error e => exact id
    | ok s =>
      intro _
      cases s with
      | some s => trivial
      | none => exact (A.noTerm c p false true).map fun _ _ => trivial

theorem Allows.valueEntries {c : ACtx} {v : Value} (hv : ∀ j, v = .json j → K j) :
    Post X (fun es => ∀ e ∈ es, K e.2) (valueEntries E c v) := by
  unfold JsonLd.valueEntries
  split
  · exact (A.cKey _).map fun k _ => by simpa using A.shape.literal _
  · exact (A.cKey _).bind fun k _ => (A.cKey _).bind fun kt _ => (A.cIri _ _).map fun s _ => by
      simpa using ⟨A.shape.literal _, A.shape.optStr _⟩
  · rename_i s
    refine (A.cKey _).bind fun k _ => Post.bind (Q := fun es => ∀ e ∈ es, K e.2) ?_ fun el hl =>
      Post.map (Q := fun es => ∀ e ∈ es, K e.2) ?_ fun ed hd => ?_
    · split
      · exact (A.cKey _).map fun _ _ => by simpa using A.shape.str _
      · exact (by simp : ∀ e ∈ ([] : JMap), K e.2)
    · split
      · exact (A.cKey _).map fun _ _ => by simpa using A.shape.str _
      · exact (by simp : ∀ e ∈ ([] : JMap), K e.2)
    · intro e he
      rcases List.mem_cons.1 he with rfl | he
      · exact A.shape.str _
      · rcases List.mem_append.1 he with he | he
        · exact hl e he
        · exact hd e he
  · exact (A.cKey _).bind fun k _ => (A.cKey _).bind fun kt _ => (A.cIri _ _).map fun s _ => by
      simpa using ⟨hv _ rfl, A.shape.optStr _⟩

theorem Allows.value {c : ACtx} (hc : P c) (prop index : Option Str) {v : Value}
    (hv : ∀ j, v = .json j → K j) : Post X K (compactValue E c prop index v) := by
  unfold compactValue
  refine (A.scoped hc _ _).bind fun c _ => ?_
  unfold valueIn
  split
  · rename_i j h
    split at h
    · unfold valueBare at h
      split at h
      · split at h
        · split at h
          · split at h
            · cases h; exact A.shape.str _
            · cases h
          · cases h; exact A.shape.literal _
        · cases h
      · split at h
        · cases h; exact A.shape.str _
        · cases h
      · split at h
        · cases h; exact hv _ rfl
        · cases h
    · cases h
  · refine (A.valueEntries hv).bind fun es he => Post.map (Q := fun es => ∀ e ∈ es, K e.2) ?_
      fun ei hi => (A.shape.jObject fun e h => ?_)
    · unfold cValueIndex
      split
      · split
        · exact (by simp : ∀ e ∈ ([] : JMap), K e.2)
        · exact (A.cKey _).map fun _ _ => by simpa using A.shape.str _
      · exact (by simp : ∀ e ∈ ([] : JMap), K e.2)
    · rcases List.mem_append.1 h with h | h
      · exact he e h
      · exact hi e h

theorem Allows.inObject {c : ACtx} (hc : P c) (hp : ¬ PlainTerms c) {k : Str} {m : JMap} (hm : ObjOk K m)
    {f : JMap → Except CompErr JMap} (hf : ∀ m, ObjOk K m → Post X (ObjOk K) (f m)) :
    Post X (ObjOk K) (inObject k m f) := by
  unfold JsonLd.inObject
  refine (A.shape.get hm k).bind fun w hw => ?_
  split
  · exact (hf [] A.shape.nil).map fun r hr => A.shape.insert hm _ hr
  · rename_i o
    exact (hf o (hw _ rfl)).map fun r hr => A.shape.replace hm _ hr
  · exact (A.plain c hc).resolve_right hp

theorem Allows.inNest {c : ACtx} (hc : P c) (key : Str) {m : JMap} (hm : ObjOk K m)
    {f : JMap → Except CompErr JMap} (hf : ∀ m, ObjOk K m → Post X (ObjOk K) (f m)) :
    Post X (ObjOk K) (inNest c key m f) := by
  unfold JsonLd.inNest
  split
  · rename_i n hn
    split
    · refine A.inObject hc (fun hp => ?_) hm hf
      cases hd : c.get key with
      | none => rw [hd] at hn; cases hn
      | some d =>
        rw [hd] at hn
        simp only [Option.bind_some] at hn
        rw [(hp key d hd).1] at hn
        cases hn
    · exact A.nest
  · exact hf m hm

omit A in
theorem post_items {α : Type} {f : α → Except CompErr Json} {l : List α}
    (h : ∀ a ∈ l, Post X K (f a)) : Post X (fun r => ∀ x ∈ r, K x) (compactItems f l) := by
  induction l with
  | nil => exact (by simp : ∀ x ∈ ([] : List Json), K x)
  | cons a l ih =>
    rw [compactItems]
    refine Post.bind (h a (by simp)) fun v hv => Post.bind (ih fun b hb => h b (by simp [hb])) fun r hr => ?_
    show ∀ x ∈ (if v.isNull then r else v :: r), K x
    split
    · exact hr
    · intro x hx
      rcases List.mem_cons.1 hx with rfl | hx
      · exact hv
      · exact hr x hx

theorem post_collection {α : Type} {f : α → Except CompErr Json} {c : ACtx} {prop : Option Str}
    {o : CompOpts} {l : List α} (h : ∀ a ∈ l, Post X K (f a)) :
    Post X K (compactCollection f c prop o l) := by
  rw [compactCollection]
  exact (post_items h).bind fun r hr => A.shape.collect hr

theorem Allows.indexEntries {c : ACtx} (index : Option Str) :
    Post X (fun es => ∀ e ∈ es, K e.2) (indexEntries E c index) := by
  unfold JsonLd.indexEntries
  split
  · exact (A.cKey _).map fun _ _ => by simpa using A.shape.str _
  · exact (by simp : ∀ e ∈ ([] : JMap), K e.2)

theorem Allows.graphObject {c : ACtx} (n : Node) {v : Json} (hv : K v) :
    Post X K (graphObject E c n v) := by
  unfold JsonLd.graphObject
  refine (A.cKey _).bind fun k _ => Post.bind (Q := fun es => ∀ e ∈ es, K e.2) ?_ fun ei hi =>
    (A.indexEntries _).map fun ex hx => (A.shape.jObject fun e he => ?_)
  · unfold graphId
    split
    · exact (A.cIriU (by simp) _).bind fun _ _ => (A.cIri _ _).map fun s _ => by simpa using A.shape.optStr _
    · exact (by simp : ∀ e ∈ ([] : JMap), K e.2)
  · rcases List.mem_cons.1 he with rfl | he
    · exact hv
    · rcases List.mem_append.1 he with he | he
      · exact hi e he
      · exact hx e he

theorem Allows.addGraph {c : ACtx} (hc : P c) (key : Str) (n : Node) {v : Json} (hv : K v) {m : JMap}
    (hm : ObjOk K m) : Post X (ObjOk K) (addGraph E c key n v m) := by
  unfold JsonLd.addGraph
  simp only
  split
  · rename_i h
    refine A.inObject hc (fun hp => ?_) hm fun m hm => ?_
    · rw [(plain_container hp key).2.2.1] at h
      simp at h
    · refine Post.bind (Q := fun _ => True) ?_ fun mk _ => A.shape.add hm mk hv _
      unfold graphMapKey
      split
      · exact A.cIriU (by simp) _
      · exact A.cKey _
  · split
    · rename_i h
      refine A.inObject hc (fun hp => ?_) hm fun m hm => A.shape.add hm _ hv _
      rw [(plain_container hp key).2.1] at h
      simp at h
    · split
      · refine Post.bind (Q := K) ?_ fun w hw => A.shape.add hm _ hw _
        unfold graphIncluded
        split
        · split
          · exact (A.cKey _).map fun k _ => A.shape.one k hv
          · exact hv
        · exact hv
      · exact (A.graphObject n hv).bind fun w hw => A.shape.add hm _ hw _

theorem post_addEach (k : Str) {l : List Json} (hl : ∀ x ∈ l, K x) {m : JMap} (hm : ObjOk K m) :
    Post X (ObjOk K) (addEach k l m) := by
  induction l generalizing m with
  | nil => exact hm
  | cons v l ih =>
    rw [addEach]
    exact (A.shape.add hm k (hl v (by simp)) false).bind fun m hm => ih (fun x hx => hl x (by simp [hx])) hm

theorem post_takeFirst (k : Str) {v : Json} (hv : K v) :
    Post X (fun r => K r.2) (takeFirst k v) := by
  unfold takeFirst
  split
  · refine (A.shape.get hv k).bind fun w hw => ?_
    split
    · rename_i j
      exact (post_addEach A k (A.shape.firstValue (hw j rfl)) (A.shape.filter hv _)).map fun m hm => hm
    · exact hv
  · exact hv

theorem post_takeId (k : Str) {v : Json} (hv : K v) :
    Post X (fun r => K r.2) (takeId k v) := by
  unfold takeId
  split
  · refine (A.shape.get hv k).map fun w hw => ?_
    split
    · exact A.shape.filter hv _
    · exact hv
  · exact hv

/-- What is known about the recursive calls for the objects that satisfy `H`. -/
def CRecOk (X : CompErr → Prop) (P : ACtx → Prop) (K : Json → Prop) (H : Obj → Prop) (R : CRec) : Prop :=
  ∀ c tsc prop o, P c → P tsc → H o → Post X K (R c tsc prop o)

variable {R : CRec} {H : Obj → Prop} (hR : CRecOk X P K H R) (hId : ∀ i, H (.node (Node.onlyId i)))
include hR hId

theorem Allows.addItem {c : ACtx} (hc : P c) (key : Str) {o : Obj} (ho : ∀ i j, o = .value i (.json j) → K j)
    {v : Json} (hv : K v) {m : JMap} (hm : ObjOk K m) : Post X (ObjOk K) (addItem E R c key o v m) := by
  unfold JsonLd.addItem
  split
  · rename_i hmap
    have hp : ¬ PlainTerms c := by
      intro hp
      obtain ⟨h1, h2, h3, h4⟩ := plain_container hp key
      simp only [isMapContainer, h1, h2, h3, h4] at hmap
      simp at hmap
    refine A.inObject hc hp hm fun m hm => Post.bind (Q := fun r => K r.2) ?_ fun r hr =>
      Post.bind (Q := fun _ => True) ?_ fun mk _ => A.shape.add hm mk hr _
    · unfold cMapItem
      refine (A.cKey _).bind fun ck _ => ?_
      split
      · rename_i x _
        unfold cLangItem
        split
        · exact A.shape.str _
        · cases x with
          | literal l t => exact A.shape.literal l
          | langString s => exact A.shape.str _
          | json j => exact ho _ _ rfl
      · unfold cIndexItem
        split
        · exact (A.cIriU (by simp) _).bind fun ck _ => post_takeFirst A ck hv
        · exact hv
      · exact post_takeId A ck hv
      · unfold cTypeItem
        refine (post_takeFirst A ck hv).bind fun r hr => ?_
        split
        · split
          · exact (hR c c _ _ hc hc (hId _)).map fun w hw => hw
          · exact (A.plain c hc).resolve_right hp
        · exact hr
    · unfold mapKeyOr
      split
      · trivial
      · exact A.cKey _
  · exact A.shape.add hm _ hv _

theorem Allows.propertyItem {c : ACtx} (hc : P c) (key : Str) {o : Obj}
    (hj : ∀ i j, o = .value i (.json j) → K j)
    (ho : H o) (hl : ∀ i l, o = .list i l → ∀ x ∈ l, H x)
    (hg : ∀ n l, o = .node n → n.graph = some l → ∀ x ∈ l, H x) {m : JMap} (hm : ObjOk K m) :
    Post X (ObjOk K) (propertyItem E R c key o m) := by
  unfold JsonLd.propertyItem
  split
  · rename_i i l
    unfold propertyList
    refine (post_collection A fun x hx => hR _ _ _ _ hc hc (hl i l rfl x hx)).bind fun v hv => ?_
    split
    · exact A.shape.insert hm _ (A.shape.wrap hv)
    · refine (A.cKey _).bind fun kl _ => (A.indexEntries _).bind fun ei hi =>
        A.shape.add hm _ (A.shape.jObject fun e he => ?_) _
      rcases List.mem_cons.1 he with rfl | he
      · exact A.shape.wrap hv
      · exact hi e he
  · rename_i n
    split
    · unfold propertyGraph
      refine (post_collection A fun x hx => hR _ _ _ _ hc hc ?_).bind fun v hv => A.addGraph hc key n hv hm
      cases hgr : n.graph with
      | none => rw [hgr] at hx; cases hx
      | some l => rw [hgr] at hx; exact hg n l rfl hgr x hx
    · exact (hR _ _ _ _ hc hc ho).bind fun v hv => A.addItem hR hId hc key hj hv hm
  · exact (hR _ _ _ _ hc hc ho).bind fun v hv => A.addItem hR hId hc key hj hv hm

/-- What is needed about the values of a property. -/
def ItemsOk (K : Json → Prop) (H : Obj → Prop) (l : List Obj) : Prop :=
  ∀ o ∈ l, (∀ i j, o = .value i (.json j) → K j) ∧ H o ∧ (∀ i l, o = .list i l → ∀ x ∈ l, H x) ∧
    ∀ n l, o = .node n → n.graph = some l → ∀ x ∈ l, H x

theorem Allows.property {c : ACtx} (hc : P c) (p : CTerm) (rev : Bool) {l : List Obj} (hl : ItemsOk K H l)
    {m : JMap} (hm : ObjOk K m) : Post X (ObjOk K) (compactProperty E R c p rev l m) := by
  unfold compactProperty
  split
  · unfold propertyEmpty
    refine (A.itemKey _ _ _).bind fun k _ => ?_
    split
    · exact A.inNest hc _ hm fun m hm => A.shape.add hm _ (A.shape.arr.2 (by simp)) _
    · exact hm
  · refine Post.foldlM (fun o ho m hm => ?_) hm
    unfold propertyStep
    refine (A.itemKey _ _ _).bind fun k _ => ?_
    split
    · obtain ⟨h1, h2, h3, h4⟩ := hl o ho
      exact A.inNest hc _ hm fun m hm => A.propertyItem hR hId hc _ h1 h2 h3 h4 hm
    · exact hm

theorem Allows.reverse {c : ACtx} (hc : P c) {rev : Option (List (Id × List Node))}
    (hr : ∀ l, rev = some l → ∀ p ∈ l, ItemsOk K H (p.2.map Obj.node)) {m : JMap} (hm : ObjOk K m) :
    Post X (fun s => P s.1 ∧ ObjOk K s.2) (compactReverse E R c rev m) := by
  unfold compactReverse
  split
  · exact ⟨hc, hm⟩
  · exact ⟨hc, hm⟩
  · rename_i rps _
    refine (A.scoped hc _ _).bind fun c hc => Post.map (Q := ObjOk K) ?_ fun m hm => ⟨hc, hm⟩
    unfold reverseIn
    refine (Post.foldlM (I := ObjOk K) (fun p hp m hm => A.property hR hId hc _ _ (hr _ rfl p hp) hm) A.shape.nil).bind
      fun rr hrr => (Post.foldlM (I := fun s => ObjOk K s.1 ∧ ObjOk K s.2) (fun e he s hs => ?_) ⟨hm, A.shape.nil⟩).bind
      fun s hs => ?_
    · unfold reverseEntry
      split
      · split
        · exact (A.shape.add hs.1 _ (A.shape.values hrr e he) _).map fun m hm => ⟨hm, hs.2⟩
        · exact ⟨hs.1, A.shape.insert hs.2 _ (A.shape.values hrr e he)⟩
      · exact ⟨hs.1, A.shape.insert hs.2 _ (A.shape.values hrr e he)⟩
    · split
      · exact hs.1
      · exact (A.cKey _).map fun k _ => A.shape.insert hs.1 _ hs.2

omit hR hId in
theorem Allows.addIndex {c : ACtx} (prop index : Option Str) {m : JMap} (hm : ObjOk K m) :
    Post X (ObjOk K) (addIndex E c prop index m) := by
  unfold JsonLd.addIndex
  split
  · split
    · exact hm
    · exact (A.cKey _).map fun k _ => A.shape.insert hm _ (A.shape.str _)
  · exact hm

omit hR hId in
theorem Allows.types {c tsc : ACtx} (types : Option (List Id)) {m : JMap} (hm : ObjOk K m) :
    Post X (ObjOk K) (compactTypes E c tsc types m) := by
  have hmap : ∀ ts : List Id, Post X (fun l => ∀ x ∈ l, K x)
      (ts.mapM fun t => (JsonLd.cIri E tsc (.id t) true).map optStr) := by
    intro ts
    induction ts with
    | nil => exact (by simp : ∀ x ∈ ([] : List Json), K x)
    | cons t ts ih =>
      rw [List.mapM_cons]
      refine Post.bind (Q := K) ((A.cIri _ _).map fun s _ => A.shape.optStr _) fun v hv =>
        Post.bind ih fun r hr => ?_
      show ∀ x ∈ v :: r, K x
      intro x hx
      rcases List.mem_cons.1 hx with rfl | hx
      · exact hv
      · exact hr x hx
  unfold compactTypes
  split
  · exact hm
  · exact hm
  · refine Post.bind (Q := K) ?_ fun v hv => (A.cKey _).bind fun k _ => A.shape.add hm _ hv _
    unfold typesJson
    split
    · exact (A.cIri _ _).map fun s _ => A.shape.optStr _
    · exact (hmap _).map fun l hl => A.shape.arr.2 hl

omit hR hId in
theorem Allows.nodeContext {c tsc : ACtx} (hc : P c) (prop : Option Str) (n : Node) :
    Post X P (nodeContext E c tsc prop n) := by
  unfold JsonLd.nodeContext
  refine (A.scoped ?_ _ _).bind fun c hc => ?_
  · unfold nodeStart
    split
    · exact hc
    · exact A.previousGetD hc
  · unfold typeContexts
    refine Post.bind (Q := fun _ => True) ?_ fun ts _ => Post.foldlM (fun t _ c hc => A.scoped hc _ _) hc
    generalize n.types.getD [] = l
    induction l with
    | nil => trivial
    | cons t l ih =>
      rw [typeTerms]
      exact (A.cIriU (by simp) _).bind fun s _ => ih.map fun _ _ => trivial

theorem Allows.node {c tsc : ACtx} (hc : P c) (prop : Option Str) {n : Node}
    (hr : ∀ l, n.rev = some l → ∀ p ∈ l, ItemsOk K H (p.2.map Obj.node))
    (hg : ∀ l, n.graph = some l → ItemsOk K H l) (hi : ∀ l, n.included = some l → ItemsOk K H (l.map Obj.node))
    (hps : ∀ p ∈ n.props, ItemsOk K H p.2) : Post X K (compactNode E R c tsc prop n) := by
  unfold compactNode
  refine (A.nodeContext hc prop n).bind fun c hc => ?_
  split
  · rename_i r h
    unfold nodeString at h
    split at h
    · split at h
      · split at h
        · cases h; exact (A.cIri _ _).map fun s _ => A.shape.optStr _
        · cases h; exact (A.cIri _ _).map fun s _ => A.shape.optStr _
        · cases h
      · cases h
    · cases h
  · unfold nodeIn
    refine Post.bind (Q := ObjOk K) ?_ fun m hm => (A.types _ hm).bind fun m hm =>
      (A.reverse hR hId hc hr hm).bind fun s hs => (A.addIndex _ _ hs.2).bind fun m hm =>
      Post.bind (Q := ObjOk K) ?_ fun m hm => Post.bind (Q := ObjOk K) ?_ fun m hm =>
      Post.map (Q := ObjOk K) ?_ fun m hm => hm
    · unfold nodeIdEntries
      split
      · refine (A.cIri _ _).bind fun s _ => (A.cIri _ _).map fun k _ => ?_
        split
        · exact A.shape.one _ (A.shape.optStr _)
        · exact A.shape.nil
      · exact A.shape.nil
    · unfold compactOpt
      split
      · rename_i l h
        exact A.property hR hId hs.1 _ _ (hg l h) hm
      · exact hm
    · unfold compactProps
      refine Post.foldlM (fun p hp m hm => A.property hR hId hs.1 _ _ (hps p ?_) hm) hm
      unfold sortIf sortByKey at hp
      split at hp
      · exact (List.mem_insertionSort _).1 hp
      · exact hp
    · unfold compactOpt
      split
      · rename_i l h
        obtain ⟨l', hl', rfl⟩ := Option.map_eq_some_iff.1 h
        exact A.property hR hId hs.1 _ _ (hi l' hl') hm
      · exact hm

theorem Allows.list {c tsc : ACtx} (hc : P c) (prop index : Option Str) {l : List Obj}
    (hl : ItemsOk K H l) : Post X K (compactList E R c tsc prop index l) := by
  unfold compactList
  refine (A.scoped (A.previousGetD hc) _ _).bind fun c hc => ?_
  split
  · exact post_collection A fun o ho => hR _ _ _ _ hc hc (hl o ho).2.1
  · exact (A.property hR hId hc _ _ hl A.shape.nil).bind fun m hm => (A.addIndex _ _ hm).map fun m hm => hm

end

/-! ## The literals inside -/

/-- The JSON literals inside satisfy `K`. -/
def LitsOk (K : Json → Prop) (x : Item) : Prop :=
  ∀ i j, Relation.ReflTransGen PartL (.obj (.value i (.json j))) x → K j

variable {K : Json → Prop}

theorem clean_item {i : Option Str} {l : List Obj} {o : Obj} (h : LitsOk K (.obj (.list i l)))
    (ho : o ∈ l) : LitsOk K (.obj o) :=
  fun i j hx => h i j (hx.tail (.item ho))

theorem clean_node {n : Node} : LitsOk K (.obj (.node n)) ↔ LitsOk K (.node n) := by
  constructor
  · exact fun h i j hx => h i j (hx.tail (.part (.self n)))
  · intro h i j hx
    rcases Relation.ReflTransGen.cases_tail hx with hx | ⟨y, hx, hp⟩
    · cases hx
    · cases hp with
      | part hp => cases hp; exact h i j hx

theorem clean_part {n : Node} {x : Item} (h : LitsOk K (.node n)) (hp : Part x (.node n)) :
    LitsOk K x := fun i j hx => h i j (hx.tail (.part hp))

/-- The objects with such literals that are at most this deep. -/
def CleanTo (K : Json → Prop) (n : Nat) (o : Obj) : Prop := LitsOk K (.obj o) ∧ o.depth ≤ n

theorem itemsOk_of {n : Nat} {l : List Obj} (hl : objsDepth l ≤ n) (h : ∀ o ∈ l, LitsOk K (.obj o)) :
    ItemsOk K (CleanTo K n) l := by
  intro o ho
  have hd := Nat.le_trans (depth_mem ho) hl
  refine ⟨?_, ⟨h o ho, hd⟩, ?_, ?_⟩
  · rintro i j rfl
    exact h _ ho i j .refl
  · rintro i l' rfl x hx
    rw [Obj.depth] at hd
    exact ⟨clean_item (h _ ho) hx, by have := depth_mem hx; omega⟩
  · rintro x l' rfl hg y hy
    refine ⟨clean_part (clean_node.1 (h _ ho)) (.graph hg hy), ?_⟩
    have := graph_depth x
    rw [hg] at this
    rw [Obj.depth] at hd
    have := depth_mem hy
    simp only [Option.getD_some] at *
    omega

theorem ItemsOk.mono {H H' : Obj → Prop} (h : ∀ o, H o → H' o) {l : List Obj} (hl : ItemsOk K H l) :
    ItemsOk K H' l := by
  intro o ho
  obtain ⟨h1, h2, h3, h4⟩ := hl o ho
  exact ⟨h1, h _ h2, fun i l e x hx => h _ (h3 i l e x hx), fun n l e hg x hx => h _ (h4 n l e hg x hx)⟩

section
variable {E : CEnv} {X : CompErr → Prop} {P : ACtx → Prop} {K : Json → Prop} (A : Allows E X P K)
include A

theorem body_ok {R : CRec} {H : Obj → Prop} (hR : CRecOk X P K H R) (hId : ∀ i, H (.node (Node.onlyId i))) {n : Nat}
    (hH : ∀ o, CleanTo K n o → H o) : CRecOk X P K (CleanTo K (n + 1)) (compactBody E R) := by
  intro c tsc prop o hc _ ho
  obtain ⟨hcl, hd⟩ := ho
  cases o with
  | value i v => exact A.value hc prop i fun j hj => hcl i j (by rw [hj])
  | list i l =>
    rw [Obj.depth] at hd
    exact A.list hR hId hc prop i ((itemsOk_of (by omega) fun o ho => clean_item hcl ho).mono hH)
  | node x =>
    have hcl := clean_node.1 hcl
    rw [Obj.depth] at hd
    obtain ⟨i, id, t, g, inc, ps, rv⟩ := x
    rw [Node.depth] at hd
    refine A.node hR hId hc prop ?_ ?_ ?_ ?_
    · intro l hl p hp
      cases hl
      refine (itemsOk_of (n := n) ?_ fun o ho => ?_).mono hH
      · rw [depth_nodes]
        have := revDepth_mem hp
        simp only [optRevDepth] at hd
        omega
      · obtain ⟨m, hm, rfl⟩ := List.mem_map.1 ho
        exact clean_node.2 (clean_part hcl (.reverse (k := p.1) (l := p.2) rfl hp hm))
    · intro l hl
      cases hl
      refine (itemsOk_of (n := n) ?_ fun o ho => clean_part hcl (.graph rfl ho)).mono hH
      simp only [optObjsDepth] at hd
      omega
    · intro l hl
      cases hl
      refine (itemsOk_of (n := n) ?_ fun o ho => ?_).mono hH
      · rw [depth_nodes]
        simp only [optNodesDepth] at hd
        omega
      · obtain ⟨m, hm, rfl⟩ := List.mem_map.1 ho
        exact clean_node.2 (clean_part hcl (.included rfl hm))
    · intro p hp
      refine (itemsOk_of (n := n) ?_ fun o ho => clean_part hcl (.property (k := p.1) (l := p.2) hp ho)).mono hH
      have : objsDepth p.2 ≤ propsDepth ps := propDepth_mem hp
      omega

theorem object_ok : ∀ n, CRecOk X P K (CleanTo K n) (compactObject E) := by
  intro n
  induction n with
  | zero => intro c tsc prop o _ _ ho; exact absurd o.depth_pos (by have := ho.2; omega)
  | succ n ih =>
    intro c tsc prop o hc htsc ho
    rw [compactObject_eq]
    cases n with
    | zero =>
      rw [compactBody_congr (n := 0) (R₂ := fun _ _ _ _ => .ok Json.null)
        (fun _ _ _ o ho => absurd o.depth_pos (by omega)) c tsc prop o ho.2]
      exact body_ok A (R := fun _ _ _ _ => .ok Json.null) (H := fun _ => True) (fun _ _ _ _ _ _ _ => A.shape.null) (fun _ => trivial)
        (fun _ _ => trivial) c tsc prop o hc htsc ho
    | succ n =>
      refine body_ok A ih (fun i => ⟨clean_node.2 fun j x hx => ?_, ?_⟩) (fun _ h => h) c tsc prop o hc htsc ho
      · rcases Relation.ReflTransGen.cases_tail hx with hx | ⟨y, hx, hp⟩
        · cases hx
        · cases hp with
          | part hp =>
            cases hp with
            | graph h _ => cases h
            | property h _ => cases h
            | included h _ => cases h
            | reverse h _ => cases h
      · simp [Node.onlyId, Obj.depth, Node.depth, optObjsDepth, optNodesDepth, propsDepth, optRevDepth]

theorem Allows.object {c tsc : ACtx} (hc : P c) (htsc : P tsc) (prop : Option Str) {o : Obj}
    (ho : LitsOk K (.obj o)) : Post X K (compactObject E c tsc prop o) :=
  object_ok A o.depth c tsc prop o hc htsc ⟨ho, Nat.le_refl _⟩

theorem Allows.embed {c : ACtx} {l : SCtx} {v : Json} (hl : K l.toJson) (hv : K v) :
    Post X K (embedContext E c l v) := by
  unfold embedContext
  refine Post.map (Q := fun m => ∀ x, m = some x → ObjOk K x) ?_ fun m hm => ?_
  · unfold embedObject
    split
    · intro x hx; cases hx; exact A.shape.nil
    · refine (A.cKey _).map fun k _ x hx => ?_
      cases hx
      exact A.shape.one k hv
    · intro x hx; cases hx; exact hv
    · intro x hx; cases hx
  · split
    · rename_i m
      have hm := hm m rfl
      unfold insertContext
      split
      · exact A.shape.front hm _ hl
      · exact hm
    · exact A.shape.null

theorem Allows.doc {c : ACtx} (hc : P c) {l : SCtx} (hl : K l.toJson) {d : Doc}
    (hd : ∀ o ∈ d, LitsOk K (.obj o)) : Post X K (compactDoc E c l d) := by
  unfold compactDoc
  exact (post_collection A fun o ho => A.object hc hc none (hd o ho)).bind fun v hv => A.embed hl hv

end

/-! ## The conditions -/

theorem noDup_front {m : JMap} (h : NoDupKeys (.obj m)) (k : Str) {v : Json} (hv : NoDupKeys v) :
    NoDupKeys (.obj ((k, v) :: m.filter fun e => decide (e.1 ≠ k))) := by
  have hm := NoDupKeys.mapOk h
  refine .obj ?_ ?_
  · rw [List.map_cons, List.nodup_cons]
    refine ⟨?_, (hm.filter _).1⟩
    intro h
    obtain ⟨e, he, h⟩ := List.mem_map.1 h
    have := (List.mem_filter.1 he).2
    simp only [decide_eq_true_eq] at this
    exact this h
  · intro e he
    rcases List.mem_cons.1 he with rfl | he
    · exact hv
    · exact (hm.filter _).2 e he

theorem shape_noDup (X : CompErr → Prop) : Shape X NoDupKeys where
  null := .null
  bool := .bool
  num := .num
  str _ := .str _
  arr := ⟨NoDupKeys.items, .arr⟩
  nil := MapOk.nil.obj
  values h := (NoDupKeys.mapOk h).2
  insert h k _ hv := ((NoDupKeys.mapOk h).insert k hv).obj
  filter h p := ((NoDupKeys.mapOk h).filter p).obj
  replace {m} h k v hv := by
    have hm := NoDupKeys.mapOk h
    refine .obj ?_ ?_
    · rw [List.map_map, List.map_congr_left (g := Prod.fst)]
      · exact hm.1
      · intro e _
        simp only [Function.comp]
        split <;> rfl
    · intro e he
      obtain ⟨x, hx, rfl⟩ := List.mem_map.1 he
      split
      · exact hv
      · exact hm.2 x hx
  front h k _ hv := noDup_front h k hv
  get h k := by
    have hm := NoDupKeys.mapOk h
    rw [jGet_eq hm.1]
    intro v hv
    exact hm.2 _ (lookup_mem hv)
  add h k _ hv a := ((NoDupKeys.mapOk h).postAdd k hv a).mono fun _ h => h.obj

theorem jGet_err {X : CompErr → Prop} (hX : X .panic) (k : Str) (m : JMap) :
    Post X (fun _ => True) (jGet k m) := by
  unfold jGet
  split
  · trivial
  · trivial
  · exact hX

theorem addValue_err {X : CompErr → Prop} (hX : X .panic) (v : Json) : ∀ (m : JMap) (k : Str) (a : Bool),
    Post X (fun _ => True) (addValue m k v a) := by
  have start : ∀ (m : JMap) (k : Str) (a : Bool), Post X (fun _ => True) (addStart m k a) := by
    intro m k a
    unfold addStart
    refine (jGet_err hX k m).bind fun w _ => ?_
    split
    · trivial
    · trivial
    · split <;> trivial
  have leaf : ∀ (v : Json) (m : JMap) (k : Str), Post X (fun _ => True) (addLeaf m k v) := by
    intro v m k
    unfold addLeaf
    refine (jGet_err hX k m).bind fun w _ => ?_
    split
    · trivial
    · exact hX
    · trivial
  have scalar : ∀ v : Json, (∀ m k a, addValue m k v a = (addStart m k a).bind fun m => addLeaf m k v) →
      ∀ (m : JMap) (k : Str) (a : Bool), Post X (fun _ => True) (addValue m k v a) := by
    intro v h m k a
    rw [h]
    exact (start m k a).bind fun m _ => leaf v m k
  induction v using Json.ind with
  | hnull => exact scalar _ (fun m k a => by rw [addValue]; simp)
  | hbool => exact scalar _ (fun m k a => by rw [addValue]; simp)
  | hnum => exact scalar _ (fun m k a => by rw [addValue]; simp)
  | hstr => exact scalar _ (fun m k a => by rw [addValue]; simp)
  | hobj => exact scalar _ (fun m k a => by rw [addValue]; simp)
  | harr l ih =>
    intro m k a
    rw [addValue]
    refine (start m k a).bind fun m _ => ?_
    induction l generalizing m with
    | nil => rw [addValues]; trivial
    | cons x l ihl =>
      rw [addValues]
      exact (ih x (by simp) m k false).bind fun m _ => ihl (fun y hy => ih y (by simp [hy])) m

theorem shape_any {X : CompErr → Prop} (hX : X .panic) : Shape X fun _ => True where
  null := trivial
  bool _ := trivial
  num _ := trivial
  str _ := trivial
  arr := by simp
  nil := trivial
  values _ _ _ := trivial
  insert _ _ _ _ := trivial
  filter _ _ := trivial
  replace _ _ _ _ := trivial
  front _ _ _ _ := trivial
  get _ k := (jGet_err hX k _).mono fun _ _ _ _ => trivial
  add _ k _ _ a := (addValue_err hX _ _ k a).mono fun _ _ => trivial

end JsonLd
