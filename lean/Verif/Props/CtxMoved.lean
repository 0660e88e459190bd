import Verif.Props.CtxBack
/-!
# C111: members moved at any depth
-/

namespace JsonLd.Props

open Spec

variable {isRef : Str → Bool}

/-! ## Values that are no objects stay -/

private theorem same_str {s : Str} {j : Json} (h : SameJson (.str s) j) : j = .str s := by
  cases h; rfl

private theorem same_bool {b : Bool} {j : Json} (h : SameJson (.bool b) j) : j = .bool b := by
  cases h; rfl

private theorem same_num {n : Str} {j : Json} (h : SameJson (.num n) j) : j = .num n := by
  cases h; rfl

private theorem same_null {j : Json} (h : SameJson .null j) : j = .null := by
  cases h; rfl

private theorem text_moved {v v' : Json} (hs : SameJson v v') {a : Str} (h : readText v = .ok a) : v' = v := by
  rw [readText_ok h] at hs ⊢
  exact same_str hs

private theorem bool_moved {v v' : Json} (hs : SameJson v v') {a : Bool} (h : readBool v = .ok a) : v' = v := by
  cases v <;> cases h
  exact same_bool hs

private theorem ref_moved {v v' : Json} (hs : SameJson v v') {a : Str} (h : readRef isRef v = .ok a) : v' = v := by
  obtain ⟨t, ht, -⟩ := exBind_ok h
  exact text_moved hs ht

private theorem dir_moved {v v' : Json} (hs : SameJson v v') {a : Direction} (h : readDir v = .ok a) : v' = v := by
  cases v with
  | str s => exact same_str hs
  | _ => cases h

private theorem version_moved {v v' : Json} (hs : SameJson v v') {a : Unit} (h : readVersion v = .ok a) : v' = v := by
  cases v with
  | num s => exact same_num hs
  | _ => cases h

private theorem kind_moved {v v' : Json} (hs : SameJson v v') {a : ContainerKind} (h : readKind v = .ok a) :
    v' = v := by
  cases v with
  | str s => exact same_str hs
  | _ => cases h

private theorem kinds_moved : ∀ {l l' : List Json} {ks : List ContainerKind}, SameItems l l' →
    l.mapM readKind = .ok ks → l' = l
  | _, _, _, .nil, _ => rfl
  | _, _, ks, .cons h ht, hk => by
    rw [List.mapM_cons] at hk
    obtain ⟨k, h1, hk⟩ := exBind_ok hk
    obtain ⟨ks', h2, -⟩ := exBind_ok hk
    rw [kind_moved h h1, kinds_moved ht h2]

private theorem container_moved {v v' : Json} (hs : SameJson v v') {a : SynContainer}
    (h : readContainer v = .ok a) : v' = v := by
  cases v with
  | arr l =>
    obtain ⟨ks, hk, -⟩ := exMap_ok h
    cases hs with
    | refl => rfl
    | arr hi => rw [kinds_moved hi hk]
  | str s => exact same_str hs
  | _ =>
    simp only [readContainer] at h
    obtain ⟨k, hk, -⟩ := exMap_ok h
    cases hk

private theorem nullable_moved {α : Type} {f : Json → Except CtxReadErr α}
    (hf : ∀ {v v' a}, SameJson v v' → f v = .ok a → v' = v) {v v' : Json} (hs : SameJson v v') {a : Option α}
    (h : readNullable f v = .ok a) : v' = v := by
  unfold readNullable at h
  split at h
  · exact same_null hs
  · obtain ⟨b, hb, -⟩ := exMap_ok h
    exact hf hs hb

/-! ## The entry `@type` -/

private def TypeMember (e : Str × Json) : Prop :=
  (Keyword.tryFrom e.1 = some .container ∧ ∃ u, readTypeContainer e.2 = .ok u) ∨
    (Keyword.tryFrom e.1 = some .protected_ ∧ ∃ b, readBool e.2 = .ok b)

private theorem typeMember_moved {k : Str} {v v' : Json} (hs : SameJson v v') (h : TypeMember (k, v)) :
    TypeMember (k, v') := by
  rcases h with ⟨hk, u, hu⟩ | ⟨hk, b, hb⟩
  · have : v' = v := by
      cases v with
      | str s => exact same_str hs
      | _ => cases hu
    exact .inl ⟨hk, u, by rw [this]; exact hu⟩
  · exact .inr ⟨hk, b, by rw [bool_moved hs hb]; exact hb⟩

private theorem members_moved {P : Str × Json → Prop} : ∀ {m m' : List (Str × Json)}, SameMembers m m' →
    (∀ k v v', (k, v) ∈ m → SameJson v v' → P (k, v) → P (k, v')) → (∀ e ∈ m, P e) → ∀ e ∈ m', P e
  | _, _, .nil, _, h => h
  | _, _, .cons (k := k) (v := v) (v' := v') hv ht, hP, h => by
    intro e he
    rcases List.mem_cons.1 he with rfl | he
    · exact hP k v v' List.mem_cons_self hv (h _ List.mem_cons_self)
    · exact members_moved ht (fun k v v' hm => hP k v v' (List.mem_cons_of_mem _ hm))
        (fun e he => h e (List.mem_cons_of_mem _ he)) e he

private theorem members_names : ∀ {m m' : List (Str × Json)}, SameMembers m m' →
    m'.map Prod.fst = m.map Prod.fst
  | _, _, .nil => rfl
  | _, _, .cons _ ht => by simp [members_names ht]

private theorem typeEntries_iff : ∀ (m : List (Str × Json)) (c : Option Unit) (p : Option Bool),
    (m.map Prod.fst).Nodup → (c.isSome → "@container".toList ∉ m.map Prod.fst) →
    (p.isSome → "@protected".toList ∉ m.map Prod.fst) →
    ((∃ r, readTypeEntries c p m = .ok r ∧ r.1.isSome = true) ↔
      (∀ e ∈ m, TypeMember e) ∧ (c.isSome = true ∨ "@container".toList ∈ m.map Prod.fst))
  | [], c, p, _, _, _ => by simp [readTypeEntries]
  | (k, v) :: m, c, p, hd, hc, hp => by
    have hd' := List.nodup_cons.1 hd
    rw [readTypeEntries]
    by_cases h1 : Keyword.tryFrom k = some .container
    · have ek : k = "@container".toList := kw_of_tryFrom h1
      have hc0 : c = none := by
        cases c with
        | none => rfl
        | some u => exact absurd (by rw [ek]; exact List.mem_cons_self) (hc rfl)
      subst hc0
      simp only [h1]
      cases hv : readTypeContainer v with
      | error e =>
        refine ⟨(fun ⟨_, h, _⟩ => nomatch h), ?_⟩
        rintro ⟨h, -⟩
        rcases h _ List.mem_cons_self with ⟨-, u, hu⟩ | ⟨h2, -⟩
        · simp only [hv] at hu; cases hu
        · rw [h1] at h2; cases h2
      | ok u =>
        have ih := typeEntries_iff m (some u) p hd'.2 (fun _ => ek ▸ hd'.1)
          (fun h hm => hp h (List.mem_cons_of_mem _ hm))
        simp only [Except.bind, Option.isSome_none, Bool.false_eq_true, if_false]
        rw [ih]
        constructor
        · rintro ⟨h, -⟩
          refine ⟨?_, .inr (by rw [ek]; exact List.mem_cons_self)⟩
          intro e he
          rcases List.mem_cons.1 he with rfl | he
          · exact .inl ⟨h1, u, hv⟩
          · exact h e he
        · rintro ⟨h, -⟩
          exact ⟨fun e he => h e (List.mem_cons_of_mem _ he), .inl rfl⟩
    · by_cases h2 : Keyword.tryFrom k = some .protected_
      · have ek : k = "@protected".toList := kw_of_tryFrom h2
        have hp0 : p = none := by
          cases p with
          | none => rfl
          | some u => exact absurd (by rw [ek]; exact List.mem_cons_self) (hp rfl)
        subst hp0
        simp only [h2]
        cases hv : readBool v with
        | error e =>
          refine ⟨(fun ⟨_, h, _⟩ => nomatch h), ?_⟩
          rintro ⟨h, -⟩
          rcases h _ List.mem_cons_self with ⟨h3, -⟩ | ⟨-, b, hb⟩
          · exact absurd h3 h1
          · simp only [hv] at hb; cases hb
        | ok b =>
          have ih := typeEntries_iff m c (some b) hd'.2 (fun h hm => hc h (List.mem_cons_of_mem _ hm))
            (fun _ => ek ▸ hd'.1)
          simp only [Except.bind, Option.isSome_none, Bool.false_eq_true, if_false]
          rw [ih]
          have hne : ("@container".toList ∈ ((k, v) :: m).map Prod.fst) ↔ "@container".toList ∈ m.map Prod.fst := by
            rw [List.map_cons, List.mem_cons, ek]
            exact ⟨fun h => h.resolve_left (by show ¬("@container".toList = "@protected".toList); decide), .inr⟩
          rw [hne]
          refine and_congr_left fun _ => ?_
          constructor
          · intro h e he
            rcases List.mem_cons.1 he with rfl | he
            · exact .inr ⟨h2, b, hv⟩
            · exact h e he
          · exact fun h e he => h e (List.mem_cons_of_mem _ he)
      · constructor
        · rintro ⟨r, h, -⟩
          split at h
          · contradiction
          · contradiction
          · cases h
        · rintro ⟨h, -⟩
          rcases h _ List.mem_cons_self with ⟨h3, -⟩ | ⟨h3, -⟩
          · exact absurd h3 h1
          · exact absurd h3 h2

private theorem typeDef_iff {m : List (Str × Json)} (hm : (m.map Prod.fst).Nodup) :
    (∃ p, readTypeDef (.obj m) = .ok p) ↔ (∀ e ∈ m, TypeMember e) ∧ "@container".toList ∈ m.map Prod.fst := by
  have := typeEntries_iff m none none hm (fun h => by cases h) (fun h => by cases h)
  simp only [Option.isSome_none, Bool.false_eq_true, false_or] at this
  rw [← this]
  simp only [readTypeDef]
  constructor
  · rintro ⟨p, h⟩
    obtain ⟨r, hr, h⟩ := exBind_ok h
    split at h
    · rename_i hc; exact ⟨r, hr, hc⟩
    · cases h
  · rintro ⟨r, hr, hc⟩
    exact ⟨r.2, by rw [hr]; simp only [Except.bind, hc, if_true]⟩

private theorem typeDef_moved {v v' : Json} (hv : NoDupKeys v) (hs : SameJson v v') {p : Option Bool}
    (h : readTypeDef v = .ok p) : ∃ p', readTypeDef v' = .ok p' := by
  cases hs with
  | refl => exact ⟨p, h⟩
  | arr => cases h
  | obj hm hp =>
    cases hv with
    | obj hd _ =>
      obtain ⟨h1, h2⟩ := (typeDef_iff hd).1 ⟨p, h⟩
      have hd' := (hp.map Prod.fst).nodup_iff.1 (by rw [members_names hm]; exact hd)
      refine (typeDef_iff hd').2 ⟨?_, ?_⟩
      · intro e he
        exact members_moved hm (fun k v v' _ hs h => typeMember_moved hs h) h1 e (hp.mem_iff.2 he)
      · rw [← (hp.map Prod.fst).mem_iff, members_names hm]; exact h2

/-! ## Entries -/

private theorem sid_moved {v v' : Json} (hs : SameJson v v') {a : SId} (h : readSId v = .ok a) : v' = v := by
  cases v with
  | str s => exact same_str hs
  | _ => cases h

private theorem stype_moved {v v' : Json} (hs : SameJson v v') {a : SType} (h : readSType v = .ok a) : v' = v := by
  cases v with
  | str s => exact same_str hs
  | _ => cases h

private theorem nest_moved {v v' : Json} (hs : SameJson v v') {a : SNest} (h : readNest v = .ok a) : v' = v := by
  cases v with
  | str s => exact same_str hs
  | _ => cases h

private theorem defKey_moved {v v' : Json} (hv : NoDupKeys v) (hs : SameJson v v') {d d' : SDef} {w : Keyword}
    (h : readDefKey isRef v d w = some (.ok d')) : ∃ d', readDefKey isRef v' d w = some (.ok d') := by
  cases w with
  | type =>
    obtain ⟨x, hx, -⟩ := exMap_ok (Option.some.inj h)
    obtain ⟨y, hy⟩ := typeDef_moved hv hs hx
    simp only [readDefKey, hy, Except.map]
    exact ⟨_, rfl⟩
  | _ =>
    first
    | (cases h)
    | (obtain ⟨x, hx, -⟩ := exMap_ok (Option.some.inj h)
       have e : v' = v := by
         first
         | exact nullable_moved (h := hx) (hs := hs) (fun hs h => ref_moved hs h)
         | exact nullable_moved (h := hx) (hs := hs) (fun hs h => text_moved hs h)
         | exact nullable_moved (h := hx) (hs := hs) (fun hs h => dir_moved hs h)
         | exact ref_moved hs hx
         | exact bool_moved hs hx
         | exact version_moved hs hx
       exact ⟨d', by rw [e]; exact h⟩)

private theorem expKey_moved {v v' : Json} (hs : SameJson v v') {x x' : SExp} {w : Keyword}
    (h : readExpKey v x w = .ok x') : readExpKey v' x w = .ok x' := by
  have e : v' = v := by
    cases w <;> first
      | (cases h)
      | (obtain ⟨y, hy, -⟩ := exMap_ok h
         first
         | exact nullable_moved (h := hy) (hs := hs) (fun hs h => sid_moved hs h)
         | exact nullable_moved (h := hy) (hs := hs) (fun hs h => stype_moved hs h)
         | exact nullable_moved (h := hy) (hs := hs) (fun hs h => text_moved hs h)
         | exact nullable_moved (h := hy) (hs := hs) (fun hs h => dir_moved hs h)
         | exact nullable_moved (h := hy) (hs := hs) (fun hs h => container_moved hs h)
         | exact text_moved hs hy
         | exact nest_moved hs hy
         | exact bool_moved hs hy)
  rw [e]; exact h

private theorem expKey_any {v : Json} {x x' : SExp} (y : SExp) {w : Keyword} (h : readExpKey v x w = .ok x') :
    ∃ y', readExpKey v y w = .ok y' := by
  cases w <;> first
    | (cases h)
    | (obtain ⟨z, hz, -⟩ := exMap_ok h
       simp only [readExpKey, hz, Except.map]
       exact ⟨_, rfl⟩)

private def DefMember (isRef : Str → Bool) (e : Str × Json) : Prop := ∃ c, readCtx isRef (.obj [e]) = .ok c

private def ExpMember (isRef : Str → Bool) (e : Str × Json) : Prop :=
  ∃ w, Keyword.tryFrom e.1 = some w ∧
    ((w = .context ∧ ∃ c, readCtx isRef e.2 = .ok c) ∨ (w ≠ .context ∧ ∃ x, readExpKey e.2 .empty w = .ok x))

private theorem exp_iff : ∀ (m : List (Str × Json)) (x : SExp),
    (∃ x', readExp isRef x m = .ok x') ↔ ∀ e ∈ m, ExpMember isRef e
  | [], x => ⟨fun _ e he => (List.not_mem_nil he).elim, fun _ => ⟨x, by simp only [readExp]⟩⟩
  | (k, v) :: m, x => by
    rw [List.forall_mem_cons]
    constructor
    · rintro ⟨x', h⟩
      rw [readExp] at h
      split at h
      · rename_i hk
        obtain ⟨c, hc, h⟩ := exBind_ok h
        exact ⟨⟨_, hk, .inl ⟨rfl, c, hc⟩⟩, (exp_iff m _).1 ⟨x', h⟩⟩
      · rename_i w hne hk
        obtain ⟨x₁, h₁, h⟩ := exBind_ok h
        refine ⟨⟨w, hk, .inr ⟨?_, expKey_any _ h₁⟩⟩, (exp_iff m _).1 ⟨x', h⟩⟩
        rintro rfl
        cases h₁
      · cases h
    · rintro ⟨⟨w, hk, h⟩, hm⟩
      rcases h with ⟨rfl, c, hc⟩ | ⟨hw, x₁, h₁⟩
      · obtain ⟨x', h'⟩ := (exp_iff m { x with context := some c }).2 hm
        exact ⟨x', by rw [readExp]; simp only [show Keyword.tryFrom k = _ from hk, show readCtx isRef v = _ from hc, Except.bind, h']⟩
      · obtain ⟨x₂, h₂⟩ := expKey_any x h₁
        obtain ⟨x', h'⟩ := (exp_iff m x₂).2 hm
        refine ⟨x', ?_⟩
        rw [readExp]
        split
        · rename_i hk'
          exact absurd (Option.some.inj (hk.symm.trans hk')) hw
        · rename_i w' _ hk'
          obtain rfl : w = w' := Option.some.inj (hk.symm.trans hk')
          simp only [show readExpKey v x w = _ from h₂, Except.bind, h']
        · rename_i hk'
          rw [show Keyword.tryFrom k = _ from hk] at hk'
          cases hk'

private theorem defMember_iff {k : Str} {v : Json} : DefMember isRef (k, v) ↔
    (∃ w d, Keyword.tryFrom k = some w ∧ readDefKey isRef v .empty w = some (.ok d)) ∨
      ((∀ w, Keyword.tryFrom k = some w → readDefKey isRef v .empty w = none) ∧ ∃ t, readTerm isRef v = .ok t) := by
  unfold DefMember
  simp only [readCtx, readDef]
  cases hk : Keyword.tryFrom k with
  | none =>
    simp only [Option.bind_none]
    cases readTerm isRef v <;> simp [Except.bind, Except.map, lookupKey, SDef.empty]
  | some w =>
    simp only [Option.bind_some]
    cases hr : readDefKey isRef v .empty w with
    | none =>
      have hb : SDef.empty.bindings = [] := rfl
      simp only
      cases readTerm isRef v <;> simp [Except.bind, Except.map, lookupKey, hb, hr]
    | some r => cases r <;> simp [Except.bind, Except.map, hr]

private theorem defKey_none {v v' : Json} {d : SDef} {w : Keyword} (h : readDefKey isRef v d w = none) :
    readDefKey isRef v' d w = none := by
  cases w <;> first | rfl | cases h

private theorem obj_iff {m : List (Str × Json)} (hm : (m.map Prod.fst).Nodup) :
    (∃ c, readEntry isRef (.obj m) = .ok c) ↔ ∀ e ∈ m, DefMember isRef e := by
  rw [show (∀ e ∈ m, DefMember isRef e) ↔ _ from (C111_accepted hm).symm]
  simp only [readCtx, readEntry]
  cases readDef isRef .empty m <;> simp [Except.map]

/-! ## All together -/

mutual
private theorem json_moved : ∀ {j j' : Json}, SameJson j j' → NoDupKeys j →
    ((∃ c, readCtx isRef j = .ok c) → ∃ c, readCtx isRef j' = .ok c) ∧
    ((∃ c, readEntry isRef j = .ok c) → ∃ c, readEntry isRef j' = .ok c) ∧
    ((∃ c, readTerm isRef j = .ok c) → ∃ c, readTerm isRef j' = .ok c)
  | _, _, .refl _, _ => ⟨id, id, id⟩
  | _, _, .arr hi, hj => by
    cases hj with
    | arr hj =>
      refine ⟨?_, (fun ⟨_, h⟩ => by simp only [readEntry] at h; cases h),
        (fun ⟨_, h⟩ => by simp only [readTerm] at h; cases h)⟩
      rintro ⟨c, h⟩
      simp only [readCtx] at h ⊢
      obtain ⟨es, he, -⟩ := exMap_ok h
      obtain ⟨es', he'⟩ := items_moved hi hj ⟨es, he⟩
      exact ⟨_, by rw [he']; rfl⟩
  | _, _, .obj (m := m) (m' := m') (m'' := m'') hm hp, hj => by
    cases hj with
    | obj hd hj =>
      have hd' := (hp.map Prod.fst).nodup_iff.1 (by rw [members_names hm]; exact hd)
      obtain ⟨h1, h2⟩ := json_members_moved hm hj
      have h1' : (∀ e ∈ m, DefMember isRef e) → ∀ e ∈ m'', DefMember isRef e :=
        fun h e he => h1 h e (hp.mem_iff.2 he)
      refine ⟨fun h => (C111_accepted hd').2 (h1' ((C111_accepted hd).1 h)),
        fun h => (obj_iff hd').2 (h1' ((obj_iff hd).1 h)), ?_⟩
      rintro ⟨t, h⟩
      simp only [readTerm] at h ⊢
      obtain ⟨x, hx, -⟩ := exMap_ok h
      obtain ⟨x', hx'⟩ := (exp_iff m'' .empty).2
        fun e he => h2 ((exp_iff m .empty).1 ⟨x, hx⟩) e (hp.mem_iff.2 he)
      exact ⟨_, by rw [hx']; rfl⟩
private theorem items_moved : ∀ {l l' : List Json}, SameItems l l' → (∀ x ∈ l, NoDupKeys x) →
    (∃ es, readEntries isRef l = .ok es) → ∃ es, readEntries isRef l' = .ok es
  | _, _, .nil, _, h => h
  | _, _, .cons hj ht, hd, ⟨es, h⟩ => by
    simp only [readEntries] at h ⊢
    obtain ⟨e, he, h⟩ := exBind_ok h
    obtain ⟨es₁, h₁, -⟩ := exMap_ok h
    obtain ⟨e', he'⟩ := (json_moved hj (hd _ List.mem_cons_self)).2.1 ⟨e, he⟩
    obtain ⟨es', h'⟩ := items_moved ht (fun x hx => hd x (List.mem_cons_of_mem _ hx)) ⟨es₁, h₁⟩
    exact ⟨_, by rw [he', h']; rfl⟩
private theorem json_members_moved : ∀ {m m' : List (Str × Json)}, SameMembers m m' → (∀ e ∈ m, NoDupKeys e.2) →
    ((∀ e ∈ m, DefMember isRef e) → ∀ e ∈ m', DefMember isRef e) ∧
    ((∀ e ∈ m, ExpMember isRef e) → ∀ e ∈ m', ExpMember isRef e)
  | _, _, .nil, _ => ⟨id, id⟩
  | _, _, .cons (k := k) (v := v) (v' := v') hv ht, hd => by
    have hn : NoDupKeys v := hd _ List.mem_cons_self
    obtain ⟨a1, -, a3⟩ := json_moved hv hn
    obtain ⟨b1, b2⟩ := json_members_moved ht (fun e he => hd e (List.mem_cons_of_mem _ he))
    simp only [List.forall_mem_cons]
    refine ⟨fun ⟨h, hm⟩ => ⟨?_, b1 hm⟩, fun ⟨h, hm⟩ => ⟨?_, b2 hm⟩⟩
    · rw [defMember_iff] at h ⊢
      rcases h with ⟨w, d, hk, h⟩ | ⟨h, h'⟩
      · obtain ⟨d', h'⟩ := defKey_moved hn hv h
        exact .inl ⟨w, d', hk, h'⟩
      · exact .inr ⟨fun w hw => defKey_none (h w hw), a3 h'⟩
    · obtain ⟨w, hk, h⟩ := h
      refine ⟨w, hk, ?_⟩
      rcases h with ⟨e, h⟩ | ⟨e, x, h⟩
      · exact .inl ⟨e, a1 h⟩
      · exact .inr ⟨e, x, expKey_moved hv h⟩
end

/-- C111: whether a context without duplicate keys is accepted does not depend on the order of the
members of objects, at any depth: in the context, in `@type`, in term definitions, and in the contexts
of term definitions. -/
theorem C111_moved {j j' : Json} (hj : NoDupKeys j) (hs : SameJson j j')
    (h : ∃ c, readCtx isRef j = .ok c) : ∃ c, readCtx isRef j' = .ok c := (json_moved hs hj).1 h

/-! ## What is read -/

/-- Members moved first and changed afterwards. -/
private theorem perm_members {m m' : List (Str × Json)} (hp : m.Perm m') :
    ∀ {l : List (Str × Json)}, SameMembers m' l → ∃ l', SameMembers m l' ∧ l'.Perm l := by
  induction hp with
  | nil => exact fun h => ⟨_, h, .refl _⟩
  | cons x _ ih =>
    intro l h
    cases h with
    | cons hv ht =>
      obtain ⟨l', h1, h2⟩ := ih ht
      exact ⟨_, .cons hv h1, h2.cons _⟩
  | swap x y m =>
    intro l h
    cases h with
    | cons hv ht => cases ht with
      | cons hw ht => exact ⟨_, .cons hw (.cons hv ht), .swap _ _ _⟩
  | trans _ _ ih₁ ih₂ =>
    intro l h
    obtain ⟨l₁, h1, p1⟩ := ih₂ h
    obtain ⟨l₂, h2, p2⟩ := ih₁ h1
    exact ⟨l₂, h2, p2.trans p1⟩

mutual
private theorem sameJson_symm : ∀ {j j' : Json}, SameJson j j' → SameJson j' j
  | _, _, .refl _ => .refl _
  | _, _, .arr h => .arr (sameItems_symm h)
  | _, _, .obj h hp => by
    obtain ⟨l, h1, h2⟩ := perm_members hp.symm (sameMembers_symm h)
    exact .obj h1 h2
private theorem sameItems_symm : ∀ {l l' : List Json}, SameItems l l' → SameItems l' l
  | _, _, .nil => .nil
  | _, _, .cons h ht => .cons (sameJson_symm h) (sameItems_symm ht)
private theorem sameMembers_symm : ∀ {m m' : List (Str × Json)}, SameMembers m m' → SameMembers m' m
  | _, _, .nil => .nil
  | _, _, .cons h ht => .cons (sameJson_symm h) (sameMembers_symm ht)
end

mutual
private theorem sameJson_trans : ∀ {j j' j'' : Json}, SameJson j j' → SameJson j' j'' → SameJson j j''
  | _, _, _, .refl _, h' => h'
  | _, _, _, .arr h, h' => by
    cases h' with
    | refl => exact .arr h
    | arr h' => exact .arr (sameItems_trans h h')
  | _, _, _, .obj h hp, h' => by
    cases h' with
    | refl => exact .obj h hp
    | obj h' hp' =>
      obtain ⟨l, h1, h2⟩ := perm_members hp h'
      exact .obj (sameMembers_trans h h1) (h2.trans hp')
private theorem sameItems_trans : ∀ {l l' l'' : List Json}, SameItems l l' → SameItems l' l'' → SameItems l l''
  | _, _, _, .nil, h' => h'
  | _, _, _, .cons h ht, h' => by
    cases h' with
    | cons g gt => exact .cons (sameJson_trans h g) (sameItems_trans ht gt)
private theorem sameMembers_trans : ∀ {m m' m'' : List (Str × Json)}, SameMembers m m' → SameMembers m' m'' →
    SameMembers m m''
  | _, _, _, .nil, h' => h'
  | _, _, _, .cons h ht, h' => by
    cases h' with
    | cons g gt => exact .cons (sameJson_trans h g) (sameMembers_trans ht gt)
end

mutual
private theorem noDup_moved : ∀ {j j' : Json}, SameJson j j' → NoDupKeys j → NoDupKeys j'
  | _, _, .refl _, hj => hj
  | _, _, .arr h, hj => by
    cases hj with
    | arr hj => exact .arr (noDup_items h hj)
  | _, _, .obj h hp, hj => by
    cases hj with
    | obj hd hj =>
      exact .obj ((hp.map Prod.fst).nodup_iff.1 (by rw [members_names h]; exact hd))
        fun e he => noDup_members h hj e (hp.mem_iff.2 he)
private theorem noDup_items : ∀ {l l' : List Json}, SameItems l l' → (∀ x ∈ l, NoDupKeys x) → ∀ x ∈ l', NoDupKeys x
  | _, _, .nil, hl => hl
  | _, _, .cons h ht, hl => by
    rw [List.forall_mem_cons] at hl ⊢
    exact ⟨noDup_moved h hl.1, noDup_items ht hl.2⟩
private theorem noDup_members : ∀ {m m' : List (Str × Json)}, SameMembers m m' → (∀ e ∈ m, NoDupKeys e.2) →
    ∀ e ∈ m', NoDupKeys e.2
  | _, _, .nil, hl => hl
  | _, _, .cons h ht, hl => by
    rw [List.forall_mem_cons] at hl ⊢
    exact ⟨noDup_moved h hl.1, noDup_members ht hl.2⟩
end

/-- C111: of two values that differ in the order of members at any depth, either both are refused, or
both are read, as contexts that are written as the same JSON up to the order of members. -/
theorem C111_same {j j' : Json} (hj : NoDupKeys j) (hs : SameJson j j') :
    ((∃ e, readCtx isRef j = .error e) ∧ ∃ e, readCtx isRef j' = .error e) ∨
      ∃ c c', readCtx isRef j = .ok c ∧ readCtx isRef j' = .ok c' ∧ SameJson c.toJson c'.toJson := by
  have hj' := noDup_moved hs hj
  cases h : readCtx isRef j with
  | ok c =>
    obtain ⟨c', h'⟩ := C111_moved hj hs ⟨c, h⟩
    exact .inr ⟨c, c', rfl, h', sameJson_trans (sameJson_symm (C111_nothing_lost hj h))
      (sameJson_trans hs (C111_nothing_lost hj' h'))⟩
  | error e =>
    refine .inl ⟨⟨e, rfl⟩, ?_⟩
    cases h' : readCtx isRef j' with
    | error e' => exact ⟨e', rfl⟩
    | ok c' =>
      obtain ⟨c, hc⟩ := C111_moved hj' (sameJson_symm hs) ⟨c', h'⟩
      rw [h] at hc
      cases hc

/-- Members moved in a context, in its `@type`, and in a scoped context. -/
example : SameJson
    (.obj [("@type".toList, .obj [("@container".toList, .str "@set".toList), ("@protected".toList, .bool true)]),
      ("t".toList, .obj [("@context".toList, .obj [("u".toList, .null), ("@vocab".toList, .null)])])])
    (.obj [("t".toList, .obj [("@context".toList, .obj [("@vocab".toList, .null), ("u".toList, .null)])]),
      ("@type".toList, .obj [("@protected".toList, .bool true), ("@container".toList, .str "@set".toList)])]) :=
  .obj (.cons (.obj (.cons (.refl _) (.cons (.refl _) .nil)) (.swap _ _ _))
    (.cons (.obj (.cons (.obj (.cons (.refl _) (.cons (.refl _) .nil)) (.swap _ _ _)) .nil) (.refl _)) .nil))
    (.swap _ _ _)

/-- `SameJson` keeps the order of the items of arrays. -/
example : ¬ SameJson (.arr [.null, .bool true]) (.arr [.bool true, .null]) := by
  intro h
  cases h with
  | arr h => cases h with
    | cons h _ => cases h

end JsonLd.Props
