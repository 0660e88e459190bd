import Verif.Spec.SameJson
import Verif.Spec.Syntax
import Verif.Proofs.CtxJsonRead
/-!
# C111: reading a context loses nothing
-/

namespace JsonLd.Props

open Spec

variable {isRef : Str → Bool}

/-! ## Values of entries -/

private theorem nullable_same {α : Type} {f : Json → Except CtxReadErr α} {w : α → Json}
    (hf : ∀ j a, f j = .ok a → SameJson j (w a)) {j : Json} {o : Option α}
    (h : readNullable f j = .ok o) : SameJson j (nullableJson w o) := by
  unfold readNullable at h
  split at h
  · cases h; exact .refl _
  · obtain ⟨a, ha, rfl⟩ := exMap_ok h
    exact hf _ _ ha

private theorem text_same {j : Json} {s : Str} (h : readText j = .ok s) : SameJson j (.str s) := by
  rw [readText_ok h]; exact .refl _

private theorem bool_same {j : Json} {b : Bool} (h : readBool j = .ok b) : SameJson j (.bool b) := by
  cases j <;> cases h
  exact .refl _

private theorem ref_same {j : Json} {s : Str} (h : readRef isRef j = .ok s) : SameJson j (.str s) := by
  obtain ⟨t, ht, h⟩ := exBind_ok h
  unfold refOfStr at h
  split at h
  · cases h; exact text_same ht
  · cases h

private theorem sid_same {j : Json} {i : SId} (h : readSId j = .ok i) : SameJson j (.str i.str) := by
  obtain ⟨s, hs, rfl⟩ := exMap_ok h
  have : (SId.ofStr s).str = s := by
    unfold SId.ofStr
    cases hk : Keyword.tryFrom s with
    | none => rfl
    | some k => exact (kw_of_tryFrom hk).symm
  rw [this]; exact text_same hs

private theorem stype_same {j : Json} {t : SType} (h : readSType j = .ok t) :
    SameJson j (.str t.str) := by
  obtain ⟨s, hs, rfl⟩ := exMap_ok h
  have : (SType.ofStr s).str = s := by
    unfold SType.ofStr
    cases hk : STypeKeyword.tryFrom s with
    | none => rfl
    | some k =>
      have : Keyword.tryFrom s = some k.keyword := by
        unfold STypeKeyword.tryFrom at hk
        split at hk <;> cases hk <;> assumption
      exact (kw_of_tryFrom this).symm
  rw [this]; exact text_same hs

private theorem dir_same {j : Json} {d : Direction} (h : readDir j = .ok d) :
    SameJson j (dirJson d) := by
  cases j with
  | str s =>
    simp only [readDir] at h
    cases hd : Direction.tryFrom s with
    | none => simp [hd] at h
    | some e =>
      simp only [hd] at h
      cases h
      have : d.asStr = s := by
        unfold Direction.tryFrom at hd
        split at hd
        · rename_i e; cases hd; exact e.symm
        · split at hd
          · rename_i e; cases hd; exact e.symm
          · cases hd
      unfold dirJson
      rw [this]; exact .refl _
  | _ => cases h

private theorem kind_same {j : Json} {k : ContainerKind} (h : readKind j = .ok k) :
    j = .str k.asStr := by
  cases j with
  | str s =>
    simp only [readKind] at h
    cases hd : ContainerKind.tryFrom s with
    | none => simp [hd] at h
    | some e =>
      simp only [hd] at h
      cases h
      unfold ContainerKind.tryFrom at hd
      repeat' split at hd
      all_goals first
        | (rename_i e; cases hd; rw [e]; rfl)
        | cases hd
  | _ => cases h

private theorem kinds_same : ∀ {l : List Json} {ks : List ContainerKind}, l.mapM readKind = .ok ks →
    l = ks.map fun k => Json.str k.asStr
  | [], ks, h => by cases h; rfl
  | j :: l, ks, h => by
    rw [List.mapM_cons] at h
    obtain ⟨k, hk, h⟩ := exBind_ok h
    obtain ⟨ks', hks, h⟩ := exBind_ok h
    cases h
    rw [kind_same hk, kinds_same hks]
    rfl

private theorem container_same {j : Json} {c : SynContainer} (h : readContainer j = .ok c) :
    SameJson j c.toJson := by
  cases j with
  | arr l =>
    obtain ⟨ks, hk, rfl⟩ := exMap_ok h
    rw [kinds_same hk]; exact .refl _
  | _ =>
    simp only [readContainer] at h
    obtain ⟨k, hk, rfl⟩ := exMap_ok h
    rw [kind_same hk]; exact .refl _

private theorem nest_same {j : Json} {n : SNest} (h : readNest j = .ok n) :
    SameJson j (.str n.str) := by
  obtain ⟨s, hs, h⟩ := exBind_ok h
  have : n.str = s := by
    unfold SNest.ofStr at h
    split at h
    · rename_i e; cases h; exact e.symm
    · split at h
      · cases h
      · cases h; rfl
  rw [this]; exact text_same hs

private theorem version_same {j : Json} {u : Unit} (h : readVersion j = .ok u) :
    SameJson j (.num "1.1".toList) := by
  cases j with
  | num n =>
    simp only [readVersion] at h
    split at h
    · rename_i e; rw [e]; exact .refl _
    · cases h
  | _ => cases h

/-! ## Moving members -/

private theorem members_keys : ∀ {m m' : List (Str × Json)}, SameMembers m m' →
    m'.map Prod.fst = m.map Prod.fst
  | _, _, .nil => rfl
  | _, _, .cons _ ht => by simp [members_keys ht]

private theorem perm_step {R R₁ R₂ m : List (Str × Json)} {e : Str × Json}
    (h₁ : R₁.Perm (R ++ [e])) (h₂ : R₂.Perm (R₁ ++ m)) : R₂.Perm (R ++ e :: m) := by
  refine h₂.trans ((h₁.append_right m).trans ?_)
  simp

private def typeRows (c : Option Unit) (p : Option Bool) : List (Str × Json) :=
  entryJson "@container".toList (fun _ => .str "@set".toList) c ++ entryJson "@protected".toList .bool p

private theorem typeEntries_same : ∀ {m : List (Str × Json)} {c c' : Option Unit} {p p' : Option Bool},
    readTypeEntries c p m = .ok (c', p') →
    ∃ m', SameMembers m m' ∧ (typeRows c' p').Perm (typeRows c p ++ m')
  | [], c, c', p, p', h => by
    cases h
    exact ⟨[], .nil, by simp⟩
  | (k, v) :: m, c, c', p, p', h => by
    simp only [readTypeEntries] at h
    split at h
    · rename_i hk
      obtain ⟨u, hu, h2⟩ := exBind_ok h
      clear h
      split at h2
      · cases h2
      · rename_i hc
        obtain rfl : c = none := by cases c <;> simp_all
        obtain ⟨m', hm, hp⟩ := typeEntries_same h2
        refine ⟨(k, .str "@set".toList) :: m', .cons ?_ hm, perm_step ?_ hp⟩
        · cases v with
          | str s =>
            simp only [readTypeContainer] at hu
            split at hu
            · rename_i e; rw [kw_of_tryFrom e]; exact .refl _
            · cases hu
          | _ => cases hu
        · rw [kw_of_tryFrom hk]
          simp only [typeRows, entryJson, List.nil_append, List.singleton_append]
          exact (List.perm_append_singleton _ _).symm
    · rename_i hk
      obtain ⟨b, hb, h2⟩ := exBind_ok h
      clear h
      split at h2
      · cases h2
      · rename_i hc
        obtain rfl : p = none := by cases p <;> simp_all
        obtain ⟨m', hm, hp⟩ := typeEntries_same h2
        refine ⟨(k, .bool b) :: m', .cons (bool_same hb) hm, perm_step ?_ hp⟩
        rw [kw_of_tryFrom hk]
        simp only [typeRows, entryJson, List.append_nil]
        exact List.Perm.refl _
    · cases h

private theorem typeDef_same {j : Json} {p : Option Bool} (h : readTypeDef j = .ok p) :
    SameJson j (typeDefJson p) := by
  cases j with
  | obj m =>
    simp only [readTypeDef] at h
    obtain ⟨⟨c, q⟩, hr, h⟩ := exBind_ok h
    split at h
    · rename_i hc
      cases h
      obtain ⟨m', hm, hp⟩ := typeEntries_same hr
      have e : typeDefJson q = .obj (typeRows c q) := by
        cases c with
        | none => cases hc
        | some u => cases q <;> rfl
      rw [e]
      exact .obj hm (by simpa [typeRows, entryJson] using hp.symm)
    · cases h
  | _ => cases h

/-! ## Definitions -/

private def defParts (d : SDef) : List (List (Str × Json)) := [
  entryJson "@base".toList (nullableJson .str) d.base,
  entryJson "@import".toList .str d.import_,
  entryJson "@language".toList (nullableJson .str) d.language,
  entryJson "@direction".toList (nullableJson dirJson) d.direction,
  entryJson "@propagate".toList .bool d.propagate,
  entryJson "@protected".toList .bool d.protected_,
  entryJson "@type".toList typeDefJson d.type,
  (if d.version then [("@version".toList, .num "1.1".toList)] else []),
  entryJson "@vocab".toList (nullableJson .str) d.vocab,
  bindingsToJson d.bindings]

private def defRows (d : SDef) : List (Str × Json) := (defParts d).flatten

private def expParts (x : SExp) : List (List (Str × Json)) := [
  entryJson "@id".toList (nullableJson fun i => .str (SId.str i)) x.id,
  entryJson "@type".toList (nullableJson fun t => .str (SType.str t)) x.type,
  optCtxJson x.context,
  entryJson "@reverse".toList .str x.reverse,
  entryJson "@index".toList .str x.index,
  entryJson "@language".toList (nullableJson .str) x.language,
  entryJson "@direction".toList (nullableJson dirJson) x.direction,
  entryJson "@container".toList (nullableJson SynContainer.toJson) x.container,
  entryJson "@nest".toList (fun n => .str (SNest.str n)) x.nest,
  entryJson "@prefix".toList .bool x.prefix_,
  entryJson "@propagate".toList .bool x.propagate,
  entryJson "@protected".toList .bool x.protected_]

private def expRows (x : SExp) : List (Str × Json) := (expParts x).flatten

private theorem toJson_rows (d : SDef) : d.toJson = .obj (jObject (defRows d)) := by
  cases d; simp only [SDef.toJson, defRows, defParts, List.flatten_cons, List.flatten_nil, List.append_nil, List.append_assoc]

private theorem exp_toJson_rows (x : SExp) : x.toJson = .obj (jObject (expRows x)) := by
  cases x; simp only [SExp.toJson, expRows, expParts, List.flatten_cons, List.flatten_nil, List.append_nil, List.append_assoc]

private theorem entry_none {α : Type} {k : Str} {f : α → Json} {o : Option α}
    (h : k ∉ (entryJson k f o).map Prod.fst) : o = none := by
  cases o with
  | none => rfl
  | some a => exact absurd (List.mem_singleton.2 rfl) h

private theorem part_set {l l' : List (List (Str × Json))} {e : Str × Json} (i : Nat)
    (hl : l' = l.set i [e]) (hn : l[i]? = some []) : l'.flatten.Perm (l.flatten ++ [e]) := by
  subst hl
  induction l generalizing i with
  | nil => cases hn
  | cons a l ih =>
    cases i with
    | zero =>
      obtain rfl : a = [] := by simpa using hn
      simpa using (List.perm_append_singleton e l.flatten).symm
    | succ i =>
      simpa using List.Perm.append_left a (ih i (by simpa using hn))

private theorem defKey_same {kw : Keyword} {v : Json} {d d' : SDef}
    (h : readDefKey isRef v d kw = some (.ok d')) (hn : kw.intoStr ∉ (defRows d).map Prod.fst) :
    ∃ v', SameJson v v' ∧ (defRows d').Perm (defRows d ++ [(kw.intoStr, v')]) := by
  simp only [defRows, defParts, List.flatten_cons, List.map_append, List.mem_append, not_or] at hn
  obtain ⟨h1, h2, h3, h4, h5, h6, h7, h8, h9, -⟩ := hn
  obtain ⟨base, import_, language, direction, propagate, prot, type, version, vocab, bindings⟩ := d
  cases kw <;> try cases h
  case base =>
    obtain ⟨x, hx, rfl⟩ := exMap_ok (Option.some.inj h)
    obtain rfl := entry_none h1
    exact ⟨_, nullable_same (fun j a => ref_same) hx, part_set 0 rfl rfl⟩
  case import_ =>
    obtain ⟨x, hx, rfl⟩ := exMap_ok (Option.some.inj h)
    obtain rfl := entry_none h2
    exact ⟨_, ref_same hx, part_set 1 rfl rfl⟩
  case language =>
    obtain ⟨x, hx, rfl⟩ := exMap_ok (Option.some.inj h)
    obtain rfl := entry_none h3
    exact ⟨_, nullable_same (fun j a => text_same) hx, part_set 2 rfl rfl⟩
  case direction =>
    obtain ⟨x, hx, rfl⟩ := exMap_ok (Option.some.inj h)
    obtain rfl := entry_none h4
    exact ⟨_, nullable_same (fun j a => dir_same) hx, part_set 3 rfl rfl⟩
  case propagate =>
    obtain ⟨x, hx, rfl⟩ := exMap_ok (Option.some.inj h)
    obtain rfl := entry_none h5
    exact ⟨_, bool_same hx, part_set 4 rfl rfl⟩
  case protected_ =>
    obtain ⟨x, hx, rfl⟩ := exMap_ok (Option.some.inj h)
    obtain rfl := entry_none h6
    exact ⟨_, bool_same hx, part_set 5 rfl rfl⟩
  case type =>
    obtain ⟨x, hx, rfl⟩ := exMap_ok (Option.some.inj h)
    obtain rfl := entry_none h7
    exact ⟨_, typeDef_same hx, part_set 6 rfl rfl⟩
  case version =>
    obtain ⟨x, hx, rfl⟩ := exMap_ok (Option.some.inj h)
    obtain rfl : version = false := by
      cases version
      · rfl
      · exact absurd (List.mem_singleton.2 rfl) h8
    exact ⟨_, version_same hx, part_set 7 rfl rfl⟩
  case vocab =>
    obtain ⟨x, hx, rfl⟩ := exMap_ok (Option.some.inj h)
    obtain rfl := entry_none h9
    exact ⟨_, nullable_same (fun j a => text_same) hx, part_set 8 rfl rfl⟩

private theorem expKey_same {kw : Keyword} {v : Json} {x x' : SExp}
    (h : readExpKey v x kw = .ok x') (hn : kw.intoStr ∉ (expRows x).map Prod.fst) :
    ∃ v', SameJson v v' ∧ (expRows x').Perm (expRows x ++ [(kw.intoStr, v')]) := by
  simp only [expRows, expParts, List.flatten_cons, List.map_append, List.mem_append, not_or] at hn
  obtain ⟨h1, h2, -, h4, h5, h6, h7, h8, h9, h10, h11, h12, -⟩ := hn
  obtain ⟨id, type, context, reverse, index, language, direction, container, nest, pfx, propagate, prot⟩ := x
  cases kw <;> try cases h
  case id =>
    obtain ⟨y, hy, rfl⟩ := exMap_ok h
    obtain rfl := entry_none h1
    exact ⟨_, nullable_same (fun j a => sid_same) hy, part_set 0 rfl rfl⟩
  case type =>
    obtain ⟨y, hy, rfl⟩ := exMap_ok h
    obtain rfl := entry_none h2
    exact ⟨_, nullable_same (fun j a => stype_same) hy, part_set 1 rfl rfl⟩
  case reverse =>
    obtain ⟨y, hy, rfl⟩ := exMap_ok h
    obtain rfl := entry_none h4
    exact ⟨_, text_same hy, part_set 3 rfl rfl⟩
  case index =>
    obtain ⟨y, hy, rfl⟩ := exMap_ok h
    obtain rfl := entry_none h5
    exact ⟨_, text_same hy, part_set 4 rfl rfl⟩
  case language =>
    obtain ⟨y, hy, rfl⟩ := exMap_ok h
    obtain rfl := entry_none h6
    exact ⟨_, nullable_same (fun j a => text_same) hy, part_set 5 rfl rfl⟩
  case direction =>
    obtain ⟨y, hy, rfl⟩ := exMap_ok h
    obtain rfl := entry_none h7
    exact ⟨_, nullable_same (fun j a => dir_same) hy, part_set 6 rfl rfl⟩
  case container =>
    obtain ⟨y, hy, rfl⟩ := exMap_ok h
    obtain rfl := entry_none h8
    exact ⟨_, nullable_same (fun j a => container_same) hy, part_set 7 rfl rfl⟩
  case nest =>
    obtain ⟨y, hy, rfl⟩ := exMap_ok h
    obtain rfl := entry_none h9
    exact ⟨_, nest_same hy, part_set 8 rfl rfl⟩
  case prefix_ =>
    obtain ⟨y, hy, rfl⟩ := exMap_ok h
    obtain rfl := entry_none h10
    exact ⟨_, bool_same hy, part_set 9 rfl rfl⟩
  case propagate =>
    obtain ⟨y, hy, rfl⟩ := exMap_ok h
    obtain rfl := entry_none h11
    exact ⟨_, bool_same hy, part_set 10 rfl rfl⟩
  case protected_ =>
    obtain ⟨y, hy, rfl⟩ := exMap_ok h
    obtain rfl := entry_none h12
    exact ⟨_, bool_same hy, part_set 11 rfl rfl⟩

private def termJson : Option STerm → Json
  | none => .null
  | some t => t.toJson

private theorem bindings_snoc (k : Str) (t : Option STerm) : ∀ bs : List (Str × Option STerm),
    bindingsToJson (bs ++ [(k, t)]) = bindingsToJson bs ++ [(k, termJson t)]
  | [] => by cases t <;> simp [bindingsToJson, termJson]
  | (x, none) :: bs => by simp [bindingsToJson, bindings_snoc k t bs]
  | (x, some y) :: bs => by simp [bindingsToJson, bindings_snoc k t bs]

/-- Keys read so far and keys to come. -/
private theorem keys_step {R R₁ m : List (Str × Json)} {k : Str} {v v' : Json}
    (hd : (((k, v) :: m).map Prod.fst).Nodup) (hn : ∀ x ∈ ((k, v) :: m).map Prod.fst, x ∉ R.map Prod.fst)
    (hp : R₁.Perm (R ++ [(k, v')])) : ∀ x ∈ m.map Prod.fst, x ∉ R₁.map Prod.fst := by
  intro x hx hx'
  have := (hp.map Prod.fst).mem_iff.1 hx'
  rw [List.map_append, List.mem_append] at this
  rcases this with h | h
  · exact hn x (List.mem_cons_of_mem _ hx) h
  · obtain rfl := List.mem_singleton.1 h
    exact (List.nodup_cons.1 hd).1 hx

private theorem rows_same {m m' R : List (Str × Json)} (hd : (m.map Prod.fst).Nodup)
    (hm : SameMembers m m') (hp : R.Perm m') : SameJson (.obj m) (.obj (jObject R)) := by
  rw [jObject_nodup]
  · exact .obj hm hp.symm
  · rw [(hp.map Prod.fst).nodup_iff, members_keys hm]
    exact hd

mutual
private theorem ctx_same : ∀ (j : Json) (c : SCtx), NoDupKeys j → readCtx isRef j = .ok c →
    SameJson j c.toJson
  | .arr l, c, hj, h => by
    simp only [readCtx] at h
    obtain ⟨es, he, rfl⟩ := exMap_ok h
    cases hj with
    | arr hj => simpa only [SCtx.toJson] using SameJson.arr (items_same l es hj he)
  | .null, c, hj, h => by
    simp only [readCtx] at h
    cases h
    simpa only [SCtx.toJson, SEntry.toJson] using SameJson.refl _
  | .str s, c, hj, h => by
    simp only [readCtx] at h
    obtain ⟨r, hr, rfl⟩ := exMap_ok h
    simpa only [SCtx.toJson, SEntry.toJson] using ref_same (isRef := isRef) (j := .str s) hr
  | .obj m, c, hj, h => by
    simp only [readCtx] at h
    obtain ⟨d, hd, rfl⟩ := exMap_ok h
    cases hj with
    | obj hk hj =>
      obtain ⟨m', hm, hp⟩ := def_same m .empty d hk hj (by intro x _; exact List.not_mem_nil) hd
      simpa only [SCtx.toJson, SEntry.toJson, toJson_rows] using rows_same hk hm hp
  | .bool _, c, _, h => by simp only [readCtx] at h; cases h
  | .num _, c, _, h => by simp only [readCtx] at h; cases h
private theorem items_same : ∀ (l : List Json) (es : List SEntry), (∀ x ∈ l, NoDupKeys x) →
    readEntries isRef l = .ok es → SameItems l (sentriesToJson es)
  | [], es, _, h => by
    simp only [readEntries] at h
    cases h
    simpa only [sentriesToJson] using SameItems.nil
  | j :: l, es, hl, h => by
    simp only [readEntries] at h
    obtain ⟨e, he, h⟩ := exBind_ok h
    obtain ⟨es', hes, rfl⟩ := exMap_ok h
    simpa only [sentriesToJson] using SameItems.cons
      (item_same j e (hl j List.mem_cons_self) he)
      (items_same l es' (fun x hx => hl x (List.mem_cons_of_mem _ hx)) hes)
private theorem item_same : ∀ (j : Json) (e : SEntry), NoDupKeys j → readEntry isRef j = .ok e →
    SameJson j e.toJson
  | .null, e, _, h => by
    simp only [readEntry] at h
    cases h
    simpa only [SEntry.toJson] using SameJson.refl _
  | .str s, e, _, h => by
    simp only [readEntry] at h
    obtain ⟨r, hr, rfl⟩ := exMap_ok h
    simpa only [SEntry.toJson] using ref_same (isRef := isRef) (j := .str s) hr
  | .obj m, e, hj, h => by
    simp only [readEntry] at h
    obtain ⟨d, hd, rfl⟩ := exMap_ok h
    cases hj with
    | obj hk hj =>
      obtain ⟨m', hm, hp⟩ := def_same m .empty d hk hj (by intro x _; exact List.not_mem_nil) hd
      simpa only [SEntry.toJson, toJson_rows] using rows_same hk hm hp
  | .arr _, c, _, h => by simp only [readEntry] at h; cases h
  | .bool _, c, _, h => by simp only [readEntry] at h; cases h
  | .num _, c, _, h => by simp only [readEntry] at h; cases h
private theorem def_same : ∀ (m : List (Str × Json)) (d d' : SDef), (m.map Prod.fst).Nodup →
    (∀ e ∈ m, NoDupKeys e.2) → (∀ x ∈ m.map Prod.fst, x ∉ (defRows d).map Prod.fst) →
    readDef isRef d m = .ok d' →
    ∃ m', SameMembers m m' ∧ (defRows d').Perm (defRows d ++ m')
  | [], d, d', _, _, _, h => by
    simp only [readDef] at h
    cases h
    exact ⟨[], .nil, by simp⟩
  | (k, v) :: m, d, d', hk, hm, hn, h => by
    rw [readDef] at h
    have hm' : ∀ e ∈ m, NoDupKeys e.2 := fun e he => hm e (List.mem_cons_of_mem _ he)
    split at h
    · rename_i r hr
      obtain ⟨d1, hx, h2⟩ := exBind_ok h
      subst hx
      cases hw : Keyword.tryFrom k with
      | none => rw [hw] at hr; cases hr
      | some w =>
        rw [hw] at hr
        have e := kw_of_tryFrom hw
        obtain ⟨v', hv, hp⟩ := defKey_same (kw := w) hr (e ▸ hn k List.mem_cons_self)
        rw [← e] at hp
        obtain ⟨m', hs, hp'⟩ := def_same m d1 d' (List.nodup_cons.1 hk).2 hm' (keys_step hk hn hp) h2
        exact ⟨(k, v') :: m', .cons hv hs, perm_step hp hp'⟩
    · obtain ⟨t, ht, h2⟩ := exBind_ok h
      split at h2
      · cases h2
      · have hp : (defRows { d with bindings := d.bindings ++ [(k, t)] }).Perm
            (defRows d ++ [(k, termJson t)]) := by
          simp only [defRows, defParts, bindings_snoc, List.flatten_cons, List.flatten_nil,
            List.append_nil, List.append_assoc]
          exact List.Perm.refl _
        obtain ⟨m', hs, hp'⟩ := def_same m _ d' (List.nodup_cons.1 hk).2 hm' (keys_step hk hn hp) h2
        exact ⟨(k, termJson t) :: m', .cons (term_same v t (hm (k, v) List.mem_cons_self) ht) hs,
          perm_step hp hp'⟩
private theorem term_same : ∀ (v : Json) (t : Option STerm), NoDupKeys v → readTerm isRef v = .ok t →
    SameJson v (termJson t)
  | .null, t, _, h => by
    simp only [readTerm] at h
    cases h
    exact .refl _
  | .str s, t, _, h => by
    simp only [readTerm] at h
    cases h
    simpa only [termJson, STerm.toJson] using SameJson.refl _
  | .obj m, t, hj, h => by
    simp only [readTerm] at h
    obtain ⟨x, hx, rfl⟩ := exMap_ok h
    cases hj with
    | obj hk hj =>
      obtain ⟨m', hm, hp⟩ := exp_same m .empty x hk hj (by intro x _; exact List.not_mem_nil) hx
      simpa only [termJson, STerm.toJson, exp_toJson_rows] using rows_same hk hm hp
  | .arr _, c, _, h => by simp only [readTerm] at h; cases h
  | .bool _, c, _, h => by simp only [readTerm] at h; cases h
  | .num _, c, _, h => by simp only [readTerm] at h; cases h
private theorem exp_same : ∀ (m : List (Str × Json)) (x x' : SExp), (m.map Prod.fst).Nodup →
    (∀ e ∈ m, NoDupKeys e.2) → (∀ k ∈ m.map Prod.fst, k ∉ (expRows x).map Prod.fst) →
    readExp isRef x m = .ok x' →
    ∃ m', SameMembers m m' ∧ (expRows x').Perm (expRows x ++ m')
  | [], x, x', _, _, _, h => by
    simp only [readExp] at h
    cases h
    exact ⟨[], .nil, by simp⟩
  | (k, v) :: m, x, x', hk, hm, hn, h => by
    rw [readExp] at h
    have hm' : ∀ e ∈ m, NoDupKeys e.2 := fun e he => hm e (List.mem_cons_of_mem _ he)
    split at h
    · rename_i hw
      obtain ⟨c, hc, h2⟩ := exBind_ok h
      have e := kw_of_tryFrom hw
      have hp : (expRows { x with context := some c }).Perm (expRows x ++ [(k, c.toJson)]) := by
        have hx : x.context = none := by
          have h3 := hn k List.mem_cons_self
          simp only [expRows, expParts, List.flatten_cons, List.map_append, List.mem_append, not_or] at h3
          have h3 := h3.2.2.1
          cases hx : x.context with
          | none => rfl
          | some y =>
            rw [hx, e] at h3
            exact absurd (List.mem_singleton.2 rfl) h3
        rw [e]
        obtain ⟨id, type, context, reverse, index, language, direction, container, nest, pfx, propagate, prot⟩ := x
        simp only at hx
        subst hx
        exact part_set 2 rfl rfl
      obtain ⟨m', hs, hp'⟩ := exp_same m _ x' (List.nodup_cons.1 hk).2 hm' (keys_step hk hn hp) h2
      exact ⟨(k, c.toJson) :: m', .cons (ctx_same v c (hm (k, v) List.mem_cons_self) hc) hs,
        perm_step hp hp'⟩
    · rename_i w _ hw
      obtain ⟨x1, hx, h2⟩ := exBind_ok h
      have e := kw_of_tryFrom hw
      obtain ⟨v', hv, hp⟩ := expKey_same hx (e ▸ hn k List.mem_cons_self)
      rw [← e] at hp
      obtain ⟨m', hs, hp'⟩ := exp_same m x1 x' (List.nodup_cons.1 hk).2 hm' (keys_step hk hn hp) h2
      exact ⟨(k, v') :: m', .cons hv hs, perm_step hp hp'⟩
    · cases h
end

/-- C111: a context read from JSON without duplicate keys is written as the same JSON, up to the order
of the members of objects. -/
theorem C111_nothing_lost {j : Json} {c : SCtx} (hj : NoDupKeys j) (h : readCtx isRef j = .ok c) :
    SameJson j c.toJson := ctx_same j c hj h

/-! ## Acceptance -/

/-- Whether an entry is accepted does not depend on the entries read before. -/
private theorem defKey_again {v : Json} {d d₁ : SDef} (d₂ : SDef) {w : Keyword}
    (h : readDefKey isRef v d w = some (.ok d₁)) :
    ∃ d₃, readDefKey isRef v d₂ w = some (.ok d₃) ∧ d₁.bindings = d.bindings := by
  cases w <;> first
    | cases h
    | (obtain ⟨y, hy, e⟩ := exMap_ok (Option.some.inj h)
       subst e
       unfold readDefKey
       rw [hy]
       exact ⟨_, rfl, rfl⟩)

private theorem entry_accepted {k : Str} {v : Json} {m : List (Str × Json)} {d : SDef}
    (hk : k ∉ d.bindings.map Prod.fst) :
    (∃ d', readDef isRef d ((k, v) :: m) = .ok d') ↔
      ∃ d₁, (d₁.bindings.map Prod.fst = d.bindings.map Prod.fst ∨
          d₁.bindings.map Prod.fst = d.bindings.map Prod.fst ++ [k]) ∧
        readDef isRef d [(k, v)] = .ok d₁ ∧ ∃ d', readDef isRef d₁ m = .ok d' := by
  rw [readDef, readDef]
  cases hr : (Keyword.tryFrom k).bind (readDefKey isRef v d) with
  | some r =>
    cases r with
    | error e => exact ⟨(fun ⟨_, h⟩ => nomatch h), (fun ⟨_, _, h, _⟩ => nomatch h)⟩
    | ok d₁ =>
      have hb : d₁.bindings = d.bindings := by
        cases hw : Keyword.tryFrom k with
        | none => rw [hw] at hr; cases hr
        | some w =>
          rw [hw] at hr
          exact (defKey_again d hr).choose_spec.2
      constructor
      · rintro ⟨d', h⟩
        exact ⟨d₁, .inl (by rw [hb]), rfl, d', h⟩
      · rintro ⟨d₂, -, h, d', h'⟩
        obtain rfl : d₁ = d₂ := by simpa [readDef, Except.bind] using h
        exact ⟨d', h'⟩
  | none =>
    simp only [lookupKey_none_append hk]
    cases ht : readTerm isRef v with
    | error e => exact ⟨(fun ⟨_, h⟩ => nomatch h), (fun ⟨_, _, h, _⟩ => nomatch h)⟩
    | ok t =>
      constructor
      · rintro ⟨d', h⟩
        exact ⟨{ d with bindings := d.bindings ++ [(k, t)] }, .inr (by simp), rfl, d', h⟩
      · rintro ⟨d₂, -, h, d', h'⟩
        obtain rfl : { d with bindings := d.bindings ++ [(k, t)] } = d₂ := by
          simpa [readDef, Except.bind] using h
        exact ⟨d', h'⟩

private theorem single_again {k : Str} {v : Json} {d d₁ : SDef} (d₂ : SDef)
    (h : readDef isRef d [(k, v)] = .ok d₁) (hk : k ∉ d₂.bindings.map Prod.fst) :
    ∃ d₃, readDef isRef d₂ [(k, v)] = .ok d₃ := by
  rw [readDef] at h
  rw [readDef]
  cases hw : Keyword.tryFrom k with
  | none =>
    simp only [hw, Option.bind_none] at h ⊢
    obtain ⟨t, ht, -⟩ := exBind_ok h
    simp only [ht, lookupKey_none_append hk]
    exact ⟨_, rfl⟩
  | some w =>
    simp only [hw, Option.bind_some] at h ⊢
    cases hr : readDefKey isRef v d w with
    | some r =>
      simp only [hr] at h
      obtain ⟨x, hx, -⟩ := exBind_ok h
      subst hx
      obtain ⟨d₃, h₃, -⟩ := defKey_again d₂ hr
      simp only [h₃]
      exact ⟨d₃, rfl⟩
    | none =>
      simp only [hr] at h
      have : readDefKey isRef v d₂ w = none := by
        cases w <;> first | rfl | cases hr
      obtain ⟨t, ht, -⟩ := exBind_ok h
      simp only [this, ht, lookupKey_none_append hk]
      exact ⟨_, rfl⟩

private theorem def_accepted : ∀ (m : List (Str × Json)) (d : SDef), (m.map Prod.fst).Nodup →
    (∀ x ∈ m.map Prod.fst, x ∉ d.bindings.map Prod.fst) →
    ((∃ d', readDef isRef d m = .ok d') ↔ ∀ e ∈ m, ∃ d', readDef isRef .empty [e] = .ok d')
  | [], d, _, _ => ⟨fun _ e he => (List.not_mem_nil he).elim, fun _ => ⟨d, by simp only [readDef]⟩⟩
  | (k, v) :: m, d, hd, hn => by
    have hk := hn k List.mem_cons_self
    rw [entry_accepted hk]
    have tail : ∀ d₁ : SDef, (d₁.bindings.map Prod.fst = d.bindings.map Prod.fst ∨
        d₁.bindings.map Prod.fst = d.bindings.map Prod.fst ++ [k]) →
        ∀ x ∈ m.map Prod.fst, x ∉ d₁.bindings.map Prod.fst := by
      intro d₁ hb x hx hx'
      rcases hb with hb | hb <;> rw [hb] at hx'
      · exact hn x (List.mem_cons_of_mem _ hx) hx'
      · rcases List.mem_append.1 hx' with h | h
        · exact hn x (List.mem_cons_of_mem _ hx) h
        · obtain rfl := List.mem_singleton.1 h
          exact (List.nodup_cons.1 hd).1 hx
    constructor
    · rintro ⟨d₁, hb, h₁, h₂⟩ e he
      rcases List.mem_cons.1 he with rfl | he
      · exact single_again .empty h₁ List.not_mem_nil
      · exact (def_accepted m d₁ (List.nodup_cons.1 hd).2 (tail d₁ hb)).1 h₂ e he
    · intro h
      obtain ⟨d₀, h₀⟩ := h (k, v) List.mem_cons_self
      obtain ⟨d₁, h₁⟩ := single_again d h₀ hk
      obtain ⟨d₂, hb, h₂, -⟩ := (entry_accepted hk (m := [])).1 ⟨d₁, h₁⟩
      exact ⟨d₂, hb, h₂, (def_accepted m d₂ (List.nodup_cons.1 hd).2 (tail d₂ hb)).2
        fun e he => h e (List.mem_cons_of_mem _ he)⟩

/-- C111: an object without duplicate keys is accepted as a context if and only if each of its members
alone is. -/
theorem C111_accepted {m : List (Str × Json)} (hm : (m.map Prod.fst).Nodup) :
    (∃ c, readCtx isRef (.obj m) = .ok c) ↔ ∀ e ∈ m, ∃ c, readCtx isRef (.obj [e]) = .ok c := by
  have : ∀ m, (∃ c, readCtx isRef (.obj m) = .ok c) ↔ ∃ d, readDef isRef .empty m = .ok d := by
    intro m
    simp only [readCtx]
    constructor
    · rintro ⟨c, h⟩
      obtain ⟨d, hd, -⟩ := exMap_ok h
      exact ⟨d, hd⟩
    · rintro ⟨d, hd⟩
      exact ⟨_, by rw [hd]; rfl⟩
  simp only [this]
  exact def_accepted m .empty hm (fun _ _ => List.not_mem_nil)

private theorem sameEntries_refl (d : SDef) : SameEntries d d := ⟨by cases d; rfl, .refl _⟩

private theorem sameEntries_trans {d e f : SDef} (h : SameEntries d e) (h' : SameEntries e f) : SameEntries d f := by
  obtain ⟨h1, h2⟩ := h
  obtain ⟨h3, h4⟩ := h'
  exact ⟨by rw [h3, h1], h2.trans h4⟩

private theorem keys_comm {v₁ v₂ : Json} {w₁ w₂ : Keyword} {d d₁ d₂ : SDef} (hw : w₁ ≠ w₂)
    (h₁ : readDefKey isRef v₁ d w₁ = some (.ok d₁)) (h₂ : readDefKey isRef v₂ d₁ w₂ = some (.ok d₂)) :
    ∃ e, readDefKey isRef v₂ d w₂ = some (.ok e) ∧ readDefKey isRef v₁ e w₁ = some (.ok d₂) := by
  cases w₁ <;> first
    | cases h₁
    | (obtain ⟨x, hx, e₁⟩ := exMap_ok (Option.some.inj h₁)
       clear h₁
       subst e₁
       cases w₂ <;> first
         | (exact absurd rfl hw)
         | cases h₂
         | (obtain ⟨y, hy, e₂⟩ := exMap_ok (Option.some.inj h₂)
            clear h₂
            subst e₂
            simp only [readDefKey, hx, hy, Except.map]
            exact ⟨_, rfl, rfl⟩))

/-- One entry. -/
private def oneEntry (isRef : Str → Bool) (d : SDef) (e : Str × Json) : Except CtxReadErr SDef :=
  readDef isRef d [e]

private theorem readDef_cons (d : SDef) (e : Str × Json) (m : List (Str × Json)) :
    readDef isRef d (e :: m) = (oneEntry isRef d e).bind fun d' => readDef isRef d' m := by
  obtain ⟨k, v⟩ := e
  unfold oneEntry
  rw [readDef, readDef]
  cases (Keyword.tryFrom k).bind (readDefKey isRef v d) with
  | some r =>
    cases r with
    | error e => rfl
    | ok x => simp only [Except.bind, readDef]
  | none =>
    cases readTerm isRef v with
    | error e => rfl
    | ok t =>
      simp only [Except.bind]
      split
      · rfl
      · simp only [readDef]

private inductive Step (isRef : Str → Bool) (d : SDef) (k : Str) (v : Json) (d₁ : SDef) : Prop
  | key (w : Keyword) (hw : Keyword.tryFrom k = some w) (h : readDefKey isRef v d w = some (.ok d₁))
  | term (t : Option STerm) (hk : ∀ d, (Keyword.tryFrom k).bind (readDefKey isRef v d) = none)
      (ht : readTerm isRef v = .ok t) (hn : k ∉ d.bindings.map Prod.fst)
      (h : d₁ = { d with bindings := d.bindings ++ [(k, t)] })

private theorem lookup_isSome {α : Type} {k : Str} : ∀ {m : List (Str × α)},
    k ∈ m.map Prod.fst → (lookupKey k m).isSome = true
  | [], h => by cases h
  | (k', v) :: m, h => by
    rw [lookupKey]
    split
    · rfl
    · rename_i hk
      rcases List.mem_cons.1 h with h | h
      · exact absurd h.symm hk
      · exact lookup_isSome h

private theorem step_iff {d d₁ : SDef} {k : Str} {v : Json} :
    oneEntry isRef d (k, v) = .ok d₁ ↔ Step isRef d k v d₁ := by
  unfold oneEntry
  rw [readDef]
  constructor
  · intro h
    cases hr : (Keyword.tryFrom k).bind (readDefKey isRef v d) with
    | some r =>
      simp only [hr] at h
      obtain ⟨x, rfl, hx⟩ := exBind_ok h
      simp only [readDef] at hx
      cases hx
      cases hw : Keyword.tryFrom k with
      | none => rw [hw] at hr; cases hr
      | some w => rw [hw] at hr; exact .key w hw hr
    | none =>
      simp only [hr] at h
      obtain ⟨t, ht, h2⟩ := exBind_ok h
      split at h2
      · cases h2
      · rename_i hl
        simp only [readDef] at h2
        cases h2
        exact .term t (fun d => readDefKey_none (not_contextKey hr) v d) ht
          (fun hm => hl (lookup_isSome hm)) rfl
  · rintro (⟨w, hw, h⟩ | ⟨t, hk, ht, hn, rfl⟩)
    · simp only [hw, Option.bind_some, h, Except.bind, readDef]
    · simp only [hk d, ht, Except.bind, lookupKey_none_append hn, readDef]
      rfl

private theorem step_same {d e d₁ : SDef} {k : Str} {v : Json} (hs : SameEntries d e)
    (h : Step isRef d k v d₁) : ∃ e₁, Step isRef e k v e₁ ∧ SameEntries d₁ e₁ := by
  obtain ⟨he, hp⟩ := hs
  rcases h with ⟨w, hw, h⟩ | ⟨t, hk, ht, hn, rfl⟩
  · generalize e.bindings = b at he hp
    subst he
    cases w <;> first
      | cases h
      | (obtain ⟨x, hx, e₁⟩ := exMap_ok (Option.some.inj h)
         subst e₁
         refine ⟨_, .key _ hw (by simp only [readDefKey, hx, Except.map]; rfl), rfl, hp⟩)
  · refine ⟨_, .term t hk ht (fun hm => hn ((hp.map Prod.fst).mem_iff.2 hm)) rfl, ?_,
      hp.append_right _⟩
    simp only
    rw [he]

private theorem read_same : ∀ (m : List (Str × Json)) {d e d' : SDef}, SameEntries d e →
    readDef isRef d m = .ok d' → ∃ e', readDef isRef e m = .ok e' ∧ SameEntries d' e'
  | [], d, e, d', hs, h => by
    simp only [readDef] at h
    cases h
    exact ⟨e, by simp only [readDef], hs⟩
  | (k, v) :: m, d, e, d', hs, h => by
    rw [readDef_cons] at h
    obtain ⟨d₁, h₁, h⟩ := exBind_ok h
    obtain ⟨e₁, h₂, hs'⟩ := step_same hs (step_iff.1 h₁)
    obtain ⟨e', h₃, hs''⟩ := read_same m hs' h
    exact ⟨e', by rw [readDef_cons, step_iff.2 h₂]; exact h₃, hs''⟩

private theorem keep_bindings {v : Json} {d d₁ : SDef} {w : Keyword}
    (h : readDefKey isRef v d w = some (.ok d₁)) (b : List (Str × Option STerm)) :
    d₁.bindings = d.bindings ∧
      readDefKey isRef v { d with bindings := b } w = some (.ok { d₁ with bindings := b }) := by
  cases w <;> first
    | cases h
    | (obtain ⟨x, hx, e₁⟩ := exMap_ok (Option.some.inj h)
       subst e₁
       refine ⟨rfl, ?_⟩
       simp only [readDefKey, hx, Except.map])

private theorem step_swap {d d₁ d₂ : SDef} {k₁ k₂ : Str} {v₁ v₂ : Json} (hk : k₁ ≠ k₂)
    (h₁ : Step isRef d k₁ v₁ d₁) (h₂ : Step isRef d₁ k₂ v₂ d₂) :
    ∃ e₁ e₂, Step isRef d k₂ v₂ e₁ ∧ Step isRef e₁ k₁ v₁ e₂ ∧ SameEntries d₂ e₂ := by
  rcases h₁ with ⟨w₁, hw₁, h₁⟩ | ⟨t₁, hk₁, ht₁, hn₁, rfl⟩ <;>
    rcases h₂ with ⟨w₂, hw₂, h₂⟩ | ⟨t₂, hk₂, ht₂, hn₂, rfl⟩
  · have hw : w₁ ≠ w₂ := by
      rintro rfl
      exact hk ((kw_of_tryFrom hw₁).trans (kw_of_tryFrom hw₂).symm)
    obtain ⟨e, h, h'⟩ := keys_comm hw h₁ h₂
    exact ⟨e, d₂, .key w₂ hw₂ h, .key w₁ hw₁ h', sameEntries_refl _⟩
  · obtain ⟨hb, h⟩ := keep_bindings h₁ (d.bindings ++ [(k₂, t₂)])
    rw [hb] at hn₂
    refine ⟨_, _, .term t₂ hk₂ ht₂ hn₂ rfl, .key w₁ hw₁ h, ?_⟩
    rw [hb]
    exact sameEntries_refl _
  · obtain ⟨hb, h⟩ := keep_bindings h₂ d.bindings
    refine ⟨_, _, .key w₂ hw₂ h, .term t₁ hk₁ ht₁ hn₁ rfl, ?_⟩
    simp only at hb
    simp only [← hb]
    exact sameEntries_refl _
  · refine ⟨_, _, .term t₂ hk₂ ht₂ ?_ rfl, .term t₁ hk₁ ht₁ ?_ rfl, rfl, ?_⟩
    · intro hm
      exact hn₂ (by simp only [List.map_append]; exact List.mem_append_left _ hm)
    · simp only [List.map_append, List.mem_append, not_or]
      exact ⟨hn₁, fun h => hk (List.mem_singleton.1 h)⟩
    · simp only [List.append_assoc]
      exact List.Perm.append_left _ (List.Perm.swap _ _ _)

private theorem read_perm {m m' : List (Str × Json)} (hp : m.Perm m') :
    ∀ {d d' : SDef}, (m.map Prod.fst).Nodup → readDef isRef d m = .ok d' →
      ∃ e', readDef isRef d m' = .ok e' ∧ SameEntries d' e' := by
  induction hp with
  | nil => exact fun _ h => ⟨_, h, sameEntries_refl _⟩
  | cons a _ ih =>
    intro d d' hd h
    rw [readDef_cons] at h
    obtain ⟨d₁, h₁, h⟩ := exBind_ok h
    obtain ⟨e', h', hs⟩ := ih (List.nodup_cons.1 hd).2 h
    exact ⟨e', by rw [readDef_cons, h₁]; exact h', hs⟩
  | swap a b l =>
    intro d d' hd h
    rw [readDef_cons] at h
    obtain ⟨d₁, h₁, h⟩ := exBind_ok h
    rw [readDef_cons] at h
    obtain ⟨d₂, h₂, h⟩ := exBind_ok h
    have hk : b.1 ≠ a.1 := by
      intro e
      exact (List.nodup_cons.1 hd).1 (by rw [e]; exact List.mem_cons_self)
    obtain ⟨e₁, e₂, s₁, s₂, hs⟩ := step_swap hk (step_iff.1 h₁) (step_iff.1 h₂)
    obtain ⟨e', h', hs'⟩ := read_same l hs h
    refine ⟨e', ?_, hs'⟩
    rw [readDef_cons, step_iff.2 s₁]
    change readDef isRef e₁ (b :: l) = _
    rw [readDef_cons, step_iff.2 s₂]
    exact h'
  | trans p _ ih₁ ih₂ =>
    intro d d' hd h
    obtain ⟨e, he, hs⟩ := ih₁ hd h
    obtain ⟨f, hf, hs'⟩ := ih₂ ((p.map Prod.fst).nodup_iff.1 hd) he
    exact ⟨f, hf, sameEntries_trans hs hs'⟩

/-- Without an entry `@import`, nothing is imported. -/
theorem read_import : ∀ (m : List (Str × Json)) {d d' : SDef}, "@import".toList ∉ m.map Prod.fst →
    readDef isRef d m = .ok d' → d'.import_ = d.import_
  | [], d, d', _, h => by
    simp only [readDef] at h
    cases h
    rfl
  | (k, v) :: m, d, d', hn, h => by
    rw [readDef_cons] at h
    obtain ⟨d₁, h₁, h⟩ := exBind_ok h
    rw [read_import m (fun hm => hn (List.mem_cons_of_mem _ hm)) h]
    rcases step_iff.1 h₁ with ⟨w, hw, h⟩ | ⟨t, hk, ht, hn', rfl⟩
    · cases w <;> first
        | cases h
        | (exact absurd (kw_of_tryFrom hw ▸ List.mem_cons_self) hn)
        | (obtain ⟨x, hx, e₁⟩ := exMap_ok (Option.some.inj h)
           subst e₁
           rfl)
    · rfl

/-- C111: the members of an object may be moved; the context read has the same entries, and the same
terms in another order. -/
theorem C111_order {m m' : List (Str × Json)} {d : SDef} (hm : (m.map Prod.fst).Nodup) (hp : m.Perm m')
    (h : readCtx isRef (.obj m) = .ok (.one (.defn d))) :
    ∃ d', readCtx isRef (.obj m') = .ok (.one (.defn d')) ∧ SameEntries d d' := by
  simp only [readCtx] at h ⊢
  obtain ⟨x, hx, e⟩ := exMap_ok h
  cases e
  obtain ⟨e', h', hs⟩ := read_perm hp hm hx
  exact ⟨e', by rw [h']; rfl, hs⟩

/-! ## Term definitions -/

private def expStep (isRef : Str → Bool) (v : Json) (x : SExp) : Keyword → Except CtxReadErr SExp
  | .context => (readCtx isRef v).map fun c => { x with context := some c }
  | w => readExpKey v x w

private theorem readExp_cons (x : SExp) (k : Str) (v : Json) (m : List (Str × Json)) {x' : SExp} :
    readExp isRef x ((k, v) :: m) = .ok x' ↔
      ∃ w x₁, Keyword.tryFrom k = some w ∧ expStep isRef v x w = .ok x₁ ∧ readExp isRef x₁ m = .ok x' := by
  rw [readExp]
  cases hw : Keyword.tryFrom k with
  | none => exact ⟨(fun h => nomatch h), (fun ⟨_, _, h, _⟩ => nomatch h)⟩
  | some w =>
    constructor
    · intro h
      split at h
      · rename_i hc
        obtain rfl := Option.some.inj hc
        obtain ⟨c, hc, h⟩ := exBind_ok h
        exact ⟨_, _, rfl, by simp only [expStep, hc, Except.map], h⟩
      · rename_i w' hn hc
        obtain rfl := Option.some.inj hc
        obtain ⟨x₁, hx, h⟩ := exBind_ok h
        refine ⟨_, x₁, rfl, ?_, h⟩
        unfold expStep
        split
        · exact absurd rfl hn
        · exact hx
      · rename_i hc; cases hc
    · rintro ⟨w', x₁, hw', hs, h⟩
      obtain rfl := Option.some.inj hw'
      unfold expStep at hs
      split at hs
      · obtain ⟨c, hc, rfl⟩ := exMap_ok hs
        simp only [hc, Except.bind]
        exact h
      · simp only [hs, Except.bind]
        exact h

private theorem expStep_comm {v₁ v₂ : Json} {w₁ w₂ : Keyword} {x x₁ x₂ : SExp} (hw : w₁ ≠ w₂)
    (h₁ : expStep isRef v₁ x w₁ = .ok x₁) (h₂ : expStep isRef v₂ x₁ w₂ = .ok x₂) :
    ∃ e, expStep isRef v₂ x w₂ = .ok e ∧ expStep isRef v₁ e w₁ = .ok x₂ := by
  cases w₁ <;> first
    | cases h₁
    | (obtain ⟨y, hy, e₁⟩ := exMap_ok h₁
       clear h₁
       subst e₁
       cases w₂ <;> first
         | (exact absurd rfl hw)
         | cases h₂
         | (obtain ⟨z, hz, e₂⟩ := exMap_ok h₂
            clear h₂
            subst e₂
            simp only [expStep, readExpKey, hy, hz, Except.map]
            exact ⟨_, rfl, rfl⟩))

private theorem exp_perm {m m' : List (Str × Json)} (hp : m.Perm m') :
    ∀ {x x' : SExp}, (m.map Prod.fst).Nodup → readExp isRef x m = .ok x' → readExp isRef x m' = .ok x' := by
  induction hp with
  | nil => exact fun _ h => h
  | cons a _ ih =>
    obtain ⟨k, v⟩ := a
    intro x x' hd h
    rw [readExp_cons] at h ⊢
    obtain ⟨w, x₁, hw, hs, h⟩ := h
    exact ⟨w, x₁, hw, hs, ih (List.nodup_cons.1 hd).2 h⟩
  | swap a b l =>
    obtain ⟨k, v⟩ := a
    obtain ⟨k', v'⟩ := b
    intro x x' hd h
    rw [readExp_cons] at h
    obtain ⟨w₁, x₁, hw₁, hs₁, h⟩ := h
    rw [readExp_cons] at h
    obtain ⟨w₂, x₂, hw₂, hs₂, h⟩ := h
    have hw : w₁ ≠ w₂ := by
      rintro rfl
      refine (List.nodup_cons.1 hd).1 ?_
      simp only
      rw [kw_of_tryFrom hw₁, ← kw_of_tryFrom hw₂]
      exact List.mem_cons_self
    obtain ⟨e, he, he'⟩ := expStep_comm hw hs₁ hs₂
    exact (readExp_cons _ _ _ _).2 ⟨w₂, e, hw₂, he, (readExp_cons _ _ _ _).2 ⟨w₁, x₂, hw₁, he', h⟩⟩
  | trans p _ ih₁ ih₂ =>
    intro x x' hd h
    exact ih₂ ((p.map Prod.fst).nodup_iff.1 hd) (ih₁ hd h)

/-- C111: the members of a term definition may be moved; the context read is the same. -/
theorem C111_term_order {k : Str} {m m' : List (Str × Json)} {l l' : List (Str × Json)} {c : SCtx}
    (hk : k ∉ contextKeys) (hm : (m.map Prod.fst).Nodup) (hp : m.Perm m')
    (h : readCtx isRef (.obj (l ++ (k, .obj m) :: l')) = .ok c) :
    readCtx isRef (.obj (l ++ (k, .obj m') :: l')) = .ok c := by
  simp only [readCtx] at h ⊢
  obtain ⟨d, hd, rfl⟩ := exMap_ok h
  suffices hs : ∀ (l : List (Str × Json)) (d₀ : SDef), readDef isRef d₀ (l ++ (k, .obj m) :: l') = .ok d →
      readDef isRef d₀ (l ++ (k, .obj m') :: l') = .ok d by
    rw [hs l _ hd]; rfl
  intro l
  induction l with
  | nil =>
    intro d₀ h
    rw [List.nil_append, readDef, readDefKey_none hk] at h ⊢
    obtain ⟨t, ht, h⟩ := exBind_ok h
    simp only [readTerm] at ht ⊢
    obtain ⟨x, hx, rfl⟩ := exMap_ok ht
    rw [exp_perm hp hm hx]
    exact h
  | cons a l ih =>
    intro d₀ h
    rw [List.cons_append, readDef_cons] at h ⊢
    obtain ⟨d₁, h₁, h⟩ := exBind_ok h
    rw [h₁]
    exact ih d₁ h

/-- C111 needs that no key occurs twice: of two entries `@vocab` the first is lost without an error
(context/try_from_json.rs:325), while two definitions of a term are an error (334-336). -/
theorem C111_twice :
    ((readCtx isRef (.obj [("@vocab".toList, .str "http://a/".toList),
        ("@vocab".toList, .str "http://b/".toList)])).map SCtx.toJson).toOption =
      some (.obj [("@vocab".toList, .str "http://b/".toList)]) ∧
    ((readCtx isRef (.obj [("t".toList, .str "http://a/".toList),
        ("t".toList, .str "http://b/".toList)])).map SCtx.toJson).toOption = none := by
  constructor <;> rfl

/-- A context with members in unusual places. -/
private def exCtxBack : Json :=
  .obj [("t".toList, .obj [("@type".toList, .str "@id".toList),
      ("@context".toList, .arr [.null, .obj [("u".toList, .null), ("@language".toList, .str "en".toList)]]),
      ("@id".toList, .str "http://a/t".toList)]),
    ("@version".toList, .num "1.1".toList),
    ("@type".toList, .obj [("@protected".toList, .bool true), ("@container".toList, .str "@set".toList)]),
    ("@vocab".toList, .str "http://a/".toList)]

example : NoDupKeys exCtxBack := by
  refine .obj (by decide) ?_
  intro e he
  simp only [List.mem_cons, List.not_mem_nil, or_false] at he
  rcases he with rfl | rfl | rfl | rfl
  · refine .obj (by decide) ?_
    intro e he
    simp only [List.mem_cons, List.not_mem_nil, or_false] at he
    rcases he with rfl | rfl | rfl
    · exact .str _
    · refine .arr ?_
      intro x hx
      simp only [List.mem_cons, List.not_mem_nil, or_false] at hx
      rcases hx with rfl | rfl
      · exact .null
      · refine .obj (by decide) ?_
        intro e he
        simp only [List.mem_cons, List.not_mem_nil, or_false] at he
        rcases he with rfl | rfl
        · exact .null
        · exact .str _
    · exact .str _
  · exact .num _
  · refine .obj (by decide) ?_
    intro e he
    simp only [List.mem_cons, List.not_mem_nil, or_false] at he
    rcases he with rfl | rfl
    · exact .bool _
    · exact .str _
  · exact .str _

example : ∃ c, readCtx isRef exCtxBack = .ok c ∧ c.toJson ≠ exCtxBack := by
  refine ⟨_, rfl, ?_⟩
  intro h
  injection h with h
  injection h with h
  injection h with h
  exact absurd h (by decide)

/-- Moving terms gives a different context, which `C111_order` compares with the first. -/
example : ∃ d d', readCtx isRef (.obj [("a".toList, .null), ("b".toList, .null)]) = .ok (.one (.defn d)) ∧
    readCtx isRef (.obj [("b".toList, .null), ("a".toList, .null)]) = .ok (.one (.defn d')) ∧
    d.bindings.map Prod.fst ≠ d'.bindings.map Prod.fst :=
  ⟨_, _, rfl, rfl, by decide⟩

/-- The hypotheses of `C111_term_order` are met by a definition with a scoped context. -/
example : "t".toList ∉ contextKeys ∧ ∃ c, readCtx isRef (.obj ([("@vocab".toList, .str "http://a/".toList)] ++
    ("t".toList, .obj [("@context".toList, .obj [("u".toList, .null)]), ("@id".toList, .str "http://a/t".toList)]) ::
      [])) = .ok c :=
  ⟨by decide, _, rfl⟩

end JsonLd.Props
