import Verif.Proofs.MapsAll
import Verif.Proofs.ExpandMaps
import Verif.Proofs.FlattenOut
/-!
# Expanding the entries that hold the values of properties
-/

namespace JsonLd
open Spec Props Relation

theorem collect_one {α : Type} {f : α → Except XErr (List Obj)} {as : List α} {os : List Obj}
    (h : List.Forall₂ (fun a o => ∃ o', f a = .ok [o'] ∧ Same o' o) as os) :
    ∃ os', collectM f as = .ok os' ∧ List.Forall₂ Same os' os := by
  induction h with
  | nil => exact ⟨[], rfl, .nil⟩
  | cons h _ ih =>
    obtain ⟨o', h1, h2⟩ := h
    obtain ⟨os', h3, h4⟩ := ih
    refine ⟨o' :: os', ?_, .cons h2 h4⟩
    unfold collectM
    rw [h1, h3]
    rfl

theorem collect_groups {f : Str × Json → Except XErr (List Obj)} {gs : List (Str × Json × List Obj)}
    (h : ∀ g ∈ gs, ∃ os', f (g.1, g.2.1) = .ok os' ∧ List.Forall₂ Same os' g.2.2) :
    ∃ os', collectM f (gs.map fun g => (g.1, g.2.1)) = .ok os' ∧ List.Forall₂ Same os' (gs.flatMap fun g => g.2.2) := by
  induction gs with
  | nil => exact ⟨[], rfl, .nil⟩
  | cons g gs ih =>
    obtain ⟨a, h1, h2⟩ := h g (by simp)
    obtain ⟨b, h3, h4⟩ := ih fun g hg => h g (List.mem_cons_of_mem _ hg)
    refine ⟨a ++ b, ?_, ?_⟩
    · rw [List.map_cons]
      unfold collectM
      rw [h1, h3]
      rfl
    · rw [List.flatMap_cons]
      exact List.rel_append h2 h4

theorem collectM_perm_ok {α β : Type} {f : α → Except XErr (List β)} {l l' : List α} (h : l.Perm l') :
    ∀ {r}, collectM f l = .ok r → ∃ r', collectM f l' = .ok r' ∧ r.Perm r' := by
  induction h with
  | nil => exact fun hr => ⟨_, hr, .refl _⟩
  | cons a _ ih =>
    intro r hr
    obtain ⟨p, q, h1, h2, rfl⟩ := collectM_cons.1 hr
    obtain ⟨q', h3, h4⟩ := ih h2
    exact ⟨p ++ q', collectM_cons.2 ⟨p, q', h1, h3, rfl⟩, .append_left _ h4⟩
  | swap a b l =>
    intro r hr
    obtain ⟨p, q, h1, h2, rfl⟩ := collectM_cons.1 hr
    obtain ⟨p', q', h3, h4, rfl⟩ := collectM_cons.1 h2
    refine ⟨p' ++ (p ++ q'), collectM_cons.2 ⟨p', _, h3, collectM_cons.2 ⟨p, q', h1, h4, rfl⟩, rfl⟩, ?_⟩
    rw [← List.append_assoc, ← List.append_assoc]
    exact List.perm_append_comm.append_right _
  | trans _ _ ih1 ih2 =>
    intro r hr
    obtain ⟨r', hr', h'⟩ := ih1 hr
    obtain ⟨r'', hr'', h''⟩ := ih2 hr'
    exact ⟨r'', hr'', h'.trans h''⟩

/-- The same when the entries are sorted. -/
theorem collect_sorted {f : Str × Json → Except XErr (List Obj)} {gs : List (Str × Json × List Obj)} {os : List Obj}
    (hp : (gs.flatMap fun g => g.2.2).Perm os) (b : Bool)
    (h : ∀ g ∈ gs, ∃ os', f (g.1, g.2.1) = .ok os' ∧ List.Forall₂ Same os' g.2.2) :
    ∃ os', collectM f (sortIf b Prod.fst (gs.map fun g => (g.1, g.2.1))) = .ok os' ∧ PermRel Same os' os := by
  obtain ⟨os1, h1, h2⟩ := collect_groups h
  obtain ⟨os2, h3, h4⟩ := collectM_perm_ok (sortIf_perm b Prod.fst _).symm h1
  refine ⟨os2, h3, ?_⟩
  obtain ⟨k, h5, h6⟩ := List.perm_comp_forall₂ h4.symm h2
  exact ⟨k, h6.trans hp, h5⟩

/-- The value of an entry, after the containers `@list` and `@graph`. -/
def entryValue (X : XEnv) (c : ACtx) (key : Str) (w : Json) : Except XErr Expanded :=
  (propValue X (unlimited X) c (c.get key) key w).map fun x =>
    wrapGraph (containerOf (c.get key)) (wrapList (containerOf (c.get key)) x)

section
variable {E : CEnv} {X : XEnv} {c : ACtx} (H : MapEnv E X c)
include H

omit H in
theorem map_notList {k : Container} (h : (isMapContainer k || isGraphMap k) = true) : k.contains .list = false ∧
    (k.contains .graph && !k.contains .id && !k.contains .index) = false := by
  revert h
  cases k <;> decide

omit H in
theorem notMap_kinds {k : Container} (h : (isMapContainer k || isGraphMap k) = false) :
    k.contains .language = false ∧ k.contains .index = false ∧ k.contains .id = false ∧ k.contains .type = false := by
  revert h
  cases k <;> decide

/-- What an entry expands to. -/
theorem holds_value {key : Str} {w : Json} {os : List Obj} (h : Holds X c key w os) :
    ∃ x, entryValue X c key w = .ok x ∧ x.isNull = false ∧ PermRel Same x.toList os := by
  have hty := typ_json H.ctx key
  have hix := index_value H.ctx key
  unfold entryValue propValue
  rw [containerOf_eq]
  dsimp only
  rw [if_neg hty]
  unfold Holds at h
  split at h
  · rename_i hm
    obtain ⟨hli, hgc⟩ := map_notList hm
    obtain ⟨m, rfl, gs, rfl, -, hgs, hp⟩ := h
    have fin : ∀ {r : Except XErr (List Obj)} {os'}, r = .ok os' → PermRel Same os' os →
        ∃ x, ((r.map Expanded.array).map fun x => wrapGraph (defContainer (c.get key)) (wrapList (defContainer (c.get key)) x)) = .ok x ∧
          x.isNull = false ∧ PermRel Same x.toList os := by
      rintro r os' rfl h2
      refine ⟨.array os', ?_, rfl, h2⟩
      show Except.ok (wrapGraph _ (wrapList _ _)) = _
      unfold wrapGraph wrapList
      rw [hli, hgc]
      rfl
    dsimp only
    split
    · rename_i hlang
      unfold langMap
      obtain ⟨os', h1, h2⟩ := collect_sorted hp X.opts.ordered (f := fun e => collectM (langMapItem X c (literalDirection c (c.get key)) e.1) (forceArray e.2))
        (gs := gs) (by
          intro g hg
          obtain ⟨a, vs, hne, hw, hvs⟩ := hgs g hg
          dsimp only
          rw [hw, pack_force (forall₂_left hvs fun _ _ h => h.notArray)]
          exact collect_one (hvs.imp fun v o h => h.lang hlang))
      exact fin h1 h2
    · rename_i hlang
      have hlang : (defContainer (c.get key)).contains .language = false := by simpa using hlang
      rw [if_pos (by
        revert hm hlang
        generalize defContainer (c.get key) = k
        cases k <;> decide)]
      have hik : indexKeyOf (c.get key) = "@index".toList := by unfold indexKeyOf; rw [hix]
      rw [hik]
      obtain ⟨os', h1, h2⟩ := collect_sorted hp X.opts.ordered
        (f := xMapEntry X (unlimited X) c (defContainer (c.get key)) "@index".toList key)
        (gs := gs) (by
          intro g hg
          obtain ⟨a, vs, hne, hw, hvs⟩ := hgs g hg
          rw [hw]
          have hother : List.Forall₂ (fun v o => ∃ o1, expandElement X c (some key) v true = .ok (.object o1) ∧
              ∃ t o', expandedIndex X c g.1 = .ok t ∧ mapItem X c (defContainer (c.get key)) "@index".toList g.1 t o1 = .ok [o'] ∧
                Same o' o) vs g.2.2 := hvs.imp fun v o h => by
            obtain ⟨o1, t, o', h1, h2, h3, h4⟩ := h.other hlang
            exact ⟨o1, h1, t, o', h2, h3, h4⟩
          have hidx : ∃ t, expandedIndex X c g.1 = .ok t := by
            generalize g.2.2 = os' at hother
            cases hother with
            | nil => exact absurd rfl hne
            | cons h _ => obtain ⟨o1, h1, t, o', h2, -⟩ := h; exact ⟨t, h2⟩
          obtain ⟨t, ht⟩ := hidx
          obtain ⟨y, h3, h4, -⟩ := pack_forall (prop := some key) hother (by
            show (containerOf (c.get key)).contains .list = false
            rw [containerOf_eq]
            exact hli) a
          unfold xMapEntry
          have hmc : mapContext X c (defContainer (c.get key)) g.1 = .ok c := by
            unfold mapContext
            rw [H.ctx.previous]
            simp only [Option.getD_none, ite_self]
            split
            · unfold scopedCtx
              cases hgd : c.get g.1 with
              | none => rfl
              | some d => dsimp only; rw [(get_value H.ctx hgd).context]
            · rfl
          rw [hmc]
          show ∃ os', (Except.bind (expandedIndex X c g.1) fun t => _) = .ok os' ∧ _
          rw [ht]
          show ∃ os', (Except.bind (expandElement X c (some key) (pack a vs) true) fun x => _) = .ok os' ∧ _
          rw [h3]
          refine collect_one (h4.imp fun o1 o h => ?_)
          obtain ⟨t', o', h5, h6, h7⟩ := h
          rw [ht] at h5
          cases h5
          exact ⟨o', h6, h7⟩)
      exact fin h1 h2
  · rename_i hm
    have hm : (isMapContainer (defContainer (c.get key)) || isGraphMap (defContainer (c.get key))) = false :=
      Bool.eq_false_iff.2 hm
    obtain ⟨k1, k2, k3, k4⟩ := notMap_kinds hm
    have hval : ∀ w : Json, (match w with
        | .obj m => if (defContainer (c.get key)).contains .language then (langMap X c (c.get key) m).map Expanded.array
          else if (defContainer (c.get key)).contains .index || (defContainer (c.get key)).contains .type || (defContainer (c.get key)).contains .id then
            (collectM (xMapEntry X (unlimited X) c (defContainer (c.get key)) (indexKeyOf (c.get key)) key) (sortIf X.opts.ordered Prod.fst m)).map .array
          else (unlimited X).elem c (some key) w false
        | v => (unlimited X).elem c (some key) v false) = expandElement X c (some key) w false := by
      intro w
      rw [k1, k2, k3, k4]
      cases w <;> rfl
    have hval := hval w
    split at h
    · rename_i hgc
      have hli : (defContainer (c.get key)).contains .list = false := by
        revert hgc
        cases defContainer (c.get key) <;> decide
      obtain ⟨a, vs, -, rfl, hvs⟩ := h
      obtain ⟨x, h1, h2, h3⟩ := pack_forall (prop := some key) (S := fun o' o => Same (graphNode o') o) (hvs.imp fun v o h => by
        obtain ⟨m, rfl, hs⟩ := h
        obtain ⟨o', h1, h2⟩ := hs.expand false
        exact ⟨o', h1, same_graphNode h2⟩) (by
        show (containerOf (c.get key)).contains .list = false
        rw [containerOf_eq]
        exact hli) a
      refine ⟨.array (x.toList.map graphNode), ?_, rfl, .of_forall₂ ?_⟩
      · have hfin : (Except.ok (ε := XErr) x).map (fun x => wrapGraph (defContainer (c.get key)) (wrapList (defContainer (c.get key)) x)) =
            .ok (.array (x.toList.map graphNode)) := by
          show Except.ok (wrapGraph _ (wrapList _ _)) = _
          unfold wrapGraph wrapList
          rw [hli, hgc, k2, k3]
          rfl
        rw [← hfin, ← h1, ← hval]
        generalize pack a vs = w
        cases w <;> rfl
      · show List.Forall₂ Same (x.toList.map graphNode) os
        exact List.forall₂_map_left_iff.2 h2
    rename_i hgc
    have hgc : (defContainer (c.get key)).contains .graph = false := by simpa using hgc
    split at h
    · rename_i hli
      obtain ⟨vs, l, rfl, rfl, hvs⟩ := h
      obtain ⟨os', h1, h2⟩ := items_forall (hvs.imp fun v o h => h.expand false)
      refine ⟨.object (.list none os'), ?_, rfl, .of_forall₂ (.cons (same_list h2) .nil)⟩
      have : expandElement X c (some key) (.arr vs) false = .ok (.object (.list none os')) := by
        rw [C49_unfold]
        show elemArr (unlimited X) c (some key) vs false = _
        unfold elemArr
        rw [h1]
        show Except.ok (if (containerOf (c.get key)).contains .list = true then _ else _) = _
        rw [containerOf_eq, hli]
        rfl
      show ((unlimited X).elem c (some key) (.arr vs) false).map _ = _
      rw [show (unlimited X).elem c (some key) (.arr vs) false = _ from this]
      show Except.ok (wrapGraph _ (wrapList _ _)) = _
      unfold wrapGraph wrapList
      rw [hli, hgc]
      rfl
    · rename_i hli
      have hli : (defContainer (c.get key)).contains .list = false := by simpa using hli
      obtain ⟨a, vs, -, rfl, hvs⟩ := h
      obtain ⟨x, h1, h2, h3⟩ := pack_forall (prop := some key) (hvs.imp fun v o h => (h.shown k2).expand false) (by
        show (containerOf (c.get key)).contains .list = false
        rw [containerOf_eq]
        exact hli) a
      refine ⟨x, ?_, h3, .of_forall₂ h2⟩
      have hfin : (Except.ok (ε := XErr) x).map (fun x => wrapGraph (defContainer (c.get key)) (wrapList (defContainer (c.get key)) x)) = .ok x := by
        show Except.ok (wrapGraph _ (wrapList _ _)) = _
        unfold wrapGraph wrapList
        rw [hli, hgc]
        rfl
      rw [← hfin, ← h1, ← hval]
      generalize pack a vs = w
      cases w <;> rfl

/-- An entry for a property. -/
theorem entry_steps {key : Str} {p : Id} (hp : Nameable E.toCompEnv c true p) {w : Json} {y : Expanded}
    (hk : xKey X c key = .ok (some (.id p))) (hv : entryValue X c key w = .ok y) (hn : y.isNull = false)
    (x i ty g inc ps rv) : KeySteps X c [⟨key, .id p, w⟩] (.mk x i ty g inc ps rv)
      (.mk x i ty g inc (insertAll p y.toList ps) rv) := by
  refine ⟨fun e he => by rw [List.mem_singleton.1 he]; exact hk,
    fun e he => by rw [List.mem_singleton.1 he]; simp, fun prop _ => ?_⟩
  obtain ⟨h1, h2⟩ := valid_form H.toBaseEnv hp
  have hprop : propEntry X (unlimited X) c key p w ⟨.mk x i ty g inc ps rv, false⟩ =
      .ok ⟨.mk x i ty g inc (insertAll p y.toList ps) rv, false⟩ := by
    unfold entryValue at hv
    obtain ⟨z, h3, h4⟩ := exMap_ok hv
    unfold propEntry
    dsimp only
    rw [h3]
    show addProp (c.get key) p (wrapGraph (containerOf (c.get key)) (wrapList (containerOf (c.get key)) z)) _ = _
    rw [h4]
    unfold addProp
    rw [hn, reverseOf_value H.ctx]
    rfl
  rw [List.foldlM_cons]
  have : entryStep X (unlimited X) c c prop ⟨.mk x i ty g inc ps rv, false⟩ ⟨key, .id p, w⟩ =
      .ok ⟨.mk x i ty g inc (insertAll p y.toList ps) rv, false⟩ := by
    unfold entryStep
    dsimp only
    rw [if_pos h1]
    unfold idEntry
    cases p with
    | invalid s => cases h2
    | _ => exact hprop
  rw [this]
  rfl

omit H in
theorem insertAll_last {α : Type} {k : Id} {a b : List α} {ps : List (Id × List α)} (h : k ∉ ps.map Prod.fst) :
    insertAll k b (ps ++ [(k, a)]) = ps ++ [(k, a ++ b)] := by
  induction ps with
  | nil => simp [insertAll]
  | cons p ps ih =>
    simp only [List.map_cons, List.mem_cons, not_or] at h
    obtain ⟨k', ws⟩ := p
    show (if k' = k then _ else _) = _
    rw [if_neg (fun h' => h.1 h'.symm)]
    exact congrArg _ (ih h.2)

omit H in
theorem permRel_append {a a' b b' : List Obj} (h : PermRel Same a b) (h' : PermRel Same a' b') :
    PermRel Same (a ++ a') (b ++ b') := by
  obtain ⟨x, h1, h2⟩ := h
  obtain ⟨y, h3, h4⟩ := h'
  exact ⟨x ++ y, h1.append h3, List.rel_append h2 h4⟩

/-- The entries of a property, after the first. -/
theorem groups_more {p : Id} (hp : Nameable E.toCompEnv c true p) : ∀ (gs : List (Str × Json × List Obj)),
    (∀ g ∈ gs, Holds X c g.1 g.2.1 g.2.2) → (∀ g ∈ gs, xKey X c g.1 = .ok (some (.id p))) →
    ∃ os', PermRel Same os' (gs.flatMap fun g => g.2.2) ∧ ∀ x i ty g inc ps rv a, p ∉ ps.map Prod.fst →
      KeySteps X c (gs.map fun g => ⟨g.1, .id p, g.2.1⟩) (.mk x i ty g inc (ps ++ [(p, a)]) rv)
        (.mk x i ty g inc (ps ++ [(p, a ++ os')]) rv) := by
  intro gs
  induction gs with
  | nil => exact fun _ _ => ⟨[], .refl_of nofun, fun x i ty g inc ps rv a _ => by rw [List.append_nil]; exact .nil _⟩
  | cons e gs ih =>
    intro hh hk
    obtain ⟨y, h1, h2, h3⟩ := holds_value H (hh e (by simp))
    obtain ⟨os', h4, h5⟩ := ih (fun g hg => hh g (List.mem_cons_of_mem _ hg)) (fun g hg => hk g (List.mem_cons_of_mem _ hg))
    refine ⟨y.toList ++ os', by rw [List.flatMap_cons]; exact permRel_append h3 h4, fun x i ty g inc ps rv a hf => ?_⟩
    have hs := entry_steps H hp (hk e (by simp)) h1 h2 x i ty g inc (ps ++ [(p, a)]) rv
    rw [insertAll_last hf] at hs
    have := hs.append (h5 x i ty g inc ps rv (a ++ y.toList) hf)
    rw [List.append_assoc] at this
    exact this

/-- The entries of a property. -/
theorem groups_steps {p : Id} (hp : Nameable E.toCompEnv c true p) {gs : List (Str × Json × List Obj)} (hne : gs ≠ [])
    (hh : ∀ g ∈ gs, Holds X c g.1 g.2.1 g.2.2) (hk : ∀ g ∈ gs, xKey X c g.1 = .ok (some (.id p))) :
    ∃ os', PermRel Same os' (gs.flatMap fun g => g.2.2) ∧ ∀ x i ty g inc ps rv, p ∉ ps.map Prod.fst →
      KeySteps X c (gs.map fun g => ⟨g.1, .id p, g.2.1⟩) (.mk x i ty g inc ps rv)
        (.mk x i ty g inc (ps ++ [(p, os')]) rv) := by
  cases gs with
  | nil => exact absurd rfl hne
  | cons e gs =>
    obtain ⟨y, h1, h2, h3⟩ := holds_value H (hh e (by simp))
    obtain ⟨os', h4, h5⟩ := groups_more H hp gs (fun g hg => hh g (List.mem_cons_of_mem _ hg)) (fun g hg => hk g (List.mem_cons_of_mem _ hg))
    refine ⟨y.toList ++ os', by rw [List.flatMap_cons]; exact permRel_append h3 h4, fun x i ty g inc ps rv hf => ?_⟩
    have hs := entry_steps H hp (hk e (by simp)) h1 h2 x i ty g inc ps rv
    rw [insertAll_fresh hf] at hs
    exact hs.append (h5 x i ty g inc ps rv y.toList hf)

/-! ## Compacting properties -/

omit H in
theorem key_some {p : CTerm} (hp : p ≠ .null) {rev : Bool} {o : Obj} {k : Option Str} (h : itemKey E c p rev o = .ok k) :
    ∃ s, k = some s := by
  unfold itemKey compactIriWith at h
  rw [if_neg hp] at h
  simp only [if_true] at h
  split at h
  · cases h
  · exact ⟨_, (Except.ok.inj h).symm⟩
  · obtain ⟨s, -, h2⟩ := exMap_ok h
    exact ⟨s, h2.symm⟩

/-- The loop over the values. -/
theorem fold_grouped {HH : Str → Json → List Obj → Prop} {R : CRec} {p : Id} (hp : Nameable E.toCompEnv c true p) {rev : Bool} {m0 : JMap}
    (h0 : ∀ k, xKey X c k = .ok (some (.id p)) → k ∉ m0.map Prod.fst) :
    ∀ (items done : List Obj),
    (∀ pre o post, items = pre ++ o :: post → ∀ key, itemKey E c (.id p) rev o = .ok (some key) →
      AddsTo HH (propertyItem E R c key o) key o (done ++ pre)) →
    ∀ {m r : JMap}, Grouped HH m done → (∀ k ∈ m.map Prod.fst, xKey X c k = .ok (some (.id p))) →
    items.foldlM (propertyStep E R c (.id p) rev) (m0 ++ m) = .ok r →
    ∃ m', r = m0 ++ m' ∧ Grouped HH m' (done ++ items) ∧ ∀ k ∈ m'.map Prod.fst, xKey X c k = .ok (some (.id p)) := by
  intro items
  induction items with
  | nil =>
    intro done _ m r hg hk h
    cases h
    exact ⟨m, rfl, by rw [List.append_nil]; exact hg, hk⟩
  | cons o os ih =>
    intro done ha m r hg hk h
    rw [List.foldlM_cons] at h
    obtain ⟨m1, h1, h2⟩ := bindOk.1 h
    unfold propertyStep at h1
    obtain ⟨k, hk1, h1⟩ := exBind_ok h1
    obtain ⟨key, rfl⟩ := key_some (by simp) hk1
    dsimp only at h1
    rw [inNest_value H.ctx] at h1
    have hkey := id_with H.toBaseEnv hp hk1
    have hadd := ha [] o os rfl key hk1
    rw [List.append_nil] at hadd
    obtain ⟨m', rfl, hg', hk'⟩ := hg.step (h0 key hkey) hadd h1
    obtain ⟨m2, h3, h4, h5⟩ := ih (done ++ [o]) (fun pre o' post he key hk => by
      have := ha (o :: pre) o' post (by rw [he]; rfl) key hk
      rw [List.append_assoc]
      exact this) hg' (fun k hk1 => by
        rcases (hk' k).1 hk1 with rfl | hk1
        · exact hkey
        · exact hk k hk1) h2
    exact ⟨m2, h3, by rw [List.append_assoc] at h4; exact h4, h5⟩

end

end JsonLd
