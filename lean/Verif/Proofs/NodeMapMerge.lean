import Verif.Proofs.FlattenInv
import Verif.Model.NodeMapApi
import Verif.Spec.NodeMap
/-!
# Merging the graphs of a node map
-/

namespace JsonLd
open Spec

section
variable {α : Type} (eqv : α → α → Bool)

theorem addEach_spec (ws vs : List α) :
    (∀ o ∈ ws, o ∈ PropMap.addEach eqv ws vs) ∧ (∀ o ∈ PropMap.addEach eqv ws vs, o ∈ ws ∨ o ∈ vs) ∧
    (∀ v ∈ vs, ∃ o ∈ PropMap.addEach eqv ws vs, o = v ∨ eqv o v = true) ∧
    (ws.Pairwise (fun a b => eqv a b = false) →
      (PropMap.addEach eqv ws vs).Pairwise fun a b => eqv a b = false) := by
  induction vs generalizing ws with
  | nil => simp [PropMap.addEach]
  | cons v vs ih =>
    simp only [PropMap.addEach]
    split
    · rename_i h
      simp only [List.all_eq_true, Bool.not_eq_true'] at h
      obtain ⟨h1, h2, h3, h4⟩ := ih (ws ++ [v])
      refine ⟨fun o ho => h1 o (List.mem_append_left _ ho), ?_, ?_, ?_⟩
      · intro o ho
        rcases h2 o ho with h | h
        · rcases List.mem_append.1 h with h | h
          · exact Or.inl h
          · exact Or.inr (by rw [List.mem_singleton.1 h]; exact List.mem_cons_self)
        · exact Or.inr (List.mem_cons_of_mem _ h)
      · intro w hw
        rcases List.mem_cons.1 hw with rfl | hw
        · exact ⟨w, h1 w (by simp), Or.inl rfl⟩
        · exact h3 w hw
      · intro hp
        apply h4
        rw [List.pairwise_append]
        refine ⟨hp, by simp, ?_⟩
        intro a ha b hb
        rw [List.mem_singleton.1 hb]
        exact h a ha
    · rename_i h
      obtain ⟨h1, h2, h3, h4⟩ := ih ws
      refine ⟨h1, ?_, ?_, h4⟩
      · intro o ho
        rcases h2 o ho with h | h
        · exact Or.inl h
        · exact Or.inr (List.mem_cons_of_mem _ h)
      · intro w hw
        rcases List.mem_cons.1 hw with rfl | hw
        · simp only [List.all_eq_true, Bool.not_eq_true', not_forall, Bool.not_eq_false] at h
          obtain ⟨o, ho, he⟩ := h
          exact ⟨o, h1 o ho, Or.inr he⟩
        · exact h3 w hw

/-- What is in `r` is in `ps` or in `es`. -/
structure Joined (ps es r : List (Id × List α)) : Prop where
  left : ∀ k os, (k, os) ∈ ps → ∃ os', (k, os') ∈ r ∧ ∀ o ∈ os, o ∈ os'
  right : ∀ k vs, (k, vs) ∈ es → Holds eqv k vs r
  keys : ∀ k vs, (k, vs) ∈ es → ∃ os, (k, os) ∈ r
  sound : ∀ k os, (k, os) ∈ r → (∃ os', (k, os') ∈ ps) ∨ ∃ vs, (k, vs) ∈ es
  items : ∀ k os, (k, os) ∈ r → ∀ o ∈ os, (∃ os', (k, os') ∈ ps ∧ o ∈ os') ∨ ∃ vs, (k, vs) ∈ es ∧ o ∈ vs
  once : (∀ k os, (k, os) ∈ ps → os.Pairwise fun a b => eqv a b = false) →
    ∀ k os, (k, os) ∈ r → os.Pairwise fun a b => eqv a b = false

theorem mem_setKey {k : Id} {v : α} {l : List (Id × α)} {e : Id × α} (h : e ∈ setKey k v l) :
    e ∈ l ∨ e = (k, v) := by
  induction l with
  | nil => cases h
  | cons a l ih =>
    obtain ⟨k', a⟩ := a
    rw [setKey] at h
    split at h
    · rename_i hk
      rcases List.mem_cons.1 h with rfl | h
      · exact .inr (by rw [hk])
      · exact .inl (List.mem_cons_of_mem _ h)
    · rcases List.mem_cons.1 h with rfl | h
      · exact .inl List.mem_cons_self
      · exact (ih h).imp (List.mem_cons_of_mem _) id

theorem setKey_mem {k : Id} {v w : α} {l : List (Id × α)} (hk : lookupProp k l = some w) :
    (k, v) ∈ setKey k v l ∧ ∀ e ∈ l, e ∈ setKey k v l ∨ e = (k, w) := by
  induction l with
  | nil => cases hk
  | cons a l ih =>
    obtain ⟨k', a⟩ := a
    rw [lookupProp] at hk
    rw [setKey]
    split at hk
    · rename_i h
      cases hk
      rw [if_pos h]
      subst h
      refine ⟨List.mem_cons_self, fun e he => ?_⟩
      rcases List.mem_cons.1 he with rfl | he
      · exact .inr rfl
      · exact .inl (List.mem_cons_of_mem _ he)
    · rename_i h
      rw [if_neg h]
      obtain ⟨h1, h2⟩ := ih hk
      refine ⟨List.mem_cons_of_mem _ h1, fun e he => ?_⟩
      rcases List.mem_cons.1 he with rfl | he
      · exact .inl List.mem_cons_self
      · exact (h2 e he).imp (List.mem_cons_of_mem _) id

theorem insertAllUnique_joined (ps : List (Id × List α)) (k : Id) (vs : List α) :
    Joined eqv ps [(k, vs)] (PropMap.insertAllUnique eqv ps k vs) := by
  unfold PropMap.insertAllUnique
  cases hk : lookupProp k ps with
  | some ws =>
    obtain ⟨a1, a2, a3, a4⟩ := addEach_spec eqv ws vs
    obtain ⟨s1, s2⟩ := setKey_mem (v := PropMap.addEach eqv ws vs) hk
    dsimp only
    constructor
    · intro k' os h
      rcases s2 _ h with h | e
      · exact ⟨os, h, fun _ => id⟩
      · cases e; exact ⟨_, s1, a1⟩
    · intro k' us h v hv
      cases List.mem_singleton.1 h
      obtain ⟨o, ho, he⟩ := a3 v hv
      exact ⟨_, o, s1, ho, he⟩
    · intro k' us h
      cases List.mem_singleton.1 h
      exact ⟨_, s1⟩
    · intro k' os h
      rcases mem_setKey h with h | e
      · exact .inl ⟨os, h⟩
      · cases e; exact .inl ⟨_, lookupProp_mem hk⟩
    · intro k' os h o ho
      rcases mem_setKey h with h | e
      · exact .inl ⟨os, h, ho⟩
      · cases e
        rcases a2 o ho with h | h
        · exact .inl ⟨_, lookupProp_mem hk, h⟩
        · exact .inr ⟨_, List.mem_singleton.2 rfl, h⟩
    · intro hp k' os h
      rcases mem_setKey h with h | e
      · exact hp _ _ h
      · cases e; exact a4 (hp _ _ (lookupProp_mem hk))
  | none =>
    obtain ⟨_, a2, a3, a4⟩ := addEach_spec eqv [] vs
    dsimp only
    constructor
    · intro k' os h
      exact ⟨os, List.mem_append_left _ h, fun _ => id⟩
    · intro k' us h v hv
      cases List.mem_singleton.1 h
      obtain ⟨o, ho, he⟩ := a3 v hv
      exact ⟨_, o, List.mem_append_right _ (List.mem_singleton.2 rfl), ho, he⟩
    · intro k' us h
      cases List.mem_singleton.1 h
      exact ⟨_, List.mem_append_right _ (List.mem_singleton.2 rfl)⟩
    · intro k' os h
      rcases List.mem_append.1 h with h | h
      · exact .inl ⟨os, h⟩
      · cases List.mem_singleton.1 h; exact .inr ⟨_, List.mem_singleton.2 rfl⟩
    · intro k' os h o ho
      rcases List.mem_append.1 h with h | h
      · exact .inl ⟨os, h, ho⟩
      · cases List.mem_singleton.1 h
        rcases a2 o ho with h | h
        · cases h
        · exact .inr ⟨_, List.mem_singleton.2 rfl, h⟩
    · intro hp k' os h
      rcases List.mem_append.1 h with h | h
      · exact hp _ _ h
      · cases List.mem_singleton.1 h
        exact a4 List.Pairwise.nil

theorem extendUnique_joined (ps es : List (Id × List α)) : Joined eqv ps es (PropMap.extendUnique eqv ps es) := by
  unfold PropMap.extendUnique
  induction es generalizing ps with
  | nil =>
    exact ⟨fun k os h => ⟨os, h, fun _ => id⟩, nofun, nofun, fun k os h => .inl ⟨os, h⟩,
      fun k os h o ho => .inl ⟨os, h, ho⟩, fun h => h⟩
  | cons e es ih =>
    obtain ⟨k, vs⟩ := e
    rw [List.foldl_cons]
    have h1 := insertAllUnique_joined eqv ps k vs
    have h2 := ih (PropMap.insertAllUnique eqv ps k vs)
    constructor
    · intro k' os h
      obtain ⟨os', h, hs⟩ := h1.left _ _ h
      obtain ⟨os2, h, hs'⟩ := h2.left _ _ h
      exact ⟨os2, h, fun o ho => hs' o (hs o ho)⟩
    · intro k' us h v hv
      rcases List.mem_cons.1 h with e | h
      · cases e
        obtain ⟨os, o, ha, ho, he⟩ := h1.right _ _ (List.mem_singleton.2 rfl) v hv
        obtain ⟨os2, hb, hs⟩ := h2.left _ _ ha
        exact ⟨os2, o, hb, hs o ho, he⟩
      · exact h2.right _ _ h v hv
    · intro k' us h
      rcases List.mem_cons.1 h with e | h
      · cases e
        obtain ⟨os, ha⟩ := h1.keys _ _ (List.mem_singleton.2 rfl)
        obtain ⟨os2, hb, _⟩ := h2.left _ _ ha
        exact ⟨os2, hb⟩
      · exact h2.keys _ _ h
    · intro k' os h
      rcases h2.sound _ _ h with ⟨os', h⟩ | ⟨us, h⟩
      · rcases h1.sound _ _ h with h | ⟨us, h⟩
        · exact .inl h
        · cases List.mem_singleton.1 h; exact .inr ⟨_, List.mem_cons_self⟩
      · exact .inr ⟨us, List.mem_cons_of_mem _ h⟩
    · intro k' os h o ho
      rcases h2.items _ _ h o ho with ⟨os', h, ho⟩ | ⟨us, h, ho⟩
      · rcases h1.items _ _ h o ho with h | ⟨us, h, ho⟩
        · exact .inl h
        · cases List.mem_singleton.1 h; exact .inr ⟨_, List.mem_cons_self, ho⟩
      · exact .inr ⟨us, List.mem_cons_of_mem _ h, ho⟩
    · intro hp
      exact h2.once (h1.once hp)

end

/-- The node `p` of the merged graph, against the nodes `S` merged so far. -/
structure MergedNode (S : Node → Prop) (x : Id) (p : Node) : Prop where
  id : p.id = some x
  index : ∀ a, p.index = some a → ∃ n, S n ∧ n.id = some x ∧ n.index = some a
  indexed : p.index = none → ∀ n, S n → n.id = some x → n.index = none
  types : ∀ t, t ∈ p.types.getD [] ↔ ∃ n ts, S n ∧ n.id = some x ∧ n.types = some ts ∧ t ∈ ts
  sound : ∀ k os, (k, os) ∈ p.props → ∀ o ∈ os, ∃ n os', S n ∧ n.id = some x ∧ (k, os') ∈ n.props ∧ o ∈ os'
  complete : ∀ n k os, S n → n.id = some x → (k, os) ∈ n.props → Holds Obj.equiv k os p.props
  once : (∀ n k os, S n → (k, os) ∈ n.props → os.Pairwise fun a b => a.equiv b = false) →
    ∀ k os, (k, os) ∈ p.props → os.Pairwise fun a b => a.equiv b = false
  rev_sound : ∀ r, p.rev = some r → ∀ k os, (k, os) ∈ r → ∀ o ∈ os,
    ∃ n r' os', S n ∧ n.id = some x ∧ n.rev = some r' ∧ (k, os') ∈ r' ∧ o ∈ os'
  rev_complete : ∀ n r k os, S n → n.id = some x → n.rev = some r → (k, os) ∈ r →
    ∃ r', p.rev = some r' ∧ Holds Node.equiv k os r'
  graph : ∀ l, p.graph = some l → ∃ n, S n ∧ n.id = some x ∧ n.graph = some l
  included : ∀ l, p.included = some l → ∃ n, S n ∧ n.id = some x ∧ n.included = some l

/-- The merged graph, against the nodes `S` merged so far. -/
structure MergedGraph (S : Node → Prop) (G : NMGraph) : Prop where
  keys : (G.map Prod.fst).Nodup
  ids : ∀ x, x ∈ G.map Prod.fst ↔ ∃ n, S n ∧ n.id = some x
  nodes : ∀ x p, (x, p) ∈ G → MergedNode S x p

/-- A node with its own content is merged. -/
theorem mergedNode_self {S : Node → Prop} {x : Id} {p : Node} (hp : p.id = some x) (hS : S p)
    (hu : ∀ n, S n → n.id = some x → n = p) : MergedNode S x p := by
  constructor
  · exact hp
  · intro a ha; exact ⟨p, hS, hp, ha⟩
  · intro hi n hn hx; rw [hu n hn hx]; exact hi
  · intro t
    constructor
    · intro ht
      cases hty : p.types with
      | none => rw [hty] at ht; cases ht
      | some ts => rw [hty] at ht; exact ⟨p, ts, hS, hp, hty, ht⟩
    · rintro ⟨n, ts, hn, hx, hty, ht⟩
      rw [hu n hn hx] at hty
      rw [hty]; exact ht
  · intro k os h o ho; exact ⟨p, os, hS, hp, h, ho⟩
  · intro n k os hn hx h o ho
    rw [hu n hn hx] at h
    exact ⟨os, o, h, ho, .inl rfl⟩
  · intro h k os hk; exact h p k os hS hk
  · intro r hr k os h o ho; exact ⟨p, r, os, hS, hp, hr, h, ho⟩
  · intro n r k os hn hx hr h
    rw [hu n hn hx] at hr
    exact ⟨r, hr, fun o ho => ⟨os, o, h, ho, .inl rfl⟩⟩
  · intro l hl; exact ⟨p, hS, hp, hl⟩
  · intro l hl; exact ⟨p, hS, hp, hl⟩

theorem MergedNode.congr {S S' : Node → Prop} {x : Id} {p : Node} (h : MergedNode S x p)
    (e : ∀ n, n.id = some x → (S n ↔ S' n)) (hS : ∀ n, S n → S' n) : MergedNode S' x p := by
  constructor
  · exact h.id
  · intro a ha
    obtain ⟨n, h1, h2, h3⟩ := h.index a ha
    exact ⟨n, (e n h2).1 h1, h2, h3⟩
  · intro hi n hn hx; exact h.indexed hi n ((e n hx).2 hn) hx
  · intro t
    rw [h.types t]
    constructor
    · rintro ⟨n, ts, h1, h2, h3⟩; exact ⟨n, ts, (e n h2).1 h1, h2, h3⟩
    · rintro ⟨n, ts, h1, h2, h3⟩; exact ⟨n, ts, (e n h2).2 h1, h2, h3⟩
  · intro k os hk o ho
    obtain ⟨n, os', h1, h2, h3⟩ := h.sound k os hk o ho
    exact ⟨n, os', (e n h2).1 h1, h2, h3⟩
  · intro n k os hn hx hk; exact h.complete n k os ((e n hx).2 hn) hx hk
  · intro hp; exact h.once fun n k os hn hk => hp n k os (hS n hn) hk
  · intro r hr k os hk o ho
    obtain ⟨n, r', os', h1, h2, h3⟩ := h.rev_sound r hr k os hk o ho
    exact ⟨n, r', os', (e n h2).1 h1, h2, h3⟩
  · intro n r k os hn hx hr hk; exact h.rev_complete n r k os ((e n hx).2 hn) hx hr hk
  · intro l hl
    obtain ⟨n, h1, h2, h3⟩ := h.graph l hl
    exact ⟨n, (e n h2).1 h1, h2, h3⟩
  · intro l hl
    obtain ⟨n, h1, h2, h3⟩ := h.included l hl
    exact ⟨n, (e n h2).1 h1, h2, h3⟩

/-- Merging one more node into a node. -/
theorem mergeFrom_merged {S : Node → Prop} {x : Id} {p n : Node} (h : MergedNode S x p) (hn : n.id = some x) :
    MergedNode (fun y => S y ∨ y = n) x ((p.overrideIndex n.index).mergeFrom n) := by
  obtain ⟨i, id, ty, gr, inc, ps, rv⟩ := n
  obtain ⟨pi, pid, pty, pgr, pinc, pps, prv⟩ := p
  have ho : Node.overrideIndex i (.mk pi pid pty pgr pinc pps prv) =
      .mk (i <|> pi) pid pty pgr pinc pps prv := by cases i <;> rfl
  simp only [Node.index, ho]
  have hj := extendUnique_joined Obj.equiv pps ps
  constructor
  · exact h.id
  · intro a ha
    cases i with
    | none =>
      obtain ⟨n, h1, h2⟩ := h.index a ha
      exact ⟨n, .inl h1, h2⟩
    | some b => cases ha; exact ⟨_, .inr rfl, hn, rfl⟩
  · intro hi m hm hx
    cases i with
    | none =>
      rcases hm with hm | rfl
      · exact h.indexed hi m hm hx
      · rfl
    | some b => cases hi
  · intro t
    have ht := h.types t
    simp only [Node.types] at ht
    constructor
    · intro hm
      have : t ∈ pty.getD [] ∨ ∃ ts, ty = some ts ∧ t ∈ ts := by
        cases ty with
        | none => exact .inl hm
        | some ts =>
          simp only [Node.mergeFrom, Node.types, Option.getD_some, List.mem_append] at hm
          exact hm.imp (fun h => h) fun h => ⟨ts, rfl, h⟩
      rcases this with hm' | ⟨ts, rfl, hm'⟩
      · obtain ⟨n, ts, h1, h2⟩ := ht.1 hm'
        exact ⟨n, ts, .inl h1, h2⟩
      · exact ⟨_, ts, .inr rfl, hn, rfl, hm'⟩
    · rintro ⟨m, ts, hm | rfl, hx, hts, hm'⟩
      · have := ht.2 ⟨m, ts, hm, hx, hts, hm'⟩
        cases ty with
        | none => exact this
        | some ts' => exact List.mem_append_left _ this
      · cases hts
        exact List.mem_append_right _ hm'
  · intro k os hk o hko
    rcases hj.items k os hk o hko with ⟨os', hk', ho'⟩ | ⟨vs, hk', ho'⟩
    · obtain ⟨n, os2, h1, h2⟩ := h.sound k os' hk' o ho'
      exact ⟨n, os2, .inl h1, h2⟩
    · exact ⟨_, vs, .inr rfl, hn, hk', ho'⟩
  · rintro m k os (hm | rfl) hx hk
    · intro v hv
      obtain ⟨os', o, ha, ho', he⟩ := h.complete m k os hm hx hk v hv
      obtain ⟨os2, hb, hs⟩ := hj.left _ _ ha
      exact ⟨os2, o, hb, hs o ho', he⟩
    · exact hj.right k os hk
  · intro hp
    exact hj.once (h.once fun m k os hm => hp m k os (.inl hm))
  · intro r hr k os hk o hko
    cases rv with
    | none =>
      obtain ⟨n, r', os', h1, h2⟩ := h.rev_sound r hr k os hk o hko
      exact ⟨n, r', os', .inl h1, h2⟩
    | some rv =>
      cases hr
      rcases (extendUnique_joined Node.equiv (prv.getD []) rv).items k os hk o hko with ⟨os', hk', ho'⟩ | ⟨vs, hk', ho'⟩
      · cases prv with
        | none => cases hk'
        | some prv =>
          obtain ⟨n, r', os2, h1, h2⟩ := h.rev_sound prv rfl k os' hk' o ho'
          exact ⟨n, r', os2, .inl h1, h2⟩
      · exact ⟨_, rv, vs, .inr rfl, hn, rfl, hk', ho'⟩
  · rintro m r k os (hm | rfl) hx hr hk
    · obtain ⟨r', hr', hh⟩ := h.rev_complete m r k os hm hx hr hk
      cases rv with
      | none => exact ⟨r', hr', hh⟩
      | some rv =>
        refine ⟨_, rfl, fun v hv => ?_⟩
        obtain ⟨os', o, ha, ho', he⟩ := hh v hv
        replace hr' : prv = some r' := hr'
        subst hr'
        obtain ⟨os2, hb, hs⟩ := (extendUnique_joined Node.equiv r' rv).left _ _ ha
        exact ⟨os2, o, hb, hs o ho', he⟩
    · cases hr
      exact ⟨_, rfl, (extendUnique_joined Node.equiv (prv.getD []) r).right k os hk⟩
  · intro l hl; exact ⟨_, .inr rfl, hn, hl⟩
  · intro l hl; exact ⟨_, .inr rfl, hn, hl⟩

theorem mergeNode_merged {S : Node → Prop} {G : NMGraph} (h : MergedGraph S G) {n : Node} {x : Id}
    (hn : n.id = some x) : MergedGraph (fun y => S y ∨ y = n) (mergeNode G n) := by
  have other : ∀ y, y ≠ x → ∀ m : Node, m.id = some y → (S m ↔ S m ∨ m = n) := by
    intro y hy m hm
    refine ⟨.inl, fun h => h.resolve_right ?_⟩
    rintro rfl
    rw [hn] at hm; cases hm; exact hy rfl
  unfold mergeNode
  rw [hn]
  dsimp only
  cases hl : lookupProp x G with
  | some e =>
    dsimp only
    have he := lookupProp_mem hl
    have hx : x ∈ G.map Prod.fst := List.mem_map.2 ⟨_, he, rfl⟩
    refine ⟨by rw [setKey_keys]; exact h.keys, ?_, ?_⟩
    · intro y
      rw [setKey_keys, h.ids y]
      constructor
      · rintro ⟨m, h1, h2⟩; exact ⟨m, .inl h1, h2⟩
      · rintro ⟨m, h1 | rfl, h2⟩
        · exact ⟨m, h1, h2⟩
        · rw [hn] at h2; cases h2; exact (h.ids x).1 hx
    · intro y p hp
      have hkeys : ((setKey x ((e.overrideIndex n.index).mergeFrom n) G).map Prod.fst).Nodup := by
        rw [setKey_keys]; exact h.keys
      have hlk := (lookupProp_iff hkeys).2 hp
      rw [lookupProp_setKey] at hlk
      by_cases hy : y = x
      · subst hy
        rw [if_pos rfl] at hlk
        simp only [hl, Option.map_some, Option.some.injEq] at hlk
        subst hlk
        exact mergeFrom_merged (h.nodes _ _ he) hn
      · rw [if_neg hy] at hlk
        exact (h.nodes y p (lookupProp_mem hlk)).congr (other y hy) fun _ => .inl
  | none =>
    dsimp only
    have hx : x ∉ G.map Prod.fst := lookupProp_eq_none.1 hl
    refine ⟨?_, ?_, ?_⟩
    · rw [List.map_append, List.nodup_append]
      refine ⟨h.keys, by simp, ?_⟩
      rintro a ha b hb rfl
      simp at hb
      exact hx (hb ▸ ha)
    · intro y
      rw [List.map_append, List.mem_append, h.ids y]
      constructor
      · rintro (⟨m, h1, h2⟩ | h1)
        · exact ⟨m, .inl h1, h2⟩
        · cases List.mem_singleton.1 h1; exact ⟨n, .inr rfl, hn⟩
      · rintro ⟨m, h1 | rfl, h2⟩
        · exact .inl ⟨m, h1, h2⟩
        · rw [hn] at h2; cases h2; exact .inr (List.mem_singleton.2 rfl)
    · intro y p hp
      rcases List.mem_append.1 hp with hp | hp
      · have hy : y ≠ x := by intro e; exact hx (List.mem_map.2 ⟨_, hp, e⟩)
        exact (h.nodes y p hp).congr (other y hy) fun _ => .inl
      · obtain ⟨hy, hp⟩ : y = x ∧ p = _ := by simpa using hp
        rw [hy, hp]
        have hno : ∀ m, S m → m.id ≠ some x := fun m hm e => hx ((h.ids x).2 ⟨m, hm, e⟩)
        have h0 : MergedNode S x (Node.withId x none) := by
          constructor
          · rfl
          · intro a ha; cases ha
          · intro _ m hm hmx; exact absurd hmx (hno m hm)
          · intro t
            constructor
            · intro h; cases h
            · rintro ⟨m, ts, hm, hmx, _⟩; exact absurd hmx (hno m hm)
          · intro k os hk; cases hk
          · intro m k os hm hmx; exact absurd hmx (hno m hm)
          · intro _ k os hk; cases hk
          · intro r hr; cases hr
          · intro m r k os hm hmx; exact absurd hmx (hno m hm)
          · intro l hl; cases hl
          · intro l hl; cases hl
        have h1 := mergeFrom_merged h0 hn
        have e : (Node.withId x none).overrideIndex n.index = Node.withId x n.index := by
          cases n.index <;> rfl
        rw [e] at h1
        exact h1

theorem mergeWith_merged {S : Node → Prop} {G : NMGraph} (h : MergedGraph S G) {l : List Node}
    (hl : ∀ n ∈ l, ∃ x, n.id = some x) : MergedGraph (fun y => S y ∨ y ∈ l) (mergeWith G l) := by
  unfold mergeWith
  induction l generalizing S G with
  | nil => simpa using h
  | cons n l ih =>
    obtain ⟨x, hx⟩ := hl n List.mem_cons_self
    have := ih (mergeNode_merged h hx) fun m hm => hl m (List.mem_cons_of_mem _ hm)
    rw [List.foldl_cons]
    have e : (fun y => S y ∨ y ∈ n :: l) = fun y => (S y ∨ y = n) ∨ y ∈ l := by
      funext y; simp [or_assoc]
    rw [e]
    exact this

theorem merge_merged {m : NodeMap} (hm : WellKeyed m) (o : Orders) :
    MergedGraph (fun n => ∃ g, InMap m g n) (m.merge o) := by
  have hmem : ∀ g G p, p ∈ nodesInOrder o (g, G) ↔ ∃ i, (i, p) ∈ G := by
    intro g G p
    unfold nodesInOrder
    rw [List.mem_map]
    constructor
    · rintro ⟨⟨i, n⟩, h, rfl⟩
      exact ⟨i, (o.nodes_perm g G).mem_iff.1 h⟩
    · rintro ⟨i, h⟩
      exact ⟨(i, p), (o.nodes_perm g G).mem_iff.2 h, rfl⟩
  have h0 : MergedGraph (fun n => ∃ i, (i, n) ∈ m.default) m.default := by
    refine ⟨hm.keys, fun x => ?_, fun x p hp => ?_⟩
    · constructor
      · intro h
        obtain ⟨⟨y, n⟩, h', rfl⟩ := List.mem_map.1 h
        exact ⟨n, ⟨y, h'⟩, hm.default _ _ h'⟩
      · rintro ⟨n, ⟨i, h⟩, hn⟩
        have := hm.default _ _ h
        rw [hn] at this
        cases this
        exact List.mem_map.2 ⟨_, h, rfl⟩
    · refine mergedNode_self (hm.default _ _ hp) ⟨x, hp⟩ ?_
      rintro n ⟨i, h⟩ hn
      have := hm.default _ _ h
      rw [hn] at this
      cases this
      have h1 := (lookupProp_iff hm.keys).2 h
      rw [(lookupProp_iff hm.keys).2 hp] at h1
      cases h1
      rfl
  have key : ∀ (l : List (Id × NMGraph)) (S : Node → Prop) (G : NMGraph), (∀ H ∈ l, H ∈ m.graphs) →
      MergedGraph S G → MergedGraph (fun n => S n ∨ ∃ H ∈ l, ∃ i, (i, n) ∈ H.2)
        (l.foldl (fun G H => mergeWith G (nodesInOrder o (some H.1, H.2))) G) := by
    intro l
    induction l with
    | nil => intro S G _ h; simpa using h
    | cons H l ih =>
      intro S G hl h
      rw [List.foldl_cons]
      have h1 := mergeWith_merged h (l := nodesInOrder o (some H.1, H.2)) (by
        intro n hn
        obtain ⟨i, hi⟩ := (hmem _ _ _).1 hn
        exact ⟨i, hm.named H.1 H.2 (hl H List.mem_cons_self) i n hi⟩)
      have h2 := ih _ _ (fun H hH => hl H (List.mem_cons_of_mem _ hH)) h1
      have e : (fun n => S n ∨ ∃ H' ∈ H :: l, ∃ i, (i, n) ∈ H'.2) =
          fun n => (S n ∨ n ∈ nodesInOrder o (some H.1, H.2)) ∨ ∃ H' ∈ l, ∃ i, (i, n) ∈ H'.2 := by
        funext n
        rw [hmem]
        simp [or_assoc]
      rw [e]
      exact h2
  have h1 := key (o.graphs m.graphs) _ _ (fun H hH => (o.graphs_perm _).mem_iff.1 hH) h0
  have e : (fun n => ∃ g, InMap m g n) = fun n => (∃ i, (i, n) ∈ m.default) ∨
      ∃ H ∈ o.graphs m.graphs, ∃ i, (i, n) ∈ H.2 := by
    funext n
    apply propext
    constructor
    · rintro ⟨g, h⟩
      cases g with
      | none => exact .inl h
      | some g =>
        obtain ⟨G, hG, h⟩ := h
        exact .inr ⟨(g, G), (o.graphs_perm _).mem_iff.2 hG, h⟩
    · rintro (h | ⟨H, hH, h⟩)
      · exact ⟨none, h⟩
      · exact ⟨some H.1, H.2, (o.graphs_perm _).mem_iff.1 hH, h⟩
  rw [e]
  exact h1

end JsonLd
