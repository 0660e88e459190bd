import Verif.Proofs.FlattenInv
import Verif.Proofs.FlattenWalk
import Verif.Props.Relabel
/-!
# The updates made for a document, in terms of what the document contains
-/

namespace JsonLd
open Spec

/-- The graph exists. -/
def GOk (P : List Ev) (g : Option Id) : Prop := g = none ∨ ∃ i, g = some i ∧ Ev.decl i ∈ P

theorem GOk.mono {P Q : List Ev} {g : Option Id} (h : GOk P g) (hs : ∀ e ∈ P, e ∈ Q) : GOk Q g := by
  rcases h with h | ⟨i, h, hd⟩
  · exact Or.inl h
  · exact Or.inr ⟨i, h, hs _ hd⟩

theorem nEvs_head (g : Option Id) (n : Node) : Ev.declare g (rid n.id) n.index ∈ nEvs g n := by
  obtain ⟨i, id, ty, gr, inc, ps, rv⟩ := n
  simp [nEvs, Node.id, Node.index]

theorem osEvs_scoped {l : List Obj} (h : ∀ o ∈ l, ∀ P g, GOk P g → Scoped P (oEvs g o))
    (P : List Ev) (g : Option Id) (hg : GOk P g) : Scoped P (osEvs g l) := by
  induction l generalizing P with
  | nil => trivial
  | cons o os ih =>
    simp only [osEvs, scoped_append]
    exact ⟨h o List.mem_cons_self P g hg, ih (fun o ho => h o (List.mem_cons_of_mem _ ho)) _
      (hg.mono fun _ h => List.mem_append_left _ h)⟩

theorem nsEvs_scoped {l : List Node} (h : ∀ o ∈ l, ∀ P g, GOk P g → Scoped P (nEvs g o))
    (P : List Ev) (g : Option Id) (hg : GOk P g) : Scoped P (nsEvs g l) := by
  induction l generalizing P with
  | nil => trivial
  | cons o os ih =>
    simp only [nsEvs, scoped_append]
    exact ⟨h o List.mem_cons_self P g hg, ih (fun o ho => h o (List.mem_cons_of_mem _ ho)) _
      (hg.mono fun _ h => List.mem_append_left _ h)⟩

theorem subEvs_scoped {l : List Node} (h : ∀ o ∈ l, ∀ P g, GOk P g → Scoped P (nEvs g o))
    (id k : Id) (P : List Ev) (g : Option Id) (hg : GOk P g) : Scoped P (subEvs g id k l) := by
  induction l generalizing P with
  | nil => trivial
  | cons o os ih =>
    simp only [subEvs, scoped_append, Scoped]
    refine ⟨h o List.mem_cons_self P g hg, ⟨o.index, ?_⟩,
      ih (fun o ho => h o (List.mem_cons_of_mem _ ho)) _ (hg.mono fun _ h => ?_)⟩
    · exact List.mem_append_right _ (nEvs_head g o)
    · exact List.mem_append_left _ (List.mem_append_left _ h)

theorem rpsEvs_scoped {l : List (Id × List Node)}
    (h : ∀ p ∈ l, ∀ o ∈ p.2, ∀ P g, GOk P g → Scoped P (nEvs g o))
    (id : Id) (P : List Ev) (g : Option Id) (hg : GOk P g) : Scoped P (rpsEvs g id l) := by
  induction l generalizing P with
  | nil => trivial
  | cons p ps ih =>
    obtain ⟨k, ns⟩ := p
    simp only [rpsEvs, scoped_append]
    exact ⟨subEvs_scoped (h _ List.mem_cons_self) id k P g hg,
      ih (fun p hp => h p (List.mem_cons_of_mem _ hp)) _ (hg.mono fun _ h => List.mem_append_left _ h)⟩

theorem psEvs_scoped {l : List (Id × List Obj)}
    (h : ∀ p ∈ l, ∀ o ∈ p.2, ∀ P g, GOk P g → Scoped P (oEvs g o))
    (id : Id) (P : List Ev) (g : Option Id) (hg : GOk P g) (hd : ∃ i, Ev.declare g id i ∈ P) :
    Scoped P (psEvs g id l) := by
  induction l generalizing P with
  | nil => trivial
  | cons p ps ih =>
    obtain ⟨k, os⟩ := p
    obtain ⟨i, hd⟩ := hd
    simp only [psEvs, scoped_append, Scoped]
    refine ⟨osEvs_scoped (h _ List.mem_cons_self) P g hg, ⟨i, List.mem_append_left _ hd⟩,
      ih (fun p hp => h p (List.mem_cons_of_mem _ hp)) _ (hg.mono fun _ h => ?_) ⟨i, ?_⟩⟩
    · exact List.mem_append_left _ (List.mem_append_left _ h)
    · exact List.mem_append_left _ (List.mem_append_left _ hd)

theorem evs_scoped : (∀ (o : Obj) (P : List Ev) (g : Option Id), GOk P g → Scoped P (oEvs g o)) ∧
    (∀ (n : Node) (P : List Ev) (g : Option Id), GOk P g → Scoped P (nEvs g n)) := by
  apply Doc.ind
  · intro i v P g _; trivial
  · intro i l ih P g hg; exact osEvs_scoped ih P g hg
  · intro n ih P g hg; exact ih P g hg
  · intro i id ty gr inc ps rv hgr hinc hps hrv P g hg
    have hsub : ∀ e ∈ P, e ∈ P ++ [Ev.declare g (rid id) i] := fun e h => List.mem_append_left _ h
    have hg' : GOk (P ++ [Ev.declare g (rid id) i]) g := hg.mono hsub
    have hd : Ev.declare g (rid id) i ∈ P ++ [Ev.declare g (rid id) i] := by simp
    generalize hQ : P ++ [Ev.declare g (rid id) i] = Q at *
    simp only [nEvs, Scoped, hQ, scoped_append]
    refine ⟨hg, ?_, ?_, ?_, ?_, ?_⟩
    · cases ty with
      | none => trivial
      | some ts => exact ⟨⟨i, hd⟩, trivial⟩
    · cases gr with
      | none => trivial
      | some l =>
        simp only [grEvs, Scoped, scoped_append]
        refine ⟨trivial, osEvs_scoped (hgr l rfl) _ _ (Or.inr ⟨rid id, rfl, by simp⟩), ⟨⟨i, ?_⟩, ?_⟩,
          trivial⟩
        · simp [hd]
        · simp
    · cases inc with
      | none => trivial
      | some l =>
        exact nsEvs_scoped (hinc l rfl) _ _ (hg'.mono fun e h => by simp [h])
    · exact psEvs_scoped hps _ _ _ (hg'.mono fun e h => by simp [h]) ⟨i, by simp [hd]⟩
    · cases rv with
      | none => trivial
      | some l => exact rpsEvs_scoped (hrv l rfl) _ _ _ (hg'.mono fun e h => by simp [h])

/-! ## From updates to the document -/

/-- Where an update comes from. -/
def EvSpec (d : Doc) : Ev → Prop
  | .declare g x i => ∃ n, Occurs d g (.node n) ∧ n.id = some x ∧ n.index = i
  | .types g x ts => ∃ n, Occurs d g (.node n) ∧ n.id = some x ∧ n.types = some ts
  | .decl x => ∃ g n l, Occurs d g (.node n) ∧ n.id = some x ∧ n.graph = some l
  | .gadd g x os => ∃ n l, Occurs d g (.node n) ∧ n.id = some x ∧ n.graph = some l ∧ os = references l
  | .props g x k vs =>
    (∃ n l, Occurs d g (.node n) ∧ n.id = some x ∧ (k, l) ∈ n.props ∧ vs = references l) ∨
    ∃ n m r l, Occurs d g (.node n) ∧ n.rev = some r ∧ (k, l) ∈ r ∧ m ∈ l ∧ m.id = some x ∧
      vs = [bareNode n.id]

/-- Every node has an identifier. -/
def AllNamed (d : Doc) : Prop := ∀ g n, Occurs d g (.node n) → n.id.isSome = true

theorem osEvs_mem {g : Option Id} {l : List Obj} {e : Ev} : e ∈ osEvs g l ↔ ∃ o ∈ l, e ∈ oEvs g o := by
  induction l with
  | nil => simp [osEvs]
  | cons o os ih => simp [osEvs, ih]

theorem nsEvs_mem {g : Option Id} {l : List Node} {e : Ev} :
    e ∈ nsEvs g l ↔ ∃ o ∈ l, e ∈ nEvs g o := by
  induction l with
  | nil => simp [nsEvs]
  | cons o os ih => simp [nsEvs, ih]

theorem psEvs_mem {g : Option Id} {id : Id} {l : List (Id × List Obj)} {e : Ev} :
    e ∈ psEvs g id l ↔ ∃ p ∈ l, e ∈ osEvs g p.2 ∨ e = .props g id p.1 (references p.2) := by
  induction l with
  | nil => simp [psEvs]
  | cons o os ih => obtain ⟨k, l⟩ := o; simp [psEvs, ih, or_assoc]

theorem subEvs_mem {g : Option Id} {id k : Id} {l : List Node} {e : Ev} :
    e ∈ subEvs g id k l ↔
      ∃ n ∈ l, e ∈ nEvs g n ∨ e = .props g (rid n.id) k [bareNode (some id)] := by
  induction l with
  | nil => simp [subEvs]
  | cons o os ih => simp [subEvs, ih, or_assoc]

theorem rpsEvs_mem {g : Option Id} {id : Id} {l : List (Id × List Node)} {e : Ev} :
    e ∈ rpsEvs g id l ↔ ∃ p ∈ l, e ∈ subEvs g id p.1 p.2 := by
  induction l with
  | nil => simp [rpsEvs]
  | cons o os ih => obtain ⟨k, l⟩ := o; simp [rpsEvs, ih]

theorem evs_sound {d : Doc} (hd : AllNamed d) :
    (∀ (o : Obj) (g : Option Id), Occurs d g (.obj o) → ∀ e ∈ oEvs g o, EvSpec d e) ∧
    (∀ (n : Node) (g : Option Id), Occurs d g (.node n) → ∀ e ∈ nEvs g n, EvSpec d e) := by
  apply Doc.ind
  · intro i v g _ e he; cases he
  · intro i l ih g ho e he
    obtain ⟨o, hol, he⟩ := osEvs_mem.1 he
    exact ih o hol g (ho.item hol) e he
  · intro n ih g ho e he; exact ih g ho.self e he
  · intro i id ty gr inc ps rv hgr hinc hps hrv g ho e he
    obtain ⟨x, rfl⟩ : ∃ x, id = some x := Option.isSome_iff_exists.1 (hd _ _ ho)
    simp only [nEvs, rid, Option.getD_some, List.mem_cons, List.mem_append] at he
    rcases he with rfl | he | he | he | he | he
    · exact ⟨_, ho, rfl, rfl⟩
    · cases ty with
      | none => cases he
      | some ts => rw [List.mem_singleton.1 he]; exact ⟨_, ho, rfl, rfl⟩
    · cases gr with
      | none => cases he
      | some l =>
        simp only [grEvs, List.mem_cons, List.mem_append, List.not_mem_nil, or_false] at he
        rcases he with rfl | he | rfl
        · exact ⟨_, _, l, ho, rfl, rfl⟩
        · obtain ⟨o, hol, he⟩ := osEvs_mem.1 he
          exact hgr l rfl o hol _ (ho.graph rfl rfl hol) e he
        · exact ⟨_, l, ho, rfl, rfl, rfl⟩
    · cases inc with
      | none => cases he
      | some l =>
        obtain ⟨o, hol, he⟩ := nsEvs_mem.1 he
        exact hinc l rfl o hol _ (ho.included rfl hol) e he
    · obtain ⟨p, hp, he | rfl⟩ := psEvs_mem.1 he
      · obtain ⟨o, hol, he⟩ := osEvs_mem.1 he
        exact hps p hp o hol _ (ho.property (k := p.1) (l := p.2) hp hol) e he
      · exact Or.inl ⟨_, p.2, ho, rfl, hp, rfl⟩
    · cases rv with
      | none => cases he
      | some r =>
        obtain ⟨p, hp, he⟩ := rpsEvs_mem.1 he
        obtain ⟨n, hn, he | rfl⟩ := subEvs_mem.1 he
        · exact hrv r rfl p hp n hn _ (ho.reverse (k := p.1) (l := p.2) rfl hp hn) e he
        · have hno := ho.reverse (k := p.1) (l := p.2) rfl hp hn
          obtain ⟨y, hy⟩ := Option.isSome_iff_exists.1 (hd _ _ hno)
          exact Or.inr ⟨_, n, r, p.2, ho, rfl, hp, hn, by rw [hy]; rfl, rfl⟩

theorem doc_evs_sound {d : Doc} (hd : AllNamed d) : ∀ e ∈ osEvs none d, EvSpec d e := by
  intro e he
  obtain ⟨o, ho, he⟩ := osEvs_mem.1 he
  exact (evs_sound hd).1 o none (.top ho) e he

/-! ## From the document to updates -/

theorem occurs_evs {d : Doc} {g : Option Id} {x : Item} (h : Occurs d g x) :
    match x with
    | .obj o => ∀ e ∈ oEvs g o, e ∈ osEvs none d
    | .node n => ∀ e ∈ nEvs g n, e ∈ osEvs none d := by
  induction h with
  | top ho => intro e he; exact osEvs_mem.2 ⟨_, ho, he⟩
  | item _ hol ih => intro e he; exact ih e (osEvs_mem.2 ⟨_, hol, he⟩)
  | self _ ih => exact ih
  | graph _ hid hgr hol ih =>
    rename_i g n i l o hn
    obtain ⟨ni, nid, ty, gr, inc, ps, rv⟩ := n
    simp only [Node.id, Node.graph] at hid hgr
    subst hid; subst hgr
    intro e he
    apply ih
    have := osEvs_mem.2 ⟨_, hol, he⟩
    simp [nEvs, grEvs, rid, this]
  | included _ hinc hol ih =>
    rename_i g n l o hn
    obtain ⟨ni, nid, ty, gr, inc, ps, rv⟩ := n
    simp only [Node.included] at hinc
    subst hinc
    intro e he
    apply ih
    have := nsEvs_mem.2 ⟨_, hol, he⟩
    simp [nEvs, incEvs, this]
  | property _ hp hol ih =>
    rename_i g n k l o hn
    obtain ⟨ni, nid, ty, gr, inc, ps, rv⟩ := n
    simp only [Node.props] at hp
    intro e he
    apply ih
    have : e ∈ psEvs g (rid nid) ps := psEvs_mem.2 ⟨_, hp, Or.inl (osEvs_mem.2 ⟨_, hol, he⟩)⟩
    simp [nEvs, this]
  | reverse _ hr hp hol ih =>
    rename_i g n r k l o hn
    obtain ⟨ni, nid, ty, gr, inc, ps, rv⟩ := n
    simp only [Node.rev] at hr
    subst hr
    intro e he
    apply ih
    have : e ∈ rpsEvs g (rid nid) r := rpsEvs_mem.2 ⟨_, hp, subEvs_mem.2 ⟨_, hol, Or.inl he⟩⟩
    simp [nEvs, rvEvs, this]

section
variable {d : Doc} {g : Option Id} {n : Node} {x : Id}

theorem ev_declare (h : Occurs d g (.node n)) (hx : n.id = some x) :
    Ev.declare g x n.index ∈ osEvs none d := by
  have := occurs_evs h _ (nEvs_head g n)
  rwa [hx] at this

theorem ev_types (h : Occurs d g (.node n)) (hx : n.id = some x) {ts : List Id}
    (ht : n.types = some ts) : Ev.types g x ts ∈ osEvs none d := by
  apply occurs_evs h
  obtain ⟨i, id, ty, gr, inc, ps, rv⟩ := n
  simp only [Node.id, Node.types] at hx ht
  subst hx; subst ht
  simp [nEvs, tyEvs, rid]

theorem ev_decl (h : Occurs d g (.node n)) (hx : n.id = some x) {l : List Obj}
    (ht : n.graph = some l) : Ev.decl x ∈ osEvs none d := by
  apply occurs_evs h
  obtain ⟨i, id, ty, gr, inc, ps, rv⟩ := n
  simp only [Node.id, Node.graph] at hx ht
  subst hx; subst ht
  simp [nEvs, grEvs, rid]

theorem ev_props (h : Occurs d g (.node n)) (hx : n.id = some x) {k : Id} {l : List Obj}
    (hp : (k, l) ∈ n.props) : Ev.props g x k (references l) ∈ osEvs none d := by
  apply occurs_evs h
  obtain ⟨i, id, ty, gr, inc, ps, rv⟩ := n
  simp only [Node.id, Node.props] at hx hp
  subst hx
  have : Ev.props g x k (references l) ∈ psEvs g x ps := psEvs_mem.2 ⟨_, hp, Or.inr rfl⟩
  simp [nEvs, rid, this]

theorem ev_reverse (h : Occurs d g (.node n)) (hn : n.id.isSome = true)
    {r : List (Id × List Node)} (hr : n.rev = some r) {k : Id}
    {l : List Node} (hp : (k, l) ∈ r) {m : Node} (hm : m ∈ l) (hx : m.id = some x) :
    Ev.props g x k [bareNode n.id] ∈ osEvs none d := by
  apply occurs_evs h
  obtain ⟨i, id, ty, gr, inc, ps, rv⟩ := n
  obtain ⟨y, hy⟩ := Option.isSome_iff_exists.1 hn
  simp only [Node.id, Node.rev] at hy hr
  subst hy; subst hr
  have : Ev.props g x k [bareNode (some y)] ∈ rpsEvs g y r :=
    rpsEvs_mem.2 ⟨_, hp, subEvs_mem.2 ⟨m, hm, Or.inr (by rw [hx]; rfl)⟩⟩
  simp [nEvs, rvEvs, rid, this, Node.id]

end

/-! ## Names -/

theorem occurs_headers {d : Doc} {g : Option Id} {x : Item} (h : Occurs d g x) :
    match x with
    | .obj o => ∀ e ∈ objHeaders o, e ∈ docHeaders d
    | .node n => ∀ e ∈ nodeHeaders n, e ∈ docHeaders d := by
  induction h with
  | top ho => intro e he; exact mem_objsHeaders ho he
  | item _ hol ih => intro e he; exact ih e (mem_objsHeaders hol he)
  | self _ ih => exact ih
  | graph _ hid hgr hol ih =>
    rename_i g n i l o hn
    obtain ⟨ni, nid, ty, gr, inc, ps, rv⟩ := n
    simp only [Node.graph] at hgr
    subst hgr
    intro e he
    apply ih
    have := mem_objsHeaders hol he
    simp [nodeHeaders, gHeaders, this]
  | included _ hinc hol ih =>
    rename_i g n l o hn
    obtain ⟨ni, nid, ty, gr, inc, ps, rv⟩ := n
    simp only [Node.included] at hinc
    subst hinc
    intro e he
    apply ih
    have := mem_nodesHeaders hol he
    simp [nodeHeaders, incHeaders, this]
  | property _ hp hol ih =>
    rename_i g n k l o hn
    obtain ⟨ni, nid, ty, gr, inc, ps, rv⟩ := n
    simp only [Node.props] at hp
    intro e he
    apply ih
    have : e ∈ psHeaders ps := mem_psHeaders hp hol he
    simp [nodeHeaders, this]
  | reverse _ hr hp hol ih =>
    rename_i g n r k l o hn
    obtain ⟨ni, nid, ty, gr, inc, ps, rv⟩ := n
    simp only [Node.rev] at hr
    subst hr
    intro e he
    apply ih
    have : e ∈ rpsHeaders r := mem_rpsHeaders hp hol he
    simp [nodeHeaders, rvHeaders, this]

theorem relabel_allNamed (gen : Nat → Id) (hinj : ∀ i j, gen i = gen j → i = j) (d : Doc)
    (hd : d.WF)
    (hfresh : ∀ h ∈ docHeaders d, ∀ i ∈ headerIds h, (∀ b, i ≠ .blank b) → ∀ k, gen k ≠ i)
    (n : Nat) : AllNamed (d.relabel gen n).1 := by
  obtain ⟨ρ, h, _⟩ := Props.C14_relabel_partial gen hinj d hd hfresh n
  intro g m hm
  have hmem : (m.id, m.types) ∈ docHeaders (d.relabel gen n).1 := by
    apply occurs_headers hm
    obtain ⟨i, id, ty, gr, inc, ps, rv⟩ := m
    simp [nodeHeaders, Node.id, Node.types]
  obtain ⟨h0, _, h1⟩ := forall₂_exists_right h.flip hmem
  exact h1.2.1

end JsonLd
