import Verif.Proofs.Renamed
import Verif.Props.MapIds
import Verif.Base.DocDec
/-!
# C103: the names of blank nodes do not matter
-/

namespace JsonLd.Props

open Spec

/-- C103: documents that are the same up to the names of blank nodes are relabelled to the same document,
and the same number of names is used. -/
theorem C103_relabel {R : Str → Str → Prop} (hR : OneToOne R) (gen : Nat → Id) (d d' : Doc) (h : DocRen R d d')
    (n : Nat) : (d.relabel gen n).1 = (d'.relabel gen n).1 ∧
      (d.relabel gen n).2.count = (d'.relabel gen n).2.count := by
  obtain ⟨h1, h2⟩ := objsWalk_ren hR gen h (s := ⟨n, []⟩) (s' := ⟨n, []⟩) ⟨rfl, .nil⟩
  simp only [Doc.relabel, Doc.walk]
  exact ⟨by rw [h1], h2.1⟩

/-- C103: they have the same RDF, and the generator is left in the same state. -/
theorem C103_rdf {R : Str → Str → Prop} (hR : OneToOne R) (c : CanonEnv) (gen : Nat → Id) (d d' : Doc)
    (h : DocRen R d d') : d.toRdf c gen = d'.toRdf c gen := by
  obtain ⟨h1, h2⟩ := relabelCanonObjs_ren hR gen c h (s := ⟨0, []⟩) (s' := ⟨0, []⟩) ⟨rfl, .nil⟩
  simp only [Doc.toRdf, Doc.relabelCanon]
  rw [h1, h2.1]

/-- C103: they have the same node map, or fail with the same error. -/
theorem C103_node_map {R : Str → Str → Prop} (hR : OneToOne R) (gen : Nat → Id) (d d' : Doc) (h : DocRen R d d')
    (n : Nat) : d.nodeMap gen n = d'.nodeMap gen n := by
  unfold Doc.nodeMap
  rcases extendObjs_ren hR gen h none (s := ⟨n, []⟩) (s' := ⟨n, []⟩) ⟨rfl, .nil⟩ ⟨[], []⟩ with
    ⟨e, h1, h2⟩ | ⟨a, s, s', m, h1, h2, _⟩
  · rw [h1, h2]
  · rw [h1, h2]; rfl

/-- C103: they are flattened to the same document, with any option. -/
theorem C103_flatten {R : Str → Str → Prop} (hR : OneToOne R) (gen : Nat → Id) (o : Orders) (ordered : Bool)
    (d d' : Doc) (h : DocRen R d d') (n : Nat) :
    d.flatten gen o ordered n = d'.flatten gen o ordered n ∧
    d.flattenUnordered gen o n = d'.flattenUnordered gen o n := by
  unfold Doc.flatten Doc.flattenUnordered
  rw [C103_node_map hR gen d d' h n]
  exact ⟨rfl, rfl⟩

/-- No property or reverse property of the document is a blank node. -/
def NoBlankKeys (d : Doc) : Prop :=
  ∀ n, Inside d (.node n) → (∀ p ∈ n.props, ∀ b, p.1 ≠ .blank b) ∧
    ∀ r, n.rev = some r → ∀ p ∈ r, ∀ b, p.1 ≠ .blank b

/-- What is needed of the nodes of an item. -/
private def NodeOk (P : Str → Prop) (n : Node) : Prop :=
  (∀ b, WritesId n (.blank b) → P b) ∧ (∀ p ∈ n.props, ∀ b, p.1 ≠ .blank b) ∧
    ∀ r, n.rev = some r → ∀ p ∈ r, ∀ b, p.1 ≠ .blank b

private theorem renLabel_key {f : Str → Str} {i : Id} (h : ∀ b, i ≠ .blank b) : i = renLabel f i := by
  cases i with
  | blank b => exact absurd rfl (h b)
  | iri i => rfl
  | invalid i => rfl

section
variable (P : Str → Prop) (f : Str → Str)

private theorem idRen_label (i : Id) (h : ∀ b, i = .blank b → P b) :
    IdRen (fun a b => P a ∧ f a = b) i (renLabel f i) := by
  cases i with
  | blank b => exact .blank _ _ ⟨h b rfl, rfl⟩
  | iri i => exact .iri i
  | invalid i => exact .invalid i

private theorem retype_id (v : Value) : retypeValue id v = v := by
  cases v with
  | literal l t => cases t <;> rfl
  | langString s => rfl
  | json j => rfl

private theorem types_ren (ts : List Id) (h : ∀ i ∈ ts, ∀ b, i = .blank b → P b) :
    List.Forall₂ (IdRen fun a b => P a ∧ f a = b) ts (ts.map (renLabel f)) := by
  induction ts with
  | nil => exact .nil
  | cons t ts ih =>
    exact .cons (idRen_label P f t (h t List.mem_cons_self)) (ih fun i hi => h i (List.mem_cons_of_mem _ hi))

mutual
private theorem objRen_replace : ∀ (o : Obj), (∀ n, Relation.ReflTransGen PartL (.node n) (.obj o) → NodeOk P n) →
    ObjRen (fun a b => P a ∧ f a = b) o (replaceObj (renLabel f) id o)
  | .value i v, _ => by
    simp only [replaceObj, ObjRen, retype_id, and_self]
  | .list i l, h => by
    simp only [replaceObj, ObjRen, true_and]
    exact objsRen_replace l fun o ho n hn => h n (hn.tail (.item ho))
  | .node n, h => by
    simp only [replaceObj, ObjRen]
    exact nodeRen_replace n fun m hm => h m (hm.tail (.part (.self n)))
private theorem nodeRen_replace : ∀ (o : Node), (∀ n, Relation.ReflTransGen PartL (.node n) (.node o) → NodeOk P n) →
    NodeRen (fun a b => P a ∧ f a = b) o (replaceNode (renLabel f) id o)
  | .mk i id ty gr inc ps rv, h => by
    obtain ⟨h1, h2, h3⟩ := h _ .refl
    simp only [replaceNode, NodeRen, true_and]
    refine ⟨?_, ?_, ?_, ?_, ?_, ?_⟩
    · cases id with
      | none => exact .none
      | some i => exact .some _ _ (idRen_label P f i fun b hb => h1 b (.inl (by rw [← hb]; rfl)))
    · cases ty with
      | none => exact .none
      | some ts =>
        exact .some _ _ (types_ren P f ts fun i hi b hb => h1 b (.inr (.inl ⟨ts, rfl, hb ▸ hi⟩)))
    · exact graphRen_replace gr fun l hl o ho n hn => h n (hn.tail (.part (.graph hl ho)))
    · exact incRen_replace inc fun l hl o ho n hn => h n (hn.tail (.part (.included hl ho)))
    · exact propsRen_replace ps h2 fun p hp o ho n hn =>
        h n (hn.tail (.part (.property (k := p.1) (l := p.2) hp ho)))
    · exact revRen_replace rv h3 fun r hr p hp o ho n hn =>
        h n (hn.tail (.part (.reverse (k := p.1) (l := p.2) hr hp ho)))
private theorem graphRen_replace : ∀ (g : Option (List Obj)), (∀ l, g = some l → ∀ o ∈ l, ∀ n,
    Relation.ReflTransGen PartL (.node n) (.obj o) → NodeOk P n) →
    GraphRen (fun a b => P a ∧ f a = b) g (replaceG (renLabel f) id g)
  | none, _ => by simp only [replaceG, GraphRen]
  | some l, h => by
    simp only [replaceG, GraphRen]
    exact objsRen_replace l (h l rfl)
private theorem incRen_replace : ∀ (g : Option (List Node)), (∀ l, g = some l → ∀ o ∈ l, ∀ n,
    Relation.ReflTransGen PartL (.node n) (.node o) → NodeOk P n) →
    IncRen (fun a b => P a ∧ f a = b) g (replaceInc (renLabel f) id g)
  | none, _ => by simp only [replaceInc, IncRen]
  | some l, h => by
    simp only [replaceInc, IncRen]
    exact nodesRen_replace l (h l rfl)
private theorem revRen_replace : ∀ (g : Option (List (Id × List Node))),
    (∀ r, g = some r → ∀ p ∈ r, ∀ b, p.1 ≠ .blank b) → (∀ r, g = some r → ∀ p ∈ r, ∀ o ∈ p.2, ∀ n,
    Relation.ReflTransGen PartL (.node n) (.node o) → NodeOk P n) →
    RevRen (fun a b => P a ∧ f a = b) g (replaceRv (renLabel f) id g)
  | none, _, _ => by simp only [replaceRv, RevRen]
  | some l, hk, h => by
    simp only [replaceRv, RevRen]
    exact rpsRen_replace l (hk l rfl) (h l rfl)
private theorem objsRen_replace : ∀ (l : List Obj), (∀ o ∈ l, ∀ n,
    Relation.ReflTransGen PartL (.node n) (.obj o) → NodeOk P n) →
    ObjsRen (fun a b => P a ∧ f a = b) l (replaceObjs (renLabel f) id l)
  | [], _ => by simp only [replaceObjs, ObjsRen]
  | o :: os, h => by
    simp only [replaceObjs, ObjsRen]
    exact ⟨objRen_replace o (h o List.mem_cons_self),
      objsRen_replace os fun o ho => h o (List.mem_cons_of_mem _ ho)⟩
private theorem nodesRen_replace : ∀ (l : List Node), (∀ o ∈ l, ∀ n,
    Relation.ReflTransGen PartL (.node n) (.node o) → NodeOk P n) →
    NodesRen (fun a b => P a ∧ f a = b) l (replaceNodes (renLabel f) id l)
  | [], _ => by simp only [replaceNodes, NodesRen]
  | o :: os, h => by
    simp only [replaceNodes, NodesRen]
    exact ⟨nodeRen_replace o (h o List.mem_cons_self),
      nodesRen_replace os fun o ho => h o (List.mem_cons_of_mem _ ho)⟩
private theorem propsRen_replace : ∀ (l : List (Id × List Obj)), (∀ p ∈ l, ∀ b, p.1 ≠ .blank b) →
    (∀ p ∈ l, ∀ o ∈ p.2, ∀ n, Relation.ReflTransGen PartL (.node n) (.obj o) → NodeOk P n) →
    PropsRen (fun a b => P a ∧ f a = b) l (replacePs (renLabel f) id l)
  | [], _, _ => by simp only [replacePs, PropsRen]
  | (k, v) :: ps, hk, h => by
    simp only [replacePs, PropsRen]
    exact ⟨renLabel_key (hk (k, v) List.mem_cons_self), objsRen_replace v (h (k, v) List.mem_cons_self),
      propsRen_replace ps (fun p hp => hk p (List.mem_cons_of_mem _ hp))
        fun p hp => h p (List.mem_cons_of_mem _ hp)⟩
private theorem rpsRen_replace : ∀ (l : List (Id × List Node)), (∀ p ∈ l, ∀ b, p.1 ≠ .blank b) →
    (∀ p ∈ l, ∀ o ∈ p.2, ∀ n, Relation.ReflTransGen PartL (.node n) (.node o) → NodeOk P n) →
    RpsRen (fun a b => P a ∧ f a = b) l (replaceRps (renLabel f) id l)
  | [], _, _ => by simp only [replaceRps, RpsRen]
  | (k, v) :: ps, hk, h => by
    simp only [replaceRps, RpsRen]
    exact ⟨renLabel_key (hk (k, v) List.mem_cons_self), nodesRen_replace v (h (k, v) List.mem_cons_self),
      rpsRen_replace ps (fun p hp => hk p (List.mem_cons_of_mem _ hp))
        fun p hp => h p (List.mem_cons_of_mem _ hp)⟩
end
end

/-- C103: renaming the blank nodes of a document with `map_ids` gives a document that is the same up to the
names of blank nodes, unless two of them get the same name or blank nodes are properties. -/
theorem C103_map_ids (f : Str → Str) (d : Doc) (hd : d.WF) (hk : NoBlankKeys d)
    (hf : ∀ a b, IdIn d (.blank a) → IdIn d (.blank b) → f a = f b → a = b) :
    ∃ R, OneToOne R ∧ DocRen R d (d.mapIds (renLabel f) id) := by
  refine ⟨fun a b => IdIn d (.blank a) ∧ f a = b, ⟨?_, ?_⟩, ?_⟩
  · rintro a b c ⟨_, rfl⟩ ⟨_, rfl⟩; rfl
  · rintro a b c ⟨h1, h2⟩ ⟨h3, h4⟩; exact hf a b h1 h3 (h2.trans h4.symm)
  · have hi : ∀ i j, IdIn d i → IdIn d j → renLabel f i = renLabel f j → i = j := by
      intro i j h1 h2 h
      cases i <;> cases j <;> simp only [renLabel, Id.blank.injEq, reduceCtorEq] at h ⊢ <;>
        first | exact h | exact hf _ _ h1 h2 h
    rw [C81_exact (renLabel f) id d hd hi fun _ _ _ _ h => h]
    refine objsRen_replace _ f d fun o ho n hn => ?_
    exact ⟨fun b hb => ⟨n, ⟨o, ho, hn⟩, hb⟩, hk n ⟨o, ho, hn⟩⟩

/-- A document with two blank nodes, one of them in a list and used as a type. -/
def exNames (a b : String) : Doc :=
  [.node (.mk none (some (.blank a.toList)) (some [.blank b.toList]) none none
    [(.iri "http:p".toList, [.list none [.node (.mk none (some (.blank b.toList)) none none none [] none)],
      .node (.mk none none none none none [(.iri "http:q".toList,
        [.node (.mk none (some (.blank a.toList)) none none none [] none)])] none)])] none)]

/-- The hypotheses of C103 are met by exchanging the names of two blank nodes. -/
theorem C103_example : OneToOne (fun a b => (a, b) = ("x".toList, "y".toList) ∨ (a, b) = ("y".toList, "x".toList)) ∧
    DocRen (fun a b => (a, b) = ("x".toList, "y".toList) ∨ (a, b) = ("y".toList, "x".toList))
      (exNames "x" "y") (exNames "y" "x") := by
  have hxy : "x".toList ≠ "y".toList := of_decide_eq_true rfl
  refine ⟨⟨?_, ?_⟩, ?_⟩
  · intro a b c h1 h2
    rcases h1 with h1 | h1 <;> rcases h2 with h2 | h2 <;> cases h1 <;> cases h2 <;> rfl
  · intro a b c h1 h2
    rcases h1 with h1 | h1 <;> rcases h2 with h2 | h2 <;> cases h1 <;> cases h2 <;> rfl
  · unfold DocRen exNames
    simp only [ObjsRen, ObjRen, NodeRen, GraphRen, IncRen, PropsRen, RevRen, and_true, true_and]
    refine ⟨.some _ _ (.blank _ _ (.inl rfl)), .some _ _ (.cons (.blank _ _ (.inr rfl)) .nil),
      ⟨.some _ _ (.blank _ _ (.inr rfl)), .none⟩, .none, .none, .some _ _ (.blank _ _ (.inl rfl)), .none⟩

/-- A typed blank node with a property. -/
def exLabelled : Node :=
  .mk none (some (.blank "x".toList)) (some [.blank "y".toList]) none none
    [(.iri "http:p".toList, [.value none (.literal (.bool true) none)])] none

/-- The hypotheses of `C103_map_ids` are met. -/
example : Doc.WF [.node exLabelled] ∧ NoBlankKeys [.node exLabelled] ∧ IdIn [.node exLabelled] (.blank "x".toList) := by
  refine ⟨⟨List.pairwise_singleton _ _, ?_⟩, ?_, exLabelled, ⟨_, List.mem_singleton_self _, .single (.part (.self _))⟩,
    .inl rfl⟩
  · exact ⟨⟨trivial, trivial, by simp, ⟨⟨trivial, trivial⟩, trivial⟩, trivial⟩, trivial⟩
  · rintro n ⟨o, ho, h⟩
    obtain rfl := List.mem_singleton.1 ho
    rcases Relation.ReflTransGen.cases_tail h with h | ⟨b, h, hb⟩
    · cases h
    · cases hb with
      | part hb =>
        cases hb
        rcases Relation.ReflTransGen.cases_tail h with h | ⟨c, h, hc⟩
        · cases h
          refine ⟨fun p hp b => ?_, nofun⟩
          obtain rfl := List.mem_singleton.1 hp
          nofun
        · cases hc with
          | part hc =>
            cases hc with
            | graph h _ => cases h
            | included h _ => cases h
            | reverse h _ _ => cases h
            | property hp ho =>
              cases List.mem_singleton.1 hp
              obtain rfl := List.mem_singleton.1 ho
              rcases Relation.ReflTransGen.cases_tail h with h | ⟨e, _, he⟩
              · cases h
              · cases he with
                | part he => cases he

/-- The identifiers of the example. -/
def exNewId (n : Nat) : Id := .blank ('b' :: List.replicate n '0')

/-- If two blank nodes get the same name, the result is another one. -/
theorem C103_merged : ((exNames "x" "y").relabel exNewId 0).1 ≠ ((exNames "x" "x").relabel exNewId 0).1 := by
  decide +kernel

end JsonLd.Props
