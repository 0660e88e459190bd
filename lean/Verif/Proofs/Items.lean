import Verif.Spec.Inside
/-!
# The items of a document, as a list

For examples: what is inside a concrete document can be listed.
-/

namespace JsonLd
open JsonLd.Spec

mutual
/-- The items inside an object, itself included. -/
def Obj.items : Obj → List Item
  | .value i v => [.obj (.value i v)]
  | .list i l => .obj (.list i l) :: itemsOfObjs l
  | .node n => .obj (.node n) :: n.items
/-- The items inside a node, itself included. -/
def Node.items : Node → List Item
  | .mk i id ty g inc ps rv => .node (.mk i id ty g inc ps rv) ::
      (itemsOfGraph g ++ itemsOfIncluded inc ++ itemsOfProps ps ++ itemsOfRev rv)
/-- See `Node.items`. -/
def itemsOfGraph : Option (List Obj) → List Item
  | none => []
  | some l => itemsOfObjs l
/-- See `Node.items`. -/
def itemsOfIncluded : Option (List Node) → List Item
  | none => []
  | some l => itemsOfNodes l
/-- See `Node.items`. -/
def itemsOfRev : Option (List (Id × List Node)) → List Item
  | none => []
  | some l => itemsOfRps l
/-- See `Node.items`. -/
def itemsOfObjs : List Obj → List Item
  | [] => []
  | o :: l => o.items ++ itemsOfObjs l
/-- See `Node.items`. -/
def itemsOfNodes : List Node → List Item
  | [] => []
  | n :: l => n.items ++ itemsOfNodes l
/-- See `Node.items`. -/
def itemsOfProps : List (Id × List Obj) → List Item
  | [] => []
  | (_, l) :: ps => itemsOfObjs l ++ itemsOfProps ps
/-- See `Node.items`. -/
def itemsOfRps : List (Id × List Node) → List Item
  | [] => []
  | (_, l) :: ps => itemsOfNodes l ++ itemsOfRps ps
end

theorem mem_itemsOfObjs {l : List Obj} {o : Obj} {x : Item} (ho : o ∈ l) (h : x ∈ o.items) :
    x ∈ itemsOfObjs l := by
  induction l with
  | nil => cases ho
  | cons a l ih =>
    unfold itemsOfObjs
    rcases List.mem_cons.1 ho with rfl | ho
    · exact List.mem_append_left _ h
    · exact List.mem_append_right _ (ih ho)

theorem mem_itemsOfNodes {l : List Node} {o : Node} {x : Item} (ho : o ∈ l) (h : x ∈ o.items) :
    x ∈ itemsOfNodes l := by
  induction l with
  | nil => cases ho
  | cons a l ih =>
    unfold itemsOfNodes
    rcases List.mem_cons.1 ho with rfl | ho
    · exact List.mem_append_left _ h
    · exact List.mem_append_right _ (ih ho)

theorem mem_itemsOfProps {ps : List (Id × List Obj)} {p : Id × List Obj} {x : Item} (hp : p ∈ ps)
    (h : x ∈ itemsOfObjs p.2) : x ∈ itemsOfProps ps := by
  induction ps with
  | nil => cases hp
  | cons a l ih =>
    obtain ⟨k, w⟩ := a
    unfold itemsOfProps
    rcases List.mem_cons.1 hp with rfl | hp
    · exact List.mem_append_left _ h
    · exact List.mem_append_right _ (ih hp)

theorem mem_itemsOfRps {ps : List (Id × List Node)} {p : Id × List Node} {x : Item} (hp : p ∈ ps)
    (h : x ∈ itemsOfNodes p.2) : x ∈ itemsOfRps ps := by
  induction ps with
  | nil => cases hp
  | cons a l ih =>
    obtain ⟨k, w⟩ := a
    unfold itemsOfRps
    rcases List.mem_cons.1 hp with rfl | hp
    · exact List.mem_append_left _ h
    · exact List.mem_append_right _ (ih hp)

theorem items_spec : (∀ o x, Relation.ReflTransGen PartL x (.obj o) → x ∈ Obj.items o) ∧
    (∀ n x, Relation.ReflTransGen PartL x (.node n) → x ∈ Node.items n) := by
  apply Doc.ind
  · intro i v x h
    rcases Relation.ReflTransGen.cases_tail h with e | ⟨y, _, hp⟩
    · rw [← e]; exact List.mem_singleton.2 rfl
    · rcases hp with ⟨⟨⟩⟩ | _
  · intro i l ih x h
    unfold Obj.items
    rcases Relation.ReflTransGen.cases_tail h with e | ⟨y, hy, hp⟩
    · rw [← e]; exact List.mem_cons_self
    · rcases hp with ⟨⟨⟩⟩ | ho
      exact List.mem_cons_of_mem _ (mem_itemsOfObjs ho (ih _ ho _ hy))
  · intro n ih x h
    unfold Obj.items
    rcases Relation.ReflTransGen.cases_tail h with e | ⟨y, hy, hp⟩
    · rw [← e]; exact List.mem_cons_self
    · rcases hp with ⟨⟨⟩⟩ | _
      exact List.mem_cons_of_mem _ (ih _ hy)
  · intro i id ty g inc ps rv hg hinc hps hrv x h
    unfold Node.items
    rcases Relation.ReflTransGen.cases_tail h with e | ⟨y, hy, hp⟩
    · rw [← e]; exact List.mem_cons_self
    · apply List.mem_cons_of_mem
      simp only [List.mem_append]
      cases hp with
      | part hp =>
        cases hp with
        | graph hl ho =>
          have hl : g = some _ := hl
          subst hl
          exact .inl (.inl (.inl (mem_itemsOfObjs ho (hg _ rfl _ ho _ hy))))
        | included hl ho =>
          have hl : inc = some _ := hl
          subst hl
          exact .inl (.inl (.inr (mem_itemsOfNodes ho (hinc _ rfl _ ho _ hy))))
        | property hl ho => exact .inl (.inr (mem_itemsOfProps hl (mem_itemsOfObjs ho (hps _ hl _ ho _ hy))))
        | reverse hr hl ho =>
          have hr : rv = some _ := hr
          subst hr
          exact .inr (mem_itemsOfRps hl (mem_itemsOfNodes ho (hrv _ rfl _ hl _ ho _ hy)))

theorem inside_items {d : Doc} {x : Item} (h : Inside d x) : x ∈ itemsOfObjs d := by
  obtain ⟨o, ho, h⟩ := h
  exact mem_itemsOfObjs ho (items_spec.1 o x h)

end JsonLd
