import Verif.Spec.Compact
/-!
# Specification of the term chosen for a value
-/

namespace JsonLd.Spec

/-- The item is a string with language and direction `l`, or a literal without type (`l` is null). -/
def ItemLang : Obj → LangDir → Prop
  | .value _ (.langString s), l => l = some (s.language, s.direction)
  | .value _ (.literal _ none), l => l = none
  | _, _ => False

/-- The item has the type `t`: nodes and lists have type `@id`. -/
def ItemType : Obj → TypeMap → Prop
  | .value _ (.literal _ (some ty)), t => t = .iri ty
  | .value _ (.json _), t => t = .json
  | .value _ _, _ => False
  | .list _ _, t => t = .id
  | .node _, t => t = .id

/-- The item is a value. -/
def IsValueItem : Obj → Prop
  | .value _ _ => True
  | _ => False

/-- The language and direction of a list is `l`: its first string has `l`, and all values after it
have `l`, too. -/
def ItemsLang (items : List Obj) (l : LangDir) : Prop :=
  ∃ pre o post, items = pre ++ o :: post ∧ (∀ x ∈ pre, ∀ m, ¬ ItemLang x m) ∧ ItemLang o l ∧
    ∀ x ∈ post, IsValueItem x → ∃ m, ItemLang x m ∧ SameLang m l

/-- Definitions for things of type `t`, in order of preference. -/
def typeWants (t : TypeMap) : List (TermDef → Prop) :=
  [fun d => TypeMatch d (.type t), fun d => TypeMatch d (.type .none), fun d => TypeMatch d .any]

/-- Definitions for strings with language and direction `l`, in order of preference. -/
def langWants (c : ACtx) (l : LangDir) : List (TermDef → Prop) :=
  [fun d => LangMatch c d (.lang l), fun d => LangMatch c d (.lang (some (none, none))),
    fun d => LangMatch c d .any]

/-- The identifier is compacted to a term. -/
def HasTerm (env : CompEnv) (c : ACtx) (o : CompOpts) (i : Id) : Prop :=
  ∃ s, compactIriPlain env c (.id i) true false o = .ok (some s) ∧ c.getValue s = some (some (.id i))

/-- Definitions for references to `i`, in order of preference: the type `@vocab` is preferred if there
is a term for `i`. -/
def RefWants (env : CompEnv) (c : ACtx) (o : CompOpts) (i : Id) (ws : List (TermDef → Prop)) : Prop :=
  (HasTerm env c o i ∧ ws = (fun d => TypeMatch d (.type .vocab)) :: typeWants .id) ∨
  (¬ HasTerm env c o i ∧ ws = [fun d => TypeMatch d (.type .id), fun d => TypeMatch d (.type .vocab),
    fun d => TypeMatch d (.type .none), fun d => TypeMatch d .any])

/-- What the definition of a term for a value should be, in order of preference. -/
inductive Wanted (env : CompEnv) (c : ACtx) (o : CompOpts) : Obj → Bool → List (TermDef → Prop) → Prop
  | emptyList (i) : Wanted env c o (.list i []) false [fun _ => True]
  | typedList (i items t) : items ≠ [] → (∀ x ∈ items, ItemType x t) →
      Wanted env c o (.list i items) false (typeWants t)
  | langList (i items l) : (∀ t, ∃ x ∈ items, ¬ ItemType x t) → ItemsLang items l →
      (∀ a d, l ≠ some (some a, some d)) → Wanted env c o (.list i items) false (langWants c l)
  | langDirList (i items a d) : (∀ t, ∃ x ∈ items, ¬ ItemType x t) →
      ItemsLang items (some (some a, some d)) →
      Wanted env c o (.list i items) false
        (langWants c (some (some a, some d)) ++ [fun x => LangMatch c x (.lang (some (none, some d)))])
  | mixedList (i items) : (∀ t, ∃ x ∈ items, ¬ ItemType x t) → (∀ l, ¬ ItemsLang items l) →
      Wanted env c o (.list i items) false (langWants c (some (none, none)))
  | typed (i v t) : ItemType (.value i v) t → Wanted env c o (.value i v) false (typeWants t)
  | lang (s : LangString) (x y) : s.language = x → s.direction = y → (x ≠ none ∨ y ≠ none) →
      (x = none ∨ y = none) →
      Wanted env c o (.value none (.langString s)) false (langWants c (some (x, y)))
  | langDir (s : LangString) (a d) : s.language = some a → s.direction = some d →
      Wanted env c o (.value none (.langString s)) false
        (langWants c (some (some a, some d)) ++ [fun x => LangMatch c x (.lang (some (none, some d)))])
  | plain (i v) : (∀ t, ¬ ItemType (.value i v) t) →
      (i = none → ∀ s : LangString, v = .langString s → s.language = none ∧ s.direction = none) →
      Wanted env c o (.value i v) false (langWants c none)
  | node (n : Node) : n.id = none → Wanted env c o (.node n) false (typeWants .id)
  | ref (n : Node) (i ws) : n.id = some i → RefWants env c o i ws → Wanted env c o (.node n) false ws
  | reverseNode (n : Node) : n.id = none →
      Wanted env c o (.node n) true [fun d => TypeMatch d .reverse, fun d => TypeMatch d (.type .none),
        fun d => TypeMatch d .any]
  | reverseRef (n : Node) (i ws) : n.id = some i → RefWants env c o i ws →
      Wanted env c o (.node n) true ((fun d => TypeMatch d .reverse) :: ws)

/-- Containers that are considered in JSON-LD 1.1 only. -/
def onlyNew (mode : ProcMode) (cs : List Container) : List Container :=
  if mode = .v10 then [] else cs

/-- The node has a graph and nothing else than an identifier and an index. -/
def PureGraph (n : Node) : Prop :=
  n.graph ≠ none ∧ n.types = none ∧ n.included = none ∧ n.props = [] ∧ n.rev = none

/-- The containers of a term for a value, in order of preference. -/
inductive Containers (mode : ProcMode) : Obj → Bool → List Container → Prop
  | list (items) : Containers mode (.list none items) false
      ([.list, .none] ++ onlyNew mode [.index, .indexSet])
  | indexedList (i items) : Containers mode (.list (some i) items) false [.index, .indexSet, .none]
  | lang (s : LangString) : s.language ≠ none ∨ s.direction ≠ none →
      Containers mode (.value none (.langString s)) false
        ([.language, .languageSet, .set, .none] ++ onlyNew mode [.index, .indexSet])
  | typed (v t) : ItemType (.value none v) t →
      Containers mode (.value none v) false ([.set, .none] ++ onlyNew mode [.index, .indexSet])
  | plain (v) : (∀ t, ¬ ItemType (.value none v) t) →
      (∀ s : LangString, v = .langString s → s.language = none ∧ s.direction = none) →
      Containers mode (.value none v) false
        ([.set, .none] ++ onlyNew mode [.index, .indexSet, .language, .languageSet])
  | indexedValue (i v) : Containers mode (.value (some i) v) false [.index, .indexSet, .set, .none]
  | node (n : Node) : ¬ PureGraph n → n.index = none → Containers mode (.node n) false
      ([.id, .idSet, .type, .setType, .set, .none] ++ onlyNew mode [.index, .indexSet])
  | indexedNode (n : Node) : ¬ PureGraph n → n.index ≠ none → Containers mode (.node n) false
      [.index, .indexSet, .id, .idSet, .type, .setType, .set, .none]
  | graph (n : Node) : PureGraph n → n.index = none → n.id = none → Containers mode (.node n) false
      [.graph, .graphSet, .set, .graphIndex, .graphIndexSet, .graphId, .graphIdSet, .index, .indexSet, .none]
  | namedGraph (n : Node) : PureGraph n → n.index = none → n.id ≠ none → Containers mode (.node n) false
      [.graphId, .graphIdSet, .graph, .graphSet, .set, .graphIndex, .graphIndexSet, .index, .indexSet, .none]
  | indexedGraph (n : Node) : PureGraph n → n.index ≠ none → n.id = none → Containers mode (.node n) false
      [.graphIndex, .graphIndexSet, .graph, .graphSet, .set, .graphId, .graphIdSet, .index, .indexSet, .none]
  | indexedNamedGraph (n : Node) : PureGraph n → n.index ≠ none → n.id ≠ none →
      Containers mode (.node n) false
        [.graphIndex, .graphIndexSet, .graphId, .graphIdSet, .graph, .graphSet, .set, .index, .indexSet, .none]
  | reverse (n : Node) : n.index = none ∨ PureGraph n →
      Containers mode (.node n) true ([.set, .none] ++ onlyNew mode [.index, .indexSet])
  | indexedReverse (n : Node) : n.index ≠ none → ¬ PureGraph n →
      Containers mode (.node n) true [.index, .indexSet, .set, .none]

/-- Each container with each condition. -/
def allWishes (cs : List Container) (ws : List (TermDef → Prop)) : List (Container × (TermDef → Prop)) :=
  cs.flatMap fun k => ws.map fun w => (k, w)

end JsonLd.Spec
