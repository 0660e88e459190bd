import Verif.Model.Entries
/-!
# What an iterator yields, and the JSON members that entries stand for
-/

namespace JsonLd.Spec

/-- Calling `next` again and again gives these items, and then nothing. -/
inductive Yields {σ α : Type} (next : σ → Option α × σ) : σ → List α → Prop
  | stop (s s' : σ) : next s = (none, s') → Yields next s []
  | item (s s' : σ) (x : α) (l : List α) :
      next s = (some x, s') → Yields next s' l → Yields next s (x :: l)

/-- The JSON value of an entry of a value object. -/
def vJson : VEntry → Json
  | .value (.literal .null _) => .null
  | .value (.literal (.bool b) _) => .bool b
  | .value (.literal (.num n) _) => .num n
  | .value (.literal (.str s) _) => .str s
  | .value (.langString s) => .str s.data
  | .value (.json j) => j
  | .type (some t) => .str t
  | .type none => .str "@json".toList
  | .language l => .str l
  | .direction d => .str d.asStr

/-- The JSON value of an entry of a node object. -/
def nJson : NEntry → Json
  | .id i => .str i.str
  | .type ts => .arr (ts.map fun t => .str t.str)
  | .graph g => .arr (g.map Obj.toJson)
  | .included l => .arr (l.map Node.toJson)
  | .reverse r => .obj (r.map fun p => (p.1.str, .arr (p.2.map Node.toJson)))
  | .property _ os => .arr (os.map Obj.toJson)

/-- The JSON value of an entry. -/
def iJson : IEntry → Json
  | .index s => .str s
  | .object (.value e) => vJson e
  | .object (.list l) => .arr (l.map Obj.toJson)
  | .object (.node e) => nJson e

/-- The keys of a node are its own: the texts of its properties are distinct and none is one of the
keywords used in node objects; the same for its reverse properties among themselves. -/
def OwnKeys : Obj → Prop
  | .node n =>
    (n.props.map fun p => p.1.str).Nodup ∧
    (∀ p ∈ n.props, p.1.str ∉ ["@id".toList, "@type".toList, "@graph".toList, "@reverse".toList,
      "@index".toList]) ∧
    (∀ r, n.rev = some r → (r.map fun p => p.1.str).Nodup)
  | _ => True

end JsonLd.Spec
