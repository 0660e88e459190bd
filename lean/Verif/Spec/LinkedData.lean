import Verif.Model.LinkedData
/-!
# Documents that survive as linked data
-/

namespace JsonLd.Spec

/-- Values that are told apart by their RDF literal: booleans, strings, integers, typed strings,
language-tagged strings, JSON. -/
inductive LdValue (E : LdEnv) : Value → Prop
  | bool (b : Bool) : LdValue E (.literal (.bool b) none)
  | str (s : Str) : LdValue E (.literal (.str s) none)
  | typed {s ty : Str} (h : ty ≠ xsdNs "string") : LdValue E (.literal (.str s) (some ty))
  | int {n : Str} (hi : E.asI64 n = some n) (hn : E.isNumber n = true) :
      LdValue E (.literal (.num n) none)
  | lang {s tag : Str} (h : E.wellFormed tag = true) :
      LdValue E (.langString { data := s, language := some tag, direction := none })
  | json (j : Json) : LdValue E (.json j)

/-- A reference to a node: a node with an identifier and nothing else. -/
def IsRef : Obj → Prop
  | .node (.mk none (some _) none none none [] none) => True
  | _ => False

mutual
/-- Objects that survive as values of a property or in a named graph. Lists and indexes do not.
`rdf:first` and `rdf:rest` of a node without identifier do not. -/
inductive LdObj (E : LdEnv) : Obj → Prop
  | value {v : Value} (h : LdValue E v) : LdObj E (.value none v)
  | node {n : Node} (h : LdNode E n)
      (hf : n.id = none → ∀ os, (rdfFirst, os) ∈ n.props → os = [])
      (hr : n.id = none → ∀ os, (rdfRest, os) ∉ n.props) : LdObj E (.node n)
/-- Nodes that survive: without index, with valid identifiers, without empty lists of types, reverse
properties and included nodes, and with a graph only if they have nothing else. The values of
`rdf:type` are not references (these are types). -/
inductive LdNode (E : LdEnv) : Node → Prop
  | graph {id : Option Id} {g : List Obj} (hid : ∀ i, id = some i → i.isValid = true)
      (hg : ∀ o ∈ g, LdObj E o) : LdNode E (.mk none id none (some g) none [] none)
  | node {id : Option Id} {ty : Option (List Id)} {inc : Option (List Node)}
      {ps : List (Id × List Obj)} {rv : Option (List (Id × List Node))}
      (hid : ∀ i, id = some i → i.isValid = true)
      (hty : ty ≠ some []) (htys : ∀ l, ty = some l → ∀ t ∈ l, t.isValid = true)
      (hinc : inc ≠ some []) (hincs : ∀ l, inc = some l → ∀ m ∈ l, LdNode E m)
      (hk : ∀ p ∈ ps, p.1.isValid = true) (hps : ∀ p ∈ ps, ∀ o ∈ p.2, LdObj E o)
      (ht : ∀ p ∈ ps, p.1 = rdfType → p.2 ≠ [] ∧ ∀ o ∈ p.2, ¬ IsRef o)
      (hrv : rv ≠ some []) (hrk : ∀ l, rv = some l → ∀ p ∈ l, p.1.isValid = true)
      (hrs : ∀ l, rv = some l → ∀ p ∈ l, ∀ m ∈ p.2, LdNode E m) :
      LdNode E (.mk none id ty none inc ps rv)
end

/-- Objects that survive at the top of a document. -/
inductive LdTop (E : LdEnv) : Obj → Prop
  | value {v : Value} (h : LdValue E v) : LdTop E (.value none v)
  | node {n : Node} (h : LdNode E n) : LdTop E (.node n)

end JsonLd.Spec
