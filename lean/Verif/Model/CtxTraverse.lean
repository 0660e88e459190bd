import Verif.Model.PrintCtx
/-!
# Traversing a context

(`crates/syntax/src/context/mod.rs`, `context/definition/mod.rs`, `context/term_definition/mod.rs`.)
-/

namespace JsonLd

/-- `context::FragmentRef`, context/mod.rs:227-236, with `definition::FragmentRef`,
definition/mod.rs:245-257, and `term_definition::FragmentRef`, term_definition/mod.rs:604-616. The value of
an entry is represented by the entry it is the value of. -/
inductive CFrag where
  | array (es : List SEntry)
  | context (e : SEntry)
  | entry (e : DEntry)
  | key (e : DEntry)
  | value (e : DEntry)
  | termEntry (e : TEntry)
  | termKey (e : TEntry)
  | termValue (e : TEntry)
  | kind (k : ContainerKind)

namespace CFrag

/-- `sub_items` of context/mod.rs:184-189 and 255-262, definition/mod.rs:291-298 and
definition/reference.rs:140-147, `sub_fragments` of term_definition/mod.rs:641-648 and
container.rs:115-120. -/
def subItems : CFrag → List CFrag
  | .array es => es.map .context
  | .context (.defn d) => d.left.map .entry
  | .context _ => []
  | .entry e => [.key e, .value e]
  | .key _ => []
  | .value (.definition _ (some (.expanded x))) => x.left.map .termEntry
  | .value _ => []
  | .termValue (.container (some (.many ks))) => ks.map .kind
  | .termEntry _ => []
  | .termKey _ => []
  | .termValue _ => []
  | .kind _ => []

/-- `is_array`, context/mod.rs:239-245, definition/mod.rs:276-281, term_definition/mod.rs:627-632 and
495-500. -/
def isArray : CFrag → Bool
  | .array _ => true
  | .termValue (.container (some (.many _))) => true
  | _ => false

/-- `is_object`, context/mod.rs:247-253 and 191-193, definition/mod.rs:283-289,
definition/reference.rs:132-138, term_definition/mod.rs:634-639, 488-493 and 33-35. -/
def isObject : CFrag → Bool
  | .context (.defn _) => true
  | .value (.type _) => true
  | .value (.definition _ (some (.expanded _))) => true
  | .termValue (.context (.one (.defn _))) => true
  | _ => false

end CFrag

/-- `Traverse::next`, context/mod.rs:315-323. The state is the stack, its top first. -/
def traverseNext : List CFrag → Option CFrag × List CFrag
  | [] => (none, [])
  | f :: s => (some f, f.subItems.reverse ++ s)

/-- `Context::traverse`, context/mod.rs:85-90, and `Traverse::new`, 305-309. -/
def SCtx.traverse : SCtx → List CFrag
  | .one e => [.context e]
  | .many es => [.array es]

end JsonLd
