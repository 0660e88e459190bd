import Verif.Model.Warn
/-!
# Warnings of language maps

What is given to the warning handler by the expansion of a language map
(`crates/expansion/src/node.rs:551-661`), with the same conventions as in `Verif.Model.Warn`.
-/

namespace JsonLd

/-- A loop that appends the results of its body, `for … { …?; … }`, node.rs:566 and 590. -/
def collectW {α β : Type} (f : α → Warned XErr (List β)) : List α → Warned XErr (List β)
  | [] => (.ok [], [])
  | a :: l => (f a).andThen fun x => (collectW f l).andThen fun y => (.ok (x ++ y), [])

/-- An item of a language map, node.rs:590-657. The argument `tagOk` is whether `LangTag::new`
accepts the text (node.rs:610-622). -/
def langMapItemW (E : XEnv) (tagOk : Str → Bool) (c : ACtx) (dir : Option Direction)
    (language : Str) : Json → Warned XErr (List Obj)
  | .null => (.ok [], [])
  | .str s => (xKeyW E c language).andThen fun t =>
      let l := if t = some (.keyword .none) then none else some language
      (.ok [langItem s l dir], tagWarn tagOk l)
  | _ => (.error .invalidLanguageMapValue, [])

/-- A language map, node.rs:551-661. -/
def langMapW (E : XEnv) (tagOk : Str → Bool) (c : ACtx) (d : Option TermDef)
    (m : List (Str × Json)) : Warned XErr (List Obj) :=
  collectW
    (fun e => collectW (langMapItemW E tagOk c (literalDirection c d) e.1) (forceArray e.2))
    (sortIf E.opts.ordered Prod.fst m)

end JsonLd
