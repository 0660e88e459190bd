import Verif.Base.Str
/-!
# Paths
-/

namespace JsonLd.Spec

/-- The names between the slashes of a path, after those of `cur`. -/
def namesFrom (cur : Str) : Str → List Str
  | [] => if cur = [] then [] else [cur]
  | c :: s => if c = '/' then (if cur = [] then [] else [cur]) ++ namesFrom [] s else namesFrom (cur ++ [c]) s

/-- The names of a path: `/a//b/` has the names `a` and `b`. -/
def pathNames (p : Str) : List Str := namesFrom [] p

end JsonLd.Spec
