import Verif.Base.Json
/-!
# JSON-LD documents that are the same up to order

Where order matters: the items of the array under `@list`.
-/

namespace JsonLd.Spec

/-- `LdEquiv list a b`: the values are the same up to the order of entries and of the items of arrays, except for the
items of the arrays that are values of `@list`. `list` tells that the values are those of `@list`. -/
inductive LdEquiv : Bool → Json → Json → Prop
  | null (f) : LdEquiv f .null .null
  | bool (f b) : LdEquiv f (.bool b) (.bool b)
  | num (f n) : LdEquiv f (.num n) (.num n)
  | str (f s) : LdEquiv f (.str s) (.str s)
  | set {a b b' : List Json} (hp : b'.Perm b) (hl : a.length = b'.length)
      (h : ∀ i (h1 : i < a.length) (h2 : i < b'.length), LdEquiv false a[i] b'[i]) :
      LdEquiv false (.arr a) (.arr b)
  | list {a b : List Json} (hl : a.length = b.length)
      (h : ∀ i (h1 : i < a.length) (h2 : i < b.length), LdEquiv false a[i] b[i]) :
      LdEquiv true (.arr a) (.arr b)
  | obj (f) {a b b' : List (Str × Json)} (hp : b'.Perm b) (hl : a.length = b'.length)
      (hk : ∀ i (h1 : i < a.length) (h2 : i < b'.length), a[i].1 = b'[i].1)
      (h : ∀ i (h1 : i < a.length) (h2 : i < b'.length),
        LdEquiv (decide (a[i].1 = "@list".toList)) a[i].2 b'[i].2) :
      LdEquiv f (.obj a) (.obj b)

end JsonLd.Spec
