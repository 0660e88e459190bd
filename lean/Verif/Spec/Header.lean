import Verif.Model.Header
/-!
# Grammar of the headers

Only the type of bytes of the model is used.
-/

namespace JsonLd.Spec

/-- A `Link` parameter as written: number of blanks before the key, key and value. -/
structure LinkParam where
  blanks : Nat
  key : Bytes
  value : Bytes
  deriving DecidableEq, Repr

/-- `key` may not start with a blank, nor contain `=` after its first byte. -/
def ValidKey (key : Bytes) : Prop :=
  ∃ b k, key = b :: k ∧ b ≠ 32 ∧ 61 ∉ k

/-- The value may not contain a quote. -/
def LinkParam.Valid (p : LinkParam) : Prop := ValidKey p.key ∧ 34 ∉ p.value

/-- `;␣␣key="value"` -/
def LinkParam.print (p : LinkParam) : Bytes :=
  59 :: (List.replicate p.blanks 32 ++ (p.key ++ (61 :: 34 :: (p.value ++ [34]))))

/-- `<href>;k="v";…` -/
def printLink (href : Bytes) (ps : List LinkParam) : Bytes :=
  60 :: (href ++ (62 :: ps.flatMap LinkParam.print))

/-- A `Content-Type` parameter as written. -/
structure CtParam where
  blanks : Nat
  key : Bytes
  quoted : Bool
  value : Bytes
  deriving DecidableEq, Repr

/-- Quoted values contain no quote, unquoted ones do not start with a quote, are not empty and
contain no `;` after the first byte. -/
def CtParam.Valid (p : CtParam) : Prop :=
  ValidKey p.key ∧
    if p.quoted then 34 ∉ p.value else ∃ b v, p.value = b :: v ∧ b ≠ 34 ∧ 59 ∉ v

/-- `;␣␣key="value"` or `;␣␣key=value` -/
def CtParam.print (p : CtParam) : Bytes :=
  59 :: (List.replicate p.blanks 32 ++ (p.key ++ (61 ::
    (if p.quoted then 34 :: (p.value ++ [34]) else p.value))))

/-- `mime;k="v";…` -/
def printContentType (mime : Bytes) (ps : List CtParam) : Bytes :=
  mime ++ ps.flatMap CtParam.print

/-- The value given last for a key. -/
def lastValue (kvs : List (Bytes × Bytes)) (k : Bytes) : Option Bytes :=
  ((kvs.filter fun e => e.1 = k).getLast?).map (·.2)

end JsonLd.Spec
