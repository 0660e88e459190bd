import Verif.Model.Ctx
/-!
# The history of a context

A context is made by `new` and then used: its parts are set, its inverse is read, it is cloned. The
functions below read off from the history what was last set. They do not know of the inverse.
-/

namespace JsonLd.Spec

/-- What was done with a context. -/
inductive CtxHistory where
  | new (base : Option Str)
  | normal (h : CtxHistory) (k : Str) (d : Option TermDef)
  | type (h : CtxHistory) (t : Option Bool)
  | base (h : CtxHistory) (b : Option Str)
  | vocab (h : CtxHistory) (v : Option CTerm)
  | language (h : CtxHistory) (l : Option Str)
  | direction (h : CtxHistory) (d : Option Direction)
  | previous (h p : CtxHistory)
  | readInverse (h : CtxHistory)
  | clone (h : CtxHistory)

namespace CtxHistory

/-- The last definition of `k`. -/
def lastNormal (k : Str) : CtxHistory → Option TermDef
  | .new _ => none
  | .normal h k' d => if k' = k then d else lastNormal k h
  | .type h _ | .base h _ | .vocab h _ | .language h _ | .direction h _
  | .previous h _ | .readInverse h | .clone h => lastNormal k h

/-- The last definition of `@type`. -/
def lastType : CtxHistory → Option Bool
  | .new _ => none
  | .type _ t => t
  | .normal h _ _ | .base h _ | .vocab h _ | .language h _ | .direction h _
  | .previous h _ | .readInverse h | .clone h => lastType h

/-- The base IRI given at the start. -/
def firstBase : CtxHistory → Option Str
  | .new b => b
  | .normal h _ _ | .type h _ | .base h _ | .vocab h _ | .language h _ | .direction h _
  | .previous h _ | .readInverse h | .clone h => firstBase h

/-- The last base IRI. -/
def lastBase : CtxHistory → Option Str
  | .new b => b
  | .base _ b => b
  | .normal h _ _ | .type h _ | .vocab h _ | .language h _ | .direction h _
  | .previous h _ | .readInverse h | .clone h => lastBase h

/-- The last vocabulary. -/
def lastVocab : CtxHistory → Option CTerm
  | .new _ => none
  | .vocab _ v => v
  | .normal h _ _ | .type h _ | .base h _ | .language h _ | .direction h _
  | .previous h _ | .readInverse h | .clone h => lastVocab h

/-- The last default language. -/
def lastLanguage : CtxHistory → Option Str
  | .new _ => none
  | .language _ l => l
  | .normal h _ _ | .type h _ | .base h _ | .vocab h _ | .direction h _
  | .previous h _ | .readInverse h | .clone h => lastLanguage h

/-- The last default direction. -/
def lastDirection : CtxHistory → Option Direction
  | .new _ => none
  | .direction _ d => d
  | .normal h _ _ | .type h _ | .base h _ | .vocab h _ | .language h _
  | .previous h _ | .readInverse h | .clone h => lastDirection h

/-- The history of the last previous context. -/
def lastPrevious : CtxHistory → Option CtxHistory
  | .new _ => none
  | .previous _ p => some p
  | .clone h => (lastPrevious h).map .clone
  | .normal h _ _ | .type h _ | .base h _ | .vocab h _ | .language h _ | .direction h _
  | .readInverse h => lastPrevious h

end CtxHistory
end JsonLd.Spec
