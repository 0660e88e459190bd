import Verif.Proofs.Mode
import Verif.Proofs.ModeRefuse
import Verif.Props.Protected
import Verif.Props.ProcessBase
/-!
# C87: JSON-LD 1.0
-/

namespace JsonLd.Props

open Spec

/-- A context that can be processed in mode 1.0 gives the same active context in mode 1.1. -/
theorem C87_conservative (E : ProcEnv) (c : ACtx) (l : SCtx) (base : Option Str) (o : Opts) (c' : ACtx)
    (h : Processed E c l base { o with mode := .v10 } (.ok c')) :
    Processed E c l base { o with mode := .v11 } (.ok c') := by
  obtain ⟨_, n, h⟩ := h
  exact ⟨nofun, n, ((recN_keeps E n).process c l [] base { o with mode := .v10 }).get c' h⟩

/-- In mode 1.0 nothing of JSON-LD 1.1 is accepted, neither in the context itself nor in those it refers
to (`@propagate` next to other contexts and `@protected` aside). -/
theorem C87_refuses_partial (E : ProcEnv) (c : ACtx) (l : SCtx) (base : Option Str) (o : Opts)
    (ho : o.mode = .v10) (c' : ACtx) (h : Processed E c l base o (.ok c')) (d : SDef)
    (hd : Reaches E d base l) : OldDef d := by
  obtain ⟨_, n, h⟩ := h
  obtain ⟨us, ht⟩ := Reaches.trail hd
  exact process_reaches (P := OldDef) (M := .v10) (fun _ _ _ _ _ _ _ ho h => processDef_old ho h) us.length us n c c' l d
    [] base o (Nat.le_refl _) ho h ht nofun

/-- Nor is `@propagate`, in a context that is a single definition. -/
theorem C87_refuses_propagate (E : ProcEnv) (c : ACtx) (d : SDef) (base : Option Str) (o : Opts)
    (ho : o.mode = .v10) (c' : ACtx) (h : Processed E c (.one (.defn d)) base o (.ok c')) :
    d.propagate = none := by
  obtain ⟨_, n, h⟩ := h
  cases n with
  | zero => cases h
  | succ n =>
    obtain ⟨o', h1, _⟩ := processBody_ok h
    unfold stepPropagation at h1
    simp only at h1
    split at h1
    · assumption
    · rw [if_pos ho] at h1; cases h1

/-- The result of processing in mode 1.0, up to whether it is there, with a server that has one context. -/
def accepts10 (remote l : SCtx) : Bool :=
  match (recN (constEnv remote) 9).process {} l [] none { mode := .v10 } with
  | .ok _ => true
  | .error _ => false

/-- `[{"@propagate": true}]` is accepted in mode 1.0 (algorithm/mod.rs:90-101 looks at `@propagate` only if
the context is no array), although JSON-LD asks for an error; alone it is refused. -/
theorem C87_propagate_in_array :
    accepts10 (.one .null) (.many [.defn { SDef.empty with propagate := some true }]) = true ∧
    accepts10 (.one .null) (.one (.defn { SDef.empty with propagate := some true })) = false := by
  decide +kernel

/-- `{"t": {"@id": "http:t", "@type": "@id", "@container": "@set"}, "u": "http:u"}` -/
def exOld : SDef :=
  { SDef.empty with bindings := [("t".toList, some (.expanded { SExp.empty with
      id := some (some (.term "http:t".toList)), type := some (some (.keyword .id)),
      container := some (some (.one .set)) })), ("u".toList, some (.simple "http:u".toList))] }

/-- The hypotheses of C87 are met: an old context is accepted, also if it is remote. -/
example : accepts10 (.one (.defn exOld)) (.one (.defn exOld)) = true ∧
    accepts10 (.one (.defn exOld)) (.many [.ref "http:c".toList, .defn exOld, .ref "http:c".toList]) = true ∧
    Reaches (constEnv (.one (.defn exOld))) exOld none (.many [.ref "http:c".toList]) :=
  ⟨by decide +kernel, by decide +kernel, .ref _ _ "http:c".toList "http:c".toList _ (by simp [SCtx.entries])
    rfl rfl (.here _ _ (by simp [SCtx.entries]))⟩

/-- New entries are refused, also in remote contexts. -/
example : accepts10 (exBind (.expanded { SExp.empty with
      id := some (some (.term "http:t".toList)),
      type := some (some (.keyword .none)) })) (.one (.ref "http:c".toList)) = false ∧
    accepts10 (.one .null) (exBind (.expanded { SExp.empty with
      id := some (some (.term "http:t".toList)),
      container := some (some (.one .type)) })) = false ∧
    accepts10 (.one (.defn { SDef.empty with version := true })) (.one (.ref "http:c".toList)) = false := by
  decide +kernel

end JsonLd.Props
