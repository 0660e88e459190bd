import Verif.Props.ProcessWf
import Verif.Props.Inverse
/-!
# Terms have one definition
-/

namespace JsonLd.Props
open JsonLd.Spec

private def Distinct (c : ACtx) : Prop := (c.defs.map Prod.fst).Nodup

private theorem distinct_erase {c : ACtx} {k : Str} (h : Distinct c) : Distinct (c.eraseNormal k) :=
  h.sublist ((List.filter_sublist ..).map _)

private theorem distinct_set {c : ACtx} {k : Str} {d : TermDef} (h : Distinct c) :
    Distinct (c.setNormal k d) := by
  refine List.nodup_cons.2 ⟨fun hm => ?_, distinct_erase (k := k) h⟩
  obtain ⟨b, h1, h2⟩ := List.mem_map.1 hm
  have := (List.mem_filter.1 h1).2
  simp only [decide_eq_true_eq] at this
  exact this h2

private theorem distinct_rel : DefRel fun c c' => Distinct c → Distinct c' :=
  ⟨fun _ h => h, fun _ _ _ h h' hc => h' (h hc)⟩

private theorem define_distinct (E : ProcEnv) (n : Nat) : ∀ (s s' : DState) (m : Merged)
    (t : DKey) (rc : List Str) (base : Option Str) (prot : Bool) (o : Opts),
    (recN E n).define s m t rc base prot o = .ok s' → Distinct s.ctx → Distinct s'.ctx := by
  induction n with
  | zero => intro s s' m t rc base prot o h; cases h
  | succ n ih =>
    intro s s' m t rc base prot o h hs
    have hR : ∀ s s' x, (recN E n).define s m (.key x) rc none false o.noOverride = .ok s' →
        Distinct s.ctx → Distinct s'.ctx :=
      fun s s' x h => ih s s' m (.key x) rc none false _ h
    cases defineBody_ok h with
    | done => exact hs
    | noType => exact hs
    | type => exact hs
    | absent => exact hs
    | term k' b s' hl hk hb hr =>
      have he := distinct_erase (k := k') hs
      cases hr with
      | reverseKeyword d0 s1 d1 v h0 h1 => exact (stepType_calls h1).rel distinct_rel hR he
      | reverse d0 s1 d1 v s2 t d2 d3 h0 h1 _ _ _ _ h2 h3 h4 =>
        exact distinct_set ((expandWith_calls h2).rel distinct_rel hR ((stepType_calls h1).rel distinct_rel hR he))
      | idKeyword d0 s1 d1 i h0 h1 => exact (stepType_calls h1).rel distinct_rel hR he
      | full d0 s1 d1 s2 d2 d3 d4 h0 h1 _ h2 h3 h4 =>
        exact distinct_set ((stepId_steps h2).rel distinct_rel hR ((stepType_calls h1).rel distinct_rel hR he))

private theorem process_distinct (E : ProcEnv) (n : Nat) :
    ∀ (c c' : ACtx) (l : SCtx) (rc : List Str) (base : Option Str) (o : Opts),
    (recN E n).process c l rc base o = .ok c' → Distinct c → Distinct c' := by
  induction n with
  | zero => intro c c' l rc base o h; cases h
  | succ n ih =>
    intro c c' l rc base o h hc
    obtain ⟨o', h1, h2⟩ := processBody_ok h
    have hs : Distinct (startContext c o') := by unfold startContext; split <;> exact hc
    obtain ⟨_, hI⟩ := entries_inv (I := fun c1 _ => Distinct c1) l.entries _ _ rc hs
      (fun e he c1 c2 rc1 rc2 hI hr => by
        cases hr with
        | null => exact List.nodup_nil
        | skip => exact hI
        | ref r u l' _ _ _ h8 h9 => exact ih _ _ _ _ _ _ h9 hI
        | defn d' _ h6 =>
          obtain ⟨i, b1, v, lg, dir, h7, _, h8⟩ := processDef_rel h6
          exact h8 distinct_rel (fun s s' t prot h => define_distinct E n s s' _ t _ base prot o' h) hI) h2
    exact hI

/-- C34, C36: the definitions of every context obtained by processing are a map, as assumed above: no
term occurs twice. -/
theorem C34_distinct (E : ProcEnv) (c c' : ACtx) (l : SCtx) (base : Option Str) (o : Opts)
    (hc : (c.defs.map Prod.fst).Nodup) (h : Processed E c l base o (.ok c')) :
    (c'.defs.map Prod.fst).Nodup := by
  obtain ⟨_, n, h⟩ := h
  exact process_distinct E n c c' l [] base o h hc

end JsonLd.Props
