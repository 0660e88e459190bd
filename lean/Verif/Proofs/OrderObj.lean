import Verif.Proofs.OrderPerm
/-!
# Moving the entries of an object
-/

namespace JsonLd
open Spec Props

variable {E : XEnv} {K : ACtx → Prop} {c tsc : ACtx}

/-- Entries for different keywords. -/
def Distinct (e e' : XEntry) : Prop := ∀ k, e.term = .keyword k → e'.term ≠ .keyword k

theorem Distinct.symm {e e' : XEntry} (h : Distinct e e') : Distinct e' e := fun k h1 h2 => h k h2 h1

/-- One step of `listIndex`. -/
def listIndexStep (i : Option Str) (e : XEntry) : Except XErr (Option Str) :=
  match e.term with
  | .keyword .index =>
    match e.value with
    | .str s => .ok (some s)
    | _ => .error .invalidIndexValue
  | .keyword .list => .ok i
  | _ => .error .invalidSetOrListObject

theorem listIndex_fold {es : List XEntry} {i : Option Str} : listIndex i es = es.foldlM listIndexStep i := by
  induction es generalizing i with
  | nil => rfl
  | cons e es ih =>
    rw [List.foldlM_cons]
    have : listIndex i (e :: es) = (listIndexStep i e).bind fun i => listIndex i es := by
      obtain ⟨key, t, v⟩ := e
      cases t with
      | keyword k =>
        cases k with
        | index => cases v <;> rfl
        | _ => rfl
      | _ => rfl
    rw [this]
    exact congrArg _ (funext fun i => ih)

theorem listIndex_perm {es es' : List XEntry} (h : es.Perm es') (hd : es.Pairwise Distinct) {i : Option Str} :
    To Eq (listIndex i es) (listIndex i es') := by
  rw [listIndex_fold, listIndex_fold]
  intro t ht
  refine foldlM_perm (P := Eq) (fun h => h.symm) (fun h h' => h.trans h') (fun h => Distinct.symm h) h hd ?_ ?_ rfl ht
  · rintro e - s _ t rfl h
    exact ⟨t, h, rfl⟩
  · intro e _ e' _ hd s t u _ h1 h2
    unfold listIndexStep at h1 h2
    split at h1
    · rename_i ht
      split at h1
      · rename_i v hv
        cases h1
        split at h2
        · rename_i ht'
          exact absurd ht' (hd _ ht)
        · rename_i ht'
          cases h2
          refine ⟨s, some v, ?_, ?_, rfl⟩
          · unfold listIndexStep; rw [ht']
          · unfold listIndexStep; rw [ht]; dsimp only; rw [hv]
        · cases h2
      · cases h1
    · rename_i ht
      cases h1
      refine ⟨u, u, ?_, ?_, rfl⟩
      · exact h2
      · unfold listIndexStep; rw [ht]
    · cases h1

/-! ## Value objects -/

/-- What an entry of a value object does. -/
inductive VWrite
  | nop
  | language (l : Str)
  | direction (d : Direction)
  | index (i : Str)
  | json
  | type (t : Str)

namespace VWrite

def apply (s : ValueState) : VWrite → ValueState
  | .nop => s
  | .language l => { s with language := some l }
  | .direction d => { s with direction := some d }
  | .index i => { s with index := some i }
  | .json => { s with isJson := true }
  | .type t => { s with isJson := false, ty := some t }

/-- The keyword that does it. -/
def kw : VWrite → Option Keyword
  | .nop => none
  | .language _ => some .language
  | .direction _ => some .direction
  | .index _ => some .index
  | .json => some .type
  | .type _ => some .type

theorem comm {v w : VWrite} (h : ∀ k, v.kw = some k → w.kw ≠ some k) (s : ValueState) : w.apply (v.apply s) = v.apply (w.apply s) := by
  cases v <;> cases w <;> first | rfl | exact absurd rfl (h _ rfl)

end VWrite

/-- The step fails always, or does the same write in every state. -/
def VDoes (t : CTerm) (f : ValueState → Except ValueErr ValueState) : Prop :=
  ∃ r : Option VWrite, (∀ w k, r = some w → w.kw = some k → t = .keyword k) ∧ ∀ s u, f s = .ok u ↔ ∃ w, r = some w ∧ u = w.apply s

theorem VDoes.err {t : CTerm} {x : ValueErr} : VDoes t fun _ => .error x :=
  ⟨none, nofun, fun _ _ => ⟨nofun, fun ⟨_, h, _⟩ => nomatch h⟩⟩

theorem VDoes.one {t : CTerm} (w : VWrite) (hk : ∀ k, w.kw = some k → t = .keyword k) : VDoes t fun s => .ok (w.apply s) := by
  refine ⟨some w, fun w' k hw' hk' => ?_, fun s u => ⟨fun h => ?_, fun ⟨w', hw', hu⟩ => ?_⟩⟩
  · cases hw'; exact hk k hk'
  · cases h; exact ⟨w, rfl, rfl⟩
  · cases hw'; rw [hu]

theorem valueStep_does {env : IriEnv} {vocab : Action} {tsc : ACtx} {e : XEntry} :
    VDoes e.term (fun s => valueStep env vocab tsc s e) := by
  obtain ⟨key, t, v⟩ := e
  cases t with
  | null => exact .err
  | id p => exact .err
  | keyword k =>
    cases k with
    | language =>
      cases v with
      | str l =>
        show VDoes _ fun s => .ok (if l = "@none".toList then s else { s with language := some l })
        split
        · exact .one .nop nofun
        · exact .one (.language l) fun k hk => by cases hk; rfl
      | _ => exact .err
    | direction =>
      cases v with
      | str l =>
        show VDoes _ fun s => match Direction.tryFrom l with
          | some d => .ok { s with direction := some d }
          | none => .error .baseDirection
        cases Direction.tryFrom l with
        | none => exact .err
        | some d => exact .one (.direction d) fun k hk => by cases hk; rfl
      | _ => exact .err
    | index =>
      cases v with
      | str l => exact .one (.index l) fun k hk => by cases hk; rfl
      | _ => exact .err
    | value => exact .one .nop nofun
    | type =>
      cases v with
      | str l =>
        show VDoes _ fun s => match expandIri env tsc (some (.ofStr l)) true (some vocab) with
          | .error _ => .error .forbiddenVocab
          | .ok (some (.keyword .json)) => .ok { s with isJson := true }
          | .ok (some (.id (.iri i))) => .ok { s with isJson := false, ty := some i }
          | .ok _ => .error .typedValue
        split
        · exact .err
        · exact .one .json fun k hk => by cases hk; rfl
        · rename_i i _
          exact .one (.type i) fun k hk => by cases hk; rfl
        · exact .err
      | _ => exact .err
    | _ => exact .err

theorem values_perm {env : IriEnv} {vocab : Action} {tsc : ACtx} {es es' : List XEntry} (h : es.Perm es')
    (hd : es.Pairwise Distinct) {s t : ValueState} (ht : es.foldlM (valueStep env vocab tsc) s = .ok t) :
    es'.foldlM (valueStep env vocab tsc) s = .ok t := by
  suffices hx : ∃ t', es'.foldlM (valueStep env vocab tsc) s = .ok t' ∧ t = t' by
    obtain ⟨t', ht', rfl⟩ := hx
    exact ht'
  refine foldlM_perm (P := Eq) (fun h => h.symm) (fun h h' => h.trans h') (fun h => Distinct.symm h) h hd ?_ ?_ rfl ht
  · rintro e - s _ t rfl h
    exact ⟨t, h, rfl⟩
  · intro e _ e' _ hd s t u _ h1 h2
    obtain ⟨r, hr, hi⟩ := valueStep_does (env := env) (vocab := vocab) (tsc := tsc) (e := e)
    obtain ⟨r', hr', hi'⟩ := valueStep_does (env := env) (vocab := vocab) (tsc := tsc) (e := e')
    obtain ⟨v, rfl, rfl⟩ := (hi _ _).1 h1
    obtain ⟨w, rfl, rfl⟩ := (hi' _ _).1 h2
    refine ⟨_, _, (hi' _ _).2 ⟨w, rfl, rfl⟩, (hi _ _).2 ⟨v, rfl, rfl⟩, VWrite.comm ?_ s⟩
    intro k hk hk'
    exact hd k (hr v k rfl hk) (hr' w k rfl hk')

theorem elemValue_perm {it : Option CTerm} {es es' : List XEntry} (h : es.Perm es') (hd : es.Pairwise Distinct) {v : Json} :
    To Alike₁ (elemValue E tsc it es v) (elemValue E tsc it es' v) := by
  intro x hx
  refine ⟨x, ?_, elemValue_refl hx⟩
  unfold elemValue expandValue at hx ⊢
  cases hf : es.foldlM (valueStep E.toIriEnv E.opts.vocab tsc) { isJson := decide (it = some (.keyword .json)) } with
  | error e => rw [hf] at hx; cases hx
  | ok s =>
    rw [hf] at hx
    rw [values_perm h hd hf]
    exact hx

/-! ## Objects -/

theorem lastEntry_perm {k : Keyword} {es es' : List XEntry} (h : es.Perm es') (hd : es.Pairwise Distinct) :
    lastEntry k es = lastEntry k es' := by
  have hp := h.filter (fun e => decide (e.term = .keyword k))
  have hd' : (es.filter fun e => decide (e.term = .keyword k)).Pairwise Distinct := hd.filter _
  have hm : ∀ e ∈ es.filter (fun e => decide (e.term = .keyword k)), e.term = .keyword k :=
    fun e he => of_decide_eq_true (List.mem_filter.1 he).2
  unfold lastEntry
  generalize es.filter _ = x at hp hd' hm ⊢
  generalize es'.filter _ = y at hp ⊢
  match x, hp with
  | [], hp => rw [← List.nil_perm.1 hp]
  | [e], hp => rw [← List.singleton_perm.1 hp]
  | a :: b :: _, _ =>
    exact absurd (hm b (by simp)) ((List.pairwise_cons.1 hd').1 b (by simp) k (hm a (by simp)))

/-- The entries of an object whose entries can be moved. -/
theorem movable_entries {m : List (Str × Json)} (hm : Movable E K m) (hc : K c) {es : List XEntry} (h : xEntries E c m = .ok es) :
    (∀ e ∈ es, e.term ≠ .keyword .nest) ∧ es.Pairwise (EntriesApart c) ∧ es.Pairwise Distinct := by
  have hk : ∀ e ∈ es, ∀ k, e.term = .keyword k → KeyFor E c e.key k := fun e he k hk => by
    rw [keyFor_iff, xEntries_term h he, hk]
  have hd : es.Pairwise Distinct := by
    refine (List.pairwise_map.1 (xEntries_keys h hm.nodup)).imp_of_mem ?_
    intro a b ha hb hne k h1 h2
    exact hne (hm.single c hc _ (xEntries_mem h ha) _ (xEntries_mem h hb) k (hk a ha k h1) (hk b hb k h2))
  refine ⟨fun e he hn => hm.noNest c hc _ (xEntries_mem h he) (hk e he _ hn), ?_, hd⟩
  have hr : ∀ e ∈ es, e.term = .keyword .reverse → ∀ e' ∈ es, reverseOf (c.get e'.key) = false := by
    intro e he ht e' he'
    cases hg : c.get e'.key with
    | none => rfl
    | some d => exact hm.noReverse c hc _ (xEntries_mem h he) (hk e he _ ht) _ (xEntries_mem h he') d hg
  refine hd.imp_of_mem ?_
  intro a b ha hb hab
  exact ⟨hab, fun h => hr a ha h b hb, fun h => hr b hb h a ha⟩

theorem expandNode_perm (H : KClosed E K) (hc : K c) (ht : K tsc) {prop : Option Str} {es es' : List XEntry} (h : es.Perm es')
    (hn : ∀ e ∈ es, e.term ≠ .keyword .nest) (ha : es.Pairwise (EntriesApart c)) :
    To Alike₁ (expandNode E (unlimited E) c tsc prop es) (expandNode E (unlimited E) c tsc prop es') :=
  (entries_perm H hc ht h hn ha ⟨rfl, sameN_empty⟩).map fun _ _ _ _ h => nodeResult_to h

theorem elemKind_perm (H : KClosed E K) (hc : K c) (ht : K tsc) {prop : Option Str} {it : Option CTerm} {es es' : List XEntry}
    (h : es.Perm es') (hn : ∀ e ∈ es, e.term ≠ .keyword .nest) (ha : es.Pairwise (EntriesApart c)) (hd : es.Pairwise Distinct) :
    To Alike₁ (elemKind E (unlimited E) c tsc prop it es) (elemKind E (unlimited E) c tsc prop it es') := by
  unfold elemKind
  rw [← lastEntry_perm h hd, ← lastEntry_perm h hd, ← lastEntry_perm h hd]
  split
  · unfold elemList
    refine To.bind (listIndex_perm h hd) ?_
    rintro i _ - - rfl
    exact ((vc_refl H _).list hc).map fun _ _ _ _ h => same_list h
  · have : setEntries es = setEntries es' := by
      unfold setEntries
      rw [all_perm h]
    rw [← this]
    exact To.after fun _ _ => (vc_refl H _).elem hc
  · exact elemValue_perm h hd
  · exact expandNode_perm H hc ht h hn ha

/-- Objects whose entries have been moved. -/
theorem elemObj_perm (H : KClosed E K) (hc : K c) {prop : Option Str} {fm : Bool} {m m' : List (Str × Json)}
    (hl : LocIn E K (.obj m)) (hm : Movable E K m) (h : m.Perm m') :
    To Alike₁ (elemObj E (unlimited E) c prop m fm) (elemObj E (unlimited E) c prop m' fm) := by
  unfold elemObj
  refine To.bind (objContext_perm h) ?_
  rintro tsc _ ht - rfl
  have hK := objContext_K H hc hl ht
  refine To.bind (typeEntries_perm h hm.nodup) ?_
  rintro tes _ - - rfl
  refine To.after fun c' hc' => To.after fun it _ => ?_
  have hc'' := typeScoped_K H hK hc'
  refine (xEntries_perm h).bind fun es es' hes _ hp => ?_
  obtain ⟨h1, h2, h3⟩ := movable_entries hm hc'' hes
  exact elemKind_perm H hc'' hK hp h1 h2 h3

theorem movable_perm {m m' : List (Str × Json)} (h : m.Perm m') (hm : Movable E K m) : Movable E K m' where
  nodup := (h.map Prod.fst).nodup_iff.1 hm.nodup
  single := fun c hc e he e' he' => hm.single c hc e (h.symm.subset he) e' (h.symm.subset he')
  noNest := fun c hc e he => hm.noNest c hc e (h.symm.subset he)
  noReverse := fun c hc e he hk e' he' => hm.noReverse c hc e (h.symm.subset he) hk e' (h.symm.subset he')

/-- The claim for objects whose entries have been moved. -/
theorem vc_move (H : KClosed E K) {m m' : List (Str × Json)} (hl : LocIn E K (.obj m)) (hm : Movable E K m) (h : m.Perm m') :
    VC E K (.obj m) (.obj m') := by
  refine vc_obj (fun hc => ?_) (fun {c d} hc => ?_) (fun {c d key} hc => ?_) (fun {c s s'} hc hs => ?_)
    (fun {c tsc prop key s s'} hc ht hs => ?_)
  · rw [elem_obj_eq, elem_obj_eq]
    exact elemObj_perm H hc hl hm h
  · unfold langMap
    have hr : ∀ (l : List (Str × Json)), To (PermRel Same)
        (collectM (fun e => collectM (langMapItem E c (literalDirection c d) e.1) (forceArray e.2)) l)
        (collectM (fun e => collectM (langMapItem E c (literalDirection c d) e.1) (forceArray e.2)) l) := fun l =>
      To.mono (To.collectF (T := Eq) (S := Same) (forall₂_refl_mem fun _ _ => rfl) fun a b _ hab => by
        subst hab
        exact langEntry_to (K := K) ⟨rfl, vc_refl H _, fun _ => rfl⟩) fun _ _ _ _ h => .of_forall₂ h
    refine (collectM_perm (sortIf_both h)).mono fun x y hx _ hp => permRel_of_perm hp ?_
    obtain ⟨x', hx', hxx⟩ := hr _ x hx
    rw [hx] at hx'
    cases hx'
    exact fun o ho => Same.refl (permRel_left hxx (fun _ _ h => h.wf') o ho)
  · refine (collectM_perm (sortIf_both h)).mono fun x y hx _ hp => permRel_of_perm hp ?_
    have hr := To.collectF (T := Eq) (S := Same) (l := sortIf E.opts.ordered Prod.fst m) (forall₂_refl_mem fun _ _ => rfl)
      (f := xMapEntry E (unlimited E) c (containerOf d) (indexKeyOf d) key)
      (g := xMapEntry E (unlimited E) c (containerOf d) (indexKeyOf d) key) fun a b _ hab => by
        subst hab
        exact xMapEntry_to (K := K) H hc ⟨rfl, vc_refl H _, fun _ => rfl⟩
    obtain ⟨x', hx', hxx⟩ := hr x hx
    rw [hx] at hx'
    cases hx'
    exact fun o ho => Same.refl (permRel_left (PermRel.of_forall₂ hxx) (fun _ _ h => h.wf') o ho)
  · intro t hst
    refine foldlM_perm (P := SimSt) (R := fun _ _ => True) (fun h => h.symm) (fun h h' => h.trans h') (fun h => h)
      (sortIf_both h) (List.pairwise_of_forall fun _ _ => trivial) ?_ ?_ hs hst
    · intro e _ s s' t hs hst
      exact reverseStep_to (K := K) hc ⟨rfl, vc_refl H _, fun _ => rfl⟩ hs t hst
    · intro e _ e' _ _ s t u hs h1 h2
      obtain ⟨r, hr, hi⟩ := reverseStep_does (E := E) (c := c) (e := e)
      obtain ⟨r', hr', hi'⟩ := reverseStep_does (E := E) (c := c) (e := e')
      obtain ⟨vs, rfl, rfl⟩ := (hi _ _).1 h1
      obtain ⟨ws, rfl, rfl⟩ := (hi' _ _).1 h2
      refine ⟨_, _, (hi' _ _).2 ⟨ws, rfl, rfl⟩, (hi _ _).2 ⟨vs, rfl, rfl⟩, ?_⟩
      refine Write.run_exchange (fun w hw => (hr vs rfl w hw).1) (fun w hw => (hr' ws rfl w hw).1) (fun v hv w hw => ?_) hs
      rcases (hr vs rfl v hv).2 with h | h
      · exact .inr (.inl h)
      · exact .inr (.inr (.inl h))
  · unfold nestStep
    refine To.after fun c' hc' => ?_
    refine (xEntries_perm (sortIf_both h)).bind fun es es' hes _ hp => ?_
    have hK := H.scoped hc hc hc'
    obtain ⟨h1, h2, h3⟩ := movable_entries (movable_perm (sortIf_perm _ _ _).symm hm) hK hes
    rw [C49_unfold_entries, C49_unfold_entries]
    exact entries_perm H hK ht hp h1 h2 hs

end JsonLd
