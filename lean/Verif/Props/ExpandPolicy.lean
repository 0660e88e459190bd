import Verif.Proofs.ExpandRel
import Verif.Proofs.CtxJsonRead
import Verif.Props.Expand
/-!
# C44, C49, C51: expansion as a recursive function; policies
-/

namespace JsonLd.Props
open JsonLd.Spec

/-! ## C49 -/

/-- C49: any number of nested calls that is at least the depth of the element gives the same result. -/
theorem C49_limit (E : XEnv) (n : Nat) (c : ACtx) (prop : Option Str) (j : Json) (fm : Bool)
    (h : j.depth ≤ n) : (xrecN E n).elem c prop j fm = expandElement E c prop j fm :=
  xrecN_elem E h

/-- The algorithms without a limit: entries are expanded with as many nested calls as they are deep. -/
def unlimited (E : XEnv) : XRec where
  elem := expandElement E
  entries := fun st c tsc prop es =>
    (xrecN E (1 + (es.map fun e => e.value.depth).foldr max 0)).entries st c tsc prop es

private theorem le_foldr {l : List Nat} {x : Nat} (h : x ∈ l) : x ≤ l.foldr max 0 := by
  induction l with
  | nil => cases h
  | cons a l ih =>
    rcases List.mem_cons.1 h with rfl | h
    · exact Nat.le_max_left ..
    · exact Nat.le_trans (ih h) (Nat.le_max_right ..)

private theorem foldr_lt {l : List Nat} {n : Nat} (h0 : 0 < n) (h : ∀ x ∈ l, x < n) : l.foldr max 0 < n := by
  induction l with
  | nil => exact h0
  | cons a l ih => exact Nat.max_lt.2 ⟨h a (by simp), ih fun x hx => h x (by simp [hx])⟩

private theorem unlimited_rel (E : XEnv) (n : Nat) (X : XErr → Prop) : RelRec X n (xrecN E n) (unlimited E) where
  elem := fun h => .inl (xrecN_elem E h)
  entries := by
    intro st c tsc prop es h0 h
    have hlt : (es.map fun e => e.value.depth).foldr max 0 < n :=
      foldr_lt h0 fun x hx => by
        obtain ⟨e, he, rfl⟩ := List.mem_map.1 hx
        exact h e he
    exact (xrecN_le (E := E) (sim_refl E.opts X) (1 + (es.map fun e => e.value.depth).foldr max 0) n _
      (by omega) (Nat.le_refl _)).entries (by omega) fun e he => by
        have := le_foldr (List.mem_map.2 ⟨e, he, rfl⟩ : e.value.depth ∈ es.map fun e => e.value.depth)
        omega

/-- C49: expansion satisfies the recursive equation of the code, without any limit: an element is expanded
by expanding its parts. -/
theorem C49_unfold (E : XEnv) (c : ACtx) (prop : Option Str) (j : Json) (fm : Bool) :
    expandElement E c prop j fm = elemBody E (unlimited E) c prop j fm := by
  obtain ⟨n, hn⟩ : ∃ n, j.depth = n + 1 := ⟨j.depth - 1, by have := depth_pos j; omega⟩
  unfold expandElement
  rw [hn]
  exact Le.eq (elemBody_le (sim_refl E.opts _) (unlimited_rel E n _) (Nat.le_of_eq hn))

/-- C49: and so do the entries of a node. -/
theorem C49_unfold_entries (E : XEnv) (st : XState) (c tsc : ACtx) (prop : Option Str) (es : List XEntry) :
    (unlimited E).entries st c tsc prop es = entriesBody E (unlimited E) st c tsc prop es := by
  show (xrecN E _).entries st c tsc prop es = _
  rw [Nat.add_comm]
  exact Le.eq (entriesBody_le (sim_refl E.opts _) (unlimited_rel E _ _) fun e he =>
    le_foldr (List.mem_map.2 ⟨e, he, rfl⟩))

/-- An array of elements is expanded element by element. -/
example (E : XEnv) (c : ACtx) (l : List Json) : expandElement E c none (.arr l) false =
    elemArr (unlimited E) c none l false := C49_unfold ..

/-! ## C51 -/

private theorem sim_of {o₁ o₂ : XOpts} (h : Stricter o₁ o₂) : Sim o₁ o₂ PolicyErr where
  mode := h.mode
  ordered := h.ordered
  vocab := h.vocab.imp id fun h => ⟨h, .forbiddenVocab, .literal, .value⟩
  invalid := h.invalid.imp id fun h => ⟨h, .type, .key⟩
  undefined := by
    have := h.undefined
    cases h1 : o₁.allowUndefined
    · exact .inr ⟨rfl, .key⟩
    · exact .inl (this h1).symm

/-- C51: with a stricter policy the result of expansion is the same, unless the document is rejected with
one of the errors of the policy. -/
theorem C51_stricter (E : XEnv) {o₁ o₂ : XOpts} (h : Stricter o₁ o₂) (c : ACtx) (j : Json) :
    expandDoc { E with opts := o₁ } c j = expandDoc { E with opts := o₂ } c j ∨
      ∃ e, expandDoc { E with opts := o₁ } c j = .error e ∧ PolicyErr e :=
  Le.map ((xrecN_le (E := E) (sim_of h) j.depth _ _ (Nat.le_refl _) (Nat.le_refl _)).elem (Nat.le_refl _))

/-- C51: what a stricter policy accepts, it expands to the same document. -/
theorem C51_same (E : XEnv) {o₁ o₂ : XOpts} (h : Stricter o₁ o₂) {c : ACtx} {j : Json} {d : Doc}
    (hd : expandDoc { E with opts := o₁ } c j = .ok d) : expandDoc { E with opts := o₂ } c j = .ok d := by
  rcases C51_stricter E h c j with h | ⟨e, h, _⟩
  · exact h ▸ hd
  · rw [h] at hd; cases hd

/-- C51: and what the laxer policy does not accept, the stricter one does not accept either. -/
theorem C51_errors (E : XEnv) {o₁ o₂ : XOpts} (h : Stricter o₁ o₂) {c : ACtx} {j : Json} {e : XErr}
    (hd : expandDoc { E with opts := o₂ } c j = .error e) :
    ∃ e', expandDoc { E with opts := o₁ } c j = .error e' := by
  rcases C51_stricter E h c j with h | ⟨e', h, _⟩
  · exact ⟨e, h ▸ hd⟩
  · exact ⟨e', h⟩

/-! ## C44: strict policies -/

private theorem foldlM_each {σ α ε : Type} {f : σ → α → Except ε σ} {l : List α} {s s' : σ}
    (h : l.foldlM f s = .ok s') : ∀ a ∈ l, ∃ t t', f t a = .ok t' := by
  induction l generalizing s with
  | nil => intro a ha; cases ha
  | cons b l ih =>
    rw [List.foldlM_cons] at h
    cases h1 : f s b with
    | error e => rw [h1] at h; cases h
    | ok s1 =>
      rw [h1] at h
      intro a ha
      rcases List.mem_cons.1 ha with rfl | ha
      · exact ⟨s, s1, h1⟩
      · exact ih h a ha

private theorem admitted_entry {E : XEnv} (hu : E.opts.allowUndefined = false) {R : XRec} {c tsc : ACtx}
    {prop : Option Str} {st st' : XState} {e : XEntry} (h : entryStep E R c tsc prop st e = .ok st') :
    Admitted E (some e.term) := by
  unfold entryStep at h
  split at h
  · rename_i ht; rw [ht]; exact .null
  · rename_i ht; rw [ht]; exact .keyword _
  · rename_i ht; rw [ht]; exact .keyword _
  · rename_i p ht
    rw [ht]
    split at h
    · rename_i hc
      refine .id p (by simpa using hc) fun hr => ?_
      unfold idEntry at h
      split at h
      · rw [hr] at h; cases h
      · rename_i hp
        cases p with
        | invalid s => exact absurd rfl (hp s)
        | iri s => rfl
        | blank s => rfl
    · unfold plainEntry at h
      rw [hu] at h
      split at h <;> cases h

private theorem listIndex_admitted {E : XEnv} {i r : Option Str} {es : List XEntry} (h : listIndex i es = .ok r) :
    ∀ e ∈ es, Admitted E (some e.term) := by
  induction es generalizing i with
  | nil => intro e he; cases he
  | cons a es ih =>
    unfold listIndex at h
    intro e he
    split at h
    · rename_i ht
      split at h
      · rcases List.mem_cons.1 he with rfl | he
        · rw [ht]; exact .keyword _
        · exact ih h e he
      · cases h
    · rename_i ht
      rcases List.mem_cons.1 he with rfl | he
      · rw [ht]; exact .keyword _
      · exact ih h e he
    · cases h

private theorem xEntries_each {E : XEnv} {c : ACtx} {m : List (Str × Json)} {es : List XEntry}
    (h : xEntries E c m = .ok es) : ∀ a ∈ m, ∃ t, xKey E c a.1 = .ok t ∧
      ∀ t', t = some t' → ⟨a.1, t', a.2⟩ ∈ es := by
  induction m generalizing es with
  | nil => intro a ha; cases ha
  | cons b m ih =>
    obtain ⟨k, v⟩ := b
    unfold xEntries at h
    obtain ⟨t, h1, h⟩ := exBind_ok h
    obtain ⟨es', h2, h⟩ := exMap_ok h
    subst h
    intro a ha
    rcases List.mem_cons.1 ha with rfl | ha
    · exact ⟨t, h1, fun t' ht => by subst ht; exact List.mem_cons_self⟩
    · obtain ⟨t₁, h3, h4⟩ := ih h2 a ha
      refine ⟨t₁, h3, fun t' ht => ?_⟩
      cases t with
      | none => exact h4 t' ht
      | some t => exact List.mem_cons_of_mem _ (h4 t' ht)

/-- C44: with a policy that does not allow undefined terms, an object is expanded only if each of its keys
stands for a keyword, for an identifier with a colon (a valid one if invalid terms are rejected), or is
ignored as such (`null`, or dropped by the vocabulary policy). By `C49_unfold`, this is so for each object
inside the document. -/
theorem C44_strict (E : XEnv) (hu : E.opts.allowUndefined = false) {c c' : ACtx} {prop : Option Str}
    {m : List (Str × Json)} {fm : Bool} {x : Expanded} (hc : KeyContext E c prop m fm c')
    (h : expandElement E c prop (.obj m) fm = .ok x) :
    ∀ k v, (k, v) ∈ m → ∃ t, expandIri E.toIriEnv c' (some (.ofStr k)) false (some E.opts.vocab) = .ok t ∧
      Admitted E t := by
  obtain ⟨tsc, tes, h1, h2, h3⟩ := hc
  rw [C49_unfold] at h
  change elemObj E (unlimited E) c prop m fm = .ok x at h
  unfold elemObj at h
  rw [h1] at h
  change (typeEntries E tsc m).bind _ = _ at h
  rw [h2] at h
  change (typeScoped E tsc tes).bind _ = _ at h
  rw [h3] at h
  change (inputType E c' tes).bind _ = _ at h
  obtain ⟨it, _, h⟩ := exBind_ok h
  obtain ⟨es, hes, h⟩ := exBind_ok h
  have key : ∀ e ∈ es, Admitted E (some e.term) := by
    unfold elemKind at h
    split at h
    · obtain ⟨i, hi, _⟩ := exBind_ok h
      exact listIndex_admitted hi
    · obtain ⟨u, hs, _⟩ := exBind_ok h
      unfold setEntries at hs
      split at hs
      · rename_i ha
        intro e he
        have := List.all_eq_true.1 ha e he
        simp only [Bool.or_eq_true, decide_eq_true_eq] at this
        rcases this with h | h <;> rw [h] <;> exact .keyword _
      · cases hs
    · unfold elemValue at h
      split at h
      · cases h
      all_goals
        rename_i hv
        unfold expandValue at hv
        split at hv
        · cases hv
        · rename_i hf
          intro e he
          obtain ⟨s, s', hs⟩ := foldlM_each hf e he
          unfold valueStep at hs
          split at hs
          all_goals first
            | (rename_i ht; rw [ht]; exact .keyword _)
            | cases hs
    · unfold expandNode at h
      obtain ⟨st, hst, _⟩ := exMap_ok h
      intro e he
      obtain ⟨s, s', hs⟩ := foldlM_each hst e he
      exact admitted_entry hu hs
  intro k v hkv
  obtain ⟨t, ht, hm⟩ := xEntries_each hes (k, v) hkv
  refine ⟨t, ?_, ?_⟩
  · unfold xKey xIri at ht
    split at ht
    · rename_i h'; cases ht; exact h'
    · cases ht
  · cases t with
    | none => exact .none
    | some t => exact key _ (hm t rfl)

/-- The document `exXDoc` has an undefined term: it is rejected by the strict policy; without this entry it
is accepted, with the same result. -/
def exStrict : XEnv := { exXEnv with opts := { invalid := .reject, allowUndefined := false } }

example : Stricter exStrict.opts exXEnv.opts := ⟨rfl, rfl, .inl rfl, .inr rfl, fun _ => rfl⟩

example : (match expandDoc exStrict {} exXDoc with
    | .error (.keyExpansionFailed s) => decide (s = "undefined".toList)
    | _ => false) = true := by
  decide +kernel

/-- `{"http:a": "1"}` and `{"a": "1"}`. -/
def exKey (k : Str) : List (Str × Json) := [(k, .str "1".toList)]

example : (expandDoc exStrict {} (.obj (exKey "http:a".toList))).toOption =
    some [.node (.mk none none none none none [(.iri "http:a".toList,
      [.value none (.literal (.str "1".toList) none)])] none)] := by
  decide +kernel

example : KeyContext exStrict {} none (exKey "http:a".toList) false {} :=
  ⟨{}, [], rfl, rfl, rfl⟩

/-- The vocabulary policy that drops rather than rejects gives other results than the one that keeps:
`C51_stricter` is about policies that reject. -/
example : (expandDoc { exXEnv with opts := { vocab := .drop } } {}
      (exCtxDoc [("@vocab".toList, .str "http:v/".toList)] (exKey "a".toList))).toOption = some [] ∧
    (expandDoc exXEnv {} (exCtxDoc [("@vocab".toList, .str "http:v/".toList)] (exKey "a".toList))).toOption =
      some [.node (.mk none none none none none [(.iri "http:v/a".toList,
        [.value none (.literal (.str "1".toList) none)])] none)] ∧
    (match expandDoc { exXEnv with opts := { vocab := .reject } } {}
        (exCtxDoc [("@vocab".toList, .str "http:v/".toList)] (exKey "a".toList)) with
      | .error .forbiddenVocab => true
      | _ => false) = true := by
  decide +kernel

end JsonLd.Props
