import Verif.Base.Greedy
import Verif.Model.Multiset
import Verif.Model.LangString
import Verif.Proofs.Header
import Verif.Model.Loader
/-!
# C05–C10: multisets, language strings, headers, loaders
-/

namespace JsonLd.Props
open Spec

/-! ## C05: multisets -/

/-- C05: equality of multisets is equality up to reordering, for any lawful item equality. -/
theorem C05_eq_iff_perm {α : Type} (eq : α → α → Bool) (heq : ∀ a b, eq a b = true ↔ a = b)
    (as bs : List α) : compareUnordered eq as bs = true ↔ as.Perm bs := by
  have h := unorderedEq_map_iff (r := eq) (f := id) (g := id) (as := as) (bs := bs)
    (by intro a _ b _; simp [heq])
  rw [List.map_id, List.map_id] at h
  rw [← h]
  unfold compareUnordered unorderedEq
  by_cases hl : as.length = bs.length <;> simp [hl]

/-- C05: equality of multisets holds, for a symmetric and transitive equality of items,
exactly when the items can be matched one to one with equal items. -/
theorem C05_eq_up_to {α : Type} (eq : α → α → Bool)
    (hsymm : ∀ a b, eq a b = true → eq b a = true)
    (htrans : ∀ a b c, eq a b = true → eq b c = true → eq a c = true) (as bs : List α) :
    compareUnordered eq as bs = true ↔
      ∃ bs', bs'.Perm bs ∧ List.Forall₂ (fun a b => eq a b = true) as bs' := by
  have hu : compareUnordered eq as bs = unorderedEq eq as bs := by
    unfold compareUnordered unorderedEq
    by_cases hl : as.length = bs.length <;> simp [hl]
  rw [hu]
  constructor
  · exact unorderedEq_sound
  · rintro ⟨bs', hp, hf⟩
    refine unorderedEq_complete ?_ hp hf
    intro x _ x' _ y _ y' _ h1 h2 h3
    exact htrans _ _ _ h2 (htrans _ _ _ (hsymm _ _ h1) h3)

/-- C05: multisets which are reorderings of each other have the same hash, for any hash of items. -/
theorem C05_hash {α : Type} (h : α → UInt64) {as bs : List α} (hp : as.Perm bs) :
    multisetHash h as = multisetHash h bs := by
  unfold multisetHash
  refine List.Perm.foldl_eq' hp ?_ 0
  intro x _ y _ z
  rw [UInt64.add_assoc, UInt64.add_assoc, UInt64.add_comm (h x)]

/-- C05: more generally for item equalities which the item hash respects (the `Hash`/`Eq`
contract). -/
theorem C05_hash_up_to {α : Type} (eq : α → α → Bool) (h : α → UInt64)
    (hh : ∀ a b, eq a b = true → h a = h b) {as bs : List α}
    (he : compareUnordered eq as bs = true) : multisetHash h as = multisetHash h bs := by
  have hu : compareUnordered eq as bs = unorderedEq eq as bs := by
    unfold compareUnordered unorderedEq
    by_cases hl : as.length = bs.length <;> simp [hl]
  rw [hu] at he
  obtain ⟨bs', hp, hf⟩ := unorderedEq_sound he
  rw [← C05_hash h hp]
  unfold multisetHash
  generalize (0 : UInt64) = z
  clear hp hu he
  induction hf generalizing z with
  | nil => rfl
  | cons hab _ ih => simp only [List.foldl_cons, hh _ _ hab]; exact ih _

/-- C05: `insert_unique` never creates a duplicate, keeps every item and adds at most the new
one. -/
theorem C05_insert_unique {α : Type} [DecidableEq α] (items : List α) (x : α) :
    (items.Nodup → (multisetInsertUnique items x).1.Nodup) ∧
    (∀ y, y ∈ (multisetInsertUnique items x).1 ↔ y ∈ items ∨ y = x) ∧
    ((multisetInsertUnique items x).2 = true ↔ x ∉ items) := by
  unfold multisetInsertUnique multisetContains
  by_cases hx : x ∈ items
  · simp [hx]
  · simp [hx]
    intro hn
    rw [List.nodup_append]
    refine ⟨hn, by simp, ?_⟩
    intro a ha b hb
    simp only [List.mem_cons, List.not_mem_nil, or_false] at hb
    subst hb
    rintro rfl
    exact hx ha

example : compareUnordered (· == ·) [1, 2, 2, 3] [2, 3, 1, 2] = true ∧
    compareUnordered (· == ·) [1, 2, 2, 3] [2, 3, 1, 1] = false := by decide

/-! ## C06: language strings -/

/-- Having a language or a direction. -/
def Tagged (s : LangString) : Prop := s.language.isSome ∨ s.direction.isSome

/-- C06: whatever `new` accepts is tagged, and it accepts exactly what is. -/
theorem C06_new (d : Str) (l : Option Str) (dir : Option Direction) :
    (∀ s, LangString.new d l dir = .ok s → Tagged s ∧ s = ⟨d, l, dir⟩) ∧
    (LangString.new d l dir = .error d ↔ l = none ∧ dir = none) := by
  unfold LangString.new Tagged
  cases l <;> cases dir <;> simp

/-- C06: any history of setter calls keeps the string tagged and never changes its data. -/
theorem C06_history (s : LangString) (h : Tagged s) (calls : List LangString.Call) :
    Tagged (s.run calls) ∧ (s.run calls).data = s.data := by
  induction calls generalizing s with
  | nil => exact ⟨h, rfl⟩
  | cons c cs ih =>
    have : Tagged (s.step c).1 ∧ (s.step c).1.data = s.data := by
      obtain ⟨data, l, d⟩ := s
      unfold Tagged at *
      cases c with
      | setLanguage x => cases x <;> cases d <;> simp_all [LangString.step, LangString.setLanguage]
      | setDirection x => cases x <;> cases l <;> simp_all [LangString.step, LangString.setDirection]
      | set x y => cases x <;> cases y <;> simp_all [LangString.step, LangString.set]
    have ih := ih (s.step c).1 this.1
    exact ⟨ih.1, ih.2.trans this.2⟩

/-- C06: every call either is refused, changes nothing and would have left the string untagged, or
is accepted, sets exactly the requested parts and leaves it tagged. -/
theorem C06_step (s : LangString) (c : LangString.Call) :
    let want : LangString := match c with
      | .setLanguage l => { s with language := l }
      | .setDirection d => { s with direction := d }
      | .set l d => { s with language := l, direction := d }
    (s.step c = (s, false) ∧ ¬ Tagged want) ∨ (s.step c = (want, true) ∧ Tagged want) := by
  obtain ⟨data, l, d⟩ := s
  unfold Tagged
  cases c with
  | setLanguage x => cases x <;> cases d <;> simp [LangString.step, LangString.setLanguage]
  | setDirection x => cases x <;> cases l <;> simp [LangString.step, LangString.setDirection]
  | set x y => cases x <;> cases y <;> simp [LangString.step, LangString.set]

/-- The hypothesis is met, and refusals happen. -/
example : Tagged ⟨"x".toList, some "en".toList, none⟩ ∧
    LangString.step ⟨"x".toList, some "en".toList, none⟩ (.setLanguage none) =
      (⟨"x".toList, some "en".toList, none⟩, false) := by
  exact ⟨.inl rfl, by decide⟩

/-! ## C07: `Link` headers -/

/-- C07: the `Link` parser accepts exactly the printed headers whose href is a valid IRI reference
and returns exactly the printed href; looking up a parameter gives the value written last for that
key. `validRef` is arbitrary. -/
theorem C07_link (validRef : Bytes → Bool) (header href : Bytes) :
    (∃ r, Link.new validRef header = some r ∧ r.href = href) ↔
      ∃ ps : List LinkParam, (62 : UInt8) ∉ href ∧ (∀ p ∈ ps, p.Valid) ∧ validRef href = true ∧
        header = printLink href ps := by
  unfold Link.new
  constructor
  · rintro ⟨r, h, rfl⟩
    split at h
    · cases h
    · rename_i r' hr
      by_cases hv : validRef r'.href = true
      · simp only [hv, if_true, Option.some.injEq] at h
        subst h
        rw [Link.run_iff] at hr
        obtain ⟨hf, ps, h1, h2, rfl, rfl⟩ := hr
        exact ⟨ps, h1, h2, hv, rfl⟩
      · simp [hv] at h
  · rintro ⟨ps, h1, h2, hv, rfl⟩
    have := (Link.run_iff (printLink href ps) _).2 ⟨href, ps, h1, h2, rfl, rfl⟩
    rw [this]
    simp [hv]

/-- C07: the parameters of an accepted header. -/
theorem C07_params (validRef : Bytes → Bool) (href : Bytes) (ps : List LinkParam)
    (hh : (62 : UInt8) ∉ href) (hp : ∀ p ∈ ps, p.Valid) (hv : validRef href = true) :
    ∃ r, Link.new validRef (printLink href ps) = some r ∧ r.href = href ∧
      ∀ k, paramGet r.params k = lastValue (ps.map fun p => (p.key, p.value)) k := by
  refine ⟨⟨href, (ps.map fun p => (p.key, p.value)).reverse⟩, ?_, rfl, ?_⟩
  · unfold Link.new
    rw [(Link.run_iff (printLink href ps) _).2 ⟨href, ps, hh, hp, rfl, rfl⟩]
    simp [hv]
  · intro k
    rw [paramGet_reverse]

/-- `<x>; a="b"` is such a header. -/
example : printLink [120] [⟨1, [97], [98]⟩] = [60, 120, 62, 59, 32, 97, 61, 34, 98, 34] ∧
    (62 : UInt8) ∉ [(120 : UInt8)] ∧ LinkParam.Valid ⟨1, [97], [98]⟩ :=
  ⟨by decide, by decide, ⟨97, [], rfl, by decide, by decide⟩, by decide⟩

/-! ## C08: `Content-Type` headers -/

/-- C08: the `Content-Type` parser accepts exactly the printed headers whose media type is valid
and returns exactly the printed media type. -/
theorem C08_content_type (validMime : Bytes → Bool) (header mime : Bytes) :
    (∃ r, ContentType.new validMime header = some r ∧ r.mime = mime) ↔
      ∃ ps : List CtParam, (59 : UInt8) ∉ mime ∧ (∀ p ∈ ps, p.Valid) ∧ validMime mime = true ∧
        header = printContentType mime ps := by
  unfold ContentType.new
  constructor
  · rintro ⟨r, h, rfl⟩
    split at h
    · cases h
    · rename_i r' hr
      by_cases hv : validMime r'.mime = true
      · simp only [hv, if_true, Option.some.injEq] at h
        subst h
        rw [ContentType.run_iff] at hr
        obtain ⟨hf, ps, h1, h2, rfl, rfl⟩ := hr
        exact ⟨ps, h1, h2, hv, rfl⟩
      · simp [hv] at h
  · rintro ⟨ps, h1, h2, hv, rfl⟩
    have := (ContentType.run_iff (printContentType mime ps) _).2 ⟨mime, ps, h1, h2, rfl, rfl⟩
    rw [this]
    simp [hv]

/-- C08: the parameters (for instance the profile) of an accepted header. -/
theorem C08_params (validMime : Bytes → Bool) (mime : Bytes) (ps : List CtParam)
    (hh : (59 : UInt8) ∉ mime) (hp : ∀ p ∈ ps, p.Valid) (hv : validMime mime = true) :
    ∃ r, ContentType.new validMime (printContentType mime ps) = some r ∧ r.mime = mime ∧
      ∀ k, paramGet r.params k = lastValue (ps.map fun p => (p.key, p.value)) k := by
  refine ⟨⟨mime, (ps.map fun p => (p.key, p.value)).reverse⟩, ?_, rfl, ?_⟩
  · unfold ContentType.new
    rw [(ContentType.run_iff (printContentType mime ps) _).2 ⟨mime, ps, hh, hp, rfl, rfl⟩]
    simp [hv]
  · intro k
    rw [paramGet_reverse]

/-- `x;a=b; c="d;e"` is such a header. -/
example : printContentType [120] [⟨0, [97], false, [98]⟩, ⟨1, [99], true, [100, 59, 101]⟩] =
      [120, 59, 97, 61, 98, 59, 32, 99, 61, 34, 100, 59, 101, 34] ∧
    CtParam.Valid ⟨0, [97], false, [98]⟩ ∧ CtParam.Valid ⟨1, [99], true, [100, 59, 101]⟩ :=
  ⟨by decide, ⟨⟨97, [], rfl, by decide, by decide⟩, 98, [], rfl, by decide, by decide⟩,
    ⟨99, [], rfl, by decide, by decide⟩, by simp⟩

/-! ## C09: redirections -/

theorem httpLoop_spec {D : Type} (server : Nat → Str → Response D) (max : Nat) :
    ∀ fuel red url, red ≤ max + 1 → fuel = max + 2 - red →
      ∃ res reqs, httpLoop server max fuel red url = some (res, reqs) ∧
        reqs.length + red ≤ max + 1 ∧
        ((∃ u, res = .error (.tooManyRedirections u)) ↔ reqs.length + red = max + 1 ∧
          ∀ i (h : i < reqs.length), ∃ u, server (red + i) reqs[i] = .alternate u) := by
  intro fuel
  induction fuel with
  | zero => intro red url h1 h2; omega
  | succ fuel ih =>
    intro red url h1 h2
    unfold httpLoop
    by_cases hm : red > max
    · refine ⟨_, _, by simp only [hm, if_true]; rfl, by simp; omega, ?_⟩
      simp
      omega
    · simp only [hm, if_false]
      have h3 : fuel = max + 2 - (red + 1) := by omega
      cases hs : server red url with
      | sendError =>
        refine ⟨_, _, rfl, by simp; omega, ?_⟩
        simp
        intro _
        simp [hs]
      | status c =>
        refine ⟨_, _, rfl, by simp; omega, ?_⟩
        simp
        intro _
        simp [hs]
      | invalid =>
        refine ⟨_, _, rfl, by simp; omega, ?_⟩
        simp
        intro _
        simp [hs]
      | document d =>
        cases d with
        | ok d =>
          refine ⟨_, _, rfl, by simp; omega, ?_⟩
          simp
          intro _
          simp [hs]
        | error d =>
          refine ⟨_, _, rfl, by simp; omega, ?_⟩
          simp
          intro _
          simp [hs]
      | alternate url' =>
        obtain ⟨res, reqs, hl, hlen, hiff⟩ := ih (red + 1) url' (by omega) h3
        refine ⟨res, url :: reqs, by simp [hl], by simp; omega, ?_⟩
        rw [hiff]
        constructor
        · rintro ⟨h4, h5⟩
          refine ⟨by simp; omega, ?_⟩
          intro i hi
          cases i with
          | zero => exact ⟨url', hs⟩
          | succ i =>
            obtain ⟨u, hu⟩ := h5 i (by simpa using hi)
            exact ⟨u, by rw [List.getElem_cons_succ, ← hu]; congr 1; omega⟩
        · rintro ⟨h4, h5⟩
          refine ⟨by simp at h4; omega, ?_⟩
          intro i hi
          obtain ⟨u, hu⟩ := h5 (i + 1) (by simpa using hi)
          exact ⟨u, by rw [List.getElem_cons_succ] at hu; rw [← hu]; congr 1; omega⟩

/-- C09: loading always ends, whatever the server answers. -/
theorem C09_terminates {D : Type} (server : Nat → Str → Response D) (max : Nat) (url : Str) :
    (httpLoad server max url).isSome := by
  obtain ⟨res, reqs, h, _⟩ := httpLoop_spec server max (max + 2) 0 url (by omega) (by omega)
  simp [httpLoad, h]

/-- C09: at most `max + 1` requests are sent, and the too-many-redirections error is returned
exactly when `max + 1` requests were sent and every one of them was answered by a redirection. -/
theorem C09_bounded {D : Type} (server : Nat → Str → Response D) (max : Nat) (url : Str)
    {res : Except HttpError D} {reqs : List Str} (h : httpLoad server max url = some (res, reqs)) :
    reqs.length ≤ max + 1 ∧
    ((∃ u, res = .error (.tooManyRedirections u)) ↔ reqs.length = max + 1 ∧
      ∀ i (h : i < reqs.length), ∃ u, server i reqs[i] = .alternate u) := by
  obtain ⟨res', reqs', h', h1, h2⟩ := httpLoop_spec server max (max + 2) 0 url (by omega) (by omega)
  rw [httpLoad, h'] at h
  simp only [Option.some.injEq, Prod.mk.injEq] at h
  obtain ⟨rfl, rfl⟩ := h
  exact ⟨by simpa using h1, by simpa using h2⟩

/-- C09: the requests follow the redirections: the first is the asked URL and each next one is
where the previous answer pointed. -/
theorem C09_follows {D : Type} (server : Nat → Str → Response D) (max : Nat) :
    ∀ fuel red url (res : Except HttpError D) reqs,
      httpLoop server max fuel red url = some (res, reqs) →
      (∀ h : 0 < reqs.length, reqs[0] = url) ∧
      ∀ i (h : i + 1 < reqs.length), server (red + i) reqs[i] = .alternate reqs[i + 1] := by
  intro fuel
  induction fuel with
  | zero => intro red url res reqs h; simp [httpLoop] at h
  | succ fuel ih =>
    intro red url res reqs h
    unfold httpLoop at h
    by_cases hm : red > max
    · simp only [hm, if_true, Option.some.injEq, Prod.mk.injEq] at h
      obtain ⟨_, rfl⟩ := h
      simp
    · simp only [hm, if_false] at h
      cases hs : server red url with
      | alternate url' =>
        simp only [hs] at h
        cases hl : httpLoop server max fuel (red + 1) url' with
        | none => simp [hl] at h
        | some r =>
          obtain ⟨r1, r2⟩ := r
          simp only [hl, Option.some.injEq, Prod.mk.injEq] at h
          obtain ⟨rfl, rfl⟩ := h
          obtain ⟨h1, h2⟩ := ih _ _ _ _ hl
          refine ⟨by simp, ?_⟩
          intro i hi
          cases i with
          | zero => simp only [List.getElem_cons_zero, List.getElem_cons_succ, Nat.add_zero]
                    rw [hs, h1 (by simpa using hi)]
          | succ i =>
            have := h2 i (by simpa using hi)
            simp only [List.getElem_cons_succ]
            rw [← this]; congr 1; omega
      | sendError | status | invalid =>
        simp only [hs, Option.some.injEq, Prod.mk.injEq] at h
        obtain ⟨_, rfl⟩ := h
        simp
      | document d =>
        cases d <;>
        · simp only [hs, Option.some.injEq, Prod.mk.injEq] at h
          obtain ⟨_, rfl⟩ := h
          simp

/-- A server redirecting forever and a limit of 2: three requests, then the error. -/
example : httpLoad (D := Nat) (fun n _ => .alternate (List.replicate n 'a')) 2 "x".toList =
    some (.error (.tooManyRedirections "aa".toList), ["x".toList, [], "a".toList]) := rfl

/-! ## C10: loader composition -/

/-- C10: a chain answers with the first loader's document, else the second's, and fails exactly if
both fail, with both causes. -/
theorem C10_chain {D : Type} (l1 l2 : Loader D) (url : Str) :
    (∀ d, Loader.chain l1 l2 url = .ok d ↔
      l1 url = .ok d ∨ ((∃ e, l1 url = .error e) ∧ l2 url = .ok d)) ∧
    (∀ e, Loader.chain l1 l2 url = .error e ↔
      ∃ e1 e2, l1 url = .error e1 ∧ l2 url = .error e2 ∧
        e = ⟨e2.target, .chain e1.cause e2.cause⟩) := by
  unfold Loader.chain
  cases l1 url with
  | ok d => simp
  | error e1 =>
    cases l2 url with
    | ok d => simp
    | error e2 =>
      refine ⟨by simp, ?_⟩
      intro e
      constructor
      · intro h; cases h; exact ⟨e1, e2, rfl, rfl, rfl⟩
      · rintro ⟨e1', e2', h1, h2, rfl⟩; cases h1; cases h2; rfl

/-- C10: chaining is associative and `none` is neutral, as far as documents are concerned. -/
theorem C10_assoc {D : Type} (l1 l2 l3 : Loader D) (url : Str) (d : D) :
    (Loader.chain (Loader.chain l1 l2) l3 url = .ok d ↔
      Loader.chain l1 (Loader.chain l2 l3) url = .ok d) ∧
    (Loader.chain Loader.none_ l1 url = .ok d ↔ l1 url = .ok d) ∧
    (Loader.chain l1 Loader.none_ url = .ok d ↔ l1 url = .ok d) := by
  unfold Loader.chain Loader.none_
  cases l1 url <;> cases l2 url <;> cases l3 url <;> simp

/-- C10: the map loader returns exactly the document registered last for the URL. -/
theorem C10_map {D : Type} (inserts : List (Str × D)) (url : Str) :
    (∀ d, Loader.map inserts url = .ok d ↔
      ∃ before after, inserts = before ++ (url, d) :: after ∧ ∀ e ∈ after, e.1 ≠ url) ∧
    (Loader.map inserts url = .error ⟨url, .notFound⟩ ↔ ∀ e ∈ inserts, e.1 ≠ url) := by
  have key : (∀ d, Loader.mapGet inserts url = some d ↔
      ∃ before after, inserts = before ++ (url, d) :: after ∧ ∀ e ∈ after, e.1 ≠ url) ∧
      (Loader.mapGet inserts url = none ↔ ∀ e ∈ inserts, e.1 ≠ url) := by
    induction inserts with
    | nil => simp [Loader.mapGet]
    | cons e rest ih =>
      obtain ⟨k, d'⟩ := e
      cases hr : Loader.mapGet rest url with
      | some d2 =>
        simp only [Loader.mapGet, hr]
        refine ⟨?_, ?_⟩
        · intro d
          rw [← hr, ih.1 d]
          constructor
          · rintro ⟨b, a, rfl, h⟩; exact ⟨(k, d') :: b, a, rfl, h⟩
          · rintro ⟨b, a, he, h⟩
            cases b with
            | nil =>
              simp only [List.nil_append, List.cons.injEq] at he
              obtain ⟨_, rfl⟩ := he
              have := (ih.2.2 h)
              rw [hr] at this; cases this
            | cons x b =>
              simp only [List.cons_append, List.cons.injEq] at he
              exact ⟨b, a, he.2, h⟩
        · simp
          intro _
          have : ¬ ∀ e ∈ rest, e.1 ≠ url := by rw [← ih.2, hr]; simp
          simp at this
          exact this
      | none =>
        have hnone := ih.2.1 hr
        by_cases hk : k = url
        · subst hk
          simp only [Loader.mapGet, hr, if_true]
          refine ⟨?_, by simp⟩
          intro d
          constructor
          · intro h
            cases h
            exact ⟨[], rest, rfl, hnone⟩
          · rintro ⟨b, a, he, h⟩
            cases b with
            | nil => simp only [List.nil_append, List.cons.injEq, Prod.mk.injEq, true_and] at he
                     rw [he.1]
            | cons x b =>
              simp only [List.cons_append, List.cons.injEq] at he
              exact absurd rfl (hnone (k, d) (by rw [he.2]; simp))
        · simp only [Loader.mapGet, hr, hk, if_false]
          refine ⟨?_, ?_⟩
          · intro d
            constructor
            · simp
            · rintro ⟨b, a, he, h⟩
              cases b with
              | nil =>
                simp only [List.nil_append, List.cons.injEq, Prod.mk.injEq] at he
                exact absurd he.1.1 hk
              | cons x b =>
                simp only [List.cons_append, List.cons.injEq] at he
                exact absurd rfl (hnone (url, d) (by rw [he.2]; simp))
          · simp only [true_iff]
            intro e he
            rcases List.mem_cons.1 he with rfl | he
            · exact hk
            · exact hnone e he
  unfold Loader.map
  constructor
  · intro d
    rw [← key.1 d]
    cases Loader.mapGet inserts url <;> simp
  · rw [← key.2]
    cases Loader.mapGet inserts url <;> simp

/-- Re-registering replaces. -/
example : Loader.map [("a".toList, 1), ("b".toList, 2), ("a".toList, 3)] "a".toList
    = (.ok 3 : Except LoadError Nat) := by rfl

end JsonLd.Props
