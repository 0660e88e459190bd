import Verif.Spec.Header
/-!
# Lemmas about the header parsers
-/

namespace JsonLd
open Spec

theorem paramGet_reverse (kvs : List (Bytes × Bytes)) (k : Bytes) :
    paramGet kvs.reverse k = lastValue kvs k := by
  have h : ∀ l : List (Bytes × Bytes), paramGet l k = ((l.filter fun e => e.1 = k).head?).map (·.2) := by
    intro l
    induction l with
    | nil => rfl
    | cons e l ih =>
      obtain ⟨a, b⟩ := e
      simp only [paramGet]
      by_cases hk : a = k
      · simp [hk]
      · simp [hk, ih]
  rw [h, lastValue, List.filter_reverse, List.head?_reverse]

namespace Link

theorem run_href (v : Vars) (hs : v.state = .href) (bs : Bytes) (r : Raw) :
    run v bs = some r ↔ ∃ h rest, bs = h ++ 62 :: rest ∧ 62 ∉ h ∧
      run { v with state := .nextParam, href := v.href ++ h } rest = some r := by
  induction bs generalizing v with
  | nil => simp [run, finish, hs]
  | cons b bs ih =>
    by_cases hb : b = 62
    · subst hb
      have : step v 62 = some { v with state := .nextParam } := by simp [step, hs]; decide
      simp only [run, this]
      constructor
      · intro h; exact ⟨[], bs, rfl, by simp, by simpa using h⟩
      · rintro ⟨h, rest, he, hn, hr⟩
        cases h with
        | nil => simp only [List.nil_append, List.cons.injEq, true_and] at he; subst he; simpa using hr
        | cons x h => simp at he hn; exact absurd he.1.symm (fun e => hn.1 e.symm)
    · have : step v b = some { v with href := v.href ++ [b] } := by
        have : b ≠ '>'.toUInt8 := hb
        simp [step, hs, this]
      simp only [run, this]
      rw [ih { v with href := v.href ++ [b] } hs]
      constructor
      · rintro ⟨h, rest, he, hn, hr⟩
        exact ⟨b :: h, rest, by simp [he], by simp [hn, Ne.symm hb], by simpa using hr⟩
      · rintro ⟨h, rest, he, hn, hr⟩
        cases h with
        | nil => simp at he; exact absurd he.1 hb
        | cons x h =>
          simp only [List.cons_append, List.cons.injEq] at he
          obtain ⟨rfl, rfl⟩ := he
          refine ⟨h, rest, rfl, by simp at hn; exact hn.2, by simpa using hr⟩

theorem run_key (v : Vars) (hs : v.state = .key) (bs : Bytes) (r : Raw) :
    run v bs = some r ↔ ∃ h rest, bs = h ++ 61 :: rest ∧ 61 ∉ h ∧
      run { v with state := .beginValue, key := v.key ++ h } rest = some r := by
  induction bs generalizing v with
  | nil => simp [run, finish, hs]
  | cons b bs ih =>
    by_cases hb : b = 61
    · subst hb
      have : step v 61 = some { v with state := .beginValue } := by simp [step, hs]; decide
      simp only [run, this]
      constructor
      · intro h; exact ⟨[], bs, rfl, by simp, by simpa using h⟩
      · rintro ⟨h, rest, he, hn, hr⟩
        cases h with
        | nil => simp only [List.nil_append, List.cons.injEq, true_and] at he; subst he; simpa using hr
        | cons x h => simp at he hn; exact absurd he.1.symm (fun e => hn.1 e.symm)
    · have : step v b = some { v with key := v.key ++ [b] } := by
        have : b ≠ '='.toUInt8 := hb
        simp [step, hs, this]
      simp only [run, this]
      rw [ih { v with key := v.key ++ [b] } hs]
      constructor
      · rintro ⟨h, rest, he, hn, hr⟩
        exact ⟨b :: h, rest, by simp [he], by simp [hn, Ne.symm hb], by simpa using hr⟩
      · rintro ⟨h, rest, he, hn, hr⟩
        cases h with
        | nil => simp at he; exact absurd he.1 hb
        | cons x h =>
          simp only [List.cons_append, List.cons.injEq] at he
          obtain ⟨rfl, rfl⟩ := he
          refine ⟨h, rest, rfl, by simp at hn; exact hn.2, by simpa using hr⟩

theorem run_value (v : Vars) (hs : v.state = .value) (bs : Bytes) (r : Raw) :
    run v bs = some r ↔ ∃ h rest, bs = h ++ 34 :: rest ∧ 34 ∉ h ∧
      run { v with state := .nextParam, key := [], value := [],
                   params := (v.key, v.value ++ h) :: v.params } rest = some r := by
  induction bs generalizing v with
  | nil => simp [run, finish, hs]
  | cons b bs ih =>
    by_cases hb : b = 34
    · subst hb
      have : step v 34 = some { v with params := (v.key, v.value) :: v.params, key := [],
                                       value := [], state := .nextParam } := by
        simp [step, hs]; decide
      simp only [run, this]
      constructor
      · intro h; exact ⟨[], bs, rfl, by simp, by simpa using h⟩
      · rintro ⟨h, rest, he, hn, hr⟩
        cases h with
        | nil => simp only [List.nil_append, List.cons.injEq, true_and] at he; subst he; simpa using hr
        | cons x h => simp at he hn; exact absurd he.1.symm (fun e => hn.1 e.symm)
    · have : step v b = some { v with value := v.value ++ [b] } := by
        have : b ≠ '"'.toUInt8 := hb
        simp [step, hs, this]
      simp only [run, this]
      rw [ih { v with value := v.value ++ [b] } hs]
      constructor
      · rintro ⟨h, rest, he, hn, hr⟩
        exact ⟨b :: h, rest, by simp [he], by simp [hn, Ne.symm hb], by simpa using hr⟩
      · rintro ⟨h, rest, he, hn, hr⟩
        cases h with
        | nil => simp at he; exact absurd he.1 hb
        | cons x h =>
          simp only [List.cons_append, List.cons.injEq] at he
          obtain ⟨rfl, rfl⟩ := he
          refine ⟨h, rest, rfl, by simp at hn; exact hn.2, by simpa using hr⟩

theorem run_beginKey (v : Vars) (hs : v.state = .beginKey) (bs : Bytes) (r : Raw) :
    run v bs = some r ↔ ∃ n b rest, bs = List.replicate n 32 ++ b :: rest ∧ b ≠ 32 ∧
      run { v with state := .key, key := v.key ++ [b] } rest = some r := by
  induction bs with
  | nil => simp [run, finish, hs]
  | cons b bs ih =>
    by_cases hb : b = 32
    · subst hb
      have : step v 32 = some v := by
        simp only [step, hs]; exact if_pos (by decide)
      simp only [run, this]
      rw [ih]
      constructor
      · rintro ⟨n, b, rest, rfl, hn, hr⟩
        exact ⟨n + 1, b, rest, by simp [List.replicate_succ], hn, hr⟩
      · rintro ⟨n, b, rest, he, hn, hr⟩
        cases n with
        | zero => simp at he; exact absurd he.1.symm hn
        | succ n =>
          simp only [List.replicate_succ, List.cons_append, List.cons.injEq, true_and] at he
          exact ⟨n, b, rest, he, hn, hr⟩
    · have : step v b = some { v with key := v.key ++ [b], state := .key } := by
        have : b ≠ ' '.toUInt8 := hb
        simp [step, hs, this]
      simp only [run, this]
      constructor
      · intro h; exact ⟨0, b, bs, rfl, hb, h⟩
      · rintro ⟨n, b', rest, he, hn, hr⟩
        cases n with
        | zero => simp at he; obtain ⟨rfl, rfl⟩ := he; exact hr
        | succ n =>
          simp only [List.replicate_succ, List.cons_append, List.cons.injEq] at he
          exact absurd he.1 hb

theorem run_nextParam (v : Vars) (hs : v.state = .nextParam) (hk : v.key = []) (hv : v.value = [])
    (bs : Bytes) (r : Raw) :
    run v bs = some r ↔ ∃ ps : List LinkParam, (∀ p ∈ ps, p.Valid) ∧ bs = ps.flatMap LinkParam.print ∧
      r = ⟨v.href, (ps.map fun p => (p.key, p.value)).reverse ++ v.params⟩ := by
  induction hn : bs.length using Nat.strongRecOn generalizing bs v with
  | _ n ih =>
  cases bs with
  | nil =>
    simp only [run, finish, hs, Option.some.injEq]
    constructor
    · rintro rfl; exact ⟨[], by simp, by simp, by simp⟩
    · rintro ⟨ps, _, hp, rfl⟩
      cases ps with
      | nil => simp
      | cons p ps => simp [LinkParam.print] at hp
  | cons b bs =>
    by_cases hb : b = 59
    · subst hb
      have : step v 59 = some { v with state := .beginKey } := by simp [step, hs]; decide
      simp only [run, this]
      rw [run_beginKey _ rfl]
      simp only
      constructor
      · rintro ⟨m, b, rest, rfl, hb, hr⟩
        rw [run_key _ rfl] at hr
        obtain ⟨k, rest2, rfl, hk2, hr⟩ := hr
        cases rest2 with
        | nil => simp [run, finish] at hr
        | cons q rest2 =>
          by_cases hq : q = 34
          · subst hq
            have hst : ∀ w : Vars, w.state = .beginValue → step w 34 = some { w with state := .value } := by
              intro w hw; simp [step, hw]; decide
            rw [run, hst _ rfl] at hr
            simp only at hr
            rw [run_value _ rfl] at hr
            obtain ⟨val, rest3, rfl, hval, hr⟩ := hr
            rw [ih _ (by subst hn; simp; omega) _ rfl rfl rfl _ rfl] at hr
            obtain ⟨ps, hps, rfl, rfl⟩ := hr
            refine ⟨⟨m, b :: k, val⟩ :: ps, ?_, ?_, ?_⟩
            · intro p hp
              rcases List.mem_cons.1 hp with rfl | hp
              · exact ⟨⟨b, k, rfl, hb, hk2⟩, hval⟩
              · exact hps p hp
            · simp [LinkParam.print]
            · simp [hk, hv]
          · have : ∀ w : Vars, w.state = .beginValue → step w q = none := by
              intro w hw
              have : q ≠ '"'.toUInt8 := hq
              simp [step, hw, this]
            rw [run, this _ rfl] at hr
            simp at hr
      · rintro ⟨ps, hps, hp, rfl⟩
        cases ps with
        | nil => simp at hp
        | cons p ps =>
          obtain ⟨m, key, val⟩ := p
          obtain ⟨⟨b, k, hkey, hb, hk2⟩, hval⟩ := hps _ List.mem_cons_self
          simp only at hkey hval
          subst hkey
          simp only [LinkParam.print, List.flatMap_cons, List.cons_append, List.cons.injEq,
            true_and] at hp
          subst hp
          refine ⟨m, b, _, by rw [List.append_assoc, List.cons_append], hb, ?_⟩
          rw [run_key _ rfl]
          refine ⟨k, _, by rw [List.append_assoc, List.cons_append], hk2, ?_⟩
          have hst : ∀ w : Vars, w.state = .beginValue → step w 34 = some { w with state := .value } := by
            intro w hw; simp [step, hw]; decide
          rw [List.cons_append, run, hst _ rfl]
          simp only
          rw [run_value _ rfl]
          refine ⟨val, _, by rw [List.append_assoc, List.cons_append], hval, ?_⟩
          simp only [List.nil_append]
          rw [ih _ (by subst hn; simp; omega) _ rfl rfl rfl _ rfl]
          refine ⟨ps, fun p hp => hps p (by simp [hp]), rfl, ?_⟩
          simp [hk, hv]
    · have : step v b = none := by
        have : b ≠ ';'.toUInt8 := hb
        simp [step, hs, this]
      simp only [run, this]
      constructor
      · simp
      · rintro ⟨ps, _, hp, _⟩
        cases ps with
        | nil => simp at hp
        | cons p ps => simp [LinkParam.print] at hp; exact absurd hp.1 hb

/-- The bytes accepted by the `Link` parser are exactly the printed forms. -/
theorem run_iff (bs : Bytes) (r : Raw) :
    run {} bs = some r ↔ ∃ href ps, (62 : UInt8) ∉ href ∧ (∀ p ∈ ps, LinkParam.Valid p) ∧
      bs = printLink href ps ∧ r = ⟨href, (ps.map fun p => (p.key, p.value)).reverse⟩ := by
  cases bs with
  | nil => simp [run, finish, printLink]
  | cons b bs =>
    by_cases hb : b = 60
    · subst hb
      have : step {} 60 = some { state := .href } := by decide
      simp only [run, this]
      rw [run_href _ rfl]
      constructor
      · rintro ⟨h, rest, rfl, hh, hr⟩
        rw [run_nextParam _ rfl rfl rfl] at hr
        obtain ⟨ps, hps, rfl, rfl⟩ := hr
        exact ⟨h, ps, hh, hps, rfl, by simp⟩
      · rintro ⟨h, ps, hh, hps, hp, rfl⟩
        simp only [printLink, List.cons.injEq, true_and] at hp
        subst hp
        refine ⟨h, _, rfl, hh, ?_⟩
        rw [run_nextParam _ rfl rfl rfl]
        exact ⟨ps, hps, rfl, by simp⟩
    · have : step {} b = none := by
        have : b ≠ '<'.toUInt8 := hb
        simp [step, this]
      simp only [run, this]
      constructor
      · simp
      · rintro ⟨h, ps, _, _, hp, _⟩
        simp [printLink] at hp
        exact absurd hp.1 hb

end Link

namespace ContentType

theorem run_key (v : Vars) (hs : v.state = .key) (bs : Bytes) (r : Raw) :
    run v bs = some r ↔ ∃ h rest, bs = h ++ 61 :: rest ∧ 61 ∉ h ∧
      run { v with state := .beginValue, key := v.key ++ h } rest = some r := by
  induction bs generalizing v with
  | nil => simp [run, finish, hs]
  | cons b bs ih =>
    by_cases hb : b = 61
    · subst hb
      have : step v 61 = some { v with state := .beginValue } := by simp [step, hs]; decide
      simp only [run, this]
      constructor
      · intro h; exact ⟨[], bs, rfl, by simp, by simpa using h⟩
      · rintro ⟨h, rest, he, hn, hr⟩
        cases h with
        | nil => simp only [List.nil_append, List.cons.injEq, true_and] at he; subst he; simpa using hr
        | cons x h => simp at he hn; exact absurd he.1.symm (fun e => hn.1 e.symm)
    · have : step v b = some { v with key := v.key ++ [b] } := by
        have : b ≠ '='.toUInt8 := hb
        simp [step, hs, this]
      simp only [run, this]
      rw [ih { v with key := v.key ++ [b] } hs]
      constructor
      · rintro ⟨h, rest, he, hn, hr⟩
        exact ⟨b :: h, rest, by simp [he], by simp [hn, Ne.symm hb], by simpa using hr⟩
      · rintro ⟨h, rest, he, hn, hr⟩
        cases h with
        | nil => simp at he; exact absurd he.1 hb
        | cons x h =>
          simp only [List.cons_append, List.cons.injEq] at he
          obtain ⟨rfl, rfl⟩ := he
          refine ⟨h, rest, rfl, by simp at hn; exact hn.2, by simpa using hr⟩

theorem run_quoted (v : Vars) (hs : v.state = .quotedValue) (bs : Bytes) (r : Raw) :
    run v bs = some r ↔ ∃ h rest, bs = h ++ 34 :: rest ∧ 34 ∉ h ∧
      run { v with state := .nextParam, key := [], value := [],
                   params := (v.key, v.value ++ h) :: v.params } rest = some r := by
  induction bs generalizing v with
  | nil => simp [run, finish, hs]
  | cons b bs ih =>
    by_cases hb : b = 34
    · subst hb
      have : step v 34 = some { v with params := (v.key, v.value) :: v.params, key := [],
                                       value := [], state := .nextParam } := by
        simp [step, hs]; decide
      simp only [run, this]
      constructor
      · intro h; exact ⟨[], bs, rfl, by simp, by simpa using h⟩
      · rintro ⟨h, rest, he, hn, hr⟩
        cases h with
        | nil => simp only [List.nil_append, List.cons.injEq, true_and] at he; subst he; simpa using hr
        | cons x h => simp at he hn; exact absurd he.1.symm (fun e => hn.1 e.symm)
    · have : step v b = some { v with value := v.value ++ [b] } := by
        have : b ≠ '"'.toUInt8 := hb
        simp [step, hs, this]
      simp only [run, this]
      rw [ih { v with value := v.value ++ [b] } hs]
      constructor
      · rintro ⟨h, rest, he, hn, hr⟩
        exact ⟨b :: h, rest, by simp [he], by simp [hn, Ne.symm hb], by simpa using hr⟩
      · rintro ⟨h, rest, he, hn, hr⟩
        cases h with
        | nil => simp at he; exact absurd he.1 hb
        | cons x h =>
          simp only [List.cons_append, List.cons.injEq] at he
          obtain ⟨rfl, rfl⟩ := he
          refine ⟨h, rest, rfl, by simp at hn; exact hn.2, by simpa using hr⟩

theorem run_beginKey (v : Vars) (hs : v.state = .beginKey) (bs : Bytes) (r : Raw) :
    run v bs = some r ↔ ∃ n b rest, bs = List.replicate n 32 ++ b :: rest ∧ b ≠ 32 ∧
      run { v with state := .key, key := v.key ++ [b] } rest = some r := by
  induction bs with
  | nil => simp [run, finish, hs]
  | cons b bs ih =>
    by_cases hb : b = 32
    · subst hb
      have : step v 32 = some v := by
        simp only [step, hs]; exact if_pos (by decide)
      simp only [run, this]
      rw [ih]
      constructor
      · rintro ⟨n, b, rest, rfl, hn, hr⟩
        exact ⟨n + 1, b, rest, by simp [List.replicate_succ], hn, hr⟩
      · rintro ⟨n, b, rest, he, hn, hr⟩
        cases n with
        | zero => simp at he; exact absurd he.1.symm hn
        | succ n =>
          simp only [List.replicate_succ, List.cons_append, List.cons.injEq, true_and] at he
          exact ⟨n, b, rest, he, hn, hr⟩
    · have : step v b = some { v with key := v.key ++ [b], state := .key } := by
        have : b ≠ ' '.toUInt8 := hb
        simp [step, hs, this]
      simp only [run, this]
      constructor
      · intro h; exact ⟨0, b, bs, rfl, hb, h⟩
      · rintro ⟨n, b', rest, he, hn, hr⟩
        cases n with
        | zero => simp at he; obtain ⟨rfl, rfl⟩ := he; exact hr
        | succ n =>
          simp only [List.replicate_succ, List.cons_append, List.cons.injEq] at he
          exact absurd he.1 hb

/-- Unquoted values end at the end of the input or before a `;`. -/
theorem run_value (v : Vars) (hs : v.state = .value) (bs : Bytes) (r : Raw) :
    run v bs = some r ↔ ∃ h rest, bs = h ++ rest ∧ 59 ∉ h ∧ (rest = [] ∨ ∃ t, rest = 59 :: t) ∧
      run { v with state := .nextParam, key := [], value := [],
                   params := (v.key, v.value ++ h) :: v.params } rest = some r := by
  induction bs generalizing v with
  | nil =>
    simp only [run, finish, hs, Option.some.injEq]
    constructor
    · rintro rfl; exact ⟨[], [], by simp, by simp, by simp, by simp [run, finish]⟩
    · rintro ⟨h, rest, he, _, _, hr⟩
      have : h = [] ∧ rest = [] := by simpa using he.symm
      obtain ⟨rfl, rfl⟩ := this
      simpa [run, finish] using hr
  | cons b bs ih =>
    by_cases hb : b = 59
    · subst hb
      have : step v 59 = some { v with params := (v.key, v.value) :: v.params, key := [],
                                       value := [], state := .beginKey } := by
        simp [step, hs]; decide
      have hst2 : ∀ w : Vars, w.state = .nextParam → step w 59 = some { w with state := .beginKey } := by
        intro w hw; simp [step, hw]; decide
      simp only [run, this]
      constructor
      · intro h
        refine ⟨[], 59 :: bs, rfl, by simp, .inr ⟨bs, rfl⟩, ?_⟩
        rw [run, hst2 _ rfl]
        simpa using h
      · rintro ⟨h, rest, he, hn, hrest, hr⟩
        cases h with
        | nil =>
          simp only [List.nil_append] at he
          subst he
          rw [run, hst2 _ rfl] at hr
          simpa using hr
        | cons x h => simp at he hn; exact absurd he.1.symm (fun e => hn.1 e.symm)
    · have : step v b = some { v with value := v.value ++ [b] } := by
        have : b ≠ ';'.toUInt8 := hb
        simp [step, hs, this]
      simp only [run, this]
      rw [ih { v with value := v.value ++ [b] } hs]
      constructor
      · rintro ⟨h, rest, he, hn, hrest, hr⟩
        exact ⟨b :: h, rest, by simp [he], by simp [hn, Ne.symm hb], hrest, by simpa using hr⟩
      · rintro ⟨h, rest, he, hn, hrest, hr⟩
        cases h with
        | nil =>
          simp only [List.nil_append] at he
          subst he
          rcases hrest with h | ⟨t, h⟩
          · cases h
          · cases h; exact absurd rfl hb
        | cons x h =>
          simp only [List.cons_append, List.cons.injEq] at he
          obtain ⟨rfl, rfl⟩ := he
          refine ⟨h, rest, rfl, by simp at hn; exact hn.2, hrest, by simpa using hr⟩

theorem flatMap_print_start (ps : List CtParam) :
    ps.flatMap CtParam.print = [] ∨ ∃ t, ps.flatMap CtParam.print = 59 :: t := by
  cases ps with
  | nil => simp
  | cons p ps => right; simp only [List.flatMap_cons, CtParam.print, List.cons_append]; exact ⟨_, rfl⟩

theorem run_nextParam (v : Vars) (hs : v.state = .nextParam) (hk : v.key = []) (hv : v.value = [])
    (bs : Bytes) (r : Raw) :
    run v bs = some r ↔ ∃ ps : List CtParam, (∀ p ∈ ps, p.Valid) ∧ bs = ps.flatMap CtParam.print ∧
      r = ⟨v.mime, (ps.map fun p => (p.key, p.value)).reverse ++ v.params⟩ := by
  induction hn : bs.length using Nat.strongRecOn generalizing bs v with
  | _ n ih =>
  have hstq : ∀ w : Vars, w.state = .beginValue → step w 34 = some { w with state := .quotedValue } := by
    intro w hw; simp [step, hw]; decide
  have hstu : ∀ w : Vars, w.state = .beginValue → ∀ q, q ≠ 34 →
      step w q = some { w with state := .value, value := w.value ++ [q] } := by
    intro w hw q hq
    have : q ≠ '"'.toUInt8 := hq
    simp [step, hw, this]
  cases bs with
  | nil =>
    simp only [run, finish, hs, Option.some.injEq]
    constructor
    · rintro rfl; exact ⟨[], by simp, by simp, by simp⟩
    · rintro ⟨ps, _, hp, rfl⟩
      cases ps with
      | nil => simp
      | cons p ps => simp [CtParam.print] at hp
  | cons b bs =>
    by_cases hb : b = 59
    · subst hb
      have : step v 59 = some { v with state := .beginKey } := by simp [step, hs]; decide
      simp only [run, this]
      rw [run_beginKey _ rfl]
      simp only
      constructor
      · rintro ⟨m, b, rest, rfl, hb, hr⟩
        rw [run_key _ rfl] at hr
        obtain ⟨k, rest2, rfl, hk2, hr⟩ := hr
        cases rest2 with
        | nil => simp [run, finish] at hr
        | cons q rest2 =>
          by_cases hq : q = 34
          · subst hq
            rw [run, hstq _ rfl] at hr
            simp only at hr
            rw [run_quoted _ rfl] at hr
            obtain ⟨val, rest3, rfl, hval, hr⟩ := hr
            rw [ih _ (by subst hn; simp; omega) _ rfl rfl rfl _ rfl] at hr
            obtain ⟨ps, hps, rfl, rfl⟩ := hr
            refine ⟨⟨m, b :: k, true, val⟩ :: ps, ?_, ?_, ?_⟩
            · intro p hp
              rcases List.mem_cons.1 hp with rfl | hp
              · exact ⟨⟨b, k, rfl, hb, hk2⟩, by simpa using hval⟩
              · exact hps p hp
            · simp [CtParam.print]
            · simp [hk, hv]
          · rw [run, hstu _ rfl _ hq] at hr
            simp only at hr
            rw [run_value _ rfl] at hr
            obtain ⟨val, rest3, rfl, hval, _, hr⟩ := hr
            rw [ih _ (by subst hn; simp; omega) _ rfl rfl rfl _ rfl] at hr
            obtain ⟨ps, hps, rfl, rfl⟩ := hr
            refine ⟨⟨m, b :: k, false, q :: val⟩ :: ps, ?_, ?_, ?_⟩
            · intro p hp
              rcases List.mem_cons.1 hp with rfl | hp
              · exact ⟨⟨b, k, rfl, hb, hk2⟩, by
                  simp only [Bool.false_eq_true, if_false]; exact ⟨q, val, rfl, hq, hval⟩⟩
              · exact hps p hp
            · simp [CtParam.print]
            · simp [hk, hv]
      · rintro ⟨ps, hps, hp, rfl⟩
        cases ps with
        | nil => simp at hp
        | cons p ps =>
          obtain ⟨m, key, quoted, val⟩ := p
          obtain ⟨⟨b, k, hkey, hb, hk2⟩, hval⟩ := hps _ List.mem_cons_self
          simp only at hkey hval
          subst hkey
          simp only [CtParam.print, List.flatMap_cons, List.cons_append, List.cons.injEq,
            true_and] at hp
          subst hp
          refine ⟨m, b, _, by rw [List.append_assoc, List.cons_append], hb, ?_⟩
          rw [run_key _ rfl]
          refine ⟨k, _, by rw [List.append_assoc, List.cons_append], hk2, ?_⟩
          cases quoted with
          | true =>
            simp only [if_true] at hval ⊢
            rw [List.cons_append, run, hstq _ rfl]
            simp only
            rw [run_quoted _ rfl]
            refine ⟨val, _, by rw [List.append_assoc, List.cons_append], hval, ?_⟩
            simp only [List.nil_append]
            rw [ih _ (by subst hn; simp; omega) _ rfl rfl rfl _ rfl]
            refine ⟨ps, fun p hp => hps p (by simp [hp]), rfl, ?_⟩
            simp [hk, hv]
          | false =>
            simp only [Bool.false_eq_true, if_false] at hval ⊢
            obtain ⟨q, val', rfl, hq, hval'⟩ := hval
            rw [List.cons_append, run, hstu _ rfl _ hq]
            simp only
            rw [run_value _ rfl]
            refine ⟨val', _, rfl, hval', flatMap_print_start ps, ?_⟩
            rw [ih _ (by subst hn; simp; omega) _ rfl rfl rfl _ rfl]
            refine ⟨ps, fun p hp => hps p (by simp [hp]), rfl, ?_⟩
            simp [hk, hv]
    · have : step v b = none := by
        have : b ≠ ';'.toUInt8 := hb
        simp [step, hs, this]
      simp only [run, this]
      constructor
      · simp
      · rintro ⟨ps, _, hp, _⟩
        cases ps with
        | nil => simp at hp
        | cons p ps => simp [CtParam.print] at hp; exact absurd hp.1 hb

/-- The media type ends at the end of the input or before a `;`. -/
theorem run_mime (v : Vars) (hs : v.state = .mime) (hk : v.key = []) (hv : v.value = [])
    (bs : Bytes) (r : Raw) :
    run v bs = some r ↔ ∃ h rest, bs = h ++ rest ∧ 59 ∉ h ∧ (rest = [] ∨ ∃ t, rest = 59 :: t) ∧
      run { v with state := .nextParam, mime := v.mime ++ h } rest = some r := by
  induction bs generalizing v with
  | nil =>
    simp only [run, finish, hs, Option.some.injEq]
    constructor
    · rintro rfl; exact ⟨[], [], by simp, by simp, by simp, by simp [run, finish]⟩
    · rintro ⟨h, rest, he, _, _, hr⟩
      have : h = [] ∧ rest = [] := by simpa using he.symm
      obtain ⟨rfl, rfl⟩ := this
      simpa [run, finish] using hr
  | cons b bs ih =>
    by_cases hb : b = 59
    · subst hb
      have : step v 59 = some { v with state := .beginKey } := by
        simp [step, hs]; decide
      have hst2 : ∀ w : Vars, w.state = .nextParam → step w 59 = some { w with state := .beginKey } := by
        intro w hw; simp [step, hw]; decide
      simp only [run, this]
      constructor
      · intro h
        refine ⟨[], 59 :: bs, rfl, by simp, .inr ⟨bs, rfl⟩, ?_⟩
        rw [run, hst2 _ rfl]
        simpa using h
      · rintro ⟨h, rest, he, hn, hrest, hr⟩
        cases h with
        | nil =>
          simp only [List.nil_append] at he
          subst he
          rw [run, hst2 _ rfl] at hr
          simpa using hr
        | cons x h => simp at he hn; exact absurd he.1.symm (fun e => hn.1 e.symm)
    · have : step v b = some { v with mime := v.mime ++ [b] } := by
        have : b ≠ ';'.toUInt8 := hb
        simp [step, hs, this]
      simp only [run, this]
      rw [ih { v with mime := v.mime ++ [b] } hs hk hv]
      constructor
      · rintro ⟨h, rest, he, hn, hrest, hr⟩
        exact ⟨b :: h, rest, by simp [he], by simp [hn, Ne.symm hb], hrest, by simpa using hr⟩
      · rintro ⟨h, rest, he, hn, hrest, hr⟩
        cases h with
        | nil =>
          simp only [List.nil_append] at he
          subst he
          rcases hrest with h | ⟨t, h⟩
          · cases h
          · cases h; exact absurd rfl hb
        | cons x h =>
          simp only [List.cons_append, List.cons.injEq] at he
          obtain ⟨rfl, rfl⟩ := he
          refine ⟨h, rest, rfl, by simp at hn; exact hn.2, hrest, by simpa using hr⟩

/-- The bytes accepted by the `Content-Type` parser are exactly the printed forms. -/
theorem run_iff (bs : Bytes) (r : Raw) :
    run {} bs = some r ↔ ∃ mime ps, (59 : UInt8) ∉ mime ∧ (∀ p ∈ ps, CtParam.Valid p) ∧
      bs = printContentType mime ps ∧ r = ⟨mime, (ps.map fun p => (p.key, p.value)).reverse⟩ := by
  rw [run_mime _ rfl rfl rfl]
  constructor
  · rintro ⟨h, rest, rfl, hh, _, hr⟩
    rw [run_nextParam _ rfl rfl rfl] at hr
    obtain ⟨ps, hps, rfl, rfl⟩ := hr
    exact ⟨h, ps, hh, hps, rfl, by simp⟩
  · rintro ⟨h, ps, hh, hps, rfl, rfl⟩
    refine ⟨h, _, rfl, hh, flatMap_print_start ps, ?_⟩
    rw [run_nextParam _ rfl rfl rfl]
    exact ⟨ps, hps, rfl, by simp⟩

end ContentType
end JsonLd
