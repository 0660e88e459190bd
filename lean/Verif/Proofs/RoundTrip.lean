import Verif.Proofs.PlainKeys
import Verif.Proofs.ProcessEnd
import Verif.Proofs.RoundAdd
/-!
# Expanding a compacted document
-/

namespace JsonLd
open Spec Props

section
variable {c : ACtx} (hc : PlainCtx c)
include hc

theorem get_plain {k : Str} {d : TermDef} (h : c.get k = some d) : PlainDef d := by
  unfold ACtx.get at h
  split at h
  · rw [hc.typeDef] at h; cases h
  · exact hc.defs (k, d) (lookupKey_mem h)

theorem get_bind {prop : Option Str} {d : TermDef} (h : prop.bind c.get = some d) : PlainDef d := by
  cases prop with
  | none => cases h
  | some k => exact get_plain hc h

theorem plain_noScoped : NoScoped c := fun _ _ h => (get_plain hc h).context

theorem defContainer_plain (prop : Option Str) : defContainer (prop.bind c.get) = .none := by
  cases h : prop.bind c.get with
  | none => rfl
  | some d => exact (get_bind hc h).container

theorem containerOf_plain (prop : Option Str) : containerOf (prop.bind c.get) = .none := by
  cases h : prop.bind c.get with
  | none => rfl
  | some d => exact (get_bind hc h).container

theorem defLanguage_plain (prop : Option Str) : defLanguage c (prop.bind c.get) = c.language := by
  cases h : prop.bind c.get with
  | none => rfl
  | some d => simp [defLanguage, (get_bind hc h).language]

theorem defDirection_plain (prop : Option Str) : defDirection c (prop.bind c.get) = c.direction := by
  cases h : prop.bind c.get with
  | none => rfl
  | some d => simp [defDirection, (get_bind hc h).direction]

theorem typ_plain (prop : Option Str) : (prop.bind c.get).bind (·.typ) = none := by
  cases h : prop.bind c.get with
  | none => rfl
  | some d => exact (get_bind hc h).typ

theorem reverseOf_plain (prop : Option Str) : reverseOf (prop.bind c.get) = false := by
  cases h : prop.bind c.get with
  | none => rfl
  | some d => exact (get_bind hc h).reverse

omit hc in
theorem contains_none (k : ContainerKind) : Container.none.contains k = false := by
  cases k <;> rfl

/-- The compacted value does not depend on the property. -/
theorem valueIn_plain {E : CEnv} (p q : Option Str) (i : Option Str) (v : Value) :
    valueIn E c (p.bind c.get) i v = valueIn E c (q.bind c.get) i v := by
  have h : ∀ p : Option Str, removeIndex (p.bind c.get) i = i.isNone := by
    intro p
    unfold removeIndex
    rw [defContainer_plain hc, contains_none]
    simp
  have h1 : ∀ p : Option Str, valueBare c (p.bind c.get) v = valueBare c none v := by
    intro p
    unfold valueBare
    rw [defLanguage_plain hc, defDirection_plain hc, typ_plain hc]
    rfl
  have h2 : ∀ p : Option Str, cValueIndex E c (p.bind c.get) i = cValueIndex E c none i := by
    intro p
    unfold cValueIndex
    cases i with
    | none => rfl
    | some i => 
      dsimp only
      rw [h p]
      rfl
  unfold valueIn
  rw [h p, h q, h1 p, h1 q, h2 p, h2 q]

theorem cScoped_plain {E : CEnv} (prop : Option Str) (c' : ACtx) (o : Opts) :
    cScoped E (prop.bind c.get) c' o = .ok c' := by
  unfold cScoped
  cases h : prop.bind c.get with
  | none => rfl
  | some d => dsimp only; rw [(get_bind hc h).context]

end

/-- A context without scoped contexts and without previous context. -/
structure CalmCtx (c : ACtx) : Prop where
  noScoped : NoScoped c
  previous : c.previous = none

theorem plain_calm {c : ACtx} (hc : PlainCtx c) : CalmCtx c := ⟨plain_noScoped hc, hc.previous⟩

section
variable {X : XEnv} (hv : X.opts.vocab = .keep)
include hv

theorem inputType_keep (c : ACtx) (tes : List (Str × Json)) : ∃ it, inputType X c tes = .ok it := by
  unfold inputType
  split
  · exact ⟨_, rfl⟩
  · split
    · exact xKey_keep hv c _
    · exact ⟨_, rfl⟩

theorem typeEntries_keep (c : ACtx) (m : List (Str × Json)) : ∃ tes, typeEntries X c m = .ok tes := by
  unfold typeEntries
  have : ∃ r, collectM (fun e => (xKey X c e.1).map fun t =>
      if t = some (.keyword .type) then [e] else []) m = .ok r := by
    induction m with
    | nil => exact ⟨_, rfl⟩
    | cons e m ih =>
      obtain ⟨t, ht⟩ := xKey_keep hv c e.1
      obtain ⟨r, hr⟩ := ih
      unfold collectM
      rw [ht, hr]
      exact ⟨_, rfl⟩
  obtain ⟨r, hr⟩ := this
  rw [hr]
  exact ⟨_, rfl⟩

/-- The entries as an object. -/
def xObj (es : List XEntry) : List (Str × Json) := es.map fun e => (e.key, e.value)

/-- The keys expand to the terms. -/
def Keyed (X : XEnv) (c : ACtx) (es : List XEntry) : Prop := ∀ e ∈ es, xKey X c e.key = .ok (some e.term)

omit hv in
theorem xEntries_keyed {c : ACtx} {es : List XEntry} (h : Keyed X c es) : xEntries X c (xObj es) = .ok es := by
  induction es with
  | nil => rfl
  | cons e es ih =>
    show (xKey X c e.key).bind _ = _
    rw [h e (by simp)]
    show (xEntries X c (xObj es)).map _ = _
    rw [ih fun x hx => h x (List.mem_cons_of_mem _ hx)]
    rfl

/-- An object in the context `c`. -/
theorem object_in {c0 c : ACtx} (hc : CalmCtx c) {prop : Option Str} {es : List XEntry} {fm : Bool}
    (h0 : objContext X c0 prop (xObj es) fm = .ok c) (hk : Keyed X c es) :
    ∃ it, expandElement X c0 prop (.obj (xObj es)) fm = elemKind X (unlimited X) c c prop it es := by
  obtain ⟨tes, htes⟩ := typeEntries_keep hv c (xObj es)
  obtain ⟨it, hit⟩ := inputType_keep hv c tes
  refine ⟨it, ?_⟩
  rw [C49_unfold]
  show elemObj .. = _
  unfold elemObj
  rw [h0]
  show (typeEntries X c _).bind _ = _
  rw [htes]
  show (typeScoped X c _).bind _ = _
  rw [noScoped_types hc.noScoped]
  show (inputType X c _).bind _ = _
  rw [hit]
  show (xEntries X c _).bind _ = _
  rw [xEntries_keyed hk]
  rfl

theorem plain_object {c : ACtx} (hc : CalmCtx c) (prop : Option Str) {es : List XEntry} (fm : Bool)
    (hk : Keyed X c es) (hx : ∀ e ∈ es, e.term ≠ .keyword .context) :
    ∃ it, expandElement X c prop (.obj (xObj es)) fm = elemKind X (unlimited X) c c prop it es := by
  refine object_in hv hc ?_ hk
  obtain ⟨r, hr⟩ := prelim_keep hv c (xObj es)
  unfold objContext
  rw [hr]
  show (scopedCtx X (prop.bind c.get) (revert c _ fm r) _).bind _ = _
  have h2 : revert c (xObj es) fm r = c := by unfold revert; rw [hc.previous]
  rw [h2, noScoped_ctx hc.noScoped]
  show localContext X c _ = _
  unfold localContext
  have : (xObj es).filter (fun e => decide (e.1 = "@context".toList)) = [] := by
    rw [List.filter_eq_nil_iff]
    intro x hx'
    obtain ⟨e, he, rfl⟩ := List.mem_map.1 hx'
    simp only [decide_eq_true_eq]
    intro h1
    have h2 := hk e he
    rw [show e.key = Keyword.context.intoStr from h1, xKey_kw] at h2
    simp only [Except.ok.injEq, Option.some.injEq] at h2
    exact hx e he h2.symm
  rw [this]

end

/-! ## Items -/

/-- The compacted form `j` stands for the object `o`, whatever the property. -/
structure Back (X : XEnv) (c : ACtx) (j : Json) (o : Obj) : Prop where
  notArray : NotArray j
  notNull : j.isNull = false
  expand : ∀ prop fm, prop ≠ some "@reverse".toList → (noProp prop = true → Says o) →
    expandElement X c prop j fm = .ok (.object o)

/-- What is asked of the objects inside. -/
structure CarriedItem (env : CompEnv) (c : ACtx) (y : Item) : Prop where
  node : ∀ n, y = .node n → CarriedNode env c n
  value : ∀ i v, y = .obj (.value i v) → CarriedValue env c v

/-- The object can be compacted without loss. -/
structure Carried (env : CompEnv) (c : ACtx) (o : Obj) : Prop where
  wf : o.WF
  items : ∀ y, Relation.ReflTransGen PartL y (.obj o) → CarriedItem env c y

/-- The recursive call gives what is wanted. -/
def RecBack (E : CEnv) (X : XEnv) (c : ACtx) (R : CRec) : Prop :=
  ∀ prop o j, Carried E.toCompEnv c o → R c c prop o = .ok j → Back X c j o

section
variable {E : CEnv} {X : XEnv} {c : ACtx} (H : RoundEnv E X c)
include H

omit H in
theorem valid_form (H : BaseEnv E X c) {p : Id} {b : Bool} (hp : Nameable E.toCompEnv c b p) : p.str.contains ':' = true ∧ p.isValid = true := by
  constructor
  · rcases hp.valid with h | h
    · obtain ⟨s, x, h1, _⟩ := H.iris.scheme _ h
      rw [h1]; simp
    · obtain ⟨x, h1⟩ := H.facts.blank _ h
      rw [h1]; simp
  · have hk := hp.kind
    unfold Id.classify at hk
    rcases hp.valid with h | h
    · rw [if_pos h] at hk
      rw [← hk]; rfl
    · split at hk
      · rw [← hk]; rfl
      · rw [← hk]; rfl

theorem faithful_of {v : Value} (hv : CarriedValue E.toCompEnv c v) (t : Str) :
    Faithful E.toCompEnv c t v ∧ CasedAs (defLanguage c (c.get t)) v := by
  have hl : defLanguage c (c.get t) = c.language := defLanguage_plain H.plain (some t)
  cases hv with
  | plain l h => exact ⟨.plain l h, nofun⟩
  | typed l ty h hn =>
    refine ⟨.typed l ty h ?_ hn.clear, nofun⟩
    have hk := hn.kind
    unfold Id.classify at hk
    split at hk
    · assumption
    · split at hk <;> cases hk
  | lang s h1 h2 h3 h4 h5 =>
    refine ⟨.lang s h1 h2 ?_ (fun h => .inr ⟨?_, (h3 h).symm⟩) (fun h => .inr ⟨?_, (h4 h).symm⟩), by rw [hl]; exact h5⟩
    · rintro ⟨d, m, hd, hm, _⟩
      rw [(get_plain H.plain hd).typ] at hm
      cases hm
    · exact fun d hd => (get_plain H.plain hd).language
    · exact fun d hd => (get_plain H.plain hd).direction
  | json j =>
    refine ⟨.json j fun d hd => ?_, nofun⟩
    rw [(get_plain H.plain hd).typ]
    exact nofun

omit H in
theorem backKeys_round (H : BaseEnv E X c) : BackKeys E X c := backKeys_of H.env H.vocab H.clean H.keywords

omit H in
theorem literal_json (l : Literal) (h : l ≠ .null) : NotArray l.toJson ∧ l.toJson.isNull = false := by
  cases l with
  | null => exact absurd rfl h
  | _ => exact ⟨nofun, rfl⟩

theorem value_json {v : Value} (hv : CarriedValue E.toCompEnv c v) {prop i : Option Str} {j : Json}
    (h : valueIn E c (prop.bind c.get) i v = .ok j) : NotArray j ∧ j.isNull = false := by
  unfold valueIn at h
  split at h
  · rename_i j' hj
    cases h
    split at hj
    · unfold valueBare at hj
      cases hv with
      | plain l h =>
        dsimp only at hj
        split at hj
        · split at hj
          · split at hj
            · cases hj; exact ⟨nofun, rfl⟩
            · cases hj
          · cases hj; exact literal_json l h
        · cases hj
      | typed l ty h =>
        dsimp only at hj
        split at hj
        · split at hj
          · split at hj
            · cases hj; exact ⟨nofun, rfl⟩
            · cases hj
          · cases hj; exact literal_json l h
        · cases hj
      | lang s =>
        dsimp only at hj
        split at hj
        · cases hj; exact ⟨nofun, rfl⟩
        · cases hj
      | json j =>
        dsimp only at hj
        rw [typ_plain H.plain, if_neg (by simp)] at hj
        cases hj
    · cases hj
  · obtain ⟨es, h1, h⟩ := exBind_ok h
    obtain ⟨ei, h2, rfl⟩ := exMap_ok h
    exact ⟨nofun, rfl⟩

/-- Values. -/
theorem back_value {v : Value} (hv : CarriedValue E.toCompEnv c v) {prop i : Option Str} {j : Json}
    (h : compactValue E c prop i v = .ok j) : Back X c j (.value i v) := by
  unfold compactValue at h
  rw [cScoped_plain H.plain] at h
  have h : valueIn E c (prop.bind c.get) i v = .ok j := h
  obtain ⟨h1, h2⟩ := value_json H hv h
  refine ⟨h1, h2, fun p fm hp hs => ?_⟩
  have hn : noProp p = false := by
    cases hn : noProp p with
    | false => rfl
    | true => obtain ⟨n, h, -⟩ := hs hn; cases h
  cases p with
  | none => cases hn
  | some t =>
    have ht : t ≠ "@graph".toList := by
      rintro rfl
      revert hn
      decide
    obtain ⟨hf, hcased⟩ := faithful_of H hv t
    rw [valueIn_plain H.plain prop (some t)] at h
    obtain ⟨v', h3, -, h4⟩ := value_back H.env H.vocab H.iris H.facts H.clean H.keywords (plain_noScoped H.plain) ht hf
      (show valueIn E c (c.get t) i v = .ok j from h) fm
    rw [h3, h4 hcased]
    have : removeIndex (c.get t) i = i.isNone := by
      unfold removeIndex
      have := defContainer_plain H.plain (some t)
      rw [show (some t).bind c.get = c.get t from rfl] at this
      rw [this, contains_none]
      simp
    rw [this]
    cases i <;> rfl

omit H in
/-- Items expanded one after the other. -/
theorem items_back {vs : List Json} {os : List Obj} (h : List.Forall₂ (Back X c) vs os) {prop : Option Str}
    (hp : prop ≠ some "@reverse".toList) (hs : noProp prop = true → ∀ o ∈ os, Says o) (fm : Bool) :
    xItems (unlimited X) c prop fm vs = .ok os := by
  unfold xItems
  induction h with
  | nil => rfl
  | cons h hs' ih =>
    unfold collectM
    rw [show (unlimited X).elem c prop _ fm = _ from h.expand prop fm hp fun hn => hs hn _ (by simp),
      ih fun hn o ho => hs hn o (List.mem_cons_of_mem _ ho)]
    rfl

/-- The value of a key. -/
theorem pack_back {vs : List Json} {os : List Obj} (h : List.Forall₂ (Back X c) vs os) (a : Bool) {prop : Option Str}
    (hp : prop ≠ some "@reverse".toList) (hs : noProp prop = true → ∀ o ∈ os, Says o) (fm : Bool) :
    ∃ x, expandElement X c prop (pack a vs) fm = .ok x ∧ x.toList = os ∧ x.isNull = false := by
  have harr : expandElement X c prop (.arr vs) fm = .ok (.array os) := by
    rw [C49_unfold]
    show elemArr (unlimited X) c prop vs fm = _
    unfold elemArr
    rw [items_back h hp hs, containerOf_plain H.plain, contains_none]
    rfl
  match vs, os, h with
  | [], _, h => exact ⟨_, harr, rfl, rfl⟩
  | [v], [o], h =>
    cases a with
    | true => exact ⟨_, harr, rfl, rfl⟩
    | false =>
      cases h with
      | cons h _ => exact ⟨.object o, h.expand prop fm hp fun hn => hs hn o (by simp), rfl, rfl⟩
  | _ :: _ :: _, _, h => exact ⟨_, harr, rfl, rfl⟩

omit H in
theorem back_force {vs : List Json} {os : List Obj} (h : List.Forall₂ (Back X c) vs os) (a : Bool) :
    forceArray (pack a vs) = vs := by
  match vs, os, h with
  | [], _, _ => rfl
  | [v], _, h =>
    cases a with
    | true => rfl
    | false =>
      cases h with
      | cons h _ =>
        show forceArray v = [v]
        have := h.notArray
        cases v with
        | arr l => exact absurd rfl (this l)
        | _ => rfl
  | _ :: _ :: _, _, _ => rfl

end

/-- Keywords compacted considering a value. -/
theorem keyword_with {E : CEnv} {X : XEnv} {c : ACtx} (H : BaseEnv E X c) {k : Keyword} {rev : Bool} {o : Obj}
    {s : Str} (h : itemKey E c (.keyword k) rev o = .ok (some s)) : xKey X c s = .ok (some (.keyword k)) := by
  have : expandIri X.toIriEnv c (some (Expandable.ofStr s)) false (some .keep) = .ok (some (.keyword k)) := by
    cases compactIriWith_by H.clean.distinct h with
    | term d h1 h2 h3 =>
      rw [ofStr_plain (H.clean.terms s d h2)]
      have := Expands.term (env := X.toIriEnv) (docRel := false) (voc := some .keep) d (H.clean.terms s d h2)
        ⟨h2, .inl rfl⟩
      rw [h3] at this
      exact (C33_exact ..).2 this
    | vocab v h1 h2 h3 => exact absurd ⟨s, h3.symm⟩ (H.keywords.vocab v h2 k)
    | prefixed h1 =>
      obtain ⟨p, m, x, h2, h3, h4, _⟩ := h1
      exact absurd ⟨x, h4.symm⟩ (H.keywords.prefixes p m h2 k)
    | relative i b h1 => cases h1
    | itself h1 h2 =>
      have h2 : s = k.intoStr := h2
      rw [h2]
      unfold Expandable.ofStr
      rw [C01_roundtrip]
      rfl
  unfold xKey xIri
  rw [H.vocab, this]

theorem id_with {E : CEnv} {X : XEnv} {c : ACtx} (H : BaseEnv E X c) {p : Id} (hp : Nameable E.toCompEnv c true p)
    {rev : Bool} {o : Obj} {s : Str} (h : itemKey E c (.id p) rev o = .ok (some s)) :
    xKey X c s = .ok (some (.id p)) := by
  have := C35_value_partial E.toCompEnv H.iris H.facts c H.clean p hp.kind hp.valid o true rev E.opts hp.clear s h
  unfold xKey xIri
  rw [H.vocab, H.env]
  rw [show (!true) = false from rfl, if_pos rfl] at this
  rw [this]

/-- The keyword `@id` for graph objects. -/
theorem idKey_plain {E : CEnv} {c : ACtx} (hk : KeywordsFree c) (hc : CleanTerms E.toCompEnv c) {s : Str}
    (h : cIriU E c (.keyword .id) false = .ok s) : s = Keyword.id.intoStr := by
  unfold cIriU cIri at h
  split at h
  · rename_i s' h'
    cases h
    cases compactIriPlain_by hc.distinct h' with
    | term d h1 => cases h1
    | vocab v h1 => cases h1
    | prefixed h1 =>
      obtain ⟨p, m, x, h2, h3, h4, _⟩ := h1
      exact absurd ⟨x, h4.symm⟩ (hk.prefixes p m h2 .id)
    | relative i b _ _ h1 => cases h1
    | itself h1 h2 => exact h2
  · cases h
  · cases h

end JsonLd
