import Verif.Proofs.PrintCtx
import Verif.Props.CtxJson
import Verif.Props.Entries
import Verif.Props.Print
/-!
# C85: a printed context is the context
-/

namespace JsonLd
open Spec

theorem SDef.next_left (d : SDef) :
    (d.next.1 = none ∧ d.left = [] ∧ d.next.2.left = []) ∨
      ∃ x, d.next.1 = some x ∧ d.left = x :: d.next.2.left := by
  obtain ⟨b, i, l, d, pg, pt, t, v, vo, bs⟩ := d
  rcases b with _ | b
  · rcases i with _ | i
    · rcases l with _ | l
      · rcases d with _ | d
        · rcases pg with _ | pg
          · rcases pt with _ | pt
            · rcases t with _ | t
              · rcases v with _ | _
                · rcases vo with _ | vo
                  · rcases bs with _ | ⟨⟨k, o⟩, bs⟩
                    · exact .inl ⟨rfl, rfl, rfl⟩
                    · exact .inr ⟨_, rfl, rfl⟩
                  · exact .inr ⟨_, rfl, rfl⟩
                · exact .inr ⟨_, rfl, rfl⟩
              · exact .inr ⟨_, rfl, rfl⟩
            · exact .inr ⟨_, rfl, rfl⟩
          · exact .inr ⟨_, rfl, rfl⟩
        · exact .inr ⟨_, rfl, rfl⟩
      · exact .inr ⟨_, rfl, rfl⟩
    · exact .inr ⟨_, rfl, rfl⟩
  · exact .inr ⟨_, rfl, rfl⟩

theorem SExp.next_left (x : SExp) :
    (x.next.1 = none ∧ x.left = [] ∧ x.next.2.left = []) ∨
      ∃ e, x.next.1 = some e ∧ x.left = e :: x.next.2.left := by
  obtain ⟨i, t, c, r, ix, l, d, co, n, p, pg, pt⟩ := x
  rcases i with _ | i
  · rcases t with _ | t
    · rcases c with _ | c
      · rcases r with _ | r
        · rcases ix with _ | ix
          · rcases l with _ | l
            · rcases d with _ | d
              · rcases co with _ | co
                · rcases n with _ | n
                  · rcases p with _ | p
                    · rcases pg with _ | pg
                      · rcases pt with _ | pt
                        · exact .inl ⟨rfl, rfl, rfl⟩
                        · exact .inr ⟨_, rfl, rfl⟩
                      · exact .inr ⟨_, rfl, rfl⟩
                    · exact .inr ⟨_, rfl, rfl⟩
                  · exact .inr ⟨_, rfl, rfl⟩
                · exact .inr ⟨_, rfl, rfl⟩
              · exact .inr ⟨_, rfl, rfl⟩
            · exact .inr ⟨_, rfl, rfl⟩
          · exact .inr ⟨_, rfl, rfl⟩
        · exact .inr ⟨_, rfl, rfl⟩
      · exact .inr ⟨_, rfl, rfl⟩
    · exact .inr ⟨_, rfl, rfl⟩
  · exact .inr ⟨_, rfl, rfl⟩

theorem length_opt {α β : Type} (f : α → β) (o : Option α) :
    (o.map f).toList.length = o.isSome.toNat := by cases o <;> rfl

theorem ite_add_one (b : Bool) (n : Nat) : (if b = true then n + 1 else n) = n + b.toNat := by
  cases b <;> rfl

namespace Props

/-- C85. Printing a context gives the text of the JSON value that `into_json` makes of it; no size is
missing or left over. `CtxOk` holds of every context that was read (`C41_read`). -/
theorem C85_text (P : Printer) (isRef : Str → Bool) (ind : Nat) (c : SCtx) (h : CtxOk isRef c) :
    c.print P ind = some (text P ind c.toJson, []) := print_ctx ind c h

/-- C85. If a parser reads the text of any JSON value as that value, then a context that was read from
some JSON value, printed, parsed and read again, is the same context. -/
theorem C85_round_trip (P : Printer) (isRef : Str → Bool) (ind : Nat) (parse : Str → Option Json)
    (hp : ∀ j, parse (text P ind j) = some j) (j : Json) (c : SCtx) (h : readCtx isRef j = .ok c) :
    ∃ t, c.print P ind = some (t, []) ∧ (parse t).map (readCtx isRef) = some (.ok c) := by
  have hc := C41_read h
  refine ⟨_, C85_text P isRef ind c hc, ?_⟩
  rw [hp, Option.map_some, C41_roundtrip c hc]

/-- C85. The iterator over a context definition yields its entries, each that is present, in this
order, then its term definitions; nothing else. -/
theorem C85_definition (d : SDef) (l : List DEntry) :
    Yields SDef.next d l ↔
      l = (d.base.map DEntry.base).toList ++ (d.import_.map DEntry.import_).toList ++
        (d.language.map DEntry.language).toList ++ (d.direction.map DEntry.direction).toList ++
        (d.propagate.map DEntry.propagate).toList ++ (d.protected_.map DEntry.protected_).toList ++
        (d.type.map DEntry.type).toList ++ (if d.version then [DEntry.version] else []) ++
        (d.vocab.map DEntry.vocab).toList ++ d.bindings.map fun b => DEntry.definition b.1 b.2 :=
  yields_of_left SDef.next_left d l

/-- C85. The iterator over a term definition yields its entries, each that is present, in this order. -/
theorem C85_term (x : SExp) (l : List TEntry) :
    Yields SExp.next x l ↔
      l = (x.id.map TEntry.id).toList ++ (x.type.map TEntry.type).toList ++
        (x.context.map TEntry.context).toList ++ (x.reverse.map TEntry.reverse).toList ++
        (x.index.map TEntry.index).toList ++ (x.language.map TEntry.language).toList ++
        (x.direction.map TEntry.direction).toList ++ (x.container.map TEntry.container).toList ++
        (x.nest.map TEntry.nest).toList ++ (x.prefix_.map TEntry.prefix_).toList ++
        (x.propagate.map TEntry.propagate).toList ++ (x.protected_.map TEntry.protected_).toList :=
  yields_of_left SExp.next_left x l

/-- C85. The announced length is the number of entries that will be yielded: at the start, and after
any number of steps, as `d` is any state of the iterator. -/
theorem C85_definition_len (d : SDef) (l : List DEntry) (h : Yields SDef.next d l) :
    d.len = l.length := by
  rw [(C85_definition d l).1 h]
  simp only [SDef.len, List.length_append, length_opt, List.length_map, ite_add_one]
  have : (if d.version = true then [DEntry.version] else []).length = d.version.toNat := by
    cases d.version <;> rfl
  omega

/-- The same for term definitions. -/
theorem C85_term_len (x : SExp) (l : List TEntry) (h : Yields SExp.next x l) : x.len = l.length := by
  rw [(C85_term x l).1 h]
  simp only [SExp.len, List.length_append, length_opt, ite_add_one]
  omega

theorem dentry_keys {α : Type} (x : Option α) (f : α → DEntry) (w : α → Json) (k : Str)
    (hk : ∀ a, (f a).key = k) : (entryJson k w x).map Prod.fst = (x.map f).toList.map DEntry.key := by
  cases x with
  | none => rfl
  | some a => exact congrArg (fun y => [y]) (hk a).symm

theorem tentry_keys {α : Type} (x : Option α) (f : α → TEntry) (w : α → Json) (k : Str)
    (hk : ∀ a, (f a).key = k) : (entryJson k w x).map Prod.fst = (x.map f).toList.map TEntry.key := by
  cases x with
  | none => rfl
  | some a => exact congrArg (fun y => [y]) (hk a).symm

/-- C85. The entries yielded are those of the JSON value, hence of the printed text, in its order. -/
theorem C85_definition_entries (isRef : Str → Bool) (d : SDef) (hd : DefOk isRef d) (l : List DEntry)
    (h : Yields SDef.next d l) : ∃ m, d.toJson = .obj m ∧ m.map Prod.fst = l.map DEntry.key := by
  rw [(C85_definition d l).1 h]
  obtain ⟨b, i, l, d, pg, pt, t, v, vo, bs⟩ := d
  simp only [DefOk] at hd
  obtain ⟨-, -, h3, h4, -⟩ := hd
  refine ⟨_, by rw [SDef.toJson, jObject_nodup (def_keys_nodup h3 h4)], ?_⟩
  simp only [List.map_append]
  rw [dentry_keys b .base _ "@base".toList fun _ => rfl, dentry_keys i .import_ _ "@import".toList fun _ => rfl,
    dentry_keys l .language _ "@language".toList fun _ => rfl, dentry_keys d .direction _ "@direction".toList fun _ => rfl,
    dentry_keys pg .propagate _ "@propagate".toList fun _ => rfl, dentry_keys pt .protected_ _ "@protected".toList fun _ => rfl,
    dentry_keys t .type _ "@type".toList fun _ => rfl, dentry_keys vo .vocab _ "@vocab".toList fun _ => rfl]
  have e1 : (if v = true then [("@version".toList, Json.num "1.1".toList)] else []).map Prod.fst =
      (if v = true then [DEntry.version] else []).map DEntry.key := by cases v <;> rfl
  have e2 : (bindingsToJson bs).map Prod.fst =
      (bs.map fun b => DEntry.definition b.1 b.2).map DEntry.key := by
    rw [bindingsToJson_keys, List.map_map]; rfl
  rw [e1, e2]

/-- The same for term definitions. -/
theorem C85_term_entries (x : SExp) (l : List TEntry) (h : Yields SExp.next x l) :
    ∃ m, x.toJson = .obj m ∧ m.map Prod.fst = l.map TEntry.key := by
  rw [(C85_term x l).1 h]
  obtain ⟨i, t, c, r, ix, l, d, co, n, p, pg, pt⟩ := x
  refine ⟨_, by rw [SExp.toJson, jObject_nodup exp_keys_nodup], ?_⟩
  simp only [List.map_append]
  have ec : (optCtxJson c).map Prod.fst = (c.map TEntry.context).toList.map TEntry.key := by
    cases c with
    | none => rfl
    | some c => rfl
  rw [tentry_keys i .id _ "@id".toList fun _ => rfl, tentry_keys t .type _ "@type".toList fun _ => rfl, ec,
    tentry_keys r .reverse _ "@reverse".toList fun _ => rfl, tentry_keys ix .index _ "@index".toList fun _ => rfl,
    tentry_keys l .language _ "@language".toList fun _ => rfl, tentry_keys d .direction _ "@direction".toList fun _ => rfl,
    tentry_keys co .container _ "@container".toList fun _ => rfl, tentry_keys n .nest _ "@nest".toList fun _ => rfl,
    tentry_keys p .prefix_ _ "@prefix".toList fun _ => rfl, tentry_keys pg .propagate _ "@propagate".toList fun _ => rfl,
    tentry_keys pt .protected_ _ "@protected".toList fun _ => rfl]

/-- C85. The printed texts of two contexts that were read differ, if the contexts do and the printer tells
JSON values apart. -/
theorem C85_injective (P : Printer) (isRef : Str → Bool) (ind : Nat)
    (hp : ∀ j j', text P ind j = text P ind j' → j = j') (c c' : SCtx) (h : CtxOk isRef c)
    (h' : CtxOk isRef c') (he : c.print P ind = c'.print P ind) : c = c' := by
  rw [C85_text P isRef ind c h, C85_text P isRef ind c' h'] at he
  exact C41_injective h h' (hp _ _ (Prod.mk.inj (Option.some.inj he)).1)

/-- The text of the sample context of C41 printed. -/
def exPrintedCtx : String :=
  "[\nnull,\n\"http://a/b\",\n{\n@base:null,\n@language:\"en\",\n@type:{\n@container:\"@set\",\n@protected:true,},\n@version:1.1,\nx:null,\ny:\"z\",\nt:{\n@id:\"@type\",\n@type:\"@list\",\n@context:{\n@vocab:\"v\",\nx:\"w\",},\n@container:[\n\"@graph\",\n\"@set\",],\n@nest:\"n\",},},]"

/-- A context printed; it satisfies `CtxOk` (see C41). -/
theorem C85_example : (sampleCtx.print exPrinter 0).map (fun r => String.ofList r.1) = some exPrintedCtx := by
  decide +kernel

/-- A context made by a program, with a term called `@base` next to its `@base` entry. -/
def exClashCtx : SCtx :=
  .one (.defn { SDef.empty with
    base := some none
    bindings := [("@base".toList, some (.simple "a".toList))] })

/-- It is printed with two entries `@base`, of which `into_json` keeps one. -/
theorem C85_clash : ∃ t, exClashCtx.print exPrinter 0 = some (t, []) ∧
    t ≠ text exPrinter 0 exClashCtx.toJson ∧ t.length > (text exPrinter 0 exClashCtx.toJson).length := by
  refine ⟨_, rfl, ?_, ?_⟩ <;> decide +kernel

end Props
end JsonLd
