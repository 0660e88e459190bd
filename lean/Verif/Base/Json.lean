import Verif.Base.Str
/-!
# JSON values

`json_syntax::Value`. Numbers are kept as their text (as `json_syntax::NumberBuf` does) and an
object is the ordered list of its entries, which may contain duplicate keys (as
`json_syntax::Object` does).
-/

namespace JsonLd

/-- JSON values (`json_syntax::Value`, external crate). -/
inductive Json where
  | null
  | bool (b : Bool)
  | num (n : Str)
  | str (s : Str)
  | arr (l : List Json)
  | obj (m : List (Str × Json))
  deriving Inhabited, Repr

namespace Json

/-- Induction principle exposing the induction hypothesis through membership. -/
theorem ind {P : Json → Prop} (hnull : P null) (hbool : ∀ b, P (bool b)) (hnum : ∀ n, P (num n))
    (hstr : ∀ s, P (str s)) (harr : ∀ l, (∀ x ∈ l, P x) → P (arr l))
    (hobj : ∀ m, (∀ k v, (k, v) ∈ m → P v) → P (obj m)) (j : Json) : P j :=
  Json.rec (motive_1 := P) (motive_2 := fun l => ∀ x ∈ l, P x)
    (motive_3 := fun m => ∀ k v, (k, v) ∈ m → P v) (motive_4 := fun p => P p.2)
    hnull hbool hnum hstr harr hobj
    (by simp) (fun h t hh ht => by simp; exact ⟨hh, ht⟩)
    (by simp) (fun h t hh ht => by
      intro k v hm
      rcases List.mem_cons.1 hm with e | e
      · cases e; exact hh
      · exact ht k v e)
    (fun _ _ h => h) j

mutual
/-- Boolean equality of JSON values. -/
def beq : (a b : Json) → Bool
  | null, null => true
  | bool a, bool b => a == b
  | num a, num b => a == b
  | str a, str b => a == b
  | arr a, arr b => beqList a b
  | obj a, obj b => beqEntries a b
  | _, _ => false
/-- Boolean equality of lists of JSON values. -/
def beqList : (a b : List Json) → Bool
  | [], [] => true
  | a :: l, b :: l' => beq a b && beqList l l'
  | _, _ => false
/-- Boolean equality of lists of object entries. -/
def beqEntries : (a b : List (Str × Json)) → Bool
  | [], [] => true
  | (k, a) :: l, (k', b) :: l' => k == k' && beq a b && beqEntries l l'
  | _, _ => false
end

theorem beq_iff (a b : Json) : beq a b = true ↔ a = b := by
  induction a using Json.ind generalizing b with
  | hnull => cases b <;> simp [beq]
  | hbool x => cases b <;> simp [beq]
  | hnum x => cases b <;> simp [beq]
  | hstr x => cases b <;> simp [beq]
  | harr l ih =>
    cases b with
    | arr l' =>
      simp only [beq, arr.injEq]
      induction l generalizing l' with
      | nil => cases l' <;> simp [beqList]
      | cons x xs ihl =>
        cases l' with
        | nil => simp [beqList]
        | cons y ys =>
          simp only [beqList, Bool.and_eq_true, List.cons.injEq]
          rw [ih x (by simp), ihl (fun z hz => ih z (by simp [hz]))]
    | _ => simp [beq]
  | hobj m ih =>
    cases b with
    | obj m' =>
      simp only [beq, obj.injEq]
      induction m generalizing m' with
      | nil => cases m' <;> simp [beqEntries]
      | cons x xs ihl =>
        obtain ⟨k, v⟩ := x
        cases m' with
        | nil => simp [beqEntries]
        | cons y ys =>
          obtain ⟨k', v'⟩ := y
          simp only [beqEntries, Bool.and_eq_true, List.cons.injEq, beq_iff_eq, Prod.mk.injEq]
          rw [ih k v (by simp), ihl (fun k z hz => ih k z (by simp [hz]))]
    | _ => simp [beq]

instance : DecidableEq Json := fun a b => decidable_of_iff _ (beq_iff a b)

end Json
end JsonLd
