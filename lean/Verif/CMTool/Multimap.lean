import Verif.Basic
import Mathlib.Order.Defs.LinearOrder
import Mathlib.Order.Basic
/-!
# `std::multimap` as an ordered association list

The entries are kept in iteration order. `insert` puts a new entry after all entries with an equal or
smaller key (C++11 guarantees that `multimap::insert` inserts at the upper bound of the equal range).
-/
namespace Verif.CMTool
variable {κ β : Type} [LinearOrder κ]

/-- `m.insert({k,v})` -/
def minsert (k : κ) (v : β) : List (κ × β) → List (κ × β)
  | [] => [(k, v)]
  | (k', v') :: t => if k < k' then (k, v) :: (k', v') :: t else (k', v') :: minsert k v t

theorem mem_minsert {k : κ} {v : β} {l : List (κ × β)} {e : κ × β} :
    e ∈ minsert k v l ↔ e = (k, v) ∨ e ∈ l := by
  induction l with
  | nil => simp [minsert]
  | cons a t ih =>
    obtain ⟨k', v'⟩ := a
    unfold minsert
    split
    · simp
    · simp only [List.mem_cons, ih]
      constructor
      · rintro (h | h | h) <;> simp [h]
      · rintro (h | h | h) <;> simp [h]

theorem minsert_perm (k : κ) (v : β) (l : List (κ × β)) : (minsert k v l).Perm ((k, v) :: l) := by
  induction l with
  | nil => simp [minsert]
  | cons a t ih =>
    obtain ⟨k', v'⟩ := a
    unfold minsert
    split
    · exact List.Perm.refl _
    · exact (List.Perm.cons _ ih).trans (List.Perm.swap _ _ _)

/-- If `R` orders old entries and relates every old entry with a key `≤ k` to the new one and the new one
to every old entry with a larger key, the new list is ordered by `R`. -/
theorem minsert_pairwise {k : κ} {v : β} {l : List (κ × β)} {R : κ × β → κ × β → Prop}
    (hs : l.Pairwise (fun a b => a.1 ≤ b.1))
    (h : l.Pairwise R) (h1 : ∀ e ∈ l, e.1 ≤ k → R e (k, v)) (h2 : ∀ e ∈ l, k < e.1 → R (k, v) e) :
    (minsert k v l).Pairwise R := by
  induction l with
  | nil => simp [minsert]
  | cons a t ih =>
    obtain ⟨k', v'⟩ := a
    unfold minsert
    split
    · rename_i hlt
      refine List.pairwise_cons.2 ⟨?_, h⟩
      intro e he
      refine h2 e he ?_
      rcases List.mem_cons.1 he with rfl | he
      · exact hlt
      · exact lt_of_lt_of_le hlt ((List.pairwise_cons.1 hs).1 e he)
    · rename_i hlt
      refine List.pairwise_cons.2 ⟨?_, ?_⟩
      · intro e he
        rcases mem_minsert.1 he with rfl | he
        · exact h1 _ (by simp) (not_lt.1 hlt)
        · exact (List.pairwise_cons.1 h).1 e he
      · exact ih (List.pairwise_cons.1 hs).2 (List.pairwise_cons.1 h).2
          (fun e he => h1 e (by simp [he])) (fun e he => h2 e (by simp [he]))

theorem minsert_sorted {k : κ} {v : β} {l : List (κ × β)} (hs : l.Pairwise (fun a b => a.1 ≤ b.1)) :
    (minsert k v l).Pairwise (fun a b => a.1 ≤ b.1) :=
  minsert_pairwise hs hs (fun _ _ h => h) (fun _ _ h => le_of_lt h)

end Verif.CMTool
