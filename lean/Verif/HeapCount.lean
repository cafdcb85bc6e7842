import Verif.HeapInv
import Verif.Spec.Heap
/-!
# Counting handles
-/
namespace Rowan

namespace HSt.Up
variable {s : HSt} {x y z p : Nat}

theorem trans (h : s.Up x y) (h' : s.Up y z) : s.Up x z := by
  induction h with
  | refl => exact h'
  | step hp _ ih => exact .step hp (ih h')

theorem mem {l : List Nat} (h : s.Up x y) (hc : Chain s x l) : y ∈ l := by
  induction h generalizing l with
  | refl => exact hc.self_mem
  | step hp _ ih =>
    cases hc with
    | root _ h0 => rw [h0] at hp; cases hp
    | step _ h1 hc => rw [h1] at hp; cases hp; exact List.mem_cons_of_mem _ (ih hc)

theorem linear (h : s.Up x y) (h' : s.Up x z) : s.Up y z ∨ s.Up z y := by
  induction h with
  | refl => exact .inl h'
  | step hp hu ih =>
    cases h' with
    | refl => exact .inr (.step hp hu)
    | step hp' hu' => rw [hp] at hp'; cases hp'; exact ih hu'

end HSt.Up

/-- A list without duplicates that is contained in another one is not longer. -/
theorem nodup_subset_length {α : Type} [DecidableEq α] {l l' : List α} (hn : l.Nodup) (hs : ∀ x ∈ l, x ∈ l') :
    l.length ≤ l'.length := by
  induction l generalizing l' with
  | nil => simp
  | cons a l ih =>
    have ha : a ∈ l' := hs a (by simp)
    have hn' := List.nodup_cons.mp hn
    have := ih (l' := l'.erase a) hn'.2 fun x hx => by
      refine (List.mem_erase_of_ne ?_).mpr (hs x (List.mem_cons_of_mem _ hx))
      rintro rfl; exact hn'.1 hx
    rw [List.length_erase_of_mem ha] at this
    have : 0 < l'.length := List.length_pos_of_mem ha
    simp; omega

theorem length_count_filter {α : Type} [DecidableEq α] (l : List α) (a : α) :
    l.length = l.count a + (l.filter (· != a)).length := by
  induction l with
  | nil => rfl
  | cons b l ih =>
    by_cases h : b = a
    · subst h; simp [ih]; omega
    · have : (b != a) = true := by simp [h]
      simp [h, ih]; omega

end Rowan
