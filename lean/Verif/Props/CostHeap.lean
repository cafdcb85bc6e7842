import Verif.Props.Sll
import Verif.Props.Program
/-!
# C66, C32: the rings of mutable trees

Making a handle in a mutable tree searches the ring of its siblings backwards (src/sll.rs:106-112).  The fuel of `linkLoop` counts
the rounds of that search.
-/
namespace Rowan

open Sll

theorem linkLoop_rounds {s : HSt} {l : List Nat} {key : Nat} (hr : IsRing s.next s.prev l)
    (hs : l.Pairwise fun a b => s.index a < s.index b) (hlive : ∀ x ∈ l, s.live x = true) :
    ∀ (fuel : Nat) (l1 : List Nat) (c : Nat) (l2 : List Nat), l = l1 ++ c :: l2 → (∀ h l', l = h :: l' → s.index h ≤ key) →
      (linkLoop fuel c key s = .diverge ↔ fuel ≤ ((l1 ++ [c]).filter fun x => key < s.index x).length) := by
  intro fuel
  induction fuel with
  | zero => intro l1 c l2 _ _; simp [linkLoop, H.diverge]
  | succ fuel ih =>
    intro l1 c l2 hl hh
    have hc : c ∈ l := by simp [hl]
    have hl1 : ∀ x ∈ l1, s.index x < s.index c := by
      rw [hl] at hs
      exact fun x hx => (List.pairwise_append.mp hs).2.2 x hx c (by simp)
    simp only [linkLoop]
    rw [H.bind_ok (H.rd_ok (hlive c hc))]
    by_cases h1 : s.index c ≤ key
    · have h0 : ((l1 ++ [c]).filter fun x => decide (key < s.index x)) = [] := by
        rw [List.filter_eq_nil_iff]
        intro x hx
        rcases List.mem_append.mp hx with hx | hx
        · have := hl1 x hx; simp; omega
        · rw [List.mem_singleton.mp hx]; simp; omega
      rw [h0]
      by_cases h2 : s.index c < key
      · rw [if_pos h2]; exact ⟨nofun, fun h => absurd h (by simp)⟩
      · rw [if_neg h2, if_pos (by omega)]; exact ⟨nofun, fun h => absurd h (by simp)⟩
    · rw [if_neg (by omega), if_neg (by omega), H.bind_ok (H.rd_ok (hlive c hc))]
      rcases List.eq_nil_or_concat l1 with rfl | ⟨l1', d, rfl⟩
      · have := hh c l2 (by simpa using hl); omega
      · simp only [List.concat_eq_append, List.append_assoc, List.singleton_append] at hl
        have hp : s.prev c = some d := by
          have hr' := hr
          rw [hl, ring_rotate] at hr'
          simp only [List.cons_append, IsRing, Links] at hr'
          exact hr'.2.1
        rw [hp, H.bind_ok (H.nonNull_some d s), ih l1' d (c :: l2) hl hh, List.concat_eq_append,
          List.filter_append (l₁ := l1' ++ [d])]
        have hk : key < s.index c := by omega
        have h1 : ([c].filter fun x => decide (key < s.index x)).length = 1 := by simp [hk]
        rw [List.length_append, h1]
        omega

/-- **C66.**  In a mutable tree, the search that precedes the making of a handle goes past all the siblings that have an object and come
after the one sought, one round for each: the number of rounds is not logarithmic but linear.  (`fuel` rounds do not
suffice exactly if there are at least so many of those siblings.) -/
theorem C66_link_rounds {s : HSt} {q last key : Nat} {l : List Nat} (h : SortedRing s q (l ++ [last]))
    (hlive : ∀ x ∈ l ++ [last], s.live x = true) (hhead : ∀ x, s.first q = some x → s.index x ≤ key) (fuel : Nat) :
    linkLoop fuel last key s = .diverge ↔ fuel ≤ ((l ++ [last]).filter fun x => key < s.index x).length := by
  have h' := isList_iff.mpr h
  refine linkLoop_rounds h'.ring h'.sorted hlive fuel l last [] rfl ?_
  intro x l' hx
  exact hhead x (by rw [h'.head, hx]; rfl)

example (fuel : Nat) := C66_link_rounds (l := [1, 2]) (last := 4) (key := 2) sllRing_ok (by decide)
  (by intro x hx; cases hx; decide) fuel

/-- Object 0 with the ring `1 → 2 → … → n + 2` below it; the keys are the numbers. -/
def bigRing (n : Nat) : HSt :=
  { HSt.empty 0 with
    live := fun p => decide (p < n + 3)
    top := n + 3
    first := fun p => if p = 0 then some 1 else none
    next := fun p => some (p % (n + 2) + 1)
    prev := fun p => some (if p = 1 then n + 2 else p - 1)
    index := fun p => p }

theorem bigRing_ok (n : Nat) : SortedRing (bigRing n) 0 ((List.range' 1 (n + 1)) ++ [n + 2]) := by
  have he : List.range' 1 (n + 1) ++ [n + 2] = List.range' 1 (n + 2) := by
    rw [show n + 2 = (n + 1) + 1 from rfl, List.range'_concat (n := n + 1)]; congr 2; omega
  rw [he]
  refine ⟨rfl, ?_, ?_⟩
  · intro i hi
    simp only [List.length_range'] at hi
    simp only [List.getElem_range', List.length_range', bigRing, Nat.one_mul, Option.some.injEq]
    refine ⟨by rw [Nat.add_comm 1 i]; omega, ?_⟩
    by_cases h : i + 1 = n + 2
    · rw [h, Nat.mod_self, if_pos (by omega)]; omega
    · rw [Nat.mod_eq_of_lt (by omega), if_neg (by omega)]; omega
  · exact List.pairwise_lt_range'

/-- **C66** is false in mutable trees: a search for the second of many siblings exceeds every number of rounds. -/
theorem C66_link_not_logarithmic (n : Nat) : linkLoop n (n + 2) 2 (bigRing n) = .diverge := by
  refine (C66_link_rounds (bigRing_ok n) ?_ ?_ n).mpr ?_
  · intro x hx
    simp only [List.mem_append, List.mem_range'_1, List.mem_singleton] at hx
    simp only [bigRing, decide_eq_true_eq]; omega
  · intro x hx; cases hx; exact Nat.le_succ 1
  · have h : (List.range' 3 n).Sublist ((List.range' 1 (n + 1) ++ [n + 2]).filter fun x => decide (2 < (bigRing n).index x)) := by
      have he : List.range' 1 (n + 1) ++ [n + 2] = [1, 2] ++ List.range' 3 n := by
        rw [show [n + 2] = List.range' (1 + (n + 1)) 1 by simp; omega, List.range'_append_1]
        rfl
      rw [he, List.filter_append, show List.filter _ (List.range' 3 n) = List.range' 3 n from
        List.filter_eq_self.mpr fun x hx => by
          have := List.mem_range'_1.mp hx
          exact decide_eq_true (show 2 < x by omega)]
      exact List.sublist_append_right _ _
    simpa using h.length_le

/-- **C32**, whole programs: in every state a program can reach, the children of a live object of a mutable tree that have an
object themselves form a sorted ring, and that ring holds them all.  So no element has two objects. -/
theorem C32_heap {s : HSt} {gs : List GElem} {hs lk : List Nat} (h : HReach s gs hs lk) {q : Nat} (hq : s.live q = true)
    (hm : s.mutable q = true) :
    ∃ l, SortedRing s q l ∧ (∀ x, x ∈ l ↔ s.live x = true ∧ s.parent x = some q) ∧
      (∀ x y, s.live x = true → s.live y = true → s.parent x = some q → s.parent y = some q → s.index x = s.index y → x = y) ∧
      (s.parent q = none → s.next q = some q ∧ s.prev q = some q) := by
  letI : Greens := ⟨gs⟩
  obtain ⟨kids, hi⟩ := h.ok'
  have hl := hi.ringM q hq hm
  refine ⟨kids q, isList_iff.mp hl, hi.kidsMem q, ?_, hi.selfM q hq hm⟩
  intro x y hx hy px py hxy
  have mx := (hi.kidsMem q x).mpr ⟨hx, px⟩
  have my := (hi.kidsMem q y).mpr ⟨hy, py⟩
  obtain ⟨i, hi', rfl⟩ := List.getElem_of_mem mx
  obtain ⟨j, hj', rfl⟩ := List.getElem_of_mem my
  rcases Nat.lt_trichotomy i j with hlt | rfl | hgt
  · have := List.pairwise_iff_getElem.mp hl.sorted i j hi' hj' hlt; omega
  · rfl
  · have := List.pairwise_iff_getElem.mp hl.sorted j i hj' hi' hgt; omega

example := C32_heap (q := 0) demo2_hreach (by decide +kernel) (by decide +kernel)

end Rowan
