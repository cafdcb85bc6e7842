import Verif.Sll
import Verif.HLemmas
/-!
# Lemmas about the sorted intrusive list

Unless their comments cite lines of `/repo`, the definitions in this file are vocabulary of the proofs and model no code.
-/
namespace Rowan

/-- `a → l₀ → l₁ → … → z`: consecutive elements are linked in both directions. -/
def Links (nx pv : Nat → Option Nat) : Nat → List Nat → Nat → Prop
  | a, [], z => nx a = some z ∧ pv z = some a
  | a, b :: l, z => nx a = some b ∧ pv b = some a ∧ Links nx pv b l z

/-- The list forms a ring. -/
def IsRing (nx pv : Nat → Option Nat) : List Nat → Prop
  | [] => True
  | x :: l => Links nx pv x l x

theorem links_append {nx pv : Nat → Option Nat} {a b z : Nat} {l1 l2 : List Nat} :
    Links nx pv a (l1 ++ b :: l2) z ↔ Links nx pv a l1 b ∧ Links nx pv b l2 z := by
  induction l1 generalizing a with
  | nil => simp [Links, and_assoc]
  | cons c l1 ih => simp only [List.cons_append, Links, ih]; simp [and_assoc]

theorem links_frame {nx pv nx' pv' : Nat → Option Nat} {a z : Nat} {l : List Nat}
    (hn : ∀ x ∈ a :: l, nx' x = nx x) (hp : ∀ x, x ∈ l ∨ x = z → pv' x = pv x)
    (h : Links nx pv a l z) : Links nx' pv' a l z := by
  induction l generalizing a with
  | nil =>
    simp only [Links] at h ⊢
    rw [hn a (by simp), hp z (.inr rfl)]; exact h
  | cons b l ih =>
    simp only [Links] at h ⊢
    rw [hn a (by simp), hp b (.inl (by simp))]
    exact ⟨h.1, h.2.1, ih (fun x hx => hn x (List.mem_cons_of_mem _ hx))
      (fun x hx => hp x (hx.imp (List.mem_cons_of_mem _) id)) h.2.2⟩

theorem ring_frame {nx pv nx' pv' : Nat → Option Nat} {l : List Nat}
    (hn : ∀ x ∈ l, nx' x = nx x) (hp : ∀ x ∈ l, pv' x = pv x)
    (h : IsRing nx pv l) : IsRing nx' pv' l := by
  cases l with
  | nil => trivial
  | cons a l =>
    refine links_frame hn (fun x hx => hp x ?_) h
    rcases hx with hx | rfl <;> simp [*]

theorem ring_rotate {nx pv : Nat → Option Nat} {l1 l2 : List Nat} :
    IsRing nx pv (l1 ++ l2) ↔ IsRing nx pv (l2 ++ l1) := by
  cases l1 with
  | nil => simp
  | cons a l1 =>
    cases l2 with
    | nil => simp
    | cons b l2 =>
      simp only [List.cons_append, IsRing, links_append]
      exact And.comm

theorem getLast_cons_snoc {a t : Nat} {l : List Nat} (h : a :: (l ++ [t]) ≠ []) :
    (a :: (l ++ [t])).getLast h = t := by
  rw [List.getLast_cons (by simp), List.getLast_append]; simp

/-- The successor of the element at the front of a ring. -/
theorem ring_next {nx pv : Nat → Option Nat} {a : Nat} {l : List Nat} (h : IsRing nx pv (a :: l)) :
    nx a = some ((l ++ [a]).head (by simp)) := by
  cases l with
  | nil => simpa using h.1
  | cons b l => simpa using h.1

/-- The predecessor of the element at the front of a ring. -/
theorem ring_prev {nx pv : Nat → Option Nat} {a : Nat} {l : List Nat} (h : IsRing nx pv (a :: l)) :
    pv a = some ((a :: l).getLast (by simp)) := by
  rcases List.eq_nil_or_concat l with rfl | ⟨l', t, rfl⟩
  · simpa using h.2
  · have h' : IsRing nx pv (a :: l' ++ [t]) := by simpa using h
    rw [ring_rotate] at h'
    simp only [List.singleton_append, IsRing, Links] at h'
    simp [h'.2.1, getLast_cons_snoc]

/-- Insert `p` between the front element `t` of a ring and its successor `n`. -/
theorem ring_insert {nx pv nx' pv' : Nat → Option Nat} {t p n : Nat} {m : List Nat}
    (h : IsRing nx pv (t :: m)) (hnd : (t :: m).Nodup) (hp : p ∉ t :: m) (hn : nx t = some n)
    (e1 : nx' t = some p) (e2 : nx' p = some n) (e3 : ∀ x, x ≠ t → x ≠ p → nx' x = nx x)
    (e4 : pv' n = some p) (e5 : pv' p = some t) (e6 : ∀ x, x ≠ n → x ≠ p → pv' x = pv x) :
    IsRing nx' pv' (t :: p :: m) := by
  simp only [List.mem_cons, not_or] at hp
  cases m with
  | nil =>
    simp only [IsRing, Links] at h ⊢
    obtain rfl : t = n := by rw [h.1] at hn; simpa using hn
    exact ⟨e1, e5, e2, e4⟩
  | cons b m =>
    simp only [IsRing, Links] at h ⊢
    obtain rfl : b = n := by rw [h.1] at hn; simpa using hn
    refine ⟨e1, e5, e2, e4, links_frame ?_ ?_ h.2.2⟩
    · intro x hx
      refine e3 x ?_ ?_
      · rintro rfl; simp at hnd hx; grind
      · rintro rfl; exact hp.2 hx
    · intro x hx
      refine e6 x ?_ ?_
      · rintro rfl; simp at hnd; grind
      · rintro rfl; simp at hp; grind

/-- Retarget the end of a chain. -/
theorem links_retarget {nx pv nx' pv' : Nat → Option Nat} {a z z' : Nat} {l : List Nat}
    (h : Links nx pv a l z) (hnd : (a :: l).Nodup) (hz' : z' ∉ l)
    (e1 : nx' ((a :: l).getLast (by simp)) = some z')
    (e2 : ∀ x ∈ a :: l, x ≠ (a :: l).getLast (by simp) → nx' x = nx x)
    (e3 : pv' z' = some ((a :: l).getLast (by simp)))
    (e4 : ∀ x ∈ l, x ≠ z' → pv' x = pv x) : Links nx' pv' a l z' := by
  rcases List.eq_nil_or_concat l with rfl | ⟨l', t, rfl⟩
  · simp only [Links]; exact ⟨by simpa using e1, by simpa using e3⟩
  · simp only [List.concat_eq_append] at *
    rw [links_append] at h ⊢
    have hl : (a :: (l' ++ [t])).getLast (by simp) = t := getLast_cons_snoc _
    rw [hl] at e1 e2 e3
    refine ⟨links_frame ?_ ?_ h.1, by simp only [Links]; exact ⟨e1, e3⟩⟩
    · intro x hx
      apply e2 x (by simp at hx ⊢; grind)
      rintro rfl
      simp [List.nodup_append] at hnd hx; grind
    · intro x hx
      apply e4 x (by simp; grind)
      rintro rfl
      exact hz' (by simp; grind)

/-- Cut the front element out of a ring with at least two elements. -/
theorem ring_remove {nx pv nx' pv' : Nat → Option Nat} {p n t : Nat} {m : List Nat}
    (h : IsRing nx pv (p :: m)) (hnd : (p :: m).Nodup) (hm : m ≠ [])
    (hn : nx p = some n) (ht : pv p = some t)
    (e1 : nx' t = some n) (e2 : ∀ x, x ≠ t → x ≠ p → nx' x = nx x)
    (e3 : pv' n = some t) (e4 : ∀ x, x ≠ n → x ≠ p → pv' x = pv x) :
    IsRing nx' pv' m := by
  have hprev := ring_prev h
  cases m with
  | nil => exact absurd rfl hm
  | cons b m =>
    simp only [IsRing, Links] at h ⊢
    obtain rfl : b = n := by rw [h.1] at hn; simpa using hn
    have hl : (p :: b :: m).getLast (by simp) = (b :: m).getLast (by simp) := by simp
    rw [hl, ht] at hprev
    simp only [Option.some.injEq] at hprev
    have hnd' : (b :: m).Nodup := (List.nodup_cons.mp hnd).2
    have hpm : p ∉ b :: m := (List.nodup_cons.mp hnd).1
    refine links_retarget h.2.2 hnd' (List.nodup_cons.mp hnd').1 ?_ ?_ ?_ ?_
    · rw [← hprev]; exact e1
    · intro x hx hxt
      rw [← hprev] at hxt
      exact e2 x hxt (by rintro rfl; exact hpm hx)
    · rw [← hprev]; exact e3
    · intro x hx hxb
      exact e4 x hxb (by rintro rfl; exact hpm (by simp [hx]))

/-- The children ring of `q` is `l`, in strictly increasing key order. -/
structure IsList (s : HSt) (q : Nat) (l : List Nat) : Prop where
  head : s.first q = l.head?
  ring : IsRing s.next s.prev l
  sorted : l.Pairwise (fun a b => s.index a < s.index b)

theorem IsList.nodup {s : HSt} {q : Nat} {l : List Nat} (h : IsList s q l) : l.Nodup := by
  have := h.sorted
  exact this.imp (fun hab => by rintro rfl; exact Nat.lt_irrefl _ hab)

theorem nodup_length_le {l : List Nat} {n : Nat} (h : l.Nodup) (hlt : ∀ x ∈ l, x < n) :
    l.length ≤ n := by
  have : l ⊆ List.range n := fun x hx => by simpa using hlt x hx
  induction n generalizing l with
  | zero =>
    cases l with
    | nil => simp
    | cons a l => exact absurd (hlt a (by simp)) (by omega)
  | succ n ih =>
    have h1 : (l.erase n).length ≤ n := by
      apply ih (h.erase n)
      · intro x hx
        have := (List.Nodup.mem_erase_iff h).mp hx
        have := hlt x this.2
        omega
      · intro x hx
        have := (List.Nodup.mem_erase_iff h).mp hx
        have := hlt x this.2
        simp; omega
    have := List.length_erase (a := n) (l := l)
    split at this <;> omega

namespace Sll

/-- What `link` answers, in terms of the list. -/
def LinkSpec (s : HSt) (q : Nat) (l : List Nat) (key : Nat) (r : AddRes) : Prop :=
  (l = [] ∧ r = .emptyHead q) ∨
  (∃ h l', l = h :: l' ∧ key < s.index h ∧ r = .smallerThanHead q) ∨
  (∃ l1 c l2, l = l1 ++ c :: l2 ∧ s.index c < key ∧ (∀ x ∈ l2, key < s.index x) ∧
    r = .smallerThanNotHead c) ∨
  (∃ c ∈ l, s.index c = key ∧ r = .alreadyInSll c)

theorem linkLoop_ok {s : HSt} {l : List Nat} {key : Nat} (hr : IsRing s.next s.prev l)
    (hlive : ∀ x ∈ l, s.live x = true) :
    ∀ (fuel : Nat) (l1 : List Nat) (c : Nat) (l2 : List Nat), l = l1 ++ c :: l2 →
      l1.length < fuel → (∀ x ∈ l2, key < s.index x) →
      (∀ h l', l = h :: l' → s.index h ≤ key) →
      ∃ r, linkLoop fuel c key s = .ok r s ∧
        ((∃ l1 c l2, l = l1 ++ c :: l2 ∧ s.index c < key ∧ (∀ x ∈ l2, key < s.index x) ∧
            r = .smallerThanNotHead c) ∨
          (∃ c ∈ l, s.index c = key ∧ r = .alreadyInSll c)) := by
  intro fuel
  induction fuel with
  | zero => intro l1 c l2 _ h; omega
  | succ fuel ih =>
    intro l1 c l2 hl hf h2 hh
    have hc : c ∈ l := by simp [hl]
    simp only [linkLoop]
    rw [H.bind_ok (H.rd_ok (hlive c hc))]
    by_cases h1 : s.index c < key
    · rw [if_pos h1]
      exact ⟨_, rfl, .inl ⟨l1, c, l2, hl, h1, h2, rfl⟩⟩
    · rw [if_neg h1]
      by_cases h3 : s.index c = key
      · rw [if_pos h3]
        exact ⟨_, rfl, .inr ⟨c, hc, h3, rfl⟩⟩
      · rw [if_neg h3]
        rw [H.bind_ok (H.rd_ok (hlive c hc))]
        rcases List.eq_nil_or_concat l1 with rfl | ⟨l1', d, rfl⟩
        · have := hh c l2 (by simpa using hl); omega
        · simp only [List.concat_eq_append, List.append_assoc, List.singleton_append] at hl hf
          have hp : s.prev c = some d := by
            have hr' := hr
            rw [hl, ring_rotate] at hr'
            simp only [List.cons_append, IsRing, Links] at hr'
            exact hr'.2.1
          rw [hp, H.bind_ok (H.nonNull_some d s)]
          refine ih l1' d (c :: l2) hl (by simp at hf; omega) ?_ hh
          intro x hx
          rcases List.mem_cons.mp hx with rfl | hx
          · omega
          · exact h2 x hx

theorem link_ok {s : HSt} {q : Nat} {l : List Nat} (key : Nat) (h : IsList s q l)
    (hq : s.live q = true) (hlive : ∀ x ∈ l, s.live x = true) (htop : ∀ x ∈ l, x < s.top) :
    ∃ r, link q key s = .ok r s ∧ LinkSpec s q l key r := by
  simp only [link]
  rw [H.bind_ok (H.rd_ok hq), h.head]
  cases l with
  | nil => exact ⟨_, rfl, .inl ⟨rfl, rfl⟩⟩
  | cons a l =>
    simp only [List.head?_cons]
    have ha : s.live a = true := hlive a (by simp)
    rw [H.bind_ok (H.rd_ok ha)]
    by_cases hk : key < s.index a
    · rw [if_pos hk]
      exact ⟨_, rfl, .inr (.inl ⟨a, l, rfl, hk, rfl⟩)⟩
    · rw [if_neg hk]
      rw [H.bind_ok (H.rd_ok ha), ring_prev h.ring, H.bind_ok (H.nonNull_some _ s), H.loop_apply]
      have hlen := nodup_length_le h.nodup htop
      have hdec : a :: l = (a :: l).dropLast ++ (a :: l).getLast (by simp) :: [] :=
        (List.dropLast_concat_getLast _).symm
      obtain ⟨r, h1, h2⟩ := linkLoop_ok (key := key) h.ring hlive (s.top + s.slack + 1) _ _ [] hdec
        (by simp at hlen ⊢; omega) (by simp)
        (by intro b l' hb; simp at hb; obtain ⟨rfl, _⟩ := hb; omega)
      exact ⟨r, h1, .inr (.inr h2)⟩

/-- The list after inserting `p` where `link` said. -/
def insertAt (p : Nat) (l : List Nat) (key : Nat → Nat) : List Nat :=
  l.filter (fun x => key x < key p) ++ p :: l.filter (fun x => key p < key x)

theorem filter_split {l1 l2 : List Nat} {P Q : Nat → Bool} (h1 : ∀ x ∈ l1, P x = true ∧ Q x = false)
    (h2 : ∀ x ∈ l2, P x = false ∧ Q x = true) :
    (l1 ++ l2).filter P = l1 ∧ (l1 ++ l2).filter Q = l2 := by
  simp only [List.filter_append]
  constructor
  · rw [List.filter_eq_self.mpr (fun x hx => (h1 x hx).1),
      List.filter_eq_nil_iff.mpr (fun x hx => by simp [(h2 x hx).1])]; simp
  · rw [List.filter_eq_nil_iff.mpr (fun x hx => by simp [(h1 x hx).2]),
      List.filter_eq_self.mpr (fun x hx => (h2 x hx).2)]; simp

theorem add_ok {s : HSt} {q p : Nat} {l : List Nat} {r : AddRes} (h : IsList s q l)
    (hq : s.live q = true) (hlive : ∀ x ∈ l, s.live x = true) (hp : s.live p = true) (hpl : p ∉ l)
    (hr : LinkSpec s q l (s.index p) r) (hna : ∀ c, r ≠ .alreadyInSll c) :
    ∃ N P F, r.addToSll p s = .ok () { s with next := N, prev := P, first := F } ∧
      (∀ x, x ∉ l → x ≠ p → N x = s.next x ∧ P x = s.prev x) ∧
      (∀ x, x ≠ q → F x = s.first x) ∧
      IsList { s with next := N, prev := P, first := F } q (insertAt p l s.index) := by
  rcases hr with ⟨rfl, rfl⟩ | ⟨a, l', rfl, hk, rfl⟩ | ⟨l1, c, l2, hl, hc, h2, rfl⟩ | ⟨c, _, _, rfl⟩
  · -- empty
    refine ⟨upd s.next p (some p), upd s.prev p (some p), upd s.first q (some p), ?_, ?_, ?_, ?_⟩
    · simp [AddRes.addToSll, H.bind_def, H.wr, HSt.setPrev, HSt.setNext, HSt.setFirst, hp, hq]
    · intro x _ hx; simp [upd_other _ _ hx]
    · intro x hx; simp [upd_other _ _ hx]
    · exact ⟨by simp [insertAt], by simp [insertAt, IsRing, Links], by simp [insertAt]⟩
  · -- new head
    have ha : s.live a = true := hlive a (by simp)
    simp only [List.mem_cons, not_or] at hpl
    have hap : a ≠ p := fun e => hpl.1 e.symm
    have ht : (a :: l').getLast (by simp) ∈ a :: l' := List.getLast_mem _
    generalize hte : (a :: l').getLast (by simp) = t at ht
    have hpv : s.prev a = some t := by rw [ring_prev h.ring, hte]
    have htl : s.live t = true := hlive t ht
    have htp : t ≠ p := by rintro rfl; simp only [List.mem_cons] at ht; exact ht.elim hpl.1 hpl.2
    have hins : insertAt p (a :: l') s.index = p :: a :: l' := by
      have hall : ∀ x ∈ a :: l', s.index p < s.index x := by
        intro x hx
        rcases List.mem_cons.mp hx with rfl | hx
        · exact hk
        · have := (List.pairwise_cons.mp h.sorted).1 x hx; omega
      have := filter_split (l1 := []) (l2 := a :: l') (P := fun x => decide (s.index x < s.index p))
        (Q := fun x => decide (s.index p < s.index x)) (by simp)
        (fun x hx => by have := hall x hx; simp; omega)
      simp only [List.nil_append] at this
      simp only [insertAt, this.1, this.2, List.nil_append]
    refine ⟨upd (upd (upd s.next p (some p)) t (some p)) p (some a),
      upd (upd (upd s.prev p (some p)) a (some p)) p (some t), upd s.first q (some p), ?_, ?_, ?_, ?_⟩
    · simp [AddRes.addToSll, H.bind_def, H.wr, H.rd, HSt.setPrev, HSt.setNext, HSt.setFirst, hp, hq,
        h.head, ha, upd_other _ _ hap, hpv, htl]
    · intro x hx hxp
      have hxa : x ≠ a := by rintro rfl; exact hx (by simp)
      have hxt : x ≠ t := by rintro rfl; exact hx ht
      simp [upd_apply, hxp, hxa, hxt]
    · intro x hx; simp [upd_other _ _ hx]
    · rw [hins]
      refine ⟨by simp, ?_, ?_⟩
      · show IsRing _ _ ([p] ++ (a :: l'))
        -- rotate the old ring to start at the last element
        have hdec : a :: l' = (a :: l').dropLast ++ [t] := by
          rw [← hte]; exact (List.dropLast_concat_getLast _).symm
        have hring : IsRing s.next s.prev (t :: (a :: l').dropLast) := by
          have := h.ring; rw [hdec, ring_rotate] at this; exact this
        have hnd : (t :: (a :: l').dropLast).Nodup := by
          have := h.nodup; rw [hdec] at this
          have := (List.perm_append_comm (l₁ := (a :: l').dropLast) (l₂ := [t])).nodup_iff.mp this
          exact this
        have hnext : s.next t = some a := by
          rcases List.eq_nil_or_concat l' with rfl | ⟨l'', t', rfl⟩
          · simp at hte; subst hte; simpa using (ring_next h.ring)
          · simp [getLast_cons_snoc] at hte; subst hte
            have := h.ring
            have e : a :: l''.concat t' = (a :: l'') ++ [t'] := by simp
            rw [e, ring_rotate] at this
            simpa using ring_next this
        rw [ring_rotate, hdec, List.append_assoc, ring_rotate]
        show IsRing _ _ (t :: p :: (a :: l').dropLast)
        refine ring_insert hring hnd ?_ hnext ?_ ?_ ?_ ?_ ?_ ?_
        · intro hmem
          have : p ∈ a :: l' := by
            rw [hdec]; simp only [List.mem_cons, List.mem_append] at hmem ⊢; grind
          simp only [List.mem_cons] at this; exact this.elim hpl.1 hpl.2
        · simp [upd_other _ _ htp]
        · simp
        · intro x hx1 hx2; simp [upd_apply, hx1, hx2]
        · simp [upd_other _ _ hap]
        · simp
        · intro x hx1 hx2; simp [upd_apply, hx1, hx2]
      · refine List.pairwise_cons.mpr ⟨?_, h.sorted⟩
        intro x hx
        rcases List.mem_cons.mp hx with rfl | hx
        · exact hk
        · have := (List.pairwise_cons.mp h.sorted).1 x hx
          show s.index p < s.index x
          omega
  · -- after c
    have hcl : c ∈ l := by simp [hl]
    have hlc : s.live c = true := hlive c hcl
    have hcp : c ≠ p := by rintro rfl; exact hpl hcl
    have hring : IsRing s.next s.prev (c :: (l2 ++ l1)) := by
      have := h.ring; rw [hl, ring_rotate] at this; exact this
    have hnd : (c :: (l2 ++ l1)).Nodup := by
      have := h.nodup; rw [hl] at this
      exact (List.perm_append_comm (l₁ := l1) (l₂ := c :: l2)).nodup_iff.mp this
    have hn := ring_next hring
    generalize hne : (l2 ++ l1 ++ [c]).head (by simp) = n at hn
    have hnl : n ∈ l := by
      have : n ∈ l2 ++ l1 ++ [c] := by rw [← hne]; exact List.head_mem _
      rw [hl]; simp at this ⊢; grind
    have hlvn : s.live n = true := hlive n hnl
    have hnp : n ≠ p := by rintro rfl; exact hpl hnl
    have hl1 : ∀ x ∈ l1, s.index x < s.index p := by
      have := h.sorted; rw [hl, List.pairwise_append] at this
      intro x hx; have := this.2.2 x hx c (by simp); omega
    have hins : insertAt p l s.index = l1 ++ c :: p :: l2 := by
      have e : l = (l1 ++ [c]) ++ l2 := by simp [hl]
      have := filter_split (l1 := l1 ++ [c]) (l2 := l2)
        (P := fun x => decide (s.index x < s.index p))
        (Q := fun x => decide (s.index p < s.index x))
        (fun x hx => by
          simp at hx; rcases hx with hx | rfl
          · have := hl1 x hx; simp; omega
          · simp; omega)
        (fun x hx => by have := h2 x hx; simp; omega)
      rw [← e] at this
      simp only [insertAt, this.1, this.2]; simp
    refine ⟨upd (upd (upd s.next p (some p)) c (some p)) p (some n),
      upd (upd (upd s.prev p (some p)) n (some p)) p (some c), s.first, ?_, ?_, ?_, ?_⟩
    · simp [AddRes.addToSll, H.bind_def, H.wr, H.rd, HSt.setPrev, HSt.setNext, hp,
        hlc, upd_other _ _ hcp, hn, hlvn]
    · intro x hx hxp
      have hxa : x ≠ c := by rintro rfl; exact hx hcl
      have hxt : x ≠ n := by rintro rfl; exact hx hnl
      simp [upd_apply, hxp, hxa, hxt]
    · intro x hx; rfl
    · rw [hins]
      refine ⟨?_, ?_, ?_⟩
      · have := h.head; rw [hl] at this
        show s.first q = _
        rw [this]; cases l1 <;> simp
      · rw [ring_rotate]
        refine ring_insert hring hnd ?_ hn ?_ ?_ ?_ ?_ ?_ ?_
        · intro hm; apply hpl; rw [hl]; simp at hm ⊢; grind
        · simp [upd_other _ _ hcp]
        · simp
        · intro x hx1 hx2; simp [upd_apply, hx1, hx2]
        · simp [upd_other _ _ hnp]
        · simp
        · intro x hx1 hx2; simp [upd_apply, hx1, hx2]
      · have := h.sorted
        rw [hl, List.pairwise_append, List.pairwise_cons] at this
        rw [List.pairwise_append, List.pairwise_cons, List.pairwise_cons]
        refine ⟨this.1, ⟨?_, h2, this.2.1.2⟩, ?_⟩
        · intro x hx
          rcases List.mem_cons.mp hx with rfl | hx
          · exact hc
          · exact this.2.1.1 x hx
        · intro x hx y hy
          rcases List.mem_cons.mp hy with rfl | hy
          · exact this.2.2 x hx _ (by simp)
          · rcases List.mem_cons.mp hy with rfl | hy
            · exact hl1 x hx
            · exact this.2.2 x hx _ (by simp [hy])
  · exact absurd rfl (hna c)

theorem unlink_ring {s : HSt} {q p : Nat} {l : List Nat} (hhead : s.first q = l.head?)
    (hring0 : IsRing s.next s.prev l) (hnd : l.Nodup) (hq : s.live q = true)
    (hlive : ∀ x ∈ l, s.live x = true) (hp : p ∈ l) :
    ∃ N P F, unlink q p s = .ok () { s with next := N, prev := P, first := F } ∧
      (∀ x, x ∉ l → N x = s.next x ∧ P x = s.prev x) ∧
      (N p = some p ∧ P p = some p) ∧
      (∀ x, x ≠ q → F x = s.first x) ∧
      F q = (l.erase p).head? ∧ IsRing N P (l.erase p) := by
  obtain ⟨l1, l2, hl⟩ := List.append_of_mem hp
  have hp1 : p ∉ l1 := by rw [hl, List.nodup_append] at hnd; intro hx; exact hnd.2.2 p hx p (by simp) rfl
  have hp2 : p ∉ l2 := by
    rw [hl, List.nodup_append, List.nodup_cons] at hnd; exact hnd.2.1.1
  have herase : l.erase p = l1 ++ l2 := by
    rw [hl, List.erase_append_right _ hp1]; simp
  have hring : IsRing s.next s.prev (p :: (l2 ++ l1)) := by
    have := hring0; rw [hl, ring_rotate] at this; exact this
  have hnd' : (p :: (l2 ++ l1)).Nodup := by
    rw [hl] at hnd
    exact (List.perm_append_comm (l₁ := l1) (l₂ := p :: l2)).nodup_iff.mp hnd
  have hn := ring_next hring
  have ht := ring_prev hring
  generalize hne : (l2 ++ l1 ++ [p]).head (by simp) = n at hn
  generalize hte : (p :: (l2 ++ l1)).getLast (by simp) = t at ht
  have hnl : n ∈ l := by
    have : n ∈ l2 ++ l1 ++ [p] := by rw [← hne]; exact List.head_mem _
    rw [hl]; simp at this ⊢; grind
  have htl : t ∈ l := by
    have : t ∈ p :: (l2 ++ l1) := by rw [← hte]; exact List.getLast_mem _
    rw [hl]; simp at this ⊢; grind
  have hlp := hlive p hp
  have hln := hlive n hnl
  have hlt := hlive t htl
  have hfirst : (s.first q).isSome = true := by
    rw [hhead, hl]; cases l1 <;> simp
  -- the two middle debug assertions
  have hnt : (upd s.next p (some p)) t = some p := by
    by_cases e : t = p
    · simp [e]
    · rw [upd_other _ _ e]
      rcases List.eq_nil_or_concat (l2 ++ l1) with e0 | ⟨m, t', e0⟩
      · simp [e0] at hte; exact absurd hte.symm e
      · have : t = t' := by rw [← hte]; simp [e0, getLast_cons_snoc]
        subst this
        rw [e0] at hring
        have e1 : p :: m.concat t = (p :: m) ++ [t] := by simp
        rw [e1, ring_rotate] at hring
        simpa using ring_next hring
  have hpn : (upd s.prev p (some p)) n = some p := by
    by_cases e : n = p
    · simp [e]
    · rw [upd_other _ _ e]
      cases e0 : l2 ++ l1 with
      | nil => simp [e0] at hne; exact absurd hne.symm e
      | cons b m =>
        have : n = b := by rw [← hne]; simp [e0]
        subst this
        rw [e0] at hring
        have := hring
        simp only [IsRing, Links] at this
        exact this.2.1
  have hnnt : ∀ (he : l2 ++ l1 ≠ []), n ≠ p ∧ t ≠ p := by
    intro he
    constructor
    · rintro rfl
      cases e0 : l2 ++ l1 with
      | nil => exact he e0
      | cons b m => simp [e0] at hne; subst hne; simp [e0] at hnd'
    · rintro rfl
      have : t ∈ l2 ++ l1 := by
        rw [← hte, List.getLast_cons he]; exact List.getLast_mem _
      exact (List.nodup_cons.mp hnd').1 this
  have hempty : l2 ++ l1 = [] → n = p ∧ t = p := by
    intro he
    constructor
    · rw [← hne]; simp [he]
    · rw [← hte]; simp [he]
  refine ⟨upd (upd s.next p (some p)) t (some n), upd (upd s.prev p (some p)) n (some t),
    if s.first q = some p then upd s.first q (if n = p then none else some n) else s.first,
    ?_, ?_, ?_, ?_, ?_⟩
  · simp only [unlink, H.bind_def, H.rd, H.wr, hq, hlp, hn, ht, if_true, H.dbg, hfirst,
      H.pure_apply, H.nonNull_some, hlt, HSt.setPrev, HSt.setNext, hnt, hln, hpn, beq_self_eq_true]
    by_cases e : s.first q = some p
    · simp [e, hq, HSt.setFirst, H.wr]
    · simp [e]
  · intro x hx
    have hxp : x ≠ p := by rintro rfl; exact hx hp
    have hxn : x ≠ n := by rintro rfl; exact hx hnl
    have hxt : x ≠ t := by rintro rfl; exact hx htl
    simp [upd_apply, hxp, hxn, hxt]
  · by_cases he : l2 ++ l1 = []
    · obtain ⟨e1, e2⟩ := hempty he
      subst e1 e2; simp
    · obtain ⟨e1, e2⟩ := hnnt he
      simp [upd_apply, e1.symm, e2.symm]
  · intro x hx
    split
    · rw [upd_other _ _ hx]
    · rfl
  · rw [herase]
    refine ⟨?_, ?_⟩
    · show (if s.first q = some p then upd s.first q (if n = p then none else some n) else s.first) q
        = _
      cases l1 with
      | nil =>
        have hf : s.first q = some p := by rw [hhead, hl]; simp
        rw [if_pos hf]
        simp only [upd_same, List.nil_append]
        cases l2 with
        | nil => simp [(hempty rfl).1]
        | cons b m =>
          have hb := (hnnt (by simp)).1
          rw [if_neg hb]
          simp at hne; simp [hne]
      | cons a l1' =>
        have hf : s.first q = some a := by rw [hhead, hl]; simp
        have : a ≠ p := by rintro rfl; exact hp1 (by simp)
        rw [if_neg (by rw [hf]; simpa using this)]
        rw [hf]; simp
    · rw [ring_rotate]
      by_cases he : l2 ++ l1 = []
      · rw [he]; trivial
      · obtain ⟨e1, e2⟩ := hnnt he
        refine ring_remove hring hnd' he hn ht ?_ ?_ ?_ ?_
        · simp
        · intro x hx1 hx2; simp [upd_apply, hx1, hx2]
        · simp
        · intro x hx1 hx2; simp [upd_apply, hx1, hx2]

theorem unlink_ok {s : HSt} {q p : Nat} {l : List Nat} (h : IsList s q l) (hq : s.live q = true)
    (hlive : ∀ x ∈ l, s.live x = true) (hp : p ∈ l) :
    ∃ N P F, unlink q p s = .ok () { s with next := N, prev := P, first := F } ∧
      (∀ x, x ∉ l → N x = s.next x ∧ P x = s.prev x) ∧
      (N p = some p ∧ P p = some p) ∧
      (∀ x, x ≠ q → F x = s.first x) ∧
      IsList { s with next := N, prev := P, first := F } q (l.erase p) := by
  obtain ⟨N, P, F, h1, h2, h3, h4, h5, h6⟩ := unlink_ring h.head h.ring h.nodup hq hlive hp
  exact ⟨N, P, F, h1, h2, h3, h4, ⟨h5, h6, h.sorted.sublist List.erase_sublist⟩⟩

theorem adjustLoop_ok {elem start : Nat} {d : Delta} :
    ∀ (fuel : Nat) (s : HSt) (cur : Nat) (rest : List Nat), Links s.next s.prev cur rest elem →
      rest.length < fuel → (cur :: rest).Nodup → elem ∉ rest →
      (∀ x ∈ cur :: rest, s.live x = true) →
      (∀ x ∈ cur :: rest, start ≤ s.index x → d.fits (s.index x) = true) →
      adjustLoop fuel elem cur start d s = .ok () { s with
        index := fun x => if x ∈ cur :: rest ∧ start ≤ s.index x then d.apply (s.index x)
          else s.index x } := by
  intro fuel
  induction fuel with
  | zero => intro s cur rest _ h; omega
  | succ fuel ih =>
    intro s cur rest hl hf hnd he hlive hfits
    simp only [adjustLoop]
    have hc := hlive cur (by simp)
    have hwr : adjustKey cur start d s = .ok () (s.setIndex cur
          (if start ≤ s.index cur then d.apply (s.index cur) else s.index cur)) := by
      simp only [adjustKey]
      rw [H.bind_ok (H.rd_ok hc)]
      split
      · next hle =>
        rw [H.bind_ok (H.dbg_ok (hfits cur (by simp) hle)), H.wr_ok hc]
      · rw [HSt.setIndex, upd_eq_self s.index rfl]; rfl
    rw [H.bind_ok hwr]
    generalize hs1 : s.setIndex cur
          (if start ≤ s.index cur then d.apply (s.index cur) else s.index cur) = s1
    have hc1 : s1.live cur = true := by rw [← hs1]; exact hc
    rw [H.bind_ok (H.rd_ok hc1)]
    have hnx : s1.next = s.next := by rw [← hs1]; rfl
    cases rest with
    | nil =>
      simp only [Links] at hl
      rw [hnx, hl.1, H.bind_ok (H.nonNull_some _ _)]
      simp only [beq_self_eq_true, if_true, H.pure_apply, ← hs1, HSt.setIndex]
      congr 2
      funext x
      simp only [upd_apply, List.mem_cons, List.not_mem_nil, or_false]
      by_cases hx : x = cur
      · subst hx; simp
      · simp [hx]
    | cons b rest =>
      simp only [Links] at hl
      rw [hnx, hl.1, H.bind_ok (H.nonNull_some _ _)]
      have hbe : (b == elem) = false := by
        simp only [beq_eq_false_iff_ne]; rintro rfl; exact he (by simp)
      rw [hbe]
      simp only [Bool.false_eq_true, if_false]
      have hnd' := List.nodup_cons.mp hnd
      have hidx : ∀ x ∈ b :: rest, s1.index x = s.index x := by
        intro x hx
        rw [← hs1]
        show upd s.index cur _ x = _
        rw [upd_other]; rintro rfl; exact hnd'.1 hx
      rw [ih s1 b rest (by rw [← hs1]; exact hl.2.2) (by simp at hf; omega) hnd'.2
        (fun h => he (by simp [h])) (fun x hx => by
          rw [← hs1]; exact hlive x (List.mem_cons_of_mem _ hx))
        (fun x hx hle => by rw [hidx x hx] at hle ⊢; exact hfits x (List.mem_cons_of_mem _ hx) hle)]
      rw [← hs1]
      simp only [HSt.setIndex]
      congr 2
      funext x
      by_cases hxc : x = cur
      · subst hxc
        simp [hnd'.1]
      · simp only [upd_other _ _ hxc, List.mem_cons, hxc, false_or]

theorem adjust_ok {s : HSt} {elem start : Nat} {d : Delta} {l : List Nat}
    (hr : IsRing s.next s.prev l) (hnd : l.Nodup) (he : elem ∈ l)
    (hlive : ∀ x ∈ l, s.live x = true) (htop : ∀ x ∈ l, x < s.top)
    (hfits : ∀ x ∈ l, start ≤ s.index x → d.fits (s.index x) = true) :
    adjust elem start d s = .ok () { s with
        index := fun x => if x ∈ l ∧ start ≤ s.index x then d.apply (s.index x)
          else s.index x } := by
  obtain ⟨l1, l2, rfl⟩ := List.append_of_mem he
  have hlen := nodup_length_le hnd htop
  rw [ring_rotate] at hr
  have hperm := List.perm_append_comm (l₁ := l1) (l₂ := elem :: l2)
  have hnd' := hperm.nodup_iff.mp hnd
  have hmem : ∀ x, x ∈ elem :: (l2 ++ l1) ↔ x ∈ l1 ++ elem :: l2 := fun x => hperm.symm.mem_iff
  simp only [adjust, H.loop_apply]
  rw [adjustLoop_ok (s.top + s.slack + 1) s elem (l2 ++ l1) hr (by simp at hlen ⊢; omega) hnd'
    (List.nodup_cons.mp hnd').1 (fun x hx => hlive x ((hmem x).mp hx))
    (fun x hx => hfits x ((hmem x).mp hx))]
  congr 2
  funext x
  simp only [hmem x]

end Sll
end Rowan
