import Verif.ThinArc
/-!
# Lemmas about layouts and the memory of an allocation

Unless their comments cite lines of `/repo`, the definitions in this file are vocabulary of the proofs and model no code.
-/
namespace Rowan

theorem roundUp_ge (x : Nat) {a : Nat} (ha : 0 < a) : x ≤ roundUp x a := by
  have h1 := Nat.div_add_mod (x + (a - 1)) a
  have h2 := Nat.mod_lt (x + (a - 1)) ha
  rw [Nat.mul_comm] at h1
  simp only [roundUp]; omega

theorem roundUp_lt (x : Nat) {a : Nat} (ha : 0 < a) : roundUp x a < x + a := by
  have h1 := Nat.div_add_mod (x + (a - 1)) a
  rw [Nat.mul_comm] at h1
  simp only [roundUp]; omega

theorem roundUp_mod (x a : Nat) : roundUp x a % a = 0 := by simp [roundUp]

theorem roundUp_add {m x a : Nat} (ha : 0 < a) (hm : m % a = 0) :
    roundUp (m + x) a = m + roundUp x a := by
  obtain ⟨k, rfl⟩ := Nat.dvd_of_mod_eq_zero hm
  simp only [roundUp]
  rw [Nat.add_assoc, Nat.mul_add_div ha, Nat.add_mul, Nat.mul_comm k a]

theorem roundUp_self {m a : Nat} (ha : 0 < a) (hm : m % a = 0) : roundUp m a = m := by
  have h := roundUp_add (x := 0) ha hm
  have h0 : roundUp 0 a = 0 := by
    simp only [roundUp]; rw [Nat.zero_add, Nat.div_eq_of_lt (by omega)]; simp
  rw [h0] at h; exact h

theorem roundUp_zero {a : Nat} (ha : 0 < a) : roundUp 0 a = 0 := roundUp_self ha (by simp)

/-- The bit trick rounds down to a multiple of a power of two. -/
theorem land_not {x k : Nat} (hx : x < word) (hk : k ≤ 64) :
    x &&& notWord (2 ^ k - 1) = x / 2 ^ k * 2 ^ k := by
  apply Nat.eq_of_testBit_eq
  intro i
  have hp : 2 ^ k - 1 < 2 ^ 64 := by
    have := Nat.pow_le_pow_right (show 0 < 2 by omega) hk
    have := Nat.two_pow_pos k
    omega
  have hn : notWord (2 ^ k - 1) = 2 ^ 64 - ((2 ^ k - 1) + 1) := by
    simp only [notWord, word]; omega
  rw [Nat.testBit_and, hn, Nat.testBit_two_pow_sub_succ hp, Nat.testBit_mul_two_pow,
    Nat.testBit_div_two_pow, Nat.testBit_two_pow_sub_one]
  by_cases hik : i < k
  · simp [hik, Nat.not_le.mpr hik]
  · have : k + (i - k) = i := by omega
    have hik' : k ≤ i := by omega
    by_cases hi : i < 64
    · simp [hik, hi, hik', Nat.add_comm, this]
    · have hx0 : x.testBit i = false := by
        apply Nat.testBit_lt_two_pow
        exact Nat.lt_of_lt_of_le hx (Nat.pow_le_pow_right (by omega) (by omega))
      simp [hi, Nat.sub_add_cancel hik', hx0]

theorem max_two_pow (i j : Nat) : max (2 ^ i) (2 ^ j) = 2 ^ max i j := by
  rcases Nat.le_total i j with h | h
  · rw [Nat.max_eq_right h, Nat.max_eq_right (Nat.pow_le_pow_right (by omega) h)]
  · rw [Nat.max_eq_left h, Nat.max_eq_left (Nat.pow_le_pow_right (by omega) h)]

/-! ## The offsets -/

theorem Lay.Valid.pos {l : Lay} (h : l.Valid) : 0 < l.align := by
  obtain ⟨⟨k, -, hk⟩, -⟩ := h; rw [hk]; exact Nat.two_pow_pos k

/-- The facts about the layout that everything rests on. -/
structure LayFacts (h t : Lay) (n : Nat) : Prop where
  /-- alignment of the allocation -/
  align : ∃ k, k ≤ 29 ∧ (fatLay h t n).align = 2 ^ k
  thin : thinAlign h t = (fatLay h t n).align
  alignH : (fatLay h t n).align % h.align = 0
  alignT : (fatLay h t n).align % t.align = 0
  align8 : (fatLay h t n).align % 8 = 0
  headerGe : 8 ≤ headerOff h t
  headerAl : headerOff h t % h.align = 0
  lengthGe : headerOff h t + h.size ≤ lengthOff h t
  lengthAl : lengthOff h t % 8 = 0
  sliceGe : lengthOff h t + 8 ≤ sliceOffset h t
  sliceAl : sliceOffset h t % t.align = 0
  size : (fatLay h t n).size = roundUp (sliceOffset h t + t.size * n) (fatLay h t n).align
  data : offsetOf (arcInner (reprC (headerSlice h t n))) 1 = innerToData h t

theorem mod_of_pow {i j : Nat} (h : i ≤ j) : 2 ^ j % 2 ^ i = 0 :=
  Nat.mod_eq_zero_of_dvd (Nat.pow_dvd_pow 2 h)

theorem layFacts {h t : Lay} (hh : h.Valid) (ht : t.Valid) (n : Nat) : LayFacts h t n := by
  have h0 := hh.pos
  have t0 := ht.pos
  obtain ⟨⟨i, hi, hI⟩, -⟩ := hh
  obtain ⟨⟨j, hj, hJ⟩, -⟩ := ht
  have h8 : (8 : Nat) = 2 ^ 3 := rfl
  have h1 : (1 : Nat) = 2 ^ 0 := rfl
  let K := max i (max 3 j)
  have hA : ∀ m, (reprC (headerSlice h t m)).align = 2 ^ K := by
    intro m
    show max h.align (max 8 (max t.align 1)) = 2 ^ K
    rw [hI, hJ, h8, h1, max_two_pow, max_two_pow, max_two_pow, Nat.max_eq_left (Nat.zero_le j)]
  have hAp : 0 < 2 ^ K := Nat.two_pow_pos K
  have hF : ∀ m, (fatLay h t m).align = 2 ^ K := by
    intro m
    show max 8 (max (reprC (headerSlice h t m)).align 1) = 2 ^ K
    rw [hA, h8, h1, max_two_pow, max_two_pow, Nat.max_eq_left (Nat.zero_le K)]
    rw [Nat.max_eq_right (show 3 ≤ K by omega)]
  have hdata : ∀ m, offsetOf (arcInner (reprC (headerSlice h t m))) 1 = roundUp 8 (2 ^ K) := by
    intro m
    show roundUp (roundUp 0 8 + 8) (reprC (headerSlice h t m)).align = _
    rw [hA, roundUp_zero (by omega)]
  have hitd : innerToData h t = roundUp 8 (2 ^ K) := hdata 0
  have hitdm : innerToData h t % 2 ^ K = 0 := by rw [hitd]; exact roundUp_mod _ _
  have hho : headerOff h t = innerToData h t := by
    show innerToData h t + roundUp 0 h.align = _
    rw [roundUp_zero h0]; rfl
  have hlo : lengthOff h t = innerToData h t + roundUp h.size 8 := by
    show innerToData h t + roundUp (roundUp 0 h.align + h.size) 8 = _
    rw [roundUp_zero h0, Nat.zero_add]
  have hso : sliceOffset h t = innerToData h t + roundUp (roundUp h.size 8 + 8) t.align := by
    show innerToData h t + roundUp (roundUp (roundUp 0 h.align + h.size) 8 + 8) t.align = _
    rw [roundUp_zero h0, Nat.zero_add]
  have hdvd : ∀ a, 2 ^ K % a = 0 → innerToData h t % a = 0 := by
    intro a ha
    exact Nat.mod_eq_zero_of_dvd
      (Nat.dvd_trans (Nat.dvd_of_mod_eq_zero ha) (Nat.dvd_of_mod_eq_zero hitdm))
  have mH : 2 ^ K % h.align = 0 := by rw [hI]; exact mod_of_pow (by omega)
  have mT : 2 ^ K % t.align = 0 := by rw [hJ]; exact mod_of_pow (by omega)
  have m8 : 2 ^ K % 8 = 0 := by rw [h8]; exact mod_of_pow (by omega)
  have addm : ∀ x y a : Nat, x % a = 0 → y % a = 0 → (x + y) % a = 0 := by
    intro x y a hx hy
    exact Nat.mod_eq_zero_of_dvd
      (Nat.dvd_add (Nat.dvd_of_mod_eq_zero hx) (Nat.dvd_of_mod_eq_zero hy))
  refine ⟨⟨K, by omega, hF n⟩, ?_, ?_, ?_, ?_, ?_, ?_, ?_, ?_, ?_, ?_, ?_, ?_⟩
  · rw [thinAlign, hF, hF]
  · rw [hF]; exact mH
  · rw [hF]; exact mT
  · rw [hF]; exact m8
  · rw [hho, hitd]; exact roundUp_ge 8 hAp
  · rw [hho]; exact hdvd _ mH
  · rw [hho, hlo]; have := roundUp_ge h.size (a := 8) (by omega); omega
  · rw [hlo]; exact addm _ _ _ (hdvd 8 m8) (roundUp_mod _ _)
  · rw [hlo, hso]; have := roundUp_ge (roundUp h.size 8 + 8) t0; omega
  · rw [hso]; exact addm _ _ _ (hdvd _ mT) (roundUp_mod _ _)
  · have hX : (reprC (headerSlice h t n)).size =
        roundUp (roundUp (roundUp h.size 8 + 8) t.align + t.size * n) (2 ^ K) := by
      show roundUp (roundUp (roundUp (roundUp 0 h.align + h.size) 8 + 8) t.align + t.size * n)
        (reprC (headerSlice h t n)).align = _
      rw [hA, roundUp_zero h0, Nat.zero_add]
    have hS : (fatLay h t n).size =
        roundUp (roundUp (roundUp 0 8 + 8) (reprC (headerSlice h t n)).align +
          (reprC (headerSlice h t n)).size) (fatLay h t n).align := rfl
    rw [hS, hA, hF, hX, roundUp_zero (by omega), Nat.zero_add, ← hitd, hso]
    rw [roundUp_self hAp (addm _ _ _ hitdm (roundUp_mod _ _))]
    rw [Nat.add_assoc, roundUp_add hAp hitdm]
  · rw [hdata, hitd]

/-! ## Memory -/

theorem TMem.put_same {α β : Type} (h t : Lay) (m : TMem α β) (off : Nat) (c : TCell α β) :
    (m.put h t off c).cells off = some c := by simp [TMem.put]

theorem TMem.put_other {α β : Type} (h t : Lay) (m : TMem α β) (off : Nat) (c : TCell α β) {o : Nat}
    {d : TCell α β} (hd : m.cells o = some d) (hne : o ≠ off)
    (hdis : o + (d.lay h t).size ≤ off ∨ off + (c.lay h t).size ≤ o) :
    (m.put h t off c).cells o = some d := by
  simp only [TMem.put]
  rw [if_neg hne, hd]
  simp only
  rw [if_neg (by omega)]

/-- Write the items one after the other. -/
def TMem.putAll {α β : Type} (h t : Lay) : TMem α β → Nat → List β → TMem α β
  | m, _, [] => m
  | m, off, x :: xs => (m.put h t off (.item x)).putAll h t (off + t.size) xs

theorem TMem.putAll_lay {α β : Type} (h t : Lay) (m : TMem α β) (off : Nat) (xs : List β) :
    (m.putAll h t off xs).lay = m.lay := by
  induction xs generalizing m off with
  | nil => rfl
  | cons x xs ih => rw [TMem.putAll, ih]; rfl

theorem TMem.putAll_before {α β : Type} (h t : Lay) (m : TMem α β) (off : Nat)
    (xs : List β) {o : Nat} {d : TCell α β} (hd : m.cells o = some d) (hne : o < off)
    (hdis : o + (d.lay h t).size ≤ off) : (m.putAll h t off xs).cells o = some d := by
  induction xs generalizing m off with
  | nil => exact hd
  | cons x xs ih =>
    rw [TMem.putAll]
    exact ih _ _ (m.put_other h t off _ hd (by omega) (.inl hdis)) (by omega) (by omega)

theorem TMem.putAll_item {α β : Type} (h t : Lay) (hT : t.size ≠ 0) (m : TMem α β) (off : Nat)
    (xs : List β) (i : Nat) (x : β) (hx : xs[i]? = some x) :
    (m.putAll h t off xs).cells (off + t.size * i) = some (.item x) := by
  induction xs generalizing m off i with
  | nil => simp at hx
  | cons y ys ih =>
    rw [TMem.putAll]
    cases i with
    | zero =>
      simp at hx; subst hx
      exact TMem.putAll_before h t _ _ _ (m.put_same h t off _) (by omega) (by simp [TCell.lay])
    | succ i =>
      simp at hx
      have := ih (m.put h t off (.item y)) (off + t.size) i hx
      rw [show off + t.size * (i + 1) = off + t.size + t.size * i by rw [Nat.mul_add]; omega]
      exact this

/-- `n` calls of `next`; `None` is a panic. -/
def TIter.pull {σ β : Type} (it : TIter σ β) : Nat → σ → Res (List β × σ)
  | 0, s => .ok ([], s)
  | k + 1, s => do
    let (x, s) ← it.next s
    let x ← Res.ofOption x
    let (xs, s) ← it.pull k s
    .ok (x :: xs, s)

theorem fillLoop_eq {σ α β : Type} {h t : Lay} (it : TIter σ β) (k : Nat) (off : Nat) (s : σ)
    (m : TMem α β) (h1 : off + t.size * k ≤ m.lay.size) (h2 : off % t.align = 0)
    (h3 : m.lay.align % t.align = 0) (h4 : t.size % t.align = 0) :
    fillLoop h t it k off s m = (do
      let (xs, s) ← it.pull k s
      .ok (s, m.putAll h t off xs)) := by
  induction k generalizing off s m with
  | zero => rfl
  | succ k ih =>
    rw [fillLoop, TIter.pull]
    rw [Nat.mul_add, Nat.mul_one] at h1
    cases hn : it.next s with
    | ok p =>
      obtain ⟨x, s1⟩ := p
      cases x with
      | some x =>
        simp only [Res.ok_bind, Res.ofOption_some]
        have hw : m.write h t off (.item x) = .ok (m.put h t off (.item x)) := by
          simp only [TMem.write]
          rw [if_pos ⟨by simp only [TCell.lay]; omega, h2, h3⟩]
        rw [hw, Res.ok_bind, ih]
        · cases it.pull k s1 <;> rfl
        · show off + t.size + t.size * k ≤ m.lay.size
          omega
        · exact Nat.mod_eq_zero_of_dvd
            (Nat.dvd_add (Nat.dvd_of_mod_eq_zero h2) (Nat.dvd_of_mod_eq_zero h4))
        · exact h3
      | none => rfl
    | panic => rfl
    | ub => rfl
    | diverge => rfl

end Rowan
