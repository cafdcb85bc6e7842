import Verif.ThinArcLemmas
import Verif.Spec.ThinArc
/-!
# C43, C44: allocation and construction of green objects
-/
namespace Rowan

/-! ## C43 -/

instance (l : Lay) : Decidable l.Fits := inferInstanceAs (Decidable (_ ≤ _))

/-- **C43.**  For all header and element types and all item counts that fit a `usize`: the layout the
code allocates is exactly the `repr(C)` layout of the object with `n` elements, if that layout is
one the allocator accepts; otherwise (and for zero-sized elements) construction panics. -/
theorem C43_layout {h t : Lay} (hh : h.Valid) (ht : t.Valid) (n : Nat) :
    allocLayout h t n =
      if t.size ≠ 0 ∧ (fatLay h t n).Fits then .ok (fatLay h t n) else .panic := by
  have F := layFacts hh ht n
  obtain ⟨k, hk, hal⟩ := F.align
  have hp := Nat.two_pow_pos k
  have hk64 : 2 ^ k ≤ 2 ^ 29 := Nat.pow_le_pow_right (by omega) hk
  have hword : word = 2 ^ 64 := rfl
  rw [allocLayout]
  by_cases hz : t.size = 0
  · rw [if_pos hz, if_neg (by simp [hz])]
  rw [if_neg hz]
  generalize hS : sliceOffset h t + t.size * n = U at *
  have hsize := F.size
  rw [hS, hal] at hsize
  have hge := roundUp_ge U hp
  have hlt := roundUp_lt U hp
  by_cases hm : t.size * n < word
  · rw [show checkedMul t.size n = .ok (t.size * n) by rw [checkedMul, if_pos hm], Res.ok_bind]
    by_cases ha : U < word
    · rw [show checkedAdd (sliceOffset h t) (t.size * n) = .ok U by
        rw [checkedAdd, hS, if_pos ha], Res.ok_bind]
      simp only [F.thin, hal]
      have hw : wrappingAdd U (2 ^ k - 1) &&& notWord (2 ^ k - 1) =
          (U + (2 ^ k - 1)) % word / 2 ^ k * 2 ^ k :=
        land_not (Nat.mod_lt _ (by omega)) (by omega)
      rw [hw]
      by_cases hov : U + (2 ^ k - 1) < word
      · rw [Nat.mod_eq_of_lt hov]
        show (if roundUp U (2 ^ k) < U then _ else layoutFromSizeAlign (roundUp U (2 ^ k)) _) = _
        rw [if_neg (by omega), ← hsize, layoutFromSizeAlign]
        by_cases hf : (fatLay h t n).Fits
        · have hf' := hf
          simp only [Lay.Fits, hal] at hf'
          rw [if_pos (show (fatLay h t n).size ≤ 2 ^ 63 - 2 ^ k by omega), if_pos ⟨hz, hf⟩, ← hal]
        · have hf' := hf
          simp only [Lay.Fits, hal] at hf'
          rw [if_neg (show ¬ (fatLay h t n).size ≤ 2 ^ 63 - 2 ^ k by omega),
            if_neg (fun hc => hf hc.2)]
      · have hmod : (U + (2 ^ k - 1)) % word = U + (2 ^ k - 1) - word := by
          rw [Nat.mod_eq_sub_mod (by omega)]
          exact Nat.mod_eq_of_lt (by omega)
        have hle := Nat.div_mul_le_self ((U + (2 ^ k - 1)) % word) (2 ^ k)
        rw [if_pos (by omega), if_neg]
        rintro ⟨-, hc⟩
        simp only [Lay.Fits, hal] at hc
        omega
    · rw [show checkedAdd (sliceOffset h t) (t.size * n) = .panic by
        rw [checkedAdd, hS, if_neg ha], Res.panic_bind, if_neg]
      rintro ⟨-, hc⟩
      simp only [Lay.Fits, hal] at hc
      omega
  · rw [show checkedMul t.size n = .panic by rw [checkedMul, if_neg hm], Res.panic_bind, if_neg]
    rintro ⟨-, hc⟩
    simp only [Lay.Fits, hal] at hc
    omega

/-- **C43.**  The allocation is never too small: the fields and every element lie inside it, aligned,
one after the other. -/
theorem C43_bounds {h t : Lay} (hh : h.Valid) (ht : t.Valid) {n i : Nat} (hi : i < n) :
    8 ≤ headerOff h t ∧ headerOff h t + h.size ≤ lengthOff h t ∧
    lengthOff h t + 8 ≤ sliceOffset h t ∧
    sliceOffset h t + t.size * i + t.size ≤ (fatLay h t n).size ∧
    headerOff h t % h.align = 0 ∧ lengthOff h t % 8 = 0 ∧
    (sliceOffset h t + t.size * i) % t.align = 0 ∧
    (fatLay h t n).align % h.align = 0 ∧ (fatLay h t n).align % t.align = 0 := by
  have F := layFacts hh ht n
  obtain ⟨k, hk, hal⟩ := F.align
  have hge := roundUp_ge (sliceOffset h t + t.size * n) (show 0 < (fatLay h t n).align by
    rw [hal]; exact Nat.two_pow_pos k)
  rw [← F.size] at hge
  have hmul : t.size * i + t.size ≤ t.size * n := by
    rw [← Nat.mul_succ]; exact Nat.mul_le_mul_left _ hi
  refine ⟨F.headerGe, F.lengthGe, F.sliceGe, by omega, F.headerAl, F.lengthAl, ?_, F.alignH, F.alignT⟩
  apply Nat.mod_eq_zero_of_dvd
  exact Nat.dvd_add (Nat.dvd_of_mod_eq_zero F.sliceAl)
    (Nat.dvd_trans (Nat.dvd_of_mod_eq_zero ht.2) (Nat.dvd_mul_right _ _))

/-- `GreenNodeHead` (kind: u16, text_len: u32) and `GreenChild` (16 bytes); a node with 3 children. -/
example : allocLayout ⟨8, 4⟩ ⟨16, 8⟩ 3 = .ok ⟨72, 8⟩ := by decide +kernel
/-- `GreenTokenHead` (kind: u16) and bytes; a token with text of 3 bytes. -/
example : allocLayout ⟨2, 2⟩ ⟨1, 1⟩ 3 = .ok ⟨32, 8⟩ := by decide +kernel
/-- An element type aligned to 64 bytes. -/
example : allocLayout ⟨2, 2⟩ ⟨64, 64⟩ 2 = .ok ⟨256, 64⟩ := by decide +kernel
example : allocLayout ⟨2, 2⟩ ⟨1, 1⟩ (2 ^ 64 - 1) = .panic := by decide +kernel
example : allocLayout ⟨2, 2⟩ ⟨1, 1⟩ (2 ^ 64 - 26) = .panic := by decide +kernel
example : allocLayout ⟨2, 2⟩ ⟨1, 1⟩ (2 ^ 63 - 32) = .ok ⟨2 ^ 63 - 8, 8⟩ := by decide +kernel
example : allocLayout ⟨2, 2⟩ ⟨16, 8⟩ (2 ^ 61) = .panic := by decide +kernel
example : (⟨8, 4⟩ : Lay).Valid := ⟨⟨2, by omega, rfl⟩, rfl⟩
example := C43_layout (h := ⟨8, 4⟩) (t := ⟨16, 8⟩) ⟨⟨2, by omega, rfl⟩, rfl⟩ ⟨⟨3, by omega, rfl⟩, rfl⟩ 3

/-! ## C44 -/

theorem TIter.pull_ok {σ β : Type} {it : TIter σ β} {k : Nat} {s s' : σ} {xs : List β} :
    it.pull k s = .ok (xs, s') ↔ it.Yields s xs s' ∧ xs.length = k := by
  induction k generalizing s xs with
  | zero =>
    simp only [TIter.pull, Res.ok.injEq, Prod.mk.injEq]
    constructor
    · rintro ⟨rfl, rfl⟩; exact ⟨.nil s, rfl⟩
    · rintro ⟨hy, hl⟩
      cases hy with
      | nil => exact ⟨rfl, rfl⟩
      | cons => simp at hl
  | succ k ih =>
    rw [TIter.pull]
    constructor
    · intro hp
      obtain ⟨⟨x, s1⟩, h1, hp⟩ := Res.bind_eq_ok.mp hp
      cases x with
      | none => simp at hp
      | some x =>
        simp only [Res.ofOption_some, Res.ok_bind] at hp
        obtain ⟨⟨ys, s2⟩, h2, hp⟩ := Res.bind_eq_ok.mp hp
        simp only [Res.ok.injEq, Prod.mk.injEq] at hp
        obtain ⟨rfl, rfl⟩ := hp
        obtain ⟨hy, hl⟩ := ih.mp h2
        exact ⟨.cons h1 hy, by simp [hl]⟩
    · rintro ⟨hy, hl⟩
      cases hy with
      | nil => simp at hl
      | cons h1 hy =>
        rw [h1]
        simp only [Res.ok_bind, Res.ofOption_some]
        rw [ih.mpr ⟨hy, by simpa using hl⟩]
        rfl

/-- The fields, written. -/
def baseMem {α β : Type} (h t : Lay) (a : α) (n : Nat) : TMem α β :=
  ((TMem.put h t ⟨fatLay h t n, fun _ => none⟩ 0 (.count 1)).put h t (headerOff h t)
    (.header a)).put h t (lengthOff h t) (.length n)

/-- The calls of `next` that must return `None`. -/
def TIter.done {σ β : Type} (it : TIter σ β) (n : Nat) (s : σ) : Res σ := do
  if n ≠ 0 then do
    let s ← assertDone it s
    let s ← assertDone it s
    .ok s
  else do
    let s ← assertDone it s
    .ok s

/-- Construction, with everything about memory resolved. -/
theorem from_eq {σ α β : Type} {h t : Lay} (hh : h.Valid) (ht : t.Valid) (a : α)
    (it : TIter σ β) (s : σ) :
    fromHeaderAndIter h t a it s =
      if t.size ≠ 0 ∧ (fatLay h t (it.len s)).Fits then do
        let (xs, s1) ← it.pull (it.len s) s
        let s2 ← it.done (it.len s) s1
        .ok ((baseMem h t a (it.len s)).putAll h t (sliceOffset h t) xs, s2)
      else .panic := by
  rw [fromHeaderAndIter, C43_layout hh ht]
  split
  · next hc =>
    simp only [Res.ok_bind]
    have F := layFacts hh ht (it.len s)
    obtain ⟨k, hk, hal⟩ := F.align
    have hge := roundUp_ge (sliceOffset h t + t.size * it.len s)
      (show 0 < (fatLay h t (it.len s)).align by rw [hal]; exact Nat.two_pow_pos k)
    rw [← F.size] at hge
    have e1 := F.headerGe
    have e2 := F.lengthGe
    have e3 := F.sliceGe
    have w1 : ∀ m : TMem α β, m.lay = fatLay h t (it.len s) →
        m.write h t 0 (.count 1) = .ok (m.put h t 0 (.count 1)) := by
      intro m hm
      simp only [TMem.write, hm]
      rw [if_pos ⟨by simp [TCell.lay, Lay.usize]; omega, by simp, F.align8⟩]
    have w2 : ∀ m : TMem α β, m.lay = fatLay h t (it.len s) →
        m.write h t (headerOff h t) (.header a) = .ok (m.put h t (headerOff h t) (.header a)) := by
      intro m hm
      simp only [TMem.write, hm]
      rw [if_pos ⟨by simp only [TCell.lay]; omega, F.headerAl, F.alignH⟩]
    have w3 : ∀ m : TMem α β, m.lay = fatLay h t (it.len s) →
        m.write h t (lengthOff h t) (.length (it.len s)) =
          .ok (m.put h t (lengthOff h t) (.length (it.len s))) := by
      intro m hm
      simp only [TMem.write, hm]
      rw [if_pos ⟨by simp [TCell.lay, Lay.usize]; omega, F.lengthAl, F.align8⟩]
    rw [w1 _ rfl, Res.ok_bind, w2 _ rfl, Res.ok_bind, w3 _ rfl, Res.ok_bind]
    by_cases hn : it.len s ≠ 0
    · rw [if_pos hn, fillLoop_eq it _ _ _ _ hge F.sliceAl F.alignT ht.2]
      cases hp : it.pull (it.len s) s with
      | ok p =>
        simp only [Res.ok_bind, TIter.done, if_pos hn]
        cases hd : assertDone it p.2 with
        | ok s2 =>
          simp only [Res.ok_bind]
          cases assertDone it s2 <;> rfl
        | _ => rfl
      | _ => rfl
    · rw [if_neg hn]
      have h0 : it.len s = 0 := by omega
      rw [h0]
      simp only [TIter.pull, Res.ok_bind, TIter.done, TMem.putAll]
      rw [if_neg (by omega)]
      cases assertDone it s <;> rfl
  · rfl

theorem assertDone_ok {σ β : Type} {it : TIter σ β} {s s' : σ} :
    assertDone it s = .ok s' ↔ it.next s = .ok (none, s') := by
  rw [assertDone]
  cases hn : it.next s with
  | ok p =>
    obtain ⟨x, s1⟩ := p
    cases x <;> simp
  | _ => simp

/-- **C44.**  For every iterator, honest or lying: construction succeeds exactly if the object fits
the allocator's limit and the iterator yields exactly as many items as its reported length `n`, then
`None` (and `None` once more, if `n` is not 0). -/
theorem C44_accepts {σ α β : Type} {h t : Lay} (hh : h.Valid) (ht : t.Valid) (a : α)
    (it : TIter σ β) (s : σ) :
    (∃ m s', fromHeaderAndIter h t a it s = .ok (m, s')) ↔
      t.size ≠ 0 ∧ (fatLay h t (it.len s)).Fits ∧
      ∃ xs s1 s2, it.Yields s xs s1 ∧ xs.length = it.len s ∧ it.next s1 = .ok (none, s2) ∧
        (xs ≠ [] → ∃ s3, it.next s2 = .ok (none, s3)) := by
  rw [from_eq hh ht]
  constructor
  · rintro ⟨m, s', hm⟩
    split at hm
    · next hc =>
      refine ⟨hc.1, hc.2, ?_⟩
      obtain ⟨⟨xs, s1⟩, hp, hm⟩ := Res.bind_eq_ok.mp hm
      obtain ⟨_, hd, hm⟩ := Res.bind_eq_ok.mp hm
      obtain ⟨hy, hl⟩ := TIter.pull_ok.mp hp
      rw [TIter.done] at hd
      split at hd
      · obtain ⟨s2, hd2, hd⟩ := Res.bind_eq_ok.mp hd
        obtain ⟨s3, hd3, hd⟩ := Res.bind_eq_ok.mp hd
        exact ⟨xs, s1, s2, hy, hl, assertDone_ok.mp hd2, fun _ => ⟨s3, assertDone_ok.mp hd3⟩⟩
      · next hn =>
        obtain ⟨s2, hd2, hd⟩ := Res.bind_eq_ok.mp hd
        refine ⟨xs, s1, s2, hy, hl, assertDone_ok.mp hd2, fun hx => absurd ?_ hx⟩
        exact List.eq_nil_of_length_eq_zero (by omega)
    · simp at hm
  · rintro ⟨hz, hf, xs, s1, s2, hy, hl, hn, hn'⟩
    rw [if_pos ⟨hz, hf⟩, TIter.pull_ok.mpr ⟨hy, hl⟩]
    simp only [Res.ok_bind, TIter.done]
    by_cases h0 : it.len s ≠ 0
    · obtain ⟨s3, hn3⟩ := hn' (by rintro rfl; simp at hl; omega)
      rw [if_pos h0, assertDone_ok.mpr hn, Res.ok_bind, assertDone_ok.mpr hn3]
      exact ⟨_, _, rfl⟩
    · rw [if_neg h0, assertDone_ok.mpr hn]
      exact ⟨_, _, rfl⟩

/-- **C44.**  No iterator, however it lies about its length, makes construction write outside the
allocation (or at a misaligned address). -/
theorem C44_safe {σ α β : Type} {h t : Lay} (hh : h.Valid) (ht : t.Valid) (a : α)
    (it : TIter σ β) (hit : ∀ s, it.next s ≠ .ub) (s : σ) :
    fromHeaderAndIter h t a it s ≠ .ub := by
  have hbind : ∀ {γ δ : Type} (x : Res γ) (f : γ → Res δ), x ≠ .ub → (∀ y, f y ≠ .ub) →
      (x >>= f) ≠ .ub := by
    intro γ δ x f hx hf
    cases x with
    | ok y => exact hf y
    | ub => exact absurd rfl hx
    | panic => simp
    | diverge => simp
  have had : ∀ s, assertDone it s ≠ .ub := by
    intro s
    apply hbind _ _ (hit s)
    rintro ⟨x, s1⟩
    simp only
    split <;> simp
  have hpull : ∀ k s, it.pull k s ≠ .ub := by
    intro k
    induction k with
    | zero => intro s; simp [TIter.pull]
    | succ k ih =>
      intro s
      rw [TIter.pull]
      apply hbind _ _ (hit s)
      rintro ⟨x, s1⟩
      apply hbind
      · cases x <;> simp
      · intro y
        apply hbind _ _ (ih s1)
        rintro ⟨xs, s2⟩
        simp
  rw [from_eq hh ht]
  split
  · apply hbind _ _ (hpull _ _)
    rintro ⟨xs, s1⟩
    apply hbind
    · rw [TIter.done]
      split
      · apply hbind _ _ (had s1)
        intro s2
        apply hbind _ _ (had s2)
        intro _; simp
      · apply hbind _ _ (had s1)
        intro _; simp
    · intro _; simp
  · simp

theorem readItems_eq {α β : Type} {t : Lay} {m : TMem α β} (xs : List β) (off : Nat)
    (h : ∀ (i : Nat) x, xs[i]? = some x → m.cells (off + t.size * i) = some (.item x)) :
    readItems t m xs.length off = .ok xs := by
  induction xs generalizing off with
  | nil => rfl
  | cons x xs ih =>
    have h0 := h 0 x (by simp)
    simp only [Nat.mul_zero, Nat.add_zero] at h0
    rw [List.length_cons, readItems, h0]
    simp only
    rw [ih]
    · rfl
    · intro i y hy
      have := h (i + 1) y (by simpa using hy)
      rw [show off + t.size * (i + 1) = off + t.size + t.size * i by rw [Nat.mul_add]; omega] at this
      exact this

/-- The state of the iterator after the calls of `next` that must return `None`. -/
def TIter.Ends {σ β : Type} (it : TIter σ β) (xs : List β) (s s' : σ) : Prop :=
  ∃ s1, it.next s = .ok (none, s1) ∧ if xs = [] then s' = s1 else it.next s1 = .ok (none, s')

/-- What construction leaves in memory, cell by cell. -/
structure TMem.Holds {α β : Type} (h t : Lay) (m : TMem α β) (a : α) (xs : List β) : Prop where
  count : m.cells 0 = some (.count 1)
  header : m.cells (headerOff h t) = some (.header a)
  length : m.cells (lengthOff h t) = some (.length xs.length)
  item : ∀ (i : Nat) x, xs[i]? = some x → m.cells (sliceOffset h t + t.size * i) = some (.item x)
  lay : m.lay = fatLay h t xs.length

theorem from_holds {σ α β : Type} {h t : Lay} (hh : h.Valid) (ht : t.Valid) (hH : h.size ≠ 0) (a : α)
    (it : TIter σ β) (s : σ) {m : TMem α β} {s' : σ}
    (hm : fromHeaderAndIter h t a it s = .ok (m, s')) :
    ∃ xs s1, it.Yields s xs s1 ∧ xs.length = it.len s ∧ it.Ends xs s1 s' ∧ m.Holds h t a xs := by
  rw [from_eq hh ht] at hm
  split at hm
  · next hc =>
    obtain ⟨⟨xs, s1⟩, hpl, hm⟩ := Res.bind_eq_ok.mp hm
    obtain ⟨s2, hd, hm⟩ := Res.bind_eq_ok.mp hm
    obtain ⟨hy, hl⟩ := TIter.pull_ok.mp hpl
    simp only [Res.ok.injEq, Prod.mk.injEq] at hm
    obtain ⟨eM, hs⟩ := hm
    subst hs
    have F := layFacts hh ht (it.len s)
    have e1 := F.headerGe
    have e2 := F.lengthGe
    have e3 := F.sliceGe
    refine ⟨xs, s1, hy, hl, ?_, ?_, ?_, ?_, ?_, ?_⟩
    · rw [TIter.done] at hd
      split at hd
      · next hn =>
        obtain ⟨s3, hd2, hd⟩ := Res.bind_eq_ok.mp hd
        obtain ⟨s4, hd3, hd⟩ := Res.bind_eq_ok.mp hd
        simp only [Res.ok.injEq] at hd
        subst hd
        refine ⟨s3, assertDone_ok.mp hd2, ?_⟩
        rw [if_neg (by rintro rfl; simp at hl; omega)]
        exact assertDone_ok.mp hd3
      · next hn =>
        obtain ⟨s3, hd2, hd⟩ := Res.bind_eq_ok.mp hd
        simp only [Res.ok.injEq] at hd
        subst hd
        refine ⟨s3, assertDone_ok.mp hd2, ?_⟩
        rw [if_pos (List.eq_nil_of_length_eq_zero (by omega))]
    · rw [← eM]
      apply TMem.putAll_before
      · apply TMem.put_other
        · apply TMem.put_other
          · exact TMem.put_same ..
          · omega
          · left; simp only [TCell.lay, Lay.usize]; omega
        · omega
        · left; simp only [TCell.lay, Lay.usize]; omega
      · omega
      · simp only [TCell.lay, Lay.usize]; omega
    · rw [← eM]
      apply TMem.putAll_before
      · apply TMem.put_other
        · exact TMem.put_same ..
        · omega
        · left; simp only [TCell.lay]; omega
      · omega
      · simp only [TCell.lay]; omega
    · rw [← eM, hl]
      apply TMem.putAll_before
      · exact TMem.put_same ..
      · omega
      · simp only [TCell.lay, Lay.usize]; omega
    · intro i x hx
      rw [← eM]
      exact TMem.putAll_item h t hc.1 _ _ _ i x hx
    · rw [← eM, TMem.putAll_lay, hl]; rfl
  · simp at hm

/-- What can be read through the pointers, for memory laid out this way. -/
theorem TMem.Holds.read {α β : Type} {h t : Lay} (hh : h.Valid) (ht : t.Valid) {m : TMem α β} {a : α}
    {xs : List β} (hm : m.Holds h t a xs) (H : THeap α β) (p : Nat) (hp : H p = some m) :
      thinToThick h t H p = .ok ⟨p, xs.length⟩ ∧
      derefThick h t H ⟨p, xs.length⟩ = .ok (a, xs) ∧
      (∀ k, intoThin h t H ⟨p, k⟩ = if k = xs.length then .ok p else .panic) ∧
      (∃ d, intoRaw h t H p = .ok d ∧ fromRaw h t d = p) ∧
      dealloc h t H ⟨p, xs.length⟩ = .ok (fun q => if q = p then none else H q) := by
  have hrl : readLength h t H p = .ok xs.length := by
    simp only [readLength, hp, hm.length]
  refine ⟨?_, ?_, ?_, ?_, ?_⟩
  · rw [thinToThick, hrl]; rfl
  · simp only [derefThick, hp, hm.header]
    rw [readItems_eq xs]
    · rfl
    · exact hm.item
  · intro k
    simp only [intoThin, hrl, Res.ok_bind]
    by_cases hk : k = xs.length
    · subst hk; simp
    · rw [if_pos (Ne.symm hk), if_neg hk]
  · refine ⟨p + offsetOf (arcInner (reprC (headerSlice h t xs.length))) 1, ?_, ?_⟩
    · rw [intoRaw, thinToThick, hrl]; rfl
    · have F' := layFacts hh ht xs.length
      rw [F'.data, fromRaw]; omega
  · simp only [dealloc, hp, hm.lay, if_true]

/-- **C44.**  What was constructed: behind the thin pointer are exactly the header and the items the
iterator yielded, in order, with the right length.  Converting to a thick pointer and back gives the
same address and the right length, the conversion back panics for any other length, the raw pointer
of the data leads back to the same object, and the memory is given back with the layout it was
allocated with. -/
theorem C44_contents {σ α β : Type} {h t : Lay} (hh : h.Valid) (ht : t.Valid) (hH : h.size ≠ 0) (a : α)
    (it : TIter σ β) (s : σ) {m : TMem α β} {s' : σ}
    (hm : fromHeaderAndIter h t a it s = .ok (m, s'))
    (H : THeap α β) (p : Nat) (hp : H p = some m) :
    ∃ xs s1, it.Yields s xs s1 ∧ xs.length = it.len s ∧
      m.cells 0 = some (.count 1) ∧
      thinToThick h t H p = .ok ⟨p, xs.length⟩ ∧
      derefThick h t H ⟨p, xs.length⟩ = .ok (a, xs) ∧
      (∀ k, intoThin h t H ⟨p, k⟩ = if k = xs.length then .ok p else .panic) ∧
      (∃ d, intoRaw h t H p = .ok d ∧ fromRaw h t d = p) ∧
      dealloc h t H ⟨p, xs.length⟩ = .ok (fun q => if q = p then none else H q) := by
  obtain ⟨xs, s1, hy, hl, -, hM⟩ := from_holds hh ht hH a it s hm
  exact ⟨xs, s1, hy, hl, hM.count, hM.read hh ht H p hp⟩

/-! ### Non-vacuity -/

/-- One that claims a wrong length. -/
def TIter.lying (β : Type) (n : Nat) : TIter (List β) β := { TIter.ofList β with len := fun _ => n }

example : (match fromHeaderAndIter ⟨2, 2⟩ ⟨1, 1⟩ 7 (TIter.ofList Nat) [97, 98, 99] with
    | .ok (m, _) => [m.cells 0, m.cells 8, m.cells 16, m.cells 24, m.cells 25, m.cells 26, m.cells 27]
    | _ => []) =
  [some (.count 1), some (.header 7), some (.length 3), some (.item 97), some (.item 98),
    some (.item 99), none] := by decide +kernel

example : (match fromHeaderAndIter ⟨2, 2⟩ ⟨1, 1⟩ 7 (TIter.lying Nat 2) [97, 98, 99] with
    | .panic => true | _ => false) = true := by decide +kernel
example : (match fromHeaderAndIter ⟨2, 2⟩ ⟨1, 1⟩ 7 (TIter.lying Nat 4) [97, 98, 99] with
    | .panic => true | _ => false) = true := by decide +kernel
example : (match fromHeaderAndIter ⟨2, 2⟩ ⟨1, 1⟩ 7 (TIter.lying Nat 0) [97] with
    | .panic => true | _ => false) = true := by decide +kernel
example : (match fromHeaderAndIter ⟨2, 2⟩ ⟨1, 1⟩ 7 (TIter.lying Nat 0) [] with
    | .ok _ => true | _ => false) = true := by decide +kernel
example : ∀ s, (TIter.lying Nat 2).next s ≠ .ub := by intro s; cases s <;> simp [TIter.lying, TIter.ofList]

end Rowan
