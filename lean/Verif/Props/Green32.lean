import Verif.Spec.Tree
/-!
# C04: 32-bit text arithmetic

The rest of the model computes lengths and offsets in `Nat`.  `TextSize` is a `u32`
(text-size crate).  Here the same computations are done with 32-bit words, in both build modes:
overflow-checked (`debug`, panics) and wrapping (`release`).
-/
namespace Rowan

/-- How `+` on `u32` behaves: `true` = overflow checks on (panic = `none`), `false` = wrapping. -/
def add32 (checks : Bool) (a b : UInt32) : Option UInt32 :=
  if checks && decide (2 ^ 32 ≤ a.toNat + b.toNat) then none else some (a + b)

/-- `TextSize::of(&str)` = `text.len().try_into().unwrap()`: panics above `u32::MAX` in every
build mode — src/green/token.rs:104-106 (text-size `TextLen for &str`). -/
def ofStr32 (s : List Char) : Option UInt32 :=
  if blen s < 2 ^ 32 then some (UInt32.ofNat (blen s)) else none

mutual
/-- `text_len()` of the element built for `t` with 32-bit arithmetic — src/green/node.rs:203-232. -/
def len32 (ck : Bool) : Tree → Option UInt32
  | .token _ s => ofStr32 s
  | .node _ cs => sum32 ck 0 cs
/-- The running `text_len` of `GreenNode::new` after all of `cs` — src/green/node.rs:208-216. -/
def sum32 (ck : Bool) (acc : UInt32) : List Tree → Option UInt32
  | [] => some acc
  | c :: cs => do
    let l ← len32 ck c
    let acc' ← add32 ck acc l
    sum32 ck acc' cs
end

/-- Relative offset of the `i`-th child: the running total before it — src/green/node.rs:210. -/
def rel32 (ck : Bool) (cs : List Tree) (i : Nat) : Option UInt32 := sum32 ck 0 (cs.take i)

/-- Absolute offset of the element at a path: parent's offset plus relative offset, level by level
— src/cursor.rs:351-362 and 383, 441, 692 (`parent.offset() + rel_offset`). -/
def abs32 (ck : Bool) (base : UInt32) : Tree → List Nat → Option UInt32
  | _, [] => some base
  | t, i :: p => do
    let r ← rel32 ck t.children i
    let o ← add32 ck base r
    match t.children[i]? with
    | some c => abs32 ck o c p
    | none => none

theorem add32_exact (ck : Bool) (a b : UInt32) (h : a.toNat + b.toNat < 2 ^ 32) :
    ∃ c, add32 ck a b = some c ∧ c.toNat = a.toNat + b.toNat := by
  refine ⟨a + b, ?_, ?_⟩
  · simp [add32]; omega
  · rw [UInt32.toNat_add, Nat.mod_eq_of_lt h]

theorem add32_checked {a b c : UInt32} (h : add32 true a b = some c) :
    a.toNat + b.toNat < 2 ^ 32 ∧ c.toNat = a.toNat + b.toNat := by
  simp only [add32, Bool.true_and, decide_eq_true_eq] at h
  split at h
  · simp at h
  · rename_i hlt
    simp only [Option.some.injEq] at h
    subst h
    exact ⟨by omega, by rw [UInt32.toNat_add, Nat.mod_eq_of_lt (by omega)]⟩

theorem ofStr32_exact {s : List Char} (h : blen s < 2 ^ 32) :
    ∃ c, ofStr32 s = some c ∧ c.toNat = blen s := by
  refine ⟨UInt32.ofNat (blen s), by simp [ofStr32, h], ?_⟩
  simp only [UInt32.toNat_ofNat']
  exact Nat.mod_eq_of_lt h

mutual
theorem len32_exact (ck : Bool) : ∀ t : Tree, t.len < 2 ^ 32 →
    ∃ c, len32 ck t = some c ∧ c.toNat = t.len
  | .token _ s, h => by
    simpa [len32, Tree.len] using ofStr32_exact (by simpa [Tree.len] using h)
  | .node _ cs, h => by
    simpa [len32, Tree.len] using sum32_exact ck cs 0 (by simpa [Tree.len] using h)
theorem sum32_exact (ck : Bool) : ∀ (cs : List Tree) (acc : UInt32),
    acc.toNat + blen (Tree.texts cs) < 2 ^ 32 →
    ∃ c, sum32 ck acc cs = some c ∧ c.toNat = acc.toNat + blen (Tree.texts cs)
  | [], acc, _ => ⟨acc, by simp [sum32]⟩
  | c :: cs, acc, h => by
    simp only [Tree.texts_cons, blen_append] at h
    obtain ⟨l, hl, el⟩ := len32_exact ck c (by simp only [Tree.len]; omega)
    simp only [Tree.len] at el
    obtain ⟨a, ha, ea⟩ := add32_exact ck acc l (by omega)
    obtain ⟨r, hr, er⟩ := sum32_exact ck cs a (by omega)
    exact ⟨r, by simp [sum32, hl, ha, hr], by simp; omega⟩
end

mutual
theorem len32_checked : ∀ (t : Tree) (c : UInt32), len32 true t = some c → t.len < 2 ^ 32
  | .token _ s, c, h => by
    simp only [len32, ofStr32] at h
    split at h
    · simpa [Tree.len]
    · simp at h
  | .node _ cs, c, h => by
    simp only [len32] at h
    have := sum32_checked cs 0 c h
    simpa [Tree.len] using this
theorem sum32_checked : ∀ (cs : List Tree) (acc c : UInt32), sum32 true acc cs = some c →
    acc.toNat + blen (Tree.texts cs) < 2 ^ 32
  | [], acc, _, _ => by simpa using acc.toNat_lt
  | t :: cs, acc, c, h => by
    simp only [sum32, Option.bind_eq_bind, Option.bind_eq_some_iff] at h
    obtain ⟨l, hl, a, ha, h⟩ := h
    have h1 := len32_checked t l hl
    obtain ⟨l', hl', e1⟩ := len32_exact true t h1
    obtain rfl : l = l' := by rw [hl] at hl'; simpa using hl'
    have h2 := add32_checked ha
    have h3 := sum32_checked cs a c h
    simp only [Tree.len] at e1
    simp; omega
end

/-- **C04** Below 2^32 bytes of text, in either build mode, every `text_len`, every relative offset
and every absolute offset is the exact value. -/
theorem C04_exact_below (ck : Bool) (t : Tree) (h : t.len < 2 ^ 32) :
    (∃ c, len32 ck t = some c ∧ c.toNat = blen t.text) ∧
    (∀ i, ∃ c, rel32 ck t.children i = some c ∧ c.toNat = blen (Tree.texts (t.children.take i))) ∧
    (∀ p s, t.at? p = some s → ∃ c, abs32 ck 0 t p = some c ∧ c.toNat = blen (t.before p)) := by
  have relLe : ∀ (t : Tree) (i : Nat), blen (Tree.texts (t.children.take i)) ≤ t.len := by
    intro t i
    cases t with
    | token k s => simp [Tree.children]
    | node k cs =>
      simp only [Tree.children, Tree.len, Tree.text_node]
      have : blen (Tree.texts cs) = blen (Tree.texts (cs.take i ++ cs.drop i)) := by
        rw [List.take_append_drop]
      rw [this, Tree.texts_append, blen_append]
      omega
  refine ⟨len32_exact ck t h, ?_, ?_⟩
  · intro i
    simpa [rel32] using sum32_exact ck (t.children.take i) 0 (by
      have := relLe t i; simp; omega)
  · have key : ∀ (p : List Nat) (t s : Tree) (base : UInt32), base.toNat + t.len < 2 ^ 32 →
        t.at? p = some s →
        ∃ c, abs32 ck base t p = some c ∧ c.toNat = base.toNat + blen (t.before p) := by
      intro p
      induction p with
      | nil => intro t s base _ _; exact ⟨base, by simp [abs32, Tree.before]⟩
      | cons i p ih =>
        intro t s base hb hs
        rw [Tree.at?_cons] at hs
        cases hc : t.children[i]? with
        | none => simp [hc] at hs
        | some c =>
          simp only [hc, Option.bind_some] at hs
          have h1 := relLe t i
          obtain ⟨r, hr, er⟩ := sum32_exact ck (t.children.take i) 0 (by simp; omega)
          have hlen : blen (Tree.texts (t.children.take i)) + c.len ≤ t.len := by
            have h2 := relLe t (i + 1)
            rw [List.take_add_one, hc] at h2
            simpa [Tree.len] using h2
          obtain ⟨o, ho, eo⟩ := add32_exact ck base r (by simp at er; omega)
          simp only [UInt32.toNat_zero, Nat.zero_add] at er
          obtain ⟨x, hx, ex⟩ := ih c s o (by omega) hs
          refine ⟨x, ?_, ?_⟩
          · simp [abs32, rel32, hr, ho, hc, hx]
          · simp [Tree.before, hc]; omega
    intro p s hs
    simpa using key p t s 0 (by simpa using h) hs

/-- **C04** At or above 2^32 bytes of text, building with overflow checks panics: no green node with
a wrong length comes out. -/
theorem C04_checked_rejects (t : Tree) (h : 2 ^ 32 ≤ t.len) : len32 true t = none := by
  cases hc : len32 true t with
  | none => rfl
  | some c => have := len32_checked t c hc; omega

/-- Without overflow checks the length silently wraps: two tokens whose lengths sum to `2^32`
give a node of length 0 (this is why C04 needs the bound or the checks). -/
theorem C04_wrapping_is_wrong (a b : List Char) (k : SyntaxKind) (ha : blen a < 2 ^ 32)
    (hb : blen b < 2 ^ 32) (hab : blen a + blen b = 2 ^ 32) :
    len32 false (.node k [.token k a, .token k b]) = some 0 := by
  obtain ⟨x, hx, ex⟩ := ofStr32_exact ha
  obtain ⟨y, hy, ey⟩ := ofStr32_exact hb
  simp only [len32, sum32, hx, hy, add32]
  simp only [Bool.false_and, Bool.false_eq_true, if_false, Option.bind_eq_bind, Option.bind_some]
  congr 1
  apply UInt32.toNat_inj.mp
  simp only [UInt32.toNat_add, UInt32.toNat_zero]
  omega

/-- The bound is met by ordinary trees … -/
example : (Tree.node 1 [.token 2 "ab".toList, .node 3 [.token 4 "→".toList]]).len < 2 ^ 32 := by
  decide
/-- … and the overflow case is inhabited: a node with a long enough token exists. -/
example : ∃ a b : List Char, blen a < 2 ^ 32 ∧ blen b < 2 ^ 32 ∧ blen a + blen b = 2 ^ 32 := by
  have hrep : ∀ n, blen (List.replicate n 'a') = n := by
    intro n
    induction n with
    | zero => rfl
    | succ n ih => rw [List.replicate_succ, blen_cons, ih]; show 1 + n = n + 1; omega
  exact ⟨List.replicate (2 ^ 32 - 1) 'a', List.replicate 1 'a', by rw [hrep]; decide,
    by rw [hrep]; decide, by rw [hrep, hrep]⟩

end Rowan
