/-!
# Rust strings and `text-size`

`&str` is modelled as the list of its Unicode scalar values (`Char` in Lean is exactly that), and
every position in it is a UTF-8 *byte* offset, as in Rust.  Slicing at an offset that is not on a
character boundary or out of range panics in Rust; here it is `none`.

The `text-size` crate (an external dependency: `TextSize`, `TextRange`) is modelled from its
documented behaviour.  `TextSize` is a `u32` there; here it is an unbounded `Nat`.  The relation
between the two is property C04 (`Verif/Props/Green32.lean`).
-/
namespace Rowan

/-- `SyntaxKind(pub u16)` — src/green.rs:20. -/
abbrev SyntaxKind := UInt16

/-- UTF-8 byte length of a string: `str::len`, and `TextSize::of(&str)` (src/green/token.rs:104-106). -/
def blen : List Char → Nat
  | [] => 0
  | c :: cs => c.utf8Size + blen cs

/-- `s.split_at(n)` for a byte offset `n`: `none` models the panic (offset past the end or not on a
character boundary). (String slicing of the standard library, used at src/api.rs:71, src/syntax_text.rs:87.) -/
def bsplit : List Char → Nat → Option (List Char × List Char)
  | s, 0 => some ([], s)
  | [], _ + 1 => none
  | c :: cs, n + 1 =>
    if c.utf8Size ≤ n + 1 then
      (bsplit cs (n + 1 - c.utf8Size)).map fun (a, b) => (c :: a, b)
    else none

/-- `&s[a..b]` with byte offsets; `none` models the panic.
(Standard library, used at src/api.rs:71, src/syntax_text.rs:87.) -/
def bslice (s : List Char) (a b : Nat) : Option (List Char) :=
  if a ≤ b then
    match bsplit s a with
    | none => none
    | some (_, r) => (bsplit r (b - a)).map Prod.fst
  else none

/-- `str::is_char_boundary`: true at every byte offset at which the string can be split.
(Standard library, used at src/api.rs:70.) -/
def isCharBoundary (s : List Char) (n : Nat) : Bool := (bsplit s n).isSome

/-! ### `TextRange` -/

/-- `text_size::TextRange`: its constructor asserts `start <= end`, so the ordering is bundled.
(`text-size` crate, used at src/cursor.rs:365-370.) -/
@[ext] structure TextRange where
  start : Nat
  stop : Nat
  le : start ≤ stop
deriving DecidableEq, Repr

namespace TextRange

/-- `TextRange::at(offset, len)`. (`text-size` crate, used at src/cursor.rs:368, src/green/node.rs:270.) -/
def at_ (offset len : Nat) : TextRange := ⟨offset, offset + len, Nat.le_add_right _ _⟩

/-- `TextRange::len`. (`text-size` crate, used at src/syntax_text.rs:20-22.) -/
def len (r : TextRange) : Nat := r.stop - r.start

/-- `TextRange::is_empty`. (`text-size` crate, used at src/cursor.rs:890, src/syntax_text.rs:24-26.) -/
def isEmpty (r : TextRange) : Bool := r.start == r.stop

/-- `TextRange::contains_range`.
(`text-size` crate, used at src/cursor.rs:920, src/green/node.rs:154, src/syntax_text.rs:74.) -/
def containsRange (r other : TextRange) : Bool :=
  decide (r.start ≤ other.start) && decide (other.stop ≤ r.stop)

/-- `TextRange::intersect`: touching ranges intersect in an empty range.
(`text-size` crate, used at src/syntax_text.rs:113.) -/
def intersect (r other : TextRange) : Option TextRange :=
  if h : max r.start other.start ≤ min r.stop other.stop then
    some ⟨max r.start other.start, min r.stop other.stop, h⟩
  else none

/-- `TextRange::ordering`. (`text-size` crate, used at src/green/node.rs:150.) -/
def ordering (r1 r2 : TextRange) : Ordering :=
  if r1.stop ≤ r2.start then .lt
  else if r2.stop ≤ r1.start then .gt
  else .eq

/-- `range - offset` (`Sub<TextSize> for TextRange`): panics (`none`) on underflow.
(`text-size` crate, used at src/cursor.rs:936, src/syntax_text.rs:114.) -/
def sub? (r : TextRange) (off : Nat) : Option TextRange :=
  if off ≤ r.start then
    some ⟨r.start - off, r.stop - off, Nat.sub_le_sub_right r.le off⟩
  else none

end TextRange

/-! ### Facts about byte lengths and slices -/

@[simp] theorem blen_nil : blen [] = 0 := rfl
@[simp] theorem blen_cons (c : Char) (cs : List Char) : blen (c :: cs) = c.utf8Size + blen cs := rfl

@[simp] theorem blen_append (a b : List Char) : blen (a ++ b) = blen a + blen b := by
  induction a with
  | nil => simp
  | cons c cs ih => simp [ih, Nat.add_assoc]

theorem blen_flatten (l : List (List Char)) : blen l.flatten = (l.map blen).sum := by
  induction l with
  | nil => rfl
  | cons a l ih => simp [ih]

theorem blen_eq_zero {s : List Char} : blen s = 0 ↔ s = [] := by
  cases s with
  | nil => simp
  | cons c cs => simp; intro h; have := Char.utf8Size_pos c; omega

/-- The byte length used in the model is the one Lean's own UTF-8 strings have. -/
theorem blen_eq_utf8ByteSize (s : List Char) : (String.ofList s).utf8ByteSize = blen s := by
  induction s with
  | nil => simp
  | cons c cs ih =>
    have : String.ofList (c :: cs) = String.singleton c ++ String.ofList cs := by
      apply String.toList_inj.mp; simp
    rw [this]; simp [ih]

/-- Declarative reading of `bsplit`. -/
theorem bsplit_eq_some {s : List Char} {n : Nat} {p q : List Char} :
    bsplit s n = some (p, q) ↔ s = p ++ q ∧ blen p = n := by
  induction s generalizing n p q with
  | nil =>
    cases n with
    | zero =>
      simp only [bsplit, Option.some.injEq, Prod.mk.injEq, List.nil_eq_append_iff]
      constructor
      · rintro ⟨rfl, rfl⟩; simp
      · rintro ⟨⟨rfl, rfl⟩, _⟩; simp
    | succ n =>
      simp [bsplit]; rintro rfl rfl; simp
  | cons c cs ih =>
    have hc := Char.utf8Size_pos c
    cases n with
    | zero =>
      simp [bsplit]
      constructor
      · rintro ⟨rfl, rfl⟩; simp
      · rintro ⟨h, h0⟩
        have := blen_eq_zero.mp h0; subst this; simpa using h
    | succ n =>
      simp only [bsplit]
      split
      · rename_i hle
        simp only [Option.map_eq_some_iff, Prod.exists, Prod.mk.injEq]
        constructor
        · rintro ⟨a, b, hab, rfl, rfl⟩
          obtain ⟨rfl, hl⟩ := ih.mp hab
          simp; omega
        · rintro ⟨h, hl⟩
          cases p with
          | nil => simp at hl
          | cons d p =>
            simp at h hl
            obtain ⟨rfl, rfl⟩ := h
            exact ⟨p, q, ih.mpr ⟨rfl, by omega⟩, rfl, rfl⟩
      · rename_i hle
        constructor
        · rintro ⟨⟩
        · rintro ⟨h, hl⟩
          exfalso
          cases p with
          | nil => simp at hl
          | cons d p => simp at h hl; obtain ⟨rfl, _⟩ := h; omega

/-- Declarative reading of `bslice`: the substring of `s` between byte offsets `a` and `b`. -/
theorem bslice_eq_some {s : List Char} {a b : Nat} {m : List Char} :
    bslice s a b = some m ↔ ∃ p q, s = p ++ m ++ q ∧ blen p = a ∧ blen (p ++ m) = b := by
  unfold bslice
  constructor
  · intro h
    split at h
    · rename_i hab
      split at h
      · cases h
      · rename_i p r hpr
        obtain ⟨rfl, hp⟩ := bsplit_eq_some.mp hpr
        simp only [Option.map_eq_some_iff, Prod.exists] at h
        obtain ⟨m', q, hmq, hm⟩ := h
        subst hm
        obtain ⟨rfl, hm⟩ := bsplit_eq_some.mp hmq
        exact ⟨p, q, by simp, hp, by simp; omega⟩
    · cases h
  · rintro ⟨p, q, rfl, hp, hm⟩
    simp at hm
    have h1 : bsplit (p ++ m ++ q) a = some (p, m ++ q) := bsplit_eq_some.mpr ⟨by simp, hp⟩
    have h2 : bsplit (m ++ q) (b - a) = some (m, q) := bsplit_eq_some.mpr ⟨rfl, by omega⟩
    have : a ≤ b := by omega
    rw [if_pos this, h1]; simp [h2]

theorem bslice_unique_of_append {p m q : List Char} :
    bslice (p ++ m ++ q) (blen p) (blen p + blen m) = some m :=
  bslice_eq_some.mpr ⟨p, q, rfl, rfl, by simp⟩

@[simp] theorem bslice_full (s : List Char) : bslice s 0 (blen s) = some s :=
  bslice_eq_some.mpr ⟨[], [], by simp, rfl, by simp⟩

/-- Two prefixes of one string with the same byte length are equal. -/
theorem prefix_eq_of_blen_eq {a b c d : List Char} (h : a ++ b = c ++ d) (hl : blen a = blen c) :
    a = c ∧ b = d := by
  have h1 : bsplit (a ++ b) (blen a) = some (a, b) := bsplit_eq_some.mpr ⟨rfl, rfl⟩
  have h2 : bsplit (a ++ b) (blen a) = some (c, d) := bsplit_eq_some.mpr ⟨h, hl.symm⟩
  rw [h1] at h2; simpa using h2

namespace TextRange
@[simp] theorem at_start (o l) : (at_ o l).start = o := rfl
@[simp] theorem at_stop (o l) : (at_ o l).stop = o + l := rfl
@[simp] theorem at_len (o l) : (at_ o l).len = l := by simp [len, at_]
@[simp] theorem at_isEmpty (o l) : (at_ o l).isEmpty = (l == 0) := by
  simp only [isEmpty, at_start, at_stop]
  rw [Bool.eq_iff_iff]; simp
theorem containsRange_iff {r o : TextRange} :
    r.containsRange o = true ↔ r.start ≤ o.start ∧ o.stop ≤ r.stop := by
  simp [containsRange]
theorem isEmpty_iff {r : TextRange} : r.isEmpty = true ↔ r.start = r.stop := by simp [isEmpty]
end TextRange

end Rowan
