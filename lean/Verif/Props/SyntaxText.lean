import Verif.Spec.SyntaxText
import Verif.SyntaxTextLemmas
/-!
# C26–C29: the text of nodes
-/
namespace Rowan

/-! ## C26 -/

theorem SyntaxText.slice_eq (t : SyntaxText) (arg : RangeArg) {a b : Nat}
    (ha : arg.start.getD 0 = a) (hb : arg.stop.getD t.len = b) :
    t.slice arg = if h : a ≤ b ∧ t.range.start + b ≤ t.range.stop then
      .ok ⟨t.node, ⟨t.range.start + a, t.range.start + b, by omega⟩⟩ else .panic := by
  subst ha hb
  unfold slice
  generalize arg.start.getD 0 = a
  generalize arg.stop.getD t.len = b
  simp only
  by_cases h1 : a ≤ b
  · rw [if_pos h1, dif_pos (by omega)]
    have e : t.range.start + a + (b - a) = t.range.start + b := by omega
    by_cases h2 : t.range.start + b ≤ t.range.stop
    · rw [if_pos (by rw [TextRange.containsRange_iff]; simp only; omega), dif_pos ⟨h1, h2⟩]
      simp only [e]
    · rw [if_neg (by rw [TextRange.containsRange_iff]; simp only; omega), dif_neg (by omega)]
  · rw [if_neg h1, dif_neg (by omega)]

theorem SyntaxText.Of.inv {r : Root} {t : SyntaxText} (h : t.Of r) :
    Reach r (.node t.node) ∧ t.node.textRange.containsRange t.range = true := by
  induction h with
  | text h => exact ⟨h, by simp [new, TextRange.containsRange]⟩
  | slice arg h hs ih =>
    rw [SyntaxText.slice_eq _ arg rfl rfl] at hs
    split at hs
    · cases hs
      refine ⟨ih.1, ?_⟩
      have := ih.2
      rw [TextRange.containsRange_iff] at *
      simp only
      omega
    · cases hs

theorem SyntaxText.tokensWithRanges_ok {r : Root} (hcoh : r.green.Coherent) {t : SyntaxText}
    (h : t.Of r) : ∃ L, t.tokensWithRanges = .ok L ∧ (chunksOf L).map List.flatten = t.str r := by
  obtain ⟨hn, hc⟩ := h.inv
  obtain ⟨hv, hr⟩ := hn.valid
  obtain ⟨toks, h1, h2, h3⟩ := SNode.tokens_spec hcoh hn
  obtain ⟨s1, s2⟩ := SElem.Valid.textRange hv
  rw [TextRange.containsRange_iff] at hc
  have e1 : t.node.textRange.start = t.node.offset := rfl
  have e2 : t.node.textRange = SElem.textRange (.node t.node) := rfl
  rw [← e2] at s1 s2
  rw [hr] at s1 s2
  have hsplit := Tree.text_split (SNode.Valid.at_path hv)
  rw [show t.node.rootOf = r from hr] at hsplit
  simp only [SElem.path_node, SElem.green_node, GElem.tree_node, Tree.len] at s1 s2
  cases ht : t.range with
  | mk A B hAB =>
    rw [ht] at hc
    simp only at hc
    obtain ⟨L, hL, hx⟩ := withRanges_spec hAB toks t.node.offset h2 (by omega)
      (by rw [h3]; omega)
    refine ⟨L, by rw [tokensWithRanges, h1, Res.ok_bind, ht]; exact hL, ?_⟩
    rw [hx, h3, str, ht]
    simp only
    rw [hsplit, bslice_append_left (by rw [blen_append]; omega),
      bslice_append_right (by omega) (by omega)]
    congr 1 <;> omega

theorem foldChunks_eq {T E : Type} (f : T → List Char → Res (Except E T)) :
    ∀ (L : List (SToken × TextRange)) (cs : List (List Char)) (acc : T), chunksOf L = some cs →
      SyntaxText.foldChunks f acc L = tryFold f acc cs
  | [], cs, acc, h => by simp [chunksOf] at h; subst h; rfl
  | (t, r) :: L, cs, acc, h => by
    simp only [chunksOf, Option.bind_eq_some_iff, Option.map_eq_some_iff] at h
    obtain ⟨c, h1, cs', h2, rfl⟩ := h
    simp only [SyntaxText.foldChunks, tryFold, sliceText, h1, Res.ofOption_some, Res.ok_bind]
    congr 1
    funext x
    cases x with
    | ok a => exact foldChunks_eq f L cs' a h2
    | error e => rfl

theorem foldChunks_push : ∀ (L : List (SToken × TextRange)) (out : List Char),
    SyntaxText.foldChunks (E := Empty) (fun out chunk => .ok (.ok (out ++ chunk))) out L =
      match chunksOf L with
      | some cs => .ok (.ok (out ++ cs.flatten))
      | none => .panic
  | [], out => by simp [SyntaxText.foldChunks, chunksOf]
  | (t, r) :: L, out => by
    simp only [SyntaxText.foldChunks, sliceText, chunksOf]
    cases bslice t.text r.start r.stop with
    | none => rfl
    | some c =>
      simp only [Res.ofOption_some, Res.ok_bind, Option.bind_some]
      rw [foldChunks_push L]
      cases chunksOf L <;> simp

/-- **C26.** `to_string()` is the part of the root's text in the text's range; it panics exactly if
the range is not on character boundaries. -/
theorem C26_to_string {r : Root} (hcoh : r.green.Coherent) {t : SyntaxText} (h : t.Of r) :
    t.display = Res.ofOption (t.str r) := by
  obtain ⟨L, h1, h2⟩ := SyntaxText.tokensWithRanges_ok hcoh h
  rw [SyntaxText.display, SyntaxText.tryForEachChunk, SyntaxText.tryFoldChunks, h1, Res.ok_bind,
    foldChunks_push, ← h2]
  cases chunksOf L <;> simp

/-- **C26.** The chunks given to callbacks concatenate to the text: folds with early exit, and plain
iteration, go through one fixed list of chunks. -/
theorem C26_chunks {r : Root} (hcoh : r.green.Coherent) {t : SyntaxText} (h : t.Of r)
    {x : List Char} (hx : t.str r = some x) :
    ∃ cs : List (List Char), cs.flatten = x ∧
      (∀ (T E : Type) (init : T) (f : T → List Char → Res (Except E T)),
        t.tryFoldChunks init f = tryFold f init cs) ∧
      (∀ (T : Type) (init : T) (f : T → List Char → T),
        t.forEachChunk init f = .ok (cs.foldl f init)) := by
  obtain ⟨L, h1, h2⟩ := SyntaxText.tokensWithRanges_ok hcoh h
  rw [hx, Option.map_eq_some_iff] at h2
  obtain ⟨cs, h3, h4⟩ := h2
  have hfold : ∀ (T E : Type) (init : T) (f : T → List Char → Res (Except E T)),
      t.tryFoldChunks init f = tryFold f init cs := by
    intro T E init f
    rw [SyntaxText.tryFoldChunks, h1, Res.ok_bind, foldChunks_eq f L cs init h3]
  refine ⟨cs, h4, hfold, ?_⟩
  intro T init f
  rw [SyntaxText.forEachChunk, SyntaxText.tryForEachChunk, hfold]
  have : ∀ (cs : List (List Char)) (init : T),
      tryFold (E := Empty) (fun s chunk => .ok (.ok (f s chunk))) init cs
        = .ok (.ok (cs.foldl f init)) := by
    intro cs
    induction cs with
    | nil => intro init; rfl
    | cons c cs ih => intro init; simp only [tryFold, Res.ok_bind, ih, List.foldl_cons]
  rw [this]; rfl

/-- **C26.** `len()` is the byte length and `is_empty()` tells whether the text is empty. -/
theorem C26_len {r : Root} {t : SyntaxText} {x : List Char} (hx : t.str r = some x) :
    t.len = blen x ∧ (t.isEmpty = true ↔ x = []) := by
  obtain ⟨p, q, h1, h2, h3⟩ := bslice_eq_some.mp hx
  simp at h3
  rw [SyntaxText.isEmpty, TextRange.isEmpty_iff, ← blen_eq_zero, SyntaxText.len, TextRange.len]
  omega

/-- **C26.** The text of a node is the text of its subtree. -/
theorem C26_node_text {r : Root} {n : SNode} (h : Reach r (.node n)) {s : Tree}
    (hs : r.tree.at? n.path = some s) : (SyntaxText.new n).str r = some s.text := by
  obtain ⟨s', h1, -, -, -, h2⟩ := C11_ranges h
  rw [SElem.path_node, hs] at h1
  cases h1
  exact h2

/-! ## C27 -/

/-- **C27.** Slicing, exactly: `a` and `b` are the given bounds, defaulting to the start and the end.
If `a <= b <= len` the result stands for the bytes `a..b` of the text, and it is a panic otherwise. -/
theorem C27_slice {r : Root} {t : SyntaxText} {x : List Char} (hx : t.str r = some x)
    (arg : RangeArg) {a b : Nat} (ha : arg.start.getD 0 = a) (hb : arg.stop.getD (blen x) = b) :
    (a ≤ b ∧ b ≤ blen x → ∃ t', t.slice arg = .ok t' ∧ t'.str r = bslice x a b ∧
      t'.node = t.node) ∧
    (¬ (a ≤ b ∧ b ≤ blen x) → t.slice arg = .panic) := by
  have hlen := (C26_len hx).1
  rw [t.slice_eq arg (a := a) (b := b) ha (by rw [hlen]; exact hb)]
  rw [SyntaxText.len, TextRange.len] at hlen
  have hle := t.range.le
  constructor
  · rintro ⟨h1, h2⟩
    rw [dif_pos (by omega)]
    exact ⟨_, rfl, bslice_bslice hx h1 (by omega), rfl⟩
  · intro h
    rw [dif_neg (by omega)]

/-- **C27.** Every form of range: `r`, `a..b`, `a..`, `..b`, `..`. -/
theorem C27_forms {r : Root} {t : SyntaxText} {x : List Char} (hx : t.str r = some x) (a b : Nat) (rg : TextRange) :
    (if rg.stop ≤ blen x then ∃ t', t.slice (.ofRange rg) = .ok t' ∧ t'.str r = bslice x rg.start rg.stop
      else t.slice (.ofRange rg) = .panic) ∧
    (if a ≤ b ∧ b ≤ blen x then ∃ t', t.slice (.between a b) = .ok t' ∧ t'.str r = bslice x a b
      else t.slice (.between a b) = .panic) ∧
    (if a ≤ blen x then ∃ t', t.slice (.from_ a) = .ok t' ∧ t'.str r = bslice x a (blen x)
      else t.slice (.from_ a) = .panic) ∧
    (if b ≤ blen x then ∃ t', t.slice (.to b) = .ok t' ∧ t'.str r = bslice x 0 b
      else t.slice (.to b) = .panic) ∧
    ∃ t', t.slice .full = .ok t' ∧ t'.str r = some x := by
  have key : ∀ (arg : RangeArg) (p q : Nat) (c : Prop) [Decidable c], arg.start.getD 0 = p → arg.stop.getD (blen x) = q →
      (c ↔ p ≤ q ∧ q ≤ blen x) →
      if c then ∃ t', t.slice arg = .ok t' ∧ t'.str r = bslice x p q else t.slice arg = .panic := by
    intro arg p q c _ hp hq hc
    obtain ⟨h1, h2⟩ := C27_slice hx arg hp hq
    split
    next h => obtain ⟨t', h3, h4, _⟩ := h1 (hc.mp h); exact ⟨t', h3, h4⟩
    next h => exact h2 (fun hh => h (hc.mpr hh))
  have hr := rg.le
  refine ⟨key _ _ _ _ rfl rfl (by omega), key _ _ _ _ rfl rfl (by omega), key _ _ _ _ rfl rfl (by omega),
    key _ _ _ _ rfl rfl (by omega), ?_⟩
  obtain ⟨t', h1, h2⟩ := (if_pos (c := True) trivial).mp (key .full 0 (blen x) True rfl rfl (by simp))
  exact ⟨t', h1, by rw [h2, bslice_full]⟩

/-- **C27.** Slicing a slice is slicing with the shifted range. -/
theorem C27_compose (t t' : SyntaxText) (a b c d : Nat) (h : t.slice (.between a b) = .ok t')
    (hd : d ≤ b - a) : t'.slice (.between c d) = t.slice (.between (a + c) (a + d)) := by
  rw [t.slice_eq (.between a b) (a := a) (b := b) rfl rfl] at h
  split at h
  · cases h
    rw [SyntaxText.slice_eq _ (.between c d) (a := c) (b := d) rfl rfl,
      SyntaxText.slice_eq _ (.between (a + c) (a + d)) (a := a + c) (b := a + d) rfl rfl]
    simp only
    by_cases h2 : c ≤ d
    · rw [dif_pos (by omega), dif_pos (by omega)]
      simp only [Nat.add_assoc]
    · rw [dif_neg (by omega), dif_neg (by omega)]
  · cases h

/-- `slice` with the 32-bit arithmetic of a release build, where `+` wraps around; the result is the
new range — src/syntax_text.rs:59-80. -/
def sliceWrapping (range : TextRange) (a b : Nat) : Res TextRange :=
  if a ≤ b then
    let len := b - a
    let start := (range.start + a) % 2 ^ 32
    let stop := (start + len) % 2 ^ 32
    if h : start ≤ stop then
      if range.containsRange ⟨start, stop, h⟩ then .ok ⟨start, stop, h⟩ else .panic
    else .panic
  else .panic

/-- **C27.** Wrap-around never lets an out-of-bounds slice through: for all 32-bit values the
wrapping computation accepts exactly the ranges inside the text, with the same result. -/
theorem C27_wrapping (t : SyntaxText) (ht : t.range.stop < 2 ^ 32) (a b : Nat) (ha : a < 2 ^ 32)
    (hb : b < 2 ^ 32) :
    sliceWrapping t.range a b = (t.slice (.between a b) >>= fun t' => .ok t'.range) := by
  have hle := t.range.le
  rw [t.slice_eq (.between a b) (a := a) (b := b) rfl rfl]
  simp only [sliceWrapping]
  by_cases h1 : a ≤ b
  · rw [if_pos h1]
    by_cases hin : t.range.start + b ≤ t.range.stop
    · have e1 : (t.range.start + a) % 2 ^ 32 = t.range.start + a := Nat.mod_eq_of_lt (by omega)
      have e2 : (t.range.start + b) % 2 ^ 32 = t.range.start + b := Nat.mod_eq_of_lt (by omega)
      have e3 : t.range.start + a + (b - a) = t.range.start + b := by omega
      simp only [e1, e3, e2]
      rw [dif_pos (by omega), if_pos (by rw [TextRange.containsRange_iff]; simp only; omega),
        dif_pos ⟨h1, hin⟩, Res.ok_bind]
    · rw [dif_neg (c := a ≤ b ∧ t.range.start + b ≤ t.range.stop) (by omega), Res.panic_bind]
      split
      · rename_i h
        rw [if_neg]
        rw [TextRange.containsRange_iff]
        simp only
        intro hc
        omega
      · rfl
  · rw [if_neg h1, dif_neg (by omega), Res.panic_bind]

/-! ## C28 -/

theorem strFind_append (c : Char) (x y : List Char) : strFind c (x ++ y) =
    match strFind c x with
    | some o => some o
    | none => (strFind c y).map (blen x + ·) := by
  induction x with
  | nil => simp [strFind]
  | cons d x ih =>
    simp only [List.cons_append, strFind]
    by_cases h : d = c
    · simp [h]
    · simp only [h, if_false, ih]
      cases strFind c x with
      | some o => simp
      | none => cases strFind c y <;> simp [Nat.add_assoc]

theorem strFind_spec (c : Char) (x : List Char) :
    (strFind c x = none ↔ c ∉ x) ∧
    ∀ o, strFind c x = some o ↔ ∃ p q, x = p ++ c :: q ∧ c ∉ p ∧ blen p = o := by
  induction x with
  | nil => simp [strFind]
  | cons d x ih =>
    by_cases h : d = c
    · subst h
      simp only [strFind, if_true]
      refine ⟨by simp, fun o => ?_⟩
      constructor
      · intro h; cases h; exact ⟨[], x, by simp⟩
      · rintro ⟨p, q, h1, h2, rfl⟩
        cases p with
        | nil => rfl
        | cons e p => simp at h1 h2; exact absurd h1.1 h2.1
    · simp only [strFind, h, if_false]
      refine ⟨by simp [ih.1, Ne.symm h], fun o => ?_⟩
      rw [Option.map_eq_some_iff]
      constructor
      · rintro ⟨o', h1, rfl⟩
        obtain ⟨p, q, rfl, h2, rfl⟩ := (ih.2 o').mp h1
        exact ⟨d :: p, q, by simp, by simp [h2, Ne.symm h], by simp⟩
      · rintro ⟨p, q, h1, h2, rfl⟩
        cases p with
        | nil => simp at h1; exact absurd h1.1 h
        | cons e p =>
          simp at h1 h2
          obtain ⟨rfl, rfl⟩ := h1
          exact ⟨blen p, (ih.2 _).mpr ⟨p, q, rfl, h2.2, rfl⟩, by simp⟩

theorem SyntaxText.containsChar_chunks {t : SyntaxText} {cs : List (List Char)}
    (hf : ∀ (T E : Type) (init : T) (f : T → List Char → Res (Except E T)), t.tryFoldChunks init f = tryFold f init cs)
    (c : Char) :
    t.containsChar c = .ok (decide (c ∈ cs.flatten)) := by
  rw [SyntaxText.containsChar, SyntaxText.tryForEachChunk, hf]
  have : ∀ cs : List (List Char), tryFold (fun _ chunk =>
      .ok (if c ∈ chunk then Except.error () else .ok ())) () cs
      = .ok (if c ∈ cs.flatten then Except.error () else .ok ()) := by
    intro cs
    induction cs with
    | nil => simp [tryFold]
    | cons a cs ih =>
      simp only [tryFold, Res.ok_bind]
      by_cases ha : c ∈ a
      · simp [ha]
      · simp only [ha, if_false, ih, List.flatten_cons, List.mem_append, false_or]
  rw [this]
  by_cases hc : c ∈ cs.flatten <;> simp only [hc, if_true, if_false, Res.ok_bind] <;> simp

/-- **C28.** `contains_char(c)` tells whether `c` occurs in the text. -/
theorem C28_contains_char {r : Root} (hcoh : r.green.Coherent) {t : SyntaxText} (h : t.Of r)
    {x : List Char} (hx : t.str r = some x) (c : Char) :
    t.containsChar c = .ok (decide (c ∈ x)) := by
  obtain ⟨cs, rfl, hf, -⟩ := C26_chunks hcoh h hx
  exact SyntaxText.containsChar_chunks hf c

theorem SyntaxText.findChar_chunks {t : SyntaxText} {cs : List (List Char)}
    (hf : ∀ (T E : Type) (init : T) (f : T → List Char → Res (Except E T)), t.tryFoldChunks init f = tryFold f init cs)
    (c : Char) :
    (∀ o, t.findChar c = .ok (some o) ↔ ∃ p q, cs.flatten = p ++ c :: q ∧ c ∉ p ∧ blen p = o) ∧
    (t.findChar c = .ok none ↔ c ∉ cs.flatten) := by
  have hfind : t.findChar c = .ok (strFind c cs.flatten) := by
    rw [SyntaxText.findChar, SyntaxText.tryForEachChunk, hf]
    have : ∀ (f : Nat → List Char → Res (Except Nat Nat)), (∀ acc chunk, f acc chunk =
        match strFind c chunk with
        | some pos => .ok (.error (acc + pos))
        | none => .ok (.ok (acc + blen chunk))) → ∀ (cs : List (List Char)) (acc : Nat),
        tryFold (E := Nat) f acc cs
        = .ok (match strFind c cs.flatten with
          | some pos => Except.error (acc + pos)
          | none => .ok (acc + blen cs.flatten)) := by
      intro f hf cs
      induction cs with
      | nil => intro acc; simp [tryFold, strFind]
      | cons a cs ih =>
        intro acc
        simp only [tryFold, List.flatten_cons, strFind_append, hf]
        cases strFind c a with
        | some o => rfl
        | none =>
          simp only [Res.ok_bind, ih]
          cases strFind c cs.flatten <;> simp [Nat.add_assoc]
    rw [this _ (by intros; rfl)]
    cases strFind c cs.flatten <;> simp [SyntaxText.found]
  obtain ⟨h1, h2⟩ := strFind_spec c cs.flatten
  rw [hfind]
  simp only [Res.ok.injEq]
  exact ⟨h2, h1⟩

/-- **C28.** `find_char(c)` is the byte offset of the first occurrence of `c`, or `None`. -/
theorem C28_find_char {r : Root} (hcoh : r.green.Coherent) {t : SyntaxText} (h : t.Of r)
    {x : List Char} (hx : t.str r = some x) (c : Char) :
    (∀ o, t.findChar c = .ok (some o) ↔ ∃ p q, x = p ++ c :: q ∧ c ∉ p ∧ blen p = o) ∧
    (t.findChar c = .ok none ↔ c ∉ x) := by
  obtain ⟨cs, rfl, hf, -⟩ := C26_chunks hcoh h hx
  exact SyntaxText.findChar_chunks hf c

theorem SyntaxText.charAt_chunks {t : SyntaxText} {cs : List (List Char)}
    (hf : ∀ (T E : Type) (init : T) (f : T → List Char → Res (Except E T)), t.tryFoldChunks init f = tryFold f init cs)
    (o : Nat) :
    (∀ p c q, cs.flatten = p ++ c :: q → blen p = o → t.charAt o = .ok (some c)) ∧
    (blen cs.flatten ≤ o → t.charAt o = .ok none) ∧
    (o < blen cs.flatten → isCharBoundary cs.flatten o = false → t.charAt o = .panic) := by
  have key : ∀ (cs : List (List Char)) (start : Nat), start ≤ o →
      tryFold (E := Char) (fun start chunk => do
        let stop := start + blen chunk
        if start ≤ o ∧ o < stop then
          let rest ← Res.ofOption (bslice chunk (o - start) (blen chunk))
          let c ← Res.ofOption rest.head?
          .ok (.error c)
        else .ok (.ok stop)) start cs
      = if o < start + blen cs.flatten then
          match bslice cs.flatten (o - start) (blen cs.flatten) with
          | some (c :: _) => .ok (.error c)
          | _ => .panic
        else .ok (.ok (start + blen cs.flatten)) := by
    intro cs
    induction cs with
    | nil =>
      intro start hs
      rw [if_neg (by simp; omega)]
      simp [tryFold]
    | cons a cs ih =>
      intro start hs
      simp only [tryFold, List.flatten_cons, blen_append]
      by_cases ha : o < start + blen a
      · rw [if_pos ⟨hs, ha⟩, if_pos (by omega)]
        have hb : bslice (a ++ cs.flatten) (o - start) (blen a + blen cs.flatten)
            = (bslice a (o - start) (blen a)).map (· ++ cs.flatten) := by
          rw [bslice_append_mid (by omega) (by omega)]
          have : blen a + blen cs.flatten - blen a = blen cs.flatten := by omega
          rw [this, bslice_full]
          cases bslice a (o - start) (blen a) <;> rfl
        rw [hb]
        cases hsl : bslice a (o - start) (blen a) with
        | none => rfl
        | some m =>
          cases m with
          | nil =>
            obtain ⟨p, q, h1, h2, h3⟩ := bslice_eq_some.mp hsl
            simp at h3
            omega
          | cons d m => rfl
      · rw [if_neg (by omega)]
        simp only [Res.ok_bind]
        rw [ih _ (by omega)]
        by_cases hb : o < start + blen a + blen cs.flatten
        · rw [if_pos hb, if_pos (by omega), bslice_append_right (by omega) (by omega)]
          have e1 : o - start - blen a = o - (start + blen a) := by omega
          have e2 : blen a + blen cs.flatten - blen a = blen cs.flatten := by omega
          rw [e1, e2]
        · rw [if_neg hb, if_neg (by omega), Nat.add_assoc]
  have hchar : t.charAt o = if o < blen cs.flatten then
      match bslice cs.flatten o (blen cs.flatten) with
      | some (c :: _) => .ok (some c)
      | _ => .panic
    else .ok none := by
    rw [SyntaxText.charAt, SyntaxText.tryForEachChunk, hf, key cs 0 (by omega)]
    simp only [Nat.zero_add, Nat.sub_zero]
    by_cases ho : o < blen cs.flatten
    · simp only [ho, if_true]
      split <;> rfl
    · simp only [ho, if_false]; rfl
  rw [hchar]
  refine ⟨?_, ?_, ?_⟩
  · intro p c q he hp
    have : bslice cs.flatten o (blen cs.flatten) = some (c :: q) :=
      bslice_eq_some.mpr ⟨p, [], by simpa using he, hp, by rw [he]⟩
    have hc := Char.utf8Size_pos c
    rw [if_pos (by rw [he]; simp; omega), this]
  · intro ho; rw [if_neg (by omega)]
  · intro ho hb
    rw [if_pos ho]
    have : bslice cs.flatten o (blen cs.flatten) = none := by
      cases hsl : bslice cs.flatten o (blen cs.flatten) with
      | none => rfl
      | some m =>
        obtain ⟨p, q, h1, h2, h3⟩ := bslice_eq_some.mp hsl
        have := boundary_iff.mpr ⟨p, m ++ q, by simpa using h1, h2⟩
        rw [hb] at this; cases this
    rw [this]

/-- **C28.** `char_at(o)` is the character starting at byte `o`; `None` at or past the end; and a
panic inside a character. -/
theorem C28_char_at {r : Root} (hcoh : r.green.Coherent) {t : SyntaxText} (h : t.Of r)
    {x : List Char} (hx : t.str r = some x) (o : Nat) :
    (∀ p c q, x = p ++ c :: q → blen p = o → t.charAt o = .ok (some c)) ∧
    (blen x ≤ o → t.charAt o = .ok none) ∧
    (o < blen x → isCharBoundary x o = false → t.charAt o = .panic) := by
  obtain ⟨cs, rfl, hf, -⟩ := C26_chunks hcoh h hx
  exact SyntaxText.charAt_chunks hf o

/-! ## C29 -/

theorem SyntaxText.eqStr_chunks {t : SyntaxText} {cs : List (List Char)}
    (hf : ∀ (T E : Type) (init : T) (f : T → List Char → Res (Except E T)), t.tryFoldChunks init f = tryFold f init cs)
    (y : List Char) :
    t.eqStr y = .ok (decide (cs.flatten = y)) := by
  have key : ∀ (cs : List (List Char)) (y : List Char),
      tryFold (E := Unit) (fun rhs chunk =>
        if chunk.isPrefixOf rhs then do
          let rhs ← Res.ofOption (bslice rhs (blen chunk) (blen rhs))
          .ok (.ok rhs)
        else .ok (.error ())) y cs
      = .ok (if cs.flatten.isPrefixOf y then Except.ok (y.drop cs.flatten.length) else .error ()) := by
    intro cs
    induction cs with
    | nil => intro y; simp [tryFold]
    | cons a cs ih =>
      intro y
      simp only [tryFold, List.flatten_cons]
      by_cases ha : a.isPrefixOf y = true
      · obtain ⟨z, rfl⟩ := List.isPrefixOf_iff_prefix.mp ha
        have : bslice (a ++ z) (blen a) (blen (a ++ z)) = some z :=
          bslice_eq_some.mpr ⟨a, [], by simp, rfl, rfl⟩
        simp only [ha, if_true, this, Res.ofOption_some, Res.ok_bind, ih]
        congr 1
        have hp : (a ++ cs.flatten).isPrefixOf (a ++ z) = cs.flatten.isPrefixOf z := by
          rw [Bool.eq_iff_iff]; simp [List.prefix_append_right_inj]
        rw [hp]
        have hd : (a ++ z).drop (a ++ cs.flatten).length = z.drop cs.flatten.length := by
          rw [List.length_append, List.drop_append]; simp
        rw [hd]
      · have hp : ¬ (a ++ cs.flatten).isPrefixOf y = true := by
          intro hp
          obtain ⟨z, rfl⟩ := List.isPrefixOf_iff_prefix.mp hp
          apply ha
          rw [List.append_assoc]; simp
        simp [ha, hp]
  rw [SyntaxText.eqStr, SyntaxText.tryForEachChunk, hf, key]
  by_cases hp : cs.flatten.isPrefixOf y = true
  · obtain ⟨z, rfl⟩ := List.isPrefixOf_iff_prefix.mp hp
    simp only [hp, if_true, Res.ok_bind, List.drop_left]
    cases z <;> simp
  · have hne : cs.flatten ≠ y := by rintro rfl; simp at hp
    simp [hp, hne]

/-- **C29.** Comparing a text with a string, in either direction. -/
theorem C29_eq_str {r : Root} (hcoh : r.green.Coherent) {t : SyntaxText} (h : t.Of r)
    {x : List Char} (hx : t.str r = some x) (y : List Char) :
    t.eqStr y = .ok (decide (x = y)) := by
  obtain ⟨cs, rfl, hf, -⟩ := C26_chunks hcoh h hx
  exact SyntaxText.eqStr_chunks hf y

theorem chunksOf_cons {x : SToken × TextRange} {L : List (SToken × TextRange)}
    {cs : List (List Char)} : chunksOf (x :: L) = some cs ↔
      ∃ c cs', cs = c :: cs' ∧ bslice x.1.text x.2.start x.2.stop = some c ∧
        chunksOf L = some cs' := by
  obtain ⟨t, r⟩ := x
  simp only [chunksOf, Option.bind_eq_some_iff, Option.map_eq_some_iff]
  constructor
  · rintro ⟨c, h1, cs', h2, rfl⟩; exact ⟨c, cs', rfl, h1, h2⟩
  · rintro ⟨c, cs', rfl, h1, h2⟩; exact ⟨c, h1, cs', h2, rfl⟩

theorem bslice_len {t c : List Char} {r : TextRange} (h : bslice t r.start r.stop = some c) :
    r.len = blen c ∧ (r.isEmpty = true ↔ c = []) := by
  obtain ⟨p, q, -, h2, h3⟩ := bslice_eq_some.mp h
  simp at h3
  rw [TextRange.isEmpty_iff, ← blen_eq_zero, TextRange.len]
  omega

theorem all_empty {L : List (SToken × TextRange)} {cs : List (List Char)}
    (h : chunksOf L = some cs) :
    L.all (fun it => it.2.isEmpty) = true ↔ cs.flatten = [] := by
  induction L generalizing cs with
  | nil => simp [chunksOf] at h; subst h; simp
  | cons x L ih =>
    obtain ⟨c, cs', rfl, h1, h2⟩ := chunksOf_cons.mp h
    simp only [List.all_cons, Bool.and_eq_true, ih h2, (bslice_len h1).2, List.flatten_cons,
      List.append_eq_nil_iff]

theorem skipEmpty_spec : ∀ (L : List (SToken × TextRange)) (x : SToken × TextRange)
    (cs : List (List Char)), chunksOf (x :: L) = some cs →
    (SyntaxText.skipEmpty x L = (none, []) ∧ cs.flatten = []) ∨
    ∃ x' L' c cs', SyntaxText.skipEmpty x L = (some x', L') ∧
      chunksOf (x' :: L') = some (c :: cs') ∧ c ≠ [] ∧ c ++ cs'.flatten = cs.flatten
  | [], x, cs, h => by
    obtain ⟨c, cs', rfl, h1, h2⟩ := chunksOf_cons.mp h
    simp only [SyntaxText.skipEmpty]
    by_cases he : x.2.isEmpty = true
    · left
      rw [if_pos he]
      simp [chunksOf] at h2; subst h2
      have := (bslice_len h1).2.mp he
      subst this; simp
    · right
      rw [if_neg he]
      exact ⟨x, [], c, cs', rfl, h, fun hc => he ((bslice_len h1).2.mpr hc), rfl⟩
  | y :: L, x, cs, h => by
    obtain ⟨c, cs', rfl, h1, h2⟩ := chunksOf_cons.mp h
    simp only [SyntaxText.skipEmpty]
    by_cases he : x.2.isEmpty = true
    · rw [if_pos he]
      have := (bslice_len h1).2.mp he
      subst this
      simpa using skipEmpty_spec L y cs' h2
    · right
      rw [if_neg he]
      exact ⟨x, y :: L, c, cs', rfl, h, fun hc => he ((bslice_len h1).2.mpr hc), rfl⟩

/-- Moving the start of a slice past a prefix. -/
theorem bslice_advance {t u v : List Char} {r : TextRange}
    (h : bslice t r.start r.stop = some (u ++ v)) :
    ∃ r', TextRange.new? (r.start + blen u) r.stop = some r' ∧
      bslice t r'.start r'.stop = some v := by
  obtain ⟨p, q, h1, h2, h3⟩ := bslice_eq_some.mp h
  simp at h3
  rw [TextRange.new?, dif_pos (by omega)]
  refine ⟨_, rfl, bslice_eq_some.mpr ⟨p ++ u, q, by rw [h1]; simp, by simp; omega, by simp; omega⟩⟩

theorem zipLoop_spec : ∀ (k : Nat) (x y : SToken × TextRange) (xs ys : List (SToken × TextRange))
    (cx cy : List (List Char)), chunksOf (x :: xs) = some cx → chunksOf (y :: ys) = some cy →
    blen cx.flatten = blen cy.flatten → blen cx.flatten < k →
    ∃ r xs' ys', SyntaxText.zipLoop k x xs y ys = .ok (r, xs', ys') ∧
      ((r.isNone && xs'.all (fun it => it.2.isEmpty) && ys'.all (fun it => it.2.isEmpty)) = true ↔
        cx.flatten = cy.flatten) := by
  intro k
  induction k with
  | zero => intro x y xs ys cx cy _ _ _ h; omega
  | succ k ih =>
    intro x y xs ys cx cy hx hy hlen hk
    rw [SyntaxText.zipLoop]
    rcases skipEmpty_spec xs x cx hx with ⟨e1, e2⟩ | ⟨x', xs', c, cs', e1, e2, e3, e4⟩
    · rw [e1]
      obtain ⟨c, cs', rfl, h1, h2⟩ := chunksOf_cons.mp hy
      refine ⟨none, [], ys, rfl, ?_⟩
      rw [e2] at hlen ⊢
      have hnil : (c :: cs').flatten = [] := blen_eq_zero.mp (by simpa using hlen.symm)
      rw [hnil]
      simp only [List.flatten_cons, List.append_eq_nil_iff] at hnil
      simp only [Option.isNone_none, List.all_nil, Bool.and_self, Bool.true_and, iff_true]
      exact (all_empty h2).mpr hnil.2
    · rw [e1]
      simp only
      rcases skipEmpty_spec ys y cy hy with ⟨f1, f2⟩ | ⟨y', ys', d, ds', f1, f2, f3, f4⟩
      · exfalso
        rw [f2, ← e4] at hlen
        simp at hlen
        exact e3 (blen_eq_zero.mp hlen.1)
      · rw [f1]
        obtain ⟨_, _, he, x1, x2⟩ := chunksOf_cons.mp e2
        cases he
        obtain ⟨_, _, he, y1, y2⟩ := chunksOf_cons.mp f2
        cases he
        simp only [sliceText, x1, y1, Res.ofOption_some, Res.ok_bind]
        rw [← e4, ← f4] at hlen ⊢
        rw [← e4] at hk
        by_cases hp : (d.isPrefixOf c || c.isPrefixOf d) = true
        · rw [hp]
          simp only [Bool.not_true, Bool.false_eq_true, if_false]
          have lx := (bslice_len x1).1
          have ly := (bslice_len y1).1
          have step : ∀ u c' d', u ≠ [] → c = u ++ c' → d = u ++ d' →
              min x'.2.len y'.2.len = blen u →
              ∃ r xs'' ys'', (do
                let xr ← Res.ofOption (TextRange.new? (x'.2.start + min x'.2.len y'.2.len) x'.2.stop)
                let yr ← Res.ofOption (TextRange.new? (y'.2.start + min x'.2.len y'.2.len) y'.2.stop)
                SyntaxText.zipLoop k (x'.1, xr) xs' (y'.1, yr) ys') = .ok (r, xs'', ys'') ∧
                ((r.isNone && xs''.all (fun it => it.2.isEmpty) &&
                  ys''.all (fun it => it.2.isEmpty)) = true ↔
                  c ++ cs'.flatten = d ++ ds'.flatten) := by
            intro u c' d' hu hc hd hm
            subst hc hd
            rw [hm]
            obtain ⟨xr, hx1, hx2⟩ := bslice_advance x1
            obtain ⟨yr, hy1, hy2⟩ := bslice_advance y1
            have hpos : blen u ≠ 0 := fun h => hu (blen_eq_zero.mp h)
            simp only [blen_append] at hlen hk
            obtain ⟨r, a, b, h1, h2⟩ := ih (x'.1, xr) (y'.1, yr) xs' ys' (c' :: cs') (d' :: ds')
              (chunksOf_cons.mpr ⟨_, _, rfl, hx2, x2⟩) (chunksOf_cons.mpr ⟨_, _, rfl, hy2, y2⟩)
              (by simp only [List.flatten_cons, blen_append]; omega)
              (by simp only [List.flatten_cons, blen_append]; omega)
            refine ⟨r, a, b, by rw [hx1, hy1]; exact h1, ?_⟩
            rw [h2]
            simp [List.append_assoc]
          rcases Bool.or_eq_true _ _ ▸ hp with hp | hp
          · obtain ⟨z, rfl⟩ := List.isPrefixOf_iff_prefix.mp hp
            exact step d z [] f3 rfl (by simp) (by rw [lx, ly]; simp)
          · obtain ⟨z, rfl⟩ := List.isPrefixOf_iff_prefix.mp hp
            exact step c [] z e3 (by simp) rfl (by rw [lx, ly]; simp)
        · have hp' : (d.isPrefixOf c || c.isPrefixOf d) = false := Bool.not_eq_true _ ▸ hp
          rw [hp']
          refine ⟨some (), xs', ys', rfl, ?_⟩
          simp only [Option.isNone_some, Bool.false_and, Bool.false_eq_true, false_iff]
          intro heq
          apply hp
          rw [Bool.or_eq_true, List.isPrefixOf_iff_prefix, List.isPrefixOf_iff_prefix]
          rcases List.append_eq_append_iff.mp heq with ⟨z, h1, -⟩ | ⟨z, h1, -⟩
          · exact .inr ⟨z, h1.symm⟩
          · exact .inl ⟨z, h1.symm⟩

/-- **C29.** Comparing two texts (of the same or different trees) compares the strings, however they
are divided into tokens. -/
theorem C29_eq {r r' : Root} (hcoh : r.green.Coherent) (hcoh' : r'.green.Coherent)
    {a b : SyntaxText} (ha : a.Of r) (hb : b.Of r') {x y : List Char} (hx : a.str r = some x)
    (hy : b.str r' = some y) : a.eq b = .ok (decide (x = y)) := by
  have lx := (C26_len hx).1
  have ly := (C26_len hy).1
  rw [SyntaxText.len] at lx ly
  obtain ⟨L, h1, h2⟩ := SyntaxText.tokensWithRanges_ok hcoh ha
  obtain ⟨M, h3, h4⟩ := SyntaxText.tokensWithRanges_ok hcoh' hb
  rw [hx, Option.map_eq_some_iff] at h2
  rw [hy, Option.map_eq_some_iff] at h4
  obtain ⟨cx, hcx, rfl⟩ := h2
  obtain ⟨cy, hcy, rfl⟩ := h4
  rw [SyntaxText.eq]
  by_cases hl : a.range.len = b.range.len
  · rw [if_neg (by simp [hl]), h1, h3]
    simp only [Res.ok_bind]
    have hlen : blen cx.flatten = blen cy.flatten := by omega
    have done : ∀ (r : Option Unit) (xs ys : List (SToken × TextRange)),
        SyntaxText.zipTexts (a.range.len + 1) L M = .ok (r, xs, ys) →
        ((r.isNone && xs.all (fun it => it.2.isEmpty) && ys.all (fun it => it.2.isEmpty)) = true ↔
          cx.flatten = cy.flatten) →
        (do
          let __x ← SyntaxText.zipTexts (a.range.len + 1) L M
          match __x with
          | (r, lhs, rhs) => Res.ok (r.isNone && lhs.all (fun it => it.2.isEmpty) &&
              rhs.all (fun it => it.2.isEmpty))) = .ok (decide (cx.flatten = cy.flatten)) := by
      intro r xs ys h1 h2
      rw [h1, Res.ok_bind]
      simp only
      rw [Res.ok.injEq, Bool.eq_iff_iff, h2]; simp
    cases L with
    | nil =>
      simp [chunksOf] at hcx
      subst hcx
      have hnil : cy.flatten = [] := blen_eq_zero.mp (by simpa using hlen.symm)
      exact done none [] M rfl (by simp [hnil, all_empty hcy])
    | cons x' L =>
      cases M with
      | nil =>
        simp [chunksOf] at hcy
        subst hcy
        have hnil : cx.flatten = [] := blen_eq_zero.mp (by simpa using hlen)
        obtain ⟨c, cs', rfl, h1, h2⟩ := chunksOf_cons.mp hcx
        simp only [List.flatten_cons, List.append_eq_nil_iff] at hnil
        exact done none L [] rfl (by simp only [Option.isNone_none, Bool.true_and, List.all_nil,
          Bool.and_true, all_empty h2, List.flatten_cons]; simp [hnil.1, hnil.2])
      | cons y' M =>
        obtain ⟨r, xs', ys', e1, e2⟩ := zipLoop_spec (a.range.len + 1) x' y' L M cx cy hcx hcy hlen
          (by omega)
        exact done r xs' ys' e1 e2
  · rw [if_pos hl]
    have : cx.flatten ≠ cy.flatten := by
      intro h; rw [h] at lx; omega
    simp [this]

/-! ### Concrete cases -/

/-- The text of the example tree's inner node, and a slice of the whole tree's text which cuts
through two tokens. -/
def synText : SyntaxText := SyntaxText.new synTop
theorem synText_of : synText.Of synRoot := .text synTop_reach

example : synText.str synRoot = some synRoot.tree.text := by decide
example := C26_to_string synGreen_coherent synText_of
example := C26_chunks synGreen_coherent synText_of (x := synRoot.tree.text) (by decide)

theorem synSlice_ok : ∃ t', synText.slice (.between 1 5) = .ok t' ∧ t'.Of synRoot ∧
    t'.str synRoot = bslice synRoot.tree.text 1 5 := by
  obtain ⟨t', h1, h2, -⟩ := (C27_slice (r := synRoot) (t := synText) (x := synRoot.tree.text)
    (by decide) (.between 1 5) (a := 1) (b := 5) rfl rfl).1 (by decide)
  exact ⟨t', h1, .slice _ synText_of h1, h2⟩

example : (bslice synRoot.tree.text 1 5).isSome = true := by decide
/-- The open forms of ranges on a concrete text. -/
example := C27_forms (t := synText) (r := synRoot) (x := synRoot.tree.text) (by decide) 1 5 (TextRange.at_ 1 4)
example := C28_find_char synGreen_coherent synText_of (x := synRoot.tree.text) (by decide) 'b'
example := C29_eq synGreen_coherent synGreen_coherent synText_of synText_of
  (x := synRoot.tree.text) (y := synRoot.tree.text) (by decide) (by decide)
/-- A slice through the middle of a character exists, and converting it to a string panics. -/
example : ∃ t : SyntaxText, t.Of synRoot ∧ t.str synRoot = none ∧ t.display = .panic :=
  ⟨⟨synTop, ⟨1, 3, by decide⟩⟩, .slice (.between 1 3) synText_of rfl, by decide, by decide⟩

end Rowan
