import Verif.TextRead
import Verif.Props.TextEq
/-!
# C85: searching the texts of mutable trees
-/
namespace Rowan
open RProg Prog

namespace Prog
variable {t : SyntaxText} {h : Nat} {L : List (Nat × SElem)}

theorem Text.containsChar_comp (hw : ∃ ws, t.tokensWithRanges = .ok ws) (hm : (h, .node t.node) ∈ L) (c : Char) :
    Comp (Text.containsChar ⟨h, t.range⟩ c) L (t.containsChar c) fun a b L' => a = b ∧ L'.Perm L :=
  .bind (tryFoldChunks_comp (by intros; simp) hw hm) fun _ _ _ _ h => by
    obtain ⟨rfl, h⟩ := h
    exact .pure ⟨rfl, h⟩

theorem Text.findChar_comp (hw : ∃ ws, t.tokensWithRanges = .ok ws) (hm : (h, .node t.node) ∈ L) (c : Char) :
    Comp (Text.findChar ⟨h, t.range⟩ c) L (t.findChar c) fun a b L' => a = b ∧ L'.Perm L :=
  .bind (tryFoldChunks_comp (by intros; split <;> simp) hw hm) fun a b _ _ h => by
    obtain ⟨rfl, h⟩ := h
    exact .pure ⟨by cases a <;> rfl, h⟩

theorem Text.charAt_comp (hw : ∃ ws, t.tokensWithRanges = .ok ws) (hm : (h, .node t.node) ∈ L) (o : Nat) :
    Comp (Text.charAt ⟨h, t.range⟩ o) L (t.charAt o) fun a b L' => a = b ∧ L'.Perm L := by
  refine .bind (tryFoldChunks_comp (fun acc c => ?_) hw hm) fun a b _ _ h => ?_
  · dsimp only
    split
    · cases bslice c (o - acc) (blen c) with
      | none => nofun
      | some x => cases x <;> nofun
    · nofun
  · obtain ⟨rfl, h⟩ := h
    exact .pure ⟨by cases a <;> rfl, h⟩

theorem Text.eqStr_comp (hw : ∃ ws, t.tokensWithRanges = .ok ws) (hm : (h, .node t.node) ∈ L) (y : List Char) :
    Comp (Text.eqStr ⟨h, t.range⟩ y) L (t.eqStr y) fun a b L' => a = b ∧ L'.Perm L := by
  refine .bind (tryFoldChunks_comp (fun acc c => ?_) hw hm) fun _ _ _ _ h => ?_
  · split
    · cases bslice acc (blen c) (blen acc) <;> nofun
    · nofun
  · obtain ⟨rfl, h⟩ := h
    exact .pure ⟨rfl, h⟩

end Prog

section
variable {T : List Nat} {r : Nat} {s : HSt} {gs : List GElem} {n : Nat} {J : List Live} {rest lk : List Nat}

/-- The handle, and the chunks that are seen through it. -/
theorem Running.chunks (h : Running T s gs n J rest lk) {j : Live} (hj : j ∈ J) {P : List Nat} (hp : s.Loc j.obj r P)
    (hn : (s.tree j.obj).isNode = true) {now : TextRange} (hnow : Cur.textRange j.obj s = .ok now s) {old : TextRange}
    {x : List Char} (hx : shown (s.tree r).text now old = some x) :
    ∃ (m : SNode) (cs : List (List Char)), (j.id, .node m) ∈ Live.snaps J ∧
      (∃ ws, SyntaxText.tokensWithRanges ⟨m, old⟩ = .ok ws) ∧ cs.flatten = x ∧
      ∀ (T E : Type) (init : T) (f : T → List Char → Res (Except E T)),
        SyntaxText.tryFoldChunks ⟨m, old⟩ init f = tryFold f init cs := by
  obtain ⟨m, h1, h2, rfl, hcoh, -⟩ := h.nodeIn hj hp hn hnow
  obtain ⟨ws, w1, w2⟩ := SyntaxText.tokensWithRanges_any hcoh h1 old
  rw [show (s.rootVal r).tree.text = (s.tree r).text from rfl, hx, Option.map_eq_some_iff] at w2
  obtain ⟨cs, c1, c2⟩ := w2
  refine ⟨m, cs, h2, ⟨ws, w1⟩, c2, fun T E init f => ?_⟩
  rw [SyntaxText.tryFoldChunks, w1, Res.ok_bind, foldChunks_eq f ws cs init c1]

/-- **C85** `to_string()`, `contains_char`, `== str`.  In any state, however the range of the text compares with the range
that the node has now, if these have the string `x` in common: `to_string()` is `x`, `contains_char(c)` says whether `c` is
in `x`, and `==` with a string whether `x` is this string. -/
theorem C85_reads (h : Running T s gs n J rest lk) {j : Live} (hj : j ∈ J) {P : List Nat} (hp : s.Loc j.obj r P)
    (hn : (s.tree j.obj).isNode = true) {now : TextRange} (hnow : Cur.textRange j.obj s = .ok now s) {old : TextRange}
    {x : List Char} (hx : shown (s.tree r).text now old = some x) :
    (Text.toString ⟨j.id, old⟩).Answers T s gs n J rest lk (.ok (.ok x)) (fun a b L => a = b ∧ L.Perm (Live.snaps J)) ∧
    (∀ c, (Text.containsChar ⟨j.id, old⟩ c).Answers T s gs n J rest lk (.ok (decide (c ∈ x)))
      (fun a b L => a = b ∧ L.Perm (Live.snaps J))) ∧
    (∀ y, (Text.eqStr ⟨j.id, old⟩ y).Answers T s gs n J rest lk (.ok (decide (x = y)))
      (fun a b L => a = b ∧ L.Perm (Live.snaps J))) := by
  obtain ⟨m, cs, h1, h2, rfl, hf⟩ := h.chunks hj hp hn hnow hx
  refine ⟨?_, fun c => ?_, fun y => ?_⟩
  · have key := (tryFoldChunks_comp (t := ⟨m, old⟩) (E := Empty) (f := fun (out : List Char) chunk => .ok (.ok (out ++ chunk)))
      (init := []) (by intros; simp) h2 h1).heap h
    rw [hf] at key
    have : ∀ (cs : List (List Char)) (out : List Char),
        tryFold (E := Empty) (fun (out : List Char) chunk => .ok (.ok (out ++ chunk))) out cs = .ok (.ok (out ++ cs.flatten)) := by
      intro cs
      induction cs with
      | nil => intro out; simp [tryFold]
      | cons c cs ih => intro out; simp only [tryFold, Res.ok_bind, ih, List.flatten_cons, List.append_assoc]
    rw [this] at key
    exact key
  · have key := (Text.containsChar_comp (t := ⟨m, old⟩) h2 h1 c).heap h
    rw [SyntaxText.containsChar_chunks hf] at key
    exact key
  · have key := (Text.eqStr_comp (t := ⟨m, old⟩) h2 h1 y).heap h
    rw [SyntaxText.eqStr_chunks hf] at key
    exact key

/-- **C85** `find_char`: the byte offset in `x` of the first occurrence, if there is one. -/
theorem C85_find_char (h : Running T s gs n J rest lk) {j : Live} (hj : j ∈ J) {P : List Nat} (hp : s.Loc j.obj r P)
    (hn : (s.tree j.obj).isNode = true) {now : TextRange} (hnow : Cur.textRange j.obj s = .ok now s) {old : TextRange}
    {x : List Char} (hx : shown (s.tree r).text now old = some x) (c : Char) :
    (∀ p q, x = p ++ c :: q → c ∉ p → (Text.findChar ⟨j.id, old⟩ c).Answers T s gs n J rest lk (.ok (some (blen p)))
      (fun a b L => a = b ∧ L.Perm (Live.snaps J))) ∧
    (c ∉ x → (Text.findChar ⟨j.id, old⟩ c).Answers T s gs n J rest lk (.ok none)
      (fun a b L => a = b ∧ L.Perm (Live.snaps J))) := by
  obtain ⟨m, cs, h1, h2, rfl, hf⟩ := h.chunks hj hp hn hnow hx
  have key := (Text.findChar_comp (t := ⟨m, old⟩) h2 h1 c).heap h
  obtain ⟨k1, k2⟩ := SyntaxText.findChar_chunks hf c
  refine ⟨fun p q e1 e2 => ?_, fun e => ?_⟩
  · rw [(k1 (blen p)).mpr ⟨p, q, e1, e2, rfl⟩] at key
    exact key
  · rw [k2.mpr e] at key
    exact key

/-- **C85** `char_at`: the character that begins at the byte offset in `x`; `None` at the end of `x` or behind; a panic
inside a character. -/
theorem C85_char_at (h : Running T s gs n J rest lk) {j : Live} (hj : j ∈ J) {P : List Nat} (hp : s.Loc j.obj r P)
    (hn : (s.tree j.obj).isNode = true) {now : TextRange} (hnow : Cur.textRange j.obj s = .ok now s) {old : TextRange}
    {x : List Char} (hx : shown (s.tree r).text now old = some x) (o : Nat) :
    (∀ p c q, x = p ++ c :: q → blen p = o → (Text.charAt ⟨j.id, old⟩ o).Answers T s gs n J rest lk (.ok (some c))
      (fun a b L => a = b ∧ L.Perm (Live.snaps J))) ∧
    (blen x ≤ o → (Text.charAt ⟨j.id, old⟩ o).Answers T s gs n J rest lk (.ok none)
      (fun a b L => a = b ∧ L.Perm (Live.snaps J))) ∧
    (o < blen x → (∀ p q, x = p ++ q → blen p ≠ o) → (Text.charAt ⟨j.id, old⟩ o).Answers T s gs n J rest lk .panic
      (fun a (b : Option Char) L => a = b ∧ L.Perm (Live.snaps J))) := by
  obtain ⟨m, cs, h1, h2, rfl, hf⟩ := h.chunks hj hp hn hnow hx
  have key := (Text.charAt_comp (t := ⟨m, old⟩) h2 h1 o).heap h
  obtain ⟨k1, k2, k3⟩ := SyntaxText.charAt_chunks hf o
  refine ⟨fun p c q e1 e2 => ?_, fun e => ?_, fun e1 e2 => ?_⟩
  · rw [k1 p c q e1 e2] at key
    exact key
  · rw [k2 e] at key
    exact key
  · have hb : isCharBoundary cs.flatten o = false := by
      cases hc : isCharBoundary cs.flatten o with
      | false => rfl
      | true =>
        obtain ⟨p, q, a, b⟩ := boundary_iff.mp hc
        exact absurd b (e2 p q a)
    rw [k3 e1 hb] at key
    exact key

end

/-- The theorems apply to the first inner node of `demo84` and a range that overlaps with its own: `b` is what they have in
common. -/
example : ∃ e, Running [0] demo84.s demo84.gs 1 [⟨0, 1, e⟩] [3, 2, 0] demo84.lk ∧
    (Text.containsChar ⟨0, ⟨1, 4, by decide⟩⟩ 'a').Answers [0] demo84.s demo84.gs 1 [⟨0, 1, e⟩] [3, 2, 0] demo84.lk (.ok false)
      (fun a b L => a = b ∧ L.Perm (Live.snaps [⟨0, 1, e⟩])) ∧
    (Text.findChar ⟨0, ⟨1, 4, by decide⟩⟩ 'b').Answers [0] demo84.s demo84.gs 1 [⟨0, 1, e⟩] [3, 2, 0] demo84.lk (.ok (some 0))
      (fun a b L => a = b ∧ L.Perm (Live.snaps [⟨0, 1, e⟩])) ∧
    (Text.charAt ⟨0, ⟨1, 4, by decide⟩⟩ 1).Answers [0] demo84.s demo84.gs 1 [⟨0, 1, e⟩] [3, 2, 0] demo84.lk (.ok none)
      (fun a b L => a = b ∧ L.Perm (Live.snaps [⟨0, 1, e⟩])) := by
  obtain ⟨e, -, h⟩ := C49_start_one demo84_reach (x := 1) (rest := [3, 2, 0]) (by decide +kernel) demo84_loc1
  have hs := (HReach.spans demo84_reach demo84_loc1).2
  have h1 : blen ((demo84.s.tree 0).before [0]) = 0 := by rw [demo84_tree]; decide +kernel
  have h2 : blen (demo84.s.tree 1).text = 2 := by decide +kernel
  rw [h1, h2] at hs
  have hn : (demo84.s.tree 1).isNode = true := by decide +kernel
  have hx : shown (demo84.s.tree 0).text (TextRange.mk 0 2 (by decide)) ⟨1, 4, by decide⟩ = some ['b'] := by
    rw [demo84_tree]; decide +kernel
  exact ⟨e, h, (C85_reads h (List.mem_singleton.mpr rfl) demo84_loc1 hn hs hx).2.1 'a',
    (C85_find_char h (List.mem_singleton.mpr rfl) demo84_loc1 hn hs hx 'b').1 [] [] rfl (by simp),
    (C85_char_at h (List.mem_singleton.mpr rfl) demo84_loc1 hn hs hx 1).2.1 (by decide)⟩

end Rowan
