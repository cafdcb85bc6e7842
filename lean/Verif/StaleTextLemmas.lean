import Verif.StaleText
import Verif.Spec.StaleText
import Verif.Props.Traverse
/-!
# Lemmas about texts with arbitrary ranges
-/
namespace Rowan

theorem withRanges_clip {A B E : Nat} (hAB : A ≤ B) : ∀ (toks : List SToken) (o o0 : Nat) (h : max A o0 ≤ min B E),
    Contig o toks → o0 ≤ o → o + blen (toks.flatMap SToken.text) ≤ E →
    SyntaxText.withRanges ⟨A, B, hAB⟩ toks = SyntaxText.withRanges ⟨max A o0, min B E, h⟩ toks
  | [], _, _, _, _, _, _ => rfl
  | t :: ts, o, o0, h, hc, ho, hE => by
    simp only [List.flatMap_cons, blen_append] at hE
    have ih := withRanges_clip hAB ts (o + blen t.text) o0 h hc.2 (by omega) (by omega)
    have hs : t.textRange.start = o := hc.1
    have he : t.textRange.stop = o + blen t.text := by
      show t.offset + t.green.textLen = _
      rw [hc.1]; rfl
    have hint : TextRange.intersect ⟨A, B, hAB⟩ t.textRange = TextRange.intersect ⟨max A o0, min B E, h⟩ t.textRange := by
      simp only [TextRange.intersect, hs, he]
      by_cases hx : max A o ≤ min B (o + blen t.text)
      · rw [dif_pos hx, dif_pos (by omega)]
        congr 2 <;> omega
      · rw [dif_neg hx, dif_neg (by omega)]
    rw [SyntaxText.withRanges, SyntaxText.withRanges, hint, ih]

theorem withRanges_apart {A B : Nat} (hAB : A ≤ B) : ∀ (toks : List SToken) (o : Nat),
    Contig o toks → (B < o ∨ o + blen (toks.flatMap SToken.text) < A) → SyntaxText.withRanges ⟨A, B, hAB⟩ toks = .ok []
  | [], _, _, _ => rfl
  | t :: ts, o, hc, h => by
    simp only [List.flatMap_cons, blen_append] at h
    have hs : t.textRange.start = o := hc.1
    have he : t.textRange.stop = o + blen t.text := by
      show t.offset + t.green.textLen = _
      rw [hc.1]; rfl
    have hint : TextRange.intersect ⟨A, B, hAB⟩ t.textRange = none := by
      rw [TextRange.intersect, dif_neg]
      simp only [hs, he]; omega
    rw [SyntaxText.withRanges, hint]
    exact withRanges_apart hAB ts _ hc.2 (by omega)

theorem SyntaxText.tokensWithRanges_any {r : Root} (hcoh : r.green.Coherent) {n : SNode} (hn : Reach r (.node n)) (R : TextRange) :
    ∃ L, SyntaxText.tokensWithRanges ⟨n, R⟩ = .ok L ∧ (chunksOf L).map List.flatten = shown r.tree.text n.textRange R := by
  obtain ⟨hv, hr⟩ := hn.valid
  obtain ⟨toks, h1, h2, h3⟩ := SNode.tokens_spec hcoh hn
  obtain ⟨s1, s2⟩ := SElem.Valid.textRange hv
  have e1 : n.textRange.start = n.offset := rfl
  have e2 : n.textRange = SElem.textRange (.node n) := rfl
  rw [← e2] at s1 s2
  rw [hr] at s1 s2
  have hsplit := Tree.text_split (SNode.Valid.at_path hv)
  rw [show n.rootOf = r from hr] at hsplit
  simp only [SElem.path_node, SElem.green_node, GElem.tree_node, Tree.len] at s1 s2
  cases R with
  | mk A B hAB =>
    simp only [tokensWithRanges, h1, Res.ok_bind, shown]
    by_cases hx : max A n.textRange.start ≤ min B n.textRange.stop
    · have hx' : max A n.offset ≤ min B (n.offset + blen (toks.flatMap SToken.text)) := by rw [h3]; omega
      rw [if_pos hx, withRanges_clip hAB toks n.offset n.offset hx' h2 (Nat.le_refl _) (Nat.le_refl _)]
      obtain ⟨L, hL, hc⟩ := withRanges_spec hx' toks n.offset h2 (by omega) (by omega)
      refine ⟨L, hL, ?_⟩
      rw [hc, h3, hsplit, bslice_append_left (by rw [blen_append]; omega), bslice_append_right (by omega) (by omega)]
      congr 1 <;> omega
    · rw [if_neg hx]
      refine ⟨[], withRanges_apart hAB toks n.offset h2 ?_, rfl⟩
      rw [h3]; omega

end Rowan
