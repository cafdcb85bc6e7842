import Verif.SyntaxText
import Verif.Props.Debug
/-!
# `SyntaxText`: proof infrastructure

Unless their comments cite lines of `/repo`, the definitions in this file are vocabulary of the proofs and model no code.
-/
namespace Rowan

/-! ### Slices of concatenations -/

theorem bslice_append_left {p q : List Char} {a b : Nat} (h : b ≤ blen p) :
    bslice (p ++ q) a b = bslice p a b := by
  apply Option.ext
  intro m
  rw [bslice_eq_some, bslice_eq_some]
  constructor
  · rintro ⟨x, y, h1, h2, h3⟩
    -- `x ++ m` is a prefix of `p`
    have : ∃ z, p = x ++ m ++ z := by
      rcases List.append_eq_append_iff.mp h1 with ⟨z, h4, h5⟩ | ⟨z, h4, h5⟩
      · -- x ++ m = p ++ z
        have hl : blen (x ++ m) = blen p + blen z := by rw [h4, blen_append]
        have : z = [] := blen_eq_zero.mp (by omega)
        subst this
        exact ⟨[], by simpa using h4.symm⟩
      · exact ⟨z, h4⟩
    obtain ⟨z, hz⟩ := this
    exact ⟨x, z, hz, h2, h3⟩
  · rintro ⟨x, y, h1, h2, h3⟩
    exact ⟨x, y ++ q, by rw [h1]; simp, h2, h3⟩

theorem bslice_append_right {p q : List Char} {a b : Nat} (h : blen p ≤ a)
    (hab : a ≤ b) : bslice (p ++ q) a b = bslice q (a - blen p) (b - blen p) := by
  apply Option.ext
  intro m
  rw [bslice_eq_some, bslice_eq_some]
  constructor
  · rintro ⟨x, y, h1, h2, h3⟩
    have : ∃ z, x = p ++ z ∧ q = z ++ m ++ y := by
      rw [List.append_assoc] at h1
      rcases List.append_eq_append_iff.mp h1 with ⟨z, h4, h5⟩ | ⟨z, h4, h5⟩
      · exact ⟨z, h4, by rw [h5]; simp⟩
      · have hl : blen p = blen x + blen z := by rw [h4, blen_append]
        have : z = [] := blen_eq_zero.mp (by omega)
        subst this
        exact ⟨[], by simpa using h4.symm, by simpa using h5.symm⟩
    obtain ⟨z, rfl, hq⟩ := this
    simp at h2 h3
    exact ⟨z, y, hq, by omega, by simp; omega⟩
  · rintro ⟨x, y, h1, h2, h3⟩
    simp at h3
    exact ⟨p ++ x, y, by rw [h1]; simp, by simp; omega, by simp; omega⟩

theorem bslice_append_mid {p q : List Char} {a b : Nat} (ha : a ≤ blen p) (hb : blen p ≤ b) :
    bslice (p ++ q) a b
      = (bslice p a (blen p)).bind fun x => (bslice q 0 (b - blen p)).map (x ++ ·) := by
  apply Option.ext
  intro m
  simp only [Option.bind_eq_some_iff, Option.map_eq_some_iff, bslice_eq_some]
  constructor
  · rintro ⟨x, y, h1, h2, h3⟩
    simp at h3
    -- `p = x ++ u`, `m = u ++ v`, `q = v ++ y`
    have : ∃ u, p = x ++ u ∧ m ++ y = u ++ q := by
      rw [List.append_assoc] at h1
      rcases List.append_eq_append_iff.mp h1 with ⟨z, h4, h5⟩ | ⟨z, h4, h5⟩
      · have hl : blen x = blen p + blen z := by rw [h4, blen_append]
        have : z = [] := blen_eq_zero.mp (by omega)
        subst this
        exact ⟨[], by simpa using h4.symm, by simpa using h5.symm⟩
      · exact ⟨z, h4, h5⟩
    obtain ⟨u, rfl, h4⟩ := this
    simp at hb ha
    have : ∃ v, m = u ++ v ∧ q = v ++ y := by
      rcases List.append_eq_append_iff.mp h4 with ⟨z, h5, h6⟩ | ⟨z, h5, h6⟩
      · have hl : blen u = blen m + blen z := by rw [h5, blen_append]
        have : z = [] := blen_eq_zero.mp (by omega)
        subst this
        exact ⟨[], by simpa using h5.symm, by simpa using h6.symm⟩
      · exact ⟨z, h5, h6⟩
    obtain ⟨v, rfl, rfl⟩ := this
    simp at h3
    exact ⟨u, ⟨x, [], by simp, h2, by simp⟩, v, ⟨[], y, by simp, rfl, by simp; omega⟩, rfl⟩
  · rintro ⟨u, ⟨x, y, h1, h2, h3⟩, v, ⟨x', y', h4, h5, h6⟩, rfl⟩
    have hx' : x' = [] := blen_eq_zero.mp h5
    subst hx'
    have hy : y = [] := by
      apply blen_eq_zero.mp
      have : blen p = blen (x ++ u ++ y) := by rw [← h1]
      simp at this h3
      omega
    subst hy
    simp at h1 h3 h4 h6
    subst h1 h4
    refine ⟨x, y', by simp, h2, ?_⟩
    simp at hb ⊢
    omega

/-- A slice of a slice. -/
theorem bslice_bslice {s x : List Char} {a b c d : Nat} (h : bslice s a b = some x) (hcd : c ≤ d)
    (hd : d ≤ b - a) : bslice s (a + c) (a + d) = bslice x c d := by
  obtain ⟨p, q, rfl, rfl, h3⟩ := bslice_eq_some.mp h
  simp at h3
  rw [bslice_append_left (by simp; omega), bslice_append_right (by omega) (by omega)]
  congr 1 <;> omega

/-! ### Consecutive tokens -/

/-- The tokens cover consecutive ranges, the first of which starts at `o`. -/
def Contig : Nat → List SToken → Prop
  | _, [] => True
  | o, t :: ts => t.offset = o ∧ Contig (o + blen t.text) ts

theorem contig_append {o : Nat} {a b : List SToken} (ha : Contig o a)
    (hb : Contig (o + blen (a.flatMap SToken.text)) b) : Contig o (a ++ b) := by
  induction a generalizing o with
  | nil => simpa [Contig] using hb
  | cons t ts ih =>
    refine ⟨ha.1, ih ha.2 ?_⟩
    simp only [List.flatMap_cons, blen_append, ← Nat.add_assoc] at hb
    exact hb

/-- The tokens of a list of events. -/
def eventToks (l : List (WalkEvent SElem)) : List SToken :=
  (l.filterMap fun
    | .enter e => some e
    | .leave _ => none).filterMap NodeOrToken.asToken

theorem eventToks_append (a b) : eventToks (a ++ b) = eventToks a ++ eventToks b := by
  simp [eventToks]

theorem evs_contig (k : Nat) : ∀ (e : SElem), sizeOf e.green = k → e.Valid →
    Contig e.offset (eventToks (evs (fun _ => true) noSkip e)) ∧
    (eventToks (evs (fun _ => true) noSkip e)).flatMap SToken.text = e.green.tree.text := by
  induction k using Nat.strongRecOn with
  | _ k ih =>
    intro e hk hv
    rw [evs_eq]
    cases e with
    | token t =>
      have : eventToks (.enter (.token t) :: ((if noSkip (SElem.path (.token t)) then [] else
          (SElem.kidsSel (fun _ => true) (.token t)).flatMap (evs (fun _ => true) noSkip))
            ++ [.leave (.token t)])) = [t] := by
        simp [eventToks, SElem.kidsSel, noSkip]
      rw [this]
      exact ⟨⟨rfl, trivial⟩, by simp [SToken.text, GToken.tree]⟩
    | node n =>
      have hfil : SElem.kidsSel (fun _ => true) (.node n) = n.kids := by
        simp [SElem.kidsSel]
      have hsimp : eventToks (.enter (.node n) :: ((if noSkip (SElem.path (.node n)) then [] else
          (SElem.kidsSel (fun _ => true) (.node n)).flatMap (evs (fun _ => true) noSkip))
            ++ [.leave (.node n)]))
          = eventToks (n.kids.flatMap (evs (fun _ => true) noSkip)) := by
        rw [hfil, ← List.singleton_append, eventToks_append, eventToks_append]
        simp [eventToks, noSkip]
      rw [hsimp]
      have htrees : (n.kids.map fun k => k.green.tree) = n.green.children.map GElem.tree := by
        rw [← SNode.kids_green, List.map_map]; rfl
      have key : ∀ m j, n.kids.length - j = m →
          Contig (n.offset + blen (Tree.texts ((n.kids.map fun k => k.green.tree).take j)))
            (eventToks ((n.kids.drop j).flatMap (evs (fun _ => true) noSkip))) ∧
          (eventToks ((n.kids.drop j).flatMap (evs (fun _ => true) noSkip))).flatMap SToken.text
            = Tree.texts ((n.kids.drop j).map fun k => k.green.tree) := by
        intro m
        induction m with
        | zero =>
          intro j hj
          have : n.kids.drop j = [] := List.drop_eq_nil_of_le (by omega)
          simp [this, eventToks, Contig]
        | succ m ihm =>
          intro j hj
          have hlt : j < n.kids.length := by omega
          obtain ⟨y, hy⟩ : ∃ y, n.kids[j]? = some y := ⟨_, List.getElem?_eq_getElem hlt⟩
          obtain ⟨l1, l2⟩ := ihm (j + 1) (by omega)
          obtain ⟨yv, yr, yp⟩ := SNode.kids_valid hv (List.mem_of_getElem? hy)
          have ysz : sizeOf y.green < k := by
            rw [← hk]
            apply SElem.kidsSel_lt (sel := fun _ => true)
            rw [hfil]; exact List.mem_of_getElem? hy
          obtain ⟨c1, c2⟩ := ih _ ysz y rfl yv
          have hoff : y.offset
              = n.offset + blen (Tree.texts ((n.kids.map fun k => k.green.tree).take j)) := by
            rw [yv.offset_eq, SNode.Valid.offset_eq hv, yr]
            have hpath : y.path = n.path ++ [j] := by
              rw [SNode.kids_getElem?] at hy
              cases hc : n.green.slice[j]? with
              | none => simp [hc] at hy
              | some c => simp [hc] at hy; subst hy; simp
            rw [hpath, Tree.before_snoc (SNode.Valid.at_path hv), blen_append, htrees]
            simp
          rw [drop_cons_of_getElem? hy, List.flatMap_cons, eventToks_append]
          constructor
          · rw [← hoff]
            refine contig_append c1 ?_
            rw [c2, hoff]
            have : (n.kids.map fun k => k.green.tree).take (j + 1)
                = (n.kids.map fun k => k.green.tree).take j ++ [y.green.tree] := by
              rw [List.take_add_one, List.getElem?_map, hy]; rfl
            rw [this, Tree.texts_append, blen_append, ← Nat.add_assoc] at l1
            simpa using l1
          · rw [List.flatMap_append, c2, l2]; simp
      have := key _ 0 rfl
      simp only [List.drop_zero, List.take_zero, Tree.texts_nil, blen_nil, Nat.add_zero, htrees] at this
      refine ⟨this.1, ?_⟩
      rw [this.2]
      simp only [SElem.green_node, GElem.tree_node, GNode.tree_eq, Tree.text_node]

theorem SNode.tokens_spec {r : Root} (hcoh : r.green.Coherent) {n : SNode}
    (h : Reach r (.node n)) : ∃ toks, n.tokens = .ok toks ∧ Contig n.offset toks ∧
      toks.flatMap SToken.text = n.green.tree.text := by
  obtain ⟨hv, hr⟩ := h.valid
  obtain ⟨h1, h2⟩ := evs_contig _ (.node n) rfl hv
  exact ⟨_, by rw [SNode.tokens, SNode.walkEvents_eq hcoh h]; rfl, h1, h2⟩

/-! ### Chunks -/

/-- The texts of the slices. -/
def chunksOf : List (SToken × TextRange) → Option (List (List Char))
  | [] => some []
  | (t, r) :: rest =>
    (bslice t.text r.start r.stop).bind fun c => (chunksOf rest).map (c :: ·)

theorem withRanges_before {A B : Nat} (hAB : A ≤ B) : ∀ (toks : List SToken) (o : Nat),
    Contig o toks → B < o → SyntaxText.withRanges ⟨A, B, hAB⟩ toks = .ok []
  | [], _, _, _ => rfl
  | t :: ts, o, h, hB => by
    have : TextRange.intersect ⟨A, B, hAB⟩ t.textRange = none := by
      have h1 : t.textRange.start = o := h.1
      rw [TextRange.intersect, dif_neg]
      simp only [h1]; omega
    rw [SyntaxText.withRanges, this]
    exact withRanges_before hAB ts _ h.2 (by omega)

theorem withRanges_spec {A B : Nat} (hAB : A ≤ B) : ∀ (toks : List SToken) (o : Nat),
    Contig o toks → o ≤ B → B ≤ o + blen (toks.flatMap SToken.text) →
    ∃ L, SyntaxText.withRanges ⟨A, B, hAB⟩ toks = .ok L ∧
      (chunksOf L).map List.flatten
        = bslice (toks.flatMap SToken.text) (max A o - o) (B - o)
  | [], o, _, ho, hB => by
    refine ⟨[], rfl, ?_⟩
    simp at hB
    have h1 : max A o - o = 0 := by omega
    have h2 : B - o = 0 := by omega
    rw [h1, h2]; simp [chunksOf, bslice, bsplit]
  | t :: ts, o, h, ho, hB => by
    have hs : t.textRange.start = o := h.1
    have he : t.textRange.stop = o + blen t.text := by
      show t.offset + t.green.textLen = _
      rw [h.1]; rfl
    simp only [List.flatMap_cons, blen_append] at hB
    by_cases hA : A ≤ o + blen t.text
    · have hint : TextRange.intersect ⟨A, B, hAB⟩ t.textRange
          = some ⟨max A o, min B (o + blen t.text), by omega⟩ := by
        rw [TextRange.intersect, dif_pos (by simp only [hs, he]; omega)]
        simp only [hs, he]
      have hsub : TextRange.sub? ⟨max A o, min B (o + blen t.text), by omega⟩ t.textRange.start
          = some ⟨max A o - o, min B (o + blen t.text) - o, by omega⟩ := by
        rw [TextRange.sub?, if_pos (by simp only [hs]; omega)]
        simp only [hs]
      by_cases hlt : B < o + blen t.text
      · refine ⟨[(t, ⟨max A o - o, min B (o + blen t.text) - o, by omega⟩)], ?_, ?_⟩
        · rw [SyntaxText.withRanges, hint]
          simp only [hsub, Res.ofOption_some, Res.ok_bind]
          rw [withRanges_before hAB ts _ h.2 hlt]; rfl
        · rw [List.flatMap_cons, bslice_append_left (by omega)]
          have hmin : min B (o + blen t.text) = B := by omega
          simp only [chunksOf, hmin]
          cases bslice t.text (max A o - o) (B - o) <;> simp
      · obtain ⟨L, hL, hc⟩ := withRanges_spec hAB ts _ h.2 (by omega) (by omega)
        refine ⟨(t, ⟨max A o - o, min B (o + blen t.text) - o, by omega⟩) :: L, ?_, ?_⟩
        · rw [SyntaxText.withRanges, hint]
          simp only [hsub, Res.ofOption_some, Res.ok_bind, hL]
        · rw [List.flatMap_cons, bslice_append_mid (by omega) (by omega)]
          have hmin : min B (o + blen t.text) - o = blen t.text := by omega
          have h1 : max A (o + blen t.text) - (o + blen t.text) = 0 := by omega
          have h2 : B - o - blen t.text = B - (o + blen t.text) := by omega
          rw [h1] at hc
          simp only [chunksOf, hmin, h2, ← hc]
          cases bslice t.text (max A o - o) (blen t.text) with
          | none => rfl
          | some x => simp [Function.comp_def]
    · obtain ⟨L, hL, hc⟩ := withRanges_spec hAB ts _ h.2 (by omega) (by omega)
      have hint : TextRange.intersect ⟨A, B, hAB⟩ t.textRange = none := by
        rw [TextRange.intersect, dif_neg]
        simp only [hs, he]; omega
      refine ⟨L, by rw [SyntaxText.withRanges, hint]; exact hL, ?_⟩
      rw [hc, List.flatMap_cons, bslice_append_right (by omega) (by omega)]
      congr 1 <;> omega

end Rowan
