import Verif.Text32Lemmas
import Verif.Examples
/-!
# C56: 32-bit offsets

In a tree whose whole text is shorter than 2^32 bytes, everything the library computes with offsets in
32-bit arithmetic is what the other files compute with unbounded numbers: for every 32-bit argument,
valid or not, with overflow checks (`ck = true`) or without.  So C11, C17–C19, C26–C29 hold of 32-bit
offsets.  (What those functions return is stated there.)
-/
namespace Rowan

theorem SNode.offset32_exact (ck : Bool) {r : Root} (hlt : r.tree.len < 2 ^ 32) {n : SNode}
    (h : SElem.Valid (.node n) ∧ SElem.rootOf (.node n) = r) :
    ∃ c, n.offset32 ck = some c ∧ c.toNat = n.offset := by
  have := Tree.before_add_len_le (SElem.Valid.at_path h.1)
  rw [h.2] at this
  exact SElem.offset32_exact ck (e := .node n) h.1 (by rw [h.2]; omega)

/-- **C56.** The range of every element is exact. -/
theorem C56_ranges (ck : Bool) {r : Root} (hlt : r.tree.len < 2 ^ 32) {e : SElem} (h : Reach r e) :
    ∃ R, e.textRange32 ck = some R ∧ R.toNat = e.textRange :=
  SElem.textRange32_exact ck h.valid.1 (by rw [h.valid.2]; exact hlt)

theorem GNode.pre_le_len (n : GNode) (i : Nat) : Tree.pre n.tree.children i ≤ n.tree.len := by
  have := Tree.pre_mono n.tree.children (Nat.le_max_left i n.tree.children.length)
  rw [Tree.pre_all (Nat.le_max_right _ _)] at this
  have e : n.tree.len = blen (Tree.texts n.tree.children) := by
    rw [GNode.tree_eq]; rfl
  omega

theorem childAtRange32_eq (ck : Bool) (bs : BinarySearch) {n : GNode} (hw : n.WF)
    (hlt : n.tree.len < 2 ^ 32) (R : TextRange32) :
    n.childAtRange32 ck bs R =
      .ok ((n.childAtRange bs R.toNat).map fun x => (x.1, u32 x.2.1, x.2.2)) := by
  obtain ⟨rs, h1, h2⟩ := GNode.ranges32 ck hw hlt
  have hrel : ∀ i : Nat, (rs[i]?).map TextRange32.toNat = (n.slice[i]?).map GChild.relRange := by
    intro i
    rw [← List.getElem?_map, h2, List.getElem?_map]
  have hcmp : (fun i : Nat => match rs[i]? with
      | some r => TextRange32.ordering r R
      | none => .eq) = fun i : Nat => match n.slice[i]? with
      | some c => TextRange.ordering c.relRange R.toNat
      | none => .eq := by
    funext i
    have := hrel i
    cases hr : rs[i]? with
    | none =>
      rw [hr] at this
      have := Option.map_eq_none_iff.mp this.symm
      simp only [this]
    | some x =>
      simp only [hr, Option.map_some] at this
      obtain ⟨c, hc, e⟩ := Option.map_eq_some_iff.mp this.symm
      simp only [hc, TextRange32.ordering_eq, e]
  unfold GNode.childAtRange32 GNode.childAtRange
  simp only [h1, Res.ofOption_some, Res.ok_bind]
  have key : ∀ idx : Nat, (match n.slice[idx]?, rs[idx]? with
      | some child, some r => Res.ok
        (if r.containsRange R then some (idx, u32 child.relOffset, child.asRef) else none)
      | _, _ => .ok none) =
      .ok ((((n.slice[idx]?).filter fun c => c.relRange.containsRange R.toNat).bind
        fun c => some (idx, c.relOffset, c.asRef)).map fun x => (x.1, u32 x.2.1, x.2.2)) := by
    intro idx
    have := hrel idx
    cases hc : n.slice[idx]? with
    | none => simp
    | some c =>
      rw [hc] at this
      obtain ⟨x, hx, e⟩ := Option.map_eq_some_iff.mp this
      simp only [hx, TextRange32.containsRange_eq, e, Option.filter]
      by_cases hb : c.relRange.containsRange R.toNat = true <;> simp [hb]
  have hb := congrArg (bs n.slice.length) hcmp
  refine (key _).trans ?_
  exact congrArg (fun b => Res.ok (((n.slice[(match b with
    | .ok i => i
    | .err i => i - 1 : Nat)]?.filter fun c => c.relRange.containsRange R.toNat).bind
        fun c => some ((match b with
          | .ok i => i
          | .err i => i - 1 : Nat), c.relOffset, c.asRef)).map fun x => (x.1, u32 x.2.1, x.2.2))) hb

theorem childOrTokenAtRange32_eq (ck : Bool) {r : Root} (hlt : r.tree.len < 2 ^ 32)
    (bs : BinarySearch) {n : SNode} (h : SElem.Valid (.node n) ∧ SElem.rootOf (.node n) = r)
    (R : TextRange32) : n.childOrTokenAtRange32 ck bs R = n.childOrTokenAtRange bs R.toNat := by
  obtain ⟨c, h1, h2⟩ := SNode.offset32_exact ck hlt h
  have hw : n.green.WF := SNode.Valid.green_wf h.1
  have hb := Tree.before_add_len_le (SElem.Valid.at_path h.1)
  rw [h.2] at hb
  have hb : n.offset + n.green.tree.len ≤ r.tree.len := by
    have e := SElem.Valid.offset_eq h.1
    rw [h.2] at e
    simp only [SElem.offset_node] at e
    rw [e]; exact hb
  simp only [SNode.childOrTokenAtRange32, SNode.childOrTokenAtRange, h1, Res.ofOption_some,
    Res.ok_bind, ← h2]
  rw [← TextRange32.sub?_eq]
  cases R.sub? c with
  | none => simp
  | some rel =>
    simp only [Res.ofOption_some, Res.ok_bind, Option.map_some,
      childAtRange32_eq ck bs hw (by omega)]
    cases hx : n.green.childAtRange bs rel.toNat with
    | none => simp
    | some x =>
      obtain ⟨i, o, g⟩ := x
      have ho : o ≤ n.green.tree.len := by
        unfold GNode.childAtRange at hx
        simp only [Option.bind_eq_bind, Option.bind_eq_some_iff, Option.some.injEq, Prod.mk.injEq] at hx
        obtain ⟨ch, hch, rfl, rfl, rfl⟩ := hx
        have hch := Option.eq_some_of_filter_eq_some hch
        rw [GNode.relOffset_eq hw hch]
        exact GNode.pre_le_len _ _
      have e1 : (u32 o).toNat = o := u32_toNat (by omega)
      obtain ⟨d, h5, h6⟩ := add32_exact ck c (u32 o) (by rw [e1]; omega)
      simp [h5, h6, e1, h2]

theorem childOrTokenAtRange_valid {r : Root} {bs : BinarySearch} {n : SNode}
    (h : SElem.Valid (.node n) ∧ SElem.rootOf (.node n) = r) {R : TextRange} {e : SElem}
    (he : n.childOrTokenAtRange bs R = .ok (some e)) : e.Valid ∧ e.rootOf = r := by
  unfold SNode.childOrTokenAtRange at he
  rw [Res.bind_eq_ok] at he
  obtain ⟨rel, -, he⟩ := he
  simp only [Res.ok.injEq, Option.map_eq_some_iff, Prod.exists] at he
  obtain ⟨i, o, g, hx, rfl⟩ := he
  unfold GNode.childAtRange at hx
  simp only [Option.bind_eq_bind, Option.bind_eq_some_iff, Option.some.injEq, Prod.mk.injEq] at hx
  obtain ⟨ch, hch, rfl, rfl, rfl⟩ := hx
  have hch := Option.eq_some_of_filter_eq_some hch
  exact ⟨SNode.childH_valid h.1 hch, by rw [← h.2]; exact SNode.childH_rootOf ..⟩

theorem coverLoop32_eq (ck : Bool) {r : Root} (hlt : r.tree.len < 2 ^ 32) (bs : BinarySearch)
    (R : TextRange32) : ∀ (k : Nat) (e : SElem), e.Valid ∧ e.rootOf = r →
      coverLoop32 ck bs R k e = coverLoop bs R.toNat k e
  | 0, _, _ => rfl
  | k + 1, e, h => by
    obtain ⟨x, h1, h2⟩ := SElem.textRange32_exact ck h.1 (by rw [h.2]; exact hlt)
    simp only [coverLoop32, coverLoop, h1, Res.ofOption_some, Res.ok_bind,
      TextRange32.containsRange_eq, h2]
    split
    · rfl
    · cases e with
      | token t => rfl
      | node n =>
        simp only [childOrTokenAtRange32_eq ck hlt bs h]
        cases hc : n.childOrTokenAtRange bs R.toNat with
        | ok o =>
          cases o with
          | none => rfl
          | some it => exact coverLoop32_eq ck hlt bs R k it (childOrTokenAtRange_valid h hc)
        | panic => rfl
        | ub => rfl
        | diverge => rfl

theorem tokenAtOffsetLoop32_eq (ck : Bool) {r : Root} (hlt : r.tree.len < 2 ^ 32)
    (o : UInt32) : ∀ (k : Nat) (e : SElem), e.Valid ∧ e.rootOf = r →
      tokenAtOffsetLoop32 ck o k e = tokenAtOffsetLoop o.toNat k e
  | 0, _, _ => rfl
  | k + 1, e, h => by
    obtain ⟨x, h1, h2⟩ := SElem.textRange32_exact ck h.1 (by rw [h.2]; exact hlt)
    have e1 : e.textRange.start = x.start.toNat := by rw [← h2]; rfl
    have e2 : e.textRange.stop = x.stop.toNat := by rw [← h2]; rfl
    simp only [tokenAtOffsetLoop32, tokenAtOffsetLoop, h1, Res.ofOption_some, Res.ok_bind, e1, e2]
    split
    · rfl
    · cases e with
      | token t => rfl
      | node n =>
        have e3 : n.textRange.isEmpty = x.isEmpty := by
          rw [TextRange32.isEmpty_eq, h2]; rfl
        simp only [e3]
        split
        · rfl
        · have hv : ∀ c ∈ n.childrenWithTokens, c.Valid ∧ c.rootOf = r := by
            intro c hc
            rw [SNode.childrenWithTokens_eq] at hc
            obtain ⟨k1, k2, -⟩ := SNode.kids_valid h.1 hc
            exact ⟨k1, by rw [k2]; exact h.2⟩
          obtain ⟨rs, h3, h4⟩ := mapM_exact
            (fun c : SElem => (SElem.textRange32 ck c).map fun r => (c, r))
            (fun x : SElem × TextRange32 => (x.1, x.2.toNat))
            (fun c => (c, c.textRange)) n.childrenWithTokens (fun c hc => by
              obtain ⟨y, y1, y2⟩ := SElem.textRange32_exact ck (hv c hc).1
                (by rw [(hv c hc).2]; exact hlt)
              exact ⟨(c, y), by simp [y1], by simp [y2]⟩)
          have hch : (rs.filter fun x => !x.2.isEmpty &&
              (decide (x.2.start.toNat ≤ o.toNat) && decide (o.toNat ≤ x.2.stop.toNat))).map Prod.fst
              = n.childrenWithTokens.filter fun c => !c.textRange.isEmpty &&
              (decide (c.textRange.start ≤ o.toNat) && decide (o.toNat ≤ c.textRange.stop)) := by
            have hh := congrArg (fun l : List (SElem × TextRange) =>
              (l.filter fun x => !x.2.isEmpty &&
                (decide (x.2.start ≤ o.toNat) && decide (o.toNat ≤ x.2.stop))).map Prod.fst) h4
            simp only [List.filter_map, List.map_map, Function.comp_def, List.map_id'] at hh
            rw [← hh]
            simp only [TextRange32.isEmpty_eq]
            rfl
          simp only [h3, Res.ofOption_some, Res.ok_bind, hch]
          have hv' : ∀ c ∈ (n.childrenWithTokens.filter fun c => !c.textRange.isEmpty &&
              (decide (c.textRange.start ≤ o.toNat) && decide (o.toNat ≤ c.textRange.stop))),
              c.Valid ∧ c.rootOf = r := fun c hc => hv c (List.mem_filter.mp hc).1
          revert hv'
          generalize (n.childrenWithTokens.filter fun c => !c.textRange.isEmpty &&
              (decide (c.textRange.start ≤ o.toNat) && decide (o.toNat ≤ c.textRange.stop))) = cs
          intro hv'
          match cs, hv' with
          | [], _ => rfl
          | [a], hv' => exact tokenAtOffsetLoop32_eq ck hlt o k a (hv' a (by simp))
          | [a, b], hv' =>
            simp only [tokenAtOffsetLoop32_eq ck hlt o k a (hv' a (by simp)),
              tokenAtOffsetLoop32_eq ck hlt o k b (hv' b (by simp))]
            rfl
          | _ :: _ :: _ :: _, _ => rfl

/-- **C56.** `child_or_token_at_range`, `covering_element` and `token_at_offset` return the same
element, or panic alike, for all 32-bit arguments. -/
theorem C56_positions (ck : Bool) (bs : BinarySearch) {r : Root} (hlt : r.tree.len < 2 ^ 32)
    {n : SNode} (h : Reach r (.node n)) :
    (∀ R : TextRange32, n.childOrTokenAtRange32 ck bs R = n.childOrTokenAtRange bs R.toNat) ∧
    (∀ R : TextRange32, n.coveringElement32 ck bs R = n.coveringElement bs R.toNat) ∧
    ∀ o : UInt32, n.tokenAtOffset32 ck o = n.tokenAtOffset o.toNat :=
  ⟨fun R => childOrTokenAtRange32_eq ck hlt bs h.valid R,
   fun R => coverLoop32_eq ck hlt bs R _ _ h.valid,
   fun o => tokenAtOffsetLoop32_eq ck hlt o _ _ h.valid⟩

/-! ### Texts -/

/-- The total length of ranges. -/
def rangesLen : List (SToken × TextRange) → Nat
  | [] => 0
  | x :: xs => x.2.len + rangesLen xs

theorem withRanges_len {A B : Nat} (hAB : A ≤ B) : ∀ (toks : List SToken) (o : Nat)
    (L : List (SToken × TextRange)), Contig o toks →
    SyntaxText.withRanges ⟨A, B, hAB⟩ toks = .ok L → rangesLen L ≤ B - max A o
  | [], o, L, _, h => by cases h; simp [rangesLen]
  | t :: ts, o, L, hc, h => by
    have hs : t.textRange.start = o := hc.1
    have he : t.textRange.stop = o + blen t.text := by
      show t.offset + t.green.textLen = _
      rw [hc.1]; rfl
    rw [SyntaxText.withRanges] at h
    cases hi : TextRange.intersect ⟨A, B, hAB⟩ t.textRange with
    | none =>
      rw [hi] at h
      have := withRanges_len hAB ts _ L hc.2 h
      omega
    | some r =>
      rw [hi] at h
      simp only [Res.bind_eq_ok, Res.ok.injEq] at h
      obtain ⟨r', h1, rest, h2, rfl⟩ := h
      have ih := withRanges_len hAB ts _ rest hc.2 h2
      unfold TextRange.intersect at hi
      split at hi
      · rename_i hle
        cases hi
        simp only [hs, he] at hle
        unfold TextRange.sub? at h1
        split at h1
        · simp only [Res.ofOption_some, Res.ok.injEq] at h1
          subst h1
          simp only [rangesLen, TextRange.len, hs, he]
          omega
        · cases h1
      · cases hi

theorem withRanges32_eq (ck : Bool) {r : Root} (hlt : r.tree.len < 2 ^ 32) (R : TextRange32) :
    ∀ toks : List SToken, (∀ t ∈ toks, SElem.Valid (.token t) ∧ SElem.rootOf (.token t) = r) →
    (SyntaxText32.withRanges ck R toks >>= fun L => .ok (L.map fun x => (x.1, x.2.toNat))) =
      SyntaxText.withRanges R.toNat toks
  | [], _ => rfl
  | t :: ts, h => by
    obtain ⟨h1, h2⟩ := h t (by simp)
    obtain ⟨x, h3, h4⟩ := SElem.textRange32_exact ck h1 (by rw [h2]; exact hlt)
    have h4 : x.toNat = t.textRange := h4
    have ih := withRanges32_eq ck hlt R ts (fun t ht => h t (by simp [ht]))
    simp only [SyntaxText32.withRanges, SyntaxText.withRanges, h3, Res.ofOption_some, Res.ok_bind,
      ← h4, ← TextRange32.intersect_eq]
    cases R.intersect x with
    | none => exact ih
    | some i =>
      have hsub : (i.sub? x.start).map TextRange32.toNat = i.toNat.sub? x.toNat.start :=
        TextRange32.sub?_eq i x.start
      simp only [Option.map_some]
      rw [← hsub, ← ih]
      cases i.sub? x.start with
      | none => rfl
      | some j =>
        simp only [Res.ofOption_some, Res.ok_bind, Option.map_some]
        cases SyntaxText32.withRanges ck R ts <;> rfl

theorem evs_toks_valid {e : SElem} (h : e.Valid) :
    ∀ t ∈ eventToks (evs (fun _ => true) noSkip e),
      SElem.Valid (.token t) ∧ SElem.rootOf (.token t) = e.rootOf := by
  generalize hk : sizeOf e.green = k
  induction k using Nat.strongRecOn generalizing e with
  | _ k ih =>
    intro t ht
    rw [evs_eq] at ht
    cases e with
    | token t' =>
      have : eventToks (.enter (.token t') :: ((if noSkip (SElem.path (.token t')) then [] else
          (SElem.kidsSel (fun _ => true) (.token t')).flatMap (evs (fun _ => true) noSkip))
            ++ [.leave (.token t')])) = [t'] := by
        simp [eventToks, SElem.kidsSel, noSkip]
      rw [this] at ht
      simp only [List.mem_singleton] at ht
      subst ht
      exact ⟨h, rfl⟩
    | node n =>
      have hfil : SElem.kidsSel (fun _ => true) (.node n) = n.kids := by
        simp [SElem.kidsSel]
      have hsimp : eventToks (.enter (.node n) :: ((if noSkip (SElem.path (.node n)) then [] else
          (SElem.kidsSel (fun _ => true) (.node n)).flatMap (evs (fun _ => true) noSkip))
            ++ [.leave (.node n)]))
          = eventToks (n.kids.flatMap (evs (fun _ => true) noSkip)) := by
        rw [hfil, ← List.singleton_append, eventToks_append, eventToks_append]
        simp [eventToks, noSkip]
      rw [hsimp] at ht
      have hmem : ∃ y ∈ n.kids, t ∈ eventToks (evs (fun _ => true) noSkip y) := by
        simp only [eventToks, List.mem_filterMap, List.mem_flatMap] at ht ⊢
        obtain ⟨a, ⟨ev, ⟨y, hy, hev⟩, ha⟩, hat⟩ := ht
        exact ⟨y, hy, a, ⟨ev, hev, ha⟩, hat⟩
      obtain ⟨y, hy, hty⟩ := hmem
      obtain ⟨yv, yr, -⟩ := SNode.kids_valid h hy
      have ysz : sizeOf y.green < k := by
        rw [← hk]
        apply SElem.kidsSel_lt (sel := fun _ => true)
        rw [hfil]; exact hy
      obtain ⟨a, b⟩ := ih _ ysz yv rfl t hty
      exact ⟨a, by rw [b, yr]; rfl⟩

theorem tokensWithRanges32_eq (ck : Bool) {r : Root} (hlt : r.tree.len < 2 ^ 32)
    (hcoh : r.green.Coherent) {t : SyntaxText32} (h : t.toNat.Of r) :
    ∃ L, t.tokensWithRanges ck = .ok L ∧
      t.toNat.tokensWithRanges = .ok (L.map fun x => (x.1, x.2.toNat)) ∧
      rangesLen (L.map fun x => (x.1, x.2.toNat)) ≤ t.range.toNat.len := by
  obtain ⟨hn, -⟩ := h.inv
  have hn : Reach r (.node t.node) := hn
  obtain ⟨hv, hr⟩ := hn.valid
  obtain ⟨M, hM, -⟩ := SyntaxText.tokensWithRanges_ok hcoh h
  obtain ⟨h1, -⟩ := evs_contig _ (.node t.node) rfl hv
  have htok : t.node.tokens = .ok (eventToks (evs (fun _ => true) noSkip (.node t.node))) := by
    rw [SNode.tokens, SNode.walkEvents_eq hcoh hn]; rfl
  have hw := withRanges32_eq ck hlt t.range _ (fun x hx => by
    have := evs_toks_valid hv x hx
    rw [hr] at this
    exact this)
  have hM' : SyntaxText.withRanges t.range.toNat
      (eventToks (evs (fun _ => true) noSkip (.node t.node))) = .ok M := by
    have : t.toNat.tokensWithRanges = SyntaxText.withRanges t.range.toNat
      (eventToks (evs (fun _ => true) noSkip (.node t.node))) := by
      rw [SyntaxText.tokensWithRanges, show t.toNat.node = t.node from rfl, htok]
      rfl
    rw [← this, hM]
  rw [hM', Res.bind_eq_ok] at hw
  obtain ⟨L, hL, e⟩ := hw
  simp only [Res.ok.injEq] at e
  refine ⟨L, by rw [SyntaxText32.tokensWithRanges, htok]; exact hL, by rw [e, hM], ?_⟩
  rw [e]
  have := withRanges_len t.range.toNat.le _ _ M h1 hM'
  simp only [TextRange.len]
  omega

theorem Res.bind_ok_bind {α β γ : Type} (m : Res α) (f : α → β) (g : β → γ) :
    ((m >>= fun x => .ok (f x)) >>= fun y => .ok (g y)) = m >>= fun x => .ok (g (f x)) := by
  cases m <;> rfl

/-- A fold whose state is a 32-bit running length. -/
theorem foldChunks32 {E E' : Type} (g : E' → E) (f32 : UInt32 → List Char → Res (Except E' UInt32))
    (f : Nat → List Char → Res (Except E Nat))
    (hstep : ∀ acc chunk, acc.toNat + blen chunk < 2 ^ 32 →
      (∃ e, f32 acc chunk = .ok (.error e) ∧ f acc.toNat chunk = .ok (.error (g e))) ∨
      (∃ a, f32 acc chunk = .ok (.ok a) ∧ a.toNat = acc.toNat + blen chunk ∧
        f acc.toNat chunk = .ok (.ok a.toNat)) ∨
      (f32 acc chunk = .panic ∧ f acc.toNat chunk = .panic)) :
    ∀ (L : List (SToken × TextRange)) (acc : UInt32), acc.toNat + rangesLen L < 2 ^ 32 →
      (SyntaxText.foldChunks f32 acc L >>= fun x => .ok ((SyntaxText.found x).map g)) =
        (SyntaxText.foldChunks f acc.toNat L >>= fun x => .ok (SyntaxText.found x))
  | [], acc, _ => rfl
  | (t, r) :: L, acc, h => by
    simp only [SyntaxText.foldChunks, sliceText]
    cases hb : bslice t.text r.start r.stop with
    | none => rfl
    | some c =>
      have hlen : blen c = r.len := by
        obtain ⟨p, q, -, h2, h3⟩ := bslice_eq_some.mp hb
        simp at h3
        simp only [TextRange.len]
        omega
      simp only [rangesLen] at h
      simp only [Res.ofOption_some, Res.ok_bind]
      rcases hstep acc c (by omega) with ⟨e, h1, h2⟩ | ⟨a, h1, h3, h2⟩ | ⟨h1, h2⟩
      · rw [h1, h2]; rfl
      · rw [h1, h2]
        exact foldChunks32 g f32 f hstep L a (by omega)
      · rw [h1, h2]; rfl

theorem zipLoop32_eq (ck : Bool) : ∀ (k : Nat) (x : SToken × TextRange32)
    (xs : List (SToken × TextRange32)) (y : SToken × TextRange32) (ys : List (SToken × TextRange32)),
    (SyntaxText32.zipLoop ck k x xs y ys >>= fun o => .ok (o.1,
        o.2.1.map (fun x => (x.1, x.2.toNat)), o.2.2.map (fun x => (x.1, x.2.toNat)))) =
      SyntaxText.zipLoop k (x.1, x.2.toNat) (xs.map fun x => (x.1, x.2.toNat)) (y.1, y.2.toNat)
        (ys.map fun x => (x.1, x.2.toNat)) := by
  have skip : ∀ (xs : List (SToken × TextRange32)) (x : SToken × TextRange32),
      SyntaxText.skipEmpty (x.1, x.2.toNat) (xs.map fun x => (x.1, x.2.toNat)) =
        ((SyntaxText32.skipEmpty x xs).1.map (fun x => (x.1, x.2.toNat)),
          (SyntaxText32.skipEmpty x xs).2.map (fun x => (x.1, x.2.toNat))) := by
    intro xs
    induction xs with
    | nil =>
      intro x
      simp only [SyntaxText32.skipEmpty, SyntaxText.skipEmpty, List.map_nil, TextRange32.isEmpty_eq]
      split <;> rfl
    | cons z xs ih =>
      intro x
      simp only [SyntaxText32.skipEmpty, SyntaxText.skipEmpty, List.map_cons, TextRange32.isEmpty_eq]
      split
      · exact ih z
      · rfl
  intro k
  induction k with
  | zero => intros; rfl
  | succ k ih =>
    intro x xs y ys
    simp only [SyntaxText32.zipLoop, SyntaxText.zipLoop, skip]
    cases SyntaxText32.skipEmpty x xs with
    | mk ox xs =>
      cases ox with
      | none => rfl
      | some x =>
        cases SyntaxText32.skipEmpty y ys with
        | mk oy ys =>
          cases oy with
          | none => rfl
          | some y =>
            simp only [Option.map_some]
            cases sliceText x.1.text x.2.toNat with
            | panic => rfl
            | ub => rfl
            | diverge => rfl
            | ok xt =>
              cases sliceText y.1.text y.2.toNat with
              | panic => rfl
              | ub => rfl
              | diverge => rfl
              | ok yt =>
                simp only [Res.ok_bind]
                split
                · rfl
                · obtain ⟨xl, h1, h2⟩ := x.2.len_exact ck
                  obtain ⟨yl, h3, h4⟩ := y.2.len_exact ck
                  have hm := TextRange32.minSize_toNat xl yl
                  have lx := x.2.stop.toNat_lt
                  have ly := y.2.stop.toNat_lt
                  have l1 := x.2.le
                  have l2 := y.2.le
                  have d1 : x.2.toNat.len = x.2.stop.toNat - x.2.start.toNat := rfl
                  have d2 : y.2.toNat.len = y.2.stop.toNat - y.2.start.toNat := rfl
                  obtain ⟨a, h5, h6⟩ := add32_exact ck x.2.start (TextRange32.minSize xl yl) (by omega)
                  obtain ⟨b, h7, h8⟩ := add32_exact ck y.2.start (TextRange32.minSize xl yl) (by omega)
                  simp only [h1, h3, Res.ofOption_some, Res.ok_bind, h5, h7,
                    TextRange32.new_exact (show a.toNat ≤ x.2.stop.toNat by omega),
                    TextRange32.new_exact (show b.toNat ≤ y.2.stop.toNat by omega), ih]
                  have e1 : x.2.toNat.start = x.2.start.toNat := rfl
                  have e2 : x.2.toNat.stop = x.2.stop.toNat := rfl
                  have e3 : y.2.toNat.start = y.2.start.toNat := rfl
                  have e4 : y.2.toNat.stop = y.2.stop.toNat := rfl
                  have n1 : TextRange.new? (x.2.toNat.start + min x.2.toNat.len y.2.toNat.len)
                      x.2.toNat.stop = some ⟨a.toNat, x.2.stop.toNat, by omega⟩ := by
                    rw [TextRange.new?, dif_pos (by omega)]
                    congr 1
                    exact TextRange.ext (by simp only; omega) e2
                  have n2 : TextRange.new? (y.2.toNat.start + min x.2.toNat.len y.2.toNat.len)
                      y.2.toNat.stop = some ⟨b.toNat, y.2.stop.toNat, by omega⟩ := by
                    rw [TextRange.new?, dif_pos (by omega)]
                    congr 1
                    exact TextRange.ext (by simp only; omega) e4
                  rw [n1, n2]
                  rfl

/-- **C56.** Texts: `text()`, `len`, `is_empty`, `slice`, `try_fold_chunks` (hence everything built from
it: `to_string`, `contains_char`, comparison with a `str`), `find_char`, `char_at` and comparison of two
texts.  A 32-bit text is compared through its value as numbers, `toNat`. -/
theorem C56_texts (ck : Bool) {r : Root} (hlt : r.tree.len < 2 ^ 32) (hcoh : r.green.Coherent) :
    (∀ n, Reach r (.node n) → ∃ t, SyntaxText32.new ck n = .ok t ∧ t.toNat = SyntaxText.new n) ∧
    ∀ t : SyntaxText32, t.toNat.Of r →
      (∃ l, t.len ck = some l ∧ l.toNat = t.toNat.len) ∧
      t.isEmpty = t.toNat.isEmpty ∧
      (∀ arg : RangeArg32,
        (t.slice ck arg >>= fun t' => .ok t'.toNat) = t.toNat.slice arg.toNat) ∧
      (∀ (T E : Type) (init : T) (f : T → List Char → Res (Except E T)),
        t.tryFoldChunks ck init f = t.toNat.tryFoldChunks init f) ∧
      (∀ c, (t.findChar ck c >>= fun o => .ok (o.map UInt32.toNat)) = t.toNat.findChar c) ∧
      (∀ o, t.charAt ck o = t.toNat.charAt o.toNat) ∧
      ∀ (r' : Root) (t' : SyntaxText32), r'.tree.len < 2 ^ 32 → r'.green.Coherent → t'.toNat.Of r' →
        t.eq ck t' = t.toNat.eq t'.toNat := by
  refine ⟨fun n h => ?_, fun t h => ?_⟩
  · obtain ⟨R, h1, h2⟩ := C56_ranges ck hlt h
    exact ⟨⟨n, R⟩, by simp [SyntaxText32.new, h1], by
      simp only [SyntaxText32.toNat, SyntaxText.new, h2]; rfl⟩
  · obtain ⟨L, hL, hM, hlen⟩ := tokensWithRanges32_eq ck hlt hcoh h
    have hrl : t.range.toNat.len < 2 ^ 32 := by
      have := t.range.stop.toNat_lt
      have : t.range.toNat.len ≤ t.range.stop.toNat := Nat.sub_le ..
      omega
    refine ⟨t.range.len_exact ck, t.range.isEmpty_eq, fun arg => ?_, fun T E init f => ?_,
      fun c => ?_, fun o => ?_, fun r' t' hlt' hcoh' h' => ?_⟩
    · obtain ⟨l, hl, el⟩ := t.range.len_exact ck
      have ha : arg.toNat.start.getD 0 = (arg.start.getD 0).toNat := by
        cases hh : arg.start <;> simp [RangeArg32.toNat, hh]
      have hb : arg.toNat.stop.getD t.toNat.len = (arg.stop.getD l).toNat := by
        cases hh : arg.stop
        · simp [RangeArg32.toNat, hh, el]; rfl
        · simp [RangeArg32.toNat, hh]
      rw [SyntaxText.slice_eq _ _ ha hb]
      simp only [SyntaxText32.slice, SyntaxText32.len, hl, Res.ofOption_some, Res.ok_bind]
      generalize arg.start.getD 0 = a
      generalize arg.stop.getD l = b
      have er1 : t.toNat.range.start = t.range.start.toNat := rfl
      have er2 : t.toNat.range.stop = t.range.stop.toNat := rfl
      have ler := t.range.le
      have hs := t.range.stop.toNat_lt
      by_cases hab : a.toNat ≤ b.toNat
      · obtain ⟨n, h1, h2⟩ := sub32_exact ck b a hab
        simp only [if_pos hab, h1, Res.ofOption_some, Res.ok_bind]
        by_cases hin : t.range.start.toNat + b.toNat ≤ t.range.stop.toNat
        · obtain ⟨s, h3, h4⟩ := add32_exact ck t.range.start a (by omega)
          obtain ⟨e, h5, h6⟩ := add32_exact ck s n (by omega)
          simp only [h3, h5, Res.ofOption_some, Res.ok_bind]
          rw [if_pos (by omega), TextRange32.new_exact (by omega)]
          simp only [Res.ofOption_some, Res.ok_bind]
          rw [if_pos (by
            rw [TextRange32.containsRange_eq, TextRange.containsRange_iff]
            simp only [TextRange32.toNat]; omega), dif_pos ⟨hab, by omega⟩]
          simp only [Res.ok_bind, SyntaxText32.toNat, TextRange32.toNat]
          congr 2
          exact TextRange.ext h4 (by simp only; omega)
        · rw [dif_neg (by omega)]
          -- out of range: checked additions panic; wrapped ones are caught by the assertions
          cases hs' : add32 ck t.range.start a with
          | none => rfl
          | some s =>
            simp only [Res.ofOption_some, Res.ok_bind]
            have e1 : s.toNat = (t.range.start.toNat + a.toNat) % 2 ^ 32 := by
              unfold add32 at hs'
              split at hs'
              · cases hs'
              · cases hs'; exact UInt32.toNat_add ..
            cases he' : add32 ck s n with
            | none => rfl
            | some e =>
              simp only [Res.ofOption_some, Res.ok_bind]
              have e2 : e.toNat = (s.toNat + n.toNat) % 2 ^ 32 := by
                unfold add32 at he'
                split at he'
                · cases he'
                · cases he'; exact UInt32.toNat_add ..
              by_cases hse : s.toNat ≤ e.toNat
              · rw [if_pos hse, TextRange32.new_exact hse]
                simp only [Res.ofOption_some, Res.ok_bind]
                have a1 := a.toNat_lt
                have b1 := b.toNat_lt
                rw [if_neg]
                · rfl
                · rw [TextRange32.containsRange_eq, TextRange.containsRange_iff]
                  simp only [TextRange32.toNat]
                  omega
              · rw [if_neg hse]; rfl
      · rw [if_neg hab, dif_neg (by omega)]; rfl
    · rw [SyntaxText32.tryFoldChunks, hL, SyntaxText.tryFoldChunks, hM]
      rfl
    · simp only [SyntaxText32.findChar, SyntaxText.findChar, SyntaxText32.tryFoldChunks, hL,
        SyntaxText.tryForEachChunk, SyntaxText.tryFoldChunks, hM, Res.ok_bind]
      have key := foldChunks32 (E := Nat) UInt32.toNat (fun acc chunk =>
          match strFind c chunk with
          | some pos => do
            let r ← Res.ofOption (add32 ck acc (u32 pos))
            .ok (.error r)
          | none => do
            let l ← Res.ofOption (ofStr32 chunk)
            let acc ← Res.ofOption (add32 ck acc l)
            .ok (.ok acc))
        (fun acc chunk =>
          match strFind c chunk with
          | some pos => .ok (.error (acc + pos))
          | none => .ok (.ok (acc + blen chunk))) (fun acc chunk hb => by
          cases hf : strFind c chunk with
          | some pos =>
            have hp : pos ≤ blen chunk := by
              obtain ⟨p, q, h1, -, rfl⟩ := ((strFind_spec c chunk).2 pos).mp hf
              rw [h1]; simp
            obtain ⟨x, h1, h2⟩ := add32_exact ck acc (u32 pos) (by rw [u32_toNat (by omega)]; omega)
            rw [u32_toNat (by omega)] at h2
            exact .inl ⟨x, by simp [h1], by simp [h2]⟩
          | none =>
            obtain ⟨l, h1, h2⟩ := ofStr32_exact (s := chunk) (by omega)
            obtain ⟨x, h3, h4⟩ := add32_exact ck acc l (by omega)
            exact .inr (.inl ⟨x, by simp [h1, h3], by omega, by simp [h4, h2]⟩))
        (L.map fun x => (x.1, x.2.toNat)) 0 (by simp; omega)
      rw [show (0 : UInt32).toNat = 0 from rfl] at key
      exact (Res.bind_ok_bind ..).trans key
    · simp only [SyntaxText32.charAt, SyntaxText.charAt, SyntaxText32.tryFoldChunks, hL,
        SyntaxText.tryForEachChunk, SyntaxText.tryFoldChunks, hM, Res.ok_bind]
      have key := foldChunks32 (E := Char) (E' := Char) id (fun start chunk => do
          let l ← Res.ofOption (ofStr32 chunk)
          let stop ← Res.ofOption (add32 ck start l)
          if start.toNat ≤ o.toNat ∧ o.toNat < stop.toNat then
            let off ← Res.ofOption (sub32 ck o start)
            let rest ← Res.ofOption (bslice chunk off.toNat (blen chunk))
            let c ← Res.ofOption rest.head?
            .ok (.error c)
          else .ok (.ok stop))
        (fun start chunk => do
          let stop := start + blen chunk
          if start ≤ o.toNat ∧ o.toNat < stop then
            let rest ← Res.ofOption (bslice chunk (o.toNat - start) (blen chunk))
            let c ← Res.ofOption rest.head?
            .ok (.error c)
          else .ok (.ok stop)) (fun acc chunk hb => by
          obtain ⟨l, h1, h2⟩ := ofStr32_exact (s := chunk) (by omega)
          obtain ⟨x, h3, h4⟩ := add32_exact ck acc l (by omega)
          simp only [h1, h3, Res.ofOption_some, Res.ok_bind]
          have e : acc.toNat + blen chunk = x.toNat := by omega
          simp only [e]
          by_cases hc : acc.toNat ≤ o.toNat ∧ o.toNat < x.toNat
          · obtain ⟨d, h5, h6⟩ := sub32_exact ck o acc hc.1
            simp only [if_pos hc, h5, Res.ofOption_some, Res.ok_bind, h6]
            cases bslice chunk (o.toNat - acc.toNat) (blen chunk) with
            | none => exact .inr (.inr ⟨rfl, rfl⟩)
            | some rest =>
              cases rest with
              | nil => exact .inr (.inr ⟨rfl, rfl⟩)
              | cons a rest => exact .inl ⟨a, rfl, rfl⟩
          · simp only [if_neg hc]
            exact .inr (.inl ⟨x, rfl, rfl, rfl⟩))
        (L.map fun x => (x.1, x.2.toNat)) 0 (by simp; omega)
      rw [show (0 : UInt32).toNat = 0 from rfl] at key
      simp only [Option.map_id_fun, id_eq] at key
      exact key
    · obtain ⟨L', hL', hM', -⟩ := tokensWithRanges32_eq ck hlt' hcoh' h'
      obtain ⟨la, h1, h2⟩ := t.range.len_exact ck
      obtain ⟨lb, h3, h4⟩ := t'.range.len_exact ck
      simp only [SyntaxText32.eq, SyntaxText.eq, h1, h3, hL, hL', hM, hM', Res.ofOption_some,
        Res.ok_bind]
      have e1 : t.toNat.range.len = la.toNat := h2.symm
      have e2 : t'.toNat.range.len = lb.toNat := h4.symm
      simp only [e1, e2]
      by_cases hne : la = lb
      · subst hne
        simp only [ne_eq, not_true_eq_false, if_false]
        have hz : (SyntaxText32.zipTexts ck (la.toNat + 1) L L' >>= fun o => .ok (o.1,
            o.2.1.map (fun x => (x.1, x.2.toNat)), o.2.2.map (fun x => (x.1, x.2.toNat)))) =
            SyntaxText.zipTexts (la.toNat + 1) (L.map fun x => (x.1, x.2.toNat))
              (L'.map fun x => (x.1, x.2.toNat)) := by
          cases L with
          | nil => rfl
          | cons x xs =>
            cases L' with
            | nil => rfl
            | cons y ys => exact zipLoop32_eq ck ..
        rw [← hz]
        cases SyntaxText32.zipTexts ck (la.toNat + 1) L L' with
        | ok o =>
          simp [TextRange32.isEmpty_eq, Function.comp_def]
        | panic => rfl
        | ub => rfl
        | diverge => rfl
      · rw [if_pos hne, if_pos (fun h => hne (UInt32.toNat_inj.mp h))]

/-! ### Concrete cases -/

theorem synRoot_small : synRoot.tree.len < 2 ^ 32 := by decide
theorem synRootMut_small : synRootMut.tree.len < 2 ^ 32 := by decide

example (ck : Bool) := C56_ranges ck synRoot_small synTop_reach
example (ck : Bool) := C56_positions ck stdSearch synRoot_small synTop_reach

/-- The whole text of the example tree, with 32-bit offsets. -/
def synText32 : SyntaxText32 := ⟨synTop, ⟨0, 6, by decide⟩⟩
theorem synText32_of : synText32.toNat.Of synRoot := synText_of

example (ck : Bool) := (C56_texts ck synRoot_small synGreen_coherent).2 synText32 synText32_of
/-- Bytes 4..6 of the text, and a slice of it whose start and end wrap around to 3, and one
whose end alone wraps around: refused, also without overflow checks. -/
def synTail32 : SyntaxText32 := ⟨synTop, ⟨4, 6, by decide⟩⟩
example : (match synTail32.slice false ⟨some 0xFFFFFFFF, some 0xFFFFFFFF⟩ with
  | .panic => true
  | _ => false) = true := by decide +kernel
example : (match synTail32.slice false ⟨some 0, some 0xFFFFFFFE⟩ with
  | .panic => true
  | _ => false) = true := by decide +kernel
example : (match synTail32.slice true ⟨some 1, none⟩ with
  | .ok t => t.range.start == 5 && t.range.stop == 6
  | _ => false) = true := by decide +kernel

end Rowan
