import Verif.Spec.GreenApi
import Verif.Props.ThinArc
import Verif.Props.Green
/-!
# C53 — green objects in memory; iterating over green children
-/
namespace Rowan

/-! ## Bytes and text -/

theorem strBytes_utf8 (s : List Char) : (strBytes s).toByteArray = s.utf8Encode := rfl

theorem fromUtf8_strBytes (s : List Char) : fromUtf8Unchecked (strBytes s) = .ok s := by
  simp [fromUtf8Unchecked, strBytes_utf8, List.utf8Decode?_utf8Encode]

theorem strBytes_length (s : List Char) : (strBytes s).length = blen s := by
  induction s with
  | nil => rfl
  | cons c cs ih =>
    rw [strBytes, List.flatMap_cons, List.length_append, blen_cons, ← ih, String.length_utf8EncodeChar]
    rfl

theorem strBytes_inj {a b : List Char} (h : strBytes a = strBytes b) : a = b := by
  have := fromUtf8_strBytes a
  rw [h, fromUtf8_strBytes] at this
  simpa using this.symm

theorem tokenHeadLay_valid : tokenHeadLay.Valid := ⟨⟨1, by omega, rfl⟩, rfl⟩
theorem byteLay_valid : byteLay.Valid := ⟨⟨0, by omega, rfl⟩, rfl⟩
theorem nodeHeadLay_valid : nodeHeadLay.Valid := ⟨⟨2, by omega, rfl⟩, rfl⟩
theorem childLay_valid : childLay.Valid := ⟨⟨3, by omega, rfl⟩, rfl⟩

theorem TIter.ofList_yields {β : Type} (xs : List β) : (TIter.ofList β).Yields xs xs [] := by
  induction xs with
  | nil => exact .nil _
  | cons x xs ih => exact .cons rfl ih

theorem TIter.ofList_yields_eq {β : Type} {xs ys zs : List β} (h : (TIter.ofList β).Yields xs ys zs) :
    xs = ys ++ zs := by
  generalize hit : TIter.ofList β = it at h
  induction h with
  | nil => rfl
  | @cons s _ _ _ _ h _ ih =>
    subst hit
    cases s with
    | nil => simp [TIter.ofList] at h
    | cons y ys =>
      simp only [TIter.ofList, Res.ok.injEq, Prod.mk.injEq, Option.some.injEq] at h
      obtain ⟨rfl, rfl⟩ := h
      rw [ih]; rfl

theorem tokenNew_holds {kind : SyntaxKind} {text : List Char} {m : TMem SyntaxKind UInt8}
    (h : greenTokenNew kind text = .ok m) : m.Holds tokenHeadLay byteLay kind (strBytes text) := by
  rw [greenTokenNew] at h
  obtain ⟨⟨m', s'⟩, h1, h⟩ := Res.bind_eq_ok.mp h
  simp only [Res.ok.injEq] at h
  subst h
  obtain ⟨xs, s1, hy, hl, -, hM⟩ := from_holds tokenHeadLay_valid byteLay_valid (by decide) _ _ _ h1
  have e := TIter.ofList_yields_eq hy
  have : s1 = [] := by
    have := congrArg List.length e
    simp only [TIter.ofList, List.length_append] at hl this
    exact List.eq_nil_of_length_eq_zero (by omega)
  subst this
  rw [List.append_nil] at e
  rw [e]; exact hM

theorem tokenRepr_new {kind : SyntaxKind} {text : List Char} {m : TMem SyntaxKind UInt8}
    (h : greenTokenNew kind text = .ok m) {H : THeap SyntaxKind UInt8} {p : Nat} (hp : H p = some m) :
    tokenRepr H p = .ok (kind, strBytes text) := by
  obtain ⟨h1, h2, -⟩ := (tokenNew_holds h).read tokenHeadLay_valid byteLay_valid H p hp
  rw [tokenRepr, h1, Res.ok_bind, h2]

/-- **C53.**  For every kind and every text that the allocator can hold, a new token is created, and
its kind, text and text length read back are exactly those given: the bytes stored are always valid
UTF-8, and the text length is their number. -/
theorem C53_token (kind : SyntaxKind) (text : List Char)
    (hf : (fatLay tokenHeadLay byteLay (blen text)).Fits) :
    ∃ m, greenTokenNew kind text = .ok m ∧ ∀ H p, H p = some m →
      tokenKind H p = .ok kind ∧ tokenText H p = .ok text ∧ tokenTextLen H p = .ok (blen text) := by
  have hacc : ∃ m s', fromHeaderAndIter tokenHeadLay byteLay kind (TIter.ofList UInt8) (strBytes text) =
      .ok (m, s') := by
    refine (C44_accepts tokenHeadLay_valid byteLay_valid kind _ _).mpr ⟨by decide, ?_, ?_⟩
    · rw [show (TIter.ofList UInt8).len (strBytes text) = (strBytes text).length from rfl,
        strBytes_length]
      exact hf
    · exact ⟨strBytes text, [], [], TIter.ofList_yields _, rfl, rfl, fun _ => ⟨[], rfl⟩⟩
  obtain ⟨m, s', hm⟩ := hacc
  have hnew : greenTokenNew kind text = .ok m := by rw [greenTokenNew, hm]; rfl
  refine ⟨m, hnew, fun H p hp => ?_⟩
  have hr := tokenRepr_new hnew hp
  refine ⟨?_, ?_, ?_⟩
  · rw [tokenKind, hr]; rfl
  · rw [tokenText, hr, Res.ok_bind, fromUtf8_strBytes]
  · rw [tokenTextLen, hr, Res.ok_bind, strBytes_length]

/-- **C53.**  Two tokens compare equal (bytewise, as the code does) exactly if they have the same kind
and the same text. -/
theorem C53_token_eq {k k' : SyntaxKind} {s s' : List Char} {m m' : TMem SyntaxKind UInt8}
    (h : greenTokenNew k s = .ok m) (h' : greenTokenNew k' s' = .ok m')
    {H : THeap SyntaxKind UInt8} {p p' : Nat} (hp : H p = some m) (hp' : H p' = some m') :
    ∃ b, tokenEq H p p' = .ok b ∧ (b = true ↔ k = k' ∧ s = s') := by
  rw [tokenEq, tokenRepr_new h hp, tokenRepr_new h' hp']
  refine ⟨_, rfl, ?_⟩
  simp only [Bool.and_eq_true, beq_iff_eq]
  constructor
  · rintro ⟨⟨h1, -⟩, h3⟩; exact ⟨h1, strBytes_inj h3⟩
  · rintro ⟨h1, h2⟩; subst h1; subst h2; exact ⟨⟨rfl, rfl⟩, rfl⟩

/-! ## Nodes -/

theorem lensOf_nil : lensOf [] = 0 := rfl
theorem lensOf_cons (e : GElem) (es : List GElem) : lensOf (e :: es) = e.textLen + lensOf es := by
  simp [lensOf]

theorem layout_snd (off : Nat) (els : List GElem) : (GNode.layout off els).2 = off + lensOf els := by
  induction els generalizing off with
  | nil => simp [GNode.layout, lensOf]
  | cons e es ih => rw [GNode.layout, lensOf_cons]; simp only; rw [ih]; omega

theorem greenNodeIter_next {σ : Type} (it : TIter σ GElem) (s : σ) (off : Nat)
    {x : Option GChild} {s' : σ × Nat} :
    (greenNodeIter it).next (s, off) = .ok (x, s') ↔
      ∃ y, it.next s = .ok (y, s'.1) ∧ x = y.map (GChild.ofElem off) ∧
        s'.2 = off + (y.map GElem.textLen).getD 0 := by
  simp only [greenNodeIter]
  cases hn : it.next s with
  | ok p =>
    obtain ⟨y, s1⟩ := p
    obtain ⟨s2, o2⟩ := s'
    cases y <;> simp only [Res.ok_bind, Res.ok.injEq, Prod.mk.injEq]
    · constructor
      · rintro ⟨rfl, rfl, rfl⟩; exact ⟨none, ⟨rfl, rfl⟩, rfl, rfl⟩
      · rintro ⟨y, ⟨rfl, rfl⟩, rfl, h⟩; exact ⟨rfl, rfl, h.symm⟩
    · next e =>
      constructor
      · rintro ⟨rfl, rfl, rfl⟩; exact ⟨some e, ⟨rfl, rfl⟩, rfl, rfl⟩
      · rintro ⟨y, ⟨rfl, rfl⟩, rfl, h⟩; exact ⟨rfl, rfl, h.symm⟩
  | _ => simp

theorem greenNodeIter_yields {σ : Type} {it : TIter σ GElem} {s : σ × Nat} {cs : List GChild}
    {s' : σ × Nat} (h : (greenNodeIter it).Yields s cs s') :
    ∃ els, it.Yields s.1 els s'.1 ∧ cs = (GNode.layout s.2 els).1 ∧ s'.2 = s.2 + lensOf els := by
  induction h with
  | nil s => exact ⟨[], .nil _, rfl, by simp [lensOf]⟩
  | @cons s s1 s2 x xs h1 _ ih =>
    obtain ⟨els, hy, rfl, hs⟩ := ih
    obtain ⟨y, hn, hx, ho⟩ := (greenNodeIter_next it s.1 s.2).mp h1
    cases y with
    | none => simp at hx
    | some e =>
      simp only [Option.map_some, Option.some.injEq, Option.getD_some] at hx ho
      refine ⟨e :: els, .cons hn hy, ?_, ?_⟩
      · rw [GNode.layout, hx, ho]
      · rw [hs, ho, lensOf_cons]; omega

theorem greenNodeIter_of {σ : Type} {it : TIter σ GElem} {s s' : σ} {els : List GElem}
    (h : it.Yields s els s') (off : Nat) :
    (greenNodeIter it).Yields (s, off) (GNode.layout off els).1 (s', off + lensOf els) := by
  induction h generalizing off with
  | nil s => exact .nil _
  | @cons s s1 s2 x xs h1 _ ih =>
    rw [GNode.layout, lensOf_cons, ← Nat.add_assoc]
    refine .cons (s1 := (s1, off + x.textLen)) ?_ (ih _)
    exact (greenNodeIter_next it s off).mpr ⟨some x, h1, rfl, rfl⟩

theorem greenNodeIter_none {σ : Type} {it : TIter σ GElem} {s : σ × Nat} {s' : σ × Nat} :
    (greenNodeIter it).next s = .ok (none, s') ↔ it.next s.1 = .ok (none, s'.1) ∧ s'.2 = s.2 := by
  rw [show s = (s.1, s.2) from rfl, greenNodeIter_next]
  constructor
  · rintro ⟨y, h1, h2, h3⟩
    cases y with
    | none => exact ⟨h1, h3⟩
    | some e => simp at h2
  · rintro ⟨h1, h2⟩; exact ⟨none, h1, rfl, h2⟩

/-- Replacing the header leaves everything else as it was. -/
theorem TMem.Holds.setHeader {α β : Type} {h t : Lay} (hh : h.Valid) (ht : t.Valid) {m : TMem α β}
    {a : α} {xs : List β} (hm : m.Holds h t a xs) (hH : h.size ≠ 0) (b : α) :
    m.write h t (headerOff h t) (.header b) = .ok (m.put h t (headerOff h t) (.header b)) ∧
    (m.put h t (headerOff h t) (.header b)).Holds h t b xs := by
  have F := layFacts hh ht xs.length
  have e1 := F.headerGe
  have e2 := F.lengthGe
  have e3 := F.sliceGe
  obtain ⟨k, hk, hal⟩ := F.align
  have hge := roundUp_ge (sliceOffset h t + t.size * xs.length)
    (show 0 < (fatLay h t xs.length).align by rw [hal]; exact Nat.two_pow_pos k)
  rw [← F.size] at hge
  refine ⟨?_, ?_, ?_, ?_, ?_, ?_⟩
  · simp only [TMem.write, hm.lay]
    rw [if_pos ⟨by simp only [TCell.lay]; omega, F.headerAl, F.alignH⟩]
  · apply TMem.put_other _ _ _ _ _ hm.count
    · omega
    · left; simp only [TCell.lay, Lay.usize]; omega
  · exact TMem.put_same ..
  · apply TMem.put_other _ _ _ _ _ hm.length
    · omega
    · right; simp only [TCell.lay]; omega
  · intro i x hx
    apply TMem.put_other _ _ _ _ _ (hm.item i x hx)
    · have : headerOff h t < sliceOffset h t := by omega
      omega
    · right; simp only [TCell.lay]; omega
  · exact hm.lay

/-- After the allocation was filled, the rest of `GreenNode::new` succeeds. -/
theorem greenNodeNew_eq {σ : Type} (p : Nat) (kind : SyntaxKind) (it : TIter σ GElem) (s : σ) :
    greenNodeNew p kind it s = (do
      let (m, s) ← fromHeaderAndIter nodeHeadLay childLay (kind, 0) (greenNodeIter it) (s, 0)
      .ok (m.put nodeHeadLay childLay (headerOff nodeHeadLay childLay) (.header (kind, s.2)))) := by
  rw [greenNodeNew]
  cases hn : fromHeaderAndIter nodeHeadLay childLay (kind, 0) (greenNodeIter it) (s, 0) with
  | ok r =>
    obtain ⟨m, s'⟩ := r
    obtain ⟨cs, s1, hy, hl, he, hM⟩ :=
      from_holds nodeHeadLay_valid childLay_valid (by decide) _ _ _ hn
    obtain ⟨hw, hM'⟩ := hM.setHeader nodeHeadLay_valid childLay_valid (by decide) (kind, s'.2)
    obtain ⟨r1, -⟩ := hM.read nodeHeadLay_valid childLay_valid
      (fun a => if a = p then some m else none) p (by simp)
    obtain ⟨-, -, r3, -⟩ := hM'.read nodeHeadLay_valid childLay_valid
      (fun a => if a = p then some (m.put nodeHeadLay childLay (headerOff nodeHeadLay childLay)
        (.header (kind, s'.2))) else none) p (by simp)
    simp only [Res.ok_bind]
    rw [r1, Res.ok_bind, getMutUnwrap, hM.count]
    simp only [if_true, Res.ok_bind, setTextLen, hM.header, hw]
    rw [r3, if_pos rfl]; rfl
  | _ => rfl

/-- **C53.**  `GreenNode::new` with any iterator, honest or lying about its length: it returns exactly
if the object fits the allocator's limit and the iterator yields as many elements as it reported, and
then nothing more. -/
theorem C53_node_accepts {σ : Type} (p : Nat) (kind : SyntaxKind) (it : TIter σ GElem) (s : σ) :
    (∃ m, greenNodeNew p kind it s = .ok m) ↔
      (fatLay nodeHeadLay childLay (it.len s)).Fits ∧
      ∃ els s1 s2, it.Yields s els s1 ∧ els.length = it.len s ∧ it.next s1 = .ok (none, s2) ∧
        (els ≠ [] → ∃ s3, it.next s2 = .ok (none, s3)) := by
  have key := C44_accepts nodeHeadLay_valid childLay_valid (kind, 0) (greenNodeIter it) (s, 0)
  rw [greenNodeNew_eq]
  constructor
  · rintro ⟨m, hm⟩
    obtain ⟨⟨m', s'⟩, h1, -⟩ := Res.bind_eq_ok.mp hm
    obtain ⟨-, hf, cs, s1, s2, hy, hl, hn, hn'⟩ := key.mp ⟨m', s', h1⟩
    obtain ⟨els, hye, hcs, -⟩ := greenNodeIter_yields hy
    have hlen : els.length = cs.length := by rw [hcs, GNode.layout_length]
    refine ⟨hf, els, s1.1, s2.1, hye, by rw [hlen]; exact hl, (greenNodeIter_none.mp hn).1, fun hne => ?_⟩
    obtain ⟨s3, h3⟩ := hn' (by
      intro h
      rw [h] at hlen
      exact hne (List.eq_nil_of_length_eq_zero hlen))
    exact ⟨s3.1, (greenNodeIter_none.mp h3).1⟩
  · rintro ⟨hf, els, s1, s2, hy, hl, hn, hn'⟩
    have : ∃ m s', fromHeaderAndIter nodeHeadLay childLay (kind, 0) (greenNodeIter it) (s, 0) =
        .ok (m, s') := by
      refine key.mpr ⟨by decide, hf, _, _, (s2, 0 + lensOf els), greenNodeIter_of hy 0, ?_,
        greenNodeIter_none.mpr ⟨hn, rfl⟩, fun hne => ?_⟩
      · rw [GNode.layout_length]; exact hl
      · obtain ⟨s3, h3⟩ := hn' (by
          rintro rfl; exact hne rfl)
        exact ⟨(s3, 0 + lensOf els), greenNodeIter_none.mpr ⟨h3, rfl⟩⟩
    obtain ⟨m, s', h⟩ := this
    rw [h]
    exact ⟨_, rfl⟩

/-- **C53.**  What `GreenNode::new` leaves in memory, for any iterator: the kind given, the sum of the
text lengths of the elements yielded, and those elements in order, each with the sum of the text
lengths before it as its offset; the reference count is 1.  That is the node the tree-level model
constructs. -/
theorem C53_node {σ : Type} (p : Nat) (kind : SyntaxKind) (it : TIter σ GElem) (s : σ)
    {m : TMem (SyntaxKind × Nat) GChild} (hm : greenNodeNew p kind it s = .ok m)
    (H : THeap (SyntaxKind × Nat) GChild) (hp : H p = some m) :
    ∃ els s1 cs, it.Yields s els s1 ∧ els.length = it.len s ∧
      nodeRepr H p = .ok ((kind, lensOf els), cs) ∧
      cs.map GChild.asRef = els ∧
      (∀ (i : Nat) c, cs[i]? = some c → c.relOffset = lensOf (els.take i)) ∧
      m.cells 0 = some (.count 1) ∧
      GNode.mk p kind (lensOf els) cs = GNode.new p kind els := by
  rw [greenNodeNew_eq] at hm
  obtain ⟨⟨m', s'⟩, h1, hm⟩ := Res.bind_eq_ok.mp hm
  obtain ⟨cs, s1, hy, hl, he, hM⟩ :=
    from_holds nodeHeadLay_valid childLay_valid (by decide) _ _ _ h1
  obtain ⟨hw, hM'⟩ := hM.setHeader nodeHeadLay_valid childLay_valid (by decide) (kind, s'.2)
  obtain ⟨els, hye, hcs, hs1⟩ := greenNodeIter_yields hy
  have hs' : s'.2 = lensOf els := by
    obtain ⟨s2, hn, hn2⟩ := he
    obtain ⟨-, h2⟩ := greenNodeIter_none.mp hn
    split at hn2
    · subst hn2; rw [h2, hs1, Nat.zero_add]
    · rw [(greenNodeIter_none.mp hn2).2, h2, hs1, Nat.zero_add]
  simp only [Res.ok.injEq] at hm
  subst hm
  obtain ⟨r1, r2, -⟩ := hM'.read nodeHeadLay_valid childLay_valid H p hp
  simp only at hcs
  refine ⟨els, s1.1, cs, hye, ?_, ?_, ?_, ?_, hM'.count, ?_⟩
  · rw [← GNode.layout_length 0, ← hcs]; exact hl
  · rw [nodeRepr, r1, Res.ok_bind, r2, hs']
  · rw [hcs, GNode.layout_fst_asRef]
  · intro i c hc
    rw [hcs] at hc
    have : ∀ (off : Nat) (els : List GElem) (i : Nat) (c : GChild),
        (GNode.layout off els).1[i]? = some c → c.relOffset = off + lensOf (els.take i) := by
      intro off els
      induction els generalizing off with
      | nil => intro i c h; simp [GNode.layout] at h
      | cons e es ih =>
        intro i c h
        cases i with
        | zero =>
          simp only [GNode.layout, List.getElem?_cons_zero, Option.some.injEq] at h
          subst h; simp [lensOf]
        | succ i =>
          simp only [GNode.layout, List.getElem?_cons_succ] at h
          rw [ih _ _ _ h, List.take_succ_cons, lensOf_cons]; omega
    rw [this 0 els i c hc, Nat.zero_add]
  · rw [GNode.new, layout_snd, Nat.zero_add, hcs]

/-- **C53.**  No iterator makes `GreenNode::new` touch memory outside its allocation. -/
theorem C53_node_safe {σ : Type} (p : Nat) (kind : SyntaxKind) (it : TIter σ GElem)
    (hit : ∀ s, it.next s ≠ .ub) (s : σ) : greenNodeNew p kind it s ≠ .ub := by
  have hsafe := C44_safe nodeHeadLay_valid childLay_valid (kind, 0) (greenNodeIter it) (by
    intro s h
    simp only [greenNodeIter] at h
    have := hit s.1
    cases hn : it.next s.1 with
    | ok r =>
      rw [hn] at h
      obtain ⟨x, s1⟩ := r
      cases x <;> simp at h
    | ub => exact this hn
    | _ => rw [hn] at h; simp at h) (s, 0)
  rw [greenNodeNew_eq]
  intro h
  cases hn : fromHeaderAndIter nodeHeadLay childLay (kind, 0) (greenNodeIter it) (s, 0) with
  | ok r => rw [hn] at h; simp at h
  | ub => exact hsafe hn
  | _ => rw [hn] at h; simp at h

/-! ## The iterator over children -/

/-- The children still to come. -/
def SliceIter.rest {α : Type} (s : SliceIter α) : List α := (s.items.take s.hi).drop s.lo

/-- The iterator stands between two positions of its slice and the items between them are `xs`. -/
structure SliceIter.Shows {α : Type} (s : SliceIter α) (xs : List α) : Prop where
  le : s.lo ≤ s.hi
  hi : s.hi ≤ s.items.length
  rest : s.rest = xs

theorem SliceIter.Shows.length {α : Type} {s : SliceIter α} {xs : List α} (h : s.Shows xs) :
    s.len = xs.length := by
  rw [← h.rest, SliceIter.rest, SliceIter.len, List.length_drop, List.length_take,
    Nat.min_eq_left h.hi]

theorem SliceIter.Shows.get {α : Type} {s : SliceIter α} {xs : List α} (h : s.Shows xs) {i : Nat}
    (hi : s.lo + i < s.hi) : s.items[s.lo + i]? = xs[i]? := by
  rw [← h.rest, SliceIter.rest, List.getElem?_drop, List.getElem?_take, if_pos hi]

theorem takeNth_eq {α : Type} (xs : List α) (n : Nat) : takeNth xs n = (xs[n]?, xs.drop (n + 1)) := by
  induction n generalizing xs with
  | zero => simp [takeNth, List.head?_eq_getElem?]
  | succ n ih => rw [takeNth, ih]; simp [List.getElem?_tail]

theorem SliceIter.shows_nth {α : Type} {s : SliceIter α} {xs : List α} (h : s.Shows xs) (n : Nat) :
    (s.nth n).1 = (takeNth xs n).1 ∧ (s.nth n).2.Shows (takeNth xs n).2 := by
  have hlen := h.length
  have hle := h.le
  have hhi := h.hi
  rw [takeNth_eq, SliceIter.nth]
  split
  · next hn =>
    have : s.lo + n < s.hi := by rw [SliceIter.len] at hn; omega
    refine ⟨h.get this, ?_, hhi, ?_⟩
    · simp only; omega
    · simp only [SliceIter.rest, ← h.rest, List.drop_drop, Nat.add_assoc]
  · next hn =>
    refine ⟨?_, ?_, hhi, ?_⟩
    · rw [List.getElem?_eq_none (by omega)]
    · simp only; omega
    · simp only [SliceIter.rest]
      rw [List.drop_eq_nil_of_le (by simp; omega), List.drop_eq_nil_of_le (by omega)]

theorem SliceIter.shows_nthBack {α : Type} {s : SliceIter α} {xs : List α} (h : s.Shows xs) (n : Nat) :
    (s.nthBack n).1 = (takeNth xs.reverse n).1 ∧
    (s.nthBack n).2.Shows (takeNth xs.reverse n).2.reverse := by
  have hlen := h.length
  have hle := h.le
  have hhi := h.hi
  rw [takeNth_eq, SliceIter.nthBack]
  split
  · next hn =>
    have hl := hn
    rw [SliceIter.len] at hl
    refine ⟨?_, ?_, ?_, ?_⟩
    · rw [List.getElem?_reverse (by omega), ← hlen, ← h.get (by rw [SliceIter.len]; omega)]
      simp only [SliceIter.len]
      congr 1; omega
    · simp only; omega
    · simp only; omega
    · simp only [SliceIter.rest, ← h.rest, List.drop_reverse, List.reverse_reverse]
      have e : s.rest.length = s.hi - s.lo := by rw [h.rest, ← hlen]; rfl
      rw [SliceIter.rest] at e
      rw [e, List.take_drop, List.take_take]
      congr 2; omega
  · next hn =>
    refine ⟨?_, ?_, ?_, ?_⟩
    · rw [List.getElem?_eq_none (by simp; omega)]
    · simp only; omega
    · simp only; omega
    · simp only [SliceIter.rest]
      rw [List.drop_eq_nil_of_le (by simp; omega), List.drop_eq_nil_of_le (by simp; omega)]
      rfl

theorem SliceIter.next_eq {α : Type} (s : SliceIter α) (h : s.lo ≤ s.hi) : s.next = s.nth 0 := by
  rw [SliceIter.next, SliceIter.nth, SliceIter.len]
  by_cases hl : s.lo < s.hi
  · rw [if_pos hl, if_pos (by omega)]; rfl
  · rw [if_neg hl, if_neg (by omega)]
    have : s.lo = s.hi := by omega
    cases s; simp_all

theorem SliceIter.nextBack_eq {α : Type} (s : SliceIter α) (h : s.lo ≤ s.hi) :
    s.nextBack = s.nthBack 0 := by
  rw [SliceIter.nextBack, SliceIter.nthBack, SliceIter.len]
  by_cases hl : s.lo < s.hi
  · rw [if_pos hl, if_pos (by omega)]; rfl
  · rw [if_neg hl, if_neg (by omega)]
    have : s.lo = s.hi := by omega
    cases s; simp_all

/-- `c` has exactly the elements `xs` still to give. -/
def Children.Shows (c : Children) (xs : List GElem) : Prop :=
  ∃ cs, c.raw.Shows cs ∧ xs = cs.map GChild.asRef

theorem takeNth_map {α β : Type} (f : α → β) (xs : List α) (n : Nat) :
    takeNth (xs.map f) n = ((takeNth xs n).1.map f, (takeNth xs n).2.map f) := by
  simp [takeNth_eq]

theorem Children.shows_nth {c : Children} {xs : List GElem} (h : c.Shows xs) (n : Nat) :
    (c.nth n).1 = (takeNth xs n).1 ∧ (c.nth n).2.Shows (takeNth xs n).2 := by
  obtain ⟨cs, h, rfl⟩ := h
  obtain ⟨h1, h2⟩ := SliceIter.shows_nth h n
  rw [takeNth_map]
  exact ⟨by rw [← h1]; rfl, _, h2, rfl⟩

theorem Children.shows_nthBack {c : Children} {xs : List GElem} (h : c.Shows xs) (n : Nat) :
    (c.nthBack n).1 = (takeNth xs.reverse n).1 ∧
    (c.nthBack n).2.Shows (takeNth xs.reverse n).2.reverse := by
  obtain ⟨cs, h, rfl⟩ := h
  obtain ⟨h1, h2⟩ := SliceIter.shows_nthBack h n
  rw [← List.map_reverse, takeNth_map, ← List.map_reverse]
  exact ⟨by rw [← h1]; rfl, _, h2, rfl⟩

theorem Children.shows_next {c : Children} {xs : List GElem} (h : c.Shows xs) :
    c.next.1 = xs.head? ∧ c.next.2.Shows xs.tail := by
  have e : c.next = c.nth 0 := by
    obtain ⟨cs, h, -⟩ := h
    rw [Children.next, Children.nth, SliceIter.next_eq _ h.le]
  rw [e]; exact Children.shows_nth h 0

theorem Children.shows_nextBack {c : Children} {xs : List GElem} (h : c.Shows xs) :
    c.nextBack.1 = xs.getLast? ∧ c.nextBack.2.Shows xs.dropLast := by
  have e : c.nextBack = c.nthBack 0 := by
    obtain ⟨cs, h, -⟩ := h
    rw [Children.nextBack, Children.nthBack, SliceIter.nextBack_eq _ h.le]
  have := Children.shows_nthBack h 0
  rw [takeNth] at this
  simp only [List.head?_reverse, List.tail_reverse, List.reverse_reverse] at this
  rw [e]; exact this

theorem Children.shows_len {c : Children} {xs : List GElem} (h : c.Shows xs) : c.len = xs.length := by
  obtain ⟨cs, h, rfl⟩ := h
  rw [Children.len, h.length, List.length_map]

theorem Children.shows_call {c : Children} {xs : List GElem} (h : c.Shows xs) (op : IterOp) :
    (c.call op).1 = (specCall xs op).1 ∧ (c.call op).2.Shows (specCall xs op).2 := by
  have hl := Children.shows_len h
  cases op with
  | next =>
    obtain ⟨h1, h2⟩ := Children.shows_next h
    exact ⟨by simp only [Children.call, specCall, h1], h2⟩
  | nextBack =>
    obtain ⟨h1, h2⟩ := Children.shows_nextBack h
    exact ⟨by simp only [Children.call, specCall, h1], h2⟩
  | nth n =>
    obtain ⟨h1, h2⟩ := Children.shows_nth h n
    exact ⟨by simp only [Children.call, specCall, h1], h2⟩
  | nthBack n =>
    obtain ⟨h1, h2⟩ := Children.shows_nthBack h n
    exact ⟨by simp only [Children.call, specCall, h1], h2⟩
  | len => exact ⟨by simp only [Children.call, specCall, hl], h⟩
  | sizeHint =>
    refine ⟨?_, h⟩
    rw [Children.len] at hl
    simp only [Children.call, specCall, Children.sizeHint, hl]

theorem Children.shows_calls {c : Children} {xs : List GElem} (h : c.Shows xs) (ops : List IterOp) :
    (c.calls ops).1 = (specCalls xs ops).1 ∧ (c.calls ops).2.Shows (specCalls xs ops).2 := by
  induction ops generalizing c xs with
  | nil => exact ⟨rfl, h⟩
  | cons op ops ih =>
    obtain ⟨h1, h2⟩ := Children.shows_call h op
    obtain ⟨h3, h4⟩ := ih h2
    exact ⟨by simp only [Children.calls, specCalls, h1, h3], h4⟩

theorem Children.shows_new (n : GNode) : n.childrenIter.Shows n.children :=
  ⟨n.slice, ⟨by simp [GNode.childrenIter, SliceIter.new], by simp [GNode.childrenIter, SliceIter.new],
    by simp [GNode.childrenIter, SliceIter.new, SliceIter.rest]⟩, rfl⟩

theorem Children.shows_fold {A : Type} (f : A → GElem → A) {xs : List GElem} :
    ∀ {c : Children} {k : Nat} (init : A), c.Shows xs → xs.length < k →
      Children.foldLoop f k c init = some (xs.foldl f init) := by
  induction xs with
  | nil =>
    intro c k init h hk
    obtain ⟨k, rfl⟩ : ∃ j, k = j + 1 := ⟨k - 1, by omega⟩
    obtain ⟨h1, -⟩ := Children.shows_next h
    rw [Children.foldLoop, show c.next = (c.next.1, c.next.2) from rfl, h1]; rfl
  | cons x xs ih =>
    intro c k init h hk
    obtain ⟨k, rfl⟩ : ∃ j, k = j + 1 := ⟨k - 1, by omega⟩
    obtain ⟨h1, h2⟩ := Children.shows_next h
    rw [Children.foldLoop, show c.next = (c.next.1, c.next.2) from rfl, h1]
    exact ih _ h2 (by simp at hk; omega)

theorem Children.shows_rfold {A : Type} (f : A → GElem → A) {xs : List GElem} :
    ∀ {c : Children} {k : Nat} (init : A), c.Shows xs.reverse → xs.length < k →
      Children.rfoldLoop f k c init = some (xs.foldl f init) := by
  induction xs with
  | nil =>
    intro c k init h hk
    obtain ⟨k, rfl⟩ : ∃ j, k = j + 1 := ⟨k - 1, by omega⟩
    obtain ⟨h1, -⟩ := Children.shows_nextBack h
    rw [Children.rfoldLoop, show c.nextBack = (c.nextBack.1, c.nextBack.2) from rfl, h1]; rfl
  | cons x xs ih =>
    intro c k init h hk
    obtain ⟨k, rfl⟩ : ∃ j, k = j + 1 := ⟨k - 1, by omega⟩
    obtain ⟨h1, h2⟩ := Children.shows_nextBack h
    rw [Children.rfoldLoop, show c.nextBack = (c.nextBack.1, c.nextBack.2) from rfl, h1]
    simp only [List.reverse_cons, List.getLast?_append, List.getLast?_singleton, Option.some_or]
    exact ih _ (by simpa using h2) (by simp at hk; omega)

/-- **C53.**  The iterator over the children of a green node: any sequence of calls `next`,
`next_back`, `nth`, `nth_back`, `len`, `size_hint`, in any order and going on after the end, is
answered as for the list of the children taken from both ends. -/
theorem C53_children (n : GNode) (ops : List IterOp) :
    (n.childrenIter.calls ops).1 = (specCalls n.children ops).1 :=
  (Children.shows_calls (Children.shows_new n) ops).1

/-- **C53.**  After any such sequence of calls, the consuming methods see exactly the children that
remain: `count`, `last`, `fold` from the front and `rfold` from the back (which both end). -/
theorem C53_children_consume {A : Type} (n : GNode) (ops : List IterOp) (init : A)
    (f : A → GElem → A) :
    let c := (n.childrenIter.calls ops).2
    let xs := (specCalls n.children ops).2
    c.count = xs.length ∧ c.last = xs.getLast? ∧
    c.fold init f = some (xs.foldl f init) ∧ c.rfold init f = some (xs.reverse.foldl f init) := by
  have h := (Children.shows_calls (Children.shows_new n) ops).2
  intro c xs
  refine ⟨Children.shows_len h, (Children.shows_nextBack h).1, ?_, ?_⟩
  · rw [Children.fold, Children.shows_len h]
    exact Children.shows_fold f init h (Nat.lt_succ_self _)
  · rw [Children.rfold, Children.shows_len h]
    exact Children.shows_rfold f init (by simpa using h) (by rw [List.length_reverse]; exact Nat.lt_succ_self _)

/-! ### Non-vacuity -/

example : (match greenTokenNew 5 "aß→".toList with
    | .ok m => (match tokenText (fun _ => some m) 3 with | .ok t => t | _ => [],
        [m.cells 24, m.cells 25, m.cells 29, m.cells 30])
    | _ => ([], [])) =
  ("aß→".toList, [some (.item 97), some (.item 195), some (.item 146), none]) := by
  decide +kernel
example : (fatLay tokenHeadLay byteLay (blen "aß→".toList)).Fits := by
  unfold Lay.Fits; decide +kernel
/-- Bytes that are not UTF-8. -/
example : (match fromUtf8Unchecked [195] with | .ub => true | _ => false) = true := by decide +kernel

/-- What can be seen of a node. -/
def nodeView (r : Res (TMem (SyntaxKind × Nat) GChild)) : Option (SyntaxKind × Nat × List (Nat × Nat)) :=
  match r with
  | .ok m => match nodeRepr (fun _ => some m) 7 with
    | .ok ((k, l), cs) => some (k, l, cs.map fun c => (c.relOffset, c.asRef.addr))
    | _ => none
  | _ => none

def exEls : List GElem :=
  [.token ⟨1, 5, "aß→".toList⟩, .node (GNode.new 2 6 []), .token ⟨3, 5, "b".toList⟩]

example : nodeView (greenNodeNew 7 9 (TIter.ofList GElem) exEls) =
    some (9, 7, [(0, 1), (6, 2), (6, 3)]) := by decide +kernel
example : nodeView (greenNodeNew 7 9 (TIter.lying GElem 2) exEls) = none := by decide +kernel
example : nodeView (greenNodeNew 7 9 (TIter.ofList GElem) []) = some (9, 0, []) := by decide +kernel
example : (fatLay nodeHeadLay childLay ((TIter.ofList GElem).len exEls)).Fits := by
  unfold Lay.Fits; decide +kernel

example : ((GNode.new 7 9 exEls).childrenIter.calls
    [.next, .len, .nthBack 1, .sizeHint, .next, .nextBack]).1.map (fun
      | .item x => (x.map GElem.addr, 0)
      | .len n => (none, n)
      | .hint a _ => (none, a)) =
  [(some 1, 0), (none, 2), (some 2, 0), (none, 0), (none, 0), (none, 0)] := by decide +kernel
example : (GNode.new 7 9 exEls).childrenIter.rfold [] (fun a e => a ++ [e.addr]) = some [3, 2, 1] := by
  decide +kernel

end Rowan
