import Verif.Text32
import Verif.Props.SyntaxText
/-!
# Helper lemmas for C56
-/
namespace Rowan

theorem u32_toNat {n : Nat} (h : n < 2 ^ 32) : (u32 n).toNat = n := by
  simp only [u32, UInt32.toNat_ofNat']
  exact Nat.mod_eq_of_lt h

theorem sub32_exact (ck : Bool) (a b : UInt32) (h : b.toNat ≤ a.toNat) :
    ∃ c, sub32 ck a b = some c ∧ c.toNat = a.toNat - b.toNat := by
  refine ⟨a - b, ?_, ?_⟩
  · simp [sub32]; omega
  · rw [UInt32.toNat_sub_of_le a b (UInt32.le_iff_toNat_le.mpr h)]

namespace TextRange32

theorem stop_lt (r : TextRange32) : r.stop.toNat < 2 ^ 32 := r.stop.toNat_lt

theorem new_exact {a b : UInt32} (h : a.toNat ≤ b.toNat) : new a b = some ⟨a, b, h⟩ := dif_pos h

theorem at_exact (ck : Bool) {o l : UInt32} (h : o.toNat + l.toNat < 2 ^ 32) :
    ∃ r, at_ ck o l = some r ∧ r.toNat = TextRange.at_ o.toNat l.toNat ∧ r.start = o := by
  obtain ⟨c, h1, h2⟩ := add32_exact ck o l h
  refine ⟨⟨o, c, by omega⟩, ?_, ?_, rfl⟩
  · simp [at_, h1, new, h2]
  · simp [toNat, TextRange.at_, h2]

theorem len_exact (ck : Bool) (r : TextRange32) : ∃ c, r.len ck = some c ∧ c.toNat = r.toNat.len :=
  sub32_exact ck _ _ r.le

theorem isEmpty_eq (r : TextRange32) : r.isEmpty = r.toNat.isEmpty := by
  rw [Bool.eq_iff_iff]
  simp [isEmpty, TextRange.isEmpty, toNat, ← UInt32.toNat_inj]

theorem containsRange_eq (r o : TextRange32) : r.containsRange o = r.toNat.containsRange o.toNat := rfl

theorem ordering_eq (r o : TextRange32) : r.ordering o = TextRange.ordering r.toNat o.toNat := rfl

theorem maxSize_toNat (a b : UInt32) : (maxSize a b).toNat = max a.toNat b.toNat := by
  unfold maxSize; split <;> omega

theorem minSize_toNat (a b : UInt32) : (minSize a b).toNat = min a.toNat b.toNat := by
  unfold minSize; split <;> omega

theorem intersect_eq (r o : TextRange32) :
    (r.intersect o).map toNat = r.toNat.intersect o.toNat := by
  unfold intersect TextRange.intersect
  have e1 : (maxSize r.start o.start).toNat = max r.toNat.start o.toNat.start := maxSize_toNat ..
  have e2 : (minSize r.stop o.stop).toNat = min r.toNat.stop o.toNat.stop := minSize_toNat ..
  by_cases h : max r.toNat.start o.toNat.start ≤ min r.toNat.stop o.toNat.stop
  · rw [dif_pos h, dif_neg (by omega)]
    simp only [Option.map_some, Option.some.injEq]
    exact TextRange.ext e1 e2
  · rw [dif_neg h, dif_pos (by omega)]
    rfl

theorem sub?_eq (r : TextRange32) (off : UInt32) :
    (r.sub? off).map toNat = r.toNat.sub? off.toNat := by
  have hle := r.le
  unfold sub? TextRange.sub?
  by_cases h : off.toNat ≤ r.start.toNat
  · have e1 := UInt32.toNat_sub_of_le r.start off (UInt32.le_iff_toNat_le.mpr h)
    have e2 := UInt32.toNat_sub_of_le r.stop off (UInt32.le_iff_toNat_le.mpr (Nat.le_trans h hle))
    rw [if_pos ⟨h, by omega⟩, if_pos (by exact h), new_exact (by omega)]
    simp [toNat, e1, e2]
  · rw [if_neg (by omega), if_neg (by exact h)]
    rfl

theorem toNat_inj {r o : TextRange32} (h : r.toNat = o.toNat) : r = o := by
  cases r; cases o
  simp only [toNat, TextRange.mk.injEq] at h
  simp only [TextRange32.mk.injEq]
  exact ⟨UInt32.toNat_inj.mp h.1, UInt32.toNat_inj.mp h.2⟩

end TextRange32

/-! ### Offsets -/

theorem Tree.before_add_len_le {t s : Tree} {p : List Nat} (h : t.at? p = some s) :
    blen (t.before p) + s.len ≤ t.len := by
  have := congrArg blen (Tree.text_split h)
  simp only [blen_append] at this
  simp only [Tree.len]
  omega

theorem SNode.Valid.child_offset {p : SNode} {i o : Nat} {g : GNode} (h : (SNode.child p i o g).Valid) :
    ∃ r, p.relOffsetMut i = some r ∧
      blen ((SNode.child p i o g).rootOf.tree.before (SNode.child p i o g).path) =
        blen (p.rootOf.tree.before p.path) + r := by
  obtain ⟨hp, c, hc, hg, ho⟩ := h
  refine ⟨c.relOffset, by simp [relOffsetMut, hc], ?_⟩
  simp only [rootOf_child, path_child]
  rw [Tree.before_snoc hp.at_path, blen_append, GNode.relOffset_eq hp.green_wf hc]

theorem SToken.Valid.child_offset {p : SNode} {i o : Nat} {g : GToken}
    (h : (SToken.child p i o g).Valid) :
    p.Valid ∧ ∃ r, p.relOffsetMut i = some r ∧
      blen ((SToken.child p i o g).rootOf.tree.before (SToken.child p i o g).path) =
        blen (p.rootOf.tree.before p.path) + r := by
  obtain ⟨hp, c, hc, hg, ho⟩ := h
  refine ⟨hp, c.relOffset, by simp [SNode.relOffsetMut, hc], ?_⟩
  simp only [rootOf_child, path_child]
  rw [Tree.before_snoc hp.at_path, blen_append, GNode.relOffset_eq hp.green_wf hc]

theorem SNode.offsetImm32_exact (ck : Bool) {n : SNode} (h : n.Valid)
    (hlt : blen (n.rootOf.tree.before n.path) < 2 ^ 32) :
    ∃ c, n.offsetImm32 ck = some c ∧ c.toNat = blen (n.rootOf.tree.before n.path) := by
  induction n with
  | root m i g => exact ⟨0, rfl, by simp [Tree.before]⟩
  | child p i o g ih =>
    obtain ⟨r, h1, h2⟩ := h.child_offset
    obtain ⟨c, h3, h4⟩ := ih h.1 (by omega)
    obtain ⟨d, h5, h6⟩ := add32_exact ck c (u32 r) (by rw [u32_toNat (by omega)]; omega)
    rw [u32_toNat (by omega)] at h6
    exact ⟨d, by simp [offsetImm32, h3, h1, h5], by omega⟩

theorem SNode.offsetMut32_exact (ck : Bool) {n : SNode} (h : n.Valid) (acc : UInt32)
    (hlt : acc.toNat + blen (n.rootOf.tree.before n.path) < 2 ^ 32) :
    ∃ c, n.offsetMut32 ck acc = some c ∧
      c.toNat = acc.toNat + blen (n.rootOf.tree.before n.path) := by
  induction n generalizing acc with
  | root m i g => exact ⟨acc, rfl, by simp [Tree.before]⟩
  | child p i o g ih =>
    obtain ⟨r, h1, h2⟩ := h.child_offset
    obtain ⟨d, h5, h6⟩ := add32_exact ck acc (u32 r) (by rw [u32_toNat (by omega)]; omega)
    rw [u32_toNat (by omega)] at h6
    obtain ⟨c, h3, h4⟩ := ih h.1 d (by omega)
    exact ⟨c, by simp [offsetMut32, h3, h1, h5], by omega⟩

theorem SElem.offset32_exact (ck : Bool) {e : SElem} (h : e.Valid)
    (hlt : blen (e.rootOf.tree.before e.path) < 2 ^ 32) :
    ∃ c, e.offset32 ck = some c ∧ c.toNat = e.offset := by
  rw [h.offset_eq]
  cases e with
  | node n =>
    simp only [offset32, SNode.offset32]
    split
    · simpa using SNode.offsetMut32_exact ck (n := n) h 0 (by simpa using hlt)
    · exact SNode.offsetImm32_exact ck h hlt
  | token t =>
    cases t with
    | root m i g => exact ⟨0, rfl, by simp [Tree.before, SElem.path, SToken.path]⟩
    | child p i o g =>
      obtain ⟨hp, r, h1, h2⟩ := SToken.Valid.child_offset h
      simp only [rootOf_token, path_token] at hlt ⊢
      rw [h2] at hlt ⊢
      simp only [offset32, SToken.offset32]
      split
      · obtain ⟨d, h5, h6⟩ := add32_exact ck 0 (u32 r) (by rw [u32_toNat (by omega)]; simp; omega)
        rw [u32_toNat (by omega)] at h6
        obtain ⟨c, h3, h4⟩ := SNode.offsetMut32_exact ck hp d (by simp at h6; omega)
        exact ⟨c, by simp [h1, h5, h3], by simp at h6; omega⟩
      · obtain ⟨c, h3, h4⟩ := SNode.offsetImm32_exact ck hp (by omega)
        obtain ⟨d, h5, h6⟩ := add32_exact ck c (u32 r) (by rw [u32_toNat (by omega)]; omega)
        rw [u32_toNat (by omega)] at h6
        exact ⟨d, by simp [h1, h5, h3], by omega⟩

theorem SElem.Valid.stop_le {e : SElem} (h : e.Valid) : e.textRange.stop ≤ e.rootOf.tree.len := by
  rw [h.textRange.2]
  exact Tree.before_add_len_le h.at_path

theorem SElem.textRange32_exact (ck : Bool) {e : SElem} (h : e.Valid)
    (hlt : e.rootOf.tree.len < 2 ^ 32) :
    ∃ R, e.textRange32 ck = some R ∧ R.toNat = e.textRange := by
  have h1 := Tree.before_add_len_le h.at_path
  obtain ⟨c, h2, h3⟩ := SElem.offset32_exact ck h (by omega)
  have h4 := h.textRange
  rw [SElem.textRange_eq, TextRange.at_start, TextRange.at_stop] at h4
  have e1 : (u32 e.green.textLen).toNat = e.green.textLen := u32_toNat (by omega)
  obtain ⟨R, h5, h6, -⟩ := TextRange32.at_exact ck (o := c) (l := u32 e.green.textLen)
    (by rw [e1]; omega)
  refine ⟨R, by simp [textRange32, h2, h5], ?_⟩
  rw [h6, SElem.textRange_eq, e1, h3]

/-! ### Lists of ranges -/

theorem mapM_exact {α β γ : Type} (f : α → Option β) (g : β → γ) (k : α → γ) :
    ∀ l : List α, (∀ a ∈ l, ∃ b, f a = some b ∧ g b = k a) →
      ∃ bs, l.mapM f = some bs ∧ bs.map g = l.map k
  | [], _ => ⟨[], by simp⟩
  | a :: l, h => by
    obtain ⟨b, h1, h2⟩ := h a (by simp)
    obtain ⟨bs, h3, h4⟩ := mapM_exact f g k l (fun x hx => h x (by simp [hx]))
    exact ⟨b :: bs, by simp [List.mapM_cons, h1, h3], by simp [h2, h4]⟩

theorem GNode.ranges32 (ck : Bool) {n : GNode} (h : n.WF) (hlt : n.tree.len < 2 ^ 32) :
    ∃ rs, n.slice.mapM (GChild.relRange32 ck) = some rs ∧
      rs.map TextRange32.toNat = n.slice.map GChild.relRange := by
  refine mapM_exact _ _ _ _ fun c hc => ?_
  obtain ⟨i, hi⟩ := List.mem_iff_getElem?.mp hc
  obtain ⟨h1, h2⟩ := GNode.relRange_eq h hi
  have h3 : Tree.pre n.tree.children (i + 1) ≤ n.tree.len := by
    have := Tree.pre_mono n.tree.children (Nat.le_max_left (i + 1) n.tree.children.length)
    rw [Tree.pre_all (Nat.le_max_right _ _)] at this
    have e : n.tree.len = blen (Tree.texts n.tree.children) := by
      rw [GNode.tree_eq]; rfl
    omega
  have e1 : c.relRange.start = c.relOffset := rfl
  have e2 : c.relRange.stop = c.relOffset + c.asRef.textLen := rfl
  obtain ⟨R, h5, h6, -⟩ := TextRange32.at_exact ck (o := u32 c.relOffset) (l := u32 c.asRef.textLen)
    (by rw [u32_toNat (by omega), u32_toNat (by omega)]; omega)
  refine ⟨R, h5, ?_⟩
  rw [h6, u32_toNat (by omega), u32_toNat (by omega)]
  rfl

end Rowan
