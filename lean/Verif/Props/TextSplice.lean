import Verif.TextSpliceLemmas
import Verif.Props.TextEdit
/-!
# C83: replacing a child replaces its text
-/
namespace Rowan
open Cur (plus)

section
variable {s : HSt} {gs : List GElem} {hs lk rest : List Nat}

/-- In front of the `b`th place among the children, or behind it. -/
theorem Behind.of_later {P Q : List Nat} {a b n : Nat} (h : P ++ [b] <+: Q ∨ Earlier (P ++ [b]) Q) : ∃ Q', Behind P a b n Q Q' := by
  rcases h with ⟨U, rfl⟩ | ⟨C, i, j, U, V, hij, e, rfl⟩
  · exact ⟨_, by have := Behind.inside (P := P) (a := a) (b := b) (n := n) 0 U; simpa using this⟩
  · have hin : ∀ j, b < j → ∀ V, ∃ Q', Behind P a b n (P ++ j :: V) Q' := fun j hj V =>
      ⟨_, by
        have := Behind.inside (P := P) (a := a) (b := b) (n := n) (j - b) V
        rwa [show b + (j - b) = j by omega] at this⟩
    rcases List.append_eq_append_iff.mp e with ⟨D, rfl, hD⟩ | ⟨D, rfl, hD⟩
    · cases D with
      | nil =>
        simp only [List.nil_append, List.cons.injEq] at hD
        simpa using hin j (by omega) V
      | cons d D => simp at hD
    · cases D with
      | nil =>
        simp only [List.nil_append, List.cons.injEq] at hD
        simpa using hin j (by omega) V
      | cons d D =>
        simp only [List.cons_append, List.cons.injEq] at hD
        exact ⟨_, .outside ⟨C, i, j, D, V, hij, by rw [hD.1], rfl⟩⟩

/-- **C83.** `q.splice_children(a..b, ins)` with at most one child to remove and any number of detached trees to put in replaces, in the
text of the tree, the text of that child by the texts of the new ones.  Ranges of elements in front stay, of elements behind move by
the difference, `q` and the nodes above it grow by the difference, elements of what was put in start behind the ones put in before
them, elements of what was removed count from its start, and other trees are as they were. -/
theorem C83_splice {q r a b : Nat} {P ins : List Nat} {k : SyntaxKind} {cs : List Tree} (h : HReach s gs hs lk)
    (hh : hs.Perm (ins ++ rest)) (hq : q ∈ rest) (hm : s.mutable q = true) (hl : s.Loc q r P) (ht : s.tree q = .node k cs)
    (hab : a ≤ b) (hb1 : b ≤ a + 1) (hb : b ≤ cs.length)
    (hins : ∀ p ∈ ins, s.mutable p = true ∧ s.Loc p p [] ∧ p ≠ r) (hn : ins.Nodup)
    (room : s.Room (3 * (cs.length + 1) + 1 + ins.length)) :
    ∃ s' pre old new suf, Cur.splice q a b ins s = .ok () s' ∧
      old = Tree.texts ((cs.take b).drop a) ∧ new = Tree.texts (ins.map s.tree) ∧
      (s.tree r).text = pre ++ old ++ suf ∧ (s'.tree r).text = pre ++ new ++ suf ∧
      (∃ A n, s.Spans q A n ∧ blen pre = A + blen (Tree.texts (cs.take a))) ∧
      ∀ x ∈ rest, ∀ r0 Q A n, s.Loc x r0 Q → s.Spans x A n →
        (r0 ≠ r → r0 ∉ ins → s'.Spans x A n) ∧
        (∀ j, ins[j]? = some r0 → s'.Spans x (blen pre + blen (Tree.texts ((ins.take j).map s.tree)) + A) n) ∧
        (r0 = r →
          (Q <+: P → ∃ n', n' + blen old = n + blen new ∧ s'.Spans x A n') ∧
          (Earlier Q (P ++ [a]) → s'.Spans x A n) ∧
          (a < b → P ++ [a] <+: Q → ∃ A', blen pre + A' = A ∧ s'.Spans x A' n) ∧
          (P ++ [b] <+: Q ∨ Earlier (P ++ [b]) Q → ∃ A', A' + blen old = A + blen new ∧ s'.Spans x A' n)) := by
  letI : Greens := ⟨gs⟩
  obtain ⟨kids, hinv⟩ := h.ok'
  obtain ⟨v, hv⟩ := HSt.Views.exists_view hinv
  have hr : (Call.splice q a b ins).Ready s gs hs rest :=
    ⟨hh, by simpa [Call.uses] using hq, by simp [Call.nodes, ht, Tree.isNode], by simp⟩
  obtain ⟨e, hA, hV⟩ := Call.splice_agrees ⟨kids, hinv⟩ hr hv
  have hna : Cur.splice q a b ins s ≠ .abort := fun e0 => by
    refine Call.no_abort (c := .splice q a b ins) (s := s) ?_ (by simp only [Call.exec, H.bind_def, e0])
    simp only [Call.cost, ht]; exact room
  have hV := (hV.resolve_left hna).1
  rw [plus_cnt, ← List.append_assoc, ← cnt_perm (hh.append_right lk)] at hV
  have hpos : ∀ x ∈ hs, 0 < cnt (hs ++ lk) x := fun x hx => cnt_pos.mpr (List.mem_append_left _ hx)
  have hpr : ∀ x ∈ rest, 0 < cnt (rest ++ lk) x := fun x hx => cnt_pos.mpr (List.mem_append_left _ hx)
  have hrs : ∀ x ∈ rest, x ∈ hs := fun x hx => hh.mem_iff.mpr (List.mem_append_right _ hx)
  have his : ∀ x ∈ ins, x ∈ hs := fun x hx => hh.mem_iff.mpr (List.mem_append_left _ hx)
  have hmut : ∀ x ∈ hs, v.mutable x = s.mutable x := fun x hx => (hv x (hpos x hx)).2.2.symm
  have hvt : ∀ x ∈ hs, ∀ r0 Q, s.Loc x r0 Q → v.pos x = (r0, Q) ∧ v.tree r0 = s.tree r0 := fun x hx r0 Q hlx => by
    have e := hv.pos_eq (hpos x hx) hlx
    have := (hv x (hpos x hx)).2.1
    rw [e] at this
    exact ⟨e, this.symm⟩
  obtain ⟨aq, sq⟩ := h.spans hl
  rw [ht] at aq
  obtain ⟨hpq, htr⟩ := hvt q (hrs q hq) _ _ hl
  obtain ⟨w, w1, w2, w3, w4, w5, w6, w7⟩ := View.splice_roots ((hmut q (hrs q hq)).trans hm) hV hpq (by rw [htr]; exact aq) hab hb1 hb
    (fun p hp => ⟨hpos p (his p hp), (hmut p (his p hp)).trans (hins p hp).1, (hvt p (his p hp) _ _ (hins p hp).2.1).1, (hins p hp).2.2⟩) hn
  have hmap : ins.map v.tree = ins.map s.tree :=
    List.map_congr_left fun p hp => (hvt p (his p hp) _ _ (hins p hp).2.1).2
  rw [hmap, htr] at w2
  rcases hA with hA | hA
  · exact absurd hA hna
  rw [w1] at hA
  obtain ⟨s', e1, ⟨kids', hi'⟩, _, hv'⟩ := hA
  have hgo : ∀ x ∈ rest, ∀ {r1 Q1}, w.pos x = (r1, Q1) → s'.Loc x r1 Q1 ∧ s'.tree r1 = w.tree r1 := fun x hx r1 Q1 e => by
    obtain ⟨h1, h2, -⟩ := hv' x (hpr x hx)
    rw [e] at h1 h2
    exact ⟨h1, h2⟩
  have hnew : s'.tree r = w.tree r := (hgo q hq (w4 q P hpq (.inl List.prefix_rfl))).2
  -- an element that is at `Q1` of tree `r1` afterwards, where there is `d`
  have hsp : ∀ x ∈ rest, ∀ {r1 Q1 d}, w.pos x = (r1, Q1) → (w.tree r1).at? Q1 = some d →
      s'.Spans x (blen ((w.tree r1).before Q1)) (blen d.text) := fun x hx r1 Q1 d e hd => by
    obtain ⟨l2, t2⟩ := hgo x hx e
    have a2 := hi'.tree_at l2
    have s2 := Cur.textRange_ok hi' l2
    rw [t2] at a2 s2
    rw [hd] at a2
    rw [Option.some.inj a2]
    exact s2
  refine ⟨s', _, _, _, _, e1, rfl, rfl, w2.text.1, by rw [hnew]; exact w2.text.2, ⟨_, _, sq, by rw [blen_append]⟩,
    fun x hx r0 Q A n lx sx => ?_⟩
  obtain ⟨ax, sx'⟩ := h.spans lx
  obtain ⟨rfl, rfl⟩ := sx'.unique sx
  clear sx
  obtain ⟨px, tx⟩ := hvt x (hrs x hx) _ _ lx
  refine ⟨fun h1 h2 => ?_, fun j hj => ?_, fun h1 => ?_⟩
  · obtain ⟨p2, t2⟩ := w3 x (hpos x (hrs x hx)) (by rw [px]; exact h1) (by rw [px]; exact h2)
    rw [px] at p2 t2
    have t2 := t2.trans tx
    have := hsp x hx p2 (by rw [t2]; exact ax)
    rwa [t2] at this
  · have hj' : (ins.map s.tree)[j]? = some (s.tree r0) := by rw [List.getElem?_map, hj]; rfl
    obtain ⟨f1, f2⟩ := w2.fresh hj' Q
    have := hsp x hx (w7 x j r0 Q hj px) (by rw [f1]; exact ax)
    rw [f2, blen_append, blen_append, ← List.map_take] at this
    exact this
  · subst h1
    refine ⟨fun hc => ?_, fun hc => ?_, fun hlt hc => ?_, fun hc => ?_⟩
    · obtain ⟨b1, d', b2, b3⟩ := w2.around hc ax
      have := hsp x hx (w4 x Q px (.inl hc)) b2
      rw [b1] at this
      exact ⟨_, b3, this⟩
    · obtain ⟨b1, b2⟩ := w2.ahead hc
      have := hsp x hx (w4 x Q px (.inr hc)) (by rw [b2]; exact ax)
      rwa [b1] at this
    · obtain ⟨R, rfl⟩ := hc
      have px' : v.pos x = (r0, P ++ a :: R) := by rw [px]; simp
      obtain ⟨p2, t2⟩ := w6 x R hlt px'
      have hc : (s.tree r0).at? (P ++ [a]) = some (w.tree e) := by
        rw [Tree.at?_snoc, aq, Option.bind_some, Tree.children, ← t2]
      rw [Tree.at?_append, hc, Option.bind_some] at ax
      refine ⟨_, ?_, hsp x hx p2 ax⟩
      have hbef : (s.tree r0).before (P ++ [a]) = (s.tree r0).before P ++ Tree.texts (cs.take a) := by
        rw [Tree.before_at_append aq]
        have : cs[a]? = some (w.tree e) := t2.symm
        simp [Tree.before, Tree.children, this]
      rw [Tree.before_at_append hc, hbef]
      simp only [blen_append]
    · obtain ⟨Q', hQ'⟩ := Behind.of_later (a := a) (n := ins.length) hc
      obtain ⟨b1, b2⟩ := w2.moved (Q := Q) (Q' := Q') (by rw [List.length_map]; exact hQ')
      exact ⟨_, b2, hsp x hx (w5 x Q Q' px hQ') (by rw [b1]; exact ax)⟩

end

/-! ## Concrete cases -/

/-- `C83_splice` applies: `b` is replaced by `d` in `abcc`. -/
example := C83_splice (a := 1) (b := 2) demo2_reach (ins := [6]) demo2_hs (q := 0) (by decide +kernel) (by decide +kernel)
  demo2_loc0 demo2_tree (by decide) (by decide) (by decide)
  (fun p hp => by cases List.mem_singleton.mp hp; exact ⟨by decide +kernel, demo2_loc6, by decide⟩) (by decide)
  (demo2_room.mono (by decide))
example : (Cur.splice 0 1 2 [6] demo2.s).seen 0 4 = some (['a', 'd', 'c', 'c'], 2, 4) := by decide +kernel
example : (Cur.splice 0 0 1 [6] demo2.s).seen 0 4 = some (['d', 'b', 'c', 'c'], 2, 4) := by decide +kernel
example : (Cur.splice 3 0 1 [6] demo2.s).seen 0 3 = some (['a', 'b', 'd'], 2, 3) := by decide +kernel
example : (Cur.splice 0 1 2 [] demo2.s).seen 0 4 = some (['a', 'c', 'c'], 1, 3) := by decide +kernel

end Rowan
