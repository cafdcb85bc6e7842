import Verif.TextEditLemmas
import Verif.Spec.TextEdit
import Verif.Props.Detach
import Verif.Props.Splice
import Verif.Props.Handles
/-!
# C81: edits are edits of the text
-/
namespace Rowan
open Cur (plus)

section
variable {s : HSt} {gs : List GElem} {hs lk rest : List Nat}

theorem HReach.spans (h : HReach s gs hs lk) {x r : Nat} {Q : List Nat} (hl : s.Loc x r Q) :
    (s.tree r).at? Q = some (s.tree x) ∧ s.Spans x (blen ((s.tree r).before Q)) (blen (s.tree x).text) := by
  letI : Greens := ⟨gs⟩
  obtain ⟨kids, hi⟩ := h.ok'
  exact ⟨hi.tree_at hl, Cur.textRange_ok hi hl⟩

theorem HSt.Spans.unique {x a a' n n' : Nat} (h : s.Spans x a n) (h' : s.Spans x a' n') : a = a' ∧ n = n' := by
  rw [HSt.Spans, h] at h'
  have := HOut.ok.inj h'
  have := congrArg (fun o : TextRange => (o.start, o.stop)) this.1
  simp at this
  omega

theorem Earlier.asymm {Q P : List Nat} (h : Earlier Q P) (h' : Earlier P Q) : False := by
  obtain ⟨C, i, j, U, V, hij, rfl, rfl⟩ := h
  obtain ⟨C', a, b, U', V', hab, e1, e2⟩ := h'
  induction C generalizing C' with
  | nil => cases C' <;> simp at e1 e2 <;> omega
  | cons c C ih =>
    cases C' with
    | nil => simp at e1 e2; omega
    | cons c' C' => simp at e1 e2; exact ih _ e1.2 e2.2

/-- **C81, detaching** an element deletes its text from the text of the tree.  Ranges of elements in front of it stay, of elements
around it shrink, of elements behind it move by its length; ranges in it now count from its start; other trees are as they were. -/
theorem C81_detach {p r i : Nat} {P : List Nat} (h : HReach s gs hs lk) (hp : p ∈ hs) (hm : s.mutable p = true)
    (hl : s.Loc p r (P ++ [i])) :
    ∃ s' pre suf, Cur.detach p s = .ok () s' ∧ (s.tree r).text = pre ++ (s.tree p).text ++ suf ∧
      s.Spans p (blen pre) (blen (s.tree p).text) ∧ s'.Spans p 0 (blen (s.tree p).text) ∧
      ∀ x ∈ hs, ∀ r0 Q a n, s.Loc x r0 Q → s.Spans x a n →
        (r0 ≠ r → s'.Spans x a n) ∧
        (r0 = r →
          (¬ P ++ [i] <+: Q → (s'.tree r).text = pre ++ suf) ∧
          (Q <+: P → ∃ n', n' + blen (s.tree p).text = n ∧ s'.Spans x a n') ∧
          (Earlier Q (P ++ [i]) → s'.Spans x a n) ∧
          (Earlier (P ++ [i]) Q → ∃ a', a' + blen (s.tree p).text = a ∧ s'.Spans x a' n) ∧
          (P ++ [i] <+: Q → ∃ a', blen pre + a' = a ∧ s'.Spans x a' n)) := by
  obtain ⟨s', e1, hr', l1, t1, -, hx⟩ := C33_detach h hp hm hl
  obtain ⟨ap, sp⟩ := h.spans hl
  refine ⟨s', (s.tree r).before (P ++ [i]), (s.tree r).after (P ++ [i]), e1, Tree.text_split ap, sp, ?_, ?_⟩
  · have := (hr'.spans l1).2
    rw [t1] at this
    simpa [Tree.before, blen] using this
  intro x hxs r0 Q a n lx sx
  obtain ⟨ax, sx'⟩ := h.spans lx
  obtain ⟨rfl, rfl⟩ := sx'.unique sx
  clear sx
  obtain ⟨hx1, hx2⟩ := hx x hxs r0 Q lx
  refine ⟨fun hne => ?_, fun he => ?_⟩
  · obtain ⟨l2, t2⟩ := hx1 hne
    obtain ⟨a2, s2⟩ := hr'.spans l2
    rw [t2, ax] at a2
    rw [t2, ← Option.some.inj a2] at s2
    exact s2
  subst he
  -- the tree seen from the tree without the element
  have hback := Tree.insertAt_removeAt ap
  obtain ⟨k, cs, hP, hi⟩ : ∃ k cs, ((s.tree r0).removeAt P i).at? P = some (.node k cs) ∧ i ≤ cs.length := by
    have hPi := ap
    rw [Tree.at?_append] at hPi
    cases hQ : (s.tree r0).at? P with
    | none => rw [hQ] at hPi; cases hPi
    | some d =>
      rw [hQ, Option.bind_some, Tree.at?_cons] at hPi
      cases d with
      | token k w => simp [Tree.children] at hPi
      | node k cs =>
        refine ⟨k, cs.eraseIdx i, ?_, ?_⟩
        · simp only [Tree.removeAt, Tree.editKids, hQ]
          have := Tree.at?_set_self hQ (.node k (cs.eraseIdx i)) []
          rw [List.append_nil, Tree.at?_nil] at this
          exact this
        · simp only [Tree.children] at hPi
          cases hc : cs[i]? with
          | none => rw [hc] at hPi; cases hPi
          | some c =>
            have := (List.getElem?_eq_some_iff.mp hc).1
            rw [List.length_eraseIdx, if_pos this]; omega
  obtain ⟨tx1, tx2, tx3⟩ := Tree.insertAt_text (u := s.tree p) hP hi
  rw [hback] at tx2 tx3
  have hbef : (s.tree r0).before (P ++ [i]) = ((s.tree r0).removeAt P i).before P ++ Tree.texts (cs.take i) := by
    have := tx3 []
    simpa [Tree.before] using this
  have htext : ((s.tree r0).removeAt P i).text = (s.tree r0).before (P ++ [i]) ++ (s.tree r0).after (P ++ [i]) := by
    have h1 := Tree.text_split ap
    rw [tx2, ← hbef, List.append_assoc, List.append_assoc] at h1
    have h2 := List.append_cancel_left (List.append_cancel_left h1)
    rw [tx1, hbef, ← h2]
  cases hac : Tree.afterCut P i Q with
  | cut R =>
    have hQ : Q = P ++ i :: R := Tree.afterCut_cut hac
    have hpre : P ++ [i] <+: Q := ⟨R, by rw [hQ]; simp⟩
    have l2 : s'.Loc x p R := by have := hx2 rfl; rw [hac] at this; exact this
    obtain ⟨a2, s2⟩ := hr'.spans l2
    rw [t1] at a2 s2
    have e3 := Tree.before_at_append ap R
    have hQ' : Q = P ++ [i] ++ R := by rw [hQ]; simp
    have a3 : (s.tree p).at? R = some (s.tree x) := by
      rw [hQ', Tree.at?_append, ap, Option.bind_some] at ax; exact ax
    rw [a3] at a2
    rw [← Option.some.inj a2] at s2
    refine ⟨fun hn => absurd hpre hn, fun hq => ?_, fun he => absurd hpre he.apart.2, fun he => absurd hpre he.apart.1, fun _ => ?_⟩
    · obtain ⟨W, rfl⟩ := hq
      have := congrArg List.length hQ
      simp at this
    · exact ⟨_, by rw [hQ', e3, blen_append], s2⟩
  | stays Q' =>
    obtain ⟨l2, t2⟩ : s'.Loc x r0 Q' ∧ s'.tree r0 = (s.tree r0).removeAt P i := by have := hx2 rfl; rw [hac] at this; exact this
    have hQ : Tree.afterInsert P i Q' = Q := Tree.afterInsert_afterCut hac
    obtain ⟨a2, s2⟩ := hr'.spans l2
    rw [t2] at a2 s2
    obtain ⟨m1, m2, m3⟩ := Tree.insertAt_moves (u := s.tree p) hP hi a2
    rw [hback, hQ] at m1 m2 m3
    have hnp : ¬ P ++ [i] <+: Q := by
      rintro ⟨W, e⟩
      rw [show Q = P ++ i :: W by rw [← e]; simp, Tree.afterCut_below] at hac
      cases hac
    refine ⟨fun _ => by rw [t2, htext], fun hq => ?_, fun he => ?_, fun he => ?_, fun hq => absurd hq hnp⟩
    · have hq' : Q' <+: P := by
        rcases positions_trichotomy Q' (P ++ [i]) with h1 | h1 | h1 | h1
        · rcases prefix_append_cases h1 with h2 | ⟨l, rfl, hlp⟩
          · exact h2
          · cases l with
            | nil => simp
            | cons c l =>
              rw [List.cons_prefix_cons] at hlp
              obtain ⟨rfl, hlp⟩ := hlp
              cases List.prefix_nil.mp hlp
              have := (m3 (.inl List.prefix_rfl)).1
              exact absurd (hq.trans (List.prefix_append ..)) this.apart.2
        · have := (m3 (.inl h1)).1
          exact absurd (hq.trans (List.prefix_append ..)) this.apart.2
        · have := (m2 h1).1
          rw [← this] at h1
          exact absurd (hq.trans (List.prefix_append ..)) h1.apart.1
        · have := (m3 (.inr h1)).1
          exact absurd (hq.trans (List.prefix_append ..)) this.apart.2
      obtain ⟨e, b1, d', b2, b3⟩ := m1 hq'
      subst e
      rw [ax] at b2
      cases b2
      exact ⟨_, b3.symm, by rw [b1]; exact s2⟩
    · have he' : Earlier Q' (P ++ [i]) := by
        rcases positions_trichotomy Q' (P ++ [i]) with h1 | h1 | h1 | h1
        · rcases prefix_append_cases h1 with h2 | ⟨l, rfl, hlp⟩
          · have := (m1 h2).1
            rw [this] at he
            exact absurd (h2.trans (List.prefix_append ..)) he.apart.1
          · cases l with
            | nil =>
              have := (m1 (by simp)).1
              rw [this] at he
              exact absurd (by simp) he.apart.1
            | cons c l =>
              rw [List.cons_prefix_cons] at hlp
              obtain ⟨rfl, hlp⟩ := hlp
              cases List.prefix_nil.mp hlp
              exact ((m3 (.inl List.prefix_rfl)).1.asymm he).elim
        · exact ((m3 (.inl h1)).1.asymm he).elim
        · exact h1
        · exact ((m3 (.inr h1)).1.asymm he).elim
      obtain ⟨e, b1, b2⟩ := m2 he'
      subst e
      rw [ax] at b2
      rw [b1, Option.some.inj b2]
      exact s2
    · have he' : P ++ [i] <+: Q' ∨ Earlier (P ++ [i]) Q' := by
        rcases positions_trichotomy Q' (P ++ [i]) with h1 | h1 | h1 | h1
        · rcases prefix_append_cases h1 with h2 | ⟨l, rfl, hlp⟩
          · have := (m1 h2).1
            rw [this] at he
            exact absurd (h2.trans (List.prefix_append ..)) he.apart.2
          · cases l with
            | nil =>
              have := (m1 (by simp)).1
              rw [this] at he
              exact absurd (by simp) he.apart.2
            | cons c l =>
              rw [List.cons_prefix_cons] at hlp
              obtain ⟨rfl, hlp⟩ := hlp
              cases List.prefix_nil.mp hlp
              exact .inl List.prefix_rfl
        · exact .inl h1
        · have := (m2 h1).1
          rw [this] at he
          exact (h1.asymm he).elim
        · exact .inr h1
      obtain ⟨-, b1, b2⟩ := m3 he'
      rw [ax] at b2
      rw [b1, Option.some.inj b2]
      exact ⟨_, rfl, s2⟩

/-- **C81, inserting** a tree of its own as a child inserts its text into the text of the tree.  Ranges of elements in front of the
place stay, of elements around it grow, of elements behind it move by its length; ranges in what was put in count from the place;
other trees are as they were. -/
theorem C81_insert {p q r i : Nat} {P : List Nat} {k : SyntaxKind} {cs : List Tree} (h : HReach s gs hs lk)
    (hh : hs.Perm (p :: rest)) (hq : q ∈ rest) (hm : s.mutable q = true) (hmp : s.mutable p = true)
    (hlp : s.Loc p p []) (hl : s.Loc q r P) (hrp : r ≠ p) (ht : s.tree q = .node k cs) (hi : i ≤ cs.length)
    (room : s.Room (3 * (cs.length + 1) + 1 + 1)) :
    ∃ s' pre suf, Cur.splice q i i [p] s = .ok () s' ∧ (s.tree r).text = pre ++ suf ∧
      (s'.tree r).text = pre ++ (s.tree p).text ++ suf ∧
      (∃ a n, s.Spans q a n ∧ blen pre = a + blen (Tree.texts (cs.take i))) ∧
      ∀ x ∈ rest, ∀ r0 Q a n, s.Loc x r0 Q → s.Spans x a n →
        (r0 ≠ r → r0 ≠ p → s'.Spans x a n) ∧
        (r0 = p → s'.Spans x (blen pre + a) n) ∧
        (r0 = r →
          (Q <+: P → s'.Spans x a (n + blen (s.tree p).text)) ∧
          (Earlier Q (P ++ [i]) → s'.Spans x a n) ∧
          (P ++ [i] <+: Q ∨ Earlier (P ++ [i]) Q → s'.Spans x (a + blen (s.tree p).text) n)) := by
  letI : Greens := ⟨gs⟩
  obtain ⟨kids, hinv⟩ := h.ok'
  obtain ⟨v, hv⟩ := HSt.Views.exists_view hinv
  have hr : (Call.splice q i i [p]).Ready s gs hs rest :=
    ⟨hh, by simpa [Call.uses] using hq, by simp [Call.nodes, ht, Tree.isNode], by simp⟩
  obtain ⟨e, hA, hV⟩ := Call.splice_agrees ⟨kids, hinv⟩ hr hv
  have hna : Cur.splice q i i [p] s ≠ .abort := fun e0 => by
    refine Call.no_abort (c := .splice q i i [p]) (s := s) ?_ (by simp only [Call.exec, H.bind_def, e0])
    simp only [Call.cost, ht]; exact room
  have hpos : ∀ x ∈ hs, 0 < cnt (hs ++ lk) x := fun x hx => cnt_pos.mpr (List.mem_append_left _ hx)
  have hpr : ∀ x ∈ rest, 0 < cnt (rest ++ lk) x := fun x hx => cnt_pos.mpr (List.mem_append_left _ hx)
  have hrs : ∀ x ∈ rest, x ∈ hs := fun x hx => hh.mem_iff.mpr (List.mem_cons_of_mem _ hx)
  have hps : p ∈ hs := hh.mem_iff.mpr (List.mem_cons_self ..)
  have hpp := hv.pos_eq (hpos p hps) hlp
  have hpq := hv.pos_eq (hpos q (hrs q hq)) hl
  have hcut : v.cut p = v := by simp [View.cut, hpp]
  have hvt : ∀ x ∈ hs, ∀ r0 Q, s.Loc x r0 Q → v.pos x = (r0, Q) ∧ v.tree r0 = s.tree r0 := fun x hx r0 Q hlx => by
    have e := hv.pos_eq (hpos x hx) hlx
    have := (hv x (hpos x hx)).2.1
    rw [e] at this
    exact ⟨e, this.symm⟩
  obtain ⟨aq, sq⟩ := h.spans hl
  rw [ht] at aq
  have hw : v.width q = cs.length := by
    simp only [View.width, View.sub, hpq, (hvt q (hrs q hq) _ _ hl).2, aq, Tree.children]
  have hw1 : v.splice e q i i [p] = .done (v.join q i p) := by
    have m1 : v.mutable q = true := (hv q (hpos q (hrs q hq))).2.2.symm.trans hm
    have m2 : v.mutable p = true := (hv p (hpos p hps)).2.2.symm.trans hmp
    simp [View.splice, m1, View.deleted, View.insertAll, m2, hcut, hpq, hrp, hw, hi]
  rcases hA with hA | hA
  · exact absurd hA hna
  rw [hw1] at hA
  obtain ⟨s', e1, ⟨kids', hi'⟩, _, hv'⟩ := hA
  have hgo : ∀ x ∈ rest, ∀ r0 Q, s.Loc x r0 Q → s'.Loc x (joinLoc r p P i r0 Q).1 (joinLoc r p P i r0 Q).2 ∧
      s'.tree (joinLoc r p P i r0 Q).1 = (v.join q i p).tree (joinLoc r p P i r0 Q).1 := fun x hx r0 Q hlx => by
    obtain ⟨h1, h2, -⟩ := hv' x (hpr x hx)
    simp only [View.join, hpq, (hvt x (hrs x hx) _ _ hlx).1] at h1 h2 ⊢
    exact ⟨h1, h2⟩
  have htp : v.tree p = s.tree p := (hvt p hps _ _ hlp).2
  have htr : v.tree r = s.tree r := (hvt q (hrs q hq) _ _ hl).2
  have hnew : s'.tree r = (s.tree r).insertAt P i (s.tree p) := by
    have := (hgo q hq _ _ hl).2
    simpa [joinLoc, hrp, View.join, hpq, htp, htr] using this
  obtain ⟨tx1, tx2, tx3⟩ := Tree.insertAt_text (u := s.tree p) aq hi
  have hsp : ∀ {x r0 Q}, s'.Loc x r0 Q → s'.Spans x (blen ((s'.tree r0).before Q)) (blen (s'.tree x).text) ∧
      (s'.tree r0).at? Q = some (s'.tree x) := fun hlx => ⟨Cur.textRange_ok hi' hlx, hi'.tree_at hlx⟩
  refine ⟨s', _, _, e1, tx1, by rw [hnew, tx2], ⟨_, _, sq, by rw [blen_append]⟩, fun x hx r0 Q a n lx sx => ?_⟩
  obtain ⟨ax, sx'⟩ := h.spans lx
  obtain ⟨rfl, rfl⟩ := sx'.unique sx
  clear sx
  obtain ⟨l2, t2⟩ := hgo x hx r0 Q lx
  refine ⟨fun h1 h2 => ?_, fun h1 => ?_, fun h1 => ?_⟩
  · simp only [joinLoc, h1, h2, if_false, View.join, hpq] at l2 t2
    rw [(hvt x (hrs x hx) _ _ lx).2] at t2
    obtain ⟨s2, a2⟩ := hsp l2
    rw [t2, ax] at a2
    rw [t2, ← Option.some.inj a2] at s2
    exact s2
  · subst h1
    simp only [joinLoc, if_true] at l2
    obtain ⟨s2, a2⟩ := hsp l2
    have hput : ((s.tree r).insertAt P i (s.tree r0)).at? (P ++ i :: Q) = (s.tree r0).at? Q := by
      have hins : (s.tree r).insertAt P i (s.tree r0) = (s.tree r).set P (.node k (cs.take i ++ s.tree r0 :: cs.drop i)) := by
        simp only [Tree.insertAt, Tree.editKids, aq]
      rw [hins, Tree.at?_set_self aq, Tree.at?_cons]
      have hget : (cs.take i ++ s.tree r0 :: cs.drop i)[i]? = some (s.tree r0) := by
        rw [List.getElem?_append_right (by simp; omega), List.length_take, Nat.min_eq_left hi, Nat.sub_self]; rfl
      simp only [Tree.children, hget]
      rfl
    rw [hnew, hput, ax] at a2
    rw [hnew, tx3, blen_append, ← Option.some.inj a2] at s2
    exact s2
  · subst h1
    simp only [joinLoc, hrp, if_false, if_true] at l2
    obtain ⟨s2, a2⟩ := hsp l2
    rw [hnew] at s2 a2
    obtain ⟨m1, m2, m3⟩ := Tree.insertAt_moves (u := s.tree p) aq hi ax
    refine ⟨fun hc => ?_, fun hc => ?_, fun hc => ?_⟩
    · obtain ⟨e, b1, d', b2, b3⟩ := m1 hc
      rw [e] at s2 a2
      rw [b2] at a2
      rw [b1, ← Option.some.inj a2, b3] at s2
      exact s2
    · obtain ⟨e, b1, b2⟩ := m2 hc
      rw [e] at s2 a2
      rw [b2] at a2
      rw [b1, ← Option.some.inj a2] at s2
      exact s2
    · obtain ⟨-, b1, b2⟩ := m3 hc
      rw [b2] at a2
      rw [b1, ← Option.some.inj a2] at s2
      exact s2

end

/-! ## Concrete cases -/

theorem demo2_loc4 : demo2.s.Loc 4 0 ([2] ++ [0]) :=
  .child' (q := 3) (by decide +kernel) (by decide +kernel) (by decide +kernel) demo2_loc3
theorem demo2_loc1 : demo2.s.Loc 1 0 ([] ++ [0]) :=
  .child' (q := 0) (by decide +kernel) (by decide +kernel) (by decide +kernel) demo2_loc0

/-- The text of an outcome's tree, and the range of an element. -/
def HOut.seen {α : Type} (o : HOut α) (r x : Nat) : Option (List Char × Nat × Nat) :=
  match o with
  | .ok _ s => match Cur.textRange x s with
    | .ok w _ => some ((s.tree r).text, w.start, w.stop)
    | _ => none
  | _ => none

/-- `C81_detach` applies to the first token of `abcc`: the token `cc` moves from 2..4 to 1..3, the top node shrinks. -/
example := C81_detach (p := 1) demo2_reach (by decide +kernel) (by decide +kernel) demo2_loc1
example : Earlier ([] ++ [0]) ([2] ++ [0]) := ⟨[], 0, 2, [], [0], by decide, rfl, rfl⟩
example : (Cur.detach 1 demo2.s).seen 0 4 = some (['b', 'c', 'c'], 1, 3) := by decide +kernel
example : (Cur.detach 1 demo2.s).seen 0 0 = some (['b', 'c', 'c'], 0, 3) := by decide +kernel
example : (Cur.detach 3 demo2.s).seen 0 4 = some (['a', 'b'], 0, 2) := by decide +kernel

/-- `C81_insert` applies: `d` is put between `a` and `b`. -/
example := C81_insert (i := 1) demo2_reach demo2_hs (q := 0) (by decide +kernel) (by decide +kernel) (by decide +kernel)
  demo2_loc6 demo2_loc0 (by decide) demo2_tree (by decide) (demo2_room.mono (by decide))
example : (Cur.splice 0 1 1 [6] demo2.s).seen 0 4 = some (['a', 'd', 'b', 'c', 'c'], 3, 5) := by decide +kernel
example : (Cur.splice 0 1 1 [6] demo2.s).seen 0 1 = some (['a', 'd', 'b', 'c', 'c'], 0, 1) := by decide +kernel
example : (Cur.splice 3 1 1 [6] demo2.s).seen 0 3 = some (['a', 'b', 'c', 'c', 'd'], 2, 5) := by decide +kernel

end Rowan
