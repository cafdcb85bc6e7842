import Verif.HeapHistory
import Verif.HeapDemo
import Verif.HeapCount
import Verif.Props.Splice
/-!
# C38, C39, C42: memory of the cursor layer

In the model every access to a freed cursor object, every second free, every access to green data that no tree
keeps alive, every failed debug assertion and every `unwrap_unchecked` of `None` is the result `ub`.
-/
namespace Rowan
open Cur (plus)

section
variable {s s' : HSt} {gs : List GElem} {hs lk rest : List Nat}

/-! ## C38 -/

/-- Every live object has a handle on it or below it. -/
theorem HInv.needed [Greens] {l0 bad : List Nat} {kids : Nat → List Nat} {p : Nat}
    (hi : HInv s (cnt l0) kids none bad) (hl : s.live p = true) : ∃ x ∈ l0, s.Up x p := by
  -- chains are not longer than the number of objects
  have key : ∀ n (p : Nat) (l : List Nat), Chain s p l → s.top ≤ l.length + n → ∃ x ∈ l0, s.Up x p := by
    intro n
    induction n with
    | zero =>
      intro p l hch hle
      -- `l` contains all objects, so `p` has no child
      have hpos := hi.pos p hch.live (by simp)
      rw [hi.rc p hch.live] at hpos
      by_cases hk : kids p = []
      · rw [hk] at hpos
        exact ⟨p, cnt_pos.mp hpos, .refl⟩
      · obtain ⟨c, hc⟩ := List.exists_mem_of_ne_nil _ hk
        obtain ⟨c1, c2⟩ := (hi.kidsMem p c).mp hc
        have hch' : Chain s c (c :: l) := .step c1 c2 hch
        have := hch'.length_le hi.top
        simp at this; omega
    | succ n ih =>
      intro p l hch hle
      have hpos := hi.pos p hch.live (by simp)
      rw [hi.rc p hch.live] at hpos
      by_cases hk : kids p = []
      · rw [hk] at hpos
        exact ⟨p, cnt_pos.mp hpos, .refl⟩
      · obtain ⟨c, hc⟩ := List.exists_mem_of_ne_nil _ hk
        obtain ⟨c1, c2⟩ := (hi.kidsMem p c).mp hc
        obtain ⟨x, hx, hu⟩ := ih c (c :: l) (.step c1 c2 hch) (by simp; omega)
        exact ⟨x, hx, hu.trans (.step c2 .refl)⟩
  obtain ⟨l, hch⟩ := hi.chain p hl
  exact key s.top p l hch (by omega)

theorem HInv.no_stray [Greens] {hc : Nat → Nat} {kids : Nat → List Nat} {z y : Nat} (hi : HInv s hc kids none []) :
    ¬ s.Stray z y := fun hs => by
  obtain ⟨n, x, g1, g2, _⟩ := hi.greenOk z y hs.1 hs.2.1 (by simp)
  have := hs.2.2
  rw [← Cur.children_length_eq g1, GNode.children_length] at this
  have := (List.getElem?_eq_some_iff.mp g2).1
  omega

/-- C38, full statement: whatever safe code has done before, whether calls have returned or panicked, no call has
undefined behaviour.  It does not hold (`C38_fails`); the states where it does are those of `HReach`, which leaves
out what happens after an index-out-of-range panic of `splice_children` that is caught and leaves the element
that could not be inserted behind (`C38_after_panic`).  In the states of `HReach` no call with arguments that
safe code can pass has undefined behaviour. -/
theorem C38_partial {c : Call} (h : HReach s gs hs lk) (hr : c.Ready s gs hs rest) : c.exec s ≠ .ub := by
  letI : Greens := ⟨gs⟩
  obtain ⟨kids, hi⟩ := h.ok'
  obtain ⟨v, hv⟩ := HSt.Views.exists_view hi
  intro e
  cases he : c.edits with
  | false =>
    have hw := Call.exec_stable ⟨kids, hi⟩ hr he
    rw [H.wp, e] at hw; exact hw
  | true =>
    rcases Call.edits_cases he with ⟨p, rfl⟩ | ⟨q, a, b, ins, sp⟩
    · obtain ⟨h1, h2⟩ := Call.exec_detach ⟨kids, hi⟩ hr hv
      cases hm : s.mutable p with
      | true => obtain ⟨s1, e1, _⟩ := h1 hm; rw [e] at e1; cases e1
      | false => rw [h2 hm] at e; cases e
    · obtain ⟨x, r, h0, h1, _⟩ := Call.exec_splice ⟨kids, hi⟩ hr sp hv
      cases HOut.map_ub (h0.symm.trans e)
      rcases h1 with h1 | h1
      · cases h1
      · split at h1
        · obtain ⟨_, a, _⟩ := h1; cases a
        · obtain ⟨_, a, _⟩ := h1; cases a
        · obtain ⟨_, _, a, _⟩ := h1; cases a
        · cases h1
        · obtain ⟨_, _, a, _⟩ := h1; cases a

theorem Call.range_counted {c : Call} (h : HReach s gs hs lk) (hr : c.Ready s gs hs rest)
    (e : c.exec s = .panic .range s') : ∃ kids, @Counted ⟨gs⟩ s' (cnt (rest ++ lk)) kids none := by
  letI : Greens := ⟨gs⟩
  obtain ⟨kids, hi⟩ := h.ok'
  obtain ⟨v, hv⟩ := HSt.Views.exists_view hi
  cases he : c.edits with
  | false =>
    have hw := Call.exec_stable ⟨kids, hi⟩ hr he
    rw [H.wp, e] at hw; cases hw.1
  | true =>
    rcases Call.edits_cases he with ⟨p, rfl⟩ | ⟨q, a, b, ins, sp⟩
    · obtain ⟨h1, h2⟩ := Call.exec_detach ⟨kids, hi⟩ hr hv
      cases hm : s.mutable p with
      | true => obtain ⟨s1, e1, _⟩ := h1 hm; rw [e] at e1; cases e1
      | false => rw [h2 hm] at e; cases e
    · obtain ⟨x, r, h0, h1, _⟩ := Call.exec_splice ⟨kids, hi⟩ hr sp hv
      cases HOut.map_panic (h0.symm.trans e)
      rcases h1 with h1 | h1
      · cases h1
      · split at h1
        · obtain ⟨_, a, _⟩ := h1; cases a
        · obtain ⟨_, a, _⟩ := h1; cases a
        · obtain ⟨_, kids', a, hc, _⟩ := h1; cases a
          exact ⟨kids', hc⟩
        · cases h1
        · obtain ⟨_, kids', a, hc, _⟩ := h1; cases a
          exact ⟨kids', hc⟩

/-- C38: what a call that panics because of an index can leave behind.  If the index fits into 32 bits (what happens
otherwise is shown by `C38_wide_fails`), either the program can go on, or one of the
elements to be inserted hangs below a node that has no child at its index.  A handle that the program still has is
on that element or below it.  The references owned are those of the top elements, so nothing keeps the green data
of the element alive, unless another tree happens to contain it; asking the element for its kind is undefined
behaviour otherwise. -/
theorem C38_after_panic {c : Call} (h : HReach s gs hs lk) (hr : c.Ready s gs hs rest)
    (e : c.exec s = .panic .range s') (hw : ∀ q a b ins, c.Splices q a b ins → a + ins.length ≤ 2 ^ 32) :
    HReach s' gs rest lk ∨
    (∃ rs : List Nat, rs.Nodup ∧ (∀ r, r ∈ rs ↔ s'.live r = true ∧ s'.parent r = none) ∧
      s'.owned.Perm (rs.map s'.green)) ∧
    ∃ q a b ins p y, c.Splices q a b ins ∧ p ∈ ins ∧ s'.Stray p y ∧ (∃ x ∈ rest ++ lk, s'.Up x p) ∧
      ((∀ o ∈ s'.owned, ∀ g ∈ o.subs, g.addr ≠ (s'.green p).addr) → Cur.kind p s' = .ub) := by
  letI : Greens := ⟨gs⟩
  obtain ⟨kids, hi⟩ := h.ok'
  obtain ⟨v, hv⟩ := HSt.Views.exists_view hi
  cases he : c.edits with
  | false =>
    have hw := Call.exec_stable ⟨kids, hi⟩ hr he
    rw [H.wp, e] at hw; cases hw.1
  | true =>
    rcases Call.edits_cases he with ⟨p, rfl⟩ | ⟨q, a, b, ins, sp⟩
    · obtain ⟨h1, h2⟩ := Call.exec_detach ⟨kids, hi⟩ hr hv
      cases hm : s.mutable p with
      | true => obtain ⟨s1, e1, _⟩ := h1 hm; rw [e] at e1; cases e1
      | false => rw [h2 hm] at e; cases e
    · have hub : ∀ {p y}, s'.Stray p y → (∀ o ∈ s'.owned, ∀ g ∈ o.subs, g.addr ≠ (s'.green p).addr) →
          Cur.kind p s' = .ub := fun {p y} hp hn => by
        have : s'.holds (s'.green p).addr = false := by
          simp only [HSt.holds, List.any_eq_false, Bool.not_eq_true, beq_eq_false_iff_ne]
          exact fun o ho => by simpa using hn o ho
        simp only [Cur.kind, Cur.green, H.bind_def, H.rd_ok hp.1, H.derefG, this]; rfl
      obtain ⟨x, r, h0, h1, _⟩ := Call.exec_splice ⟨kids, hi⟩ hr sp hv
      cases HOut.map_panic (h0.symm.trans e)
      rcases h1 with h1 | h1
      · cases h1
      · split at h1
        · obtain ⟨_, a, _⟩ := h1; cases a
        · obtain ⟨_, a, _⟩ := h1; cases a
        · rename_i w p j ho
          obtain ⟨_, kids', a, _, hn⟩ := h1; cases a
          obtain ⟨hp, hj⟩ := View.splice_outOfRange ho
          obtain ⟨hi', _, _, _, ht⟩ := hn (by have := hw _ _ _ _ sp; omega)
          cases hl : s'.live p with
          | false =>
            left
            refine .unwound c h hr sp e ⟨hw _ _ _ _ sp, fun z hz y hs => ?_⟩
            have hi2 := hi'.of_bad_dead (by simpa using hl)
            exact hi2.no_stray hs
          | true =>
            obtain ⟨y, hy⟩ := ht hl
            exact .inr ⟨hi'.roots, q, _, _, ins, p, y, sp, hp, hy, hi'.needed hl, hub hy⟩
        · cases h1
        · rename_i y p j ho
          obtain ⟨_, _, a, hc, _, _, hu, hy⟩ := h1; cases a
          obtain ⟨rfl, hp, hj⟩ := View.splice_tangled ho
          have hy := hy (by have := hw _ _ _ _ sp; omega)
          exact .inr ⟨hc.roots, y, _, _, ins, p, y, sp, hp, hy,
            ⟨y, List.mem_append_left _ (hr.held y (by rw [(sp.uses (s := s)).2.1]; simp)), hu⟩, hub hy⟩

/-- C38: so the two cases of `C38_after_panic` exclude each other: in the states of `HReach` every element is at the
index of a child. -/
theorem C38_no_stray {p y : Nat} (h : HReach s gs hs lk) : ¬ s.Stray p y := by
  letI : Greens := ⟨gs⟩
  obtain ⟨kids, hi⟩ := h.ok'
  exact hi.no_stray

/-- C38: whatever a call that panics because of an index leaves behind, the program can drop the handles it has: those
that it likes, in any order. -/
theorem C38_drop_after_panic {c : Call} {ds keep : List Nat} (h : HReach s gs hs lk) (hr : c.Ready s gs hs rest)
    (e : c.exec s = .panic .range s') (hd : rest.Perm (ds ++ keep)) : ∃ s'', Cur.dropAll ds s' = .ok () s'' := by
  letI : Greens := ⟨gs⟩
  obtain ⟨kids', hc⟩ := Call.range_counted h hr e
  rw [cnt_perm (hd.append_right lk), List.append_assoc, ← plus_cnt] at hc
  obtain ⟨s'', _, h1, _⟩ := Cur.Counted.dropAll_ok ds s' kids' hc
  exact ⟨s'', h1⟩

/-- C38: the reference count of every cursor object is the number of handles on it plus the number of its live
children, and it is not 0. -/
theorem C38_counts {p : Nat} (h : HReach s gs hs lk) (hl : s.live p = true) :
    ∃ kids : List Nat, kids.Nodup ∧ (∀ q, q ∈ kids ↔ s.live q = true ∧ s.parent q = some p) ∧
      s.rc p = (hs ++ lk).count p + kids.length ∧ 0 < s.rc p := by
  letI : Greens := ⟨gs⟩
  obtain ⟨kids, hi⟩ := h.ok'
  exact ⟨kids p, hi.kidsNodup p, hi.kidsMem p, hi.rc p hl, hi.pos p hl (by simp)⟩

/-- C38: what the handles denote has not been freed, nor have their parents. -/
theorem C38_live {p : Nat} (h : HReach s gs hs lk) :
    (p ∈ hs → s.live p = true) ∧
    ∀ q, s.live p = true → s.parent p = some q → s.live q = true := by
  letI : Greens := ⟨gs⟩
  obtain ⟨kids, hi⟩ := h.ok'
  exact ⟨fun hp => hi.hlive p (cnt_pos.mpr (List.mem_append_left _ hp)), fun q hl hq => (hi.parentOk p q hl hq).1⟩

/-- C38: the green data of every element is inside the green node that the top element of its tree owns. -/
theorem C38_green {p : Nat} (h : HReach s gs hs lk) (hl : s.live p = true) :
    ∃ r P, s.Loc p r P ∧ s.green r ∈ s.owned ∧ s.green p ∈ (s.green r).subs := by
  letI : Greens := ⟨gs⟩
  obtain ⟨kids, hi⟩ := h.ok'
  obtain ⟨l, hch⟩ := hi.chain p hl
  obtain ⟨r, P, hloc⟩ := hch.loc
  refine ⟨r, P, hloc, hi.owned_of_root hloc.root_live.1 hloc.root_live.2, ?_⟩
  clear hch hl
  induction hloc with
  | root => exact GElem.self_mem_subs _
  | @child p q r P hl hp _ ih =>
    obtain ⟨n, c, h1, h2, h3, _⟩ := hi.greenOk p q hl hp (by simp)
    rw [h1] at ih
    refine GElem.subs_trans ih ?_
    rw [← h3]
    exact GNode.children_mem_subs (List.mem_map.mpr ⟨c, List.mem_of_getElem? h2, rfl⟩)

/-- C38: every tree owns its green node exactly once: the green references owned are those of the top elements. -/
theorem C38_owned (h : HReach s gs hs lk) : ∃ rs : List Nat, rs.Nodup ∧
    (∀ p, p ∈ rs ↔ s.live p = true ∧ s.parent p = none) ∧ s.owned.Perm (rs.map s.green) := by
  letI : Greens := ⟨gs⟩
  obtain ⟨kids, hi⟩ := h.ok'
  exact hi.roots

/-! ## C39 -/

/-- C39: every cursor object that has not been freed is needed: there is a handle, held or lost, on it or on an
object below it. -/
theorem C39_needed {p : Nat} (h : HReach s gs hs lk) (hl : s.live p = true) : ∃ x ∈ hs ++ lk, s.Up x p := by
  letI : Greens := ⟨gs⟩
  obtain ⟨kids, hi⟩ := h.ok'
  exact hi.needed hl

/-- C42: the counter of a cursor object is at most the number of handles that the program holds or has lost: every
child object that it counts is there because of a handle below. -/
theorem C42_handles {p : Nat} (h : HReach s gs hs lk) (hl : s.live p = true) : s.rc p ≤ (hs ++ lk).length := by
  obtain ⟨kids, h1, h2, h3, _⟩ := C38_counts h hl
  have hk : ∀ c, ∃ x, c ∈ kids → x ∈ hs ++ lk ∧ s.Up x c := fun c => by
    by_cases hc : c ∈ kids
    · obtain ⟨x, a, b⟩ := C39_needed h ((h2 c).mp hc).1
      exact ⟨x, fun _ => ⟨a, b⟩⟩
    · exact ⟨0, fun h => absurd h hc⟩
  obtain ⟨g, hg⟩ := Classical.axiomOfChoice hk
  letI : Greens := ⟨gs⟩
  obtain ⟨_, hi⟩ := h.ok'
  obtain ⟨l, hch⟩ := hi.chain p hl
  -- `p` is not below its child
  have hac : ∀ c ∈ kids, ¬ s.Up p c := fun c hc hu => by
    obtain ⟨a, b⟩ := (h2 c).mp hc
    have := (Chain.step a b hch).nodup
    exact (List.nodup_cons.mp this).1 (hu.mem hch)
  have hnd : (kids.map g).Nodup := by
    refine List.nodup_iff_pairwise_ne.mpr (List.pairwise_map.mpr ?_)
    refine List.Pairwise.imp_of_mem (fun {c d} hc hd hne e => ?_) (List.nodup_iff_pairwise_ne.mp h1)
    obtain ⟨_, u1⟩ := hg c hc
    obtain ⟨_, u2⟩ := hg d hd
    rw [e] at u1
    rcases u1.linear u2 with u | u
    · cases u with
      | refl => exact hne rfl
      | step hp u => rw [((h2 c).mp hc).2] at hp; cases hp; exact hac d hd u
    · cases u with
      | refl => exact hne rfl
      | step hp u => rw [((h2 d).mp hd).2] at hp; cases hp; exact hac c hc u
  have hsub : ∀ x ∈ kids.map g, x ∈ (hs ++ lk).filter (· != p) := by
    intro x hx
    obtain ⟨c, hc, rfl⟩ := List.mem_map.mp hx
    refine List.mem_filter.mpr ⟨(hg c hc).1, ?_⟩
    simp only [bne_iff_ne]
    intro e
    have := (hg c hc).2
    rw [e] at this
    exact hac c hc this
  have := nodup_subset_length hnd hsub
  rw [List.length_map] at this
  rw [h3, length_count_filter (hs ++ lk) p]
  omega

/-- C42: a program that holds fewer than 2^32 handles (counting lost ones) has all counters as far from the limit
as the number of handles is. -/
theorem C42_room {n : Nat} (h : HReach s gs hs lk) (hn : n < Cur.rcMax)
    (hle : (hs ++ lk).length + n ≤ Cur.rcMax) : s.Room n :=
  ⟨hn, fun _ hp => Nat.le_trans (Nat.add_le_add_right (C42_handles h hp) n) hle⟩

/-- C42: a call aborts only if the number of handles plus the number of references that the call itself takes
(`Call.cost`) reaches 2^32 - 1. -/
theorem C42_no_abort {c : Call} (h : HReach s gs hs lk) (hn : (hs ++ lk).length + c.cost s < Cur.rcMax) :
    c.exec s ≠ .abort := Call.no_abort (C42_room h (by omega) (by omega))

/-- C39, full statement: when a program holds no handles any more, every cursor object has been freed and every
green reference the trees have taken has been released.  It does not hold (`C39_fails`).  It holds if no handle
was lost, that is if the program neither called `mem::forget` on a handle nor `to_next_sibling[_or_token]` on the
only handle of the top node of an immutable tree (`Call.lost`). -/
theorem C39_partial (h : HReach s gs [] []) : (∀ p, s.live p = false) ∧ s.owned = [] := by
  have h0 : ∀ p, s.live p = false := fun p => by
    cases hl : s.live p with
    | false => rfl
    | true => obtain ⟨x, hx, _⟩ := C39_needed h hl; simp at hx
  refine ⟨h0, ?_⟩
  obtain ⟨rs, _, h2, h3⟩ := C38_owned h
  cases rs with
  | nil => exact h3.eq_nil
  | cons r rs => have := ((h2 r).mp (by simp)).1; rw [h0 r] at this; cases this

/-- C39: in a reachable state where no handle was lost, dropping all handles returns and frees everything. -/
theorem C39_drop_all (h : HReach s gs hs []) :
    ∃ s', Cur.dropAll hs s = .ok () s' ∧ (∀ p, s'.live p = false) ∧ s'.owned = [] := by
  induction hs generalizing s with
  | nil => exact ⟨s, rfl, C39_partial h⟩
  | cons p hs ih =>
    letI : Greens := ⟨gs⟩
    have ok := h.ok'
    rw [List.append_nil, ← inc_cnt] at ok
    obtain ⟨s1, e1, _⟩ := Cur.drop_stable ok
    have h1 : HReach s1 gs ([] ++ hs) ([] ++ []) :=
      .ok (.drop p) h ⟨.refl _, by simp [Call.uses], by simp [Call.nodes], by simp⟩
        (by simp only [Call.exec, H.bind_def, e1]; rfl)
    obtain ⟨s', e2, e3⟩ := ih h1
    exact ⟨s', by simp only [Cur.dropAll]; rw [H.bind_ok e1]; exact e2, e3⟩

theorem _root_.Rowan.HSt.Up.last {x y : Nat} (h : s.Up x y) : x = y ∨ ∃ z, s.Up x z ∧ s.parent z = some y := by
  induction h with
  | refl => exact .inl rfl
  | @step x y p hp _ ih =>
    right
    rcases ih with rfl | ⟨z, h1, h2⟩
    · exact ⟨x, .refl, hp⟩
    · exact ⟨z, .step hp h1, h2⟩

/-- C39 fails in a second way: after a panic that has put an element below its own descendant, the objects on the way
between the two keep each other alive.  They are still there when the program has dropped all its handles. -/
theorem C39_cycle_leaks {q i p : Nat} {k : SyntaxKind} {cs : List Tree} (h : HReach s gs hs lk)
    (hh : hs.Perm ([p] ++ rest)) (hq : q ∈ rest) (hm : s.mutable q = true) (ht : s.tree q = .node k cs)
    (hi : cs.length < i) (hpq : s.Above p q) (room : s.Room (3 * (cs.length + 1) + 2)) :
    ∃ s' s'', Cur.splice q i i [p] s = .panic .range s' ∧ Cur.dropAll rest s' = .ok () s'' ∧
      s''.live p = true ∧ s''.live q = true := by
  letI : Greens := ⟨gs⟩
  obtain ⟨s', e1, l1, p1, u1⟩ := C40_cyclic_panics h hh hq hm ht hi hpq room
  have hr : (Call.splice q i i [p]).Ready s gs hs rest :=
    ⟨hh, by simpa [Call.uses] using hq, by
      simp only [Call.nodes, List.mem_singleton]; rintro x rfl
      rw [ht]; rfl, by simp⟩
  obtain ⟨kids', hc⟩ := Call.range_counted h hr (s' := s') (by simp only [Call.exec, H.bind_def, e1])
  have hlq := hc.hlive q (cnt_pos.mpr (List.mem_append_left _ hq))
  have hup : ∀ {x y}, s'.Up x y → s'.live x = true → s'.live y = true := fun {x y} hu => by
    induction hu with
    | refl => exact id
    | step hp _ ih => exact fun hx => ih (hc.parentOk _ _ hx hp).1
  rw [← plus_cnt] at hc
  obtain ⟨s'', _, h1, _, _, h4⟩ := Cur.Counted.dropAll_ok rest s' kids' hc
  have hb := h4 (fun x => s'.Up q x ∧ s'.Up x p) fun x ⟨a, b⟩ => ⟨hup a hlq, by
    rcases a.last with rfl | ⟨z, z1, z2⟩
    · exact ⟨p, ⟨u1, .refl⟩, p1⟩
    · exact ⟨z, ⟨z1, .step z2 b⟩, z2⟩⟩
  exact ⟨s', s'', e1, h1, (hb p ⟨u1, .refl⟩).1, (hb q ⟨.refl, u1⟩).1⟩

/-! ## C42, the counter of the cursor layer -/

/-- C42: the counter fits into 32 bits in every reachable state. -/
theorem C42_cursor {p : Nat} (h : HReach s gs hs lk) (hl : s.live p = true) : s.rc p < 2 ^ 32 := by
  letI : Greens := ⟨gs⟩
  obtain ⟨kids, hi⟩ := h.ok'
  have := hi.rcLe p hl
  simp only [Cur.rcMax] at this
  omega

/-- C42: cloning a handle adds one to the counter, or aborts if it would wrap. -/
theorem C42_cursor_clone {p : Nat} (h : HReach s gs hs lk) (hp : p ∈ hs) :
    (s.rc p + 1 < 2 ^ 32 → ∃ s', Cur.clone p s = .ok p s' ∧ s'.rc p = s.rc p + 1) ∧
    (s.rc p + 1 = 2 ^ 32 → Cur.clone p s = .abort) := by
  have hl := (C38_live h).1 hp
  have e0 : H.rd p HSt.rc s = .ok (s.rc p) s := H.rd_ok hl
  refine ⟨fun hlt => ?_, fun heq => ?_⟩
  · have hne : s.rc p ≠ Cur.rcMax := by simp only [Cur.rcMax]; omega
    refine ⟨s.setRc p (s.rc p + 1), ?_, by simp [HSt.setRc]⟩
    simp only [Cur.clone, Cur.incRc]
    rw [H.bind_def, H.bind_ok e0, if_neg hne]
    simp [H.wr, hl]
  · have he : s.rc p = Cur.rcMax := by simp only [Cur.rcMax]; omega
    simp only [Cur.clone, Cur.incRc]
    rw [H.bind_def, H.bind_ok e0, if_pos he]
    rfl

end

/-! ## Counterexamples and concrete cases -/

/-- A mutable tree `[a b [cc]]` with two handles on its first token. -/
def demo3 : Conf := { after [
  .token 1 ['a'], .token 1 ['b'], .token 2 ['c', 'c'], .node 10 [0], .node 20 [3, 2, 0],
  .root true 0, .call (.nav .firstChildOrToken 0), .call (.clone 1)] with gs := [] }
theorem demo3_reach : demo3.Reach := HReach.dropGreen (gs' := []) (after_reach _) (by simp)
attribute [irreducible] demo3

/-- The counterexample to C38: a safe program whose `splice_children` panics because the index is too large (the
moved element was a child of the node itself, so the node has one child less by then), and which then asks for
the kind of a moved element.  (It holds no green nodes that could keep the element's green data alive.) -/
theorem C38_fails : ∃ C : Conf, C.Reach ∧ C.gs = [] ∧ ∃ q a b ins rest s' x,
    (Call.splice q a b ins).Ready C.s C.gs C.hs rest ∧
    (∀ p ∈ ins, ¬ C.s.Above p q) ∧
    (Call.splice q a b ins).exec C.s = .panic .range s' ∧ x ∈ rest ∧ Cur.kind x s' = .ub := by
  letI : Greens := ⟨[]⟩
  have e : (match (Call.splice 0 3 3 [1]).exec demo3.s with
    | .panic .range s' => (match Cur.kind 1 s' with | .ub => true | _ => false)
    | _ => false) = true := by decide +kernel
  split at e
  · rename_i s' h
    refine ⟨demo3, demo3_reach, by rw [demo3], 0, 3, 3, [1], [1, 0], s', 1, ⟨?_, ?_, ?_, by simp⟩, ?_, h, by simp, ?_⟩
    · decide +kernel
    · decide +kernel
    · decide +kernel
    · simp only [List.mem_singleton]
      rintro p rfl ⟨r, P, Q, l1, l2⟩
      have h0 : demo3.s.Loc 0 0 [] := .root (by decide +kernel) (by decide +kernel)
      have h1 : demo3.s.Loc 1 0 ([] ++ [0]) :=
        .child' (q := 0) (by decide +kernel) (by decide +kernel) (by decide +kernel) h0
      have := (l2.unique h0).2
      rw [(l1.unique h1).2] at this
      simp at this
    · split at e
      · assumption
      · cases e
  · cases e

/-- The program drops all green nodes and tokens. -/
def Conf.noGreen (C : Conf) : Conf := { C with gs := [] }
theorem Conf.Reach.noGreen {C : Conf} (h : C.Reach) : C.noGreen.Reach := HReach.dropGreen h fun e he => by cases he

/-- A mutable tree `[[a] b]` with handles on the top node, the inner node and the last token, and a handle on the top
node of another tree. -/
def demo5Acts : List Act := [
  .token 1 ['a'], .token 1 ['b'], .node 10 [1], .node 20 [0, 1], .root true 0, .root true 1,
  .call (.nav .firstChildOrToken 0), .call (.nav .lastChildOrToken 0)]
def demo5 : Conf := (after demo5Acts).noGreen
theorem demo5_reach : demo5.Reach := (after_reach demo5Acts).noGreen
attribute [irreducible] demo5

/-- A second counterexample to C38.  The index given to `splice_children` is 2^32.  The call panics and unwinding
frees the element `p` that could not be inserted, so nothing is left behind.  But the index was cut to 32 bits
before the children of the node were renumbered, so now they all have wrong indices.  Detaching the child `x` takes
the wrong child out of the green tree, and then the kind of the child `y` is read from freed memory. -/
theorem C38_wide_fails : ∃ C : Conf, C.Reach ∧ C.gs = [] ∧ ∃ q i p rest s1 s2 x y,
    (Call.splice q i i [p]).Ready C.s C.gs C.hs rest ∧
    (Call.splice q i i [p]).exec C.s = .panic .range s1 ∧ s1.live p = false ∧
    x ∈ rest ∧ y ∈ rest ∧ Cur.detach x s1 = .ok () s2 ∧ Cur.kind y s2 = .ub := by
  have e : (match (Call.splice 0 (2 ^ 32) (2 ^ 32) [1]).exec demo5.s with
    | .panic .range s1 => !s1.live 1 && (match Cur.detach 2 s1 with
      | .ok () s2 => (match Cur.kind 3 s2 with | .ub => true | _ => false)
      | _ => false)
    | _ => false) = true := by decide +kernel
  split at e
  · rename_i s1 h
    rw [Bool.and_eq_true] at e
    obtain ⟨e1, e2⟩ := e
    split at e2
    · rename_i s2 h2
      refine ⟨demo5, demo5_reach, by rw [demo5, Conf.noGreen], 0, 2 ^ 32, 1, [3, 2, 0], s1, s2, 2, 3, ⟨?_, ?_, ?_, by simp⟩, h,
        by simpa using e1, by simp, by simp, h2, ?_⟩
      · decide +kernel
      · decide +kernel
      · decide +kernel
      · split at e2
        · assumption
        · cases e2
    · cases e2
  · cases e

/-- `C38_partial` and the other theorems apply to `demo2`. -/
example := C38_partial (c := .splice 0 0 3 [6]) demo2_reach
  ⟨demo2_hs, by decide +kernel, by decide +kernel, fun _ _ e => by cases e⟩
/-- The top node is attached below its third child, at an index that is too large. -/
example : ∃ s', (Call.splice 3 5 5 [0]).exec demo2.s = .panic .range s' ∧ s'.Stray 0 3 ∧ ¬ HReach s' demo2.gs [6, 5, 4, 3, 2, 1] demo2.lk := by
  obtain ⟨s', h1, h2, h3, _⟩ := C40_cyclic_panics (k := 10) (cs := [.token 2 ['c', 'c']]) (p := 0) (q := 3) (i := 5)
    (rest := [6, 5, 4, 3, 2, 1])
    demo2_reach (by decide +kernel) (by decide +kernel) (by decide +kernel) (by decide +kernel) (by decide)
    ⟨0, [], [2], demo2_loc0, demo2_loc3⟩ (demo2_room.mono (by decide))
  have e : (Call.splice 3 5 5 [0]).exec demo2.s = .panic .range s' := by
    simp only [Call.exec, H.bind_def, h1]
  have hs : s'.Stray 0 3 := by
    refine ⟨h2, h3, ?_⟩
    have hd : (match Cur.splice 3 5 5 [0] demo2.s with
      | .panic .range s => decide ((s.tree 3).children.length ≤ s.index 0)
      | _ => false) = true := by decide +kernel
    rw [h1] at hd
    simpa using hd
  exact ⟨s', e, hs, fun h => C38_no_stray h hs⟩
example {s'} (e : (Call.splice 0 3 3 [1]).exec demo3.s = .panic .range s') := C38_after_panic (rest := [1, 0]) demo3_reach
  ⟨by decide +kernel, by decide +kernel, by decide +kernel, by simp⟩ e (by rintro _ _ _ _ ⟨⟩; decide)
example := C39_cycle_leaks (k := 10) (cs := [.token 2 ['c', 'c']]) (p := 0) (q := 3) (i := 5) (rest := [6, 5, 4, 3, 2, 1])
  demo2_reach (by decide +kernel) (by decide +kernel) (by decide +kernel) (by decide +kernel) (by decide)
  ⟨0, [], [2], demo2_loc0, demo2_loc3⟩ (demo2_room.mono (by decide))
example {s'} (e : (Call.splice 0 3 3 [1]).exec demo3.s = .panic .range s') : ∃ s'', Cur.dropAll [1] s' = .ok () s'' :=
  C38_drop_after_panic (rest := [1, 0]) (keep := [0]) demo3_reach
    ⟨by decide +kernel, by decide +kernel, by decide +kernel, by simp⟩ e (.refl _)
example : demo2.s.rc 0 = 4 := by decide +kernel
example := C38_counts (p := 0) demo2_reach (by decide +kernel)
example := C38_live (p := 3) demo2_reach
example := C38_green (p := 4) demo2_reach (by decide +kernel)
example := C38_owned demo2_reach
example := C39_needed (p := 3) demo2_reach (by decide +kernel)

theorem demo2_lk : demo2.lk = [] := by decide +kernel
/-- `C39_drop_all` and, with the handles gone, `C39_partial` apply to `demo2`. -/
example := C39_drop_all (s := demo2.s) (gs := demo2.gs) (hs := demo2.hs) (demo2_lk ▸ demo2_reach)
example : ∃ s, HReach s [] [] [] ∧ s.top = 1 := by
  have h := after_reach [.token 1 ['a'], .node 10 [0], .root false 0, .call (.drop 0)]
  have e : (after [.token 1 ['a'], .node 10 [0], .root false 0, .call (.drop 0)]).hs = [] ∧
      (after [.token 1 ['a'], .node 10 [0], .root false 0, .call (.drop 0)]).lk = [] ∧
      (after [.token 1 ['a'], .node 10 [0], .root false 0, .call (.drop 0)]).s.top = 1 := by decide +kernel
  refine ⟨_, ?_, e.2.2⟩
  have := HReach.dropGreen (gs' := []) h (by simp)
  rw [e.1, e.2.1] at this
  exact this

/-- An immutable tree with a single handle. -/
def demo4 : Conf := { after [.token 1 ['a'], .node 10 [0], .root false 0] with gs := [] }
theorem demo4_reach : demo4.Reach := HReach.dropGreen (gs' := []) (after_reach _) (by simp)
attribute [irreducible] demo4

/-- The counterexample to C39: after `to_next_sibling()` on the only handle of a tree the program holds nothing,
but the tree is still there. -/
theorem C39_fails : ∃ C : Conf, C.Reach ∧ ∃ h s' lk', (Call.toNext true h).Ready C.s C.gs C.hs [] ∧
    (Call.toNext true h).exec C.s = .ok [] s' ∧ HReach s' [] [] lk' ∧ s'.live h = true ∧ s'.owned ≠ [] := by
  have e : (match (Call.toNext true 0).exec demo4.s with
    | .ok [] s' => s'.live 0 && !s'.owned.isEmpty
    | _ => false) = true := by decide +kernel
  split at e
  · rename_i s' h
    have hg : demo4.gs = [] := by rw [demo4]
    have hr : (Call.toNext true 0).Ready demo4.s demo4.gs demo4.hs [] :=
      ⟨by decide +kernel, by simp [Call.uses], by simp [Call.nodes], by simp⟩
    refine ⟨demo4, demo4_reach, 0, s', (Call.lost (.toNext true 0) demo4.s ++ demo4.lk), hr, h, ?_, ?_, ?_⟩
    · have := HReach.ok (.toNext true 0) demo4_reach hr h
      rw [hg] at this; exact this
    · simp at e; exact e.1
    · simp at e; exact e.2
  · cases e

example := C42_cursor (p := 0) demo2_reach (by decide +kernel)
example := C42_cursor_clone (p := 0) demo2_reach (by decide +kernel)

/-- Seven handles, on six objects; `C42_handles` and `C42_no_abort` apply. -/
example : demo2.s.rc 0 ≤ (demo2.hs ++ demo2.lk).length := C42_handles demo2_reach (by decide +kernel)
example : (Call.clone 0).exec demo2.s ≠ .abort := C42_no_abort demo2_reach (by decide +kernel)
example : demo2.s.Room 1000 := C42_room demo2_reach (by decide +kernel) (by decide +kernel)

end Rowan
