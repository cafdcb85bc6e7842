import Verif.SllLemmas
import Verif.Spec.Sll
/-!
# C32: the sibling list stays sorted, circular and complete
-/
namespace Rowan
open Sll

theorem links_iff {nx pv : Nat → Option Nat} {a z : Nat} {l : List Nat} :
    Links nx pv a l z ↔ ∀ i (h : i < l.length + 1),
      nx ((a :: l)[i]'(by simpa using h)) = some ((l ++ [z])[i]'(by simpa using h)) ∧
      pv ((l ++ [z])[i]'(by simpa using h)) = some ((a :: l)[i]'(by simpa using h)) := by
  induction l generalizing a with
  | nil =>
    simp only [Links]
    constructor
    · intro h i hi
      obtain rfl : i = 0 := by simpa using hi
      simpa using h
    · intro h; simpa using h 0 (by simp)
  | cons b l ih =>
    simp only [Links, ih]
    constructor
    · rintro ⟨h1, h2, h3⟩ i hi
      cases i with
      | zero => simpa using ⟨h1, h2⟩
      | succ i => simpa using h3 i (by simpa using hi)
    · intro h
      refine ⟨by simpa using (h 0 (by simp)).1, by simpa using (h 0 (by simp)).2, ?_⟩
      intro i hi
      simpa using h (i + 1) (by simpa using hi)

theorem isRing_iff {nx pv : Nat → Option Nat} {l : List Nat} : IsRing nx pv l ↔ RingSpec nx pv l := by
  cases l with
  | nil => simp [IsRing, RingSpec]
  | cons a l =>
    simp only [IsRing, RingSpec, links_iff, List.length_cons]
    have key : ∀ i (h : i < l.length + 1), (l ++ [a])[i]'(by simpa using h) =
        (a :: l)[(i + 1) % (l.length + 1)]'(Nat.mod_lt _ (by omega)) := by
      intro i h
      by_cases hi : i < l.length
      · have e : (i + 1) % (l.length + 1) = i + 1 := Nat.mod_eq_of_lt (by omega)
        simp [e, List.getElem_append_left hi]
      · have : i = l.length := by omega
        subst this
        simp
    constructor
    · intro h i hi
      have := h i hi
      rw [key i hi] at this
      exact this
    · intro h i hi
      rw [key i hi]
      exact h i hi

theorem isList_iff {s : HSt} {q : Nat} {l : List Nat} : IsList s q l ↔ SortedRing s q l :=
  ⟨fun h => ⟨h.head, isRing_iff.mp h.ring, h.sorted⟩,
   fun h => ⟨h.head, isRing_iff.mpr h.ring, h.sorted⟩⟩

/-- Setting the key of an object, linking it as `NodeData::new` and `attach_child` do
(src/cursor.rs:247-274, 495-508), unlinking as `free` does (src/cursor.rs:199), and the two
adjustments of `detach` and `attach_child` (src/cursor.rs:465-467, 499-501). -/
def SllOp.run (q : Nat) : SllOp → H Unit
  | .insert p k => do
    H.wr p (·.setIndex p k)
    match ← link q k with
    | .alreadyInSll _ => pure ()
    | it => it.addToSll p
  | .remove p => unlink q p
  | .open_ k => do
    match ← H.rd q HSt.first with
    | none => pure ()
    | some h => adjust h k (.add 1)
  | .close p => do
    let k ← H.rd p HSt.index
    adjust p (k + 1) (.sub 1)
    unlink q p

/-- **C32 (insertion).** Linking an object whose key is new puts it at its place in the order; nothing
else moves; all other objects are untouched. -/
theorem C32_insert {s : HSt} {q p : Nat} {l : List Nat} (h : SortedRing s q l)
    (hq : s.live q = true) (hlive : ∀ x ∈ l, s.live x = true) (htop : ∀ x ∈ l, x < s.top)
    (hp : s.live p = true) (hpl : p ∉ l) (hnew : ∀ x ∈ l, s.index x ≠ s.index p) :
    ∃ r s', link q (s.index p) s = .ok r s ∧ r.addToSll p s = .ok () s' ∧
      SortedRing s' q (l.filter (fun x => s.index x < s.index p) ++
        p :: l.filter (fun x => s.index p < s.index x)) ∧
      s' = { s with next := s'.next, prev := s'.prev, first := s'.first } ∧
      (∀ x, x ∉ l → x ≠ p → s'.next x = s.next x ∧ s'.prev x = s.prev x) ∧
      (∀ x, x ≠ q → s'.first x = s.first x) := by
  rw [← isList_iff] at h
  obtain ⟨r, hr, hspec⟩ := link_ok (s.index p) h hq hlive htop
  have hna : ∀ c, r ≠ .alreadyInSll c := by
    rintro c rfl
    rcases hspec with ⟨_, e⟩ | ⟨_, _, _, _, e⟩ | ⟨_, _, _, _, _, _, e⟩ | ⟨c', hc, hk, _⟩
    · cases e
    · cases e
    · cases e
    · exact hnew c' hc hk
  obtain ⟨N, P, F, h1, h2, h3, h4⟩ := add_ok h hq hlive hp hpl hspec hna
  exact ⟨r, _, hr, h1, isList_iff.mp h4, rfl, h2, h3⟩

/-- **C32 (search).** `link` reports an existing element exactly when the key is present, and that
element has the key; the state is not changed. -/
theorem C32_link_finds {s : HSt} {q : Nat} {l : List Nat} (key : Nat) (h : SortedRing s q l)
    (hq : s.live q = true) (hlive : ∀ x ∈ l, s.live x = true) (htop : ∀ x ∈ l, x < s.top) :
    ∃ r, link q key s = .ok r s ∧
      ∀ c, r = .alreadyInSll c ↔ c ∈ l ∧ s.index c = key := by
  rw [← isList_iff] at h
  obtain ⟨r, hr, hspec⟩ := link_ok key h hq hlive htop
  refine ⟨r, hr, fun c => ?_⟩
  have huniq : ∀ a ∈ l, ∀ b ∈ l, s.index a = s.index b → a = b := by
    intro a ha b hb hab
    have hs := h.sorted
    obtain ⟨i, hi, rfl⟩ := List.getElem_of_mem ha
    obtain ⟨j, hj, rfl⟩ := List.getElem_of_mem hb
    rw [List.pairwise_iff_getElem] at hs
    rcases Nat.lt_trichotomy i j with hij | hij | hij
    · have := hs i j hi hj hij; omega
    · subst hij; rfl
    · have := hs j i hj hi hij; omega
  rcases hspec with ⟨rfl, rfl⟩ | ⟨a, l', rfl, hk, rfl⟩ | ⟨l1, d, l2, hl, hd, h2, rfl⟩ |
    ⟨d, hd, hk, rfl⟩
  · simp
  · simp only [reduceCtorEq, false_iff, not_and]
    intro hc hck
    rcases List.mem_cons.mp hc with rfl | hc
    · omega
    · have := (List.pairwise_cons.mp h.sorted).1 c hc; omega
  · simp only [reduceCtorEq, false_iff, not_and]
    intro hc hck
    have hs := h.sorted
    rw [hl] at hc hs
    rw [List.pairwise_append] at hs
    rcases List.mem_append.mp hc with hc | hc
    · have := hs.2.2 c hc d (by simp); omega
    · rcases List.mem_cons.mp hc with rfl | hc
      · omega
      · have := h2 c hc; omega
  · constructor
    · intro e; cases e; exact ⟨hd, hk⟩
    · rintro ⟨hc, hck⟩
      rw [huniq c hc d hd (by omega)]

/-- **C32 (removal).** Unlinking takes out exactly that element, leaves it as a ring of its own, and
empties the head when it was the last one. -/
theorem C32_unlink {s : HSt} {q p : Nat} {l : List Nat} (h : SortedRing s q l) (hq : s.live q = true)
    (hlive : ∀ x ∈ l, s.live x = true) (hp : p ∈ l) :
    ∃ s', unlink q p s = .ok () s' ∧ SortedRing s' q (l.erase p) ∧
      (l = [p] → s'.first q = none) ∧ s'.next p = some p ∧ s'.prev p = some p ∧
      s' = { s with next := s'.next, prev := s'.prev, first := s'.first } ∧
      (∀ x, x ∉ l → s'.next x = s.next x ∧ s'.prev x = s.prev x) ∧
      (∀ x, x ≠ q → s'.first x = s.first x) := by
  rw [← isList_iff] at h
  obtain ⟨N, P, F, h1, h2, h3, h4, h5⟩ := unlink_ok h hq hlive hp
  refine ⟨_, h1, isList_iff.mp h5, ?_, h3.1, h3.2, rfl, h2, h4⟩
  rintro rfl
  simpa using h5.head

/-- **C32 (key shift).** From any element of the ring, `adjust` applies the shift to exactly the keys
at or above the bound, once each, and changes nothing else. -/
theorem C32_adjust {s : HSt} {q p start : Nat} {d : Delta} {l : List Nat} (h : SortedRing s q l)
    (hlive : ∀ x ∈ l, s.live x = true) (htop : ∀ x ∈ l, x < s.top) (hp : p ∈ l)
    (hfits : ∀ x ∈ l, start ≤ s.index x → d.fits (s.index x) = true) :
    adjust p start d s = .ok () { s with
        index := fun x => if x ∈ l ∧ start ≤ s.index x then d.apply (s.index x) else s.index x } := by
  rw [← isList_iff] at h
  exact adjust_ok h.ring h.nodup hp hlive htop hfits

/-- The list with its keys. -/
def HSt.keyed (s : HSt) (l : List Nat) : KeyList := l.map fun x => (x, s.index x)

theorem keyed_filter (s : HSt) (l : List Nat) (f : Nat × Nat → Bool) :
    (s.keyed l).filter f = s.keyed (l.filter fun x => f (x, s.index x)) := by
  simp [HSt.keyed, List.filter_map, Function.comp_def]

theorem erase_eq_filter' {l : List Nat} (h : l.Nodup) (p : Nat) :
    l.erase p = l.filter (fun x => decide (x ≠ p)) := by
  rw [h.erase_eq_filter]; congr 1; funext x; simp only [bne, decide_not]; rfl

/-- One operation, concretely and abstractly. -/
theorem SllOp.run_ok {s : HSt} {q : Nat} {l : List Nat} (h : IsList s q l) (hq : s.live q = true)
    (hlive : ∀ x ∈ l, s.live x = true) (htop : ∀ x, s.live x = true → x < s.top) (op : SllOp)
    (hok : op.Ok s (s.keyed l)) :
    ∃ s' l', op.run q s = .ok () s' ∧ IsList s' q l' ∧ s'.keyed l' = op.abs (s.keyed l) ∧
      (∀ x ∈ l', s'.live x = true) ∧ s'.live = s.live ∧ s'.top = s.top := by
  have hm : ∀ x, x ∈ (s.keyed l).map (·.1) ↔ x ∈ l := by
    intro x; simp [HSt.keyed, Function.comp_def]
  have htl : ∀ x ∈ l, x < s.top := fun x hx => htop x (hlive x hx)
  cases op with
  | insert p k =>
    simp only [SllOp.Ok, hm] at hok
    obtain ⟨hp, hpl⟩ := hok
    have hidx : ∀ x ∈ l, (s.setIndex p k).index x = s.index x := by
      intro x hx
      simp only [HSt.setIndex]
      rw [upd_other]; rintro rfl; exact hpl hx
    have h1 : IsList (s.setIndex p k) q l :=
      ⟨h.head, h.ring, h.sorted.imp_of_mem (fun {a b} ha hb hab => by
        rw [hidx a ha, hidx b hb]; exact hab)⟩
    have hkeyed : (s.setIndex p k).keyed l = s.keyed l := by
      simp only [HSt.keyed]
      exact List.map_congr_left fun x hx => by rw [hidx x hx]
    have hpk : (s.setIndex p k).index p = k := by simp [HSt.setIndex]
    simp only [SllOp.run]
    rw [H.bind_ok (H.wr_ok hp)]
    obtain ⟨r, hr, hspec⟩ := link_ok k h1 hq hlive htl
    rw [H.bind_ok hr]
    by_cases ha : ∃ c, r = .alreadyInSll c
    · obtain ⟨c, rfl⟩ := ha
      refine ⟨_, l, rfl, h1, ?_, hlive, rfl, rfl⟩
      rw [hkeyed]
      simp only [SllOp.abs]
      rw [if_pos]
      rcases hspec with ⟨_, e⟩ | ⟨_, _, _, _, e⟩ | ⟨_, _, _, _, _, _, e⟩ | ⟨c', hc, hk, _⟩
      · cases e
      · cases e
      · cases e
      · simp only [HSt.keyed, List.any_map, List.any_eq_true, Function.comp]
        exact ⟨c', hc, by rw [hidx c' hc] at hk; simpa using hk⟩
    · have hna : ∀ c, r ≠ .alreadyInSll c := fun c e => ha ⟨c, e⟩
      have hnone : ¬ ∃ c ∈ l, s.index c = k := by
        rintro ⟨c, hc, hck⟩
        have := C32_link_finds k (isList_iff.mp h1) hq hlive htl
        obtain ⟨r', hr', hf⟩ := this
        rw [hr] at hr'
        cases hr'
        exact hna c ((hf c).mpr ⟨hc, by rw [hidx c hc]; exact hck⟩)
      obtain ⟨N, P, F, e1, e2, e3, e4⟩ := add_ok h1 hq hlive hp hpl (by rw [hpk]; exact hspec) hna
      refine ⟨{ (s.setIndex p k) with next := N, prev := P, first := F }, _, ?_, e4, ?_, ?_, rfl, rfl⟩
      · cases r with
        | alreadyInSll c => exact absurd rfl (hna c)
        | _ => exact e1
      · simp only [SllOp.abs]
        rw [if_neg]
        · rw [keyed_filter, keyed_filter]
          simp only [insertAt, HSt.keyed, List.map_append, List.map_cons, hpk]
          have hx : ∀ (f g : Nat → Bool), (∀ x ∈ l, f x = g x) →
              (l.filter f).map (fun x => (x, (s.setIndex p k).index x)) =
              (l.filter g).map (fun x => (x, s.index x)) := by
            intro f g hfg
            rw [List.filter_congr hfg]
            exact List.map_congr_left fun x hx => by rw [hidx x (List.mem_filter.mp hx).1]
          rw [hx _ (fun x => decide (s.index x < k)) (fun x hx => by rw [hidx x hx]),
            hx _ (fun x => decide (k < s.index x)) (fun x hx => by rw [hidx x hx])]
        · simp only [HSt.keyed, List.any_map, List.any_eq_true, Function.comp]
          rintro ⟨c, hc, hck⟩
          exact hnone ⟨c, hc, by simpa using hck⟩
      · intro x hx
        simp only [insertAt, List.mem_append, List.mem_cons, List.mem_filter] at hx
        show s.live x = true
        rcases hx with hx | rfl | hx
        · exact hlive x hx.1
        · exact hp
        · exact hlive x hx.1
  | remove p =>
    simp only [SllOp.Ok, hm] at hok
    obtain ⟨N, P, F, e1, e2, e3, e4, e5⟩ := unlink_ok h hq hlive hok
    refine ⟨_, _, e1, e5, ?_, fun x hx => hlive x (List.mem_of_mem_erase hx), rfl, rfl⟩
    simp only [SllOp.abs, keyed_filter]
    rw [erase_eq_filter' h.nodup]
    rfl
  | open_ k =>
    simp only [SllOp.run]
    rw [H.bind_ok (H.rd_ok hq), h.head]
    cases l with
    | nil => exact ⟨s, [], rfl, h, rfl, hlive, rfl, rfl⟩
    | cons a l =>
      simp only [List.head?_cons]
      rw [adjust_ok h.ring h.nodup (by simp) hlive htl (by intros; rfl)]
      refine ⟨_, a :: l, rfl, ⟨h.head, h.ring, ?_⟩, ?_, hlive, rfl, rfl⟩
      · refine h.sorted.imp_of_mem ?_
        intro x y hx hy hxy
        simp only [hx, hy, true_and, Delta.apply]
        split <;> split <;> omega
      · simp only [SllOp.abs, HSt.keyed, List.map_map]
        apply List.map_congr_left
        intro x hx
        simp only [hx, true_and, Delta.apply, Function.comp]
        split <;> rfl
  | close p =>
    simp only [SllOp.Ok, hm] at hok
    simp only [SllOp.run]
    rw [H.bind_ok (H.rd_ok (hlive p hok))]
    rw [H.bind_ok (adjust_ok h.ring h.nodup hok hlive htl (by
      intro x _ hle; simp only [Delta.fits, decide_eq_true_eq]; omega))]
    have hne : ∀ x ∈ l, x ≠ p → s.index x ≠ s.index p := by
      intro a ha hab he
      have hs := h.sorted
      obtain ⟨i, hi, rfl⟩ := List.getElem_of_mem ha
      obtain ⟨j, hj, rfl⟩ := List.getElem_of_mem hok
      rw [List.pairwise_iff_getElem] at hs
      rcases Nat.lt_trichotomy i j with hij | hij | hij
      · have := hs i j hi hj hij; omega
      · subst hij; exact hab rfl
      · have := hs j i hj hi hij; omega
    obtain ⟨N, P, F, e1, e2, e3, e4, e5, e6⟩ := unlink_ring (s := { s with
        index := fun x => if x ∈ l ∧ s.index p + 1 ≤ s.index x then Delta.apply (.sub 1) (s.index x)
                          else s.index x }) h.head h.ring h.nodup hq hlive hok
    refine ⟨_, _, e1, ⟨e5, e6, ?_⟩, ?_, fun x hx => hlive x (List.mem_of_mem_erase hx), rfl, rfl⟩
    · refine (h.sorted.sublist List.erase_sublist).imp_of_mem ?_
      intro x y hx hy hxy
      have hx' := (h.nodup.mem_erase_iff).mp hx
      have hy' := (h.nodup.mem_erase_iff).mp hy
      have := hne x hx'.2 hx'.1
      have := hne y hy'.2 hy'.1
      simp only [hx'.2, hy'.2, true_and, Delta.apply]
      split <;> split <;> omega
    · simp only [SllOp.abs]
      have hfind : (s.keyed l).find? (fun e => e.1 == p) = some (p, s.index p) := by
        simp only [HSt.keyed, List.find?_map, Function.comp_def]
        have : l.find? (fun x => x == p) = some p := by
          cases hf : l.find? (fun x => x == p) with
          | none => simp at hf; exact absurd rfl (hf p hok)
          | some y => have := List.find?_some hf; simp at this; rw [this]
        rw [this]; rfl
      rw [hfind]
      simp only [keyed_filter]
      rw [← erase_eq_filter' h.nodup]
      simp only [HSt.keyed, List.map_map]
      apply List.map_congr_left
      intro x hx
      have hx' := (h.nodup.mem_erase_iff).mp hx
      simp only [hx'.2, true_and, Delta.apply, Function.comp]
      by_cases hlt : s.index p < s.index x
      · rw [if_pos (by omega), if_pos hlt]
      · rw [if_neg (by omega), if_neg hlt]

/-- Run a sequence of operations. -/
def SllOp.runs (q : Nat) : List SllOp → H Unit
  | [] => pure ()
  | op :: ops => do op.run q; SllOp.runs q ops

/-- Every operation of the sequence is allowed when its turn comes. -/
def SllOp.AllOk (s : HSt) : List SllOp → KeyList → Prop
  | [], _ => True
  | op :: ops, l => op.Ok s l ∧ SllOp.AllOk s ops (op.abs l)

theorem SllOp.Ok_congr {s s' : HSt} (h : s'.live = s.live) {op : SllOp} {l : KeyList} :
    op.Ok s' l ↔ op.Ok s l := by cases op <;> simp [SllOp.Ok, h]

theorem SllOp.AllOk_congr {s s' : HSt} (h : s'.live = s.live) {ops : List SllOp} {l : KeyList} :
    SllOp.AllOk s' ops l ↔ SllOp.AllOk s ops l := by
  induction ops generalizing l with
  | nil => simp [SllOp.AllOk]
  | cons op ops ih => simp [SllOp.AllOk, SllOp.Ok_congr h, ih]

/-- **C32.** Whatever sequence of operations is applied to the list of an object, starting from an
empty list: it terminates without touching freed memory or violating a debug assertion, and
afterwards the ring reached from the head holds exactly the elements and keys the abstract list has,
in strictly increasing order, with `next` and `prev` inverse to each other. -/
theorem C32_sorted_ring {s : HSt} {q : Nat} (hempty : s.first q = none) (hq : s.live q = true)
    (htop : ∀ x, s.live x = true → x < s.top) (ops : List SllOp) (hok : SllOp.AllOk s ops []) :
    ∃ s' l, SllOp.runs q ops s = .ok () s' ∧ SortedRing s' q l ∧
      s'.keyed l = ops.foldl (fun a op => op.abs a) [] := by
  have key : ∀ (ops : List SllOp) (s : HSt) (l : List Nat), IsList s q l → s.live q = true →
      (∀ x ∈ l, s.live x = true) → (∀ x, s.live x = true → x < s.top) →
      SllOp.AllOk s ops (s.keyed l) →
      ∃ s' l', SllOp.runs q ops s = .ok () s' ∧ IsList s' q l' ∧
        s'.keyed l' = ops.foldl (fun a op => op.abs a) (s.keyed l) := by
    intro ops
    induction ops with
    | nil => intro s l h _ _ _ _; exact ⟨s, l, rfl, h, rfl⟩
    | cons op ops ih =>
      intro s l h hq hlive htop hok
      obtain ⟨s1, l1, e1, e2, e3, e4, e5, e6⟩ := SllOp.run_ok h hq hlive htop op hok.1
      obtain ⟨s2, l2, f1, f2, f3⟩ := ih s1 l1 e2 (by rw [e5]; exact hq) e4
        (by rw [e5, e6]; exact htop) (by rw [SllOp.AllOk_congr e5, e3]; exact hok.2)
      refine ⟨s2, l2, ?_, f2, ?_⟩
      · simp only [SllOp.runs]; rw [H.bind_ok e1]; exact f1
      · rw [f3, e3]; rfl
  obtain ⟨s', l', h1, h2, h3⟩ := key ops s [] ⟨by simpa using hempty, trivial, by simp⟩ hq
    (by simp) htop (by simpa [HSt.keyed] using hok)
  exact ⟨s', l', h1, isList_iff.mp h2, h3⟩

/-! ### The hypotheses are met -/

/-- Eight live objects without links. -/
def sllDemo : HSt := { HSt.empty 0 with live := fun p => decide (p < 8), top := 8 }

example : sllDemo.first 0 = none ∧ sllDemo.live 0 = true ∧
    (∀ x, sllDemo.live x = true → x < sllDemo.top) ∧
    SllOp.AllOk sllDemo [.insert 3 5, .insert 1 2, .insert 2 7, .insert 4 3, .insert 5 7, .open_ 3,
      .close 4, .remove 1] [] := by
  refine ⟨rfl, rfl, fun x h => by simpa [sllDemo] using h, ?_⟩
  simp [SllOp.AllOk, SllOp.Ok, SllOp.abs, sllDemo]

example : ([.insert 3 5, .insert 1 2, .insert 2 7, .insert 4 3, .insert 5 7, .open_ 3, .close 4,
    .remove 1] : List SllOp).foldl (fun a op => op.abs a) [] = [(3, 5), (2, 7)] := by decide

/-- A ring `1 → 2 → 4` below object 0, with keys 2, 5, 6. -/
def sllRing : HSt :=
  { sllDemo with
    first := upd (fun _ => none) 0 (some 1)
    next := upd (upd (upd (fun _ => none) 1 (some 2)) 2 (some 4)) 4 (some 1)
    prev := upd (upd (upd (fun _ => none) 2 (some 1)) 4 (some 2)) 1 (some 4)
    index := upd (upd (upd (upd (fun _ => 0) 1 2) 2 5) 4 6) 3 4 }

theorem sllRing_ok : SortedRing sllRing 0 [1, 2, 4] :=
  ⟨rfl, isRing_iff.mp (by simp [IsRing, Links, sllRing, upd]), by simp [sllRing, upd]⟩

example := C32_insert (p := 3) sllRing_ok rfl (by decide) (by decide) rfl (by decide) (by decide)
example := C32_link_finds 5 sllRing_ok rfl (by decide) (by decide)
example := C32_unlink (p := 1) sllRing_ok rfl (by decide) (by decide)
example := C32_adjust (p := 2) (start := 6) (d := .sub 1) sllRing_ok (by decide) (by decide)
  (by decide) (by decide)

end Rowan
