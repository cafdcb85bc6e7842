import Verif.Heap
import Verif.SllLemmas
import Verif.WalkLemmas
/-!
# The invariant of the cursor heap

Unless their comments cite lines of `/repo`, the definitions in this file are vocabulary of the proofs and model no code.
-/
namespace Rowan

/-- `l` is `p` followed by its ancestors up to the root. -/
inductive Chain (s : HSt) : Nat → List Nat → Prop
  | root {p} : s.live p = true → s.parent p = none → Chain s p [p]
  | step {p q l} : s.live p = true → s.parent p = some q → Chain s q l → Chain s p (p :: l)

namespace Chain
variable {s : HSt} {p q : Nat} {l l' : List Nat}

theorem live (h : Chain s p l) : s.live p = true := by cases h <;> assumption

theorem unique (h : Chain s p l) (h' : Chain s p l') : l = l' := by
  induction h generalizing l' with
  | root hl hp =>
    cases h' with
    | root => rfl
    | step _ hp' => rw [hp] at hp'; cases hp'
  | step hl hp hc ih =>
    cases h' with
    | root _ hp' => rw [hp] at hp'; cases hp'
    | step _ hp' hc' =>
      rw [hp] at hp'; cases hp'
      rw [ih hc']

theorem self_mem (h : Chain s p l) : p ∈ l := by cases h <;> simp

/-- Every element of a chain is live, and its own chain is a suffix. -/
theorem suffix (h : Chain s p l) {x : Nat} (hx : x ∈ l) : ∃ l1 l2, l = l1 ++ l2 ∧ Chain s x l2 := by
  induction h with
  | root hl hp => simp at hx; subst hx; exact ⟨[], _, rfl, .root hl hp⟩
  | step hl hp hc ih =>
    rcases List.mem_cons.mp hx with rfl | hx
    · exact ⟨[], _, rfl, .step hl hp hc⟩
    · obtain ⟨l1, l2, e, h2⟩ := ih hx
      exact ⟨_ :: l1, l2, by rw [e]; rfl, h2⟩

theorem live_of_mem (h : Chain s p l) {x : Nat} (hx : x ∈ l) : s.live x = true := by
  obtain ⟨_, _, _, h2⟩ := h.suffix hx; exact h2.live

/-- Chains are closed under `parent`. -/
theorem parent_mem (h : Chain s p l) {x y : Nat} (hx : x ∈ l) (hy : s.parent x = some y) :
    y ∈ l := by
  obtain ⟨l1, l2, e, h2⟩ := h.suffix hx
  cases h2 with
  | root _ hp => rw [hp] at hy; cases hy
  | step _ hp hc => rw [hp] at hy; cases hy; rw [e]; simp [hc.self_mem]

theorem nodup (h : Chain s p l) : l.Nodup := by
  induction h with
  | root => simp
  | @step p q l hl hp hc ih =>
    refine List.nodup_cons.mpr ⟨fun hmem => ?_, ih⟩
    obtain ⟨l1, l2, e, h2⟩ := hc.suffix hmem
    have := (Chain.step hl hp hc).unique h2
    have := congrArg List.length this
    rw [e] at this
    simp at this
    omega

theorem ne_nil (h : Chain s p l) : l ≠ [] := by cases h <;> simp

/-- The last element is a root. -/
theorem last_root (h : Chain s p l) : s.parent (l.getLast h.ne_nil) = none := by
  induction h with
  | root _ hp => simpa using hp
  | @step p q l hl hp hc ih => rw [List.getLast_cons hc.ne_nil]; exact ih

/-- Only the last element is a root. -/
theorem eq_last (h : Chain s p l) {x : Nat} (hx : x ∈ l) (hp : s.parent x = none) :
    x = l.getLast h.ne_nil := by
  obtain ⟨l1, l2, e, h2⟩ := h.suffix hx
  cases h2 with
  | root => subst e; simp
  | step _ hp' => rw [hp] at hp'; cases hp'

/-- An element other than the first one is the parent of an element of the chain. -/
theorem child_mem (h : Chain s p l) {x : Nat} (hx : x ∈ l) (hne : x ≠ p) :
    ∃ y ∈ l, s.live y = true ∧ s.parent y = some x := by
  induction h with
  | root => simp at hx; exact absurd hx hne
  | @step p q l hl hp hc ih =>
    rcases List.mem_cons.mp hx with rfl | hx
    · exact absurd rfl hne
    · by_cases hxq : x = q
      · subst hxq; exact ⟨p, by simp, hl, hp⟩
      · obtain ⟨y, hy, h1, h2⟩ := ih hx hxq
        exact ⟨y, by simp [hy], h1, h2⟩

theorem length_le (h : Chain s p l) (htop : ∀ x, s.live x = true → x < s.top) : l.length ≤ s.top :=
  nodup_length_le h.nodup fun x hx => htop x (h.live_of_mem hx)

theorem congr {s' : HSt} (h : Chain s p l)
    (hl : ∀ x ∈ l, s'.live x = true ∧ s'.parent x = s.parent x) : Chain s' p l := by
  induction h with
  | root _ hp => exact .root (hl _ (by simp)).1 ((hl _ (by simp)).2.trans hp)
  | step _ hp hc ih =>
    exact .step (hl _ (by simp)).1 ((hl _ (by simp)).2.trans hp)
      (ih fun x hx => hl x (List.mem_cons_of_mem _ hx))

end Chain

/-- One more handle on `p`. -/
def inc (hc : Nat → Nat) (p : Nat) : Nat → Nat := upd hc p (hc p + 1)
@[simp] theorem inc_same (hc : Nat → Nat) (p : Nat) : inc hc p p = hc p + 1 := by simp [inc]
theorem inc_other (hc : Nat → Nat) {p x : Nat} (h : x ≠ p) : inc hc p x = hc x := by
  simp [inc, upd_other _ _ h]
theorem le_inc (hc : Nat → Nat) (p x : Nat) : hc x ≤ inc hc p x := by
  by_cases h : x = p
  · subst h; simp
  · simp [inc_other _ h]
theorem inc_comm (hc : Nat → Nat) (p q : Nat) : inc (inc hc p) q = inc (inc hc q) p := by
  funext x; simp only [inc, upd]; grind

/-- A green object kept alive by the references the cursors hold. -/
def HSt.Alive (s : HSt) (x : GElem) : Prop := ∃ o ∈ s.owned, x ∈ o.subs

/-- The green nodes and tokens the program itself holds. -/
class Greens where
  held : List GElem

set_option linter.unusedSectionVars false
variable [Greens]

/-- A green object that the heap or the program keeps alive. -/
def HSt.Known (s : HSt) (x : GElem) : Prop := s.Alive x ∨ ∃ o ∈ Greens.held, x ∈ o.subs

/-- A collection of green objects: one object per address, all addresses below `lo`, closed under
taking children, well formed. -/
structure Uni (U : GElem → Prop) (lo : Nat) : Prop where
  coh : ∀ x y, U x → U y → x.addr = y.addr → x = y
  fresh : ∀ x, U x → x.addr < lo
  closed : ∀ x, U x → ∀ y ∈ x.subs, U y
  wf : ∀ x, U x → x.WF

/-- The heap invariant.  `hc p` is the number of handles on `p`, `kids p` lists the live children of
`p`.  `z` is an object allowed to have reference count zero (about to be freed); `bad` lists
objects whose green pointer does not match the parent's child list (in the middle of a mutation, or
after a caught out-of-range panic). -/
structure HInv (s : HSt) (hc : Nat → Nat) (kids : Nat → List Nat) (z : Option Nat) (bad : List Nat) : Prop where
  top : ∀ p, s.live p = true → p < s.top
  hlive : ∀ p, 0 < hc p → s.live p = true
  rc : ∀ p, s.live p = true → s.rc p = hc p + (kids p).length
  pos : ∀ p, s.live p = true → some p ≠ z → 0 < s.rc p
  rcLe : ∀ p, s.live p = true → s.rc p ≤ Cur.rcMax
  kidsMem : ∀ p q, q ∈ kids p ↔ s.live q = true ∧ s.parent q = some p
  kidsNodup : ∀ p, (kids p).Nodup
  parentOk : ∀ p q, s.live p = true → s.parent p = some q →
    s.live q = true ∧ s.mutable q = s.mutable p
  parNode : ∀ p q, s.live p = true → s.parent p = some q → ∃ n, s.green q = .node n
  greenOk : ∀ p q, s.live p = true → s.parent p = some q → p ∉ bad → ∃ n c,
    s.green q = .node n ∧ n.slice[s.index p]? = some c ∧ c.asRef = s.green p ∧
    (s.mutable p = false → s.offset p = s.offset q + c.relOffset)
  rootOff : ∀ p, s.live p = true → s.parent p = none → s.mutable p = false → s.offset p = 0
  chain : ∀ p, s.live p = true → ∃ l, Chain s p l
  ringM : ∀ p, s.live p = true → s.mutable p = true → IsList s p (kids p)
  selfM : ∀ p, s.live p = true → s.mutable p = true → s.parent p = none →
    s.next p = some p ∧ s.prev p = some p
  firstI : ∀ p, s.live p = true → s.mutable p = false → s.first p = none
  roots : ∃ rs : List Nat, rs.Nodup ∧ (∀ p, p ∈ rs ↔ s.live p = true ∧ s.parent p = none) ∧
    s.owned.Perm (rs.map s.green)
  uni : Uni s.Known s.gtop

theorem HSt.Known.subs {s : HSt} {x y : GElem} (h : s.Known x) (hy : y ∈ x.subs) : s.Known y := by
  rcases h with ⟨o, ho, hx⟩ | ⟨o, ho, hx⟩
  · exact .inl ⟨o, ho, GElem.subs_trans hx hy⟩
  · exact .inr ⟨o, ho, GElem.subs_trans hx hy⟩

theorem HSt.Known.mono {s s' : HSt} (h : ∀ x, s.Alive x → s'.Alive x) {x : GElem} (hx : s.Known x) :
    s'.Known x := hx.imp (h x) id

namespace HInv
variable {s : HSt} {hc : Nat → Nat} {kids : Nat → List Nat} {z : Option Nat} {bad : List Nat}

theorem owned_of_root (h : HInv s hc kids z bad) {p : Nat} (hl : s.live p = true)
    (hp : s.parent p = none) : s.green p ∈ s.owned := by
  obtain ⟨rs, _, h2, h3⟩ := h.roots
  exact h3.symm.mem_iff.mp (List.mem_map.mpr ⟨p, (h2 p).mpr ⟨hl, hp⟩, rfl⟩)

theorem alive_subs {x y : GElem} (h : s.Alive x) (hy : y ∈ x.subs) : s.Alive y := by
  obtain ⟨o, ho, hx⟩ := h
  exact ⟨o, ho, GElem.subs_trans hx hy⟩

/-- The green data of an object is kept alive by its root, unless a broken object is on the way. -/
theorem alive_chain (h : HInv s hc kids z bad) {p : Nat} {l : List Nat} (hc' : Chain s p l)
    (hb : ∀ x ∈ l, x ∉ bad) : s.Alive (s.green p) := by
  induction hc' with
  | root hl hp => exact ⟨_, h.owned_of_root hl hp, GElem.self_mem_subs _⟩
  | @step p q l hl hp hc' ih =>
    obtain ⟨n, c, h1, h2, h3, _⟩ := h.greenOk p q hl hp (hb p (by simp))
    have hq := ih fun x hx => hb x (List.mem_cons_of_mem _ hx)
    rw [h1] at hq
    refine alive_subs hq ?_
    rw [← h3]
    exact GNode.children_mem_subs (List.mem_map.mpr ⟨c, List.mem_of_getElem? h2, rfl⟩)

theorem alive (h : HInv s hc kids z []) {p : Nat} (hl : s.live p = true) : s.Alive (s.green p) := by
  obtain ⟨l, hc'⟩ := h.chain p hl
  exact h.alive_chain hc' (by simp)

theorem holds_iff {a : Nat} : s.holds a = true ↔ ∃ x, s.Alive x ∧ x.addr = a := by
  simp only [HSt.holds, List.any_eq_true, HSt.Alive, beq_iff_eq]
  constructor
  · rintro ⟨o, ho, x, hx, rfl⟩; exact ⟨x, ⟨o, ho, hx⟩, rfl⟩
  · rintro ⟨x, ⟨o, ho, hx⟩, rfl⟩; exact ⟨o, ho, x, hx, rfl⟩

theorem derefG_ok {g : GElem} (h : s.Alive g) : H.derefG g s = .ok () s := by
  have : s.holds g.addr = true := holds_iff.mpr ⟨g, h, rfl⟩
  simp [H.derefG, this]

theorem kid_live (h : HInv s hc kids z bad) {p q : Nat} (hq : q ∈ kids p) : s.live q = true :=
  ((h.kidsMem p q).mp hq).1

theorem kid_top (h : HInv s hc kids z bad) {p q : Nat} (hq : q ∈ kids p) : q < s.top :=
  h.top q (h.kid_live hq)

theorem par_not_kid (h : HInv s hc kids z bad) {p : Nat} : p ∉ kids p := by
  intro hm
  obtain ⟨hl, hp⟩ := (h.kidsMem p p).mp hm
  obtain ⟨l, hc'⟩ := h.chain p hl
  cases hc' with
  | root _ hp' => rw [hp] at hp'; cases hp'
  | step _ hp' hc2 =>
    rw [hp] at hp'; cases hp'
    have h1 := (Chain.step hl hp hc2).unique hc2
    have := congrArg List.length h1
    simp at this

theorem weaken_z (h : HInv s hc kids z bad) (hz : ∀ p, z = some p → s.live p = true → 0 < s.rc p) :
    HInv s hc kids none bad :=
  { h with
    pos := fun p hl _ => by
      by_cases e : some p = z
      · exact hz p e.symm hl
      · exact h.pos p hl e }

theorem drop_bad (h : HInv s hc kids z bad) (hb : ∀ p ∈ bad, s.live p = false) :
    HInv s hc kids z [] :=
  { h with
    greenOk := fun p q hl hp _ => h.greenOk p q hl hp (by
      intro e; rw [hb p e] at hl; cases hl) }

end HInv

/-- `x` keeps its place, its green pointer and its mutability. -/
structure Keeps (s s' : HSt) (x : Nat) : Prop where
  parent : s'.parent x = s.parent x
  index : s'.index x = s.index x
  green : s'.green x = s.green x
  mutable : s'.mutable x = s.mutable x
  offset : s'.offset x = s.offset x

theorem Keeps.refl (s : HSt) (x : Nat) : Keeps s s x := ⟨rfl, rfl, rfl, rfl, rfl⟩
theorem Keeps.trans {s s1 s2 : HSt} {x : Nat} (h : Keeps s s1 x) (h' : Keeps s1 s2 x) :
    Keeps s s2 x :=
  ⟨h'.parent.trans h.parent, h'.index.trans h.index, h'.green.trans h.green,
   h'.mutable.trans h.mutable, h'.offset.trans h.offset⟩

/-- Objects may have been freed, nothing else changed. -/
structure Shrinks (s s' : HSt) : Prop where
  keeps : ∀ x, s'.live x = true → s.live x = true ∧ Keeps s s' x
  top : s'.top = s.top
  gtop : s'.gtop = s.gtop

theorem Shrinks.refl (s : HSt) : Shrinks s s := ⟨fun x h => ⟨h, .refl s x⟩, rfl, rfl⟩
theorem Shrinks.trans {s s1 s2 : HSt} (h : Shrinks s s1) (h' : Shrinks s1 s2) : Shrinks s s2 :=
  ⟨fun x hx => by
    obtain ⟨h1, h2⟩ := h'.keeps x hx
    obtain ⟨h3, h4⟩ := h.keeps x h1
    exact ⟨h3, h4.trans h2⟩, h'.top.trans h.top, h'.gtop.trans h.gtop⟩

/-- Objects may have been added, nothing else changed. -/
structure Grows (s s' : HSt) : Prop where
  keeps : ∀ x, s.live x = true → s'.live x = true ∧ Keeps s s' x
  top : s.top ≤ s'.top

theorem Grows.refl (s : HSt) : Grows s s := ⟨fun x h => ⟨h, .refl s x⟩, Nat.le_refl _⟩
theorem Grows.trans {s s1 s2 : HSt} (h : Grows s s1) (h' : Grows s1 s2) : Grows s s2 :=
  ⟨fun x hx => by
    obtain ⟨h1, h2⟩ := h.keeps x hx
    obtain ⟨h3, h4⟩ := h'.keeps x h1
    exact ⟨h3, h2.trans h4⟩, Nat.le_trans h.top h'.top⟩

theorem perm_eraseP {l : List GElem} {g : GElem} (hg : g ∈ l)
    (hcoh : ∀ x ∈ l, x.addr = g.addr → x = g) : l.Perm (g :: l.eraseP (·.addr == g.addr)) := by
  obtain ⟨a, l1, l2, _, h2, h3, h4⟩ := List.exists_of_eraseP (p := (·.addr == g.addr)) hg (by simp)
  have ha : a = g := hcoh a (by rw [h3]; simp) (by simpa using h2)
  subst ha
  rw [h4, h3]
  exact List.perm_middle

namespace Cur
variable {s : HSt} {hc : Nat → Nat} {kids : Nat → List Nat} {z : Option Nat} {bad : List Nat}

theorem decRc_ok {p : Nat} (hl : s.live p = true) (hr : 0 < s.rc p) :
    decRc p s = .ok (s.rc p - 1 == 0) (s.setRc p (s.rc p - 1)) := by
  simp only [decRc]
  rw [H.bind_ok (H.rd_ok hl), H.bind_ok (H.dbg_ok (by simpa using hr)), H.bind_ok (H.wr_ok hl)]
  rfl

/-- `unlinkIf` in the heap invariant. -/
theorem unlinkIf_ok {p q : Nat} (h : HInv s hc kids z bad) (hl : s.live p = true)
    (hp : s.parent p = some q) (s1 : HSt) (hs1 : s1 = s.setParent p none) :
    ∃ N P F, unlinkIf (s1.mutable p) q p s1 =
        .ok () { s1 with next := N, prev := P, first := F } ∧
      (∀ x, x ∉ kids q → N x = s.next x ∧ P x = s.prev x) ∧
      (∀ x, x ≠ q → F x = s.first x) ∧
      (s.mutable p = true → IsList { s1 with next := N, prev := P, first := F } q ((kids q).erase p)) ∧
      (s.mutable p = false → F q = s.first q) := by
  subst hs1
  obtain ⟨hlq, hmq⟩ := h.parentOk p q hl hp
  have hpk : p ∈ kids q := (h.kidsMem q p).mpr ⟨hl, hp⟩
  cases hm : s.mutable p with
  | false =>
    refine ⟨s.next, s.prev, s.first, ?_, fun _ _ => ⟨rfl, rfl⟩, fun _ _ => rfl, by simp,
      fun _ => rfl⟩
    simp only [unlinkIf, HSt.setParent, hm, Bool.false_eq_true, if_false, H.pure_apply]
  | true =>
    have hlist := h.ringM q hlq (hmq.trans hm)
    have hlist' : IsList (s.setParent p none) q (kids q) := ⟨hlist.head, hlist.ring, hlist.sorted⟩
    obtain ⟨N, P, F, h1, h2, _, h4, h5⟩ := Sll.unlink_ok hlist' hlq (fun x hx => h.kid_live hx) hpk
    refine ⟨N, P, F, ?_, h2, h4, fun _ => h5, by simp⟩
    simp only [unlinkIf, HSt.setParent, hm, if_true]
    exact h1

/-- The heap after one turn of the `free` loop that has a parent. -/
def freedSt (s : HSt) (p q : Nat) (N P F : Nat → Option Nat) : HSt :=
  { s with
    parent := upd s.parent p none
    next := N
    prev := P
    first := F
    rc := upd s.rc q (s.rc q - 1)
    live := upd s.live p false }

theorem inv_freed {p q : Nat} {N P F : Nat → Option Nat} (h : HInv s hc kids (some p) bad)
    (hl : s.live p = true) (hz : s.rc p = 0) (hp : s.parent p = some q)
    (hN : ∀ x, x ∉ kids q → N x = s.next x ∧ P x = s.prev x)
    (hF : ∀ x, x ≠ q → F x = s.first x)
    (hmut : s.mutable p = true → s.first q ≠ none ∧
      IsList (freedSt s p q N P F) q ((kids q).erase p))
    (himm : s.mutable p = false → F q = s.first q) :
    HInv (freedSt s p q N P F) hc (upd kids q ((kids q).erase p)) (some q) bad := by
  obtain ⟨hlq, hmq⟩ := h.parentOk p q hl hp
  have hpk : p ∈ kids q := (h.kidsMem q p).mpr ⟨hl, hp⟩
  have hqp : q ≠ p := by rintro rfl; exact h.par_not_kid hpk
  have hrc := h.rc p hl
  have hkp : kids p = [] := by
    rw [hz] at hrc; exact List.eq_nil_of_length_eq_zero (by omega)
  have hcp : hc p = 0 := by omega
  have hlive : ∀ x, (freedSt s p q N P F).live x = true ↔ x ≠ p ∧ s.live x = true := by
    intro x
    simp only [freedSt, upd_apply]
    by_cases e : x = p <;> simp [e]
  have hpar : ∀ x, x ≠ p → (freedSt s p q N P F).parent x = s.parent x := by
    intro x hx; simp only [freedSt]; exact upd_other _ _ hx
  have hkid : ∀ x y, y ∈ upd kids q ((kids q).erase p) x ↔ y ≠ p ∧ y ∈ kids x := by
    intro x y
    by_cases e : x = q
    · subst e
      rw [upd_same, (h.kidsNodup x).mem_erase_iff]
    · rw [upd_other _ _ e]
      constructor
      · intro hy
        refine ⟨?_, hy⟩
        rintro rfl
        have := ((h.kidsMem x y).mp hy).2
        rw [hp] at this; cases this; exact e rfl
      · exact fun hy => hy.2
  have hnopar : ∀ x, s.live x = true → s.parent x ≠ some p := by
    intro x hx hxp
    have : x ∈ kids p := (h.kidsMem p x).mpr ⟨hx, hxp⟩
    rw [hkp] at this; cases this
  constructor
  case top => intro x hx; exact h.top x ((hlive x).mp hx).2
  case hlive =>
    intro x hx
    rw [hlive]
    refine ⟨?_, h.hlive x hx⟩
    rintro rfl; omega
  case rc =>
    intro x hx
    replace hx := (hlive x).mp hx
    obtain ⟨hxp, hx⟩ := hx
    simp only [freedSt]
    by_cases e : x = q
    · subst e
      rw [upd_same, upd_same, List.length_erase_of_mem hpk, h.rc x hx]
      have := List.length_pos_of_mem hpk
      omega
    · rw [upd_other _ _ e, upd_other _ _ e]; exact h.rc x hx
  case pos =>
    intro x hx hxz
    replace hx := (hlive x).mp hx
    obtain ⟨hxp, hx⟩ := hx
    have e : x ≠ q := fun e => hxz (by rw [e])
    simp only [freedSt]
    rw [upd_other _ _ e]
    exact h.pos x hx (fun e' => hxp (by simpa using e'))
  case rcLe =>
    intro x hx
    have := h.rcLe x ((hlive x).mp hx).2
    simp only [freedSt, upd_apply]
    split
    · next e => rw [e] at this; omega
    · exact this
  case kidsMem =>
    intro x y
    rw [hkid, h.kidsMem, hlive]
    constructor
    · rintro ⟨h1, h2, h3⟩; exact ⟨⟨h1, h2⟩, by rw [hpar y h1]; exact h3⟩
    · rintro ⟨⟨h1, h2⟩, h3⟩; rw [hpar y h1] at h3; exact ⟨h1, h2, h3⟩
  case kidsNodup =>
    intro x
    by_cases e : x = q
    · subst e; rw [upd_same]; exact (h.kidsNodup x).erase p
    · rw [upd_other _ _ e]; exact h.kidsNodup x
  case parentOk =>
    intro x y hx hy
    replace hx := (hlive x).mp hx
    obtain ⟨hxp, hx⟩ := hx
    rw [hpar x hxp] at hy
    obtain ⟨h1, h2⟩ := h.parentOk x y hx hy
    refine ⟨(hlive y).mpr ⟨?_, h1⟩, h2⟩
    rintro rfl; exact hnopar x hx hy
  case parNode =>
    intro x y hx hy
    replace hx := (hlive x).mp hx
    obtain ⟨hxp, hx⟩ := hx
    rw [hpar x hxp] at hy
    exact h.parNode x y hx hy
  case greenOk =>
    intro x y hx hy hb
    replace hx := (hlive x).mp hx
    obtain ⟨hxp, hx⟩ := hx
    rw [hpar x hxp] at hy
    exact h.greenOk x y hx hy hb
  case rootOff =>
    intro x hx hy
    replace hx := (hlive x).mp hx
    obtain ⟨hxp, hx⟩ := hx
    rw [hpar x hxp] at hy
    exact h.rootOff x hx hy
  case chain =>
    intro x hx
    replace hx := (hlive x).mp hx
    obtain ⟨hxp, hx⟩ := hx
    obtain ⟨l, hl'⟩ := h.chain x hx
    refine ⟨l, hl'.congr fun y hy => ?_⟩
    have hyp : y ≠ p := by
      rintro rfl
      obtain ⟨w, _, hw, hwp⟩ := hl'.child_mem hy (Ne.symm hxp)
      exact hnopar w hw hwp
    exact ⟨(hlive y).mpr ⟨hyp, hl'.live_of_mem hy⟩, hpar y hyp⟩
  case ringM =>
    intro x hx hm
    replace hx := (hlive x).mp hx
    obtain ⟨hxp, hx⟩ := hx
    by_cases e : x = q
    · subst e; rw [upd_same]
      exact (hmut (by rw [← hmq]; exact hm)).2
    · rw [upd_other _ _ e]
      have hlist := h.ringM x hx hm
      refine ⟨?_, ?_, hlist.sorted⟩
      · simp only [freedSt]; rw [hF x e]; exact hlist.head
      · have hdis : ∀ y ∈ kids x, y ∉ kids q := by
          intro y hy hy'
          have h1 := ((h.kidsMem x y).mp hy).2
          rw [((h.kidsMem q y).mp hy').2] at h1
          cases h1; exact e rfl
        exact ring_frame (fun y hy => (hN y (hdis y hy)).1) (fun y hy => (hN y (hdis y hy)).2)
          hlist.ring
  case selfM =>
    intro x hx hm hr
    replace hx := (hlive x).mp hx
    obtain ⟨hxp, hx⟩ := hx
    rw [hpar x hxp] at hr
    have hxk : x ∉ kids q := by
      intro hk; rw [((h.kidsMem q x).mp hk).2] at hr; cases hr
    simp only [freedSt]
    rw [(hN x hxk).1, (hN x hxk).2]
    exact h.selfM x hx hm hr
  case firstI =>
    intro x hx hm
    replace hx := (hlive x).mp hx
    obtain ⟨hxp, hx⟩ := hx
    simp only [freedSt]
    by_cases e : x = q
    · subst e
      rw [himm (by rw [← hmq]; exact hm)]
      exact h.firstI x hx hm
    · rw [hF x e]; exact h.firstI x hx hm
  case roots =>
    obtain ⟨rs, h1, h2, h3⟩ := h.roots
    refine ⟨rs, h1, fun x => ?_, h3⟩
    rw [h2, hlive]
    constructor
    · rintro ⟨h4, h5⟩
      have hxp : x ≠ p := by rintro rfl; rw [hp] at h5; cases h5
      exact ⟨⟨hxp, h4⟩, by rw [hpar x hxp]; exact h5⟩
    · rintro ⟨⟨h4, h5⟩, h6⟩
      rw [hpar x h4] at h6; exact ⟨h5, h6⟩
  case uni => exact h.uni

/-- The heap after the last turn of the `free` loop. -/
theorem inv_freed_root {p : Nat} (h : HInv s hc kids (some p) bad)
    (hl : s.live p = true) (hz : s.rc p = 0) (hp : s.parent p = none) :
    HInv { s with owned := s.owned.eraseP (·.addr == (s.green p).addr), live := upd s.live p false }
      hc kids none bad := by
  have hrc := h.rc p hl
  have hkp : kids p = [] := by
    rw [hz] at hrc; exact List.eq_nil_of_length_eq_zero (by omega)
  have hcp : hc p = 0 := by omega
  generalize hs' : ({ s with owned := s.owned.eraseP (·.addr == (s.green p).addr),
                             live := upd s.live p false } : HSt) = s'
  have hlive : ∀ x, s'.live x = true ↔ x ≠ p ∧ s.live x = true := by
    intro x
    simp only [← hs', upd_apply]
    by_cases e : x = p <;> simp [e]
  have e1 : s'.parent = s.parent := by rw [← hs']
  have e2 : s'.rc = s.rc := by rw [← hs']
  have e3 : s'.index = s.index := by rw [← hs']
  have e4 : s'.green = s.green := by rw [← hs']
  have e5 : s'.mutable = s.mutable := by rw [← hs']
  have e6 : s'.offset = s.offset := by rw [← hs']
  have e7 : s'.first = s.first := by rw [← hs']
  have e8 : s'.next = s.next := by rw [← hs']
  have e9 : s'.prev = s.prev := by rw [← hs']
  have e10 : s'.top = s.top := by rw [← hs']
  have e11 : s'.gtop = s.gtop := by rw [← hs']
  have e12 : s'.owned = s.owned.eraseP (·.addr == (s.green p).addr) := by rw [← hs']
  have hnopar : ∀ x, s.live x = true → s.parent x ≠ some p := by
    intro x hx hxp
    have : x ∈ kids p := (h.kidsMem p x).mpr ⟨hx, hxp⟩
    rw [hkp] at this; cases this
  have halive : ∀ x, s'.Alive x → s.Alive x := by
    rintro x ⟨o, ho, hx⟩
    rw [e12] at ho
    exact ⟨o, List.mem_of_mem_eraseP ho, hx⟩
  constructor
  case top => intro x hx; rw [e10]; exact h.top x ((hlive x).mp hx).2
  case hlive =>
    intro x hx
    rw [hlive]
    refine ⟨?_, h.hlive x hx⟩
    rintro rfl; omega
  case rc => intro x hx; rw [e2]; exact h.rc x ((hlive x).mp hx).2
  case pos =>
    intro x hx _
    replace hx := (hlive x).mp hx
    obtain ⟨hxp, hx⟩ := hx
    rw [e2]; exact h.pos x hx (fun e => hxp (by simpa using e))
  case rcLe => intro x hx; rw [e2]; exact h.rcLe x ((hlive x).mp hx).2
  case kidsMem =>
    intro x y
    rw [h.kidsMem, hlive, e1]
    constructor
    · rintro ⟨h2, h3⟩
      refine ⟨⟨?_, h2⟩, h3⟩
      rintro rfl; rw [hp] at h3; cases h3
    · rintro ⟨⟨h1, h2⟩, h3⟩; exact ⟨h2, h3⟩
  case kidsNodup => exact h.kidsNodup
  case parentOk =>
    intro x y hx hy
    replace hx := (hlive x).mp hx
    obtain ⟨hxp, hx⟩ := hx
    rw [e1] at hy
    obtain ⟨h1, h2⟩ := h.parentOk x y hx hy
    refine ⟨(hlive y).mpr ⟨?_, h1⟩, by rw [e5]; exact h2⟩
    rintro rfl; exact hnopar x hx hy
  case parNode =>
    intro x y hx hy
    replace hx := (hlive x).mp hx
    obtain ⟨hxp, hx⟩ := hx
    rw [e1] at hy; rw [e4]
    exact h.parNode x y hx hy
  case greenOk =>
    intro x y hx hy hb
    replace hx := (hlive x).mp hx
    obtain ⟨hxp, hx⟩ := hx
    rw [e1] at hy; rw [e4, e3, e5, e6]
    exact h.greenOk x y hx hy hb
  case rootOff =>
    intro x hx hy
    replace hx := (hlive x).mp hx
    obtain ⟨hxp, hx⟩ := hx
    rw [e1] at hy; rw [e5, e6]
    exact h.rootOff x hx hy
  case chain =>
    intro x hx
    replace hx := (hlive x).mp hx
    obtain ⟨hxp, hx⟩ := hx
    obtain ⟨l, hl'⟩ := h.chain x hx
    refine ⟨l, hl'.congr fun y hy => ?_⟩
    have hyp : y ≠ p := by
      rintro rfl
      obtain ⟨w, _, hw, hwp⟩ := hl'.child_mem hy (Ne.symm hxp)
      exact hnopar w hw hwp
    exact ⟨(hlive y).mpr ⟨hyp, hl'.live_of_mem hy⟩, by rw [e1]⟩
  case ringM =>
    intro x hx hm
    replace hx := (hlive x).mp hx
    obtain ⟨hxp, hx⟩ := hx
    rw [e5] at hm
    have hlist := h.ringM x hx hm
    exact ⟨by rw [e7]; exact hlist.head, by rw [e8, e9]; exact hlist.ring,
      by rw [e3]; exact hlist.sorted⟩
  case selfM =>
    intro x hx hm hr
    replace hx := (hlive x).mp hx
    obtain ⟨hxp, hx⟩ := hx
    rw [e5] at hm; rw [e1] at hr; rw [e8, e9]
    exact h.selfM x hx hm hr
  case firstI =>
    intro x hx hm
    replace hx := (hlive x).mp hx
    obtain ⟨hxp, hx⟩ := hx
    rw [e5] at hm; rw [e7]
    exact h.firstI x hx hm
  case roots =>
    obtain ⟨rs, h1, h2, h3⟩ := h.roots
    have hprs : p ∈ rs := (h2 p).mpr ⟨hl, hp⟩
    refine ⟨rs.erase p, h1.erase p, fun x => ?_, ?_⟩
    · rw [h1.mem_erase_iff, h2, hlive, e1]; exact and_assoc.symm
    · rw [e12, e4]
      have hg := h.owned_of_root hl hp
      have hper := perm_eraseP hg fun x hx he =>
        h.uni.coh x _ (.inl ⟨x, hx, GElem.self_mem_subs _⟩) (.inl ⟨_, hg, GElem.self_mem_subs _⟩) he
      have h4 : (rs.map s.green).Perm (s.green p :: (rs.erase p).map s.green) := by
        have := (List.perm_cons_erase hprs).map s.green
        simpa using this
      exact ((hper.symm.trans h3).trans h4).cons_inv
  case uni =>
    rw [e11]
    have hknown : ∀ x, HSt.Known _ x → s.Known x := fun x hx => hx.mono halive
    exact ⟨fun x y hx hy => h.uni.coh x y (hknown x hx) (hknown y hy),
      fun x hx => h.uni.fresh x (hknown x hx),
      fun x hx y hy => hx.subs hy,
      fun x hx => h.uni.wf x (hknown x hx)⟩

/-- `free` on an object whose count has reached zero. -/
theorem freeLoop_ok : ∀ (fuel : Nat) (s : HSt) (kids : Nat → List Nat) (p : Nat) (l : List Nat),
    HInv s hc kids (some p) bad → s.live p = true → s.rc p = 0 → Chain s p l → l.length ≤ fuel →
    ∃ s' kids', freeLoop fuel p s = .ok () s' ∧ HInv s' hc kids' none bad ∧ Shrinks s s' ∧
      s'.live p = false := by
  intro fuel
  induction fuel with
  | zero =>
    intro s kids p l _ _ _ hch hlen
    exact absurd (List.eq_nil_of_length_eq_zero (by omega)) hch.ne_nil
  | succ fuel ih =>
    intro s kids p l h hl hz hch hlen
    have hrc := h.rc p hl
    have hkp : kids p = [] := by
      rw [hz] at hrc; exact List.eq_nil_of_length_eq_zero (by omega)
    have hfirst : s.first p = none := by
      cases hm : s.mutable p with
      | false => exact h.firstI p hl hm
      | true => have := (h.ringM p hl hm).head; rw [hkp] at this; simpa using this
    simp only [freeLoop]
    rw [H.bind_ok (H.rd_ok hl), H.bind_ok (H.dbg_ok (by simp [hz])), H.bind_ok (H.rd_ok hl),
      H.bind_ok (H.dbg_ok (by simp [hfirst])), H.bind_ok (H.rd_ok hl)]
    cases hp : s.parent p with
    | none =>
      simp only []
      have hg := h.owned_of_root hl hp
      have hany : s.owned.any (·.addr == (s.green p).addr) = true :=
        List.any_eq_true.mpr ⟨_, hg, by simp⟩
      rw [H.bind_ok (H.rd_ok hl)]
      have hrel : H.release (s.green p) s =
          .ok () { s with owned := s.owned.eraseP (·.addr == (s.green p).addr) } := by
        simp [H.release, hany]
      rw [H.bind_ok hrel, dealloc]
      have hl' : ({ s with owned := s.owned.eraseP (·.addr == (s.green p).addr) } : HSt).live p
          = true := hl
      rw [H.wr_ok hl']
      refine ⟨_, kids, rfl, inv_freed_root h hl hz hp, ⟨fun x hx => ?_, rfl, rfl⟩, by simp⟩
      have hxp : x ≠ p := by rintro rfl; simp at hx
      simp only [upd_other _ _ hxp] at hx
      exact ⟨hx, rfl, rfl, rfl, rfl, rfl⟩
    | some q =>
      simp only []
      obtain ⟨hlq, hmq⟩ := h.parentOk p q hl hp
      have hpk : p ∈ kids q := (h.kidsMem q p).mpr ⟨hl, hp⟩
      have hqp : q ≠ p := by rintro rfl; exact h.par_not_kid hpk
      have hrq : 0 < s.rc q := by
        rw [h.rc q hlq]; have := List.length_pos_of_mem hpk; omega
      obtain ⟨N, P, F, h1, h2, h3, h4, h5⟩ := unlinkIf_ok h hl hp _ rfl
      rw [H.bind_ok (H.wr_ok hl)]
      have hlq1 : (s.setParent p none).live q = true := hlq
      have hlp1 : (s.setParent p none).live p = true := hl
      rw [H.bind_ok (H.rd_ok hlq1), H.bind_ok (H.dbg_ok (decide_eq_true (show 0 < (s.setParent p none).rc q from hrq))),
        H.bind_ok (H.rd_ok hlp1), H.bind_ok h1]
      generalize hs2 : ({ (s.setParent p none) with next := N, prev := P, first := F } : HSt) = s2
      have hl2 : s2.live = s.live := by rw [← hs2]; rfl
      have hrc2 : s2.rc = s.rc := by rw [← hs2]; rfl
      rw [H.bind_ok (decRc_ok (by rw [hl2]; exact hlq) (by rw [hrc2]; exact hrq)), dealloc,
        H.bind_ok (H.wr_ok (by show s2.live p = true; rw [hl2]; exact hl))]
      have hst : ({ (s2.setRc q (s2.rc q - 1)) with
                    live := upd (s2.setRc q (s2.rc q - 1)).live p false } : HSt) =
          freedSt s p q N P F := by
        rw [← hs2]; rfl
      rw [hst]
      have hinv : HInv (freedSt s p q N P F) hc (upd kids q ((kids q).erase p)) (some q) bad := by
        refine inv_freed h hl hz hp h2 h3 (fun hm => ⟨?_, ?_⟩) h5
        · have := (h.ringM q hlq (hmq.trans hm)).head
          rw [this]
          cases hk : kids q with
          | nil => rw [hk] at hpk; cases hpk
          | cons a b => simp
        · have := h4 hm
          exact ⟨this.head, this.ring, this.sorted⟩
      have hshr : Shrinks s (freedSt s p q N P F) := by
        refine ⟨fun x hx => ?_, rfl, rfl⟩
        have hxp : x ≠ p := by rintro rfl; simp [freedSt] at hx
        refine ⟨?_, ?_, rfl, rfl, rfl, rfl⟩
        · simpa only [freedSt, upd_other _ _ hxp] using hx
        · simp only [freedSt, upd_other _ _ hxp]
      have hpdead : (freedSt s p q N P F).live p = false := by simp [freedSt]
      have hlq' : (freedSt s p q N P F).live q = true := by
        simp only [freedSt, upd_other _ _ hqp]; exact hlq
      rw [hrc2]
      by_cases hlast : s.rc q - 1 = 0
      · simp only [hlast, beq_self_eq_true, if_true]
        obtain ⟨l', hch'⟩ := hinv.chain q hlq'
        have hl' : l = p :: l' := by
          cases hch with
          | root _ hp' => rw [hp] at hp'; cases hp'
          | step _ hp' hc2 =>
            rw [hp] at hp'; cases hp'
            have : Chain (freedSt s p q N P F) q _ := hc2.congr fun y hy => by
              have hyp : y ≠ p := by
                rintro rfl
                have := (Chain.step hl hp hc2).nodup
                exact (List.nodup_cons.mp this).1 hy
              simp only [freedSt, upd_other _ _ hyp]
              exact ⟨hc2.live_of_mem hy, trivial⟩
            rw [hch'.unique this]
        obtain ⟨s', kids', f1, f2, f3, _⟩ := ih _ _ q l' hinv hlq'
          (by simp only [freedSt, upd_same]; exact hlast) hch' (by rw [hl'] at hlen; simpa using hlen)
        refine ⟨s', kids', f1, f2, hshr.trans f3, ?_⟩
        cases hd : s'.live p with
        | false => rfl
        | true => have := (f3.keeps p hd).1; rw [hpdead] at this; cases this
      · have : (s.rc q - 1 == 0) = false := by simpa using hlast
        rw [this]
        refine ⟨_, _, rfl, hinv.weaken_z ?_, hshr, hpdead⟩
        intro x hx _
        cases hx
        simp only [freedSt, upd_same]; omega

theorem free_ok {p : Nat} (h : HInv s hc kids (some p) bad) (hl : s.live p = true)
    (hz : s.rc p = 0) :
    ∃ s' kids', free p s = .ok () s' ∧ HInv s' hc kids' none bad ∧ Shrinks s s' ∧
      s'.live p = false := by
  obtain ⟨l, hch⟩ := h.chain p hl
  have := hch.length_le h.top
  simp only [free, H.loop_apply]
  exact freeLoop_ok _ s kids p l h hl hz hch (by omega)

theorem inv_decRc {p : Nat} (h : HInv s (inc hc p) kids none bad) :
    HInv (s.setRc p (s.rc p - 1)) hc kids (some p) bad := by
  have hl : s.live p = true := h.hlive p (by simp)
  have hrc := h.rc p hl
  rw [inc_same] at hrc
  refine { h with hlive := ?_, rc := ?_, pos := ?_, rcLe := ?_, chain := ?_, ringM := ?_, roots := ?_, uni := ?_ }
  · intro x hx; exact h.hlive x (Nat.lt_of_lt_of_le hx (le_inc hc p x))
  · intro x hx
    have hx' : s.live x = true := hx
    simp only [HSt.setRc]
    by_cases e : x = p
    · subst e; rw [upd_same]; omega
    · rw [upd_other _ _ e, h.rc x hx', inc_other _ e]
  · intro x hx hxz
    have e : x ≠ p := fun e => hxz (by rw [e])
    simp only [HSt.setRc]
    rw [upd_other _ _ e]; exact h.pos x hx (by simp)
  · intro x hx
    have := h.rcLe x hx
    simp only [HSt.setRc, upd_apply]
    split
    · next e => rw [e] at this; omega
    · exact this
  · intro x hx
    obtain ⟨l, hl'⟩ := h.chain x hx
    exact ⟨l, hl'.congr fun y hy => ⟨hl'.live_of_mem hy, rfl⟩⟩
  · intro x hx hm
    have := h.ringM x hx hm
    exact ⟨this.head, this.ring, this.sorted⟩
  · exact h.roots
  · exact h.uni

/-- Dropping a handle. -/
theorem drop_ok {p : Nat} (h : HInv s (inc hc p) kids none bad) :
    ∃ s' kids', drop p s = .ok () s' ∧ HInv s' hc kids' none bad ∧ Shrinks s s' ∧
      (s'.live p = true ↔ s.rc p ≠ 1) := by
  have hl : s.live p = true := h.hlive p (by simp)
  have hrc : 0 < s.rc p := h.pos p hl (by simp)
  have h1 := inv_decRc h
  have hshr : Shrinks s (s.setRc p (s.rc p - 1)) :=
    ⟨fun x hx => ⟨hx, rfl, rfl, rfl, rfl, rfl⟩, rfl, rfl⟩
  simp only [drop]
  rw [H.bind_ok (decRc_ok hl hrc)]
  by_cases e : s.rc p - 1 = 0
  · simp only [e, beq_self_eq_true, if_true]
    rw [e] at h1 hshr
    obtain ⟨s', kids', f1, f2, f3, f4⟩ := free_ok h1 hl (by simp [HSt.setRc])
    refine ⟨s', kids', f1, f2, hshr.trans f3, ?_⟩
    rw [f4]
    simp only [Bool.false_eq_true, ne_eq, false_iff, Decidable.not_not]; omega
  · have : (s.rc p - 1 == 0) = false := by simpa using e
    rw [this]
    refine ⟨_, kids, rfl, h1.weaken_z ?_, hshr, ?_⟩
    · intro x hx _; cases hx; simp only [HSt.setRc, upd_same]; omega
    · show s.live p = true ↔ _
      rw [hl]; simp; omega

/-- Dropping a handle of an object with another reference. -/
theorem drop_shared {p : Nat} (h : HInv s (inc hc p) kids none bad) (hrc : 1 < s.rc p) :
    drop p s = .ok () (s.setRc p (s.rc p - 1)) ∧
      HInv (s.setRc p (s.rc p - 1)) hc kids none bad := by
  have hl : s.live p = true := h.hlive p (by simp)
  simp only [drop]
  rw [H.bind_ok (decRc_ok hl (by omega))]
  have : (s.rc p - 1 == 0) = false := by simp; omega
  rw [this]
  refine ⟨rfl, (inv_decRc h).weaken_z ?_⟩
  intro x hx _; cases hx; simp only [HSt.setRc, upd_same]; omega

theorem inv_incRc {p : Nat} (h : HInv s hc kids z bad) (hl : s.live p = true)
    (hlt : s.rc p < rcMax) :
    HInv (s.setRc p (s.rc p + 1)) (inc hc p) kids z bad := by
  have hrc := h.rc p hl
  refine { h with hlive := ?_, rc := ?_, pos := ?_, rcLe := ?_, chain := ?_, ringM := ?_, roots := ?_, uni := ?_ }
  · intro x hx
    by_cases e : x = p
    · subst e; exact hl
    · rw [inc_other _ e] at hx; exact h.hlive x hx
  · intro x hx
    have hx' : s.live x = true := hx
    simp only [HSt.setRc]
    by_cases e : x = p
    · subst e; rw [upd_same, inc_same]; omega
    · rw [upd_other _ _ e, h.rc x hx', inc_other _ e]
  · intro x hx hxz
    simp only [HSt.setRc]
    by_cases e : x = p
    · subst e; rw [upd_same]; omega
    · rw [upd_other _ _ e]; exact h.pos x hx hxz
  · intro x hx
    have := h.rcLe x hx
    simp only [HSt.setRc, upd_apply]
    split
    · omega
    · exact this
  · intro x hx
    obtain ⟨l, hl'⟩ := h.chain x hx
    exact ⟨l, hl'.congr fun y hy => ⟨hl'.live_of_mem hy, rfl⟩⟩
  · intro x hx hm
    have := h.ringM x hx hm
    exact ⟨this.head, this.ring, this.sorted⟩
  · exact h.roots
  · exact h.uni

/-- `inc_rc`: one more handle, or the process aborts. -/
theorem incRc_ok {p : Nat} (h : HInv s hc kids z bad) (hl : s.live p = true) :
    incRc p s = .abort ∨ (incRc p s = .ok () (s.setRc p (s.rc p + 1)) ∧
      HInv (s.setRc p (s.rc p + 1)) (inc hc p) kids z bad) := by
  have hle := h.rcLe p hl
  simp only [incRc]
  rw [H.bind_ok (H.rd_ok hl)]
  by_cases e : s.rc p = rcMax
  · left; simp [e]
  · right
    rw [if_neg e, H.wr_ok hl]
    exact ⟨rfl, inv_incRc h hl (by omega)⟩

end Cur
end Rowan
