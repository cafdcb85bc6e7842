import Verif.HeapInv
/-!
# Navigation on the cursor heap: preservation of the invariant

Unless their comments cite lines of `/repo`, the definitions in this file are vocabulary of the proofs and model no code.
-/
namespace Rowan
set_option linter.unusedSectionVars false
variable [Greens]

theorem Uni.mono {U V : GElem → Prop} {lo lo' : Nat} (h : Uni U lo) (hle : lo ≤ lo')
    (hs : ∀ x, V x → U x) (hc : ∀ x, V x → ∀ y ∈ x.subs, V y) : Uni V lo' :=
  ⟨fun x y hx hy => h.coh x y (hs x hx) (hs y hy), fun x hx => Nat.lt_of_lt_of_le (h.fresh x (hs x hx)) hle,
   hc, fun x hx => h.wf x (hs x hx)⟩

/-- The heap after the allocation of a `NodeData`. -/
def HSt.allocd (s : HSt) (par : Option Nat) (i off : Nat) (g : GElem) (m : Bool)
    (N P F : Nat → Option Nat) : HSt :=
  { s with
    live := upd s.live s.top true
    rc := upd s.rc s.top 1
    parent := upd s.parent s.top par
    index := upd s.index s.top i
    green := upd s.green s.top g
    mutable := upd s.mutable s.top m
    offset := upd s.offset s.top off
    first := F
    next := N
    prev := P
    top := s.top + 1 }

/-- The heap satisfies the invariant with handle counts `hc`. -/
def HOk (s : HSt) (hc : Nat → Nat) : Prop := ∃ kids, HInv s hc kids none []

def incO (hc : Nat → Nat) : Option Nat → Nat → Nat
  | none => hc
  | some p => inc hc p

namespace Cur
variable {s : HSt} {hc : Nat → Nat} {kids : Nat → List Nat} {z : Option Nat} {bad : List Nat}

theorem top_dead (h : HInv s hc kids z bad) : s.live s.top = false := by
  cases hd : s.live s.top with
  | false => rfl
  | true => exact absurd (h.top _ hd) (Nat.lt_irrefl _)

theorem kids_dead (h : HInv s hc kids z bad) {p : Nat} (hl : s.live p = false) : kids p = [] := by
  cases hk : kids p with
  | nil => rfl
  | cons a l =>
    have : a ∈ kids p := by rw [hk]; simp
    obtain ⟨h1, h2⟩ := (h.kidsMem p a).mp this
    rw [(h.parentOk a p h1 h2).1] at hl; cases hl

theorem hc_dead (h : HInv s hc kids z bad) {p : Nat} (hl : s.live p = false) : hc p = 0 := by
  cases hp : hc p with
  | zero => rfl
  | succ n => rw [h.hlive p (by omega)] at hl; cases hl

/-- The new child `s.top` of `q`. -/
theorem inv_child {q i off : Nat} {n : GNode} {c : GChild} {N P F : Nat → Option Nat} {K : List Nat}
    (h : HInv s (inc hc q) kids none bad) (hg : s.green q = .node n)
    (hi : n.slice[i]? = some c) (ho : s.mutable q = false → off = s.offset q + c.relOffset)
    (hK : K.Perm (s.top :: kids q))
    (hN : ∀ x, x ∉ kids q → x ≠ s.top → N x = s.next x ∧ P x = s.prev x)
    (hF : ∀ x, x ≠ q → x ≠ s.top → F x = s.first x) (hF' : F s.top = none)
    (himm : s.mutable q = false → F q = s.first q)
    (hmut : s.mutable q = true →
      IsList (s.allocd (some q) i off c.asRef (s.mutable q) N P F) q K) :
    HInv (s.allocd (some q) i off c.asRef (s.mutable q) N P F) (inc hc s.top) (upd kids q K)
      none bad := by
  have hlq : s.live q = true := h.hlive q (by simp)
  have htd := top_dead h
  have hqt : q ≠ s.top := by rintro e; rw [e, htd] at hlq; cases hlq
  have hkt : kids s.top = [] := kids_dead h htd
  have hct : hc s.top = 0 := by
    have := hc_dead h htd
    rwa [inc_other _ (Ne.symm hqt)] at this
  generalize hs' : s.allocd (some q) i off c.asRef (s.mutable q) N P F = s' at *
  have hlive : ∀ x, s'.live x = true ↔ x = s.top ∨ s.live x = true := by
    intro x
    simp only [← hs', HSt.allocd, upd_apply]
    by_cases e : x = s.top <;> simp [e]
  have ne_top : ∀ x, s.live x = true → x ≠ s.top := by
    rintro x hx rfl; rw [htd] at hx; cases hx
  have e1 : ∀ x, x ≠ s.top → s'.parent x = s.parent x := by
    intro x hx; simp only [← hs', HSt.allocd, upd_other _ _ hx]
  have e2 : ∀ x, x ≠ s.top → s'.rc x = s.rc x := by
    intro x hx; simp only [← hs', HSt.allocd, upd_other _ _ hx]
  have e3 : ∀ x, x ≠ s.top → s'.index x = s.index x := by
    intro x hx; simp only [← hs', HSt.allocd, upd_other _ _ hx]
  have e4 : ∀ x, x ≠ s.top → s'.green x = s.green x := by
    intro x hx; simp only [← hs', HSt.allocd, upd_other _ _ hx]
  have e5 : ∀ x, x ≠ s.top → s'.mutable x = s.mutable x := by
    intro x hx; simp only [← hs', HSt.allocd, upd_other _ _ hx]
  have e6 : ∀ x, x ≠ s.top → s'.offset x = s.offset x := by
    intro x hx; simp only [← hs', HSt.allocd, upd_other _ _ hx]
  have t1 : s'.parent s.top = some q := by simp [← hs', HSt.allocd]
  have t2 : s'.rc s.top = 1 := by simp [← hs', HSt.allocd]
  have t3 : s'.index s.top = i := by simp [← hs', HSt.allocd]
  have t4 : s'.green s.top = c.asRef := by simp [← hs', HSt.allocd]
  have t5 : s'.mutable s.top = s.mutable q := by simp [← hs', HSt.allocd]
  have t6 : s'.offset s.top = off := by simp [← hs', HSt.allocd]
  have f1 : s'.first = F := by rw [← hs']; rfl
  have f2 : s'.next = N := by rw [← hs']; rfl
  have f3 : s'.prev = P := by rw [← hs']; rfl
  have f4 : s'.top = s.top + 1 := by rw [← hs']; rfl
  have f5 : s'.gtop = s.gtop := by rw [← hs']; rfl
  have f6 : s'.owned = s.owned := by rw [← hs']; rfl
  have hKm : ∀ y, y ∈ K ↔ y = s.top ∨ y ∈ kids q := by
    intro y; rw [hK.mem_iff, List.mem_cons]
  have hKnd : K.Nodup := by
    rw [hK.nodup_iff, List.nodup_cons]
    refine ⟨fun hm => ?_, h.kidsNodup q⟩
    have := h.kid_live hm; rw [htd] at this; cases this
  constructor
  case top =>
    intro x hx
    rw [f4]
    rcases (hlive x).mp hx with rfl | hx
    · omega
    · have := h.top x hx; omega
  case hlive =>
    intro x hx
    rw [hlive]
    by_cases e : x = s.top
    · exact .inl e
    · right
      rw [inc_other _ e] at hx
      exact h.hlive x (Nat.lt_of_lt_of_le hx (le_inc hc q x))
  case rc =>
    intro x hx
    rcases (hlive x).mp hx with rfl | hx
    · rw [t2, inc_same, upd_other _ _ (Ne.symm hqt), hkt, hct]; rfl
    · have e := ne_top x hx
      rw [e2 x e, inc_other _ e, h.rc x hx]
      by_cases exq : x = q
      · subst exq
        rw [inc_same, upd_same, hK.length_eq, List.length_cons]; omega
      · rw [inc_other _ exq, upd_other _ _ exq]
  case pos =>
    intro x hx _
    rcases (hlive x).mp hx with rfl | hx
    · rw [t2]; omega
    · rw [e2 x (ne_top x hx)]; exact h.pos x hx (by simp)
  case rcLe =>
    intro x hx
    rcases (hlive x).mp hx with rfl | hx
    · rw [t2]; simp [rcMax]
    · rw [e2 x (ne_top x hx)]; exact h.rcLe x hx
  case kidsMem =>
    intro x y
    rw [hlive]
    by_cases ey : y = s.top
    · subst ey
      rw [t1]
      by_cases exq : x = q
      · subst exq; rw [upd_same, hKm]; simp
      · rw [upd_other _ _ exq]
        constructor
        · intro hy; rw [h.kid_live hy] at htd; cases htd
        · rintro ⟨_, hy⟩; exact absurd (Option.some.inj hy).symm exq
    · rw [e1 y ey]
      have : y ∈ upd kids q K x ↔ y ∈ kids x := by
        by_cases exq : x = q
        · subst exq; rw [upd_same, hKm]; simp [ey]
        · rw [upd_other _ _ exq]
      rw [this, h.kidsMem]; simp [ey]
  case kidsNodup =>
    intro x
    by_cases exq : x = q
    · subst exq; rw [upd_same]; exact hKnd
    · rw [upd_other _ _ exq]; exact h.kidsNodup x
  case parentOk =>
    intro x y hx hy
    by_cases ex : x = s.top
    · subst ex; rw [t1] at hy; cases hy
      exact ⟨(hlive q).mpr (.inr hlq), by rw [e5 q hqt, t5]⟩
    · have hx := ((hlive x).mp hx).resolve_left ex
      rw [e1 x ex] at hy
      obtain ⟨h1, h2⟩ := h.parentOk x y hx hy
      exact ⟨(hlive y).mpr (.inr h1), by rw [e5 y (ne_top y h1), e5 x ex, h2]⟩
  case parNode =>
    intro x y hx hy
    by_cases ex : x = s.top
    · subst ex; rw [t1] at hy; cases hy
      exact ⟨n, by rw [e4 q hqt, hg]⟩
    · have hx := ((hlive x).mp hx).resolve_left ex
      rw [e1 x ex] at hy
      rw [e4 y (ne_top y (h.parentOk x y hx hy).1)]
      exact h.parNode x y hx hy
  case greenOk =>
    intro x y hx hy hb
    by_cases ex : x = s.top
    · subst ex; rw [t1] at hy; cases hy
      refine ⟨n, c, by rw [e4 q hqt, hg], by rw [t3]; exact hi, t4.symm, ?_⟩
      rw [t5, t6, e6 q hqt]; exact ho
    · have hx := ((hlive x).mp hx).resolve_left ex
      rw [e1 x ex] at hy
      have ey := ne_top y (h.parentOk x y hx hy).1
      rw [e4 y ey, e3 x ex, e4 x ex, e5 x ex, e6 x ex, e6 y ey]
      exact h.greenOk x y hx hy hb
  case rootOff =>
    intro x hx hy
    by_cases ex : x = s.top
    · subst ex; rw [t1] at hy; cases hy
    · have hx := ((hlive x).mp hx).resolve_left ex
      rw [e1 x ex] at hy; rw [e5 x ex, e6 x ex]
      exact h.rootOff x hx hy
  case chain =>
    have old : ∀ x, s.live x = true → ∃ l, Chain s' x l := by
      intro x hx
      obtain ⟨l, hl'⟩ := h.chain x hx
      refine ⟨l, hl'.congr fun y hy => ?_⟩
      have := hl'.live_of_mem hy
      exact ⟨(hlive y).mpr (.inr this), e1 y (ne_top y this)⟩
    intro x hx
    rcases (hlive x).mp hx with rfl | hx'
    · obtain ⟨l, hl'⟩ := old q hlq
      exact ⟨_, .step hx t1 hl'⟩
    · exact old x hx'
  case ringM =>
    intro x hx hm
    by_cases exq : x = q
    · subst exq; rw [upd_same]
      rw [e5 x hqt] at hm
      exact hmut hm
    · rw [upd_other _ _ exq]
      by_cases ex : x = s.top
      · subst ex; rw [hkt]
        exact ⟨by rw [f1, hF']; rfl, trivial, by simp⟩
      · have hx := ((hlive x).mp hx).resolve_left ex
        rw [e5 x ex] at hm
        have hlist := h.ringM x hx hm
        have hdis : ∀ y ∈ kids x, y ∉ kids q := by
          intro y hy hy'
          have h1 := ((h.kidsMem x y).mp hy).2
          rw [((h.kidsMem q y).mp hy').2] at h1
          cases h1; exact exq rfl
        have hnt : ∀ y ∈ kids x, y ≠ s.top := fun y hy => ne_top y (h.kid_live hy)
        refine ⟨by rw [f1, hF x exq ex]; exact hlist.head, ?_, ?_⟩
        · rw [f2, f3]
          exact ring_frame (fun y hy => (hN y (hdis y hy) (hnt y hy)).1)
            (fun y hy => (hN y (hdis y hy) (hnt y hy)).2) hlist.ring
        · refine hlist.sorted.imp_of_mem fun {a b} ha hb hab => ?_
          rw [e3 a (hnt a ha), e3 b (hnt b hb)]; exact hab
  case selfM =>
    intro x hx hm hr
    by_cases ex : x = s.top
    · subst ex; rw [t1] at hr; cases hr
    · have hx := ((hlive x).mp hx).resolve_left ex
      rw [e1 x ex] at hr; rw [e5 x ex] at hm
      have hxk : x ∉ kids q := by
        intro hk; rw [((h.kidsMem q x).mp hk).2] at hr; cases hr
      rw [f2, f3, (hN x hxk ex).1, (hN x hxk ex).2]
      exact h.selfM x hx hm hr
  case firstI =>
    intro x hx hm
    rw [f1]
    by_cases ex : x = s.top
    · subst ex; exact hF'
    · have hx := ((hlive x).mp hx).resolve_left ex
      rw [e5 x ex] at hm
      by_cases exq : x = q
      · subst exq; rw [himm hm]; exact h.firstI x hx hm
      · rw [hF x exq ex]; exact h.firstI x hx hm
  case roots =>
    obtain ⟨rs, h1, h2, h3⟩ := h.roots
    refine ⟨rs, h1, fun x => ?_, ?_⟩
    · rw [h2, hlive]
      by_cases ex : x = s.top
      · subst ex; rw [t1, htd]; simp
      · rw [e1 x ex]; simp [ex]
    · rw [f6]
      have : rs.map s'.green = rs.map s.green :=
        List.map_congr_left fun x hx => e4 x (ne_top x ((h2 x).mp hx).1)
      rw [this]; exact h3
  case uni =>
    rw [f5]
    have : s'.Known = s.Known := by funext x; simp only [HSt.Known, HSt.Alive, f6]
    rw [this]; exact h.uni

/-- The new root `s.top`, owning `g`. -/
theorem inv_root {g : GElem} {m : Bool} {gt : Nat} {N P F : Nat → Option Nat}
    (h : HInv s hc kids none bad)
    (hU : Uni (fun x => s.Known x ∨ x ∈ g.subs) gt)
    (hN : ∀ x, x ≠ s.top → N x = s.next x ∧ P x = s.prev x)
    (hNt : m = true → N s.top = some s.top ∧ P s.top = some s.top)
    (hF : ∀ x, x ≠ s.top → F x = s.first x) (hF' : F s.top = none) :
    HInv { (s.allocd none 0 0 g m N P F) with owned := g :: s.owned, gtop := gt } (inc hc s.top) kids
      none bad := by
  have htd := top_dead h
  have hkt : kids s.top = [] := kids_dead h htd
  have hct : hc s.top = 0 := hc_dead h htd
  generalize hs' : ({ (s.allocd none 0 0 g m N P F) with owned := g :: s.owned, gtop := gt } : HSt)
    = s'
  have hlive : ∀ x, s'.live x = true ↔ x = s.top ∨ s.live x = true := by
    intro x
    simp only [← hs', HSt.allocd, upd_apply]
    by_cases e : x = s.top <;> simp [e]
  have ne_top : ∀ x, s.live x = true → x ≠ s.top := by
    rintro x hx rfl; rw [htd] at hx; cases hx
  have e1 : ∀ x, x ≠ s.top → s'.parent x = s.parent x := by
    intro x hx; simp only [← hs', HSt.allocd, upd_other _ _ hx]
  have e2 : ∀ x, x ≠ s.top → s'.rc x = s.rc x := by
    intro x hx; simp only [← hs', HSt.allocd, upd_other _ _ hx]
  have e3 : ∀ x, x ≠ s.top → s'.index x = s.index x := by
    intro x hx; simp only [← hs', HSt.allocd, upd_other _ _ hx]
  have e4 : ∀ x, x ≠ s.top → s'.green x = s.green x := by
    intro x hx; simp only [← hs', HSt.allocd, upd_other _ _ hx]
  have e5 : ∀ x, x ≠ s.top → s'.mutable x = s.mutable x := by
    intro x hx; simp only [← hs', HSt.allocd, upd_other _ _ hx]
  have e6 : ∀ x, x ≠ s.top → s'.offset x = s.offset x := by
    intro x hx; simp only [← hs', HSt.allocd, upd_other _ _ hx]
  have t1 : s'.parent s.top = none := by simp [← hs', HSt.allocd]
  have t2 : s'.rc s.top = 1 := by simp [← hs', HSt.allocd]
  have t4 : s'.green s.top = g := by simp [← hs', HSt.allocd]
  have t5 : s'.mutable s.top = m := by simp [← hs', HSt.allocd]
  have t6 : s'.offset s.top = 0 := by simp [← hs', HSt.allocd]
  have f1 : s'.first = F := by rw [← hs']; rfl
  have f2 : s'.next = N := by rw [← hs']; rfl
  have f3 : s'.prev = P := by rw [← hs']; rfl
  have f4 : s'.top = s.top + 1 := by rw [← hs']; rfl
  have f5 : s'.gtop = gt := by rw [← hs']
  have f6 : s'.owned = g :: s.owned := by rw [← hs']
  constructor
  case top =>
    intro x hx
    rw [f4]
    rcases (hlive x).mp hx with rfl | hx
    · omega
    · have := h.top x hx; omega
  case hlive =>
    intro x hx
    rw [hlive]
    by_cases e : x = s.top
    · exact .inl e
    · right
      rw [inc_other _ e] at hx
      exact h.hlive x hx
  case rc =>
    intro x hx
    rcases (hlive x).mp hx with rfl | hx
    · rw [t2, inc_same, hkt, hct]; rfl
    · have e := ne_top x hx
      rw [e2 x e, inc_other _ e, h.rc x hx]
  case pos =>
    intro x hx _
    rcases (hlive x).mp hx with rfl | hx
    · rw [t2]; omega
    · rw [e2 x (ne_top x hx)]; exact h.pos x hx (by simp)
  case rcLe =>
    intro x hx
    rcases (hlive x).mp hx with rfl | hx
    · rw [t2]; simp [rcMax]
    · rw [e2 x (ne_top x hx)]; exact h.rcLe x hx
  case kidsMem =>
    intro x y
    rw [hlive, h.kidsMem]
    by_cases ey : y = s.top
    · subst ey
      rw [t1, htd]; simp
    · rw [e1 y ey]; simp [ey]
  case kidsNodup => exact h.kidsNodup
  case parentOk =>
    intro x y hx hy
    by_cases ex : x = s.top
    · subst ex; rw [t1] at hy; cases hy
    · have hx := ((hlive x).mp hx).resolve_left ex
      rw [e1 x ex] at hy
      obtain ⟨h1, h2⟩ := h.parentOk x y hx hy
      exact ⟨(hlive y).mpr (.inr h1), by rw [e5 y (ne_top y h1), e5 x ex, h2]⟩
  case parNode =>
    intro x y hx hy
    by_cases ex : x = s.top
    · subst ex; rw [t1] at hy; cases hy
    · have hx := ((hlive x).mp hx).resolve_left ex
      rw [e1 x ex] at hy
      rw [e4 y (ne_top y (h.parentOk x y hx hy).1)]
      exact h.parNode x y hx hy
  case greenOk =>
    intro x y hx hy hb
    by_cases ex : x = s.top
    · subst ex; rw [t1] at hy; cases hy
    · have hx := ((hlive x).mp hx).resolve_left ex
      rw [e1 x ex] at hy
      have ey := ne_top y (h.parentOk x y hx hy).1
      rw [e4 y ey, e3 x ex, e4 x ex, e5 x ex, e6 x ex, e6 y ey]
      exact h.greenOk x y hx hy hb
  case rootOff =>
    intro x hx hy hm
    by_cases ex : x = s.top
    · subst ex; exact t6
    · have hx := ((hlive x).mp hx).resolve_left ex
      rw [e1 x ex] at hy; rw [e5 x ex] at hm; rw [e6 x ex]
      exact h.rootOff x hx hy hm
  case chain =>
    intro x hx
    rcases (hlive x).mp hx with rfl | hx'
    · exact ⟨_, .root hx t1⟩
    · obtain ⟨l, hl'⟩ := h.chain x hx'
      refine ⟨l, hl'.congr fun y hy => ?_⟩
      have := hl'.live_of_mem hy
      exact ⟨(hlive y).mpr (.inr this), e1 y (ne_top y this)⟩
  case ringM =>
    intro x hx hm
    by_cases ex : x = s.top
    · subst ex; rw [hkt]
      exact ⟨by rw [f1, hF']; rfl, trivial, by simp⟩
    · have hx := ((hlive x).mp hx).resolve_left ex
      rw [e5 x ex] at hm
      have hlist := h.ringM x hx hm
      have hnt : ∀ y ∈ kids x, y ≠ s.top := fun y hy => ne_top y (h.kid_live hy)
      refine ⟨by rw [f1, hF x ex]; exact hlist.head, ?_, ?_⟩
      · rw [f2, f3]
        exact ring_frame (fun y hy => (hN y (hnt y hy)).1)
          (fun y hy => (hN y (hnt y hy)).2) hlist.ring
      · refine hlist.sorted.imp_of_mem fun {a b} ha hb hab => ?_
        rw [e3 a (hnt a ha), e3 b (hnt b hb)]; exact hab
  case selfM =>
    intro x hx hm hr
    rw [f2, f3]
    by_cases ex : x = s.top
    · subst ex; rw [t5] at hm; exact hNt hm
    · have hx := ((hlive x).mp hx).resolve_left ex
      rw [e1 x ex] at hr; rw [e5 x ex] at hm
      rw [(hN x ex).1, (hN x ex).2]
      exact h.selfM x hx hm hr
  case firstI =>
    intro x hx hm
    rw [f1]
    by_cases ex : x = s.top
    · subst ex; exact hF'
    · have hx := ((hlive x).mp hx).resolve_left ex
      rw [e5 x ex] at hm
      rw [hF x ex]; exact h.firstI x hx hm
  case roots =>
    obtain ⟨rs, h1, h2, h3⟩ := h.roots
    have hnt : s.top ∉ rs := fun hm => by
      have := ((h2 _).mp hm).1; rw [htd] at this; cases this
    refine ⟨s.top :: rs, List.nodup_cons.mpr ⟨hnt, h1⟩, fun x => ?_, ?_⟩
    · rw [List.mem_cons, h2, hlive]
      by_cases ex : x = s.top
      · subst ex; simp [t1]
      · rw [e1 x ex]; simp [ex]
    · rw [f6]
      have : rs.map s'.green = rs.map s.green :=
        List.map_congr_left fun x hx => e4 x (ne_top x ((h2 x).mp hx).1)
      rw [List.map_cons, t4, this]; exact h3.cons g
  case uni =>
    rw [f5]
    refine hU.mono (Nat.le_refl _) ?_ (fun x hx y hy => hx.subs hy)
    rintro x (⟨o, ho, hx⟩ | hk)
    · rw [f6] at ho
      rcases List.mem_cons.mp ho with rfl | ho
      · exact .inr hx
      · exact .inl (.inl ⟨o, ho, hx⟩)
    · exact .inl (.inr hk)

end Cur
end Rowan
