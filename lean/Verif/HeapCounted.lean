import Verif.HeapEdit
/-!
# Counts and lists without trees

`Counted` is the part of the heap invariant that is needed for dropping handles: it says nothing about what is
above an element, nor about green data.  It holds even in the state that is left behind when an element is attached below
itself with an index that is too large.

Unless their comments cite lines of `/repo`, the definitions in this file are vocabulary of the proofs and model no code.
-/
namespace Rowan
set_option linter.unusedSectionVars false
variable [Greens]

/-- Reference counts, children lists and owned green nodes are right. -/
structure Counted (s : HSt) (hc : Nat → Nat) (kids : Nat → List Nat) (z : Option Nat) : Prop where
  top : ∀ p, s.live p = true → p < s.top
  hlive : ∀ p, 0 < hc p → s.live p = true
  rc : ∀ p, s.live p = true → s.rc p = hc p + (kids p).length
  pos : ∀ p, s.live p = true → some p ≠ z → 0 < s.rc p
  kidsMem : ∀ p q, q ∈ kids p ↔ s.live q = true ∧ s.parent q = some p
  kidsNodup : ∀ p, (kids p).Nodup
  parentOk : ∀ p q, s.live p = true → s.parent p = some q →
    s.live q = true ∧ s.mutable q = s.mutable p
  ringM : ∀ p, s.live p = true → s.mutable p = true → IsList s p (kids p)
  firstI : ∀ p, s.live p = true → s.mutable p = false → s.first p = none
  roots : ∃ rs : List Nat, rs.Nodup ∧ (∀ p, p ∈ rs ↔ s.live p = true ∧ s.parent p = none) ∧
    s.owned.Perm (rs.map s.green)
  uni : Uni s.Known s.gtop

namespace Counted
variable {s : HSt} {hc : Nat → Nat} {kids : Nat → List Nat} {z : Option Nat}

theorem owned_of_root (h : Counted s hc kids z) {p : Nat} (hl : s.live p = true)
    (hp : s.parent p = none) : s.green p ∈ s.owned := by
  obtain ⟨rs, _, h2, h3⟩ := h.roots
  exact h3.symm.mem_iff.mp (List.mem_map.mpr ⟨p, (h2 p).mpr ⟨hl, hp⟩, rfl⟩)

end Counted

namespace Cur
variable {s : HSt} {hc : Nat → Nat} {kids : Nat → List Nat} {z : Option Nat}

theorem Counted.freed {p q : Nat} {N P F : Nat → Option Nat} (h : Counted s hc kids (some p))
    (hl : s.live p = true) (hz : s.rc p = 0) (hp : s.parent p = some q)
    (hN : ∀ x, x ∉ kids q → N x = s.next x ∧ P x = s.prev x)
    (hF : ∀ x, x ≠ q → F x = s.first x)
    (hmut : s.mutable p = true → s.first q ≠ none ∧
      IsList (freedSt s p q N P F) q ((kids q).erase p))
    (himm : s.mutable p = false → F q = s.first q) :
    Counted (freedSt s p q N P F) hc (upd kids q ((kids q).erase p)) (some q) := by
  obtain ⟨hlq, hmq⟩ := h.parentOk p q hl hp
  have hpk : p ∈ kids q := (h.kidsMem q p).mpr ⟨hl, hp⟩
  have hrc := h.rc p hl
  have hkp : kids p = [] := by
    rw [hz] at hrc; exact List.eq_nil_of_length_eq_zero (by omega)
  have hqp : q ≠ p := by rintro rfl; rw [hkp] at hpk; cases hpk
  have hcp : hc p = 0 := by omega
  have hlive : ∀ x, (freedSt s p q N P F).live x = true ↔ x ≠ p ∧ s.live x = true := by
    intro x
    simp only [freedSt, upd_apply]
    by_cases e : x = p <;> simp [e]
  have hpar : ∀ x, x ≠ p → (freedSt s p q N P F).parent x = s.parent x := by
    intro x hx; simp only [freedSt]; exact upd_other _ _ hx
  have hkid : ∀ x y, y ∈ upd kids q ((kids q).erase p) x ↔ y ≠ p ∧ y ∈ kids x := by
    intro x y
    by_cases e : x = q
    · subst e
      rw [upd_same, (h.kidsNodup x).mem_erase_iff]
    · rw [upd_other _ _ e]
      constructor
      · intro hy
        refine ⟨?_, hy⟩
        rintro rfl
        have := ((h.kidsMem x y).mp hy).2
        rw [hp] at this; cases this; exact e rfl
      · exact fun hy => hy.2
  have hnopar : ∀ x, s.live x = true → s.parent x ≠ some p := by
    intro x hx hxp
    have : x ∈ kids p := (h.kidsMem p x).mpr ⟨hx, hxp⟩
    rw [hkp] at this; cases this
  constructor
  case top => intro x hx; exact h.top x ((hlive x).mp hx).2
  case hlive =>
    intro x hx
    rw [hlive]
    refine ⟨?_, h.hlive x hx⟩
    rintro rfl; omega
  case rc =>
    intro x hx
    replace hx := (hlive x).mp hx
    obtain ⟨hxp, hx⟩ := hx
    simp only [freedSt]
    by_cases e : x = q
    · subst e
      rw [upd_same, upd_same, List.length_erase_of_mem hpk, h.rc x hx]
      have := List.length_pos_of_mem hpk
      omega
    · rw [upd_other _ _ e, upd_other _ _ e]; exact h.rc x hx
  case pos =>
    intro x hx hxz
    replace hx := (hlive x).mp hx
    obtain ⟨hxp, hx⟩ := hx
    have e : x ≠ q := fun e => hxz (by rw [e])
    simp only [freedSt]
    rw [upd_other _ _ e]
    exact h.pos x hx (fun e' => hxp (by simpa using e'))
  case kidsMem =>
    intro x y
    rw [hkid, h.kidsMem, hlive]
    constructor
    · rintro ⟨h1, h2, h3⟩; exact ⟨⟨h1, h2⟩, by rw [hpar y h1]; exact h3⟩
    · rintro ⟨⟨h1, h2⟩, h3⟩; rw [hpar y h1] at h3; exact ⟨h1, h2, h3⟩
  case kidsNodup =>
    intro x
    by_cases e : x = q
    · subst e; rw [upd_same]; exact (h.kidsNodup x).erase p
    · rw [upd_other _ _ e]; exact h.kidsNodup x
  case parentOk =>
    intro x y hx hy
    replace hx := (hlive x).mp hx
    obtain ⟨hxp, hx⟩ := hx
    rw [hpar x hxp] at hy
    obtain ⟨h1, h2⟩ := h.parentOk x y hx hy
    refine ⟨(hlive y).mpr ⟨?_, h1⟩, h2⟩
    rintro rfl; exact hnopar x hx hy
  case ringM =>
    intro x hx hm
    replace hx := (hlive x).mp hx
    obtain ⟨hxp, hx⟩ := hx
    by_cases e : x = q
    · subst e; rw [upd_same]
      exact (hmut (by rw [← hmq]; exact hm)).2
    · rw [upd_other _ _ e]
      have hlist := h.ringM x hx hm
      refine ⟨?_, ?_, hlist.sorted⟩
      · simp only [freedSt]; rw [hF x e]; exact hlist.head
      · have hdis : ∀ y ∈ kids x, y ∉ kids q := by
          intro y hy hy'
          have h1 := ((h.kidsMem x y).mp hy).2
          rw [((h.kidsMem q y).mp hy').2] at h1
          cases h1; exact e rfl
        exact ring_frame (fun y hy => (hN y (hdis y hy)).1) (fun y hy => (hN y (hdis y hy)).2)
          hlist.ring
  case firstI =>
    intro x hx hm
    replace hx := (hlive x).mp hx
    obtain ⟨hxp, hx⟩ := hx
    simp only [freedSt]
    by_cases e : x = q
    · subst e
      rw [himm (by rw [← hmq]; exact hm)]
      exact h.firstI x hx hm
    · rw [hF x e]; exact h.firstI x hx hm
  case roots =>
    obtain ⟨rs, h1, h2, h3⟩ := h.roots
    refine ⟨rs, h1, fun x => ?_, h3⟩
    rw [h2, hlive]
    constructor
    · rintro ⟨h4, h5⟩
      have hxp : x ≠ p := by rintro rfl; rw [hp] at h5; cases h5
      exact ⟨⟨hxp, h4⟩, by rw [hpar x hxp]; exact h5⟩
    · rintro ⟨⟨h4, h5⟩, h6⟩
      rw [hpar x h4] at h6; exact ⟨h5, h6⟩
  case uni => exact h.uni

theorem Counted.freed_root {p : Nat} (h : Counted s hc kids (some p))
    (hl : s.live p = true) (hz : s.rc p = 0) (hp : s.parent p = none) :
    Counted { s with owned := s.owned.eraseP (·.addr == (s.green p).addr), live := upd s.live p false }
      hc kids none := by
  have hrc := h.rc p hl
  have hkp : kids p = [] := by
    rw [hz] at hrc; exact List.eq_nil_of_length_eq_zero (by omega)
  have hcp : hc p = 0 := by omega
  generalize hs' : ({ s with owned := s.owned.eraseP (·.addr == (s.green p).addr),
                             live := upd s.live p false } : HSt) = s'
  have hlive : ∀ x, s'.live x = true ↔ x ≠ p ∧ s.live x = true := by
    intro x
    simp only [← hs', upd_apply]
    by_cases e : x = p <;> simp [e]
  have e1 : s'.parent = s.parent := by rw [← hs']
  have e2 : s'.rc = s.rc := by rw [← hs']
  have e3 : s'.index = s.index := by rw [← hs']
  have e4 : s'.green = s.green := by rw [← hs']
  have e5 : s'.mutable = s.mutable := by rw [← hs']
  have e6 : s'.offset = s.offset := by rw [← hs']
  have e7 : s'.first = s.first := by rw [← hs']
  have e8 : s'.next = s.next := by rw [← hs']
  have e9 : s'.prev = s.prev := by rw [← hs']
  have e10 : s'.top = s.top := by rw [← hs']
  have e11 : s'.gtop = s.gtop := by rw [← hs']
  have e12 : s'.owned = s.owned.eraseP (·.addr == (s.green p).addr) := by rw [← hs']
  have hnopar : ∀ x, s.live x = true → s.parent x ≠ some p := by
    intro x hx hxp
    have : x ∈ kids p := (h.kidsMem p x).mpr ⟨hx, hxp⟩
    rw [hkp] at this; cases this
  have halive : ∀ x, s'.Alive x → s.Alive x := by
    rintro x ⟨o, ho, hx⟩
    rw [e12] at ho
    exact ⟨o, List.mem_of_mem_eraseP ho, hx⟩
  constructor
  case top => intro x hx; rw [e10]; exact h.top x ((hlive x).mp hx).2
  case hlive =>
    intro x hx
    rw [hlive]
    refine ⟨?_, h.hlive x hx⟩
    rintro rfl; omega
  case rc => intro x hx; rw [e2]; exact h.rc x ((hlive x).mp hx).2
  case pos =>
    intro x hx _
    replace hx := (hlive x).mp hx
    obtain ⟨hxp, hx⟩ := hx
    rw [e2]; exact h.pos x hx (fun e => hxp (by simpa using e))
  case kidsMem =>
    intro x y
    rw [h.kidsMem, hlive, e1]
    constructor
    · rintro ⟨h2, h3⟩
      refine ⟨⟨?_, h2⟩, h3⟩
      rintro rfl; rw [hp] at h3; cases h3
    · rintro ⟨⟨h1, h2⟩, h3⟩; exact ⟨h2, h3⟩
  case kidsNodup => exact h.kidsNodup
  case parentOk =>
    intro x y hx hy
    replace hx := (hlive x).mp hx
    obtain ⟨hxp, hx⟩ := hx
    rw [e1] at hy
    obtain ⟨h1, h2⟩ := h.parentOk x y hx hy
    refine ⟨(hlive y).mpr ⟨?_, h1⟩, by rw [e5]; exact h2⟩
    rintro rfl; exact hnopar x hx hy
  case ringM =>
    intro x hx hm
    replace hx := (hlive x).mp hx
    obtain ⟨hxp, hx⟩ := hx
    rw [e5] at hm
    have hlist := h.ringM x hx hm
    exact ⟨by rw [e7]; exact hlist.head, by rw [e8, e9]; exact hlist.ring,
      by rw [e3]; exact hlist.sorted⟩
  case firstI =>
    intro x hx hm
    replace hx := (hlive x).mp hx
    obtain ⟨hxp, hx⟩ := hx
    rw [e5] at hm; rw [e7]
    exact h.firstI x hx hm
  case roots =>
    obtain ⟨rs, h1, h2, h3⟩ := h.roots
    have hprs : p ∈ rs := (h2 p).mpr ⟨hl, hp⟩
    refine ⟨rs.erase p, h1.erase p, fun x => ?_, ?_⟩
    · rw [h1.mem_erase_iff, h2, hlive, e1]; exact and_assoc.symm
    · rw [e12, e4]
      have hg := h.owned_of_root hl hp
      have hper := perm_eraseP hg fun x hx he =>
        h.uni.coh x _ (.inl ⟨x, hx, GElem.self_mem_subs _⟩) (.inl ⟨_, hg, GElem.self_mem_subs _⟩) he
      have h4 : (rs.map s.green).Perm (s.green p :: (rs.erase p).map s.green) := by
        have := (List.perm_cons_erase hprs).map s.green
        simpa using this
      exact ((hper.symm.trans h3).trans h4).cons_inv
  case uni =>
    rw [e11]
    have hknown : ∀ x, HSt.Known _ x → s.Known x := fun x hx => hx.mono halive
    exact ⟨fun x y hx hy => h.uni.coh x y (hknown x hx) (hknown y hy),
      fun x hx => h.uni.fresh x (hknown x hx),
      fun x hx y hy => hx.subs hy,
      fun x hx => h.uni.wf x (hknown x hx)⟩

theorem Counted.linked {p q i : Nat} {N P F : Nat → Option Nat} {L : List Nat} (h : HInv s hc kids none [])
    (hl : s.live p = true) (hm : s.mutable p = true) (hp : s.parent p = none)
    (hlq : s.live q = true) (hmq : s.mutable q = true)
    (hN : ∀ x, x ∉ kids q → x ≠ p → N x = s.next x ∧ P x = s.prev x)
    (hF : ∀ x, x ≠ q → F x = s.first x)
    (hL : L.Perm (p :: kids q)) (hlist : IsList (s.linked q i p (kids q) N P F) q L) :
    Counted (s.linked q i p (kids q) N P F) hc (upd kids q L) none := by
  have hpk : ∀ x, p ∉ kids x := by
    intro x e; rw [((h.kidsMem x p).mp e).2] at hp; cases hp
  generalize hs' : s.linked q i p (kids q) N P F = s' at hlist
  have f1 : s'.live = s.live := by rw [← hs']; rfl
  have f2 : s'.rc = upd s.rc q (s.rc q + 1) := by rw [← hs']; rfl
  have f3 : s'.parent = upd s.parent p (some q) := by rw [← hs']; rfl
  have f4 : s'.mutable = s.mutable := by rw [← hs']; rfl
  have f5 : s'.first = F := by rw [← hs']; rfl
  have f6 : s'.next = N := by rw [← hs']; rfl
  have f7 : s'.prev = P := by rw [← hs']; rfl
  have f8 : s'.top = s.top := by rw [← hs']; rfl
  have f9 : s'.gtop = s.gtop + 1 := by rw [← hs']; rfl
  have f10 : s'.owned = s.owned.eraseP (·.addr == (s.green p).addr) := by rw [← hs']; rfl
  have f11 : s'.green = s.green := by rw [← hs']; rfl
  have f12 : s'.offset = s.offset := by rw [← hs']; rfl
  have f13 : s'.index = fun x => if x = p then i else if x ∈ kids q ∧ i ≤ s.index x then
      s.index x + 1 else s.index x := by rw [← hs']; rfl
  have hix : ∀ x, x ≠ p → x ∉ kids q → s'.index x = s.index x := by
    intro x hx hk; rw [f13]; simp [hx, hk]
  have hpar : ∀ x y, s'.parent x = some y ↔ (x = p ∧ y = q) ∨ (x ≠ p ∧ s.parent x = some y) := by
    intro x y; rw [f3, upd_apply]; by_cases e : x = p
    · simp [e, eq_comm]
    · simp [e]
  have hA : ∀ x, s'.Alive x → s.Alive x := by
    rintro x ⟨o, ho, hx⟩
    rw [f10] at ho
    exact ⟨o, List.mem_of_mem_eraseP ho, hx⟩
  have hkid : ∀ x y, y ∈ upd kids q L x ↔ (x = q ∧ y = p) ∨ y ∈ kids x := by
    intro x y
    by_cases e : x = q
    · subst e
      rw [upd_same, hL.mem_iff]; simp
    · rw [upd_other _ _ e]; simp [e]
  have hdisj : ∀ x y, x ≠ q → y ∈ kids x → y ∉ kids q := by
    intro x y hxq hy hyq
    have h1 := ((h.kidsMem x y).mp hy).2
    have h2 := ((h.kidsMem q y).mp hyq).2
    rw [h1] at h2; cases h2; exact hxq rfl
  constructor
  case top => rw [f1, f8]; exact h.top
  case hlive => rw [f1]; exact h.hlive
  case rc =>
    intro x hx
    rw [f1] at hx
    rw [f2]
    by_cases e : x = q
    · subst e
      rw [upd_same, upd_same, hL.length_eq, List.length_cons, h.rc x hx]; omega
    · rw [upd_other _ _ e, upd_other _ _ e]; exact h.rc x hx
  case pos =>
    intro x hx _
    rw [f1] at hx; rw [f2, upd_apply]
    split
    · omega
    · exact h.pos x hx (by simp)
  case kidsMem =>
    intro x y
    rw [hkid, h.kidsMem, f1, hpar]
    constructor
    · rintro (⟨rfl, rfl⟩ | ⟨a, b⟩)
      · exact ⟨hl, .inl ⟨rfl, rfl⟩⟩
      · refine ⟨a, .inr ⟨?_, b⟩⟩
        rintro rfl; rw [hp] at b; cases b
    · rintro ⟨a, (⟨rfl, rfl⟩ | ⟨b, c⟩)⟩
      · exact .inl ⟨rfl, rfl⟩
      · exact .inr ⟨a, c⟩
  case kidsNodup =>
    intro x
    rw [upd_apply]; split
    · exact hL.nodup_iff.mpr (List.nodup_cons.mpr ⟨hpk q, h.kidsNodup q⟩)
    · exact h.kidsNodup x
  case parentOk =>
    intro x y hx hy
    rw [f1, f4]; rw [f1] at hx
    rcases (hpar x y).mp hy with ⟨rfl, rfl⟩ | ⟨_, hy⟩
    · exact ⟨hlq, hmq.trans hm.symm⟩
    · exact h.parentOk x y hx hy
  case ringM =>
    intro x hx hmx
    rw [f1] at hx; rw [f4] at hmx
    by_cases e : x = q
    · subst e
      rw [upd_same]; exact hlist
    · rw [upd_other _ _ e]
      have := h.ringM x hx hmx
      have hne : ∀ y ∈ kids x, y ≠ p := by rintro y hy rfl; exact hpk x hy
      refine ⟨by rw [f5, hF x e]; exact this.head, ?_, ?_⟩
      · rw [f6, f7]
        exact ring_frame (fun y hy => (hN y (hdisj x y e hy) (hne y hy)).1)
          (fun y hy => (hN y (hdisj x y e hy) (hne y hy)).2) this.ring
      · refine this.sorted.imp_of_mem fun {a b} ha hb hab => ?_
        rw [hix a (hne a ha) (hdisj x a e ha), hix b (hne b hb) (hdisj x b e hb)]; exact hab
  case firstI =>
    intro x hx hmx
    rw [f1] at hx; rw [f4] at hmx
    have e : x ≠ q := by rintro rfl; rw [hmq] at hmx; cases hmx
    rw [f5, hF x e]; exact h.firstI x hx hmx
  case roots =>
    obtain ⟨rs, h1, h2, h3⟩ := h.roots
    have hprs : p ∈ rs := (h2 p).mpr ⟨hl, hp⟩
    refine ⟨rs.erase p, h1.erase p, ?_, ?_⟩
    · intro x
      rw [h1.mem_erase_iff, h2, f1, f3]
      by_cases e : x = p
      · subst e; simp
      · rw [upd_other _ _ e]; simp [e]
    · rw [f10, f11]
      have hown := h.owned_of_root hl hp
      have e1 := perm_eraseP hown fun x hx e =>
        h.uni.coh x _ (.inl ⟨x, hx, GElem.self_mem_subs x⟩) (.inl ⟨_, hown, GElem.self_mem_subs _⟩) e
      have e2 := h3.trans ((List.perm_cons_erase hprs).map s.green)
      exact (e1.symm.trans e2).cons_inv
  case uni =>
    rw [f9]
    exact h.uni.mono (Nat.le_succ _) (fun x hx => hx.mono hA) fun x hx y hy => hx.subs hy

theorem Counted.unlinkIf_ok {p q : Nat} (h : Counted s hc kids z) (hl : s.live p = true)
    (hp : s.parent p = some q) (s1 : HSt) (hs1 : s1 = s.setParent p none) :
    ∃ N P F, unlinkIf (s1.mutable p) q p s1 =
        .ok () { s1 with next := N, prev := P, first := F } ∧
      (∀ x, x ∉ kids q → N x = s.next x ∧ P x = s.prev x) ∧
      (∀ x, x ≠ q → F x = s.first x) ∧
      (s.mutable p = true → IsList { s1 with next := N, prev := P, first := F } q ((kids q).erase p)) ∧
      (s.mutable p = false → F q = s.first q) := by
  subst hs1
  obtain ⟨hlq, hmq⟩ := h.parentOk p q hl hp
  have hpk : p ∈ kids q := (h.kidsMem q p).mpr ⟨hl, hp⟩
  cases hm : s.mutable p with
  | false =>
    refine ⟨s.next, s.prev, s.first, ?_, fun _ _ => ⟨rfl, rfl⟩, fun _ _ => rfl, by simp,
      fun _ => rfl⟩
    simp only [unlinkIf, HSt.setParent, hm, Bool.false_eq_true, if_false, H.pure_apply]
  | true =>
    have hlist := h.ringM q hlq (hmq.trans hm)
    have hlist' : IsList (s.setParent p none) q (kids q) := ⟨hlist.head, hlist.ring, hlist.sorted⟩
    obtain ⟨N, P, F, h1, h2, _, h4, h5⟩ := Sll.unlink_ok hlist' hlq (fun x hx => ((h.kidsMem q x).mp hx).1) hpk
    refine ⟨N, P, F, ?_, h2, h4, fun _ => h5, by simp⟩
    simp only [unlinkIf, HSt.setParent, hm, if_true]
    exact h1

/-- The number of live objects. -/
def liveCount (s : HSt) : Nat := (List.range s.top).countP s.live

theorem countP_upd {f : Nat → Bool} {p : Nat} : ∀ {l : List Nat}, l.Nodup → p ∈ l → f p = true →
    l.countP (upd f p false) + 1 = l.countP f
  | x :: l, hn, hm, hf => by
    obtain ⟨h1, h2⟩ := List.nodup_cons.mp hn
    rw [List.countP_cons, List.countP_cons]
    by_cases e : x = p
    · subst e
      have : l.countP (upd f x false) = l.countP f := by
        refine List.countP_congr fun y hy => ?_
        rw [upd_other]; rintro rfl; exact h1 hy
      rw [this]; simp [hf]
    · have := countP_upd h2 ((List.mem_cons.mp hm).resolve_left (Ne.symm e)) hf
      rw [upd_other _ _ e]; omega

theorem liveCount_freed {s s' : HSt} {p : Nat} (ht : s'.top = s.top) (hl : s'.live = upd s.live p false)
    (hp : s.live p = true) (hpt : p < s.top) : liveCount s' + 1 = liveCount s := by
  rw [liveCount, liveCount, ht, hl]
  exact countP_upd List.nodup_range (by simpa using hpt) hp

/-- Every object in `S` is the parent of an object in `S`. -/
def Busy (s : HSt) (S : Nat → Prop) : Prop := ∀ x, S x → s.live x = true ∧ ∃ y, S y ∧ s.parent y = some x

theorem Busy.freed {s s' : HSt} {S : Nat → Prop} {p : Nat} (h : Busy s S) (hp : ∀ x, s.live x = true → s.parent x ≠ some p)
    (hk : ∀ x, x ≠ p → s.live x = true → s'.live x = true ∧ s'.parent x = s.parent x) : Busy s' S := by
  have hne : ∀ x, S x → x ≠ p := by
    rintro x hx rfl
    obtain ⟨_, y, hy, e⟩ := h x hx
    exact hp y (h y hy).1 e
  intro x hx
  obtain ⟨h1, y, hy, e⟩ := h x hx
  exact ⟨(hk x (hne x hx) h1).1, y, hy, (hk y (hne y hy) (h y hy).1).2.trans e⟩

theorem Counted.freeLoop_ok : ∀ (fuel : Nat) (s : HSt) (kids : Nat → List Nat) (p : Nat),
    Counted s hc kids (some p) → s.live p = true → s.rc p = 0 → liveCount s ≤ fuel →
    ∃ s' kids', freeLoop fuel p s = .ok () s' ∧ Counted s' hc kids' none ∧ Shrinks s s' ∧
      ∀ S, Busy s S → Busy s' S := by
  intro fuel
  induction fuel with
  | zero =>
    intro s kids p h hl _ hlen
    have := countP_upd (f := s.live) (List.nodup_range (n := s.top)) (by simpa using h.top p hl) hl
    rw [liveCount] at hlen; omega
  | succ fuel ih =>
    intro s kids p h hl hz hlen
    have hrc := h.rc p hl
    have hkp : kids p = [] := by
      rw [hz] at hrc; exact List.eq_nil_of_length_eq_zero (by omega)
    have hnp : ∀ x, s.live x = true → s.parent x ≠ some p := fun x hx e => by
      have := (h.kidsMem p x).mpr ⟨hx, e⟩
      rw [hkp] at this; cases this
    have hfirst : s.first p = none := by
      cases hm : s.mutable p with
      | false => exact h.firstI p hl hm
      | true => have := (h.ringM p hl hm).head; rw [hkp] at this; simpa using this
    simp only [freeLoop]
    rw [H.bind_ok (H.rd_ok hl), H.bind_ok (H.dbg_ok (by simp [hz])), H.bind_ok (H.rd_ok hl),
      H.bind_ok (H.dbg_ok (by simp [hfirst])), H.bind_ok (H.rd_ok hl)]
    cases hp : s.parent p with
    | none =>
      simp only []
      have hg := h.owned_of_root hl hp
      have hany : s.owned.any (·.addr == (s.green p).addr) = true :=
        List.any_eq_true.mpr ⟨_, hg, by simp⟩
      rw [H.bind_ok (H.rd_ok hl)]
      have hrel : H.release (s.green p) s =
          .ok () { s with owned := s.owned.eraseP (·.addr == (s.green p).addr) } := by
        simp [H.release, hany]
      rw [H.bind_ok hrel, dealloc]
      have hl' : ({ s with owned := s.owned.eraseP (·.addr == (s.green p).addr) } : HSt).live p
          = true := hl
      rw [H.wr_ok hl']
      refine ⟨_, kids, rfl, Counted.freed_root h hl hz hp, ⟨fun x hx => ?_, rfl, rfl⟩,
        fun S hS => hS.freed hnp fun x hx hl => ⟨by simpa only [upd_other _ _ hx] using hl, rfl⟩⟩
      have hxp : x ≠ p := by rintro rfl; simp at hx
      simp only [upd_other _ _ hxp] at hx
      exact ⟨hx, rfl, rfl, rfl, rfl, rfl⟩
    | some q =>
      simp only []
      obtain ⟨hlq, hmq⟩ := h.parentOk p q hl hp
      have hpk : p ∈ kids q := (h.kidsMem q p).mpr ⟨hl, hp⟩
      have hqp : q ≠ p := by rintro rfl; rw [hkp] at hpk; cases hpk
      have hrq : 0 < s.rc q := by
        rw [h.rc q hlq]; have := List.length_pos_of_mem hpk; omega
      obtain ⟨N, P, F, h1, h2, h3, h4, h5⟩ := Counted.unlinkIf_ok h hl hp _ rfl
      rw [H.bind_ok (H.wr_ok hl)]
      have hlq1 : (s.setParent p none).live q = true := hlq
      have hlp1 : (s.setParent p none).live p = true := hl
      rw [H.bind_ok (H.rd_ok hlq1), H.bind_ok (H.dbg_ok (decide_eq_true (show 0 < (s.setParent p none).rc q from hrq))),
        H.bind_ok (H.rd_ok hlp1), H.bind_ok h1]
      generalize hs2 : ({ (s.setParent p none) with next := N, prev := P, first := F } : HSt) = s2
      have hl2 : s2.live = s.live := by rw [← hs2]; rfl
      have hrc2 : s2.rc = s.rc := by rw [← hs2]; rfl
      rw [H.bind_ok (decRc_ok (by rw [hl2]; exact hlq) (by rw [hrc2]; exact hrq)), dealloc,
        H.bind_ok (H.wr_ok (by show s2.live p = true; rw [hl2]; exact hl))]
      have hst : ({ (s2.setRc q (s2.rc q - 1)) with
                    live := upd (s2.setRc q (s2.rc q - 1)).live p false } : HSt) =
          freedSt s p q N P F := by
        rw [← hs2]; rfl
      rw [hst]
      have hinv : Counted (freedSt s p q N P F) hc (upd kids q ((kids q).erase p)) (some q) := by
        refine Counted.freed h hl hz hp h2 h3 (fun hm => ⟨?_, ?_⟩) h5
        · have := (h.ringM q hlq (hmq.trans hm)).head
          rw [this]
          cases hk : kids q with
          | nil => rw [hk] at hpk; cases hpk
          | cons a b => simp
        · have := h4 hm
          exact ⟨this.head, this.ring, this.sorted⟩
      have hshr : Shrinks s (freedSt s p q N P F) := by
        refine ⟨fun x hx => ?_, rfl, rfl⟩
        have hxp : x ≠ p := by rintro rfl; simp [freedSt] at hx
        refine ⟨?_, ?_, rfl, rfl, rfl, rfl⟩
        · simpa only [freedSt, upd_other _ _ hxp] using hx
        · simp only [freedSt, upd_other _ _ hxp]
      have hbusy : ∀ S, Busy s S → Busy (freedSt s p q N P F) S := fun S hS => hS.freed hnp fun x hx hl =>
        ⟨by simpa only [freedSt, upd_other _ _ hx] using hl, by simp only [freedSt, upd_other _ _ hx]⟩
      have hlq' : (freedSt s p q N P F).live q = true := by
        simp only [freedSt, upd_other _ _ hqp]; exact hlq
      have hcnt := liveCount_freed (s := s) (s' := freedSt s p q N P F) rfl rfl hl (h.top p hl)
      rw [hrc2]
      by_cases hlast : s.rc q - 1 = 0
      · simp only [hlast, beq_self_eq_true, if_true]
        obtain ⟨s', kids', f1, f2, f3, f4⟩ := ih _ _ q hinv hlq'
          (by simp only [freedSt, upd_same]; exact hlast) (by omega)
        exact ⟨s', kids', f1, f2, hshr.trans f3, fun S hS => f4 S (hbusy S hS)⟩
      · have : (s.rc q - 1 == 0) = false := by simpa using hlast
        rw [this]
        refine ⟨_, _, rfl, { hinv with pos := fun x hx _ => ?_ }, hshr, hbusy⟩
        by_cases e : x = q
        · rw [e]; simp only [freedSt, upd_same]; omega
        · exact hinv.pos x hx (by simpa using e)

theorem liveCount_le (s : HSt) : liveCount s ≤ s.top := by
  have := List.countP_le_length (p := s.live) (l := List.range s.top)
  simpa [liveCount] using this

/-- Dropping a handle. -/
theorem Counted.drop_ok {p : Nat} (h : Counted s (inc hc p) kids none) :
    ∃ s' kids', drop p s = .ok () s' ∧ Counted s' hc kids' none ∧ Shrinks s s' ∧
      ∀ S, Busy s S → Busy s' S := by
  have hl : s.live p = true := h.hlive p (by simp)
  have hrc : 0 < s.rc p := h.pos p hl (by simp)
  have hrc' := h.rc p hl
  rw [inc_same] at hrc'
  have h1 : Counted (s.setRc p (s.rc p - 1)) hc kids (some p) := by
    refine { h with hlive := ?_, rc := ?_, pos := ?_, ringM := ?_, roots := ?_, uni := ?_ }
    · intro x hx; exact h.hlive x (Nat.lt_of_lt_of_le hx (le_inc hc p x))
    · intro x hx
      have hx' : s.live x = true := hx
      simp only [HSt.setRc]
      by_cases e : x = p
      · subst e; rw [upd_same]; omega
      · rw [upd_other _ _ e, h.rc x hx', inc_other _ e]
    · intro x hx hxz
      have e : x ≠ p := fun e => hxz (by rw [e])
      simp only [HSt.setRc]
      rw [upd_other _ _ e]; exact h.pos x hx (by simp)
    · intro x hx hm
      have := h.ringM x hx hm
      exact ⟨this.head, this.ring, this.sorted⟩
    · exact h.roots
    · exact h.uni
  have hshr : Shrinks s (s.setRc p (s.rc p - 1)) :=
    ⟨fun x hx => ⟨hx, rfl, rfl, rfl, rfl, rfl⟩, rfl, rfl⟩
  simp only [drop]
  rw [H.bind_ok (decRc_ok hl hrc)]
  by_cases e : s.rc p - 1 = 0
  · simp only [e, beq_self_eq_true, if_true]
    rw [e] at h1 hshr
    simp only [free, H.loop_apply]
    obtain ⟨s', kids', f1, f2, f3, f4⟩ := Counted.freeLoop_ok ((s.setRc p 0).top + (s.setRc p 0).slack + 1) _ _ p h1 hl
      (by simp [HSt.setRc]) (by have := liveCount_le (s.setRc p 0); omega)
    exact ⟨s', kids', f1, f2, hshr.trans f3, fun S hS => f4 S hS⟩
  · have : (s.rc p - 1 == 0) = false := by simpa using e
    rw [this]
    refine ⟨_, kids, rfl, { h1 with pos := fun x hx _ => ?_ }, hshr, fun S hS => hS⟩
    by_cases e' : x = p
    · rw [e']; simp only [HSt.setRc, upd_same]; omega
    · exact h1.pos x hx (by simpa using e')

theorem Counted.of_inv {bad : List Nat} (h : HInv s hc kids z bad) : Counted s hc kids z :=
  ⟨h.top, h.hlive, h.rc, h.pos, h.kidsMem, h.kidsNodup, h.parentOk, h.ringM, h.firstI, h.roots, h.uni⟩

/-- What is above a live element survives. -/
theorem Counted.up_live {s' : HSt} {x p : Nat} (h : Counted s' hc kids none) (hs : Shrinks s s') (hu : s.Up x p)
    (hx : s'.live x = true) : s'.live p = true ∧ s'.Up x p := by
  induction hu with
  | refl => exact ⟨hx, .refl⟩
  | step hp _ ih =>
    have hp' := (hs.keeps _ hx).2.parent
    rw [hp] at hp'
    obtain ⟨a, b⟩ := ih (h.parentOk _ _ hx hp').1
    exact ⟨a, .step hp' b⟩

theorem Counted.up_of_loc {s' : HSt} {p q x : Nat} {P : List Nat} (hpp : s.parent p = none)
    (f : s'.parent = upd s.parent p (some q)) (h : s.Loc x p P) : s'.Up x p := by
  induction h with
  | root => exact .refl
  | @child x y r P hl hp _ ih =>
    refine .step ?_ (ih hpp f)
    rw [f, upd_other _ _ (by rintro rfl; rw [hpp] at hp; cases hp)]; exact hp

theorem Counted.stray {s' : HSt} {p y : Nat} (h : Counted s' hc kids none) (hs : Shrinks s s')
    (hu : s.Stray p y) (hx : s'.live p = true) : s'.Stray p y := by
  have hk := (hs.keeps _ hx).2
  have hp := hk.parent.trans hu.2.1
  have hy := (hs.keeps _ (h.parentOk _ _ hx hp).1).2
  refine ⟨hx, hp, ?_⟩
  rw [HSt.tree, hy.green, hk.index]; exact hu.2.2

end Cur
end Rowan
