import Verif.HeapRespine
import Verif.EditLemmas
import Verif.Spec.View
/-!
# `detach` and `attach_child` on the cursor heap

Unless their comments cite lines of `/repo`, the definitions in this file are vocabulary of the proofs and model no code.
-/
namespace Rowan
set_option linter.unusedSectionVars false
variable [Greens]

theorem sorted_inj {s : HSt} {L : List Nat} (hL : L.Pairwise (fun a b => s.index a < s.index b))
    {w x : Nat} (hwL : w ∈ L) (hxL : x ∈ L) (e : s.index w = s.index x) : w = x := by
  induction hL with
  | nil => cases hwL
  | cons hh _ ih =>
    rcases List.mem_cons.mp hwL with e1 | hwL'
    · rcases List.mem_cons.mp hxL with e2 | hxL'
      · exact e1.trans e2.symm
      · have := hh x hxL'; rw [← e1] at this; omega
    · rcases List.mem_cons.mp hxL with e2 | hxL'
      · have := hh w hwL'; rw [← e2] at this; omega
      · exact ih hwL' hxL'

namespace HInv
variable {s : HSt} {hc : Nat → Nat} {kids : Nat → List Nat} {z : Option Nat} {bad : List Nat}

/-- Two siblings of a mutable tree with the same index are the same object. -/
theorem sibling_inj (h : HInv s hc kids z bad) {w x y : Nat} (hw : s.live w = true)
    (hx : s.live x = true) (hwy : s.parent w = some y) (hxy : s.parent x = some y)
    (hm : s.mutable x = true) (e : s.index w = s.index x) : w = x := by
  obtain ⟨hly, hmy⟩ := h.parentOk x y hx hxy
  exact sorted_inj (h.ringM y hly (hmy.trans hm)).sorted ((h.kidsMem y w).mpr ⟨hw, hwy⟩)
    ((h.kidsMem y x).mpr ⟨hx, hxy⟩) e

theorem mutable_root (h : HInv s hc kids z bad) {x r : Nat} {P : List Nat} (hx : s.Loc x r P) :
    s.mutable r = s.mutable x := by
  induction hx with
  | root => rfl
  | @child p q r path hl hp hq ih => rw [ih]; exact (h.parentOk p q hl hp).2

/-- In a mutable tree there is one object per position. -/
theorem loc_inj (h : HInv s hc kids z bad) {x y r : Nat} {P : List Nat} (hx : s.Loc x r P)
    (hy : s.Loc y r P) (hm : s.mutable x = true) : x = y := by
  induction hx generalizing y with
  | @root x hl hp =>
    generalize hQ : ([] : List Nat) = Q at hy
    cases hy with
    | root => rfl
    | child => simp at hQ
  | @child x q r path hl hp hq ih =>
    generalize hQ : path ++ [s.index x] = Q at hy
    cases hy with
    | root => simp at hQ
    | @child _ q' _ path' hl' hp' hq' =>
      obtain ⟨e1, e2⟩ := List.append_inj' hQ rfl
      subst e1
      have := ih hq' ((h.parentOk x q hl hp).2.trans hm)
      subst this
      have e3 : s.index x = s.index y := by simpa using e2
      exact (h.sibling_inj hl' hl hp' hp hm e3.symm).symm

end HInv

/-- The heap in the middle of `detach`: `p` is unlinked, the green trees are still the old ones. -/
def HSt.unlinked (s : HSt) (p : Nat) (K : List Nat) (N P F : Nat → Option Nat) : HSt :=
  { s with
    parent := upd s.parent p none
    index := fun x => if x ∈ K ∧ s.index p + 1 ≤ s.index x then s.index x - 1 else s.index x
    next := N
    prev := P
    first := F
    owned := s.green p :: s.owned
    gtop := s.gtop + 1 }

theorem Chain.cut {s s' : HSt} {p : Nat} (hl : s'.live = s.live)
    (hp : s'.parent = upd s.parent p none) {x : Nat} {l : List Nat} (h : Chain s x l) :
    ∃ l', Chain s' x l' := by
  induction h with
  | @root x hx hpx =>
    refine ⟨_, .root (by rw [hl]; exact hx) ?_⟩
    rw [hp]; simp only [upd_apply]; split <;> simp [hpx]
  | @step x y l hx hpx hc ih =>
    by_cases e : x = p
    · exact ⟨_, .root (by rw [hl]; exact hx) (by rw [hp, e]; simp)⟩
    · obtain ⟨l', h'⟩ := ih
      exact ⟨_, .step (by rw [hl]; exact hx) (by rw [hp, upd_other _ _ e]; exact hpx) h'⟩

namespace Cur
variable {s : HSt} {hc : Nat → Nat} {kids : Nat → List Nat}

theorem inv_unlinked {p q : Nat} {N P F : Nat → Option Nat} (h : HInv s hc kids none [])
    (hl : s.live p = true) (hm : s.mutable p = true) (hp : s.parent p = some q)
    (hN : ∀ x, x ∉ kids q → N x = s.next x ∧ P x = s.prev x)
    (hNp : N p = some p ∧ P p = some p)
    (hF : ∀ x, x ≠ q → F x = s.first x)
    (hFq : F q = ((kids q).erase p).head?) (hR : IsRing N P ((kids q).erase p)) :
    HInv (s.unlinked p (kids q) N P F) (inc hc q) (upd kids q ((kids q).erase p)) none
      ((kids q).erase p) := by
  obtain ⟨hlq, hmq⟩ := h.parentOk p q hl hp
  have hpk : p ∈ kids q := (h.kidsMem q p).mpr ⟨hl, hp⟩
  have hqp : q ≠ p := by rintro rfl; exact h.par_not_kid hpk
  generalize hs' : s.unlinked p (kids q) N P F = s'
  have f1 : s'.live = s.live := by rw [← hs']; rfl
  have f2 : s'.rc = s.rc := by rw [← hs']; rfl
  have f3 : s'.parent = upd s.parent p none := by rw [← hs']; rfl
  have f4 : s'.mutable = s.mutable := by rw [← hs']; rfl
  have f5 : s'.first = F := by rw [← hs']; rfl
  have f6 : s'.next = N := by rw [← hs']; rfl
  have f7 : s'.prev = P := by rw [← hs']; rfl
  have f8 : s'.top = s.top := by rw [← hs']; rfl
  have f9 : s'.gtop = s.gtop + 1 := by rw [← hs']; rfl
  have f10 : s'.owned = s.green p :: s.owned := by rw [← hs']; rfl
  have f11 : s'.green = s.green := by rw [← hs']; rfl
  have f12 : s'.offset = s.offset := by rw [← hs']; rfl
  have f13 : s'.index = fun x => if x ∈ kids q ∧ s.index p + 1 ≤ s.index x then s.index x - 1
      else s.index x := by rw [← hs']; rfl
  have hix : ∀ x, x ∉ kids q → s'.index x = s.index x := by
    intro x hx; rw [f13]; simp [hx]
  have hpar : ∀ x y, s'.parent x = some y ↔ x ≠ p ∧ s.parent x = some y := by
    intro x y; rw [f3, upd_apply]; by_cases e : x = p <;> simp [e]
  have hA : ∀ x, s'.Alive x → s.Alive x := by
    rintro x ⟨o, ho, hx⟩
    rw [f10] at ho
    rcases List.mem_cons.mp ho with rfl | ho
    · exact HInv.alive_subs (h.alive hl) hx
    · exact ⟨o, ho, hx⟩
  have hkid : ∀ x y, y ∈ upd kids q ((kids q).erase p) x ↔ y ≠ p ∧ y ∈ kids x := by
    intro x y
    by_cases e : x = q
    · subst e
      rw [upd_same, (h.kidsNodup x).mem_erase_iff]
    · rw [upd_other _ _ e]
      constructor
      · intro hy
        refine ⟨?_, hy⟩
        rintro rfl
        have := ((h.kidsMem x y).mp hy).2
        rw [hp] at this; cases this; exact e rfl
      · exact fun hy => hy.2
  have hdisj : ∀ x y, x ≠ q → y ∈ kids x → y ∉ kids q := by
    intro x y hxq hy hyq
    have h1 := ((h.kidsMem x y).mp hy).2
    have h2 := ((h.kidsMem q y).mp hyq).2
    rw [h1] at h2; cases h2; exact hxq rfl
  constructor
  case top => rw [f1, f8]; exact h.top
  case hlive =>
    intro x hx
    rw [f1]
    by_cases e : x = q
    · rw [e]; exact hlq
    · rw [inc_other _ e] at hx; exact h.hlive x hx
  case rc =>
    intro x hx
    rw [f1] at hx
    rw [f2, h.rc x hx]
    by_cases e : x = q
    · subst e
      rw [upd_same, inc_same, List.length_erase_of_mem hpk]
      have := List.length_pos_of_mem hpk
      omega
    · rw [upd_other _ _ e, inc_other _ e]
  case pos => rw [f1, f2]; exact h.pos
  case rcLe => rw [f1, f2]; exact h.rcLe
  case kidsMem =>
    intro x y
    rw [hkid, h.kidsMem, f1, hpar]
    constructor
    · rintro ⟨a, b, c⟩; exact ⟨b, a, c⟩
    · rintro ⟨a, b, c⟩; exact ⟨b, a, c⟩
  case kidsNodup =>
    intro x
    rw [upd_apply]; split
    · exact (h.kidsNodup q).erase p
    · exact h.kidsNodup x
  case parentOk =>
    intro x y hx hy
    rw [f1, f4]; rw [f1] at hx
    exact h.parentOk x y hx ((hpar x y).mp hy).2
  case parNode =>
    intro x y hx hy
    rw [f11]; rw [f1] at hx
    exact h.parNode x y hx ((hpar x y).mp hy).2
  case greenOk =>
    intro x y hx hy hb
    rw [f1] at hx
    obtain ⟨hxp, hy⟩ := (hpar x y).mp hy
    have hxk : x ∉ kids q := by
      intro e; exact hb ((h.kidsNodup q).mem_erase_iff.mpr ⟨hxp, e⟩)
    rw [f11, f12, f4, hix x hxk]
    exact h.greenOk x y hx hy (by simp)
  case rootOff =>
    intro x hx hy hmx
    rw [f1] at hx; rw [f4] at hmx; rw [f12]
    have e : x ≠ p := by rintro rfl; rw [hm] at hmx; cases hmx
    rw [f3, upd_other _ _ e] at hy
    exact h.rootOff x hx hy hmx
  case chain =>
    intro x hx
    rw [f1] at hx
    obtain ⟨l, hch⟩ := h.chain x hx
    exact hch.cut f1 f3
  case ringM =>
    intro x hx hmx
    rw [f1] at hx; rw [f4] at hmx
    by_cases e : x = q
    · subst e
      rw [upd_same]
      refine ⟨by rw [f5]; exact hFq, by rw [f6, f7]; exact hR, ?_⟩
      have hs0 := (h.ringM x hx hmx).sorted
      have hs1 := hs0.sublist (List.erase_sublist (a := p))
      refine hs1.imp_of_mem fun {a b} ha hb hab => ?_
      obtain ⟨hap, ha⟩ := (h.kidsNodup x).mem_erase_iff.mp ha
      obtain ⟨hbp, hb⟩ := (h.kidsNodup x).mem_erase_iff.mp hb
      have na : s.index a ≠ s.index p := fun e => hap (sorted_inj hs0 ha hpk e)
      have nb : s.index b ≠ s.index p := fun e => hbp (sorted_inj hs0 hb hpk e)
      rw [f13]
      simp only [ha, hb, true_and]
      split <;> split <;> omega
    · rw [upd_other _ _ e]
      have := h.ringM x hx hmx
      refine ⟨by rw [f5, hF x e]; exact this.head, ?_, ?_⟩
      · rw [f6, f7]
        exact ring_frame (fun y hy => (hN y (hdisj x y e hy)).1) (fun y hy => (hN y (hdisj x y e hy)).2) this.ring
      · refine this.sorted.imp_of_mem fun {a b} ha hb hab => ?_
        rw [hix a (hdisj x a e ha), hix b (hdisj x b e hb)]; exact hab
  case selfM =>
    intro x hx hmx hy
    rw [f1] at hx; rw [f4] at hmx; rw [f6, f7]
    by_cases e : x = p
    · rw [e]; exact hNp
    · rw [f3, upd_other _ _ e] at hy
      have hxk : x ∉ kids q := by
        intro hk; rw [((h.kidsMem q x).mp hk).2] at hy; cases hy
      rw [(hN x hxk).1, (hN x hxk).2]
      exact h.selfM x hx hmx hy
  case firstI =>
    intro x hx hmx
    rw [f1] at hx; rw [f4] at hmx
    have e : x ≠ q := by rintro rfl; rw [hmq, hm] at hmx; cases hmx
    rw [f5, hF x e]; exact h.firstI x hx hmx
  case roots =>
    obtain ⟨rs, h1, h2, h3⟩ := h.roots
    have hprs : p ∉ rs := by
      intro e; rw [((h2 p).mp e).2] at hp; cases hp
    refine ⟨p :: rs, List.nodup_cons.mpr ⟨hprs, h1⟩, ?_, ?_⟩
    · intro x
      rw [f1, f3, List.mem_cons, h2]
      by_cases e : x = p
      · subst e; simp [hl]
      · rw [upd_other _ _ e]; simp [e]
    · rw [f10, f11, List.map_cons]; exact h3.cons _
  case uni =>
    rw [f9]
    exact h.uni.mono (Nat.le_succ _) (fun x hx => hx.mono hA) fun x hx y hy => hx.subs hy

theorem _root_.Rowan.GNode.removeChild_eq {n : GNode} {i : Nat} (a : Nat) (h : i < n.children.length) :
    n.removeChild a i = some (GNode.new a n.kind (n.children.eraseIdx i)) := by
  have : i ≤ i + 1 ∧ i + 1 ≤ n.children.length := by omega
  simp [GNode.removeChild, GNode.spliceChildren, vecSplice, this, List.eraseIdx_eq_take_drop_succ]

theorem _root_.Rowan.GNode.insertChild_eq {n : GNode} {i : Nat} (a : Nat) (e : GElem)
    (h : i ≤ n.children.length) :
    n.insertChild a i e = some (GNode.new a n.kind (n.children.take i ++ e :: n.children.drop i)) := by
  simp [GNode.insertChild, GNode.spliceChildren, vecSplice, h]

theorem _root_.Rowan.GNode.insertChild_none {n : GNode} {i : Nat} (a : Nat) (e : GElem)
    (h : n.children.length < i) : n.insertChild a i e = none := by
  have : ¬ i ≤ n.children.length := by omega
  simp [GNode.insertChild, GNode.spliceChildren, vecSplice, this]

/-- The effect of a mutation that allocates nothing: `f` says where elements go, `T` what the trees
become. -/
structure Effect (s s' : HSt) (f : Nat → List Nat → Nat × List Nat) (T : Nat → Tree) : Prop where
  live : ∀ x, s'.live x = true → s.live x = true
  loc : ∀ x r Q, s.Loc x r Q → s'.live x = true → s'.Loc x (f r Q).1 (f r Q).2
  mutable : ∀ x, s'.live x = true → s'.mutable x = s.mutable x
  tree : ∀ x, s'.live x = true → s'.parent x = none → s'.tree x = T x
  imm : ∀ x, s'.live x = true → s.mutable x = false → Keeps s s' x
  top : s'.top = s.top
  gtop : s.gtop ≤ s'.gtop
  same : ∀ x, s'.live x = true →
    (s'.tree x).isNode = (s.tree x).isNode ∧ (s'.tree x).kind = (s.tree x).kind
  token : ∀ x, s'.live x = true → (s.tree x).isNode = false → s'.green x = s.green x

/-- What an edit at the children of `q`, of which `p` is the one that is removed or inserted, leaves alone. -/
structure Local (s s' : HSt) (q p : Nat) : Prop where
  green : ∀ z, s'.live z = true → ¬ s.Up q z → s'.green z = s.green z
  parent : ∀ z, s'.live z = true → z ≠ p → s'.parent z = s.parent z
  index : ∀ z, s'.live z = true → z ≠ p → s.parent z ≠ some q → s'.index z = s.index z
  mutable : ∀ z, s'.live z = true → s'.mutable z = s.mutable z
  offset : ∀ z, s'.live z = true → s'.offset z = s.offset z

theorem Local.shrinks {s s1 s2 : HSt} {q p : Nat} (h : Local s s1 q p) (h' : Shrinks s1 s2) : Local s s2 q p where
  green z hz hn := (h'.keeps z hz).2.green.trans (h.green z (h'.keeps z hz).1 hn)
  parent z hz hn := (h'.keeps z hz).2.parent.trans (h.parent z (h'.keeps z hz).1 hn)
  index z hz hn hp := (h'.keeps z hz).2.index.trans (h.index z (h'.keeps z hz).1 hn hp)
  mutable z hz := (h'.keeps z hz).2.mutable.trans (h.mutable z (h'.keeps z hz).1)
  offset z hz := (h'.keeps z hz).2.offset.trans (h.offset z (h'.keeps z hz).1)

theorem _root_.Rowan.Chain.up {s : HSt} {q z : Nat} {l : List Nat} (h : Chain s q l) (hz : z ∈ l) : s.Up q z := by
  induction h with
  | root => rw [List.mem_singleton.mp hz]; exact .refl
  | step _ hp _ ih =>
    rcases List.mem_cons.mp hz with rfl | hz
    · exact .refl
    · exact .step hp (ih hz)

theorem Effect.shrinks {s s1 s2 : HSt} {f : Nat → List Nat → Nat × List Nat} {T : Nat → Tree}
    (h : Effect s s1 f T) (h' : Shrinks s1 s2) {bad : List Nat} {z : Option Nat}
    (hi1 : HInv s1 hc kids z bad)
    {hc2 : Nat → Nat} {kids2 : Nat → List Nat} {bad2 : List Nat} {z2 : Option Nat}
    (hi : HInv s2 hc2 kids2 z2 bad2) : Effect s s2 f T where
  live x hx := h.live x (h'.keeps x hx).1
  loc x r Q hl hx := by
    obtain ⟨hx1, _⟩ := h'.keeps x hx
    obtain ⟨l, hch⟩ := hi1.chain x hx1
    refine (h.loc x r Q hl hx1).congr hch ?_
    have key : ∀ w l, Chain s1 w l → s2.live w = true → ∀ y ∈ l, s2.live y = true := by
      intro w l hch
      induction hch with
      | root hl hp => intro hw x hx; simp at hx; rw [hx]; exact hw
      | step hl hp hc ih =>
        intro hw x hx
        rcases List.mem_cons.mp hx with rfl | hx
        · exact hw
        · refine ih (hi.parentOk _ _ hw ?_).1 x hx
          rw [(h'.keeps _ hw).2.parent]; exact hp
    intro y hy
    have hy2 := key x l hch hx y hy
    obtain ⟨_, k⟩ := h'.keeps y hy2
    exact ⟨hy2, k.parent, k.index⟩
  mutable x hx := by
    obtain ⟨hx1, k⟩ := h'.keeps x hx
    rw [k.mutable, h.mutable x hx1]
  tree x hx hp := by
    obtain ⟨hx1, k⟩ := h'.keeps x hx
    rw [HSt.tree, k.green]
    exact h.tree x hx1 (by rw [← k.parent]; exact hp)
  imm x hx hm := by
    obtain ⟨hx1, k⟩ := h'.keeps x hx
    exact (h.imm x hx1 hm).trans k
  top := h'.top.trans h.top
  gtop := by rw [h'.gtop]; exact h.gtop
  same x hx := by
    obtain ⟨hx1, k⟩ := h'.keeps x hx
    rw [HSt.tree, k.green]; exact h.same x hx1
  token x hx ht := by
    obtain ⟨hx1, k⟩ := h'.keeps x hx
    rw [k.green]; exact h.token x hx1 ht

/-- `respine` does not change kinds. -/
theorem spine_same {s s' : HSt} {q : Nat} {g0 n : GNode} {l : List Nat} (hsp : Spine s s' q g0 l)
    (hch : Chain s q l) (hg : s.green q = .node n) (hk : g0.kind = n.kind) (x : Nat) :
    (s'.tree x).isNode = (s.tree x).isNode ∧ (s'.tree x).kind = (s.tree x).kind := by
  have hnode : ∀ (m : GNode), GElem.tree (.node m) = .node m.kind (m.children.map GElem.tree) := by
    intro m; rw [← GNode.tree_eq]; rfl
  by_cases hx : x ∈ l
  · by_cases e : x = q
    · rw [e, HSt.tree, HSt.tree, hsp.here, hg, hnode, hnode, hk]; exact ⟨rfl, rfl⟩
    · obtain ⟨w, hw, _, hwx⟩ := hch.child_mem hx e
      obtain ⟨n', g, a, e1, _, e3⟩ := hsp.spine w hw x hwx
      rw [HSt.tree, HSt.tree, e1, e3, hnode, hnode]
      exact ⟨rfl, rfl⟩
  · rw [HSt.tree, HSt.tree, hsp.out x hx]; exact ⟨rfl, rfl⟩

/-- `respine` does not touch tokens. -/
theorem spine_token {s s' : HSt} {q : Nat} {g0 n : GNode} {l : List Nat} (hsp : Spine s s' q g0 l)
    (hch : Chain s q l) (hg : s.green q = .node n) {x : Nat} (ht : (s.tree x).isNode = false) :
    s'.green x = s.green x := by
  refine hsp.out x fun hx => ?_
  have hnode : ∀ {m : GNode}, s.green x = .node m → False := fun e => by
    rw [HSt.tree, e] at ht; simp [GElem.tree, GNode.tree_eq, Tree.isNode] at ht
  by_cases e : x = q
  · subst e; exact hnode hg
  · obtain ⟨w, hw, _, hwx⟩ := hch.child_mem hx e
    obtain ⟨n', g, a, e1, _, e3⟩ := hsp.spine w hw x hwx
    exact hnode e1

/-- What `respine` does to the tree. -/
theorem spine_tree {s0 s s' : HSt} {q r : Nat} {g0 : GNode} {l : List Nat} (hsp : Spine s s' q g0 l)
    (hl : Chain s q l) {y : Nat} {Q : List Nat} (hy : s.Loc y r Q) (hyl : y ∈ l)
    (hg : ∀ x, s0.green x = s.green x)
    (hat : ∀ x ∈ l, ∀ r R, s.Loc x r R → (s0.tree r).at? R = some (s0.tree x)) :
    s'.tree r = (s0.tree r).set Q (s'.tree y) := by
  induction hy with
  | root => simp [Tree.set]
  | @child y y' r Q hl' hp hq ih =>
    have hy'l := hl.parent_mem hyl hp
    rw [ih hy'l]
    obtain ⟨n', g, a, h1, h2, h3⟩ := hsp.spine y hyl y' hp
    rw [Tree.set_append (hat y' hy'l r Q hq)]
    congr 1
    have e1 : s'.tree y' = .node n'.kind ((n'.children.set (s.index y) (.node g)).map GElem.tree) := by
      have : s'.tree y' = (n'.replaceChild a (s.index y) (.node g)).tree := by rw [HSt.tree, h3]; rfl
      rw [this, GNode.tree_eq]
      congr 1
      rw [GNode.replaceChild_children]
    have e2 : s0.tree y' = .node n'.kind (n'.children.map GElem.tree) := by
      have : s0.tree y' = n'.tree := by rw [HSt.tree, hg, h1]; rfl
      rw [this, GNode.tree_eq]
    have e3 : s'.tree y = GElem.tree (.node g) := by rw [HSt.tree, h2]
    rw [e1, e2, e3]
    simp only [Tree.set]
    congr 1
    apply List.ext_getElem?
    intro j
    simp only [List.getElem?_map, List.getElem?_set, List.getElem?_modify]
    by_cases hj : s.index y = j
    · subst hj
      by_cases hlt : s.index y < n'.children.length
      · simp [hlt]
      · simp [hlt]
    · simp [hj]

def cutTree (s : HSt) (r : Nat) (P : List Nat) (i : Nat) (x : Nat) : Tree :=
  if x = r then (s.tree r).removeAt P i else s.tree x

theorem cut_loc {p q r : Nat} {P : List Nat} {s' : HSt} (h : HInv s hc kids none [])
    (hl : s.live p = true) (hm : s.mutable p = true) (hp : s.parent p = some q)
    (hq : s.Loc q r P) (f1 : s'.live = s.live) (f3 : s'.parent = upd s.parent p none)
    (f13 : s'.index = fun x => if x ∈ kids q ∧ s.index p + 1 ≤ s.index x then s.index x - 1
      else s.index x) {x r0 : Nat} {Q : List Nat} (hx : s.Loc x r0 Q) :
    s'.Loc x (cutLoc r p P (s.index p) r0 Q).1 (cutLoc r p P (s.index p) r0 Q).2 := by
  obtain ⟨hlq, hmq⟩ := h.parentOk p q hl hp
  induction hx with
  | @root x hlx hpx =>
    have e : x ≠ p := by rintro rfl; rw [hp] at hpx; cases hpx
    have : cutLoc r p P (s.index p) x [] = (x, []) := by
      simp only [cutLoc, Tree.afterCut_nil]; split
      · next e => rw [e]
      · rfl
    rw [this]
    exact .root (by rw [f1]; exact hlx) (by rw [f3, upd_other _ _ e]; exact hpx)
  | @child x y r0 Q hlx hpx hy ih =>
    by_cases e : x = p
    · subst e
      rw [hp] at hpx; cases hpx
      obtain ⟨rfl, rfl⟩ := hq.unique hy
      have : cutLoc r x P (s.index x) r (P ++ [s.index x]) = (x, []) := by
        simp only [cutLoc, if_true, Tree.afterCut_here]
      rw [this]
      exact .root (by rw [f1]; exact hlx) (by rw [f3]; simp)
    · have hlx' : s'.live x = true := by rw [f1]; exact hlx
      have hpx' : s'.parent x = some y := by rw [f3, upd_other _ _ e]; exact hpx
      have hch := HSt.Loc.child hlx' hpx' ih
      by_cases hyq : y = q
      · subst hyq
        obtain ⟨rfl, rfl⟩ := hq.unique hy
        have hxk : x ∈ kids y := (h.kidsMem y x).mpr ⟨hlx, hpx⟩
        have hne : s.index x ≠ s.index p := fun e' => e (h.sibling_inj hlx hl hpx hp hm e')
        have e1 : cutLoc r p P (s.index p) r P = (r, P) := by
          simp [cutLoc, Tree.afterCut_self]
        have e2 : cutLoc r p P (s.index p) r (P ++ [s.index x]) =
            (r, P ++ [if s.index p < s.index x then s.index x - 1 else s.index x]) := by
          simp only [cutLoc, if_true, Tree.afterCut_kid P hne]
        have e3 : s'.index x = if s.index p < s.index x then s.index x - 1 else s.index x := by
          rw [f13]; simp [hxk]; rfl
        rw [e1, e3] at hch
        rw [e2]; exact hch
      · have hxk : x ∉ kids q := by
          intro e'; have := ((h.kidsMem q x).mp e').2
          rw [hpx] at this; cases this; exact hyq rfl
        have e3 : s'.index x = s.index x := by rw [f13]; simp [hxk]
        rw [e3] at hch
        suffices hs : cutLoc r p P (s.index p) r0 (Q ++ [s.index x]) =
            ((cutLoc r p P (s.index p) r0 Q).1, (cutLoc r p P (s.index p) r0 Q).2 ++ [s.index x]) by
          rw [hs]; exact hch
        by_cases hr : r0 = r
        · subst hr
          have hQ : Q ≠ P := by
            rintro rfl
            exact hyq (h.loc_inj hq hy (hmq.trans hm)).symm
          simp only [cutLoc, if_true, Tree.afterCut_snoc hQ]
          cases Tree.afterCut P (s.index p) Q <;> rfl
        · simp [cutLoc, hr]

/-- `detach` of an element with a parent `q`, up to the removal from the green tree. -/
def detachPre (p q : Nat) : H (GNode × Nat × Nat) := do
  H.wr p (·.setParent p none)
  let i ← index p
  Sll.adjust p (i + 1) (.sub 1)
  Sll.unlink q p
  let g ← green p
  H.own g
  let pg ← greenRef q
  let i ← index p
  let a ← H.freshG
  pure (pg, i, a)

theorem detachData_eq {p q : Nat} (hl : s.live p = true) (hm : s.mutable p = true) (hrc : 0 < s.rc p)
    (hp : s.parent p = some q) : detachData p s = (detachPre p q >>= fun (pg, i, a) => do
      let ng ← H.unwrap (pg.removeChild a i)
      H.own (.node ng)
      H.loop fun fuel => respine fuel q ng
      let last ← decRc q
      if last then free q else pure ()) s := by
  simp only [detachData]
  rw [H.bind_ok (H.rd_ok hl), H.bind_ok (H.assert_ok hm), H.bind_ok (H.rd_ok hl),
    H.bind_ok (H.assert_ok (decide_eq_true hrc)), H.bind_ok (H.rd_ok hl), hp]
  simp only [detachPre, H.bind_assoc]
  rfl

theorem detachPre_ok {p q : Nat} {n : GNode} (h : HInv s hc kids none [])
    (hl : s.live p = true) (hm : s.mutable p = true) (hp : s.parent p = some q) (g1 : s.green q = .node n) :
    ∃ N P' F, detachPre p q s = .ok (n, s.index p, s.gtop) (s.unlinked p (kids q) N P' F) ∧
      HInv (s.unlinked p (kids q) N P' F) (inc hc q) (upd kids q ((kids q).erase p)) none
        ((kids q).erase p) := by
  obtain ⟨hlq, hmq⟩ := h.parentOk p q hl hp
  have hpk : p ∈ kids q := (h.kidsMem q p).mpr ⟨hl, hp⟩
  have hqp : q ≠ p := by rintro rfl; exact h.par_not_kid hpk
  have hlist := h.ringM q hlq (hmq.trans hm)
  have hkl : ∀ x ∈ kids q, s.live x = true := fun x hx => h.kid_live hx
  simp only [detachPre]
  rw [H.bind_ok (H.wr_ok hl)]
  have hl1 : (s.setParent p none).live p = true := hl
  have hix1 : index p (s.setParent p none) = .ok (s.index p) (s.setParent p none) := H.rd_ok hl1
  rw [H.bind_ok hix1]
  have hadj := Sll.adjust_ok (s := s.setParent p none) (elem := p) (start := s.index p + 1)
    (d := .sub 1) (l := kids q) hlist.ring (h.kidsNodup q) hpk hkl (fun x hx => h.kid_top hx)
    (fun x _ hle => decide_eq_true (show 1 ≤ s.index x from
      Nat.le_trans (Nat.le_add_left 1 _) (show s.index p + 1 ≤ s.index x from hle)))
  rw [H.bind_ok hadj]
  obtain ⟨N, P', F, u1, u2, u3, u4, u5, u6⟩ := Sll.unlink_ring (s := { s.setParent p none with
      index := fun x => if x ∈ kids q ∧ s.index p + 1 ≤ (s.setParent p none).index x then
        (Sll.Delta.sub 1).apply ((s.setParent p none).index x) else (s.setParent p none).index x })
    (q := q) (p := p) hlist.head hlist.ring (h.kidsNodup q) hlq hkl hpk
  rw [H.bind_ok u1]
  clear u1
  have hInv := inv_unlinked (N := N) (P := P') (F := F) h hl hm hp u2 u3 u4 u5 u6
  generalize hsA : ({ s.setParent p none with
      index := fun x => if x ∈ kids q ∧ s.index p + 1 ≤ (s.setParent p none).index x then
        (Sll.Delta.sub 1).apply ((s.setParent p none).index x) else (s.setParent p none).index x
      next := N, prev := P', first := F } : HSt) = sA
  have a1 : sA.live = s.live := by rw [← hsA]; rfl
  have a2 : sA.green = s.green := by rw [← hsA]; rfl
  have a3 : sA.owned = s.owned := by rw [← hsA]; rfl
  have a4 : sA.gtop = s.gtop := by rw [← hsA]; rfl
  have a5 : sA.index p = s.index p := by
    rw [← hsA]
    show (if p ∈ kids q ∧ s.index p + 1 ≤ s.index p then _ else s.index p) = s.index p
    rw [if_neg (by omega)]
  have hlA : sA.live p = true := by rw [a1]; exact hl
  have hlqA : sA.live q = true := by rw [a1]; exact hlq
  have hAA : sA.Alive = s.Alive := by funext x; simp only [HSt.Alive, a3]
  have hgA : green p sA = .ok (s.green p) sA := by
    simp only [green]
    rw [H.bind_ok (H.rd_ok hlA), H.bind_ok (HInv.derefG_ok (by rw [a2, hAA]; exact h.alive hl)), a2]
    rfl
  rw [H.bind_ok hgA]
  have hown : H.own (s.green p) sA = .ok () { sA with owned := s.green p :: sA.owned } := rfl
  rw [H.bind_ok hown]
  generalize hsB : ({ sA with owned := s.green p :: sA.owned } : HSt) = sB
  have hlqB : sB.live q = true := by rw [← hsB]; exact hlqA
  have hgB : greenRef q sB = .ok n sB := by
    simp only [greenRef]
    have : green q sB = .ok (.node n) sB := by
      simp only [green]
      have e : sB.green q = .node n := by rw [← hsB]; show sA.green q = _; rw [a2, g1]
      have hal : sB.Alive (sB.green q) := by
        rw [e, ← g1]
        obtain ⟨o, ho, hx⟩ := h.alive hlq
        exact ⟨o, by rw [← hsB, ← a3] at *; exact List.mem_cons_of_mem _ ho, hx⟩
      rw [H.bind_ok (H.rd_ok hlqB), H.bind_ok (HInv.derefG_ok hal), e]
      rfl
    rw [H.bind_ok this]; rfl
  rw [H.bind_ok hgB]
  have hiB : index p sB = .ok (s.index p) sB := by
    have : sB.live p = true := by rw [← hsB]; exact hlA
    rw [index, H.rd_ok this]
    have : sB.index p = s.index p := by rw [← hsB]; exact a5
    rw [this]
  rw [H.bind_ok hiB]
  have hfB : H.freshG sB = .ok s.gtop { sB with gtop := s.gtop + 1 } := by
    have : sB.gtop = s.gtop := by rw [← hsB]; exact a4
    rw [H.freshG, this]
  rw [H.bind_ok hfB]
  have hsC : ({ sB with gtop := s.gtop + 1 } : HSt) = s.unlinked p (kids q) N P' F := by
    rw [← hsB, ← hsA]; rfl
  refine ⟨N, P', F, ?_, hInv⟩
  rw [hsC]
  rfl

theorem detachData_ok {p q r : Nat} {P : List Nat} (h : HInv s hc kids none [])
    (hl : s.live p = true) (hm : s.mutable p = true) (hp : s.parent p = some q)
    (hq : s.Loc q r P) :
    ∃ s', detachData p s = .ok () s' ∧ HOk s' hc ∧
      Effect s s' (cutLoc r p P (s.index p)) (cutTree s r P (s.index p)) ∧ Local s s' q p := by
  obtain ⟨hlq, hmq⟩ := h.parentOk p q hl hp
  have hpk : p ∈ kids q := (h.kidsMem q p).mpr ⟨hl, hp⟩
  have hqp : q ≠ p := by rintro rfl; exact h.par_not_kid hpk
  obtain ⟨n, c, g1, g2, g3, _⟩ := h.greenOk p q hl hp (by simp)
  have hrc : 0 < s.rc p := h.pos p hl (by simp)
  have hlen : s.index p < n.children.length := by
    rw [GNode.children_length]; exact (List.getElem?_eq_some_iff.mp g2).1
  obtain ⟨lq, hchq⟩ := h.chain q hlq
  -- the steps up to `respine`
  obtain ⟨N, P', F, e0, hInv⟩ := detachPre_ok h hl hm hp g1
  rw [detachData_eq hl hm hrc hp, H.bind_ok e0]
  simp only []
  rw [H.bind_ok (unwrap_ok (GNode.removeChild_eq s.gtop hlen))]
  -- `respine`
  have hchU : Chain (s.unlinked p (kids q) N P' F) q lq := hchq.congr fun x hx => by
    refine ⟨hchq.live_of_mem hx, upd_other _ _ ?_⟩
    rintro rfl; exact kids_not_chain h hchq hpk hx
  have hext := h.uni.extend (k := n.kind) (es := n.children.eraseIdx (s.index p)) (fun e he =>
    h.uni.child (.inl (by rw [← g1]; exact h.alive hlq)) (List.mem_of_mem_eraseIdx he))
  obtain ⟨s2, r1, r2, r3⟩ := inv_respine (q := q) (l := lq)
    (g0 := GNode.new s.gtop n.kind (n.children.eraseIdx (s.index p))) hInv (hmq.trans hm) hchU
    ⟨n, g1⟩ (by intro x hx; rw [upd_same]; exact hx) (by
      intro x hx
      rw [upd_same, (h.kidsNodup q).mem_erase_iff] at hx
      obtain ⟨hxp, hxk⟩ := hx
      obtain ⟨hlx, hpx⟩ := (h.kidsMem q x).mp hxk
      obtain ⟨n', c', k1, k2, k3, _⟩ := h.greenOk x q hlx hpx (by simp)
      rw [g1] at k1; cases k1
      have hne : s.index x ≠ s.index p := fun e' => hxp (h.sibling_inj hlx hl hpx hp hm e')
      rw [GNode.children_new]
      show (n.children.eraseIdx (s.index p))[if x ∈ kids q ∧ s.index p + 1 ≤ s.index x then
        s.index x - 1 else s.index x]? = some (s.green x)
      rw [← k3]
      by_cases hlt : s.index p + 1 ≤ s.index x
      · rw [if_pos ⟨hxk, hlt⟩, List.getElem?_eraseIdx, if_neg (by omega), Nat.sub_add_cancel (by omega)]
        exact children_of_slice k2
      · rw [if_neg (fun e => hlt e.2), List.getElem?_eraseIdx, if_pos (by omega)]
        exact children_of_slice k2)
    hext (by
      rintro x (⟨o, ho, hx⟩ | hk)
      · left; left
        rcases List.mem_cons.mp ho with rfl | ho
        · exact HInv.alive_subs (h.alive hl) hx
        · exact ⟨o, ho, hx⟩
      · exact .inl (.inr hk)) (.inr rfl)
  have hownU : H.own (.node (GNode.new s.gtop n.kind (n.children.eraseIdx (s.index p))))
      (s.unlinked p (kids q) N P' F) = .ok () { s.unlinked p (kids q) N P' F with
        owned := .node (GNode.new s.gtop n.kind (n.children.eraseIdx (s.index p))) ::
          (s.unlinked p (kids q) N P' F).owned } := rfl
  rw [H.bind_ok hownU, H.bind_ok r1]
  -- the last step is the drop of one reference to `q`
  obtain ⟨s3, kids3, d1, d2, d3, _⟩ := drop_ok r2
  refine ⟨s3, d1, ⟨kids3, d2⟩, Effect.shrinks ?_ d3 r2 d2, Local.shrinks ?_ d3⟩
  case refine_2 =>
    refine ⟨fun z _ hn => ?_, fun z _ hn => ?_, fun z hz hn hpz => ?_, fun z _ => by rw [r3.mutable]; rfl,
      fun z _ => by rw [r3.offset]; rfl⟩
    · rw [r3.out z fun hz => hn (hchq.up hz)]; rfl
    · rw [r3.parent]; exact upd_other _ _ hn
    · rw [r3.index]
      show (if z ∈ kids q ∧ _ then _ else s.index z) = _
      rw [if_neg (fun e => hpz ((h.kidsMem q z).mp e.1).2)]
  have hlast : ∀ x ∈ lq, s.parent x = none → x = r := by
    intro x hx hpx
    rw [hchq.eq_last hx hpx, ← hchq.eq_last (hq.chain_mem hchq) hq.root_live.2]
  have hpl : p ∉ lq := kids_not_chain h hchq hpk
  refine ⟨fun x hx => by rw [r3.live] at hx; exact hx, fun x r0 Q hx _ => ?_,
    fun x _ => by rw [r3.mutable]; rfl, fun x hx hpx => ?_, fun x hx hmx => ?_, r3.top,
    Nat.le_trans (Nat.le_succ _) r3.gtop,
    fun x _ => spine_same r3 hchU g1 rfl x, fun x _ ht => spine_token r3 hchU g1 (x := x) ht⟩
  · exact cut_loc h hl hm hp hq r3.live r3.parent r3.index hx
  · rw [r3.parent] at hpx
    have hpx' : upd s.parent p none x = none := hpx
    rw [cutTree]
    by_cases hxr : x = r
    · rw [if_pos hxr, hxr]
      have hrq : (s.tree r).at? P = some (s.tree q) := h.tree_at hq
      have hUloc : ∀ x ∈ lq, ∀ r R, (s.unlinked p (kids q) N P' F).Loc x r R → s.Loc x r R := by
        intro x hx r R hxl
        obtain ⟨l1, l2, e, hc2⟩ := hchU.suffix hx
        refine hxl.congr hc2 fun y hy => ?_
        have hyl : y ∈ lq := by rw [e]; simp [hy]
        refine ⟨hchq.live_of_mem hyl, ?_, ?_⟩
        · show s.parent y = upd s.parent p none y
          rw [upd_other]; rintro rfl; exact hpl hyl
        · show s.index y = if y ∈ kids q ∧ s.index p + 1 ≤ s.index y then _ else s.index y
          rw [if_neg (fun e => kids_not_chain h hchq e.1 hyl)]
      have hqU : (s.unlinked p (kids q) N P' F).Loc q r P := by
        obtain ⟨r', P'', hq'⟩ := hchU.loc
        obtain ⟨rfl, rfl⟩ := (hUloc q hchq.self_mem r' P'' hq').unique hq
        exact hq'
      rw [spine_tree (s0 := s) r3 hchU hqU hchq.self_mem (fun _ => rfl)
        (fun x hx r R hxl => h.tree_at (hUloc x hx r R hxl))]
      have e1 : s.tree q = .node n.kind (n.children.map GElem.tree) := by
        have : s.tree q = n.tree := by rw [HSt.tree, g1]; rfl
        rw [this, GNode.tree_eq]
      rw [Tree.removeAt, Tree.editKids_eq (hrq.trans (congrArg some e1))]
      congr 1
      have e2 : s2.tree q = (GNode.new s.gtop n.kind (n.children.eraseIdx (s.index p))).tree := by
        rw [HSt.tree, r3.here]; rfl
      rw [e2, GNode.tree_new]
      congr 1
      simp [List.eraseIdx_eq_take_drop_succ]
    · rw [if_neg hxr]
      have hxl : x ∉ lq := by
        intro hxl
        by_cases e : x = p
        · rw [e] at hxl; exact hpl hxl
        · rw [upd_other _ _ e] at hpx'; exact hxr (hlast x hxl hpx')
      rw [HSt.tree, r3.out x hxl]; rfl
  · have hxk : x ∉ kids q := by
      intro e
      obtain ⟨e1, e2⟩ := (h.kidsMem q x).mp e
      have := (h.parentOk x q e1 e2).2
      rw [hmq, hm, hmx] at this; cases this
    have hxp : x ≠ p := by rintro rfl; exact hxk hpk
    have hxl : x ∉ lq := by
      intro hxl
      obtain ⟨l1, l2, e, hc2⟩ := hchq.suffix hxl
      obtain ⟨rx, Rx, hxl'⟩ := hc2.loc
      have t1 := h.mutable_root hxl'
      have t2 := h.mutable_root hq
      have t3 : rx = r := hlast rx (by rw [e]; simp [hxl'.chain_mem hc2]) hxl'.root_live.2
      rw [t3, t2, hmq, hm, hmx] at t1; cases t1
    refine ⟨?_, ?_, ?_, ?_, ?_⟩
    · rw [r3.parent]; exact upd_other _ _ hxp
    · rw [r3.index]
      show (if x ∈ kids q ∧ _ then _ else s.index x) = _
      rw [if_neg (fun e => hxk e.1)]
    · rw [r3.out x hxl]; rfl
    · rw [r3.mutable]; rfl
    · rw [r3.offset]; rfl

theorem detach_root {p : Nat} (h : HInv s hc kids none []) (hl : s.live p = true)
    (hm : s.mutable p = true) (hp : s.parent p = none) : detach p s = .ok () s := by
  have hrc : 0 < s.rc p := h.pos p hl (by simp)
  simp only [detach, detachData]
  rw [H.bind_ok (H.rd_ok hl), H.bind_ok (H.assert_ok hm), H.bind_ok (H.rd_ok hl),
    H.bind_ok (H.assert_ok hm), H.bind_ok (H.rd_ok hl),
    H.bind_ok (H.assert_ok (decide_eq_true hrc)), H.bind_ok (H.rd_ok hl), hp]
  rfl

theorem detach_panic {p : Nat} (hl : s.live p = true) (hm : s.mutable p = false) :
    detach p s = .panic .assert s := by
  simp only [detach]
  rw [H.bind_ok (H.rd_ok hl), H.bind_def, H.assert_fail (by simp [hm])]

theorem detach_ok {p q r : Nat} {P : List Nat} (h : HInv s hc kids none [])
    (hl : s.live p = true) (hm : s.mutable p = true) (hp : s.parent p = some q)
    (hq : s.Loc q r P) :
    ∃ s', detach p s = .ok () s' ∧ HOk s' hc ∧
      Effect s s' (cutLoc r p P (s.index p)) (cutTree s r P (s.index p)) ∧ Local s s' q p := by
  simp only [detach]
  rw [H.bind_ok (H.rd_ok hl), H.bind_ok (H.assert_ok hm)]
  exact detachData_ok h hl hm hp hq

/-! ### Attaching -/

/-- The heap in the middle of `attach_child`: `p` is linked under `q` and has given up its green
object, the green trees are still the old ones. -/
def _root_.Rowan.HSt.linked (s : HSt) (q i p : Nat) (K : List Nat) (N P F : Nat → Option Nat) : HSt :=
  { s with
    rc := upd s.rc q (s.rc q + 1)
    parent := upd s.parent p (some q)
    index := fun x => if x = p then i else if x ∈ K ∧ i ≤ s.index x then s.index x + 1 else s.index x
    next := N
    prev := P
    first := F
    owned := s.owned.eraseP (·.addr == (s.green p).addr)
    gtop := s.gtop + 1 }

theorem _root_.Rowan.Chain.join {s s' : HSt} {p q : Nat} {lq : List Nat} (hl : s'.live = s.live)
    (hp : s'.parent = upd s.parent p (some q)) (hr : s.parent p = none) (hq : Chain s' q lq)
    {x : Nat} {l : List Nat} (h : Chain s x l) : ∃ l', Chain s' x l' := by
  induction h with
  | @root x hx hpx =>
    by_cases e : x = p
    · exact ⟨_, .step (by rw [hl]; exact hx) (by rw [hp, e]; simp) hq⟩
    · exact ⟨_, .root (by rw [hl]; exact hx) (by rw [hp, upd_other _ _ e]; exact hpx)⟩
  | @step x y l hx hpx hc ih =>
    have e : x ≠ p := by rintro rfl; rw [hr] at hpx; cases hpx
    obtain ⟨l', h'⟩ := ih
    exact ⟨_, .step (by rw [hl]; exact hx) (by rw [hp, upd_other _ _ e]; exact hpx) h'⟩

theorem inv_linked {p q i : Nat} {n : GNode} {lq : List Nat} {N P F : Nat → Option Nat}
    {L bad : List Nat} (h : HInv s hc kids none [])
    (hl : s.live p = true) (hm : s.mutable p = true) (hp : s.parent p = none)
    (hlq : s.live q = true) (hmq : s.mutable q = true) (hg : s.green q = .node n)
    (hch : Chain s q lq) (hpl : p ∉ lq) (hrc : s.rc q < rcMax)
    (hN : ∀ x, x ∉ kids q → x ≠ p → N x = s.next x ∧ P x = s.prev x)
    (hF : ∀ x, x ≠ q → F x = s.first x)
    (hL : L.Perm (p :: kids q)) (hlist : IsList (s.linked q i p (kids q) N P F) q L)
    (hbp : p ∈ bad) (hbk : ∀ x ∈ kids q, x ∉ bad → s.index x < i) :
    HInv (s.linked q i p (kids q) N P F) hc (upd kids q L) none bad := by
  have hpk : ∀ x, p ∉ kids x := by
    intro x e; rw [((h.kidsMem x p).mp e).2] at hp; cases hp
  have hqp : q ≠ p := by rintro rfl; exact hpl hch.self_mem
  generalize hs' : s.linked q i p (kids q) N P F = s' at hlist
  have f1 : s'.live = s.live := by rw [← hs']; rfl
  have f2 : s'.rc = upd s.rc q (s.rc q + 1) := by rw [← hs']; rfl
  have f3 : s'.parent = upd s.parent p (some q) := by rw [← hs']; rfl
  have f4 : s'.mutable = s.mutable := by rw [← hs']; rfl
  have f5 : s'.first = F := by rw [← hs']; rfl
  have f6 : s'.next = N := by rw [← hs']; rfl
  have f7 : s'.prev = P := by rw [← hs']; rfl
  have f8 : s'.top = s.top := by rw [← hs']; rfl
  have f9 : s'.gtop = s.gtop + 1 := by rw [← hs']; rfl
  have f10 : s'.owned = s.owned.eraseP (·.addr == (s.green p).addr) := by rw [← hs']; rfl
  have f11 : s'.green = s.green := by rw [← hs']; rfl
  have f12 : s'.offset = s.offset := by rw [← hs']; rfl
  have f13 : s'.index = fun x => if x = p then i else if x ∈ kids q ∧ i ≤ s.index x then
      s.index x + 1 else s.index x := by rw [← hs']; rfl
  have hix : ∀ x, x ≠ p → x ∉ kids q → s'.index x = s.index x := by
    intro x hx hk; rw [f13]; simp [hx, hk]
  have hpar : ∀ x y, s'.parent x = some y ↔ (x = p ∧ y = q) ∨ (x ≠ p ∧ s.parent x = some y) := by
    intro x y; rw [f3, upd_apply]; by_cases e : x = p
    · simp [e, eq_comm]
    · simp [e]
  have hA : ∀ x, s'.Alive x → s.Alive x := by
    rintro x ⟨o, ho, hx⟩
    rw [f10] at ho
    exact ⟨o, List.mem_of_mem_eraseP ho, hx⟩
  have hkid : ∀ x y, y ∈ upd kids q L x ↔ (x = q ∧ y = p) ∨ y ∈ kids x := by
    intro x y
    by_cases e : x = q
    · subst e
      rw [upd_same, hL.mem_iff]; simp
    · rw [upd_other _ _ e]; simp [e]
  have hdisj : ∀ x y, x ≠ q → y ∈ kids x → y ∉ kids q := by
    intro x y hxq hy hyq
    have h1 := ((h.kidsMem x y).mp hy).2
    have h2 := ((h.kidsMem q y).mp hyq).2
    rw [h1] at h2; cases h2; exact hxq rfl
  have hch' : Chain s' q lq := hch.congr fun x hx => by
    refine ⟨by rw [f1]; exact hch.live_of_mem hx, ?_⟩
    rw [f3, upd_other]; rintro rfl; exact hpl hx
  constructor
  case top => rw [f1, f8]; exact h.top
  case hlive => rw [f1]; exact h.hlive
  case rc =>
    intro x hx
    rw [f1] at hx
    rw [f2]
    by_cases e : x = q
    · subst e
      rw [upd_same, upd_same, hL.length_eq, List.length_cons, h.rc x hx]; omega
    · rw [upd_other _ _ e, upd_other _ _ e]; exact h.rc x hx
  case pos =>
    intro x hx _
    rw [f1] at hx; rw [f2, upd_apply]
    split
    · omega
    · exact h.pos x hx (by simp)
  case rcLe =>
    intro x hx
    rw [f1] at hx; rw [f2, upd_apply]
    split
    · omega
    · exact h.rcLe x hx
  case kidsMem =>
    intro x y
    rw [hkid, h.kidsMem, f1, hpar]
    constructor
    · rintro (⟨rfl, rfl⟩ | ⟨a, b⟩)
      · exact ⟨hl, .inl ⟨rfl, rfl⟩⟩
      · refine ⟨a, .inr ⟨?_, b⟩⟩
        rintro rfl; rw [hp] at b; cases b
    · rintro ⟨a, (⟨rfl, rfl⟩ | ⟨b, c⟩)⟩
      · exact .inl ⟨rfl, rfl⟩
      · exact .inr ⟨a, c⟩
  case kidsNodup =>
    intro x
    rw [upd_apply]; split
    · exact hL.nodup_iff.mpr (List.nodup_cons.mpr ⟨hpk q, h.kidsNodup q⟩)
    · exact h.kidsNodup x
  case parentOk =>
    intro x y hx hy
    rw [f1, f4]; rw [f1] at hx
    rcases (hpar x y).mp hy with ⟨rfl, rfl⟩ | ⟨_, hy⟩
    · exact ⟨hlq, hmq.trans hm.symm⟩
    · exact h.parentOk x y hx hy
  case parNode =>
    intro x y hx hy
    rw [f11]; rw [f1] at hx
    rcases (hpar x y).mp hy with ⟨rfl, rfl⟩ | ⟨_, hy⟩
    · exact ⟨n, hg⟩
    · exact h.parNode x y hx hy
  case greenOk =>
    intro x y hx hy hb
    rw [f1] at hx
    rcases (hpar x y).mp hy with ⟨rfl, rfl⟩ | ⟨hxp, hy⟩
    · exact absurd hbp hb
    · have e : s'.index x = s.index x := by
        by_cases hxk : x ∈ kids q
        · have := hbk x hxk hb
          rw [f13]; simp only [if_neg hxp]
          rw [if_neg (by omega)]
        · exact hix x hxp hxk
      rw [f11, f12, f4, e]
      exact h.greenOk x y hx hy (by simp)
  case rootOff =>
    intro x hx hy hmx
    rw [f1] at hx; rw [f4] at hmx; rw [f12]
    have e : x ≠ p := by rintro rfl; rw [hm] at hmx; cases hmx
    rw [f3, upd_other _ _ e] at hy
    exact h.rootOff x hx hy hmx
  case chain =>
    intro x hx
    rw [f1] at hx
    obtain ⟨l, hchx⟩ := h.chain x hx
    exact Chain.join f1 f3 hp hch' hchx
  case ringM =>
    intro x hx hmx
    rw [f1] at hx; rw [f4] at hmx
    by_cases e : x = q
    · subst e
      rw [upd_same]; exact hlist
    · rw [upd_other _ _ e]
      have := h.ringM x hx hmx
      have hne : ∀ y ∈ kids x, y ≠ p := by rintro y hy rfl; exact hpk x hy
      refine ⟨by rw [f5, hF x e]; exact this.head, ?_, ?_⟩
      · rw [f6, f7]
        exact ring_frame (fun y hy => (hN y (hdisj x y e hy) (hne y hy)).1)
          (fun y hy => (hN y (hdisj x y e hy) (hne y hy)).2) this.ring
      · refine this.sorted.imp_of_mem fun {a b} ha hb hab => ?_
        rw [hix a (hne a ha) (hdisj x a e ha), hix b (hne b hb) (hdisj x b e hb)]; exact hab
  case selfM =>
    intro x hx hmx hy
    rw [f1] at hx; rw [f4] at hmx; rw [f6, f7]
    have e : x ≠ p := by rintro rfl; rw [f3] at hy; simp at hy
    rw [f3, upd_other _ _ e] at hy
    have hxk : x ∉ kids q := by
      intro hk; rw [((h.kidsMem q x).mp hk).2] at hy; cases hy
    rw [(hN x hxk e).1, (hN x hxk e).2]
    exact h.selfM x hx hmx hy
  case firstI =>
    intro x hx hmx
    rw [f1] at hx; rw [f4] at hmx
    have e : x ≠ q := by rintro rfl; rw [hmq] at hmx; cases hmx
    rw [f5, hF x e]; exact h.firstI x hx hmx
  case roots =>
    obtain ⟨rs, h1, h2, h3⟩ := h.roots
    have hprs : p ∈ rs := (h2 p).mpr ⟨hl, hp⟩
    refine ⟨rs.erase p, h1.erase p, ?_, ?_⟩
    · intro x
      rw [h1.mem_erase_iff, h2, f1, f3]
      by_cases e : x = p
      · subst e; simp
      · rw [upd_other _ _ e]; simp [e]
    · rw [f10, f11]
      have hown := h.owned_of_root hl hp
      have e1 := perm_eraseP hown fun x hx e =>
        h.uni.coh x _ (.inl ⟨x, hx, GElem.self_mem_subs x⟩) (.inl ⟨_, hown, GElem.self_mem_subs _⟩) e
      have e2 := h3.trans ((List.perm_cons_erase hprs).map s.green)
      exact (e1.symm.trans e2).cons_inv
  case uni =>
    rw [f9]
    exact h.uni.mono (Nat.le_succ _) (fun x hx => hx.mono hA) fun x hx y hy => hx.subs hy

def joinTree (s : HSt) (r p : Nat) (P : List Nat) (i : Nat) (x : Nat) : Tree :=
  if x = r then (s.tree r).insertAt P i (s.tree p) else s.tree x

theorem join_loc {p q r i : Nat} {P : List Nat} {s' : HSt} (h : HInv s hc kids none [])
    (hp : s.parent p = none) (hmq : s.mutable q = true)
    (hq : s.Loc q r P) (hpr : p ≠ r) (hq' : s'.Loc q r P) (f1 : s'.live = s.live)
    (f3 : s'.parent = upd s.parent p (some q))
    (f13 : s'.index = fun x => if x = p then i else if x ∈ kids q ∧ i ≤ s.index x then s.index x + 1
      else s.index x) {x r0 : Nat} {Q : List Nat} (hx : s.Loc x r0 Q) :
    s'.Loc x (joinLoc r p P i r0 Q).1 (joinLoc r p P i r0 Q).2 := by
  induction hx with
  | @root x hlx hpx =>
    have hlx' : s'.live x = true := by rw [f1]; exact hlx
    by_cases e : x = p
    · subst e
      have := HSt.Loc.child hlx' (by rw [f3]; simp) hq'
      have e2 : s'.index x = i := by rw [f13]; simp
      rw [e2] at this
      simpa [joinLoc] using this
    · have : joinLoc r p P i x [] = (x, []) := by
        simp only [joinLoc, Tree.afterInsert_nil, if_neg e]; split
        · next e => rw [e]
        · rfl
      rw [this]
      exact .root hlx' (by rw [f3, upd_other _ _ e]; exact hpx)
  | @child x y r0 Q hlx hpx hy ih =>
    have e : x ≠ p := by rintro rfl; rw [hp] at hpx; cases hpx
    have hlx' : s'.live x = true := by rw [f1]; exact hlx
    have hpx' : s'.parent x = some y := by rw [f3, upd_other _ _ e]; exact hpx
    have hch := HSt.Loc.child hlx' hpx' ih
    by_cases hyq : y = q
    · subst hyq
      obtain ⟨rfl, rfl⟩ := hq.unique hy
      have hxk : x ∈ kids y := (h.kidsMem y x).mpr ⟨hlx, hpx⟩
      have hrp : ¬ r = p := fun e => hpr e.symm
      have e1 : joinLoc r p P i r P = (r, P) := by
        simp [joinLoc, hrp]
      have e2 : joinLoc r p P i r (P ++ [s.index x]) =
          (r, P ++ [if i ≤ s.index x then s.index x + 1 else s.index x]) := by
        simp only [joinLoc, if_neg hrp, if_true, Tree.afterInsert_kid P]
      have e3 : s'.index x = if i ≤ s.index x then s.index x + 1 else s.index x := by
        rw [f13]; simp [hxk, e]
      rw [e1, e3] at hch
      rw [e2]; exact hch
    · have hxk : x ∉ kids q := by
        intro e'; have := ((h.kidsMem q x).mp e').2
        rw [hpx] at this; cases this; exact hyq rfl
      have e3 : s'.index x = s.index x := by rw [f13]; simp [hxk, e]
      rw [e3] at hch
      suffices hs : joinLoc r p P i r0 (Q ++ [s.index x]) =
          ((joinLoc r p P i r0 Q).1, (joinLoc r p P i r0 Q).2 ++ [s.index x]) by
        rw [hs]; exact hch
      by_cases hrp : r0 = p
      · simp [joinLoc, hrp]
      · by_cases hr : r0 = r
        · subst hr
          have hQ : Q ≠ P := by
            rintro rfl
            exact hyq (h.loc_inj hq hy hmq).symm
          simp [joinLoc, hrp, Tree.afterInsert_snoc hQ]
        · simp [joinLoc, hrp, hr]

/-- What a caught out-of-range panic of `attach_child` leaves behind: `p` hangs under `q` at index `i`
although `q` has no such child; nothing else changed. -/
structure AttachPanic (s s' : HSt) (hc : Nat → Nat) (q i p : Nat) : Prop where
  inv : ∃ kids, HInv s' hc kids none [p]
  live : s'.live = s.live
  keeps : ∀ x, x ≠ p → Keeps s s' x
  parent : s'.parent p = some q
  index : s'.index p = i
  mutable : s'.mutable p = s.mutable p
  green : s'.green p = s.green p
  top : s'.top = s.top
  gtop : s.gtop ≤ s'.gtop

theorem shiftFrom_ok {q i : Nat} (h : IsList s q (kids q)) (hq : s.live q = true)
    (hlive : ∀ x ∈ kids q, s.live x = true) (htop : ∀ x ∈ kids q, x < s.top) :
    shiftFrom q i s = .ok () { s with
      index := fun x => if x ∈ kids q ∧ i ≤ s.index x then s.index x + 1 else s.index x } := by
  simp only [shiftFrom]
  rw [H.bind_ok (H.rd_ok hq), h.head]
  cases hk : kids q with
  | nil => simp
  | cons f l =>
    simp only [List.head?_cons]
    rw [hk] at h hlive htop
    exact Sll.adjust_ok (d := .add 1) h.ring h.nodup (by simp) hlive htop (fun _ _ _ => rfl)

theorem _root_.Rowan.HSt.asU32_eq {q i : Nat} {n : GNode} (hg : s.green q = .node n) (hn : n.children.length < 2 ^ 32) :
    s.asU32 q i = i % 2 ^ 32 := by
  rw [GNode.children_length] at hn
  simp only [HSt.asU32, hg]
  split
  · omega
  · rfl

theorem _root_.Rowan.HSt.asU32_le {q i : Nat} {n : GNode} (hg : s.green q = .node n) (hi : i ≤ n.children.length) :
    s.asU32 q i = i := by
  rw [GNode.children_length] at hi
  simp only [HSt.asU32, hg, if_pos hi]

theorem _root_.Rowan.HSt.asU32_lt {q i : Nat} (hi : i < 2 ^ 32) : s.asU32 q i = i := by
  have := Nat.mod_eq_of_lt hi
  simp only [HSt.asU32, this]
  split
  · split <;> rfl
  · rfl

/-- `attach_child` up to the insertion into the green tree. -/
def attachPre (q i p : Nat) : H (GNode × GElem × Nat) := do
  H.assert ((← H.rd q HSt.mutable) && (← H.rd p HSt.mutable) && (← H.rd p HSt.parent).isNone)
  H.assert (0 < (← H.rd q HSt.rc) && 0 < (← H.rd p HSt.rc))
  let k ← H.rd q fun s q => s.asU32 q i
  H.wr p (·.setIndex p k)
  H.wr p (·.setParent p (some q))
  incRc q
  shiftFrom q k
  linkChild q p
  let qg ← greenRef q
  let pg ← H.rd p HSt.green
  let a ← H.freshG
  pure (qg, pg, a)

theorem attachData_eq (q i p : Nat) : attachData q i p = attachPre q i p >>= fun (qg, pg, a) =>
    insertGreen qg a i pg >>= fun ng => H.loop fun fuel => respine fuel q ng := by
  simp only [attachData, attachPre, H.bind_assoc]
  rfl

/-- `attach_child` up to the insertion into the green tree, with no assumption on where `q` is. -/
theorem attachPre_ok {p q i k : Nat} {n : GNode} (h : HInv s hc kids none [])
    (hl : s.live p = true) (hm : s.mutable p = true) (hp : s.parent p = none)
    (hlq : s.live q = true) (hmq : s.mutable q = true) (hg : s.green q = .node n) (hk : s.asU32 q i = k) :
    attachPre q i p s = .abort ∨
    (s.rc q < rcMax ∧ ∃ (N P' F : Nat → Option Nat) (L : List Nat) (s3 : HSt),
      ({ s3 with
        gtop := s.gtop + 1
        owned := s.owned.eraseP (·.addr == (s.green p).addr) } : HSt) =
        s.linked q k p (kids q) N P' F ∧ s3.owned = s.owned ∧
      (∀ x, x ∉ kids q → x ≠ p → N x = s.next x ∧ P' x = s.prev x) ∧
      (∀ x, x ≠ q → F x = s.first x) ∧ L.Perm (p :: kids q) ∧
      IsList (s.linked q k p (kids q) N P' F) q L ∧
      attachPre q i p s = .ok (n, s.green p, s.gtop) { s3 with gtop := s.gtop + 1 }) := by
  have hpk : ∀ x, p ∉ kids x := by
    intro x e; rw [((h.kidsMem x p).mp e).2] at hp; cases hp
  have hrcq : 0 < s.rc q := h.pos q hlq (by simp)
  have hrcp : 0 < s.rc p := h.pos p hl (by simp)
  have hlist := h.ringM q hlq hmq
  have hkl : ∀ x ∈ kids q, s.live x = true := fun x hx => h.kid_live hx
  have hne : ∀ x ∈ kids q, x ≠ p := by rintro x hx rfl; exact hpk q hx
  simp only [attachPre]
  have hl1 : (s.setIndex p k).live p = true := hl
  rw [H.bind_ok (H.rd_ok hlq), H.bind_ok (H.rd_ok hl), H.bind_ok (H.rd_ok hl),
    H.bind_ok (H.assert_ok (by simp [hm, hmq, hp])), H.bind_ok (H.rd_ok hlq), H.bind_ok (H.rd_ok hl),
    H.bind_ok (H.assert_ok (by simp [hrcq, hrcp])), H.bind_ok (H.rd_ok hlq), hk, H.bind_ok (H.wr_ok hl), H.bind_ok (H.wr_ok hl1)]
  have hinc : incRc q ((s.setIndex p k).setParent p (some q)) =
      if s.rc q = rcMax then .abort
      else .ok () (((s.setIndex p k).setParent p (some q)).setRc q (s.rc q + 1)) := by
    have hlq' : ((s.setIndex p k).setParent p (some q)).live q = true := hlq
    simp only [incRc]
    rw [H.bind_ok (H.rd_ok hlq')]
    by_cases e : s.rc q = rcMax
    · have : ((s.setIndex p k).setParent p (some q)).rc q = rcMax := e
      simp [e, this]
    · have : ((s.setIndex p k).setParent p (some q)).rc q ≠ rcMax := e
      have e' : ((s.setIndex p k).setParent p (some q)).rc q = s.rc q := rfl
      rw [if_neg e]
      simp only [this, if_false]
      rw [H.wr_ok hlq', e']
  by_cases habort : s.rc q = rcMax
  · rw [if_pos habort] at hinc
    exact .inl (by simp [H.bind_def, hinc])
  rw [if_neg habort] at hinc
  have hrclt : s.rc q < rcMax := by have := h.rcLe q hlq; omega
  refine .inr ?_
  rw [H.bind_ok hinc]
  generalize hs1 : ((s.setIndex p k).setParent p (some q)).setRc q (s.rc q + 1) = s1
  have a1 : s1.live = s.live := by rw [← hs1]; rfl
  have a2 : s1.next = s.next := by rw [← hs1]; rfl
  have a3 : s1.prev = s.prev := by rw [← hs1]; rfl
  have a4 : s1.first = s.first := by rw [← hs1]; rfl
  have a5 : s1.top = s.top := by rw [← hs1]; rfl
  have a6 : s1.index = upd s.index p k := by rw [← hs1]; rfl
  have hix1 : ∀ x ∈ kids q, s1.index x = s.index x := by
    intro x hx; rw [a6, upd_other _ _ (hne x hx)]
  have hlist1 : IsList s1 q (kids q) := by
    refine ⟨by rw [a4]; exact hlist.head, by rw [a2, a3]; exact hlist.ring, ?_⟩
    refine hlist.sorted.imp_of_mem fun {a b} ha hb hab => ?_
    rw [hix1 a ha, hix1 b hb]; exact hab
  rw [H.bind_ok (shiftFrom_ok (i := k) hlist1 (by rw [a1]; exact hlq) (by rw [a1]; exact hkl)
    (by rw [a5]; exact fun x hx => h.kid_top hx))]
  generalize hs2 : ({ s1 with
    index := fun x => if x ∈ kids q ∧ k ≤ s1.index x then s1.index x + 1 else s1.index x } : HSt) = s2
  have b1 : s2.live = s.live := by rw [← hs2]; exact a1
  have b6 : s2.index = fun x => if x = p then k else if x ∈ kids q ∧ k ≤ s.index x then
      s.index x + 1 else s.index x := by
    rw [← hs2]
    funext x
    simp only [a6]
    by_cases e : x = p
    · subst e; simp [hpk q]
    · simp only [upd_other _ _ e, if_neg e]
  have hix2 : ∀ x ∈ kids q, s2.index x = if k ≤ s.index x then s.index x + 1 else s.index x := by
    intro x hx; rw [b6]; simp [hx, hne x hx]
  have hixp : s2.index p = k := by rw [b6]; simp
  have hlist2 : IsList s2 q (kids q) := by
    refine ⟨by rw [← hs2]; exact hlist1.head, by rw [← hs2]; exact hlist1.ring, ?_⟩
    refine hlist.sorted.imp_of_mem fun {a b} ha hb hab => ?_
    rw [hix2 a ha, hix2 b hb]; split <;> split <;> omega
  have hlink : ∃ N P' F, linkChild q p s2 = .ok () { s2 with next := N, prev := P', first := F } ∧
      (∀ x, x ∉ kids q → x ≠ p → N x = s2.next x ∧ P' x = s2.prev x) ∧
      (∀ x, x ≠ q → F x = s2.first x) ∧
      IsList { s2 with next := N, prev := P', first := F } q (Sll.insertAt p (kids q) s2.index) := by
    simp only [linkChild]
    have hlp2 : s2.live p = true := by rw [b1]; exact hl
    have hi2 : Cur.index p s2 = .ok k s2 := by rw [Cur.index, H.rd_ok hlp2, hixp]
    rw [H.bind_ok hi2]
    obtain ⟨res, l1, l2⟩ := Sll.link_ok k hlist2 (by rw [b1]; exact hlq) (by rw [b1]; exact hkl)
      (by rw [← hs2]; show ∀ x ∈ kids q, x < s1.top; rw [a5]; exact fun x hx => h.kid_top hx)
    rw [H.bind_ok l1]
    have hna : ∀ c, res ≠ .alreadyInSll c := by
      rintro c rfl
      rcases l2 with ⟨_, e⟩ | ⟨_, _, _, _, e⟩ | ⟨_, _, _, _, _, _, e⟩ | ⟨c', hc', hic, e⟩
      · cases e
      · cases e
      · cases e
      · rw [hix2 c' hc'] at hic
        split at hic <;> omega
    obtain ⟨N, P', F, e1, e2, e3, e4⟩ := Sll.add_ok hlist2 (by rw [b1]; exact hlq)
      (by rw [b1]; exact hkl) hlp2 (hpk q) (by rw [hixp]; exact l2) hna
    refine ⟨N, P', F, ?_, e2, e3, e4⟩
    cases res with
    | alreadyInSll c => exact absurd rfl (hna c)
    | emptyHead _ => exact e1
    | smallerThanHead _ => exact e1
    | smallerThanNotHead _ => exact e1
    | noHead => exact e1
  obtain ⟨N, P', F, k1, k2, k3, k4⟩ := hlink
  rw [H.bind_ok k1]
  generalize hs3 : ({ s2 with next := N, prev := P', first := F } : HSt) = s3 at k4
  have c1 : s3.live = s.live := by rw [← hs3]; exact b1
  have c2 : s3.green = s.green := by rw [← hs3, ← hs2, ← hs1]; rfl
  have c3 : s3.owned = s.owned := by rw [← hs3, ← hs2, ← hs1]; rfl
  have c4 : s3.gtop = s.gtop := by rw [← hs3, ← hs2, ← hs1]; rfl
  have hA3 : s3.Alive = s.Alive := by funext x; simp only [HSt.Alive, c3]
  have hlq3 : s3.live q = true := by rw [c1]; exact hlq
  have hlp3 : s3.live p = true := by rw [c1]; exact hl
  have hgr : greenRef q s3 = .ok n s3 := by
    simp only [greenRef]
    have : green q s3 = .ok (.node n) s3 := by
      simp only [green]
      rw [H.bind_ok (H.rd_ok hlq3), H.bind_ok (HInv.derefG_ok (by rw [c2, hA3]; exact h.alive hlq)),
        c2, hg]
      rfl
    rw [H.bind_ok this]; rfl
  rw [H.bind_ok hgr, H.bind_ok (H.rd_ok hlp3), c2]
  have hown := h.owned_of_root hl hp
  have hs2' : s2 = { s1 with index := s2.index } := by rw [← hs2]
  rw [b6] at hs2'
  have hs4 : ({ s3 with
      gtop := s.gtop + 1
      owned := s.owned.eraseP (·.addr == (s.green p).addr) } : HSt) =
      s.linked q k p (kids q) N P' F := by
    rw [← hs3, hs2', ← hs1]
    rfl
  have hfr : H.freshG s3 = .ok s.gtop { s3 with gtop := s.gtop + 1 } := by rw [H.freshG, c4]
  rw [H.bind_ok hfr]
  have hany : s.owned.any (·.addr == (s.green p).addr) = true :=
    List.any_eq_true.mpr ⟨_, hown, by simp⟩
  have hperm : (Sll.insertAt p (kids q) s2.index).Perm (p :: kids q) := by
    refine insertAt_perm fun x hx => ?_
    rw [hix2 x hx, hixp]; split <;> omega
  have hN : ∀ x, x ∉ kids q → x ≠ p → N x = s.next x ∧ P' x = s.prev x := by
    intro x h1 h2
    have := k2 x h1 h2
    rw [← hs2] at this
    rw [← a2, ← a3]; exact this
  have hF : ∀ x, x ≠ q → F x = s.first x := by
    intro x h1
    have := k3 x h1
    rw [← hs2] at this
    rw [← a4]; exact this
  have hlist4 : IsList (s.linked q k p (kids q) N P' F) q (Sll.insertAt p (kids q) s2.index) := by
    refine ⟨?_, ?_, ?_⟩
    · have := k4.head; rw [← hs3] at this; exact this
    · have := k4.ring; rw [← hs3] at this; exact this
    · have := k4.sorted; rw [← hs3] at this
      have e : (s.linked q k p (kids q) N P' F).index = s2.index := by rw [b6]; rfl
      rw [e]; exact this
  exact ⟨hrclt, N, P', F, _, s3, hs4, c3, hN, hF, hperm, hlist4, rfl⟩

theorem attach_prefix {p q i k : Nat} {n : GNode} (h : HInv s hc kids none [])
    (hl : s.live p = true) (hm : s.mutable p = true) (hp : s.parent p = none)
    (hlq : s.live q = true) (hmq : s.mutable q = true) (hg : s.green q = .node n) (hk : s.asU32 q i = k) :
    attachData q i p s = .abort ∨
    (s.rc q < rcMax ∧ ∃ (N P' F : Nat → Option Nat) (L : List Nat) (s3 : HSt),
      ({ s3 with
        gtop := s.gtop + 1
        owned := s.owned.eraseP (·.addr == (s.green p).addr) } : HSt) =
        s.linked q k p (kids q) N P' F ∧ s3.owned = s.owned ∧
      (∀ x, x ∉ kids q → x ≠ p → N x = s.next x ∧ P' x = s.prev x) ∧
      (∀ x, x ≠ q → F x = s.first x) ∧ L.Perm (p :: kids q) ∧
      IsList (s.linked q k p (kids q) N P' F) q L ∧
      attachData q i p s = (insertGreen n s.gtop i (s.green p) >>= fun ng =>
        H.loop fun fuel => respine fuel q ng) { s3 with gtop := s.gtop + 1 }) := by
  rw [attachData_eq]
  rcases attachPre_ok (i := i) h hl hm hp hlq hmq hg hk with e | ⟨h1, N, P', F, L, s3, h2, h3, h4, h5, h6, h7, e⟩
  · exact .inl (by rw [H.bind_def, e])
  · exact .inr ⟨h1, N, P', F, L, s3, h2, h3, h4, h5, h6, h7, H.bind_ok e⟩

theorem insertGreen_ok {p q i : Nat} {n : GNode} {K : List Nat} {N P' F : Nat → Option Nat} {s3 : HSt}
    (h : HInv s hc kids none []) (hl : s.live p = true) (hp : s.parent p = none)
    (hlen : i ≤ n.children.length)
    (hs4 : ({ s3 with
      gtop := s.gtop + 1
      owned := s.owned.eraseP (·.addr == (s.green p).addr) } : HSt) =
      s.linked q i p K N P' F) (c3 : s3.owned = s.owned) :
    insertGreen n s.gtop i (s.green p) { s3 with gtop := s.gtop + 1 } =
        .ok (GNode.new s.gtop n.kind (n.children.take i ++ s.green p :: n.children.drop i))
          { s.linked q i p K N P' F with
            owned := .node (GNode.new s.gtop n.kind (n.children.take i ++ s.green p ::
              n.children.drop i)) :: (s.linked q i p K N P' F).owned } := by
  have hany : s.owned.any (·.addr == (s.green p).addr) = true :=
    List.any_eq_true.mpr ⟨_, h.owned_of_root hl hp, by simp⟩
  have hne : (GElem.addr (.node (GNode.new s.gtop n.kind (n.children.take i ++ s.green p ::
      n.children.drop i))) == (s.green p).addr) = false := by
    have h1 := h.uni.fresh _ (.inl (h.alive hl))
    have h2 : GElem.addr (.node (GNode.new s.gtop n.kind (n.children.take i ++ s.green p ::
      n.children.drop i))) = s.gtop := rfl
    exact beq_false_of_ne (by rw [h2]; omega)
  rw [← hs4]
  simp only [insertGreen, GNode.insertChild_eq s.gtop (s.green p) hlen, H.bind_def, H.own,
    H.modify_apply, H.release, c3, List.any_cons, hne, hany, Bool.false_or, if_true,
    List.eraseP_cons, cond_false, H.pure_apply]

theorem attachData_wp {p q r i : Nat} {P : List Nat} {n : GNode} (h : HInv s hc kids none [])
    (hl : s.live p = true) (hm : s.mutable p = true) (hp : s.parent p = none)
    (hmq : s.mutable q = true) (hg : s.green q = .node n) (hq : s.Loc q r P) (hpr : p ≠ r) :
    H.wp (attachData q i p) s
      (fun _ s' => i ≤ n.children.length ∧ HOk s' hc ∧
        Effect s s' (joinLoc r p P i) (joinTree s r p P i) ∧ Local s s' q p ∧ s'.parent p = some q)
      (fun w s' => w = .range ∧ n.children.length < i ∧ (∃ kids bad, HInv s' hc kids none bad) ∧
        (i < 2 ^ 32 → AttachPanic s s' hc q i p)) := by
  have hlq := hq.live
  obtain ⟨lq, hchq⟩ := h.chain q hlq
  have hlast : ∀ x ∈ lq, s.parent x = none → x = r := by
    intro x hx hpx
    rw [hchq.eq_last hx hpx, ← hchq.eq_last (hq.chain_mem hchq) hq.root_live.2]
  have hpl : p ∉ lq := fun e => hpr (hlast p e hp)
  have hqp : q ≠ p := by rintro rfl; exact hpl hchq.self_mem
  have hpk : ∀ x, p ∉ kids x := by
    intro x e; rw [((h.kidsMem x p).mp e).2] at hp; cases hp
  have hne : ∀ x ∈ kids q, x ≠ p := by rintro x hx rfl; exact hpk q hx
  obtain ⟨k, hk⟩ : ∃ k, s.asU32 q i = k := ⟨_, rfl⟩
  rcases attach_prefix (i := i) h hl hm hp hlq hmq hg hk with e |
    ⟨hrclt, N, P', F, L, s3, hs4, c3, hN, hF, hperm, hlist4, e⟩
  · simp [H.wp, e]
  have hwp : ∀ Q E, H.wp (attachData q i p) s Q E = H.wp (insertGreen n s.gtop i (s.green p) >>= fun ng =>
      H.loop fun fuel => respine fuel q ng) { s3 with gtop := s.gtop + 1 } Q E := by
    intro Q E; simp only [H.wp, e]
  rw [hwp]
  have hany : s.owned.any (·.addr == (s.green p).addr) = true :=
    List.any_eq_true.mpr ⟨_, h.owned_of_root hl hp, by simp⟩
  have hkidlt : ∀ x ∈ kids q, s.index x < n.children.length := by
    intro x hx
    obtain ⟨hlx, hpx⟩ := (h.kidsMem q x).mp hx
    obtain ⟨n', c', e1, e2, _⟩ := h.greenOk x q hlx hpx (by simp)
    rw [hg] at e1; cases e1
    rw [GNode.children_length]; exact (List.getElem?_eq_some_iff.mp e2).1
  by_cases hlen : i ≤ n.children.length
  · -- in range
    obtain rfl : i = k := (HSt.asU32_le hg hlen).symm.trans hk
    have hins := insertGreen_ok h hl hp hlen hs4 c3
    refine H.wp_step hins ?_
    have hInv := inv_linked (L := L)
      (bad := L) h hl hm hp hlq hmq hg hchq hpl hrclt hN hF hperm hlist4
      (hperm.mem_iff.mpr (by simp))
      (fun x hx hxb => absurd (hperm.mem_iff.mpr (List.mem_cons_of_mem _ hx)) hxb)
    have hchL : Chain (s.linked q i p (kids q) N P' F) q lq := hchq.congr fun x hx => by
      refine ⟨hchq.live_of_mem hx, upd_other _ _ ?_⟩
      rintro rfl; exact hpl hx
    have hext := h.uni.extend (k := n.kind)
      (es := n.children.take i ++ s.green p :: n.children.drop i) (fun e he => by
        have hqa : s.Known (.node n) := .inl (by rw [← hg]; exact h.alive hlq)
        rcases List.mem_append.mp he with he | he
        · exact h.uni.child hqa (List.mem_of_mem_take he)
        · rcases List.mem_cons.mp he with rfl | he
          · exact .inl (h.alive hl)
          · exact h.uni.child hqa (List.mem_of_mem_drop he))
    obtain ⟨s', r1, r2, r3⟩ := inv_respine (q := q) (l := lq) hInv hmq hchL ⟨n, hg⟩
      (by intro x hx; rw [upd_same]; exact hx) (by
        intro x hx
        rw [upd_same, hperm.mem_iff] at hx
        rw [GNode.children_new]
        show (n.children.take i ++ s.green p :: n.children.drop i)[if x = p then i else
          if x ∈ kids q ∧ i ≤ s.index x then s.index x + 1 else s.index x]? = some (s.green x)
        have htl : (n.children.take i).length = i := by simp [hlen]
        rcases List.mem_cons.mp hx with rfl | hxk
        · rw [if_pos rfl, List.getElem?_append_right (by omega), htl]; simp
        · obtain ⟨hlx, hpx⟩ := (h.kidsMem q x).mp hxk
          obtain ⟨n', c', e1, e2, e3, _⟩ := h.greenOk x q hlx hpx (by simp)
          rw [hg] at e1; cases e1
          have e2' := children_of_slice e2
          rw [e3] at e2'
          rw [if_neg (hne x hxk)]
          by_cases hlt : i ≤ s.index x
          · rw [if_pos ⟨hxk, hlt⟩, List.getElem?_append_right (by omega), htl]
            have : s.index x + 1 - i = (s.index x - i) + 1 := by omega
            rw [this, List.getElem?_cons_succ, List.getElem?_drop]
            have : i + (s.index x - i) = s.index x := by omega
            rw [this]; exact e2'
          · rw [if_neg (fun e => hlt e.2), List.getElem?_append_left (by omega),
              List.getElem?_take_of_lt (by omega)]
            exact e2')
      hext (by
        rintro x (⟨o, ho, hx⟩ | hk)
        · exact .inl (.inl ⟨o, List.mem_of_mem_eraseP ho, hx⟩)
        · exact .inl (.inr hk)) (.inr rfl)
    refine H.wp_ok r1 ⟨hlen, ⟨_, r2⟩, ?_, ?_, by rw [r3.parent]; exact upd_same ..⟩
    case refine_2 =>
      refine ⟨fun z _ hn => ?_, fun z _ hn => ?_, fun z hz hn hpz => ?_, fun z _ => by rw [r3.mutable]; rfl,
        fun z _ => by rw [r3.offset]; rfl⟩
      · rw [r3.out z fun hz => hn (hchq.up hz)]; rfl
      · rw [r3.parent]; exact upd_other _ _ hn
      · rw [r3.index]
        show (if z = p then i else if z ∈ kids q ∧ _ then _ else s.index z) = _
        rw [if_neg hn, if_neg (fun e => hpz ((h.kidsMem q z).mp e.1).2)]
    have hUloc : ∀ x ∈ lq, ∀ r R, (s.linked q i p (kids q) N P' F).Loc x r R → s.Loc x r R := by
      intro x hx r R hxl
      obtain ⟨l1, l2, e, hc2⟩ := hchL.suffix hx
      refine hxl.congr hc2 fun y hy => ?_
      have hyl : y ∈ lq := by rw [e]; simp [hy]
      have hyp : y ≠ p := by rintro rfl; exact hpl hyl
      refine ⟨hchq.live_of_mem hyl, ?_, ?_⟩
      · show s.parent y = upd s.parent p (some q) y
        rw [upd_other _ _ hyp]
      · show s.index y = if y = p then _ else if y ∈ kids q ∧ i ≤ s.index y then _ else s.index y
        rw [if_neg hyp, if_neg (fun e => kids_not_chain h hchq e.1 hyl)]
    have hqL : (s.linked q i p (kids q) N P' F).Loc q r P := by
      obtain ⟨r', P'', hq'⟩ := hchL.loc
      obtain ⟨rfl, rfl⟩ := (hUloc q hchq.self_mem r' P'' hq').unique hq
      exact hq'
    have hq2 : s'.Loc q r P := hqL.congr hchL fun y hy =>
      ⟨by rw [r3.live]; exact hchq.live_of_mem hy, by rw [r3.parent], by rw [r3.index]⟩
    refine ⟨fun x hx => by rw [r3.live] at hx; exact hx, fun x r0 Q hx _ => ?_,
      fun x _ => by rw [r3.mutable]; rfl, fun x hx hpx => ?_, fun x hx hmx => ?_, r3.top,
      Nat.le_trans (Nat.le_succ _) r3.gtop,
      fun x _ => spine_same r3 hchL hg rfl x, fun x _ ht => spine_token r3 hchL hg (x := x) ht⟩
    · exact join_loc h hp hmq hq hpr hq2 r3.live r3.parent r3.index hx
    · rw [r3.parent] at hpx
      have hxp : x ≠ p := by
        rintro rfl
        have : upd s.parent x (some q) x = none := hpx
        simp at this
      have hpx' : s.parent x = none := by
        have : upd s.parent p (some q) x = none := hpx
        rwa [upd_other _ _ hxp] at this
      rw [joinTree]
      by_cases hxr : x = r
      · rw [if_pos hxr, hxr]
        have hrq : (s.tree r).at? P = some (s.tree q) := h.tree_at hq
        rw [spine_tree (s0 := s) r3 hchL hqL hchq.self_mem (fun _ => rfl)
          (fun x hx r R hxl => h.tree_at (hUloc x hx r R hxl))]
        have e1 : s.tree q = .node n.kind (n.children.map GElem.tree) := by
          have : s.tree q = n.tree := by rw [HSt.tree, hg]; rfl
          rw [this, GNode.tree_eq]
        rw [Tree.insertAt, Tree.editKids_eq (hrq.trans (congrArg some e1))]
        congr 1
        have e2 : s'.tree q =
            (GNode.new s.gtop n.kind (n.children.take i ++ s.green p :: n.children.drop i)).tree := by
          rw [HSt.tree, r3.here]; rfl
        rw [e2, GNode.tree_new]
        congr 1
        simp [HSt.tree]
      · rw [if_neg hxr]
        have hxl : x ∉ lq := fun hxl => hxr (hlast x hxl hpx')
        rw [HSt.tree, r3.out x hxl]; rfl
    · have hxk : x ∉ kids q := by
        intro e
        obtain ⟨e1, e2⟩ := (h.kidsMem q x).mp e
        have := (h.parentOk x q e1 e2).2
        rw [hmq, hmx] at this; cases this
      have hxp : x ≠ p := by rintro rfl; rw [hm] at hmx; cases hmx
      have hxl : x ∉ lq := by
        intro hxl
        obtain ⟨l1, l2, e, hc2⟩ := hchq.suffix hxl
        obtain ⟨rx, Rx, hxl'⟩ := hc2.loc
        have t1 := h.mutable_root hxl'
        have t2 := h.mutable_root hq
        have t3 : rx = r := hlast rx (by rw [e]; simp [hxl'.chain_mem hc2]) hxl'.root_live.2
        rw [t3, t2, hmq, hmx] at t1; cases t1
      refine ⟨?_, ?_, ?_, ?_, ?_⟩
      · rw [r3.parent]; exact upd_other _ _ hxp
      · rw [r3.index]
        show (if x = p then i else if x ∈ kids q ∧ _ then _ else s.index x) = _
        rw [if_neg hxp, if_neg (fun e => hxk e.1)]
      · rw [r3.out x hxl]; rfl
      · rw [r3.mutable]; rfl
      · rw [r3.offset]; rfl
  · -- out of range
    have hins : insertGreen n s.gtop i (s.green p) { s3 with gtop := s.gtop + 1 } =
        .panic .range (s.linked q k p (kids q) N P' F) := by
      rw [← hs4]
      simp only [insertGreen, GNode.insertChild_none s.gtop (s.green p) (Nat.lt_of_not_le hlen),
        H.bind_def, H.release, c3, hany, if_true, H.panic_apply]
    simp only [H.wp, H.bind_def, hins]
    refine ⟨trivial, by omega, ⟨_, L, inv_linked h hl hm hp hlq hmq hg hchq hpl hrclt hN hF hperm hlist4
      (hperm.mem_iff.mpr (by simp))
      (fun x hx hxb => absurd (hperm.mem_iff.mpr (List.mem_cons_of_mem _ hx)) hxb)⟩, fun hi => ?_⟩
    obtain rfl : i = k := (HSt.asU32_lt hi).symm.trans hk
    have hInv := inv_linked (L := L)
      (bad := [p]) h hl hm hp hlq hmq hg hchq hpl hrclt hN hF hperm hlist4 (by simp)
      (fun x hx _ => by have := hkidlt x hx; omega)
    refine ⟨⟨_, hInv⟩, rfl, fun x hx => ?_, by simp [HSt.linked],
      by simp [HSt.linked], rfl, rfl, rfl, Nat.le_succ _⟩
    refine ⟨upd_other _ _ hx, ?_, rfl, rfl, rfl⟩
    show (if x = p then i else if x ∈ kids q ∧ i ≤ s.index x then _ else s.index x) = _
    rw [if_neg hx]
    by_cases hxk : x ∈ kids q
    · have := hkidlt x hxk
      rw [if_neg (by omega)]
    · rw [if_neg (fun e => hxk e.1)]

end Cur
end Rowan
