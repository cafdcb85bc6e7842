import Verif.Spec.Program
import Verif.Props.Cursor
import Verif.HeapShows
/-!
# Reading programs on the heap and on snapshots
-/
namespace Rowan

/-! ### Navigation on values -/

theorem SNode.childAt_eq (i : Nat) (n : SNode) : n.childAt i = n.kids[i]? := by
  rw [SNode.kids_getElem?]; rfl

theorem Nav.pointsTo {r : Root} {e : SElem} (h : Reach r e) (f : Nav) (hf : f.fits e = true) :
    PointsTo r (f.on e) (f.target r.tree e.path) := by
  have sib := C12_siblings h
  cases e with
  | node n =>
    have chd := C12_children h
    cases f with
    | parent => exact C12_parent h
    | nextSibling => exact (sib fun _ => true).1
    | nextSiblingByKind m => exact (sib m).2.2.2.2.1
    | prevSibling => exact (sib fun _ => true).2.1
    | nextSiblingOrToken => exact (sib fun _ => true).2.2.1
    | nextSiblingOrTokenByKind m => exact (sib m).2.2.2.2.2
    | prevSiblingOrToken => exact (sib fun _ => true).2.2.2.1
    | firstChild => exact (chd fun _ => true).1
    | firstChildByKind m => exact (chd m).2.2.2.2.1
    | lastChild => exact (chd fun _ => true).2.1
    | firstChildOrToken => exact (chd fun _ => true).2.2.1
    | firstChildOrTokenByKind m => exact (chd m).2.2.2.2.2
    | lastChildOrToken => exact (chd fun _ => true).2.2.2.1
    | childAt i =>
      obtain ⟨h1, h2⟩ := h.kids
      simp only [Nav.on, SNode.childAt_eq]
      exact pointsTo_get h1 h2 i
  | token t =>
    cases f with
    | parent => exact C12_parent h
    | nextSibling => exact (sib fun _ => true).1
    | nextSiblingByKind m => exact (sib m).2.2.2.2.1
    | prevSibling => exact (sib fun _ => true).2.1
    | nextSiblingOrToken => exact (sib fun _ => true).2.2.1
    | nextSiblingOrTokenByKind m => exact (sib m).2.2.2.2.2
    | prevSiblingOrToken => exact (sib fun _ => true).2.2.2.1
    | _ => simp [Nav.fits, Nav.onNodes] at hf

/-! ### Snapshots -/

namespace HSt.Snap
variable {s s' : HSt} {gs : List GElem} {hs lk : List Nat} {T : List Nat} {x : Nat} {e : SElem}

theorem live (h : s.Snap T x e) : s.live x = true := by
  letI : Greens := ⟨[]⟩
  obtain ⟨r, _, h1, _⟩ := h; exact h1.live

theorem green [Greens] {hc : Nat → Nat} {kids : Nat → List Nat} (hi : HInv s hc kids none []) (h : s.Snap T x e) :
    s.green x = e.green := by
  obtain ⟨r, hT, h1, h2, h3⟩ := h
  have hv := h3.valid.1
  clear h3
  have node : ∀ (n : SNode) x, n.Valid → n.rootOf = ⟨s.mutable r, s.index r, s.green r⟩ → s.Loc x r n.path →
      s.green x = .node n.green := by
    intro n
    induction n with
    | root m i g =>
      intro x _ h2 h1
      obtain ⟨rfl, _⟩ := h1.nil_root
      simp only [SNode.rootOf, Root.mk.injEq] at h2
      exact h2.2.2.symm
    | child p i o g ih =>
      intro x hv h2 h1
      obtain ⟨hp, c, hc, hg, _⟩ := hv
      generalize hP : (SNode.child p i o g).path = P at h1
      rw [SNode.path_child] at hP
      cases h1 with
      | root => simp at hP
      | @child _ q _ path hl hpq hq =>
        obtain ⟨e1, e2⟩ := List.append_inj' hP rfl
        simp only [List.cons.injEq, and_true] at e2
        subst e1
        have := ih q hp h2 hq
        obtain ⟨n, c', a, b, d, _⟩ := hi.greenOk _ _ hl hpq (by simp)
        rw [this] at a
        cases a
        rw [← e2, hc] at b
        cases b
        rw [← d, hg]; rfl
  cases e with
  | node n => exact node n x hv h2 h1
  | token t =>
    cases t with
    | root m i g =>
      obtain ⟨rfl, _⟩ := h1.nil_root
      simp only [SElem.rootOf, SToken.rootOf, Root.mk.injEq] at h2
      exact h2.2.2.symm
    | child p i o g =>
      obtain ⟨hp, c, hc, hg, _⟩ := hv
      generalize hP : (SElem.path (.token (SToken.child p i o g))) = P at h1
      rw [SElem.path_token, SToken.path_child] at hP
      cases h1 with
      | root => simp at hP
      | @child _ q _ path hl hpq hq =>
        obtain ⟨e1, e2⟩ := List.append_inj' hP rfl
        simp only [List.cons.injEq, and_true] at e2
        subst e1
        have := node p q hp h2 hq
        obtain ⟨n, c', a, b, d, _⟩ := hi.greenOk _ _ hl hpq (by simp)
        rw [this] at a
        cases a
        rw [← e2, hc] at b
        cases b
        rw [← d, hg]; rfl

theorem obs [Greens] {hc : Nat → Nat} {kids : Nat → List Nat} (hi : HInv s hc kids none []) (h : s.Snap T x e) :
    Cur.look x s = .ok e.obs s := by
  have hg := h.green hi
  obtain ⟨r, hT, h1, h2, h3⟩ := h
  have hv := h3.valid.1
  have hr : e.textRange = TextRange.at_ e.offset e.green.textLen := by cases e <;> rfl
  have hix : s.index x = e.index := by
    by_cases hne : e.path = []
    · rw [hne] at h1
      obtain ⟨rfl, _⟩ := h1.nil_root
      cases e with
      | node n => cases n with
        | root m i g => simp only [SElem.rootOf, SNode.rootOf, Root.mk.injEq] at h2; exact h2.2.1.symm
        | child => simp at hne
      | token n => cases n with
        | root m i g => simp only [SElem.rootOf, SToken.rootOf, Root.mk.injEq] at h2; exact h2.2.1.symm
        | child => simp at hne
    · have := C12_index h3 hne
      generalize e.path = P at *
      cases h1 with
      | root => exact absurd rfl hne
      | child => simpa using this
  have hmut : s.mutable x = e.mutable := by
    rw [← hi.mutable_root h1, (C11_contents h3).2.2, h2]
  simp only [Cur.look]
  rw [H.bind_ok (Cur.kind_ok hi h1.live), H.bind_ok (Cur.textRange_ok hi h1), H.bind_ok (Cur.index_ok h1.live),
    H.bind_ok (H.rd_ok h1.live), H.bind_ok (Cur.green_ok hi h1.live)]
  show HOut.ok _ _ = HOut.ok _ _
  have ht : s.tree r = e.rootOf.tree := by rw [h2]; rfl
  rw [SElem.obs, SElem.kind_eq e, hr, GElem.textLen_eq _ hv.green_wf, hv.offset_eq, HSt.tree, hg, hix, ht, hmut]
  rfl

/-- What a handle denotes does not change as long as nothing it sees changes. -/
theorem stable [Greens] {hc hc' : Nat → Nat} {kids : Nat → List Nat} (hi : HInv s hc' kids none [])
    (st : Stable hc s s') (hx : 0 < hc x) (h : s.Snap T x e) : s'.Snap T x e := by
  obtain ⟨r, hT, h1, h2, h3⟩ := h
  obtain ⟨l, hch⟩ := hi.chain x h1.live
  have k := (st r ⟨x, l, hx, hch, h1.chain_mem hch⟩).2
  exact ⟨r, hT, st.loc hx h1 hch, by rw [h2, k.mutable, k.index, k.green], h3⟩

/-- Every handle denotes something. -/
theorem exist [Greens] {hc : Nat → Nat} {kids : Nat → List Nat} (hi : HInv s hc kids none []) {r : Nat} {P : List Nat}
    (h : s.Loc x r P) : ∃ e, s.Snap [r] x e ∧ e.path = P := by
  have hw : (s.green r).WF := hi.uni.wf _ (.inl (hi.alive h.root_live.1))
  obtain ⟨e, h1, h2, h3⟩ := Root.exists_handle ⟨s.mutable r, s.index r, s.green r⟩ hw P _ (hi.tree_at h)
  refine ⟨e, ⟨r, List.mem_singleton.mpr rfl, by rw [h3]; exact h, h2, ?_⟩, h3⟩
  rw [h2]
  exact reach_iff.mpr ⟨h1, h2⟩

/-- A handle that was found where the value functions lead denotes the value they give. -/
theorem found {r : Nat} {o : Option Nat} {eo : Option SElem} {q : Option (List Nat)}
    {R : Root} (hT : r ∈ T) (hR : R = ⟨s.mutable r, s.index r, s.green r⟩) (hlo : s.LocO o r q) (hp : PointsTo R eo q) :
    (o = none ∧ eo = none) ∨ ∃ y z, o = some y ∧ eo = some z ∧ s.Snap T y z := by
  obtain ⟨h1, h2⟩ := hp
  cases o with
  | none =>
    cases q with
    | none => exact .inl ⟨rfl, by simpa using h1⟩
    | some => exact hlo.elim
  | some y =>
    cases q with
    | none => exact hlo.elim
    | some Q =>
      cases eo with
      | none => simp at h1
      | some z =>
        simp only [Option.map_some, Option.some.injEq] at h1
        have := h2 z rfl
        refine .inr ⟨y, z, rfl, rfl, r, hT, by rw [h1]; exact hlo, this.valid.2.trans hR, ?_⟩
        rw [this.valid.2]; exact this

theorem unique [Greens] {hc : Nat → Nat} {kids : Nat → List Nat} (_ : HInv s hc kids none []) {e' : SElem}
    (h : s.Snap T x e) (h' : s.Snap T x e') : e = e' := by
  obtain ⟨r, hT, h1, h2, h3⟩ := h
  obtain ⟨r', _, h1', h2', h3'⟩ := h'
  obtain ⟨rfl, hp⟩ := h1.unique h1'
  exact h3.valid.1.unique h3'.valid.1 (h2.trans h2'.symm) hp

end HSt.Snap
end Rowan
