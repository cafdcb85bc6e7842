import Verif.HeapBorrow
import Verif.Spec.Borrow
import Verif.Props.Memory
import Verif.Props.Handles
/-!
# C54: green data borrowed from a handle
-/
namespace Rowan

section
variable {C C' : Conf} {x : Nat}

/-- C54, tokens: whatever the program does while it keeps the handle, including edits of the tree the token is in,
`green()` refers to the same object, `text()` to the same text in it, and the object is not freed. -/
theorem C54_token (h : C.Reach) (hx : x ∈ C.hs) (ht : (C.s.tree x).isNode = false)
    (run : C.Run (fun _ _ => True) x C') :
    ∃ t : GToken, C.s.tree x = .token t.kind t.text ∧
      Cur.tokenGreen x C.s = .ok t C.s ∧ Cur.tokenGreen x C'.s = .ok t C'.s ∧
      Cur.tokenText x C.s = .ok t.text C.s ∧ Cur.tokenText x C'.s = .ok t.text C'.s ∧ C'.Holds (.token t) := by
  obtain ⟨t, hg⟩ : ∃ t, C.s.green x = .token t := by
    cases hg : C.s.green x with
    | token t => exact ⟨t, rfl⟩
    | node n => rw [HSt.tree, hg] at ht; simp [GElem.tree, GNode.tree_eq, Tree.isNode] at ht
  have hg' : C'.s.green x = .token t := ((run.kept h hx).token x (by simp [cnt]) ht).trans hg
  have hl' := (C38_live (run.reach h)).1 (run.held hx)
  have read : ∀ {D : Conf}, D.Reach → x ∈ D.hs → D.s.green x = .token t →
      Cur.tokenGreen x D.s = .ok t D.s ∧ Cur.tokenText x D.s = .ok t.text D.s := fun {D} hD hxD hgD => by
    letI : Greens := ⟨D.gs⟩
    obtain ⟨kids, hi⟩ := HReach.ok' hD
    have := Cur.green_ok hi (hi.hlive x (cnt_pos.mpr (List.mem_append_left _ hxD)))
    rw [hgD] at this
    simp only [Cur.tokenGreen, Cur.tokenText]
    exact ⟨by rw [H.bind_ok this]; rfl, by rw [H.bind_ok this]; rfl⟩
  obtain ⟨r, P, _, h1, h2⟩ := C38_green (run.reach h) hl'
  refine ⟨t, ?_, (read h hx hg).1, (read (run.reach h) (run.held hx) hg').1, (read h hx hg).2,
    (read (run.reach h) (run.held hx) hg').2, _, List.mem_append_left _ h1, hg' ▸ h2⟩
  rw [HSt.tree, hg]; cases t; rfl

/-- C54, nodes of immutable trees: `green()` is a reference to the same object all the time, and neither it nor
anything below it is freed. -/
theorem C54_node (h : C.Reach) (hx : x ∈ C.hs) (hn : (C.s.tree x).isNode = true) (hm : C.s.mutable x = false)
    (run : C.Run (fun _ _ => True) x C') :
    ∃ g : GNode, C.s.tree x = g.tree ∧ Cur.nodeGreen x C.s = .ok (.borrowed g) C.s ∧
      Cur.nodeGreen x C'.s = .ok (.borrowed g) C'.s ∧ ∀ e ∈ GElem.subs (.node g), C'.Holds e := by
  obtain ⟨n, hg⟩ := @Cur.node_green ⟨[]⟩ _ _ hn
  have hk : C'.s.green x = C.s.green x := by
    letI : Greens := ⟨C.gs⟩
    obtain ⟨kids, hi⟩ := HReach.ok' h
    obtain ⟨l, hch⟩ := hi.chain x (hi.hlive x (cnt_pos.mpr (List.mem_append_left _ hx)))
    exact ((run.kept h hx).imm x l (cnt_pos.mpr (by simp)) hm hch x hch.self_mem).2.green
  have hm' : C'.s.mutable x = false := (C37_mutability h hx run).trans hm
  have read : ∀ {D : Conf}, D.Reach → x ∈ D.hs → D.s.green x = .node n → D.s.mutable x = false →
      Cur.nodeGreen x D.s = .ok (.borrowed n) D.s := fun {D} hD hxD hgD hmD => by
    letI : Greens := ⟨D.gs⟩
    obtain ⟨kids, hi⟩ := HReach.ok' hD
    have hl := hi.hlive x (cnt_pos.mpr (List.mem_append_left _ hxD))
    simp only [Cur.nodeGreen]
    rw [H.bind_ok (Cur.greenRef_ok hi hl hgD), H.bind_ok (H.rd_ok hl), hmD]; rfl
  obtain ⟨r, P, _, h1, h2⟩ := C38_green (run.reach h) ((C38_live (run.reach h)).1 (run.held hx))
  refine ⟨n, ?_, read h hx hg hm, read (run.reach h) (run.held hx) (hk.trans hg) hm', fun e he =>
    ⟨_, List.mem_append_left _ h1, GElem.subs_trans h2 ?_⟩⟩
  · rw [HSt.tree, hg]; rfl
  · rw [hk, hg]; exact he

/-- C54, nodes of mutable trees: `green()` gives a strong reference of its own, so it is not a borrow. -/
theorem C54_mutable {s : HSt} {gs : List GElem} {hs lk : List Nat} (h : HReach s gs hs lk) (hx : x ∈ hs)
    (hn : (s.tree x).isNode = true) (hm : s.mutable x = true) :
    ∃ g : GNode, s.tree x = g.tree ∧ Cur.nodeGreen x s = .ok (.owned g) s := by
  obtain ⟨n, hg⟩ := @Cur.node_green ⟨[]⟩ _ _ hn
  letI : Greens := ⟨gs⟩
  obtain ⟨kids, hi⟩ := h.ok'
  have hl := hi.hlive x (cnt_pos.mpr (List.mem_append_left _ hx))
  refine ⟨n, by rw [HSt.tree, hg]; rfl, ?_⟩
  simp only [Cur.nodeGreen]
  rw [H.bind_ok (Cur.greenRef_ok hi hl hg), H.bind_ok (H.rd_ok hl), hm]; rfl

end

/-! ## Concrete cases -/

/-- The token `b` of `demo` is detached while its text is borrowed. -/
example : ∃ C, demo.Run (fun _ _ => True) 2 C ∧ C.s.Loc 2 2 [] ∧ ∃ t : GToken, t.text = ['b'] ∧
    Cur.tokenText 2 demo.s = .ok t.text demo.s ∧ Cur.tokenText 2 C.s = .ok t.text C.s ∧ C.Holds (.token t) := by
  obtain ⟨C, h, hl⟩ := demo_detach (P := fun _ _ => True) 2 (by decide +kernel) trivial
  obtain ⟨t, h1, _, _, h2, h3, h4⟩ := C54_token demo_reach (x := 2) (by decide +kernel) (by decide +kernel) h
  have ht : demo.s.tree 2 = .token 1 ['b'] := by decide +kernel
  rw [ht] at h1
  cases t with | mk a k text => cases h1; exact ⟨C, h, hl, _, rfl, h2, h3, h4⟩
/-- The same for the immutable tree. -/
example : ∃ C, demo.Run (fun _ _ => True) 5 C ∧ ∃ g : GNode, g.tree = demoTree ∧
    Cur.nodeGreen 5 C.s = .ok (.borrowed g) C.s := by
  obtain ⟨C, h, hl⟩ := demo_detach (P := fun _ _ => True) 5 (by decide +kernel) trivial
  obtain ⟨g, h1, _, h3, _⟩ := C54_node demo_reach (x := 5) (by decide +kernel) (by decide +kernel) (by decide +kernel) h
  exact ⟨C, h, g, h1.symm.trans demo_tree.2, h3⟩
example := C54_mutable (x := 3) demo_reach (by decide +kernel) (by decide +kernel) (by decide +kernel)

/-- Why `green()` must not borrow in a mutable tree: the program holds no green nodes and keeps the handle of the
top node; detaching a child frees the green node that the handle had. -/
theorem C54_mutable_needed : ∃ C C' : Conf, ∃ x, C.Reach ∧ x ∈ C.hs ∧ C.Run (fun _ _ => True) x C' ∧
    C.Holds (C.s.green x) ∧ ¬ C'.Holds (C.s.green x) := by
  letI : Greens := ⟨[]⟩
  have e : (match (Call.detach 1).exec demo3.s with
    | .ok [] s' => !s'.holds (demo3.s.green 0).addr
    | _ => false) = true := by decide +kernel
  split at e
  · rename_i s' h
    refine ⟨demo3, ⟨s', demo3.gs, [] ++ demo3.hs, [] ++ demo3.lk⟩, 0, demo3_reach, by decide +kernel,
      .step (l := some (.detach 1, demo3.hs)) .refl (.ok demo3 (.detach 1) (rest := demo3.hs) ⟨.refl _, by decide +kernel, by simp [Call.nodes], by simp⟩ h)
        (by rintro c rest ⟨⟩; exact ⟨by decide +kernel, trivial⟩), ?_, ?_⟩
    · obtain ⟨r, P, _, h1, h2⟩ := C38_green (p := 0) demo3_reach (by decide +kernel)
      exact ⟨_, List.mem_append_left _ h1, h2⟩
    · rintro ⟨o, ho, hs⟩
      rw [show demo3.gs = [] by rw [demo3], List.append_nil] at ho
      have : s'.holds (demo3.s.green 0).addr = true :=
        List.any_eq_true.mpr ⟨o, ho, List.any_eq_true.mpr ⟨_, hs, by simp⟩⟩
      rw [this] at e; cases e
  · cases e

end Rowan
