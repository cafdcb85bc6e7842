import Verif.HeapReenter
import Verif.HeapStill2
/-!
# Searching with predicates that run code: lemmas

Unless their comments cite lines of `/repo`, the definitions in this file are vocabulary of the proofs and model no code.
-/
namespace Rowan
open Cur (Scan)

namespace Conf

theorem Run.append {P : HSt → Call → Prop} {x : Nat} {C C1 C2 : Conf} (h : C.Run P x C1) (h' : C1.Run P x C2) :
    C.Run P x C2 := by
  induction h' with
  | refl => exact h
  | step _ st hl ih => exact .step ih st hl

/-- While the program makes only calls that do not change the node `x`, and keeps a handle `p` on `x` or below it, `x`
stays as it is, and so does what lies between `p` and `x`. -/
theorem Run.calm {p x : Nat} {l : List Nat} {C C' : Conf} (h : C.Reach) (hp : p ∈ C.hs) (hro : C.s.Route x p l)
    (r : C.Run (Call.Calm x) p C') :
    C'.s.live x = true ∧ C'.s.green x = C.s.green x ∧ C'.s.mutable x = C.s.mutable x ∧
      ∀ z ∈ l, C'.s.live z = true ∧ Keeps C.s C'.s z := by
  letI : Greens := ⟨[]⟩
  induction r with
  | refl =>
    letI : Greens := ⟨C.gs⟩
    obtain ⟨kids, hi⟩ := HReach.ok' h
    exact Still.refl hi p l (cnt_pos.mpr (List.mem_append_left _ hp)) hro
  | @step C1 C2 lab r st hl ih =>
    obtain ⟨a1, a2, a3, a4⟩ := ih
    have hro1 : C1.s.Route x p l := hro.congr fun z hz => (a4 z hz).2.parent
    suffices hk : Still (cnt [p]) x C1.s C2.s by
      obtain ⟨b1, b2, b3, b4⟩ := hk p l (cnt_pos.mpr (by simp)) hro1
      exact ⟨b1, b2.trans a2, b3.trans a3, fun z hz => ⟨(b4 z hz).1, (a4 z hz).2.trans (b4 z hz).2⟩⟩
    have hp1 := r.held hp
    have hr1 := r.reach h
    letI : Greens := ⟨C1.gs⟩
    obtain ⟨kids, hi⟩ := HReach.ok' hr1
    have hle0 : ∀ y, 0 < cnt [p] y → 0 < cnt (C1.hs ++ C1.lk) y := fun y hy => by
      rw [cnt_pos, List.mem_singleton] at hy
      rw [hy]; exact cnt_pos.mpr (List.mem_append_left _ hp1)
    cases lab with
    | none =>
      obtain ⟨n, e⟩ := st.none_heap
      rw [e]
      exact .of_stable hi hle0 fun x ⟨_, _, _, b, d⟩ => ⟨b.live_of_mem d, rfl, rfl, rfl, rfl, rfl⟩
    | some cr =>
      obtain ⟨c, rest⟩ := cr
      obtain ⟨hpr, hc⟩ := hl _ _ rfl
      have hle : ∀ y, 0 < cnt [p] y → 0 < cnt (rest ++ C1.lk) y := fun y hy => by
        rw [cnt_pos, List.mem_singleton] at hy
        rw [hy]; exact cnt_pos.mpr (List.mem_append_left _ hpr)
      cases hm : C1.s.mutable x with
      | false =>
        intro y l hy hry
        rw [cnt_pos, List.mem_singleton] at hy
        subst hy
        obtain ⟨lc, hch⟩ := hi.chain y (hi.hlive y (hle0 y (cnt_pos.mpr (by simp))))
        have hmy : ∀ y l, C1.s.Route x y l → C1.s.live y = true → C1.s.mutable y = false := by
          intro y l hry
          induction hry with
          | nil => exact fun _ => hm
          | cons hpy _ ih =>
            intro hl
            obtain ⟨e1, e2⟩ := hi.parentOk _ _ hl hpy
            exact e2.symm.trans (ih e1)
        have key := (st.kept hr1 hp1 fun c rest e => (hl c rest e).1).1.imm y lc (cnt_pos.mpr (by simp)) (hmy y l hry (hch.live_of_mem hch.self_mem)) hch
        obtain ⟨k1, k2⟩ := key x (hry.up.mem hch)
        exact ⟨k1, k2.green, k2.mutable, fun z hz => key z ((hry.up_mem hz).mem hch)⟩
      | true =>
        refine Still.mono ?_ hle
        cases st with
        | ok _ hr e => exact Call.still ⟨kids, hi⟩ hr (hc hm) (.inl e)
        | caught _ hr e => exact Call.still (new := []) ⟨kids, hi⟩ hr (hc hm) (.inr (.inl e))
        | unwound _ hr sp e e2 => exact Call.still (new := []) ⟨kids, hi⟩ hr (hc hm) (.inr (.inr ⟨_, _, _, _, sp, e, e2⟩))

end Conf

/-- A scan during which the slice is never freed asks about the elements in order. -/
theorem Cur.Scan.picks {M : Matcher} {P : HSt → Call → Prop} {p : Nat} {g : GNode} {nodes : Bool}
    {L : List (GChild × Nat)} {C : Conf} {e : Scan.End} (hM : M.Does P p)
    (hold : ∀ C', C.Run P p C' → C'.Holds (.node g)) (h : Scan M g nodes L C e) :
    ∃ o C1, M.Picks nodes (L.map fun x => x.1.asRef.tree) C o C1 ∧ C.Run P p C1 ∧
      match o with
      | none => e = .none C1
      | some i => ∃ c j, L[i]? = some (c, j) ∧ e = .found c j C1 := by
  have hkind : ∀ c : GChild, c.asRef.tree.kind = c.asRef.kind := fun c => by
    cases c with
    | node r n => simp
    | token r t => simp [GToken.tree, Tree.kind]
  induction h with
  | nil => exact ⟨none, _, .none, .refl, rfl⟩
  | freed hn => exact absurd (hold _ .refl) hn
  | yesFreed _ hm hn => exact absurd (hold _ (hM _ _ _ _ hm)) hn
  | @no x xs C C1 e _ hm _ ih =>
    have hr := hM _ _ _ _ hm
    obtain ⟨o, C2, h1, h2, h3⟩ := ih fun C' r => hold C' (hr.append r)
    refine ⟨_, C2, .next (b := false) ((hkind _).symm ▸ hm) (by simp) h1, hr.append h2, ?_⟩
    cases o with
    | none => exact h3
    | some i => obtain ⟨c, j, h4, h5⟩ := h3; exact ⟨c, j, by simpa using h4, h5⟩
  | @token x xs C C1 e _ hm _ ht _ ih =>
    have hr := hM _ _ _ _ hm
    obtain ⟨o, C2, h1, h2, h3⟩ := ih fun C' r => hold C' (hr.append r)
    rw [@Cur.isNode_tree ⟨[]⟩] at ht
    refine ⟨_, C2, .next (b := true) ((hkind _).symm ▸ hm) (fun _ => by simpa using ht) h1, hr.append h2, ?_⟩
    cases o with
    | none => exact h3
    | some i => obtain ⟨c, j, h4, h5⟩ := h3; exact ⟨c, j, by simpa using h4, h5⟩
  | @yes c i xs C C1 _ hm _ ht =>
    rw [@Cur.isNode_tree ⟨[]⟩] at ht
    refine ⟨some 0, C1, .here ((hkind _).symm ▸ hm) (fun hn => by simpa [hn] using ht), hM _ _ _ _ hm, c, i, rfl, rfl⟩


theorem Conf.Reach.greenRef {C : Conf} {p : Nat} {g : GNode} (h : C.Reach) (hl : C.s.live p = true)
    (hg : C.s.green p = .node g) : Cur.greenRef p C.s = .ok g C.s := by
  letI : Greens := ⟨C.gs⟩
  obtain ⟨kids, hi⟩ := HReach.ok' h
  exact Cur.greenRef_ok hi hl hg

/-- Scanning with a predicate that only looks at the kind. -/
theorem Cur.Scan.of_pure {m : SyntaxKind → Bool} {g : GNode} {nodes : Bool} {C : Conf} (hg : C.Holds (.node g))
    (L : List (GChild × Nat)) (e : Scan.End) :
    Scan (.pure m) g nodes L C e ↔ e = match L.find? fun x => kindOk m x && !(nodes && !isNode x) with
      | none => .none C
      | some x => .found x.1 x.2 C := by
  induction L generalizing e with
  | nil =>
    constructor
    · intro h; cases h; rfl
    · rintro rfl; exact .nil
  | cons x xs ih =>
    simp only [List.find?_cons]
    constructor
    · intro h
      cases h with
      | freed hn => exact absurd hg hn
      | no _ hm h =>
        obtain ⟨hm, rfl⟩ := hm
        rw [kindOk, ← hm]; exact (ih _).mp h
      | yesFreed _ hm hn =>
        obtain ⟨_, rfl⟩ := hm
        exact absurd hg hn
      | token _ hm _ ht h =>
        obtain ⟨_, rfl⟩ := hm
        rw [ht]; simp only [Bool.not_true, Bool.and_false]; exact (ih _).mp h
      | yes _ hm _ ht =>
        obtain ⟨hm, rfl⟩ := hm
        rw [kindOk, ← hm, ht]; rfl
    · rintro rfl
      cases hk : m x.1.asRef.kind with
      | false =>
        rw [kindOk, hk]
        exact .no hg ⟨hk.symm, rfl⟩ ((ih _).mpr rfl)
      | true =>
        cases ht : nodes && !isNode x with
        | true =>
          simp only [Bool.not_true, Bool.and_false]
          exact .token hg ⟨hk.symm, rfl⟩ hg ht ((ih _).mpr rfl)
        | false =>
          rw [kindOk, hk]
          exact .yes hg ⟨hk.symm, rfl⟩ hg ht

theorem zipIdx_trees (g : GNode) : g.tree.children = g.slice.zipIdx.map fun x => x.1.asRef.tree := by
  have : g.slice.zipIdx.map (fun x => x.1.asRef.tree) = (g.slice.zipIdx.map Prod.fst).map fun c => c.asRef.tree := by
    rw [List.map_map]; rfl
  rw [GNode.tree_children, this, List.zipIdx_map_fst]
  cases g with | mk a k l cs => simp [List.map_map, Function.comp_def]

end Rowan
