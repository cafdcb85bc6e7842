import Verif.ProgramComp
import Verif.Props.Cursor
/-!
# The traversals on snapshots

Unless their comments cite lines of `/repo`, the definitions in this file are vocabulary of the proofs and model no code.
-/
namespace Rowan

/-- How often an element occurs. -/
noncomputable def occ {α : Type} (x : α) : List α → Nat
  | [] => 0
  | y :: L => (open Classical in if y = x then 1 else 0) + occ x L

theorem occ_append {α : Type} (x : α) (L L' : List α) : occ x (L ++ L') = occ x L + occ x L' := by
  induction L with
  | nil => simp [occ]
  | cons y L ih => simp [occ, ih]; omega

theorem perm_occ {α : Type} {L L' : List α} : L.Perm L' ↔ ∀ x, occ x L = occ x L' := by
  classical
  have h : ∀ (x : α) (L : List α), occ x L = L.count x := by
    intro x L
    induction L with
    | nil => rfl
    | cons y L ih =>
      rw [List.count_cons, occ, ih, Nat.add_comm]
      by_cases e : y = x <;> simp [e]
  rw [List.perm_iff_count]
  simp only [h]

/-- Permutations of lists put together from the same parts. -/
syntax "perms" (ppSpace colGt term:max)* : tactic
macro_rules
  | `(tactic| perms $[$ts]*) => do
    let haves ← ts.mapM fun t => `(tactic| have := perm_occ.mp $t x)
    `(tactic| (
      refine perm_occ.mpr fun x => ?_
      $[$haves:tactic]*
      simp only [occ, occ_append] at *
      omega))

namespace RProg
variable {F L : List (Nat × SElem)}

theorem Got.cases {a : Option Nat} {b : Option SElem} (h : Got F a b L) :
    (a = none ∧ b = none ∧ L.Perm F) ∨ ∃ i z, a = some i ∧ b = some z ∧ L.Perm ((i, z) :: F) := by
  cases a <;> cases b
  · exact .inl ⟨rfl, rfl, h⟩
  · exact h.elim
  · exact h.elim
  · exact .inr ⟨_, _, rfl, rfl, h⟩

theorem Got.none (h : L.Perm F) : Got F .none .none L := h
theorem Got.some {i : Nat} {z : SElem} (h : L.Perm ((i, z) :: F)) : Got F (.some i) (.some z) L := h

theorem Got.perm {a : Option Nat} {b : Option SElem} {F' L' : List (Nat × SElem)} (h : Got F a b L) (hf : F.Perm F')
    (hl : L'.Perm L) : Got F' a b L' := by
  rcases h.cases with ⟨rfl, rfl, h⟩ | ⟨i, z, rfl, rfl, h⟩
  · exact (hl.trans h).trans hf
  · exact (hl.trans h).trans (hf.cons _)

theorem Got.under {a : Option Nat} {b : Option SElem} {x : Nat × SElem} (h : Got (x :: F) a b L) :
    ∃ F', L.Perm (x :: F') ∧ Got F a b F' := by
  rcases h.cases with ⟨rfl, rfl, h⟩ | ⟨i, z, rfl, rfl, h⟩
  · exact ⟨F, h, .refl _⟩
  · exact ⟨(i, z) :: F, h.trans (.swap ..), .refl _⟩

/-- The rest of the program does not change the value. -/
theorem Comp.post {α β γ : Type} {p : RProg α} {f : α → RProg γ} {r : Res β}
    {R : α → β → List (Nat × SElem) → Prop} {Q : γ → β → List (Nat × SElem) → Prop} (hp : Comp p L r R)
    (hf : ∀ a b L', r = .ok b → R a b L' → Comp (f a) L' (.ok b) Q) : Comp (p >>= f) L r Q := by
  have := Comp.bind (g := fun b => .ok b) hp hf
  have e : (r >>= fun b => .ok b) = r := by cases r <;> rfl
  rwa [e] at this

end RProg

namespace Prog
open RProg
variable {L F : List (Nat × SElem)} {h : Nat} {e : SElem}

/-! ### Single operations -/

theorem nav_comp {f : Nav} (hm : (h, e) ∈ L) (hf : f.fits e = true) :
    Comp (nav f h) L (.ok (f.on e)) (Got L) := by
  have : Comp (nav f h >>= fun a => .ret a) L (.ok (f.on e)) (Got L) := by
    refine .nav hm hf ?_
    cases f.on e with
    | none => exact .ret (.refl _)
    | some z => exact fun i => .ret (.refl _)
  exact this

theorem toNext_comp {nodes : Bool} (hm : L.Perm ((h, e) :: F)) (hp : e.parent ≠ none) :
    Comp (toNext nodes h) L (.ok (e.nextOf nodes)) (Got F) := by
  have : Comp (toNext nodes h >>= fun a => .ret a) L (.ok (e.nextOf nodes)) (Got F) := by
    refine .toNext hm hp ?_
    cases e.nextOf nodes with
    | none => exact .ret (.refl _)
    | some z => exact fun i => .ret (.refl _)
  exact this

theorem drop_comp {β : Type} {b : β} (hm : L.Perm ((h, e) :: F)) :
    Comp (drop h) L (.ok b) fun _ _ L' => L'.Perm F := by
  have : Comp (drop h >>= fun a => .ret a) L (.ok b) fun _ _ L' => L'.Perm F := .drop hm (.ret (.refl _))
  exact this

theorem dropO_comp {α β : Type} {a : Option Nat} {b : Option SElem} {k : Unit → RProg α} {r : Res β}
    {Q : α → β → List (Nat × SElem) → Prop} (hg : Got F a b L) (hk : Comp (k ()) F r Q) :
    Comp (dropO a >>= k) L r Q := by
  rcases hg.cases with ⟨rfl, rfl, h⟩ | ⟨i, z, rfl, rfl, h⟩
  · exact hk.perm h
  · exact .drop h hk

/-! ### Tokens -/

/-- `firstTokenLoop`, `lastTokenLoop`. -/
def edgeLoop (dir : Bool) : Nat → SElem → Res (Option SToken) := if dir then firstTokenLoop else lastTokenLoop

theorem edgeLoop_succ (dir : Bool) (k : Nat) (e : SElem) : edgeLoop dir (k + 1) e =
    match e with
    | .token t => .ok (some t)
    | .node n =>
      match (if dir then Nav.firstChildOrToken else .lastChildOrToken).on (.node n) with
      | none => .ok none
      | some c => edgeLoop dir k c := by
  cases dir <;> cases e <;> rfl

theorem edgeToken_comp (dir : Bool) : ∀ (k : Nat) {h : Nat} {e : SElem} {L : List (Nat × SElem)}, (h, e) ∈ L →
    Comp (edgeToken dir k h) L (edgeLoop dir k e) fun a b => Got L a (b.map .token) := by
  intro k
  induction k with
  | zero => intro h e L hm; cases dir <;> exact .diverge
  | succ k ih =>
    intro h e L hm
    rw [edgeLoop_succ, edgeToken]
    refine .look hm ?_
    cases e with
    | token t => exact .clone hm fun i => .pure (.refl _)
    | node n =>
      simp only [SElem.obs, SElem.green]
      refine .nav hm (by cases dir <;> rfl) ?_
      cases (if dir = true then Nav.firstChildOrToken else .lastChildOrToken).on (.node n) with
      | none => exact .pure (.refl _)
      | some c =>
        intro i
        refine .post (ih (h := i) (List.mem_cons_self ..)) fun a b L' _ hg => ?_
        obtain ⟨F', hl, hg⟩ := hg.under
        exact .drop hl (.pure hg)

/-- Tokens are looked for in the nearest ancestor that has a later (earlier) sibling. -/
theorem findUp_comp {f : Nav} : ∀ (k : Nat) (n : SNode) {h : Nat} {L F : List (Nat × SElem)},
    (∀ m : SNode, f.fits (.node m) = true) → n.ancestors.length < k → L.Perm ((h, .node n) :: F) →
    Comp (findUp f k (some h)) L (.ok (n.ancestors.findSome? fun m => f.on (.node m))) (Got F) := by
  intro k
  induction k with
  | zero => intro n h L F _ hk; omega
  | succ k ih =>
    intro n h L F hf hk hl
    rw [findUp]
    refine .perm hl ?_
    refine .step (b := Nav.parent.on (.node n)) (nav_comp (List.mem_cons_self ..) rfl) fun nx L1 hg => ?_
    have hm : (h, .node n) ∈ L1 := by
      rcases hg.cases with ⟨_, _, hp⟩ | ⟨_, _, _, _, hp⟩
      · exact hp.mem_iff.mpr (List.mem_cons_self ..)
      · exact hp.mem_iff.mpr (List.mem_cons_of_mem _ (List.mem_cons_self ..))
    refine .nav hm (hf n) ?_
    obtain ⟨F', hp, hg⟩ := hg.under
    cases ho : f.on (.node n) with
    | some x =>
      intro i
      refine .drop (F := (i, x) :: F') ((hp.cons _).trans (.swap ..)) ?_
      have : n.ancestors.findSome? (fun m => f.on (.node m)) = some x := by
        cases n <;> rw [SNode.ancestors, List.findSome?_cons, ho]
      rw [this]
      rcases hg.cases with ⟨rfl, -, h1⟩ | ⟨j, z, rfl, -, h1⟩
      · exact .pure (h1.cons _)
      · exact .drop (e := z) (F := (i, x) :: F) (by perms h1) (.pure (.refl _))
    | none =>
      refine .drop hp ?_
      cases n with
      | root m i g =>
        rw [SNode.ancestors, List.findSome?_cons, ho]
        obtain ⟨rfl, -, h1⟩ | ⟨j, z, -, hz, -⟩ := hg.cases
        · cases k with
          | zero => simp [SNode.ancestors] at hk
          | succ k => exact .pure h1
        · cases hz
      | child p i o g =>
        rw [SNode.ancestors, List.findSome?_cons, ho]
        obtain ⟨-, hz, -⟩ | ⟨j, z, rfl, hz, h1⟩ := hg.cases
        · cases hz
        · cases hz
          exact ih p hf (by simpa [SNode.ancestors] using hk) h1

/-- `first_token` / `last_token`. -/
def edgeOf (dir : Bool) (e : SElem) : Res (Option SToken) := if dir then e.firstToken else e.lastToken

theorem edge_comp (dir : Bool) (hm : (h, e) ∈ L) :
    Comp (edge dir h) L (edgeOf dir e) fun a b => Got L a (b.map .token) := by
  have := edgeToken_comp dir e.green.subs.length hm
  have e1 : edgeOf dir e = edgeLoop dir e.green.subs.length e := by cases dir <;> rfl
  rw [e1]
  exact .look hm this

/-- `next_token` / `prev_token`. -/
def stepOf (dir : Bool) (t : SToken) : Res (Option SToken) := if dir then t.nextToken else t.prevToken

theorem stepOf_eq (dir : Bool) (t : SToken) : stepOf dir t =
    match (if dir then Nav.nextSiblingOrToken else .prevSiblingOrToken).on (.token t) with
    | some e => edgeOf dir e
    | none =>
      match t.ancestors.findSome? fun m =>
          (if dir then Nav.nextSiblingOrToken else .prevSiblingOrToken).on (.node m) with
      | some e => edgeOf dir e
      | none => .ok none := by
  cases dir <;> rfl

theorem stepToken_comp (dir : Bool) {k : Nat} {t : SToken} (hm : (h, .token t) ∈ L) (hk : t.ancestors.length < k) :
    Comp (stepToken dir k h) L (stepOf dir t) fun a b => Got L a (b.map .token) := by
  rw [stepOf_eq, stepToken]
  have tail : ∀ {i : Nat} {x : SElem} {L1 : List (Nat × SElem)}, L1.Perm ((i, x) :: L) →
      Comp (do let r ← edge dir i; drop i; Pure.pure r) L1 (edgeOf dir x) fun a b => Got L a (b.map .token) := by
    intro i x L1 hl
    refine .perm hl (.post (edge_comp dir (List.mem_cons_self ..)) fun a b L' _ hg => ?_)
    obtain ⟨F', hl, hg⟩ := hg.under
    exact .drop hl (.pure hg)
  refine .nav hm (by cases dir <;> rfl) ?_
  cases (if dir = true then Nav.nextSiblingOrToken else .prevSiblingOrToken).on (.token t) with
  | some x => exact fun i => tail (.refl _)
  | none =>
    refine .step (b := Nav.parent.on (.token t)) (nav_comp hm rfl) fun nx L1 hg => ?_
    have : Comp (findUp (if dir = true then .nextSiblingOrToken else .prevSiblingOrToken) k nx) L1
        (.ok (t.ancestors.findSome? fun m =>
          (if dir then Nav.nextSiblingOrToken else .prevSiblingOrToken).on (.node m))) (Got L) := by
      cases t with
      | root m i g =>
        obtain ⟨rfl, -, h1⟩ | ⟨j, z, -, hz, -⟩ := hg.cases
        · cases k with
          | zero => simp at hk
          | succ k => exact .pure h1
        · cases hz
      | child p i o g =>
        obtain ⟨-, hz, -⟩ | ⟨j, z, rfl, hz, h1⟩ := hg.cases
        · cases hz
        · cases hz
          exact findUp_comp k p (by intro m; cases dir <;> rfl) hk h1
    refine .step this fun a L2 hg => ?_
    rcases hg.cases with ⟨rfl, hb, h1⟩ | ⟨i, z, rfl, hb, h1⟩
    · simp only [hb]; exact .pure h1
    · simp only [hb]; exact tail h1

end Prog
end Rowan
