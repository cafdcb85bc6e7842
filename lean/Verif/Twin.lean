import Verif.DetachContent
import Verif.EditLaws
import Verif.Spec.EditLaws
/-!
# Forests that a program cannot tell apart

The definitions in this file are vocabulary of the proofs and model no code.
-/
namespace Rowan

/-! ### Putting in and taking out -/

namespace Tree

theorem afterCut_afterInsert : ∀ (P : List Nat) (i : Nat) (Q : List Nat), afterCut P i (afterInsert P i Q) = .stays Q
  | [], i, [] => by simp [afterInsert]
  | [], i, j :: R => by
    simp only [afterInsert]
    split
    · next h =>
      rw [afterCut, if_neg (by omega), if_pos (by omega)]; rfl
    · next h =>
      rw [afterCut, if_neg (by omega), if_neg (by omega)]
  | a :: P, i, [] => by simp [afterInsert]
  | a :: P, i, b :: R => by
    simp only [afterInsert]
    split
    · next h => rw [afterCut, if_pos h, afterCut_afterInsert P i R]
    · next h => rw [afterCut, if_neg h]

theorem removeAt_insertAt {t u : Tree} {k : SyntaxKind} : ∀ {P : List Nat} {cs : List Tree} {i : Nat},
    t.at? P = some (node k cs) → i ≤ cs.length → (t.insertAt P i u).removeAt P i = t := by
  intro P
  induction P generalizing t with
  | nil =>
    intro cs i h hi
    simp only [at?_nil] at h
    cases h
    rw [removeAt, insertAt, editKids_nil, editKids_nil]
    congr 1
    rw [List.eraseIdx_append_of_length_le (by simp; omega), List.length_take, Nat.min_eq_left hi, Nat.sub_self, List.eraseIdx_zero,
      List.tail_cons, List.take_append_drop]
  | cons a P ih =>
    intro cs i h hi
    cases t with
    | token k x => simp [at?_cons, children] at h
    | node k' ds =>
      rw [at?_cons] at h
      simp only [children] at h
      cases hc : ds[a]? with
      | none => rw [hc] at h; cases h
      | some d =>
        rw [hc, Option.bind_some] at h
        have := ih h hi
        rw [removeAt, insertAt] at this ⊢
        rw [editKids_cons, editKids_cons]
        congr 1
        apply List.ext_getElem?
        intro j
        rw [List.getElem?_modify, List.getElem?_modify]
        by_cases e : a = j
        · subst e; simp [hc, this]
        · simp [e]
end Tree

theorem cutLoc_joinLoc {r f n i m : Nat} {P Q : List Nat} (hrf : r ≠ f) :
    cutLoc r n P i (joinLoc r f P i m Q).1 (joinLoc r f P i m Q).2 = (if m = f then n else m, Q) := by
  simp only [joinLoc]
  split
  · next e => simp [cutLoc, Tree.afterCut_below]
  · split
    · next e => subst e; simp [cutLoc, Tree.afterCut_afterInsert]
    · next e => simp [cutLoc, e]

namespace Env
variable {X Y : Type}
theorem dels_map (v : Env X) (f : X → Y) (hs : List Nat) : (v.map f).dels hs = (v.dels hs).map f := by
  simp only [Env.dels, Env.map, List.filter_map]; rfl

theorem mem_dels {v : Env X} {hs : List Nat} {e : Nat × X} (h : e ∈ (v.dels hs).held) : e ∈ v.held :=
  (List.mem_filter.mp h).1

theorem gets_isSome {v : Env X} : ∀ {hs : List Nat}, (v.gets hs).isSome ↔ ∀ h ∈ hs, (v.get h).isSome
  | [] => by simp [gets]
  | h :: hs => by
    rw [gets]
    have := gets_isSome (v := v) (hs := hs)
    cases h1 : v.get h <;> cases h2 : v.gets hs <;> simp_all
end Env

namespace Forest
variable {F G K : Forest} {σ τ : Nat → Nat}

/-- The forests differ in the numbers of trees, and in trees in which no handle is held. -/
structure TwinBy (σ : Nat → Nat) (F G : Forest) : Prop where
  env : G.env = F.env.map fun x => (σ x.1, x.2)
  leaked : G.leaked = F.leaked
  inj : ∀ e ∈ F.env.held, ∀ e' ∈ F.env.held, σ e.2.1 = σ e'.2.1 → e.2.1 = e'.2.1
  tree : ∀ e ∈ F.env.held, G.tree (σ e.2.1) = F.tree e.2.1
  mutable : ∀ e ∈ F.env.held, G.mutable (σ e.2.1) = F.mutable e.2.1
  low : ∀ e ∈ F.env.held, σ e.2.1 < G.fresh

def Twin (F G : Forest) : Prop := ∃ σ, TwinBy σ F G

theorem Twin.refl (hF : F.Sound) : Twin F F :=
  ⟨id, by simp [Env.map], rfl, fun _ _ _ _ h => h, fun _ _ => rfl, fun _ _ => rfl, fun e he => (hF e he).1⟩

theorem TwinBy.dels (h : TwinBy σ F G) (hs : List Nat) : TwinBy σ (F.dels hs) (G.dels hs) :=
  ⟨by rw [Forest.dels, Forest.dels, h.env, Env.dels_map], h.leaked,
    fun e he e' he' => h.inj e (Env.mem_dels he) e' (Env.mem_dels he'), fun e he => h.tree e (Env.mem_dels he),
    fun e he => h.mutable e (Env.mem_dels he), fun e he => h.low e (Env.mem_dels he)⟩

theorem TwinBy.get (h : TwinBy σ F G) (m : Nat) : G.env.get m = (F.env.get m).map fun x => (σ x.1, x.2) := by
  rw [h.env, Env.get_map]

/-- The same join in both forests. -/
theorem TwinBy.join (h : TwinBy σ F G) {q p i : Nat} {z : Nat × List Nat} {y : Nat} {Y : List Nat} (hq : F.env.get q = some z)
    (hp : F.env.get p = some (y, Y)) : TwinBy σ (F.join z i y) (G.join (σ z.1, z.2) i (σ y)) := by
  have mq := Env.get_mem hq
  have mp := Env.get_mem hp
  have key : ∀ {x : Nat × List Nat}, (∃ m, (m, x) ∈ F.env.held) → joinLoc (σ z.1) (σ y) z.2 i (σ x.1) x.2 =
      (σ (joinLoc z.1 y z.2 i x.1 x.2).1, (joinLoc z.1 y z.2 i x.1 x.2).2) := by
    rintro x ⟨m, hm⟩
    have e1 : σ x.1 = σ y ↔ x.1 = y := ⟨h.inj _ hm _ mp, fun e => by rw [e]⟩
    have e2 : σ x.1 = σ z.1 ↔ x.1 = z.1 := ⟨h.inj _ hm _ mq, fun e => by rw [e]⟩
    simp only [joinLoc, e1, e2]
    split
    · rfl
    · split <;> rfl
  have from_ : ∀ e ∈ (F.join z i y).env.held, ∃ e' ∈ F.env.held, e.2.1 = e'.2.1 := by
    intro e he
    obtain ⟨e', he', rfl⟩ := List.mem_map.mp he
    simp only [joinLoc]
    split
    · exact ⟨_, mq, rfl⟩
    · split
      · exact ⟨_, mq, rfl⟩
      · exact ⟨_, he', rfl⟩
  refine ⟨?_, h.leaked, ?_, ?_, ?_, ?_⟩
  · simp only [Forest.join, h.env, Env.map_map]
    apply Env.map_congr
    intro e he
    exact key ⟨e.1, he⟩
  · intro e he e' he'
    obtain ⟨f, hf, h1⟩ := from_ e he
    obtain ⟨f', hf', h2⟩ := from_ e' he'
    rw [h1, h2]
    exact h.inj f hf f' hf'
  · intro e he
    obtain ⟨f, hf, h1⟩ := from_ e he
    rw [h1]
    have e2 : σ f.2.1 = σ z.1 ↔ f.2.1 = z.1 := ⟨h.inj _ hf _ mq, fun e => by rw [e]⟩
    simp only [Forest.join, e2, h.tree f hf, h.tree _ mp]
  · intro e he
    obtain ⟨f, hf, h1⟩ := from_ e he
    rw [h1]
    exact h.mutable f hf
  · intro e he
    obtain ⟨f, hf, h1⟩ := from_ e he
    rw [h1]
    exact h.low f hf

/-- What was put in is taken out. -/
theorem cut_join (hF : F.Sound) {q p i : Nat} {z : Nat × List Nat} {y : Nat} {k : SyntaxKind} {cs : List Tree}
    (hq : F.env.get q = some z) (hp : F.env.get p = some (y, [])) (hne : z.1 ≠ y) (hz : F.sub z = some (.node k cs))
    (hi : i ≤ cs.length) (hm : F.mutable y = F.mutable z.1) :
    TwinBy (fun n => if n = F.fresh then y else n) ((F.join z i y).cutAt z.1 z.2 i) F := by
  have hy := (hF.get hp).1
  have hzl := (hF.get hq).1
  simp only at hy
  have henv : ((F.join z i y).cutAt z.1 z.2 i).env = F.env.map fun x => (if x.1 = y then F.fresh else x.1, x.2) := by
    simp only [Forest.cutAt, Forest.join, Env.map_map]
    apply Env.map_congr
    intro e he
    exact cutLoc_joinLoc hne
  have from_ : ∀ e ∈ ((F.join z i y).cutAt z.1 z.2 i).env.held, ∃ e' ∈ F.env.held,
      e.2.1 = if e'.2.1 = y then F.fresh else e'.2.1 := by
    intro e he
    rw [henv] at he
    obtain ⟨e', he', rfl⟩ := List.mem_map.mp he
    exact ⟨e', he', rfl⟩
  have back : ∀ e ∈ F.env.held, (if (if e.2.1 = y then F.fresh else e.2.1) = F.fresh then y else
      if e.2.1 = y then F.fresh else e.2.1) = e.2.1 := by
    intro e he
    have := (hF e he).1
    by_cases h : e.2.1 = y
    · simp [h]
    · have : e.2.1 ≠ F.fresh := by omega
      simp [h, this]
  refine ⟨?_, rfl, ?_, ?_, ?_, ?_⟩
  · rw [henv, Env.map_map]
    have : F.env = F.env.map id := by simp [Env.map]
    conv => lhs; rw [this]
    apply Env.map_congr
    intro e he
    simp only [Function.comp, id, back e he]
  · intro e he e' he' h
    obtain ⟨f, hf, h1⟩ := from_ e he
    obtain ⟨f', hf', h2⟩ := from_ e' he'
    rw [h1, h2] at h ⊢
    rw [back f hf, back f' hf'] at h
    rw [h]
  · intro e he
    obtain ⟨f, hf, h1⟩ := from_ e he
    rw [h1, back f hf]
    have hfl := (hF f hf).1
    have hnf : (F.join z i y).fresh = F.fresh := rfl
    by_cases h : f.2.1 = y
    · simp only [h, if_true, Forest.cutAt, hnf]
      simp only [Forest.join, if_true]
      rw [show z.2 ++ [i] = z.2 ++ i :: [] from rfl, Tree.at?_insertAt_here hz hi]
      simp
    · simp only [h, if_false, Forest.cutAt, hnf, Nat.ne_of_lt hfl]
      split
      · next e2 =>
        rw [e2]
        simp only [Forest.join, if_true]
        exact (Tree.removeAt_insertAt hz hi).symm
      · next e2 => simp only [Forest.join, e2, if_false]
  · intro e he
    obtain ⟨f, hf, h1⟩ := from_ e he
    rw [h1, back f hf]
    have hfl := (hF f hf).1
    have hnf : (F.join z i y).fresh = F.fresh := rfl
    by_cases h : f.2.1 = y
    · simp only [h, if_true, Forest.cutAt, hnf]
      simp only [Forest.join, hm]
    · simp only [h, if_false, Forest.cutAt, Nat.ne_of_lt hfl, Forest.join]
  · intro e he
    obtain ⟨f, hf, h1⟩ := from_ e he
    rw [h1, back f hf]
    exact (hF f hf).1

/-- What was taken out is put back. -/
theorem join_cut (hF : F.Sound) {r i : Nat} {Q : List Nat} {c : Tree} (hr : r < F.fresh) (hc : F.sub (r, Q ++ [i]) = some c) :
    TwinBy id ((F.cutAt r Q i).join (r, Q) i F.fresh) F := by
  have hrf : r ≠ F.fresh := Nat.ne_of_lt hr
  have henv : ((F.cutAt r Q i).join (r, Q) i F.fresh).env = F.env := by
    have h0 : F.env = F.env.map id := by simp [Env.map]
    simp only [Forest.cutAt, Forest.join, Env.map_map]
    conv => rhs; rw [h0]
    apply Env.map_congr
    intro e he
    have := (hF e he).1
    exact joinLoc_cutLoc hrf (by omega)
  refine ⟨by rw [henv]; simp [Env.map], rfl, fun _ _ _ _ h => h, ?_, ?_, ?_⟩
  all_goals
    rw [henv]
    intro e he
    have hlt := (hF e he).1
    have hne := Nat.ne_of_lt hlt
    simp only [id]
  · simp only [Forest.join]
    split
    · next h =>
      rw [h]
      have t1 : (F.cutAt r Q i).tree r = (F.tree r).removeAt Q i := by simp [Forest.cutAt, hrf]
      have tf : (F.cutAt r Q i).tree F.fresh = c := by
        rw [Forest.sub] at hc
        simp [Forest.cutAt, hc]
      rw [t1, tf, Tree.insertAt_removeAt hc]
    · next h => simp [Forest.cutAt, hne, h]
  · simp [Forest.join, Forest.cutAt, hne]
  · exact hlt

theorem Twin.trans (h : Twin F G) (h' : Twin G K) : Twin F K := by
  obtain ⟨σ, h1⟩ := h
  obtain ⟨τ, h2⟩ := h'
  have mem : ∀ e ∈ F.env.held, (e.1, σ e.2.1, e.2.2) ∈ G.env.held := by
    intro e he
    rw [h1.env]
    exact List.mem_map_of_mem (f := fun p => (p.1, σ p.2.1, p.2.2)) he
  refine ⟨fun n => τ (σ n), ?_, h2.leaked.trans h1.leaked, ?_, ?_, ?_, ?_⟩
  · rw [h2.env, h1.env, Env.map_map]; rfl
  · intro e he e' he' h
    exact h1.inj e he e' he' (h2.inj _ (mem e he) _ (mem e' he') h)
  · intro e he; rw [h2.tree _ (mem e he), h1.tree e he]
  · intro e he; rw [h2.mutable _ (mem e he), h1.mutable e he]
  · intro e he; exact h2.low _ (mem e he)

end Forest

section
variable {s : HSt} {gs : List GElem} {lk : List Nat} {F G : Forest} {w : Env Nat}

/-- The heap does not know the numbers of the trees, or trees in which no handle is held. -/
theorem Tracks.twin (h : Tracks s gs lk F w) (hl : F.Twin G) : Tracks s gs lk G w := by
  obtain ⟨σ, h1⟩ := hl
  obtain ⟨J, top, a1, a2, a3, a4, a5, a6⟩ := h.same
  have mem : ∀ j ∈ J, (j.id, j.tree, j.path) ∈ F.env.held := fun j hj => by
    rw [a2]; exact List.mem_map_of_mem (f := fun j : Item => (j.id, j.tree, j.path)) hj
  have hinv : ∃ ρ : Nat → Nat, ∀ j ∈ J, ρ (σ j.tree) = j.tree := by
    classical
    refine ⟨fun m => if hm : ∃ j ∈ J, σ j.tree = m then hm.choose.tree else 0, fun j hj => ?_⟩
    have hm : ∃ j' ∈ J, σ j'.tree = σ j.tree := ⟨j, hj, rfl⟩
    simp only [dif_pos hm]
    exact h1.inj _ (mem _ hm.choose_spec.1) _ (mem j hj) hm.choose_spec.2
  obtain ⟨ρ, hρ⟩ := hinv
  refine ⟨h.reach, ?_, fun hlk => by rw [h1.leaked]; exact h.leak hlk, J.map (fun j => { j with tree := σ j.tree }),
    fun m => top (ρ m), ?_, ?_, ?_, ?_, ?_, ?_⟩
  · rw [h1.env]; exact h.next
  · rw [a1]; simp [Item.objs]
  · rw [h1.env]
    simp only [Env.map]
    rw [a2]
    simp [Item.places]
  · rw [List.map_map]; exact a3
  · intro j hj
    obtain ⟨j, hj', rfl⟩ := List.mem_map.mp hj
    exact a4 j hj'
  · intro j hj
    obtain ⟨j, hj', rfl⟩ := List.mem_map.mp hj
    obtain ⟨b1, b2, b3, b4⟩ := a5 j hj'
    simp only [hρ j hj']
    exact ⟨b1, b2.trans (h1.tree _ (mem j hj')).symm, b3.trans (h1.mutable _ (mem j hj')).symm, h1.low _ (mem j hj')⟩
  · intro i hi j hj
    obtain ⟨i, hi', rfl⟩ := List.mem_map.mp hi
    obtain ⟨j, hj', rfl⟩ := List.mem_map.mp hj
    simp only [hρ i hi', hρ j hj']
    intro e
    rw [a6 i hi' j hj' e]
end
end Rowan
