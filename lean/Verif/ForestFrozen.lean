import Verif.ForestMain
/-!
# Immutable trees stay as they are; what was taken out can be put back

Unless their comments cite lines of `/repo`, the definitions in this file are vocabulary of the proofs and model no code.
-/
namespace Rowan

namespace Env
variable {X Y : Type}

theorem get_map (v : Env X) (f : X → Y) (h : Nat) : (v.map f).get h = (v.get h).map f := by
  obtain ⟨n, l⟩ := v
  simp only [Env.map, Env.get]
  induction l with
  | nil => rfl
  | cons x l ih =>
    obtain ⟨a, x⟩ := x
    simp only [List.map_cons, List.lookup_cons]
    split
    · rfl
    · exact ih

theorem get_dels (v : Env X) (hs : List Nat) (h : Nat) : (v.dels hs).get h = if h ∈ hs then none else v.get h := by
  obtain ⟨n, l⟩ := v
  simp only [Env.dels, Env.get]
  induction l with
  | nil => simp
  | cons x l ih =>
    obtain ⟨a, x⟩ := x
    by_cases hc : a ∈ hs
    · rw [List.filter_cons_of_neg (by simpa using hc), ih]
      by_cases hh : h ∈ hs
      · simp [hh]
      · have : (h == a) = false := by
          simp only [beq_eq_false_iff_ne]; rintro rfl; exact hh hc
        simp [hh, List.lookup_cons, this]
    · rw [List.filter_cons_of_pos (by simpa using hc), List.lookup_cons, List.lookup_cons]
      cases he : h == a with
      | true => rw [beq_iff_eq.mp he]; simp [hc]
      | false => simpa using ih

theorem get_add (v : Env X) (x : X) {h : Nat} (hn : h < v.next) : (v.add x).get h = v.get h := by
  obtain ⟨n, l⟩ := v
  have : (h == n) = false := by simp only [beq_eq_false_iff_ne]; simp at hn; omega
  simp [Env.add, Env.get, List.lookup_cons, this]
end Env

/-- Tree `n` is immutable and has content `t`, and handle `h`, if it is held, is at position `P` of it. -/
structure Forest.Keeps (n : Nat) (t : Tree) (h : Nat) (P : List Nat) (F : Forest) : Prop where
  low : n < F.fresh
  mutb : F.mutable n = false
  tree : F.tree n = t
  next : h < F.env.next
  get : ∀ x, F.env.get h = some x → x = (n, P)

namespace Forest.Keeps
variable {n h : Nat} {t : Tree} {P : List Nat} {F : Forest}

theorem cutAt (k : Keeps n t h P F) {r i : Nat} {Q : List Nat} (hr : F.mutable r = true) : Keeps n t h P (F.cutAt r Q i) := by
  have hn : n ≠ F.fresh := by have := k.low; omega
  have hnr : n ≠ r := by rintro rfl; rw [k.mutb] at hr; cases hr
  refine ⟨Nat.lt_succ_of_lt k.low, by simp [Forest.cutAt, hn, k.mutb], by simp [Forest.cutAt, hn, hnr, k.tree], k.next, ?_⟩
  intro x hx
  rw [Forest.cutAt, Env.get_map] at hx
  cases hg : F.env.get h with
  | none => rw [hg] at hx; cases hx
  | some y =>
    rw [hg, k.get y hg] at hx
    cases hx
    simp [cutLoc, hnr]

theorem cut (k : Keeps n t h P F) {x : Nat × List Nat} (hr : F.mutable x.1 = true) : Keeps n t h P (F.cut x) := by
  rw [Forest.cut]
  split
  · exact k
  · exact k.cutAt hr

theorem join (k : Keeps n t h P F) {x : Nat × List Nat} {i r : Nat} (hx : F.mutable x.1 = true) (hr : F.mutable r = true) :
    Keeps n t h P (F.join x i r) := by
  have hnx : n ≠ x.1 := by rintro rfl; rw [k.mutb] at hx; cases hx
  have hnr : n ≠ r := by rintro rfl; rw [k.mutb] at hr; cases hr
  refine ⟨k.low, k.mutb, by simp [Forest.join, hnx, k.tree], k.next, ?_⟩
  intro y hy
  rw [Forest.join, Env.get_map] at hy
  cases hg : F.env.get h with
  | none => rw [hg] at hy; cases hy
  | some z =>
    rw [hg, k.get z hg] at hy
    cases hy
    simp [joinLoc, hnx, hnr]

theorem dels (k : Keeps n t h P F) (hs : List Nat) : Keeps n t h P (F.dels hs) := by
  refine ⟨k.low, k.mutb, k.tree, k.next, fun x hx => ?_⟩
  rw [Forest.dels, Env.get_dels] at hx
  split at hx
  · cases hx
  · exact k.get x hx

theorem leak (k : Keeps n t h P F) (b : Bool) : Keeps n t h P (F.leak b) := ⟨k.low, k.mutb, k.tree, k.next, k.get⟩

theorem add (k : Keeps n t h P F) (x : Nat × List Nat) : Keeps n t h P (F.add x) :=
  ⟨k.low, k.mutb, k.tree, Nat.lt_succ_of_lt k.next, fun y hy => by
    rw [Forest.add, Env.get_add _ _ k.next] at hy
    exact k.get y hy⟩

theorem plant (k : Keeps n t h P F) (m : Bool) (u : Tree) : Keeps n t h P (F.plant m u) := by
  have hn : n ≠ F.fresh := by have := k.low; omega
  exact ⟨Nat.lt_succ_of_lt k.low, by simp [Forest.plant, hn, k.mutb], by simp [Forest.plant, hn, k.tree], k.next, k.get⟩

end Forest.Keeps

/-- A handle in a mutable tree is in a mutable tree after a cut. -/
theorem Forest.cut_mutable {F : Forest} {x : Nat × List Nat} (hx : F.mutable x.1 = true) {q : Nat}
    (hq : ∀ y, F.env.get q = some y → F.mutable y.1 = true) :
    ∀ y, (F.cut x).env.get q = some y → (F.cut x).mutable y.1 = true := by
  rw [Forest.cut]
  split
  · exact hq
  · intro y hy
    rw [Forest.cutAt, Env.get_map] at hy
    cases hg : F.env.get q with
    | none => rw [hg] at hy; cases hy
    | some z =>
      rw [hg] at hy
      cases hy
      have hz := hq z hg
      simp only [Forest.cutAt, cutLoc]
      split
      next => split <;> split <;> simp_all
      next => split <;> simp_all

theorem Forest.cutAt_mutable {F : Forest} {r i : Nat} {Q : List Nat} (hr : F.mutable r = true) {q : Nat}
    (hq : ∀ y, F.env.get q = some y → F.mutable y.1 = true) :
    ∀ y, (F.cutAt r Q i).env.get q = some y → (F.cutAt r Q i).mutable y.1 = true := by
  have := Forest.cut_mutable (F := F) (x := (r, Q ++ [i])) hr hq
  simpa [Forest.cut] using this

theorem Forest.Keeps.insertAll {n h : Nat} {t : Tree} {P : List Nat} {q : Nat} {gone : List Nat} : ∀ (ps : List Nat) (i : Nat)
    {F F' : Forest}, Keeps n t h P F → (∀ y, F.env.get q = some y → F.mutable y.1 = true) →
    F.insertAll q gone i ps = .ok F' ∨ F.insertAll q gone i ps = .panic F' → Keeps n t h P F'
  | [], _, F, F', k, _, e => by rcases e with e | e <;> cases e; exact k
  | p :: ps, i, F, F', k, hq, e => by
    rw [Forest.insertAll] at e
    cases hp : F.env.get p with
    | none => rw [hp] at e; rcases e with e | e <;> cases e
    | some x =>
      simp only [hp] at e
      split at e
      · rcases e with e | e <;> cases e
        exact k
      next hm =>
        have hm : F.mutable x.1 = true := by simpa using hm
        have k1 := k.cut hm
        cases hy : (F.cut x).env.get p with
        | none => rw [hy] at e; rcases e with e | e <;> cases e
        | some y =>
          cases hz : (F.cut x).env.get q with
          | none => rw [hy, hz] at e; rcases e with e | e <;> cases e
          | some z =>
            simp only [hy, hz] at e
            have my := Forest.cut_mutable hm (q := p) (fun y' h' => by rw [hp] at h'; cases h'; exact hm) y hy
            have mz := Forest.cut_mutable hm hq z hz
            split at e
            · split at e <;> rcases e with e | e <;> cases e
            · split at e
              · refine insertAll ps (i + 1) (k1.join mz my) ?_ e
                intro u hu
                rw [Forest.join, Env.get_map, hz] at hu
                cases hu
                simp only [Forest.join, joinLoc]
                split
                · exact mz
                · split <;> exact mz
              · split at e <;> rcases e with e | e <;> cases e
                exact k1

theorem Forest.Keeps.splice {n h : Nat} {t : Tree} {P : List Nat} {q a b : Nat} {ins : List Nat} {F F' : Forest}
    (k : Keeps n t h P F) (e : F.splice q a b ins = .ok F' ∨ F.splice q a b ins = .panic F') : Keeps n t h P F' := by
  rw [Forest.splice] at e
  cases hx : F.env.get q with
  | none => rw [hx] at e; rcases e with e | e <;> cases e
  | some x =>
    simp only [hx] at e
    split at e
    · split at e
      · rcases e with e | e <;> cases e
        exact k.dels _
      next hm =>
        have hm : F.mutable x.1 = true := by simpa using hm
        have hq : ∀ y, F.env.get q = some y → F.mutable y.1 = true := fun y hy => by
          rw [hx] at hy; cases hy; exact hm
        have key : ∀ {F1}, (if a < b ∧ a < F.width x then F.cutAt x.1 x.2 a else F).insertAll q ins a ins = .ok F1 ∨
            (if a < b ∧ a < F.width x then F.cutAt x.1 x.2 a else F).insertAll q ins a ins = .panic F1 → Keeps n t h P F1 := by
          intro F1 h1
          split at h1
          · exact (k.cutAt hm).insertAll _ _ (Forest.cutAt_mutable hm hq) h1
          · exact k.insertAll _ _ hq h1
        generalize Forest.insertAll _ _ _ _ _ = o at e key
        cases o <;> rcases e with e | e <;> cases e
        · exact (key (.inl rfl)).dels ins
        · exact (key (.inr rfl)).dels ins
    · rcases e with e | e <;> cases e

theorem Forest.Keeps.on {n h : Nat} {t : Tree} {P : List Nat} {F F' : Forest} {r : Req} {o : Option (Nat × List Nat)}
    (k : Keeps n t h P F) (e : r.on F = .ok (o, F')) : Keeps n t h P F' := by
  cases r with
  | plant m kd ts => cases e; exact k.plant ..
  | clone p => rw [Req.on] at e; split at e <;> cases e; exact k
  | drop p => rw [Req.on] at e; split at e <;> cases e; exact k.dels _
  | forget p => rw [Req.on] at e; split at e <;> cases e; exact (k.dels _).leak _
  | nav f p =>
    rw [Req.on] at e
    split at e
    · cases e
    · split at e <;> cases e
      exact k
  | toNext b p => rw [Req.on] at e; split at e <;> cases e; exact (k.dels _).leak _
  | cloneSubtree p =>
    rw [Req.on] at e
    split at e
    · cases e
    · split at e <;> cases e
      exact k.plant ..
  | cloneForUpdate p =>
    rw [Req.on] at e
    split at e
    · cases e
    · split at e
      · cases e
      · split at e <;> cases e
        exact k.plant ..
  | detach p =>
    rw [Req.on] at e
    split at e
    · cases e
    · split at e <;> cases e
      next hm => exact k.cut hm
  | splice q a b ins =>
    rw [Req.on] at e
    split at e <;> cases e
    next hs => exact k.splice (.inl hs)
  | attach q i p =>
    rw [Req.on] at e
    split at e <;> cases e
    next hs => exact k.splice (.inl hs)

theorem Forest.Keeps.panicked {n h : Nat} {t : Tree} {P : List Nat} {F F' : Forest} {r : Req} (k : Keeps n t h P F)
    (e : r.on F = .panic F') : Keeps n t h P F' := by
  cases r with
  | plant m kd ts => cases e
  | clone p => rw [Req.on] at e; split at e <;> cases e
  | drop p => rw [Req.on] at e; split at e <;> cases e
  | forget p => rw [Req.on] at e; split at e <;> cases e
  | nav f p =>
    rw [Req.on] at e
    split at e
    · cases e
    · split at e <;> cases e
  | toNext b p => rw [Req.on] at e; split at e <;> cases e
  | cloneSubtree p =>
    rw [Req.on] at e
    split at e
    · cases e
    · split at e <;> cases e
  | cloneForUpdate p =>
    rw [Req.on] at e
    split at e
    · cases e
    · split at e
      · cases e
      · split at e <;> cases e
        exact k
  | detach p =>
    rw [Req.on] at e
    split at e
    · cases e
    · split at e <;> cases e
      exact k
  | splice q a b ins =>
    rw [Req.on] at e
    split at e <;> cases e
    next hs => exact k.splice (.inr hs)
  | attach q i p =>
    rw [Req.on] at e
    split at e <;> cases e
    next hs => exact k.splice (.inr hs)

theorem Forest.Keeps.run {α : Type} {n h : Nat} {t : Tree} {P : List Nat} : ∀ (p : EProg α) {F F' : Forest},
    Keeps n t h P F → (∃ a, p.run F = .ok (a, F')) ∨ p.run F = .panic F' → Keeps n t h P F'
  | .ret _, _, _, k, e => by rcases e with ⟨_, e⟩ | e <;> cases e; exact k
  | .panic, _, _, k, e => by rcases e with ⟨_, e⟩ | e <;> cases e; exact k
  | .diverge, _, _, _, e => by rcases e with ⟨_, e⟩ | e <;> cases e
  | .look q c, F, F', k, e => by
    rw [EProg.run] at e
    split at e
    · rcases e with ⟨_, e⟩ | e <;> cases e
    · split at e
      · rcases e with ⟨_, e⟩ | e <;> cases e
      · exact run _ k e
  | .same q q' c, F, F', k, e => by
    rw [EProg.run] at e
    split at e
    · split at e
      · rcases e with ⟨_, e⟩ | e <;> cases e
      · exact run _ k e
    · rcases e with ⟨_, e⟩ | e <;> cases e
  | .req r c, F, F', k, e => by
    rw [EProg.run] at e
    split at e
    next h1 => exact run _ (k.on h1) e
    next h1 => exact run _ ((k.on h1).add _) e
    next h1 => exact run _ (k.panicked h1) e
    · split at e <;> rcases e with ⟨_, e⟩ | e <;> cases e
    all_goals rcases e with ⟨_, e⟩ | e <;> cases e

/-! ### Taking out and putting back -/

namespace Tree

theorem insertAt_removeAt {t c : Tree} {P : List Nat} {i : Nat} (h : t.at? (P ++ [i]) = some c) :
    (t.removeAt P i).insertAt P i c = t := by
  induction P generalizing t with
  | nil =>
    cases t with
    | token k x => simp [at?_cons, children] at h
    | node k cs =>
      have hi : cs[i]? = some c := by
        rw [at?_snoc] at h
        simpa [children] using h
      obtain ⟨hlt, hc⟩ := List.getElem?_eq_some_iff.mp hi
      rw [removeAt, insertAt, editKids_nil, editKids_nil]
      congr 1
      rw [List.eraseIdx_eq_take_drop_succ, List.take_append_of_le_length (by simp; omega), List.take_take, Nat.min_self,
        List.drop_append_of_le_length (by simp; omega), List.drop_eq_nil_of_le (by simp; omega), List.nil_append, ← hc,
        List.getElem_cons_drop, List.take_append_drop]
  | cons a P ih =>
    cases t with
    | token k x => simp [at?_cons, children] at h
    | node k cs =>
      rw [List.cons_append, at?_cons] at h
      simp only [children] at h
      cases hc : cs[a]? with
      | none => rw [hc] at h; cases h
      | some d =>
        rw [hc, Option.bind_some] at h
        have := ih h
        rw [removeAt, insertAt] at this ⊢
        rw [editKids_cons, editKids_cons]
        congr 1
        apply List.ext_getElem?
        intro j
        rw [List.getElem?_modify, List.getElem?_modify]
        by_cases e : a = j
        · subst e; simp [hc, this]
        · simp [e]

theorem afterInsert_afterCut {P : List Nat} {i : Nat} {Q Q' : List Nat} (h : afterCut P i Q = .stays Q') :
    afterInsert P i Q' = Q := by
  induction P generalizing Q Q' with
  | nil =>
    cases Q with
    | nil => cases h; rfl
    | cons j R =>
      simp only [afterCut] at h
      split at h
      · cases h
      · split at h <;> cases h
        · rw [afterInsert, if_pos (by omega)]; congr 1; omega
        · rw [afterInsert, if_neg (by omega)]
  | cons a P ih =>
    cases Q with
    | nil => cases h; rfl
    | cons b R =>
      simp only [afterCut] at h
      split at h
      next hab =>
        split at h
        next hs => cases h; rw [afterInsert, if_pos hab, ih hs]
        next => cases h
      next hab => cases h; rw [afterInsert, if_neg hab]
end Tree

/-- Where a handle is after an element was taken out and put back. -/
theorem joinLoc_cutLoc {r f i n : Nat} {Q R : List Nat} (hr : r ≠ f) (hn : n ≠ f) :
    joinLoc r f Q i (cutLoc r f Q i n R).1 (cutLoc r f Q i n R).2 = (n, R) := by
  by_cases e : n = r
  · subst e
    simp only [cutLoc, if_true]
    cases hc : Tree.afterCut Q i R with
    | stays Q' => simp [joinLoc, hn, Tree.afterInsert_afterCut hc]
    | cut R' => simp [joinLoc, Tree.afterCut_cut hc]
  · simp [cutLoc, joinLoc, e, hn]

/-- Detach the element of handle `p`, and attach it as child `i` of the node of handle `q`. -/
def Prog.move (p q i : Nat) : EProg Unit :=
  .req (.detach p) fun
    | .done _ => .req (.attach q i p) fun
      | .done _ => .ret ()
      | .panicked => .panic
    | .panicked => .panic

theorem Forest.move_back {F : Forest} {p q r i : Nat} {Q : List Nat} {c : Tree} (hp : F.env.get p = some (r, Q ++ [i]))
    (hq : F.env.get q = some (r, Q)) (hm : F.mutable r = true) (hc : F.sub (r, Q ++ [i]) = some c)
    (hlow : ∀ h x, F.env.get h = some x → x.1 < F.fresh) :
    ∃ F', (Prog.move p q i).run F = .ok ((), F') ∧ F'.env.get p = none ∧ (∀ h, h ≠ p → F'.env.get h = F.env.get h) ∧
      ∀ n, n < F.fresh → F'.tree n = F.tree n ∧ F'.mutable n = F.mutable n := by
  have hrf : r ≠ F.fresh := by have := hlow p _ hp; simp at this; omega
  have hpq : q ≠ p := by
    rintro rfl
    rw [hp] at hq
    have := congrArg List.length (Prod.mk.inj (Option.some.inj hq)).2
    simp at this
  have hcut : F.cut (r, Q ++ [i]) = F.cutAt r Q i := by simp [Forest.cut]
  have hc' := hc
  rw [Forest.sub, Tree.at?_snoc] at hc'
  cases hu : (F.tree r).at? Q with
  | none => rw [hu] at hc'; cases hc'
  | some u =>
    rw [hu, Option.bind_some] at hc'
    cases u with
    | token k x => simp [Tree.children] at hc'
    | node k cs =>
      have hi : i < cs.length := (List.getElem?_eq_some_iff.mp hc').1
      have t1 : (F.cutAt r Q i).tree r = (F.tree r).removeAt Q i := by simp [Forest.cutAt, hrf]
      have s1 : (F.cutAt r Q i).sub (r, Q) = some (.node k (cs.eraseIdx i)) := by
        rw [Forest.sub, t1, Tree.removeAt]
        have := Tree.at?_editKids_above (F.tree r) Q [] (·.eraseIdx i)
        rw [List.append_nil, hu] at this
        rw [this]; simp
      have tf : (F.cutAt r Q i).tree F.fresh = c := by
        rw [Forest.sub] at hc
        simp [Forest.cutAt, hc]
      have gp : (F.cutAt r Q i).env.get p = some (F.fresh, []) := by
        rw [Forest.cutAt, Env.get_map, hp]; simp [cutLoc, Tree.afterCut_here]
      have gq : (F.cutAt r Q i).env.get q = some (r, Q) := by
        rw [Forest.cutAt, Env.get_map, hq]; simp [cutLoc]
      have m1 : (F.cutAt r Q i).mutable r = true := by simp [Forest.cutAt, hrf, hm]
      have m2 : (F.cutAt r Q i).mutable F.fresh = true := by simp [Forest.cutAt, hm]
      have c2 : (F.cutAt r Q i).cut (F.fresh, []) = F.cutAt r Q i := by simp [Forest.cut]
      have hw : i ≤ (F.cutAt r Q i).width (r, Q) := by
        rw [Forest.width, s1]
        simp only [Tree.children, List.length_eraseIdx]
        split <;> omega
      have hsp : (F.cutAt r Q i).splice q i i [p] = .ok (((F.cutAt r Q i).join (r, Q) i F.fresh).dels [p]) := by
        rw [Forest.splice, gq]
        simp only
        rw [if_pos ⟨by rw [Forest.isNode, s1]; rfl, by simp [Env.gets, gp], by simp, by simpa using hpq⟩]
        rw [m1]
        simp only [Bool.true_eq_false, if_false, Nat.lt_irrefl, false_and, if_false]
        rw [Forest.insertAll, gp]
        simp only [m2, Bool.true_eq_false, if_false, c2, gp, gq, hrf, if_pos hw]
        rfl
      refine ⟨((F.cutAt r Q i).join (r, Q) i F.fresh).dels [p], ?_, ?_, ?_, ?_⟩
      · simp only [Prog.move, EProg.run, Req.on, hp, hm, if_true, hcut, hsp]
      · rw [Forest.dels, Env.get_dels]; simp
      · intro h hh
        rw [Forest.dels, Env.get_dels, if_neg (by simpa using hh), Forest.join, Env.get_map, Forest.cutAt, Env.get_map]
        cases hg : F.env.get h with
        | none => rfl
        | some x =>
          obtain ⟨n, R⟩ := x
          have := hlow h _ hg
          simp only [Option.map_some]
          rw [joinLoc_cutLoc hrf (by simp at this; omega)]
      · intro n hn
        have hnf : n ≠ F.fresh := by omega
        constructor
        · simp only [Forest.dels, Forest.join]
          split
          next e =>
            subst e
            rw [t1, tf, Tree.insertAt_removeAt]
            exact hc
          next e => simp [Forest.cutAt, hnf, e]
        · simp [Forest.dels, Forest.join, Forest.cutAt, hnf]

end Rowan
