import Verif.JoinOrder
import Verif.Props.EditWalk
/-!
# Programs of a few editing calls

The definitions in this file are vocabulary of the proofs and model no code.
-/
namespace Rowan
open EProg Forest

namespace Forest
variable {F : Forest}

theorem insertAll_not_wild {q : Nat} {gone : List Nat} : ∀ (ps : List Nat) (i : Nat) (F : Forest), F.insertAll q gone i ps ≠ .wild
  | [], i, F => by rw [insertAll]; nofun
  | p :: ps, i, F => by
    rw [insertAll]
    split
    · nofun
    · split
      · nofun
      · split
        · split
          · split <;> nofun
          · split
            · exact insertAll_not_wild ps _ _
            · split <;> nofun
        · nofun

theorem splice_not_wild (q a b : Nat) (ins : List Nat) : F.splice q a b ins ≠ .wild := by
  rw [splice]
  split
  · nofun
  · split
    · split
      · nofun
      · next x _ _ _ =>
        have := insertAll_not_wild (q := q) (gone := ins) ins a (if a < b ∧ a < F.width x then F.cutAt x.1 x.2 a else F)
        split
        · nofun
        · nofun
        · next o h1 h2 => exact this
    · nofun

/-- A call that the type system accepts. -/
theorem splice_legal {q a b : Nat} {ins : List Nat} (h : F.splice q a b ins ≠ .misuse) :
    ∃ z, F.env.get q = some z ∧ F.isNode z = true ∧ (F.env.gets ins).isSome ∧ ins.Nodup ∧ q ∉ ins := by
  rw [splice] at h
  cases hq : F.env.get q with
  | none => rw [hq] at h; exact absurd rfl h
  | some z =>
    rw [hq] at h
    simp only at h
    by_cases hc : F.isNode z = true ∧ (F.env.gets ins).isSome ∧ ins.Nodup ∧ q ∉ ins
    · exact ⟨z, rfl, hc⟩
    · rw [if_neg hc] at h; exact absurd rfl h

theorem width_sub {z : Nat × List Nat} {a : Nat} (h : a < F.width z) : (F.sub (z.1, z.2 ++ [a])).isSome := by
  rw [width] at h
  cases hs : F.sub z with
  | none => rw [hs] at h; simp at h
  | some t =>
    rw [hs] at h
    simp only at h
    simp only [sub] at hs
    simp only [sub, Tree.at?_snoc, hs, Option.bind_some]
    rw [List.getElem?_eq_getElem h]; rfl
end Forest

namespace EProg
variable {F F' : Forest}

theorem run_splice (F : Forest) (q a b : Nat) (ins : List Nat) : (EProg.splice q a b ins).run F =
    match F.splice q a b ins with
    | .ok F' => .ok ((), F')
    | .panic F' => .panic F'
    | .broken => .broken
    | .wild => .wild
    | .diverge => .diverge
    | .misuse => .misuse := by
  simp only [EProg.splice, run, Req.on]
  cases F.splice q a b ins <;> simp [gaveUp]

theorem run_splice_ok {q a b : Nat} {ins : List Nat} {G : Forest} (h : F.splice q a b ins = .ok G) :
    (EProg.splice q a b ins).run F = .ok ((), G) := by rw [run_splice, h]

theorem splice_run_ok {q a b : Nat} {ins : List Nat} {u : Unit} {G : Forest} (h : (EProg.splice q a b ins).run F = .ok (u, G)) :
    F.splice q a b ins = .ok G := by
  rw [run_splice] at h
  split at h <;> cases h
  assumption

theorem splice_run_legal {q a b : Nat} {ins : List Nat} (h : (EProg.splice q a b ins).run F ≠ .misuse) :
    F.splice q a b ins ≠ .misuse := by
  intro e
  rw [run_splice, e] at h
  exact h rfl

theorem splice_run_not_wild (q a b : Nat) (ins : List Nat) : (EProg.splice q a b ins).run F ≠ .wild := by
  rw [run_splice]
  have := splice_not_wild (F := F) q a b ins
  split <;> first | (next h => exact absurd h this) | nofun

theorem drop_run {h : Nat} {x : Nat × List Nat} (hx : F.env.get h = some x) : (EProg.drop h).run F = .ok ((), F.dels [h]) := by
  simp only [EProg.drop, run, Req.on, hx]

theorem run_detach {h : Nat} {x : Nat × List Nat} (hx : F.env.get h = some x) (hm : F.mutable x.1 = true) :
    (detach h).run F = .ok ((), F.cut x) := by
  simp only [EProg.detach, run, Req.on, hx, hm, if_true]

theorem run_then {α β : Type} {p : EProg α} {a : α} (h : p.run F = .ok (a, F')) (f : α → EProg β) :
    (p >>= f).run F = (f a).run F' := (run_bind f p h).1
end EProg

namespace Forest
variable {F : Forest}

/-- Moving an element to where it is. -/
theorem splice_stay (hF : F.Sound) {c q r i : Nat} {Q : List Nat} (hc : F.env.get c = some (r, Q ++ [i]))
    (hq : F.env.get q = some (r, Q)) (hm : F.mutable r = true) (hqc : q ≠ c) :
    ∃ G, F.splice q i i [c] = .ok G ∧ G.Twin (F.dels [c]) := by
  have hr : r < F.fresh := (hF.get hc).1
  have hrf : r ≠ F.fresh := Nat.ne_of_lt hr
  obtain ⟨t, ht⟩ := Option.isSome_iff_exists.mp (hF.get hc).2
  have hu := ht
  simp only [sub, Tree.at?_snoc] at hu
  cases hs : (F.tree r).at? Q with
  | none => rw [hs] at hu; cases hu
  | some u =>
    rw [hs, Option.bind_some] at hu
    cases u with
    | token k x => simp [Tree.children] at hu
    | node k cs =>
      have hi : i < cs.length := (List.getElem?_eq_some_iff.mp hu).1
      have hn : F.isNode (r, Q) = true := isNode_of_sub (k := k) (cs := cs) hs
      have gq : (F.cut (r, Q ++ [i])).env.get q = some (r, Q) := by
        rw [cut_snoc, Forest.cutAt, Env.get_map, hq]; simp [cutLoc]
      have gc : (F.cut (r, Q ++ [i])).env.get c = some (F.fresh, []) := by
        rw [cut_snoc, Forest.cutAt, Env.get_map, hc]; simp [cutLoc, Tree.afterCut_here]
      have hw : i ≤ (F.cut (r, Q ++ [i])).width (r, Q) := by
        rw [cut_snoc]
        have : (F.cutAt r Q i).sub (r, Q) = some (.node k (cs.eraseIdx i)) := by
          simp only [sub, Forest.cutAt, hrf, if_false, if_true, Tree.removeAt]
          have := Tree.at?_editKids_above (F.tree r) Q [] (·.eraseIdx i)
          rw [List.append_nil, hs] at this
          rw [this]; simp
        rw [width_of_sub this, List.length_eraseIdx]
        split <;> omega
      refine ⟨_, splice_one hq hc hqc hn hm hm gc gq hrf hw, ?_⟩
      rw [cut_snoc]
      exact ⟨id, (join_cut hF hr ht).dels [c]⟩

/-- A detour. -/
theorem splice_detour (hF : F.Sound) {c c' z j : Nat} {x : Nat × List Nat} {F1 : Forest} (hr : F.splice z j j [c] = .ok F1)
    (hx : F.env.get c = some x) (hx' : F.env.get c' = some x) (hcc : c' ≠ c) :
    ∃ x1, F1.env.get c' = some x1 ∧ F1.mutable x1.1 = true ∧ (F1.cut x1).Twin ((F.cut x).dels [c]) ∧ F1.Sound := by
  obtain ⟨zz, x', z', y, k, cs, g1, g2, g3, g4, g5, g6, g7, g8, g9, g10, g11, g12, rfl⟩ := splice_one_ok hr hF
  rw [hx] at g2
  cases g2
  have hF1 := hF.cut (hF.get hx).1 (hF.get hx).2
  have hy' : (F.cut x).env.get c' = some (y, []) := by
    rw [← g7]
    obtain ⟨r, X⟩ := x
    rcases List.eq_nil_or_concat X with rfl | ⟨Q, i, rfl⟩
    · rw [cut_nil, hx, hx']
    · rw [List.concat_eq_append] at hx hx' ⊢
      rw [cut_snoc]
      simp [Forest.cutAt, Env.get_map, hx, hx']
  have gc' : (((F.cut x).join z' j y).dels [c]).env.get c' = some (z'.1, z'.2 ++ [j]) := by
    rw [get_dels_of (by simpa using hcc)]
    simp [Forest.join, Env.get_map, hy', joinLoc]
  have hmy : (F.cut x).mutable y = (F.cut x).mutable z'.1 := by
    obtain ⟨w, h1, h2⟩ := get_cut (x := x) hx
    rw [g7] at h1
    cases h1
    rw [g12]
    exact (h2 (hF.get hx).1 (hF.get hx).1).trans g6
  have hS : (((F.cut x).join z' j y).dels [c]).Sound := fun e he =>
    (hF1.join (hF1.get g8).1 g10 g11 g9) e (Env.mem_dels he)
  refine ⟨_, gc', g12, ?_, hS⟩
  rw [cut_snoc, ← EProg.cutAt_dels]
  exact ⟨_, (cut_join hF1 g8 g7 g9 g10 g11 hmy).dels [c]⟩

theorem Sound.dels (hF : F.Sound) (hs : List Nat) : (F.dels hs).Sound := fun e he => hF e (Env.mem_dels he)

/-- A move, in forests that differ in the numbers of trees. -/
theorem splice_twin {F1 F2 : Forest} (hF1 : F1.Sound) {q c i : Nat} {x1 x2 : Nat × List Nat} (h1 : F1.env.get c = some x1)
    (h2 : F2.env.get c = some x2) (ht : (F1.cut x1).Twin (F2.cut x2)) {z1 : Nat × List Nat} (hz1 : F1.env.get q = some z1)
    (hn : F1.isNode z1 = true) (hm : F1.mutable z1.1 = true) (hm1 : F1.mutable x1.1 = true) {G : Forest}
    (hG : F2.splice q i i [c] = .ok G) (hF2 : F2.Sound) : ∃ G1, F1.splice q i i [c] = .ok G1 ∧ G1.Twin G := by
  obtain ⟨z, x, z', y, k, cs, g1, g2, g3, g4, g5, g6, g7, g8, g9, g10, g11, g12, rfl⟩ := splice_one_ok hG hF2
  rw [h2] at g2
  cases g2
  obtain ⟨σ, hσ⟩ := ht
  obtain ⟨y1, hy1⟩ := get_cut_self h1
  obtain ⟨z1', k1, k2, k3⟩ := get_cut_node hF1 h1 hz1 hn
  have e1 := hσ.get c
  rw [hy1, g7] at e1
  have e1 : (y, []) = (σ y1, []) := Option.some.inj e1
  have e2 := hσ.get q
  rw [k1, g8] at e2
  have e2 : z' = (σ z1'.1, z1'.2) := Option.some.inj e2
  have ey : y = σ y1 := (Prod.mk.inj e1).1
  have hne : z1'.1 ≠ y1 := by
    intro e
    apply g9
    rw [e2, ey, e]
  have hsub : (F1.cut x1).sub z1' = some (.node k cs) := by
    rw [← g10, e2]
    simp only [sub]
    rw [hσ.tree _ (Env.get_mem k1)]
  refine ⟨_, splice_one hz1 h1 g3 hn hm hm1 hy1 k1 hne (by rw [width_of_sub hsub]; exact g11), ?_⟩
  rw [ey, e2]
  exact ⟨σ, (hσ.join k1 hy1).dels [c]⟩

/-- A node is still a node after a move. -/
theorem splice_keeps (hF : F.Sound) {c z j q : Nat} {F1 : Forest} (h1 : F.splice z j j [c] = .ok F1) (hqc : q ∉ [c])
    {zq : Nat × List Nat} (hq : F.env.get q = some zq) (hn : F.isNode zq = true) (hm : F.mutable zq.1 = true) :
    ∃ z1, F1.env.get q = some z1 ∧ F1.isNode z1 = true ∧ F1.mutable z1.1 = true := by
  obtain ⟨zz, x', z', y, k, cs, g1, g2, g3, g4, g5, g6, g7, g8, g9, g10, g11, g12, rfl⟩ := splice_one_ok h1 hF
  obtain ⟨zq', e1, e2, e3⟩ := get_cut_node hF g2 hq hn
  refine ⟨joinLoc z'.1 y z'.2 j zq'.1 zq'.2, ?_, ?_, ?_⟩
  · rw [get_dels_of hqc]
    simp [Forest.join, Env.get_map, e1]
  · rw [isNode_dels]
    obtain ⟨k', cs', e4⟩ := isNode_sub e2
    by_cases hzz : z' = zq'
    · subst hzz
      have : joinLoc z'.1 y z'.2 j z'.1 z'.2 = z' := by simp [joinLoc, g9, Tree.afterInsert_self]
      rw [this]
      exact isNode_of_sub (join_sub _ g10)
    · obtain ⟨ds, e5, -⟩ := join_width (i := j) g9 hzz g10 g11 e4
      exact isNode_of_sub e5
  · show (F.cut x').mutable (joinLoc z'.1 y z'.2 j zq'.1 zq'.2).1 = true
    simp only [joinLoc]
    split
    · exact g12
    · split
      · exact g12
      · exact e3.trans hm

/-- An element is moved twice. -/
theorem splice_move_twice (hF : F.Sound) {c c' z j q i : Nat} {x : Nat × List Nat} {F1 F2 : Forest}
    (h1 : F.splice z j j [c] = .ok F1) (h2 : (F.dels [c]).splice q i i [c'] = .ok F2) (hx : F.env.get c = some x)
    (hx' : F.env.get c' = some x) (hcc : c' ≠ c) : ∃ G, F1.splice q i i [c'] = .ok G ∧ G.Twin F2 := by
  obtain ⟨x1, g1, g2, g3, g4⟩ := splice_detour hF h1 hx hx' hcc
  have hS := hF.dels [c]
  have gc' : (F.dels [c]).env.get c' = some x := by rw [get_dels_of (by simpa using hcc)]; exact hx'
  obtain ⟨zq, -, q1, q2, q3, -⟩ := splice_ok h2
  have hqc : q ≠ c := by
    rintro rfl
    simp [Forest.dels, Env.get_dels] at q1
  rw [get_dels_of (by simpa using hqc)] at q1
  obtain ⟨z1, k1, k2, k3⟩ := splice_keeps hF h1 (by simpa using hqc) q1 q2 q3
  exact splice_twin g4 g1 gc' (by rw [cut_dels]; exact g3) k1 k2 k3 g2 h2 hS

theorem TwinBy.symm {G : Forest} (h : TwinBy id F G) (hf : F.fresh = G.fresh) : TwinBy id G F := by
  have e : G.env = F.env := by rw [h.env]; simp [Env.map]
  refine ⟨by rw [e]; simp [Env.map], h.leaked.symm, fun _ _ _ _ h => h, ?_, ?_, ?_⟩ <;> rw [e]
  · exact fun e he => (h.tree e he).symm
  · exact fun e he => (h.mutable e he).symm
  · exact fun e he => hf ▸ h.low e he

theorem dels_swap (F : Forest) (a b : Nat) : (F.dels [a]).dels [b] = (F.dels [b]).dels [a] := by
  rw [dels_dels, dels_dels]
  simp only [Forest.dels, Env.dels]
  congr 2
  apply List.filter_congr
  intro x _
  simp only [List.contains_eq_mem, List.cons_append, List.nil_append, List.mem_cons, List.not_mem_nil, or_false]
  simp only [Or.comm]

/-- A root is moved. -/
theorem splice_root {q c a y : Nat} {z : Nat × List Nat} (hq : F.env.get q = some z) (hc : F.env.get c = some (y, []))
    (hqc : q ≠ c) (hn : F.isNode z = true) (hm : F.mutable z.1 = true) (hmc : F.mutable y = true) (hne : z.1 ≠ y)
    (ha : a ≤ F.width z) : F.splice q a a [c] = .ok ((F.join z a y).dels [c]) := by
  have := splice_one (x := (y, [])) (z' := z) (y := y) (a := a) hq hc hqc hn hm hmc (by rw [cut_nil]; exact hc) (by rw [cut_nil]; exact hq)
    hne (by rw [cut_nil]; exact ha)
  rw [cut_nil] at this
  exact this

theorem splice_root_ok {q c a y : Nat} {z : Nat × List Nat} (hF : F.Sound) (hq : F.env.get q = some z)
    (hc : F.env.get c = some (y, [])) {F' : Forest} (h : F.splice q a a [c] = .ok F') :
    q ≠ c ∧ F.mutable z.1 = true ∧ F.mutable y = true ∧ z.1 ≠ y ∧ (∃ k cs, F.sub z = some (.node k cs) ∧ a ≤ cs.length) ∧
      F' = (F.join z a y).dels [c] := by
  obtain ⟨z1, x, z', y1, k, cs, g1, g2, g3, g4, g5, g6, g7, g8, g9, g10, g11, g12, rfl⟩ := splice_one_ok h hF
  rw [hq] at g1
  cases g1
  rw [hc] at g2
  cases g2
  rw [cut_nil] at g7 g8 g10
  rw [hc] at g7
  cases g7
  rw [hq] at g8
  cases g8
  exact ⟨g3, g5, g6, g9, ⟨k, cs, g10, g11⟩, by rw [cut_nil]⟩

theorem join_root {z : Nat × List Nat} {i y y' c : Nat} (hc : F.env.get c = some (y', [])) (hyy : y ≠ y') :
    (F.join z i y).env.get c = some (y', []) := by
  simp only [Forest.join, Env.get_map, hc, Option.map_some, joinLoc, Ne.symm hyy, if_false]
  split
  · next h => rw [← h]; simp
  · rfl

theorem join_sub_token {z z' : Nat × List Nat} {i y : Nat} {k k' : SyntaxKind} {cs : List Tree} {x : List Char}
    (hz : F.sub z = some (.node k cs)) (hi : i ≤ cs.length) (hz' : F.sub z' = some (.token k' x)) :
    (F.join z i y).sub (joinLoc z.1 y z.2 i z'.1 z'.2) = some (.token k' x) := by
  obtain ⟨r, P⟩ := z
  obtain ⟨r', P'⟩ := z'
  simp only [joinLoc]
  split
  · next h =>
    subst h
    simp only [sub, Forest.join, if_true]
    rw [Tree.at?_insertAt_here hz hi]
    exact hz'
  · split
    · next h' =>
      subst h'
      simp only [sub, Forest.join, if_true] at hz hz' ⊢
      by_cases hp : P' <+: P
      · obtain ⟨R, hR⟩ := hp
        rw [← hR, Tree.at?_append, hz', Option.bind_some] at hz
        cases R with
        | nil => simp [Tree.at?] at hz
        | cons j S => simp [Tree.at?, Tree.children] at hz
      · rw [Tree.at?_insertAt hp hz']
    · next h' =>
      simp only [sub, Forest.join, h', if_false] at hz' ⊢
      exact hz'

/-- Two roots are moved, in one order and in the other one. -/
theorem splice_swap (hF : F.Sound) {q q' c c' i i' y y' : Nat} {z z' : Nat × List Nat} (hq : F.env.get q = some z)
    (hq' : F.env.get q' = some z') (hc : F.env.get c = some (y, [])) (hc' : F.env.get c' = some (y', [])) (hyy : y ≠ y')
    (hzz : z ≠ z') (hqc : q ≠ c') {F1 F2 : Forest} (h1 : F.splice q i i [c] = .ok F1) (h2 : F1.splice q' i' i' [c'] = .ok F2) :
    ∃ G1 G2, F.splice q' i' i' [c'] = .ok G1 ∧ G1.splice q i i [c] = .ok G2 ∧ G2.Twin F2 := by
  obtain ⟨a1, a2, a3, a4, ⟨k, cs, a5, a6⟩, rfl⟩ := splice_root_ok hF hq hc h1
  have hcc : c ≠ c' := by
    rintro rfl
    rw [hc] at hc'; cases hc'; exact hyy rfl
  have hzl := (hF.get hq).1
  have hzl' := (hF.get hq').1
  have hq'c : q' ≠ c := by
    rintro rfl
    obtain ⟨z1, -, g1, -⟩ := splice_ok h2
    simp [Forest.dels, Env.get_dels] at g1
  have hS := (hF.join hzl a5 a6 a4).dels [c]
  have gq' : ((F.join z i y).dels [c]).env.get q' = some (joinLoc z.1 y z.2 i z'.1 z'.2) := by
    rw [get_dels_of (by simpa using hq'c)]
    simp [Forest.join, Env.get_map, hq']
  have gc' : ((F.join z i y).dels [c]).env.get c' = some (y', []) := by
    rw [get_dels_of (by simpa using hcc.symm)]
    exact join_root hc' hyy
  obtain ⟨b1, b2, b3, b4, ⟨k', ds, b5, b6⟩, rfl⟩ := splice_root_ok hS gq' gc' h2
  rw [sub_dels] at b5
  have hnode' : ∃ cs', F.sub z' = some (.node k' cs') ∧ ds.length = cs'.length := by
    obtain ⟨t, ht⟩ := Option.isSome_iff_exists.mp (hF.get hq').2
    cases t with
    | node k2 cs2 =>
      obtain ⟨ds', e1, e2⟩ := join_width (i := i) a4 hzz a5 a6 ht
      rw [b5] at e1
      cases e1
      exact ⟨cs2, ht, e2⟩
    | token k2 tx =>
      exfalso
      have key := join_sub_token (F := F) (i := i) (y := y) a5 a6 ht
      rw [b5] at key
      cases key
  obtain ⟨cs', e1, e2⟩ := hnode'
  have hz'y' : z'.1 ≠ y' := by
    intro e
    apply b4
    simp only [joinLoc]
    rw [if_neg (by rw [e]; exact Ne.symm hyy)]
    split
    · next h => exact h.symm.trans e
    · exact e
  have hcyc : ¬ (z'.1 = y ∧ z.1 = y') := by
    rintro ⟨f1, f2⟩
    apply b4
    simp only [joinLoc]
    rw [if_pos f1]
    exact f2
  have b3' : F.mutable y' = true := b3
  have m' : F.mutable z'.1 = true := by
    have : F.mutable (joinLoc z.1 y z.2 i z'.1 z'.2).1 = true := b2
    simp only [joinLoc] at this
    by_cases f1 : z'.1 = y
    · rw [f1]; exact a3
    · rw [if_neg f1] at this
      by_cases f2 : z'.1 = z.1
      · rw [f2]; exact a2
      · rw [if_neg f2] at this; exact this
  have hq'c' : q' ≠ c' := b1
  have w' : i' ≤ F.width z' := by rw [width_of_sub e1]; omega
  refine ⟨_, ((F.join z' i' y').dels [c']).join (joinLoc z'.1 y' z'.2 i' z.1 z.2) i y |>.dels [c],
    splice_root hq' hc' hq'c' (isNode_of_sub e1) m' b3' hz'y' w', ?_, ?_⟩
  · obtain ⟨ds', f1, f2⟩ := join_width (i := i') hz'y' (Ne.symm hzz) e1 (by omega) a5
    apply splice_root
    · rw [get_dels_of (by simpa using hqc)]
      simp [Forest.join, Env.get_map, hq]
    · rw [get_dels_of (by simpa using hcc)]
      exact join_root hc (Ne.symm hyy)
    · exact a1
    · rw [isNode_dels]; exact isNode_of_sub f1
    · show F.mutable (joinLoc z'.1 y' z'.2 i' z.1 z.2).1 = true
      simp only [joinLoc]
      split
      · exact m'
      · split
        · exact m'
        · exact a2
    · exact a3
    · intro e
      simp only [joinLoc] at e
      by_cases f1 : z.1 = y'
      · rw [if_pos f1] at e; exact hcyc ⟨e, f1⟩
      · rw [if_neg f1] at e
        split at e
        · next f2 => exact a4 (f2.trans e)
        · exact a4 e
    · rw [width_dels, width_of_sub f1]; omega
  · rw [join_dels, join_dels, dels_swap]
    exact ⟨id, ((join_join hF hzl' hzl (Ne.symm hyy) hz'y' a4 (fun h => hcyc ⟨h.2, h.1⟩) (Ne.symm hzz) e1 (by omega) a5
      a6).dels [c]).dels [c']⟩

/-- Two roots are moved into the same node. -/
theorem splice_swap_same (hF : F.Sound) {q c c' i i' y y' : Nat} {z : Nat × List Nat} (hq : F.env.get q = some z)
    (hc : F.env.get c = some (y, [])) (hc' : F.env.get c' = some (y', [])) (hyy : y ≠ y') (hii : i ≤ i') {F1 F2 : Forest}
    (h1 : F.splice q i' i' [c'] = .ok F1) (h2 : F1.splice q i i [c] = .ok F2) :
    ∃ G1 G2, F.splice q i i [c] = .ok G1 ∧ G1.splice q (i' + 1) (i' + 1) [c'] = .ok G2 ∧ G2.Twin F2 := by
  obtain ⟨a1, a2, a3, a4, ⟨k, cs, a5, a6⟩, rfl⟩ := splice_root_ok hF hq hc' h1
  have hcc : c ≠ c' := by
    rintro rfl
    rw [hc] at hc'; cases hc'; exact hyy rfl
  have hzl := (hF.get hq).1
  have hS := (hF.join hzl a5 a6 a4).dels [c']
  have gq : ((F.join z i' y').dels [c']).env.get q = some z := by
    rw [get_dels_of (by simpa using a1)]; exact join_get hq a4
  have gc : ((F.join z i' y').dels [c']).env.get c = some (y, []) := by
    rw [get_dels_of (by simpa using hcc)]; exact join_root hc (Ne.symm hyy)
  obtain ⟨b1, b2, b3, b4, -, rfl⟩ := splice_root_ok hS gq gc h2
  have b3' : F.mutable y = true := b3
  refine ⟨_, ((F.join z i y).dels [c]).join z (i' + 1) y' |>.dels [c'],
    splice_root hq hc b1 (isNode_of_sub a5) a2 b3' b4 (by rw [width_of_sub a5]; omega), ?_, ?_⟩
  · apply splice_root
    · rw [get_dels_of (by simpa using b1)]; exact join_get hq b4
    · rw [get_dels_of (by simpa using hcc.symm)]; exact join_root hc' hyy
    · exact a1
    · rw [isNode_dels]; exact isNode_of_sub (join_sub F a5)
    · exact a2
    · exact a3
    · exact a4
    · rw [width_dels, width_of_sub (join_sub F a5)]
      simp only [List.length_append, List.length_take, List.length_cons, List.length_drop]; omega
  · rw [join_dels, join_dels, dels_swap]
    exact ⟨id, (((join_same hF hzl hyy b4 a4 hii a5 a6).symm rfl).dels [c']).dels [c]⟩

end Forest
end Rowan
