import Verif.Twin
import Verif.EditWalkLoop
/-!
# Runs of `splice`

The definitions in this file are vocabulary of the proofs and model no code.
-/
namespace Rowan

theorem Tree.isNode_without (t : Tree) (g : List Nat → Bool) : (t.without g).isNode = t.isNode := by
  cases t <;> simp [Tree.without, Tree.isNode]

theorem Tree.afterInsert_off : ∀ {Q X : List Nat} {i : Nat}, (¬ ∃ j R, X = Q ++ j :: R) → Tree.afterInsert Q i X = X
  | [], [], _, _ => by simp [Tree.afterInsert]
  | [], j :: R, _, h => absurd ⟨j, R, rfl⟩ h
  | _ :: _, [], _, _ => by simp [Tree.afterInsert]
  | a :: Q, b :: X, i, h => by
    rw [Tree.afterInsert]
    split
    next hab =>
      subst hab
      rw [afterInsert_off (Q := Q) (X := X) fun ⟨j, R, e⟩ => h ⟨j, R, by rw [e]; rfl⟩]
    · rfl

namespace Forest
variable {F G : Forest}

theorem isNode_sub {x : Nat × List Nat} (h : F.isNode x = true) : ∃ k cs, F.sub x = some (.node k cs) := by
  rw [isNode] at h
  cases hs : F.sub x with
  | none => rw [hs] at h; cases h
  | some t =>
    cases t with
    | token k x => rw [hs] at h; cases h
    | node k cs => exact ⟨k, cs, rfl⟩

theorem isNode_of_sub {x : Nat × List Nat} {k : SyntaxKind} {cs : List Tree} (h : F.sub x = some (.node k cs)) :
    F.isNode x = true := by rw [isNode, h]; rfl

theorem width_of_sub {x : Nat × List Nat} {k : SyntaxKind} {cs : List Tree} (h : F.sub x = some (.node k cs)) :
    F.width x = cs.length := by rw [width, h]; rfl

theorem cut_nil (F : Forest) (r : Nat) : F.cut (r, []) = F := by simp [cut]

/-- An element that was cut is a root. -/
theorem get_cut_self {c : Nat} {x : Nat × List Nat} (hx : F.env.get c = some x) : ∃ y, (F.cut x).env.get c = some (y, []) := by
  obtain ⟨r, X⟩ := x
  rcases List.eq_nil_or_concat X with rfl | ⟨Q, i, rfl⟩
  · exact ⟨r, by rw [cut_nil]; exact hx⟩
  · rw [List.concat_eq_append] at hx ⊢
    rw [cut_snoc]
    exact ⟨F.fresh, by simp [cutAt, Env.get_map, hx, cutLoc, Tree.afterCut_here]⟩

/-- A node stays a node when something is cut, and its tree stays mutable. -/
theorem get_cut_node (hF : F.Sound) {c q : Nat} {x z : Nat × List Nat} (hx : F.env.get c = some x) (hz : F.env.get q = some z)
    (hn : F.isNode z = true) : ∃ z', (F.cut x).env.get q = some z' ∧ (F.cut x).isNode z' = true ∧
      (F.cut x).mutable z'.1 = F.mutable z.1 := by
  obtain ⟨k, cs, hs⟩ := isNode_sub hn
  obtain ⟨z', h1, h2⟩ := get_cut (x := x) hz
  have hcut : F.cuts [c] = F.cut x := by simp [cuts, hx]
  obtain ⟨z'', h3, h4, -⟩ := cuts_sub (hs := [c]) hF hz hs
  rw [hcut] at h3 h4
  rw [h1] at h3
  cases h3
  refine ⟨z', h1, ?_, h2 (hF.get hz).1 (hF.get hx).1⟩
  rw [isNode, h4]
  simp only
  rw [Tree.isNode_without]; rfl

theorem gets_cut (F : Forest) (x : Nat × List Nat) (hs : List Nat) : ((F.cut x).env.gets hs).isSome = (F.env.gets hs).isSome := by
  rw [Bool.eq_iff_iff, Env.gets_isSome, Env.gets_isSome]
  obtain ⟨r, X⟩ := x
  rcases List.eq_nil_or_concat X with rfl | ⟨Q, i, rfl⟩
  · rw [cut_nil]
  · rw [List.concat_eq_append, cut_snoc]
    simp [cutAt, Env.get_map]

theorem Sound.join (hF : F.Sound) {z : Nat × List Nat} {i y : Nat} {k : SyntaxKind} {cs : List Tree} (hzl : z.1 < F.fresh)
    (hz : F.sub z = some (.node k cs)) (hi : i ≤ cs.length) (hne : z.1 ≠ y) : (F.join z i y).Sound := by
  intro e he
  obtain ⟨⟨m, n, X⟩, he', rfl⟩ := List.mem_map.mp he
  obtain ⟨h1, h2⟩ := hF _ he'
  simp only at h1 h2
  simp only [joinLoc]
  split
  · next hy =>
    refine ⟨hzl, ?_⟩
    subst hy
    simp only [sub, Forest.join, if_true]
    rw [Tree.at?_insertAt_here hz hi]
    exact h2
  · next hy =>
    split
    · next hz' =>
      subst hz'
      refine ⟨hzl, ?_⟩
      simp only [sub, Forest.join, if_true]
      obtain ⟨u, hu⟩ := Option.isSome_iff_exists.mp h2
      by_cases hp : X <+: z.2
      · obtain ⟨Z, hZ⟩ := hp
        have hoff : Tree.afterInsert z.2 i X = X := Tree.afterInsert_off fun ⟨j, R, e⟩ => by
          have := congrArg List.length e
          rw [← hZ] at this
          simp at this
        rw [hoff, Tree.insertAt, ← hZ, Tree.at?_editKids_above]
        rw [sub] at hu
        rw [hu]; rfl
      · rw [Tree.at?_insertAt hp hu]; rfl
    · next hz' =>
      refine ⟨h1, ?_⟩
      rw [sub]
      simp only [Forest.join, hz', if_false]
      exact h2

/-- The node into which something was put. -/
theorem join_sub (F : Forest) {z : Nat × List Nat} {i y : Nat} {k : SyntaxKind} {cs : List Tree}
    (hz : F.sub z = some (.node k cs)) : (F.join z i y).sub z = some (.node k (cs.take i ++ F.tree y :: cs.drop i)) := by
  simp only [sub, Forest.join, if_true]
  have := Tree.at?_editKids_above (F.tree z.1) z.2 [] (fun cs => cs.take i ++ F.tree y :: cs.drop i)
  rw [List.append_nil] at this
  rw [Tree.insertAt, this]
  rw [sub] at hz
  rw [hz]; simp

/-- A handle on the node into which something was put. -/
theorem join_get {z : Nat × List Nat} {i y q : Nat} (hq : F.env.get q = some z) (hne : z.1 ≠ y) :
    (F.join z i y).env.get q = some z := by
  simp [Forest.join, Env.get_map, hq, joinLoc, hne, Tree.afterInsert_self]

/-- The handles passed by value are gone. -/
def after (ins : List Nat) : FOut Forest → FOut Forest
  | .ok F => .ok (F.dels ins)
  | .panic F => .panic (F.dels ins)
  | o => o

theorem splice_eq {q a b : Nat} {ins : List Nat} {z : Nat × List Nat} (hq : F.env.get q = some z) (hn : F.isNode z = true)
    (hm : F.mutable z.1 = true) (hi : (F.env.gets ins).isSome) (hd : ins.Nodup) (hqi : q ∉ ins) :
    F.splice q a b ins = after ins ((if a < b ∧ a < F.width z then F.cutAt z.1 z.2 a else F).insertAll q ins a ins) := by
  rw [splice, hq]
  simp only
  rw [if_pos ⟨hn, hi, hd, hqi⟩, hm]
  simp only [Bool.true_eq_false, if_false]
  cases (if a < b ∧ a < F.width z then F.cutAt z.1 z.2 a else F).insertAll q ins a ins <;> rfl

theorem splice_ok {q a b : Nat} {ins : List Nat} {F' : Forest} (h : F.splice q a b ins = .ok F') :
    ∃ z G, F.env.get q = some z ∧ F.isNode z = true ∧ F.mutable z.1 = true ∧ (F.env.gets ins).isSome ∧ ins.Nodup ∧ q ∉ ins ∧
      (if a < b ∧ a < F.width z then F.cutAt z.1 z.2 a else F).insertAll q ins a ins = .ok G ∧ F' = G.dels ins := by
  cases hq : F.env.get q with
  | none => rw [splice, hq] at h; cases h
  | some z =>
    by_cases hc : F.isNode z = true ∧ (F.env.gets ins).isSome ∧ ins.Nodup ∧ q ∉ ins
    · obtain ⟨h1, h2, h3, h4⟩ := hc
      cases hm : F.mutable z.1 with
      | false =>
        rw [splice, hq] at h
        simp only at h
        rw [if_pos ⟨h1, h2, h3, h4⟩, if_pos hm] at h
        cases h
      | true =>
        rw [splice_eq hq h1 hm h2 h3 h4] at h
        cases hr : (if a < b ∧ a < F.width z then F.cutAt z.1 z.2 a else F).insertAll q ins a ins with
        | ok G => rw [hr] at h; cases h; exact ⟨z, G, rfl, h1, hm, h2, h3, h4, hr, rfl⟩
        | _ => rw [hr] at h; cases h
    · rw [splice, hq] at h
      simp only at h
      rw [if_neg hc] at h
      cases h

theorem insertAll_step {q i p : Nat} {gone ps : List Nat} {x z : Nat × List Nat} {y : Nat} (hp : F.env.get p = some x)
    (hm : F.mutable x.1 = true) (hy : (F.cut x).env.get p = some (y, [])) (hz : (F.cut x).env.get q = some z) (hne : z.1 ≠ y)
    (hi : i ≤ (F.cut x).width z) : F.insertAll q gone i (p :: ps) = ((F.cut x).join z i y).insertAll q gone (i + 1) ps := by
  rw [insertAll, hp]
  simp only [hm, Bool.true_eq_false, if_false, hy, hz, hne, if_pos hi]

theorem insertAll_ok (hF : F.Sound) {q i p : Nat} {gone ps : List Nat} {z : Nat × List Nat} {F' : Forest} (hq : F.env.get q = some z)
    (hn : F.isNode z = true) (h : F.insertAll q gone i (p :: ps) = .ok F') :
    ∃ x z' y k cs, F.env.get p = some x ∧ F.mutable x.1 = true ∧ (F.cut x).env.get p = some (y, []) ∧
      (F.cut x).env.get q = some z' ∧ z'.1 ≠ y ∧ (F.cut x).sub z' = some (.node k cs) ∧ i ≤ cs.length ∧
      (F.cut x).mutable z'.1 = F.mutable z.1 ∧ ((F.cut x).join z' i y).insertAll q gone (i + 1) ps = .ok F' := by
  rw [insertAll] at h
  cases hc : F.env.get p with
  | none => rw [hc] at h; cases h
  | some x =>
    rw [hc] at h
    simp only at h
    obtain ⟨z', h1, h2, h3⟩ := get_cut_node hF hc hq hn
    obtain ⟨y, hy⟩ := get_cut_self hc
    rw [h1, hy] at h
    cases hmc : F.mutable x.1 with
    | false => rw [hmc] at h; cases h
    | true =>
      rw [hmc] at h
      simp only [Bool.true_eq_false, if_false] at h
      obtain ⟨k, cs, hs⟩ := isNode_sub h2
      split at h
      · split at h <;> cases h
      · next hne =>
        split at h
        · next ha =>
          rw [width_of_sub hs] at ha
          exact ⟨x, z', y, k, cs, rfl, hmc, hy, h1, hne, hs, ha, h3, h⟩
        · split at h <;> cases h

/-- When does one element move? -/
theorem splice_one_ok {q c a : Nat} {F' : Forest} (h : F.splice q a a [c] = .ok F') (hF : F.Sound) :
    ∃ z x z' y k cs, F.env.get q = some z ∧ F.env.get c = some x ∧ q ≠ c ∧ F.isNode z = true ∧ F.mutable z.1 = true ∧
      F.mutable x.1 = true ∧ (F.cut x).env.get c = some (y, []) ∧ (F.cut x).env.get q = some z' ∧ z'.1 ≠ y ∧
      (F.cut x).sub z' = some (.node k cs) ∧ a ≤ cs.length ∧ (F.cut x).mutable z'.1 = true ∧
      F' = ((F.cut x).join z' a y).dels [c] := by
  obtain ⟨z, G, h1, h2, h3, h4, -, h5, h6, rfl⟩ := splice_ok h
  simp only [Nat.lt_irrefl, false_and, if_false] at h6
  obtain ⟨x, z', y, k, cs, g1, g2, g3, g4, g5, g6, g7, g8, g9⟩ := insertAll_ok hF h1 h2 h6
  rw [insertAll] at g9
  cases g9
  exact ⟨z, x, z', y, k, cs, h1, g1, by simpa using h5, h2, h3, g2, g3, g4, g5, g6, g7, g8.trans h3, rfl⟩

/-- One element is moved. -/
theorem splice_one {q c a : Nat} {x z z' : Nat × List Nat} {y : Nat} (hq : F.env.get q = some z)
    (hc : F.env.get c = some x) (hqc : q ≠ c) (hn : F.isNode z = true) (hm : F.mutable z.1 = true) (hmc : F.mutable x.1 = true)
    (hy : (F.cut x).env.get c = some (y, [])) (hz' : (F.cut x).env.get q = some z') (hne : z'.1 ≠ y)
    (ha : a ≤ (F.cut x).width z') : F.splice q a a [c] = .ok (((F.cut x).join z' a y).dels [c]) := by
  rw [splice_eq hq hn hm (by simp [Env.gets, hc]) (by simp) (by simpa using hqc)]
  simp only [Nat.lt_irrefl, false_and, if_false]
  rw [insertAll_step hc hmc hy hz' hne ha]
  rfl

/-! ### Detach first -/

theorem insertAll_cut {q c a : Nat} {gone cs : List Nat} {x : Nat × List Nat} (hF : F.Sound) (hc : F.env.get c = some x)
    (hm : F.mutable x.1 = true) : (F.cut x).insertAll q gone a (c :: cs) = F.insertAll q gone a (c :: cs) := by
  obtain ⟨y, hy⟩ := get_cut_self hc
  obtain ⟨y', h1, h2⟩ := get_cut (x := x) hc
  rw [hy] at h1
  cases h1
  have hm' : (F.cut x).mutable y = true := by rw [h2 (hF.get hc).1 (hF.get hc).1]; exact hm
  rw [insertAll, insertAll, hc, hy]
  simp only [hm, hm', cut_nil, Bool.true_eq_false, if_false]

/-- The first of the elements can be detached before. -/
theorem splice_cut {q c a : Nat} {cs : List Nat} {x z : Nat × List Nat} (hF : F.Sound) (hq : F.env.get q = some z)
    (hn : F.isNode z = true) (hm : F.mutable z.1 = true) (hc : F.env.get c = some x) (hmc : F.mutable x.1 = true)
    (hi : (F.env.gets (c :: cs)).isSome) (hd : (c :: cs).Nodup) (hqc : q ∉ c :: cs) :
    (F.cut x).splice q a a (c :: cs) = F.splice q a a (c :: cs) := by
  obtain ⟨z', h1, h2, h3⟩ := get_cut_node hF hc hq hn
  rw [splice_eq hq hn hm hi hd hqc, splice_eq h1 h2 (h3.trans hm) (by rw [gets_cut]; exact hi) hd hqc]
  simp only [Nat.lt_irrefl, false_and, if_false]
  rw [insertAll_cut hF hc hmc]

/-! ### Delete, then insert -/

theorem splice_delete {q a b d : Nat} {ins : List Nat} {z : Nat × List Nat} (hF : F.Sound) (hq : F.env.get q = some z)
    (hn : F.isNode z = true) (hm : F.mutable z.1 = true) (hd : F.env.get d = some (z.1, z.2 ++ [a])) (hab : a < b)
    (hi : (F.env.gets ins).isSome) (hdd : ins.Nodup) (hqi : q ∉ ins) :
    (F.cut (z.1, z.2 ++ [a])).splice q a a ins = F.splice q a b ins := by
  obtain ⟨z', h1, h2, h3⟩ := get_cut_node hF hd hq hn
  obtain ⟨k, cs, hs⟩ := isNode_sub hn
  have hw : a < F.width z := by
    have := (hF.get hd).2
    simp only [sub, Tree.at?_snoc] at this
    simp only [sub] at hs
    rw [hs] at this
    rw [width_of_sub (by simpa only [sub] using hs)]
    simp only [Option.bind_some, Tree.children] at this
    obtain ⟨c, hc⟩ := Option.isSome_iff_exists.mp this
    exact (List.getElem?_eq_some_iff.mp hc).1
  rw [splice_eq hq hn hm hi hdd hqi, splice_eq h1 h2 (h3.trans hm) (by rw [gets_cut]; exact hi) hdd hqi,
    if_pos (⟨hab, hw⟩ : a < b ∧ a < F.width z), if_neg (fun h => absurd h.1 (Nat.lt_irrefl _)), cut_snoc]

/-! ### One after the other -/

theorem cut_dels (F : Forest) (x : Nat × List Nat) (hs : List Nat) : (F.dels hs).cut x = (F.cut x).dels hs := by
  obtain ⟨r, X⟩ := x
  rcases List.eq_nil_or_concat X with rfl | ⟨Q, i, rfl⟩
  · rw [cut_nil, cut_nil]
  · rw [List.concat_eq_append, cut_snoc, cut_snoc, EProg.cutAt_dels]

theorem join_dels (F : Forest) (z : Nat × List Nat) (i y : Nat) (hs : List Nat) : (F.dels hs).join z i y = (F.join z i y).dels hs := by
  simp only [Forest.join, Forest.dels, Env.dels_map]

theorem deserted_dels (F : Forest) (n : Nat) (hs gone : List Nat) : (F.dels hs).deserted n gone = F.deserted n (hs ++ gone) := by
  simp only [deserted, Forest.dels, Env.dels]
  congr 1
  rw [List.all_filter]
  congr 1
  funext x
  rw [List.contains_eq_mem, List.contains_eq_mem, List.contains_eq_mem]
  by_cases h : x.1 ∈ hs <;> simp [h]

theorem dels_dels (F : Forest) (hs hs' : List Nat) : (F.dels hs).dels hs' = F.dels (hs ++ hs') := by
  simp only [Forest.dels, Env.dels, List.filter_filter]
  congr 2
  apply List.filter_congr
  intro x _
  rw [List.contains_eq_mem, List.contains_eq_mem, List.contains_eq_mem]
  by_cases h : x.1 ∈ hs <;> simp [h]

theorem sub_dels (F : Forest) (hs : List Nat) (x : Nat × List Nat) : (F.dels hs).sub x = F.sub x := rfl
theorem width_dels (F : Forest) (hs : List Nat) (x : Nat × List Nat) : (F.dels hs).width x = F.width x := rfl
theorem isNode_dels (F : Forest) (hs : List Nat) (x : Nat × List Nat) : (F.dels hs).isNode x = F.isNode x := rfl

theorem get_dels_of {hs : List Nat} {h : Nat} (hh : h ∉ hs) : (F.dels hs).env.get h = F.env.get h := by
  rw [Forest.dels, Env.get_dels, if_neg hh]

theorem insertAll_dels {q : Nat} {hs gone : List Nat} (hq : q ∉ hs) : ∀ {ps : List Nat} {i : Nat} {F : Forest}, (∀ p ∈ ps, p ∉ hs) →
    (F.dels hs).insertAll q gone i ps = after hs (F.insertAll q (hs ++ gone) i ps)
  | [], i, F, _ => by rw [insertAll, insertAll]; rfl
  | p :: ps, i, F, h => by
    rw [insertAll, insertAll, get_dels_of (h p (by simp))]
    cases F.env.get p with
    | none => rfl
    | some x =>
      simp only
      have hm : (F.dels hs).mutable = F.mutable := rfl
      rw [hm]
      split
      · rfl
      · rw [cut_dels, get_dels_of (h p (by simp)), get_dels_of hq]
        cases (F.cut x).env.get p with
        | none => rfl
        | some y =>
          cases (F.cut x).env.get q with
          | none => rfl
          | some z =>
            simp only [width_dels, deserted_dels, join_dels]
            split
            · by_cases hi : i ≤ (F.cut x).width z
              · simp [hi, after]
              · simp [hi, after]
            · split
              · exact insertAll_dels hq fun p' hp' => h p' (by simp [hp'])
              · split <;> rfl

/-- What stays true of the node into which elements are put. -/
theorem insertAll_keeps {q : Nat} {gone : List Nat} : ∀ {ps : List Nat} {i : Nat} {F F' : Forest} {z : Nat × List Nat}, F.Sound →
    F.env.get q = some z → F.isNode z = true → F.mutable z.1 = true → F.insertAll q gone i ps = .ok F' →
    F'.Sound ∧ F'.env.ids = F.env.ids ∧ ∃ z', F'.env.get q = some z' ∧ F'.isNode z' = true ∧ F'.mutable z'.1 = true
  | [], i, F, F', z, hF, hq, hn, hm, h => by
    rw [insertAll] at h
    cases h
    exact ⟨hF, rfl, z, hq, hn, hm⟩
  | p :: ps, i, F, F', z, hF, hq, hn, hm, h => by
    obtain ⟨x, z', y, k, cs, g1, g2, g3, g4, g5, g6, g7, g8, g9⟩ := insertAll_ok hF hq hn h
    have hF1 := hF.cut (hF.get g1).1 (hF.get g1).2
    obtain ⟨a1, a2, a3⟩ := insertAll_keeps (hF1.join (hF1.get g4).1 g6 g7 g5) (join_get g4 g5) (isNode_of_sub (join_sub _ g6))
      (g8.trans hm) g9
    refine ⟨a1, a2.trans ?_, a3⟩
    rw [show ((F.cut x).join z' i y).env.ids = (F.cut x).env.ids from Env.ids_map _ _]
    exact ids_cut F x

theorem insertAll_append {q : Nat} {gone qs : List Nat} : ∀ {ps : List Nat} {i : Nat} {F F' : Forest} {z : Nat × List Nat}, F.Sound →
    F.env.get q = some z → F.isNode z = true → F.mutable z.1 = true → F.insertAll q gone i ps = .ok F' →
    F.insertAll q gone i (ps ++ qs) = F'.insertAll q gone (i + ps.length) qs
  | [], i, F, F', z, _, _, _, _, h => by rw [insertAll] at h; cases h; rfl
  | p :: ps, i, F, F', z, hF, hq, hn, hm, h => by
    obtain ⟨x, z', y, k, cs, g1, g2, g3, g4, g5, g6, g7, g8, g9⟩ := insertAll_ok hF hq hn h
    have hF1 := hF.cut (hF.get g1).1 (hF.get g1).2
    have := insertAll_append (qs := qs) (hF1.join (hF1.get g4).1 g6 g7 g5) (join_get g4 g5) (isNode_of_sub (join_sub _ g6))
      (g8.trans hm) g9
    rw [List.cons_append, insertAll_step g1 g2 g3 g4 g5 (by rw [width_of_sub g6]; exact g7), this, List.length_cons]
    congr 1
    omega

/-- What is passed does not matter, if the call returns. -/
theorem insertAll_gone {q : Nat} {gone gone' : List Nat} : ∀ {ps : List Nat} {i : Nat} {F F' : Forest},
    F.insertAll q gone i ps = .ok F' → F.insertAll q gone' i ps = .ok F'
  | [], i, F, F', h => by rw [insertAll] at h ⊢; exact h
  | p :: ps, i, F, F', h => by
    rw [insertAll] at h ⊢
    split
    · next e => rw [e] at h; cases h
    · next x e =>
      rw [e] at h
      simp only at h
      split
      · next hm => rw [if_pos hm] at h; cases h
      · next hm =>
        rw [if_neg hm] at h
        split
        · next y z e1 e2 =>
          rw [e1, e2] at h
          simp only at h
          split
          · next hz => rw [if_pos hz] at h; split at h <;> cases h
          · next hz =>
            rw [if_neg hz] at h
            split
            · next hi => rw [if_pos hi] at h; exact insertAll_gone h
            · next hi => rw [if_neg hi] at h; split at h <;> cases h
        · next hno =>
          split at h
          · next y z e1 e2 => exact absurd e2 (hno y z e1)
          · cases h

/-- A call with a list of elements, and two calls with the parts of it. -/
theorem splice_append (hF : F.Sound) {q a b : Nat} {ps qs : List Nat} {F1 : Forest} (h : F.splice q a b ps = .ok F1)
    (hi : (F.env.gets (ps ++ qs)).isSome) (hd : (ps ++ qs).Nodup) (hqi : q ∉ ps ++ qs)
    (hdel : a < b → ∀ z, F.env.get q = some z → a < F.width z → (F.sub (z.1, z.2 ++ [a])).isSome) :
    F.splice q a b (ps ++ qs) = F1.splice q (a + ps.length) (a + ps.length) qs := by
  obtain ⟨z, G, h1, h2, h3, h4, h5, h6, h7, rfl⟩ := splice_ok h
  rw [splice_eq h1 h2 h3 hi hd hqi]
  have hstart : ∃ F0, F0 = (if a < b ∧ a < F.width z then F.cutAt z.1 z.2 a else F) ∧ F0.Sound ∧ F0.env.get q = some z ∧
      F0.isNode z = true ∧ F0.mutable z.1 = true ∧ F0.env.ids = F.env.ids := by
    refine ⟨_, rfl, ?_⟩
    split
    · next hc =>
      have hzl := (hF.get h1).1
      have hg : (F.cutAt z.1 z.2 a).env.get q = some z := by
        simp [cutAt, Env.get_map, h1, cutLoc]
      refine ⟨?_, hg, ?_, ?_, Env.ids_map _ _⟩
      · rw [← cut_snoc]
        exact hF.cut hzl (hdel hc.1 z h1 hc.2)
      · obtain ⟨k, cs, hs⟩ := isNode_sub h2
        refine isNode_of_sub (k := k) (cs := cs.eraseIdx a) ?_
        simp only [sub, cutAt, Nat.ne_of_lt hzl, if_false, if_true]
        have := Tree.at?_editKids_above (F.tree z.1) z.2 [] (fun cs => cs.eraseIdx a)
        rw [List.append_nil] at this
        rw [Tree.removeAt, this]
        rw [sub] at hs
        rw [hs]; simp
      · simp only [cutAt, Nat.ne_of_lt hzl, if_false]; exact h3
    · exact ⟨hF, h1, h2, h3, rfl⟩
  obtain ⟨F0, e0, s0, g0, n0, m0, i0⟩ := hstart
  rw [← e0] at h7 ⊢
  have h7' := insertAll_gone (gone' := ps ++ qs) h7
  obtain ⟨hG, hids, z', k1, k2, k3⟩ := insertAll_keeps s0 g0 n0 m0 h7
  rw [insertAll_append s0 g0 n0 m0 h7']
  have hq1 : q ∉ ps := fun hh => hqi (List.mem_append_left _ hh)
  have hq2 : q ∉ qs := fun hh => hqi (List.mem_append_right _ hh)
  obtain ⟨d1, d2, d3⟩ := List.nodup_append.mp hd
  have hdis : ∀ p ∈ qs, p ∉ ps := fun p hp hp' => d3 p hp' p hp rfl
  have hi2 : ((G.dels ps).env.gets qs).isSome := by
    rw [Env.gets_isSome] at hi ⊢
    intro p hp
    rw [get_dels_of (hdis p hp)]
    have := hi p (List.mem_append_right _ hp)
    obtain ⟨x, hx⟩ := Option.isSome_iff_exists.mp this
    have hmem : p ∈ G.env.ids := by rw [hids, i0]; exact Env.mem_ids hx
    obtain ⟨y, hy⟩ := Env.get_of_ids hmem
    rw [hy]; rfl
  rw [splice_eq (F := G.dels ps) (z := z') (by rw [get_dels_of hq1]; exact k1) (by rw [isNode_dels]; exact k2) k3 hi2 d2 hq2]
  simp only [Nat.lt_irrefl, false_and, if_false]
  rw [insertAll_dels hq1 hdis]
  cases G.insertAll q (ps ++ qs) (a + ps.length) qs <;> simp [after, dels_dels]

end Forest
end Rowan
