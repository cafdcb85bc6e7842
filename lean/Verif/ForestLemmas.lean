import Verif.Spec.Forest
import Verif.EditContent
/-!
# Forests and views

A forest says the same as a view, as far as the handles `J` of the program tell; edits of both keep this.

Unless their comments cite lines of `/repo`, the definitions in this file are vocabulary of the proofs and model no code.
-/
namespace Rowan

namespace Item

theorem find {J : List Item} {h : Nat} {j : Item} (e : (J.find? fun j => h == j.id) = some j) : j ∈ J ∧ h = j.id :=
  ⟨List.mem_of_find?_eq_some e, by simpa using List.find?_some e⟩

theorem lookup_map {β : Type} (f : Item → β) (h : Nat) (J : List Item) :
    (J.map fun j => (j.id, f j)).lookup h = (J.find? fun j => h == j.id).map f := by
  induction J with
  | nil => rfl
  | cons j J ih =>
    simp only [List.map_cons, List.lookup_cons, List.find?_cons]
    cases h == j.id <;> simp [ih]

theorem get_objs {w : Env Nat} {J : List Item} (e : w.held = objs J) (h : Nat) :
    w.get h = (J.find? fun j => h == j.id).map Item.obj := by
  rw [Env.get, e]; exact lookup_map ..

theorem get_places {v : Env (Nat × List Nat)} {J : List Item} (e : v.held = places J) (h : Nat) :
    v.get h = (J.find? fun j => h == j.id).map fun j => (j.tree, j.path) := by
  rw [Env.get, e]; exact lookup_map (fun j => (j.tree, j.path)) ..

theorem find_of_mem {J : List Item} (hn : (J.map Item.id).Nodup) {j : Item} (hj : j ∈ J) :
    (J.find? fun k => j.id == k.id) = some j := by
  induction J with
  | nil => cases hj
  | cons k J ih =>
    simp only [List.map_cons, List.nodup_cons] at hn
    rcases List.mem_cons.mp hj with rfl | hj
    · simp
    · have : j.id ≠ k.id := fun e => hn.1 (e ▸ List.mem_map.mpr ⟨j, hj, rfl⟩)
      rw [List.find?_cons_of_neg (by simpa using this)]
      exact ih hn.2 hj

/-- The handles given up. -/
def dels (J : List Item) (hs : List Nat) : List Item := J.filter fun j => !hs.contains j.id

theorem dels_objs {w : Env Nat} {J : List Item} (e : w.held = objs J) (hs : List Nat) :
    (w.dels hs).held = objs (dels J hs) := by
  simp only [Env.dels, e, objs, dels, List.filter_map]; rfl

theorem dels_places {v : Env (Nat × List Nat)} {J : List Item} (e : v.held = places J) (hs : List Nat) :
    (v.dels hs).held = places (dels J hs) := by
  simp only [Env.dels, e, places, dels, List.filter_map]; rfl

/-- Every handle moves. -/
def move (f : Nat → List Nat → Nat × List Nat) (j : Item) : Item :=
  ⟨j.id, j.obj, (f j.tree j.path).1, (f j.tree j.path).2⟩

theorem move_objs (f : Nat → List Nat → Nat × List Nat) (J : List Item) : objs (J.map (move f)) = objs J := by
  simp [objs, move]

theorem move_ids (f : Nat → List Nat → Nat × List Nat) (J : List Item) :
    (J.map (move f)).map Item.id = J.map Item.id := by simp [move]

theorem move_places {v : Env (Nat × List Nat)} {J : List Item} (e : v.held = places J) (f : Nat → List Nat → Nat × List Nat) :
    (v.map fun x => f x.1 x.2).held = places (J.map (move f)) := by
  simp [Env.map, e, places, move]

end Item

/-- The forest `F` says the same as the view `v` about the handles `J`. -/
structure Sees (v : View) (F : Forest) (J : List Item) (top : Nat → Nat) : Prop where
  held : F.env.held = Item.places J
  ids : (J.map Item.id).Nodup
  pos : ∀ j ∈ J, v.pos j.obj = (top j.tree, j.path)
  tree : ∀ j ∈ J, v.tree (top j.tree) = F.tree j.tree
  mutb : ∀ j ∈ J, v.mutable j.obj = F.mutable j.tree
  low : ∀ j ∈ J, j.tree < F.fresh
  inj : ∀ i ∈ J, ∀ j ∈ J, top i.tree = top j.tree → i.tree = j.tree

namespace Sees
variable {v : View} {F : Forest} {J : List Item} {top : Nat → Nat}

theorem get (h : Sees v F J top) {j : Item} (hj : j ∈ J) : F.env.get j.id = some (j.tree, j.path) := by
  rw [Item.get_places h.held, Item.find_of_mem h.ids hj]; rfl

theorem sub (h : Sees v F J top) {j : Item} (hj : j ∈ J) : F.sub (j.tree, j.path) = v.sub j.obj := by
  rw [Forest.sub, View.sub, h.pos j hj, h.tree j hj]

theorem width (h : Sees v F J top) {j : Item} (hj : j ∈ J) : F.width (j.tree, j.path) = v.width j.obj := by
  rw [Forest.width, View.width, h.sub hj]; rfl

theorem tree_iff (h : Sees v F J top) {i j : Item} (hi : i ∈ J) (hj : j ∈ J) : top i.tree = top j.tree ↔ i.tree = j.tree :=
  ⟨h.inj i hi j hj, fun e => by rw [e]⟩

/-- A child becomes a tree of its own. -/
theorem cutAt (h : Sees v F J top) {j0 : Item} (h0 : j0 ∈ J) {e i : Nat} {P : List Nat}
    (hne : ∀ j ∈ J, top j.tree ≠ e) (hc : ((F.tree j0.tree).at? (P ++ [i])).isSome) :
    Sees (v.cutAt e (top j0.tree) P i) (F.cutAt j0.tree P i)
      (J.map (Item.move (cutLoc j0.tree F.fresh P i))) (fun n => if n = F.fresh then e else top n) := by
  obtain ⟨c, hc⟩ := Option.isSome_iff_exists.mp hc
  have l0 := h.low j0 h0
  have key : ∀ j ∈ J,
      (cutLoc j0.tree F.fresh P i j.tree j.path).1 < F.fresh + 1 ∧
      cutLoc (top j0.tree) e P i (top j.tree) j.path =
        ((fun n => if n = F.fresh then e else top n) (cutLoc j0.tree F.fresh P i j.tree j.path).1,
          (cutLoc j0.tree F.fresh P i j.tree j.path).2) ∧
      ((cutLoc j0.tree F.fresh P i j.tree j.path).1 = F.fresh ∧ j.tree = j0.tree ∨
        (cutLoc j0.tree F.fresh P i j.tree j.path).1 = j.tree ∧ j.tree < F.fresh) := by
    intro j hj
    have lj := h.low j hj
    have hij := h.tree_iff hj h0
    by_cases ej : j.tree = j0.tree
    · simp only [cutLoc, if_pos ej, if_pos (hij.mpr ej)]
      cases Tree.afterCut P i j.path with
      | stays Q => simp only [ej, if_neg (Nat.ne_of_lt l0), true_and]; omega
      | cut R => simp [ej]
    · simp only [cutLoc, if_neg ej, if_neg fun e' => ej (hij.mp e'), if_neg (Nat.ne_of_lt lj), true_and]
      exact ⟨by omega, .inr lj⟩
  refine ⟨Item.move_places h.held _, by rw [Item.move_ids]; exact h.ids, ?_, ?_, ?_, ?_, ?_⟩
  · intro j' hj'
    obtain ⟨j, hj, rfl⟩ := List.mem_map.mp hj'
    show cutLoc (top j0.tree) e P i (v.pos j.obj).1 (v.pos j.obj).2 = _
    rw [h.pos j hj]
    exact (key j hj).2.1
  · intro j' hj'
    obtain ⟨j, hj, rfl⟩ := List.mem_map.mp hj'
    have ht0 := h.tree j0 h0
    rcases (key j hj).2.2 with ⟨a, b⟩ | ⟨a, b⟩
    · simp only [Item.move, a, View.cutAt, Forest.cutAt, if_true, ht0, hc, Option.getD_some]
    · have hij := h.tree_iff hj h0
      simp only [Item.move, a, View.cutAt, Forest.cutAt, if_neg (Nat.ne_of_lt b), if_neg (hne j hj)]
      by_cases ej : j.tree = j0.tree
      · rw [if_pos ej, if_pos (hij.mpr ej), ht0]
      · rw [if_neg ej, if_neg fun e' => ej (hij.mp e'), h.tree j hj]
  · intro j' hj'
    obtain ⟨j, hj, rfl⟩ := List.mem_map.mp hj'
    show v.mutable j.obj = _
    rw [h.mutb j hj]
    rcases (key j hj).2.2 with ⟨a, b⟩ | ⟨a, b⟩
    · simp only [Item.move, a, Forest.cutAt, if_true]; rw [b]
    · simp only [Item.move, a, Forest.cutAt, if_neg (Nat.ne_of_lt b)]
  · intro j' hj'
    obtain ⟨j, hj, rfl⟩ := List.mem_map.mp hj'
    exact (key j hj).1
  · intro i' hi' j' hj'
    obtain ⟨a, ha, rfl⟩ := List.mem_map.mp hi'
    obtain ⟨b, hb, rfl⟩ := List.mem_map.mp hj'
    simp only [Item.move]
    rcases (key a ha).2.2 with ⟨a1, a2⟩ | ⟨a1, a2⟩ <;> rcases (key b hb).2.2 with ⟨b1, b2⟩ | ⟨b1, b2⟩ <;>
      simp only [a1, b1, if_true, implies_true]
    · rw [if_neg (Nat.ne_of_lt b2)]
      exact fun e' => absurd e'.symm (hne b hb)
    · rw [if_neg (Nat.ne_of_lt a2)]
      exact fun e' => absurd e' (hne a ha)
    · rw [if_neg (Nat.ne_of_lt a2), if_neg (Nat.ne_of_lt b2)]
      exact h.inj a ha b hb

/-- A tree is put below a node of another tree. -/
theorem join (h : Sees v F J top) {jq jp : Item} (hq : jq ∈ J) (hp : jp ∈ J) {i : Nat}
    (hm : F.mutable jq.tree = F.mutable jp.tree) :
    Sees (v.join jq.obj i (top jp.tree)) (F.join (jq.tree, jq.path) i jp.tree)
      (J.map (Item.move (joinLoc jq.tree jp.tree jq.path i))) top := by
  have key : ∀ j ∈ J,
      joinLoc (top jq.tree) (top jp.tree) jq.path i (top j.tree) j.path =
        (top (joinLoc jq.tree jp.tree jq.path i j.tree j.path).1, (joinLoc jq.tree jp.tree jq.path i j.tree j.path).2) ∧
      ∃ k ∈ J, k.tree = (joinLoc jq.tree jp.tree jq.path i j.tree j.path).1 := by
    intro j hj
    have h1 := h.tree_iff hj hp
    have h2 := h.tree_iff hj hq
    by_cases e1 : j.tree = jp.tree
    · simp only [joinLoc, if_pos e1, if_pos (h1.mpr e1)]
      exact ⟨trivial, jq, hq, rfl⟩
    · by_cases e2 : j.tree = jq.tree
      · simp only [joinLoc, if_neg e1, if_neg fun e' => e1 (h1.mp e'), if_pos e2, if_pos (h2.mpr e2)]
        exact ⟨trivial, jq, hq, rfl⟩
      · simp only [joinLoc, if_neg e1, if_neg fun e' => e1 (h1.mp e'), if_neg e2, if_neg fun e' => e2 (h2.mp e')]
        exact ⟨trivial, j, hj, rfl⟩
  refine ⟨Item.move_places h.held _, by rw [Item.move_ids]; exact h.ids, ?_, ?_, ?_, ?_, ?_⟩
  · intro j' hj'
    obtain ⟨j, hj, rfl⟩ := List.mem_map.mp hj'
    show joinLoc (v.pos jq.obj).1 (top jp.tree) (v.pos jq.obj).2 i (v.pos j.obj).1 (v.pos j.obj).2 = _
    rw [h.pos j hj, h.pos jq hq]
    exact (key j hj).1
  · intro j' hj'
    obtain ⟨j, hj, rfl⟩ := List.mem_map.mp hj'
    obtain ⟨-, k, hk, e⟩ := key j hj
    simp only [Item.move, ← e, View.join, Forest.join, h.pos jq hq, h.tree jp hp]
    have := h.tree_iff hk hq
    by_cases ek : k.tree = jq.tree
    · rw [if_pos ek, if_pos (this.mpr ek), h.tree k hk]
    · rw [if_neg ek, if_neg fun e' => ek (this.mp e'), h.tree k hk]
  · intro j' hj'
    obtain ⟨j, hj, rfl⟩ := List.mem_map.mp hj'
    show v.mutable j.obj = F.mutable (joinLoc jq.tree jp.tree jq.path i j.tree j.path).1
    rw [h.mutb j hj]
    simp only [joinLoc]
    split
    next e => rw [e, hm]
    split
    next e => rw [e]
    · rfl
  · intro j' hj'
    obtain ⟨j, hj, rfl⟩ := List.mem_map.mp hj'
    obtain ⟨-, k, hk, e⟩ := key j hj
    simp only [Item.move, ← e]
    exact h.low k hk
  · intro i' hi' j' hj'
    obtain ⟨a, ha, rfl⟩ := List.mem_map.mp hi'
    obtain ⟨b, hb, rfl⟩ := List.mem_map.mp hj'
    obtain ⟨-, k, hk, e⟩ := key a ha
    obtain ⟨-, l, hl, e'⟩ := key b hb
    simp only [Item.move, ← e, ← e']
    exact h.inj k hk l hl

theorem item {x : Nat × Nat} (hx : x ∈ Item.objs J) : ∃ j ∈ J, j.id = x.1 ∧ j.obj = x.2 := by
  obtain ⟨j, hj, rfl⟩ := List.mem_map.mp hx
  exact ⟨j, hj, rfl, rfl⟩

/-- An element becomes a tree of its own. -/
theorem cut {A : Nat → Prop} (h : Sees v F J top) {j : Item} (hj : j ∈ J) (hN : v.Named A) (hA : ∀ x ∈ Item.objs J, A x.2)
    (hf : (v.sub j.obj).isSome) :
    ∃ J' top', Sees (v.cut j.obj) (F.cut (j.tree, j.path)) J' top' ∧ Item.objs J' = Item.objs J ∧
      (F.cut (j.tree, j.path)).env.next = F.env.next ∧ (F.cut (j.tree, j.path)).leaked = F.leaked := by
  have hA' : ∀ k ∈ J, A k.obj := fun k hk => hA _ (List.mem_map.mpr ⟨k, hk, rfl⟩)
  have hp := h.pos j hj
  rcases List.eq_nil_or_concat j.path with e | ⟨P, i, e⟩
  · refine ⟨J, top, ?_, rfl, ?_, ?_⟩
    · rwa [View.cut, hp, Forest.cut, e]
    · rw [Forest.cut, e]; rfl
    · rw [Forest.cut, e]; rfl
  · rw [List.concat_eq_append] at e
    have hne : ∀ k ∈ J, top k.tree ≠ j.obj := by
      intro k hk e'
      have := hN.top k.obj j.obj (hA' k hk) (hA' j hj) (by rw [h.pos k hk]; exact e')
      rw [hp, e] at this
      simp at this
    have hs : ((F.tree j.tree).at? (P ++ [i])).isSome := by
      rw [← h.tree j hj, ← e]
      rwa [View.sub, hp] at hf
    refine ⟨_, fun n => if n = F.fresh then j.obj else top n, ?_, Item.move_objs (cutLoc j.tree F.fresh P i) J, ?_, ?_⟩
    · have := h.cutAt hj hne hs
      rw [View.cut, hp, Forest.cut, e]
      simp only [List.getLast?_concat, List.dropLast_concat]
      exact this
    · rw [Forest.cut, e]
      simp only [List.getLast?_concat]
      rfl
    · rw [Forest.cut, e]
      simp only [List.getLast?_concat]
      rfl

/-- Nobody has a handle in the tree. -/
theorem deserted (h : Sees v F J top) {j0 : Item} (h0 : j0 ∈ J) {gone : List Nat} (hd : F.deserted j0.tree gone = true) :
    F.leaked = false ∧ ∀ j ∈ J, j.id ∉ gone → top j.tree ≠ top j0.tree := by
  simp only [Forest.deserted, h.held, Item.places, Bool.and_eq_true, Bool.not_eq_true', List.all_eq_true, List.mem_map,
    forall_exists_index, and_imp, forall_apply_eq_imp_iff₂, Bool.or_eq_true, List.contains_eq_mem, decide_eq_true_eq,
    bne_iff_ne] at hd
  refine ⟨hd.1, fun j hj hg e => ?_⟩
  rcases hd.2 j hj with h1 | h1
  · exact hg h1
  · exact h1 (h.inj j hj j0 h0 e)

end Sees

/-- The edit panics, and an element is not where its index says. -/
def View.Outcome.breaks : View.Outcome → Bool
  | outOfRange .. | tangled .. => true
  | _ => false

/-- The edit panics and leaves the view `v`. -/
def View.Outcome.Leaves (o : View.Outcome) (v : View) (J : List Item) (top : Nat → Nat) (gone : List Nat) (F : Forest) (n : Nat) :
    Prop :=
  o = .refused v ∨ ∃ p i, o = .outOfRange v p i ∧ F.leaked = false ∧ (∀ j ∈ J, j.id ∉ gone → top j.tree ≠ p) ∧ n ≤ 2 ^ 32

namespace Sees
open View (cut_named join_named cut_full join_full cut_node join_sub_above)

/-- Elements are moved. -/
theorem insertAll {A : Nat → Prop} {q qo : Nat} {gone : List Nat} : ∀ (ps : List (Nat × Nat)) (i : Nat) {v : View} {F : Forest}
    {J : List Item} {top : Nat → Nat}, Sees v F J top → v.Named A → v.Full A → (∀ x ∈ Item.objs J, A x.2) →
    (q, qo) ∈ Item.objs J → v.mutable qo = true → (∃ k cs, v.sub qo = some (.node k cs)) → (∀ x ∈ ps, x ∈ Item.objs J) →
    match F.insertAll q gone i (ps.map Prod.fst) with
    | .ok F' => (F'.env.next = F.env.next ∧ F'.leaked = F.leaked) ∧ ∃ v' J' top', v.insertAll qo i (ps.map Prod.snd) = .done v' ∧
        Sees v' F' J' top' ∧ Item.objs J' = Item.objs J
    | .panic F' => (F'.env.next = F.env.next ∧ F'.leaked = F.leaked) ∧ ∃ v' J' top',
        (v.insertAll qo i (ps.map Prod.snd)).Leaves v' J' top' gone F' (i + ps.length) ∧
        Sees v' F' J' top' ∧ Item.objs J' = Item.objs J
    | .broken => (v.insertAll qo i (ps.map Prod.snd)).breaks = true
    | .diverge => v.insertAll qo i (ps.map Prod.snd) = .loops
    | .wild | .misuse => False
  | [], i, v, F, J, top, h, _, _, _, _, _, _, _ => ⟨⟨rfl, rfl⟩, v, J, top, rfl, h, rfl⟩
  | x :: ps, i, v, F, J, top, h, hN, hf, hA, hq, hm, ⟨k, cs0, hs0⟩, hps => by
    obtain ⟨jp, hjp, ep1, ep2⟩ := item (hps x (by simp))
    have hAp : A x.2 := hA x (hps x (by simp))
    have hAq : A qo := hA _ hq
    simp only [List.map_cons, View.insertAll, Forest.insertAll, ← ep1, h.get hjp]
    rw [← ep2] at hAp ⊢
    rw [h.mutb jp hjp]
    cases hmp : F.mutable jp.tree with
    | false => exact ⟨⟨rfl, rfl⟩, v, J, top, .inl rfl, h, rfl⟩
    | true =>
      have hmp' : v.mutable jp.obj = true := by rw [h.mutb jp hjp, hmp]
      obtain ⟨J1, top1, h1, ho1, hn1⟩ := h.cut hjp hN hA (hf _ hAp)
      obtain ⟨hN1, hpp⟩ := cut_named hN hAp hmp'
      obtain ⟨jp1, hjp1, e1, e2⟩ := item (J := J1) (x := (jp.id, jp.obj)) (by
        rw [ho1]; exact List.mem_map.mpr ⟨jp, hjp, rfl⟩)
      obtain ⟨jq1, hjq1, e3, e4⟩ := item (J := J1) (x := (q, qo)) (by rw [ho1]; exact hq)
      simp only at e1 e2 e3 e4
      have g1 := h1.get hjp1
      have g2 := h1.get hjq1
      rw [e1] at g1
      rw [e3] at g2
      have t1 : top1 jp1.tree = jp.obj := by
        have := h1.pos jp1 hjp1
        rw [e2, hpp] at this
        exact (congrArg Prod.fst this).symm
      have tq : ((v.cut jp.obj).pos qo).1 = top1 jq1.tree := by
        rw [← e4, h1.pos jq1 hjq1]
      have hw : (F.cut (jp.tree, jp.path)).width (jq1.tree, jq1.path) = (v.cut jp.obj).width qo := by
        rw [h1.width hjq1, e4]
      have hiff : ((v.cut jp.obj).pos qo).1 = jp.obj ↔ jq1.tree = jp1.tree := by
        rw [tq, ← t1]; exact h1.tree_iff hjq1 hjp1
      simp only [g1, g2, hw, Bool.true_eq_false, if_false]
      by_cases hc : jq1.tree = jp1.tree
      · rw [if_pos hc, if_pos (hiff.mpr hc)]
        by_cases hi : i ≤ (v.cut jp.obj).width qo
        · rw [if_pos hi, if_pos hi]
        · rw [if_neg hi, if_neg hi]; rfl
      · have hne : ((v.cut jp.obj).pos qo).1 ≠ jp.obj := fun e => hc (hiff.mp e)
        rw [if_neg hc, if_neg hne]
        by_cases hi : i ≤ (v.cut jp.obj).width qo
        · rw [if_pos hi, if_pos hi]
          have hmq1 : (F.cut (jp.tree, jp.path)).mutable jq1.tree = true := by
            rw [← h1.mutb jq1 hjq1, e4]
            rw [show (v.cut jp.obj).mutable = v.mutable by rw [View.cut]; split <;> rfl]; exact hm
          have hmp1 : (F.cut (jp.tree, jp.path)).mutable jp1.tree = true := by
            rw [← h1.mutb jp1 hjp1, e2]
            rw [show (v.cut jp.obj).mutable = v.mutable by rw [View.cut]; split <;> rfl]; exact hmp'
          have h2 := h1.join hjq1 hjp1 (i := i) (hmq1.trans hmp1.symm)
          rw [e4, t1] at h2
          obtain ⟨cs, htq⟩ := cut_node hN hf hAp hAq hs0
          rw [View.width, htq] at hi
          have ho2 := Item.move_objs (joinLoc jq1.tree jp1.tree jq1.path i) J1
          have := insertAll (q := q) (qo := qo) (gone := gone) ps (i + 1) h2 (join_named hN1 hAq hne) (join_full (cut_full hN hf hAp) htq hi hne)
            (by rw [ho2, ho1]; exact hA) (by rw [ho2, ho1]; exact hq)
            (show (v.cut jp.obj).mutable qo = true by
              rw [show (v.cut jp.obj).mutable = v.mutable by rw [View.cut]; split <;> rfl]; exact hm)
            ⟨k, cs.take i ++ (v.cut jp.obj).tree jp.obj :: cs.drop i, by
              rw [(join_sub_above (x := qo) (R := []) hne rfl (by simp)).2, htq]
              simp [Tree.insertAt]⟩
            (by rw [ho2, ho1]; exact fun y hy => hps y (by simp [hy]))
          cases hr : ((F.cut (jp.tree, jp.path)).join (jq1.tree, jq1.path) i jp1.tree).insertAll q gone (i + 1) (ps.map Prod.fst) with
          | ok F' =>
            rw [hr] at this
            obtain ⟨a, v', J', top', b, c, d⟩ := this
            exact ⟨⟨a.1.trans hn1.1, a.2.trans hn1.2⟩, v', J', top', b, c, d.trans (ho2.trans ho1)⟩
          | panic F' =>
            rw [hr] at this
            obtain ⟨a, v', J', top', b, c, d⟩ := this
            refine ⟨⟨a.1.trans hn1.1, a.2.trans hn1.2⟩, v', J', top', ?_, c, d.trans (ho2.trans ho1)⟩
            rw [show i + (x :: ps).length = i + 1 + ps.length by rw [List.length_cons]; omega]
            exact b
          | _ => rw [hr] at this; exact this
        · rw [if_neg hi, if_neg hi]
          by_cases hd : i + (ps.map Prod.fst).length < 2 ^ 32 ∧ (F.cut (jp.tree, jp.path)).deserted jp1.tree gone = true
          · rw [if_pos hd]
            obtain ⟨d1, d2⟩ := h1.deserted hjp1 hd.2
            rw [t1] at d2
            have hl := hd.1
            rw [List.length_map] at hl
            exact ⟨hn1, _, J1, top1, .inr ⟨_, _, rfl, d1, d2, by rw [List.length_cons]; omega⟩, h1, ho1⟩
          · rw [if_neg hd]; rfl

variable {v : View} {F : Forest} {J : List Item} {top : Nat → Nat}

theorem dels (h : Sees v F J top) (hs : List Nat) : Sees v (F.dels hs) (Item.dels J hs) top where
  held := Item.dels_places h.held hs
  ids := h.ids.sublist (List.filter_sublist.map Item.id)
  pos j hj := h.pos j (List.mem_filter.mp hj).1
  tree j hj := h.tree j (List.mem_filter.mp hj).1
  mutb j hj := h.mutb j (List.mem_filter.mp hj).1
  low j hj := h.low j (List.mem_filter.mp hj).1
  inj i hi j hj := h.inj i (List.mem_filter.mp hi).1 j (List.mem_filter.mp hj).1

theorem leak (h : Sees v F J top) (b : Bool) : Sees v (F.leak b) J top := ⟨h.held, h.ids, h.pos, h.tree, h.mutb, h.low, h.inj⟩

theorem add (h : Sees v F J top) (hn : ∀ j ∈ J, j.id < F.env.next) {x t : Nat} {P : List Nat}
    (hp : v.pos x = (top t, P)) (ht : v.tree (top t) = F.tree t) (hm : v.mutable x = F.mutable t) (hl : t < F.fresh)
    (hi : ∀ j ∈ J, top j.tree = top t → j.tree = t) :
    Sees v (F.add (t, P)) (⟨F.env.next, x, t, P⟩ :: J) top where
  held := by
    show (F.env.next, t, P) :: F.env.held = _
    rw [h.held]; rfl
  ids := by
    simp only [List.map_cons, List.nodup_cons]
    refine ⟨fun hm => ?_, h.ids⟩
    obtain ⟨j, hj, e⟩ := List.mem_map.mp hm
    exact absurd (hn j hj) (by omega)
  pos j hj := by
    rcases List.mem_cons.mp hj with rfl | hj
    · exact hp
    · exact h.pos j hj
  tree j hj := by
    rcases List.mem_cons.mp hj with rfl | hj
    · exact ht
    · exact h.tree j hj
  mutb j hj := by
    rcases List.mem_cons.mp hj with rfl | hj
    · exact hm
    · exact h.mutb j hj
  low j hj := by
    rcases List.mem_cons.mp hj with rfl | hj
    · exact hl
    · exact h.low j hj
  inj a ha b hb := by
    rcases List.mem_cons.mp ha with rfl | ha <;> rcases List.mem_cons.mp hb with rfl | hb
    · exact fun _ => rfl
    · exact fun e => (hi b hb e.symm).symm
    · exact fun e => hi a ha e
    · exact h.inj a ha b hb

theorem put (h : Sees v F J top) {x r : Nat} {Q : List Nat} {m : Bool}
    (hx : ∀ j ∈ J, j.obj = x → v.pos x = (r, Q) ∧ v.mutable x = m) : Sees (v.put x r Q m) F J top where
  held := h.held
  ids := h.ids
  pos j hj := by
    simp only [View.put]
    split
    next e => rw [← h.pos j hj, e, (hx j hj e).1]
    · exact h.pos j hj
  tree := h.tree
  mutb j hj := by
    simp only [View.put]
    split
    next e => rw [← h.mutb j hj, e, (hx j hj e).2]
    · exact h.mutb j hj
  low := h.low
  inj := h.inj

theorem plant (h : Sees v F J top) {r : Nat} (t : Tree) (m : Bool) (hr : ∀ j ∈ J, top j.tree ≠ r) :
    Sees (v.plant r t) (F.plant m t) J (fun n => if n = F.fresh then r else top n) := by
  have key : ∀ j ∈ J, j.tree ≠ F.fresh := fun j hj => Nat.ne_of_lt (h.low j hj)
  refine ⟨h.held, h.ids, fun j hj => ?_, fun j hj => ?_, fun j hj => ?_, fun j hj => ?_, fun i hi j hj => ?_⟩
  · simp only [if_neg (key j hj)]; exact h.pos j hj
  · simp only [if_neg (key j hj), View.plant, Forest.plant, if_neg (hr j hj)]; exact h.tree j hj
  · simp only [if_neg (key j hj), View.plant, Forest.plant]; exact h.mutb j hj
  · exact Nat.lt_succ_of_lt (h.low j hj)
  · simp only [if_neg (key j hj), if_neg (key i hi)]; exact h.inj i hi j hj

end Sees

namespace Item

theorem dels_nil (J : List Item) : dels J [] = J := by simp [dels]

theorem dels_cons (J : List Item) (h : Nat) (hs : List Nat) : dels J (h :: hs) = dels (dels J [h]) hs := by
  simp only [dels, List.filter_filter]
  congr 1
  funext j
  simp [Bool.and_comm]

theorem mem_dels {J : List Item} {hs : List Nat} {j : Item} : j ∈ dels J hs ↔ j ∈ J ∧ j.id ∉ hs := by
  simp [dels, List.mem_filter]

theorem perm_one {J : List Item} (hn : (J.map Item.id).Nodup) {j : Item} (hj : j ∈ J) : J.Perm (j :: dels J [j.id]) := by
  induction J with
  | nil => cases hj
  | cons k J ih =>
    simp only [List.map_cons, List.nodup_cons] at hn
    rcases List.mem_cons.mp hj with rfl | hj
    · rw [dels, List.filter_cons_of_neg (by simp), List.filter_eq_self.mpr]
      intro k hk
      have : k.id ≠ j.id := fun e => hn.1 (e ▸ List.mem_map.mpr ⟨k, hk, rfl⟩)
      simpa using this
    · have : k.id ≠ j.id := fun e => hn.1 (e ▸ List.mem_map.mpr ⟨j, hj, rfl⟩)
      rw [dels, List.filter_cons_of_pos (by simpa using this)]
      exact ((ih hn.2 hj).cons k).trans (.swap ..)

/-- The handles given up and the others. -/
theorem split : ∀ (ps : List (Nat × Nat)) {J : List Item}, (J.map Item.id).Nodup → (ps.map Prod.fst).Nodup →
    (∀ x ∈ ps, x ∈ objs J) → (J.map Item.obj).Perm (ps.map Prod.snd ++ (dels J (ps.map Prod.fst)).map Item.obj)
  | [], J, _, _, _ => by simp only [List.map_nil, dels_nil, List.nil_append]; exact .refl _
  | x :: ps, J, hn, hp, hx => by
    obtain ⟨j, hj, e⟩ := List.mem_map.mp (hx x (by simp))
    simp only [List.map_cons, List.nodup_cons] at hp
    have h1 := (perm_one hn hj).map Item.obj
    have h2 := split ps (J := dels J [j.id]) (hn.sublist (List.filter_sublist.map Item.id)) hp.2 (fun y hy => by
      obtain ⟨k, hk, e'⟩ := List.mem_map.mp (hx y (by simp [hy]))
      refine List.mem_map.mpr ⟨k, mem_dels.mpr ⟨hk, ?_⟩, e'⟩
      rw [List.mem_singleton]
      intro e''
      apply hp.1
      rw [← e, List.mem_map]
      exact ⟨y, hy, by rw [← e']; exact e''⟩)
    rw [List.map_cons, List.map_cons, List.cons_append, dels_cons, ← e]
    exact h1.trans (h2.cons _)

/-- The objects of handles. -/
theorem gets_objs {w : Env Nat} {J : List Item} (e : w.held = objs J) {v : Env (Nat × List Nat)} (e' : v.held = places J) :
    ∀ {hs : List Nat}, (v.gets hs).isSome → ∃ ps : List (Nat × Nat), ps.map Prod.fst = hs ∧
      w.gets hs = some (ps.map Prod.snd) ∧ ∀ x ∈ ps, x ∈ objs J
  | [], _ => ⟨[], rfl, rfl, by simp⟩
  | h :: hs, hh => by
    rw [Env.gets, get_places e'] at hh
    cases hj : J.find? fun j => h == j.id with
    | none => rw [hj] at hh; simp at hh
    | some j =>
      rw [hj] at hh
      obtain ⟨hjm, rfl⟩ := find hj
      have : (v.gets hs).isSome := by
        cases hg : v.gets hs with
        | none => rw [hg] at hh; simp at hh
        | some _ => rfl
      obtain ⟨ps, h1, h2, h3⟩ := gets_objs e e' this
      refine ⟨(j.id, j.obj) :: ps, by simp [h1], by simp [Env.gets, get_objs e, hj, h2], fun x hx => ?_⟩
      rcases List.mem_cons.mp hx with rfl | hx
      · exact List.mem_map.mpr ⟨j, hjm, rfl⟩
      · exact h3 x hx

end Item
end Rowan
