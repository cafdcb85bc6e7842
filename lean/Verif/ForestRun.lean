import Verif.ForestSteps
import Verif.Props.Handles
import Verif.Props.Memory
/-!
# The run of an editing program on the heap and on a forest

Unless their comments cite lines of `/repo`, the definitions in this file are vocabulary of the proofs and model no code.
-/
namespace Rowan

/-- The heap, a view of it, and the forest. -/
structure Sync (s : HSt) (gs : List GElem) (lk : List Nat) (F : Forest) (w : Env Nat) (v : View) (J : List Item)
    (top : Nat → Nat) : Prop where
  reach : HReach s gs (J.map Item.obj) lk
  views : s.Views (cnt (J.map Item.obj ++ lk)) v
  sees : Sees v F J top
  held : w.held = Item.objs J
  next : F.env.next = w.next
  low : ∀ j ∈ J, j.id < w.next
  leak : lk ≠ [] → F.leaked = true

theorem Item.objs_snd (J : List Item) : (objs J).map Prod.snd = J.map Item.obj := by
  simp [objs]

theorem Tracks.sync {s : HSt} {gs : List GElem} {lk : List Nat} {F : Forest} {w : Env Nat} (h : Tracks s gs lk F w) :
    ∃ v J top, Sync s gs lk F w v J top := by
  obtain ⟨h1, h2, hlk, J, top, h3, h4, h5, h6, h7, h8⟩ := h
  rw [h3, Item.objs_snd] at h1
  obtain ⟨v, hv⟩ := C36_view h1
  letI : Greens := ⟨gs⟩
  have hp : ∀ j ∈ J, v.pos j.obj = (top j.tree, j.path) := fun j hj => by
    obtain ⟨a, b⟩ := (hv j.obj (cnt_pos.mpr (List.mem_append_left _ (List.mem_map.mpr ⟨j, hj, rfl⟩)))).1.unique (h7 j hj).1
    exact Prod.ext a b
  refine ⟨v, J, top, h1, hv, ⟨h4, h5, hp, fun j hj => ?_, fun j hj => ?_, fun j hj => (h7 j hj).2.2.2, h8⟩, h3, h2, h6, hlk⟩
  · have := (hv j.obj (cnt_pos.mpr (List.mem_append_left _ (List.mem_map.mpr ⟨j, hj, rfl⟩)))).2.1
    rw [hp j hj] at this
    exact this.symm.trans (h7 j hj).2.1
  · exact (hv j.obj (cnt_pos.mpr (List.mem_append_left _ (List.mem_map.mpr ⟨j, hj, rfl⟩)))).2.2.symm.trans (h7 j hj).2.2.1

/-- Objects at the same place have the same content. -/
theorem HInv.green_of_loc [Greens] {s : HSt} {hc : Nat → Nat} {kids : Nat → List Nat} {x y r : Nat} {P : List Nat}
    (h : HInv s hc kids none []) (hx : s.Loc x r P) (hy : s.Loc y r P) : s.green x = s.green y := by
  induction hx generalizing y with
  | root h1 h2 =>
    generalize hP : ([] : List Nat) = P at hy
    cases hy with
    | root => rfl
    | child => simp at hP
  | @child p q r P h1 h2 _ ih =>
    generalize hP : P ++ [s.index p] = P' at hy
    cases hy with
    | root => simp at hP
    | @child _ q' _ P' h3 h4 h5 =>
      obtain ⟨rfl, hi⟩ := List.append_inj_left' hP rfl, (List.append_inj_right' hP rfl)
      obtain ⟨n, c, a1, a2, a3, -⟩ := h.greenOk p q h1 h2 (by simp)
      obtain ⟨n', c', b1, b2, b3, -⟩ := h.greenOk y q' h3 h4 (by simp)
      have := ih h5
      rw [a1, b1] at this
      cases this
      rw [(List.cons.inj hi).1, b2] at a2
      cases a2
      rw [← a3, ← b3]

namespace Sync
variable {s s' : HSt} {gs : List GElem} {lk lk' : List Nat} {F F' : Forest} {w w' : Env Nat} {v v' : View} {J J' : List Item}
  {top top' : Nat → Nat}

theorem mem {j : Item} (hj : j ∈ J) : 0 < cnt (J.map Item.obj ++ lk) j.obj :=
  (@cnt_pos ⟨[]⟩ ..).mpr (List.mem_append_left _ (List.mem_map.mpr ⟨j, hj, rfl⟩))

theorem tracks (h : Sync s gs lk F w v J top) : Tracks s gs lk F w := by
  refine ⟨by rw [h.held, Item.objs_snd]; exact h.reach, h.next, h.leak, J, top, h.held, h.sees.held, h.sees.ids, h.low, fun j hj => ?_,
    h.sees.inj⟩
  obtain ⟨a, b, c⟩ := h.views j.obj (mem hj)
  rw [h.sees.pos j hj] at a b
  exact ⟨a, b.trans (h.sees.tree j hj), c.trans (h.sees.mutb j hj), h.sees.low j hj⟩

/-- The handle of a number. -/
theorem get (h : Sync s gs lk F w v J top) {n : Nat} {x : Nat × List Nat} (e : F.env.get n = some x) :
    ∃ j ∈ J, j.id = n ∧ x = (j.tree, j.path) ∧ w.get n = some j.obj := by
  rw [Item.get_places h.sees.held] at e
  cases hj : J.find? fun j => n == j.id with
  | none => rw [hj] at e; cases e
  | some j =>
    rw [hj] at e
    obtain ⟨hjm, rfl⟩ := Item.find hj
    refine ⟨j, hjm, rfl, by simpa using e.symm, ?_⟩
    rw [Item.get_objs h.held, hj]; rfl

/-- What the element of a handle contains. -/
theorem content (h : Sync s gs lk F w v J top) {j : Item} (hj : j ∈ J) :
    F.sub (j.tree, j.path) = some (s.tree j.obj) := by
  letI : Greens := ⟨gs⟩
  obtain ⟨kids, hi⟩ := h.reach.ok'
  rw [h.sees.sub hj, h.views.sub_eq hi (mem hj)]

theorem isNode (h : Sync s gs lk F w v J top) {j : Item} (hj : j ∈ J) :
    F.isNode (j.tree, j.path) = (s.tree j.obj).isNode := by
  rw [Forest.isNode, h.content hj]

theorem width (h : Sync s gs lk F w v J top) {j : Item} (hj : j ∈ J) :
    F.width (j.tree, j.path) = (s.tree j.obj).children.length := by
  rw [Forest.width, h.content hj]

theorem mutable (h : Sync s gs lk F w v J top) {j : Item} (hj : j ∈ J) : F.mutable j.tree = s.mutable j.obj :=
  (h.sees.mutb j hj).symm.trans (h.views j.obj (mem hj)).2.2.symm

theorem loc (h : Sync s gs lk F w v J top) {j : Item} (hj : j ∈ J) : s.Loc j.obj (top j.tree) j.path := by
  have := (h.views j.obj (mem hj)).1
  rwa [h.sees.pos j hj] at this

/-- Looking at an element. -/
theorem sight (h : Sync s gs lk F w v J top) {j : Item} (hj : j ∈ J) :
    ∃ o, F.sight (j.tree, j.path) = some o ∧ Cur.sight j.obj s = .ok o s := by
  letI : Greens := ⟨gs⟩
  obtain ⟨kids, hi⟩ := h.reach.ok'
  have hl := h.loc hj
  have hlive := hl.live
  have hr : s.tree (top j.tree) = F.tree j.tree := by
    have := (h.views j.obj (mem hj)).2.1
    rw [h.sees.pos j hj] at this
    exact this.trans (h.sees.tree j hj)
  refine ⟨_, by rw [Forest.sight, h.content hj]; rfl, ?_⟩
  simp only [Cur.sight, Cur.look]
  simp only [H.bind_def, Cur.kind_ok hi hlive, Cur.textRange_ok hi hl, Cur.index_ok hlive, H.rd_ok hlive,
    Cur.green_ok hi hlive, H.pure_apply, hr, h.mutable hj]
  have : (s.parent j.obj).map (fun _ => s.index j.obj) = j.path.getLast? := by
    generalize j.path = P at hl
    generalize top j.tree = r at hl
    cases hl with
    | root _ h2 => rw [h2]; rfl
    | child _ h2 _ => rw [h2]; simp
  rw [this]; rfl

/-- Comparing elements. -/
theorem eq (h : Sync s gs lk F w v J top) {i j : Item} (hi : i ∈ J) (hj : j ∈ J) {b : Bool}
    (hb : F.eq (i.tree, i.path) (j.tree, j.path) = some b) : Cur.eq i.obj j.obj s = .ok b s := by
  letI : Greens := ⟨gs⟩
  obtain ⟨kids, hv⟩ := h.reach.ok'
  have look : ∀ {j : Item}, j ∈ J → ∃ o : Obs, Cur.look j.obj s = .ok o s ∧ o.green = s.green j.obj ∧
      o.range.start = blen ((F.tree j.tree).before j.path) := by
    intro j hj
    have hl := h.loc hj
    have hr : s.tree (top j.tree) = F.tree j.tree := by
      have := (h.views j.obj (mem hj)).2.1
      rw [h.sees.pos j hj] at this
      exact this.trans (h.sees.tree j hj)
    refine ⟨_, by
      simp only [Cur.look, H.bind_def, Cur.kind_ok hv hl.live, Cur.textRange_ok hv hl, Cur.index_ok hl.live, H.rd_ok hl.live,
        Cur.green_ok hv hl.live, H.pure_apply]; rfl, rfl, ?_⟩
    rw [← hr]; rfl
  obtain ⟨a, ha, ha1, ha2⟩ := look hi
  obtain ⟨c, hc, hc1, hc2⟩ := look hj
  simp only [Cur.eq]
  rw [H.bind_ok ha, H.bind_ok hc]
  simp only [H.pure_apply, Obs.key, ha1, hc1, ha2, hc2]
  congr 1
  simp only [Forest.eq] at hb
  split at hb
  next heq =>
    cases hb
    obtain ⟨h1, h2⟩ := Prod.mk.inj heq
    have : s.green i.obj = s.green j.obj := hv.green_of_loc (h.loc hi) (by rw [h1, h2]; exact h.loc hj)
    rw [this, h1, h2]
    cases s.green j.obj <;> simp
  next hne =>
    simp only [Forest.sight, h.content hi, h.content hj, Option.map_some] at hb
    split at hb
    · cases hb
    next hd =>
      cases hb
      have hg : ¬((s.green i.obj).addr = (s.green j.obj).addr ∧
          blen ((F.tree i.tree).before i.path) = blen ((F.tree j.tree).before j.path)) := by
        rintro ⟨e1, e2⟩
        have := hv.uni.coh _ _ (.inl (hv.alive (h.loc hi).live)) (.inl (hv.alive (h.loc hj).live)) e1
        exact hd ⟨by rw [HSt.tree, HSt.tree, this], by simp only [HSt.tree, this, e2]⟩
      revert hg
      cases s.green i.obj <;> cases s.green j.obj <;> simp

/-- After a step that returns no handle. -/
theorem finish (h : HReach s' gs (J'.map Item.obj) lk') (hv : s'.Views (cnt (J'.map Item.obj ++ lk')) v')
    (hs : Sees v' F' J' top') (hh : w'.held = Item.objs J') (hn : F'.env.next = w'.next) (hl : ∀ j ∈ J', j.id < w'.next)
    (hlk : lk' ≠ [] → F'.leaked = true) : Tracks s' gs lk' F' w' := (Sync.mk h hv hs hh hn hl hlk).tracks

end Sync

/-- How a step on the heap relates to a step on the forest. -/
def Req.Matches (r : Req) (s : HSt) (gs : List GElem) (lk : List Nat) (F : Forest) (w : Env Nat) : Prop :=
  r.exec w s = .abort ∨
  match r.on F with
  | .ok (none, F') => ∃ s' lk', r.exec w s = .ok (some none) s' ∧ lk'.length ≤ lk.length + r.lost F ∧
      Tracks s' gs lk' F' (w.dels r.takes)
  | .ok (some x, F') => ∃ y s' lk', r.exec w s = .ok (some (some y)) s' ∧ lk'.length ≤ lk.length + r.lost F ∧
      Tracks s' gs lk' (F'.add x) ((w.dels r.takes).add y) ∧ F'.env.next = F.env.next
  | .panic F' => ∃ y s', r.exec w s = .panic y s' ∧ Tracks s' gs lk F' (w.dels r.takes)
  | .broken => ∃ y s', r.exec w s = .panic y s' ∧ Droppable s' ((w.dels r.takes).held.map Prod.snd)
  | .diverge => r.exec w s = .diverge
  | .wild => False
  | .misuse => True

namespace Sync
variable {s s' : HSt} {gs : List GElem} {lk lk' : List Nat} {F F' : Forest} {w w' : Env Nat} {v v' : View} {J J' : List Item}
  {top top' : Nat → Nat}

/-- A call is ready. -/
theorem ready (h : Sync s gs lk F w v J top) {c : Call} (ps : List (Nat × Nat)) (hps : ∀ x ∈ ps, x ∈ Item.objs J)
    (hn : (ps.map Prod.fst).Nodup) (ht : c.takes = ps.map Prod.snd)
    (hu : ∀ x ∈ c.uses, ∃ j ∈ J, j.obj = x ∧ j.id ∉ ps.map Prod.fst)
    (hty : ∀ x ∈ c.nodes, (s.tree x).isNode = true) (hg : ∀ m g, c = .newRoot m g → .node g ∈ gs) :
    c.Ready s gs (J.map Item.obj) ((Item.dels J (ps.map Prod.fst)).map Item.obj) := by
  refine ⟨by rw [ht]; exact Item.split ps h.sees.ids hn hps, fun x hx => ?_, hty, hg⟩
  obtain ⟨j, h1, h2, h3⟩ := hu x hx
  exact List.mem_map.mpr ⟨j, Item.mem_dels.mpr ⟨h1, h3⟩, h2⟩

/-- A call that is not an edit. -/
theorem call (h : Sync s gs lk F w v J top) {c : Call} {rest : List Nat} (hr : c.Ready s gs (J.map Item.obj) rest)
    (he : c.edits = false) (hm : ∀ p, c = .cloneForUpdate p → s.mutable p = false) :
    c.exec s = .abort ∨ ∃ new s' v', c.exec s = .ok new s' ∧ HReach s' gs (new ++ rest) (c.lost s ++ lk) ∧
      s'.Views (cnt (new ++ rest ++ (c.lost s ++ lk))) v' ∧ c.Shows v (rest ++ lk) new v' := by
  letI : Greens := ⟨gs⟩
  have h1 := Call.exec_returns h.reach.ok' hr he hm
  cases e : c.exec s with
  | ok new s' =>
    obtain ⟨v', a, b⟩ := C36_step h.reach hr h.views e
    exact .inr ⟨new, s', v', rfl, HReach.ok c h.reach hr e, a, b⟩
  | abort => exact .inl rfl
  | _ => rw [H.wp, e] at h1; exact h1.elim

/-- After a step that returns a handle. -/
theorem finish_add {y t : Nat} {P : List Nat} (h : HReach s' gs ([y] ++ J'.map Item.obj) lk')
    (hv : s'.Views (cnt ([y] ++ J'.map Item.obj ++ lk')) v')
    (hs : Sees v' F' J' top') (hh : w'.held = Item.objs J') (hn : F'.env.next = w'.next) (hl : ∀ j ∈ J', j.id < w'.next)
    (hp : v'.pos y = (top' t, P)) (ht : v'.tree (top' t) = F'.tree t) (hm : v'.mutable y = F'.mutable t) (hf : t < F'.fresh)
    (hi : ∀ j ∈ J', top' j.tree = top' t → j.tree = t) (hlk : lk' ≠ [] → F'.leaked = true) : Tracks s' gs lk' (F'.add (t, P)) (w'.add y) := by
  have hl' : ∀ j ∈ J', j.id < F'.env.next := by rw [hn]; exact hl
  refine finish (J' := ⟨F'.env.next, y, t, P⟩ :: J') (top' := top') h hv (hs.add hl' hp ht hm hf hi) ?_ ?_ ?_ hlk
  · show (w'.next, y) :: w'.held = _
    rw [hh, ← hn]; rfl
  · show F'.env.next + 1 = w'.next + 1
    rw [hn]
  · intro j hj
    show j.id < w'.next + 1
    rcases List.mem_cons.mp hj with rfl | hj
    · show F'.env.next < _
      omega
    · exact Nat.lt_succ_of_lt (hl j hj)

/-- After a navigation. -/
theorem finish_found {r : Nat} {o : Option (List Nat)} {new : List Nat} {n : Nat} {m : Bool}
    (h : HReach s' gs (new ++ J'.map Item.obj) lk') (hv : s'.Views (cnt (new ++ J'.map Item.obj ++ lk')) v')
    (hs : Sees v F' J' top) (hh : w'.held = Item.objs J') (hn : F'.env.next = w'.next) (hl : ∀ j ∈ J', j.id < w'.next)
    (hr : r = top n) (hm : m = F'.mutable n) (hf : n < F'.fresh) (ht : v.tree (top n) = F'.tree n)
    (hi : ∀ j ∈ J', top j.tree = top n → j.tree = n)
    (hF : v.Found (J'.map Item.obj ++ lk) r m o new v') (hlk : lk' ≠ [] → F'.leaked = true) :
    match o.map fun P => (n, P) with
    | none => new = [] ∧ Tracks s' gs lk' F' w'
    | some x => ∃ y, new = [y] ∧ Tracks s' gs lk' (F'.add x) (w'.add y) := by
  cases o with
  | none =>
    obtain ⟨rfl, rfl⟩ := hF
    exact ⟨rfl, finish h hv hs hh hn hl hlk⟩
  | some Q =>
    obtain ⟨y, rfl, rfl, a, -⟩ := hF
    refine ⟨y, rfl, ?_⟩
    have hs' : Sees (v.put y r Q m) F' J' top := hs.put fun j hj e =>
      a (by rw [← e]; exact List.mem_append_left _ (List.mem_map.mpr ⟨j, hj, rfl⟩))
    refine finish_add h hv hs' hh hn hl (t := n) ?_ ht ?_ hf hi hlk
    · simp [View.put, hr]
    · simp [View.put, hm]

/-- After a new tree. -/
theorem finish_plant {r y : Nat} {P : List Nat} {t : Tree} {m : Bool}
    (h : HReach s' gs ([y] ++ J'.map Item.obj) lk') (hv : s'.Views (cnt ([y] ++ J'.map Item.obj ++ lk')) ((v.plant r t).put y r P m))
    (hs : Sees v F' J' top) (hh : w'.held = Item.objs J') (hn : F'.env.next = w'.next) (hl : ∀ j ∈ J', j.id < w'.next)
    (hF : v.Fresh (J'.map Item.obj ++ lk) y r) (hlk : lk' ≠ [] → F'.leaked = true) :
    Tracks s' gs lk' ((F'.plant m t).add (F'.fresh, P)) (w'.add y) := by
  have hmem : ∀ j ∈ J', j.obj ∈ J'.map Item.obj ++ lk := fun j hj => List.mem_append_left _ (List.mem_map.mpr ⟨j, hj, rfl⟩)
  have hr : ∀ j ∈ J', top j.tree ≠ r := fun j hj => by
    have := hF.2 j.obj (hmem j hj)
    rwa [hs.pos j hj] at this
  have h1 := (hs.plant t m hr).put (x := y) (r := r) (Q := P) (m := m) fun j hj e =>
    absurd (e ▸ hmem j hj) hF.1
  refine finish_add h hv h1 hh hn hl (t := F'.fresh) ?_ ?_ ?_ (Nat.lt_succ_self _) (fun j hj => ?_) hlk
  · simp [View.put]
  · simp [View.put, View.plant, Forest.plant]
  · simp [View.put, Forest.plant]
  · simp only [if_neg (Nat.ne_of_lt (hs.low j hj)), if_true]
    exact fun e => absurd e (hr j hj)

end Sync

theorem Req.exec_call {r : Req} {w : Env Nat} {c : Call} {s : HSt} (hc : r.call w = some c) :
    r.exec w s = (c.exec s).map fun new => some new.head? := by
  cases r with
  | plant => cases hc
  | _ =>
    rw [Req.exec, hc]
    rotate_left
    · nofun
    simp only [H.bind_def]
    cases c.exec s <;> rfl

theorem Env.dels_nil {X : Type} (w : Env X) : w.dels [] = w := by
  cases w; simp only [Env.dels]; congr 1; simp

theorem Forest.dels_nil (F : Forest) : F.dels [] = F := by
  rw [Forest.dels, Env.dels_nil]


namespace View
variable {v : View} {hc : Nat → Nat} {q : Nat}

/-- The deletion of a child. -/
theorem deleted_good {e a b : Nat} {k : SyntaxKind} {cs : List Tree}
    (hN : v.Named fun x => 0 < hc x) (hf : v.Full fun x => 0 < hc x) (hq : 0 < hc q)
    (he : v.Victim hc e q a b) (hs : v.sub q = some (.node k cs)) (hm : v.mutable q = true) :
    (v.deleted e q a b).Named (fun x => 0 < hc x) ∧ (v.deleted e q a b).Full (fun x => 0 < hc x) ∧
      ∃ k cs, (v.deleted e q a b).sub q = some (.node k cs) := by
  have hw : v.width q = cs.length := by rw [width, hs]; rfl
  rw [deleted, hw]
  split
  next hd =>
    have hat := he hm hd.1 (by rw [hw]; exact hd.2)
    have hN' := cutAt_named hN hat
    obtain ⟨her, hat⟩ := hat
    have hca : (v.tree (v.pos q).1).at? ((v.pos q).2 ++ [a]) = some cs[a] := by
      rw [Tree.at?_snoc]
      rw [sub] at hs
      rw [hs]
      simp [Tree.children, hd.2]
    have hoff : ∀ y, 0 < hc y → ¬ v.Above y q →
        (v.cutAt e (v.pos q).1 (v.pos q).2 a).sub y = v.sub y := fun y hy hn =>
      cutAt_sub_off her (hat y hy).2 hca fun e1 hpre => hn ⟨e1, hpre⟩
    have hon : ∀ y, 0 < hc y → v.Above y q → ∃ R,
        (v.cutAt e (v.pos q).1 (v.pos q).2 a).sub y = (v.sub y).map (·.removeAt R a) := by
      rintro y hy ⟨a1, R, hR⟩
      exact ⟨R, (cutAt_sub_above her a1 hR.symm).2⟩
    refine ⟨hN', fun y hy => ?_, ?_⟩
    · by_cases ha : v.Above y q
      · obtain ⟨R, e1⟩ := hon y hy ha
        rw [e1]; simpa using hf y hy
      · rw [hoff y hy ha]; exact hf y hy
    · obtain ⟨R, e1⟩ := hon q hq ⟨rfl, List.prefix_refl _⟩
      obtain ⟨cs', e'⟩ := editKids_node k cs R (·.eraseIdx a)
      exact ⟨k, cs', by rw [e1, hs, Option.map_some, Tree.removeAt, e']⟩
  · exact ⟨hN, hf, k, cs, hs⟩

end View

namespace Sync
variable {s s' : HSt} {gs : List GElem} {lk lk' : List Nat} {F F' : Forest} {w w' : Env Nat} {v v' : View} {J J' : List Item}
  {top top' : Nat → Nat}

/-- `splice_children` on the view and on the forest. -/
theorem splice_sees (h : Sync s gs lk F w v J top) {jq : Item} (hq : jq ∈ J) {a b e : Nat} {ps : List (Nat × Nat)}
    (hps : ∀ x ∈ ps, x ∈ Item.objs J) (hok : F.splice jq.id a b (ps.map Prod.fst) ≠ .misuse)
    (hV : v.Victim (cnt (J.map Item.obj ++ lk)) e jq.obj a b) :
    match F.splice jq.id a b (ps.map Prod.fst) with
    | .ok F' => (F'.env.next = F.env.next ∧ F'.leaked = F.leaked) ∧ ∃ v' J' top',
        v.splice e jq.obj a b (ps.map Prod.snd) = .done v' ∧
        Sees v' F' (Item.dels J' (ps.map Prod.fst)) top' ∧ Item.objs J' = Item.objs J
    | .panic F' => (F'.env.next = F.env.next ∧ F'.leaked = F.leaked) ∧ ∃ v' J' top',
        (v.splice e jq.obj a b (ps.map Prod.snd)).Leaves v' J' top' (ps.map Prod.fst) F' (a + ps.length) ∧
        Sees v' F' (Item.dels J' (ps.map Prod.fst)) top' ∧ Item.objs J' = Item.objs J
    | .broken => (v.splice e jq.obj a b (ps.map Prod.snd)).breaks = true
    | .diverge => v.splice e jq.obj a b (ps.map Prod.snd) = .loops
    | .wild | .misuse => False := by
  letI : Greens := ⟨gs⟩
  obtain ⟨kids, hi⟩ := h.reach.ok'
  rw [Forest.splice, h.sees.get hq] at hok ⊢
  simp only at hok ⊢
  split at hok
  next hc =>
    rw [if_pos hc]
    rw [View.splice, h.sees.mutb jq hq]
    cases hm : F.mutable jq.tree with
    | false => exact ⟨⟨rfl, rfl⟩, v, J, top, .inl rfl, h.sees.dels _, rfl⟩
    | true =>
      simp only [Bool.true_eq_false, if_false]
      have hm' : v.mutable jq.obj = true := by rw [h.sees.mutb jq hq, hm]
      have hsub := h.content hq
      have hnode := hc.1
      rw [h.isNode hq] at hnode
      obtain ⟨k, cs, ht⟩ : ∃ k cs, s.tree jq.obj = .node k cs := by
        cases ht : s.tree jq.obj with
        | node k cs => exact ⟨k, cs, rfl⟩
        | token k x => rw [ht] at hnode; cases hnode
      have hvs : v.sub jq.obj = some (.node k cs) := by rw [← h.sees.sub hq, hsub, ht]
      obtain ⟨hN, hf, k', cs', hs'⟩ := View.deleted_good (h.views.named hi) (h.views.full hi) (mem hq) hV hvs hm'
      have hA : ∀ {J' : List Item}, Item.objs J' = Item.objs J → ∀ x ∈ Item.objs J', 0 < cnt (J.map Item.obj ++ lk) x.2 := by
        intro J' e' x hx
        rw [e'] at hx
        obtain ⟨j, hj, rfl⟩ := List.mem_map.mp hx
        exact mem hj
      -- the deletion
      have hdel : ∃ J1 top1, Sees (v.deleted e jq.obj a b)
          (if a < b ∧ a < F.width (jq.tree, jq.path) then F.cutAt jq.tree jq.path a else F) J1 top1 ∧
          Item.objs J1 = Item.objs J := by
        rw [View.deleted, h.sees.width hq]
        split
        next hd =>
          have hat := hV hm' hd.1 hd.2
          rw [h.sees.pos jq hq] at hat ⊢
          refine ⟨_, fun n => if n = F.fresh then e else top n, ?_, Item.move_objs (cutLoc jq.tree F.fresh jq.path a) J⟩
          refine h.sees.cutAt hq (fun j hj e' => ?_) ?_
          · refine (hat.2 j.obj (mem hj)).2 ?_
            rw [h.sees.pos j hj]; exact e'
          · have hw := hd.2
            rw [View.width, hvs] at hw
            rw [Tree.at?_snoc]
            rw [Forest.sub] at hsub
            rw [hsub, ht]
            have hw : a < cs.length := hw
            simp [Tree.children, hw]
        · exact ⟨J, top, h.sees, rfl⟩
      obtain ⟨J1, top1, h1, ho1⟩ := hdel
      have := h1.insertAll (q := jq.id) (qo := jq.obj) (gone := ps.map Prod.fst) ps a hN hf (hA ho1)
        (by rw [ho1]; exact List.mem_map.mpr ⟨jq, hq, rfl⟩)
        (by rw [show (v.deleted e jq.obj a b).mutable = v.mutable by rw [View.deleted]; split <;> rfl]; exact hm')
        ⟨k', cs', hs'⟩ (by rw [ho1]; exact hps)
      generalize hr : Forest.insertAll _ _ _ _ _ = o at this ⊢
      cases o with
      | ok F' =>
        obtain ⟨g1, v', J', top', g2, g3, g4⟩ := this
        refine ⟨⟨g1.1.trans ?_, g1.2.trans ?_⟩, v', J', top', g2, g3.dels _, g4.trans ho1⟩ <;> split <;> rfl
      | panic F' =>
        obtain ⟨g1, v', J', top', g2, g3, g4⟩ := this
        refine ⟨⟨g1.1.trans ?_, g1.2.trans ?_⟩, v', J', top', g2, g3.dels _, g4.trans ho1⟩ <;> split <;> rfl
      | _ => exact this
  next hc => exact absurd rfl hok

/-- Calls that move elements. -/
theorem splice (h : Sync s gs lk F w v J top) {jq : Item} (hq : jq ∈ J) {a b : Nat} {ps : List (Nat × Nat)} {c : Call}
    (hps : ∀ x ∈ ps, x ∈ Item.objs J) (hok : F.splice jq.id a b (ps.map Prod.fst) ≠ .misuse)
    (sp : c.Splices jq.obj a b (ps.map Prod.snd))
    (hr : c.Ready s gs (J.map Item.obj) ((Item.dels J (ps.map Prod.fst)).map Item.obj)) :
    c.exec s = .abort ∨
    match F.splice jq.id a b (ps.map Prod.fst) with
    | .ok F' => ∃ s', c.exec s = .ok [] s' ∧ Tracks s' gs lk F' (w.dels (ps.map Prod.fst))
    | .panic F' => ∃ y s', c.exec s = .panic y s' ∧ Tracks s' gs lk F' (w.dels (ps.map Prod.fst))
    | .broken => ∃ y s', c.exec s = .panic y s' ∧ Droppable s' ((w.dels (ps.map Prod.fst)).held.map Prod.snd)
    | .diverge => c.exec s = .diverge
    | .wild | .misuse => False := by
  letI : Greens := ⟨gs⟩
  obtain ⟨e, r, hx, hag, hvi⟩ := Call.exec_splice h.reach.ok' hr sp h.views
  rcases hvi with rfl | ⟨hvi, -⟩
  · exact .inl hx
  have hcnt : Cur.plus (cnt ((Item.dels J (ps.map Prod.fst)).map Item.obj ++ lk)) (ps.map Prod.snd) = cnt (J.map Item.obj ++ lk) := by
    rw [hr.cnt_eq, sp.uses (s := s).1]
  rw [hcnt] at hvi
  have hs := h.splice_sees hq hps hok hvi
  rcases hag with rfl | hag
  · exact .inl hx
  right
  -- what is left of the handles
  have hobj : ∀ {J' : List Item}, Item.objs J' = Item.objs J →
      (Item.dels J' (ps.map Prod.fst)).map Item.obj = (Item.dels J (ps.map Prod.fst)).map Item.obj := by
    intro J' g4
    rw [← Item.objs_snd, ← Item.objs_snd]
    have e1 := Item.dels_objs (w := ⟨0, Item.objs J'⟩) rfl (ps.map Prod.fst)
    have e2 := Item.dels_objs (w := ⟨0, Item.objs J⟩) rfl (ps.map Prod.fst)
    rw [← e1, ← e2, g4]
  have fin : ∀ {s' : HSt} {F' : Forest} {v' : View} {J' : List Item} {top' : Nat → Nat},
      F'.env.next = F.env.next ∧ F'.leaked = F.leaked → Sees v' F' (Item.dels J' (ps.map Prod.fst)) top' →
      Item.objs J' = Item.objs J → HReach s' gs ((Item.dels J (ps.map Prod.fst)).map Item.obj) lk →
      s'.Views (cnt ((Item.dels J (ps.map Prod.fst)).map Item.obj ++ lk)) v' →
      Tracks s' gs lk F' (w.dels (ps.map Prod.fst)) := by
    intro s' F' v' J' top' g1 g3 g4 hreach hv'
    refine finish (J' := Item.dels J' (ps.map Prod.fst)) (top' := top') ?_ ?_ g3 ?_ (g1.1.trans h.next) ?_
      (fun hlk => by rw [g1.2]; exact h.leak hlk)
    · rw [hobj g4]; exact hreach
    · rw [hobj g4]; exact hv'
    · exact Item.dels_objs (w := w) (by rw [h.held, g4]) _
    · intro j hj
      have hj := (Item.mem_dels.mp hj).1
      have : (j.id, j.obj) ∈ Item.objs J := by rw [← g4]; exact List.mem_map.mpr ⟨j, hj, rfl⟩
      obtain ⟨i, hi, e'⟩ := List.mem_map.mp this
      have := h.low i hi
      rw [(Prod.mk.inj e').1] at this
      exact this
  have drp : ∀ {s' : HSt}, c.exec s = .panic .range s' → Droppable s' ((w.dels (ps.map Prod.fst)).held.map Prod.snd) := by
    intro s' hx ds keep hp
    rw [Item.dels_objs (w := w) h.held, Item.objs_snd] at hp
    exact C38_drop_after_panic h.reach hr hx hp
  cases ho : F.splice jq.id a b (ps.map Prod.fst) with
  | ok F' =>
    rw [ho] at hs
    obtain ⟨g1, v', J', top', g2, g3, g4⟩ := hs
    rw [g2] at hag
    obtain ⟨s', rfl, -, -, hv'⟩ := hag
    have hreach := HReach.ok c h.reach hr hx
    rw [(sp.uses (s := s)).2.2.2.2, List.nil_append, List.nil_append] at hreach
    exact ⟨s', hx, fin g1 g3 g4 hreach hv'⟩
  | panic F' =>
    rw [ho] at hs
    obtain ⟨g1, v', J', top', g2, g3, g4⟩ := hs
    rcases g2 with g2 | ⟨p, i, g2, d1, d2, d3⟩
    · rw [g2] at hag
      obtain ⟨s', rfl, -, -, hv'⟩ := hag
      exact ⟨_, s', hx, fin g1 g3 g4 (HReach.caught c h.reach hr hx) hv'⟩
    · have hlk : lk = [] := by
        cases hlk : lk with
        | nil => rfl
        | cons x l => have := h.leak (by rw [hlk]; nofun); rw [← g1.2, d1] at this; cases this
      rw [g2] at hag
      obtain ⟨s', kids', rfl, -, hag⟩ := hag
      obtain ⟨-, hj⟩ := View.splice_outOfRange g2
      rw [List.length_map] at hj
      obtain ⟨hi', -, hv', hch, -⟩ := hag (by omega)
      -- no handle is in the tree of the element
      have hout : ∀ x, 0 < cnt ((Item.dels J (ps.map Prod.fst)).map Item.obj ++ lk) x → (v'.pos x).1 ≠ p := by
        intro x hx
        rw [hlk, List.append_nil, cnt_pos, ← hobj g4] at hx
        obtain ⟨j, hj, rfl⟩ := List.mem_map.mp hx
        rw [g3.pos j hj]
        exact d2 j (Item.mem_dels.mp hj).1 (Item.mem_dels.mp hj).2
      have hdead : s'.live p = false := by
        cases hl : s'.live p with
        | false => rfl
        | true =>
          obtain ⟨x, hx, hu⟩ := hi'.needed hl
          have hx := cnt_pos.mpr hx
          obtain ⟨l, hc, hm⟩ := hch x hx
          exact absurd (hm.mp (hu.mem hc)) (hout x hx)
      have hi2 := hi'.of_bad_dead (by simpa using hdead)
      have hreach := HReach.unwound c h.reach hr sp hx ⟨by rw [List.length_map]; exact d3, fun z _ y => hi2.no_stray⟩
      refine ⟨_, s', hx, fin g1 g3 g4 hreach fun x hx => hv' x ?_⟩
      rw [Cur.outside, if_neg (hout x hx)]; exact hx
  | broken =>
    rw [ho] at hs
    simp only at hs
    cases hv : v.splice e jq.obj a b (ps.map Prod.snd) with
    | done v' => rw [hv] at hs; cases hs
    | loops => rw [hv] at hs; cases hs
    | refused v' => rw [hv] at hs; cases hs
    | outOfRange v' p i =>
      rw [hv] at hag
      obtain ⟨s', kids, rfl, -⟩ := hag
      exact ⟨_, s', hx, drp hx⟩
    | tangled x y z =>
      rw [hv] at hag
      obtain ⟨s', kids, rfl, -⟩ := hag
      exact ⟨_, s', hx, drp hx⟩
  | diverge =>
    rw [ho] at hs
    simp only at hs
    rw [hs] at hag
    have hag : r = .diverge := hag
    rw [hag] at hx
    exact hx
  | wild => rw [ho] at hs; exact hs
  | misuse => exact absurd ho hok

end Sync
end Rowan
