import Verif.HeapReenterLemmas
import Verif.Props.Memory
import Verif.Props.Handles
/-!
# C64: searching by kind with a predicate that runs code
-/
namespace Rowan
open Cur (FirstBy NextBy SearchEnd Scan)

section
variable {C : Conf} {p : Nat} {M : Matcher} {nodes : Bool} {r : SearchEnd}

/-- C64, children, as far as it holds: if the predicate does not edit the tree at or below the node `p`, then whatever
else it does — edits of other trees and of other places of the same tree included, even moving `p` — the search does not
access freed memory.  The predicate is asked about the children in order until it
accepts one.  What it has done in the meantime has not changed the node, and the search returns the handle of the
accepted child. -/
theorem C64_children_partial (h : C.Reach) (hp : p ∈ C.hs) (hn : (C.s.tree p).isNode = true)
    (hM : M.Does (Call.Calm p) p) (hr : FirstBy nodes M p C r) :
    ∃ o C1, M.Picks nodes (C.s.tree p).children C o C1 ∧ C.Run (Call.Calm p) p C1 ∧
      C1.s.tree p = C.s.tree p ∧
      match o with
      | none => r = .done C1 (.ok none C1.s)
      | some i => r = .done C1 (Cur.childAt i p C1.s) := by
  obtain ⟨g, e, h1, h2, rfl⟩ := hr
  obtain ⟨n, hg⟩ := @Cur.node_green ⟨[]⟩ _ _ hn
  have hl := (C38_live h).1 hp
  have hgn : g = n := by
    letI : Greens := ⟨C.gs⟩
    obtain ⟨kids, hi⟩ := HReach.ok' h
    rw [Cur.greenRef_ok hi hl hg] at h1
    cases h1; rfl
  subst hgn
  have keep : ∀ C', C.Run (Call.Calm p) p C' → C'.s.green p = .node g := fun C' r =>
    (r.calm h hp .nil).2.1.trans hg
  have hold : ∀ C', C.Run (Call.Calm p) p C' → C'.Holds (.node g) := fun C' r => by
    obtain ⟨q, Q, _, a, b⟩ := C38_green (r.reach h) ((C38_live (r.reach h)).1 (r.held hp))
    exact ⟨_, List.mem_append_left _ a, keep C' r ▸ b⟩
  obtain ⟨o, C1, h3, h4, h5⟩ := h2.picks hM hold
  refine ⟨o, C1, ?_, h4, by rw [HSt.tree, keep C1 h4, HSt.tree, hg], ?_⟩
  · rw [HSt.tree, hg]
    exact (zipIdx_trees g).symm ▸ h3
  · cases o with
    | none => simp only at h5; subst h5; rfl
    | some i =>
      obtain ⟨c, j, h6, rfl⟩ := h5
      letI : Greens := ⟨C1.gs⟩
      obtain ⟨kids, hi⟩ := HReach.ok' (h4.reach h)
      simp only [Scan.End.finish, Cur.childAt]
      rw [H.bind_ok (Cur.greenRef_ok hi ((C38_live (h4.reach h)).1 (h4.held hp)) (keep C1 h4)), h6]

/-- C64, siblings, as far as it holds: the same for the elements after `p` among the children of its parent `q`, if the
predicate does not edit the tree at or below `q`.  The
handle returned denotes the accepted one, and the other handles denote what they did. -/
theorem C64_siblings_partial (h : C.Reach) (hp : p ∈ C.hs)
    (hM : ∀ q, C.s.parent p = some q → M.Does (Call.Calm q) p) (hr : NextBy nodes M p C r) :
    (C.s.parent p = none ∧ r = .done C (.ok none C.s)) ∨
    ∃ q o C1, C.s.parent p = some q ∧ M.Picks nodes ((C.s.tree q).children.drop (C.s.index p + 1)) C o C1 ∧
      C.Run (Call.Calm q) p C1 ∧ C1.s.parent p = some q ∧ C1.s.index p = C.s.index p ∧ C1.s.tree q = C.s.tree q ∧
      match o with
      | none => r = .done C1 (.ok none C1.s)
      | some i => r = .done C1 .abort ∨ ∃ y s', r = .done C1 (.ok (some y) s') ∧
          ∀ v, C1.s.Views (cnt (C1.hs ++ C1.lk)) v → ∃ v', s'.Views (cnt ([y] ++ (C1.hs ++ C1.lk))) v' ∧
            v.Found (C1.hs ++ C1.lk) (v.pos p).1 (v.mutable p)
              (some ((v.pos p).2.dropLast ++ [C.s.index p + 1 + i])) [y] v' := by
  have hl := (C38_live h).1 hp
  cases hpar : C.s.parent p with
  | none => rw [NextBy, hpar] at hr; exact .inl ⟨rfl, hr⟩
  | some q =>
  right
  rw [NextBy, hpar] at hr
  obtain ⟨g, e, h1, h2, rfl⟩ := hr
  have hg : C.s.green q = .node g := by
    letI : Greens := ⟨C.gs⟩
    obtain ⟨kids, hi⟩ := HReach.ok' h
    obtain ⟨n, c, a1, a2, _⟩ := hi.greenOk p q hl hpar (by simp)
    have hlq := (C38_live h).2 q hl hpar
    rw [Cur.greenRef_ok hi hlq a1] at h1
    cases h1
    exact a1
  have hro : C.s.Route q p [p] := .cons hpar .nil
  have keep : ∀ C', C.Run (Call.Calm q) p C' → C'.s.green q = .node g ∧ C'.s.live q = true := fun C' r =>
    ⟨(r.calm h hp hro).2.1.trans hg, (r.calm h hp hro).1⟩
  have hold : ∀ C', C.Run (Call.Calm q) p C' → C'.Holds (.node g) := fun C' r => by
    obtain ⟨q', Q, _, a, b⟩ := C38_green (r.reach h) (keep C' r).2
    exact ⟨_, List.mem_append_left _ a, (keep C' r).1 ▸ b⟩
  obtain ⟨o, C1, h3, h4, h5⟩ := h2.picks (hM q hpar) hold
  have kp := ((h4.calm h hp hro).2.2.2 p (by simp)).2
  refine ⟨q, o, C1, rfl, ?_, h4, kp.parent.trans hpar, kp.index, by rw [HSt.tree, (keep C1 h4).1, HSt.tree, hg], ?_⟩
  · rw [HSt.tree, hg]
    rw [List.map_drop] at h3
    exact (zipIdx_trees g).symm ▸ h3
  · cases o with
    | none => simp only at h5; subst h5; rfl
    | some i =>
      obtain ⟨c, j, h6, rfl⟩ := h5
      rw [List.getElem?_drop] at h6
      have hj : j = C.s.index p + 1 + i := by
        have := List.getElem?_zipIdx (l := g.slice) (i := 0) (j := C.s.index p + 1 + i)
        rw [h6] at this
        cases hs : g.slice[C.s.index p + 1 + i]? with
        | none => rw [hs] at this; cases this
        | some d => rw [hs] at this; simp at this; exact this.2
      subst hj
      letI : Greens := ⟨C1.gs⟩
      obtain ⟨kids, hi⟩ := HReach.ok' (h4.reach h)
      have hl1 := (C38_live (h4.reach h)).1 (h4.held hp)
      obtain ⟨r, P, hloc⟩ := HReach.loc (h4.reach h) (h4.held hp)
      have hpp : C1.s.parent p = some q := kp.parent.trans hpar
      generalize hR : (some (c, C.s.index p + 1 + i) : Option (GChild × Nat)) = R
      simp only [Scan.End.finish, hR]
      cases hloc with
      | root _ e => rw [hpp] at e; cases e
      | @child _ q' _ P hlp e hq =>
      rw [hpp] at e; cases e
      have hloc : C1.s.Loc p r (P ++ [C1.s.index p]) := .child hl1 hpp hq
      have w := Cur.viaParent_ok (o := R) hi hl1 hpp hq (keep C1 h4).1 (by
        rintro x rfl; cases hR; exact List.mem_of_getElem? h6)
      subst hR
      rw [H.wp] at w
      cases hz : Cur.viaParent p (some (c, C.s.index p + 1 + i)) C1.s with
      | abort => exact .inl rfl
      | ub => rw [hz] at w; exact w.elim
      | diverge => rw [hz] at w; exact w.elim
      | panic => rw [hz] at w; exact w.elim
      | ok o s' =>
        rw [hz] at w
        obtain ⟨a, b⟩ := w
        cases o with
        | none => exact b.elim
        | some y =>
        refine .inr ⟨y, s', rfl, fun v hv => ?_⟩
        have hp1 : 0 < cnt (C1.hs ++ C1.lk) p := cnt_pos.mpr (List.mem_append_left _ (h4.held hp))
        obtain ⟨v1, v2, v3⟩ := hv p hp1
        have hpos := hv.pos_eq hp1 hloc
        have hkr := a.grows.keeps _ hloc.root_live.1
        have b' : s'.Loc y r (P ++ [C.s.index p + 1 + i]) := b
        obtain ⟨kids', ok⟩ := a.ok
        have ht : C1.s.tree r = v.tree r := by rw [hpos] at v2; exact v2
        obtain ⟨v', f1, f2⟩ := Call.views_found (o := some y) (spec := some (P ++ [C.s.index p + 1 + i]))
          (m := v.mutable p) (fun _ _ => a.ok)
          (hv.of_stable ⟨kids, hi⟩ (.of_grows a.grows)) b' (fun x _ => by rw [HSt.tree, hkr.2.green]; exact ht)
          (fun x e => by
            cases e
            rw [← ok.mutable_root b', hkr.2.mutable, hi.mutable_root hloc]; exact v3)
        refine ⟨v', f1, ?_⟩
        rw [hpos]
        simpa using f2

/-- The search with a predicate that only looks at the kind is the function modelled in `Verif.Heap`. -/
theorem C64_pure_children {m : SyntaxKind → Bool} (h : C.Reach) (hp : p ∈ C.hs) (hn : (C.s.tree p).isNode = true) :
    FirstBy nodes (.pure m) p C r ↔
      r = .done C ((if nodes then Cur.firstChildByKind m p else Cur.firstChildOrTokenByKind m p) C.s) := by
  obtain ⟨g, hg⟩ := @Cur.node_green ⟨[]⟩ _ _ hn
  have hl := (C38_live h).1 hp
  have hgr := h.greenRef hl hg
  have hold : C.Holds (.node g) := by
    obtain ⟨q, Q, _, a, b⟩ := C38_green h hl
    exact ⟨_, List.mem_append_left _ a, hg ▸ b⟩
  have key : FirstBy nodes (.pure m) p C r ↔ r = .done C (Cur.viaSelf p
      (g.slice.zipIdx.find? fun x => Cur.kindOk m x && !(nodes && !Cur.isNode x)) C.s) := by
    constructor
    · rintro ⟨g', e, h1, h2, rfl⟩
      rw [hgr] at h1; cases h1
      rw [(Cur.Scan.of_pure hold _ _).mp h2]
      cases List.find? _ g.slice.zipIdx <;> rfl
    · rintro rfl
      refine ⟨g, _, hgr, (Cur.Scan.of_pure hold _ _).mpr rfl, ?_⟩
      cases List.find? _ g.slice.zipIdx <;> rfl
  rw [key]
  cases nodes with
  | false => simp [Cur.firstChildOrTokenByKind, H.bind_ok hgr, show (fun x => Cur.kindOk m x) = Cur.kindOk m from rfl]
  | true => simp [Cur.firstChildByKind, H.bind_ok hgr]

/-- The same for siblings. -/
theorem C64_pure_siblings {m : SyntaxKind → Bool} (h : C.Reach) (hp : p ∈ C.hs) :
    NextBy nodes (.pure m) p C r ↔
      r = .done C ((if nodes then Cur.nextSiblingByKind m p else Cur.nextSiblingOrTokenByKind m p) C.s) := by
  letI : Greens := ⟨C.gs⟩
  obtain ⟨kids, hi⟩ := HReach.ok' h
  obtain ⟨r', P', hloc⟩ := HReach.loc h hp
  have hix : Cur.index p C.s = .ok (C.s.index p) C.s := Cur.index_ok hloc.live
  rcases Cur.siblings hi hloc with ⟨h1, _, h2⟩ | ⟨q, P, g, h1, _, h3, hg, h2, _⟩
  · rw [NextBy, h1]
    cases nodes with
    | false => simp [Cur.nextSiblingOrTokenByKind, H.bind_ok h2, H.bind_ok hix, Cur.viaParent]
    | true => simp [Cur.nextSiblingByKind, H.bind_ok h2, H.bind_ok hix, Cur.viaParent]
  · have hgr := h.greenRef h3.live hg
    have hold : C.Holds (.node g) := by
      obtain ⟨q, Q, _, a, b⟩ := C38_green h h3.live
      exact ⟨_, List.mem_append_left _ a, hg ▸ b⟩
    have key : NextBy nodes (.pure m) p C r ↔ r = .done C (Cur.viaParent p
        ((g.slice.zipIdx.drop (C.s.index p + 1)).find? fun x => Cur.kindOk m x && !(nodes && !Cur.isNode x)) C.s) := by
      rw [NextBy, h1]
      constructor
      · rintro ⟨g', e, h1, h2, rfl⟩
        rw [hgr] at h1; cases h1
        rw [(Cur.Scan.of_pure hold _ _).mp h2]
        cases List.find? _ (g.slice.zipIdx.drop _) <;> rfl
      · rintro rfl
        refine ⟨g, _, hgr, (Cur.Scan.of_pure hold _ _).mpr rfl, ?_⟩
        cases List.find? _ (g.slice.zipIdx.drop _) <;> rfl
    rw [key]
    cases nodes with
    | false => simp [Cur.nextSiblingOrTokenByKind, H.bind_ok h2, H.bind_ok hix, show (fun x => Cur.kindOk m x) = Cur.kindOk m from rfl]
    | true => simp [Cur.nextSiblingByKind, H.bind_ok h2, H.bind_ok hix]

end

/-! ## Why it does not hold in general -/

/-- C64 is false: a safe program that holds a mutable tree and no green nodes searches a child with a predicate that
detaches the first child.  This frees the green node whose slice of children the search is iterating over. -/
theorem C64_fails : ∃ (C : Conf) (p c : Nat) (M : Matcher), C.Reach ∧ p ∈ C.hs ∧ (C.s.tree p).isNode = true ∧
    M.Does (fun _ call => call = .detach c) p ∧ FirstBy false M p C .freed := by
  letI : Greens := ⟨[]⟩
  have e : (match (Call.detach 1).exec demo3.s with
    | .ok [] s' => !s'.holds (demo3.s.green 0).addr
    | _ => false) = true := by decide +kernel
  split at e
  · rename_i s' h
    obtain ⟨g, hg⟩ := Cur.node_green (s := demo3.s) (q := 0) (by decide +kernel)
    have hk : (demo3.s.tree 0).children.length = 3 := by decide +kernel
    rw [HSt.tree, hg] at hk
    have hk : g.slice.length = 3 := by simpa [GNode.children_length] using hk
    obtain ⟨x, xs, hx⟩ : ∃ x xs, g.slice.zipIdx = x :: xs ∧ xs ≠ [] := by
      cases hz : g.slice.zipIdx with
      | nil => have := congrArg List.length hz; simp [hk] at this
      | cons x xs =>
        refine ⟨x, xs, rfl, ?_⟩
        rintro rfl
        have := congrArg List.length hz; simp [hk] at this
    obtain ⟨hx, hxs⟩ := hx
    obtain ⟨x', xs', rfl⟩ := List.exists_cons_of_ne_nil hxs
    refine ⟨demo3, 0, 1, fun _ C b C' => 0 ∈ C.hs ∧ b = false ∧ C.Step (some (.detach 1, C.hs)) C', demo3_reach,
      by decide +kernel, by decide +kernel, ?_, g, .freed, ?_, ?_, rfl⟩
    · rintro k C b C' ⟨h1, _, h2⟩
      exact .step .refl h2 (by rintro c rest ⟨⟩; exact ⟨h1, rfl⟩)
    · exact demo3_reach.greenRef (by decide +kernel) hg
    · rw [hx]
      refine .no (C1 := ⟨s', demo3.gs, [] ++ demo3.hs, [] ++ demo3.lk⟩) ?_ ⟨by decide +kernel, rfl,
        .ok demo3 (.detach 1) (rest := demo3.hs) ⟨.refl _, by decide +kernel, by simp [Call.nodes], by simp⟩ h⟩ (.freed ?_)
      · obtain ⟨r, P, _, h1, h2⟩ := C38_green (p := 0) demo3_reach (by decide +kernel)
        exact ⟨_, List.mem_append_left _ h1, hg ▸ h2⟩
      · rintro ⟨o, ho, hs⟩
        rw [show demo3.gs = [] by rw [demo3], List.append_nil] at ho
        have : s'.holds (demo3.s.green 0).addr = true :=
          List.any_eq_true.mpr ⟨o, ho, List.any_eq_true.mpr ⟨_, hs, by rw [hg]; simp⟩⟩
        rw [this] at e; cases e
  · cases e

/-- A mutable tree `[a b [cc]]` with a handle on its last child. -/
def demo64 : Conf := after [
  .token 1 ['a'], .token 1 ['b'], .token 2 ['c', 'c'], .node 10 [0], .node 20 [3, 2, 0],
  .root true 0, .call (.nav .lastChildOrToken 0)]
theorem demo64_reach : demo64.Reach := after_reach _
attribute [irreducible] demo64

/-- C64 is false also when the program holds on to the green node: the predicate detaches the last child of `p` and
accepts it.  The search returns a second object for this child, below `p` although `p` does not have the child any more,
and without a reference to its green data: once the program has dropped the other handles on the child, and its green
nodes, asking for the kind accesses freed memory. -/
theorem C64_stale : ∃ (C C1 : Conf) (p c : Nat) (M : Matcher), C.Reach ∧ p ∈ C.hs ∧ (C.s.tree p).isNode = true ∧
    M.Does (fun _ call => call = .detach c) p ∧ ∃ y s' ds s'', FirstBy true M p C (.done C1 (.ok (some y) s')) ∧
      s'.Stray y p ∧ (∀ d ∈ ds, d ∈ C1.hs ∧ d ≠ y) ∧ Cur.dropAll ds s' = .ok () s'' ∧ Cur.kind y s'' = .ub := by
  letI : Greens := ⟨[]⟩
  have e : (match demo64.s.green 0 with
    | .node g =>
      match g.slice.zipIdx with
      | [x0, x1, x2] => x0.1.asRef.kind == 1 && x1.1.asRef.kind == 1 && x2.1.asRef.kind == 10 && Cur.isNode x2 &&
        match (Call.detach 1).exec demo64.s with
        | .ok [] s1 =>
          match Cur.viaSelf 0 (some x2) s1 with
          | .ok (some y) s' =>
            s'.live y && s'.parent y == some 0 && (s'.tree 0).children.length ≤ s'.index y && y == 2 &&
            match Cur.dropAll [1] s' with
            | .ok () s'' => match Cur.kind y s'' with
              | .ub => true
              | _ => false
            | _ => false
          | _ => false
        | _ => false
      | _ => false
    | _ => false) = true := by decide +kernel
  split at e
  case h_2 => cases e
  rename_i g hg
  split at e
  case h_2 => cases e
  rename_i x0 x1 x2 hx
  simp only [Bool.and_eq_true, beq_iff_eq] at e
  obtain ⟨⟨⟨⟨k0, k1⟩, k2⟩, hn⟩, e⟩ := e
  split at e
  case h_2 => cases e
  rename_i s1 hd
  split at e
  case h_2 => cases e
  rename_i y s' hy
  simp only [Bool.and_eq_true, beq_iff_eq, decide_eq_true_eq] at e
  obtain ⟨⟨⟨⟨e1, e2⟩, e3⟩, rfl⟩, e⟩ := e
  split at e
  case h_2 => cases e
  rename_i s'' hds
  split at e
  case h_2 => cases e
  rename_i hub
  have hhs : demo64.hs = [1, 0] := by decide +kernel
  let D : Conf := ⟨demo64.s, demo64.s.green 0 :: demo64.gs, demo64.hs, demo64.lk⟩
  have hD : D.Reach := HReach.green demo64_reach (by decide +kernel)
  let D1 : Conf := ⟨s1, D.gs, [] ++ D.hs, [] ++ D.lk⟩
  have st : D.Step (some (.detach 1, D.hs)) D1 :=
    .ok D (.detach 1) (rest := D.hs) ⟨.refl _, by rw [hhs]; simp [Call.uses], by simp [Call.nodes], by simp⟩ hd
  have holds : ∀ s hs lk, Conf.Holds ⟨s, D.gs, hs, lk⟩ (.node g) := fun s hs lk =>
    ⟨_, List.mem_append_right _ (List.mem_cons_self ..), hg ▸ GElem.self_mem_subs _⟩
  refine ⟨D, D1, 0, 1,
    fun k C b C' => if k = 10 then b = true ∧ 0 ∈ C.hs ∧ C.Step (some (.detach 1, C.hs)) C' else b = false ∧ C' = C,
    hD, by rw [hhs]; simp, by decide +kernel, ?_, 2, s', [1], s'', ⟨g, .found x2.1 x2.2 D1, ?_, ?_, ?_⟩,
    ⟨e1, e2, e3⟩, ?_, hds, hub⟩
  · intro k C b C' h
    split at h
    · exact .step .refl h.2.2 (by rintro c rest ⟨⟩; exact ⟨h.2.1, rfl⟩)
    · rw [h.2]; exact .refl
  · exact hD.greenRef (by decide +kernel) hg
  · rw [hx]
    refine .no (holds _ _ _) (C1 := D) ?_ (.no (holds _ _ _) (C1 := D) ?_
      (.yes (holds _ _ _) ?_ (holds _ _ _) ?_))
    · rw [k0]; exact ⟨rfl, rfl⟩
    · rw [k1]; exact ⟨rfl, rfl⟩
    · rw [k2]; exact ⟨rfl, by rw [hhs]; simp, st⟩
    · rw [show (x2.1, x2.2) = x2 from rfl, hn]; rfl
  · simp only [Scan.End.finish]; rw [show (x2.1, x2.2) = x2 from rfl, hy]
  · simp [D1, D, hhs]

/-! ## Concrete cases -/

/-- The predicate that makes the call `c` and says yes. -/
def Matcher.calls (p : Nat) (c : Call) : Matcher := fun _ C b C' =>
  b = true ∧ p ∈ C.hs ∧ c.Calm p C.s ∧ C.Step (some (c, C.hs)) C'

theorem Matcher.calls_does (p : Nat) (c : Call) : (Matcher.calls p c).Does (Call.Calm p) p := by
  rintro k C b C' ⟨_, h1, h2, h3⟩
  exact .step .refl h3 (by rintro c rest ⟨⟩; exact ⟨h1, h2⟩)

theorem Matcher.calls_first {C C1 : Conf} {p : Nat} {c : Call} (h : C.Reach) (hp : p ∈ C.hs)
    (hn : (C.s.tree p).isNode = true) (hk : (C.s.tree p).children ≠ []) (hc : c.Calm p C.s)
    (st : C.Step (some (c, C.hs)) C1) : ∃ r, FirstBy false (.calls p c) p C r := by
  obtain ⟨g, hg⟩ := @Cur.node_green ⟨[]⟩ _ _ hn
  have hl := (C38_live h).1 hp
  have run : C.Run (Call.Calm p) p C1 := Matcher.calls_does p c 0 C true C1 ⟨rfl, hp, hc, st⟩
  have hold : ∀ C', C.Run (Call.Calm p) p C' → C'.Holds (.node g) := fun C' r => by
    obtain ⟨q, Q, _, a, b⟩ := C38_green (r.reach h) ((C38_live (r.reach h)).1 (r.held hp))
    exact ⟨_, List.mem_append_left _ a, (r.calm h hp .nil).2.1.trans hg ▸ b⟩
  rw [HSt.tree, hg] at hk
  cases hz : g.slice.zipIdx with
  | nil => exact absurd (by rw [show GElem.tree (.node g) = g.tree from rfl, zipIdx_trees, hz]; rfl) hk
  | cons x xs =>
    exact ⟨_, g, .found x.1 x.2 C1, h.greenRef hl hg,
      hz ▸ .yes (hold _ .refl) ⟨rfl, hp, hc, st⟩ (hold _ run) rfl, rfl⟩

/-- In the immutable tree of `demo`, with a predicate that detaches a child of the mutable tree: the search finds the
first child. -/
example : ∃ C1 r, FirstBy false (.calls 5 (.detach 2)) 5 demo r ∧ r = .done C1 (Cur.childAt 0 5 C1.s) ∧
    C1.s.tree 5 = demoTree := by
  obtain ⟨s', h1, _, h3, _⟩ := C33_detach demo_reach (p := 2) (by decide +kernel) (by decide +kernel) demo_loc2
  have st : demo.Step (some (.detach 2, demo.hs)) ⟨s', demo.gs, [] ++ demo.hs, [] ++ demo.lk⟩ :=
    .ok demo (.detach 2) (rest := demo.hs) ⟨.refl _, by decide +kernel, by simp [Call.nodes], by simp⟩
      (by simp only [Call.exec, H.bind_def, h1]; rfl)
  obtain ⟨r, hr⟩ := Matcher.calls_first (p := 5) demo_reach (by decide +kernel) (by decide +kernel)
    (by rw [demo_tree.2]; simp [demoTree, Tree.children]) (fun h => absurd h (by decide +kernel)) st
  obtain ⟨o, C1, h4, h5, h6, h7⟩ := C64_children_partial demo_reach (p := 5) (by decide +kernel) (by decide +kernel)
    (Matcher.calls_does 5 (.detach 2)) hr
  rw [demo_tree.2] at h6
  refine ⟨C1, r, hr, ?_, h6⟩
  rw [demo_tree.2] at h4
  cases h4 with
  | here => exact h7
  | next hm hb =>
    obtain ⟨rfl, _⟩ := hm
    simp at hb
/-- In the mutable tree, with a predicate that clones a handle. -/
example : ∃ r, FirstBy false (.calls 0 (.clone 2)) 0 demo r := by
  have e : (match (Call.clone 2).exec demo.s with | .ok [2] _ => true | _ => false) = true := by decide +kernel
  split at e
  · rename_i s' h
    exact Matcher.calls_first (p := 0) demo_reach (by decide +kernel) (by decide +kernel)
      (by rw [demo_tree.1]; simp [demoTree, Tree.children]) (fun _ h => h)
      (.ok demo (.clone 2) (rest := demo.hs) ⟨.refl _, by decide +kernel, by simp [Call.nodes], by simp⟩ h)
  · cases e
/-- Detaching the token `b` of `demo` does not change the node after it. -/
theorem demo_calm : (Call.detach 2).Calm 3 demo.s := by
  letI : Greens := ⟨[]⟩
  rintro - ⟨⟨r, P, Q, h1, h2⟩, -⟩
  obtain ⟨rfl, rfl⟩ := h1.unique demo_loc3
  obtain ⟨-, e⟩ := h2.unique demo_loc2
  simp at e
theorem demo_step : ∃ s', demo.Step (some (.detach 2, demo.hs)) ⟨s', demo.gs, [] ++ demo.hs, [] ++ demo.lk⟩ := by
  obtain ⟨s', h1, _⟩ := C33_detach demo_reach (p := 2) (by decide +kernel) (by decide +kernel) demo_loc2
  exact ⟨s', .ok demo (.detach 2) (rest := demo.hs) ⟨.refl _, by decide +kernel, by simp [Call.nodes], by simp⟩
      (by simp only [Call.exec, H.bind_def, h1]; rfl)⟩
/-- In the mutable tree of `demo`, the predicate detaches the token `b` while the children of the node after it are
searched: the search finds the first child, which the node still has. -/
example : ∃ C1 r, FirstBy false (.calls 3 (.detach 2)) 3 demo r ∧ r = .done C1 (Cur.childAt 0 3 C1.s) ∧
    C1.s.tree 3 = .node 10 [.token 2 ['c', 'c']] := by
  have ht : demo.s.tree 3 = .node 10 [.token 2 ['c', 'c']] := by decide +kernel
  obtain ⟨s', st⟩ := demo_step
  obtain ⟨r, hr⟩ := Matcher.calls_first (p := 3) demo_reach (by decide +kernel) (by decide +kernel)
    (by rw [ht]; simp [Tree.children]) demo_calm st
  obtain ⟨o, C1, h4, h5, h6, h7⟩ := C64_children_partial demo_reach (p := 3) (by decide +kernel) (by decide +kernel)
    (Matcher.calls_does 3 (.detach 2)) hr
  refine ⟨C1, r, hr, ?_, by rw [h6, ht]⟩
  rw [ht] at h4
  cases h4 with
  | here => exact h7
  | next hm hb =>
    obtain ⟨rfl, _⟩ := hm
    simp at hb
/-- A mutable tree `[x [a b]]` with handles on its elements but `b`. -/
def demo64b : Conf := after [
  .token 1 ['x'], .token 1 ['a'], .token 1 ['b'], .node 10 [1, 0], .node 20 [3, 0],
  .root true 0, .call (.nav .firstChildOrToken 0), .call (.nav .lastChildOrToken 0), .call (.nav .firstChildOrToken 2)]
theorem demo64b_reach : demo64b.Reach := after_reach _
attribute [irreducible] demo64b
/-- The predicate detaches `x` while the siblings after `a` are searched, and accepts: the search returns a handle on
`b`, which has moved with its parent. -/
example : ∃ M : Matcher, (∀ q, demo64b.s.parent 3 = some q → M.Does (Call.Calm q) 3) ∧
    ∃ C1 r, NextBy false M 3 demo64b r ∧ C1.s.parent 1 = none ∧
      (r = .done C1 .abort ∨ ∃ y s', r = .done C1 (.ok (some y) s')) := by
  letI : Greens := ⟨[]⟩
  have l0 : demo64b.s.Loc 0 0 [] := .root (by decide +kernel) (by decide +kernel)
  have l1 : demo64b.s.Loc 1 0 ([] ++ [0]) := .child' (q := 0) (by decide +kernel) (by decide +kernel) (by decide +kernel) l0
  have l2 : demo64b.s.Loc 2 0 ([] ++ [1]) := .child' (q := 0) (by decide +kernel) (by decide +kernel) (by decide +kernel) l0
  obtain ⟨s', h1, _, h3, _⟩ := C33_detach demo64b_reach (p := 1) (by decide +kernel) (by decide +kernel) l1
  have st : demo64b.Step (some (.detach 1, demo64b.hs)) ⟨s', demo64b.gs, [] ++ demo64b.hs, [] ++ demo64b.lk⟩ :=
    .ok demo64b (.detach 1) (rest := demo64b.hs) ⟨.refl _, by decide +kernel, by simp [Call.nodes], by simp⟩
      (by simp only [Call.exec, H.bind_def, h1]; rfl)
  have hp : demo64b.s.parent 3 = some 2 := by decide +kernel
  have hcalm : (Call.detach 1).Calm 2 demo64b.s := by
    rintro - ⟨⟨r, P, Q, h1, h2⟩, -⟩
    obtain ⟨rfl, rfl⟩ := h1.unique l2
    obtain ⟨-, e⟩ := h2.unique l1
    simp at e
  obtain ⟨g, hg⟩ := Cur.node_green (s := demo64b.s) (q := 2) (by decide +kernel)
  let M : Matcher := fun _ C b C' => b = true ∧ 3 ∈ C.hs ∧ (Call.detach 1).Calm 2 C.s ∧ C.s.parent 1 = some 0 ∧
    C.Step (some (.detach 1, C.hs)) C' ∧ C'.s.parent 1 = none
  have hM : ∀ q, demo64b.s.parent 3 = some q → M.Does (Call.Calm q) 3 := by
    rintro q hq k C b C' ⟨_, h1, h2, _, h3, _⟩
    rw [hp] at hq; cases hq
    exact .step .refl h3 (by rintro c rest ⟨⟩; exact ⟨h1, h2⟩)
  have hlen : (demo64b.s.tree 2).children.length = 2 := by decide +kernel
  rw [HSt.tree, hg] at hlen
  have hlen : g.slice.length = 2 := by simpa [GNode.children_length] using hlen
  obtain ⟨x0, x1, hz⟩ : ∃ x0 x1, g.slice.zipIdx = [x0, x1] := by
    have : g.slice.zipIdx.length = 2 := by rw [List.length_zipIdx, hlen]
    match hz : g.slice.zipIdx, this with
    | [a, b], _ => exact ⟨a, b, rfl⟩
  have hix : demo64b.s.index 3 = 0 := by decide +kernel
  have hm : M x1.1.asRef.kind demo64b true ⟨s', demo64b.gs, [] ++ demo64b.hs, [] ++ demo64b.lk⟩ :=
    ⟨rfl, by decide +kernel, hcalm, by decide +kernel, st, h3.nil_root.2⟩
  have hold : ∀ C', demo64b.Run (Call.Calm 2) 3 C' → C'.Holds (.node g) := fun C' r => by
    obtain ⟨a1, a2, _⟩ := r.calm demo64b_reach (by decide +kernel) (.cons hp .nil)
    obtain ⟨q, Q, _, a, b⟩ := C38_green (r.reach demo64b_reach) a1
    exact ⟨_, List.mem_append_left _ a, (a2.trans hg) ▸ b⟩
  have hr : NextBy false M 3 demo64b (Scan.End.finish (Cur.viaParent 3)
      (.found x1.1 x1.2 ⟨s', demo64b.gs, [] ++ demo64b.hs, [] ++ demo64b.lk⟩)) := by
    rw [NextBy, hp]
    refine ⟨g, _, demo64b_reach.greenRef (by decide +kernel) hg, ?_, rfl⟩
    rw [hz, hix]
    have hm' := hM 2 hp x1.1.asRef.kind _ _ _ hm
    exact .yes (hold _ .refl) hm (hold _ hm') (by rfl)
  rcases C64_siblings_partial demo64b_reach (by decide +kernel) hM hr with ⟨e, _⟩ | ⟨q, o, C1, h6, h4, _, _, _, _, h5⟩
  · rw [hp] at e; cases e
  · rw [hp] at h6; cases h6
    have ht : (demo64b.s.tree 2).children = [.token 1 ['a'], .token 1 ['b']] := by decide +kernel
    rw [ht, hix] at h4
    cases h4 with
    | here hm =>
      refine ⟨M, hM, C1, _, hr, hm.2.2.2.2.2, h5.imp_right fun ⟨y, s'', e, _⟩ => ⟨y, s'', e⟩⟩
    | next hm hb =>
      obtain ⟨rfl, _⟩ := hm
      simp at hb
theorem Matcher.pure_does (m : SyntaxKind → Bool) (P : HSt → Call → Prop) (p : Nat) : (Matcher.pure m).Does P p := by
  rintro k C b C' ⟨_, rfl⟩
  exact .refl
example := C64_children_partial (nodes := true) demo_reach (p := 0) (by decide +kernel) (by decide +kernel)
  (Matcher.pure_does (fun k => k == 10) _ _)
  ((C64_pure_children demo_reach (by decide +kernel) (by decide +kernel)).mpr rfl)
example := C64_siblings_partial (nodes := true) demo_reach (p := 1) (by decide +kernel)
  (fun _ _ => Matcher.pure_does (fun k => k == 10) _ _) ((C64_pure_siblings demo_reach (by decide +kernel)).mpr rfl)
/-- Among the siblings after token `a`, the predicate accepts the node: it has index 2. -/
example : ∃ s', Cur.nextSiblingByKind (fun k => k == 10) 1 demo.s = .ok (some 3) s' := by
  have e : (match Cur.nextSiblingByKind (fun k => k == 10) 1 demo.s with
    | .ok (some 3) _ => true | _ => false) = true := by decide +kernel
  split at e
  · exact ⟨_, by assumption⟩
  · cases e

end Rowan
