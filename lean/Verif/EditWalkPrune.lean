import Verif.EditWalkRun
/-!
# Loops over walks

The definitions in this file are vocabulary of the proofs and model no code.
-/
namespace Rowan
namespace EProg

/-- The forest after the handle of the next event was made. -/
def nextF (F : Forest) (r : Nat) : Option (WalkEvent (List Nat)) → Forest
  | none => F
  | some e => F.add (r, e.elem)

variable {N : Option Nat} {F F1 F2 F3 : Forest} {nodes : Bool} {p r k : Nat} {S : List Nat} {e : WalkEvent (List Nat)} {t u : Tree}
  {it : Walk} {body : WalkEvent Nat → Sight → EProg Unit} {o : Sight} {l : List (WalkEvent Sight)}

/-- The iterator after a call of `next`. -/
def Walk.after (it : Walk) (F : Forest) (o : Option (WalkEvent (List Nat))) : Walk :=
  { it with next := o.map (·.map fun _ => F.env.next), skip := false }

theorem Runs.walkNext (hk : it.skip = false) (hn : it.next = some (e.map fun _ => p)) (hs : F.env.get it.start = some (r, S))
    (hp : F.env.get p = some (r, e.elem)) (hS : S <+: e.elem) (hu : F.sub (r, S) = some u) (ht : F.sub (r, e.elem) = some t)
    (hN : Fits N F 2) :
    Runs N (walkNext nodes it) F (it.next, it.after F (evNext (visited nodes) (F.tree r) S e))
      (nextF F r (evNext (visited nodes) (F.tree r) S e)) := by
  have := Runs.walkSucc (nodes := nodes) hs hp hS hu ht hN
  simp only [EProg.walkNext, hk, Bool.false_eq_true, if_false]
  refine .bind (.pure it) ?_
  simp only [walkMove, hn]
  cases hev : evNext (visited nodes) (F.tree r) S e with
  | none =>
    rw [hev] at this
    exact .bind this (.pure _)
  | some e' =>
    rw [hev] at this
    exact .bind this (.pure _)

theorem Runs.walkNext_none (hk : it.skip = false) (hn : it.next = none) : Runs N (EProg.walkNext nodes it) F (none, it) F := by
  simp only [EProg.walkNext, hk, Bool.false_eq_true, if_false]
  refine .bind (.pure it) ?_
  simp only [walkMove, hn]
  have : it = { it with next := none, skip := false } := by cases it; cases hk; cases hn; rfl
  exact .bind (.pure _) (by rw [← this]; exact .pure _)

theorem nextF_get {x : Nat × List Nat} {h : Nat} (hl : F.env.Low) (hx : F.env.get h = some x)
    (o : Option (WalkEvent (List Nat))) : (nextF F r o).env.get h = some x := by
  cases o with
  | none => exact hx
  | some e => exact (Env.get_add _ _ (hl.get hx)).trans hx

theorem handle_map (e : WalkEvent (List Nat)) (p : Nat) : handle (e.map fun _ => p) = p := by cases e <;> rfl

/-- A round of the loop. -/
theorem Runs.round (hk : it.skip = false) (hn : it.next = some (e.map fun _ => p)) (hs : F.env.get it.start = some (r, S))
    (hp : F.env.get p = some (r, e.elem)) (hS : S <+: e.elem) (hu : F.sub (r, S) = some u)
    (ho : F.sight (r, e.elem) = some o) (hN : Fits N F 2) (hl : F.env.Low)
    (hb : Runs N (body (e.map fun _ => p) o) (nextF F r (evNext (visited nodes) (F.tree r) S e)) () F2)
    {x : Nat × List Nat} (hd : F2.env.get p = some x) (hN2 : Fits N F2 0)
    (hrec : Runs N (walkEach nodes body k (it.after F (evNext (visited nodes) (F.tree r) S e))) (F2.dels [p]) l F3) :
    Runs N (walkEach nodes body (k + 1) it) F (e.map (fun _ => o) :: l) F3 := by
  have ht : ∃ t, F.sub (r, e.elem) = some t := by
    rw [Forest.sight] at ho
    cases hx : F.sub (r, e.elem) with
    | none => rw [hx] at ho; cases ho
    | some t => exact ⟨t, rfl⟩
  obtain ⟨t, ht⟩ := ht
  rw [walkEach]
  refine .bind (.walkNext hk hn hs hp hS hu ht hN) ?_
  rw [hn]
  simp only [handle_map]
  have hmap : (e.map fun _ => p).map (fun _ => o) = e.map fun _ => o := by cases e <;> rfl
  refine .bind (.see (nextF_get hl hp _) (o := o) ?_) (.bind hb (.bind (.drop hd hN2) (.bind hrec (by rw [hmap]; exact .pure _))))
  cases evNext (visited nodes) (F.tree r) S e <;> exact ho

/-- The end of the loop. -/
theorem Runs.finish (hk : it.skip = false) (hn : it.next = none) {x : Nat × List Nat} (hs : F.env.get it.start = some x)
    (hN : Fits N F 0) : Runs N (walkEach nodes body (k + 1) it) F [] (F.dels [it.start]) := by
  rw [walkEach]
  refine .bind (.walkNext_none hk hn) ?_
  simp only [walkDrop, hn]
  exact .bind (.bind (.drop hs hN) (.pure _)) (.pure _)

/-- Some rounds lead from one state of the loop to another. -/
def Goes (N : Option Nat) (nodes : Bool) (body : WalkEvent Nat → Sight → EProg Unit) (F : Forest) (it : Walk)
    (L : List (WalkEvent Sight)) (F' : Forest) (it' : Walk) : Prop :=
  ∀ k l F'', Runs N (walkEach nodes body k it') F' l F'' → Runs N (walkEach nodes body (k + L.length) it) F (L ++ l) F''

theorem Goes.refl : Goes N nodes body F it [] F it := fun _ _ _ h => h

theorem Goes.trans {it1 it2 : Walk} {L L' : List (WalkEvent Sight)} (h : Goes N nodes body F it L F1 it1)
    (h' : Goes N nodes body F1 it1 L' F2 it2) : Goes N nodes body F it (L ++ L') F2 it2 := by
  intro k l F'' hr
  have := h _ _ _ (h' _ _ _ hr)
  rw [List.append_assoc, List.length_append, Nat.add_comm L.length, ← Nat.add_assoc]
  exact this

end EProg

/-! ### Removing what is left -/

namespace Tree
theorem at?_set_above {T t : Tree} {S P : List Nat} (hS : S <+: P) (h : T.at? P = some t) (x : Tree) :
    ∃ u, (T.set P x).at? S = some u := by
  obtain ⟨R, rfl⟩ := hS
  rw [at?_append] at h
  cases hv : T.at? S with
  | none => rw [hv] at h; cases h
  | some v =>
    rw [set_append hv]
    exact ⟨v.set R x, by have := at?_set_self hv (v.set R x) []; simpa using this⟩

theorem set_set {T t : Tree} {P : List Nat} (h : T.at? P = some t) (x y : Tree) : (T.set P x).set P y = T.set P y := by
  induction P generalizing T with
  | nil => rfl
  | cons i P ih =>
    cases T with
    | token k x => simp [at?_cons, children] at h
    | node k cs =>
      rw [at?_cons] at h
      simp only [children] at h
      cases hc : cs[i]? with
      | none => simp [hc] at h
      | some c =>
        simp only [hc, Option.bind_some] at h
        simp only [set]
        congr 1
        apply List.ext_getElem?
        intro j
        simp only [List.getElem?_modify]
        by_cases hj : i = j
        · subst hj; simp [hc, ih h]
        · simp [hj]

theorem set_same {T t : Tree} {P : List Nat} (h : T.at? P = some t) : T.set P t = T := by
  induction P generalizing T with
  | nil => simp at h; subst h; rfl
  | cons i P ih =>
    cases T with
    | token k x => simp [at?_cons, children] at h
    | node k cs =>
      rw [at?_cons] at h
      simp only [children] at h
      cases hc : cs[i]? with
      | none => simp [hc] at h
      | some c =>
        simp only [hc, Option.bind_some] at h
        simp only [set]
        congr 1
        apply List.ext_getElem?
        intro j
        simp only [List.getElem?_modify]
        by_cases hj : i = j
        · subst hj; simp [hc, ih h]
        · simp [hj]

/-- Setting a child. -/
theorem set_kid {T : Tree} {P : List Nat} {k : SyntaxKind} {pre cs : List Tree} {c : Tree}
    (h : T.at? P = some (node k (pre ++ c :: cs))) (x : Tree) :
    T.set (P ++ [pre.length]) x = T.set P (node k (pre ++ x :: cs)) := by
  rw [set_append h, set]
  congr 2
  apply List.ext_getElem?
  intro j
  rw [List.getElem?_modify]
  rcases Nat.lt_trichotomy j pre.length with hj | hj | hj
  · rw [List.getElem?_append_left hj, List.getElem?_append_left hj]
    simp [Nat.ne_of_gt hj]
  · subst hj; simp [set]
  · rw [List.getElem?_append_right (by omega), List.getElem?_append_right (by omega)]
    obtain ⟨d, hd⟩ : ∃ d, j - pre.length = d + 1 := ⟨j - pre.length - 1, by omega⟩
    rw [hd]; simp [Nat.ne_of_lt hj]
end Tree

namespace EProg
variable {N : Option Nat} {F0 F F' : Forest} {nodes : Bool} {p r k : Nat} {S : List Nat} {e : WalkEvent (List Nat)} {t u T : Tree}
  {it : Walk} {del : Tree → Bool} {o : Sight} {l : List (WalkEvent Sight)} {U : List Nat}

/-- A state of the loop that removes what is left: the tree that is walked is now `T`, and `ev` is the pending event. -/
structure PruneAt (F0 : Forest) (U : List Nat) (r : Nat) (S : List Nat) (T : Tree) (F : Forest) (it : Walk)
    (ev : Option (WalkEvent (List Nat))) : Prop where
  skip : it.skip = false
  next : match ev with
    | none => it.next = none ∧ F.env.ids = it.start :: U
    | some e => ∃ p, it.next = some (e.map fun _ => p) ∧ F.env.ids = p :: it.start :: U ∧ p ≠ it.start ∧ p ∉ U ∧
        F.env.get p = some (r, e.elem)
  startU : it.start ∉ U
  start : F.env.get it.start = some (r, S)
  low : F.env.Low
  tree : F.tree r = T
  mutable : F.mutable r = true
  fresh : r < F.fresh
  fresh0 : F0.fresh ≤ F.fresh
  others : ∀ n, n < F0.fresh → n ≠ r → F.tree n = F0.tree n
  mutables : ∀ n, n < F0.fresh → F.mutable n = F0.mutable n
  leaked : F.leaked = F0.leaked
  user : ∀ h ∈ U, ∀ x, F0.env.get h = some x → ¬ (x.1 = r ∧ ∃ j R, x.2 = S ++ j :: R) → F.env.get h = some x

theorem Fits.of_ids {n m : Nat} (h : F.env.ids.length + m ≤ n) : Fits (some n) F m := by
  intro k hk
  cases hk
  rw [Env.length_held]
  exact h

/-- The state after `next` was called and the element was dropped, if the body does nothing. -/
theorem PruneAt.still (h : PruneAt F0 U r S T F it (some e)) (hp : it.next = some (e.map fun _ => p))
    (hids : F.env.ids = p :: it.start :: U) (hpU : p ∉ U) (hps : p ≠ it.start) (ev : Option (WalkEvent (List Nat))) :
    PruneAt F0 U r S T ((nextF F r ev).dels [p]) (it.after F ev) ev := by
  have hlow : ∀ x ∈ F.env.ids, x < F.env.next := Env.low_iff.mp h.low
  have hpn : p < F.env.next := hlow p (by rw [hids]; simp)
  have hf : (it.start :: U).filter (fun x => !([p].contains x)) = it.start :: U := by
    rw [List.filter_eq_self]
    intro x hx
    have : x ≠ p := by
      rintro rfl
      rcases List.mem_cons.mp hx with e | e
      · exact hps e
      · exact hpU e
    simp [this]
  have hget : ∀ {h x}, h ≠ p → F.env.get h = some x → ((nextF F r ev).dels [p]).env.get h = some x := by
    intro h' x hne hx
    show ((nextF F r ev).env.dels [p]).get h' = some x
    rw [Env.get_dels, if_neg (by simpa using hne)]
    exact nextF_get h.low hx ev
  refine ⟨rfl, ?_, h.startU, hget (Ne.symm hps) h.start, ?_, ?_, ?_, ?_, ?_, ?_, ?_, ?_, ?_⟩
  · cases ev with
    | none =>
      refine ⟨rfl, ?_⟩
      show (F.env.dels [p]).ids = _
      rw [Env.ids_dels, hids, List.filter_cons_of_neg (by simp), hf]; rfl
    | some e' =>
      have hnp : F.env.next ≠ p := by omega
      refine ⟨F.env.next, rfl, ?_, ?_, ?_, ?_⟩
      · show ((F.env.add (r, e'.elem)).dels [p]).ids = _
        rw [Env.ids_dels, Env.ids_add, hids, List.filter_cons_of_pos (by simpa using hnp), List.filter_cons_of_neg (by simp), hf]
        rfl
      · have := h.low.get h.start
        exact Nat.ne_of_gt this
      · intro hU
        have := hlow F.env.next (by rw [hids]; simp [hU])
        omega
      · show ((F.env.add (r, e'.elem)).dels [p]).get F.env.next = _
        rw [Env.get_dels, if_neg (by simpa using hnp), Env.get_add_self]
  · cases ev with
    | none => exact h.low.dels _
    | some e' => exact (h.low.add _).dels _
  all_goals try (cases ev <;> first
    | exact h.tree | exact h.mutable | exact h.fresh | exact h.fresh0 | exact h.others | exact h.mutables | exact h.leaked)
  intro h' hU x hx hn
  exact hget (fun e => hpU (e ▸ hU)) (h.user h' hU x hx hn)

theorem afterCut_off : ∀ {Q X : List Nat} {i : Nat}, (¬ ∃ j R, X = Q ++ j :: R) → Tree.afterCut Q i X = .stays X
  | [], [], _, _ => by simp
  | [], j :: R, _, h => absurd ⟨j, R, rfl⟩ h
  | _ :: _, [], _, _ => by simp
  | a :: Q, b :: X, i, h => by
    rw [Tree.afterCut]
    split
    next hab =>
      subst hab
      rw [afterCut_off (Q := Q) (X := X) fun ⟨j, R, e⟩ => h ⟨j, R, by rw [e]; rfl⟩]
    · rfl

theorem cutAt_dels (F : Forest) (r : Nat) (Q : List Nat) (i : Nat) (hs : List Nat) :
    (F.cutAt r Q i).dels hs = (F.dels hs).cutAt r Q i := by
  simp only [Forest.cutAt, Forest.dels, Env.dels, Env.map, List.filter_map]
  rfl

/-- The state after an element below the start was cut out. -/
theorem PruneAt.cut (h : PruneAt F0 U r S T F it (some e)) {Q P' : List Nat} {i : Nat} (hS : S <+: Q)
    (he : Tree.afterCut Q i e.elem = .stays P') :
    PruneAt F0 U r S (T.removeAt Q i) (F.cutAt r Q i) it (some (e.map fun _ => P')) := by
  have hrf : r ≠ F.fresh := Nat.ne_of_lt h.fresh
  obtain ⟨p, h1, h2, h3, h4, h5⟩ := h.next
  have hget : ∀ {h' x}, F.env.get h' = some x → (F.cutAt r Q i).env.get h' = some (cutLoc r F.fresh Q i x.1 x.2) := by
    intro h' x hx
    show (F.env.map _).get h' = _
    rw [Env.get_map, hx]; rfl
  have hoff : ∀ {X : List Nat}, (¬ ∃ j R, X = S ++ j :: R) → cutLoc r F.fresh Q i r X = (r, X) := by
    intro X hX
    rw [cutLoc, if_pos rfl, afterCut_off]
    rintro ⟨j, R, e⟩
    obtain ⟨V, rfl⟩ := hS
    cases V with
    | nil => exact hX ⟨j, R, by rw [e]; simp⟩
    | cons a V => exact hX ⟨a, V ++ j :: R, by rw [e]; simp⟩
  refine ⟨h.skip, ⟨p, ?_, ?_, h3, h4, ?_⟩, h.startU, ?_, h.low.map _, ?_, ?_, Nat.lt_succ_of_lt h.fresh,
    Nat.le_succ_of_le h.fresh0, ?_, ?_, h.leaked, ?_⟩
  · rw [h1]; cases e <;> rfl
  · exact (Env.ids_map _ _).trans h2
  · rw [hget h5]
    show some (cutLoc r F.fresh Q i r e.elem) = _
    rw [cutLoc, if_pos rfl, he]
    cases e <;> rfl
  · rw [hget h.start]
    show some (cutLoc r F.fresh Q i r S) = _
    rw [hoff]
    rintro ⟨j, R, e⟩
    have := congrArg List.length e
    simp at this
  · show (if r = F.fresh then _ else if r = r then _ else _) = _
    rw [if_neg hrf, if_pos rfl, h.tree]
  · show (if r = F.fresh then _ else _) = _
    rw [if_neg hrf, h.mutable]
  · intro n hn hr
    show (if n = F.fresh then _ else if n = r then _ else _) = _
    have := h.fresh0
    rw [if_neg (by omega), if_neg hr, h.others n hn hr]
  · intro n hn
    show (if n = F.fresh then _ else _) = _
    have := h.fresh0
    rw [if_neg (by omega), h.mutables n hn]
  · intro h' hU x hx hn
    rw [hget (h.user h' hU x hx hn)]
    by_cases hr : x.1 = r
    · obtain ⟨n, X⟩ := x
      simp only at hr
      subst hr
      rw [hoff fun ⟨j, R, e⟩ => hn ⟨rfl, j, R, e⟩]
    · rw [cutLoc, if_neg hr]

/-- A round that removes nothing. -/
theorem PruneAt.keep (h : PruneAt F0 U r S T F it (some e)) (hS : S <+: e.elem) (hu : T.at? S = some u)
    (ht : T.at? e.elem = some t) (hk : (∃ P, e = .enter P) ∨ del t = false ∨ e.elem = []) :
    ∃ F' it' o, PruneAt F0 U r S T F' it' (evNext (visited nodes) T S e) ∧
      Goes (some (U.length + 4)) nodes (pruneBody del) F it [e.map fun _ => o] F' it' ∧ o.content = t := by
  obtain ⟨p, h1, h2, h3, h4, h5⟩ := h.next
  have hT := h.tree
  obtain ⟨o, ho, rfl⟩ := Forest.sight_of_sub (F := F) (x := (r, e.elem)) (t := t) (by rw [Forest.sub, hT]; exact ht)
  refine ⟨_, _, o, h.still h1 h2 h4 h3 (evNext (visited nodes) T S e), ?_, rfl⟩
  intro k l F'' hr
  have hlen : F.env.ids.length = U.length + 2 := by rw [h2]; rfl
  have hlen1 : ∀ ev, (nextF F r ev).env.ids.length ≤ U.length + 3 := by
    intro ev
    cases ev with
    | none => show F.env.ids.length ≤ _; omega
    | some e' => show (F.env.add _).ids.length ≤ _; rw [Env.ids_add, List.length_cons]; omega
  have hb : Runs (some (U.length + 4)) (pruneBody del (e.map fun _ => p) o) (nextF F r (evNext (visited nodes) (F.tree r) S e)) ()
      (nextF F r (evNext (visited nodes) (F.tree r) S e)) := by
    cases e with
    | enter P => exact .pure _
    | leave P =>
      simp only [WalkEvent.map_leave, pruneBody]
      split
      next hd =>
        rcases hk with ⟨_, hk⟩ | hk | hk
        · cases hk
        · rw [hk] at hd; cases hd
        · have hk : P = [] := hk
          subst hk
          have hm : (nextF F r (evNext (visited nodes) (F.tree r) S (.leave []))).mutable r = true := by
            cases evNext (visited nodes) (F.tree r) S (.leave []) <;> exact h.mutable
          have := Runs.detach (N := some (U.length + 4)) (nextF_get (r := r) h.low h5 (evNext (visited nodes) (F.tree r) S (.leave []))) hm
            (Fits.of_ids (by have := hlen1 (evNext (visited nodes) (F.tree r) S (.leave [])); omega))
          simpa [Forest.cut, WalkEvent.elem] using this
      · exact .pure _
  refine Runs.round h.skip h1 h.start h5 hS (by rw [Forest.sub, hT]; exact hu) ho (Fits.of_ids (by omega)) h.low hb
    (nextF_get h.low h5 _) (Fits.of_ids (by have := hlen1 (evNext (visited nodes) (F.tree r) S e); omega)) ?_
  rw [hT]
  exact hr

/-- A round that removes an element. -/
theorem PruneAt.remove {Q P' : List Nat} {i : Nat} {e' : WalkEvent (List Nat)}
    (h : PruneAt F0 U r S T F it (some (.leave (Q ++ [i])))) (hS : S <+: Q) (hu : T.at? S = some u)
    (ht : T.at? (Q ++ [i]) = some t) (hd : del t = true)
    (hev : evNext (visited nodes) T S (.leave (Q ++ [i])) = some e') (hc : Tree.afterCut Q i e'.elem = .stays P') :
    ∃ F' it' o, PruneAt F0 U r S (T.removeAt Q i) F' it' (some (e'.map fun _ => P')) ∧
      Goes (some (U.length + 4)) nodes (pruneBody del) F it [.leave o] F' it' ∧ o.content = t := by
  obtain ⟨p, h1, h2, h3, h4, h5⟩ := h.next
  have hT := h.tree
  obtain ⟨o, ho, rfl⟩ := Forest.sight_of_sub (F := F) (x := (r, Q ++ [i])) (t := t) (by rw [Forest.sub, hT]; exact ht)
  refine ⟨_, _, o, (h.still h1 h2 h4 h3 (some e')).cut hS hc, ?_, rfl⟩
  intro k l F'' hr
  have hlen : F.env.ids.length = U.length + 2 := by rw [h2]; rfl
  have hlen1 : (nextF F r (some e')).env.ids.length ≤ U.length + 3 := by
    show (F.env.add _).ids.length ≤ _
    rw [Env.ids_add, List.length_cons]; omega
  have hcut : (nextF F r (some e')).cut (r, Q ++ [i]) = (nextF F r (some e')).cutAt r Q i := by simp [Forest.cut]
  have hb : Runs (some (U.length + 4)) (pruneBody del (.leave p) o) (nextF F r (some e')) () ((nextF F r (some e')).cutAt r Q i) := by
    simp only [pruneBody, hd, if_true]
    rw [← hcut]
    exact Runs.detach (nextF_get h.low h5 _) h.mutable (Fits.of_ids (by omega))
  have hg : ((nextF F r (some e')).cutAt r Q i).env.get p = some (cutLoc r (nextF F r (some e')).fresh Q i r (Q ++ [i])) := by
    show (Env.map _ _).get p = _
    rw [Env.get_map, nextF_get h.low h5 (some e')]; rfl
  have := Runs.round (N := some (U.length + 4)) (nodes := nodes) (body := pruneBody del) (k := k) (l := l) (F3 := F'') h.skip h1 h.start h5
    (show S <+: Q ++ [i] from hS.trans (List.prefix_append ..)) (by rw [Forest.sub, hT]; exact hu) ho (Fits.of_ids (by omega)) h.low
    (by rw [hT, hev]; exact hb) hg (Fits.of_ids (by
      show (Env.map _ _).ids.length + 0 ≤ _
      rw [Env.ids_map]; omega))
    (by rw [hT, hev, cutAt_dels]; exact hr)
  exact this

/-- The next event of a child list moves when a child in front of it is cut out. -/
theorem kidEv_cut (sel : Tree → Bool) (P : List Nat) (i : Nat) : ∀ (cs : List Tree) (j : Nat), i < j →
    ∃ P', Tree.afterCut P i (kidEv sel P j cs).elem = .stays P' ∧ (kidEv sel P j cs).map (fun _ => P') = kidEv sel P (j - 1) cs
  | [], j, _ => ⟨P, by simp [kidEv, WalkEvent.elem], by simp [kidEv]⟩
  | c :: cs, j, hj => by
    simp only [kidEv]
    cases sel c with
    | true =>
      refine ⟨P ++ [j - 1], ?_, rfl⟩
      show Tree.afterCut P i (P ++ [j]) = _
      rw [Tree.afterCut_kid P (by omega), if_pos hj]
    | false =>
      have := kidEv_cut sel P i cs (j + 1) (by omega)
      simp only [Bool.false_eq_true, if_false]
      have e : j + 1 - 1 = j - 1 + 1 := by omega
      rw [e] at this
      exact this

mutual
theorem PruneAt.node : ∀ (t : Tree) {P : List Nat} {T : Tree} {F : Forest} {it : Walk},
    PruneAt F0 U r S T F it (some (.enter P)) → T.at? P = some t → S <+: P →
    ∃ F' it' L, PruneAt F0 U r S (T.set P (t.prune (visited nodes) del)) F' it' (some (.leave P)) ∧
      Goes (some (U.length + 4)) nodes (pruneBody del) F it L F' it' ∧
      L.map (·.map Sight.content) ++ [.leave (t.prune (visited nodes) del)] = t.pruneSeen (visited nodes) del
  | .token k x, P, T, F, it, h, ht, hS => by
    obtain ⟨u, hu⟩ : ∃ u, T.at? S = some u := by
      have := Tree.at?_set_above hS ht (.token k x)
      rwa [Tree.set_same ht] at this
    obtain ⟨F1, it1, o, h1, h2, h3⟩ := h.keep (nodes := nodes) (del := del) hS hu ht (.inl ⟨P, rfl⟩)
    rw [Tree.evNext_token ht] at h1
    refine ⟨F1, it1, _, ?_, h2, ?_⟩
    · rw [Tree.prune, Tree.set_same ht]; exact h1
    · simp [Tree.prune, Tree.pruneSeen, h3]
  | .node k cs, P, T, F, it, h, ht, hS => by
    obtain ⟨u, hu⟩ : ∃ u, T.at? S = some u := by
      have := Tree.at?_set_above hS ht (.node k cs)
      rwa [Tree.set_same ht] at this
    obtain ⟨F1, it1, o, h1, h2, h3⟩ := h.keep (nodes := nodes) (del := del) hS hu ht (.inl ⟨P, rfl⟩)
    rw [Tree.evNext_enter ht] at h1
    obtain ⟨F2, it2, L, h4, h5, h6⟩ := PruneAt.kids cs (pre := []) h1 ht hS
    refine ⟨F2, it2, _, ?_, h2.trans h5, ?_⟩
    · rw [Tree.prune]; exact h4
    · rw [Tree.pruneSeen, Tree.prune, ← h6]
      simp [h3]
theorem PruneAt.kids : ∀ (cs : List Tree) {pre : List Tree} {k : SyntaxKind} {P : List Nat} {T : Tree} {F : Forest} {it : Walk},
    PruneAt F0 U r S T F it (some (kidEv (visited nodes) P pre.length cs)) → T.at? P = some (.node k (pre ++ cs)) → S <+: P →
    ∃ F' it' L, PruneAt F0 U r S (T.set P (.node k (pre ++ Tree.prunes (visited nodes) del cs))) F' it' (some (.leave P)) ∧
      Goes (some (U.length + 4)) nodes (pruneBody del) F it L F' it' ∧
      L.map (·.map Sight.content) = Tree.pruneSeens (visited nodes) del cs
  | [], pre, k, P, T, F, it, h, ht, hS => by
    refine ⟨F, it, [], ?_, .refl, ?_⟩
    · rw [Tree.prunes, Tree.set_same ht]; exact h
    · rw [Tree.pruneSeens]; rfl
  | c :: cs, pre, k, P, T, F, it, h, ht, hS => by
    rw [kidEv] at h
    rw [Tree.prunes, Tree.pruneSeens]
    cases hc : visited nodes c with
    | false =>
      simp only [hc, Bool.false_eq_true, if_false, List.nil_append] at h ⊢
      have := PruneAt.kids cs (pre := pre ++ [c]) (k := k) (P := P) (T := T) (F := F) (it := it)
        (by rw [List.length_append, List.length_singleton]; exact h) (by simpa using ht) hS
      simpa using this
    | true =>
      simp only [hc, if_true] at h ⊢
      have hat : T.at? (P ++ [pre.length]) = some c := by rw [Tree.at?_snoc, ht]; simp [Tree.children]
      obtain ⟨F1, it1, L1, g1, g2, g3⟩ := PruneAt.node c h hat (hS.trans (List.prefix_append ..))
      rw [Tree.set_kid ht] at g1
      -- the tree in which the child is left
      have at1 : (T.set P (.node k (pre ++ c.prune (visited nodes) del :: cs))).at? P =
          some (.node k (pre ++ c.prune (visited nodes) del :: cs)) := by
        have := Tree.at?_set_self ht (.node k (pre ++ c.prune (visited nodes) del :: cs)) []
        simpa using this
      have ss : ∀ x, (T.set P (.node k (pre ++ c.prune (visited nodes) del :: cs))).set P x = T.set P x := Tree.set_set ht _
      generalize T.set P (.node k (pre ++ c.prune (visited nodes) del :: cs)) = T1 at g1 at1 ss
      generalize c.prune (visited nodes) del = c' at g1 g3 at1
      obtain ⟨u, hu⟩ : ∃ u, T1.at? S = some u := by
        have := Tree.at?_set_above hS at1 (.node k (pre ++ c' :: cs))
        rwa [Tree.set_same at1] at this
      have hat1 : T1.at? (P ++ [pre.length]) = some c' := by rw [Tree.at?_snoc, at1]; simp [Tree.children]
      have hne : P ++ [pre.length] ≠ S := by
        intro e
        have := hS.length_le
        rw [← e, List.length_append, List.length_singleton] at this
        omega
      have hev := Tree.evNext_leave (sel := visited nodes) at1 hne
      cases hd : del c' with
      | false =>
        obtain ⟨F2, it2, o, k1, k2, k3⟩ := g1.keep (nodes := nodes) (del := del) (show S <+: P ++ [pre.length] from
          hS.trans (List.prefix_append ..)) hu hat1 (.inr (.inl hd))
        rw [hev] at k1
        obtain ⟨F3, it3, L3, m1, m2, m3⟩ := PruneAt.kids cs (pre := pre ++ [c']) (k := k) (P := P) (T := T1) (F := F2) (it := it2)
          (by rw [List.length_append, List.length_singleton]; exact k1) (by simpa using at1) hS
        refine ⟨F3, it3, _, ?_, (g2.trans k2).trans m2, ?_⟩
        · simp only [Bool.false_eq_true, if_false]
          rw [ss, List.append_assoc] at m1
          exact m1
        · rw [← g3, ← m3]; simp [k3]
      | true =>
        obtain ⟨P', c1, c2⟩ := kidEv_cut (visited nodes) P pre.length cs (pre.length + 1) (Nat.lt_succ_self _)
        obtain ⟨F2, it2, o, k1, k2, k3⟩ := g1.remove (nodes := nodes) (del := del) hS hu hat1 hd hev c1
        rw [c2, Nat.add_sub_cancel] at k1
        have hrem : T1.removeAt P pre.length = T1.set P (.node k (pre ++ cs)) := by
          rw [Tree.removeAt, Tree.editKids_eq at1]
          congr 2
          rw [List.eraseIdx_append_of_length_le (Nat.le_refl _)]; simp
        rw [hrem] at k1
        have at2 : (T1.set P (.node k (pre ++ cs))).at? P = some (.node k (pre ++ cs)) := by
          have := Tree.at?_set_self at1 (.node k (pre ++ cs)) []
          simpa using this
        obtain ⟨F3, it3, L3, m1, m2, m3⟩ := PruneAt.kids cs (pre := pre) (k := k) (P := P) (F := F2) (it := it2) k1 at2 hS
        refine ⟨F3, it3, _, ?_, (g2.trans k2).trans m2, ?_⟩
        · simp only [if_true]
          rw [Tree.set_set at1, ss] at m1
          exact m1
        · rw [← g3, ← m3]; simp [k3]
end

end EProg
end Rowan
