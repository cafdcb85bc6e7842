import Verif.EditWalkPrune
/-!
# Whole loops over walks

The definitions in this file are vocabulary of the proofs and model no code.
-/
namespace Rowan

/-! ### Handles are never renumbered -/

/-- Handles were given up, and new ones got new numbers. -/
structure Env.Steps {X : Type} (v v' : Env X) : Prop where
  next : v.next ≤ v'.next
  ids : ∀ i ∈ v'.ids, i ∈ v.ids ∨ (v.next ≤ i ∧ i < v'.next)

namespace Env.Steps
variable {X : Type} {v v' v'' : Env X}

theorem refl (v : Env X) : Steps v v := ⟨Nat.le_refl _, fun _ h => .inl h⟩

theorem trans (h : Steps v v') (h' : Steps v' v'') : Steps v v'' := by
  have := h.next
  have := h'.next
  refine ⟨by omega, fun i hi => ?_⟩
  rcases h'.ids i hi with h1 | h1
  · rcases h.ids i h1 with h2 | h2
    · exact .inl h2
    · exact .inr (by omega)
  · exact .inr (by omega)

theorem dels (h : Steps v v') (hs : List Nat) : Steps v (v'.dels hs) :=
  ⟨h.next, fun i hi => h.ids i (by rw [Env.ids_dels] at hi; exact (List.mem_filter.mp hi).1)⟩

theorem map (h : Steps v v') (f : X → X) : Steps v (v'.map f) :=
  ⟨h.next, fun i hi => h.ids i (by rwa [Env.ids_map] at hi)⟩

theorem add (h : Steps v v') (x : X) : Steps v (v'.add x) := by
  refine ⟨Nat.le_succ_of_le h.next, fun i hi => ?_⟩
  rw [Env.ids_add] at hi
  have := h.next
  rw [Env.next_add]
  rcases List.mem_cons.mp hi with rfl | hi
  · exact .inr (by omega)
  · rcases h.ids i hi with h1 | h1
    · exact .inl h1
    · exact .inr (by omega)

theorem low (h : Steps v v') (hv : v.Low) : v'.Low := by
  rw [Env.low_iff] at *
  intro i hi
  have := h.next
  rcases h.ids i hi with h1 | h1
  · have := hv i h1; omega
  · exact h1.2

end Env.Steps

theorem Env.mem_ids {X : Type} {v : Env X} {h : Nat} {x : X} (e : v.get h = some x) : h ∈ v.ids :=
  List.mem_map_of_mem (Env.get_mem e)

theorem Env.get_of_ids {X : Type} {v : Env X} {h : Nat} (e : h ∈ v.ids) : ∃ x, v.get h = some x := by
  obtain ⟨n, l⟩ := v
  simp only [Env.ids, Env.get] at *
  induction l with
  | nil => cases e
  | cons a l ih =>
    rw [List.lookup_cons]
    split
    · exact ⟨_, rfl⟩
    next hne =>
      refine ih ?_
      rcases List.mem_cons.mp e with e | e
      · simp [e] at hne
      · exact e

namespace Forest
variable {F F' : Forest}

theorem cutAt_steps {v : Env (Nat × List Nat)} (h : v.Steps F.env) (r : Nat) (Q : List Nat) (i : Nat) :
    v.Steps (F.cutAt r Q i).env := Env.Steps.map h (fun x => cutLoc r F.fresh Q i x.1 x.2)

theorem cut_steps {v : Env (Nat × List Nat)} (h : v.Steps F.env) (x : Nat × List Nat) : v.Steps (F.cut x).env := by
  rw [Forest.cut]
  split
  · exact h
  · exact cutAt_steps h ..

theorem insertAll_steps {v : Env (Nat × List Nat)} {q : Nat} {gone : List Nat} : ∀ (ps : List Nat) (i : Nat) {F F' : Forest},
    v.Steps F.env → F.insertAll q gone i ps = .ok F' ∨ F.insertAll q gone i ps = .panic F' → v.Steps F'.env
  | [], _, F, F', k, e => by rcases e with e | e <;> cases e; exact k
  | p :: ps, i, F, F', k, e => by
    rw [Forest.insertAll] at e
    cases hp : F.env.get p with
    | none => rw [hp] at e; rcases e with e | e <;> cases e
    | some x =>
      simp only [hp] at e
      split at e
      · rcases e with e | e <;> cases e
        exact k
      next hm =>
        have k1 := cut_steps k x
        cases hy : (F.cut x).env.get p with
        | none => rw [hy] at e; rcases e with e | e <;> cases e
        | some y =>
          cases hz : (F.cut x).env.get q with
          | none => rw [hy, hz] at e; rcases e with e | e <;> cases e
          | some z =>
            simp only [hy, hz] at e
            split at e
            · split at e <;> rcases e with e | e <;> cases e
            · split at e
              · have k2 : v.Steps ((F.cut x).join z i y.1).env := Env.Steps.map k1 (fun y' => joinLoc z.1 y.1 z.2 i y'.1 y'.2)
                exact insertAll_steps ps (i + 1) k2 e
              · split at e <;> rcases e with e | e <;> cases e
                exact k1

theorem splice_steps {v : Env (Nat × List Nat)} {q a b : Nat} {ins : List Nat} (k : v.Steps F.env)
    (e : F.splice q a b ins = .ok F' ∨ F.splice q a b ins = .panic F') : v.Steps F'.env := by
  rw [Forest.splice] at e
  cases hx : F.env.get q with
  | none => rw [hx] at e; rcases e with e | e <;> cases e
  | some x =>
    simp only [hx] at e
    split at e
    · split at e
      · rcases e with e | e <;> cases e
        exact k.dels _
      next hm =>
        have key : ∀ {F1}, (if a < b ∧ a < F.width x then F.cutAt x.1 x.2 a else F).insertAll q ins a ins = .ok F1 ∨
            (if a < b ∧ a < F.width x then F.cutAt x.1 x.2 a else F).insertAll q ins a ins = .panic F1 → v.Steps F1.env := by
          intro F1 h1
          split at h1
          · exact insertAll_steps _ _ (cutAt_steps k ..) h1
          · exact insertAll_steps _ _ k h1
        generalize Forest.insertAll _ _ _ _ _ = o at e key
        cases o <;> rcases e with e | e <;> cases e
        · exact (key (.inl rfl)).dels ins
        · exact (key (.inr rfl)).dels ins
    · rcases e with e | e <;> cases e

theorem on_steps {v : Env (Nat × List Nat)} {r : Req} {o : Option (Nat × List Nat)} (k : v.Steps F.env)
    (e : r.on F = .ok (o, F')) : v.Steps F'.env := by
  cases r with
  | plant m kd ts => cases e; exact k
  | clone p => rw [Req.on] at e; split at e <;> cases e; exact k
  | drop p => rw [Req.on] at e; split at e <;> cases e; exact k.dels _
  | forget p => rw [Req.on] at e; split at e <;> cases e; exact k.dels _
  | nav f p =>
    rw [Req.on] at e
    split at e
    · cases e
    · split at e <;> cases e
      exact k
  | toNext b p => rw [Req.on] at e; split at e <;> cases e; exact k.dels _
  | cloneSubtree p =>
    rw [Req.on] at e
    split at e
    · cases e
    · split at e <;> cases e
      exact k
  | cloneForUpdate p =>
    rw [Req.on] at e
    split at e
    · cases e
    · split at e
      · cases e
      · split at e <;> cases e
        exact k
  | detach p =>
    rw [Req.on] at e
    split at e
    · cases e
    · split at e <;> cases e
      exact cut_steps k _
  | splice q a b ins =>
    rw [Req.on] at e
    split at e <;> cases e
    next hs => exact splice_steps k (.inl hs)
  | attach q i p =>
    rw [Req.on] at e
    split at e <;> cases e
    next hs => exact splice_steps k (.inl hs)

theorem panicked_steps {v : Env (Nat × List Nat)} {r : Req} (k : v.Steps F.env) (e : r.on F = .panic F') : v.Steps F'.env := by
  cases r with
  | plant m kd ts => cases e
  | clone p => rw [Req.on] at e; split at e <;> cases e
  | drop p => rw [Req.on] at e; split at e <;> cases e
  | forget p => rw [Req.on] at e; split at e <;> cases e
  | nav f p =>
    rw [Req.on] at e
    split at e
    · cases e
    · split at e <;> cases e
  | toNext b p => rw [Req.on] at e; split at e <;> cases e
  | cloneSubtree p =>
    rw [Req.on] at e
    split at e
    · cases e
    · split at e <;> cases e
  | cloneForUpdate p =>
    rw [Req.on] at e
    split at e
    · cases e
    · split at e
      · cases e
      · split at e <;> cases e
        exact k
  | detach p =>
    rw [Req.on] at e
    split at e
    · cases e
    · split at e <;> cases e
      exact k
  | splice q a b ins =>
    rw [Req.on] at e
    split at e <;> cases e
    next hs => exact splice_steps k (.inr hs)
  | attach q i p =>
    rw [Req.on] at e
    split at e <;> cases e
    next hs => exact splice_steps k (.inr hs)

end Forest

theorem EProg.run_steps {α : Type} {v : Env (Nat × List Nat)} : ∀ (p : EProg α) {F F' : Forest} {a : α},
    v.Steps F.env → p.run F = .ok (a, F') → v.Steps F'.env
  | .ret _, _, _, _, k, e => by cases e; exact k
  | .panic, _, _, _, k, e => by cases e
  | .diverge, _, _, _, _, e => by cases e
  | .look q c, F, F', _, k, e => by
    rw [EProg.run] at e
    split at e
    · cases e
    · split at e
      · cases e
      · exact run_steps _ k e
  | .same q q' c, F, F', _, k, e => by
    rw [EProg.run] at e
    split at e
    · split at e
      · cases e
      · exact run_steps _ k e
    · cases e
  | .req r c, F, F', _, k, e => by
    rw [EProg.run] at e
    split at e
    next h1 => exact run_steps _ (Forest.on_steps k h1) e
    next h1 => exact run_steps _ (Env.Steps.add (Forest.on_steps k h1) _) e
    next h1 => exact run_steps _ (Forest.panicked_steps k h1) e
    · split at e <;> cases e
    all_goals cases e

/-! ### Taking runs apart -/
namespace EProg
variable {α β : Type}

/-- What follows in a run that succeeds was reached by a run that succeeded. -/
theorem run_unbind (f : α → EProg β) : ∀ (p : EProg α) {F F' : Forest} {b : β}, (p >>= f).run F = .ok (b, F') →
    ∃ a F1, p.run F = .ok (a, F1) ∧ (f a).run F1 = .ok (b, F')
  | .ret a, F, F', _, e => ⟨a, F, rfl, e⟩
  | .panic, F, F', _, e => by cases e
  | .diverge, F, F', _, e => by cases e
  | .look h k, F, F', b, e => by
    simp only [bind_def, EProg.bind, run] at e ⊢
    cases hx : F.env.get h with
    | none => rw [hx] at e; cases e
    | some x =>
      simp only [hx] at e ⊢
      cases ho : F.sight x with
      | none => rw [ho] at e; cases e
      | some o =>
        simp only [ho] at e ⊢
        exact run_unbind f (k o) e
  | .same h h' k, F, F', b, e => by
    simp only [bind_def, EProg.bind, run] at e ⊢
    cases hx : F.env.get h with
    | none => rw [hx] at e; cases e
    | some x =>
      cases hy : F.env.get h' with
      | none => rw [hx, hy] at e; cases e
      | some y =>
        simp only [hx, hy] at e ⊢
        cases ho : F.eq x y with
        | none => rw [ho] at e; cases e
        | some o =>
          simp only [ho] at e ⊢
          exact run_unbind f (k o) e
  | .req r k, F, F', b, e => by
    simp only [bind_def, EProg.bind, run] at e ⊢
    cases hr : r.on F with
    | ok x =>
      obtain ⟨_ | x, F1⟩ := x
      · simp only [hr] at e ⊢
        exact run_unbind f (k (.done none)) e
      · simp only [hr] at e ⊢
        exact run_unbind f (k (.done (some F.env.next))) e
    | panic F1 =>
      simp only [hr] at e ⊢
      exact run_unbind f (k .panicked) e
    | broken => simp only [hr] at e; split at e <;> cases e
    | wild => simp only [hr] at e; cases e
    | diverge => simp only [hr] at e; cases e
    | misuse => simp only [hr] at e; cases e

theorem run_drop {F F' : Forest} {h : Nat} {u : Unit} (e : (drop h).run F = .ok (u, F')) :
    (∃ x, F.env.get h = some x) ∧ F' = F.dels [h] := by
  simp only [drop, EProg.run, Req.on] at e
  cases hx : F.env.get h with
  | none => rw [hx] at e; cases e
  | some x => rw [hx] at e; cases e; exact ⟨⟨x, rfl⟩, rfl⟩

theorem run_pure {F F' : Forest} {a b : α} (e : (pure a : EProg α).run F = .ok (b, F')) : b = a ∧ F' = F := by
  cases e; exact ⟨rfl, rfl⟩

variable {F F' : Forest} {nodes : Bool} {p r k : Nat} {S : List Nat} {e : WalkEvent (List Nat)} {t u T : Tree}
  {it : Walk} {body : WalkEvent Nat → Sight → EProg Unit} {o : Sight} {l : List (WalkEvent Sight)}

theorem run_walkSucc_held {start : Nat} {ev : WalkEvent Nat} {a : Option (WalkEvent Nat)}
    (h : (walkSucc nodes start ev).run F = .ok (a, F')) : ∃ x, F.env.get (handle ev) = some x := by
  cases ev with
  | enter q =>
    rw [walkSucc] at h
    obtain ⟨o, F1, h1, -⟩ := run_unbind _ _ h
    simp only [see, EProg.run] at h1
    cases hx : F.env.get q with
    | none => rw [hx] at h1; cases h1
    | some x => exact ⟨x, hx⟩
  | leave q =>
    rw [walkSucc] at h
    obtain ⟨o, F1, h1, -⟩ := run_unbind _ _ h
    simp only [eq, EProg.run] at h1
    cases hx : F.env.get q with
    | none => rw [hx] at h1; cases h1
    | some x => exact ⟨x, hx⟩

theorem run_walkNext (hk : it.skip = false) {a : Option (WalkEvent Nat) × Walk} (h : (walkNext nodes it).run F = .ok (a, F')) :
    a.1 = it.next ∧ a.2.start = it.start ∧ a.2.skip = false ∧ (walkMove nodes it).run F = .ok (a.2.next, F') := by
  simp only [walkNext, hk, Bool.false_eq_true, if_false] at h
  obtain ⟨it1, F1, h1, h'⟩ := run_unbind _ _ h
  obtain ⟨rfl, rfl⟩ := run_pure h1
  obtain ⟨n, F2, h2, h'⟩ := run_unbind _ _ h'
  obtain ⟨rfl, rfl⟩ := run_pure h'
  exact ⟨rfl, rfl, rfl, h2⟩

/-- The element that was pending when a loop that succeeds began, was held, and so was the start. -/
theorem run_each_held : ∀ (k : Nat) {it : Walk} {F F' : Forest} {l : List (WalkEvent Sight)}, it.skip = false →
    it.start < F.env.next → (walkEach nodes body k it).run F = .ok (l, F') →
    (∃ x, F.env.get it.start = some x) ∧ ∀ ev, it.next = some ev → ∃ x, F.env.get (handle ev) = some x
  | 0, _, _, _, _, _, _, h => by rw [walkEach] at h; cases h
  | k + 1, it, F, F', l, hk, hlt, h => by
    rw [walkEach] at h
    obtain ⟨⟨o, it1⟩, F1, h1, h⟩ := run_unbind _ _ h
    obtain ⟨rfl, e2, e3, e4⟩ := run_walkNext hk h1
    have s1 := run_steps _ (Env.Steps.refl F.env) h1
    refine ⟨?_, fun ev hev => ?_⟩
    · simp only at e2 e3
      have back : ∀ {G : Forest}, F.env.Steps G.env → (∃ x, G.env.get it1.start = some x) → ∃ x, F.env.get it.start = some x := by
        intro G hs ⟨x, hx⟩
        rw [e2] at hx
        rcases hs.ids _ (Env.mem_ids hx) with h' | h'
        · exact Env.get_of_ids h'
        · omega
      cases hn : it.next with
      | none =>
        rw [hn] at h
        obtain ⟨_, F2, h2, h⟩ := run_unbind _ _ h
        rw [walkDrop] at h2
        obtain ⟨_, F3, h3, -⟩ := run_unbind _ _ h2
        exact back s1 (run_drop h3).1
      | some ev =>
        rw [hn] at h
        obtain ⟨o, F2, h2, h⟩ := run_unbind _ _ h
        have s2 := run_steps _ s1 h2
        obtain ⟨_, F3, h3, h⟩ := run_unbind _ _ h
        have s3 := run_steps _ s2 h3
        obtain ⟨_, F4, h4, h⟩ := run_unbind _ _ h
        have s4 := run_steps _ s3 h4
        obtain ⟨_, F5, h5, h⟩ := run_unbind _ _ h
        refine back s4 (run_each_held k e3 ?_ h5).1
        have := s4.next
        rw [e2]; omega
    · rw [walkMove, hev] at e4
      exact run_walkSucc_held e4

/-! ### A tree that nobody touches -/

/-- Nothing happened to tree `r`, and the handles in it are where they were, if they are held. -/
structure _root_.Rowan.Forest.Calm (r : Nat) (F F' : Forest) : Prop where
  tree : F'.tree r = F.tree r
  mutable : F'.mutable r = F.mutable r
  handles : ∀ h Q x, F.env.get h = some (r, Q) → F'.env.get h = some x → x = (r, Q)

theorem _root_.Rowan.Forest.Calm.sight {r : Nat} {F F' : Forest} (h : F.Calm r F') (P : List Nat) : F'.sight (r, P) = F.sight (r, P) := by
  rw [Forest.sight, Forest.sight, Forest.sub, Forest.sub, h.tree, h.mutable]

theorem nextF_calm (F : Forest) (r : Nat) (o : Option (WalkEvent (List Nat))) :
    (nextF F r o).tree = F.tree ∧ (nextF F r o).mutable = F.mutable ∧ (nextF F r o).fresh = F.fresh := by
  cases o <;> exact ⟨rfl, rfl, rfl⟩

theorem nextF_steps (F : Forest) (r : Nat) (o : Option (WalkEvent (List Nat))) : F.env.Steps (nextF F r o).env := by
  cases o with
  | none => exact .refl _
  | some e => exact (Env.Steps.refl _).add _

/-- A loop that succeeds, if the body leaves the tree alone, sees the whole walk. -/
theorem run_each_calm {I : Forest → Prop} {m : Bool} {f : List Nat → Option Sight}
    (hadd : ∀ G x, G.env.Low → I G → I (G.add x)) {n0 : Nat} (hdel : ∀ G h, n0 ≤ h → I G → I (G.dels [h]))
    (hbody : ∀ ev o G G', G.env.Low → I G → (body ev o).run G = .ok ((), G') → I G' ∧ G.Calm r G') (hu : T.at? S = some u) :
    ∀ (l2 : List (WalkEvent (List Nat))) {e : WalkEvent (List Nat)} {l1 : List (WalkEvent (List Nat))} {k p : Nat} {it : Walk}
      {F F' : Forest} {L : List (WalkEvent Sight)}, it.skip = false → it.next = some (e.map fun _ => p) → n0 ≤ p →
      n0 ≤ F.env.next → F.env.get p = some (r, e.elem) → F.env.get it.start = some (r, S) → p ≠ it.start → F.env.Low →
      F.tree r = T → F.mutable r = m → (∀ P, F.sight (r, P) = f P) → I F →
      Tree.walk (visited nodes) noSkip u S = l1 ++ e :: l2 →
      (walkEach nodes body k it).run F = .ok (L, F') →
      L.map (·.map some) = (e :: l2).map (·.map f)
  | l2, e, l1, 0, p, it, F, F', L, hk, hn, hp0, hn0, hp, hs, hps, hl, hT, hm, hf, hI, hw, h => by rw [walkEach] at h; cases h
  | l2, e, l1, k + 1, p, it, F, F', L, hk, hn, hp0, hn0, hp, hs, hps, hl, hT, hm, hf, hI, hw, h => by
    have hmem : e ∈ Tree.walk (visited nodes) noSkip u S := by rw [hw]; simp
    obtain ⟨hS, t, ht⟩ := walk_pos u S hu e hmem
    have hev := evNext_of_walk hu hw
    have hN := Runs.walkNext (nodes := nodes) (N := none) hk hn hs hp hS (by rw [Forest.sub, hT]; exact hu)
      (by rw [Forest.sub, hT]; exact ht) nofun
    rw [hT, hev, hn] at hN
    obtain ⟨o, ho, -⟩ := Forest.sight_of_sub (F := F) (x := (r, e.elem)) (t := t) (by rw [Forest.sub, hT]; exact ht)
    rw [walkEach, (run_bind _ _ hN.run).1] at h
    simp only [handle_map] at h
    have hcalm1 := nextF_calm F r l2.head?
    have hsteps1 := nextF_steps F r l2.head?
    have hp1 := nextF_get (r := r) hl hp l2.head?
    have hs1 := nextF_get (r := r) hl hs l2.head?
    have hI1 : I (nextF F r l2.head?) := by
      cases l2.head? with
      | none => exact hI
      | some e' => exact hadd _ _ hl hI
    have hsee : Runs none (see p) (nextF F r l2.head?) o (nextF F r l2.head?) := by
      refine .see hp1 ?_
      rw [Forest.sight, Forest.sub, hcalm1.1, hcalm1.2.1]; exact ho
    have hq1 : ∀ e', l2.head? = some e' → (nextF F r l2.head?).env.get F.env.next = some (r, e'.elem) := by
      intro e' he'
      rw [he']
      exact Env.get_add_self _ _
    rw [(run_bind _ _ hsee.run).1] at h
    generalize hF1 : nextF F r l2.head? = F1 at *
    obtain ⟨_, F2, h2, h⟩ := run_unbind _ _ h
    obtain ⟨hI2, hc2⟩ := hbody _ _ _ _ (hsteps1.low hl) hI1 h2
    have hsteps2 := run_steps _ hsteps1 h2
    obtain ⟨_, F3, h3, h⟩ := run_unbind _ _ h
    obtain ⟨-, rfl⟩ := run_drop h3
    obtain ⟨L', F4, h4, h⟩ := run_unbind _ _ h
    obtain ⟨rfl, rfl⟩ := run_pure h
    have hmap : (e.map fun _ => p).map (fun _ => o) = e.map fun _ => o := by cases e <;> rfl
    have hhead : (e.map fun _ => o).map some = e.map f := by
      have := hf e.elem
      rw [ho] at this
      cases e <;> simp_all [WalkEvent.map, WalkEvent.elem]
    rw [hmap, List.map_cons, List.map_cons, hhead]
    congr 1
    have hsteps3 := hsteps2.dels [p]
    have hstart := hl.get hs
    have hheld := run_each_held (it := it.after F l2.head?) k rfl (by
      show it.start < F2.env.next
      have := hsteps3.next
      have : F.env.next ≤ F2.env.next := hsteps2.next
      omega) h4
    cases l2 with
    | nil =>
      cases k with
      | zero => rw [walkEach] at h4; cases h4
      | succ k =>
        obtain ⟨⟨x, hx⟩, -⟩ := hheld
        have := Runs.finish (N := none) (nodes := nodes) (body := body) (k := k) (it := it.after F none) rfl rfl hx nofun
        have h4' := this.run.symm.trans h4
        cases h4'
        rfl
    | cons e' l2 =>
      have hget : ∀ {h' x P}, h' ≠ p → F1.env.get h' = some (r, P) → (F2.dels [p]).env.get h' = some x → x = (r, P) := by
        intro h' x P hne h1 h2
        have h2 : (F2.env.dels [p]).get h' = some x := h2
        rw [Env.get_dels, if_neg (by simpa using hne)] at h2
        exact hc2.handles _ _ _ h1 h2
      obtain ⟨⟨x, hx⟩, hpend⟩ := hheld
      obtain ⟨y, hy⟩ := hpend (e'.map fun _ => F.env.next) rfl
      rw [handle_map] at hy
      have hpn := hl.get hp
      have hx' := hget (Ne.symm hps) hs1 hx
      have hy' := hget (Nat.ne_of_gt hpn) (hq1 e' rfl) hy
      subst hx' hy'
      refine run_each_calm (m := m) hadd hdel hbody hu l2 (l1 := l1 ++ [e]) rfl rfl hn0 ?_ hy hx (Nat.ne_of_gt hstart) (hsteps3.low hl) ?_ ?_ ?_
        (hdel _ _ hp0 hI2) (by rw [hw]; simp) h4
      · have : F.env.next ≤ F2.env.next := hsteps2.next
        show n0 ≤ F2.env.next
        omega
      · show F2.tree r = T
        rw [hc2.tree, hcalm1.1, hT]
      · show F2.mutable r = m
        rw [hc2.mutable, hcalm1.2.1, hm]
      · intro P
        rw [← hf P]
        show F2.sight (r, P) = _
        rw [hc2.sight, Forest.sight, Forest.sight, Forest.sub, Forest.sub, hcalm1.1, hcalm1.2.1]

/-- `walk` makes two handles. -/
theorem Runs.walk {N : Option Nat} {h : Nat} {x : Nat × List Nat} (hx : F.env.get h = some x) (hN : Fits N F 2) :
    Runs N (EProg.walk h) F { start := F.env.next, next := some (.enter (F.env.next + 1)) } ((F.add x).add x) := by
  rw [EProg.walk]
  refine .bind (.clone hx (fun n hn => by have := hN n hn; omega)) (.bind (.clone (x := x) ?_ fun n hn => ?_) (.pure _))
  · exact Env.get_add_self _ _
  · have := hN n hn
    show (F.env.add x).held.length + 1 ≤ n
    simp only [Env.add, List.length_cons]; omega

theorem forWalk_calm {I : Forest → Prop} {h : Nat} {L : List (WalkEvent Sight)}
    (hadd : ∀ G x, G.env.Low → I G → I (G.add x)) (hdel : ∀ G h, F.env.next ≤ h → I G → I (G.dels [h]))
    (hbody : ∀ ev o G G', G.env.Low → I G → (body ev o).run G = .ok ((), G') → I G' ∧ G.Calm r G') (hl : F.env.Low) (hI : I F)
    (hh : F.env.get h = some (r, S)) (hu : F.sub (r, S) = some u) (e : (forWalk nodes body k h).run F = .ok (L, F')) :
    L.map (·.map some) = (Tree.walk (visited nodes) noSkip u S).map (·.map fun P => F.sight (r, P)) := by
  rw [forWalk, (run_bind _ _ (Runs.walk (N := none) hh nofun).run).1] at e
  obtain ⟨l, hl2⟩ := walk_head (visited nodes) u S
  rw [hl2]
  refine run_each_calm (p := F.env.next + 1) (m := F.mutable r) (T := F.tree r) hadd hdel hbody hu l (F := (F.add (r, S)).add (r, S)) (l1 := []) rfl rfl (Nat.le_succ _) ?_ ?_ ?_ ?_
    ((hl.add _).add _) rfl rfl (fun _ => rfl) (hadd _ _ (hl.add _) (hadd _ _ hl hI)) (by rw [hl2]; rfl) e
  · show F.env.next ≤ F.env.next + 1 + 1; omega
  · exact Env.get_add_self (F.env.add (r, S)) _
  · show ((F.env.add (r, S)).add (r, S)).get F.env.next = _
    rw [Env.get_add _ _ (Nat.lt_succ_self _), Env.get_add_self]
  · show F.env.next + 1 ≠ F.env.next; omega

/-! ### Removing what is left -/

theorem forWalk_prune {del : Tree → Bool} {h j : Nat} (hl : F.env.Low) (hh : F.env.get h = some (r, S)) (hm : F.mutable r = true)
    (hr : r < F.fresh) (ht : F.sub (r, S) = some t) (hS : S = [] ∨ del (t.prune (visited nodes) del) = false) :
    ∃ L F', Runs (some (F.env.ids.length + 4))
        (forWalk nodes (pruneBody del) ((t.pruneSeen (visited nodes) del).length + 1 + j) h) F L F' ∧
      L.map (·.map Sight.content) = t.pruneSeen (visited nodes) del ∧
      F'.tree r = (F.tree r).set S (t.prune (visited nodes) del) ∧ F'.env.ids = F.env.ids ∧
      (∀ n, n < F.fresh → n ≠ r → F'.tree n = F.tree n) ∧ (∀ n, n < F.fresh → F'.mutable n = F.mutable n) ∧
      (∀ h x, F.env.get h = some x → ¬ (x.1 = r ∧ ∃ j R, x.2 = S ++ j :: R) → F'.env.get h = some x) := by
  have hlow := Env.low_iff.mp hl
  have h0 : PruneAt F F.env.ids r S (F.tree r) ((F.add (r, S)).add (r, S))
      { start := F.env.next, next := some (.enter (F.env.next + 1)) } (some (.enter S)) := by
    refine ⟨rfl, ⟨F.env.next + 1, rfl, ?_, ?_, ?_, ?_⟩, ?_, ?_, (hl.add _).add _, rfl, hm, hr, Nat.le_refl _, fun _ _ _ => rfl,
      fun _ _ => rfl, rfl, ?_⟩
    · show ((F.env.add (r, S)).add (r, S)).ids = _
      rw [Env.ids_add, Env.ids_add]; rfl
    · show F.env.next + 1 ≠ F.env.next; omega
    · intro hx; have := hlow _ hx; omega
    · exact Env.get_add_self (F.env.add (r, S)) _
    · intro hx; have := hlow _ hx; exact absurd this (Nat.lt_irrefl _)
    · show ((F.env.add (r, S)).add (r, S)).get F.env.next = _
      rw [Env.get_add _ _ (Nat.lt_succ_self _), Env.get_add_self]
    · intro h' hU x hx _
      have := hlow _ hU
      show ((F.env.add (r, S)).add (r, S)).get h' = _
      rw [Env.get_add _ _ (Nat.lt_succ_of_lt this), Env.get_add _ _ this, hx]
  have ht' : (F.tree r).at? S = some t := ht
  obtain ⟨F1, it1, L1, h1, h2, h3⟩ := PruneAt.node (nodes := nodes) (del := del) t h0 ht' (List.prefix_refl S)
  have hat : ((F.tree r).set S (t.prune (visited nodes) del)).at? S = some (t.prune (visited nodes) del) := by
    have := Tree.at?_set_self ht' (t.prune (visited nodes) del) []
    simpa using this
  obtain ⟨F2, it2, o, h4, h5, h6⟩ := h1.keep (nodes := nodes) (del := del) (List.prefix_refl S) hat hat (by
    rcases hS with rfl | hS
    · exact .inr (.inr rfl)
    · exact .inr (.inl hS))
  have hev : evNext (visited nodes) ((F.tree r).set S (t.prune (visited nodes) del)) S (.leave S) = none := by
    rw [evNext, if_pos rfl]
  rw [hev] at h4
  obtain ⟨h7, h8⟩ := h4.next
  have hseen : (L1 ++ [WalkEvent.leave o]).map (·.map Sight.content) = t.pruneSeen (visited nodes) del := by
    rw [← h3]; simp [h6]
  have hlen : (t.pruneSeen (visited nodes) del).length = (L1 ++ [WalkEvent.leave o]).length := by rw [← hseen]; simp
  have hfin := Runs.finish (N := some (F.env.ids.length + 4)) (nodes := nodes) (body := pruneBody del) (k := j) h4.skip h7 h4.start
    (Fits.of_ids (by rw [h8]; simp))
  have hrun := (h2.trans h5) _ _ _ hfin
  have hids : (F2.dels [it2.start]).env.ids = F.env.ids := by
    show (F2.env.dels [it2.start]).ids = _
    rw [Env.ids_dels, h8, List.filter_cons_of_neg (by simp), List.filter_eq_self]
    intro x hx
    have : x ≠ it2.start := fun e => h4.startU (e ▸ hx)
    simpa using this
  refine ⟨L1 ++ [WalkEvent.leave o], F2.dels [it2.start], ?_, hseen, h4.tree, hids, h4.others, h4.mutables, ?_⟩
  · rw [forWalk]
    refine .bind (.walk hh (Fits.of_ids (by omega))) ?_
    rw [hlen, Nat.add_assoc, Nat.add_comm _ (1 + j), Nat.add_comm 1 j]
    rw [List.append_nil] at hrun
    exact hrun
  · intro h' x hx hn
    have hU := Env.mem_ids hx
    show (F2.env.dels [it2.start]).get h' = _
    rw [Env.get_dels, if_neg (by simpa using fun e : h' = it2.start => h4.startU (e ▸ hU))]
    exact h4.user h' hU x hx hn

/-! ### Removing all children -/

theorem clear_runs {kd : SyntaxKind} {h : Nat} : ∀ (cs : List Tree) {F : Forest} {j : Nat}, F.env.Low → F.env.get h = some (r, S) →
    F.mutable r = true → r < F.fresh → F.sub (r, S) = some (.node kd cs) →
    ∃ F', Runs (some (F.env.ids.length + 2)) (clear (cs.length + 1 + j) h) F () F' ∧
      F'.tree r = (F.tree r).set S (.node kd []) ∧ F'.env.ids = F.env.ids ∧
      (∀ n, n < F.fresh → n ≠ r → F'.tree n = F.tree n) ∧ (∀ n, n < F.fresh → F'.mutable n = F.mutable n) ∧
      (∀ h x, F.env.get h = some x → ¬ (x.1 = r ∧ ∃ j R, x.2 = S ++ j :: R) → F'.env.get h = some x)
  | [], F, j, hl, hh, hm, hr, ht => by
    refine ⟨F, ?_, ?_, rfl, fun _ _ _ => rfl, fun _ _ => rfl, fun _ _ hx _ => hx⟩
    · rw [List.length_nil, Nat.zero_add, Nat.add_comm 1 j, clear]
      refine .bind (.nav_none hh (fun _ => ?_) ?_ (Fits.of_ids (Nat.le_refl _))) (.pure _)
      · rw [Forest.isNode, ht]; rfl
      · have ht' : (F.tree r).at? S = some (.node kd []) := ht
        show ((F.tree r).kids S).head? = none
        rw [Tree.kids_eq ht']; rfl
    · exact (Tree.set_same ht).symm
  | c :: cs, F, j, hl, hh, hm, hr, ht => by
    have ht' : (F.tree r).at? S = some (.node kd (c :: cs)) := ht
    have hnode : F.isNode (r, S) = true := by rw [Forest.isNode, ht]; rfl
    have hfirst : Nav.firstChildOrToken.target (F.tree r) S = some (S ++ [0]) := by
      show ((F.tree r).kids S).head? = _
      rw [Tree.kids_eq ht']
      simp [Tree.children, List.range_succ_eq_map]
    have hlow := Env.low_iff.mp hl
    have hcut : (F.add (r, S ++ [0])).cut (r, S ++ [0]) = (F.add (r, S ++ [0])).cutAt r S 0 := by simp [Forest.cut]
    let G := ((F.add (r, S ++ [0])).cutAt r S 0).dels [F.env.next]
    have hids : G.env.ids = F.env.ids := by
      show (((F.env.add (r, S ++ [0])).map _).dels [F.env.next]).ids = _
      rw [Env.ids_dels, Env.ids_map, Env.ids_add, List.filter_cons_of_neg (by simp), List.filter_eq_self]
      intro x hx
      have := hlow x hx
      have : x ≠ F.env.next := by omega
      simpa using this
    have hget : ∀ {h' x}, F.env.get h' = some x → G.env.get h' = some (cutLoc r F.fresh S 0 x.1 x.2) := by
      intro h' x hx
      have := hl.get hx
      show (((F.env.add (r, S ++ [0])).map _).dels [F.env.next]).get h' = _
      rw [Env.get_dels, if_neg (by simpa using (show h' ≠ F.env.next by omega)), Env.get_map, Env.get_add _ _ this, hx]; rfl
    have hoff : ∀ {X : List Nat}, (¬ ∃ j R, X = S ++ j :: R) → cutLoc r F.fresh S 0 r X = (r, X) := by
      intro X hX
      rw [cutLoc, if_pos rfl, afterCut_off hX]
    have hnS : ¬ ∃ j R, S = S ++ j :: R := by
      rintro ⟨j, R, e⟩
      have := congrArg List.length e
      simp at this
    have hrf : r ≠ F.fresh := Nat.ne_of_lt hr
    have htree : G.tree r = (F.tree r).set S (.node kd cs) := by
      show (if r = F.fresh then _ else if r = r then (F.tree r).removeAt S 0 else _) = _
      rw [if_neg hrf, if_pos rfl, Tree.removeAt, Tree.editKids_eq ht']; rfl
    have hGget : G.env.get h = some (r, S) := by rw [hget hh]; show some (cutLoc r F.fresh S 0 r S) = _; rw [hoff hnS]
    obtain ⟨F', h1, h2, h3, h4, h5, h6⟩ := clear_runs cs (F := G) (j := j) (((hl.add _).map _).dels _) hGget
      (by show (if r = F.fresh then _ else F.mutable r) = true; rw [if_neg hrf]; exact hm) (Nat.lt_succ_of_lt hr)
      (by
        rw [Forest.sub]
        show (G.tree r).at? S = _
        rw [htree]
        have := Tree.at?_set_self ht' (.node kd cs) []
        simpa using this)
    refine ⟨F', ?_, ?_, h3.trans hids, ?_, ?_, ?_⟩
    · rw [List.length_cons, show cs.length + 1 + 1 + j = (cs.length + 1 + j) + 1 by omega, clear]
      have hN : (F.add (r, S ++ [0])).env.ids.length = F.env.ids.length + 1 := by
        show (F.env.add _).ids.length = _; rw [Env.ids_add]; rfl
      refine .bind (.nav_some hh (fun _ => hnode) hfirst (Fits.of_ids (Nat.le_refl _))) ?_
      refine .bind (.detach (x := (r, S ++ [0])) (Env.get_add_self _ _) hm (Fits.of_ids (by rw [hN]; omega))) ?_
      rw [hcut]
      refine .bind (.drop (x := cutLoc r F.fresh S 0 r (S ++ [0])) ?_ (Fits.of_ids ?_)) ?_
      · show ((F.env.add (r, S ++ [0])).map _).get F.env.next = _
        rw [Env.get_map, Env.get_add_self]; rfl
      · show ((F.env.add (r, S ++ [0])).map _).ids.length + 0 ≤ _
        rw [Env.ids_map]
        have : (F.env.add (r, S ++ [0])).ids.length = F.env.ids.length + 1 := hN
        omega
      · rw [hids] at h1
        exact h1
    · rw [h2, htree, Tree.set_set ht']
    · intro n hn hne
      rw [h4 n (Nat.lt_succ_of_lt hn) hne]
      show (if n = F.fresh then _ else if n = r then _ else F.tree n) = _
      rw [if_neg (by omega), if_neg hne]
    · intro n hn
      rw [h5 n (Nat.lt_succ_of_lt hn)]
      show (if n = F.fresh then _ else F.mutable n) = _
      rw [if_neg (by omega)]
    · intro h' x hx hn
      refine h6 h' x ?_ hn
      rw [hget hx]
      by_cases hxr : x.1 = r
      · obtain ⟨n, X⟩ := x
        simp only at hxr
        subst hxr
        rw [hoff fun ⟨j, R, e⟩ => hn ⟨rfl, j, R, e⟩]
      · rw [cutLoc, if_neg hxr]

end EProg
end Rowan
