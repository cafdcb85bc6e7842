import Verif.ForestRun
/-!
# Each step of an editing program
-/
namespace Rowan
namespace Sync
variable {s s' : HSt} {gs : List GElem} {lk lk' : List Nat} {F F' : Forest} {w w' : Env Nat} {v v' : View} {J J' : List Item}
  {top top' : Nat → Nat}

theorem low_dels (h : Sync s gs lk F w v J top) (hs : List Nat) : ∀ j ∈ Item.dels J hs, j.id < (w.dels hs).next :=
  fun j hj => h.low j (Item.mem_dels.mp hj).1

/-- A call with one handle by reference is ready. -/
theorem ready_ref (h : Sync s gs lk F w v J top) {c : Call} {j : Item} (hj : j ∈ J) (ht : c.takes = []) (hu : c.uses = [j.obj])
    (hty : ∀ x ∈ c.nodes, (s.tree x).isNode = true) (hg : ∀ m g, c ≠ .newRoot m g) :
    c.Ready s gs (J.map Item.obj) (J.map Item.obj) := by
  have := h.ready (c := c) [] (by simp) (by simp) ht (fun x hx => ⟨j, hj, by
    rw [hu] at hx; exact (List.mem_singleton.mp hx).symm, by simp⟩) hty (fun m g e => absurd e (hg m g))
  rwa [List.map_nil, Item.dels_nil] at this

/-- A call with one handle by value is ready. -/
theorem ready_val (h : Sync s gs lk F w v J top) {c : Call} {j : Item} (hj : j ∈ J) (ht : c.takes = [j.obj]) (hu : c.uses = [])
    (hty : ∀ x ∈ c.nodes, (s.tree x).isNode = true) (hg : ∀ m g, c ≠ .newRoot m g) :
    c.Ready s gs (J.map Item.obj) ((Item.dels J [j.id]).map Item.obj) :=
  h.ready (c := c) [(j.id, j.obj)] (by
    intro x hx
    rw [List.mem_singleton.mp hx]
    exact List.mem_map.mpr ⟨j, hj, rfl⟩) (by simp) ht (by rw [hu]; simp) hty (fun m g e => absurd e (hg m g))

theorem step_plant (h : Sync s gs lk F w v J top) (m : Bool) (k : SyntaxKind) (ts : List Tree) :
    (Req.plant m k ts).Matches s gs lk F w := by
  obtain ⟨g1, gs1, es, e1, hr1, ht, hes, hsub⟩ := Cur.growAll_ok ts h.reach
  have hr2 := HReach.node (s := { s with gtop := g1 }) k es hr1 hes
  have hv2 : HSt.Views { s with gtop := g1 + 1 } (cnt (J.map Item.obj ++ lk)) v := fun x hx => by
    obtain ⟨a, b, c⟩ := h.views x hx
    exact ⟨a.withGtop _, b, c⟩
  have h2 : Sync { s with gtop := g1 + 1 } (.node (GNode.new g1 k es) :: gs1) lk F w v J top :=
    ⟨hr2, hv2, h.sees, h.held, h.next, h.low, h.leak⟩
  have hr := h2.ready (c := .newRoot m (GNode.new g1 k es)) [] (by simp) (by simp) (by simp [Call.takes]) (by simp [Call.uses])
    (by simp [Call.nodes]) (by simp)
  rw [List.map_nil, Item.dels_nil] at hr
  have hex : (Req.plant m k ts).exec w s =
      ((Call.newRoot m (GNode.new g1 k es)).exec { s with gtop := g1 + 1 }).map fun new => some new.head? := by
    simp only [Req.exec]
    rw [H.bind_ok e1, H.bind_ok (m := H.freshG) (s := { s with gtop := g1 }) rfl]
    simp only [H.bind_def]
    cases (Call.newRoot m (GNode.new g1 k es)).exec { s with gtop := g1 + 1 } <;> rfl
  rcases h2.call hr rfl (by simp) with e | ⟨new, s', v', e, hR, hV, hS⟩
  · left; rw [hex, e]; rfl
  · right
    obtain ⟨x, rfl, hf, rfl⟩ := hS
    rw [show GNode.tree (GNode.new g1 k es) = .node k ts by rw [GNode.tree_new, ht]] at hV
    refine ⟨x, s', lk, by rw [hex, e]; rfl, Nat.le_add_right .., ?_, rfl⟩
    rw [show Req.takes _ = [] from rfl, Env.dels_nil]
    refine finish_plant (v := v) (J' := J) (top := top) (lk := lk) (F' := F) ?_ hV h.sees h.held h.next h.low hf h.leak
    exact HReach.dropGreen hR fun e he => List.mem_cons_of_mem _ (hsub e he)

theorem step_clone (h : Sync s gs lk F w v J top) (n : Nat) : (Req.clone n).Matches s gs lk F w := by
  rw [Req.Matches, Req.on]
  cases hx : F.env.get n with
  | none => exact .inr trivial
  | some x =>
    obtain ⟨j, hj, rfl, rfl, hw⟩ := h.get hx
    rw [Req.exec_call (c := .clone j.obj) (by rw [Req.call, hw]; rfl)]
    have hr := h.ready_ref (c := .clone j.obj) hj rfl rfl (by simp [Call.nodes]) (by simp)
    rcases h.call hr rfl (by simp) with e | ⟨new, s', v', e, hR, hV, hS⟩
    · left; rw [e]; rfl
    · right
      obtain ⟨rfl, rfl⟩ := hS
      refine ⟨j.obj, s', lk, by rw [e]; rfl, Nat.le_add_right .., ?_, rfl⟩
      rw [show Req.takes _ = [] from rfl, Env.dels_nil]
      exact finish_add (J' := J) (top' := top) hR hV h.sees h.held h.next h.low (h.sees.pos j hj) (h.sees.tree j hj)
        (h.sees.mutb j hj) (h.sees.low j hj) (fun i hi => h.sees.inj i hi j hj) h.leak

theorem step_drop (h : Sync s gs lk F w v J top) (n : Nat) : (Req.drop n).Matches s gs lk F w := by
  rw [Req.Matches, Req.on]
  cases hx : F.env.get n with
  | none => exact .inr trivial
  | some x =>
    obtain ⟨j, hj, rfl, rfl, hw⟩ := h.get hx
    rw [Req.exec_call (c := .drop j.obj) (by rw [Req.call, hw]; rfl)]
    have hr := h.ready_val (c := .drop j.obj) hj rfl rfl (by simp [Call.nodes]) (by simp)
    rcases h.call hr rfl (by simp) with e | ⟨new, s', v', e, hR, hV, hS⟩
    · left; rw [e]; rfl
    · right
      obtain ⟨rfl, rfl⟩ := hS
      refine ⟨s', lk, by rw [e]; rfl, Nat.le_add_right .., ?_⟩
      exact finish (J' := Item.dels J [j.id]) (top' := top) hR hV (h.sees.dels _) (Item.dels_objs h.held _) h.next (h.low_dels _) h.leak

theorem step_forget (h : Sync s gs lk F w v J top) (n : Nat) : (Req.forget n).Matches s gs lk F w := by
  rw [Req.Matches, Req.on]
  cases hx : F.env.get n with
  | none => exact .inr trivial
  | some x =>
    obtain ⟨j, hj, rfl, rfl, hw⟩ := h.get hx
    rw [Req.exec_call (c := .forget j.obj) (by rw [Req.call, hw]; rfl)]
    have hr := h.ready_val (c := .forget j.obj) hj rfl rfl (by simp [Call.nodes]) (by simp)
    rcases h.call hr rfl (by simp) with e | ⟨new, s', v', e, hR, hV, hS⟩
    · left; rw [e]; rfl
    · right
      obtain ⟨rfl, rfl⟩ := hS
      refine ⟨s', _, by rw [e]; rfl, ?_, finish (J' := Item.dels J [j.id]) (top' := top) hR hV ((h.sees.dels _).leak _)
        (Item.dels_objs h.held _) h.next (h.low_dels _) (fun _ => Bool.or_true _)⟩
      simp [Call.lost, Req.lost]

theorem step_nav (h : Sync s gs lk F w v J top) (f : Nav) (n : Nat) : (Req.nav f n).Matches s gs lk F w := by
  rw [Req.Matches, Req.on]
  cases hx : F.env.get n with
  | none => exact .inr trivial
  | some x =>
    obtain ⟨j, hj, rfl, rfl, hw⟩ := h.get hx
    simp only
    by_cases hn : f.onNodes = true ∧ F.isNode (j.tree, j.path) = false
    · rw [if_pos hn]; exact .inr trivial
    rw [if_neg hn]
    rw [Req.exec_call (c := .nav f j.obj) (by rw [Req.call, hw]; rfl)]
    have hr := h.ready_ref (c := .nav f j.obj) hj rfl rfl (by
      intro x hx
      simp only [Call.nodes] at hx
      split at hx
      next hf =>
        rw [List.mem_singleton.mp hx, ← h.isNode hj]
        cases hN : F.isNode (j.tree, j.path) with
        | true => rfl
        | false => exact absurd ⟨hf, hN⟩ hn
      · cases hx) (by simp)
    rcases h.call hr rfl (by simp) with e | ⟨new, s', v', e, hR, hV, hS⟩
    · left; rw [e]; rfl
    · right
      simp only [Call.Shows, h.sees.pos j hj, h.sees.tree j hj] at hS
      have := finish_found (J' := J) (top := top) (n := j.tree) hR hV h.sees h.held h.next h.low rfl (h.sees.mutb j hj)
        (h.sees.low j hj) (h.sees.tree j hj) (fun i hi => h.sees.inj i hi j hj) hS h.leak
      rw [show Req.takes _ = [] from rfl, Env.dels_nil]
      cases ht : f.target (F.tree j.tree) j.path with
      | none =>
        rw [ht] at this
        obtain ⟨rfl, ht⟩ := this
        exact ⟨s', lk, by rw [e]; rfl, Nat.le_add_right .., ht⟩
      | some P =>
        rw [ht] at this
        obtain ⟨y, rfl, ht⟩ := this
        exact ⟨y, s', lk, by rw [e]; rfl, Nat.le_add_right .., ht, rfl⟩

theorem step_toNext (h : Sync s gs lk F w v J top) (b : Bool) (n : Nat) : (Req.toNext b n).Matches s gs lk F w := by
  rw [Req.Matches, Req.on]
  cases hx : F.env.get n with
  | none => exact .inr trivial
  | some x =>
    obtain ⟨j, hj, rfl, rfl, hw⟩ := h.get hx
    simp only
    rw [Req.exec_call (c := .toNext b j.obj) (by rw [Req.call, hw]; rfl)]
    have hr := h.ready_val (c := .toNext b j.obj) hj rfl rfl (by simp [Call.nodes]) (by simp)
    have hleak : (Call.toNext b j.obj).lost s ++ lk ≠ [] → (F.leaked || j.path.isEmpty) = true := by
      simp only [Call.lost]
      split
      next hl =>
        have hloc := h.loc hj
        have : j.path = [] := by
          generalize j.path = P at hloc
          generalize top j.tree = r at hloc
          cases hloc with
          | root => rfl
          | child _ h2 => rw [hl.1] at h2; cases h2
        rw [this]
        simp
      · intro hlk; rw [h.leak hlk]; rfl
    have hlost : ((Call.toNext b j.obj).lost s ++ lk).length ≤ lk.length + (Req.toNext b j.id).lost F := by
      simp only [Call.lost, Req.lost, h.sees.get hj, List.length_append]
      split
      next hl =>
        have hloc := h.loc hj
        have : j.path = [] := by
          generalize j.path = P at hloc
          generalize top j.tree = r at hloc
          cases hloc with
          | root => rfl
          | child _ h2 => rw [hl.1] at h2; cases h2
        rw [this]
        simp; omega
      · simp
    rcases h.call hr rfl (by simp) with e | ⟨new, s', v', e, hR, hV, hS⟩
    · left; rw [e]; rfl
    · right
      simp only [Call.Shows, h.sees.pos j hj, h.sees.tree j hj] at hS
      have := finish_found (J' := Item.dels J [j.id]) (top := top) (n := j.tree) hR hV ((h.sees.dels [j.id]).leak j.path.isEmpty) (Item.dels_objs h.held _) h.next
        (h.low_dels _) rfl (h.sees.mutb j hj)
        (h.sees.low j hj) (h.sees.tree j hj) (fun i hi => h.sees.inj i (Item.mem_dels.mp hi).1 j hj) hS hleak
      generalize Nav.target (F.tree j.tree) j.path _ = o at this ⊢
      cases o with
      | none =>
        obtain ⟨rfl, ht⟩ := this
        exact ⟨s', _, by rw [e]; rfl, hlost, ht⟩
      | some P =>
        obtain ⟨y, rfl, ht⟩ := this
        exact ⟨y, s', _, by rw [e]; rfl, hlost, ht, rfl⟩

theorem step_cloneSubtree (h : Sync s gs lk F w v J top) (n : Nat) : (Req.cloneSubtree n).Matches s gs lk F w := by
  rw [Req.Matches, Req.on]
  cases hx : F.env.get n with
  | none => exact .inr trivial
  | some x =>
    obtain ⟨j, hj, rfl, rfl, hw⟩ := h.get hx
    simp only [h.content hj]
    cases ht : s.tree j.obj with
    | token k x => exact .inr trivial
    | node k ts =>
      rw [Req.exec_call (c := .cloneSubtree j.obj) (by rw [Req.call, hw]; rfl)]
      have hr := h.ready_ref (c := .cloneSubtree j.obj) hj rfl rfl (by simp [Call.nodes, ht]; rfl) (by simp)
      rcases h.call hr rfl (by simp) with e | ⟨new, s', v', e, hR, hV, hS⟩
      · left; rw [e]; rfl
      · right
        obtain ⟨y, t, rfl, hf, hs, rfl⟩ := hS
        rw [← h.sees.sub hj, h.content hj, ht] at hs
        cases hs
        refine ⟨y, s', lk, by rw [e]; rfl, Nat.le_add_right .., ?_, rfl⟩
        rw [show Req.takes _ = [] from rfl, Env.dels_nil]
        exact finish_plant (v := v) (J' := J) (top := top) (lk := lk) (F' := F) hR hV h.sees h.held h.next h.low hf h.leak

theorem step_cloneForUpdate (h : Sync s gs lk F w v J top) (n : Nat) : (Req.cloneForUpdate n).Matches s gs lk F w := by
  rw [Req.Matches, Req.on]
  cases hx : F.env.get n with
  | none => exact .inr trivial
  | some x =>
    obtain ⟨j, hj, rfl, rfl, hw⟩ := h.get hx
    simp only [h.isNode hj, h.mutable hj]
    cases hn : (s.tree j.obj).isNode with
    | false => exact .inr trivial
    | true =>
      rw [Req.exec_call (c := .cloneForUpdate j.obj) (by rw [Req.call, hw]; rfl)]
      have hr := h.ready_ref (c := .cloneForUpdate j.obj) hj rfl rfl (by simp [Call.nodes, hn]) (by simp)
      cases hm : s.mutable j.obj with
      | true =>
        right
        rw [show Req.takes _ = [] from rfl, Env.dels_nil]
        refine ⟨.assert, s, ?_, h.tracks⟩
        letI : Greens := ⟨gs⟩
        rw [Call.exec, H.bind_def, Cur.cloneForUpdate_panic (h.loc hj).live hm]; rfl
      | false =>
        rcases h.call hr rfl (by intro p e; cases e; exact hm) with e | ⟨new, s', v', e, hR, hV, hS⟩
        · left; rw [e]; rfl
        · right
          obtain ⟨y, r, rfl, hf, rfl⟩ := hS
          simp only [h.sees.pos j hj, h.sees.tree j hj] at hV
          refine ⟨y, s', lk, by rw [e]; rfl, Nat.le_add_right .., ?_, rfl⟩
          rw [show Req.takes _ = [] from rfl, Env.dels_nil]
          exact finish_plant (v := v) (J' := J) (top := top) (lk := lk) (F' := F) hR hV h.sees h.held h.next h.low hf h.leak

theorem step_detach (h : Sync s gs lk F w v J top) (n : Nat) : (Req.detach n).Matches s gs lk F w := by
  rw [Req.Matches, Req.on]
  cases hx : F.env.get n with
  | none => exact .inr trivial
  | some x =>
    letI : Greens := ⟨gs⟩
    obtain ⟨kids, hi⟩ := h.reach.ok'
    obtain ⟨j, hj, rfl, rfl, hw⟩ := h.get hx
    simp only [h.mutable hj]
    rw [Req.exec_call (c := .detach j.obj) (by rw [Req.call, hw]; rfl)]
    have hr := h.ready_ref (c := .detach j.obj) hj rfl rfl (by simp [Call.nodes]) (by simp)
    obtain ⟨h1, h2⟩ := Call.exec_detach ⟨kids, hi⟩ hr h.views
    right
    cases hm : s.mutable j.obj with
    | false =>
      rw [show Req.takes _ = [] from rfl, Env.dels_nil]
      exact ⟨.assert, s, by rw [h2 hm]; rfl, h.tracks⟩
    | true =>
      obtain ⟨s', e, -, -, hv'⟩ := h1 hm
      obtain ⟨J', top', g1, g2, g3⟩ := h.sees.cut (A := fun x => 0 < cnt (J.map Item.obj ++ lk) x) hj (h.views.named hi) (fun x hx => by
        obtain ⟨i, hi, rfl⟩ := List.mem_map.mp hx
        exact mem hi) (h.views.full hi _ (mem hj))
      have hobj : J'.map Item.obj = J.map Item.obj := by rw [← Item.objs_snd, g2, Item.objs_snd]
      refine ⟨s', lk, by rw [e]; rfl, Nat.le_add_right .., ?_⟩
      rw [show Req.takes _ = [] from rfl, Env.dels_nil]
      refine finish (J' := J') (top' := top') ?_ ?_ g1 (by rw [h.held, g2]) (g3.1.trans h.next) ?_
        (fun hlk => by rw [g3.2]; exact h.leak hlk)
      · rw [hobj]; exact HReach.ok (.detach j.obj) h.reach hr e
      · rw [hobj]; exact hv'
      · intro k hk
        have : (k.id, k.obj) ∈ Item.objs J := by rw [← g2]; exact List.mem_map.mpr ⟨k, hk, rfl⟩
        obtain ⟨i, hi, e'⟩ := List.mem_map.mp this
        have := h.low i hi
        rw [(Prod.mk.inj e').1] at this
        exact this

theorem step_splices (h : Sync s gs lk F w v J top) {q a b : Nat} {ins : List Nat} (hok : F.splice q a b ins ≠ .misuse) {r : Req}
    (ht : r.takes = ins) (hc : ∀ {y xs}, w.get q = some y → w.gets ins = some xs →
      ∃ c, r.call w = some c ∧ c.Splices y a b xs) :
    r.exec w s = .abort ∨
    match F.splice q a b ins with
    | .ok F' => ∃ s', r.exec w s = .ok (some none) s' ∧ Tracks s' gs lk F' (w.dels r.takes)
    | .panic F' => ∃ y s', r.exec w s = .panic y s' ∧ Tracks s' gs lk F' (w.dels r.takes)
    | .broken => ∃ y s', r.exec w s = .panic y s' ∧ Droppable s' ((w.dels r.takes).held.map Prod.snd)
    | .diverge => r.exec w s = .diverge
    | .wild | .misuse => False := by
  have hok' := hok
  rw [Forest.splice] at hok'
  cases hx : F.env.get q with
  | none => rw [hx] at hok'; exact absurd rfl hok'
  | some x =>
    rw [hx] at hok'
    obtain ⟨j, hj, rfl, rfl, hw⟩ := h.get hx
    simp only at hok'
    split at hok'
    next hcond =>
      obtain ⟨hnode, hgets, hnd, hq⟩ := hcond
      obtain ⟨ps, hp1, hp2, hp3⟩ := Item.gets_objs h.held h.sees.held hgets
      obtain ⟨c, hcall, sp⟩ := hc hw hp2
      letI : Greens := ⟨gs⟩
      have hu := sp.uses (s := s)
      subst hp1
      have hr := h.ready (c := c) ps hp3 hnd hu.1 (fun x hx => ⟨j, hj, by
        rw [hu.2.1] at hx; exact (List.mem_singleton.mp hx).symm, hq⟩) (fun x hx => by
          rw [hu.2.2.1] at hx
          rw [List.mem_singleton.mp hx, ← h.isNode hj]; exact hnode) (fun m g e => by
          rw [e] at sp; cases sp)
      rw [Req.exec_call hcall, ht]
      have := h.splice hj hp3 hok sp hr
      rcases this with e | this
      · left; rw [e]; rfl
      · right
        cases ho : F.splice j.id a b (ps.map Prod.fst) with
        | ok F' =>
          rw [ho] at this
          obtain ⟨s', e, t⟩ := this
          exact ⟨s', by rw [e]; rfl, t⟩
        | panic F' =>
          rw [ho] at this
          obtain ⟨y, s', e, t⟩ := this
          exact ⟨y, s', by rw [e]; rfl, t⟩
        | broken =>
          rw [ho] at this
          obtain ⟨y, s', e, t⟩ := this
          exact ⟨y, s', by rw [e]; rfl, t⟩
        | wild => rw [ho] at this; exact this
        | diverge =>
          rw [ho] at this
          simp only at this
          rw [this]; rfl
        | misuse => exact hok ho
    next => exact absurd rfl hok'

theorem step (h : Sync s gs lk F w v J top) (r : Req) : r.Matches s gs lk F w := by
  have fin : ∀ {r : Req} {q a b : Nat} {ins : List Nat}, r.takes = ins → (∀ {y xs}, w.get q = some y → w.gets ins = some xs →
      ∃ c, r.call w = some c ∧ c.Splices y a b xs) →
      (r.on F = match F.splice q a b ins with
        | .ok F' => .ok (none, F')
        | .panic F' => .panic F'
        | .broken => .broken
        | .wild => .wild
        | .diverge => .diverge
        | .misuse => .misuse) → r.Matches s gs lk F w := by
    intro r q a b ins ht hc ho
    rw [Req.Matches, ho]
    by_cases hok : F.splice q a b ins = .misuse
    · rw [hok]; exact .inr trivial
    · rcases h.step_splices hok ht hc with e | this
      · exact .inl e
      · right
        cases hF : F.splice q a b ins with
        | ok F' =>
          rw [hF] at this
          obtain ⟨s', e, t⟩ := this
          exact ⟨s', lk, e, Nat.le_add_right .., t⟩
        | panic F' => rw [hF] at this; exact this
        | broken => rw [hF] at this; exact this
        | wild => rw [hF] at this; exact this
        | diverge => rw [hF] at this; exact this
        | misuse => trivial
  cases r with
  | plant m k ts => exact h.step_plant m k ts
  | clone n => exact h.step_clone n
  | drop n => exact h.step_drop n
  | forget n => exact h.step_forget n
  | nav f n => exact h.step_nav f n
  | toNext b n => exact h.step_toNext b n
  | cloneSubtree n => exact h.step_cloneSubtree n
  | cloneForUpdate n => exact h.step_cloneForUpdate n
  | detach n => exact h.step_detach n
  | splice q a b ins =>
    exact fin (ins := ins) rfl (fun {y xs} h1 h2 => ⟨_, by rw [Req.call, h1, h2], .splice⟩) (by
      rw [Req.on]; cases F.splice q a b ins <;> rfl)
  | attach q i p =>
    refine fin (q := q) (a := i) (b := i) (ins := [p]) rfl (fun {y xs} h1 h2 => ?_) (by
      rw [Req.on]; cases F.splice q i i [p] <;> rfl)
    cases hp : w.get p with
    | none => rw [Env.gets, hp] at h2; simp at h2
    | some x =>
      rw [Env.gets, hp, Env.gets] at h2
      cases h2
      exact ⟨_, by rw [Req.call, h1, hp], .attach⟩

end Sync
end Rowan
