import Verif.ForestReq
/-!
# Runs of editing programs
-/
namespace Rowan

theorem HOut.of_map_abort {α β : Type} {f : α → β} {o : HOut α} (h : o.map f = .abort) : o = .abort := by
  cases o <;> first | rfl | cases h

namespace Sync
variable {s s' : HSt} {gs : List GElem} {lk lk' : List Nat} {F F' : Forest} {w w' : Env Nat} {v v' : View} {J J' : List Item}
  {top top' : Nat → Nat}

theorem length (h : Sync s gs lk F w v J top) : (J.map Item.obj ++ lk).length = F.env.held.length + lk.length := by
  rw [h.sees.held]; simp [Item.places]

theorem no_abort (h : Sync s gs lk F w v J top) {r : Req} {c : Call} (hc : r.call w = some c) (hle : c.cost s ≤ r.cost F)
    (e : r.exec w s = .abort) : Cur.rcMax ≤ F.env.held.length + lk.length + r.cost F := by
  rw [Req.exec_call hc] at e
  have := HOut.of_map_abort e
  rcases Nat.lt_or_ge (F.env.held.length + lk.length + r.cost F) Cur.rcMax with hlt | hge
  · exact absurd this (C42_no_abort h.reach (by rw [h.length]; omega))
  · exact hge

/-- A step aborts only if there are about 2^32 handles. -/
theorem abort (h : Sync s gs lk F w v J top) (r : Req) (hm : r.on F ≠ .misuse) (e : r.exec w s = .abort) :
    Cur.rcMax ≤ F.env.held.length + lk.length + r.cost F := by
  have one : ∀ {n : Nat} {f : Nat → Call} {r : Req}, r.call w = (w.get n).map f → r.on F ≠ .misuse →
      (F.env.get n = none → r.on F = .misuse) → (∀ x, (f x).cost s ≤ r.cost F) → r.exec w s = .abort →
      Cur.rcMax ≤ F.env.held.length + lk.length + r.cost F := by
    intro n f r hc hm hn hle e
    cases hx : F.env.get n with
    | none => exact absurd (hn hx) hm
    | some x =>
      obtain ⟨j, hj, rfl, rfl, hw⟩ := h.get hx
      exact h.no_abort (c := f j.obj) (by rw [hc, hw]; rfl) (hle _) e
  have spl : ∀ {q a b : Nat} {ins : List Nat}, F.splice q a b ins ≠ .misuse → ∃ j ∈ J, j.id = q ∧ w.get q = some j.obj ∧
      F.env.get q = some (j.tree, j.path) ∧ ∃ ps : List (Nat × Nat), w.gets ins = some (ps.map Prod.snd) ∧ ps.length = ins.length := by
    intro q a b ins hok
    rw [Forest.splice] at hok
    cases hx : F.env.get q with
    | none => rw [hx] at hok; exact absurd rfl hok
    | some x =>
      rw [hx] at hok
      obtain ⟨j, hj, rfl, rfl, hw⟩ := h.get hx
      simp only at hok
      split at hok
      next hcond =>
        obtain ⟨ps, hp1, hp2, hp3⟩ := Item.gets_objs h.held h.sees.held hcond.2.1
        exact ⟨j, hj, rfl, hw, rfl, ps, hp2, by rw [← hp1, List.length_map]⟩
      next => exact absurd rfl hok
  cases r with
  | plant m k ts =>
    obtain ⟨g1, gs1, es, e1, hr1, ht, hes, hsub⟩ := Cur.growAll_ok ts h.reach
    have hr2 := HReach.node (s := { s with gtop := g1 }) k es hr1 hes
    simp only [Req.exec] at e
    rw [H.bind_ok e1, H.bind_ok (m := H.freshG) (s := { s with gtop := g1 }) rfl] at e
    rcases Nat.lt_or_ge (F.env.held.length + lk.length + (Req.plant m k ts).cost F) Cur.rcMax with hlt | hge
    · refine absurd ?_ (C42_no_abort (c := .newRoot m (GNode.new g1 k es)) hr2 (by rw [h.length]; exact hlt))
      simp only [H.bind_def] at e
      generalize Call.exec (.newRoot m (GNode.new g1 k es)) { s with gtop := g1 + 1 } = o at e ⊢
      cases o <;> first | rfl | cases e
    · exact hge
  | clone n => exact one (n := n) rfl hm (fun hx => by rw [Req.on, hx]) (fun _ => Nat.le_refl _) e
  | drop n => exact one (n := n) rfl hm (fun hx => by rw [Req.on, hx]) (fun _ => Nat.le_refl _) e
  | forget n => exact one (n := n) rfl hm (fun hx => by rw [Req.on, hx]) (fun _ => Nat.le_refl _) e
  | nav f n => exact one (n := n) rfl hm (fun hx => by rw [Req.on, hx]) (fun _ => Nat.le_refl _) e
  | toNext b n => exact one (n := n) rfl hm (fun hx => by rw [Req.on, hx]) (fun _ => Nat.le_refl _) e
  | cloneSubtree n => exact one (n := n) rfl hm (fun hx => by rw [Req.on, hx]) (fun _ => Nat.le_refl _) e
  | detach n => exact one (n := n) rfl hm (fun hx => by rw [Req.on, hx]) (fun _ => Nat.le_refl _) e
  | cloneForUpdate n =>
    cases hx : F.env.get n with
    | none => rw [Req.on, hx] at hm; exact absurd rfl hm
    | some x =>
      obtain ⟨j, hj, rfl, rfl, hw⟩ := h.get hx
      rw [Req.exec_call (c := .cloneForUpdate j.obj) (by rw [Req.call, hw]; rfl)] at e
      have e := HOut.of_map_abort e
      have hc : (Req.cloneForUpdate j.id).cost F = 2 * (j.path.length + 1) := by simp only [Req.cost, hx]
      rcases Nat.lt_or_ge (F.env.held.length + lk.length + (Req.cloneForUpdate j.id).cost F) Cur.rcMax with hlt | hge
      · rw [hc] at hlt
        have hroom := C42_room (n := 2 * (j.path.length + 1)) h.reach (by omega) (by rw [h.length]; omega)
        have h1 := hroom.1
        have := (Bump.cloneForUpdate (h.loc hj)).run (Cur.rcMax - 2 * (j.path.length + 1)) (by omega)
          (fun p hp => by have := hroom.2 p hp; omega) (by omega)
        rw [e] at this
        exact this.elim
      · exact hge
  | splice q a b ins =>
    obtain ⟨j, hj, rfl, hw, hx, ps, hp, hl⟩ := spl (fun e => hm (by rw [Req.on, e]))
    refine h.no_abort (c := .splice j.obj a b (ps.map Prod.snd)) (by rw [Req.call, hw, hp]) ?_ e
    simp only [Call.cost, Req.cost, hx, h.width hj, List.length_map, hl]
    exact Nat.le_refl _
  | attach q i p =>
    obtain ⟨j, hj, rfl, hw, hx, ps, hp, hl⟩ := spl (fun e => hm (by rw [Req.on, e]))
    cases hxp : w.get p with
    | none => rw [Env.gets, hxp] at hp; simp at hp
    | some y => exact h.no_abort (c := .attach j.obj i y) (by rw [Req.call, hw, hxp]) (Nat.le_refl _) e

end Sync

theorem H.caught_ok {α : Type} {m : H α} {s s' : HSt} {a : α} (e : m s = .ok a s') : H.caught m s = .ok (some a) s' := by
  simp only [H.caught, e]

theorem H.caught_panic {α : Type} {m : H α} {s s' : HSt} {y : Why} (e : m s = .panic y s') : H.caught m s = .ok none s' := by
  simp only [H.caught, e]

/-- The run on the heap does what the run on the forest does. -/
def EProg.Follows {α : Type} (o : FOut (α × Forest)) (r : HOut (EOut α)) (gs : List GElem) (n : Nat) : Prop :=
  match o with
  | .ok (a, F') => ∃ w' s' lk', r = .ok (.ok a w') s' ∧ Tracks s' gs lk' F' w' ∧ lk'.length ≤ n
  | .panic F' => ∃ w' s' lk', r = .ok (.panic w') s' ∧ Tracks s' gs lk' F' w' ∧ lk'.length ≤ n
  | .broken => ∃ w' s', r = .ok (.panic w') s' ∧ Droppable s' (w'.held.map Prod.snd)
  | .diverge => r = .diverge
  | .wild | .misuse => False

theorem EProg.Follows.mono {α : Type} {o : FOut (α × Forest)} {r : HOut (EOut α)} {gs : List GElem} {n m : Nat}
    (h : Follows o r gs n) (hnm : n ≤ m) : Follows o r gs m := by
  cases o with
  | ok b => obtain ⟨w, s, l, h1, h2, h3⟩ := h; exact ⟨w, s, l, h1, h2, Nat.le_trans h3 hnm⟩
  | panic F => obtain ⟨w, s, l, h1, h2, h3⟩ := h; exact ⟨w, s, l, h1, h2, Nat.le_trans h3 hnm⟩
  | _ => exact h

/-- The run on the heap does what the run on the forest does, unless a reference count overflows. -/
theorem EProg.exec_run {α : Type} : ∀ (p : EProg α) {s : HSt} {gs : List GElem} {lk : List Nat} {F : Forest} {w : Env Nat},
    Tracks s gs lk F w → p.run F ≠ .misuse → p.run F ≠ .wild →
    (p.exec w s = .abort ∧ Cur.rcMax ≤ p.peak F + lk.length) ∨
    EProg.Follows (p.run F) (p.exec w s) gs (lk.length + p.lost F)
  | .ret a, s, gs, lk, F, w, h, _, _ => .inr ⟨w, s, lk, rfl, h, Nat.le_refl _⟩
  | .panic, s, gs, lk, F, w, h, _, _ => .inr ⟨w, s, lk, rfl, h, Nat.le_refl _⟩
  | .diverge, s, gs, lk, F, w, h, _, _ => .inr rfl
  | .look n k, s, gs, lk, F, w, h, hm, hw => by
    obtain ⟨v, J, top, hS⟩ := h.sync
    simp only [EProg.run, EProg.peak, EProg.lost] at hm hw ⊢
    cases hx : F.env.get n with
    | none => rw [hx] at hm; exact absurd rfl hm
    | some x =>
      obtain ⟨j, hj, rfl, rfl, hj2⟩ := hS.get hx
      obtain ⟨o, ho, hs⟩ := hS.sight hj
      simp only [hx, ho] at hm hw ⊢
      rw [EProg.exec, hj2]
      simp only
      rw [H.bind_ok hs]
      exact EProg.exec_run (k o) h hm hw
  | .same m n k, s, gs, lk, F, w, h, hm, hw => by
    obtain ⟨v, J, top, hS⟩ := h.sync
    simp only [EProg.run, EProg.peak, EProg.lost] at hm hw ⊢
    cases hx : F.env.get m with
    | none => rw [hx] at hm; exact absurd rfl hm
    | some x =>
      cases hy : F.env.get n with
      | none => rw [hx, hy] at hm; exact absurd rfl hm
      | some y =>
        obtain ⟨i, hi, rfl, rfl, hi2⟩ := hS.get hx
        obtain ⟨j, hj, rfl, rfl, hj2⟩ := hS.get hy
        cases ho : F.eq (i.tree, i.path) (j.tree, j.path) with
        | none => simp only [hx, hy, ho] at hw; exact absurd rfl hw
        | some o =>
          simp only [hx, hy, ho] at hm hw ⊢
          rw [EProg.exec, hi2, hj2]
          simp only
          rw [H.bind_ok (hS.eq hi hj ho)]
          exact EProg.exec_run (k o) h hm hw
  | .req r k, s, gs, lk, F, w, h, hm, hwild => by
    obtain ⟨v, J, top, hS⟩ := h.sync
    simp only [EProg.run, EProg.peak, EProg.lost] at hm hwild ⊢
    have hmr : r.on F ≠ .misuse := fun e => by rw [e] at hm; exact hm rfl
    rcases hS.step r with e | hstep
    · have := hS.abort r hmr e
      exact .inl ⟨by rw [EProg.exec, H.bind_def, H.caught, e], by omega⟩
    · cases ho : r.on F with
      | misuse => exact absurd ho hmr
      | wild => rw [ho] at hstep; exact hstep.elim
      | panic F' =>
        rw [ho] at hstep hm hwild
        obtain ⟨y, s', e, ht⟩ := hstep
        simp only at hm hwild ⊢
        rw [EProg.exec, H.bind_ok (H.caught_panic e)]
        rcases EProg.exec_run (k .panicked) ht hm hwild with ⟨e1, e2⟩ | e1
        · exact .inl ⟨e1, by omega⟩
        · exact .inr e1
      | broken =>
        rw [ho] at hstep hm hwild
        obtain ⟨y, s', e, ht⟩ := hstep
        simp only at hm hwild ⊢
        rw [EProg.exec, H.bind_ok (H.caught_panic e)]
        cases hk : k .panicked with
        | panic => exact .inr ⟨_, s', rfl, ht⟩
        | _ => rw [hk] at hwild; exact absurd rfl hwild
      | diverge =>
        rw [ho] at hstep
        simp only at hstep
        exact .inr (by
          show _ = _
          rw [EProg.exec, H.bind_def, H.caught, hstep])
      | ok o =>
        obtain ⟨_ | x, F'⟩ := o
        · rw [ho] at hstep hm hwild
          obtain ⟨s', lk', e, hl, ht⟩ := hstep
          simp only at hm hwild ⊢
          rw [EProg.exec, H.bind_ok (H.caught_ok e)]
          rcases EProg.exec_run (k (.done none)) ht hm hwild with ⟨e1, e2⟩ | e1
          · exact .inl ⟨e1, by omega⟩
          · exact .inr (e1.mono (by omega))
        · rw [ho] at hstep hm hwild
          obtain ⟨y, s', lk', e, hl, ht, hn⟩ := hstep
          simp only at hm hwild ⊢
          rw [EProg.exec, H.bind_ok (H.caught_ok e)]
          have hw : F.env.next = w.next := h.next
          simp only [hw] at hm hwild ⊢
          rcases EProg.exec_run (k (.done (some w.next))) ht hm hwild with ⟨e1, e2⟩ | e1
          · exact .inl ⟨e1, by omega⟩
          · exact .inr (e1.mono (by omega))

end Rowan
