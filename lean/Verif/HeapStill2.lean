import Verif.HeapHistory
/-!
# What edits elsewhere leave alone: `splice_children` and whole histories
-/
namespace Rowan
set_option linter.unusedSectionVars false

namespace Cur
variable [Greens]
variable {s s' : HSt} {hc : Nat → Nat} {kids : Nat → List Nat} {v : View} {q i p x : Nat}

theorem Local.up {q p : Nat} {kids' : Nat → List Nat} {z : Option Nat} {bad : List Nat}
    (h' : HInv s' hc kids' z bad) (lo : Local s s' q p) (hp' : s'.parent p = some q) (hl : s'.live p = true)
    (hlq : s'.live q = true) (hx : ¬ s.Up q x) {y : Nat} (hy : s'.live y = true) (hu : s'.Up y x) : s.Up y x := by
  have hq : ∀ w x, s'.Up w x → s'.live w = true → s'.Up q w → s.Up w x := by
    intro w x hu
    induction hu with
    | refl => intros; exact .refl
    | @step w w' x hp _ ih =>
      intro hw hqw
      have hwp : w ≠ p := by
        rintro rfl
        exact h'.up_acyclic hl hp' hqw
      exact .step ((lo.parent w hw hwp).symm.trans hp) (ih (h'.parentOk _ _ hw hp).1 (hqw.trans (.step hp .refl)))
  induction hu with
  | refl => exact .refl
  | @step y w x hp hu ih =>
    by_cases hyp : y = p
    · rw [hyp, hp'] at hp; cases hp
      exact absurd (hq q x hu hlq .refl) hx
    · exact .step ((lo.parent y hy hyp).symm.trans hp) (ih hx (h'.parentOk _ _ hy hp).1)

/-- `attach_child` elsewhere. -/
theorem attach_still (h : HInv s hc kids none []) (hq : 0 < hc q) (hp : 0 < hc p)
    (hmq : s.mutable q = true) (hn : (s.tree q).isNode = true) (hv : s.Views hc v)
    (hx1 : ¬ s.Up q x) (hx2 : s.Up p x → x = p) :
    match attach q i p s with
    | .ok _ s' => Still hc x s s' ∧ ∀ y, 0 < hc y → s'.Up y x → s.Up y x
    | .panic .assert s' => s' = s
    | .panic .range s' => i < 2 ^ 32 → ((v.cut p).pos q).1 ≠ p →
        ∃ kids', HInv s' hc kids' none [p] ∧ Still hc x s s'
    | _ => True := by
  have ag := attach_view (i := i) h hq hp hmq hn hv
  have hlq := h.hlive q hq
  have hlp := h.hlive p hp
  have hvm := (hv p hp).2.2
  rw [attachOutcome] at ag
  have hun : attach q i p s = (do detach p; attachData q i p) s := by
    simp only [attach]
    rw [H.bind_ok (H.rd_ok hlq), H.bind_ok (H.assert_ok hmq)]
  rw [hun] at ag ⊢
  by_cases hm : s.mutable p = true
  · rw [if_neg (by rw [← hvm, hm]; simp)] at ag
    obtain ⟨s1, e1, ⟨kids1, h1⟩, k1, v1, l1, c1⟩ := detach_view h hp hm hv
    rw [H.bind_ok e1] at ag ⊢
    have hpp1 : s1.parent p = none := l1.nil_root.2
    have st1 := c1.still x hx2
    have hx1' : ¬ s1.Up q x := fun hu => hx1 (c1.up q x hq hu)
    have hx2' : s1.Up p x → x = p := fun hu => hx2 (c1.up p x hp hu)
    have hn1 : (s1.tree q).isNode = true := by rw [(k1.same q hq).1]; exact hn
    obtain ⟨n, hg⟩ := node_green hn1
    have hlq1 := (v1 q hq).1
    have hm1 : s1.mutable p = true := by rw [k1.mutable p hp]; exact hm
    have hmq1 : s1.mutable q = true := by rw [k1.mutable q hq]; exact hmq
    by_cases hcyc : ((v.cut p).pos q).1 = p
    · rw [if_pos hcyc] at ag
      split
      · rename_i e
        rw [e] at ag
        split at ag
        · rcases ag with ag | ag <;> cases ag
        · rcases ag with ag | ⟨_, _, ag, _⟩ <;> cases ag
      · rename_i e
        rw [e] at ag
        split at ag
        · rcases ag with ag | ag <;> cases ag
        · rcases ag with ag | ⟨_, _, ag, _⟩ <;> cases ag
      · exact fun _ h => absurd hcyc h
      · trivial
    · have hwp := attachData_wp (i := i) h1 l1.live hm1 hpp1 hmq1 hg hlq1 (Ne.symm hcyc)
      rw [H.wp] at hwp
      cases hr : attachData q i p s1 with
      | abort => trivial
      | ub => trivial
      | diverge => trivial
      | ok u s2 =>
        simp only [hr] at hwp ⊢
        obtain ⟨_, ⟨kids2, h2⟩, eff, lo, hpp2⟩ := hwp
        have hpl2 := h2.hlive p hp
        exact ⟨st1.trans (.of_local h1 h2 lo hx1' hx2'), fun y hy hu =>
          c1.up y x hy (lo.up h2 hpp2 hpl2 (h2.hlive q hq) hx1' (h2.hlive y hy) hu)⟩
      | panic w s2 =>
        simp only [hr] at hwp ⊢
        obtain ⟨rfl, _, _, ap⟩ := hwp
        intro hi _
        replace ap := ap hi
        obtain ⟨kids2, h2⟩ := ap.inv
        refine ⟨kids2, h2, st1.trans ?_⟩
        intro y l hy hro
        have hk : ∀ z, z ≠ p → Keeps s1 s2 z := ap.keeps
        have hlv : ∀ w, s1.Up y w → s2.live w = true := by
          intro w hw
          obtain ⟨lc, hch⟩ := h1.chain y (h1.hlive y hy)
          rw [ap.live]; exact hch.live_of_mem (hw.mem hch)
        refine ⟨hlv x hro.up, ?_, ?_, fun z hz => ⟨hlv z (hro.up_mem hz), hk z ?_⟩⟩
        · by_cases e : x = p
          · rw [e]; exact ap.green
          · exact (hk x e).green
        · by_cases e : x = p
          · rw [e]; exact ap.mutable
          · exact (hk x e).mutable
        · rintro rfl
          clear hlv hy
          induction hro with
          | nil => cases hz
          | cons hpy _ ih =>
            rcases List.mem_cons.mp hz with rfl | hz
            · rw [hpp1] at hpy; cases hpy
            · exact ih hz
  · have hm' : s.mutable p = false := by simpa using hm
    rw [H.bind_def, detach_panic hlp hm']

/-- The insertion loop elsewhere. -/
theorem spliceInsert_still (hq : 0 < hc q) : ∀ (ps : List Nat) (i : Nat) (s : HSt) (v : View)
    (kids : Nat → List Nat), HInv s (plus hc ps) kids none [] → s.mutable q = true →
    (s.tree q).isNode = true → s.Views (plus hc ps) v → ¬ s.Up q x → (∀ p ∈ ps, s.Up p x → x = p) →
    ∀ s', (spliceInsert q i ps s = .ok () s' ∨ spliceInsert q i ps s = .panic .assert s' ∨
      spliceInsert q i ps s = .panic .range s' ∧ i + ps.length ≤ 2 ^ 32 ∧ ∀ p ∈ ps, ∀ y, ¬ s'.Stray p y) →
    Still hc x s s'
  | [], i, s, v, kids, h, hm, hn, hv, hx1, hx2 => by
    intro s' e
    simp only [spliceInsert, H.pure_apply, HOut.ok.injEq, true_and, reduceCtorEq, false_and, or_false] at e
    subst e
    exact .refl h
  | p :: ps, i, s, v, kids, h, hm, hn, hv, hx1, hx2 => by
    intro s' e
    have hq' : 0 < plus hc (p :: ps) q := Nat.lt_of_lt_of_le hq (le_plus ..)
    have hp' : 0 < plus hc (p :: ps) p := by simp [plus]
    have hle : ∀ x, 0 < hc x → 0 < plus hc (p :: ps) x := fun x hx => Nat.lt_of_lt_of_le hx (le_plus ..)
    have hle1 : ∀ x, 0 < plus hc ps x → 0 < plus hc (p :: ps) x :=
      fun x hx => Nat.lt_of_lt_of_le hx (le_inc ..)
    have hle2 : ∀ x, 0 < hc x → 0 < plus hc ps x := fun x hx => Nat.lt_of_lt_of_le hx (le_plus ..)
    have ha := attach_view (i := i) h hq' hp' hm hn hv
    have ag := spliceInsert_view hq (p :: ps) i s v kids h hm hn hv
    have hst := attach_still (i := i) h hq' hp' hm hn hv hx1 (hx2 p (by simp))
    cases hr : attach q i p s with
    | abort => simp [spliceInsert, H.bind_def, H.onPanic, hr] at e
    | ub => simp [spliceInsert, H.bind_def, H.onPanic, hr] at e
    | diverge => simp [spliceInsert, H.bind_def, H.onPanic, hr] at e
    | ok u s1 =>
      rw [hr] at hst ha
      obtain ⟨st1, up1⟩ := hst
      have hok : HOk s1 (plus hc (p :: ps)) ∧ Kept (plus hc (p :: ps)) s s1 := by
        rw [attachOutcome] at ha
        split at ha
        · rcases ha with ha | ⟨_, ha, _⟩ <;> cases ha
        split at ha
        · split at ha
          · rcases ha with ha | ha <;> cases ha
          · rcases ha with ha | ⟨_, _, ha, _⟩ <;> cases ha
        split at ha
        · rcases ha with ha | ⟨_, ha, h1, k1, _⟩ <;> cases ha
          exact ⟨h1, k1⟩
        · rcases ha with ha | ⟨_, _, ha, _⟩ <;> cases ha
      obtain ⟨h1, k1⟩ := hok
      obtain ⟨s2, e2, ⟨kids2, h2⟩, g2, st2⟩ := drop_stable (hc := plus hc ps) (p := p) h1
      have heq : spliceInsert q i (p :: ps) s = spliceInsert q (i + 1) ps s2 := by
        simp [spliceInsert, H.bind_def, H.onPanic, hr, e2]
      rw [heq] at e
      obtain ⟨kids1, h1⟩ := h1
      have k2 : Kept (plus hc ps) s1 s2 := Kept.of_shrinks h1 h2 hle1 g2
      have k12 := (k1.mono hle1).trans k2
      obtain ⟨v2, hv2⟩ := HSt.Views.exists_view h2
      have up2 : ∀ y, 0 < plus hc ps y → s2.Up y x → s.Up y x := fun y hy hu =>
        up1 y (hle1 y hy) (st2.up h1 hle1 hy hu)
      have := spliceInsert_still hq ps (i + 1) s2 v2 kids2 h2 (by rw [k12.mutable q (hle2 q hq)]; exact hm)
        (by rw [(k12.same q (hle2 q hq)).1]; exact hn) hv2 (fun hu => hx1 (up2 q (hle2 q hq) hu))
        (fun w hw hu => hx2 w (List.mem_cons_of_mem _ hw) (up2 w (mem_plus hw) hu)) s'
        (e.imp_right (Or.imp_right fun ⟨a, b, c⟩ => ⟨a, by simp only [List.length_cons] at b; omega,
          fun w hw => c w (List.mem_cons_of_mem _ hw)⟩))
      exact ((st1.mono hle).trans ((Still.of_stable h1 hle1 st2).mono hle2)).trans this
    | panic w s1 =>
      rw [hr] at hst ha
      have hun : ∀ s2, dropAll (p :: ps) s1 = .ok () s2 → spliceInsert q i (p :: ps) s = .panic w s2 := fun s2 e2 => by
        simp [spliceInsert, H.bind_def, H.onPanic, hr, e2]
      cases w with
      | assert =>
        have : s1 = s := hst
        subst this
        obtain ⟨s2, kids2, e2, h2, g2⟩ := dropAll_bad (hc := hc) (p :: ps) s1 kids h
        rw [hun s2 e2] at e
        simp only [HOut.panic.injEq, true_and, reduceCtorEq, false_and, or_false, false_or] at e
        subst e
        exact .of_stable h hle (.of_shrinks g2 h2)
      | range =>
        have hcnt : ∃ kids1, Counted s1 (plus hc (p :: ps)) kids1 none := by
          rw [attachOutcome] at ha
          split at ha
          · rcases ha with ha | ⟨_, ha, _⟩ <;> cases ha
          split at ha
          · split at ha
            · rcases ha with ha | ha <;> cases ha
            · rcases ha with ha | ⟨_, k, ha, h1, _⟩ <;> cases ha
              exact ⟨k, h1⟩
          split at ha
          · rcases ha with ha | ⟨_, ha, _⟩ <;> cases ha
          · rcases ha with ha | ⟨_, k, ha, h1, _⟩ <;> cases ha
            exact ⟨k, h1⟩
        have hlen : i < 2 ^ 32 := by
          obtain ⟨kids1, h1⟩ := hcnt
          obtain ⟨s2, _, e2, _⟩ := Counted.dropAll_ok (hc := hc) (p :: ps) s1 kids1 h1
          rw [hun s2 e2] at e
          simp only [HOut.panic.injEq, true_and, reduceCtorEq, false_and, false_or, List.length_cons] at e
          omega
        by_cases hcyc : ((v.cut p).pos q).1 = p
        · exfalso
          simp only [View.insertAll] at ag
          rw [attachOutcome] at ha
          by_cases hvm : v.mutable p = false
          · rw [if_pos hvm] at ha
            rcases ha with ha | ⟨_, ha, _⟩ <;> cases ha
          rw [if_neg hvm, if_pos hcyc] at ha ag
          by_cases hw : i ≤ (v.cut p).width q
          · rw [if_pos hw] at ha
            rcases ha with ha | ha <;> cases ha
          rw [if_neg hw] at ag
          rcases ag with ag | ⟨s2, kids2, ag, _, _, _, _, str⟩
          · rw [ag] at e; simp at e
          · rw [ag] at e
            simp only [HOut.panic.injEq, true_and, reduceCtorEq, false_and, false_or] at e
            obtain ⟨rfl, _, e⟩ := e
            exact e p (by simp) q (str hlen)
        · obtain ⟨kids1, h1, st1⟩ := hst hlen hcyc
          obtain ⟨s2, kids2, e2, h2, g2⟩ := dropAll_bad (hc := hc) (p :: ps) s1 kids1 h1
          rw [hun s2 e2] at e
          simp only [HOut.panic.injEq, true_and, reduceCtorEq, false_and, false_or] at e
          obtain ⟨rfl, _⟩ := e
          exact (st1.mono hle).trans (.of_stable h1 hle (.of_shrinks g2 h2))

/-- `splice_children` elsewhere. -/
theorem splice_still {a b : Nat} {ins : List Nat} (h : HInv s (plus hc ins) kids none [])
    (hq : 0 < hc q) (hn : (s.tree q).isNode = true) (hx1 : ¬ s.Up q x) (hx2 : ∀ p ∈ ins, s.Up p x → x = p)
    (e : splice q a b ins s = .ok () s' ∨ splice q a b ins s = .panic .assert s' ∨
      splice q a b ins s = .panic .range s' ∧ a + ins.length ≤ 2 ^ 32 ∧ ∀ p ∈ ins, ∀ y, ¬ s'.Stray p y) :
    Still hc x s s' := by
  have hle : ∀ x, 0 < hc x → 0 < plus hc ins x := fun x hx => Nat.lt_of_lt_of_le hx (le_plus ..)
  have hlq := h.hlive q (hle q hq)
  obtain ⟨v, hv⟩ := HSt.Views.exists_view h
  simp only [splice] at e
  rw [H.bind_ok (H.rd_ok hlq)] at e
  by_cases hm : s.mutable q = true
  · have e1 : H.onPanic (H.assert (s.mutable q)) (dropAll ins) s = .ok () s := by
      simp [H.onPanic, H.assert_ok hm]
    rw [H.bind_ok e1] at e
    have hd := spliceDeleteAll_view (a := a) (b := b) h (hle q hq) hm hn hv
    rw [H.wp] at hd
    cases hr : spliceDeleteAll q a b s with
    | abort => simp [H.bind_def, hr] at e
    | ub => simp [hr] at hd
    | diverge => simp [hr] at hd
    | panic w s' => simp [hr] at hd
    | ok u s1 =>
      simp only [hr] at hd
      rw [H.bind_ok hr] at e
      obtain ⟨⟨kids1, h1⟩, k1, ⟨_, _, v1⟩, off⟩ := hd
      have := spliceInsert_still hq ins a s1 _ kids1 h1 (by rw [k1.mutable q (hle q hq)]; exact hm)
        (by rw [(k1.same q (hle q hq)).1]; exact hn) v1 (fun hu => hx1 (off.up q x (hle q hq) hu))
        (fun p hp hu => hx2 p hp (off.up p x (mem_plus hp) hu)) s' e
      exact ((off.still x hx1).mono hle).trans this
  · have hm' : s.mutable q = false := by simpa using hm
    obtain ⟨s2, kids2, e2, h2, g2⟩ := dropAll_bad (hc := hc) ins s kids h
    have : s' = s2 := by
      simp [H.bind_def, H.onPanic, H.assert_fail (s := s) hm', e2] at e
      exact e.symm
    subst this
    exact .of_stable h hle (.of_shrinks g2 h2)

end Cur

section
variable [Greens]

theorem HInv.above_of_up {s : HSt} {hc : Nat → Nat} {kids : Nat → List Nat} {z : Option Nat} {bad : List Nat}
    (h : HInv s hc kids z bad) {x y : Nat} (hl : s.live y = true) (hu : s.Up y x) : s.Above x y := by
  induction hu with
  | @refl p =>
    obtain ⟨l, hch⟩ := h.chain p hl
    obtain ⟨r, P, hloc⟩ := hch.loc
    exact ⟨r, P, [], hloc, by simpa using hloc⟩
  | @step x y p hp _ ih =>
    obtain ⟨r, P, Q, h1, h2⟩ := ih (h.parentOk _ _ hl hp).1
    exact ⟨r, P, Q ++ [s.index x], h1, by rw [← List.append_assoc]; exact .child hl hp h2⟩

namespace Call
open Cur
variable {s s' : HSt} {hs rest lk new : List Nat} {c : Call} {x : Nat}

/-- A call that does not alter `x` leaves it alone. -/
theorem still (h : HOk s (cnt (hs ++ lk))) (hr : c.Ready s Greens.held hs rest) (hx : ¬ c.Alters s x)
    (e : c.exec s = .ok new s' ∨ c.exec s = .panic .assert s' ∨ ∃ q a b ins, c.Splices q a b ins ∧
      c.exec s = .panic .range s' ∧ a + ins.length ≤ 2 ^ 32 ∧ ∀ p ∈ ins, ∀ y, ¬ s'.Stray p y) :
    Still (cnt (rest ++ lk)) x s s' := by
  obtain ⟨kids, h⟩ := h
  have hle : ∀ y, 0 < cnt (rest ++ lk) y → 0 < cnt (hs ++ lk) y := fun y hy => by
    rw [hr.cnt_eq]; exact Nat.lt_of_lt_of_le hy (le_plus ..)
  have hlive : ∀ p ∈ c.takes ++ rest, s.live p = true := fun p hp =>
    h.hlive p (cnt_pos.mpr (List.mem_append_left _ (hr.split.mem_iff.mpr hp)))
  by_cases hed : c.edits = false
  · have hw := exec_stable ⟨kids, h⟩ hr hed
    rcases e with e | e | ⟨q, a, b, ins, _, e, _⟩
    · rw [H.wp, e] at hw; exact .of_stable h hle hw.2
    · rw [H.wp, e] at hw
      obtain ⟨_, rfl, _⟩ := hw
      exact (Still.refl h).mono hle
    · rw [H.wp, e] at hw; exact absurd hw.1 (by simp)
  · cases c with
    | newRoot | clone | drop | forget | read | nav | toNext | cloneSubtree | cloneForUpdate => simp [edits] at hed
    | detach p =>
      obtain ⟨v, hv⟩ := HSt.Views.exists_view h
      have hp : p ∈ rest := hr.held p (by simp [uses])
      have hp0 : 0 < cnt (hs ++ lk) p := hle p (cnt_pos.mpr (List.mem_append_left _ hp))
      have hl := h.hlive p hp0
      cases hm : s.mutable p with
      | true =>
        obtain ⟨s1, e1, _, _, _, _, cs⟩ := detach_view h hp0 hm hv
        have : s' = s1 := by
          rcases e with e | e | ⟨q, a, b, ins, sp, _⟩
          · simp only [exec] at e; rw [H.bind_ok e1] at e; cases e; rfl
          · simp only [exec] at e; rw [H.bind_ok e1] at e; cases e
          · cases sp
        subst this
        exact (cs.still x fun hu => Classical.byContradiction fun hne => hx ⟨h.above_of_up hl hu, hne⟩).mono hle
      | false =>
        have : s' = s := by
          rcases e with e | e | ⟨q, a, b, ins, sp, _⟩
          · simp only [exec] at e; rw [H.bind_def, detach_panic hl hm] at e; cases e
          · simp only [exec] at e; rw [H.bind_def, detach_panic hl hm] at e; cases e; rfl
          · cases sp
        subst this
        exact (Still.refl h).mono hle
    | splice q a b ins =>
      rw [hr.cnt_eq] at h
      have hq : q ∈ rest := hr.held q (by simp [uses])
      refine splice_still (a := a) (b := b) (ins := ins) h (cnt_pos.mpr (List.mem_append_left _ hq)) (hr.typed q (by simp [nodes]))
        (fun hu => hx (.inl (h.above_of_up (hlive q (List.mem_append_right _ hq)) hu)))
        (fun p hp hu => Classical.byContradiction fun hne =>
          hx (.inr ⟨p, hp, h.above_of_up (hlive p (List.mem_append_left _ hp)) hu, hne⟩)) ?_
      simp only [exec, H.bind_def] at e
      cases hz : Cur.splice q a b ins s with
      | ok u s1 => simp [hz] at e ⊢; exact e.2
      | panic w s1 =>
        simp only [hz] at e
        rcases e with e | e | ⟨q, a, b, ins, sp, e, e2⟩
        · cases e
        · cases e; exact .inr (.inl rfl)
        · cases sp; cases e; exact .inr (.inr ⟨rfl, e2⟩)
      | _ => simp [hz] at e
    | attach q i p =>
      rw [hr.cnt_eq] at h
      have hq : q ∈ rest := hr.held q (by simp [uses])
      have hq0 : 0 < cnt (rest ++ lk) q := cnt_pos.mpr (List.mem_append_left _ hq)
      obtain ⟨v, hv⟩ := HSt.Views.exists_view h
      have e' : spliceInsert q i [p] s = .ok () s' ∨ spliceInsert q i [p] s = .panic .assert s' ∨
          spliceInsert q i [p] s = .panic .range s' ∧ i + [p].length ≤ 2 ^ 32 ∧ ∀ p' ∈ [p], ∀ y, ¬ s'.Stray p' y := by
        simp only [exec, H.bind_def] at e
        cases hz : Cur.spliceInsert q i [p] s with
        | ok u s1 => simp [hz] at e ⊢; exact e.2
        | panic w s1 =>
          simp only [hz] at e
          rcases e with e | e | ⟨q, a, b, ins, sp, e, e2⟩
          · cases e
          · cases e; exact .inr (.inl rfl)
          · cases sp; cases e; exact .inr (.inr ⟨rfl, e2⟩)
        | _ => simp [hz] at e
      cases hm : s.mutable q with
      | true =>
        exact spliceInsert_still hq0 [p] i s v kids h hm (hr.typed q (by simp [nodes])) hv
          (fun hu => hx (.inl (h.above_of_up (hlive q (List.mem_append_right _ hq)) hu)))
          (fun p' hp hu => by
            rw [List.mem_singleton] at hp; subst hp
            exact Classical.byContradiction fun hne =>
              hx (.inr ⟨h.above_of_up (hlive p' (List.mem_append_left _ (by simp [takes]))) hu, hne⟩)) s' e'
      | false =>
        obtain ⟨s2, kids2, e2, h3, g2⟩ := dropAll_bad (hc := cnt (rest ++ lk)) [p] s kids h
        have hlq := hlive q (List.mem_append_right _ hq)
        have e1 : Cur.attach q i p s = .panic .assert s := by
          simp only [Cur.attach]
          rw [H.bind_ok (H.rd_ok hlq), H.bind_def, H.assert_fail hm]
        have : spliceInsert q i [p] s = .panic .assert s2 := by
          simp [Cur.spliceInsert, H.bind_def, H.onPanic, e1, e2]
        rw [this] at e'
        simp only [HOut.panic.injEq, true_and, reduceCtorEq, false_and, or_false, false_or] at e'
        subst e'
        exact .of_stable h (fun x hx => Nat.lt_of_lt_of_le hx (le_plus ..)) (.of_shrinks g2 h3)

end Call
end

end Rowan
