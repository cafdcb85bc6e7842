import Verif.ProgramSteps
import Verif.Props.Memory
/-!
# The run of a reading program on the heap and on a snapshot
-/
namespace Rowan

namespace Live

theorem lookup_map {β : Type} (f : Live → β) (h : Nat) (J : List Live) :
    (J.map fun j => (j.id, f j)).lookup h = (J.find? fun j => h == j.id).map f := by
  induction J with
  | nil => rfl
  | cons j J ih =>
    simp only [List.map_cons, List.lookup_cons, List.find?_cons]
    cases h == j.id <;> simp [ih]

theorem get_objs (n h : Nat) (J : List Live) :
    (Env.mk n (objs J)).get h = (J.find? fun j => h == j.id).map Live.obj := lookup_map ..
theorem get_snaps (n h : Nat) (J : List Live) :
    (Env.mk n (snaps J)).get h = (J.find? fun j => h == j.id).map Live.snap := lookup_map ..

theorem del_map {β : Type} (f : Live → β) (h : Nat) (J : List Live) :
    (J.map fun j => (j.id, f j)).filter (fun p => p.1 != h) =
      (J.filter fun j => j.id != h).map fun j => (j.id, f j) := by
  rw [List.filter_map]; rfl

theorem del_objs (n h : Nat) (J : List Live) :
    (Env.mk n (objs J)).del h = ⟨n, objs (J.filter fun j => j.id != h)⟩ := by
  simp only [Env.del, objs, del_map]
theorem del_snaps (n h : Nat) (J : List Live) :
    (Env.mk n (snaps J)).del h = ⟨n, snaps (J.filter fun j => j.id != h)⟩ := by
  simp only [Env.del, snaps, del_map]

theorem add_objs (n x : Nat) (z : SElem) (J : List Live) :
    (Env.mk n (objs J)).add x = ⟨n + 1, objs (⟨n, x, z⟩ :: J)⟩ := rfl
theorem add_snaps (n x : Nat) (z : SElem) (J : List Live) :
    (Env.mk n (snaps J)).add z = ⟨n + 1, snaps (⟨n, x, z⟩ :: J)⟩ := rfl

theorem perm_filter {J : List Live} (hn : (J.map Live.id).Nodup) {j : Live} (hj : j ∈ J) :
    J.Perm (j :: J.filter fun k => k.id != j.id) := by
  induction J with
  | nil => cases hj
  | cons k J ih =>
    simp only [List.map_cons, List.nodup_cons] at hn
    rcases List.mem_cons.mp hj with rfl | hj
    · rw [List.filter_cons_of_neg (by simp), List.filter_eq_self.mpr]
      intro k hk
      simp only [bne_iff_ne, ne_eq]
      intro e
      exact hn.1 (e ▸ List.mem_map.mpr ⟨k, hk, rfl⟩)
    · have : k.id ≠ j.id := fun e => hn.1 (e ▸ List.mem_map.mpr ⟨j, hj, rfl⟩)
      rw [List.filter_cons_of_pos (by simpa using this)]
      exact ((ih hn.2 hj).cons k).trans (.swap ..)

end Live

namespace Running
variable {s s' : HSt} {gs : List GElem} {n : Nat} {J : List Live} {T rest lk lk' : List Nat} {j : Live}

theorem add (h : Running T s gs n J rest lk) {y : Nat} {z : SElem} {hs : List Nat}
    (hp : hs.Perm (J.map Live.obj ++ rest)) (hr : HReach s' gs (y :: hs) lk')
    (ss : ∀ j ∈ J, s'.Snap T j.obj j.snap) (hz : s'.Snap T y z) :
    Running T s' gs (n + 1) (⟨n, y, z⟩ :: J) rest lk' where
  reach := ⟨_, hp.cons y, hr⟩
  ids := by
    simp only [List.map_cons, List.nodup_cons]
    refine ⟨fun hm => ?_, h.ids⟩
    obtain ⟨j, hj, e⟩ := List.mem_map.mp hm
    exact absurd (h.low j hj) (by omega)
  low := by
    intro k hk
    rcases List.mem_cons.mp hk with rfl | hk
    · exact Nat.lt_succ_self _
    · exact Nat.lt_succ_of_lt (h.low k hk)
  snap := by
    intro k hk
    rcases List.mem_cons.mp hk with rfl | hk
    · exact hz
    · exact ss k hk

theorem keep (h : Running T s gs n J rest lk) {hs : List Nat}
    (hp : hs.Perm (J.map Live.obj ++ rest)) (hr : HReach s' gs hs lk')
    (ss : ∀ j ∈ J, s'.Snap T j.obj j.snap) : Running T s' gs n J rest lk' :=
  ⟨⟨_, hp, hr⟩, h.ids, h.low, ss⟩

/-- Without one handle. -/
theorem split (h : Running T s gs n J rest lk) (hj : j ∈ J) :
    ∃ hs, HReach s gs hs lk ∧ hs.Perm (j.obj :: ((J.filter fun k => k.id != j.id).map Live.obj ++ rest)) := by
  obtain ⟨hs, hp, hr⟩ := h.reach
  exact ⟨hs, hr, hp.trans (((Live.perm_filter h.ids hj).map Live.obj).append_right rest)⟩

theorem del (h : Running T s gs n J rest lk) (hr : HReach s' gs ((J.filter fun k => k.id != j.id).map Live.obj ++ rest) lk')
    (ss : SameSnaps ((J.filter fun k => k.id != j.id).map Live.obj ++ rest) s s') :
    Running T s' gs n (J.filter fun k => k.id != j.id) rest lk' where
  reach := ⟨_, .refl _, hr⟩
  ids := h.ids.sublist ((List.filter_sublist (l := J)).map Live.id)
  low := fun k hk => h.low k (List.mem_filter.mp hk).1
  snap := fun k hk => ss _ (List.mem_append_left _ (List.mem_map.mpr ⟨k, hk, rfl⟩)) _ _
    (h.snap k (List.mem_filter.mp hk).1)

end Running

/-- The handle that a number stands for. -/
theorem Live.find {J : List Live} {h : Nat} {j : Live} (e : (J.find? fun j => h == j.id) = some j) :
    j ∈ J ∧ h = j.id := by
  exact ⟨List.mem_of_find?_eq_some e, by simpa using List.find?_some e⟩

theorem RProg.le_peak {α : Type} (p : RProg α) (v : Env SElem) : v.held.length ≤ p.peak v := by
  cases p <;> simp only [RProg.peak] <;> (repeat' split) <;> omega

/-- A reading program computes on the heap what it computes on the snapshot, or it aborts because a reference count
would overflow. -/
theorem RProg.exec_eval {α : Type} (p : RProg α) : ∀ {s : HSt} {gs : List GElem} {n : Nat} {J : List Live}
    {T rest lk : List Nat}, Running T s gs n J rest lk → p.eval ⟨n, Live.snaps J⟩ ≠ .misuse →
    (p.exec ⟨n, Live.objs J⟩ s = .abort ∧
      Cur.rcMax ≤ p.peak ⟨n, Live.snaps J⟩ + (rest ++ lk).length + 2) ∨
    ∃ o s' lk', p.exec ⟨n, Live.objs J⟩ s = .ok o s' ∧
      SameOut T s' gs rest (lk' ++ lk) (p.eval ⟨n, Live.snaps J⟩) o ∧ SameSnaps rest s s' ∧
      lk'.length ≤ p.lost ⟨n, Live.snaps J⟩ := by
  have noAbort : ∀ {s : HSt} {gs : List GElem} {n : Nat} {J : List Live} {T rest lk : List Nat} (p : RProg α) (c : Call),
      Running T s gs n J rest lk → c.cost s ≤ 2 → c.exec s = .abort →
      Cur.rcMax ≤ p.peak ⟨n, Live.snaps J⟩ + (rest ++ lk).length + 2 := by
    intro s gs n J T rest lk p c hR hc e
    obtain ⟨hs, hp, hr⟩ := hR.reach
    have h1 := p.le_peak ⟨n, Live.snaps J⟩
    have h2 := hp.length_eq
    have : ¬ ((hs ++ lk).length + c.cost s < Cur.rcMax) := fun h => C42_no_abort hr h e
    simp only [List.length_append, List.length_map, Live.snaps] at *
    omega
  induction p with
  | ret a => exact fun hR _ => .inr ⟨_, _, [], rfl, ⟨rfl, rfl, _, rfl, rfl, hR⟩, .refl _ _, Nat.le_refl _⟩
  | panic => exact fun hR _ => .inr ⟨_, _, [], rfl, ⟨rfl, _, rfl, rfl, hR⟩, .refl _ _, Nat.le_refl _⟩
  | diverge => exact fun _ _ => .inr ⟨_, _, [], rfl, trivial, .refl _ _, Nat.le_refl _⟩
  | nav f h k ih =>
    intro s gs n J T rest lk hR hm
    simp only [eval, exec, peak, lost, Live.get_objs, Live.get_snaps] at hm ⊢
    cases hj : J.find? fun j => h == j.id with
    | none => simp [hj] at hm
    | some j =>
      obtain ⟨hjm, rfl⟩ := Live.find hj
      simp only [hj, Option.map_some] at hm ⊢
      split at hm
      · rename_i hf
        rw [if_pos hf]
        obtain ⟨hs, hp, hr⟩ := hR.reach
        have hx : j.obj ∈ hs := hp.mem_iff.mpr (List.mem_append_left _ (List.mem_map.mpr ⟨j, hjm, rfl⟩))
        rcases hr.stepNav f hx (hR.snap j hjm) hf with e | ⟨o, s1, e, hr1, ss, ho⟩
        · left
          refine ⟨by rw [H.bind_def, e], ?_⟩
          have := noAbort (.nav f j.id k) (.nav f j.obj) hR (by simp [Call.cost])
            (by simp only [Call.exec, H.bind_def, e])
          simpa only [peak, Live.get_snaps, hj, Option.map_some] using this
        · have ss' : SameSnaps rest s s1 := ss.mono fun w hw => hp.mem_iff.mpr (List.mem_append_right _ hw)
          have sJ : ∀ i ∈ J, s1.Snap T i.obj i.snap := fun i hi =>
            ss _ (hp.mem_iff.mpr (List.mem_append_left _ (List.mem_map.mpr ⟨i, hi, rfl⟩))) _ _ (hR.snap i hi)
          rw [H.bind_def, e]
          rcases ho with ⟨rfl, ho⟩ | ⟨y, z, rfl, ho, hz⟩
          · simp only [ho] at hm ⊢
            rcases ih none (hR.keep hp hr1 sJ) hm with ⟨a, b⟩ | ⟨o, s2, lk', a, b, c, d⟩
            · exact .inl ⟨a, by omega⟩
            · exact .inr ⟨o, s2, lk', a, b, ss'.trans c, d⟩
          · simp only [ho] at hm ⊢
            simp only [Live.add_objs n y z, Live.add_snaps n y z] at hm ⊢
            rcases ih (some n) (hR.add hp hr1 sJ hz) hm with ⟨a, b⟩ | ⟨o, s2, lk', a, b, c, d⟩
            · exact .inl ⟨a, by omega⟩
            · exact .inr ⟨o, s2, lk', a, b, ss'.trans c, d⟩
      · exact absurd rfl hm
  | toNext nodes h k ih =>
    intro s gs n J T rest lk hR hm
    simp only [eval, exec, peak, lost, Live.get_objs, Live.get_snaps] at hm ⊢
    cases hj : J.find? fun j => h == j.id with
    | none => simp [hj] at hm
    | some j =>
      obtain ⟨hjm, rfl⟩ := Live.find hj
      simp only [hj, Option.map_some] at hm ⊢
      obtain ⟨hs, hr, hp⟩ := hR.split hjm
      rcases hr.stepToNext nodes hp (hR.snap j hjm) with e | ⟨o, s1, lk1, e, hr1, ss, hlen, ho⟩
      · left
        refine ⟨by rw [H.bind_def, e], ?_⟩
        have := noAbort (.toNext nodes j.id k) (.toNext nodes j.obj) hR (by simp [Call.cost])
          (by simp only [Call.exec, H.bind_def, e])
        simpa only [peak, Live.get_snaps, hj, Option.map_some] using this
      · have ss' : SameSnaps rest s s1 := ss.mono fun w hw => List.mem_append_right _ hw
        rw [H.bind_def, e]
        rcases ho with ⟨rfl, ho⟩ | ⟨y, z, rfl, ho, hz⟩
        · simp only [ho, Live.del_objs, Live.del_snaps] at hm ⊢
          have hl : lk1.length ≤ if j.snap.parent = none then 1 else 0 := by
            rw [hlen]
            by_cases hn : j.snap.parent = none
            · rw [if_pos hn]; split <;> omega
            · rw [if_neg (fun h => hn h.2.1)]; omega
          rcases ih none (hR.del hr1 ss) hm with ⟨a, b⟩ | ⟨o, s2, lk', a, b, c, d⟩
          · refine .inl ⟨a, ?_⟩
            simp only [List.length_append] at b ⊢
            omega
          · exact .inr ⟨o, s2, lk' ++ lk1, a, by rw [List.append_assoc]; exact b, ss'.trans c, by
              rw [List.length_append]; omega⟩
        · simp only [ho, Live.del_objs, Live.del_snaps, Live.add_objs n y z, Live.add_snaps n y z] at hm ⊢
          have hl : lk1 = [] := by simpa using hlen
          subst hl
          have hz' : ∀ i ∈ J.filter fun k => k.id != j.id, s1.Snap T i.obj i.snap := fun i hi =>
            ss _ (List.mem_append_left _ (List.mem_map.mpr ⟨i, hi, rfl⟩)) _ _ (hR.snap i (List.mem_filter.mp hi).1)
          have hR' : Running T s1 gs (n + 1) (⟨n, y, z⟩ :: J.filter fun k => k.id != j.id) rest lk := by
            refine ⟨⟨_, .refl _, hr1⟩, ?_, ?_, ?_⟩
            · simp only [List.map_cons, List.nodup_cons]
              refine ⟨fun hm => ?_, hR.ids.sublist ((List.filter_sublist (l := J)).map Live.id)⟩
              obtain ⟨i, hi, e⟩ := List.mem_map.mp hm
              exact absurd (hR.low i (List.mem_filter.mp hi).1) (by omega)
            · intro i hi
              rcases List.mem_cons.mp hi with rfl | hi
              · exact Nat.lt_succ_self _
              · exact Nat.lt_succ_of_lt (hR.low i (List.mem_filter.mp hi).1)
            · intro i hi
              rcases List.mem_cons.mp hi with rfl | hi
              · exact hz
              · exact hz' i hi
          rcases ih (some n) hR' hm with ⟨a, b⟩ | ⟨o, s2, lk', a, b, c, d⟩
          · exact .inl ⟨a, by omega⟩
          · exact .inr ⟨o, s2, lk', a, b, ss'.trans c, d⟩
  | clone h k ih =>
    intro s gs n J T rest lk hR hm
    simp only [eval, exec, peak, lost, Live.get_objs, Live.get_snaps] at hm ⊢
    cases hj : J.find? fun j => h == j.id with
    | none => simp [hj] at hm
    | some j =>
      obtain ⟨hjm, rfl⟩ := Live.find hj
      simp only [hj, Option.map_some] at hm ⊢
      obtain ⟨hs, hp, hr⟩ := hR.reach
      have hx : j.obj ∈ hs := hp.mem_iff.mpr (List.mem_append_left _ (List.mem_map.mpr ⟨j, hjm, rfl⟩))
      rcases hr.stepClone hx (hR.snap j hjm) with e | ⟨s1, e, hr1, ss, hz⟩
      · left
        refine ⟨by rw [H.bind_def, e], ?_⟩
        have := noAbort (.clone j.id k) (.clone j.obj) hR (by simp [Call.cost])
          (by simp only [Call.exec, H.bind_def, e])
        simpa only [peak, Live.get_snaps, hj, Option.map_some] using this
      · have ss' : SameSnaps rest s s1 := ss.mono fun w hw => hp.mem_iff.mpr (List.mem_append_right _ hw)
        have sJ : ∀ i ∈ J, s1.Snap T i.obj i.snap := fun i hi =>
          ss _ (hp.mem_iff.mpr (List.mem_append_left _ (List.mem_map.mpr ⟨i, hi, rfl⟩))) _ _ (hR.snap i hi)
        rw [H.bind_def, e]
        simp only [Live.add_objs n j.obj j.snap, Live.add_snaps n j.obj j.snap] at hm ⊢
        rcases ih n (hR.add hp hr1 sJ hz) hm with ⟨a, b⟩ | ⟨o, s2, lk', a, b, c, d⟩
        · exact .inl ⟨a, by omega⟩
        · exact .inr ⟨o, s2, lk', a, b, ss'.trans c, d⟩
  | drop h k ih =>
    intro s gs n J T rest lk hR hm
    simp only [eval, exec, peak, lost, Live.get_objs, Live.get_snaps] at hm ⊢
    cases hj : J.find? fun j => h == j.id with
    | none => simp [hj] at hm
    | some j =>
      obtain ⟨hjm, rfl⟩ := Live.find hj
      simp only [hj, Option.map_some] at hm ⊢
      obtain ⟨hs, hr, hp⟩ := hR.split hjm
      obtain ⟨s1, e, hr1, ss⟩ := hr.stepDrop hp
      have ss' : SameSnaps rest s s1 := ss.mono fun w hw => List.mem_append_right _ hw
      rw [H.bind_def, e]
      simp only [Live.del_objs, Live.del_snaps] at hm ⊢
      rcases ih (hR.del hr1 ss) hm with ⟨a, b⟩ | ⟨o, s2, lk', a, b, c, d⟩
      · exact .inl ⟨a, by omega⟩
      · exact .inr ⟨o, s2, lk', a, b, ss'.trans c, d⟩
  | look h k ih =>
    intro s gs n J T rest lk hR hm
    simp only [eval, exec, peak, lost, Live.get_objs, Live.get_snaps] at hm ⊢
    cases hj : J.find? fun j => h == j.id with
    | none => simp [hj] at hm
    | some j =>
      obtain ⟨hjm, rfl⟩ := Live.find hj
      simp only [hj, Option.map_some] at hm ⊢
      obtain ⟨hs, hp, hr⟩ := hR.reach
      rw [H.bind_def, hr.stepLook (hR.snap j hjm)]
      rcases ih _ hR hm with ⟨a, b⟩ | ⟨o, s2, lk', a, b, c, d⟩
      · exact .inl ⟨a, by omega⟩
      · exact .inr ⟨o, s2, lk', a, b, c, d⟩

end Rowan
