import Verif.ProgramLemmas
/-!
# One step of a reading program
-/
namespace Rowan

theorem SameSnaps.trans {hs : List Nat} {s s1 s2 : HSt} (h : SameSnaps hs s s1) (h' : SameSnaps hs s1 s2) :
    SameSnaps hs s s2 := fun w hw T e he => h' w hw T e (h w hw T e he)

theorem SameSnaps.refl (hs : List Nat) (s : HSt) : SameSnaps hs s s := fun _ _ _ _ h => h

theorem SameSnaps.mono {hs hs' : List Nat} {s s' : HSt} (h : SameSnaps hs s s') (hm : ∀ x ∈ hs', x ∈ hs) :
    SameSnaps hs' s s' := fun w hw => h w (hm w hw)

section
variable {s : HSt} {gs : List GElem} {T hs rest lk : List Nat} {x : Nat} {e : SElem}

/-- A call that is not an edit leaves what the other handles denote alone. -/
theorem HReach.sameSnaps {s' : HSt} {c : Call} {new : List Nat} (h : HReach s gs hs lk) (hr : c.Ready s gs hs rest)
    (he : c.edits = false) (e1 : c.exec s = .ok new s') : SameSnaps rest s s' := by
  letI : Greens := ⟨gs⟩
  have st := (Call.wp_result (Call.exec_stable h.ok' hr he) e1).2
  obtain ⟨kids, hi⟩ := h.ok'
  exact fun w hw T z hz => hz.stable hi st (cnt_pos.mpr (List.mem_append_left _ hw))

theorem HReach.stepNav (h : HReach s gs hs lk) (f : Nav) (hx : x ∈ hs) (hz : s.Snap T x e) (hf : f.fits e = true) :
    f.run x s = .abort ∨ ∃ o s', f.run x s = .ok o s' ∧ HReach s' gs (o.toList ++ hs) lk ∧ SameSnaps hs s s' ∧
      ((o = none ∧ f.on e = none) ∨ ∃ y z, o = some y ∧ f.on e = some z ∧ s'.Snap T y z) := by
  letI : Greens := ⟨gs⟩
  obtain ⟨kids, hi⟩ := h.ok'
  have hg := hz.green hi
  obtain ⟨r, hT, h1, h2, h3⟩ := id hz
  have hn : f.onNodes = true → (s.tree x).isNode = true := fun hn => by
    rw [HSt.tree, hg]
    cases e with
    | node n => simp only [SElem.green]; cases n.green; rfl
    | token t => simp [Nav.fits, hn] at hf
  have hwp := Cur.nav_wp f hi h1 hn
  have hr : (Call.nav f x).Ready s gs hs hs :=
    ⟨.refl _, by simpa [Call.uses] using hx, by simpa [Call.nodes] using hn, by simp⟩
  cases hrun : f.run x s with
  | abort => exact .inl rfl
  | ok o s' =>
    have he : (Call.nav f x).exec s = .ok o.toList s' := by
      simp only [Call.exec, H.bind_def, hrun]; rfl
    have hq := Call.wp_result hwp hrun
    have k := (hq.1.grows.keeps r h1.root_live.1).2
    refine .inr ⟨o, s', rfl, HReach.ok _ h hr he, h.sameSnaps hr rfl he, ?_⟩
    refine HSt.Snap.found (R := e.rootOf) hT ?_ hq.2 ?_
    · rw [h2, k.mutable, k.index, k.green]
    · have := Nav.pointsTo h3 f hf
      rwa [show e.rootOf.tree = s.tree r by rw [h2]; rfl] at this
  | panic w s' => simp [H.wp, hrun] at hwp
  | ub => simp [H.wp, hrun] at hwp
  | diverge => simp [H.wp, hrun] at hwp

theorem HReach.stepToNext (h : HReach s gs hs lk) (nodes : Bool) (hp : hs.Perm (x :: rest)) (hz : s.Snap T x e) :
    Cur.toNextOf nodes x s = .abort ∨ ∃ o s' lk', Cur.toNextOf nodes x s = .ok o s' ∧
      HReach s' gs (o.toList ++ rest) (lk' ++ lk) ∧ SameSnaps rest s s' ∧
      lk'.length = (if o = none ∧ e.parent = none ∧ s.rc x = 1 ∧ s.mutable x = false then 1 else 0) ∧
      ((o = none ∧ e.nextOf nodes = none) ∨ ∃ y z, o = some y ∧ e.nextOf nodes = some z ∧ s'.Snap T y z) := by
  letI : Greens := ⟨gs⟩
  obtain ⟨kids, hi⟩ := h.ok'
  obtain ⟨r, hT, h1, h2, h3⟩ := id hz
  have hr : (Call.toNext nodes x).Ready s gs hs rest := ⟨hp, by simp [Call.uses], by simp [Call.nodes], by simp⟩
  have hi' := hi
  rw [hr.cnt_eq] at hi'
  have hi' : HInv s (inc (cnt (rest ++ lk)) x) kids none [] := hi'
  have hpar : s.parent x = none ↔ e.parent = none := by
    rw [SElem.parent_none_iff]
    constructor
    · intro hp
      exact ((HSt.Loc.root h1.live hp).unique h1).2.symm
    · intro hp
      rw [hp] at h1; exact h1.nil_root.2
  have htgt : PointsTo e.rootOf (e.nextOf nodes)
      (Cur.pick nodes e.rootOf.tree (e.rootOf.tree.later e.path)) := by
    cases nodes with
    | false => rw [Cur.pick_false]; exact (C12_siblings h3 fun _ => true).2.2.1
    | true => rw [Cur.pick_true]; exact (C12_siblings h3 fun _ => true).1
  by_cases hlost : s.parent x = none ∧ s.rc x = 1 ∧ s.mutable x = false
  · have hrun := Cur.toNextOf_lost (nodes := nodes) h1.live hlost.1 hlost.2.1 hlost.2.2
    have he : (Call.toNext nodes x).exec s = .ok (none : Option Nat).toList s := by
      simp only [Call.exec, H.bind_def, hrun]; rfl
    refine .inr ⟨none, s, _, hrun, HReach.ok _ h hr he, .refl _ _, ?_, .inl ⟨rfl, ?_⟩⟩
    · rw [Call.lost, if_pos hlost, if_pos ⟨rfl, hpar.mp hlost.1, hlost.2⟩]; rfl
    · have := htgt.1
      rw [SElem.parent_none_iff.mp (hpar.mp hlost.1)] at this
      have h0 : Cur.pick nodes e.rootOf.tree (e.rootOf.tree.later []) = none := by
        cases nodes with
        | false => rw [Cur.pick_false]; rfl
        | true => rw [Cur.pick_true]; rfl
      rw [h0] at this
      simpa using this
  · have hwp := Cur.toNextOf_wp (nodes := nodes) hi' h1
    cases hrun : Cur.toNextOf nodes x s with
    | abort => exact .inl rfl
    | ok o s' =>
      have he : (Call.toNext nodes x).exec s = .ok o.toList s' := by
        simp only [Call.exec, H.bind_def, hrun]; rfl
      obtain ⟨_, _, hlo, kr⟩ := Call.wp_result hwp hrun
      refine .inr ⟨o, s', _, rfl, HReach.ok _ h hr he, h.sameSnaps hr rfl he, ?_, ?_⟩
      · rw [Call.lost, if_neg hlost, if_neg]
        · rfl
        · rintro ⟨_, a, b⟩; exact hlost ⟨hpar.mpr a, b⟩
      · cases o with
        | none =>
          left
          refine ⟨rfl, ?_⟩
          have := htgt.1
          rw [show e.rootOf.tree = s.tree r by rw [h2]; rfl] at this
          cases hq : Cur.pick nodes (s.tree r) ((s.tree r).later e.path) with
          | none => rw [hq] at this; simpa using this
          | some Q => rw [hq] at hlo; exact hlo.elim
        | some y =>
          have k := kr y rfl
          refine HSt.Snap.found (R := e.rootOf) (r := r) hT ?_ hlo ?_
          · rw [h2, k.mutable, k.index, k.green]
          · rwa [show e.rootOf.tree = s.tree r by rw [h2]; rfl] at htgt
    | panic w s' => simp [H.wp, hrun] at hwp
    | ub => simp [H.wp, hrun] at hwp
    | diverge => simp [H.wp, hrun] at hwp

theorem HReach.stepClone (h : HReach s gs hs lk) (hx : x ∈ hs) (hz : s.Snap T x e) :
    Cur.clone x s = .abort ∨ ∃ s', Cur.clone x s = .ok x s' ∧ HReach s' gs (x :: hs) lk ∧ SameSnaps hs s s' ∧
      s'.Snap T x e := by
  letI : Greens := ⟨gs⟩
  obtain ⟨kids, hi⟩ := h.ok'
  have hr : (Call.clone x).Ready s gs hs hs :=
    ⟨.refl _, by simpa [Call.uses] using hx, by simp [Call.nodes], by simp⟩
  rcases Cur.incRc_ok hi hz.live with e1 | ⟨e1, _⟩
  · exact .inl (by simp only [Cur.clone, H.bind_def, e1])
  · have hrun : Cur.clone x s = .ok x (s.setRc x (s.rc x + 1)) := by
      simp only [Cur.clone, H.bind_def, e1]; rfl
    have he : (Call.clone x).exec s = .ok [x] (s.setRc x (s.rc x + 1)) := by
      simp only [Call.exec, H.bind_def, hrun]; rfl
    have ss := h.sameSnaps hr rfl he
    exact .inr ⟨_, hrun, HReach.ok _ h hr he, ss, ss x hx T e hz⟩

theorem HReach.stepDrop (h : HReach s gs hs lk) (hp : hs.Perm (x :: rest)) :
    ∃ s', Cur.drop x s = .ok () s' ∧ HReach s' gs rest lk ∧ SameSnaps rest s s' := by
  letI : Greens := ⟨gs⟩
  obtain ⟨kids, hi⟩ := h.ok'
  have hr : (Call.drop x).Ready s gs hs rest := ⟨hp, by simp [Call.uses], by simp [Call.nodes], by simp⟩
  rw [hr.cnt_eq] at hi
  have h' : HOk s (inc (cnt (rest ++ lk)) x) := ⟨kids, hi⟩
  obtain ⟨s', e1, _⟩ := Cur.drop_stable h'
  have he : (Call.drop x).exec s = .ok [] s' := by
    simp only [Call.exec, H.bind_def, e1]; rfl
  exact ⟨s', e1, HReach.ok _ h hr he, h.sameSnaps hr rfl he⟩

theorem HReach.stepLook (h : HReach s gs hs lk) (hz : s.Snap T x e) : Cur.look x s = .ok e.obs s := by
  letI : Greens := ⟨gs⟩
  obtain ⟨kids, hi⟩ := h.ok'
  exact hz.obs hi

end
end Rowan
