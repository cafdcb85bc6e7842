import Verif.ProgramComp
/-!
# From snapshots to the heap
-/
namespace Rowan

theorem Running.ok {T : List Nat} {s : HSt} {gs : List GElem} {n : Nat} {J : List Live} {rest lk : List Nat}
    (h : Running T s gs n J rest lk) : (Env.mk n (Live.snaps J)).Ok where
  ids := by simpa [Live.snaps, List.map_map, Function.comp_def] using h.ids
  low := by
    intro p hp
    obtain ⟨j, hj, rfl⟩ := List.mem_map.mp hp
    exact h.low j hj

/-- What holds of the run on the snapshot holds of the run on the heap. -/
theorem RProg.Comp.heap {α β : Type} {p : RProg α} {T : List Nat} {s : HSt} {gs : List GElem} {n : Nat} {J : List Live}
    {rest lk : List Nat} {r : Res β} {Q : α → β → List (Nat × SElem) → Prop} (hc : p.Comp (Live.snaps J) r Q)
    (h : Running T s gs n J rest lk) : p.Answers T s gs n J rest lk r Q := by
  obtain ⟨h0, h1⟩ := hc _ h.ok (.refl _)
  rcases p.exec_eval h h1.fine with e | ⟨o, s', lk', e, so, ss, hl⟩
  · exact .inl e
  · have hl : lk' = [] := List.length_eq_zero_iff.mp (by omega)
    subst hl
    refine .inr ⟨s', ss, ?_⟩
    cases r with
    | ok b =>
      obtain ⟨a, w, e1, h2, L, h3, h4⟩ := h1
      rw [e1] at so
      cases o with
      | ok a' w' =>
        obtain ⟨rfl, hn, J', j1, j2, j3⟩ := so
        obtain ⟨n', held⟩ := w'
        simp only at hn j2
        subst hn j2
        exact ⟨a, _, J', e, j3, L, j1 ▸ h3, h4⟩
      | _ => exact so.elim
    | panic =>
      obtain ⟨w, e1⟩ := h1
      rw [e1] at so
      cases o with
      | panic w' =>
        obtain ⟨hn, J', j1, j2, j3⟩ := so
        obtain ⟨n', held⟩ := w'
        simp only at hn j2
        subst hn j2
        exact ⟨_, J', e, j3⟩
      | _ => exact so.elim
    | diverge =>
      rw [show p.eval _ = .diverge from h1] at so
      cases o with
      | diverge => exact e
      | _ => exact so.elim
    | ub => exact h1.elim

end Rowan
