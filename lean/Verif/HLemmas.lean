import Verif.HeapState
/-!
# Lemmas about heap computations

Unless their comments cite lines of `/repo`, the definitions in this file are vocabulary of the proofs and model no code.
-/
namespace Rowan

section
variable {α : Type}
@[simp] theorem upd_same (f : Nat → α) (p : Nat) (v : α) : upd f p v p = v := by simp [upd]
theorem upd_other (f : Nat → α) {p x : Nat} (v : α) (h : x ≠ p) : upd f p v x = f x := by
  simp [upd, h]
theorem upd_apply (f : Nat → α) (p : Nat) (v : α) (x : Nat) :
    upd f p v x = if x = p then v else f x := rfl
theorem upd_eq_self (f : Nat → α) {p : Nat} {v : α} (h : f p = v) : upd f p v = f := by
  funext x; simp only [upd]; split
  · next e => rw [e, h]
  · rfl
end

namespace HOut
variable {α β : Type} {f : α → β}
/-- The result with the value replaced. -/
def map (f : α → β) : HOut α → HOut β
  | .ok a s => .ok (f a) s
  | .panic w s => .panic w s
  | .abort => .abort
  | .ub => .ub
  | .diverge => .diverge

theorem map_ok {r : HOut α} {b : β} {s : HSt} (h : r.map f = .ok b s) : ∃ a, r = .ok a s ∧ f a = b := by
  cases r <;> cases h
  exact ⟨_, rfl, rfl⟩
theorem map_panic {r : HOut α} {w : Why} {s : HSt} (h : r.map f = .panic w s) : r = .panic w s := by
  cases r <;> cases h
  rfl
theorem map_abort {r : HOut α} (h : r.map f = .abort) : r = .abort := by cases r <;> cases h; rfl
theorem map_ub {r : HOut α} (h : r.map f = .ub) : r = .ub := by cases r <;> cases h; rfl
theorem map_diverge {r : HOut α} (h : r.map f = .diverge) : r = .diverge := by cases r <;> cases h; rfl
end HOut

namespace H
variable {α β : Type}

theorem bind_def (m : H α) (f : α → H β) (s : HSt) : (m >>= f) s =
    match m s with
    | .ok a s' => f a s'
    | .panic w s' => .panic w s'
    | .abort => .abort
    | .ub => .ub
    | .diverge => .diverge := rfl

@[simp] theorem pure_apply (a : α) (s : HSt) : (pure a : H α) s = .ok a s := rfl
@[simp] theorem panic_apply (w : Why) (s : HSt) : (panic w : H α) s = .panic w s := rfl
@[simp] theorem ub_apply (s : HSt) : (ub : H α) s = .ub := rfl
@[simp] theorem diverge_apply (s : HSt) : (diverge : H α) s = .diverge := rfl
@[simp] theorem abort_apply (s : HSt) : (abort : H α) s = .abort := rfl
@[simp] theorem modify_apply (f : HSt → HSt) (s : HSt) : modify f s = .ok () (f s) := rfl
@[simp] theorem nonNull_some (p : Nat) (s : HSt) : nonNull (some p) s = .ok p s := rfl
@[simp] theorem loop_apply (f : Nat → H α) (s : HSt) : loop f s = f (s.top + s.slack + 1) s := rfl

theorem rd_ok {p : Nat} {f : HSt → Nat → α} {s : HSt} (h : s.live p = true) :
    rd p f s = .ok (f s p) s := by simp [rd, h]
theorem wr_ok {p : Nat} {f : HSt → HSt} {s : HSt} (h : s.live p = true) :
    wr p f s = .ok () (f s) := by simp [wr, h]
theorem dbg_ok {b : Bool} {s : HSt} (h : b = true) : dbg b s = .ok () s := by simp [dbg, h]
theorem assert_ok {b : Bool} {s : HSt} (h : b = true) : assert b s = .ok () s := by
  simp [assert, h]
theorem assert_fail {b : Bool} {s : HSt} (h : b = false) : assert b s = .panic .assert s := by
  simp [assert, h]

theorem bind_assoc (m : H α) (f : α → H β) (g : β → H γ) : (m >>= f) >>= g = m >>= fun a => f a >>= g := by
  funext s
  simp only [bind_def]
  cases m s <;> rfl

/-- Two programs that start with `m` agree if they agree after `m` returns. -/
theorem bind_congr {m : H α} {f g : α → H β} {s : HSt} (h : ∀ a s', m s = .ok a s' → f a s' = g a s') :
    (m >>= f) s = (m >>= g) s := by
  simp only [bind_def]
  cases e : m s with
  | ok a s' => exact h a s' e
  | _ => rfl

theorem bind_ok {m : H α} {f : α → H β} {s s' : HSt} {a : α} (h : m s = .ok a s') :
    (m >>= f) s = f a s' := by simp [bind_def, h]

/-- Weakest precondition: from `s`, `m` returns with `Q`, or panics with `E`, or aborts; it has no
undefined behaviour and does not run out of its step bounds. -/
def wp (m : H α) (s : HSt) (Q : α → HSt → Prop) (E : Why → HSt → Prop) : Prop :=
  match m s with
  | .ok a s' => Q a s'
  | .panic w s' => E w s'
  | .abort => True
  | .ub => False
  | .diverge => False

theorem wp_pure {a : α} {s : HSt} {Q : α → HSt → Prop} {E} (h : Q a s) : wp (pure a) s Q E := h

theorem wp_bind {m : H α} {f : α → H β} {s : HSt} {Q : β → HSt → Prop} {E} :
    wp (m >>= f) s Q E ↔ wp m s (fun a s' => wp (f a) s' Q E) E := by
  simp only [wp, bind_def]
  cases m s <;> simp

theorem wp_ok {m : H α} {s s' : HSt} {a : α} {Q : α → HSt → Prop} {E} (h : m s = .ok a s')
    (hq : Q a s') : wp m s Q E := by simp [wp, h, hq]

theorem wp_step {m : H α} {f : α → H β} {s s' : HSt} {a : α} {Q : β → HSt → Prop} {E}
    (h : m s = .ok a s') (hq : wp (f a) s' Q E) : wp (m >>= f) s Q E := wp_bind.mpr (wp_ok h hq)

theorem wp_mono {m : H α} {s : HSt} {Q Q' : α → HSt → Prop} {E E' : Why → HSt → Prop}
    (h : wp m s Q E) (hq : ∀ a s', Q a s' → Q' a s') (he : ∀ w s', E w s' → E' w s') :
    wp m s Q' E' := by
  simp only [wp] at h ⊢
  cases hm : m s <;> simp_all

theorem wp_seq {m : H α} {f : α → H β} {s : HSt} {P : α → HSt → Prop} {Q : β → HSt → Prop} {E}
    (h : wp m s P E) (hf : ∀ a s', P a s' → wp (f a) s' Q E) : wp (m >>= f) s Q E :=
  wp_bind.mpr (wp_mono h hf (fun _ _ h => h))

end H
end Rowan
