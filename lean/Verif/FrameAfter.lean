import Verif.Frame
import Verif.TwinRun
/-!
# Handles that a program does not use

The definitions in this file are vocabulary of the proofs and model no code.
-/
namespace Rowan
namespace Forest
variable {F G K : Forest} {bs : List Nat}

/-! ### New handles have new numbers -/

theorem insertAll_next {q : Nat} {gone : List Nat} : ∀ (ps : List Nat) (i : Nat) (F F' : Forest),
    F.insertAll q gone i ps = .ok F' ∨ F.insertAll q gone i ps = .panic F' → F'.env.next = F.env.next
  | [], i, F, F', h => by
    rw [insertAll] at h
    rcases h with h | h <;> cases h
    rfl
  | p :: ps, i, F, F', h => by
    have cut_next : ∀ x, (F.cut x).env.next = F.env.next := by
      intro x
      rw [cut]
      split <;> rfl
    rw [insertAll] at h
    split at h
    · rcases h with h | h <;> cases h
    · split at h
      · rcases h with h | h <;> cases h
        rfl
      · split at h
        · split at h
          · split at h <;> rcases h with h | h <;> cases h
          · split at h
            · exact (insertAll_next ps (i + 1) _ F' h).trans (cut_next _)
            · split at h <;> rcases h with h | h <;> cases h
              exact cut_next _
        · rcases h with h | h <;> cases h

theorem splice_next {q a b : Nat} {ins : List Nat} {F F' : Forest} (h : F.splice q a b ins = .ok F' ∨ F.splice q a b ins = .panic F') :
    F'.env.next = F.env.next := by
  rw [splice] at h
  split at h
  · rcases h with h | h <;> cases h
  · split at h
    · split at h
      · rcases h with h | h <;> cases h
        rfl
      · next z _ _ _ =>
        have h0 : (if a < b ∧ a < F.width z then F.cutAt z.1 z.2 a else F).env.next = F.env.next := by
          split <;> rfl
        split at h
        · next e => rcases h with h | h <;> cases h; exact (insertAll_next _ _ _ _ (.inl e)).trans h0
        · next e => rcases h with h | h <;> cases h; exact (insertAll_next _ _ _ _ (.inr e)).trans h0
        · next h1 h2 =>
          rcases h with h | h
          · exact absurd h (h1 _)
          · exact absurd h (h2 _)
    · rcases h with h | h <;> cases h

theorem on_next (r : Req) {F F' : Forest} : (∀ o, r.on F = .ok (o, F') → F'.env.next = F.env.next) ∧
    (r.on F = .panic F' → F'.env.next = F.env.next) := by
  have cut_next : ∀ x, (F.cut x).env.next = F.env.next := by
    intro x
    rw [cut]
    split <;> rfl
  cases r with
  | splice q a b ins =>
    simp only [Req.on]
    cases e : F.splice q a b ins with
    | ok G => exact ⟨fun o h => by cases h; exact splice_next (.inl e), nofun⟩
    | panic G => exact ⟨nofun, fun h => by cases h; exact splice_next (.inr e)⟩
    | _ => exact ⟨nofun, nofun⟩
  | attach q i p =>
    simp only [Req.on]
    cases e : F.splice q i i [p] with
    | ok G => exact ⟨fun o h => by cases h; exact splice_next (.inl e), nofun⟩
    | panic G => exact ⟨nofun, fun h => by cases h; exact splice_next (.inr e)⟩
    | _ => exact ⟨nofun, nofun⟩
  | _ =>
    simp only [Req.on]
    constructor
    all_goals
      intros
      rename_i h
      repeat' split at h
      all_goals first | cases h | skip
      all_goals first | rfl | exact cut_next _

end Forest

namespace EProg

theorem run_next {α : Type} : ∀ (p : EProg α) {F F' : Forest}, (∀ a, p.run F = .ok (a, F') → F.env.next ≤ F'.env.next)
  | ret a, F, F' => by intro b h; cases h; exact Nat.le_refl _
  | panic, F, F' => nofun
  | diverge, F, F' => nofun
  | req r k, F, F' => by
    intro a h
    simp only [run] at h
    cases e : r.on F with
    | ok o =>
      rw [e] at h
      obtain ⟨x, F1⟩ := o
      have h1 := (Forest.on_next r).1 _ e
      cases x with
      | none =>
        have := run_next (k (.done none)) a h
        omega
      | some x =>
        have h2 := run_next (k (.done (some F.env.next))) a h
        have h2 : F1.env.next + 1 ≤ F'.env.next := h2
        omega
    | panic F1 =>
      rw [e] at h
      have h1 := (Forest.on_next r).2 e
      have := run_next (k .panicked) a h
      omega
    | broken => rw [e] at h; simp only at h; split at h <;> cases h
    | _ => rw [e] at h; cases h
  | look m k, F, F' => by
    intro a h
    simp only [run] at h
    split at h
    · cases h
    · split at h
      · cases h
      · exact run_next _ a h
  | same m m' k, F, F' => by
    intro a h
    simp only [run] at h
    split at h
    · split at h
      · cases h
      · exact run_next _ a h
    · cases h
end EProg

theorem Env.isSome_get {X : Type} {v : Env X} {e : Nat × X} (he : e ∈ v.held) : (v.get e.1).isSome := by
  rw [Env.get]
  cases hl : v.held.lookup e.1 with
  | some x => rfl
  | none =>
    rw [List.lookup_eq_none_iff] at hl
    simpa using hl e he

/-- More numbers are taken. -/
theorem Tracks.raise {s : HSt} {gs : List GElem} {lk : List Nat} {F : Forest} {w : Env Nat} (h : Tracks s gs lk F w) {n : Nat}
    (hn : w.next ≤ n) : Tracks s gs lk { F with env := ⟨n, F.env.held⟩ } ⟨n, w.held⟩ := by
  obtain ⟨J, top, h1, h2, h3, h4, h5, h6⟩ := h.same
  exact ⟨h.reach, rfl, h.leak, J, top, h1, h2, h3, fun j hj => Nat.lt_of_lt_of_le (h4 j hj) hn, h5, h6⟩

namespace Forest
variable {F G K : Forest} {bs : List Nat}

theorem mem_others {e : Nat × Nat × List Nat} (he : e ∈ F.env.held) : e.1 ∈ F.env.others bs ↔ e.1 ∉ bs := by
  simp only [Env.others, List.mem_filter, List.mem_map]
  constructor
  · rintro ⟨-, h⟩; simpa using h
  · intro h; exact ⟨⟨e, he, rfl⟩, by simpa using h⟩

theorem apart_others (h : F.Apart bs) : F.Apart (F.env.others bs) := by
  intro e he e' he' h1 h2
  rw [mem_others he] at h1
  rw [mem_others he'] at h2
  exact (h e' he' e he (Decidable.not_not.mp h2) h1).symm

theorem dels_others (F : Forest) (bs : List Nat) (n : Nat) :
    ({ F with env := ⟨n, F.env.held⟩ } : Forest).dels (F.env.others bs) = F.only bs n := by
  simp only [Forest.dels, Env.dels, Forest.only]
  congr 2
  apply List.filter_congr
  intro e he
  have := mem_others (bs := bs) he
  by_cases hb : e.1 ∈ bs
  · simp [this, hb]
  · simp [this, hb]

/-- The handles that were not used, in trees that were not changed. -/
theorem Kept.pair (h : Kept bs F G) (hF : F.Sound) (hl : G.leaked = F.leaked) (n : Nat) : Pair (F.only bs n) (G.only bs n) := by
  have mem : ∀ e ∈ (F.only bs n).env.held, e ∈ F.env.held ∧ e.1 ∈ bs := by
    intro e he
    obtain ⟨h1, h2⟩ := List.mem_filter.mp he
    exact ⟨h1, by simpa using h2⟩
  refine ⟨⟨id, ?_, hl, fun _ _ _ _ h => h, ?_, ?_, ?_⟩, fun e he => hF e (mem e he).1⟩
  · simp only [Forest.only, h.keeps.held, Env.map]
    simp
  · exact fun e he => h.keeps.tree e (mem e he).1 (mem e he).2
  · exact fun e he => h.keeps.mutable e (mem e he).1 (mem e he).2
  · exact fun e he => h.aside.low e ((h.keeps.mem (mem e he).2).mpr (mem e he).1)

end Forest
end Rowan
