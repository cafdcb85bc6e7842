import Verif.ArcLemmas
/-!
# C41, C42: reference counting of green allocations

`ArcReach T t0 s`: `s` is reached from a fresh allocation made by thread `t0` by any interleaving of
the atomic steps of `T` threads, under release/acquire memory semantics (stale reads included).
`s.refs` are the references that exist in the program, `s.phase t` says whether thread `t` is inside
the tail of `drop` (`deleting`, `loaded`) or on its way to `abort()` (`aborting`).
-/
namespace Rowan
open ArcSt

theorem arc_inv {T t0 : Nat} {s : ArcSt} (hT : T < 2 ^ 63) (h : ArcReach T t0 s) :
    ∃ own, ArcInv T s own := by
  induction h with
  | init =>
    have hab : (ArcSt.init t0).aborting T = 0 := by
      simp [ArcSt.aborting, ArcSt.init]
    refine ⟨fun _ => 0, ?_, ?_, ?_, ?_, ?_, ?_, ?_, ?_, ?_, ?_, ?_, ?_, ?_, ?_, ?_⟩
    · simp [ArcSt.init]
    · rw [hab]; rfl
    · simp [ArcSt.init]
    · simp [ArcSt.init]
    · simp [ArcSt.init]
    · intro t; simp only [ArcSt.init]; split <;> simp
    · intro m hm; simp [ArcSt.init] at hm; subst hm; simp [ArcSt.init]
    · intro x hx; simp [ArcSt.init] at hx; subst hx; exact ⟨t0, by simp, Nat.zero_le _⟩
    · intro x _ i m _ hi; simp [ArcSt.init] at hi
    · intro e he _
      simp [ArcSt.init] at he; subst he
      exact .inr ⟨⟨0, [t0]⟩, by simp [ArcSt.init], t0, by simp, by simp [ArcSt.init]⟩
    · intro e he x hx u hu
      simp [ArcSt.init] at hx; subst hx
      simp at hu; subst hu
      have := (List.getElem?_eq_some_iff.mp he).1
      simp [ArcSt.init] at this; subst this
      simp [ArcSt.init]
    · intro t ht; simp [ArcSt.init] at ht
    · intro _; exact ⟨rfl, fun t => by simp [ArcSt.init]⟩
    · intro hr; simp [ArcSt.init] at hr
    · rfl
  | step op _ hs ih =>
    obtain ⟨own, ih⟩ := ih
    exact ih.step hT hs

/-- No thread is on its way to `abort()`. -/
def NoAbort (T : Nat) (s : ArcSt) : Prop := ∀ t, t < T → s.phase t ≠ .aborting

theorem noAbort_iff {T : Nat} {s : ArcSt} : NoAbort T s ↔ s.aborting T = 0 := by
  simp [NoAbort, ArcSt.aborting]

/-! ## C41 -/

/-- **C41.**  In every reachable state: no access to the payload has raced with another one, none has
touched freed memory, and nothing was freed twice (`ub = false`); the allocation has been freed at
most once; while a reference exists it has not been freed and nobody is about to free it; and when no
reference is left (and no thread is aborting the process), it either has been freed or exactly one
thread is in the tail of `drop`, about to free it. -/
theorem C41_freed_once {T t0 : Nat} {s : ArcSt} (hT : T < 2 ^ 63) (h : ArcReach T t0 s) :
    s.ub = false ∧ s.freed ≤ 1 ∧
    (s.refs ≠ [] → s.freed = 0 ∧ ∀ t, s.phase t ≠ .deleting ∧ s.phase t ≠ .loaded) ∧
    (s.refs = [] → NoAbort T s → s.freed = 0 →
      ∃ t, (s.phase t = .deleting ∨ s.phase t = .loaded) ∧
        ∀ u, s.phase u = .deleting ∨ s.phase u = .loaded → u = t) := by
  obtain ⟨own, hi⟩ := arc_inv hT h
  refine ⟨hi.ub, ?_, fun hr => hi.alive (.inl hr), ?_⟩
  · by_cases hr : s.refs ≠ [] ∨ 0 < s.aborting T
    · have := (hi.alive hr).1; omega
    · simp only [not_or] at hr
      rcases hi.gone (Classical.not_not.mp hr.1) (by omega) with hg | hg
      · omega
      · omega
  · intro hr ha hf
    rcases hi.gone hr (noAbort_iff.mp ha) with hg | ⟨-, t, hu, hc⟩
    · omega
    · refine ⟨t, ?_, ?_⟩
      · rcases hc with hc | hc
        · exact .inl hc.1
        · exact .inr hc.1
      · intro u hd
        by_cases he : u = t
        · exact he
        · rcases hd with hd | hd
          · exact absurd hd (hu u he).1
          · exact absurd hd (hu u he).2

/-- **C41.**  The thread that becomes responsible for freeing is the one that drops the last
reference: a `drop` enters its tail exactly when it drops the only reference left. -/
theorem C41_last_drop {T t0 t r : Nat} {s s' : ArcSt} (hT : T < 2 ^ 63) (h : ArcReach T t0 s)
    (hs : s.step T (.drop t r) = some s') :
    (∃ x ∈ s.refs, x.id = r ∧ x.holders = [t]) ∧ s'.refs = s.refs.filter (fun x => x.id ≠ r) ∧
    (s'.phase t = .deleting ↔ s'.refs = [] ∧ NoAbort T s) := by
  obtain ⟨own, hi⟩ := arc_inv hT h
  simp only [ArcSt.step] at hs
  split at hs
  · simp at hs
  simp only [Option.bind_eq_bind, Option.bind_eq_some_iff, guard, Option.pure_def] at hs
  obtain ⟨x, hx, _, hg, hs⟩ := hs
  split at hg <;> simp at hg
  next hc =>
  obtain ⟨hxm, hxr⟩ := ref?_some hx
  refine ⟨⟨x, hxm, hxr, hc.1⟩, ?_⟩
  obtain ⟨f0, hph⟩ := hi.alive (.inl (List.ne_nil_of_mem hxm))
  have hval := hi.val
  have hpos := List.length_pos_of_mem hxm
  split at hs
  · next hne =>
    obtain rfl := Option.some.inj hs
    refine ⟨rfl, ⟨fun hd => absurd hd (hph t).1, ?_⟩⟩
    rintro ⟨hr, ha⟩
    rw [noAbort_iff] at ha
    exfalso
    apply hne
    have hr' : s.refs.filter (fun x => x.id ≠ r) = [] := hr
    rw [List.filter_eq_nil_iff] at hr'
    have : s.refs.length ≤ 1 := by
      rcases Nat.lt_or_ge 1 s.refs.length with hlt | hge
      · exfalso
        have hn := hi.ids
        rw [List.nodup_iff_pairwise_ne, List.pairwise_map, List.pairwise_iff_getElem] at hn
        have h0 := hr' s.refs[0] (List.getElem_mem _)
        have h1 := hr' s.refs[1] (List.getElem_mem _)
        simp only [decide_eq_true_eq, Classical.not_not] at h0 h1
        exact hn 0 1 (by omega) hlt (by omega) (by rw [h0, h1])
      · omega
    omega
  · next hone =>
    obtain rfl := Option.some.inj hs
    refine ⟨rfl, ?_⟩
    have hone' : s.last.val = 1 := Classical.not_not.mp hone
    obtain ⟨hsole, ha⟩ := hi.sole_of_one hxm hone'
    constructor
    · intro _
      refine ⟨?_, noAbort_iff.mpr ha⟩
      show s.refs.filter _ = []
      rw [hsole]; simp [hxr]
    · intro _; simp [setPhase]

theorem free_ok {T t : Nat} {s : ArcSt} (hd : s.dead = false) (hp : s.phase t = .loaded) :
    ∃ s', s.step T (.free t) = some s' ∧ s'.freed = s.freed + 1 := by
  simp only [ArcSt.step]
  rw [if_neg (by simp [hd])]
  simp only [guard]
  rw [if_pos hp]
  exact ⟨_, rfl, rfl⟩

theorem load_ok {T t : Nat} {s : ArcSt} (hd : s.dead = false) (hp : s.phase t = .deleting)
    (hlt : (s.views t).idx < s.msgs.length) :
    ∃ s', s.step T (.load t (s.views t).idx) = some s' ∧ s'.phase t = .loaded ∧ s'.dead = false ∧
      s'.freed = s.freed := by
  simp only [ArcSt.step]
  rw [if_neg (by simp [hd])]
  simp only [guard]
  rw [if_pos ⟨hp, Nat.le_refl _⟩, List.getElem?_eq_getElem hlt]
  exact ⟨_, rfl, by simp [setPhase], hd, rfl⟩

/-- **C41.**  Nothing blocks the freeing: whenever no reference is left and nobody aborts, the thread
in the tail of `drop` can finish, and then the allocation has been freed exactly once. -/
theorem C41_progress {T t0 : Nat} {s : ArcSt} (hT : T < 2 ^ 63) (h : ArcReach T t0 s)
    (hr : s.refs = []) (ha : NoAbort T s) (hd : s.dead = false) (hf : s.freed = 0) :
    ∃ t i s', (s.step T (.free t) = some s' ∨
        ∃ s1, s.step T (.load t i) = some s1 ∧ s1.step T (.free t) = some s') ∧ s'.freed = 1 := by
  obtain ⟨own, hi⟩ := arc_inv hT h
  rcases hi.gone hr (noAbort_iff.mp ha) with hg | ⟨-, t, hu, hc⟩
  · omega
  · rcases hc with ⟨hp, hidx⟩ | ⟨hp, -⟩
    · obtain ⟨s1, h1, h2, h3, h4⟩ := load_ok (T := T) hd hp (hi.idx t)
      obtain ⟨s', h5, h6⟩ := free_ok (T := T) h3 h2
      exact ⟨t, (s.views t).idx, s', .inr ⟨s1, h1, h5⟩, by omega⟩
    · obtain ⟨s', h5, h6⟩ := free_ok (T := T) hd hp
      exact ⟨t, 0, s', .inl h5, by omega⟩

/-- **C41.**  Unique access: `get_mut` grants access (makes an exclusive access to the payload) only
if the caller's reference is the only one in the program, held by nobody else; and it does grant it
if, moreover, the load reads the latest value of the counter. -/
theorem C41_unique {T t0 t r i : Nat} {s s' : ArcSt} (hT : T < 2 ^ 63) (h : ArcReach T t0 s)
    (hs : s.step T (.getMut t r i) = some s') :
    (s'.events ≠ s.events → s.refs = [⟨r, [t]⟩] ∧ s'.events = s.events ++ [true]) ∧
    (s.refs = [⟨r, [t]⟩] → NoAbort T s → i + 1 = s.msgs.length → s'.events = s.events ++ [true]) := by
  obtain ⟨own, hi⟩ := arc_inv hT h
  simp only [ArcSt.step] at hs
  split at hs
  · simp at hs
  simp only [Option.bind_eq_bind, Option.bind_eq_some_iff, guard, Option.pure_def] at hs
  obtain ⟨x, hx, _, hg, m, hm, hs⟩ := hs
  split at hg <;> simp at hg
  next hc =>
  obtain ⟨hxm, hxr⟩ := ref?_some hx
  obtain ⟨hh, htT, hp, hidx⟩ := hc
  split at hs
  · next hv =>
    obtain rfl := Option.some.inj hs
    have hlt := (List.getElem?_eq_some_iff.mp hm).1
    obtain ⟨u, hu, hl⟩ := hi.held x hxm
    rw [hh] at hu; simp at hu; subst hu
    have hlast : i + 1 = s.msgs.length := by
      by_cases hl2 : i + 1 < s.msgs.length
      · exact absurd hv (hi.notOne x hxm i m (by omega) hl2 hm)
      · omega
    have hml := ArcInv.lastIdx hm hlast
    obtain ⟨hr1, -⟩ := hi.sole_of_one hxm (by rw [← hml]; exact hv)
    refine ⟨fun _ => ⟨?_, rfl⟩, fun _ _ _ => rfl⟩
    rw [hr1]
    cases x
    simp_all
  · next hv =>
    obtain rfl := Option.some.inj hs
    refine ⟨fun hne => absurd rfl hne, fun hr ha hl => absurd ?_ hv⟩
    rw [ArcInv.lastIdx hm hl, hi.val, hr, noAbort_iff.mp ha]
    rfl

/-- **C41.**  On a fresh allocation `get_mut` always grants access, whatever it reads: the `unwrap` in
`GreenNode::new` (src/green/node.rs:226-229) cannot fail. -/
theorem C41_fresh_get_mut {T t0 i : Nat} {s' : ArcSt}
    (hs : (ArcSt.init t0).step T (.getMut t0 0 i) = some s') :
    s'.events = [true, true] ∧ s'.ub = false := by
  simp only [ArcSt.step] at hs
  split at hs
  · simp at hs
  simp only [Option.bind_eq_bind, Option.bind_eq_some_iff, guard, Option.pure_def] at hs
  obtain ⟨x, hx, _, hg, m, hm, hs⟩ := hs
  have hi := (List.getElem?_eq_some_iff.mp hm).1
  simp [ArcSt.init] at hi; subst hi
  simp [ArcSt.init] at hm; subst hm
  simp at hs; subst hs
  refine ⟨rfl, ?_⟩
  simp [ArcSt.access, ArcSt.acquire, setView, ArcSt.init, ArcSt.knows, AView.join]

example : ((ArcSt.init 0).step 1 (.getMut 0 0 0)).isSome = true := by decide +kernel

/-! ### Non-vacuity -/

/-- Run a list of steps. -/
def ArcSt.run (T : Nat) (s : ArcSt) : List AOp → Option ArcSt
  | [] => some s
  | op :: ops => match s.step T op with
    | some s' => s'.run T ops
    | none => none

theorem ArcSt.run_reach {T t0 : Nat} {s s' : ArcSt} {ops : List AOp} (h : ArcReach T t0 s)
    (hr : s.run T ops = some s') : ArcReach T t0 s' := by
  induction ops generalizing s with
  | nil => simp [ArcSt.run] at hr; subst hr; exact h
  | cons op ops ih =>
    simp only [ArcSt.run] at hr
    split at hr
    · next s1 hs => exact ih (.step op h hs) hr
    · simp at hr

/-- Thread 0 clones, moves the clone to thread 1, both use theirs and drop it; thread 0, which drops
last, frees. -/
def arcRun1 : List AOp :=
  [.use 0 0, .clone 0 0, .lend 0 1 1, .giveBack 0 1 1, .use 1 1, .use 0 0, .drop 1 1, .drop 0 0,
   .load 0 3, .free 0]

example : ((ArcSt.init 0).run 2 arcRun1).map
    (fun s => (s.freed, s.ub, s.refs.length, s.events, s.last.val)) =
  some (1, false, 0, [true, false, false, false, true], 0) := by decide +kernel

/-- Thread 1 drops its clone; thread 0's `get_mut` may read the stale count 2 and refuse, or read the
new count 1 and grant access. -/
def arcRun2 (i : Nat) : List AOp :=
  [.clone 0 0, .lend 0 1 1, .giveBack 0 1 1, .use 1 1, .drop 1 1, .getMut 0 0 i]

example : ((ArcSt.init 0).run 2 (arcRun2 1)).map (fun s => (s.events, s.ub)) =
    some ([true, false], false) := by decide +kernel
example : ((ArcSt.init 0).run 2 (arcRun2 2)).map (fun s => (s.events, s.ub)) =
    some ([true, false, true], false) := by decide +kernel
/-- It cannot read a count from before its own last access to the counter. -/
example : ((ArcSt.init 0).run 2 (arcRun2 0)).map (fun s => s.ub) = none := by decide +kernel

/-- The hypotheses of the theorems are met by these runs. -/
example : ∃ s, ArcReach 2 0 s ∧ s.freed = 1 ∧ s.ub = false := by
  cases h : (ArcSt.init 0).run 2 arcRun1 with
  | none => exact absurd h (by decide +kernel)
  | some s =>
    have hf : ((ArcSt.init 0).run 2 arcRun1).map (·.freed) = some 1 := by decide +kernel
    rw [h] at hf
    exact ⟨s, ArcSt.run_reach .init h, by simpa using hf,
      (C41_freed_once (by omega) (ArcSt.run_reach .init h)).1⟩

/-! ## C42 -/

/-- **C42.**  The counter is exactly the number of references plus the number of threads on their way
to `abort()`; it is never wrapped around.  A clone always increases it by one, and hands out a new
reference exactly when the old count is at most `isize::MAX`; otherwise the thread goes to `abort()`
and no reference is handed out. -/
theorem C42_no_wrap {T t0 : Nat} {s : ArcSt} (hT : T < 2 ^ 63) (h : ArcReach T t0 s) :
    s.last.val = s.refs.length + ((List.range T).filter fun t => s.phase t = .aborting).length ∧
    s.last.val < 2 ^ 64 ∧
    ∀ t r s', s.step T (.clone t r) = some s' →
      s'.last.val = s.last.val + 1 ∧
      (s.last.val ≤ 2 ^ 63 - 1 → s'.refs = ⟨s.nextRef, [t]⟩ :: s.refs ∧ s'.phase = s.phase) ∧
      (2 ^ 63 - 1 < s.last.val → s'.refs = s.refs ∧ s'.phase t = .aborting) := by
  obtain ⟨own, hi⟩ := arc_inv hT h
  have hA := aborting_le T s
  have hval := hi.val
  have hfew := hi.few
  refine ⟨hi.val, by omega, ?_⟩
  intro t r s' hs
  simp only [ArcSt.step] at hs
  split at hs
  · simp at hs
  simp only [Option.bind_eq_bind, Option.bind_eq_some_iff, guard, Option.pure_def] at hs
  obtain ⟨x, hx, _, hg, hs⟩ := hs
  split at hg <;> simp at hg
  next hc =>
  have hA' := aborting_le T (s.setPhase t .aborting)
  rw [aborting_set hc.2.1 hc.2.2] at hA'
  have hmax : maxRefcount = 2 ^ 63 - 1 := rfl
  have hmod : (s.last.val + 1) % word = s.last.val + 1 :=
    Nat.mod_eq_of_lt (by have : word = 2 ^ 64 := rfl; omega)
  rw [hmod] at hs
  split at hs
  · obtain rfl := Option.some.inj hs
    refine ⟨?_, fun h => absurd h (by omega), fun _ => ⟨rfl, ?_⟩⟩
    · simp [ArcSt.last, ArcSt.rmw, setPhase, setView]
    · simp [setPhase]
  · obtain rfl := Option.some.inj hs
    refine ⟨?_, fun _ => ⟨rfl, rfl⟩, fun h => absurd h (by omega)⟩
    simp [ArcSt.last, ArcSt.rmw, setView]

/-- A drop always decreases it by one (it is never 0 before a drop). -/
theorem C42_drop {T t0 t r : Nat} {s s' : ArcSt} (hT : T < 2 ^ 63) (h : ArcReach T t0 s)
    (hs : s.step T (.drop t r) = some s') : s'.last.val + 1 = s.last.val := by
  obtain ⟨own, hi⟩ := arc_inv hT h
  have hA := aborting_le T s
  have hval := hi.val
  have hfew := hi.few
  simp only [ArcSt.step] at hs
  split at hs
  · simp at hs
  simp only [Option.bind_eq_bind, Option.bind_eq_some_iff, guard, Option.pure_def] at hs
  obtain ⟨x, hx, _, hg, hs⟩ := hs
  have hpos := List.length_pos_of_mem (ref?_some hx).1
  have hmod : (s.last.val + word - 1) % word = s.last.val - 1 := by
    have hword : word = 2 ^ 64 := rfl
    rw [show s.last.val + word - 1 = (s.last.val - 1) + word by omega, Nat.add_mod_right]
    exact Nat.mod_eq_of_lt (by omega)
  rw [hmod] at hs
  split at hs
  · obtain rfl := Option.some.inj hs
    simp [ArcSt.last, ArcSt.rmw, setView] at *
    omega
  · obtain rfl := Option.some.inj hs
    simp [ArcSt.last, ArcSt.rmw, setView, setPhase] at *
    omega

example : ((ArcSt.init 0).run 1 [.clone 0 0, .clone 0 1, .drop 0 0]).map
    (fun s => (s.last.val, s.refs.map ARef.id)) = some (2, [2, 1]) := by decide +kernel

end Rowan
