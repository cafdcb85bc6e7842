import Verif.GreenWeakLemmas
/-!
# Properties of green memory under the C11 memory model: C65
-/
namespace Rowan
namespace GWeak

variable {w : GWeak}

/-- A step is a step of the memory without views, or leaves that alone. -/
theorem step_mem {ord : ArcOrders} {w' : GWeak} {op : GWOp} (hs : w.step ord op = some w') :
    w'.mem = w.mem ∨ ∃ o, w.mem.step o = some w'.mem := by
  cases op with
  | sync a t => cases hs; exact .inl rfl
  | load t i =>
    simp only [GWeak.step, Option.bind_eq_bind, Option.bind_eq_some_iff] at hs
    obtain ⟨_, -, _, -, _, -, hs⟩ := hs
    cases hs
    exact .inl rfl
  | mem op =>
    simp only [GWeak.step, Option.bind_eq_bind, Option.bind_eq_some_iff] at hs
    obtain ⟨m, hm, w1, -, hs⟩ := hs
    cases hs
    exact .inr ⟨op, hm⟩

theorem Reach.mem {ord : ArcOrders} (h : w.Reach ord) : w.mem.Reach := by
  induction h with
  | init => exact .init
  | step op _ hs ih =>
    rcases step_mem hs with e | ⟨o, ho⟩
    · rw [e]; exact ih
    · exact .step o ih ho

theorem Reach.ids {s : GMem} (h : s.Reach) : Ids s := by
  induction h with
  | init => exact ⟨.nil, fun _ h => by cases h⟩
  | step op _ hs ih => exact ih.step hs

theorem Reach.inv (h : w.Reach arcOrders) : WInv w := by
  induction h with
  | init => exact .init
  | step op h hs ih => exact ih.step (Reach.ids h.mem) hs

/-- **C65.**  Whatever the threads do with green trees, in any order, and whatever messages the loads read: no two accesses
to an allocation race, and no freed allocation is accessed. -/
theorem C65_race_free (h : w.Reach arcOrders) : ¬ w.Race ∧ w.mem.ub = false :=
  ⟨h.inv.race, h.mem.inv.ub⟩

/-- **C65**: happens-before, by which races are defined, is a strict partial order in line with time, and contains the order
of events in each thread; with any orderings. -/
theorem C65_happens_before {ord : ArcOrders} (h : w.Reach ord) {e e' e'' : Nat} :
    (w.Before e e' → e < e') ∧ (w.Before e e' → w.Before e' e'' → w.Before e e'') ∧
    (∀ a b : GEvent, e < e' → w.events[e]? = some a → w.events[e']? = some b → a.thread = b.thread → w.Before e e') := by
  have hv : VInv w := by
    induction h with
    | init => constructor <;> simp [Good]
    | step op _ hs ih => exact ih.step hs
  refine ⟨?_, ?_, ?_⟩
  · rintro ⟨b, hb, he⟩
    exact (hv.events e' b hb).2 e he
  · rintro ⟨b, hb, he⟩ ⟨c, hc, he'⟩
    exact ⟨c, hc, (hv.events e'' c hc).1.2 e' e b he' hb he⟩
  · intro a b hlt ha hb hab
    exact ⟨b, hb, hv.order e e' a b hlt ha hb hab⟩

/-- **C65, the load.**  The thread that has brought a counter to 0 can do its load at once, and the load can only read the
latest message, the one that it has written itself. -/
theorem C65_load (h : w.Reach arcOrders) (hd : w.mem.dead = false) {t i : Nat} {f : GFrame} {fs : List GFrame}
    (hf : GMem.popFrame t w.mem.stack = some (f, fs)) (hu : w.unloaded f.obj = true) :
    (w.step arcOrders (.load t i)).isSome = true ↔ i + 1 = (w.msgs f.obj).length := by
  obtain ⟨hp, rfl⟩ := GMem.popFrame_perm hf
  have h1 := h.inv.newest (hp.mem_iff.mpr (List.mem_cons_self ..)) hu
  rw [← h1]
  by_cases hi : (w.views f.thread).idx f.obj ≤ i
  · by_cases hl : i < (w.msgs f.obj).length
    · simp [GWeak.step, hf, hu, hd, guard, hi, List.getElem?_eq_getElem hl]
      omega
    · simp [GWeak.step, hf, hu, hd, guard, hi, List.getElem?_eq_none (Nat.le_of_not_lt hl)]
      omega
  · have e : w.step arcOrders (.load f.thread i) = none := by
      simp only [GWeak.step, hf, Option.bind_eq_bind, Option.bind_some, guard]
      rw [if_neg fun h => hi h.2.1]
      rfl
    rw [e]
    simp
    omega

/-- Events, messages and views are in nobody's way, but for the load. -/
theorem track_some {op : GOp} {m : GMem} (hm : w.mem.step op = some m)
    (hl : ∀ t f fs, op = .glue t → GMem.popFrame t w.mem.stack = some (f, fs) → w.unloaded f.obj = false) :
    ∃ w', w.step arcOrders (.mem op) = some w' ∧ w'.mem = m := by
  have : ∃ w1, w.track arcOrders op = some w1 := by
    simp only [GMem.step] at hm
    split at hm
    · cases hm
    cases op with
    | newToken t k text => exact ⟨_, rfl⟩
    | newNode t k rs =>
      simp only [Option.bind_eq_bind, Option.bind_eq_some_iff] at hm
      obtain ⟨_, -, ⟨os, l⟩, h2, hm⟩ := hm
      exact ⟨_, by simp only [track, h2, Option.bind_eq_bind, Option.bind_some]; rfl⟩
    | read t r path =>
      simp only [Option.bind_eq_bind, Option.bind_eq_some_iff] at hm
      obtain ⟨x, hx, -⟩ := hm
      exact ⟨_, by simp only [track, hx, Option.bind_eq_bind, Option.bind_some]; rfl⟩
    | clone t r path =>
      simp only [Option.bind_eq_bind, Option.bind_eq_some_iff] at hm
      obtain ⟨x, hx, _, -, o, ho, -⟩ := hm
      exact ⟨_, by simp only [track, hx, ho, Option.bind_eq_bind, Option.bind_some]; rfl⟩
    | drop t r =>
      simp only [Option.bind_eq_bind, Option.bind_eq_some_iff] at hm
      obtain ⟨_, -, ⟨x, l⟩, h2, hm⟩ := hm
      exact ⟨_, by simp only [track, h2, Option.bind_eq_bind, Option.bind_some]; rfl⟩
    | glue t =>
      simp only [Option.bind_eq_bind, Option.bind_eq_some_iff] at hm
      obtain ⟨⟨f, fs⟩, h2, hm⟩ := hm
      have hu := hl t f fs rfl h2
      simp only [track, h2, hu, guard, if_true, Option.bind_eq_bind, Option.bind_some]
      cases f.rest with
      | nil => exact ⟨_, rfl⟩
      | cons k ks => exact ⟨_, rfl⟩
    | lend a t r => exact ⟨_, rfl⟩
    | giveBack t a r => exact ⟨_, rfl⟩
  obtain ⟨w1, h1⟩ := this
  exact ⟨{ w1 with mem := m }, by simp only [GWeak.step, hm, h1, Option.bind_eq_bind, Option.bind_some], rfl⟩

theorem Reach.dead {s : GMem} {op : GOp} {m : GMem} (hm : s.step op = some m) : s.dead = false := by
  simp only [GMem.step] at hm
  split at hm
  · cases hm
  · rename_i h; simpa using h

/-- **C65, nothing else can happen.**  The states of the memory that can be reached are exactly those of the model in which
the counters are sequentially consistent: what `C51` says holds with the memory orderings of the code. -/
theorem C65_same {s : GMem} : s.Reach ↔ ∃ w : GWeak, w.Reach arcOrders ∧ w.mem = s := by
  constructor
  · intro h
    induction h with
    | init => exact ⟨{}, .init, rfl⟩
    | @step s s' op _ hs ih =>
      obtain ⟨w, hw, rfl⟩ := ih
      by_cases hl : ∀ t f fs, op = .glue t → GMem.popFrame t w.mem.stack = some (f, fs) → w.unloaded f.obj = false
      · obtain ⟨w', h1, h2⟩ := track_some hs hl
        exact ⟨w', .step _ hw h1, h2⟩
      · simp only [Classical.not_forall] at hl
        obtain ⟨t, f, fs, rfl, hf, hu⟩ := hl
        simp only [Bool.not_eq_false] at hu
        have hd := Reach.dead hs
        have hlen := hw.inv.newest ((GMem.popFrame_perm hf).1.mem_iff.mpr (List.mem_cons_self ..)) hu
        obtain ⟨v, hv⟩ := Option.isSome_iff_exists.mp ((C65_load hw hd hf hu).mpr hlen)
        have hv' := hv
        simp only [GWeak.step, Option.bind_eq_bind, Option.bind_eq_some_iff] at hv'
        obtain ⟨⟨g, gs⟩, h1, _, -, m, -, hv'⟩ := hv'
        rw [hf] at h1; cases h1
        cases hv'
        have := track_some (w := { w.load arcOrders.acquire t f.obj ((w.views f.thread).idx f.obj) m with
          unloaded := fun p => if p = f.obj then false else w.unloaded p }) (op := .glue t) (m := s') hs (by
            intro t' f' fs' e hf'
            cases e
            have hf' : GMem.popFrame t w.mem.stack = some (f', fs') := hf'
            rw [hf] at hf'; cases hf'
            simp)
        obtain ⟨w', h1, h2⟩ := this
        exact ⟨w', .step _ (.step _ hw hv) h1, h2⟩
  · rintro ⟨w, h, rfl⟩
    exact h.mem

/-! ### Both orderings are needed; a concrete run -/

/-- Several steps. -/
def run (ord : ArcOrders) : List GWOp → GWeak → Option GWeak
  | [], w => some w
  | op :: ops, w => do
    let w' ← w.step ord op
    run ord ops w'

theorem Reach.run {ord : ArcOrders} : ∀ {ops : List GWOp} {w w' : GWeak}, w.Reach ord → GWeak.run ord ops w = some w' → w'.Reach ord
  | [], w, w', h, hr => by cases hr; exact h
  | op :: ops, w, w', h, hr => by
    simp only [GWeak.run, Option.bind_eq_bind, Option.bind_eq_some_iff] at hr
    obtain ⟨v, h1, h2⟩ := hr
    exact Reach.run (.step op h h1) h2

/-- Thread 0 makes a node with a token in it and a second reference to the node, which it gives to thread 1; thread 1 reads
the token and drops its reference; thread 0 drops the other one, frees the token, then the node. -/
def demoRun : List GWOp :=
  [.mem (.newToken 0 ⟨5⟩ ['a']), .mem (.newNode 0 ⟨9⟩ [0]), .mem (.clone 0 1 []), .mem (.lend 0 1 2), .mem (.giveBack 0 1 2),
   .mem (.read 1 2 [0]), .mem (.drop 1 2), .mem (.drop 0 1), .load 0 3, .mem (.glue 0), .load 0 1, .mem (.glue 0),
   .mem (.glue 0)]

/-- The end of a run. -/
def after (ord : ArcOrders) (ops : List GWOp) : GWeak := (GWeak.run ord ops {}).getD {}

theorem after_reach {ord : ArcOrders} {ops : List GWOp} (h : (GWeak.run ord ops {}).isSome = true) : (after ord ops).Reach ord := by
  obtain ⟨w, hw⟩ := Option.isSome_iff_exists.mp h
  rw [after, hw]
  exact .run .init hw

/-- The run is possible with the orderings of the code; at its end everything is freed. -/
theorem demoRun_reach : (after arcOrders demoRun).Reach arcOrders := after_reach (by decide +kernel)

example : ¬ (after arcOrders demoRun).Race ∧ (after arcOrders demoRun).mem.ub = false := C65_race_free demoRun_reach
example : (after arcOrders demoRun).mem.objs.map GObj.freed = [true, true] ∧ (after arcOrders demoRun).events.length = 12 := by
  decide +kernel

-- C65_happens_before: the read of the token by thread 1 (event 5) happens before the token is freed by thread 0 (event 10)
example : (after arcOrders demoRun).Before 5 10 ∧ ¬ (after arcOrders demoRun).Before 10 5 := by
  refine ⟨?_, fun h => absurd ((C65_happens_before demoRun_reach (e'' := 0)).1 h) (by decide)⟩
  have : (((after arcOrders demoRun).events[10]?).map fun b => b.before 5) = some true := by decide +kernel
  obtain ⟨b, hb, he⟩ := Option.map_eq_some_iff.mp this
  exact ⟨b, hb, he⟩

/-- A race, for the kernel to see. -/
theorem race_of {e e' : Nat} (h : (match w.events[e]?, w.events[e']? with
    | some a, some b => decide (e < e') && a.obj == b.obj && (a.exclusive || b.exclusive) && !b.before e
    | _, _ => false) = true) : w.Race := by
  split at h
  · rename_i a b ha hb
    simp only [Bool.and_eq_true, decide_eq_true_eq, beq_iff_eq, Bool.or_eq_true, Bool.not_eq_true'] at h
    obtain ⟨⟨⟨h1, h2⟩, h3⟩, h4⟩ := h
    refine ⟨e, e', a, b, h1, ha, hb, h2, h3, ?_⟩
    rintro ⟨c, hc, hce⟩
    rw [hb] at hc; cases hc
    rw [h4] at hce; cases hce
  · cases h

/-- **C65, `Release` is needed.**  If `fetch_sub` were `Relaxed`, the destructor would race with the reads of other threads. -/
theorem C65_release_needed : ∃ w : GWeak, w.Reach ⟨false, true⟩ ∧ w.Race :=
  ⟨after ⟨false, true⟩ demoRun, after_reach (by decide +kernel), race_of (e := 5) (e' := 10) (by decide +kernel)⟩

/-- **C65, `Acquire` is needed.**  If the load before the destructor were `Relaxed`, likewise. -/
theorem C65_acquire_needed : ∃ w : GWeak, w.Reach ⟨true, false⟩ ∧ w.Race :=
  ⟨after ⟨true, false⟩ demoRun, after_reach (by decide +kernel), race_of (e := 4) (e' := 8) (by decide +kernel)⟩

/-- The counter of the node is 0, the load has not been done. -/
theorem demoRun_load : ∃ f fs, GMem.popFrame 0 (after arcOrders (demoRun.take 8)).mem.stack = some (f, fs) ∧
    (after arcOrders (demoRun.take 8)).unloaded f.obj = true ∧ (after arcOrders (demoRun.take 8)).mem.dead = false :=
  ⟨⟨0, 1, [0]⟩, [], by decide +kernel⟩

example : ((after arcOrders (demoRun.take 8)).step arcOrders (.load 0 2)).isSome = false ∧
    ((after arcOrders (demoRun.take 8)).step arcOrders (.load 0 3)).isSome = true := by decide +kernel

example : ∃ w : GWeak, w.Reach arcOrders ∧ w.mem = GMem.demoEnd := C65_same.mp GMem.demoEnd_reach

end GWeak
end Rowan
