import Verif.BuilderLemmas
import Verif.Res
/-!
# Programs that use a builder

The examples in `/repo/examples` are parsers: programs that make calls on a `GreenNodeBuilder` while they do other
things.  `BProg` is such a program: a tree of calls.  `BProg.Exec` runs it on builder `b` of a world with
arbitrary hash functions, caches and addresses, while the rest of the program does anything in between that does not
touch this builder.
-/
namespace Rowan

/-- A program that uses a builder and returns an `α`.
(A client of src/green/builder.rs:49-130, such as examples/math.rs:63-112.) -/
inductive BProg (α : Type) where
  | ret (a : α)
  /-- one of the calls of src/green/builder.rs:49-130 -/
  | call (op : BOp) (next : BProg α)
  /-- `checkpoint()` — src/green/builder.rs:96-98 -/
  | checkpoint (next : Nat → BProg α)
  | panic
  /-- the step bound of a loop is used up -/
  | diverge

namespace BProg

/-- Sequencing in a client of src/green/builder.rs; not itself in the code. -/
protected def bind {α β : Type} : BProg α → (α → BProg β) → BProg β
  | ret a, f => f a
  | call op p, f => call op (p.bind f)
  | checkpoint p, f => checkpoint fun n => (p n).bind f
  | panic, _ => panic
  | diverge, _ => diverge

instance : Monad BProg where
  pure := ret
  bind := BProg.bind

/-- A single call. (src/green/builder.rs:49-130.) -/
def op (o : BOp) : BProg Unit := call o (ret ())

/-- `checkpoint()`. (src/green/builder.rs:96-98.) -/
def getCheckpoint : BProg Nat := checkpoint ret

end BProg

/-- A step of the rest of the program: it does not use builder `b`, and leaves its cache alive.
(Other clients of src/green/builder.rs; not in the code.) -/
def WOp.Foreign (cacheOf : Nat → Nat) (b : Nat) : WOp → Prop
  | .call b' _ _ => b' ≠ b
  | .dropBuilder b' => b' ≠ b
  | .dropCache c => c ≠ cacheOf b
  | .other _ => True

/-- Did the call of src/green/builder.rs:49-130 panic? -/
def BOut.isPanic : BOut → Bool
  | .panic _ => true
  | _ => false

/-- `Exec env cacheOf b w p l w' r`: builder program `p` on builder `b` leads from world `w` to `w'` with steps `l` and
ends with `r`. (A client of src/green/builder.rs:49-130.) -/
inductive BProg.Exec {α : Type} (env : HashEnv) (cacheOf : Nat → Nat) (b : Nat) :
    World → BProg α → List (WOp × BOut) → World → Res α → Prop
  | ret (w a) : Exec env cacheOf b w (.ret a) [] w (.ok a)
  | panic (w) : Exec env cacheOf b w .panic [] w .panic
  | diverge (w) : Exec env cacheOf b w .diverge [] w .diverge
  | call {w w' l r} (op p addr) : (WOp.call b op addr).Legal w →
      (w.step env cacheOf (.call b op addr)).2.isPanic = false →
      Exec env cacheOf b (w.step env cacheOf (.call b op addr)).1 p l w' r →
      Exec env cacheOf b w (.call op p) ((.call b op addr, (w.step env cacheOf (.call b op addr)).2) :: l) w' r
  | callPanics {w} (op p addr) : (WOp.call b op addr).Legal w →
      (w.step env cacheOf (.call b op addr)).2.isPanic = true →
      Exec env cacheOf b w (.call op p) [(.call b op addr, (w.step env cacheOf (.call b op addr)).2)]
        (w.step env cacheOf (.call b op addr)).1 .panic
  | checkpoint {w w' l r} (p) : Exec env cacheOf b w (p (w.builders b).checkpoint) l w' r →
      Exec env cacheOf b w (.checkpoint p) l w' r
  | other {w w' l r p} (op) : op.Legal w → op.Foreign cacheOf b →
      Exec env cacheOf b (w.step env cacheOf op).1 p l w' r →
      Exec env cacheOf b w p ((op, (w.step env cacheOf op).2) :: l) w' r

/-- The green nodes that `finish` of builder `b` returned. (The results of src/green/builder.rs:124-130.) -/
def rootsOf (b : Nat) (l : List (WOp × BOut)) : List GNode :=
  (callsOf b l).filterMap fun x => match x.2 with
    | .root n => some n
    | _ => none

/-! ### The same with the builder of `Spec/Builder.lean` -/

/-- Run a program on the cache-free builder: the builder at the end, the trees `finish` returned, and the result.
(Specification vocabulary; compare src/green/builder.rs:49-130.) -/
def BProg.eval {α : Type} : BProg α → SpecBuilder → SpecBuilder × List Tree × Res α
  | .ret a, s => (s, [], .ok a)
  | .call op p, s =>
    match s.step op with
    | (s', .unit) => p.eval s'
    | (s', .root t) => ((p.eval s').1, t :: (p.eval s').2.1, (p.eval s').2.2)
    | (s', .panic) => (s', [], .panic)
  | .checkpoint p, s => (p s.trees.length).eval s
  | .panic, s => (s, [], .panic)
  | .diverge, s => (s, [], .diverge)

section
variable {env : HashEnv} {cacheOf : Nat → Nat} {b : Nat} {w w' : World} {l : List (WOp × BOut)} {α : Type}
  {p : BProg α} {r : Res α}

theorem World.step_foreign {op : WOp} (hf : op.Foreign cacheOf b) :
    ((w.step env cacheOf op).1.builders b).abs = (w.builders b).abs := by
  cases op with
  | call b' op addr => simp only [World.step]; rw [if_neg (fun h => hf h.symm)]
  | dropBuilder b' => simp only [World.step]; rw [if_neg (fun h => hf h.symm)]
  | dropCache c => simp only [World.step]; rw [if_neg (fun h => hf h.symm)]
  | other held => rfl

theorem callsOf_foreign {op : WOp} {o : BOut} (hf : op.Foreign cacheOf b) : callsOf b ((op, o) :: l) = callsOf b l := by
  cases op with
  | call b' op addr => simp [callsOf, show b' ≠ b from hf]
  | _ => simp [callsOf]

/-- An execution is a run of the whole program. -/
theorem BProg.Exec.run (h : p.Exec env cacheOf b w l w' r) : Run env cacheOf w l w' := by
  have hc : ∀ (op : WOp) {w w' : World} {l}, op.Legal w → Run env cacheOf (w.step env cacheOf op).1 l w' →
      Run env cacheOf w ((op, (w.step env cacheOf op).2) :: l) w' := fun op _ _ _ hl hr =>
    Run.append (Run.snoc (l := []) op (.nil _) hl) hr
  induction h with
  | ret | panic | diverge => exact .nil _
  | call op p addr hl _ _ ih => exact hc _ hl ih
  | callPanics op p addr hl _ => exact hc _ hl (.nil _)
  | checkpoint p _ ih => exact ih
  | other op hl _ _ ih => exact hc _ hl ih

/-- The caches do not matter. -/
theorem BProg.Exec.eval (h : p.Exec env cacheOf b w l w' r) (hw : WorldInv env cacheOf w) :
    p.eval (w.builders b).abs = ((w'.builders b).abs, (rootsOf b l).map GNode.tree, r) := by
  induction h with
  | ret | panic | diverge => rfl
  | @call w w' l r op p addr hl hp _ ih =>
    have hs := hw.call_spec b op addr
    have ih := ih (hw.step _ hl)
    have hb : ((w.step env cacheOf (.call b op addr)).1.builders b).abs = ((w.builders b).abs.step op).1 := by
      simp only [World.step, if_true]; exact hs.abs
    have ho : (w.step env cacheOf (.call b op addr)).2.spec = ((w.builders b).abs.step op).2 := hs.out
    rw [hb] at ih
    have hc : ∀ o, rootsOf b ((.call b op addr, o) :: l) = (match o with | .root n => [n] | _ => []) ++ rootsOf b l := by
      intro o; cases o <;> simp [rootsOf, callsOf]
    rw [hc, BProg.eval]
    generalize ((w.builders b).abs.step op) = x at ho ih ⊢
    generalize (w.step env cacheOf (.call b op addr)).2 = o at ho hp ⊢
    obtain ⟨x1, x2⟩ := x
    cases o with
    | unit => cases ho; simpa using ih
    | root n => cases ho; simp at ih; simp [ih, BOut.spec]
    | panic => simp [BOut.isPanic] at hp
  | @callPanics w op p addr hl hp =>
    have hs := hw.call_spec b op addr
    have hb : ((w.step env cacheOf (.call b op addr)).1.builders b).abs = ((w.builders b).abs.step op).1 := by
      simp only [World.step, if_true]; exact hs.abs
    have ho : (w.step env cacheOf (.call b op addr)).2.spec = ((w.builders b).abs.step op).2 := hs.out
    rw [hb, BProg.eval]
    generalize ((w.builders b).abs.step op) = x at ho ⊢
    generalize (w.step env cacheOf (.call b op addr)).2 = o at ho hp ⊢
    obtain ⟨x1, x2⟩ := x
    cases o with
    | panic => cases ho; simp [rootsOf, callsOf]
    | _ => simp [BOut.isPanic] at hp
  | @checkpoint w w' l r p _ ih =>
    have := ih hw
    simpa [BProg.eval, Builder.abs, Builder.checkpoint] using this
  | @other w w' l r p op hl hf _ ih =>
    have := ih (hw.step _ hl)
    rw [World.step_foreign hf] at this
    rw [this]
    simp [rootsOf, callsOf_foreign hf]

/-- Every program can be executed from every reachable world. -/
theorem BProg.exec_exists (p : BProg α) : ∀ w, WorldInv env cacheOf w → w.Bounded →
    ∃ l w' r, p.Exec env cacheOf b w l w' r := by
  induction p with
  | ret a => intro w _ _; exact ⟨_, _, _, .ret w a⟩
  | panic => intro w _ _; exact ⟨_, _, _, .panic w⟩
  | diverge => intro w _ _; exact ⟨_, _, _, .diverge w⟩
  | call op p ih =>
    intro w hw hb
    obtain ⟨N, hN⟩ := hb
    have hl : (WOp.call b op N).Legal w := fun x hx => Nat.ne_of_lt (hN x hx)
    cases hp : (w.step env cacheOf (.call b op N)).2.isPanic with
    | false =>
      obtain ⟨l, w', r, h⟩ := ih _ (hw.step _ hl) (World.Bounded.step hw ⟨N, hN⟩ _)
      exact ⟨_, _, _, .call op p N hl hp h⟩
    | true => exact ⟨_, _, _, .callPanics op p N hl hp⟩
  | checkpoint p ih =>
    intro w hw hb
    obtain ⟨l, w', r, h⟩ := ih (w.builders b).checkpoint w hw hb
    exact ⟨l, w', r, .checkpoint p h⟩

end

/-! ### Monad laws, and programs that add trees -/
namespace BProg
variable {α β γ : Type}

@[simp] theorem ret_bind (a : α) (f : α → BProg β) : (BProg.ret a >>= f) = f a := rfl
@[simp] theorem pure_bind' (a : α) (f : α → BProg β) : ((pure a : BProg α) >>= f) = f a := rfl
@[simp] theorem call_bind (o : BOp) (p : BProg α) (f : α → BProg β) : (BProg.call o p >>= f) = .call o (p >>= f) := rfl
@[simp] theorem op_bind (o : BOp) (f : Unit → BProg β) : (BProg.op o >>= f) = .call o (f ()) := rfl
@[simp] theorem panic_bind (f : α → BProg β) : ((BProg.panic : BProg α) >>= f) = .panic := rfl

theorem bind_assoc' (p : BProg α) (f : α → BProg β) (g : β → BProg γ) :
    (p >>= f >>= g) = (p >>= fun a => f a >>= g) := by
  induction p with
  | ret a => rfl
  | call o p ih => exact congrArg (BProg.call o) ih
  | checkpoint p ih => exact congrArg BProg.checkpoint (funext ih)
  | panic => rfl
  | diverge => rfl

/-- The program adds trees to the current node and returns `a`; it does nothing else to the builder.
(Specification vocabulary; compare src/green/builder.rs:49-130.) -/
def Adds (p : BProg α) (ts : List Tree) (a : α) : Prop :=
  ∀ s : SpecBuilder, p.eval s = ({ s with trees := s.trees ++ ts }, [], .ok a)

theorem eval_bind {p : BProg α} {f : α → BProg β} {s s' : SpecBuilder} {rs : List Tree} {a : α}
    (h : p.eval s = (s', rs, .ok a)) :
    (p >>= f).eval s = (((f a).eval s').1, rs ++ ((f a).eval s').2.1, ((f a).eval s').2.2) := by
  induction p generalizing s s' rs a with
  | ret b => cases h; rfl
  | panic => cases h
  | diverge => cases h
  | checkpoint p ih => exact ih _ h
  | call o p ih =>
    rw [call_bind]
    simp only [BProg.eval] at h ⊢
    generalize s.step o = x at h ⊢
    obtain ⟨x1, x2⟩ := x
    cases x2 with
    | unit => exact ih h
    | root t =>
      simp only [Prod.mk.injEq] at h
      obtain ⟨h1, h2, h3⟩ := h
      have := ih (s := x1) (s' := s') (rs := (p.eval x1).2.1) (a := a) (by rw [← h1, ← h3])
      simp only [this, ← h2, List.cons_append]
    | panic => simp at h

theorem Adds.ret (a : α) : (BProg.ret a).Adds [] a := fun s => by simp [BProg.eval]

theorem Adds.bind {p : BProg α} {f : α → BProg β} {ts us : List Tree} {a : α} {c : β} (h : p.Adds ts a)
    (h' : (f a).Adds us c) : (p >>= f).Adds (ts ++ us) c := by
  intro s
  rw [eval_bind (h s), h' _]
  simp

theorem Adds.bind' {p : BProg α} {f : α → BProg β} {ts us vs : List Tree} {a : α} {c : β} (h : p.Adds ts a)
    (h' : (f a).Adds us c) (e : vs = ts ++ us) : (p >>= f).Adds vs c := e ▸ h.bind h'

theorem Adds.token {p : BProg α} {ts : List Tree} {a : α} (k : SyntaxKind) (x : List Char) (h : p.Adds ts a) :
    (BProg.call (.token k x) p).Adds (.token k x :: ts) a := by
  intro s
  rw [BProg.eval]
  simp only [SpecBuilder.step]
  rw [h _]
  simp

theorem Adds.node {p : BProg α} {f : α → BProg β} {ts us : List Tree} {a : α} {c : β} (k : SyntaxKind)
    (h : p.Adds ts a) (h' : (f a).Adds us c) :
    (BProg.call (.startNode k) (p >>= fun a => .call .finishNode (f a))).Adds (.node k ts :: us) c := by
  intro s
  rw [BProg.eval]
  simp only [SpecBuilder.step]
  rw [eval_bind (h _), BProg.eval]
  simp only [SpecBuilder.step]
  rw [h' _]
  simp

theorem Adds.det {p : BProg α} {ts us : List Tree} {a c : α} (h : p.Adds ts a) (h' : p.Adds us c) : ts = us ∧ a = c := by
  have := (h {}).symm.trans (h' {})
  simp only [Prod.mk.injEq, SpecBuilder.mk.injEq, List.nil_append] at this
  obtain ⟨⟨_, h1⟩, _, h2⟩ := this
  exact ⟨h1, by cases h2; rfl⟩

end BProg
end Rowan
