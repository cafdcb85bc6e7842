import Verif.Spec.Math
import Verif.SExprLemmas
/-!
# Lemmas about the parser of arithmetic expressions

Unless their comments cite lines of `/repo`, the definitions in this file are vocabulary of the proofs and model no code.
-/
namespace Rowan

/-- The innermost open node begins before the end. -/
def SpecBuilder.Open (s : SpecBuilder) : Prop := ∀ p ∈ s.parents.head?, p.2 ≤ s.trees.length

theorem SpecBuilder.Open.append {s : SpecBuilder} (h : s.Open) (ts : List Tree) :
    SpecBuilder.Open { s with trees := s.trees ++ ts } := fun p hp => by
  have := h p hp
  simp only [List.length_append]; omega

namespace BProg
variable {α β : Type}

/-- `Adds` for programs that use checkpoints. -/
def AddsC (p : BProg α) (ts : List Tree) (a : α) : Prop :=
  ∀ s : SpecBuilder, s.Open → p.eval s = ({ s with trees := s.trees ++ ts }, [], .ok a)

theorem Adds.toC {p : BProg α} {ts : List Tree} {a : α} (h : p.Adds ts a) : p.AddsC ts a := fun s _ => h s

theorem AddsC.bind' {p : BProg α} {f : α → BProg β} {ts us vs : List Tree} {a : α} {c : β} (h : p.AddsC ts a)
    (h' : (f a).AddsC us c) (e : vs = ts ++ us) : (p >>= f).AddsC vs c := by
  intro s hs
  rw [eval_bind (h s hs), h' _ (hs.append _)]
  simp [e]

theorem AddsC.det {p : BProg α} {ts us : List Tree} {a c : α} (h : p.AddsC ts a) (h' : p.AddsC us c) : ts = us ∧ a = c := by
  have := (h {} (by simp [SpecBuilder.Open])).symm.trans (h' {} (by simp [SpecBuilder.Open]))
  simp only [Prod.mk.injEq, SpecBuilder.mk.injEq, List.nil_append] at this
  obtain ⟨⟨_, h1⟩, _, h2⟩ := this
  exact ⟨h1, by cases h2; rfl⟩

/-- A node around what was added since the checkpoint. -/
theorem eval_startNodeAt {p : BProg α} {f : α → BProg β} {vs us : List Tree} {a : α} (k : SyntaxKind)
    (h : p.AddsC vs a) {s : SpecBuilder} (hs : s.Open) :
    (BProg.call (.startNodeAt s.trees.length k) (p >>= fun a => .call .finishNode (f a))).eval
        { s with trees := s.trees ++ us } =
      (f a).eval { s with trees := s.trees ++ [.node k (us ++ vs)] } := by
  rw [BProg.eval]
  simp only [SpecBuilder.step]
  rw [if_pos ⟨by simp, hs⟩]
  simp only
  rw [eval_bind (h _ (by simp [SpecBuilder.Open])), BProg.eval]
  simp [SpecBuilder.step, List.append_assoc]

end BProg

namespace Math
open BProg

/-- Tokens as they are in the tree. -/
def raws (ts : List Tok) : List (SyntaxKind × List Char) := ts.map fun t => (t.1.raw, t.2)
/-- Tokens as trees. -/
def toks (ts : List Tok) : List Tree := ts.map fun t => .token t.1.raw t.2

@[simp] theorem raws_cons (t : Tok) (ts) : raws (t :: ts) = (t.1.raw, t.2) :: raws ts := rfl
@[simp] theorem raws_nil : raws [] = [] := rfl
@[simp] theorem raws_append (a b) : raws (a ++ b) = raws a ++ raws b := by simp [raws]
@[simp] theorem leavess_toks (ts) : Tree.leavess (toks ts) = raws ts := by
  induction ts with
  | nil => rfl
  | cons t ts ih =>
    have : toks (t :: ts) = .token t.1.raw t.2 :: toks ts := rfl
    simp [this, ih]

theorem Kind.raw_inj {a b : Kind} (h : a.raw = b.raw) : a = b := by
  cases a <;> cases b <;> first | rfl | exact absurd h (by decide)

theorem raws_inj : ∀ {a b : List Tok}, raws a = raws b → a = b
  | [], [], _ => rfl
  | [], _ :: _, h => by simp at h
  | _ :: _, [], h => by simp at h
  | (k, s) :: a, (k', s') :: b, h => by
    simp only [raws_cons, List.cons.injEq, Prod.mk.injEq] at h
    rw [raws_inj h.2, Kind.raw_inj h.1.1, h.1.2]

/-- Only white space. -/
def Blank (ts : List Tok) : Prop := ∀ t ∈ ts, t.1 = .whitespace

theorem Blank.space {ts : List Tok} (h : Blank ts) : Space (toks ts) := by
  intro t ht
  obtain ⟨x, hx, rfl⟩ := List.mem_map.mp ht
  exact ⟨x.2, by rw [h x hx]⟩

theorem Space.blank : ∀ {ts : List Tree}, Space ts → ∃ xs, Blank xs ∧ toks xs = ts
  | [], _ => ⟨[], by simp [Blank], rfl⟩
  | t :: ts, h => by
    obtain ⟨s, rfl⟩ := h t (by simp)
    obtain ⟨xs, h1, h2⟩ := Space.blank (ts := ts) fun t ht => h t (by simp [ht])
    refine ⟨(.whitespace, s) :: xs, ?_, by rw [← h2]; rfl⟩
    intro x hx
    rcases List.mem_cons.mp hx with rfl | hx
    · rfl
    · exact h1 x hx

/-- The kind of the next token. -/
def headKind (ts : List Tok) : Option Kind := ts.head?.map (·.1)

theorem peek_adds : ∀ {ws rest : List Tok}, Blank ws → headKind rest ≠ some .whitespace →
    (peek (ws ++ rest)).Adds (toks ws) (headKind rest, rest)
  | [], rest, _, hr => by
    cases rest with
    | nil => exact Adds.ret _
    | cons t rest =>
      obtain ⟨k, s⟩ := t
      cases k <;> first | exact absurd rfl hr | exact Adds.ret _
  | (k, s) :: ws, rest, hw, hr => by
    obtain rfl : k = .whitespace := hw (k, s) (by simp)
    exact (peek_adds (fun t ht => hw t (by simp [ht])) hr).token _ _

theorem blank_split : ∀ ts : List Tok, ∃ ws rest, ts = ws ++ rest ∧ Blank ws ∧ headKind rest ≠ some .whitespace
  | [] => ⟨[], [], rfl, by simp [Blank], by simp [headKind]⟩
  | (k, s) :: ts => by
    by_cases hk : k = .whitespace
    · obtain ⟨ws, rest, rfl, h2, h3⟩ := blank_split ts
      refine ⟨(k, s) :: ws, rest, rfl, ?_, h3⟩
      intro x hx
      rcases List.mem_cons.mp hx with rfl | hx
      · exact hk
      · exact h2 x hx
    · exact ⟨[], _, rfl, by simp [Blank], by simp [headKind, hk]⟩

/-! ### Operands -/

/-- A parser `nx` for the operands `N`, where an operand `N us missing` can be followed by `rest` if `bnd missing rest`;
for less than `L` tokens. -/
structure Parses (nx : P Unit) (N : List Tree → Bool → Prop) (bnd : Bool → List Tok → Prop) (L : Nat) : Prop where
  sound : ∀ ts, ts.length < L → ∃ us m xs rest, ts = xs ++ rest ∧ raws xs = Tree.leavess us ∧ N us m ∧ bnd m rest ∧ (nx ts).AddsC us ((), rest)
  complete : ∀ us m, N us m → ∃ xs, raws xs = Tree.leavess us ∧ ∀ rest, (xs ++ rest).length < L → bnd m rest →
    (nx (xs ++ rest)).AddsC us ((), rest)

theorem val_error {ws : List Tok} (k : Kind) (s : List Char) (rest : List Tok) (hw : Blank ws) (h1 : k ≠ .number)
    (h2 : k ≠ .whitespace) :
    (parseVal (ws ++ (k, s) :: rest)).AddsC (toks ws ++ [.node Kind.error.raw [.token k.raw s]]) ((), rest) := by
  refine Adds.toC ((peek_adds hw (by simp [headKind, h2])).bind' ?_ rfl)
  have := Adds.node (p := .call (.token k.raw s) (.ret ((), rest))) (f := fun x => .ret ((), x.2)) Kind.error.raw
    (.token _ _ (Adds.ret _)) (Adds.ret _)
  cases k <;> first | exact absurd rfl h1 | exact absurd rfl h2 | exact this

theorem val_number {ws : List Tok} (s : List Char) (rest : List Tok) (hw : Blank ws) :
    (parseVal (ws ++ (.number, s) :: rest)).AddsC (toks ws ++ [.token Kind.number.raw s]) ((), rest) :=
  Adds.toC ((peek_adds hw (by simp [headKind])).bind' (.token _ _ (Adds.ret _)) rfl)

theorem val_missing {ws : List Tok} (hw : Blank ws) :
    (parseVal (ws ++ [])).AddsC (toks ws ++ [.node Kind.error.raw []]) ((), []) := by
  refine Adds.toC ((peek_adds hw (by simp [headKind])).bind' ?_ rfl)
  exact Adds.node (p := .ret ((), [])) (f := fun x => .ret ((), x.2)) Kind.error.raw (Adds.ret _) (Adds.ret _)

theorem parseVal_parses (L : Nat) : Parses parseVal Val (fun m rest => m = true → rest = []) L where
  sound ts _ := by
    obtain ⟨ws, rest, rfl, h2, h3⟩ := blank_split ts
    cases rest with
    | nil => exact ⟨_, true, ws, [], rfl, by simp, .missing _ h2.space, fun _ => rfl, val_missing h2⟩
    | cons t rest =>
      obtain ⟨k, s⟩ := t
      by_cases hk : k = .number
      · subst hk
        exact ⟨_, false, ws ++ [(.number, s)], rest, by simp, by simp, .number _ s h2.space, by simp, val_number s rest h2⟩
      · have hk' : k ≠ .whitespace := fun h => h3 (by simp [headKind, h])
        exact ⟨_, false, ws ++ [(k, s)], rest, by simp, by simp, .error _ k s h2.space hk hk', by simp,
          val_error k s rest h2 hk hk'⟩
  complete us m h := by
    cases h with
    | number ws s hw =>
      obtain ⟨xs, h1, rfl⟩ := hw.blank
      exact ⟨xs ++ [(.number, s)], by simp, fun rest _ _ => by simpa using val_number s rest h1⟩
    | error ws k s hw hk hk' =>
      obtain ⟨xs, h1, rfl⟩ := hw.blank
      exact ⟨xs ++ [(k, s)], by simp, fun rest _ _ => by simpa using val_error k s rest h1 hk hk'⟩
    | missing ws hw =>
      obtain ⟨xs, h1, rfl⟩ := hw.blank
      exact ⟨xs, by simp, fun rest _ hr => by obtain rfl := hr rfl; exact val_missing h1⟩

/-! ### Operators -/

/-- What has to be known about the gaps and boundaries of operands to join them by operators. -/
structure Joins (ops : List Kind) (gap : List Tree → Prop) (bnd : Bool → List Tok → Prop) : Prop where
  space : ∀ ws, gap ws → Space ws
  gapOf : ∀ m ws rest, bnd m (ws ++ rest) → Blank ws → gap (toks ws)
  next : ∀ ws k s rest, Blank ws → gap (toks ws) → k ∈ ops → bnd false (ws ++ (k, s) :: rest)
  last : ∀ ts, bnd true ts → ts = []
  noSpace : Kind.whitespace ∉ ops

section
variable {ops : List Kind} {gap : List Tree → Prop} {operand : List Tree → Bool → Prop} {bnd : Bool → List Tok → Prop}
  {nx : P Unit} {L : Nat}

/-- One round of the loop. -/
theorem handleLoop_op (hj : Joins ops gap bnd) {fuel : Nat} {ws : List Tok} {k : Kind} {c : List Char} {ts rest : List Tok}
    {us vs : List Tree} (hw : Blank ws) (hk : k ∈ ops) (hn : (nx ts).AddsC vs ((), rest)) {s : SpecBuilder} (hs : s.Open) :
    (handleLoop ops nx s.trees.length (fuel + 1) (ws ++ (k, c) :: ts)).eval { s with trees := s.trees ++ us } =
      (handleLoop ops nx s.trees.length fuel rest).eval
        { s with trees := s.trees ++ [.node Kind.operation.raw (us ++ toks ws ++ .token k.raw c :: vs)] } := by
  have hne : k ≠ .whitespace := fun h => hj.noSpace (h ▸ hk)
  rw [handleLoop, eval_bind (peek_adds hw (by simp [headKind, hne]) _)]
  simp only [headKind, List.head?_cons, Option.map_some, Option.getD_some, List.contains_iff_mem.mpr hk, if_true,
    List.nil_append]
  have := eval_startNodeAt (p := .call (.token k.raw c) (nx ts)) (f := fun x => handleLoop ops nx s.trees.length fuel x.2)
    (us := us ++ toks ws) (vs := .token k.raw c :: vs) (a := ((), rest)) Kind.operation.raw (by
      intro s hs
      rw [BProg.eval]
      simp only [SpecBuilder.step]
      rw [hn _ (hs.append [_])]
      simp) hs
  simp only [bump, call_bind, ret_bind]
  simpa [List.append_assoc] using this

theorem handleLoop_end {cp fuel : Nat} {ws rest : List Tok} (hw : Blank ws) (h1 : headKind rest ≠ some .whitespace)
    (h2 : ∀ k ∈ headKind rest, k ∉ ops) (s : SpecBuilder) :
    (handleLoop ops nx cp (fuel + 1) (ws ++ rest)).eval s = ({ s with trees := s.trees ++ toks ws }, [], .ok ((), rest)) := by
  rw [handleLoop, eval_bind (peek_adds hw h1 _)]
  cases hk : headKind rest with
  | none => simp [BProg.eval]
  | some k =>
    have : ops.contains k = false := by
      simpa [List.contains_iff_mem] using h2 k (by simp [hk])
    simp only [Option.map_some, Option.getD_some, this]
    simp [BProg.eval]

/-- The loop follows a derivation. -/
theorem handle_follows (hj : Joins ops gap bnd) (hp : Parses nx operand bnd L) {us : List Tree} {m : Bool}
    (h : Chain ops gap operand us m) : ∃ xs n, n ≤ xs.length ∧ raws xs = Tree.leavess us ∧
      ∀ fuel rest (s : SpecBuilder), s.Open → (xs ++ rest).length < L → bnd m rest →
        (nx (xs ++ rest) >>= fun x => handleLoop ops nx s.trees.length (n + fuel) x.2).eval s =
          (handleLoop ops nx s.trees.length fuel rest).eval { s with trees := s.trees ++ us } := by
  induction h with
  | one h =>
    obtain ⟨xs, h1, h2⟩ := hp.complete _ _ h
    refine ⟨xs, 0, by omega, h1, fun fuel rest s hs hl hb => ?_⟩
    rw [eval_bind (h2 rest hl hb s hs)]
    simp
  | @op us ws k vs m s' hc hg hk hv ih =>
    obtain ⟨xs, n, h0, h1, h2⟩ := ih
    obtain ⟨ys, h3, h4⟩ := hp.complete _ _ hv
    obtain ⟨zs, h5, rfl⟩ := (hj.space _ hg).blank
    refine ⟨xs ++ zs ++ (k, s') :: ys, n + 1, by simp; omega, by simp [h1, h3], fun fuel rest s hs hl hb => ?_⟩
    simp only [List.length_append, List.length_cons] at hl
    have := h2 (fuel + 1) (zs ++ (k, s') :: (ys ++ rest)) s hs (by simp; omega) (hj.next _ _ _ _ h5 hg hk)
    rw [handleLoop_op hj h5 hk (h4 rest (by simp; omega) hb) hs] at this
    rw [← this]
    simp [Nat.add_assoc, Nat.add_comm 1]

theorem handle_complete (hj : Joins ops gap bnd) (hp : Parses nx operand bnd L) {us : List Tree} {m : Bool}
    (h : Chain ops gap operand us m) : ∃ xs, raws xs = Tree.leavess us ∧ ∀ fuel ws rest, (xs ++ (ws ++ rest)).length < fuel →
      fuel ≤ L → Blank ws → bnd m (ws ++ rest) → headKind rest ≠ some .whitespace → (∀ k ∈ headKind rest, k ∉ ops) →
      (handleOperation fuel ops nx (xs ++ (ws ++ rest))).AddsC (us ++ toks ws) ((), rest) := by
  obtain ⟨xs, n, h0, h1, h2⟩ := handle_follows hj hp h
  refine ⟨xs, h1, fun fuel ws rest hf hL hw hb h3 h4 s hs => ?_⟩
  have hx : xs.length < fuel := by simp at hf; omega
  obtain ⟨d, rfl⟩ : ∃ d, fuel = n + (d + 1) := ⟨fuel - n - 1, by omega⟩
  rw [handleOperation, BProg.eval]
  refine (h2 (d + 1) (ws ++ rest) s hs (by omega) hb).trans ?_
  rw [handleLoop_end hw h3 h4]
  simp

theorem handleLoop_sound (hj : Joins ops gap bnd) (hp : Parses nx operand bnd L) : ∀ (fuel : Nat) (ts : List Tok)
    (us : List Tree) (m : Bool), ts.length < fuel → ts.length < L → Chain ops gap operand us m → bnd m ts →
    ∃ us' m' xs ws rest, ts = xs ++ (ws ++ rest) ∧ Tree.leavess us' = Tree.leavess us ++ raws xs ∧ Chain ops gap operand us' m' ∧
      Blank ws ∧ bnd m' (ws ++ rest) ∧ headKind rest ≠ some .whitespace ∧ (∀ k ∈ headKind rest, k ∉ ops) ∧
      ∀ s : SpecBuilder, s.Open → (handleLoop ops nx s.trees.length fuel ts).eval { s with trees := s.trees ++ us } =
        ({ s with trees := s.trees ++ (us' ++ toks ws) }, [], .ok ((), rest))
  | 0, _, _, _, h, _, _, _ => by omega
  | fuel + 1, ts, us, m, hf, hL, hc, hb => by
    obtain ⟨ws, rest, rfl, h2, h3⟩ := blank_split ts
    by_cases hk : ∀ k ∈ headKind rest, k ∉ ops
    · refine ⟨us, m, [], ws, rest, rfl, by simp, hc, h2, hb, h3, hk, fun s _ => ?_⟩
      rw [handleLoop_end h2 h3 hk]
      simp
    · cases rest with
      | nil => simp [headKind] at hk
      | cons t tl =>
        obtain ⟨k, c⟩ := t
        replace hk : k ∈ ops := by simpa [headKind] using hk
        obtain ⟨vs, m', xs, rest, rfl, h5, h6, h7, h8⟩ := hp.sound tl (by simp at hL; omega)
        have hm : m = false := by
          cases m with
          | false => rfl
          | true => exact absurd (hj.last _ hb) (by simp)
        subst hm
        obtain ⟨us', m'', ys, ws', rest', rfl, i1, i2, i3, i4, i5, i6, i7⟩ := handleLoop_sound hj hp fuel rest
          [.node Kind.operation.raw (us ++ toks ws ++ .token k.raw c :: vs)] m' (by simp at hf ⊢; omega) (by simp at hL ⊢; omega)
          (.op c hc (hj.gapOf _ _ _ hb h2) hk h6) h7
        refine ⟨us', m'', ws ++ (k, c) :: (xs ++ ys), ws', rest', by simp, by simp [i1, h5], i2, i3, i4, i5, i6, fun s hs => ?_⟩
        rw [handleLoop_op hj h2 hk h8 hs, i7 s hs]

theorem handle_sound (hj : Joins ops gap bnd) (hp : Parses nx operand bnd L) {fuel : Nat} {ts : List Tok} (hf : ts.length < fuel)
    (hL : ts.length < L) :
    ∃ us m xs ws rest, ts = xs ++ (ws ++ rest) ∧ raws xs = Tree.leavess us ∧ Chain ops gap operand us m ∧ Blank ws ∧
      bnd m (ws ++ rest) ∧ headKind rest ≠ some .whitespace ∧ (∀ k ∈ headKind rest, k ∉ ops) ∧
      (handleOperation fuel ops nx ts).AddsC (us ++ toks ws) ((), rest) := by
  obtain ⟨us, m, xs, rest, rfl, h1, h2, h3, h4⟩ := hp.sound ts hL
  obtain ⟨us', m', ys, ws, rest', rfl, i1, i2, i3, i4, i5, i6, i7⟩ :=
    handleLoop_sound hj hp fuel rest us m (by simp at hf; omega) (by simp at hL; omega) (.one h2) h3
  refine ⟨us', m', xs ++ ys, ws, rest', by simp, by simp [i1, h1], i2, i3, i4, i5, i6, fun s hs => ?_⟩
  rw [handleOperation, BProg.eval]
  refine (eval_bind (f := fun x => handleLoop ops nx s.trees.length fuel x.2) (h4 s hs)).trans ?_
  simp only [i7 s hs, List.nil_append]

end

/-! ### Products and sums -/

theorem joins_val : Joins [.mul, .div] Space (fun m rest => m = true → rest = []) where
  space _ h := h
  gapOf _ _ _ _ h := h.space
  next _ _ _ _ _ _ _ := by simp
  last _ h := h rfl
  noSpace := by decide

/-- What can follow a term. -/
def TermEnd (m : Bool) (rest : List Tok) : Prop :=
  (m = true → rest = []) ∧ headKind rest ≠ some .whitespace ∧ ∀ k ∈ headKind rest, k ∉ [Kind.mul, Kind.div]

theorem parseMul_parses (L : Nat) : Parses (parseMul L) Term TermEnd L where
  sound ts hl := by
    obtain ⟨us, m, xs, ws, rest, rfl, h1, h2, h3, h4, h5, h6, h7⟩ := handle_sound joins_val (parseVal_parses L) hl hl
    exact ⟨_, m, xs ++ ws, rest, by simp, by simp [h1], ⟨us, toks ws, rfl, h2, h3.space, fun hm => by
      have := h4 hm
      simp only [List.append_eq_nil_iff] at this
      simp [this.1, toks]⟩, ⟨fun hm => by have := h4 hm; simp only [List.append_eq_nil_iff] at this; exact this.2, h5, h6⟩, h7⟩
  complete us m h := by
    obtain ⟨vs, ws, rfl, h1, h2, h3⟩ := h
    obtain ⟨xs, h4, h5⟩ := handle_complete joins_val (parseVal_parses L) h1
    obtain ⟨zs, h6, rfl⟩ := h2.blank
    refine ⟨xs ++ zs, by simp [h4], fun rest hl hb => ?_⟩
    have := h5 L zs rest (by simpa using hl) (Nat.le_refl _) h6 (fun hm => by
      have := h3 hm
      simp only [toks, List.map_eq_nil_iff] at this
      simp [this, hb.1 hm]) hb.2.1 hb.2.2
    simpa [parseMul] using this

theorem joins_term : Joins [.add, .sub] (· = []) TermEnd where
  space _ h := by rw [h]; simp [Space]
  gapOf m ws rest h hw := by
    cases ws with
    | nil => rfl
    | cons t ws =>
      exact absurd (by simp [headKind, hw t (by simp)]) h.2.1
  next ws k s rest hw hg hk := by
    have : ws = [] := by simpa [toks] using hg
    subst this
    refine ⟨by simp, ?_, ?_⟩ <;> simp [headKind] <;> simp at hk <;> rcases hk with rfl | rfl <;> simp
  last _ h := h.1 rfl
  noSpace := by decide

theorem parseAdd_sound {L : Nat} {ts : List Tok} (hl : ts.length < L) :
    ∃ us m xs rest, ts = xs ++ rest ∧ raws xs = Tree.leavess us ∧ Sum us m ∧ (m = true → rest = []) ∧ Ends rest ∧
      (parseAdd L ts).AddsC us ((), rest) := by
  obtain ⟨us, m, xs, ws, rest, rfl, h1, h2, h3, h4, h5, h6, h7⟩ := handle_sound joins_term (parseMul_parses L) hl hl
  have hw : ws = [] := by simpa [toks] using joins_term.gapOf m ws rest h4 h3
  subst hw
  refine ⟨us, m, xs, rest, by simp, h1, h2, h4.1, ?_, by simpa [toks, parseAdd] using h7⟩
  intro k hk
  have a := h4.2.2 k hk
  have b := h6 k hk
  simp at a b
  exact ⟨fun e => h5 (by rw [← e]; exact hk), b.1, b.2, a.1, a.2⟩

theorem parseAdd_complete {us : List Tree} {m : Bool} (h : Sum us m) : ∃ xs, raws xs = Tree.leavess us ∧
    ∀ L rest, (xs ++ rest).length < L → (m = true → rest = []) → Ends rest → (parseAdd L (xs ++ rest)).AddsC us ((), rest) := by
  obtain ⟨xs, h1, _⟩ := handle_complete joins_term (parseMul_parses 0) h
  refine ⟨xs, h1, fun L rest hl hm he => ?_⟩
  obtain ⟨xs', h1', h2⟩ := handle_complete joins_term (parseMul_parses L) h
  obtain rfl : xs' = xs := raws_inj (h1'.trans h1.symm)
  have hw : headKind rest ≠ some .whitespace := fun e => (he _ e).1 rfl
  have := h2 L [] rest (by simpa using hl) (Nat.le_refl _) (by simp [Blank])
    ⟨hm, hw, fun k hk => by have := he k hk; simp [this.2.2.2.1, this.2.2.2.2]⟩ hw
    (fun k hk => by have := he k hk; simp [this.2.1, this.2.2.1])
  simpa [toks, parseAdd] using this

theorem parse_eval {L : Nat} {ts rest : List Tok} {us : List Tree} (h : (parseAdd L ts).AddsC us ((), rest)) :
    (parse L ts).eval {} = ({}, [.node Kind.root.raw us], .ok rest) := by
  rw [parse, BProg.eval]
  simp only [SpecBuilder.step]
  rw [eval_bind (h _ (by simp [SpecBuilder.Open]))]
  simp [BProg.eval, SpecBuilder.step]

end Math
end Rowan
