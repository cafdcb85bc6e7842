import Verif.SExprEvalLemmas
/-!
# Values of S-expressions

Unless their comments cite lines of `/repo`, the definitions in this file are vocabulary of the proofs and model no code.
-/
namespace Rowan.SExpr

/-! ### The outcome is unique -/

theorem Numeral.det {s : List Char} {n m : Int} (h : Numeral s n) (h' : Numeral s m) : n = m := by
  have hplus : ¬ '+'.isDigit = true := by decide
  have hminus : ¬ '-'.isDigit = true := by decide
  cases h with
  | plain ds _ hd =>
    cases h' with
    | plain => rfl
    | plus => exact absurd (hd '+' (by simp)) hplus
    | minus => exact absurd (hd '-' (by simp)) hminus
  | plus ds =>
    cases h' with
    | plain _ _ hd => exact absurd (hd '+' (by simp)) hplus
    | plus => rfl
  | minus ds =>
    cases h' with
    | plain _ _ hd => exact absurd (hd '-' (by simp)) hminus
    | minus => rfl

theorem Rounds.det {ck : Bool} {o : Op} {n : Int} {r r' : Res Int} (h : Rounds ck o n r) (h' : Rounds ck o n r') : r = r' := by
  cases r with
  | ub => exact h.elim
  | diverge => exact h.elim
  | panic =>
    cases r' with
    | ub => exact h'.elim
    | diverge => exact h'.elim
    | panic => rfl
    | ok m =>
      obtain ⟨h1, h2⟩ := h
      obtain ⟨h3, rfl | ⟨rfl, h4, -⟩⟩ := h'
      · exact absurd h3 h1
      · rcases h2 with h2 | h2
        · cases h2
        · exact absurd h2 h4
  | ok m =>
    cases r' with
    | ub => exact h'.elim
    | diverge => exact h'.elim
    | panic =>
      obtain ⟨h1, h2⟩ := h'
      obtain ⟨h3, rfl | ⟨rfl, h4, -⟩⟩ := h
      · exact absurd h3 h1
      · rcases h2 with h2 | h2
        · cases h2
        · exact absurd h2 h4
    | ok m' =>
      obtain ⟨h1, h2⟩ := h
      obtain ⟨h3, h4⟩ := h'
      simp only [Fits] at h1 h3
      congr 1
      rcases h2 with rfl | ⟨-, -, q, rfl⟩ <;> rcases h4 with rfl | ⟨-, -, q', rfl⟩ <;> omega

/-- The outcome of an operation. -/
noncomputable def evOp (ck : Bool) (o : Op) (x y : Int) : Res (Option Int) :=
  match o.exact x y with
  | none => .ok none
  | some n =>
    open Classical in
    if h : ∃ r, Rounds ck o n r then h.choose >>= fun m => .ok (some m) else .panic

theorem evOp_eq {ck : Bool} {o : Op} {x y n : Int} {r : Res Int} (h : o.exact x y = some n) (hr : Rounds ck o n r) :
    evOp ck o x y = r >>= fun m => .ok (some m) := by
  have he : ∃ r, Rounds ck o n r := ⟨r, hr⟩
  simp only [evOp, h, he, dif_pos]
  rw [he.choose_spec.det hr]

def evAtom : List Tree → Res (Option Int)
  | .token _ s :: _ => .ok (parseI64 s)
  | _ => .panic

/-- The outcome as a function of the tree. -/
noncomputable def evalT (ck : Bool) : Nat → Tree → Res (Option Int)
  | 0, _ => .diverge
  | _ + 1, .token _ _ => .panic
  | f + 1, .node k ts =>
    if k = Kind.atom.raw then evAtom ts
    else
      match headOp (items ts), items ts with
      | some o, _ :: a :: rest => do
        match ← evalT ck f a with
        | none => .ok none
        | some x =>
          match rest with
          | [] => .ok none
          | b :: _ => do
            match ← evalT ck f b with
            | none => .ok none
            | some y => evOp ck o x y
      | _, _ => .ok none

theorem headOp_atom {k : SyntaxKind} {s : List Char} {us more : List Tree} {o : Op} (h : Operator s o) :
    headOp (.node Kind.atom.raw (.token k s :: us) :: more) = some o := by
  rw [headOp, if_pos rfl, opOf_eq.mpr h]

theorem items_size {ts : List Tree} {t : Tree} (h : t ∈ items ts) : t.size ≤ Tree.sizes ts := size_mem (mem_items h).1

theorem Evaluates.evalT {ck : Bool} {t : Tree} {r : Res (Option Int)} (h : Evaluates ck t r) :
    ∀ f, t.size ≤ f → SExpr.evalT ck f t = r := by
  have hla : ¬ Kind.list.raw = Kind.atom.raw := by decide
  induction h with
  | num h1 h2 =>
    rintro (_ | f) hf
    · simp [Tree.size] at hf
    · rw [SExpr.evalT, if_pos rfl, evAtom, parseI64_eq.mpr ⟨h1, h2⟩]
  | @word s k ts h1 =>
    rintro (_ | f) hf
    · simp [Tree.size] at hf
    · rw [SExpr.evalT, if_pos rfl, evAtom]
      cases hn : parseI64 s with
      | none => rfl
      | some n => exact absurd (parseI64_eq.mp hn).2 (h1 n (parseI64_eq.mp hn).1)
  | @noOp ts h1 =>
    rintro (_ | f) hf
    · simp [Tree.size] at hf
    · rw [SExpr.evalT, if_neg hla]
      have : headOp (items ts) = none := by
        cases ho : headOp (items ts) with
        | none => rfl
        | some o =>
          obtain ⟨k, s, us, more, hit, hop⟩ := headOp_some ho
          exact absurd hop (h1 _ _ _ _ hit o)
      rw [this]
  | noArg h1 h2 =>
    rintro (_ | f) hf
    · simp [Tree.size] at hf
    · rw [SExpr.evalT, if_neg hla, h2, headOp_atom h1]
  | oneArg h1 h2 _ ih =>
    rintro (_ | f) hf
    · simp [Tree.size] at hf
    · have := items_size (t := _) (by rw [h2]; exact List.mem_cons_of_mem _ (List.mem_cons_self ..))
      rw [Tree.size] at hf
      rw [SExpr.evalT, if_neg hla, h2, headOp_atom h1]
      simp only [ih f (by omega), Res.ok_bind]
  | @left ts s o k us a more r h1 h2 _ h3 ih =>
    rintro (_ | f) hf
    · simp [Tree.size] at hf
    · have := items_size (t := a) (by rw [h2]; simp)
      rw [Tree.size] at hf
      rw [SExpr.evalT, if_neg hla, h2, headOp_atom h1]
      simp only [ih f (by omega)]
      cases r with
      | ok v =>
        cases v with
        | none => rfl
        | some x => exact absurd rfl (h3 x)
      | _ => rfl
  | @right ts s o k us a b more x r h1 h2 _ _ h3 ih1 ih2 =>
    rintro (_ | f) hf
    · simp [Tree.size] at hf
    · have := items_size (t := a) (by rw [h2]; simp)
      have := items_size (t := b) (by rw [h2]; simp)
      rw [Tree.size] at hf
      rw [SExpr.evalT, if_neg hla, h2, headOp_atom h1]
      simp only [ih1 f (by omega), ih2 f (by omega), Res.ok_bind]
      cases r with
      | ok v =>
        cases v with
        | none => rfl
        | some x => exact absurd rfl (h3 x)
      | _ => rfl
  | @zero ts s o k us a b more x y h1 h2 _ _ h3 ih1 ih2 =>
    rintro (_ | f) hf
    · simp [Tree.size] at hf
    · have := items_size (t := a) (by rw [h2]; simp)
      have := items_size (t := b) (by rw [h2]; simp)
      rw [Tree.size] at hf
      rw [SExpr.evalT, if_neg hla, h2, headOp_atom h1]
      simp only [ih1 f (by omega), ih2 f (by omega), Res.ok_bind, evOp, h3]
  | @op ts s o k us a b more x y n r h1 h2 _ _ h3 h4 ih1 ih2 =>
    rintro (_ | f) hf
    · simp [Tree.size] at hf
    · have := items_size (t := a) (by rw [h2]; simp)
      have := items_size (t := b) (by rw [h2]; simp)
      rw [Tree.size] at hf
      rw [SExpr.evalT, if_neg hla, h2, headOp_atom h1]
      simp only [ih1 f (by omega), ih2 f (by omega), Res.ok_bind, evOp_eq h3 h4]

theorem Evaluates.det {ck : Bool} {t : Tree} {r r' : Res (Option Int)} (h : Evaluates ck t r) (h' : Evaluates ck t r') : r = r' := by
  rw [← h.evalT t.size (Nat.le_refl _), h'.evalT t.size (Nat.le_refl _)]

theorem EvaluatesAll.det {ck : Bool} {ts : List Tree} {r r' : Res (List (Option Int))} (h : EvaluatesAll ck ts r)
    (h' : EvaluatesAll ck ts r') : r = r' := by
  induction h generalizing r' with
  | nil => cases h'; rfl
  | cons h1 _ ih =>
    cases h' with
    | cons h2 h3 =>
      rw [ih h3]
      have := h1.det h2
      cases this
      rfl
    | panic h2 => cases h1.det h2
  | panic h1 =>
    cases h' with
    | cons h2 h3 => cases h1.det h2
    | panic h2 => rfl

theorem EvaluatesAll.ends {ck : Bool} {ts : List Tree} {r : Res (List (Option Int))} (h : EvaluatesAll ck ts r) :
    (∃ v, r = .ok v) ∨ r = .panic := by
  induction h with
  | nil => exact .inl ⟨_, rfl⟩
  | cons _ _ ih =>
    rcases ih with ⟨v, rfl⟩ | rfl
    · exact .inl ⟨_, rfl⟩
    · exact .inr rfl
  | panic => exact .inr rfl

/-! ### Expressions -/

theorem Denotes.evaluates {ck : Bool} {t : Tree} {e : Exp} (h : Denotes t e) (hf : e.AllFit) : Evaluates ck t (.ok e.value) := by
  induction h with
  | num h1 h2 => exact .num h1 h2
  | @op ts s o a b x y more k us h1 h2 _ _ ih1 ih2 =>
    obtain ⟨hx, hy, hv⟩ := hf
    have e1 := ih1 hx
    have e2 := ih2 hy
    rw [Exp.value] at hv ⊢
    cases vx : x.value with
    | none => rw [vx] at e1; exact .left h2 h1 e1 nofun
    | some x' =>
      rw [vx] at e1 hv
      cases vy : y.value with
      | none => rw [vy] at e2; exact .right h2 h1 e1 e2 nofun
      | some y' =>
        rw [vy] at e2 hv
        simp only [Option.bind_eq_bind, Option.bind_some] at hv ⊢
        cases vn : o.exact x' y' with
        | none => exact .zero h2 h1 e1 e2 vn
        | some n => exact .op h2 h1 e1 e2 vn (r := .ok n) ⟨hv n vn, .inl rfl⟩

theorem Denotes.checked {t : Tree} {e : Exp} (h : Denotes t e) :
    ∃ r, Evaluates true t r ∧ (r = .panic ∨ r = .ok e.value) := by
  induction h with
  | num h1 h2 => exact ⟨_, .num h1 h2, .inr rfl⟩
  | @op ts s o a b x y more k us h1 h2 _ _ ih1 ih2 =>
    obtain ⟨r1, e1, rfl | rfl⟩ := ih1
    · exact ⟨_, .left h2 h1 e1 nofun, .inl rfl⟩
    rw [Exp.value]
    cases vx : x.value with
    | none => rw [vx] at e1; exact ⟨_, .left h2 h1 e1 nofun, .inr rfl⟩
    | some x' =>
      rw [vx] at e1
      obtain ⟨r2, e2, rfl | rfl⟩ := ih2
      · exact ⟨_, .right h2 h1 e1 e2 nofun, .inl rfl⟩
      cases vy : y.value with
      | none => rw [vy] at e2; exact ⟨_, .right h2 h1 e1 e2 nofun, .inr rfl⟩
      | some y' =>
        rw [vy] at e2
        simp only [Option.bind_eq_bind, Option.bind_some]
        cases vn : o.exact x' y' with
        | none => exact ⟨_, .zero h2 h1 e1 e2 vn, .inr rfl⟩
        | some n =>
          by_cases hn : Fits n
          · exact ⟨_, .op h2 h1 e1 e2 vn (r := .ok n) ⟨hn, .inl rfl⟩, .inr rfl⟩
          · exact ⟨_, .op h2 h1 e1 e2 vn (r := .panic) ⟨hn, .inl rfl⟩, .inl rfl⟩

theorem Evaluates.denotes {ck : Bool} {t : Tree} {r : Res (Option Int)} (h : Evaluates ck t r) :
    ∀ {v : Int}, r = .ok (some v) → ∃ e, Denotes t e := by
  induction h with
  | num h1 h2 => intro v _; exact ⟨_, .num h1 h2⟩
  | word | noOp | noArg | oneArg | zero => nofun
  | left _ _ _ h => intro v hv; exact absurd hv (h v)
  | right _ _ _ _ h => intro v hv; exact absurd hv (h v)
  | op h1 h2 _ _ _ _ ih1 ih2 =>
    intro v _
    obtain ⟨x, hx⟩ := ih1 rfl
    obtain ⟨y, hy⟩ := ih2 rfl
    exact ⟨_, .op h2 h1 hx hy⟩

theorem Denotes.det {t : Tree} {e e' : Exp} (h : Denotes t e) (h' : Denotes t e') : e = e' := by
  induction h generalizing e' with
  | num h1 h2 =>
    generalize ht : Tree.node _ _ = t at h'
    cases h' with
    | num h3 h4 => cases ht; rw [h1.det h3]
    | op => injection ht with e1; exact absurd e1 (by decide)
  | op h1 h2 _ _ ih1 ih2 =>
    generalize ht : Tree.node _ _ = t at h'
    cases h' with
    | num h3 h4 => injection ht with e1; exact absurd e1 (by decide)
    | op h3 h4 h5 h6 =>
      cases ht
      rw [h1] at h3
      cases h3
      rw [ih1 h5, ih2 h6]
      have := opOf_eq.mpr h2
      rw [opOf_eq.mpr h4] at this
      cases this
      rfl

/-! ### Panics -/

theorem items_at {ts : List Tree} {t : Tree} (h : t ∈ items ts) : ∃ i : Nat, ts[i]? = some t :=
  List.mem_iff_getElem?.mp (mem_items h).1

theorem Evaluates.overflow {ck : Bool} {t : Tree} {r : Res (Option Int)} (h : Evaluates ck t r) : r = .panic →
    ∃ p u o x y n, t.at? p = some u ∧ Operands ck u o x y ∧ o.exact x y = some n ∧ ¬ Fits n ∧ (ck = true ∨ o = .div) := by
  have up : ∀ {ts : List Tree} {a : Tree}, a ∈ items ts →
      (∃ p u o x y n, a.at? p = some u ∧ Operands ck u o x y ∧ o.exact x y = some n ∧ ¬ Fits n ∧ (ck = true ∨ o = .div)) →
      ∃ p u o x y n, (Tree.node Kind.list.raw ts).at? p = some u ∧ Operands ck u o x y ∧ o.exact x y = some n ∧ ¬ Fits n ∧
        (ck = true ∨ o = .div) := by
    rintro ts a ha ⟨p, u, o, x, y, n, h1, h2⟩
    obtain ⟨i, hi⟩ := items_at ha
    refine ⟨i :: p, u, o, x, y, n, ?_, h2⟩
    rw [Tree.at?_cons, Tree.children, hi]
    exact h1
  induction h with
  | num | word | noOp | noArg | oneArg | zero => nofun
  | left _ h2 _ _ ih => exact fun e => up (by rw [h2]; simp) (ih e)
  | right _ h2 _ _ _ _ ih => exact fun e => up (by rw [h2]; simp) (ih e)
  | @op ts s o k us a b more x y n r h1 h2 h3 h4 h5 h6 =>
    intro e
    cases r with
    | ok m => cases e
    | ub => cases e
    | diverge => cases e
    | panic => exact ⟨[], _, o, x, y, n, by simp, ⟨_, _, _, _, _, _, _, rfl, h2, h1, h3, h4⟩, h5, h6.1, h6.2⟩

/-! ### The trees of the parser -/

theorem Closed.readable {t : Tree} (h : Closed t) : Readable t := by
  induction h with
  | space | junk => exact .token
  | atom s => exact .atom nofun
  | list s s' ts _ ih =>
    refine .node nofun fun t ht => ?_
    simp only [List.mem_cons, List.mem_append, List.not_mem_nil, or_false] at ht
    rcases ht with rfl | ht | rfl
    · exact .token
    · exact ih t ht
    · exact .token

mutual
theorem Items.readable : ∀ {ts : List Tree} {n : Nat}, Items ts n → ∀ t ∈ ts, Readable t
  | _, _, .closed _ h => fun t ht => (h t ht).readable
  | _, _, .unclosed ts u n h h' => fun t ht => by
    rcases List.mem_append.mp ht with ht | ht
    · exact (h t ht).readable
    · rw [List.mem_singleton.mp ht]; exact h'.readable
theorem Unclosed.readable : ∀ {t : Tree} {n : Nat}, Unclosed t n → Readable t
  | _, _, .list s ts n h => .node nofun fun t ht => by
    rcases List.mem_cons.mp ht with rfl | ht
    · exact .token
    · exact h.readable t ht
end

theorem Tops.readable {ts : List Tree} {n : Nat} (h : Tops ts n) : ∀ t ∈ ts, Readable t := by
  induction h with
  | nil => nofun
  | closed h _ ih =>
    intro t ht
    rcases List.mem_cons.mp ht with rfl | ht
    · exact h.readable
    · exact ih t ht
  | stray s _ ih =>
    intro t ht
    rcases List.mem_cons.mp ht with rfl | ht
    · exact .node nofun fun t ht => by rw [List.mem_singleton.mp ht]; exact .token
    · exact ih t ht

theorem IsFile.readable {t : Tree} {n m : Nat} (h : IsFile t n m) :
    ∃ ts, t = .node Kind.root.raw ts ∧ ∀ t ∈ ts, Readable t := by
  obtain ⟨ts, us, rfl, h1, h2⟩ := h
  exact ⟨_, rfl, fun t ht => (List.mem_append.mp ht).elim (h1.readable t) (h2.readable t)⟩

end Rowan.SExpr
