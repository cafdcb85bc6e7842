import Verif.Spec.SExprEval
import Verif.TraverseTree
/-!
# The evaluator of S-expressions on snapshots

Unless their comments cite lines of `/repo`, the definitions in this file are vocabulary of the proofs and model no code.
-/
namespace Rowan.SExpr
open RProg Prog

/-! ### Words -/

theorem inI64_iff {n : Int} : inI64 n = true ↔ Fits n := by
  simp only [inI64, Bool.and_eq_true, decide_eq_true_eq, Fits]
  omega

theorem checked_eq {n m : Int} : checked n = some m ↔ Fits n ∧ n = m := by
  rw [← inI64_iff, checked]
  split <;> simp_all

theorem isDigit_iff (c : Char) : c.isDigit = true ↔ 48 ≤ c.toNat ∧ c.toNat ≤ 57 := by
  simp only [Char.isDigit, Bool.and_eq_true, decide_eq_true_eq, Char.toNat, ge_iff_le, UInt32.le_iff_toNat_le]
  exact Iff.rfl

theorem digit_eq {c : Char} {d : Int} : digit c = some d ↔ c.isDigit = true ∧ d = ((c.toNat - 48 : Nat) : Int) := by
  rw [isDigit_iff, digit]
  have h : ('0' ≤ c ∧ c ≤ '9') ↔ 48 ≤ c.toNat ∧ c.toNat ≤ 57 := by
    simp only [Char.le_def, UInt32.le_iff_toNat_le]
    exact Iff.rfl
  rw [← h]
  split
  · rename_i h1
    have := h.mp h1
    simp only [Option.some.injEq, h1, and_self, true_and]
    omega
  · rename_i h1
    simp [h1]

/-- The digits of a number behind the number `n`. -/
def decimalFrom (n : Nat) (ds : List Char) : Nat := ds.foldl (fun n c => 10 * n + (c.toNat - 48)) n

theorem decimalFrom_ge : ∀ (ds : List Char) (n : Nat), n ≤ decimalFrom n ds
  | [], n => Nat.le_refl n
  | c :: cs, n => Nat.le_trans (by omega) (decimalFrom_ge cs (10 * n + (c.toNat - 48)))

theorem parseDigits_eq {neg : Bool} : ∀ {ds : List Char} {n : Nat} {m : Int}, Fits (if neg then -(n : Int) else n) →
    (parseDigits neg (if neg then -(n : Int) else n) ds = some m ↔
      (∀ c ∈ ds, c.isDigit = true) ∧ Fits m ∧ m = if neg then -(decimalFrom n ds : Int) else decimalFrom n ds)
  | [], n, m, hn => by
    simp only [parseDigits, decimalFrom, List.foldl_nil, Option.some.injEq, List.not_mem_nil, false_implies, implies_true,
      true_and]
    constructor
    · rintro rfl; exact ⟨hn, rfl⟩
    · exact fun h => h.2.symm
  | c :: cs, n, m, hn => by
    have hd : decimalFrom n (c :: cs) = decimalFrom (10 * n + (c.toNat - 48)) cs := rfl
    have hge := decimalFrom_ge cs (10 * n + (c.toNat - 48))
    rw [hd]
    simp only [parseDigits, Option.bind_eq_bind, Option.bind_eq_some_iff, checked_eq, digit_eq, List.mem_cons, forall_eq_or_imp]
    have ih := fun h => parseDigits_eq (neg := neg) (ds := cs) (n := 10 * n + (c.toNat - 48)) (m := m) h
    constructor
    · rintro ⟨d, ⟨hc, rfl⟩, _, ⟨h1, rfl⟩, _, ⟨h2, rfl⟩, h3⟩
      have e : (if neg = true then (if neg = true then -(n : Int) else n) * 10 - ((c.toNat - 48 : Nat) : Int)
          else (if neg = true then -(n : Int) else n) * 10 + ((c.toNat - 48 : Nat) : Int)) =
          if neg then -((10 * n + (c.toNat - 48) : Nat) : Int) else ((10 * n + (c.toNat - 48) : Nat) : Int) := by
        cases neg <;> simp <;> omega
      rw [e] at h2 h3
      have := (ih h2).mp h3
      exact ⟨⟨hc, this.1⟩, this.2⟩
    · rintro ⟨⟨hc, h1⟩, h2, h3⟩
      have e : (if neg = true then (if neg = true then -(n : Int) else n) * 10 - ((c.toNat - 48 : Nat) : Int)
          else (if neg = true then -(n : Int) else n) * 10 + ((c.toNat - 48 : Nat) : Int)) =
          if neg then -((10 * n + (c.toNat - 48) : Nat) : Int) else ((10 * n + (c.toNat - 48) : Nat) : Int) := by
        cases neg <;> simp <;> omega
      have hf : Fits (if neg then -((10 * n + (c.toNat - 48) : Nat) : Int) else ((10 * n + (c.toNat - 48) : Nat) : Int)) := by
        subst h3
        simp only [Fits] at h2 ⊢
        cases neg <;> simp at h2 ⊢ <;> omega
      refine ⟨_, ⟨hc, rfl⟩, _, ⟨?_, rfl⟩, _, ⟨?_, rfl⟩, ?_⟩
      · simp only [Fits] at hf ⊢
        cases neg <;> simp at hf ⊢ <;> omega
      · rw [e]; exact hf
      · rw [e]
        exact (ih hf).mpr ⟨h1, h2, h3⟩

theorem parseDigits_zero {neg : Bool} {ds : List Char} {m : Int} : parseDigits neg 0 ds = some m ↔
    (∀ c ∈ ds, c.isDigit = true) ∧ Fits m ∧ m = if neg then -(decimal ds : Int) else decimal ds := by
  have := parseDigits_eq (neg := neg) (ds := ds) (n := 0) (m := m) (by cases neg <;> simp [Fits])
  simpa [decimalFrom, decimal] using this

theorem parseI64_eq {s : List Char} {n : Int} : parseI64 s = some n ↔ Numeral s n ∧ Fits n := by
  have hplus : ¬ '+'.isDigit = true := by decide
  have hminus : ¬ '-'.isDigit = true := by decide
  constructor
  · intro h
    unfold parseI64 at h
    split at h
    · cases h
    · cases h
    · cases h
    · rename_i cs h1
      obtain ⟨h2, h3, rfl⟩ := parseDigits_zero.mp h
      exact ⟨.plus cs (by intro e; simp_all) h2, h3⟩
    · rename_i cs h1
      obtain ⟨h2, h3, rfl⟩ := parseDigits_zero.mp h
      exact ⟨.minus cs (by intro e; simp_all) h2, h3⟩
    · rename_i h0 _ _ _ _
      obtain ⟨h2, h3, rfl⟩ := parseDigits_zero.mp h
      exact ⟨.plain _ (by intro e; simp_all) h2, h3⟩
  · rintro ⟨h, hf⟩
    cases h with
    | plain ds h1 h2 =>
      unfold parseI64
      split
      · exact absurd rfl h1
      · exact absurd (h2 '+' (by simp)) hplus
      · exact absurd (h2 '-' (by simp)) hminus
      · exact absurd (h2 '+' (by simp)) hplus
      · exact absurd (h2 '-' (by simp)) hminus
      · exact parseDigits_zero.mpr ⟨h2, hf, rfl⟩
    | plus ds h1 h2 =>
      unfold parseI64
      split <;> simp_all
      exact parseDigits_zero.mpr ⟨h2, hf, rfl⟩
    | minus ds h1 h2 =>
      unfold parseI64
      split <;> simp_all
      exact parseDigits_zero.mpr ⟨h2, hf, rfl⟩

/-- The operator that a word is. -/
def opOf (s : List Char) : Option Op :=
  if s = ['+'] then some .add
  else if s = ['-'] then some .sub
  else if s = ['*'] then some .mul
  else if s = ['/'] then some .div
  else none

theorem opOf_eq {s : List Char} {o : Op} : opOf s = some o ↔ Operator s o := by
  constructor
  · intro h
    unfold opOf at h
    split at h
    · rename_i e; cases h; subst e; exact .add
    split at h
    · rename_i e; cases h; subst e; exact .sub
    split at h
    · rename_i e; cases h; subst e; exact .mul
    split at h
    · rename_i e; cases h; subst e; exact .div
    cases h
  · rintro (_ | _ | _ | _) <;> rfl

/-! ### Kinds -/

theorem ofRaw_raw (k : Kind) : Kind.ofRaw k.raw = some k := by cases k <;> decide

theorem raw_inj {k k' : Kind} (h : k.raw = k'.raw) : k = k' := by
  have := ofRaw_raw k
  rw [h, ofRaw_raw] at this
  exact (Option.some.inj this).symm

variable {L F : List (Nat × SElem)} {h : Nat} {e : SElem}

/-- The program returns `b` and holds what it held before. -/
abbrev Same {α : Type} (L : List (Nat × SElem)) (a b : α) (L' : List (Nat × SElem)) : Prop := a = b ∧ L'.Perm L

theorem kindOf_comp {k : Kind} (hm : (h, e) ∈ L) (hk : e.kind = k.raw) : Comp (kindOf h) L (.ok k) (Same L) := by
  refine .look hm ?_
  have e1 : (SElem.obs e).kind = k.raw := hk
  simp only [e1, ofRaw_raw]
  exact .pure ⟨rfl, .refl _⟩

theorem isCast_comp {k : Kind} {kind : Kind} (hm : (h, e) ∈ L) (hk : e.kind = k.raw) :
    Comp (isCast kind h) L (.ok (decide (k = kind))) (Same L) := by
  refine .clone hm fun c => .step (kindOf_comp (List.mem_cons_self ..) hk) fun a L' hq => ?_
  obtain ⟨rfl, hp⟩ := hq
  exact .drop hp (.pure ⟨rfl, .refl _⟩)

/-- Is the element an atom or a list? -/
def isSexp (e : SElem) : Bool := e.kind == Kind.atom.raw || e.kind == Kind.list.raw

theorem isSexp_eq {k : Kind} (hk : e.kind = k.raw) : isSexp e = (decide (k = .atom) || decide (k = .list)) := by
  rw [isSexp, hk]
  cases k <;> decide

theorem sexpCast_comp {k : Kind} (hl : L.Perm ((h, e) :: F)) (hk : e.kind = k.raw) :
    Comp (sexpCast h) L (.ok (if isSexp e then some e else none)) (Got F) := by
  have hm : (h, e) ∈ L := hl.mem_iff.mpr (List.mem_cons_self ..)
  rw [isSexp_eq hk]
  refine .step (isCast_comp hm hk) fun a L' hq => ?_
  obtain ⟨rfl, hp⟩ := hq
  by_cases h1 : k = .atom
  · simp only [h1, decide_true, if_true, Bool.true_or]
    exact .pure (hp.trans hl)
  · simp only [h1, decide_false, Bool.false_eq_true, if_false, Bool.false_or]
    refine .step (isCast_comp (hp.mem_iff.mpr hm) hk) fun a L2 hq => ?_
    obtain ⟨rfl, hp2⟩ := hq
    by_cases h2 : k = .list
    · simp only [h2, decide_true, if_true]
      exact .pure ((hp2.trans hp).trans hl)
    · simp only [h2, decide_false, Bool.false_eq_true, if_false]
      exact .drop ((hp2.trans hp).trans hl) (.pure (.refl _))

/-- The result of `Sexp::kind`, with a new handle. -/
def GotK (L : List (Nat × SElem)) (e : SElem) : SexpKind → Kind → List (Nat × SElem) → Prop
  | .atom c, k, L' => k = .atom ∧ L'.Perm ((c, e) :: L)
  | .list c, k, L' => k = .list ∧ L'.Perm ((c, e) :: L)

theorem sexpKind_comp {k : Kind} (hm : (h, e) ∈ L) (hk : e.kind = k.raw) (hs : k = .atom ∨ k = .list) :
    Comp (sexpKind h) L (.ok k) (GotK L e) := by
  refine .clone hm fun c => .step (kindOf_comp (List.mem_cons_self ..) hk) fun a L' hq => ?_
  obtain ⟨rfl, hp⟩ := hq
  rcases hs with rfl | rfl
  · simp only [if_true]
    exact .pure ⟨rfl, hp⟩
  · rw [if_neg (by decide)]
    refine .drop hp (.clone hm fun c => .step (kindOf_comp (List.mem_cons_self ..) hk) fun a L' hq => ?_)
    obtain ⟨rfl, hp⟩ := hq
    simp only [if_true]
    exact .pure ⟨rfl, hp⟩

/-! ### Iterators -/

theorem sexpsNext_comp : ∀ (k : Nat) {it : Kids} {p : SNode} {nx : Option SElem}
    {xs : List SElem} {L F : List (Nat × SElem)}, it.Holds p nx F L → (it.initialized = false → nx = none) →
    Yields true p nx it.initialized xs → (∀ x ∈ xs, ∃ k : Kind, x.kind = k.raw) → xs.length < k →
    Comp (sexpsNext k it) L (.ok (xs.filter isSexp).head?) fun (a, it') b L' =>
      it'.initialized = true ∧ ∃ F' nx' xs', Got F a b F' ∧ it'.Holds p nx' F' L' ∧ Yields true p nx' true xs' ∧
        xs'.length ≤ xs.length ∧ (∀ x ∈ xs', x ∈ xs) ∧ xs'.filter isSexp = (xs.filter isSexp).tail := by
  intro k
  induction k with
  | zero => intro it p nx xs L F _ _ _ _ hk; omega
  | succ k ih =>
    intro it p nx xs L F hh h0 hy hkn hk
    rw [sexpsNext]
    refine .step (kidsNext_comp hh h0) fun x L' hq => ?_
    obtain ⟨a, it'⟩ := x
    obtain ⟨hi, F', hg, hh'⟩ := hq
    cases xs with
    | nil =>
      rw [show kidsVal true p nx it.initialized = none from hy] at hg hh'
      obtain ⟨rfl, -, h2⟩ | ⟨_, _, _, h, _⟩ := hg.cases
      · exact .pure ⟨hi, F', none, [], h2, hh', rfl, Nat.le_refl _, nofun, rfl⟩
      · cases h
    | cons x xs =>
      rw [hy.1] at hg hh'
      obtain ⟨_, h, _⟩ | ⟨c, z, rfl, h, h2⟩ := hg.cases
      · cases h
      cases h
      have hhF : ∃ K, L'.Perm ((c, x) :: K) ∧ it'.Holds p (some x) F K := by
        obtain ⟨q, K, h3, h4⟩ := hh'
        obtain ⟨K', h5, h6⟩ := (h4.perm h2 (.refl _)).under
        exact ⟨(it'.parent, .node p) :: K', by perms h3 h5, q, K', .refl _, h6⟩
      obtain ⟨K, hK, hhK⟩ := hhF
      obtain ⟨kx, hkx⟩ := hkn x (List.mem_cons_self ..)
      refine .step (sexpCast_comp hK hkx) fun y L2 hq => ?_
      cases hp : isSexp x with
      | true =>
        rw [hp] at hq
        obtain ⟨_, h, _⟩ | ⟨c', z, rfl, h, h2'⟩ := hq.cases
        · cases h
        cases h
        rw [List.filter_cons_of_pos hp]
        refine .pure ⟨hi, (c', x) :: F, some x, xs, .refl _, ?_, hy.2, by simp,
          fun y hy => List.mem_cons_of_mem _ hy, rfl⟩
        obtain ⟨q, K', h5, h6⟩ := hhK
        refine ⟨q, (c', x) :: K', by perms h2' h5, ?_⟩
        rcases h6.cases with ⟨e1, e2, h7⟩ | ⟨i, z, e1, e2, h7⟩
        · cases e2
        · rw [e1, e2]
          show List.Perm _ ((i, z) :: (c', x) :: F)
          perms h7
      | false =>
        rw [hp] at hq
        obtain ⟨rfl, h, h2'⟩ | ⟨c', z, rfl, h, h2'⟩ := hq.cases
        · rw [List.filter_cons_of_neg (by simp [hp])]
          refine .perm h2' ?_
          refine (ih hhK (by rw [hi]; nofun) (by rw [hi]; exact hy.2)
            (fun x hx => hkn x (List.mem_cons_of_mem _ hx)) (by simpa using hk)).mono fun a b L2 _ hq => ?_
          obtain ⟨q1, F2, nx', xs', q2, q3, q4, q5, q5', q6⟩ := hq
          exact ⟨q1, F2, nx', xs', q2, q3, q4, by simp; omega, fun x hx => List.mem_cons_of_mem _ (q5' x hx), q6⟩
        · cases h

theorem sexpsNth_comp (k : Nat) : ∀ (i : Nat) {it : Kids} {p : SNode} {nx : Option SElem}
    {xs : List SElem} {L F : List (Nat × SElem)}, it.Holds p nx F L → (it.initialized = false → nx = none) →
    Yields true p nx it.initialized xs → (∀ x ∈ xs, ∃ k : Kind, x.kind = k.raw) → xs.length < k →
    Comp (sexpsNth k i it) L (.ok (xs.filter isSexp)[i]?) fun (a, it') b L' =>
      ∃ F' nx', Got F a b F' ∧ it'.Holds p nx' F' L' := by
  intro i
  induction i with
  | zero =>
    intro it p nx xs L F hh h0 hy hkn hk
    rw [sexpsNth, ← List.head?_eq_getElem?]
    refine (sexpsNext_comp k hh h0 hy hkn hk).mono fun a b L2 _ hq => ?_
    obtain ⟨-, F', nx', -, h1, h2, -⟩ := hq
    exact ⟨F', nx', h1, h2⟩
  | succ i ih =>
    intro it p nx xs L F hh h0 hy hkn hk
    rw [sexpsNth]
    refine .step (sexpsNext_comp k hh h0 hy hkn hk) fun x L1 hq => ?_
    obtain ⟨a, it'⟩ := x
    obtain ⟨hi, F', nx', xs', hg, hh', hy', hle, hsub, htail⟩ := hq
    rcases hg.cases with ⟨rfl, h1, h2⟩ | ⟨c, z, rfl, h1, h2⟩
    · rw [List.head?_eq_none_iff] at h1
      rw [h1]
      exact .pure ⟨F', nx', h2, hh'⟩
    · obtain ⟨tl, htl⟩ := List.head?_eq_some_iff.mp h1
      rw [htl] at htail ⊢
      simp only [List.tail_cons, List.getElem?_cons_succ] at htail ⊢
      have hhF : ∃ K, L1.Perm ((c, z) :: K) ∧ it'.Holds p nx' F K := by
        obtain ⟨q, K, h3, h4⟩ := hh'
        obtain ⟨K', h5, h6⟩ := (h4.perm h2 (.refl _)).under
        exact ⟨(it'.parent, .node p) :: K', by perms h3 h5, q, K', .refl _, h6⟩
      obtain ⟨K, hK, hhK⟩ := hhF
      refine .drop hK ?_
      rw [← htail]
      exact ih hhK (by rw [hi]; nofun) (by rw [hi]; exact hy') (fun x hx => hkn x (hsub x hx)) (by omega)

/-! ### Trees -/

theorem selem_kind {t : Tree} (ht : e.green.tree = t) : e.kind = t.kind := by rw [← ht]; exact SElem.kind_eq e

theorem selem_node {k : SyntaxKind} {ts : List Tree} (ht : e.green.tree = .node k ts) :
    ∃ p : SNode, e = .node p ∧ GNode.tree p.green = .node k ts := by
  cases e with
  | node p => exact ⟨p, rfl, ht⟩
  | token t => cases ht

theorem kids_trees {p : SNode} {k : SyntaxKind} {ts : List Tree} (hp : GNode.tree p.green = .node k ts) :
    p.kids.map (fun e => e.green.tree) = ts := by
  have := congrArg Tree.children hp
  rw [GNode.tree_children, ← SNode.kids_green, List.map_map] at this
  exact this

theorem kids_items {p : SNode} {k : SyntaxKind} {ts : List Tree} (hp : GNode.tree p.green = .node k ts) :
    ((kidsOf true p).filter isSexp).map (fun e => e.green.tree) = items ts := by
  rw [← kids_trees hp, items, List.filter_map, kidsOf, List.filter_filter]
  congr 1
  apply List.filter_congr
  intro e _
  have hk := selem_kind (e := e) rfl
  simp only [Function.comp, isSexp, ← hk, Bool.not_true, Bool.false_or]
  cases e with
  | token t => simp [SElem.isNode, SElem.green, GToken.tree, Tree.isNode]
  | node m =>
    have : (SElem.green (.node m)).tree.isNode = true := GNode.tree_isNode _
    rw [this]
    simp [SElem.isNode]

theorem sizes_eq (ts : List Tree) : Tree.sizes ts = (ts.map Tree.size).sum := by
  induction ts with
  | nil => simp [Tree.sizes]
  | cons t ts ih => simp [Tree.sizes, ih]

theorem size_pos (t : Tree) : 0 < t.size := by cases t <;> simp [Tree.size]; omega

theorem size_mem {ts : List Tree} {t : Tree} (h : t ∈ ts) : t.size ≤ Tree.sizes ts := by
  induction ts with
  | nil => cases h
  | cons u ts ih =>
    rw [Tree.sizes]
    rcases List.mem_cons.mp h with rfl | h
    · omega
    · have := ih h; omega

theorem length_le_sizes (ts : List Tree) : ts.length ≤ Tree.sizes ts := by
  induction ts with
  | nil => simp
  | cons u ts ih =>
    have := size_pos u
    simp [Tree.sizes]; omega

theorem Readable.kind {k : SyntaxKind} {ts : List Tree} (h : Readable (.node k ts)) : ∃ k' : Kind, k = k'.raw := by
  cases h with
  | atom => exact ⟨_, rfl⟩
  | node => exact ⟨_, rfl⟩

theorem Readable.kids {k : SyntaxKind} {ts : List Tree} (h : Readable (.node k ts)) : ∀ t ∈ ts, Readable t := by
  cases h with
  | atom h =>
    intro t ht
    rcases List.mem_cons.mp ht with rfl | ht
    · exact .token
    · exact h t ht
  | node _ h => exact h

theorem Readable.atom' {ts : List Tree} (h : Readable (.node Kind.atom.raw ts)) : ∃ k s us, ts = .token k s :: us := by
  generalize e : Tree.node Kind.atom.raw ts = t at h
  cases h with
  | token => cases e
  | atom => cases e; exact ⟨_, _, _, rfl⟩
  | node hk =>
    injection e with e1 e2
    exact absurd (raw_inj e1).symm hk

theorem mem_items {ts : List Tree} {t : Tree} (h : t ∈ items ts) : t ∈ ts ∧
    ((∃ us, t = .node Kind.atom.raw us) ∨ ∃ us, t = .node Kind.list.raw us) := by
  obtain ⟨h1, h2⟩ := List.mem_filter.mp h
  refine ⟨h1, ?_⟩
  cases t with
  | token => simp [Tree.isNode] at h2
  | node k us =>
    simp only [Tree.isNode, Tree.kind, Bool.true_and, Bool.or_eq_true, beq_iff_eq] at h2
    rcases h2 with rfl | rfl
    · exact .inl ⟨us, rfl⟩
    · exact .inr ⟨us, rfl⟩

/-! ### Atoms -/

theorem atomText_comp {k k' : SyntaxKind} {s : List Char} {ts : List Tree} (hm : (h, e) ∈ L)
    (ht : e.green.tree = .node k (.token k' s :: ts)) : Comp (atomText h) L (.ok s) (Same L) := by
  refine .look hm ?_
  obtain ⟨p, rfl, hp⟩ := selem_node ht
  have e1 : (SElem.obs (.node p)).green = .node p.green := rfl
  simp only [e1]
  cases hg : p.green with
  | mk a k2 l cs =>
    rw [hg] at hp
    simp only [GNode.tree, GChild.trees_eq', Tree.node.injEq] at hp
    cases cs with
    | nil => simp at hp
    | cons c cs =>
      simp only [List.map_cons, List.cons.injEq] at hp
      cases c with
      | node r n =>
        have : (GNode.tree n).isNode = false := congrArg Tree.isNode hp.2.1
        rw [GNode.tree_isNode] at this
        cases this
      | token r t =>
        have := hp.2.1
        simp only [GChild.asRef_token, GElem.tree_token, GToken.tree, Tree.token.injEq] at this
        simp only [GNode.slice_mk, List.head?_cons, Option.map_some, GChild.asRef_token]
        exact .pure ⟨this.2, .refl _⟩

theorem asOp_comp {k k' : SyntaxKind} {s : List Char} {ts : List Tree} (hm : (h, e) ∈ L)
    (ht : e.green.tree = .node k (.token k' s :: ts)) : Comp (asOp h) L (.ok (opOf s)) (Same L) := by
  refine .step (atomText_comp hm ht) fun a L' hq => ?_
  obtain ⟨rfl, hp⟩ := hq
  exact .pure ⟨rfl, hp⟩

theorem atomEval_comp {k k' : SyntaxKind} {s : List Char} {ts : List Tree} (hm : (h, e) ∈ L)
    (ht : e.green.tree = .node k (.token k' s :: ts)) : Comp (atomEval h) L (.ok (parseI64 s)) (Same L) := by
  refine .step (atomText_comp hm ht) fun a L' hq => ?_
  obtain ⟨rfl, hp⟩ := hq
  exact .pure ⟨rfl, hp⟩

/-! ### Lists -/

/-- The operator that the elements of a list start with. -/
def headOp : List Tree → Option Op
  | .node k (.token _ s :: _) :: _ => if k = Kind.atom.raw then opOf s else none
  | _ => none

theorem known_kids {p : SNode} {k : SyntaxKind} {ts : List Tree} (hp : GNode.tree p.green = .node k ts)
    (hr : ∀ t ∈ ts, Readable t) : ∀ x ∈ kidsOf true p, ∃ k : Kind, x.kind = k.raw := by
  intro x hx
  obtain ⟨h1, h2⟩ := List.mem_filter.mp hx
  have hx : x.green.tree ∈ ts := by rw [← kids_trees hp]; exact List.mem_map_of_mem h1
  have := hr _ hx
  cases x with
  | token t => simp [SElem.isNode] at h2
  | node m =>
    have e1 : (SElem.green (.node m)).tree = .node m.green.kind (m.green.children.map GElem.tree) := GNode.tree_eq _
    rw [e1] at this
    obtain ⟨k', hk'⟩ := this.kind
    exact ⟨k', hk'⟩

theorem kidsOf_length {p : SNode} {k : SyntaxKind} {ts : List Tree} (hp : GNode.tree p.green = .node k ts) :
    (kidsOf true p).length ≤ ts.length := by
  rw [← kids_trees hp, List.length_map]
  exact List.length_filter_le ..

theorem nth_comp {p : SNode} {k : SyntaxKind} {ts : List Tree} (hm : (h, .node p) ∈ L)
    (hp : GNode.tree p.green = .node k ts) (hr : ∀ t ∈ ts, Readable t) {w : Nat} (hw : ts.length < w) (i : Nat) {α β : Type}
    {f : Option Nat × Kids → RProg α} {r : Res β} {Q : α → β → List (Nat × SElem) → Prop}
    (hf : ∀ a it b L' F' nx, b.map (fun e => e.green.tree) = (items ts)[i]? → Got L a b F' → it.Holds p nx F' L' →
      Comp (f (a, it)) L' r Q) :
    Comp (do let it ← kids h; let x ← sexpsNth w i it; f x) L r Q := by
  refine kids_comp hm fun it L' hh hi => ?_
  have hl := kidsOf_length hp
  refine .step (sexpsNth_comp w i hh (fun _ => rfl) (by rw [hi]; exact yields_kids true p) (known_kids hp hr) (by omega))
    fun x L2 hq => ?_
  obtain ⟨a, it'⟩ := x
  obtain ⟨F', nx', hg, hh'⟩ := hq
  refine hf a it' _ L2 F' nx' ?_ hg hh'
  rw [← kids_items hp, List.getElem?_map]

theorem listOp_comp {p : SNode} {k : SyntaxKind} {ts : List Tree} (hm : (h, .node p) ∈ L)
    (hp : GNode.tree p.green = .node k ts) (hr : ∀ t ∈ ts, Readable t) {w : Nat} (hw : ts.length < w) :
    Comp (listOp w h) L (.ok (headOp (items ts))) (Same L) := by
  refine nth_comp hm hp hr hw 0 fun a it b L' F' nx hb hg hh => ?_
  rcases hg.cases with ⟨rfl, rfl, h1⟩ | ⟨x, z, rfl, rfl, h1⟩
  · have : items ts = [] := by
      rw [← List.head?_eq_getElem?] at hb
      exact List.head?_eq_none_iff.mp hb.symm
    rw [this]
    exact kidsDrop_comp hh (.pure ⟨rfl, h1⟩)
  · rw [← List.head?_eq_getElem?] at hb
    obtain ⟨more, hit⟩ := List.head?_eq_some_iff.mp hb.symm
    rw [hit]
    have hz : z.green.tree ∈ items ts := by rw [hit]; simp
    obtain ⟨hz1, hz2⟩ := mem_items hz
    have hzr := hr _ hz1
    have hhF : ∃ K, L'.Perm ((x, z) :: K) ∧ it.Holds p nx L K := by
      obtain ⟨q, K, h3, h4⟩ := hh
      obtain ⟨K', h5, h6⟩ := (h4.perm h1 (.refl _)).under
      exact ⟨(it.parent, .node p) :: K', by perms h3 h5, q, K', .refl _, h6⟩
    obtain ⟨K, hK, hhK⟩ := hhF
    have hx : (x, z) ∈ L' := hK.mem_iff.mpr (List.mem_cons_self ..)
    rcases hz2 with ⟨us, hus⟩ | ⟨us, hus⟩
    · refine .step (sexpKind_comp (k := .atom) hx (selem_kind hus) (.inl rfl)) fun y L2 hq => ?_
      cases y with
      | list c => cases hq.1
      | atom c =>
        obtain ⟨-, h2⟩ := hq
        rw [hus] at hzr
        obtain ⟨k', s, vs, rfl⟩ := hzr.atom'
        refine .step (asOp_comp (h2.mem_iff.mpr (List.mem_cons_self ..)) hus) fun o L3 hq => ?_
        obtain ⟨rfl, h3⟩ := hq
        refine .drop (h3.trans h2) (.drop hK (kidsDrop_comp hhK (.pure ⟨?_, .refl _⟩)))
        show _ = headOp (z.green.tree :: more)
        rw [hus, headOp, if_pos rfl]
    · refine .step (sexpKind_comp (k := .list) hx (selem_kind hus) (.inr rfl)) fun y L2 hq => ?_
      cases y with
      | atom c => cases hq.1
      | list c =>
        obtain ⟨-, h2⟩ := hq
        refine .drop h2 (.drop hK (kidsDrop_comp hhK (.pure ⟨?_, .refl _⟩)))
        show _ = headOp (z.green.tree :: more)
        rw [hus]
        cases us with
        | nil => rfl
        | cons u us =>
          cases u with
          | node => rfl
          | token => rw [headOp, if_neg (by decide)]

/-- The program `ev` has the outcome `r` on every handle for `t`. -/
def Computes (ev : Nat → RProg (Option Int)) (t : Tree) (r : Res (Option Int)) : Prop :=
  ∀ {h : Nat} {e : SElem} {L : List (Nat × SElem)}, (h, e) ∈ L → e.green.tree = t → Comp (ev h) L r (Same L)

theorem listArg_comp {p : SNode} {k : SyntaxKind} {ts : List Tree} (hm : (h, .node p) ∈ L)
    (hp : GNode.tree p.green = .node k ts) (hr : ∀ t ∈ ts, Readable t) {w : Nat} (hw : ts.length < w) {i : Nat}
    {ev : Nat → RProg (Option Int)} {r : Res (Option Int)}
    (hev : match (items ts)[i]? with | none => r = .ok none | some t => Computes ev t r) :
    Comp (listArg w ev i h) L r (Same L) := by
  refine nth_comp hm hp hr hw i fun a it b L' F' nx hb hg hh => ?_
  rcases hg.cases with ⟨rfl, rfl, h1⟩ | ⟨x, z, rfl, rfl, h1⟩
  · rw [← hb] at hev
    cases hev
    exact kidsDrop_comp hh (.pure ⟨rfl, h1⟩)
  · rw [← hb] at hev
    have hhF : ∃ K, L'.Perm ((x, z) :: K) ∧ it.Holds p nx L K := by
      obtain ⟨q, K, h3, h4⟩ := hh
      obtain ⟨K', h5, h6⟩ := (h4.perm h1 (.refl _)).under
      exact ⟨(it.parent, .node p) :: K', by perms h3 h5, q, K', .refl _, h6⟩
    obtain ⟨K, hK, hhK⟩ := hhF
    refine .post (hev (hK.mem_iff.mpr (List.mem_cons_self ..)) rfl) fun v v' L2 _ hq => ?_
    obtain ⟨rfl, h2⟩ := hq
    exact .drop (h2.trans hK) (kidsDrop_comp hhK (.pure ⟨rfl, .refl _⟩))

theorem fits_tdiv {x y : Int} (hx : Fits x) (hy : y ≠ 0) (h : ¬ (x = -9223372036854775808 ∧ y = -1)) : Fits (x.tdiv y) := by
  simp only [Fits] at *
  have h1 : (x.tdiv y).natAbs = x.natAbs / y.natAbs := Int.natAbs_tdiv ..
  have h2 : x.natAbs / y.natAbs ≤ x.natAbs := Nat.div_le_self ..
  by_cases h3 : y.natAbs = 1
  · have : y = 1 ∨ y = -1 := by omega
    rcases this with rfl | rfl
    · rw [Int.tdiv_one]; exact hx
    · rw [show (-1 : Int) = -(1 : Int) from rfl, Int.tdiv_neg, Int.tdiv_one]; omega
  · have h4 : x.natAbs / y.natAbs ≤ x.natAbs / 2 := Nat.div_le_div_left (by omega) (by omega)
    omega

theorem arith_comp (ck : Bool) {o : Op} (ho : o ≠ .div) (n : Int) : ∃ r, Rounds ck o n r ∧ ∀ L, Comp (arith ck n) L r (Same L) := by
  unfold arith
  cases hn : inI64 n with
  | true =>
    rw [if_pos rfl]
    exact ⟨.ok n, ⟨inI64_iff.mp hn, .inl rfl⟩, fun L => .pure ⟨rfl, .refl _⟩⟩
  | false =>
    have hn' : ¬ Fits n := fun h => by rw [inI64_iff.mpr h] at hn; cases hn
    rw [if_neg nofun]
    cases ck with
    | true => exact ⟨.panic, ⟨hn', .inl rfl⟩, fun L => .panic⟩
    | false =>
      refine ⟨.ok _, ⟨?_, .inr ⟨rfl, ho, -((n + 9223372036854775808) / 18446744073709551616), ?_⟩⟩, fun L => .pure ⟨rfl, .refl _⟩⟩
      · simp only [Fits]; omega
      · omega

theorem apply_comp (ck : Bool) {x y : Int} (hx : Fits x) (o : Op) :
    match o.exact x y with
    | none => ∀ L, Comp (apply ck x y o) L (.ok none) (Same L)
    | some n => ∃ r : Res Int, Rounds ck o n r ∧ ∀ L, Comp (apply ck x y o) L (r >>= fun m => .ok (some m)) (Same L) := by
  have lift : ∀ {o : Op}, o ≠ .div → ∀ n, ∃ r : Res Int, Rounds ck o n r ∧
      ∀ L, Comp (do let m ← arith ck n; pure (some m)) L (r >>= fun m => .ok (some m)) (Same L) := by
    intro o ho n
    obtain ⟨r, h1, h2⟩ := arith_comp ck ho n
    refine ⟨r, h1, fun L => .bind (h2 L) fun a b L' _ hq => ?_⟩
    obtain ⟨rfl, hp⟩ := hq
    exact .pure ⟨rfl, hp⟩
  cases o with
  | add => exact lift (o := .add) nofun (x + y)
  | sub => exact lift (o := .sub) nofun (x - y)
  | mul => exact lift (o := .mul) nofun (x * y)
  | div =>
    simp only [Op.exact]
    by_cases h0 : y = 0
    · simp only [h0, if_true, apply]
      exact fun L => .pure ⟨rfl, .refl _⟩
    · simp only [h0, if_false, apply]
      by_cases h1 : x = -9223372036854775808 ∧ y = -1
      · simp only [h1, and_self, if_true]
        exact ⟨.panic, ⟨by simp only [Fits]; decide, .inr rfl⟩, fun L => .panic⟩
      · simp only [h1, if_false]
        exact ⟨.ok _, ⟨fits_tdiv hx h0 h1, .inl rfl⟩, fun L => .pure ⟨rfl, .refl _⟩⟩

/-! ### Evaluation -/

theorem Evaluates.fits {ck : Bool} {t : Tree} {r : Res (Option Int)} (h : Evaluates ck t r) : ∀ {x : Int},
    r = .ok (some x) → Fits x := by
  intro x hx
  cases h with
  | num _ hf => cases hx; exact hf
  | word | noOp | noArg | oneArg | zero => cases hx
  | left _ _ _ h => exact absurd hx (h x)
  | right _ _ _ _ h => exact absurd hx (h x)
  | @op _ _ _ _ _ _ _ _ _ _ _ r _ _ _ _ _ h =>
    cases r with
    | ok m => cases hx; exact h.1
    | _ => cases hx

theorem Evaluates.ends {ck : Bool} {t : Tree} {r : Res (Option Int)} (h : Evaluates ck t r) : r = .panic ∨ ∃ v, r = .ok v := by
  induction h with
  | num | word | noOp | noArg | oneArg | zero => exact .inr ⟨_, rfl⟩
  | left _ _ _ _ ih => exact ih
  | right _ _ _ _ _ _ ih => exact ih
  | @op _ _ _ _ _ _ _ _ _ _ _ r _ _ _ _ _ h =>
    cases r with
    | ok m => exact .inr ⟨_, rfl⟩
    | panic => exact .inl rfl
    | ub => exact h.elim
    | diverge => exact h.elim

theorem headOp_some {ts : List Tree} {o : Op} (h : headOp ts = some o) :
    ∃ k s us more, ts = .node Kind.atom.raw (.token k s :: us) :: more ∧ Operator s o := by
  unfold headOp at h
  split at h
  · split at h
    · rename_i hk
      subst hk
      exact ⟨_, _, _, _, rfl, opOf_eq.mp h⟩
    · cases h
  · cases h

theorem headOp_none {ts : List Tree} (h : headOp ts = none) :
    ∀ k s us more, ts = .node Kind.atom.raw (.token k s :: us) :: more → ∀ o, ¬ Operator s o := by
  rintro k s us more rfl o ho
  rw [headOp, if_pos rfl, opOf_eq.mpr ho] at h
  cases h

/-- A step that panics. -/
theorem panicStep {α β γ : Type} {p : RProg α} {f : α → RProg γ} {R : α → β → List (Nat × SElem) → Prop}
    {Q : γ → β → List (Nat × SElem) → Prop} (hp : Comp p L .panic R) : Comp (p >>= f) L .panic Q :=
  Comp.bind (g := fun _ : β => .panic) hp fun _ _ _ e _ => by cases e

theorem listEval_comp {ck : Bool} {ts : List Tree} (hr : ∀ t ∈ ts, Readable t) {w : Nat} (hw : ts.length < w)
    {ev : Nat → RProg (Option Int)} (hev : ∀ t ∈ items ts, ∃ r, Evaluates ck t r ∧ Computes ev t r) :
    ∃ r, Evaluates ck (.node Kind.list.raw ts) r ∧ ∀ {h : Nat} {p : SNode} {L : List (Nat × SElem)}, (h, .node p) ∈ L →
      GNode.tree p.green = .node Kind.list.raw ts → Comp (listEval ck w ev h) L r (Same L) := by
  cases ho : headOp (items ts) with
  | none =>
    refine ⟨.ok none, .noOp (headOp_none ho), fun hm hp => ?_⟩
    refine .step (listOp_comp hm hp hr hw) fun a L' hq => ?_
    obtain ⟨rfl, h1⟩ := hq
    rw [ho]
    exact .pure ⟨rfl, h1⟩
  | some o =>
    obtain ⟨k, s, us, more, hit, hop⟩ := headOp_some ho
    -- after the operator has been read
    have start : ∀ {r : Res (Option Int)} {h : Nat} {p : SNode} {L : List (Nat × SElem)}, (h, .node p) ∈ L →
        GNode.tree p.green = .node Kind.list.raw ts →
        (∀ L', L'.Perm L → Comp (do
          match ← listArg w ev 1 h with
          | none => pure none
          | some arg1 => do
            match ← listArg w ev 2 h with
            | none => pure none
            | some arg2 => apply ck arg1 arg2 o) L' r (Same L)) → Comp (listEval ck w ev h) L r (Same L) := by
      intro r h p L hm hp hc
      refine .step (listOp_comp hm hp hr hw) fun a L' hq => ?_
      obtain ⟨rfl, h1⟩ := hq
      rw [ho]
      exact hc L' h1
    cases more with
    | nil =>
      refine ⟨.ok none, .noArg hop hit, fun hm hp => start hm hp fun L' h1 => ?_⟩
      refine .step (listArg_comp (r := .ok none) (h1.mem_iff.mpr hm) hp hr hw (by rw [hit]; rfl)) fun a L2 hq => ?_
      obtain ⟨rfl, h2⟩ := hq
      exact .pure ⟨rfl, h2.trans h1⟩
    | cons a more =>
      obtain ⟨r1, e1, c1⟩ := hev a (by rw [hit]; simp)
      have arg1 : ∀ {h : Nat} {p : SNode} {L : List (Nat × SElem)}, (h, .node p) ∈ L →
          GNode.tree p.green = .node Kind.list.raw ts → Comp (listArg w ev 1 h) L r1 (Same L) :=
        fun hm hp => listArg_comp hm hp hr hw (by rw [hit]; exact c1)
      rcases e1.ends with rfl | ⟨v, rfl⟩
      · exact ⟨.panic, .left hop hit e1 nofun, fun hm hp => start hm hp fun L' h1 =>
          panicStep (arg1 (h1.mem_iff.mpr hm) hp)⟩
      cases v with
      | none =>
        refine ⟨.ok none, .left hop hit e1 nofun, fun hm hp => start hm hp fun L' h1 =>
          .step (arg1 (h1.mem_iff.mpr hm) hp) fun a L2 hq => ?_⟩
        obtain ⟨rfl, h2⟩ := hq
        exact .pure ⟨rfl, h2.trans h1⟩
      | some x =>
        -- after the first operand has been evaluated
        have mid : ∀ {r : Res (Option Int)} {h : Nat} {p : SNode} {L : List (Nat × SElem)}, (h, .node p) ∈ L →
            GNode.tree p.green = .node Kind.list.raw ts →
            (∀ L', L'.Perm L → Comp (do
              match ← listArg w ev 2 h with
              | none => pure none
              | some arg2 => apply ck x arg2 o) L' r (Same L)) → Comp (listEval ck w ev h) L r (Same L) := by
          intro r h p L hm hp hc
          refine start hm hp fun L' h1 => .step (arg1 (h1.mem_iff.mpr hm) hp) fun a L2 hq => ?_
          obtain ⟨rfl, h2⟩ := hq
          exact hc L2 (h2.trans h1)
        cases more with
        | nil =>
          refine ⟨.ok none, .oneArg hop hit e1, fun hm hp => mid hm hp fun L' h1 => ?_⟩
          refine .step (listArg_comp (r := .ok none) (h1.mem_iff.mpr hm) hp hr hw (by rw [hit]; rfl)) fun a L2 hq => ?_
          obtain ⟨rfl, h2⟩ := hq
          exact .pure ⟨rfl, h2.trans h1⟩
        | cons b more =>
          obtain ⟨r2, e2, c2⟩ := hev b (by rw [hit]; simp)
          have arg2 : ∀ {h : Nat} {p : SNode} {L : List (Nat × SElem)}, (h, .node p) ∈ L →
              GNode.tree p.green = .node Kind.list.raw ts → Comp (listArg w ev 2 h) L r2 (Same L) :=
            fun hm hp => listArg_comp hm hp hr hw (by rw [hit]; exact c2)
          rcases e2.ends with rfl | ⟨v, rfl⟩
          · exact ⟨.panic, .right hop hit e1 e2 nofun, fun hm hp => mid hm hp fun L' h1 =>
              panicStep (arg2 (h1.mem_iff.mpr hm) hp)⟩
          cases v with
          | none =>
            refine ⟨.ok none, .right hop hit e1 e2 nofun, fun hm hp => mid hm hp fun L' h1 =>
              .step (arg2 (h1.mem_iff.mpr hm) hp) fun a L2 hq => ?_⟩
            obtain ⟨rfl, h2⟩ := hq
            exact .pure ⟨rfl, h2.trans h1⟩
          | some y =>
            have ha := apply_comp ck (e1.fits rfl) (y := y) o
            cases hx : o.exact x y with
            | none =>
              rw [hx] at ha
              refine ⟨.ok none, .zero hop hit e1 e2 hx, fun hm hp => mid hm hp fun L' h1 =>
                .step (arg2 (h1.mem_iff.mpr hm) hp) fun a L2 hq => ?_⟩
              obtain ⟨rfl, h2⟩ := hq
              exact (ha L2).mono fun a b L3 _ hq => ⟨hq.1, hq.2.trans (h2.trans h1)⟩
            | some n =>
              rw [hx] at ha
              obtain ⟨r, hr1, hr2⟩ := ha
              refine ⟨_, .op hop hit e1 e2 hx hr1, fun hm hp => mid hm hp fun L' h1 =>
                .step (arg2 (h1.mem_iff.mpr hm) hp) fun a L2 hq => ?_⟩
              obtain ⟨rfl, h2⟩ := hq
              exact (hr2 L2).mono fun a b L3 _ hq => ⟨hq.1, hq.2.trans (h2.trans h1)⟩

theorem sexpEval_comp (ck : Bool) : ∀ (fuel : Nat) (t : Tree), Readable t →
    ((∃ us, t = .node Kind.atom.raw us) ∨ ∃ us, t = .node Kind.list.raw us) → t.size ≤ fuel →
    ∃ r, Evaluates ck t r ∧ Computes (sexpEval ck fuel) t r := by
  intro fuel
  induction fuel with
  | zero => intro t _ _ hs; have := size_pos t; omega
  | succ fuel ih =>
    intro t hr hk hs
    rcases hk with ⟨us, rfl⟩ | ⟨us, rfl⟩
    · obtain ⟨k, s, us, rfl⟩ := hr.atom'
      have hc : Computes (sexpEval ck (fuel + 1)) (.node Kind.atom.raw (.token k s :: us)) (.ok (parseI64 s)) := by
        intro h e L hm ht
        rw [sexpEval]
        refine .step (sexpKind_comp (k := .atom) hm (selem_kind ht) (.inl rfl)) fun y L2 hq => ?_
        cases y with
        | list c => cases hq.1
        | atom c =>
          obtain ⟨-, h2⟩ := hq
          refine .step (atomEval_comp (h2.mem_iff.mpr (List.mem_cons_self ..)) ht) fun v L3 hq => ?_
          obtain ⟨rfl, h3⟩ := hq
          exact .drop (h3.trans h2) (.pure ⟨rfl, .refl _⟩)
      cases hn : parseI64 s with
      | none =>
        rw [hn] at hc
        refine ⟨_, .word fun n h1 h2 => ?_, hc⟩
        rw [parseI64_eq.mpr ⟨h1, h2⟩] at hn
        cases hn
      | some n =>
        rw [hn] at hc
        obtain ⟨h1, h2⟩ := parseI64_eq.mp hn
        exact ⟨_, .num h1 h2, hc⟩
    · rw [Tree.size] at hs
      have hlen := length_le_sizes us
      obtain ⟨r, h1, h2⟩ := listEval_comp (ck := ck) (w := fuel + 1) hr.kids (by omega) fun t ht => by
        obtain ⟨h1, h2⟩ := mem_items ht
        have := size_mem h1
        exact ih t (hr.kids t h1) h2 (by omega)
      refine ⟨r, h1, ?_⟩
      intro h e L hm ht
      rw [sexpEval]
      refine .step (sexpKind_comp (k := .list) hm (selem_kind ht) (.inr rfl)) fun y L2 hq => ?_
      cases y with
      | atom c => cases hq.1
      | list c =>
        obtain ⟨-, h3⟩ := hq
        obtain ⟨p, rfl, hp⟩ := selem_node ht
        refine .post (h2 (h3.mem_iff.mpr (List.mem_cons_self ..)) hp) fun v v' L3 _ hq => ?_
        obtain ⟨rfl, h4⟩ := hq
        exact .drop (h4.trans h3) (.pure ⟨rfl, .refl _⟩)

/-! ### Files -/

/-- The program `ev`, on handles for the trees one after the other, has the outcome `r`. -/
inductive ComputesAll (ev : Nat → RProg (Option Int)) : List Tree → Res (List (Option Int)) → Prop
  | nil : ComputesAll ev [] (.ok [])
  | cons {t ts v r} : Computes ev t (.ok v) → ComputesAll ev ts r → ComputesAll ev (t :: ts) (r >>= fun vs => .ok (v :: vs))
  | panic {t ts} : Computes ev t .panic → ComputesAll ev (t :: ts) .panic

theorem computesAll {ck : Bool} {ev : Nat → RProg (Option Int)} : ∀ {ts : List Tree},
    (∀ t ∈ ts, ∃ r, Evaluates ck t r ∧ Computes ev t r) → ∃ r, EvaluatesAll ck ts r ∧ ComputesAll ev ts r
  | [], _ => ⟨_, .nil, .nil⟩
  | t :: ts, h => by
    obtain ⟨r, h1, h2⟩ := h t (List.mem_cons_self ..)
    rcases h1.ends with rfl | ⟨v, rfl⟩
    · exact ⟨_, .panic h1, .panic h2⟩
    · obtain ⟨r, h3, h4⟩ := computesAll fun t ht => h t (List.mem_cons_of_mem _ ht)
      exact ⟨_, .cons h1 h3, .cons h2 h4⟩

theorem collect_comp (ck : Bool) (fuel : Nat) : ∀ (k : Nat) {it : Kids} {p : SNode} {nx : Option SElem}
    {xs : List SElem} {L F : List (Nat × SElem)} {r : Res (List (Option Int))}, it.Holds p nx F L →
    (it.initialized = false → nx = none) →
    Yields true p nx it.initialized xs → (∀ x ∈ xs, ∃ k : Kind, x.kind = k.raw) → xs.length < fuel →
    ComputesAll (sexpEval ck fuel) ((xs.filter isSexp).map fun e => e.green.tree) r → (xs.filter isSexp).length < k →
    Comp (collect ck fuel k it) L r (Same F) := by
  intro k
  induction k with
  | zero => intro it p nx xs L F r _ _ _ _ _ _ hk; omega
  | succ k ih =>
    intro it p nx xs L F r hh h0 hy hkn hf hev hk
    rw [collect]
    refine .step (sexpsNext_comp fuel hh h0 hy hkn hf) fun x L1 hq => ?_
    obtain ⟨a, it'⟩ := x
    obtain ⟨hi, F', nx', xs', hg, hh', hy', hle, hsub, htail⟩ := hq
    rcases hg.cases with ⟨rfl, h1, h2⟩ | ⟨c, z, rfl, h1, h2⟩
    · rw [List.head?_eq_none_iff] at h1
      rw [h1] at hev
      cases hev
      exact kidsDrop_comp hh' (.pure ⟨rfl, h2⟩)
    · obtain ⟨tl, htl⟩ := List.head?_eq_some_iff.mp h1
      rw [htl] at htail hk hev
      simp only [List.tail_cons] at htail
      have hhF : ∃ K, L1.Perm ((c, z) :: K) ∧ it'.Holds p nx' F K := by
        obtain ⟨q, K, h3, h4⟩ := hh'
        obtain ⟨K', h5, h6⟩ := (h4.perm h2 (.refl _)).under
        exact ⟨(it'.parent, .node p) :: K', by perms h3 h5, q, K', .refl _, h6⟩
      obtain ⟨K, hK, hhK⟩ := hhF
      have hm : (c, z) ∈ L1 := hK.mem_iff.mpr (List.mem_cons_self ..)
      rw [List.map_cons] at hev
      generalize hts : tl.map (fun e => e.green.tree) = ts at hev
      cases hev with
      | panic hc =>
        exact Comp.bind (g := fun _ : Option Int => (.panic : Res (List (Option Int)))) (hc hm rfl) fun _ _ _ e _ => by cases e
      | cons hc hcs =>
        subst hts
        refine .step (hc hm rfl) fun v L2 hq => ?_
        obtain ⟨rfl, h3⟩ := hq
        refine .drop (h3.trans hK) ?_
        refine .bind (ih hhK (by rw [hi]; nofun) (by rw [hi]; exact hy') (fun x hx => hkn x (hsub x hx)) (by omega)
          (by rw [htail]; exact hcs) (by rw [htail]; simp at hk; omega)) fun vs vs' L3 _ hq => ?_
        obtain ⟨rfl, h4⟩ := hq
        exact .pure ⟨rfl, h4⟩

theorem evalFile_comp (ck : Bool) {fuel : Nat} {ts : List Tree} (hr : ∀ t ∈ ts, Readable t)
    (hs : (Tree.node Kind.root.raw ts).size ≤ fuel) :
    ∃ r, EvaluatesAll ck (items ts) r ∧ ∀ {h : Nat} {e : SElem} {L : List (Nat × SElem)}, (h, e) ∈ L →
      e.green.tree = .node Kind.root.raw ts → Comp (evalFile ck fuel h) L r (Same L) := by
  rw [Tree.size] at hs
  have hlen := length_le_sizes ts
  obtain ⟨r, h1, h2⟩ := computesAll (ck := ck) (ev := sexpEval ck fuel) (ts := items ts) fun t ht => by
    obtain ⟨h1, h2⟩ := mem_items ht
    have := size_mem h1
    exact sexpEval_comp ck fuel t (hr t h1) h2 (by omega)
  refine ⟨r, h1, fun hm ht => ?_⟩
  obtain ⟨p, rfl, hp⟩ := selem_node ht
  refine .step (kindOf_comp (k := .root) hm (selem_kind ht)) fun k L' hq => ?_
  obtain ⟨rfl, h3⟩ := hq
  simp only [if_true]
  have hl := kidsOf_length hp
  refine kids_comp (h3.mem_iff.mpr hm) fun it L2 hh hi => ?_
  refine (collect_comp ck fuel fuel hh (fun _ => rfl) (by rw [hi]; exact yields_kids true p) (known_kids hp hr) (by omega)
    (by rw [kids_items hp]; exact h2) (Nat.lt_of_le_of_lt (List.length_filter_le ..) (by omega))).mono fun a b L3 _ hq => ?_
  exact ⟨hq.1, hq.2.trans h3⟩

end Rowan.SExpr
