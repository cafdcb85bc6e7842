import Verif.SExprLemmas
/-!
# S-expressions: the grammar is unambiguous; balanced parentheses; the lexer

Unless their comments cite lines of `/repo`, the definitions in this file are vocabulary of the proofs and model no code.
-/
namespace Rowan.SExpr

/-! ### Unambiguity -/

/-- Put one token into a stack of unfinished lists, the innermost first. -/
def feed : List (List Tree) → SyntaxKind × List Char → List (List Tree)
  | [], _ => []
  | f :: st, (k, s) =>
    if k = Kind.lParen.raw then [.token k s] :: f :: st
    else if k = Kind.rParen.raw then
      match st with
      | [] => [f ++ [.node Kind.error.raw [.token k s]]]
      | g :: st => (g ++ [.node Kind.list.raw (f ++ [.token k s])]) :: st
    else if k = Kind.word.raw then (f ++ [.node Kind.atom.raw [.token k s]]) :: st
    else (f ++ [.token k s]) :: st

/-- The end of the file. -/
def close (f : List Tree) : List (List Tree) → Tree
  | [] => .node Kind.root.raw f
  | g :: st => close (g ++ [.node Kind.list.raw f]) st

theorem Closed.feed {t : Tree} (h : Closed t) : ∀ f st, t.leaves.foldl feed (f :: st) = (f ++ [t]) :: st := by
  induction h with
  | space s => intro f st; rfl
  | junk s => intro f st; rfl
  | atom s => intro f st; rfl
  | list s s' ts _ ih =>
    intro f st
    have hts : ∀ (us : List Tree), (∀ u ∈ us, u ∈ ts) → ∀ g st, (Tree.leavess us).foldl SExpr.feed (g :: st) = (g ++ us) :: st := by
      intro us
      induction us with
      | nil => intro _ g st; simp
      | cons u us ihu =>
        intro hu g st
        rw [Tree.leavess_cons, List.foldl_append, ih u (hu u (by simp)), ihu fun v hv => hu v (by simp [hv])]
        simp
    simp only [Tree.leaves_node, Tree.leavess_cons, Tree.leaves_token, List.cons_append, List.nil_append, List.foldl_cons,
      Tree.leavess_append, List.foldl_append, Tree.leavess_nil, List.foldl_nil, List.append_nil]
    have e : SExpr.feed (f :: st) (Kind.lParen.raw, s) = [.token Kind.lParen.raw s] :: f :: st := by simp [SExpr.feed]
    rw [e, hts ts (fun u hu => hu)]
    simp [SExpr.feed, Kind.raw]

theorem closed_feed {us : List Tree} (h : ∀ t ∈ us, Closed t) (f : List Tree) (st : List (List Tree)) :
    (Tree.leavess us).foldl feed (f :: st) = (f ++ us) :: st := by
  induction us generalizing f with
  | nil => simp
  | cons u us ih =>
    rw [Tree.leavess_cons, List.foldl_append, (h u (by simp)).feed, ih fun v hv => h v (by simp [hv])]
    simp

/-- Close all. -/
def closeAll : List (List Tree) → Option Tree
  | [] => none
  | f :: st => some (close f st)

mutual
theorem Items.feed {us : List Tree} {n : Nat} (h : Items us n) (f : List Tree) (st : List (List Tree)) :
    closeAll ((Tree.leavess us).foldl feed (f :: st)) = some (close (f ++ us) st) := by
  match h with
  | .closed _ h => rw [closed_feed h]; rfl
  | .unclosed ts u n h hu =>
    rw [Tree.leavess_append, List.foldl_append, closed_feed h, Tree.leavess_cons, Tree.leavess_nil, List.append_nil,
      hu.feed, List.append_assoc]
theorem Unclosed.feed {u : Tree} {n : Nat} (h : Unclosed u n) (f : List Tree) (st : List (List Tree)) :
    closeAll (u.leaves.foldl feed (f :: st)) = some (close (f ++ [u]) st) := by
  match h with
  | .list s ts n h =>
    have e : SExpr.feed (f :: st) (Kind.lParen.raw, s) = [.token Kind.lParen.raw s] :: f :: st := by simp [SExpr.feed]
    simp only [Tree.leaves_node, Tree.leavess_cons, Tree.leaves_token, List.cons_append, List.nil_append, List.foldl_cons, e]
    rw [h.feed]
    rfl
end

theorem Tops.feed {ts : List Tree} {n : Nat} (h : Tops ts n) (f : List Tree) :
    (Tree.leavess ts).foldl feed [f] = [f ++ ts] := by
  induction h generalizing f with
  | nil => simp
  | closed h _ ih => rw [Tree.leavess_cons, List.foldl_append, h.feed, ih]; simp
  | stray s _ ih =>
    have e : SExpr.feed [f] (Kind.rParen.raw, s) = [f ++ [.node Kind.error.raw [.token Kind.rParen.raw s]]] := by
      simp [SExpr.feed, Kind.raw]
    rw [Tree.leavess_cons, List.foldl_append]
    simp only [Tree.leaves_node, Tree.leavess_cons, Tree.leaves_token, Tree.leavess_nil, List.append_nil, List.foldl_cons,
      List.foldl_nil, e]
    rw [ih]
    simp

theorem IsFile.feed {t : Tree} {n m : Nat} (h : IsFile t n m) : closeAll (t.leaves.foldl feed [[]]) = some t := by
  obtain ⟨ts, us, rfl, h1, h2⟩ := h
  rw [Tree.leaves_node, Tree.leavess_append, List.foldl_append, h1.feed, h2.feed]
  rfl

/-! ### Parentheses -/

/-- Depth and number of stray closing parentheses. -/
def scan (x : Nat × Nat) (k : SyntaxKind) : Nat × Nat :=
  if k = Kind.lParen.raw then (x.1 + 1, x.2)
  else if k = Kind.rParen.raw then (if x.1 = 0 then (0, x.2 + 1) else (x.1 - 1, x.2))
  else x

def scans (x : Nat × Nat) (l : List (SyntaxKind × List Char)) : Nat × Nat := l.foldl (fun x t => scan x t.1) x

@[simp] theorem scans_append (x a b) : scans x (a ++ b) = scans (scans x a) b := by simp [scans]
@[simp] theorem scans_nil (x) : scans x [] = x := rfl
@[simp] theorem scans_cons (x t l) : scans x (t :: l) = scans (scan x t.1) l := rfl

theorem Closed.scans {t : Tree} (h : Closed t) : ∀ x, scans x t.leaves = x := by
  induction h with
  | space s => intro x; simp [scan, Kind.raw]
  | junk s => intro x; simp [scan, Kind.raw]
  | atom s => intro x; simp [scan, Kind.raw]
  | list s s' ts _ ih =>
    intro x
    have hts : ∀ (us : List Tree), (∀ u ∈ us, u ∈ ts) → ∀ x, SExpr.scans x (Tree.leavess us) = x := by
      intro us
      induction us with
      | nil => intro _ x; simp
      | cons u us ihu =>
        intro hu x
        rw [Tree.leavess_cons, scans_append, ih u (hu u (by simp)), ihu fun v hv => hu v (by simp [hv])]
    simp [hts ts (fun u hu => hu)]
    simp [scan, Kind.raw]

theorem closed_scans {us : List Tree} (h : ∀ t ∈ us, Closed t) (x) : scans x (Tree.leavess us) = x := by
  induction us generalizing x with
  | nil => simp
  | cons u us ih =>
    rw [Tree.leavess_cons, scans_append, (h u (by simp)).scans, ih fun v hv => h v (by simp [hv])]

mutual
theorem Items.scans {us : List Tree} {n : Nat} (h : Items us n) (x : Nat × Nat) :
    scans x (Tree.leavess us) = (x.1 + n, x.2) := by
  match h with
  | .closed _ h => rw [closed_scans h]; rfl
  | .unclosed ts u n h hu =>
    rw [Tree.leavess_append, scans_append, closed_scans h, Tree.leavess_cons, Tree.leavess_nil, List.append_nil, hu.scans]
theorem Unclosed.scans {u : Tree} {n : Nat} (h : Unclosed u n) (x : Nat × Nat) :
    scans x u.leaves = (x.1 + n, x.2) := by
  match h with
  | .list s ts n h =>
    have e : SExpr.scan x Kind.lParen.raw = (x.1 + 1, x.2) := by simp [SExpr.scan]
    simp only [Tree.leaves_node, Tree.leavess_cons, Tree.leaves_token, List.cons_append, List.nil_append, scans_cons, e]
    rw [h.scans]
    simp; omega
end

theorem Tops.scans {ts : List Tree} {n : Nat} (h : Tops ts n) (x : Nat) :
    scans (0, x) (Tree.leavess ts) = (0, x + n) := by
  induction h generalizing x with
  | nil => simp
  | closed h _ ih => rw [Tree.leavess_cons, scans_append, h.scans, ih]
  | stray s _ ih =>
    rw [Tree.leavess_cons, scans_append]
    simp [SExpr.scan, Kind.raw, ih]; omega

theorem IsFile.scans {t : Tree} {n m : Nat} (h : IsFile t n m) : scans (0, 0) t.leaves = (m, n) := by
  obtain ⟨ts, us, rfl, h1, h2⟩ := h
  rw [Tree.leaves_node, Tree.leavess_append, scans_append, h1.scans, h2.scans]
  simp

theorem scan_raw (x : Nat × Nat) (k : Kind) : scan x k.raw =
    if k = .lParen then (x.1 + 1, x.2) else if k = .rParen then (if x.1 = 0 then (0, x.2 + 1) else (x.1 - 1, x.2)) else x := by
  cases k <;> simp [scan, Kind.raw]

theorem scans_mono (ts : List Tok) (x : Nat × Nat) : x.2 ≤ (scans x (raws ts)).2 := by
  induction ts generalizing x with
  | nil => simp
  | cons t ts ih =>
    rw [raws_cons, scans_cons]
    refine Nat.le_trans ?_ (ih _)
    rw [scan_raw]; repeat' split
    all_goals simp

/-- Number of tokens of kind `k`. -/
theorem scans_balanced (ts : List Tok) (d s : Nat) :
    scans (d, s) (raws ts) = (0, s) ↔
      (∀ n, ((ts.take n).map (·.1)).count .rParen ≤ d + ((ts.take n).map (·.1)).count .lParen) ∧
        (ts.map (·.1)).count .rParen = d + (ts.map (·.1)).count .lParen := by
  induction ts generalizing d with
  | nil => simp; omega
  | cons t ts ih =>
    obtain ⟨k, x⟩ := t
    have hsplit : ∀ (P : List Tok → Prop), (∀ n, P (((k, x) :: ts).take n)) ↔ P [] ∧ ∀ n, P ((k, x) :: ts.take n) := by
      intro P
      constructor
      · intro h; exact ⟨by simpa using h 0, fun n => by simpa using h (n + 1)⟩
      · rintro ⟨h0, h⟩ n
        cases n with
        | zero => simpa using h0
        | succ n => simpa using h n
    rw [raws_cons, scans_cons, scan_raw, hsplit fun l => (l.map (·.1)).count .rParen ≤ d + (l.map (·.1)).count .lParen]
    by_cases h1 : k = .lParen
    · subst h1
      simp only [if_true]
      rw [ih (d + 1)]
      simp only [List.map_cons, List.count_cons_self, List.count_cons_of_ne (show Kind.lParen ≠ .rParen by decide), List.map_nil,
        List.count_nil]
      constructor
      · rintro ⟨a, b⟩; exact ⟨⟨by omega, fun n => by have := a n; omega⟩, by omega⟩
      · rintro ⟨⟨_, a⟩, b⟩; exact ⟨fun n => by have := a n; omega, by omega⟩
    · by_cases h2 : k = .rParen
      · subst h2
        simp only [if_neg h1, if_true]
        simp only [List.map_cons, List.count_cons_self, List.count_cons_of_ne (show Kind.rParen ≠ .lParen by decide), List.map_nil,
          List.count_nil]
        cases d with
        | zero =>
          simp only [if_true]
          constructor
          · intro e
            have := scans_mono ts (0, s + 1)
            rw [e] at this; simp at this; omega
          · rintro ⟨⟨_, a⟩, _⟩
            have := a 0
            simp at this
        | succ d =>
          simp only [Nat.add_one_ne_zero, if_false, Nat.add_sub_cancel]
          rw [ih d]
          constructor
          · rintro ⟨a, b⟩; exact ⟨⟨by omega, fun n => by have := a n; omega⟩, by omega⟩
          · rintro ⟨⟨_, a⟩, b⟩; exact ⟨fun n => by have := a n; omega, by omega⟩
      · simp only [if_neg h1, if_neg h2]
        rw [ih d]
        simp only [List.map_cons, List.count_cons_of_ne h1, List.count_cons_of_ne h2, List.map_nil, List.count_nil]
        constructor
        · rintro ⟨a, b⟩; exact ⟨⟨by omega, a⟩, b⟩
        · rintro ⟨⟨_, a⟩, b⟩; exact ⟨a, b⟩

/-! ### The lexer -/

theorem lexLoop_text : ∀ (n : Nat) (cs : List Char), cs.length ≤ n → ((lexLoop n cs).map (·.2)).flatten = cs
  | 0, [], _ => rfl
  | _ + 1, [], _ => rfl
  | n + 1, c :: cs, h => by
    have hd : ∀ p, (cs.dropWhile p).length ≤ n := fun p => by
      have := (List.dropWhile_sublist p (l := cs)).length_le
      simp at h; omega
    rw [lexLoop]
    repeat' split
    · simp [lexLoop_text n cs (by simpa using h)]
    · simp [lexLoop_text n cs (by simpa using h)]
    · simp [lexLoop_text n _ (hd isSpace)]
    · simp [lexLoop_text n _ (hd isWord)]

theorem lexLoop_lexed : ∀ (n : Nat) (cs : List Char), ∀ t ∈ lexLoop n cs, Lexed t
  | 0, _, t, h => by simp [lexLoop] at h
  | _ + 1, [], t, h => by simp [lexLoop] at h
  | n + 1, c :: cs, t, h => by
    rw [lexLoop] at h
    split at h
    · rcases List.mem_cons.mp h with rfl | h
      · simp_all [Lexed]
      · exact lexLoop_lexed n _ t h
    · split at h
      · rcases List.mem_cons.mp h with rfl | h
        · simp_all [Lexed]
        · exact lexLoop_lexed n _ t h
      · split at h
        · rcases List.mem_cons.mp h with rfl | h
          · refine ⟨by simp, fun x hx => ?_⟩
            rcases List.mem_cons.mp hx with rfl | hx
            · assumption
            · exact List.all_eq_true.mp List.all_takeWhile x hx
          · exact lexLoop_lexed n _ t h
        · rcases List.mem_cons.mp h with rfl | h
          · refine ⟨by simp, fun x hx => ?_⟩
            rcases List.mem_cons.mp hx with rfl | hx
            · simp_all [isWord]
            · exact List.all_eq_true.mp List.all_takeWhile x hx
          · exact lexLoop_lexed n _ t h

theorem Lexed.isLexed {t : Tok} (h : Lexed t) : t.1.isLexed = true := by
  obtain ⟨k, s⟩ := t
  cases k <;> first | rfl | cases h

/-- The first character decides the kind of a token. -/
def charKind (c : Char) : Kind := if c = '(' then .lParen else if c = ')' then .rParen else if isSpace c then .whitespace else .word

theorem lexLoop_head {n : Nat} {cs : List Char} {t : Tok} {l : List Tok} (h : lexLoop n cs = t :: l) :
    ∃ c cs', cs = c :: cs' ∧ t.1 = charKind c := by
  cases n with
  | zero => simp [lexLoop] at h
  | succ n =>
    cases cs with
    | nil => simp [lexLoop] at h
    | cons c cs =>
      refine ⟨c, cs, rfl, ?_⟩
      rw [lexLoop] at h
      unfold charKind
      repeat' split at h
      all_goals (cases h; simp [*])

theorem dropWhile_head {p : Char → Bool} {cs cs' : List Char} {c : Char} (h : cs.dropWhile p = c :: cs') : p c = false := by
  have := List.head?_dropWhile_not p cs
  rw [h] at this
  simpa using this

theorem isWord_charKind {c : Char} : isWord c = true ↔ charKind c = .word := by
  unfold isWord charKind
  repeat' split
  all_goals simp_all

theorem isSpace_paren : isSpace '(' = false ∧ isSpace ')' = false := by decide

theorem isSpace_charKind {c : Char} : isSpace c = true ↔ charKind c = .whitespace := by
  unfold charKind
  repeat' split
  all_goals simp_all [isSpace_paren]

/-- No two runs of white space, and no two words, are next to each other. -/
theorem lexLoop_maximal : ∀ (n : Nat) (cs : List Char), Maximal (lexLoop n cs)
  | 0, _ => by intro a b x y e; simp [lexLoop] at e
  | _ + 1, [] => by intro a b x y e; simp [lexLoop] at e
  | n + 1, c :: cs => by
    have hcons : ∀ (t : Tok) (cs : List Char), (∀ c' cs', cs = c' :: cs' → t.1 = charKind c' → t.1 ≠ .whitespace ∧ t.1 ≠ .word) →
        Maximal (t :: lexLoop n cs) := by
      intro t cs ht a b x y e hxy
      cases a with
      | nil =>
        simp only [List.nil_append, List.cons.injEq] at e
        obtain ⟨rfl, e⟩ := e
        obtain ⟨c', cs', h1, h2⟩ := lexLoop_head e
        exact ht c' cs' h1 (hxy.trans h2)
      | cons a0 a =>
        simp only [List.cons_append, List.cons.injEq] at e
        exact lexLoop_maximal n cs a b x y e.2 hxy
    rw [lexLoop]
    repeat' split
    · exact hcons _ _ fun _ _ _ _ => ⟨by simp, by simp⟩
    · exact hcons _ _ fun _ _ _ _ => ⟨by simp, by simp⟩
    · refine hcons _ _ fun c' cs' e h => ?_
      have := dropWhile_head e
      rw [isSpace_charKind.mpr h.symm] at this
      cases this
    · refine hcons _ _ fun c' cs' e h => ?_
      have := dropWhile_head e
      rw [isWord_charKind.mpr h.symm] at this
      cases this

theorem Lexed.head {t : Tok} (h : Lexed t) : ∃ c cs, t.2 = c :: cs ∧ charKind c = t.1 ∧
    (t.1 = .whitespace → ∀ x ∈ cs, isSpace x = true) ∧ (t.1 = .word → ∀ x ∈ cs, isWord x = true) ∧
    (t.1 = .lParen ∨ t.1 = .rParen → cs = []) := by
  obtain ⟨k, s⟩ := t
  cases k with
  | lParen => exact ⟨'(', [], h, rfl, by simp, by simp, by simp⟩
  | rParen => exact ⟨')', [], h, rfl, by simp, by simp, by simp⟩
  | whitespace =>
    obtain ⟨h1, h2⟩ := h
    cases s with
    | nil => exact absurd rfl h1
    | cons c cs => exact ⟨c, cs, rfl, isSpace_charKind.mp (h2 c (by simp)), fun _ x hx => h2 x (by simp [hx]), by simp, by simp⟩
  | word =>
    obtain ⟨h1, h2⟩ := h
    cases s with
    | nil => exact absurd rfl h1
    | cons c cs => exact ⟨c, cs, rfl, isWord_charKind.mp (h2 c (by simp)), by simp, fun _ x hx => h2 x (by simp [hx]), by simp⟩
  | error => cases h
  | list => cases h
  | atom => cases h
  | root => cases h

theorem takeWhile_run {p : Char → Bool} {a b : List Char} (h : ∀ x ∈ a, p x = true) (hb : ∀ c ∈ b.head?, p c = false) :
    (a ++ b).takeWhile p = a ∧ (a ++ b).dropWhile p = b := by
  induction a with
  | nil =>
    cases b with
    | nil => simp
    | cons c b => simp [hb c (by simp)]
  | cons x a ih =>
    obtain ⟨h1, h2⟩ := ih fun y hy => h y (by simp [hy])
    simp [h x (by simp), h1, h2]

theorem lexLoop_unique : ∀ (n : Nat) (l : List Tok), (∀ t ∈ l, Lexed t) → Maximal l →
    ((l.map (·.2)).flatten).length ≤ n → lexLoop n ((l.map (·.2)).flatten) = l
  | 0, [], _, _, _ => rfl
  | _ + 1, [], _, _, _ => rfl
  | 0, t :: l, h, _, hn => by
    obtain ⟨c, cs, e, _⟩ := (h t (by simp)).head
    simp [e] at hn
  | n + 1, t :: l, h, hm, hn => by
    obtain ⟨c, cs, e, hk, h1, h2, h3⟩ := (h t (by simp)).head
    have hl := lexLoop_unique n l (fun x hx => h x (by simp [hx]))
      (fun a b x y ee => hm (t :: a) b x y (by simp [ee])) (by simp only [List.map_cons, List.flatten_cons, e, List.length_append, List.length_cons] at hn; omega)
    have hnext : ∀ c' ∈ ((l.map (·.2)).flatten).head?, t.1 = charKind c' → t.1 ≠ .whitespace ∧ t.1 ≠ .word := by
      intro c' hc' hkk
      cases l with
      | nil => simp at hc'
      | cons y l =>
        obtain ⟨d, ds, e', hk', _⟩ := (h y (by simp)).head
        simp [e'] at hc'
        subst hc'
        exact hm [] l t y rfl (hkk.trans hk')
    obtain ⟨k, s⟩ := t
    simp only at e hk h1 h2 h3 hnext
    subst e
    simp only [List.map_cons, List.flatten_cons, List.cons_append]
    rw [lexLoop]
    have hkk := hk
    unfold charKind at hk
    split
    · rename_i hc
      rw [if_pos hc] at hk
      obtain rfl := h3 (.inl hk.symm)
      rw [← hk, List.nil_append, hl]
    · rename_i hc
      rw [if_neg hc] at hk
      split
      · rename_i hc'
        rw [if_pos hc'] at hk
        obtain rfl := h3 (.inr hk.symm)
        rw [← hk, List.nil_append, hl]
      · rename_i hc'
        rw [if_neg hc'] at hk
        split
        · rename_i hs
          rw [if_pos hs] at hk
          obtain ⟨r1, r2⟩ := takeWhile_run (b := (l.map (·.2)).flatten) (h1 hk.symm) (fun c' hc' => by
            cases hq : isSpace c' with
            | false => rfl
            | true => exact absurd hk.symm (hnext c' hc' (by rw [isSpace_charKind.mp hq, hk])).1)
          rw [r1, r2, ← hk, hl]
        · rename_i hs
          rw [if_neg hs] at hk
          obtain ⟨r1, r2⟩ := takeWhile_run (b := (l.map (·.2)).flatten) (h2 hk.symm) (fun c' hc' => by
            cases hq : isWord c' with
            | false => rfl
            | true => exact absurd hk.symm (hnext c' hc' (by rw [isWord_charKind.mp hq, hk])).2)
          rw [r1, r2, ← hk, hl]

end Rowan.SExpr
