import Verif.Pratt.Sound

/-!
# Expressions: properties C29, C30, C54
-/

namespace Verif.Pratt

open Spec

namespace Spec

mutual
/-- the tree without the marks of parentheses -/
def strip : Expr → Expr
  | .id x => .id x
  | .num v => .num v
  | .par e => strip e
  | .un o e => .un o (strip e)
  | .post o e => .post o (strip e)
  | .tryE e => .tryE (strip e)
  | .bin o l r => .bin o (strip l) (strip r)
  | .tern c t f => .tern (strip c) (strip t) (strip f)
  | .call f as => .call (strip f) (strips as)
  | .idx a i => .idx (strip a) (strip i)
  | .mem b e f => .mem b (strip e) f
  | .cast t s e => .cast t s (strip e)
  | .lam ps b => .lam ps (strip b)
/-- the same for arguments -/
def strips : Args → Args
  | .nil => .nil
  | .cons e as => .cons (strip e) (strips as)
end

/-- the text `x = y = ... = z` -/
def chain (x : Nat) : List Nat → List Tok
  | [] => [tk (.ident x)]
  | y :: ys => tk (.ident x) :: tk (.op .asg) :: chain y ys

/-- what that text means in C -/
def chainTree (x : Nat) : List Nat → Expr
  | [] => .id x
  | y :: ys => .bin .asg (.id x) (chainTree y ys)

end Spec

/-! ## The tree is the one of the grammar -/

/-- C29: the parser accepts a text exactly if the grammar gives it a tree, returns that tree, and
leaves the text that does not continue it. -/
theorem parse_exact (ts rest : List Tok) (e : Expr) :
    parse zen ts = some (e, rest) ↔ der zen e 0 ts rest ∧ next zen rest = 0 :=
  parse_iff zen_wf e ts rest

/-- C29: there is one tree and one extent only. -/
theorem tree_unique (ts rest rest' : List Tok) (e e' : Expr) (h : der zen e 0 ts rest)
    (hn : next zen rest = 0) (h' : der zen e' 0 ts rest') (hn' : next zen rest' = 0) :
    e = e' ∧ rest = rest' := by
  have a := parse_complete zen_wf h hn
  have b := parse_complete zen_wf h' hn'
  rw [a] at b
  simpa using b

/-- C29: the levels are the rows of the operator table. -/
theorem levels (o : Op) (i : Nat) (row : List Op) (hi : table[i]? = some row) (ho : o ∈ row) :
    zen.prec o = i + 1 := by
  have hlt : i < 8 := by
    have := List.getElem?_eq_some_iff.mp hi
    simpa [table] using this.1
  rcases i with _ | _ | _ | _ | _ | _ | _ | _ | i <;> try omega
  all_goals
    simp [table] at hi
    subst hi
    simp at ho
    try (rcases ho with rfl | rfl | rfl | rfl | rfl | rfl | rfl | rfl | rfl | rfl | rfl | rfl <;> rfl)
    try (rcases ho with rfl | rfl | rfl | rfl | rfl | rfl | rfl | rfl <;> rfl)
    try (rcases ho with rfl | rfl | rfl | rfl <;> rfl)
    try (rcases ho with rfl | rfl | rfl <;> rfl)
    try (rcases ho with rfl | rfl <;> rfl)
    try (subst ho; rfl)

/-- C29: what stands at a level associates to the left, whatever the operators and however many. -/
theorem left_assoc (ts rest m : List Tok) (l r : Expr) (o : Op) (hb : zen.prec o ≠ 0)
    (hl : der zen l (zen.prec o) ts (tk (.op o) :: m)) (hr : der zen r (zen.prec o + 1) m rest) :
    der zen (.bin o l r) (zen.prec o) ts rest ∧
      (next zen rest = 0 → parse zen ts = some (.bin o l r, rest)) := by
  have hi : isInc o = false := by
    rcases o with b | _ | b | _ | _ | _ | _ <;> first | rfl | exact absurd rfl hb
  have hright : zen.right (zen.prec o) = false := by
    have h2 := zen_wf.two o
    have h9 := zen_wf.prec o
    have : zen.un = 9 := rfl
    simp only [zen, Bool.or_eq_false_iff, beq_eq_false_iff_ne, ne_eq]
    exact ⟨h2, by simp only [zen] at h9; omega⟩
  have hd : der zen (.bin o l r) (zen.prec o) ts rest := by
    simp only [der, hright, Bool.false_eq_true, if_false]
    exact ⟨Nat.le_refl _, hb, hi, false, m, rfl, hl, hr⟩
  exact ⟨hd, fun h => parse_complete zen_wf (der_mono hd (Nat.zero_le _)) h⟩

/-! ## The printed text has the same tree in C -/

mutual
/-- the tree C gives to the printed text -/
def cst : Expr → Expr
  | .id x => .id x
  | .num v => .num v
  | .par e => cst e
  | .un o e => .par (.un o (cst e))
  | .post o e => .par (.post o (cst e))
  | .bin o l r => .par (.bin o (cst l) (cst r))
  | .tern c t f => .par (.tern (.par (cst c)) (.par (cst t)) (.par (cst f)))
  | .call f as => .call (cst f) (csts as)
  | .idx a i => .idx (cst a) (cst i)
  | .mem b e f => .mem b (cst e) f
  | .tryE e => .tryE (cst e)
  | .cast t s e => .cast t s (cst e)
  | .lam ps b => .lam ps (cst b)
/-- the same for arguments -/
def csts : Args → Args
  | .nil => .nil
  | .cons e as => .cons (cst e) (csts as)
end

mutual
theorem cst_der : (e : Expr) → plain e = true → ∀ (p : Nat) (rest : List Tok),
    der cLang (cst e) p (print e ++ rest) rest
  | .id x, _, p, rest => by
    simp only [cst, der, print, tk, List.cons_append, List.nil_append]
    exact ⟨false, rfl, fun h => absurd h (by decide)⟩
  | .num v, _, p, rest => by
    simp only [cst, der, print, tk, List.cons_append, List.nil_append]
    exact ⟨false, rfl⟩
  | .par e, h, p, rest => by
    simp only [cst, print]
    exact cst_der e (by simpa [plain] using h) p rest
  | .un o e, h, p, rest => by
    simp only [plain, Bool.and_eq_true] at h
    simp only [cst, der, print, tk, List.cons_append, List.append_assoc, List.nil_append]
    exact ⟨false, false, _, rfl, fun hx => absurd hx (by decide), Nat.zero_le _, h.1, false, _, rfl,
      cst_der e h.2 _ _⟩
  | .post o e, h, p, rest => by
    simp only [plain, Bool.and_eq_true] at h
    simp only [cst, der, print, tk, List.cons_append, List.append_assoc, List.nil_append]
    exact ⟨false, false, _, rfl, fun hx => absurd hx (by decide), h.1, false, rfl,
      cst_der e h.2 _ _⟩
  | .bin o l r, h, p, rest => by
    simp only [plain, Bool.and_eq_true, bne_iff_ne] at h
    have hi : isInc o = false := by
      rcases o with b | _ | b | _ | _ | _ | _ <;> first | rfl | exact absurd rfl h.1.1
    simp only [cst, der, print, tk, List.cons_append, List.append_assoc, List.nil_append]
    exact ⟨false, false, _, rfl, fun hx => absurd hx (by decide), Nat.zero_le _, h.1.1, hi, false,
      _, rfl, cst_der l h.1.2 _ _, cst_der r h.2 _ _⟩
  | .tern c t f, h, p, rest => by
    simp only [plain, Bool.and_eq_true] at h
    simp only [cst, der, print, tk, List.cons_append, List.append_assoc, List.nil_append]
    refine ⟨false, false, _, rfl, fun hx => absurd hx (by decide), Nat.zero_le _, false, false, _,
      _, rfl, ⟨false, false, _, rfl, fun hx => absurd hx (by decide), cst_der c h.1.1 _ _⟩,
      ⟨false, false, _, rfl, fun hx => absurd hx (by decide), cst_der t h.1.2 _ _⟩,
      ⟨false, false, _, rfl, fun hx => absurd hx (by decide), cst_der f h.2 _ _⟩⟩
  | .call f as, h, p, rest => by
    simp only [plain, Bool.and_eq_true] at h
    simp only [cst, der, print, tk, List.cons_append, List.append_assoc]
    exact ⟨false, _, cst_der f h.1 _ _, csts_ders as h.2 true (by simp) rest⟩
  | .idx a i, h, p, rest => by
    simp only [plain, Bool.and_eq_true] at h
    simp only [cst, der, print, tk, List.cons_append, List.append_assoc, List.nil_append]
    exact ⟨false, false, _, cst_der a h.1 _ _, cst_der i h.2 _ _⟩
  | .mem b e f, h, p, rest => by
    simp only [plain] at h
    simp only [cst, der, print, tk, List.cons_append, List.append_assoc, List.nil_append]
    exact ⟨false, false, cst_der e h _ _⟩
  | .tryE _, h, _, _ => by simp [plain] at h
  | .cast _ _ _, h, _, _ => by simp [plain] at h
  | .lam _ _, h, _, _ => by simp [plain] at h
theorem csts_ders : (as : Args) → plains as = true → ∀ (first : Bool), (as = .nil → first = true) →
    ∀ (rest : List Tok), ders cLang (csts as) first (prints as ++ rest) rest
  | .nil, _, first, hf, rest => by
    simp only [csts, ders, prints, tk, List.cons_append, List.nil_append]
    exact ⟨hf rfl, false, rfl⟩
  | .cons e .nil, h, _, _, rest => by
    simp only [plains, Bool.and_eq_true] at h
    simp only [csts, ders, prints, tk, List.cons_append, List.append_assoc, List.nil_append]
    exact ⟨false, cst_der e h.1 _ _⟩
  | .cons e (.cons e' as), h, _, _, rest => by
    have h' : plain e = true ∧ plains (.cons e' as) = true := by
      simpa only [plains, Bool.and_eq_true] using h
    have ih := csts_ders (.cons e' as) h'.2 false (by simp) rest
    simp only [csts] at ih ⊢
    simp only [ders, prints, tk, List.cons_append, List.append_assoc]
    exact ⟨false, _, cst_der e h'.1 _ _, ih⟩
end

mutual
theorem strip_cst : (e : Expr) → strip (cst e) = strip e
  | .id _ | .num _ => rfl
  | .par e => by simp only [cst, strip, strip_cst e]
  | .un o e => by simp only [cst, strip, strip_cst e]
  | .post o e => by simp only [cst, strip, strip_cst e]
  | .bin o l r => by simp only [cst, strip, strip_cst l, strip_cst r]
  | .tern c t f => by simp only [cst, strip, strip_cst c, strip_cst t, strip_cst f]
  | .call f as => by simp only [cst, strip, strip_cst f, strips_csts as]
  | .idx a i => by simp only [cst, strip, strip_cst a, strip_cst i]
  | .mem b e f => by simp only [cst, strip, strip_cst e]
  | .tryE e => by simp only [cst, strip, strip_cst e]
  | .cast t s e => by simp only [cst, strip, strip_cst e]
  | .lam ps b => by simp only [cst, strip, strip_cst b]
theorem strips_csts : (as : Args) → strips (csts as) = strips as
  | .nil => rfl
  | .cons e as => by simp only [csts, strips, strip_cst e, strips_csts as]
end

theorem strip_pipeInto (l r : Expr) (hl : strip l = l) (hr : strip r = r) :
    strip (pipeInto l r) = pipeInto l r := by
  unfold pipeInto
  split
  · rename_i f as
    simp only [strip, Expr.call.injEq] at hr
    simp only [strip, strips, hl, hr]
  · simp only [strip, strips, hl, hr]

mutual
theorem strip_node : (e : Expr) → strip (node e) = node e
  | .id _ | .num _ => rfl
  | .par e => by simp only [node, strip_node e]
  | .un o e => by simp only [node, strip, strip_node e]
  | .post o e => by simp only [node, strip, strip_node e]
  | .bin o l r => by
    have hl := strip_node l
    have hr := strip_node r
    rcases o with b | _ | b | _ | _ | _ | _
    · cases b <;> simp only [node, strip, hl, hr] <;> exact strip_pipeInto _ _ hl hr
    all_goals simp only [node, strip, hl, hr]
  | .tern c t f => by simp only [node, strip, strip_node c, strip_node t, strip_node f]
  | .call f as => by simp only [node, strip, strip_node f, strips_nodes as]
  | .idx a i => by simp only [node, strip, strip_node a, strip_node i]
  | .mem b e f => by simp only [node, strip, strip_node e]
  | .tryE e => by simp only [node, strip, strip_node e]
  | .cast t s e => by simp only [node, strip, strip_node e]
  | .lam ps b => by simp only [node, strip, strip_node b]
theorem strips_nodes : (as : Args) → strips (nodes as) = nodes as
  | .nil => rfl
  | .cons e as => by simp only [nodes, strips, strip_node e, strips_nodes as]
end

theorem c_parse (n : Expr) (h : plain n = true) (rest : List Tok) (hr : next cLang rest = 0) :
    parse cLang (print n ++ rest) = some (cst n, rest) :=
  parse_complete c_wf (cst_der n h 0 rest) hr

/-- C29: a C compiler reads the printed text of a node as that node, whatever follows that does not
continue an expression. -/
theorem print_roundtrip (e : Expr) (h : plain (node e) = true) (rest : List Tok)
    (hr : next cLang rest = 0) :
    ∃ t, parse cLang (print (node e) ++ rest) = some (t, rest) ∧ strip t = node e :=
  ⟨_, c_parse _ h rest hr, by rw [strip_cst, strip_node]⟩

/-! ## Where the grammar is not the expected one -/

/-- C29: `(a) * b` with a variable in parentheses is a cast of a dereference, not a product
(likewise `(a) & b`, `(a) (b)`), for all names and operands. -/
theorem paren_times_violated (a b : Nat) (o : Op) (ho : o = .bin .mul ∨ o = .bin .band) :
    parse zen [tk .lpar, tk (.ident a), tk .rpar, tk (.op o), tk (.ident b)] =
      some (.cast a 0 (.un o (.id b)), []) := by
  refine parse_complete zen_wf ?_ rfl
  have hp : isPrefix o = true := by rcases ho with rfl | rfl <;> rfl
  have hc : castLook [tk (.ident a), tk .rpar, tk (.op o), tk (.ident b)] =
      some (a, 0, [tk (.op o), tk (.ident b)]) := by rcases ho with rfl | rfl <;> rfl
  simp only [der]
  exact ⟨Nat.zero_le _, rfl, false, _, _, rfl, rfl, hc, Nat.le_refl _, hp, false, _, rfl, false,
    rfl, by simp⟩

/-- C29: with another operator it is the operator: `(a) + b`, `(a) / b`. -/
theorem paren_plus (a b : Nat) (o : BOp) (ho : o ∉ [.mul, .band]) :
    parse zen [tk .lpar, tk (.ident a), tk .rpar, tk (.op (.bin o)), tk (.ident b)] =
      some (.bin (.bin o) (.par (.id a)) (.id b), []) := by
  refine parse_complete zen_wf ?_ rfl
  have hc : castLook [tk (.ident a), tk .rpar, tk (.op (.bin o)), tk (.ident b)] = none := by
    cases o <;> first | rfl | simp at ho
  have hp : zen.prec (.bin o) ≠ 0 := by cases o <;> decide
  have hk : ∀ x, der zen (.par (.id a)) x
      [tk .lpar, tk (.ident a), tk .rpar, tk (.op (.bin o)), tk (.ident b)]
      [⟨.op (.bin o), false⟩, tk (.ident b)] := fun x => by
    simp only [der]
    exact ⟨false, false, _, rfl, fun _ => ⟨rfl, hc⟩, false, rfl, by simp⟩
  simp only [der]
  refine ⟨Nat.zero_le _, hp, rfl, false, [tk (.ident b)], rfl, ?_, ?_⟩
  · simpa only [der] using hk 0
  · exact ⟨false, rfl, by simp⟩

/-- C29: `r? - 1` (unwrap `r`, subtract) is not accepted: the `?` is taken for a ternary, whatever
follows. -/
theorem try_minus_violated (r v : Nat) (stop : List Tok)
    (hs : ∀ t q, stop = t :: q → t.k = .other) :
    parse zen (tk (.ident r) :: tk .quest :: tk (.op (.bin .sub)) :: tk (.num v) :: stop) = none := by
  have hstop : stop = [] ∨ ∃ b q, stop = ⟨.other, b⟩ :: q := by
    rcases stop with _ | ⟨⟨k, b⟩, q⟩
    · exact .inl rfl
    · have hk : k = .other := hs _ _ rfl
      exact .inr ⟨b, q, by rw [hk]⟩
  have hlen : 3 * (tk (.ident r) :: tk .quest :: tk (.op (.bin .sub)) :: tk (.num v) :: stop).length + 1
      = (3 * stop.length + 9) + 4 := by simp; omega
  unfold parse
  rw [hlen]
  rcases hstop with rfl | ⟨b, q, rfl⟩ <;>
  simp [parseN, loop, tk, isPrefix, zen, zenTern, G.call]

/-- C29: in `a ? ++b : c` the `?` is not taken for a ternary; the expression ends before `b`. -/
theorem ternary_increment_violated (a b c : Nat) (o : Op) (ho : isInc o = true) :
    parse zen [tk (.ident a), tk .quest, tk (.op o), tk (.ident b), tk .colon, tk (.ident c)] =
      some (.post o (.tryE (.id a)), [tk (.ident b), tk .colon, tk (.ident c)]) := by
  refine parse_complete zen_wf ?_ rfl
  simp only [der]
  refine ⟨ho, false, by simp, ?_, false, false, rfl, by simp⟩
  cases o <;> first | rfl | simp [isInc] at ho

/-- C29: an expression ends before `+`, `-`, `*` or `&` on a new line, whatever stands on the
continuation line. -/
theorem newline_ends_violated (a : Nat) (o : Op) (ho : zen.brk o = true) (r : List Tok) :
    parse zen (tk (.ident a) :: ⟨.op o, true⟩ :: r) = some (.id a, ⟨.op o, true⟩ :: r) := by
  refine parse_complete zen_wf ?_ ?_
  · simp only [der]
    exact ⟨false, rfl, by simp⟩
  · simp [next, ho]

/-- C29: but not before another operator: `a` newline `/ b`. -/
theorem newline_continues (a b : Nat) (o : Op) (hp : zen.prec o ≠ 0) (ho : zen.brk o = false)
    (nl : Bool) : parse zen [tk (.ident a), ⟨.op o, nl⟩, tk (.ident b)] =
      some (.bin o (.id a) (.id b), []) := by
  refine parse_complete zen_wf ?_ rfl
  have hi : isInc o = false := by
    rcases o with b | _ | b | _ | _ | _ | _ <;> first | rfl | exact absurd rfl hp
  simp only [der]
  exact ⟨Nat.zero_le _, hp, hi, nl, _, by simp [ho], ⟨false, rfl, by simp⟩, false, rfl, by simp⟩

/-- C29: the operators `|`, `^`, `&`, `<<`, `>>` stand at the level of `+`, so the same tokens mean
something else than in C: `a << b + c` is `(a << b) + c`. -/
theorem shift_differs_from_c (a b c : Nat) :
    parse zen [tk (.ident a), tk (.op (.bin .shl)), tk (.ident b), tk (.op (.bin .add)), tk (.ident c)]
      = some (.bin (.bin .add) (.bin (.bin .shl) (.id a) (.id b)) (.id c), []) ∧
    parse cLang [tk (.ident a), tk (.op (.bin .shl)), tk (.ident b), tk (.op (.bin .add)), tk (.ident c)]
      = some (.bin (.bin .shl) (.id a) (.bin (.bin .add) (.id b) (.id c)), []) := by
  constructor <;> simp [parse, parseN, loop, tk, zen, cLang, zenPrec, zenBrk, isInc, G.rhs]

/-! ## Chains of assignments -/

theorem chain_der (xs : List Nat) : ∀ (l : Expr) (ts rest : List Tok), next zen rest = 0 →
    (∀ y ys, xs = y :: ys → der zen l 1 ts (tk (.op .asg) :: (chain y ys ++ rest))) →
    (xs = [] → der zen l 1 ts rest) →
    der zen (xs.foldl (fun l y => .bin .asg l (.id y)) l) 1 ts rest := by
  induction xs with
  | nil => intro l ts rest _ _ h; exact h rfl
  | cons y ys ih =>
    intro l ts rest hn h _
    have h0 := h y ys rfl
    simp only [List.foldl_cons]
    have hr : ∀ b' r, rest ≠ ⟨.arrow, b'⟩ :: r := by
      rintro b' r rfl
      simp [next, zen, G.call] at hn
    cases ys with
    | nil =>
      refine ih _ ts rest hn (by simp) fun _ => ?_
      simp only [der]
      simp only [chain, List.cons_append, List.nil_append] at h0
      exact ⟨Nat.le_refl _, by decide, rfl, false, _, rfl, h0, false, rfl, fun _ => hr⟩
    | cons z zs =>
      refine ih _ ts rest hn (fun y' ys' he => ?_) (by simp)
      obtain ⟨rfl, rfl⟩ : z = y' ∧ zs = ys' := by simpa using he
      simp only [der]
      simp only [chain, List.cons_append] at h0
      exact ⟨Nat.le_refl _, by decide, rfl, false, _, rfl, h0, false, rfl, by simp [tk]⟩

theorem chain_parse (x : Nat) (xs : List Nat) (rest : List Tok) (hn : next zen rest = 0) :
    parse zen (chain x xs ++ rest) =
      some (xs.foldl (fun l y => .bin .asg l (.id y)) (.id x), rest) := by
  have hr : ∀ b' r, rest ≠ ⟨.arrow, b'⟩ :: r := by
    rintro b' r rfl
    simp [next, zen, G.call] at hn
  refine parse_complete zen_wf (der_mono (p := 1) (chain_der xs _ _ _ hn ?_ ?_) (by omega)) hn
  · rintro y ys rfl
    simp only [der, chain, List.cons_append]
    exact ⟨false, rfl, by simp [tk]⟩
  · rintro rfl
    simp only [der, chain, List.cons_append, List.nil_append]
    exact ⟨false, rfl, fun _ => hr⟩

theorem lvalue_cst (e : Expr) : lvalue (cst e) = lvalue e := by
  induction e using Expr.rec (motive_2 := fun _ => True) <;> first | trivial | skip
  all_goals first
    | rfl
    | (simp only [cst, lvalue]; done)
    | (rename_i ih; simpa only [cst, lvalue] using ih)
    | skip
  rename_i o e _
  rcases o with b | _ | b | _ | _ | _ | _ <;> (try cases b) <;> rfl

mutual
theorem assignable_cst : (e : Expr) → assignable (cst e) = assignable e
  | .id _ | .num _ => rfl
  | .par e => by simp only [cst, assignable, assignable_cst e]
  | .un o e => by simp only [cst, assignable, assignable_cst e]
  | .post o e => by simp only [cst, assignable, assignable_cst e]
  | .bin o l r => by
    simp only [cst, assignable, assignable_cst l, assignable_cst r, lvalue_cst]
  | .tern c t f => by simp only [cst, assignable, assignable_cst c, assignable_cst t, assignable_cst f]
  | .call f as => by simp only [cst, assignable, assignable_cst f, assignables_csts as]
  | .idx a i => by simp only [cst, assignable, assignable_cst a, assignable_cst i]
  | .mem b e f => by simp only [cst, assignable, assignable_cst e]
  | .tryE e => by simp only [cst, assignable, assignable_cst e]
  | .cast t s e => by simp only [cst, assignable, assignable_cst e]
  | .lam ps b => by simp only [cst, assignable, assignable_cst b]
theorem assignables_csts : (as : Args) → assignables (csts as) = assignables as
  | .nil => rfl
  | .cons e as => by simp only [csts, assignables, assignable_cst e, assignables_csts as]
end

theorem node_chain (xs : List Nat) : ∀ l, node (xs.foldl (fun l y => .bin .asg l (.id y)) l) =
    xs.foldl (fun l y => .bin .asg l (.id y)) (node l) := by
  induction xs with
  | nil => intro l; rfl
  | cons y ys ih => intro l; simp only [List.foldl_cons, ih, node]

theorem plain_chain (xs : List Nat) : ∀ l, plain l = true →
    plain (xs.foldl (fun l y => .bin .asg l (.id y)) l) = true := by
  induction xs with
  | nil => intro l h; exact h
  | cons y ys ih =>
    intro l h
    refine ih _ ?_
    simp only [plain, h]
    decide

theorem assignable_chain (xs : List Nat) : ∀ l, assignable l = false →
    assignable (xs.foldl (fun l y => .bin .asg l (.id y)) l) = false := by
  induction xs with
  | nil => intro l h; exact h
  | cons y ys ih =>
    intro l h
    refine ih _ ?_
    simp [assignable, h]

/-- C30: every chain of two or more assignments is accepted, is not the tree C gives it, and the C
text printed for it assigns to a value that is no lvalue, which C rejects. -/
theorem assign_chain_violated (x y z : Nat) (zs : List Nat) (rest : List Tok)
    (hn : next zen rest = 0) :
    ∃ e, parse zen (chain x (y :: z :: zs) ++ rest) = some (e, rest) ∧
      e ≠ chainTree x (y :: z :: zs) ∧
      ∃ t, parse cLang (print (node e)) = some (t, []) ∧ assignable t = false := by
  refine ⟨_, chain_parse _ _ _ hn, ?_, ?_⟩
  · intro h
    simp only [List.foldl_cons, chainTree] at h
    have : ∀ (xs : List Nat) (l : Expr) (q : Expr), lvalue l = false →
        xs.foldl (fun l y => .bin .asg l (.id y)) l ≠ .bin .asg (.id x) q ∨ xs = [] := by
      intro xs
      induction xs with
      | nil => intro l q _; exact .inr rfl
      | cons w ws ih =>
        intro l q hl
        refine .inl fun he => ?_
        simp only [List.foldl_cons] at he
        rcases ih (.bin .asg l (.id w)) q rfl with h' | rfl
        · exact h' he
        · simp only [List.foldl_nil, Expr.bin.injEq] at he
          rw [he.2.1] at hl
          simp [lvalue] at hl
    rcases this (z :: zs) (.bin .asg (.id x) (.id y)) (.bin .asg (.id y) (chainTree z zs)) rfl with h' | h'
    · exact h' h
    · simp at h'
  · rw [node_chain]
    refine ⟨_, by simpa using c_parse _ (plain_chain _ _ rfl) [] rfl, ?_⟩
    rw [assignable_cst]
    simp only [node]
    exact assignable_chain _ _ rfl

/-- C30: a text that assigns once is the assignment, and C accepts the printed text if the target is
an lvalue and the operands are accepted.  Missing: chains. -/
theorem assign_single_partial (ts m rest : List Tok) (l r : Expr)
    (hl : der zen l 2 ts (tk (.op .asg) :: m)) (hr : der zen r 2 m rest) (hn : next zen rest = 0)
    (hp : plain (node l) = true ∧ plain (node r) = true) (hv : lvalue (node l) = true)
    (ha : assignable (node l) = true ∧ assignable (node r) = true) :
    parse zen ts = some (.bin .asg l r, rest) ∧
      ∃ t, parse cLang (print (node (.bin .asg l r))) = some (t, []) ∧ assignable t = true ∧
        strip t = .bin .asg (node l) (node r) := by
  refine ⟨(left_assoc ts rest m l r .asg (by decide) (der_mono hl (by decide)) hr).2 hn, ?_⟩
  have hpl : plain (node (.bin .asg l r)) = true := by
    simp only [node, plain, hp.1, hp.2]; decide
  refine ⟨_, by simpa using c_parse _ hpl [] rfl, ?_, by rw [strip_cst, strip_node]; rfl⟩
  rw [assignable_cst]
  simp [node, assignable, hv, ha]

/-! ## Compound assignment -/

/-- C54: the node of `l op= r` evaluates `l` twice, so whatever `l` does is done twice. -/
theorem compound_effects (b : BOp) (l r : Expr) :
    effects (node (.bin (.asgB b) l r)) = effects (node l) ++ (effects (node l) ++ effects (node r)) := by
  simp only [node, effects]

/-- C54: if the target contains a call or an increment, some effect happens more often than it is
written. -/
theorem compound_twice_violated (b : BOp) (l r e : Expr) (he : e ∈ effects (node l)) :
    (effects (node (.bin (.asgB b) l r))).count e >
      (effects (node l)).count e + (effects (node r)).count e := by
  rw [compound_effects]
  have := List.count_pos_iff.mpr he
  simp only [List.count_append]
  omega

/-- C54: without such a target, each effect happens as often as written.  Missing: targets with
effects. -/
theorem compound_once_partial (b : BOp) (l r : Expr) (h : effects (node l) = []) :
    effects (node (.bin (.asgB b) l r)) = effects (node l) ++ effects (node r) := by
  rw [compound_effects, h]
  rfl

/-! ## Which tokens are prefix and postfix operators, and parameters of lambdas -/

/-- C29: `x++` and `x--` are postfix expressions, also after a line break. -/
theorem increment_postfix (x : Nat) (o : Op) (ho : o ∈ [Op.inc, Op.dec]) (b : Bool)
    (rest : List Tok) (hn : next zen rest = 0) :
    parse zen (tk (.ident x) :: ⟨.op o, b⟩ :: rest) = some (.post o (.id x), rest) := by
  refine parse_complete zen_wf ?_ hn
  simp only [der]
  refine ⟨?_, b, ?_, false, rfl, by simp⟩
  · simp at ho; rcases ho with rfl | rfl <;> rfl
  · simp at ho; rcases ho with rfl | rfl <;> cases b <;> rfl

/-- C29: the prefix operators are `-`, `*`, `&`, `&&`, `!`, `~`, `++` and `--`; before any other
operator an expression does not begin. -/
theorem prefix_operators (x : Nat) (o : Op) (b : Bool) (rest : List Tok)
    (hn : next zen rest = 0) (ha : ∀ b' r, rest ≠ ⟨.arrow, b'⟩ :: r) :
    parse zen (⟨.op o, b⟩ :: tk (.ident x) :: rest) =
      if o ∈ [Op.bin .sub, .bin .mul, .bin .band, .bin .and, .not, .tilde, .inc, .dec] then
        some (.un o (.id x), rest) else none := by
  split
  · rename_i h
    refine parse_complete zen_wf ?_ hn
    simp only [der]
    refine ⟨by decide, ?_, b, _, rfl, false, rfl, fun _ => ha⟩
    simp at h
    rcases h with rfl | rfl | rfl | rfl | rfl | rfl | rfl | rfl <;> rfl
  · rename_i h
    have hp : isPrefix o = false := by
      rcases o with c | _ | c | _ | _ | _ | _ <;> (try cases c) <;>
        first | rfl | (exfalso; exact h (by decide))
    simp only [parse, parseN, hp, Bool.false_eq_true, if_false]

/-- the text of a parameter list after `(`, with `) ->` -/
def paramText : List Nat → List Tok
  | [] => [tk .rpar, tk .arrow]
  | [x] => [tk (.ident x), tk .rpar, tk .arrow]
  | x :: xs => tk (.ident x) :: tk .comma :: paramText xs

theorem lamNames_params (x : Nat) (xs : List Nat) (m : List Tok) :
    lamNames (paramText (x :: xs) ++ m) = some (x :: xs, m) := by
  induction xs generalizing x with
  | nil => rfl
  | cons y ys ih =>
    show ((lamNames (paramText (y :: ys) ++ m)).map fun q => (x :: q.1, q.2)) = _
    rw [ih]
    rfl

/-- C29: `(x, y, ...) -> body` is a lambda with exactly these parameters, in order. -/
theorem lambda_params (xs : List Nat) (body : Expr) (m rest : List Tok)
    (hb : der zen body 0 m rest) (hn : next zen rest = 0) :
    parse zen (tk .lpar :: (paramText xs ++ m)) = some (.lam xs body, rest) := by
  refine parse_complete zen_wf ?_ hn
  simp only [der]
  refine ⟨rfl, hn, m, .inl ⟨false, _, rfl, ?_⟩, hb⟩
  cases xs with
  | nil => rfl
  | cons x xs =>
    have h := lamNames_params x xs m
    cases xs <;> exact h

/-- the text of a cast after `(`: a type, stars, `)` -/
def castText (x k : Nat) : List Tok := tk (.ident x) :: (List.replicate k (tk (.op (.bin .mul))) ++ [tk .rpar])

theorem stars_castText (k : Nat) (m : List Tok) :
    stars (List.replicate k (tk (.op (.bin .mul))) ++ tk .rpar :: m) = (k, tk .rpar :: m) := by
  induction k with
  | zero => rfl
  | succ k ih =>
    show ((stars (List.replicate k (tk (.op (.bin .mul))) ++ tk .rpar :: m)).1 + 1, _) = _
    rw [ih]
    exact congrArg (fun q => (k + 1, Prod.snd q)) ih

/-- C29: `(T**) e` is a cast of `e` to the type with these stars, if `e` begins with a number, a name, `(`, `&`, `*` or `!`. -/
theorem cast_operand (x k : Nat) (t : Tok) (e : Expr) (m rest : List Tok)
    (ht : (∃ v, t.k = .num v) ∨ (∃ y, t.k = .ident y) ∨ t.k = .lpar ∨ t.k = .op (.bin .band) ∨ t.k = .op (.bin .mul) ∨ t.k = .op .not)
    (hb : der zen e zen.un (t :: m) rest) (hn : next zen rest = 0) :
    parse zen (tk .lpar :: (castText x k ++ t :: m)) = some (.cast x k e, rest) := by
  refine parse_complete zen_wf ?_ hn
  have hs := stars_castText k (t :: m)
  have e1 : castText x k ++ t :: m = tk (.ident x) :: (List.replicate k (tk (.op (.bin .mul))) ++ tk .rpar :: t :: m) := by
    simp [castText]
  have hc : castLook (castText x k ++ t :: m) = some (x, k, t :: m) := by
    rw [e1]
    show (match (stars (List.replicate k (tk (.op (.bin .mul))) ++ tk .rpar :: t :: m)).2 with
      | ⟨.rpar, _⟩ :: t' :: r' =>
        if afterCast t'.k then some (x, (stars (List.replicate k (tk (.op (.bin .mul))) ++ tk .rpar :: t :: m)).1, t' :: r') else none
      | _ => none) = _
    rw [hs]
    have ha : afterCast t.k = true := by
      rcases ht with ⟨v, h⟩ | ⟨y, h⟩ | h | h | h | h <;> rw [h] <;> rfl
    show (if afterCast t.k then some (x, k, t :: m) else none) = _
    rw [if_pos ha]
  have hl : lamLook (castText x k ++ t :: m) = none := by
    rw [e1]
    obtain ⟨tk', nl⟩ := t
    cases k with
    | zero => rcases ht with ⟨v, h⟩ | ⟨y, h⟩ | h | h | h | h <;> (simp only at h; subst h; rfl)
    | succ k => rfl
  simp only [der]
  exact ⟨by decide, rfl, false, _, _, rfl, hl, hc, hb⟩

/-! ## Cases -/

section Cases

/-- `(T**)5` -/
example : parse zen (tk .lpar :: (castText 7 2 ++ [tk (.num 5), tk .other])) = some (.cast 7 2 (.num 5), [tk .other]) :=
  cast_operand 7 2 (tk (.num 5)) (.num 5) _ _ (.inl ⟨5, rfl⟩) (by simp only [der]; exact ⟨false, rfl⟩) rfl

/-- `(x, y) -> x` -/
example : parse zen (tk .lpar :: (paramText [1, 2] ++ [tk (.ident 1), tk .other])) =
    some (.lam [1, 2] (.id 1), [tk .other]) :=
  lambda_params [1, 2] (.id 1) _ _ (by simp only [der]; exact ⟨false, rfl, by simp [tk]⟩) rfl

/-- `x--;` -/
example : parse zen [tk (.ident 4), tk (.op .dec), tk .other] = some (.post .dec (.id 4), [tk .other]) :=
  increment_postfix 4 .dec (by simp) false _ rfl

/-- `a + b * c - d == e && !f;` -/
example : parse zen
    [tk (.ident 0), tk (.op (.bin .add)), tk (.ident 1), tk (.op (.bin .mul)), tk (.ident 2),
      tk (.op (.bin .sub)), tk (.ident 3), tk (.op (.bin .eq)), tk (.ident 4), tk (.op (.bin .and)),
      tk (.op .not), tk (.ident 5), tk .other] =
    some (.bin (.bin .and)
      (.bin (.bin .eq)
        (.bin (.bin .sub) (.bin (.bin .add) (.id 0) (.bin (.bin .mul) (.id 1) (.id 2))) (.id 3))
        (.id 4))
      (.un .not (.id 5)), [tk .other]) := by decide +kernel

/-- `c ? f(x, 1) : -a[i].m++` -/
example : parse zen
    [tk (.ident 0), tk .quest, tk (.ident 1), tk .lpar, tk (.ident 2), tk .comma, tk (.num 1),
      tk .rpar, tk .colon, tk (.op (.bin .sub)), tk (.ident 3), tk .lbr, tk (.ident 4), tk .rbr,
      tk .dot, tk (.ident 5), tk (.op .inc)] =
    some (.tern (.id 0) (.call (.id 1) (.cons (.id 2) (.cons (.num 1) .nil)))
      (.un (.bin .sub) (.post .inc (.mem false (.idx (.id 3) (.id 4)) 5))), []) := by decide +kernel

/-- the text printed for it, read by C -/
example : (parse cLang (print (.tern (.id 0) (.call (.id 1) (.cons (.id 2) (.cons (.num 1) .nil)))
      (.un (.bin .sub) (.post .inc (.mem false (.idx (.id 3) (.id 4)) 5)))))).map
        (fun q => (strip q.1, q.2)) =
    some (.tern (.id 0) (.call (.id 1) (.cons (.id 2) (.cons (.num 1) .nil)))
      (.un (.bin .sub) (.post .inc (.mem false (.idx (.id 3) (.id 4)) 5))), []) := by decide +kernel

/-- `x |> f(1) |> g` is `g(f(x, 1))` -/
example : (parse zen [tk (.ident 0), tk (.op (.bin .pipe)), tk (.ident 1), tk .lpar, tk (.num 1),
      tk .rpar, tk (.op (.bin .pipe)), tk (.ident 2)]).map (fun q => node q.1) =
    some (.call (.id 2) (.cons (.call (.id 1) (.cons (.id 0) (.cons (.num 1) .nil))) .nil)) := by
  decide +kernel

/-- `a = b = c` -/
example : (parse zen (chain 0 [1, 2])).map Prod.fst =
    some (.bin .asg (.bin .asg (.id 0) (.id 1)) (.id 2)) := by decide +kernel

/-- `a[f()] += 1` calls `f` twice -/
example : (parse zen [tk (.ident 0), tk .lbr, tk (.ident 1), tk .lpar, tk .rpar, tk .rbr,
      tk (.op (.asgB .add)), tk (.num 1)]).map (fun q => effects (node q.1)) =
    some [.call (.id 1) .nil, .call (.id 1) .nil] := by decide +kernel

/-- `a[i] += f()` calls `f` once -/
example : (parse zen [tk (.ident 0), tk .lbr, tk (.ident 1), tk .rbr, tk (.op (.asgB .add)),
      tk (.ident 2), tk .lpar, tk .rpar]).map (fun q => effects (node q.1)) =
    some [.call (.id 2) .nil] := by decide +kernel

/-- `a[i] = b + 1` meets `assign_single_partial` -/
example : der zen (.idx (.id 0) (.id 1)) 2
      [tk (.ident 0), tk .lbr, tk (.ident 1), tk .rbr, tk (.op .asg), tk (.ident 2)]
      [tk (.op .asg), tk (.ident 2)] ∧ lvalue (node (.idx (.id 0) (.id 1))) = true := by
  refine ⟨?_, rfl⟩
  simp only [der]
  exact ⟨false, false, _, ⟨false, rfl, by simp⟩, false, rfl, by simp [tk]⟩

/-- the hypotheses of `newline_ends_violated` and `newline_continues` -/
example : zen.brk (.bin .sub) = true ∧ zen.brk (.bin .div) = false := by decide

end Cases

end Verif.Pratt
