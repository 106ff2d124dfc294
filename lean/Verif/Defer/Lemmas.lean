import Verif.Defer.Model

/-!
# Proof that the printed C does what the program says
-/

namespace Verif.Defer

/-! ## Printing trees -/

mutual
/-- text of a C tree -/
def pr : CStmt → List CTok
  | .prim p => [.stm p]
  | .block ss => .lb :: (prL ss ++ [.rb])
  | .ifS neg c t => .kif neg c :: pr t
  | .ifElse neg c t e => .kif neg c :: (pr t ++ .kelse :: pr e)
  | .loop c b => .kwhile c :: pr b
  | .doWhile b c => .kdo :: (pr b ++ [.kwend c])
/-- text of a list of C trees -/
def prL : CBlock → List CTok
  | .nil => []
  | .cons s ss => pr s ++ prL ss
end

/-- a block -/
def CStmt.isBlock : CStmt → Bool
  | .block _ => true
  | _ => false

mutual
/-- trees without a dangling `else` -/
def good : CStmt → Bool
  | .prim _ => true
  | .block ss => goodL ss
  | .ifS _ _ t => good t
  | .ifElse _ _ t e => t.isBlock && good t && good e
  | .loop _ b => good b
  | .doWhile b _ => good b
/-- the same for lists -/
def goodL : CBlock → Bool
  | .nil => true
  | .cons s ss => good s && goodL ss
end

theorem pr_head (s : CStmt) : ∃ a r, pr s = a :: r ∧ a ≠ .rb ∧ a ≠ .kelse := by
  cases s <;> simp [pr]

theorem pr_pos (s : CStmt) : 0 < (pr s).length := by
  obtain ⟨a, r, h, _⟩ := pr_head s
  simp [h]

theorem prL_head (ss : CBlock) (rest : List CTok) (h : rest.head? ≠ some .kelse) :
    (prL ss ++ rest).head? ≠ some .kelse := by
  cases ss with
  | nil => simpa [prL] using h
  | cons s ss =>
    obtain ⟨a, r, h, _, h2⟩ := pr_head s
    simp [prL, h, h2]

mutual
theorem parseS_pr : ∀ (s : CStmt) (n : Nat) (rest : List CTok), good s = true →
    (pr s).length < n → (s.isBlock = true ∨ rest.head? ≠ some .kelse) →
    parseS n (pr s ++ rest) = some (s, rest)
  | .prim p, n, rest, _, hn, _ => by
    cases n with
    | zero => simp at hn
    | succ n => simp [pr, parseS]
  | .block ss, n, rest, hg, hn, _ => by
    cases n with
    | zero => simp at hn
    | succ n =>
      have := parseL_pr ss n rest (by simpa [good] using hg) (by simp [pr] at hn; omega)
      simp [pr, parseS, this]
  | .ifS neg c t, n, rest, hg, hn, hr => by
    cases n with
    | zero => simp at hn
    | succ n =>
      have hr : rest.head? ≠ some .kelse := by simpa [CStmt.isBlock] using hr
      have := parseS_pr t n rest (by simpa [good] using hg) (by simp [pr] at hn; omega) (.inr hr)
      simp only [pr, List.cons_append, parseS, this]
      cases rest with
      | nil => rfl
      | cons a r => cases a <;> simp at hr ⊢
  | .ifElse neg c t e, n, rest, hg, hn, hr => by
    cases n with
    | zero => simp at hn
    | succ n =>
      have hr : rest.head? ≠ some .kelse := by simpa [CStmt.isBlock] using hr
      simp [good] at hg
      simp [pr] at hn
      have h1 := parseS_pr t n (.kelse :: (pr e ++ rest)) hg.1.2 (by omega) (.inl hg.1.1)
      have h2 := parseS_pr e n rest hg.2 (by omega) (.inr hr)
      simp [pr, parseS, h1, h2]
  | .loop c b, n, rest, hg, hn, hr => by
    cases n with
    | zero => simp at hn
    | succ n =>
      have hr : rest.head? ≠ some .kelse := by simpa [CStmt.isBlock] using hr
      have := parseS_pr b n rest (by simpa [good] using hg) (by simp [pr] at hn; omega) (.inr hr)
      simp [pr, parseS, this]
  | .doWhile b c, n, rest, hg, hn, hr => by
    cases n with
    | zero => simp at hn
    | succ n =>
      simp only [good] at hg
      have := parseS_pr b n (.kwend c :: rest) hg (by simp [pr] at hn; omega) (.inr (by simp))
      simp [pr, parseS, this]
theorem parseL_pr : ∀ (ss : CBlock) (n : Nat) (rest : List CTok), goodL ss = true →
    (prL ss).length + 1 < n →
    parseL n (prL ss ++ .rb :: rest) = some (ss, rest)
  | .nil, n, rest, _, hn => by
    cases n with
    | zero => simp at hn
    | succ n => simp [prL, parseL]
  | .cons s ss, n, rest, hg, hn => by
    cases n with
    | zero => simp at hn
    | succ n =>
      simp [goodL] at hg
      simp [prL] at hn
      have hp := pr_pos s
      have h2 := parseL_pr ss n rest hg.2 (by omega)
      have hh := prL_head ss (.rb :: rest) (by simp)
      have h1 := parseS_pr s n (prL ss ++ .rb :: rest) hg.1 (by omega) (.inr hh)
      obtain ⟨a, r, ha, h3, h4⟩ := pr_head s
      rw [ha] at h1
      simp only [prL, ha, List.cons_append, List.append_assoc] at h1 ⊢
      cases a <;> simp_all [parseL]
end

/-! ## The tree of the printed text -/

/-- lists of C statements -/
def ofList : List CStmt → CBlock
  | [] => .nil
  | s :: ss => .cons s (ofList ss)

/-- text of a list of C statements -/
def prs (l : List CStmt) : List CTok := prL (ofList l)

theorem prs_nil : prs [] = [] := rfl
theorem prs_cons (s : CStmt) (l : List CStmt) : prs (s :: l) = pr s ++ prs l := rfl

theorem prs_append (a b : List CStmt) : prs (a ++ b) = prs a ++ prs b := by
  induction a with
  | nil => rfl
  | cons s a ih => simp [prs_cons, ih]

/-- the C statement of a stack entry -/
def Cl.stmt : Cl → CStmt
  | .act a => .prim a.prim
  | .drop x => .prim (.dropIf x)

/-- the C statements printed for the top of the stack -/
def unw (ds : List Cl) (n : Nat) : List CStmt := (ds.take (ds.length - n)).map Cl.stmt

theorem prs_map (ds : List Cl) : prs (ds.map Cl.stmt) = ds.map Cl.tok := by
  induction ds with
  | nil => rfl
  | cons d ds ih => cases d <;> simp [prs_cons, pr, Cl.stmt, Cl.tok, ih]

theorem prs_unw (ds : List Cl) (n : Nat) : prs (unw ds n) = unwind ds n := prs_map _

/-- the only statement of a list -/
def one : List CStmt → CStmt
  | [s] => s
  | _ => .block .nil

mutual
/-- the C statements a statement becomes -/
def tree : Stmt → List Cl → List Nat → List CStmt
  | .act a, _, _ => [.prim a.prim]
  | .decl x, _, _ => [.prim (.fresh x)]
  | .val x k, _, _ => [.prim (.num x k)]
  | .letMove y x, _, _ => [.prim (.letMove y x)]
  | .assign x, _, _ => [.prim (.assign x)]
  | .defer _, _, _ => []
  | .block ss, ds, bs =>
    [.block (ofList (treeL ss ds bs ++ unw (emitL ss ds bs).2 ds.length))]
  | .ifS c t, ds, bs => [.ifS false c (one (tree t ds bs))]
  | .ifElse c t e, ds, bs => [.ifElse false c (one (tree t ds bs)) (one (tree e ds bs))]
  | .guard c b, ds, bs => [.ifS true c (one (tree b ds bs))]
  | .loop c b, ds, bs => [.loop c (one (tree b ds (ds.length :: bs)))]
  | .doWhile b c, ds, bs => [.doWhile (one (tree b ds (ds.length :: bs))) c]
  | .brk, ds, bs => (match bs with | b :: _ => unw ds b | [] => []) ++ [.prim .brk]
  | .cont, ds, bs => (match bs with | b :: _ => unw ds b | [] => []) ++ [.prim .cont]
  | .brkL l, ds, bs => (match bs with | b :: _ => unw ds b | [] => []) ++ [.prim (.goto l)]
  | .ret, ds, _ => unw ds 0 ++ [.prim .ret]
  | .retv a, ds, _ =>
    if 0 < ds.length then [.block (ofList (.prim a.prim :: (unw ds 0 ++ [.prim .ret])))]
    else [.prim (.retv a)]
  | .retMove x, ds, _ => [.block (ofList (.prim (.zero x) :: (unw ds 0 ++ [.prim .ret])))]
  | .retSlice a, _, _ => [.block (ofList [.prim a.prim, .prim .ret])]
  | .attempt c, _, _ => [.prim (.tryRet c)]
/-- the same for lists -/
def treeL : Block → List Cl → List Nat → List CStmt
  | .nil, _, _ => []
  | .cons s ss, ds, bs => tree s ds bs ++ treeL ss (emit s ds bs).2 bs
end

theorem push_ext (d : Cl) (ds : List Cl) : ∃ l, push d ds = l ++ ds := by
  unfold push
  split
  · exact ⟨[d], rfl⟩
  · exact ⟨[], rfl⟩

mutual
theorem emit_ext : ∀ (s : Stmt) (ds : List Cl) (bs : List Nat), ∃ l, (emit s ds bs).2 = l ++ ds
  | .act a, ds, bs => ⟨[], rfl⟩
  | .decl x, ds, bs => push_ext _ _
  | .val x k, ds, bs => ⟨[], rfl⟩
  | .letMove y x, ds, bs => push_ext _ _
  | .assign x, ds, bs => ⟨[], rfl⟩
  | .defer a, ds, bs => push_ext _ _
  | .block ss, ds, bs => by
    obtain ⟨l, h⟩ := emitL_ext ss ds bs
    exact ⟨[], by simp [emit, h]⟩
  | .ifS c t, ds, bs => by simpa [emit] using emit_ext t ds bs
  | .ifElse c t e, ds, bs => by
    obtain ⟨l, h⟩ := emit_ext t ds bs
    obtain ⟨m, h2⟩ := emit_ext e (emit t ds bs).2 bs
    exact ⟨m ++ l, by simp only [emit]; rw [h2, h, List.append_assoc]⟩
  | .guard c b, ds, bs => by simpa [emit] using emit_ext b ds bs
  | .loop c b, ds, bs => by simpa [emit] using emit_ext b ds (ds.length :: bs)
  | .doWhile b c, ds, bs => by simpa [emit] using emit_ext b ds (ds.length :: bs)
  | .brk, ds, bs => ⟨[], rfl⟩
  | .cont, ds, bs => ⟨[], rfl⟩
  | .brkL l, ds, bs => ⟨[], rfl⟩
  | .ret, ds, bs => ⟨[], by simp only [emit]; split <;> rfl⟩
  | .retv a, ds, bs => ⟨[], by simp only [emit]; split <;> rfl⟩
  | .retMove x, ds, bs => ⟨[], rfl⟩
  | .retSlice a, ds, bs => ⟨[], rfl⟩
  | .attempt c, ds, bs => ⟨[], rfl⟩
theorem emitL_ext : ∀ (ss : Block) (ds : List Cl) (bs : List Nat), ∃ l, (emitL ss ds bs).2 = l ++ ds
  | .nil, ds, bs => ⟨[], rfl⟩
  | .cons s ss, ds, bs => by
    obtain ⟨l, h⟩ := emit_ext s ds bs
    obtain ⟨m, h2⟩ := emitL_ext ss (emit s ds bs).2 bs
    exact ⟨m ++ l, by simp only [emitL]; rw [h2, h, List.append_assoc]⟩
end

theorem emit_block_stack (ss : Block) (ds : List Cl) (bs : List Nat) :
    (emit (.block ss) ds bs).2 = ds := by
  obtain ⟨l, h⟩ := emitL_ext ss ds bs
  simp [emit, h]

theorem isBlock_eq {s : Stmt} (h : s.isBlock = true) : ∃ ss, s = .block ss := by
  cases s <;> simp [Stmt.isBlock] at h
  exact ⟨_, rfl⟩

/-- a statement printed as one C statement leaves the stack as it is -/
theorem emit_single : ∀ (s : Stmt) (ds : List Cl) (bs : List Nat), ok s ds bs = true →
    single s ds bs = true → (emit s ds bs).2 = ds
  | .act a, ds, bs, _, _ => rfl
  | .decl x, ds, bs, _, h => by simp [single] at h
  | .val x k, ds, bs, _, _ => rfl
  | .letMove y x, ds, bs, _, h => by simp [single] at h
  | .assign x, ds, bs, _, _ => rfl
  | .defer a, ds, bs, _, h => by simp [single] at h
  | .block ss, ds, bs, _, _ => emit_block_stack ss ds bs
  | .ifS c t, ds, bs, h, _ => by
    simp [ok] at h
    obtain ⟨ss, rfl⟩ := isBlock_eq h.1
    simp only [emit]
    exact emit_block_stack ss ds bs
  | .ifElse c t e, ds, bs, h, _ => by
    simp [ok] at h
    obtain ⟨ss, rfl⟩ := isBlock_eq h.1.1.1
    have h1 := emit_block_stack ss ds bs
    have h2 := emit_single e ds bs h.2 h.1.2
    rw [emit, h1]
    exact h2
  | .guard c b, ds, bs, h, _ => by
    simp [ok] at h
    simpa [emit] using emit_single b ds bs h.2 h.1
  | .loop c b, ds, bs, h, _ => by
    simp [ok] at h
    simpa [emit] using emit_single b ds (ds.length :: bs) h.2 h.1
  | .doWhile b c, ds, bs, h, _ => by
    simp [ok] at h
    simpa [emit] using emit_single b ds (ds.length :: bs) h.2 h.1
  | .brk, ds, bs, _, _ => rfl
  | .cont, ds, bs, _, _ => rfl
  | .brkL l, ds, bs, _, _ => rfl
  | .ret, ds, bs, _, _ => by simp only [emit]; split <;> rfl
  | .retv a, ds, bs, _, _ => by simp only [emit]; split <;> rfl
  | .retMove x, ds, bs, _, _ => rfl
  | .retSlice a, ds, bs, _, _ => rfl
  | .attempt c, ds, bs, _, _ => rfl

theorem tree_single (s : Stmt) (ds : List Cl) (bs : List Nat)
    (h : single s ds bs = true) : tree s ds bs = [one (tree s ds bs)] := by
  cases s <;> simp_all [tree, one, single]
  case brk =>
    cases bs with
    | nil => simp at h
    | cons b bs => simp at h; subst h; simp [unw]
  case cont =>
    cases bs with
    | nil => simp at h
    | cons b bs => simp at h; subst h; simp [unw]
  case ret => simp [unw]
  case retv a => split <;> simp

theorem tree_block (s : Stmt) (ds : List Cl) (bs : List Nat) (h : s.isBlock = true) :
    (one (tree s ds bs)).isBlock = true := by
  obtain ⟨ss, rfl⟩ := isBlock_eq h
  simp [tree, one, CStmt.isBlock]

theorem single_block (s : Stmt) (ds : List Cl) (bs : List Nat) (h : s.isBlock = true) :
    single s ds bs = true := by
  obtain ⟨ss, rfl⟩ := isBlock_eq h
  rfl

theorem prs_one (l : List CStmt) (h : l = [one l]) : prs l = pr (one l) := by
  rw [h]; simp [prs_cons, prs_nil, one]

mutual
theorem emit_tree : ∀ (s : Stmt) (ds : List Cl) (bs : List Nat), ok s ds bs = true →
    (emit s ds bs).1 = prs (tree s ds bs)
  | .act a, ds, bs, _ => rfl
  | .decl x, ds, bs, _ => rfl
  | .val x k, ds, bs, _ => rfl
  | .letMove y x, ds, bs, _ => rfl
  | .assign x, ds, bs, _ => rfl
  | .defer a, ds, bs, _ => rfl
  | .block ss, ds, bs, h => by
    have := emitL_tree ss ds bs (by simpa [ok] using h)
    simp only [emit, tree, prs_cons, prs_nil, pr, List.append_nil]
    rw [this, ← prs_unw, ← prs_append]
    simp [prs]
  | .ifS c t, ds, bs, h => by
    simp [ok] at h
    have h1 := emit_tree t ds bs h.2
    rw [prs_one _ (tree_single t ds bs (single_block t ds bs h.1))] at h1
    simp [emit, tree, prs_cons, prs_nil, pr, h1]
  | .ifElse c t e, ds, bs, h => by
    simp [ok] at h
    have h1 := emit_tree t ds bs h.1.1.2
    rw [prs_one _ (tree_single t ds bs (single_block t ds bs h.1.1.1))] at h1
    have h2 := emit_tree e ds bs h.2
    rw [prs_one _ (tree_single e ds bs h.1.2)] at h2
    have h3 : (emit t ds bs).2 = ds := by
      obtain ⟨ss, rfl⟩ := isBlock_eq h.1.1.1
      exact emit_block_stack ss ds bs
    simp [emit, tree, prs_cons, prs_nil, pr, h1, h2, h3]
  | .guard c b, ds, bs, h => by
    simp [ok] at h
    have h1 := emit_tree b ds bs h.2
    rw [prs_one _ (tree_single b ds bs h.1)] at h1
    simp [emit, tree, prs_cons, prs_nil, pr, h1]
  | .loop c b, ds, bs, h => by
    simp [ok] at h
    have h1 := emit_tree b ds (ds.length :: bs) h.2
    rw [prs_one _ (tree_single b ds _ h.1)] at h1
    simp [emit, tree, prs_cons, prs_nil, pr, h1]
  | .doWhile b c, ds, bs, h => by
    simp [ok] at h
    have h1 := emit_tree b ds (ds.length :: bs) h.2
    rw [prs_one _ (tree_single b ds _ h.1)] at h1
    simp [emit, tree, prs_cons, prs_nil, pr, h1]
  | .brk, ds, bs, _ => by
    cases bs <;> simp [emit, tree, prs_append, prs_cons, prs_nil, pr, prs_unw]
  | .cont, ds, bs, _ => by
    cases bs <;> simp [emit, tree, prs_append, prs_cons, prs_nil, pr, prs_unw]
  | .brkL l, ds, bs, _ => by
    cases bs <;> simp [emit, tree, prs_append, prs_cons, prs_nil, pr, prs_unw]
  | .ret, ds, bs, _ => by
    simp only [emit, tree]
    split
    · simp [prs_append, prs_cons, prs_nil, pr, prs_unw]
    · rename_i h
      have : ds = [] := by cases ds <;> simp_all
      subst this
      simp [prs_cons, prs_nil, pr, unw]
  | .retv a, ds, bs, _ => by
    simp only [emit, tree]
    split
    · have := prs_append (unw ds 0) [.prim .ret]
      simp only [prs] at this
      simp [prs_cons, prs_nil, pr, ofList, prL, this, ← prs_unw]
      simp [prs]
    · simp [prs_cons, prs_nil, pr]
  | .retMove x, ds, bs, _ => by
    have := prs_append (unw ds 0) [.prim .ret]
    simp only [prs] at this
    simp [emit, tree, prs_cons, prs_nil, pr, ofList, prL, this, ← prs_unw]
    simp [prs]
  | .retSlice a, ds, bs, _ => rfl
  | .attempt c, ds, bs, _ => rfl
theorem emitL_tree : ∀ (ss : Block) (ds : List Cl) (bs : List Nat), okL ss ds bs = true →
    (emitL ss ds bs).1 = prs (treeL ss ds bs)
  | .nil, ds, bs, _ => rfl
  | .cons s ss, ds, bs, h => by
    simp [okL] at h
    simp only [emitL, treeL, prs_append]
    rw [emit_tree s ds bs h.1, emitL_tree ss _ bs h.2]
end

/-- every statement of a list is without dangling `else` -/
def goods (l : List CStmt) : Prop := goodL (ofList l) = true

theorem goods_append {a b : List CStmt} (ha : goods a) (hb : goods b) : goods (a ++ b) := by
  induction a with
  | nil => exact hb
  | cons s a ih =>
    simp only [goods, ofList, goodL, List.cons_append, Bool.and_eq_true] at ha ⊢
    exact ⟨ha.1, ih ha.2⟩

theorem goods_one (s : CStmt) : goods [s] ↔ good s = true := by simp [goods, ofList, goodL]

theorem goods_unw (ds : List Cl) (n : Nat) : goods (unw ds n) := by
  unfold unw
  generalize ds.take (ds.length - n) = l
  induction l with
  | nil => rfl
  | cons d l ih => cases d <;> simpa [goods, ofList, goodL, Cl.stmt, good] using ih

theorem goods_single {s : Stmt} {ds : List Cl} {bs : List Nat} (h : single s ds bs = true)
    (hg : goods (tree s ds bs)) : good (one (tree s ds bs)) = true := by
  rw [tree_single s ds bs h] at hg
  exact (goods_one _).1 hg

mutual
theorem tree_good : ∀ (s : Stmt) (ds : List Cl) (bs : List Nat), ok s ds bs = true →
    goods (tree s ds bs)
  | .act a, ds, bs, _ => rfl
  | .decl x, ds, bs, _ => rfl
  | .val x k, ds, bs, _ => rfl
  | .letMove y x, ds, bs, _ => rfl
  | .assign x, ds, bs, _ => rfl
  | .defer a, ds, bs, _ => rfl
  | .block ss, ds, bs, h => by
    simp only [tree, goods_one, good]
    exact goods_append (treeL_good ss ds bs (by simpa [ok] using h)) (goods_unw _ _)
  | .ifS c t, ds, bs, h => by
    simp [ok] at h
    simp only [tree, goods_one, good]
    exact goods_single (single_block t ds bs h.1) (tree_good t ds bs h.2)
  | .ifElse c t e, ds, bs, h => by
    simp [ok] at h
    simp only [tree, goods_one, good, Bool.and_eq_true]
    exact ⟨⟨tree_block t ds bs h.1.1.1, goods_single (single_block t ds bs h.1.1.1)
      (tree_good t ds bs h.1.1.2)⟩, goods_single h.1.2 (tree_good e ds bs h.2)⟩
  | .guard c b, ds, bs, h => by
    simp [ok] at h
    simp only [tree, goods_one, good]
    exact goods_single h.1 (tree_good b ds bs h.2)
  | .loop c b, ds, bs, h => by
    simp [ok] at h
    simp only [tree, goods_one, good]
    exact goods_single h.1 (tree_good b ds _ h.2)
  | .doWhile b c, ds, bs, h => by
    simp [ok] at h
    simp only [tree, goods_one, good]
    exact goods_single h.1 (tree_good b ds _ h.2)
  | .brk, ds, bs, _ => by
    cases bs with
    | nil => rfl
    | cons b bs => exact goods_append (goods_unw _ _) rfl
  | .cont, ds, bs, _ => by
    cases bs with
    | nil => rfl
    | cons b bs => exact goods_append (goods_unw _ _) rfl
  | .brkL l, ds, bs, _ => by
    cases bs with
    | nil => rfl
    | cons b bs => exact goods_append (goods_unw _ _) rfl
  | .ret, ds, bs, _ => goods_append (goods_unw _ _) rfl
  | .retv a, ds, bs, _ => by
    simp only [tree]
    split
    · simp only [goods_one, good, ofList, goodL, Bool.true_and]
      exact goods_append (goods_unw _ _) rfl
    · rfl
  | .retMove x, ds, bs, _ => by
    simp only [tree, goods_one, good, ofList, goodL, Bool.true_and]
    exact goods_append (goods_unw _ _) rfl
  | .retSlice a, ds, bs, _ => rfl
  | .attempt c, ds, bs, _ => rfl
theorem treeL_good : ∀ (ss : Block) (ds : List Cl) (bs : List Nat), okL ss ds bs = true →
    goods (treeL ss ds bs)
  | .nil, ds, bs, _ => rfl
  | .cons s ss, ds, bs, h => by
    simp [okL] at h
    exact goods_append (tree_good s ds bs h.1) (treeL_good ss _ bs h.2)
end

/-- the C compiler groups the printed text as intended -/
theorem parse_func (f : Block) (h : okL f [] [] = true) :
    parse (emit (.block f) [] []).1 = some (one (tree (.block f) [] [])) := by
  have h1 : ok (.block f) [] [] = true := by simpa [ok] using h
  have h2 := emit_tree (.block f) [] [] h1
  rw [prs_one _ (tree_single (.block f) [] [] rfl)] at h2
  have hg := goods_single (s := .block f) (ds := []) (bs := []) rfl (tree_good _ _ _ h1)
  have := parseS_pr (one (tree (.block f) [] [])) ((pr (one (tree (.block f) [] []))).length + 1) []
    hg (by omega) (.inr (by simp))
  simp only [List.append_nil] at this
  rw [h2, parse, this]

end Verif.Defer
