import Verif.Sql.Props

/-!
# Where the blocks of SQL do not mean what they say
-/

namespace Verif.Sql

open Forth (Out isspace)
open Spec

/-! ## Every block ends -/

theorem skip_len (m : Mode) (p : Str) : (skip m p).length ≤ p.length := by
  fun_induction skip m p <;> simp only [List.length_cons, List.length_nil] at * <;> omega

theorem skip_same (p : Str) : skip .blank p = p ∨ (skip .blank p).length < p.length := by
  rw [skip.eq_def]
  split
  · exact .inl rfl
  · rename_i r _; exact .inr (by have := skip_len .line r; simp only [List.length_cons]; omega)
  · rename_i r _; exact .inr (by have := skip_len .block r; simp only [List.length_cons]; omega)
  · rename_i c r _ _ _
    split
    · exact .inr (by have := skip_len .blank r; simp only [List.length_cons]; omega)
    · exact .inl rfl
  all_goals contradiction

theorem eat_len (c : Char) (p : Str) : (eat c p).length ≤ p.length := by
  cases p with
  | nil => exact Nat.le_refl _
  | cons d r => rw [eat]; split <;> simp

theorem name_len (p : Str) : (name p).2.length + (name p).1.length = p.length := by
  have := congrArg List.length (List.takeWhile_append_dropWhile (p := word) (l := p))
  rw [List.length_append] at this
  show (p.dropWhile word).length + (p.takeWhile word).length = p.length
  omega

theorem kw_len {k p r : Str} (h : kw k p = some r) (hk : k ≠ []) : r.length < p.length := by
  unfold kw at h
  split at h
  · rename_i hh
    cases h
    have := congrArg List.length hh.1
    rw [List.length_map, List.length_take] at this
    rw [List.length_drop]
    have : 0 < k.length := List.length_pos_iff.2 hk
    omega
  · cases h

theorem kw_le {k p : Str} (hk : k ≠ []) : ((kw k p).getD p).length ≤ p.length := by
  cases h : kw k p with
  | none => exact Nat.le_refl _
  | some r => exact Nat.le_of_lt (kw_len h hk)

/-- An outcome that is not for want of fuel, and what it leaves is no longer than `n`. -/
def Ends {α : Type} (f : α → Str) (n : Nat) : Out α → Prop
  | .ok a => (f a).length ≤ n
  | .exit => True
  | .ub => True
  | .more => False

theorem cols_ends (k : Nat) (p : Str) (h : p.length < k) : Ends (·.2) p.length (cols k p) := by
  induction k generalizing p with
  | zero => exact absurd h (Nat.not_lt_zero _)
  | succ k ih =>
    rw [cols]
    split
    · exact Nat.le_refl _
    · have h1 := skip_len .blank p
      have h2 := name_len (skip .blank p)
      simp only
      generalize name (skip .blank p) = x at h2
      obtain ⟨n, r⟩ := x
      simp only at h2 ⊢
      have h3 := skip_len .blank r
      have h4 := name_len (skip .blank r)
      have key : r.head? = some ',' → name (skip .blank r) = ([], r) := by
        cases r with
        | nil => exact fun h => nomatch h
        | cons c r =>
          intro h
          cases h
          rw [skip_cons (by decide) (by decide)]
          have : word ',' = false := by decide
          simp [name, this]
      generalize name (skip .blank r) = y at h4 key
      obtain ⟨ty, r2⟩ := y
      simp only at h4
      have h5 := skip_len .blank r2
      have h6 := eat_len ',' (skip .blank r2)
      split
      · show r.length ≤ _
        omega
      · split
        · trivial
        · rename_i hn _
          have hlt : (eat ',' (skip .blank r2)).length < p.length := by
            by_cases e : n = []
            · have hr : r.head? = some ',' := by
                rcases Classical.em (r.head? = some ',') with h | h
                · exact h
                · exact absurd ⟨e, h⟩ hn
              have := key hr
              cases this
              cases r with
              | nil => cases hr
              | cons c r =>
                cases hr
                rw [skip_cons (by decide) (by decide), eat, if_pos rfl]
                simp only [List.length_cons] at *
                omega
            · have := List.length_pos_iff.2 e
              omega
          have := ih (eat ',' (skip .blank r2)) (by omega)
          simp only
          generalize cols k (eat ',' (skip .blank r2)) = o at this
          cases o with
          | ok a => exact Nat.le_trans this (Nat.le_of_lt hlt)
          | exit => trivial
          | ub => trivial
          | more => exact this

theorem string_ends (p : Str) : Ends (·.2) p.length (string p) := by
  fun_induction string p <;> simp_all [Ends] <;> omega

theorem value_ends (p : Str) : Ends (·.2) p.length (value p) := by
  rw [value.eq_def]
  split
  · rename_i r
    have := string_ends r
    generalize string r = o at this
    cases o with
    | ok a => exact Nat.le_trans this (Nat.le_succ _)
    | exit => trivial
    | ub => trivial
    | more => exact this
  · exact List.Sublist.length_le (List.dropWhile_sublist _)

/-- A value takes something, or there is none. -/
theorem value_lt {p v r : Str} (h : value p = .ok (v, r)) : r.length < p.length ∨ p = [] ∨ p.head? = some ',' ∨
    p.head? = some ')' := by
  rw [value.eq_def] at h
  split at h
  · rename_i t
    have := string_ends t
    revert this
    split at h
    · rename_i e
      cases h
      rw [e]
      intro this
      exact .inl (Nat.lt_succ_of_le this)
    all_goals cases h
  · cases h
    cases p with
    | nil => exact .inr (.inl rfl)
    | cons c p =>
      by_cases h1 : c = ','
      · exact .inr (.inr (.inl (by rw [h1]; rfl)))
      · by_cases h2 : c = ')'
        · exact .inr (.inr (.inr (by rw [h2]; rfl)))
        · left
          rw [List.dropWhile_cons_of_pos (by simp [h1, h2])]
          exact Nat.lt_succ_of_le (List.Sublist.length_le (List.dropWhile_sublist _))

theorem vals_ends (k : Nat) (p : Str) (h : p.length < k) : Ends (·.2) p.length (vals k p) := by
  induction k generalizing p with
  | zero => exact absurd h (Nat.not_lt_zero _)
  | succ k ih =>
    rw [vals]
    split
    · exact Nat.le_refl _
    · rename_i hp
      have h1 := skip_len .blank p
      have h2 := value_ends (skip .blank p)
      have h3 := fun v r => value_lt (p := skip .blank p) (v := v) (r := r)
      generalize e : value (skip .blank p) = o at h2 h3
      cases o with
      | ok a =>
        obtain ⟨v, r⟩ := a
        have h2 : r.length ≤ (skip .blank p).length := h2
        have h4 := skip_len .blank r
        have h5 := eat_len ',' (skip .blank r)
        have hlt : (eat ',' (skip .blank r)).length < p.length := by
          rcases h3 v r rfl with h | h | h | h
          · omega
          · rcases skip_same p with h' | h'
            · exact absurd (.inl (h' ▸ h)) hp
            · omega
          · rw [value.eq_def] at e
            split at e
            · rename_i e'
              rw [e'] at h
              cases h
            · cases e
              generalize skip .blank p = q at *
              cases q with
              | nil => cases h
              | cons c q =>
                cases h
                rw [List.dropWhile_cons_of_neg (by decide), skip_cons (by decide) (by decide), eat, if_pos rfl]
                simp only [List.length_cons] at *
                omega
          · rcases skip_same p with h' | h'
            · rw [h'] at h
              exact absurd (.inr h) hp
            · omega
        have := ih (eat ',' (skip .blank r)) (by omega)
        simp only
        generalize vals k (eat ',' (skip .blank r)) = o at this
        cases o with
        | ok a => exact Nat.le_trans this (Nat.le_of_lt hlt)
        | exit => trivial
        | ub => trivial
        | more => exact this
      | exit => trivial
      | ub => trivial
      | more => exact h2

theorem create_ends (k : Nat) (p : Str) (h : p.length < k) : Ends (·.2.2) p.length (create k p) := by
  unfold create
  have h1 := skip_len .blank p
  have h2 := name_len (skip .blank p)
  generalize name (skip .blank p) = x at h2
  obtain ⟨t, r⟩ := x
  simp only at h2 ⊢
  have h3 := skip_len .blank r
  split
  · trivial
  · split
    · rename_i r2 e
      rw [e] at h3
      simp only [List.length_cons] at h3
      have h4 := skip_len .blank r2
      have := cols_ends k (skip .blank r2) (by omega)
      generalize cols k (skip .blank r2) = o at this
      cases o with
      | ok a =>
        obtain ⟨cs, r3⟩ := a
        have this : r3.length ≤ (skip .blank r2).length := this
        have h5 := eat_len ')' r3
        have h6 := skip_len .blank (eat ')' r3)
        have h7 := eat_len ';' (skip .blank (eat ')' r3))
        show (eat ';' (skip .blank (eat ')' r3))).length ≤ _
        omega
      | exit => trivial
      | ub => trivial
      | more => exact this
    · trivial

theorem insert_ends (k : Nat) (p : Str) (h : p.length < k) : Ends (·.2) p.length (insert k p) := by
  unfold insert
  have h1 := skip_len .blank p
  have h2 := kw_le (k := "INTO".toList) (p := skip .blank p) (by decide +kernel)
  have h3 := skip_len .blank ((kw "INTO".toList (skip .blank p)).getD (skip .blank p))
  have h4 := name_len (skip .blank ((kw "INTO".toList (skip .blank p)).getD (skip .blank p)))
  simp only
  generalize name (skip .blank ((kw "INTO".toList (skip .blank p)).getD (skip .blank p))) = x at h4
  obtain ⟨t, r⟩ := x
  simp only at h4 ⊢
  have h5 := skip_len .blank r
  split
  · trivial
  · cases e : kw "VALUES".toList (skip .blank r) with
    | none => trivial
    | some r2 =>
      have h6 := kw_len e (by decide +kernel)
      have h7 := skip_len .blank r2
      have h8 := eat_len '(' (skip .blank r2)
      have := vals_ends k (eat '(' (skip .blank r2)) (by omega)
      simp only
      generalize vals k (eat '(' (skip .blank r2)) = o at this
      cases o with
      | ok a =>
        obtain ⟨cs, r3⟩ := a
        have this : r3.length ≤ (eat '(' (skip .blank r2)).length := this
        have h5 := eat_len ')' r3
        have h6 := skip_len .blank (eat ')' r3)
        have h7 := eat_len ';' (skip .blank (eat ')' r3))
        show (eat ';' (skip .blank (eat ')' r3))).length ≤ _
        omega
      | exit => trivial
      | ub => trivial
      | more => exact this

theorem select_ends (ts : Tables) (p : Str) : Ends (·.2) p.length (select ts p) := by
  unfold select
  have h1 := skip_len .blank p
  have h2 := kw_le (k := "*".toList) (p := skip .blank p) (by decide +kernel)
  have h3 := skip_len .blank ((kw "*".toList (skip .blank p)).getD (skip .blank p))
  simp only
  cases e : kw "FROM".toList (skip .blank ((kw "*".toList (skip .blank p)).getD (skip .blank p))) with
  | none => trivial
  | some r =>
    have h4 := kw_len e (by decide +kernel)
    have h5 := skip_len .blank r
    have h6 := name_len (skip .blank r)
    simp only
    generalize name (skip .blank r) = x at h6
    obtain ⟨t, r2⟩ := x
    simp only at h6 ⊢
    have h7 := skip_len .blank r2
    have h8 := eat_len ';' (skip .blank r2)
    split
    · trivial
    · split
      · trivial
      · show (eat ';' (skip .blank r2)).length ≤ _
        omega

theorem stmts_ends (k : Nat) (ts : Tables) (p : Str) (h : p.length < k) : stmts k ts p ≠ .more := by
  induction k generalizing ts p with
  | zero => exact absurd h (Nat.not_lt_zero _)
  | succ k ih =>
    have h1 := skip_len .blank p
    rw [stmts]
    simp only
    generalize skip .blank p = q at h1
    cases q with
    | nil => exact fun h => nomatch h
    | cons c q =>
      simp only
      cases e1 : kw "CREATE".toList (c :: q) with
      | some r =>
        have h2 := kw_len e1 (by decide +kernel)
        have h3 := skip_len .blank r
        have h4 := kw_le (k := "TABLE".toList) (p := skip .blank r) (by decide +kernel)
        have := create_ends k ((kw "TABLE".toList (skip .blank r)).getD (skip .blank r)) (by omega)
        simp only
        generalize create k ((kw "TABLE".toList (skip .blank r)).getD (skip .blank r)) = o at this
        cases o with
        | ok a =>
          obtain ⟨a, t, r2⟩ := a
          have this : r2.length ≤ _ := this
          have := ih (t :: ts) r2 (by omega)
          simp only
          generalize stmts k (t :: ts) r2 = o at this
          cases o <;> simp_all
        | exit => simp
        | ub => simp
        | more => exact this.elim
      | none =>
        cases e2 : kw "INSERT".toList (c :: q) with
        | some r =>
          have h2 := kw_len e2 (by decide +kernel)
          have := insert_ends k r (by omega)
          simp only
          generalize insert k r = o at this
          cases o with
          | ok a =>
            obtain ⟨a, r2⟩ := a
            have this : r2.length ≤ _ := this
            have := ih ts r2 (by omega)
            simp only
            generalize stmts k ts r2 = o at this
            cases o <;> simp_all
          | exit => simp
          | ub => simp
          | more => exact this.elim
        | none =>
          cases e3 : kw "SELECT".toList (c :: q) with
          | some r =>
            have h2 := kw_len e3 (by decide +kernel)
            have := select_ends ts r
            simp only
            generalize select ts r = o at this
            cases o with
            | ok a =>
              obtain ⟨a, r2⟩ := a
              have this : r2.length ≤ _ := this
              have := ih ts r2 (by omega)
              simp only
              generalize stmts k ts r2 = o at this
              cases o <;> simp_all
            | exit => simp
            | ub => simp
            | more => exact this.elim
          | none =>
            simp only [List.length_cons] at h1
            exact ih ts q (by omega)

/-- **Every block ends**, whatever its text. -/
theorem transpile_ends (ts : Tables) (p : Str) : transpile ts p ≠ .more := by
  have := stmts_ends (p.length + 1) ts p (Nat.lt_succ_self _)
  unfold transpile
  generalize stmts (p.length + 1) ts p = o at this
  cases o <;> simp_all

/-! ## Fuel -/

theorem cols_mono (k : Nat) (p : Str) (h : cols k p ≠ .more) : cols (k + 1) p = cols k p := by
  induction k generalizing p with
  | zero => exact absurd rfl h
  | succ k ih =>
    rw [cols] at h ⊢
    conv => rhs; rw [cols]
    split
    · rfl
    · rename_i hp
      rw [if_neg hp] at h
      simp only at h ⊢
      split
      · rfl
      · rename_i h1
        rw [if_neg h1] at h
        split
        · rfl
        · rename_i h2
          rw [if_neg h2] at h
          rw [ih]
          intro e
          rw [e] at h
          exact h rfl

theorem vals_mono (k : Nat) (p : Str) (h : vals k p ≠ .more) : vals (k + 1) p = vals k p := by
  induction k generalizing p with
  | zero => exact absurd rfl h
  | succ k ih =>
    rw [vals] at h ⊢
    conv => rhs; rw [vals]
    split
    · rfl
    · rename_i hp
      rw [if_neg hp] at h
      generalize value (skip .blank p) = o at h
      cases o with
      | ok a =>
        simp only at h ⊢
        rw [ih]
        intro e
        rw [e] at h
        exact h rfl
      | exit => rfl
      | ub => rfl
      | more => rfl

theorem create_mono (k : Nat) (p : Str) (h : create k p ≠ .more) : create (k + 1) p = create k p := by
  unfold create at h ⊢
  simp only at h ⊢
  split
  · rfl
  · rename_i h1
    rw [if_neg h1] at h
    split
    · rename_i r e
      rw [e] at h
      simp only at h
      rw [cols_mono]
      intro e
      rw [e] at h
      exact h rfl
    · rfl

theorem insert_mono (k : Nat) (p : Str) (h : insert k p ≠ .more) : insert (k + 1) p = insert k p := by
  unfold insert at h ⊢
  simp only at h ⊢
  split
  · rfl
  · rename_i h1
    rw [if_neg h1] at h
    split
    · rfl
    · rename_i r e
      rw [e] at h
      simp only at h
      rw [vals_mono]
      intro e
      rw [e] at h
      exact h rfl

theorem stmts_mono (k : Nat) (ts : Tables) (p : Str) (h : stmts k ts p ≠ .more) : stmts (k + 1) ts p = stmts k ts p := by
  induction k generalizing ts p with
  | zero => exact absurd rfl h
  | succ k ih =>
    rw [stmts] at h ⊢
    conv => rhs; rw [stmts]
    simp only at h ⊢
    generalize skip .blank p = q at h
    cases q with
    | nil => rfl
    | cons c q =>
      simp only at h ⊢
      cases e1 : kw "CREATE".toList (c :: q) with
      | some r =>
        simp only [e1] at h ⊢
        have : create k ((kw "TABLE".toList (skip .blank r)).getD (skip .blank r)) ≠ .more := by
          intro e
          rw [e] at h
          exact h rfl
        rw [create_mono _ _ this]
        generalize create k ((kw "TABLE".toList (skip .blank r)).getD (skip .blank r)) = o at h
        cases o with
        | ok a =>
          simp only at h ⊢
          rw [ih]
          intro e
          rw [e] at h
          exact h rfl
        | exit => rfl
        | ub => rfl
        | more => rfl
      | none =>
        simp only [e1] at h ⊢
        cases e2 : kw "INSERT".toList (c :: q) with
        | some r =>
          simp only [e2] at h ⊢
          have : insert k r ≠ .more := by
            intro e
            rw [e] at h
            exact h rfl
          rw [insert_mono _ _ this]
          generalize insert k r = o at h
          cases o with
          | ok a =>
            simp only at h ⊢
            rw [ih]
            intro e
            rw [e] at h
            exact h rfl
          | exit => rfl
          | ub => rfl
          | more => rfl
        | none =>
          simp only [e2] at h ⊢
          cases e3 : kw "SELECT".toList (c :: q) with
          | some r =>
            simp only [e3] at h ⊢
            generalize select ts r = o at h
            cases o with
            | ok a =>
              simp only at h ⊢
              rw [ih]
              intro e
              rw [e] at h
              exact h rfl
            | exit => rfl
            | ub => rfl
            | more => rfl
          | none =>
            simp only [e3] at h ⊢
            exact ih _ _ h

theorem stmts_enough {k : Nat} {ts : Tables} {p : Str} (h : p.length < k) : stmts k ts p = stmts (p.length + 1) ts p := by
  induction k with
  | zero => exact absurd h (Nat.not_lt_zero _)
  | succ k ih =>
    by_cases e : k = p.length
    · rw [e]
    · have hk : p.length < k := by omega
      rw [stmts_mono _ _ _ (stmts_ends k ts p hk), ih hk]

/-! ## What is not understood is left out -/

/-- What a block writes between its brackets, and the tables behind it. -/
def body (ts : Tables) (p : Str) : Out (Str × Tables) := stmts (p.length + 1) ts p

/-- A text in which no statement and no comment begins, whatever follows it. -/
def Quiet : Str → Bool
  | [] => true
  | c :: w => c ≠ '/' && ["CREATE".toList, "INSERT".toList, "SELECT".toList].all (fun k =>
      !((c :: w).map upper).isPrefixOf k && !k.isPrefixOf ((c :: w).map upper)) && Quiet w

theorem take_prefix {k b r : Str} (h : ((b ++ r).take k.length).map upper = k) :
    (b.map upper).isPrefixOf k = true ∨ k.isPrefixOf (b.map upper) = true := by
  rw [List.take_append, List.map_append] at h
  by_cases hl : b.length ≤ k.length
  · left
    rw [List.isPrefixOf_iff_prefix]
    rw [List.take_of_length_le hl] at h
    exact ⟨_, h⟩
  · right
    rw [List.isPrefixOf_iff_prefix]
    rw [show k.length - b.length = 0 by omega, List.take_zero, List.map_nil, List.append_nil] at h
    conv => lhs; rw [← h]
    exact List.IsPrefix.map _ (List.take_prefix _ _)

theorem quiet_kw {c : Char} {w : Str} (h : Quiet (c :: w) = true) {k : Str}
    (hk : k ∈ ["CREATE".toList, "INSERT".toList, "SELECT".toList]) (r : Str) : kw k (c :: (w ++ r)) = none := by
  rw [Quiet] at h
  simp only [Bool.and_eq_true] at h
  have := List.all_eq_true.1 h.1.2 k hk
  simp only [Bool.and_eq_true, Bool.not_eq_true'] at this
  unfold kw
  rw [if_neg]
  rintro ⟨e, -⟩
  rcases take_prefix (b := c :: w) e with h | h
  · rw [h] at this; cases this.1
  · rw [h] at this; cases this.2

theorem body_space {c : Char} (h : isspace c = true) (ts : Tables) (p : Str) : body ts (c :: p) = body ts p := by
  have e : body ts (c :: p) = stmts (p.length + 1 + 1) ts p := by
    unfold body
    rw [List.length_cons, stmts, stmts, skip_space h]
  rw [e]
  exact stmts_enough (by omega)

/-- **What the plugin does not understand it leaves out**, and says nothing: other statements, what follows the
name in a `SELECT`, rows behind the first of an `INSERT`, and the mark of a comment of SQL, but not the comment. -/
theorem quiet_violated {w : Str} (h : Quiet w = true) (ts : Tables) (p : Str) : body ts (w ++ p) = body ts p := by
  induction w with
  | nil => rfl
  | cons c w ih =>
    have hw : Quiet w = true := by
      rw [Quiet] at h
      simp only [Bool.and_eq_true] at h
      exact h.2
    rw [List.cons_append]
    cases hc : isspace c with
    | true => rw [body_space hc, ih hw]
    | false =>
      have hs : c ≠ '/' := by
        rw [Quiet] at h
        simp only [Bool.and_eq_true, decide_eq_true_eq] at h
        exact h.1.1
      rw [← ih hw]
      conv => lhs; unfold body
      rw [stmts, skip_cons hc hs]
      simp only
      rw [quiet_kw h (by simp), quiet_kw h (by simp), quiet_kw h (by simp)]
      exact stmts_enough (by simp)

/-- Other statements, a comment of SQL, and a keyword that is the end of a word. -/
example : Quiet "DELETE FROM t;".toList = true ∧ Quiet "UPDATE t SET n = 2;".toList = true ∧
    Quiet "DROP TABLE t;".toList = true ∧ Quiet "-- ".toList = true ∧ Quiet "RE".toList = true := by decide +kernel

theorem body_select (ts : Tables) {g r : Str} {k1 a : Str} (hg : Gap g) (hk : Kw "SELECT".toList k1) {x : Str}
    (hx : Free x) (hs : select ts x = .ok (a, r)) :
    body ts (g ++ (k1 ++ x)) = match body ts r with
      | .ok (b, ts) => .ok (a ++ b, ts)
      | .exit => .exit
      | .ub => .ub
      | .more => .more := by
  obtain ⟨c, y, ex, -⟩ := kw_begins hk words_name.2.2.2.2.2.1
  have es := skip_begins hg (kw_begins hk words_name.2.2.2.2.2.1) x
  have hn1 := kw_ne (k := "CREATE".toList) hk (by decide +kernel) (by decide +kernel) x
  have hn2 := kw_ne (k := "INSERT".toList) hk (by decide +kernel) (by decide +kernel) x
  have hkw := kw_eq hk hx
  have hl := select_ends ts x
  rw [hs] at hl
  have hl : r.length ≤ x.length := hl
  have he : stmts (g ++ (k1 ++ x)).length ts r = body ts r := by
    refine stmts_enough ?_
    rw [ex]
    simp only [List.length_append, List.length_cons]
    omega
  conv => lhs; unfold body
  rw [stmts]
  simp only [es, hn1, hn2, hkw, hs, he]
  rw [ex, List.cons_append]
  rfl

/-- **A condition is left out.**  `SELECT * FROM t` with a text behind it in which no statement begins, such as
`WHERE`, `ORDER BY` or `LIMIT` and what belongs to them, prints all rows, just as without it. -/
theorem condition_violated {ts : Tables} {t u : Str} {cs : Cols} (ht : Name t) (hl : t.length < 64)
    (hf : ts.find? (·.1 = t) = some (u, cs)) {w : Str} (hw : Quiet w = true) (hb : Begins w) (hh : w.head? ≠ some ';')
    (p : Str) :
    body ts ("SELECT".toList ++ (' ' :: '*' :: ' ' :: ("FROM".toList ++ ' ' :: (t ++ ' ' :: (w ++ p))))) =
      body ts ("SELECT".toList ++ (' ' :: '*' :: ' ' :: ("FROM".toList ++ ' ' :: (t ++ (';' :: p))))) := by
  have g1 : Gap1 [' '] := ⟨.blank (by decide) .nil, by simp⟩
  have kf : Kw "FROM".toList "FROM".toList := by unfold Kw; decide +kernel
  have ks : Kw "SELECT".toList "SELECT".toList := by unfold Kw; decide +kernel
  have h1 : select ts (' ' :: '*' :: ' ' :: ("FROM".toList ++ ' ' :: (t ++ (';' :: p)))) = .ok (selectText t cs, p) :=
    select_src g1 g1 kf g1 ht hl .nil hf p
  have h2 : select ts (' ' :: '*' :: ' ' :: ("FROM".toList ++ ' ' :: (t ++ ' ' :: (w ++ p)))) =
      .ok (selectText t cs, w ++ p) := by
    unfold select
    have hstar : kw "*".toList ('*' :: ' ' :: ("FROM".toList ++ ' ' :: (t ++ ' ' :: (w ++ p)))) =
        some (' ' :: ("FROM".toList ++ ' ' :: (t ++ ' ' :: (w ++ p)))) :=
      kw_eq (s := "*".toList) (by unfold Kw; decide +kernel) (free_cons (by decide) _)
    have e1 : skip .blank (' ' :: '*' :: ' ' :: ("FROM".toList ++ ' ' :: (t ++ ' ' :: (w ++ p)))) =
        '*' :: ' ' :: ("FROM".toList ++ ' ' :: (t ++ ' ' :: (w ++ p))) :=
      skip_gap_cons g1.1 (by decide) (by decide) _
    have e2 : skip .blank (' ' :: ("FROM".toList ++ ' ' :: (t ++ ' ' :: (w ++ p)))) =
        "FROM".toList ++ ' ' :: (t ++ ' ' :: (w ++ p)) :=
      skip_begins g1.1 (kw_begins kf words_name.2.2.2.2.2.2) _
    have e3 : skip .blank (' ' :: (t ++ ' ' :: (w ++ p))) = t ++ ' ' :: (w ++ p) :=
      skip_begins g1.1 (name_begins ht) _
    have e4 : skip .blank (' ' :: (w ++ p)) = w ++ p := skip_begins g1.1 hb _
    simp only
    rw [e1, hstar, Option.getD_some, e2, kw_eq kf (free_cons (by decide) _)]
    simp only
    rw [e3, name_eq ht (free_cons (by decide) _)]
    simp only
    rw [if_neg (by omega), hf]
    simp only
    rw [e4]
    cases w with
    | nil => obtain ⟨_, _, e, _⟩ := hb; cases e
    | cons c w =>
      rw [List.cons_append, eat, if_neg (fun e => hh (by rw [e]; rfl))]
  have b1 := body_select ts (g := []) .nil ks (free_cons (by decide) _) h1
  have b2 := body_select ts (g := []) .nil ks (free_cons (by decide) _) h2
  rw [List.nil_append] at b1 b2
  rw [b1, b2, quiet_violated hw]

example : Quiet "WHERE n > 3;".toList = true ∧ Quiet "ORDER BY n;".toList = true ∧ Quiet "LIMIT 1;".toList = true := by
  decide +kernel

/-- A block is what it writes between its brackets. -/
theorem transpile_body (ts : Tables) (p : Str) : transpile ts p = match body ts p with
    | .ok (s, ts) => .ok ("({\n".toList ++ s ++ "0; })".toList, ts)
    | .exit => .exit
    | .ub => .ub
    | .more => .more := rfl

/-- **`SELECT *FROM` is refused**, although SQL needs no blank there. -/
theorem star_violated (ts : Tables) (r p : Str) (hr : Free r) :
    body ts ("SELECT".toList ++ (' ' :: '*' :: ("FROM".toList ++ r)) ++ p) = .exit := by
  have ks : Kw "SELECT".toList "SELECT".toList := by unfold Kw; decide +kernel
  have e0 : "SELECT".toList ++ (' ' :: '*' :: ("FROM".toList ++ r)) ++ p =
      "SELECT".toList ++ (' ' :: '*' :: 'F' :: 'R' :: 'O' :: 'M' :: (r ++ p)) := by
    rw [List.append_assoc]
    rfl
  have hs : select ts (' ' :: '*' :: 'F' :: 'R' :: 'O' :: 'M' :: (r ++ p)) = .exit := by
    unfold select
    have e1 : skip .blank (' ' :: '*' :: 'F' :: 'R' :: 'O' :: 'M' :: (r ++ p)) =
        '*' :: 'F' :: 'R' :: 'O' :: 'M' :: (r ++ p) :=
      skip_gap_cons (.blank (by decide) .nil) (by decide) (by decide) _
    have e2 : kw "*".toList ('*' :: 'F' :: 'R' :: 'O' :: 'M' :: (r ++ p)) = none := by
      unfold kw
      rw [if_neg]
      rintro ⟨-, h⟩
      revert h
      show ((some 'F').any word = false) → False
      decide
    have e3 : kw "FROM".toList ('*' :: 'F' :: 'R' :: 'O' :: 'M' :: (r ++ p)) = none := by
      unfold kw
      rw [if_neg]
      rintro ⟨h, -⟩
      exact absurd (List.cons.inj h).1 (by decide)
    simp only
    rw [e1, e2, Option.getD_none, skip_cons (by decide) (by decide), e3]
  rw [e0]
  unfold body
  rw [stmts]
  have es := skip_begins .nil (kw_begins ks words_name.2.2.2.2.2.1) (' ' :: '*' :: 'F' :: 'R' :: 'O' :: 'M' :: (r ++ p))
  rw [List.nil_append] at es
  have hn1 := kw_ne (k := "CREATE".toList) ks (by decide +kernel) (by decide +kernel) (' ' :: '*' :: 'F' :: 'R' :: 'O' :: 'M' :: (r ++ p))
  have hn2 := kw_ne (k := "INSERT".toList) ks (by decide +kernel) (by decide +kernel) (' ' :: '*' :: 'F' :: 'R' :: 'O' :: 'M' :: (r ++ p))
  have hkw := kw_eq (r := ' ' :: '*' :: 'F' :: 'R' :: 'O' :: 'M' :: (r ++ p)) ks (free_cons (by decide) _)
  simp only [es, hn1, hn2, hkw, hs]
  rfl

/-! ## Columns -/

/-- **Words behind a type are another column**: `PRIMARY KEY` is a column `PRIMARY`, of type `int`. -/
theorem constraint_violated {n ty k1 k2 : Str} {b : Bool} (hn : Name n) (hl : n.length < 32) (ht : TypeSrc b ty)
    (h1 : Name k1) (hl1 : k1.length < 32) (h2 : Name k2) (k : Nat) (r : Str) :
    cols (k + 3) (n ++ ' ' :: (ty ++ ' ' :: (k1 ++ ' ' :: (k2 ++ ')' :: r)))) =
      .ok ([(n, b), (k1, isText k2)], ')' :: r) := by
  have g1 : Gap [' '] := .blank (by decide) .nil
  have w1 : Free (' ' :: (ty ++ ' ' :: (k1 ++ ' ' :: (k2 ++ ')' :: r)))) := free_cons (by decide) _
  have e1 := skip_begins .nil (name_begins hn) (' ' :: (ty ++ ' ' :: (k1 ++ ' ' :: (k2 ++ ')' :: r))))
  have e2 : skip .blank (' ' :: (ty ++ ' ' :: (k1 ++ ' ' :: (k2 ++ ')' :: r)))) =
      ty ++ ' ' :: (k1 ++ ' ' :: (k2 ++ ')' :: r)) := skip_begins g1 (name_begins (typeSrc_name ht)) _
  have e3 : skip .blank (' ' :: (k1 ++ ' ' :: (k2 ++ ')' :: r))) = k1 ++ ' ' :: (k2 ++ ')' :: r) :=
    skip_begins g1 (name_begins h1) _
  have e3' := skip_begins .nil (name_begins h1) (' ' :: (k2 ++ ')' :: r))
  have e4 : skip .blank (' ' :: (k2 ++ ')' :: r)) = k2 ++ ')' :: r := skip_begins g1 (name_begins h2) _
  rw [List.nil_append] at e1 e3'
  have hk1 : eat ',' (k1 ++ ' ' :: (k2 ++ ')' :: r)) = k1 ++ ' ' :: (k2 ++ ')' :: r) := by
    obtain ⟨c, x, e, hc⟩ : ∃ c x, k1 = c :: x ∧ word c = true := by
      cases k1 with
      | nil => exact absurd rfl h1.1
      | cons c x => exact ⟨c, x, rfl, h1.2 c (List.mem_cons_self ..)⟩
    rw [e, List.cons_append, eat, if_neg]
    rintro rfl
    revert hc; decide
  have c2 : cols (k + 2) (k1 ++ ' ' :: (k2 ++ ')' :: r)) = .ok ([(k1, isText k2)], ')' :: r) := by
    rw [cols, if_neg (not_or.2 (name_head h1)), e3', name_eq h1 (free_cons (by decide) _)]
    simp only
    rw [if_neg (fun h => h1.1 h.1), if_neg (by omega), e4, name_eq h2 (free_cons (by decide) _)]
    simp only
    rw [skip_cons (by decide) (by decide), eat, if_neg (by decide), cols, if_pos (.inr rfl)]
  rw [cols, if_neg (not_or.2 (name_head hn)), e1, name_eq hn w1]
  simp only
  rw [if_neg (fun h => hn.1 h.1), if_neg (by omega), e2, name_eq (typeSrc_name ht) (free_cons (by decide) _)]
  simp only
  rw [e3, hk1, c2, typeSrc_text ht]

/-- `id INT PRIMARY KEY` has the columns `id` and `PRIMARY`. -/
example : cols 9 "id INT PRIMARY KEY)".toList = .ok ([("id".toList, false), ("PRIMARY".toList, false)], [')']) :=
  constraint_violated (n := "id".toList) (ty := "INT".toList) (k1 := "PRIMARY".toList) (k2 := "KEY".toList)
    (by unfold Name; decide +kernel) (by decide +kernel) (.int (by unfold Kw; decide +kernel))
    (by unfold Name; decide +kernel) (by decide +kernel) (by unfold Name; decide +kernel) 6 []

/-- **A length in parentheses ends the columns**: those behind `VARCHAR(10)` are not there. -/
theorem length_violated {n ty : Str} (hn : Name n) (hl : n.length < 32) (ht : Name ty) (k : Nat) (r : Str) :
    cols (k + 2) (n ++ ' ' :: (ty ++ '(' :: r)) = .ok ([(n, isText ty)], '(' :: r) := by
  have e1 := skip_begins .nil (name_begins hn) (' ' :: (ty ++ '(' :: r))
  rw [List.nil_append] at e1
  have e2 : skip .blank (' ' :: (ty ++ '(' :: r)) = ty ++ '(' :: r :=
    skip_begins (.blank (by decide) .nil) (name_begins ht) _
  have hw : word '(' = false := by decide
  have e3 : name ('(' :: r) = ([], '(' :: r) := by simp [name, hw]
  rw [cols, if_neg (not_or.2 (name_head hn)), e1, name_eq hn (free_cons (by decide) _)]
  simp only
  rw [if_neg (fun h => hn.1 h.1), if_neg (by omega), e2, name_eq ht (free_cons hw _)]
  simp only
  rw [skip_cons (by decide) (by decide), eat, if_neg (by decide), cols, if_neg (by simp),
    skip_cons (by decide) (by decide), e3]
  simp only
  rw [if_pos (by simp)]

/-- **Any other type is `int`**, and any beginning of `TEXT` and `STRING` is text. -/
theorem type_violated {ty : Str} (ht : Name ty) :
    isText ty = true ↔ ∃ r, ty.map upper ++ r = "TEXT".toList ∨ ty.map upper ++ r = "STRING".toList := by
  unfold isText
  simp only [Bool.and_eq_true, Bool.or_eq_true, decide_eq_true_eq, List.isPrefixOf_iff_prefix]
  constructor
  · rintro ⟨-, ⟨r, h⟩ | ⟨r, h⟩⟩
    · exact ⟨r, .inl h⟩
    · exact ⟨r, .inr h⟩
  · rintro ⟨r, h | h⟩
    · exact ⟨ht.1, .inl ⟨r, h⟩⟩
    · exact ⟨ht.1, .inr ⟨r, h⟩⟩

example : isText "REAL".toList = false ∧ isText "VARCHAR".toList = false ∧ isText "T".toList = true := by
  decide +kernel

/-- **The name of a table of 64 characters and more is written beyond its place**, in each statement; so is the
name of a column of 32 and more. -/
theorem name_violated {t : Str} (ht : Name t) {g r : Str} (hg : Gap g) (hr : Free r) :
    (64 ≤ t.length → ∀ k ts, create k (g ++ (t ++ r)) = .ub ∧
      insert k (" INTO ".toList ++ (t ++ r)) = .ub ∧ select ts (" * FROM ".toList ++ (t ++ r)) = .ub) ∧
    (32 ≤ t.length → ∀ k, cols (k + 1) (g ++ (t ++ r)) = .ub) := by
  have gb : Gap [' '] := .blank (by decide) .nil
  have n1 := name_eq ht hr
  have e1 : skip .blank (' ' :: (t ++ r)) = t ++ r := skip_begins gb (name_begins ht) _
  refine ⟨fun hl k ts => ⟨?_, ?_, ?_⟩, fun hl k => ?_⟩
  · unfold create
    rw [skip_begins hg (name_begins ht), n1]
    simp only
    rw [if_pos hl]
  · have e : " INTO ".toList ++ (t ++ r) = ' ' :: ("INTO".toList ++ ' ' :: (t ++ r)) := rfl
    have ki : Kw "INTO".toList "INTO".toList := by unfold Kw; decide +kernel
    have e2 : skip .blank (' ' :: ("INTO".toList ++ ' ' :: (t ++ r))) = "INTO".toList ++ ' ' :: (t ++ r) :=
      skip_begins gb (kw_begins ki words_name.2.2.2.1) _
    unfold insert
    simp only
    rw [e, e2, kw_eq ki (free_cons (by decide) _), Option.getD_some, e1, n1]
    simp only
    rw [if_pos hl]
  · have e : " * FROM ".toList ++ (t ++ r) = ' ' :: '*' :: ' ' :: ("FROM".toList ++ ' ' :: (t ++ r)) := rfl
    have kf : Kw "FROM".toList "FROM".toList := by unfold Kw; decide +kernel
    have e2 : skip .blank (' ' :: ("FROM".toList ++ ' ' :: (t ++ r))) = "FROM".toList ++ ' ' :: (t ++ r) :=
      skip_begins gb (kw_begins kf words_name.2.2.2.2.2.2) _
    have e3 : skip .blank (' ' :: '*' :: ' ' :: ("FROM".toList ++ ' ' :: (t ++ r))) =
        '*' :: ' ' :: ("FROM".toList ++ ' ' :: (t ++ r)) := skip_gap_cons gb (by decide) (by decide) _
    have hstar : kw "*".toList ('*' :: ' ' :: ("FROM".toList ++ ' ' :: (t ++ r))) =
        some (' ' :: ("FROM".toList ++ ' ' :: (t ++ r))) :=
      kw_eq (s := "*".toList) (by unfold Kw; decide +kernel) (free_cons (by decide) _)
    unfold select
    simp only
    rw [e, e3, hstar, Option.getD_some, e2, kw_eq kf (free_cons (by decide) _)]
    simp only
    rw [e1, n1]
    simp only
    rw [if_pos hl]
  · rw [cols, if_neg (gap_head hg (name_head ht)), skip_begins hg (name_begins ht), n1]
    simp only
    rw [if_neg (fun h => ht.1 h.1), if_pos hl]

example : Name (List.replicate 64 'a') ∧ 64 ≤ (List.replicate 64 'a').length := by
  unfold Name; decide +kernel

/-! ## Values -/

/-- **A backslash at the end of a block within a string** is read beyond the text of the block. -/
theorem backslash_violated {s : Str} (h : Lit s) : value ('"' :: (s ++ ['\\'])) = .ub := by
  have : string (s ++ ['\\']) = .ub := by
    induction h with
    | nil => rfl
    | char h1 h2 _ ih =>
      rename_i c s _
      rw [List.cons_append, string.eq_def]
      split <;> simp_all
    | esc _ ih =>
      rw [List.cons_append, List.cons_append, string]
      rw [ih]
  rw [value, this]

/-- **A call within a value is cut off** at its first closing parenthesis or comma: what is written opens a
parenthesis it does not close. -/
theorem call_violated {f a : Str} (hf : Name f) (ha : ∀ c ∈ a, c ≠ ',' ∧ c ≠ ')') (k : Nat) (r : Str) :
    vals (k + 2) (f ++ '(' :: (a ++ ')' :: r)) = .ok (f ++ '(' :: a, ')' :: r) := by
  have hsrc : ValSrc (.expr (f ++ '(' :: a)) (f ++ '(' :: a) := by
    refine .expr ⟨?_, fun c hc => ?_⟩
    · cases f with
      | nil => exact absurd rfl hf.1
      | cons c f =>
        have hc := hf.2 c (List.mem_cons_self ..)
        obtain ⟨h1, h2⟩ := word_not_space hc
        refine ⟨c, _, rfl, h1, h2, ?_⟩
        rintro rfl
        revert hc; decide
    · rcases List.mem_append.1 hc with h | h
      · have := hf.2 c h
        constructor <;> (rintro rfl; revert this; decide)
      · rcases List.mem_cons.1 h with rfl | h
        · decide
        · exact ha c h
  have e : f ++ '(' :: (a ++ ')' :: r) = [] ++ ((f ++ '(' :: a) ++ ')' :: r) := by simp
  obtain ⟨r', h1, h2⟩ := value_src hsrc (.inr rfl) r
  obtain ⟨hb, hh⟩ := val_head hsrc (')' :: r)
  rw [e, vals, if_neg (gap_head .nil hh), skip_begins .nil hb, h1]
  simp only [h2]
  rw [eat, if_neg (by decide), vals, if_pos (.inr rfl)]
  simp [Val.text]

example : vals 9 "f(1), 2)".toList = .ok ("f(1".toList, "), 2)".toList) :=
  call_violated (f := "f".toList) (a := "1".toList) (by unfold Name; decide +kernel) (by decide +kernel) 7 _

/-- `INTO`, the name and `VALUES` behind `INSERT`. -/
theorem insert_values {t : Str} (ht : Name t) (hl : t.length < 64) (k : Nat) {q s r : Str}
    (h : vals k q = .ok (s, ')' :: r)) :
    insert k (' ' :: ("INTO".toList ++ ' ' :: (t ++ ' ' :: ("VALUES".toList ++ ' ' :: '(' :: q)))) =
      .ok (insertText t s, eat ';' (skip .blank r)) := by
  have gb : Gap [' '] := .blank (by decide) .nil
  have ki : Kw "INTO".toList "INTO".toList := by unfold Kw; decide +kernel
  have kv : Kw "VALUES".toList "VALUES".toList := by unfold Kw; decide +kernel
  have e1 : ∀ x, skip .blank (' ' :: ("INTO".toList ++ x)) = "INTO".toList ++ x :=
    fun x => skip_begins gb (kw_begins ki words_name.2.2.2.1) x
  have e2 : ∀ x, skip .blank (' ' :: (t ++ x)) = t ++ x := fun x => skip_begins gb (name_begins ht) x
  have e3 : ∀ x, skip .blank (' ' :: ("VALUES".toList ++ x)) = "VALUES".toList ++ x :=
    fun x => skip_begins gb (kw_begins kv words_name.2.2.2.2.1) x
  have e4 : ∀ x, skip .blank (' ' :: '(' :: x) = '(' :: x := fun x => skip_gap_cons gb (by decide) (by decide) x
  unfold insert
  simp only
  rw [e1, kw_eq ki (free_cons (by decide) _), Option.getD_some, e2, name_eq ht (free_cons (by decide) _)]
  simp only
  rw [if_neg (by omega), e3, kw_eq kv (free_cons (by decide) _)]
  simp only
  rw [e4, eat, if_pos rfl, h]
  simp only
  rw [eat, if_pos rfl]

/-- **Of several rows only the first is inserted**: the others are left out, and nothing says so. -/
theorem rows_violated {t : Str} (ht : Name t) (hl : t.length < 64) {vs : List Val} {s : Str} (hs : ValsSrc vs s) {w : Str}
    (hw : Quiet (',' :: w) = true) (ts : Tables) (p : Str) :
    body ts ("INSERT".toList ++ ' ' :: ("INTO".toList ++ ' ' :: (t ++ ' ' :: ("VALUES".toList ++ ' ' :: '(' ::
      (s ++ ',' :: (w ++ p)))))) =
    body ts ("INSERT".toList ++ ' ' :: ("INTO".toList ++ ' ' :: (t ++ ' ' :: ("VALUES".toList ++ ' ' :: '(' ::
      (s ++ ';' :: p))))) := by
  have key : ∀ (c : Char) (x : Str), isspace c = false → c ≠ '/' →
      body ts ("INSERT".toList ++ ' ' :: ("INTO".toList ++ ' ' :: (t ++ ' ' :: ("VALUES".toList ++ ' ' :: '(' ::
        (s ++ c :: x))))) = match body ts (eat ';' (c :: x)) with
        | .ok (b, ts) => .ok (insertText t (commas vs) ++ b, ts)
        | .exit => .exit
        | .ub => .ub
        | .more => .more := by
    intro c x h1 h2
    have ki : Kw "INSERT".toList "INSERT".toList := by unfold Kw; decide +kernel
    generalize hX : (' ' :: ("INTO".toList ++ ' ' :: (t ++ ' ' :: ("VALUES".toList ++ ' ' :: '(' ::
        (s ++ c :: x)))) : Str) = X
    have hfree : Free X := by rw [← hX]; exact free_cons (by decide) _
    have hlen : s.length + (c :: x).length < X.length := by
      rw [← hX]
      simp only [List.length_cons, List.length_append]
      omega
    have hins : insert ("INSERT".toList ++ X).length X = .ok (insertText t (commas vs), eat ';' (c :: x)) := by
      have hv := vals_src hs ("INSERT".toList ++ X).length (by rw [List.length_append]; omega) (c :: x)
      have := insert_values ht hl _ hv
      rw [skip_cons h1 h2, hX] at this
      exact this
    have es := skip_begins .nil (kw_begins ki words_name.2.2.1) X
    rw [List.nil_append] at es
    have hn1 := kw_ne (k := "CREATE".toList) ki (by decide +kernel) (by decide +kernel) X
    have hkw := kw_eq ki hfree
    have he : stmts ("INSERT".toList ++ X).length ts (eat ';' (c :: x)) = body ts (eat ';' (c :: x)) := by
      refine stmts_enough ?_
      have := eat_len ';' (c :: x)
      rw [List.length_append]
      omega
    conv => lhs; unfold body
    rw [stmts]
    simp only [es, hn1, hkw, hins, he]
    rfl
  rw [key ',' (w ++ p) (by decide) (by decide), key ';' p (by decide) (by decide), eat, if_neg (by decide), eat,
    if_pos rfl, ← List.cons_append, quiet_violated hw]

/-- `INSERT INTO t VALUES (1), (2);` inserts the row `1` only. -/
example (ts : Tables) : body ts "INSERT INTO t VALUES (1), (2);".toList = body ts "INSERT INTO t VALUES (1);".toList :=
  rows_violated (t := "t".toList) (by unfold Name; decide +kernel) (by decide +kernel) (vs := [.expr "1".toList])
    (s := "1)".toList)
    (.one (g := []) .nil (.expr ⟨⟨'1', [], rfl, by decide, by decide, by decide⟩, by decide +kernel⟩))
    (w := " (2);".toList) (by decide +kernel) ts []

/-! ## Rows -/

/-- A block that creates a table, inserts a row into it `n` times, and selects it. -/
def fill (t : Str) (cs : Cols) (vs : List Val) (n : Nat) : List Stmt :=
  .create t cs :: (List.replicate n (.insert t vs) ++ [.select t])

/-- What it is written as. -/
def fillC (t : Str) (cs : Cols) (vs : List Val) (n : Nat) : List CS :=
  .decl t cs :: (List.replicate n (.add t vs) ++ [.loop t cs])

theorem compile_fill (ts : Tables) (t : Str) (cs : Cols) (vs : List Val) (n : Nat) :
    compile ts (fill t cs vs n) = some (fillC t cs vs n, (t, cs) :: ts) := by
  have : ∀ n, compile ((t, cs) :: ts) (List.replicate n (.insert t vs) ++ [.select t]) =
      some (List.replicate n (.add t vs) ++ [.loop t cs], (t, cs) :: ts) := by
    intro n
    induction n with
    | zero => simp [compile]
    | succ n ih => rw [List.replicate_succ, List.cons_append, compile, ih]; rfl
  unfold fill fillC
  rw [compile, this]
  rfl

theorem run_fill (d : Den) {t : Str} {cs : Cols} {vs : List Val} (hn : (cs.map (·.1)).Nodup) (ht : typed vs cs = true)
    (n : Nat) : ∃ σ, run d (fun _ => none) (fill t cs vs n) =
      some (σ, (List.replicate n (line (vs.map d.val))).flatten) := by
  have : ∀ n (σ : Db) rows, σ t = some (cs, rows) →
      ∃ σ', run d σ (List.replicate n (.insert t vs) ++ [.select t]) =
        some (σ', (rows.map line).flatten ++ (List.replicate n (line (vs.map d.val))).flatten) := by
    intro n
    induction n with
    | zero =>
      intro σ rows h
      refine ⟨σ, ?_⟩
      rw [List.replicate_zero, List.nil_append, run]
      simp only [exec, h, run]
      rfl
    | succ n ih =>
      intro σ rows h
      obtain ⟨σ', h'⟩ := ih (upd σ t (some (cs, rows ++ [vs.map d.val]))) _ (upd_same ..)
      refine ⟨σ', ?_⟩
      rw [List.replicate_succ, List.cons_append, run]
      simp only [exec, h, if_pos ht, h']
      simp [List.replicate_succ]
  obtain ⟨σ', h⟩ := this n (upd (fun _ => none) t (some (cs, []))) [] (upd_same ..)
  refine ⟨σ', ?_⟩
  unfold fill
  rw [run]
  simp only [exec]
  rw [if_pos ⟨rfl, hn⟩]
  simp only [h]
  rfl

/-- How the rows behind the declaration go on, where `m` rows are stored. -/
theorem runC_fill (d : Den) {t : Str} {cs : Cols} {vs : List Val} (hn : (cs.map (·.1)).Nodup) (ht : typed vs cs = true)
    (n m : Nat) (hm : m ≤ 128) (c : C) (hs : c.scope t = none) (hr : c.rows t = List.replicate m (vs.map d.val)) :
    ∃ c', runC d c (fillC t cs vs n) = some (c', (List.replicate (min (m + n) 128) (line (vs.map d.val))).flatten) ∧
      c'.rows t = List.replicate (min (m + n) 128) (vs.map d.val) := by
  have : ∀ n m (c : C), m ≤ 128 → c.scope t = some cs → c.rows t = List.replicate m (vs.map d.val) →
      ∃ c', runC d c (List.replicate n (.add t vs) ++ [.loop t cs]) =
        some (c', (List.replicate (min (m + n) 128) (line (vs.map d.val))).flatten) ∧
        c'.rows t = List.replicate (min (m + n) 128) (vs.map d.val) := by
    intro n
    induction n with
    | zero =>
      intro m c hm hs hr
      refine ⟨c, ?_, ?_⟩
      · rw [List.replicate_zero, List.nil_append, runC]
        have hp := printRows_typed d hn (rows := List.replicate m (vs.map d.val)) fun row hrow =>
          ⟨vs, ht, (List.mem_replicate.1 hrow).2⟩
        simp only [CS.exec, hs, hr, hp, runC]
        rw [List.map_replicate, List.append_nil, show min (m + 0) 128 = m by omega]
      · rw [hr, show min (m + 0) 128 = m by omega]
    | succ n ih =>
      intro m c hm hs hr
      rw [List.replicate_succ, List.cons_append, runC]
      simp only [CS.exec, hs, init_typed d ht, hr, List.length_replicate]
      by_cases h : m < 128
      · obtain ⟨c', h1, h2⟩ := ih (m + 1) { c with rows := upd c.rows t (List.replicate m (vs.map d.val) ++ [vs.map d.val]) }
          (by omega) hs (by rw [List.replicate_succ']; exact upd_same ..)
        rw [if_pos h]
        simp only [h1]
        rw [show m + 1 + n = m + (n + 1) by omega] at h2 ⊢
        exact ⟨c', rfl, h2⟩
      · obtain ⟨c', h1, h2⟩ := ih m c hm hs hr
        rw [if_neg h]
        simp only [h1]
        rw [show min (m + n) 128 = min (m + (n + 1)) 128 by omega] at h2 ⊢
        exact ⟨c', rfl, h2⟩
  obtain ⟨c', h1, h2⟩ := this n m { c with scope := upd c.scope t (some cs) } hm (upd_same ..) hr
  refine ⟨c', ?_, h2⟩
  unfold fillC
  rw [runC]
  simp only [CS.exec]
  rw [if_pos ⟨by rw [hs]; rfl, hn⟩]
  simp only [h1]
  rfl

/-- **Rows beyond the 128th are left out**, and nothing says so: the statements of SQL print all of them, the
program only the first 128. -/
theorem full_violated (d : Den) {t : Str} {cs : Cols} {vs : List Val} (hn : (cs.map (·.1)).Nodup)
    (ht : typed vs cs = true) {n : Nat} (h : 128 < n) (ts : Tables) {s : Str} (hs : BlockSrc (fill t cs vs n) s) :
    (∃ σ, run d (fun _ => none) (fill t cs vs n) = some (σ, (List.replicate n (line (vs.map d.val))).flatten)) ∧
      transpile ts s = .ok ("({\n".toList ++ ((fillC t cs vs n).map CS.text).flatten ++ "0; })".toList, (t, cs) :: ts) ∧
      ∃ c, runC d fresh (fillC t cs vs n) = some (c, (List.replicate 128 (line (vs.map d.val))).flatten) := by
  refine ⟨run_fill d hn ht n, transpile_text hs (compile_fill ..), ?_⟩
  obtain ⟨c, h1, -⟩ := runC_fill d hn ht n 0 (Nat.zero_le _) fresh rfl rfl
  rw [show min (0 + n) 128 = 128 by omega] at h1
  exact ⟨c, h1⟩

/-- **A block that runs again finds the rows it has left**: its table is created anew and yet not empty, so that
it prints them all again. -/
theorem again_violated (d : Den) {t : Str} {cs : Cols} {vs : List Val} (hn : (cs.map (·.1)).Nodup)
    (ht : typed vs cs = true) {n : Nat} (h : 2 * n ≤ 128) :
    ∃ c c', runC d fresh (fillC t cs vs n) = some (c, (List.replicate n (line (vs.map d.val))).flatten) ∧
      runC d ⟨fun _ => none, c.rows⟩ (fillC t cs vs n) =
        some (c', (List.replicate (2 * n) (line (vs.map d.val))).flatten) := by
  obtain ⟨c, h1, h2⟩ := runC_fill d hn ht n 0 (Nat.zero_le _) fresh rfl rfl
  obtain ⟨c', h3, -⟩ := runC_fill d hn ht n (min (0 + n) 128) (by omega) ⟨fun _ => none, c.rows⟩ rfl h2
  rw [show min (0 + n) 128 = n by omega] at h1 h3
  rw [show min (n + n) 128 = 2 * n by omega] at h3
  exact ⟨c, c', h1, h3⟩

/-- **A table of another block** is known to the plugin, but not in the C it writes: the block is accepted, and the
program does not compile. -/
theorem other_block_violated (d : Den) {t : Str} {cs : Cols} (ts : Tables) {s : Str} (hs : BlockSrc [.select t] s)
    (rows : Str → List (List V)) :
    transpile ((t, cs) :: ts) s =
      .ok ("({\n".toList ++ ([CS.loop t cs].map CS.text).flatten ++ "0; })".toList, (t, cs) :: ts) ∧
      runC d ⟨fun _ => none, rows⟩ [.loop t cs] = none := by
  refine ⟨transpile_text hs ?_, rfl⟩
  rw [compile, List.find?_cons_of_pos (by simp)]
  rfl

/-- **A string that is not given** is a null pointer, and what the program prints is undefined; SQL refuses such a row. -/
theorem short_violated (d : Den) {t n n' : Str} (hne : n ≠ n') (v : Str) :
    run d (fun _ => none) (fill t [(n, false), (n', true)] [.expr v] 1) = none ∧
      compile [] (fill t [(n, false), (n', true)] [.expr v] 1) =
        some (fillC t [(n, false), (n', true)] [.expr v] 1, [(t, [(n, false), (n', true)])]) ∧
      runC d fresh (fillC t [(n, false), (n', true)] [.expr v] 1) = none := by
  refine ⟨?_, compile_fill .., ?_⟩
  · unfold fill
    rw [run]
    simp [exec, hne, run, upd_same, typed]
  · unfold fillC
    rw [runC]
    simp [CS.exec, fresh, hne, runC, upd_same, init, zero, fits]

end Verif.Sql
