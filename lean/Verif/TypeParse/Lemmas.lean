import Verif.TypeParse.Model

/-!
# Reading types: nesting is bounded by the text, and more steps do not change the result
-/

namespace Verif.TypeParse

/-- The reader of the types inside. -/
abbrev Rd := List Tok → R (Ty × List Tok)

/-! ## More steps -/

/-- The same, unless the steps run out. -/
def R.le {α : Type} (x y : R α) : Prop := x = .fuel ∨ x = y

theorem R.le_refl {α : Type} (x : R α) : R.le x x := .inr rfl

theorem R.bind_le {α β : Type} {x y : R α} {f g : α → R β} (h : R.le x y)
    (hf : ∀ a, R.le (f a) (g a)) : R.le (x.bind f) (y.bind g) := by
  rcases h with h | h
  · subst h; exact .inl rfl
  · subst h
    cases x with
    | ok a => exact hf a
    | err => exact .inr rfl
    | fuel => exact .inl rfl

theorem more_le {P Q : Rd} (h : ∀ ts, R.le (P ts) (Q ts)) :
    ∀ k ts, R.le (more P k ts) (more Q k ts) := by
  intro k
  induction k with
  | zero =>
      intro ts
      unfold more
      split
      · exact .inr rfl
      · rename_i heq; exact nomatch heq
      · exact .inr rfl
  | succ k ih =>
      intro ts
      unfold more
      split
      · rename_i heq; cases heq
      · rename_i k' r heq
        obtain rfl : k = k' := Nat.succ.inj heq
        exact R.bind_le (h _) fun ⟨t, r⟩ => R.bind_le (ih r) fun _ => R.le_refl _
      · exact R.le_refl _

theorem list_le {P Q : Rd} (h : ∀ ts, R.le (P ts) (Q ts)) (ts : List Tok) :
    R.le (list P ts) (list Q ts) :=
  R.bind_le (h _) fun ⟨_, r⟩ => R.bind_le (more_le h _ r) fun _ => R.le_refl _

theorem name_le {P Q : Rd} (env : Env) (h : ∀ ts, R.le (P ts) (Q ts)) (x : Bool) (n : Str)
    (r : List Tok) : R.le (name env P x n r) (name env Q x n r) := by
  unfold name
  split
  · exact R.le_refl _
  · refine R.bind_le (R.le_refl _) fun ⟨n, r⟩ => ?_
    dsimp only
    split
    · exact R.le_refl _
    · split
      · exact R.bind_le (list_le h _) fun _ => R.le_refl _
      · exact R.bind_le (list_le h _) fun _ => R.le_refl _
      · exact R.le_refl _

theorem base_le {P Q : Rd} (env : Env) (h : ∀ ts, R.le (P ts) (Q ts)) (ts : List Tok) :
    R.le (base env P ts) (base env Q ts) := by
  unfold base
  split
  · split
    · split
      · exact name_le env h _ _ _
      · exact R.le_refl _
    · exact name_le env h _ _ _
  · exact R.bind_le (h _) fun _ => R.le_refl _
  · exact R.bind_le (list_le h _) fun _ => R.le_refl _
  · exact R.le_refl _

theorem fnList_le {P Q : Rd} (h : ∀ ts, R.le (P ts) (Q ts)) :
    ∀ k ts, R.le (fnArgs.fnList P k ts) (fnArgs.fnList Q k ts) := by
  intro k
  induction k with
  | zero => intro ts; exact .inr rfl
  | succ k ih =>
      intro ts
      unfold fnArgs.fnList
      refine R.bind_le (h _) fun ⟨t, r⟩ => ?_
      dsimp only
      split
      · exact R.le_refl _
      · exact R.bind_le (ih _) fun _ => R.le_refl _
      · exact R.le_refl _

theorem fnType_le {P Q : Rd} (h : ∀ ts, R.le (P ts) (Q ts)) (ts : List Tok) :
    R.le (fnType P ts) (fnType Q ts) := by
  unfold fnType
  dsimp only
  split
  · refine R.bind_le ?_ fun ⟨a, r⟩ => ?_
    · unfold fnArgs
      split
      · exact R.le_refl _
      · exact fnList_le h _ _
    · dsimp only
      split
      · exact R.bind_le (h _) fun _ => R.le_refl _
      · exact R.le_refl _
      · exact R.le_refl _
  · exact R.le_refl _

theorem step_le {P Q : Rd} (env : Env) (h : ∀ ts, R.le (P ts) (Q ts)) (ts : List Tok) :
    R.le (step env P ts) (step env Q ts) := by
  unfold step
  dsimp only
  refine R.bind_le ?_ fun _ => R.le_refl _
  unfold core
  split
  · split
    · exact fnType_le h _
    · exact base_le env h _
  · exact base_le env h _

theorem formal_le (env : Env) : ∀ k ts, R.le (formal env k ts) (formal env (k + 1) ts) := by
  intro k
  induction k with
  | zero => intro ts; exact .inl rfl
  | succ k ih => intro ts; exact step_le env ih ts

theorem formal_le' (env : Env) (k j : Nat) (ts : List Tok) :
    R.le (formal env k ts) (formal env (k + j) ts) := by
  induction j with
  | zero => exact R.le_refl _
  | succ j ih =>
      rcases ih with h | h
      · exact .inl h
      · rw [h]; exact formal_le env (k + j) ts

/-! ## Tokens are not given back -/

theorem weight_append (a b : List Tok) : weight (a ++ b) = weight a + weight b := by
  induction a with
  | nil => simp [weight]
  | cons t a ih => cases t <;> simp [weight, ih] <;> omega

theorem weight_cons (t : Tok) (r : List Tok) : weight r + 1 ≤ weight (t :: r) := by
  cases t <;> simp [weight] <;> omega

/-- Reads and gives back no more than it got. -/
def Shrinks (P : Rd) : Prop := ∀ ts t r, P ts = .ok (t, r) → weight r ≤ weight ts

theorem bind_ok_inv {α β : Type} {x : R α} {f : α → R β} {b : β} (h : x.bind f = .ok b) :
    ∃ a, x = .ok a ∧ f a = .ok b := by
  cases x with
  | ok a => exact ⟨a, rfl, h⟩
  | err => exact nomatch h
  | fuel => exact nomatch h

theorem more_shrinks {P : Rd} (hP : Shrinks P) :
    ∀ k ts l r, more P k ts = .ok (l, r) → weight r ≤ weight ts := by
  intro k
  induction k with
  | zero =>
      intro ts l r h
      unfold more at h
      split at h
      · exact nomatch h
      · rename_i heq; exact nomatch heq
      · cases h; exact Nat.le_refl _
  | succ k ih =>
      intro ts l r h
      unfold more at h
      split at h
      · exact nomatch h
      · rename_i k' r' heq
        obtain rfl : k = k' := Nat.succ.inj heq
        obtain ⟨⟨t, r1⟩, e1, h⟩ := bind_ok_inv h
        obtain ⟨⟨l2, r2⟩, e2, h⟩ := bind_ok_inv h
        cases h
        have := hP _ _ _ e1
        have := ih _ _ _ e2
        have := weight_cons .comma r'
        omega
      · cases h; exact Nat.le_refl _

theorem list_shrinks {P : Rd} (hP : Shrinks P) {ts : List Tok} {l : List Ty} {r : List Tok}
    (h : list P ts = .ok (l, r)) : weight r ≤ weight ts := by
  obtain ⟨⟨t, r1⟩, e1, h⟩ := bind_ok_inv h
  obtain ⟨⟨l2, r2⟩, e2, h⟩ := bind_ok_inv h
  cases h
  have := hP _ _ _ e1
  have := more_shrinks hP _ _ _ _ e2
  omega

theorem path_shrinks (env : Env) : ∀ (ts : List Tok) (n m : Str) (r : List Tok),
    path env n ts = .ok (m, r) → weight r ≤ weight ts
  | .dcolon :: .ident x :: ts, n, m, r, h => by
      have := path_shrinks env ts _ m r h
      simp only [weight]; omega
  | ts, n, m, r, h => by
      unfold path at h
      split at h
      · rename_i x ts'
        have := path_shrinks env ts' _ m r h
        simp only [weight]; omega
      · exact nomatch h
      · cases h; exact Nat.le_refl _

theorem close_shrinks {ts r : List Tok} (h : close ts = some r) : weight r + 1 ≤ weight ts := by
  unfold close at h
  split at h <;> simp at h <;> (subst h; simp only [weight]; omega)

theorem stars_shrinks : ∀ ts, weight (stars ts).2 ≤ weight ts
  | [] => Nat.le_refl _
  | .star :: .eq 0 :: r => by
      have := stars_shrinks r
      simp only [stars, weight]; omega
  | t :: r => by
      unfold stars
      split
      · rename_i r' heq
        cases heq
        have := stars_shrinks r'
        simp only [weight]; omega
      · rename_i r' _ heq
        cases heq
        have := stars_shrinks r
        simp only [weight]; omega
      · exact Nat.le_refl _

theorem name_shrinks {P : Rd} (env : Env) (hP : Shrinks P) {x : Bool} {n : Str}
    {ts : List Tok} {t : Ty} {r : List Tok} (h : name env P x n ts = .ok (t, r)) :
    weight r ≤ weight ts := by
  unfold name at h
  split at h
  · cases h; exact Nat.le_refl _
  · obtain ⟨⟨m, r1⟩, e1, h⟩ := bind_ok_inv h
    have h1 := path_shrinks env _ _ _ _ e1
    dsimp only at h
    split at h
    · cases h; exact h1
    · split at h
      · obtain ⟨⟨l, r2⟩, e2, h⟩ := bind_ok_inv h
        have h2 := list_shrinks hP e2
        dsimp only at h
        split at h
        · rename_i r3 e3
          cases h
          have := close_shrinks e3
          simp only [weight] at h1
          omega
        · exact nomatch h
      · obtain ⟨⟨l, r2⟩, e2, h⟩ := bind_ok_inv h
        have h2 := list_shrinks hP e2
        dsimp only at h
        split at h
        · rename_i r3 e3
          cases h
          have := close_shrinks e3
          simp only [weight] at h1
          omega
        · exact nomatch h
      · cases h; exact h1

theorem base_shrinks {P : Rd} (env : Env) (hP : Shrinks P) : Shrinks (base env P) := by
  intro ts t r h
  unfold base at h
  split at h
  · split at h
    · split at h
      · have := name_shrinks env hP h
        simp only [weight]; omega
      · exact nomatch h
    · have := name_shrinks env hP h
      simp only [weight]; omega
  · obtain ⟨⟨u, r1⟩, e1, h⟩ := bind_ok_inv h
    have h1 := hP _ _ _ e1
    dsimp only at h
    split at h
    · split at h
      · rename_i e2
        cases h
        have := env.size_le _ _ _ e2
        simp only [weight] at *
        omega
      · exact nomatch h
    · cases h; simp only [weight] at *; omega
    · exact nomatch h
  · obtain ⟨⟨u, r1⟩, e1, h⟩ := bind_ok_inv h
    have h1 := list_shrinks hP e1
    dsimp only at h
    split at h
    · cases h; simp only [weight] at *; omega
    · exact nomatch h
  · cases h; exact Nat.le_refl _

theorem fnList_shrinks {P : Rd} (hP : Shrinks P) :
    ∀ k ts l r, fnArgs.fnList P k ts = .ok (l, r) → weight r ≤ weight ts := by
  intro k
  induction k with
  | zero => intro ts l r h; exact nomatch h
  | succ k ih =>
      intro ts l r h
      unfold fnArgs.fnList at h
      obtain ⟨⟨t, r1⟩, e1, h⟩ := bind_ok_inv h
      have h1 := hP _ _ _ e1
      dsimp only at h
      split at h
      · cases h; simp only [weight] at *; omega
      · obtain ⟨⟨l2, r2⟩, e2, h⟩ := bind_ok_inv h
        have := ih _ _ _ e2
        cases h; simp only [weight] at *; omega
      · cases h; exact h1

theorem fnArgs_shrinks {P : Rd} (hP : Shrinks P) {ts : List Tok} {l : List Ty} {r : List Tok}
    (h : fnArgs P ts = .ok (l, r)) : weight r ≤ weight ts := by
  unfold fnArgs at h
  split at h
  · cases h; exact Nat.le_refl _
  · exact fnList_shrinks hP _ _ _ _ h

theorem fnType_shrinks {P : Rd} (hP : Shrinks P) : Shrinks (fnType P) := by
  intro ts t r h
  unfold fnType at h
  have h0 := stars_shrinks ts
  dsimp only at h
  split at h
  · rename_i r0 e0
    rw [e0] at h0
    obtain ⟨⟨l, r1⟩, e1, h⟩ := bind_ok_inv h
    have h1 := fnArgs_shrinks hP e1
    dsimp only at h
    split at h
    · obtain ⟨⟨u, r2⟩, e2, h⟩ := bind_ok_inv h
      have h2 := hP _ _ _ e2
      cases h; simp only [weight] at *; omega
    · cases h; simp only [weight] at *; omega
    · exact nomatch h
  · exact nomatch h

theorem dims_shrinks (env : Env) : ∀ k ts l r, dims env k ts = .ok (l, r) →
    weight r ≤ weight ts := by
  intro k
  induction k with
  | zero =>
      intro ts l r h
      unfold dims at h
      split at h
      · exact nomatch h
      · rename_i heq; exact nomatch heq
      · rename_i heq; exact nomatch heq
      · cases h; exact Nat.le_refl _
  | succ k ih =>
      intro ts l r h
      unfold dims at h
      split at h
      · exact nomatch h
      · rename_i k' r' heq
        obtain rfl : k = k' := Nat.succ.inj heq
        obtain ⟨⟨l2, r2⟩, e2, h⟩ := bind_ok_inv h
        have := ih _ _ _ e2
        cases h; simp only [weight] at *; omega
      · rename_i k' r' _ heq
        obtain rfl : k = k' := Nat.succ.inj heq
        split at h
        · rename_i e1
          have := env.size_le _ _ _ e1
          obtain ⟨⟨l2, r2⟩, e2, h⟩ := bind_ok_inv h
          have := ih _ _ _ e2
          cases h; simp only [weight] at *; omega
        · exact nomatch h
      · cases h; exact Nat.le_refl _

theorem qual_shrinks (ts : List Tok) : weight (qual ts).2 ≤ weight ts := by
  unfold qual
  split
  · split
    · simp only [weight]; omega
    · split
      · simp only [weight]; omega
      · exact Nat.le_refl _
  · exact Nat.le_refl _

theorem core_shrinks {P : Rd} (env : Env) (hP : Shrinks P) : Shrinks (core env P) := by
  intro ts t r h
  unfold core at h
  split at h
  · split at h
    · have := fnType_shrinks hP _ _ _ h
      simp only [weight]; omega
    · exact base_shrinks env hP _ _ _ h
  · exact base_shrinks env hP _ _ _ h

theorem step_shrinks {P : Rd} (env : Env) (hP : Shrinks P) : Shrinks (step env P) := by
  intro ts t r h
  unfold step at h
  have h0 := qual_shrinks ts
  dsimp only at h
  obtain ⟨⟨u, r1⟩, e1, h⟩ := bind_ok_inv h
  have h1 := core_shrinks env hP _ _ _ e1
  have h2 := stars_shrinks r1
  dsimp only at h
  obtain ⟨⟨l, r2⟩, e2, h⟩ := bind_ok_inv h
  have h3 := dims_shrinks env _ _ _ _ e2
  cases h
  dsimp only
  omega

theorem formal_shrinks (env : Env) : ∀ k, Shrinks (formal env k) := by
  intro k
  induction k with
  | zero => intro ts t r h; exact nomatch h
  | succ k ih => exact step_shrinks env ih

/-! ## The steps suffice -/

theorem bind_ne_fuel {α β : Type} {x : R α} {f : α → R β} (h : x ≠ .fuel)
    (hf : ∀ a, x = .ok a → f a ≠ .fuel) : x.bind f ≠ .fuel := by
  cases x with
  | ok a => exact hf a rfl
  | err => exact fun e => nomatch e
  | fuel => exact absurd rfl h

/-- Does not run out of steps on less than `n`. -/
def Enough (P : Rd) (n : Nat) : Prop := ∀ ts, weight ts < n → P ts ≠ .fuel

theorem more_enough {P : Rd} (hP : Shrinks P) {n : Nat} (hE : Enough P n) :
    ∀ k ts, weight ts ≤ k → weight ts ≤ n → more P k ts ≠ .fuel := by
  intro k
  induction k with
  | zero =>
      intro ts h hn
      unfold more
      split
      · simp only [weight] at h; omega
      · rename_i heq; exact nomatch heq
      · exact fun e => nomatch e
  | succ k ih =>
      intro ts h hn
      unfold more
      split
      · rename_i heq; exact nomatch heq
      · rename_i k' r heq
        obtain rfl : k = k' := Nat.succ.inj heq
        simp only [weight] at h hn
        refine bind_ne_fuel (hE r (by omega)) fun ⟨t, r1⟩ e1 => ?_
        have := hP _ _ _ e1
        exact bind_ne_fuel (ih r1 (by omega) (by omega)) fun _ _ e => nomatch e
      · exact fun e => nomatch e

theorem list_enough {P : Rd} (hP : Shrinks P) {n : Nat} (hE : Enough P n) {ts : List Tok}
    (h : weight ts < n) : list P ts ≠ .fuel := by
  refine bind_ne_fuel (hE ts h) fun ⟨t, r⟩ e => ?_
  have := hP _ _ _ e
  exact bind_ne_fuel (more_enough hP hE _ _ (Nat.le_refl _) (by omega)) fun _ _ e => nomatch e

theorem path_ne_fuel (env : Env) : ∀ (ts : List Tok) (n : Str), path env n ts ≠ .fuel
  | .dcolon :: .ident x :: ts, n => path_ne_fuel env ts _
  | ts, n => by
      unfold path
      split
      · rename_i x ts'
        exact path_ne_fuel env ts' _
      · exact fun e => nomatch e
      · exact fun e => nomatch e

theorem name_enough {P : Rd} (env : Env) (hP : Shrinks P) {n : Nat} (hE : Enough P n) (x : Bool)
    (m : Str) {ts : List Tok} (h : weight ts ≤ n) : name env P x m ts ≠ .fuel := by
  unfold name
  split
  · exact fun e => nomatch e
  · refine bind_ne_fuel (path_ne_fuel env _ _) fun ⟨m, r1⟩ e1 => ?_
    have h1 := path_shrinks env _ _ _ _ e1
    dsimp only
    split
    · exact fun e => nomatch e
    · split
      · simp only [weight] at h1
        refine bind_ne_fuel (list_enough hP hE (by omega)) fun ⟨l, r2⟩ e2 => ?_
        dsimp only
        split
        · exact fun e => nomatch e
        · exact fun e => nomatch e
      · simp only [weight] at h1
        refine bind_ne_fuel (list_enough hP hE (by omega)) fun ⟨l, r2⟩ e2 => ?_
        dsimp only
        split
        · exact fun e => nomatch e
        · exact fun e => nomatch e
      · exact fun e => nomatch e

theorem base_enough {P : Rd} (env : Env) (hP : Shrinks P) {n : Nat} (hE : Enough P n)
    {ts : List Tok} (h : weight ts ≤ n) : base env P ts ≠ .fuel := by
  unfold base
  split
  · simp only [weight] at h
    split
    · split
      · simp only [weight] at h
        exact name_enough env hP hE _ _ (by omega)
      · exact fun e => nomatch e
    · exact name_enough env hP hE _ _ (by omega)
  · simp only [weight] at h
    refine bind_ne_fuel (hE _ (by omega)) fun ⟨t, r1⟩ _ => ?_
    dsimp only
    split
    · split <;> exact fun e => nomatch e
    · exact fun e => nomatch e
    · exact fun e => nomatch e
  · simp only [weight] at h
    refine bind_ne_fuel (list_enough hP hE (by omega)) fun ⟨t, r1⟩ _ => ?_
    dsimp only
    split <;> exact fun e => nomatch e
  · exact fun e => nomatch e

theorem fnList_enough {P : Rd} (hP : Shrinks P) {n : Nat} (hE : Enough P n) :
    ∀ k ts, weight ts < k → weight ts < n → fnArgs.fnList P k ts ≠ .fuel := by
  intro k
  induction k with
  | zero => intro ts h hn; omega
  | succ k ih =>
      intro ts h hn
      unfold fnArgs.fnList
      refine bind_ne_fuel (hE _ hn) fun ⟨t, r1⟩ e1 => ?_
      have h1 := hP _ _ _ e1
      dsimp only
      split
      · exact fun e => nomatch e
      · simp only [weight] at h1
        exact bind_ne_fuel (ih _ (by omega) (by omega)) fun _ _ e => nomatch e
      · exact fun e => nomatch e

theorem fnType_enough {P : Rd} (hP : Shrinks P) {n : Nat} (hE : Enough P n)
    {ts : List Tok} (h : weight ts ≤ n) : fnType P ts ≠ .fuel := by
  unfold fnType
  have h0 := stars_shrinks ts
  dsimp only
  split
  · rename_i r0 e0
    rw [e0] at h0
    simp only [weight] at h0
    refine bind_ne_fuel ?_ fun ⟨l, r1⟩ e1 => ?_
    · unfold fnArgs
      split
      · exact fun e => nomatch e
      · exact fnList_enough hP hE _ _ (by omega) (by omega)
    · have h1 := fnArgs_shrinks hP e1
      dsimp only
      split
      · simp only [weight] at h1
        exact bind_ne_fuel (hE _ (by omega)) fun _ _ e => nomatch e
      · exact fun e => nomatch e
      · exact fun e => nomatch e
  · exact fun e => nomatch e

theorem dims_enough (env : Env) : ∀ k ts, weight ts ≤ k → dims env k ts ≠ .fuel := by
  intro k
  induction k with
  | zero =>
      intro ts h
      unfold dims
      split
      · simp only [weight] at h; omega
      · rename_i heq; exact nomatch heq
      · rename_i heq; exact nomatch heq
      · exact fun e => nomatch e
  | succ k ih =>
      intro ts h
      unfold dims
      split
      · rename_i heq; exact nomatch heq
      · rename_i k' r' heq
        obtain rfl : k = k' := Nat.succ.inj heq
        simp only [weight] at h
        exact bind_ne_fuel (ih _ (by omega)) fun _ _ e => nomatch e
      · rename_i k' r' _ heq
        obtain rfl : k = k' := Nat.succ.inj heq
        simp only [weight] at h
        split
        · rename_i e1
          have h1 := env.size_le _ _ _ e1
          simp only [weight] at h1
          exact bind_ne_fuel (ih _ (by omega)) fun _ _ e => nomatch e
        · exact fun e => nomatch e
      · exact fun e => nomatch e

theorem step_enough {P : Rd} (env : Env) (hP : Shrinks P) {n : Nat} (hE : Enough P n) :
    Enough (step env P) (n + 1) := by
  intro ts h
  unfold step
  have h0 := qual_shrinks ts
  dsimp only
  refine bind_ne_fuel ?_ fun ⟨t, r1⟩ _ => ?_
  · unfold core
    split
    · rename_i m r e
      split
      · rw [e] at h0
        simp only [weight] at h0
        exact fnType_enough hP hE (by omega)
      · exact base_enough env hP hE (by omega)
    · exact base_enough env hP hE (by omega)
  · dsimp only
    exact bind_ne_fuel (dims_enough env _ _ (Nat.le_refl _)) fun _ _ e => nomatch e

theorem formal_enough (env : Env) : ∀ k, Enough (formal env k) k := by
  intro k
  induction k with
  | zero => intro ts h; omega
  | succ k ih => exact step_enough env (formal_shrinks env k) ih

/-- Reading a type ends: with a type, or with an error. -/
theorem never_stuck (env : Env) (ts : List Tok) : parse env ts ≠ .fuel :=
  formal_enough env _ ts (by omega)

/-- Whatever number of steps gives a result, it is that of the reader. -/
theorem parse_of_formal (env : Env) {k : Nat} {ts : List Tok} {x : R (Ty × List Tok)}
    (h : formal env k ts = x) (hx : x ≠ .fuel) : parse env ts = x := by
  have hn := never_stuck env ts
  unfold parse at hn ⊢
  rcases Nat.le_total k (weight ts + 1) with hk | hk
  · obtain ⟨j, hj⟩ := Nat.le.dest hk
    rcases formal_le' env k j ts with e | e
    · rw [h] at e; exact absurd e hx
    · rw [← hj, ← e, h]
  · obtain ⟨j, hj⟩ := Nat.le.dest hk
    rcases formal_le' env (weight ts + 1) j ts with e | e
    · exact absurd e hn
    · rw [e, hj, h]

theorem parse_shrinks (env : Env) : Shrinks (parse env) := fun _ _ _ h =>
  formal_shrinks env _ _ _ _ h

/-- The reader of the types inside a type is the reader itself. -/
theorem parse_step (env : Env) (ts : List Tok) : parse env ts = step env (parse env) ts := by
  have h : ∀ us, R.le (formal env (weight ts) us) (parse env us) := by
    intro us
    by_cases e : formal env (weight ts) us = .fuel
    · exact .inl e
    · exact .inr (parse_of_formal env rfl e).symm
  rcases step_le env h ts with e | e
  · exact absurd e (never_stuck env ts)
  · exact e

end Verif.TypeParse
