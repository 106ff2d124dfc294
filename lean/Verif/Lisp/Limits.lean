import Verif.Lisp.Props

/-!
# What the Lisp plugin gets wrong

C131: forms that are not written as what they mean.  C132: scopes.
-/

namespace Verif.Lisp

open Forth (Str Out isspace)
open Spec

/-! ## C131: forms -/

theorem two_stop {k : Nat} {a b : Sx} {v w q s t f : Str} (hv : Sp v) (hw : Sp1 w) (hq : Stop q)
    (sa : Start s) (sb : Start t) (ha : Reads a s) (hb : Reads b t) (k1 : s.length < k) (k2 : t.length < k) :
    two (expr k) f (v ++ (s ++ (w ++ (t ++ q)))) = .ok ((CE.call f [a.c, b.c]).text, q) := by
  unfold two
  rw [skipWs_to hv sa, ha k _ k1 (sp1_stop hw _)]
  rw [Out.ok_bind]
  dsimp only
  rw [skipWs_to hw.1 sb, hb k _ k2 hq]
  rw [Out.ok_bind, call2_text]

/-- Words between blanks: no blanks and no parentheses. -/
def Word (q : Str) : Prop := q ≠ [] ∧ ∀ c ∈ q, symChar c = true

theorem word_start {q : Str} (h : Word q) : Start q := by
  obtain ⟨h0, h⟩ := h
  cases q with
  | nil => exact absurd rfl h0
  | cons c q =>
    have := h c (by simp)
    unfold symChar at this
    simp only [Bool.and_eq_true, Bool.not_eq_true', decide_eq_true_eq] at this
    exact ⟨c, q, rfl, this.1.1, this.1.2⟩

theorem word_ends {q : Str} (h : Word q) {r : Str} (hr : Ends r) :
    ∃ c q', q = c :: q' ∧ c ≠ ')' ∧ c ≠ '(' ∧ (q' ++ r).dropWhile (fun c => !isspace c && c ≠ ')') = r := by
  obtain ⟨h0, h⟩ := h
  have hs : ∀ c ∈ q, isspace c = false ∧ c ≠ ')' ∧ c ≠ '(' := by
    intro c hc
    have := h c hc
    unfold symChar at this
    simp only [Bool.and_eq_true, Bool.not_eq_true', decide_eq_true_eq] at this
    exact ⟨this.1.1, this.1.2, this.2⟩
  cases q with
  | nil => exact absurd rfl h0
  | cons c q =>
    obtain ⟨-, h2, h3⟩ := hs c (by simp)
    refine ⟨c, q, rfl, h2, h3, ?_⟩
    refine (span_append ?_ ?_).2
    · intro d hd
      obtain ⟨h1, h2, -⟩ := hs d (by simp [hd])
      simp [h1, h2]
    · rcases hr with rfl | ⟨d, r', rfl, hd⟩
      · exact .inl rfl
      · right
        refine ⟨d, r', rfl, ?_⟩
        rcases hd with hd | rfl
        · rw [hd]; rfl
        · rfl

/-- A text whose parentheses match. -/
inductive Bal : Str → Prop
  | nil : Bal []
  | char {c g} : c ≠ '(' → c ≠ ')' → Bal g → Bal (c :: g)
  | group {g h} : Bal g → Bal h → Bal ('(' :: (g ++ ')' :: h))

theorem nested_bal {g : Str} (h : Bal g) (d : Nat) (r : Str) : nested (d + 1) (g ++ r) = nested (d + 1) r := by
  induction h generalizing d r with
  | nil => rfl
  | char h1 h2 _ ih => rw [List.cons_append, nested, if_neg h1, if_neg h2, ih]
  | group _ _ ih1 ih2 =>
    rename_i g h _ _
    rw [show '(' :: (g ++ ')' :: h) ++ r = '(' :: (g ++ (')' :: (h ++ r))) by simp, nested, if_pos rfl, ih1, nested,
      if_neg (by decide), if_pos rfl, ih2]

/-- Words and lists, with blanks before each, and blanks at the end. -/
inductive Words : List Str → Str → Prop
  | nil {u} : Sp u → Words [] u
  | cons {q qs u t} : Sp1 u → Word q → Words qs t → Words (q :: qs) (u ++ q ++ t)
  | list {g qs u t} : Sp1 u → Bal g → Words qs t → Words (('(' :: (g ++ [')'])) :: qs) (u ++ ('(' :: (g ++ [')'])) ++ t)

theorem words_ends {qs : List Str} {t : Str} (h : Words qs t) (r : Str) : Ends (t ++ ')' :: r) := by
  cases h with
  | nil hu => exact sp_ends hu r
  | cons hu _ _ => rw [List.append_assoc, List.append_assoc]; exact sp1_ends hu _
  | list hu _ _ => rw [List.append_assoc, List.append_assoc]; exact sp1_ends hu _

theorem words_stop {qs : List Str} {t : Str} (h : Words qs t) (r : Str) : Stop (t ++ ')' :: r) := by
  cases h with
  | nil hu => exact sp_stop hu (close_stop _)
  | cons hu _ _ => rw [List.append_assoc, List.append_assoc]; exact sp1_stop hu _
  | list hu _ _ => rw [List.append_assoc, List.append_assoc]; exact sp1_stop hu _

theorem dropRest_words {qs : List Str} {t : Str} (h : Words qs t) (r : Str) :
    dropRest (skipWs (t ++ ')' :: r)) = ')' :: r := by
  induction h with
  | nil hu => rw [skipWs_close hu, dropRest_close]
  | cons hu hq ht ih =>
    rename_i q qs u t
    rw [List.append_assoc, List.append_assoc, skipWs_to hu.1 (word_start hq)]
    obtain ⟨c, q', e, h1, h2, h3⟩ := word_ends hq (words_ends ht r)
    rw [e, List.cons_append, dropRest, if_neg h1, if_neg h2, h3]
    exact ih
  | list hu hg ht ih =>
    rename_i g qs u t
    rw [show u ++ '(' :: (g ++ [')']) ++ t ++ ')' :: r = u ++ ('(' :: (g ++ (')' :: (t ++ ')' :: r)))) by simp]
    have hs : skipWs (u ++ ('(' :: (g ++ (')' :: (t ++ ')' :: r))))) = '(' :: (g ++ (')' :: (t ++ ')' :: r))) :=
      by rw [skipWs_sp hu.1, skipWs_cons (by decide)]
    rw [hs, dropRest, if_neg (by decide), if_pos rfl, nested_bal hg, nested, if_neg (by decide), if_pos rfl, nested]
    exact ih

/-- C131, violated: only the first two operands of `+`, `-`, `*` and `/` count; the others are skipped
without a word. -/
theorem operands_violated {fs : List Str} {o : Bin} (ho : o ≠ .lt ∧ o ≠ .cons) {a b : Sx} {s t q : Str}
    {qs : List Str} (sa : Src a s) (sb : Src b t) (ga : Good fs a) (gb : Good fs b) (hq : Words qs q) (k : Nat)
    (hk : s.length < k ∧ t.length < k) (r : Str) :
    expr (k + 1) ('(' :: (o.word ++ (' ' :: (s ++ (' ' :: (t ++ (q ++ ')' :: r)))))) ) =
      .ok ((CE.call o.fn [a.c, b.c]).text, r) := by
  rw [expr_list]
  have hsp : Sp1 " ".toList := ⟨by intro c hc; rw [List.mem_singleton.mp hc]; decide, by decide⟩
  have h2 := two_stop (f := o.fn) (k := k) hsp.1 hsp (words_stop hq r) (src_start sa ga) (src_start sb gb)
    (reads sa ga) (reads sb gb) hk.1 hk.2
  have hl := list_word (expr k) k (u := []) (w := o.word) (r := " ".toList ++ (s ++ (" ".toList ++ (t ++ (q ++ ')' :: r)))))
    (by intro c hc; simp at hc) (words_sym o).1 (words_sym o).2 (sp1_stop hsp _) (v := [])
    (by intro c hc; simp at hc) (a := (CE.call o.fn [a.c, b.c]).text) (r' := r) (by
      rw [form_bin, h2, Out.ok_bind]
      have hd := dropRest_words hq r
      cases o
      case lt => exact absurd rfl ho.1
      case cons => exact absurd rfl ho.2
      all_goals exact congrArg (fun z => Out.ok (_, z)) hd)
  exact hl

/-- A function that neither the runtime nor the block has. -/
theorem cev_unknown {f : Str} (hf : prims.lookup f = none) (n : Nat) (D : List (Fn CE))
    (hD : f ∉ D.map Fn.name) (ρ : Env) (as : List CE) : cev n D ρ (.call f as) = none := by
  cases n with
  | zero => rfl
  | succ n =>
    rw [cev]
    have hv : visible f D = none := by
      induction D with
      | nil => rfl
      | cons d D ih =>
        simp only [List.map_cons, List.mem_cons, not_or] at hD
        rw [visible, if_neg (fun e => hD.1 e.symm)]
        exact ih hD.2
    cases vals (cev n D ρ) as with
    | none => rfl
    | some vs =>
      simp only [Option.bind_eq_bind, Option.bind_some, hf, hv]
      split <;> rfl

theorem word_list {k : Nat} {w f : Str} (hw : Word w) {a b : Sx} {fs : List Str} {s t : Str} (sa : Src a s)
    (sb : Src b t) (ga : Good fs a) (gb : Good fs b) (hk : s.length < k ∧ t.length < k) (r : Str)
    (hform : ∀ ex k p r, form ex k w p r = two ex f r) :
    expr (k + 1) ('(' :: (w ++ (' ' :: (s ++ (' ' :: (t ++ ')' :: r)))))) =
      .ok ((CE.call f [a.c, b.c]).text, r) := by
  rw [expr_list]
  have hsp : Sp1 " ".toList := ⟨by intro c hc; rw [List.mem_singleton.mp hc]; decide, by decide⟩
  have h2 := two_stop (f := f) (k := k) hsp.1 hsp (close_stop r) (src_start sa ga) (src_start sb gb)
    (reads sa ga) (reads sb gb) hk.1 hk.2
  exact list_word (expr k) k (u := []) (w := w) (r := " ".toList ++ (s ++ (" ".toList ++ (t ++ ')' :: r))))
    (by intro c hc; simp at hc) hw.2 hw.1 (sp1_stop hsp _) (v := []) (by intro c hc; simp at hc) (r' := r)
    ((hform _ _ _ _).trans h2)

/-- C131, violated: `>`, `==` and `!=` are written as calls of functions that the runtime does not have, so
that the C has no meaning. -/
theorem comparison_violated {fs : List Str} {a b : Sx} {s t : Str} (sa : Src a s) (sb : Src b t)
    (ga : Good fs a) (gb : Good fs b) (k : Nat) (hk : s.length < k ∧ t.length < k) (r : Str) :
    (expr (k + 1) ('(' :: '>' :: ' ' :: (s ++ (' ' :: (t ++ ')' :: r)))) =
        .ok ((CE.call "l_gt".toList [a.c, b.c]).text, r)) ∧
      (expr (k + 1) ('(' :: '=' :: '=' :: ' ' :: (s ++ (' ' :: (t ++ ')' :: r)))) =
        .ok ((CE.call "l_eq".toList [a.c, b.c]).text, r)) ∧
      (expr (k + 1) ('(' :: '!' :: '=' :: ' ' :: (s ++ (' ' :: (t ++ ')' :: r)))) =
        .ok ((CE.call "l_eq".toList [a.c, b.c]).text, r)) ∧
      "l_gt".toList ∉ runtime ∧ "l_eq".toList ∉ runtime ∧
      ∀ n ρ, cev n [] ρ (.call "l_gt".toList [a.c, b.c]) = none ∧ cev n [] ρ (.call "l_eq".toList [a.c, b.c]) = none := by
  refine ⟨?_, ?_, ?_, by decide, by decide, fun n ρ => ⟨?_, ?_⟩⟩
  · exact word_list (w := ">".toList) (f := "l_gt".toList) ⟨by decide, by decide⟩ sa sb ga gb hk r (fun _ _ _ _ => rfl)
  · exact word_list (w := "==".toList) (f := "l_eq".toList) ⟨by decide, by decide⟩ sa sb ga gb hk r (fun _ _ _ _ => rfl)
  · exact word_list (w := "!=".toList) (f := "l_eq".toList) ⟨by decide, by decide⟩ sa sb ga gb hk r (fun _ _ _ _ => rfl)
  · exact cev_unknown (by decide) n [] (by simp) ρ _
  · exact cev_unknown (by decide) n [] (by simp) ρ _

/-- C131, violated: `(= a b)`, as Lisp compares numbers, is written as a call of `=`. -/
theorem equals_violated {fs : List Str} {a b : Sx} {s t : Str} (sa : Src a s) (sb : Src b t)
    (ga : Good fs a) (gb : Good fs b) (k : Nat) (hk : s.length + t.length + 2 < k) (r : Str) :
    expr (k + 1) ('(' :: '=' :: ' ' :: (s ++ (' ' :: (t ++ ')' :: r)))) =
      .ok ("=(".toList ++ a.c.text ++ ", ".toList ++ b.c.text ++ ")".toList, r) := by
  have hsp : Sp1 " ".toList := ⟨by intro c hc; rw [List.mem_singleton.mp hc]; decide, by decide⟩
  have hs : Srcs [a, b] (" ".toList ++ s ++ (" ".toList ++ t ++ [])) :=
    .cons hsp sa (.cons hsp sb (.nil (by intro c hc; simp at hc)))
  have ra := (readsL (fs := fs) hs (by
    intro e he
    rcases List.mem_cons.mp he with rfl | he
    · exact ga
    · rw [List.mem_singleton.mp he]; exact gb)).1 k k r
    (by simp only [List.length_append, List.length_nil]; simp only [show " ".toList.length = 1 from rfl]; omega)
    (by simp only [List.length_append, List.length_nil]; simp only [show " ".toList.length = 1 from rfl]; omega)
  rw [expr_list]
  have hl := list_word (expr k) k (u := []) (w := "=".toList)
    (r := (" ".toList ++ s ++ (" ".toList ++ t ++ [])) ++ ')' :: r) (by intro c hc; simp at hc)
    (by decide) (by decide) (srcs_stop hs r) (v := []) (by intro c hc; simp at hc) (r' := r)
    (a := "=".toList ++ "(".toList ++ commas (cs [a, b]) ++ ")".toList) (by
      show (do
        let (a, r) ← args (expr k) k true (skipWs ((" ".toList ++ s ++ (" ".toList ++ t ++ [])) ++ ')' :: r))
        Out.ok ("=".toList ++ "(".toList ++ a ++ ")".toList, r)) = _
      rw [ra.1]
      rfl)
  simp only [List.append_assoc, List.nil_append] at hl
  have e : "=".toList ++ "(".toList ++ commas (cs [a, b]) ++ ")".toList =
      "=(".toList ++ a.c.text ++ ", ".toList ++ b.c.text ++ ")".toList := by
    rw [cs, cs, cs, commas, commasTail, commasTail, List.append_nil]
    simp only [cNext, List.append_assoc]
    rfl
  rw [← e, List.append_assoc, List.append_assoc]
  exact hl

/-- C131, violated: a list of the elements of `list` is not made: the value is `nil`, whatever the
elements. -/
theorem list_violated {t : Str} (ht : ')' ∉ t) (k : Nat) (r : Str) :
    expr (k + 1) ("(list ".toList ++ t ++ ')' :: r) = .ok (nilCall.text, r) := by
  rw [show "(list ".toList ++ t ++ ')' :: r = '(' :: ([] ++ ("list".toList ++ (' ' :: (t ++ ')' :: r)))) by simp,
    expr_list]
  have hstop : Stop (' ' :: (t ++ ')' :: r)) := .inr ⟨' ', _, rfl, by decide⟩
  obtain ⟨h1, h2⟩ := span_append (p := symChar) (a := "list".toList) (by decide) hstop
  unfold list
  simp only
  rw [List.nil_append, show skipWs ("list".toList ++ (' ' :: (t ++ ')' :: r))) = "list".toList ++ (' ' :: (t ++ ')' :: r)) from rfl,
    if_neg (by simp), h1, h2]
  rw [show form (expr k) k "list".toList ("list".toList ++ (' ' :: (t ++ ')' :: r))) (' ' :: (t ++ ')' :: r)) =
    .ok ("l_nil()".toList, ' ' :: (t ++ ')' :: r)) from rfl, Out.ok_bind]
  have hc : close (' ' :: (t ++ ')' :: r)) = .ok r := by
    unfold close
    have : (' ' :: (t ++ ')' :: r)).dropWhile (· ≠ ')') = ')' :: r := by
      refine (span_append (a := ' ' :: t) ?_ (.inr ⟨')', r, rfl, by decide⟩)).2
      intro c hc
      rcases List.mem_cons.mp hc with rfl | hc
      · decide
      · have : c ≠ ')' := by rintro rfl; exact ht hc
        simpa using this
    rw [this]
  rw [nil_text]
  simp only
  rw [hc]
  rfl

/-- The text of a string between its quotation marks. -/
inductive Lit : Str → Prop
  | nil : Lit []
  | char {c t} : c ≠ '"' → c ≠ '\\' → Lit t → Lit (c :: t)
  | esc {c t} : Lit t → Lit ('\\' :: c :: t)

/-- C131, violated: a string is `nil`, whatever is in it. -/
theorem string_violated {t : Str} (ht : Lit t) (k : Nat) (r : Str) :
    expr (k + 1) ('"' :: (t ++ '"' :: r)) = .ok (nilCall.text, r) := by
  have hs : skipString (t ++ '"' :: r) = .ok r := by
    induction ht with
    | nil => rfl
    | esc _ ih =>
      rw [List.cons_append, List.cons_append]
      exact ih
    | char h1 h2 _ ih =>
      rw [List.cons_append, skipString.eq_def]
      split
      · rename_i he; simp at he
      · rename_i he; injection he with he _; exact absurd he h1
      · rename_i he; injection he with he _; exact absurd he h2
      · rename_i he; injection he with he _; exact absurd he h2
      · rename_i he
        injection he with e1 e2
        subst e1 e2
        exact ih
  rw [expr_atom (by decide) (by decide), nil_text]
  show (do Out.ok ("l_nil()".toList, ← skipString (t ++ '"' :: r))) = _
  rw [hs]
  rfl

/-- A parenthesis with nothing behind it is an error, and reported. -/
theorem open_reported {u : Str} (hu : Sp u) (k : Nat) : expr (k + 1) ('(' :: u) = .exit := by
  have e : skipWs u = [] := by
    unfold skipWs
    induction u with
    | nil => rfl
    | cons c u ih =>
      rw [List.dropWhile_cons_of_pos (hu c (List.mem_cons_self ..))]
      exact ih fun d hd => hu d (List.mem_cons_of_mem _ hd)
  rw [expr_list]
  unfold list
  simp only [e, if_true]

/-- A parenthesis that closes nothing is an error, and reported, wherever it is among the expressions of the
block. -/
theorem stray_reported {u : Str} (hu : Sp u) (k : Nat) (r : Str) : tops (k + 1) (u ++ ')' :: r) = .exit := by
  rw [tops, skipWs_close hu]
  rfl

/-- C131, violated: a call of a function whose name begins with `print` is taken for `print`, and with a
newline if an `l` comes next. -/
theorem print_prefix_violated {fs : List Str} {q : Str} (hq : ∀ c ∈ q, symChar c = true) {e : Sx} {s : Str}
    (se : Src e s) (ge : Good fs e) (k : Nat) (hk : s.length < k) (r : Str) :
    expr (k + 1) ('(' :: ("print".toList ++ q ++ (' ' :: (s ++ ')' :: r)))) =
      .ok ((CS.print (q.head? = some 'l') e.c).text, r) := by
  rw [expr_list]
  have hsp : Sp1 " ".toList := ⟨by intro c hc; rw [List.mem_singleton.mp hc]; decide, by decide⟩
  have hw : ∀ c ∈ "print".toList ++ q, symChar c = true := by
    intro c hc
    rcases List.mem_append.mp hc with h | h
    · exact (by decide : ∀ c ∈ "print".toList, symChar c = true) c h
    · exact hq c h
  obtain ⟨c, s', hs, h1, h2⟩ := src_noquote se ge
  have hl := list_word (expr k) k (u := []) (w := "print".toList ++ q) (r := " ".toList ++ (s ++ ')' :: r))
    (by intro c hc; simp at hc) hw (by simp) (sp1_stop hsp _) (v := []) (by intro c hc; simp at hc)
    (r' := r) (a := (CS.print (q.head? = some 'l') e.c).text) (by
      have hf : form (expr k) k ("print".toList ++ q) ("print".toList ++ q ++ (" ".toList ++ (s ++ ')' :: r)))
          (" ".toList ++ (s ++ ')' :: r)) = print (expr k) (q.head? = some 'l') (" ".toList ++ (s ++ ')' :: r)) := by
        have hd : ((("print".toList ++ q ++ (" ".toList ++ (s ++ ')' :: r))).drop 5).head? = some 'l') ↔
            (q.head? = some 'l') := by
          cases q with
          | nil => simp
          | cons c q => simp
        unfold form
        rw [if_neg (by simp), if_neg (by simp), if_neg (by simp), if_neg (by simp), if_neg (by simp),
          if_neg (by simp), if_neg (by simp), if_neg (by simp), if_pos (by simp)]
        simp only [hd]
      rw [hf, print_other _ _ hsp.1 hs h1 h2, reads se ge k _ hk (close_stop _), Out.ok_bind, print_text]
      rfl)
  exact hl

/-- C131, violated: the text of a string goes into the format of `printf`; with a `%` in it the C has no
meaning, while Lisp prints it. -/
theorem percent_violated {t : Str} (ht : ∀ c ∈ t, c ≠ '"' ∧ c ≠ '\\') (hp : '%' ∈ t) (k : Nat) (r : Str) (n : Nat) :
    expr (k + 1) ("(print \"".toList ++ t ++ "\")".toList ++ r) = .ok ((CS.puts false t).text, r) ∧
      crun n [] [.puts false t] = none ∧ run n [] [.puts false t] = some t := by
  refine ⟨?_, ?_, ?_⟩
  · rw [show "(print \"".toList ++ t ++ "\")".toList ++ r = '(' :: ([] ++ ("print".toList ++ (" ".toList ++ ('"' :: (t ++ '"' :: ')' :: r))))) by simp,
      expr_list]
    have hsp : Sp1 " ".toList := ⟨by intro c hc; rw [List.mem_singleton.mp hc]; decide, by decide⟩
    refine list_word (expr k) k (by intro c hc; simp at hc) (by decide) (by decide) (sp1_stop hsp _) (v := [])
      (by intro c hc; simp at hc) ?_
    rw [form_print (expr k) k (" ".toList ++ '"' :: (t ++ '"' :: ')' :: r)) (c := ' ') (r' := '"' :: (t ++ '"' :: ')' :: r)) rfl (by decide)]
    unfold print
    rw [skipWs_sp hsp.1, skipWs_cons (by decide)]
    simp only
    have hs : ∀ r, printString (t ++ '"' :: r) = (t, r) := by
      intro r
      clear hp
      induction t with
      | nil => rfl
      | cons c t ih =>
        obtain ⟨h1, h2⟩ := ht c (by simp)
        have := ih (fun c hc => ht c (by simp [hc]))
        rw [List.cons_append, printString.eq_def]
        split
        · rename_i he; simp at he
        · rename_i he; injection he with he _; exact absurd he h1
        · rename_i he; injection he with he _; exact absurd he h2
        · rename_i he; injection he with he _; exact absurd he h2
        · rename_i he
          injection he with e1 e2
          subst e1 e2
          rw [this]
    rw [hs, puts_text]
    rfl
  · rw [crun, if_pos (.inl hp)]
  · rw [run]
    simp [run]

theorem list_form (ex : Str → Out (Str × Str)) (k : Nat) {w r : Str} (hw : Word w) (hr : Stop r) {a q r' : Str}
    (hf : form ex k w (w ++ r) r = .ok (a, q)) (hq : close q = .ok r') : list ex k (w ++ r) = .ok (a, r') := by
  obtain ⟨h1, h2⟩ := span_append hw.2 hr
  unfold list
  simp only
  rw [skipWs_start (word_start hw), if_neg (by
    intro e
    exact hw.1 (List.append_eq_nil_iff.mp e).1), h1, h2, hf, Out.ok_bind]
  simp only
  rw [hq]
  rfl

theorem close_first {q : Str} (h : ')' ∉ q) (r : Str) : close (q ++ ')' :: r) = .ok r := by
  unfold close
  have : (q ++ ')' :: r).dropWhile (· ≠ ')') = ')' :: r := by
    refine (span_append ?_ (.inr ⟨')', r, rfl, by decide⟩)).2
    intro c hc
    have : c ≠ ')' := by rintro rfl; exact h hc
    simpa using this
  rw [this]

/-- C131, violated: the list ends at the next `)` behind the operands it reads, also if that belongs to a
further operand; then the parenthesis of the list itself is left over. -/
theorem parenthesis_violated {fs : List Str} (o : Un) {a : Sx} {s q : Str} (sa : Src a s) (ga : Good fs a)
    (hq : ')' ∉ q) (k : Nat) (hk : s.length < k) (r : Str) :
    expr (k + 1) ('(' :: (o.word ++ (' ' :: (s ++ (' ' :: '(' :: (q ++ (')' :: ')' :: r))))))) =
      .ok ((CE.call o.fn [a.c]).text, ')' :: r) := by
  rw [expr_list]
  have hsp : Sp1 " ".toList := ⟨by intro c hc; rw [List.mem_singleton.mp hc]; decide, by decide⟩
  refine list_form (expr k) k ⟨(unwords_sym o).2, (unwords_sym o).1⟩ (.inr ⟨' ', _, rfl, by decide⟩)
    (q := ' ' :: '(' :: (q ++ (')' :: ')' :: r))) ?_ (close_first (q := ' ' :: '(' :: q) (by simpa using hq) (')' :: r))
  rw [form_un, one, show (' ' :: (s ++ (' ' :: '(' :: (q ++ (')' :: ')' :: r))))) =
    " ".toList ++ (s ++ (' ' :: '(' :: (q ++ (')' :: ')' :: r)))) from rfl, skipWs_to hsp.1 (src_start sa ga),
    reads sa ga k _ hk (.inr ⟨' ', _, rfl, by decide⟩), Out.ok_bind, call1_text]

/-- C131, violated: what is called must be a word: the call of the value of a call is written as a comma
expression of C, whose value is its last operand. -/
theorem head_violated {fs : List Str} {f : Str} {as es : List Sx} {s t : Str} (sf : Src (.call f as) s)
    (gf : Good fs (.call f as)) (ss : Srcs es t) (gs : ∀ e ∈ es, Good fs e) (k : Nat)
    (hk : s.length + t.length + 1 < k) (r : Str) :
    expr (k + 1) ('(' :: (s ++ (t ++ ')' :: r))) =
      .ok ("(".toList ++ commas (cs (.call f as :: es)) ++ ")".toList, r) := by
  rw [expr_list]
  have hst := src_start sf gf
  have hsp : Sp1 " ".toList := ⟨by intro c hc; rw [List.mem_singleton.mp hc]; decide, by decide⟩
  have ra := ((reads_cons hsp hst (reads sf gf) ss (readsL ss gs)).1 k k r
    (by simp only [List.length_append]; simp only [show " ".toList.length = 1 from rfl]; omega)
    (by simp only [List.length_append]; simp only [show " ".toList.length = 1 from rfl]; omega)).1
  rw [List.append_assoc, List.append_assoc, skipWs_to hsp.1 hst] at ra
  obtain ⟨q, e⟩ : ∃ q, s = '(' :: q := by
    cases sf with
    | call => exact ⟨_, rfl⟩
  unfold list
  simp only
  rw [skipWs_start hst, if_neg (by rw [e]; simp)]
  have h1 : (s ++ (t ++ ')' :: r)).takeWhile symChar = [] := by rw [e]; rfl
  have h2 : (s ++ (t ++ ')' :: r)).dropWhile symChar = s ++ (t ++ ')' :: r) := by rw [e]; rfl
  rw [h1, h2]
  have hf : form (expr k) k [] (s ++ (t ++ ')' :: r)) (s ++ (t ++ ')' :: r)) = (do
      let (a, r) ← args (expr k) k true (skipWs (s ++ (t ++ ')' :: r)))
      .ok ([] ++ "(".toList ++ a ++ ")".toList, r)) := by
    rw [e]
    rfl
  rw [hf, skipWs_start hst, ra, Out.ok_bind]
  rfl

/-- C131, violated: a symbol is written as it is.  Words of Lisp that are no identifiers of C become other
C: `a-b` a subtraction, and a symbol called like a word of C that word. -/
theorem symbol_violated {w : Str} (hw : Word w) (hd : ∀ c ∈ w.head?, c ≠ '"' ∧ c ≠ '-' ∧ isdigit c = false)
    (k : Nat) {r : Str} (hr : Stop r) : expr (k + 1) (w ++ r) = .ok (w, r) := by
  obtain ⟨h1, h2⟩ := span_append hw.2 hr
  obtain ⟨c, s, rfl, hc, hc'⟩ := word_start hw
  obtain ⟨d1, d2, d3⟩ := hd c (by simp)
  have hp : c ≠ '(' := by
    have := hw.2 c (by simp)
    rintro rfl
    revert this
    decide
  rw [List.cons_append, expr_atom hc hp]
  rw [List.cons_append] at h1 h2
  unfold atom
  split
  · rename_i he; injection he with he _; exact absurd he hc'
  · rename_i he; injection he with he _; exact absurd he d1
  · rename_i he; injection he with he _; exact absurd he d2
  · rename_i he
    injection he with e1 e2
    subst e1 e2
    rw [d3]
    simp only [Bool.false_eq_true, if_false, h1, h2]
  · rename_i he; simp at he

/-- C131, violated: a zero before a numeral makes it octal, or no constant at all. -/
theorem octal_violated {s : Str} {n : Nat} (h : Forth.Spec.Dec s n) (hn : 8 ≤ n) (hr : Range n) :
    cConst ('0' :: s) ≠ some (n : Int) := by
  intro hc
  have hz := Forth.leading_zero_violated h hn
  apply hz
  rw [show cConst ('0' :: s) = ((Forth.magnitude ('0' :: s)).map (fun n : Nat => (n : Int))).bind
    (fun n => if Range n then some n else none) from rfl] at hc
  rw [Forth.strtol_head (by decide) (by decide) (by decide)]
  cases hm : Forth.magnitude ('0' :: s) with
  | none => rw [hm] at hc; simp at hc
  | some m =>
    rw [hm] at hc
    simp only [Option.map_some, Option.bind_some] at hc
    split at hc
    · simp only [Option.some.injEq] at hc
      show some (Forth.clamp (m : Int)) = _
      rw [hc]
      unfold Forth.clamp
      unfold Range at hr
      split
      · omega
      · split
        · omega
        · rfl
    · cases hc

/-- C131, violated: `print` as the branch of an `if` puts a semicolon into an expression of C. -/
theorem print_in_if_violated {fs : List Str} {c a : Sx} {s t : Str} (sc : Src c s) (sa : Src a t)
    (gc : Good fs c) (ga : Good fs a) (k : Nat) (hk : s.length < k ∧ t.length + 8 < k) (r : Str) :
    expr (k + 1) ('(' :: ("if".toList ++ (' ' :: (s ++ (' ' :: (("(print ".toList ++ t ++ ")".toList) ++ (')' :: r))))))) =
      .ok ("(l_truthy(".toList ++ c.c.text ++ ") ? ".toList ++ ("l_print(".toList ++ a.c.text ++ ");".toList) ++
        " : ".toList ++ "l_nil()".toList ++ ")".toList, r) := by
  rw [expr_list]
  have hsp : Sp1 " ".toList := ⟨by intro c hc; rw [List.mem_singleton.mp hc]; decide, by decide⟩
  have hT : SrcT (.print false a) ("(print ".toList ++ t ++ ")".toList) := by
    have := SrcT.print (nl := false) (u := []) (v := " ".toList) (w := []) (e := a) (s := t)
      (by intro c hc; simp at hc) hsp sa (by intro c hc; simp at hc)
    simpa using this
  have hl : ("(print ".toList ++ t ++ ")".toList).length = t.length + 8 := by
    simp only [List.length_append]
    rw [show "(print ".toList.length = 7 from rfl, show ")".toList.length = 1 from rfl]
    omega
  have rt := reads_top (fs := fs) hT ga k (')' :: r) (by rw [hl]; exact hk.2) (close_stop r)
  have st : Start ("(print ".toList ++ t ++ ")".toList) := top_start (fs := fs) hT ga
  refine list_form (expr k) k (w := "if".toList) ⟨by decide, by decide⟩ (.inr ⟨' ', _, rfl, by decide⟩)
    (q := ')' :: r) ?_ (close_first (q := []) (by simp) r)
  rw [form_if, cond, show (' ' :: (s ++ (' ' :: (("(print ".toList ++ t ++ ")".toList) ++ (')' :: r))))) =
    " ".toList ++ (s ++ (" ".toList ++ (("(print ".toList ++ t ++ ")".toList) ++ (')' :: r)))) from rfl,
    skipWs_to hsp.1 (src_start sc gc), reads sc gc k _ hk.1 (sp1_stop hsp _), Out.ok_bind]
  simp only
  rw [skipWs_to hsp.1 st, rt, Out.ok_bind]
  simp only
  rw [skipWs_cons (by decide), if_pos (by rfl), Top.c, print_text]
  simp only [Out.ok_bind, Bool.false_eq_true, if_false, List.append_nil]

theorem tops_at {c : Char} (h1 : isspace c = false) (h2 : c ≠ ')') (k : Nat) (r : Str) :
    tops (k + 1) (c :: r) = (do
      let (a, r) ← expr k (c :: r)
      let b ← tops k r
      .ok ("    ".toList ++ a ++ ";\n".toList ++ b)) := by
  rw [tops, skipWs_cons h1]
  split
  · rename_i he; simp at he
  · rename_i he; injection he with he _; exact absurd he h2
  · rfl

/-- C131, violated: a definition that ends behind its name, and a string that ends in a backslash, are
read beyond the end of the text. -/
theorem end_violated {f t : Str} (hf : Name f) (ht : ∀ c ∈ t, c ≠ '"' ∧ c ≠ '\\') (k : Nat) :
    transpile (k + 2) ("(defun ".toList ++ f) = .ub ∧ transpile (k + 2) ('"' :: (t ++ ['\\'])) = .ub := by
  constructor
  · have hd : expr (k + 1) ("(defun ".toList ++ f) = .ub := by
      rw [show "(defun ".toList ++ f = '(' :: ("defun".toList ++ (" ".toList ++ f)) from rfl, expr_list]
      have hstop : Stop (" ".toList ++ f) := .inr ⟨' ', _, rfl, by decide⟩
      obtain ⟨h1, h2⟩ := span_append (p := symChar) (a := "defun".toList) (by decide) hstop
      unfold list
      simp only
      rw [show skipWs ("defun".toList ++ (" ".toList ++ f)) = "defun".toList ++ (" ".toList ++ f) from rfl,
        if_neg (by simp), h1, h2, form_defun]
      have hx := (name_chars hf).1
      have e : (f ++ []).dropWhile (fun c => !isspace c && c ≠ '(') = [] := (span_append (by
        intro c hc
        obtain ⟨-, h1, -, h2, -⟩ := name_char (hx c hc)
        simp [h1, h2]) (.inl rfl)).2
      have hw : skipWs (" ".toList ++ f) = f := by
        have := skipWs_to (u := " ".toList) (by intro c hc; rw [List.mem_singleton.mp hc]; decide) (name_start hf) []
        rw [List.append_nil] at this
        exact this
      unfold defun
      simp only
      rw [List.append_nil] at e
      rw [hw, e, if_pos (by rfl)]
      rfl
    unfold transpile
    rw [show ("(defun ".toList ++ f) = '(' :: ("defun ".toList ++ f) from rfl] at hd ⊢
    rw [tops_at (by decide) (by decide), hd]
    rfl
  · have hs : skipString (t ++ ['\\']) = .ub := by
      induction t with
      | nil => rfl
      | cons c t ih =>
        obtain ⟨h1, h2⟩ := ht c (by simp)
        have := ih (fun c hc => ht c (by simp [hc]))
        rw [List.cons_append, skipString.eq_def]
        split
        · rename_i he; simp at he
        · rename_i he; injection he with he _; exact absurd he h1
        · rename_i he; injection he with he _; exact absurd he h2
        · rename_i he; injection he with he _; exact absurd he h2
        · rename_i he
          injection he with e1 e2
          subst e1 e2
          exact this
    have hd : expr (k + 1) ('"' :: (t ++ ['\\'])) = .ub := by
      rw [expr_atom (by decide) (by decide)]
      show (do Out.ok ("l_nil()".toList, ← skipString (t ++ ['\\']))) = _
      rw [hs]
      rfl
    unfold transpile
    rw [tops_at (by decide) (by decide), hd]
    rfl

/-! ## C132: scopes -/

/-- C132, violated: what a variable is bound to cannot mention a variable of the same name outside: the C
reads the new one before it has a value. -/
theorem let_self_violated {x : Str} (hx : Name x) {ρ : Env} {v : Val} (hv : ρ x = some v) (D : List (Fn Sx))
    (C : List (Fn CE)) :
    ev D 2 ρ (.letb [x] [.sym x] [.sym x]) = some v ∧
      ∀ n, cev n C ρ (Sx.letb [x] [.sym x] [.sym x]).c = none := by
  constructor
  · simp [ev, vals, hv, Spec.bind, last, Env.set]
  · intro n
    cases n with
    | zero => rfl
    | succ n =>
      cases n with
      | zero => rfl
      | succ n =>
        have hx' : ¬ x = ['n', 'i', 'l'] := name_not_nil hx
        simp [Sx.c, cs, cev, declare, Env.set, hx']

/-- C132, violated: the bindings of a `let` are made one after the other, so that the second sees the first
instead of the variable outside. -/
theorem let_sequential_violated {x y s : Str} (hx : Name x) (hy : Name y) (hxy : x ≠ y) {m : Int}
    (hs : Numeral s m) {ρ : Env} {v : Val} (hv : ρ x = some v) (hne : v ≠ .num m) (D : List (Fn Sx))
    (C : List (Fn CE)) :
    ev D 2 ρ (.letb [x, y] [.num s m, .sym x] [.sym y]) = some v ∧
      cev 2 C ρ (Sx.letb [x, y] [.num s m, .sym x] [.sym y]).c = some (.num m) ∧ some v ≠ some (.num m) := by
  refine ⟨?_, ?_, by simpa using hne⟩
  · simp [ev, vals, hv, Spec.bind, last, Env.set]
  · have hx' : ¬ x = ['n', 'i', 'l'] := name_not_nil hx
    have hy' : ¬ y = ['n', 'i', 'l'] := name_not_nil hy
    simp [Sx.c, cs, cev, declare, Env.set, last, const_numeral hs, hx', hy', hxy]

theorem binds_other (ex : Str → Out (Str × Str)) {c : Char} (h1 : isspace c = false) (h2 : c ≠ '(')
    (h3 : c ≠ ')') (r : Str) (k : Nat) : binds ex k (c :: r) = .more := by
  induction k with
  | zero => rfl
  | succ k ih =>
    rw [binds]
    · rw [skipWs_cons h1]; exact ih
    · intro he; cases he
    · intro r he; injection he with he _; exact h3 he
    · intro r he; injection he with he _; exact h2 he

/-- C132, violated: on a `let` whose bindings are no lists, `(let (x 5) x)`, the plugin does not end: no
fuel is enough. -/
theorem let_hangs_violated {q : Str} (hq : Word q) (r : Str) (k : Nat) :
    transpile k ("(let (".toList ++ (q ++ r)) = .more := by
  obtain ⟨c, q', e, h1, h2⟩ := word_start hq
  have h3 : c ≠ '(' := by
    have := hq.2 c (by rw [e]; simp)
    rintro rfl
    revert this
    decide
  have hd : ∀ k, expr k ("(let (".toList ++ (q ++ r)) = .more := by
    intro k
    cases k with
    | zero => rfl
    | succ k =>
      rw [show "(let (".toList ++ (q ++ r) = '(' :: ("let".toList ++ (' ' :: '(' :: (q ++ r))) from rfl, expr_list]
      have hstop : Stop (' ' :: '(' :: (q ++ r)) := .inr ⟨' ', _, rfl, by decide⟩
      obtain ⟨e1, e2⟩ := span_append (p := symChar) (a := "let".toList) (by decide) hstop
      unfold list
      simp only
      rw [show skipWs ("let".toList ++ (' ' :: '(' :: (q ++ r))) = "let".toList ++ (' ' :: '(' :: (q ++ r)) from rfl,
        if_neg (by simp), e1, e2, form_let]
      unfold letForm
      simp only
      rw [show skipWs (' ' :: '(' :: (q ++ r)) = '(' :: (q ++ r) from rfl, if_pos (by rfl), List.tail_cons, e,
        List.cons_append, skipWs_cons h1, binds_other _ h1 h3 h2]
      rfl
  have ht : tops k ("(let (".toList ++ (q ++ r)) = .more := by
    cases k with
    | zero => rfl
    | succ k =>
      have := hd k
      rw [show "(let (".toList ++ (q ++ r) = '(' :: ("let (".toList ++ (q ++ r)) from rfl] at this ⊢
      rw [tops_at (by decide) (by decide), this]
      rfl
  unfold transpile
  rw [ht]
  rfl

/-- C132, violated: a function does not see those that are defined after it, so that two functions cannot
call each other: the C has no meaning, however long it runs. -/
theorem forward_violated {f g s : Str} (hf : Name f) (hg : Name g) (hfg : f ≠ g) {m : Int} :
    run 4 [] [.defun f [] [.call g []], .defun g [] [.num s m], .print false (.call f [])] =
        some (Val.num m).text ∧
      ∀ n, crun n [] ([Top.defun f [] [.call g []], .defun g [] [.num s m], .print false (.call f [])].map Top.c) =
        none := by
  constructor
  · simp [run, ev, vals, Spec.bind, last, hfg, Ne.symm hfg]
  · intro n
    simp only [List.map_cons, List.map_nil, Top.c, Sx.c, cs, crun, Option.bind_eq_bind]
    have : cev n [⟨g, [], [.num s]⟩, ⟨f, [], [.call g []]⟩] (fun _ => none) (.call f []) = none := by
      cases n with
      | zero => rfl
      | succ n =>
        rw [cev]
        simp only [vals, Option.bind_eq_bind, Option.bind_some]
        simp [names_no_prim hf, visible, Ne.symm hfg, Spec.bind, last,
          cev_unknown (names_no_prim hg) n [⟨f, [], [.call g []]⟩] (by simpa using Ne.symm hfg)]
    rw [this]
    rfl

/-- C132: the runtime has a value for what Lisp has none for: a division by zero is 0, a sum with what is no
number is taken as if it were 0, and `car` of a number is `nil`. -/
theorem errors_unnoticed (a : Int) (ha : Range a) :
    Bin.app .div (.num a) (.num 0) = none ∧ Prim.app .div [.num a, .num 0] = some (.num 0) ∧
      Bin.app .add (.num a) .nil = none ∧ Prim.app .add [.num a, .nil] = some (.num a) ∧
      Un.app .car (.num a) = none ∧ Prim.app .car [.num a] = some .nil := by
  refine ⟨rfl, rfl, rfl, ?_, rfl, rfl⟩
  simp [Prim.app, Val.toNum, num, ha]

/-! ## Examples -/

/-- `(+ 1 5 1 1)` is written as `(+ 1 5)`. -/
example : expr 10 "(+ 1 5 1 1)".toList = .ok ("l_add(l_num(1), l_num(5))".toList, []) := by
  have n : Sp [] := by intro c hc; cases hc
  have b : Sp1 " ".toList := ⟨by intro c hc; rw [List.mem_singleton.mp hc]; decide, by decide⟩
  have w : Word "1".toList := ⟨by decide, by decide⟩
  have h := operands_violated (fs := []) (o := .add) (by decide) (.num (s := "1".toList) (n := 1))
    (.num (s := "5".toList) (n := 5)) (.num one') (.num five) (.cons b w (.cons b w (.nil n))) 9 (by decide) []
  rw [call2_text] at h
  simp only [Sx.c, CE.text] at h
  exact h

/-- `(let (x 5) x)`. -/
example (k : Nat) : transpile k "(let (x 5) x)".toList = .more :=
  let_hangs_violated (q := "x".toList) ⟨by decide, by decide⟩ " 5) x)".toList k

/-- `((f 1) 5)` is written as `(f(l_num(1)), l_num(5))`. -/
example : expr 20 "((f 1) 5)".toList = .ok ("(f(l_num(1)), l_num(5))".toList, []) := by decide +kernel

end Verif.Lisp
