import Verif.Sql.Model

/-! # The SQL plugin: blocks are written as what they mean -/

namespace Verif.Sql

open Forth (Out isspace)
open Spec

/-! ## Characters and blanks -/

theorem word_not_space {c : Char} (h : word c = true) : isspace c = false ∧ c ≠ '/' := by
  have key : ∀ d : Char, word d = false → c ≠ d := by
    rintro d hd rfl; rw [h] at hd; cases hd
  refine ⟨?_, key '/' (by decide)⟩
  cases e : isspace c with
  | false => rfl
  | true =>
    simp only [isspace, Bool.or_eq_true, Bool.and_eq_true, decide_eq_true_eq] at e
    rcases e with e | ⟨e1, e2⟩
    · exact absurd e (key ' ' (by decide))
    · simp only [word, Bool.or_eq_true, Bool.and_eq_true, decide_eq_true_eq] at h
      simp only [Char.le_def, UInt32.le_iff_toNat_le] at e1 e2 h
      have : ('\t' : Char).val.toNat = 9 := rfl
      have : ('\r' : Char).val.toNat = 13 := rfl
      have : ('0' : Char).val.toNat = 48 := rfl
      have : ('a' : Char).val.toNat = 97 := rfl
      have : ('A' : Char).val.toNat = 65 := rfl
      rcases h with ((h | h) | h) | h
      · omega
      · omega
      · omega
      · subst h
        have : ('_' : Char).val.toNat = 95 := rfl
        omega

theorem skip_cons {c : Char} (h : isspace c = false) (h' : c ≠ '/') (r : Str) : skip .blank (c :: r) = c :: r := by
  rw [skip.eq_def]
  split <;> simp_all

theorem skip_space {c : Char} (h : isspace c = true) (r : Str) : skip .blank (c :: r) = skip .blank r := by
  have h' : c ≠ '/' := by rintro rfl; revert h; decide
  rw [skip.eq_def]
  split <;> simp_all

theorem skip_line {s : Str} (h : '\n' ∉ s) (r : Str) : skip .line (s ++ '\n' :: r) = skip .blank r := by
  induction s with
  | nil => rw [List.nil_append, skip, if_pos rfl]
  | cons c s ih =>
    rw [List.cons_append, skip, if_neg (fun e => h (by rw [e]; exact List.mem_cons_self ..)),
      ih fun hm => h (List.mem_cons_of_mem _ hm)]

theorem skip_comment {s : Str} (h : ∀ a b, s ≠ a ++ '*' :: '/' :: b) (r : Str) :
    skip .block (s ++ '*' :: '/' :: r) = skip .blank r := by
  induction s with
  | nil => rw [List.nil_append, skip]
  | cons c s ih =>
    have := ih fun a b e => h (c :: a) b (by rw [e]; rfl)
    rw [List.cons_append]
    by_cases e : c = '*'
    · cases s with
      | nil =>
        rw [List.nil_append] at this ⊢
        rw [skip.eq_def]
        split <;> simp_all
      | cons d s =>
        have hd : d ≠ '/' := by
          rintro rfl
          exact h [] s (by rw [e]; rfl)
        rw [List.cons_append] at this ⊢
        rw [skip.eq_def]
        split <;> simp_all
    · rw [skip.eq_def]
      split <;> simp_all

theorem skip_gap {g : Str} (h : Gap g) (r : Str) : skip .blank (g ++ r) = skip .blank r := by
  induction h with
  | nil => rfl
  | blank hc _ ih => rw [List.cons_append, skip_space hc, ih]
  | line hs _ ih =>
    rw [List.cons_append, List.cons_append, List.append_assoc, List.cons_append, skip, skip_line hs, ih]
  | block hs _ ih =>
    rw [List.cons_append, List.cons_append, List.append_assoc, List.cons_append, List.cons_append, skip,
      skip_comment hs, ih]

theorem skip_gap_cons {g : Str} (h : Gap g) {c : Char} (hc : isspace c = false) (hc' : c ≠ '/') (r : Str) :
    skip .blank (g ++ c :: r) = c :: r := by rw [skip_gap h, skip_cons hc hc']

/-- The rest does not go on with a word. -/
def Free (r : Str) : Prop := r.head?.any word = false

theorem space_not_word {c : Char} (h : isspace c = true) : word c = false := by
  cases e : word c with
  | false => rfl
  | true => rw [(word_not_space e).1] at h; cases h

theorem gap_free {g r : Str} (h : Gap g) (hr : Free r) : Free (g ++ r) := by
  cases h with
  | nil => exact hr
  | blank hc _ => simp [Free, space_not_word hc]
  | line _ _ => simp [Free]; decide
  | block _ _ => simp [Free]; decide

theorem gap1_free {g : Str} (h : Gap1 g) (r : Str) : Free (g ++ r) := by
  obtain ⟨h, hn⟩ := h
  cases h with
  | nil => exact absurd rfl hn
  | blank hc _ => simp [Free, space_not_word hc]
  | line _ _ => simp [Free]; decide
  | block _ _ => simp [Free]; decide

theorem free_cons {c : Char} (h : word c = false) (r : Str) : Free (c :: r) := by simp [Free, h]

theorem free_nil : Free [] := rfl

/-- A text that does not begin a blank or a comment. -/
def Begins (s : Str) : Prop := ∃ c r, s = c :: r ∧ isspace c = false ∧ c ≠ '/'

theorem skip_begins {g s : Str} (h : Gap g) (hs : Begins s) (r : Str) : skip .blank (g ++ (s ++ r)) = s ++ r := by
  obtain ⟨c, t, rfl, h1, h2⟩ := hs
  exact skip_gap_cons h h1 h2 _

theorem name_begins {n : Str} (h : Name n) : Begins n := by
  obtain ⟨hn, hw⟩ := h
  cases n with
  | nil => exact absurd rfl hn
  | cons c n => exact ⟨c, n, rfl, word_not_space (hw c (List.mem_cons_self ..))⟩

theorem name_eq {n r : Str} (h : Name n) (hr : Free r) : name (n ++ r) = (n, r) := by
  obtain ⟨-, hw⟩ := h
  unfold name
  induction n with
  | nil =>
    cases r with
    | nil => rfl
    | cons c r =>
      have : word c = false := by simpa [Free] using hr
      simp [this]
  | cons c n ih =>
    have hc := hw c (List.mem_cons_self ..)
    have ih := ih fun d hd => hw d (List.mem_cons_of_mem _ hd)
    injection ih with h1 h2
    rw [List.cons_append, List.takeWhile_cons_of_pos hc, List.dropWhile_cons_of_pos hc, h1, h2]

/-! ## Keywords -/

theorem kw_eq {k s r : Str} (h : Kw k s) (hr : Free r) : kw k (s ++ r) = some r := by
  have hl : s.length = k.length := by rw [← h, List.length_map]
  unfold kw
  rw [← hl, List.take_left, List.drop_left, if_pos ⟨h, hr⟩]

theorem kw_ne {k k' s : Str} (h : Kw k' s) (hl : k.length = k'.length) (hne : k' ≠ k) (r : Str) :
    kw k (s ++ r) = none := by
  have hl' : s.length = k.length := by rw [hl, ← h, List.length_map]
  unfold kw
  rw [← hl', List.take_left, if_neg]
  rintro ⟨e, -⟩
  exact hne (h.symm.trans e)

theorem upper_word {c : Char} (h : word (upper c) = true) : word c = true := by
  unfold upper at h
  split at h
  · rename_i hc
    unfold word
    rw [hc]
    simp
  · exact h

theorem kw_name {k s : Str} (h : Kw k s) (hk : Name k) : Name s := by
  refine ⟨?_, fun c hc => upper_word (hk.2 _ ?_)⟩
  · rintro rfl
    exact hk.1 h.symm
  · rw [← h]
    exact List.mem_map.2 ⟨c, hc, rfl⟩

theorem typeSrc_name {b : Bool} {ty : Str} (h : TypeSrc b ty) : Name ty := by
  have h1 : Name "TEXT".toList ∧ Name "STRING".toList ∧ Name "INT".toList ∧ Name "INTEGER".toList := by
    unfold Name; decide +kernel
  cases h with
  | text h => exact kw_name h h1.1
  | string h => exact kw_name h h1.2.1
  | int h => exact kw_name h h1.2.2.1
  | integer h => exact kw_name h h1.2.2.2

theorem typeSrc_text {b : Bool} {ty : Str} (h : TypeSrc b ty) : isText ty = b := by
  have hn := (typeSrc_name h).1
  unfold isText
  cases h with
  | text h => rw [show ty.map upper = _ from h]; simp [hn]
  | string h => rw [show ty.map upper = _ from h]; simp [hn]
  | int h => rw [show ty.map upper = _ from h]; simp [List.isPrefixOf]
  | integer h => rw [show ty.map upper = _ from h]; simp [List.isPrefixOf]

/-! ## Columns -/

theorem gap_head {g : Str} (h : Gap g) {s : Str} (hs : s ≠ [] ∧ s.head? ≠ some ')') :
    ¬ (g ++ s = [] ∨ (g ++ s).head? = some ')') := by
  cases h with
  | nil => simpa using hs
  | blank hc _ =>
    rename_i c r _
    rintro (e | e)
    · cases e
    · have : c = ')' := Option.some.inj e
      rw [this] at hc
      revert hc; decide
  | line _ _ => simp
  | block _ _ => simp

theorem name_head {n r : Str} (h : Name n) : n ++ r ≠ [] ∧ (n ++ r).head? ≠ some ')' := by
  obtain ⟨hn, hw⟩ := h
  cases n with
  | nil => exact absurd rfl hn
  | cons c n =>
    refine ⟨by simp, fun e => ?_⟩
    have : c = ')' := Option.some.inj e
    have hc := hw c (List.mem_cons_self ..)
    rw [this] at hc
    revert hc; decide

theorem cols_step {g1 n g2 ty g3 : Str} {b : Bool} (h1 : Gap g1) (hn : Name n) (hl : n.length < 32) (h2 : Gap1 g2)
    (ht : TypeSrc b ty) (h3 : Gap g3) {c : Char} (hc : c = ',' ∨ c = ')') (r : Str) (k : Nat) {cs : Cols} {r' : Str}
    (ih : cols k (eat ',' (c :: r)) = .ok (cs, r')) :
    cols (k + 1) (g1 ++ (n ++ (g2 ++ (ty ++ (g3 ++ c :: r))))) = .ok ((n, b) :: cs, r') := by
  have hcs : isspace c = false ∧ c ≠ '/' ∧ word c = false := by rcases hc with rfl | rfl <;> decide
  rw [cols, if_neg (gap_head h1 (name_head hn)), skip_begins h1 (name_begins hn), name_eq hn (gap1_free h2 _)]
  simp only
  rw [if_neg (fun h => hn.1 h.1), if_neg (by omega), skip_begins h2.1 (name_begins (typeSrc_name ht)),
    name_eq (typeSrc_name ht) (gap_free h3 (free_cons hcs.2.2 _))]
  simp only
  rw [skip_gap_cons h3 hcs.1 hcs.2.1, ih, typeSrc_text ht]

theorem cols_src {cs : Cols} {s : Str} (h : ColsSrc cs s) (k : Nat) (hk : s.length < k) (r : Str) :
    cols k (s ++ r) = .ok (cs, ')' :: r) := by
  induction h generalizing k with
  | one h1 hn hl h2 ht h3 =>
    rename_i g1 n g2 ty g3 b
    cases k with
    | zero => exact absurd hk (Nat.not_lt_zero _)
    | succ k =>
      have := cols_step h1 hn hl h2 ht h3 (.inr rfl) r k (cs := []) (r' := ')' :: r) (by
        cases k with
        | zero => simp at hk
        | succ k => rw [eat, if_neg (by decide), cols, if_pos (.inr rfl)])
      simpa using this
  | cons h1 hn hl h2 ht h3 _ ih =>
    rename_i g1 n g2 ty g3 b cs s _
    cases k with
    | zero => exact absurd hk (Nat.not_lt_zero _)
    | succ k =>
      have := cols_step h1 hn hl h2 ht h3 (.inl rfl) (s ++ r) k (cs := cs) (r' := ')' :: r) (by
        rw [eat, if_pos rfl]
        refine ih k ?_
        simp only [List.length_append, List.length_cons] at hk
        omega)
      simpa using this

theorem cols_skip {cs : Cols} {s : Str} (h : ColsSrc cs s) :
    ∃ s', ColsSrc cs s' ∧ s'.length ≤ s.length ∧ ∀ r, skip .blank (s ++ r) = s' ++ r := by
  cases h with
  | one h1 hn hl h2 ht h3 =>
    refine ⟨_, .one .nil hn hl h2 ht h3, by simp, fun r => ?_⟩
    simp only [List.append_assoc, List.nil_append]
    exact skip_begins h1 (name_begins hn) _
  | cons h1 hn hl h2 ht h3 hs =>
    refine ⟨_, .cons .nil hn hl h2 ht h3 hs, by simp, fun r => ?_⟩
    simp only [List.append_assoc, List.nil_append]
    exact skip_begins h1 (name_begins hn) _

/-! ## Values -/

theorem string_lit {s : Str} (h : Lit s) (r : Str) : string (s ++ '"' :: r) = .ok (s ++ ['"'], r) := by
  induction h with
  | nil => rfl
  | char h1 h2 _ ih =>
    rw [List.cons_append, string.eq_def]
    split <;> simp_all
  | esc _ ih =>
    rw [List.cons_append, List.cons_append, string, ih]
    rfl

theorem value_src {v : Val} {s : Str} (h : ValSrc v s) {c : Char} (hc : c = ',' ∨ c = ')') (r : Str) :
    ∃ r', value (s ++ c :: r) = .ok (v.text, r') ∧ skip .blank r' = c :: r := by
  have hcs : isspace c = false ∧ c ≠ '/' := by rcases hc with rfl | rfl <;> decide
  cases h with
  | lit hs hg =>
    rename_i s g
    refine ⟨g ++ c :: r, ?_, skip_gap_cons hg hcs.1 hcs.2 _⟩
    rw [List.cons_append, List.append_assoc, List.cons_append, value, string_lit hs]
    rfl
  | expr hs =>
    obtain ⟨⟨d, t, rfl, h1, h2, h3⟩, hall⟩ := hs
    refine ⟨c :: r, ?_, skip_cons hcs.1 hcs.2 _⟩
    have hp : (decide (c ≠ ',') && decide (c ≠ ')')) = false := by rcases hc with rfl | rfl <;> decide
    have key : ∀ u : Str, (∀ x ∈ u, x ≠ ',' ∧ x ≠ ')') →
        (u ++ c :: r).takeWhile (fun c => c ≠ ',' && c ≠ ')') = u ∧
        (u ++ c :: r).dropWhile (fun c => c ≠ ',' && c ≠ ')') = c :: r := by
      intro u hu
      induction u with
      | nil => rw [List.nil_append, List.takeWhile_cons_of_neg (by rw [hp]; decide), List.dropWhile_cons_of_neg (by rw [hp]; decide)]; exact ⟨rfl, rfl⟩
      | cons x u ih =>
        have hx := hu x (List.mem_cons_self ..)
        obtain ⟨i1, i2⟩ := ih fun y hy => hu y (List.mem_cons_of_mem _ hy)
        rw [List.cons_append, List.takeWhile_cons_of_pos (by simp [hx]), List.dropWhile_cons_of_pos (by simp [hx]), i1, i2]
        exact ⟨rfl, rfl⟩
    obtain ⟨k1, k2⟩ := key _ hall
    rw [value.eq_def]
    split
    · rename_i e
      rw [List.cons_append] at e
      exact absurd (List.cons.inj e).1 h3
    · rw [k1, k2]
      rfl

theorem val_head {v : Val} {s : Str} (h : ValSrc v s) (r : Str) :
    Begins s ∧ s ++ r ≠ [] ∧ (s ++ r).head? ≠ some ')' := by
  cases h with
  | lit _ _ => exact ⟨⟨'"', _, rfl, by decide, by decide⟩, by simp, by simp⟩
  | expr hs =>
    obtain ⟨⟨d, t, rfl, h1, h2, h3⟩, hall⟩ := hs
    refine ⟨⟨d, t, rfl, h1, h2⟩, by simp, fun e => ?_⟩
    have : d = ')' := Option.some.inj e
    exact (hall d (List.mem_cons_self ..)).2 this

theorem vals_src {vs : List Val} {s : Str} (h : ValsSrc vs s) (k : Nat) (hk : s.length < k) (r : Str) :
    vals k (s ++ r) = .ok (commas vs, ')' :: r) := by
  induction h generalizing k with
  | one hg hv =>
    rename_i g v s
    cases k with
    | zero => exact absurd hk (Nat.not_lt_zero _)
    | succ k =>
      have e : g ++ (s ++ [')']) ++ r = g ++ (s ++ ')' :: r) := by simp
      obtain ⟨r', h1, h2⟩ := value_src hv (.inr rfl) r
      obtain ⟨hb, hh⟩ := val_head hv (')' :: r)
      rw [e, vals, if_neg (gap_head hg hh), skip_begins hg hb, h1]
      simp only [h2]
      cases k with
      | zero => simp at hk
      | succ k =>
        rw [eat, if_neg (by decide), vals, if_pos (.inr rfl)]
        simp [commas]
  | cons hg hv hr ih =>
    rename_i g v s vs t
    cases k with
    | zero => exact absurd hk (Nat.not_lt_zero _)
    | succ k =>
      have e : g ++ (s ++ ',' :: t) ++ r = g ++ (s ++ ',' :: (t ++ r)) := by simp
      obtain ⟨r', h1, h2⟩ := value_src hv (.inl rfl) (t ++ r)
      obtain ⟨hb, hh⟩ := val_head hv (',' :: (t ++ r))
      have := ih k (by simp only [List.length_append, List.length_cons] at hk; omega)
      rw [e, vals, if_neg (gap_head hg hh), skip_begins hg hb, h1]
      simp only [h2]
      rw [eat, if_pos rfl, this]
      cases hr <;> simp [commas]

/-! ## Statements -/

theorem kw_begins {k s : Str} (h : Kw k s) (hk : Name k) : Begins s := name_begins (kw_name h hk)

theorem words_name : Name "CREATE".toList ∧ Name "TABLE".toList ∧ Name "INSERT".toList ∧ Name "INTO".toList ∧
    Name "VALUES".toList ∧ Name "SELECT".toList ∧ Name "FROM".toList := by
  unfold Name; decide +kernel

theorem create_src {t g2 g3 g4 s : Str} {cs : Cols} (h2 : Gap g2) (ht : Name t) (hl : t.length < 64) (h3 : Gap g3)
    (hs : ColsSrc cs s) (h4 : Gap g4) (k : Nat) (hk : s.length < k) (r : Str) :
    create k (g2 ++ (t ++ (g3 ++ '(' :: (s ++ (g4 ++ ';' :: r))))) = .ok (declText t cs, (t, cs), r) := by
  unfold create
  rw [skip_begins h2 (name_begins ht), name_eq ht (gap_free h3 (free_cons (by decide) _))]
  obtain ⟨s', hs', hl', he⟩ := cols_skip hs
  simp only
  rw [if_neg (by omega), skip_gap_cons h3 (by decide) (by decide)]
  simp only [he]
  rw [cols_src hs' k (by omega)]
  simp only
  rw [eat, if_pos rfl, skip_gap_cons h4 (by decide) (by decide), eat, if_pos rfl]

theorem insert_src {g1 k2 g2 t g3 k3 g4 s g5 : Str} {vs : List Val} (h1 : Gap1 g1) (hk2 : Kw "INTO".toList k2)
    (h2 : Gap1 g2) (ht : Name t) (hl : t.length < 64) (h3 : Gap1 g3) (hk3 : Kw "VALUES".toList k3) (h4 : Gap g4)
    (hs : ValsSrc vs s) (h5 : Gap g5) (k : Nat) (hk : s.length < k) (r : Str) :
    insert k (g1 ++ (k2 ++ (g2 ++ (t ++ (g3 ++ (k3 ++ (g4 ++ '(' :: (s ++ (g5 ++ ';' :: r))))))))) =
      .ok (insertText t (commas vs), r) := by
  unfold insert
  simp only
  rw [skip_begins h1.1 (kw_begins hk2 words_name.2.2.2.1), kw_eq hk2 (gap1_free h2 _), Option.getD_some,
    skip_begins h2.1 (name_begins ht), name_eq ht (gap1_free h3 _)]
  simp only
  rw [if_neg (by omega), skip_begins h3.1 (kw_begins hk3 words_name.2.2.2.2.1),
    kw_eq hk3 (gap_free h4 (free_cons (by decide) _))]
  simp only
  rw [skip_gap_cons h4 (by decide) (by decide), eat, if_pos rfl, vals_src hs k hk]
  simp only
  rw [eat, if_pos rfl, skip_gap_cons h5 (by decide) (by decide), eat, if_pos rfl]

theorem select_src {g1 g2 k2 g3 t g4 : Str} (h1 : Gap1 g1) (h2 : Gap1 g2) (hk2 : Kw "FROM".toList k2) (h3 : Gap1 g3)
    (ht : Name t) (hl : t.length < 64) (h4 : Gap g4) {ts : Tables} {u : Str} {cs : Cols}
    (hf : ts.find? (·.1 = t) = some (u, cs)) (r : Str) :
    select ts (g1 ++ '*' :: (g2 ++ (k2 ++ (g3 ++ (t ++ (g4 ++ ';' :: r)))))) = .ok (selectText t cs, r) := by
  unfold select
  simp only
  have hstar : kw "*".toList ('*' :: (g2 ++ (k2 ++ (g3 ++ (t ++ (g4 ++ ';' :: r)))))) =
      some (g2 ++ (k2 ++ (g3 ++ (t ++ (g4 ++ ';' :: r))))) :=
    kw_eq (s := "*".toList) (by unfold Kw; decide +kernel) (gap1_free h2 _)
  rw [skip_gap_cons h1.1 (by decide) (by decide), hstar, Option.getD_some,
    skip_begins h2.1 (kw_begins hk2 words_name.2.2.2.2.2.2), kw_eq hk2 (gap1_free h3 _)]
  simp only
  rw [skip_begins h3.1 (name_begins ht), name_eq ht (gap_free h4 (free_cons (by decide) _))]
  simp only
  rw [if_neg (by omega), hf]
  simp only
  rw [skip_gap_cons h4 (by decide) (by decide), eat, if_pos rfl]

theorem declText_eq (t : Str) (cs : Cols) : declText t cs = CS.text (.decl t cs) := by
  have : (cs.map Sql.member).flatten =
      cs.flatMap fun c => "    ".toList ++ ctype c.2 ++ ' ' :: c.1 ++ ";\n".toList := by
    rw [List.flatMap_def]
    congr 1
    refine List.map_congr_left fun c _ => ?_
    unfold Sql.member ctype
    simp only [List.append_assoc, List.cons_append]
    rfl
  unfold declText
  rw [this]
  show _ = declC t cs
  unfold declC
  simp only [List.flatten_cons, List.flatten_nil, List.append_nil, List.append_assoc]

theorem insertText_eq (t : Str) (vs : List Val) : insertText t (commas vs) = CS.text (.add t vs) := by
  show _ = addC t vs
  unfold insertText addC
  simp only [List.flatten_cons, List.flatten_nil, List.append_nil, List.append_assoc]

theorem format_eq (cs : Cols) : format cs = [' '].intercalate (cs.map fun c => spec c.2) := by
  induction cs with
  | nil => rfl
  | cons c cs ih =>
    cases cs with
    | nil => simp [format, spec, List.intercalate]
    | cons e cs =>
      rw [format, ih]
      · rfl
      · simp

theorem selectText_eq (t : Str) (cs : Cols) : selectText t cs = CS.text (.loop t cs) := by
  show _ = loopC t cs
  unfold selectText loopC
  have : (cs.map (argText t)).flatten = cs.flatMap fun c => ", table_".toList ++ t ++ "[_i].".toList ++ c.1 := by
    rw [List.flatMap_def]
    rfl
  rw [format_eq, this]
  simp only [List.flatten_cons, List.flatten_nil, List.append_nil, List.append_assoc]

/-- The statements of a block are written as the C they are to be. -/
theorem stmts_src {p : List Stmt} {s : Str} (h : BlockSrc p s) : ∀ {ts : Tables} {q : List CS} {ts' : Tables},
    compile ts p = some (q, ts') → ∀ k, s.length < k → stmts k ts s = .ok ((q.map CS.text).flatten, ts') := by
  induction h with
  | nil hg =>
    intro ts q ts' hc k hk
    cases hc
    cases k with
    | zero => exact absurd hk (Nat.not_lt_zero _)
    | succ k =>
      have := skip_gap hg []
      rw [List.append_nil] at this
      rw [stmts, this]
      rfl
  | cons hg hst _ ih =>
    rename_i g st s p r _
    intro ts q ts' hc k hk
    cases k with
    | zero => exact absurd hk (Nat.not_lt_zero _)
    | succ k =>
      simp only [List.length_append] at hk
      cases hst with
      | create hk1 h1 hk2 h2 ht hl h3 hcs h4 =>
        rename_i k1 g1 k2 g2 t g3 cs s g4
        simp only [compile, Option.bind_eq_bind] at hc
        obtain ⟨⟨q', ts1⟩, hq, he⟩ := Option.bind_eq_some_iff.mp hc
        cases he
        have hb := kw_begins hk1 words_name.1
        have e : g ++ (k1 ++ (g1 ++ (k2 ++ (g2 ++ (t ++ (g3 ++ '(' :: (s ++ (g4 ++ [';']))))))) ++ r) =
          g ++ (k1 ++ (g1 ++ (k2 ++ (g2 ++ (t ++ (g3 ++ '(' :: (s ++ (g4 ++ ';' :: r)))))))) := by simp
        obtain ⟨c, x, ex, -⟩ := hb
        have es := skip_begins hg (kw_begins hk1 words_name.1) (g1 ++ (k2 ++ (g2 ++ (t ++ (g3 ++ '(' :: (s ++ (g4 ++ ';' :: r)))))))
        simp only [List.length_append, List.length_cons, List.length_nil] at hk
        have hi := ih hq k (by omega)
        have hcr := create_src h2.1 ht hl h3 hcs h4 k (by omega) r
        have hkw := kw_eq (r := g1 ++ (k2 ++ (g2 ++ (t ++ (g3 ++ '(' :: (s ++ (g4 ++ ';' :: r))))))) hk1 (gap1_free h1 _)
        rw [e, stmts]
        simp only [es, hkw]
        rw [ex, List.cons_append]
        simp only
        rw [skip_begins h1.1 (kw_begins hk2 words_name.2.1), kw_eq hk2 (gap1_free h2 _), Option.getD_some, hcr]
        simp only [hi, declText_eq]
        rfl
      | insert hk1 h1 hk2 h2 ht hl h3 hk3 h4 hvs h5 =>
        rename_i k1 g1 k2 g2 t g3 k3 g4 vs s g5
        simp only [compile, Option.bind_eq_bind] at hc
        obtain ⟨⟨q', ts1⟩, hq, he⟩ := Option.bind_eq_some_iff.mp hc
        cases he
        have e : g ++ (k1 ++ (g1 ++ (k2 ++ (g2 ++ (t ++ (g3 ++ (k3 ++ (g4 ++ '(' :: (s ++ (g5 ++ [';']))))))))) ++ r) =
          g ++ (k1 ++ (g1 ++ (k2 ++ (g2 ++ (t ++ (g3 ++ (k3 ++ (g4 ++ '(' :: (s ++ (g5 ++ ';' :: r)))))))))) := by simp
        obtain ⟨c, x, ex, -⟩ := kw_begins hk1 words_name.2.2.1
        have es := skip_begins hg (kw_begins hk1 words_name.2.2.1)
          (g1 ++ (k2 ++ (g2 ++ (t ++ (g3 ++ (k3 ++ (g4 ++ '(' :: (s ++ (g5 ++ ';' :: r)))))))))
        simp only [List.length_append, List.length_cons, List.length_nil] at hk
        have hi := ih hq k (by omega)
        have hins := insert_src h1 hk2 h2 ht hl h3 hk3 h4 hvs h5 k (by omega) r
        have hno := kw_ne (k := "CREATE".toList) hk1 (by decide +kernel) (by decide +kernel)
          (g1 ++ (k2 ++ (g2 ++ (t ++ (g3 ++ (k3 ++ (g4 ++ '(' :: (s ++ (g5 ++ ';' :: r)))))))))
        have hkw := kw_eq (r := g1 ++ (k2 ++ (g2 ++ (t ++ (g3 ++ (k3 ++ (g4 ++ '(' :: (s ++ (g5 ++ ';' :: r)))))))))
          hk1 (gap1_free h1 _)
        rw [e, stmts]
        simp only [es, hno, hkw, hins, hi, insertText_eq]
        rw [ex, List.cons_append]
        rfl
      | select hk1 h1 h2 hk2 h3 ht hl h4 =>
        rename_i k1 g1 g2 k2 g3 t g4
        simp only [compile] at hc
        split at hc
        · cases hc
        · rename_i u cs hf
          simp only [Option.bind_eq_bind] at hc
          obtain ⟨⟨q', ts1⟩, hq, he⟩ := Option.bind_eq_some_iff.mp hc
          cases he
          have e : g ++ (k1 ++ (g1 ++ '*' :: (g2 ++ (k2 ++ (g3 ++ (t ++ (g4 ++ [';'])))))) ++ r) =
            g ++ (k1 ++ (g1 ++ '*' :: (g2 ++ (k2 ++ (g3 ++ (t ++ (g4 ++ ';' :: r))))))) := by simp
          obtain ⟨c, x, ex, -⟩ := kw_begins hk1 words_name.2.2.2.2.2.1
          have es := skip_begins hg (kw_begins hk1 words_name.2.2.2.2.2.1)
            (g1 ++ '*' :: (g2 ++ (k2 ++ (g3 ++ (t ++ (g4 ++ ';' :: r))))))
          simp only [List.length_append, List.length_cons, List.length_nil] at hk
          have hi := ih hq k (by omega)
          have hsel := select_src h1 h2 hk2 h3 ht hl h4 hf r
          have hno := fun w (hw : w.length = 6) hw' => kw_ne (k := w) hk1 (hw.trans (by decide +kernel)) hw'
            (g1 ++ '*' :: (g2 ++ (k2 ++ (g3 ++ (t ++ (g4 ++ ';' :: r))))))
          have hn1 := hno "CREATE".toList (by decide +kernel) (by decide +kernel)
          have hn2 := hno "INSERT".toList (by decide +kernel) (by decide +kernel)
          have hkw := kw_eq (r := g1 ++ '*' :: (g2 ++ (k2 ++ (g3 ++ (t ++ (g4 ++ ';' :: r)))))) hk1 (gap1_free h1 _)
          rw [e, stmts]
          simp only [es, hn1, hn2, hkw, hsel, hi, selectText_eq]
          rw [ex, List.cons_append]
          rfl

/-- **The text of a block.**  A block of `CREATE TABLE`, `INSERT INTO` and `SELECT *` statements, in any case of
the letters and with blanks and comments wherever they may be, is written as the C for these statements. -/
theorem transpile_text {p : List Stmt} {s : Str} (h : BlockSrc p s) {ts ts' : Tables} {q : List CS}
    (hc : compile ts p = some (q, ts')) :
    transpile ts s = .ok ("({\n".toList ++ (q.map CS.text).flatten ++ "0; })".toList, ts') := by
  unfold transpile
  rw [stmts_src h hc _ (Nat.lt_succ_self _)]

/-! ## What the C does -/

theorem init_typed (d : Den) {vs : List Val} {cs : Cols} (h : typed vs cs = true) : init d vs cs = some (vs.map d.val) := by
  induction vs generalizing cs with
  | nil =>
    cases cs with
    | nil => rfl
    | cons c cs => cases h
  | cons v vs ih =>
    cases cs with
    | nil => cases h
    | cons c cs =>
      simp only [typed, Bool.and_eq_true] at h
      rw [init, if_pos h.1, ih h.2]
      rfl

theorem conv_fits (d : Den) {v : Val} {b : Bool} (h : fits v b = true) : conv b (d.val v) = some (d.val v).show := by
  cases v <;> cases b <;> simp_all [fits, conv, Den.val, V.show]

theorem member_mid {pre : Cols} {prow : List V} (hl : pre.length = prow.length) {c : Str × Bool}
    (hc : c.1 ∉ pre.map (·.1)) (cs : Cols) (v : V) (row : List V) :
    Spec.member (pre ++ c :: cs) (prow ++ v :: row) c.1 = some v := by
  induction pre generalizing prow with
  | nil =>
    cases prow with
    | nil => simp [Spec.member]
    | cons _ _ => cases hl
  | cons e pre ih =>
    cases prow with
    | nil => cases hl
    | cons x prow =>
      simp only [List.map_cons, List.mem_cons, not_or] at hc
      rw [List.cons_append, List.cons_append, Spec.member, if_neg (Ne.symm hc.1)]
      exact ih (Nat.succ.inj hl) hc.2

theorem printRow_typed (d : Den) {vs : List Val} {cs : Cols} (h : typed vs cs = true) {pre : Cols} {prow : List V}
    (hl : pre.length = prow.length) (hn : ((pre ++ cs).map (·.1)).Nodup) :
    printRow (pre ++ cs) (prow ++ vs.map d.val) cs = some (line (vs.map d.val)) := by
  induction vs generalizing cs pre prow with
  | nil =>
    cases cs with
    | nil => rfl
    | cons c cs => cases h
  | cons v vs ih =>
    cases cs with
    | nil => cases h
    | cons c cs =>
      simp only [typed, Bool.and_eq_true] at h
      have hc : c.1 ∉ pre.map (·.1) := by
        rw [List.map_append, List.map_cons] at hn
        exact fun hm => (List.nodup_append.1 hn).2.2 _ hm _ (List.mem_cons_self ..) rfl
      have hm := member_mid hl hc cs (d.val v) (vs.map d.val)
      have hv := conv_fits d h.1
      cases cs with
      | nil =>
        cases vs with
        | cons _ _ => cases h.2
        | nil =>
          simp only [List.map_cons, List.map_nil] at hm ⊢
          rw [printRow, hm, Option.bind_eq_bind, Option.bind_some, hv]
          rfl
      | cons c2 cs =>
        cases vs with
        | nil => cases h.2
        | cons v2 vs =>
          have := ih (cs := c2 :: cs) h.2 (pre := pre ++ [c]) (prow := prow ++ [d.val v]) (by simp [hl]) (by simpa using hn)
          simp only [List.append_assoc, List.cons_append, List.nil_append] at this
          rw [List.map_cons, printRow]
          · simp only [List.map_cons] at this hm ⊢
            simp only [hm, hv, this, Option.bind_eq_bind, Option.bind_some]
            rfl
          · simp

theorem printRows_typed (d : Den) {cs : Cols} (hn : (cs.map (·.1)).Nodup) {rows : List (List V)}
    (h : ∀ row ∈ rows, ∃ vs, typed vs cs = true ∧ row = vs.map d.val) :
    printRows cs cs rows = some (rows.map line).flatten := by
  induction rows with
  | nil => rfl
  | cons row rows ih =>
    obtain ⟨vs, hv, rfl⟩ := h row (List.mem_cons_self ..)
    have := printRow_typed d hv (pre := []) (prow := []) rfl hn
    simp only [List.nil_append] at this
    rw [printRows, this, ih fun r hr => h r (List.mem_cons_of_mem _ hr)]
    rfl

/-- The tables of SQL and the variables of C agree, and `p` does not insert too many rows. -/
structure Agree (d : Den) (σ : Db) (c : C) (ts : Tables) (p : List Stmt) : Prop where
  none : ∀ t, σ t = none → c.scope t = none ∧ c.rows t = []
  some : ∀ t cs rows, σ t = some (cs, rows) → c.scope t = some cs ∧ c.rows t = rows ∧
    ts.find? (·.1 = t) = some (t, cs) ∧ (cs.map (·.1)).Nodup ∧
    ∀ row ∈ rows, ∃ vs, typed vs cs = true ∧ row = vs.map d.val
  room : ∀ t, (c.rows t).length + inserts t p ≤ 128

theorem upd_same {α : Type} (f : Str → α) (t : Str) (a : α) : upd f t a t = a := if_pos rfl

theorem upd_other {α : Type} (f : Str → α) {t x : Str} (a : α) (h : x ≠ t) : upd f t a x = f x := if_neg h

theorem run_agree (d : Den) (p : List Stmt) : ∀ {σ σ' : Db} {c : C} {ts : Tables} {out : Str}, Agree d σ c ts p →
    run d σ p = some (σ', out) → ∃ q ts' c', compile ts p = some (q, ts') ∧ runC d c q = some (c', out) := by
  induction p with
  | nil =>
    intro σ σ' c ts out _ hr
    cases hr
    exact ⟨_, _, _, rfl, rfl⟩
  | cons s p ih =>
    intro σ σ' c ts out ha hr
    rw [run] at hr
    cases s with
    | create t cs =>
      simp only [exec] at hr
      by_cases hc : (σ t).isSome = false ∧ (cs.map (·.1)).Nodup
      · rw [if_pos hc] at hr
        simp only at hr
        split at hr
        · cases hr
        · rename_i σ2 b h2
          cases hr
          have ht : σ t = none := by simpa using hc.1
          obtain ⟨n1, n2⟩ := ha.none t ht
          have ha' : Agree d (upd σ t (some (cs, []))) { c with scope := upd c.scope t (some cs) } ((t, cs) :: ts) p := by
            constructor
            · intro u hu
              by_cases e : u = t
              · rw [e, upd_same] at hu; cases hu
              · rw [upd_other _ _ e] at hu
                simp only
                rw [upd_other _ _ e]
                exact ha.none u hu
            · intro u cs' rows hu
              by_cases e : u = t
              · subst e
                rw [upd_same] at hu
                cases hu
                refine ⟨upd_same .., n2, ?_, hc.2, fun _ h => nomatch h⟩
                rw [List.find?_cons_of_pos (by simp)]
              · rw [upd_other _ _ e] at hu
                obtain ⟨s1, s2, s3, s4⟩ := ha.some u cs' rows hu
                refine ⟨by simp only; rw [upd_other _ _ e]; exact s1, s2, ?_, s4⟩
                rw [List.find?_cons_of_neg (by simpa using Ne.symm e)]
                exact s3
            · exact ha.room
          obtain ⟨q, ts', c', hq, hrun⟩ := ih ha' h2
          refine ⟨.decl t cs :: q, ts', c', by rw [compile, hq]; rfl, ?_⟩
          rw [runC]
          simp only [CS.exec]
          rw [if_pos ⟨by rw [n1]; rfl, hc.2⟩]
          simp only [hrun]
      · rw [if_neg hc] at hr
        cases hr
    | insert t vs =>
      simp only [exec] at hr
      cases ht : σ t with
      | none => rw [ht] at hr; cases hr
      | some x =>
        obtain ⟨cs, rows⟩ := x
        rw [ht] at hr
        simp only at hr
        by_cases hty : typed vs cs = true
        · rw [if_pos hty] at hr
          simp only at hr
          split at hr
          · cases hr
          · rename_i σ2 b h2
            cases hr
            obtain ⟨s1, s2, s3, s4, s5⟩ := ha.some t cs rows ht
            have hroom : (c.rows t).length < 128 := by
              have := ha.room t
              simp only [inserts, if_pos] at this
              omega
            have ha' : Agree d (upd σ t (some (cs, rows ++ [vs.map d.val])))
                { c with rows := upd c.rows t (c.rows t ++ [vs.map d.val]) } ts p := by
              constructor
              · intro u hu
                by_cases e : u = t
                · rw [e, upd_same] at hu; cases hu
                · rw [upd_other _ _ e] at hu
                  simp only
                  rw [upd_other _ _ e]
                  exact ha.none u hu
              · intro u cs' rows' hu
                by_cases e : u = t
                · subst e
                  rw [upd_same] at hu
                  cases hu
                  refine ⟨s1, by simp only; rw [upd_same, s2], s3, s4, fun row hrow => ?_⟩
                  rcases List.mem_append.1 hrow with h | h
                  · exact s5 row h
                  · exact ⟨vs, hty, List.mem_singleton.1 h⟩
                · rw [upd_other _ _ e] at hu
                  obtain ⟨r1, r2, r3⟩ := ha.some u cs' rows' hu
                  exact ⟨r1, by simp only; rw [upd_other _ _ e]; exact r2, r3⟩
              · intro u
                have := ha.room u
                by_cases e : u = t
                · subst e
                  simp only [inserts, if_pos] at this
                  simp only [upd_same, List.length_append, List.length_cons, List.length_nil]
                  omega
                · simp only [inserts, if_neg (Ne.symm e)] at this
                  simp only [upd_other _ _ e]
                  omega
            obtain ⟨q, ts', c', hq, hrun⟩ := ih ha' h2
            refine ⟨.add t vs :: q, ts', c', by rw [compile, hq]; rfl, ?_⟩
            rw [runC]
            simp only [CS.exec, s1, init_typed d hty, if_pos hroom, hrun]
        · rw [if_neg hty] at hr
          cases hr
    | select t =>
      simp only [exec] at hr
      cases ht : σ t with
      | none => rw [ht] at hr; cases hr
      | some x =>
        obtain ⟨cs, rows⟩ := x
        rw [ht] at hr
        simp only at hr
        split at hr
        · cases hr
        · rename_i σ2 b h2
          cases hr
          obtain ⟨s1, s2, s3, s4, s5⟩ := ha.some t cs rows ht
          obtain ⟨q, ts', c', hq, hrun⟩ := ih (c := c) (ts := ts) ⟨ha.none, ha.some, fun u => ha.room u⟩ h2
          refine ⟨.loop t cs :: q, ts', c', by rw [compile, s3]; simp only; rw [hq]; rfl, ?_⟩
          rw [runC]
          simp only [CS.exec, s1, s2, printRows_typed d s4 s5, hrun]

/-- No table in scope and no row stored. -/
def fresh : C := ⟨fun _ => none, fun _ => []⟩

/-- **What a block means.**  A block of `CREATE TABLE`, `INSERT INTO` and `SELECT *` statements that makes
sense, and inserts no more than 128 rows into a table, is written as statements of C which, where no row is
stored yet, print what the statements of SQL print.  This whatever tables blocks before it have created. -/
theorem block_meaning (d : Den) {p : List Stmt} {s : Str} (h : BlockSrc p s) {σ : Db} {out : Str}
    (hr : run d (fun _ => none) p = some (σ, out)) (hi : ∀ t, inserts t p ≤ 128) (ts : Tables) :
    ∃ q ts' c, transpile ts s = .ok ("({\n".toList ++ (q.map CS.text).flatten ++ "0; })".toList, ts') ∧
      runC d fresh q = some (c, out) := by
  have ha : Agree d (fun _ => none) fresh ts p := by
    constructor
    · exact fun _ _ => ⟨rfl, rfl⟩
    · exact fun _ _ _ h => nomatch h
    · intro t
      have := hi t
      simp only [fresh, List.length_nil]
      omega
  obtain ⟨q, ts', c, hq, hrun⟩ := run_agree d p ha hr
  exact ⟨q, ts', c, transpile_text h hq, hrun⟩

/-- A table of two columns, two rows and a comment; it prints the rows. -/
example : ∃ p, BlockSrc p ("create TABLE pets (id INT, name TEXT); /* two */ INSERT INTO pets VALUES (1 + 1, \"cat\");".toList ++
    "INSERT INTO pets VALUES (3, \"a\\\"b\" ); SELECT * FROM pets;".toList) ∧ (∀ t, inserts t p ≤ 128) ∧
    ∃ σ, run ⟨fun s => s.length, fun s => s⟩ (fun _ => none) p = some (σ, "5 cat\n1 a\\\"b\n".toList) := by
  have sp : Gap1 [' '] := ⟨.blank (by decide) .nil, by simp⟩
  have nm : Name "pets".toList := by unfold Name; decide +kernel
  refine ⟨[.create "pets".toList [("id".toList, false), ("name".toList, true)],
    .insert "pets".toList [.expr "1 + 1".toList, .lit "cat".toList],
    .insert "pets".toList [.expr "3".toList, .lit "a\\\"b".toList], .select "pets".toList], ?_, ?_, ?_⟩
  · have c1 : ColsSrc [("id".toList, false), ("name".toList, true)] "id INT, name TEXT)".toList :=
      .cons (g1 := []) (n := "id".toList) (g2 := [' ']) (ty := "INT".toList) (g3 := []) .nil
        (by unfold Name; decide +kernel) (by decide +kernel) sp (.int (by unfold Kw; decide +kernel)) .nil
        (.one (g1 := [' ']) (n := "name".toList) (g2 := [' ']) (ty := "TEXT".toList) (g3 := []) sp.1
          (by unfold Name; decide +kernel) (by decide +kernel) sp (.text (by unfold Kw; decide +kernel)) .nil)
    have v1 : ValsSrc [.expr "1 + 1".toList, .lit "cat".toList] "1 + 1, \"cat\")".toList :=
      .cons (g := []) (s := "1 + 1".toList) .nil
        (.expr ⟨⟨'1', " + 1".toList, rfl, by decide, by decide, by decide⟩, by decide +kernel⟩)
        (.one (g := [' ']) (s := "\"cat\"".toList) sp.1
          (.lit (s := "cat".toList) (g := [])
            (.char (by decide) (by decide) (.char (by decide) (by decide) (.char (by decide) (by decide) .nil))) .nil))
    have v2 : ValsSrc [.expr "3".toList, .lit "a\\\"b".toList] "3, \"a\\\"b\" )".toList :=
      .cons (g := []) (s := "3".toList) .nil
        (.expr ⟨⟨'3', [], rfl, by decide, by decide, by decide⟩, by decide +kernel⟩)
        (.one (g := [' ']) (s := "\"a\\\"b\" ".toList) sp.1
          (.lit (s := "a\\\"b".toList) (g := [' '])
            (.char (by decide) (by decide) (.esc (.char (by decide) (by decide) .nil))) sp.1))
    have gc : Gap " /* two */ ".toList :=
      .blank (by decide) (.block (s := " two ".toList) (r := [' ']) (by
        intro a b e
        have : '*' ∈ " two ".toList := by rw [e]; simp
        revert this; decide +kernel) sp.1)
    exact .cons (g := []) (s := "create TABLE pets (id INT, name TEXT);".toList) .nil
      (.create (k1 := "create".toList) (g1 := [' ']) (k2 := "TABLE".toList) (g2 := [' ']) (g3 := [' ']) (g4 := [])
        (by unfold Kw; decide +kernel) sp (by unfold Kw; decide +kernel) sp nm (by decide +kernel) sp.1 c1 .nil)
      (.cons (g := " /* two */ ".toList) (s := "INSERT INTO pets VALUES (1 + 1, \"cat\");".toList) gc
        (.insert (k1 := "INSERT".toList) (g1 := [' ']) (k2 := "INTO".toList) (g2 := [' ']) (g3 := [' '])
          (k3 := "VALUES".toList) (g4 := [' ']) (g5 := []) (by unfold Kw; decide +kernel) sp (by unfold Kw; decide +kernel)
          sp nm (by decide +kernel) sp (by unfold Kw; decide +kernel) sp.1 v1 .nil)
        (.cons (g := []) (s := "INSERT INTO pets VALUES (3, \"a\\\"b\" );".toList) .nil
          (.insert (k1 := "INSERT".toList) (g1 := [' ']) (k2 := "INTO".toList) (g2 := [' ']) (g3 := [' '])
            (k3 := "VALUES".toList) (g4 := [' ']) (g5 := []) (by unfold Kw; decide +kernel) sp
            (by unfold Kw; decide +kernel) sp nm (by decide +kernel) sp (by unfold Kw; decide +kernel) sp.1 v2 .nil)
          (.cons (g := [' ']) (s := "SELECT * FROM pets;".toList) (r := []) sp.1
            (.select (k1 := "SELECT".toList) (g1 := [' ']) (g2 := [' ']) (k2 := "FROM".toList) (g3 := [' ']) (g4 := [])
              (by unfold Kw; decide +kernel) sp sp (by unfold Kw; decide +kernel) sp nm (by decide +kernel) .nil)
            (.nil .nil))))
  · intro t
    simp only [inserts]
    split <;> omega
  · exact ⟨_, rfl⟩

end Verif.Sql
