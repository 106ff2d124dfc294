import Verif.Match.Model

/-!
# Claims about `match` (C28) and enum tags (C53)
-/

namespace Verif.Match

open Spec

/-! ## Texts -/

/-- The joined text. -/
def joined (acc : Txt) (r : List Txt) : Txt := acc ++ (r.map ('|' :: ·)).flatten

theorem joinBuf_ok (acc : Txt) (r : List Txt)
    (h : acc.length + (r.map (fun t => t.length + 1)).sum < 1024) :
    joinBuf acc r = some (joined acc r) := by
  induction r generalizing acc with
  | nil => simp [joinBuf, joined]
  | cons t r ih =>
    simp only [List.map_cons, List.sum_cons] at h
    have hl : (acc ++ '|' :: t).length = acc.length + (t.length + 1) := by simp
    rw [joinBuf, if_pos (by omega), ih _ (by omega)]
    simp [joined]

theorem strtok_span (cur s rest : Txt) (h : '|' ∉ s) :
    strtok cur (s ++ rest) = strtok (cur ++ s) rest := by
  induction s generalizing cur with
  | nil => simp
  | cons c s ih =>
    simp only [List.mem_cons, not_or] at h
    rw [List.cons_append, strtok, if_neg (fun e => h.1 e.symm), ih _ h.2]
    simp

theorem strtok_joined (acc : Txt) (r : List Txt) (ha : acc ≠ []) (hb : '|' ∉ acc)
    (hr : ∀ t ∈ r, t ≠ [] ∧ '|' ∉ t) : strtok [] (joined acc r) = acc :: r := by
  induction r generalizing acc with
  | nil =>
    have := strtok_span [] acc [] hb
    simp only [List.append_nil, List.nil_append] at this
    simp [joined, this, strtok, ha]
  | cons t r ih =>
    have ht := hr t List.mem_cons_self
    rw [joined, List.map_cons, List.flatten_cons, strtok_span [] acc _ hb, List.nil_append,
      List.cons_append, strtok, if_pos rfl, if_neg ha]
    have := ih t ht.1 ht.2 (fun t h => hr t (List.mem_cons_of_mem _ h))
    rw [joined] at this
    rw [this]

theorem strstr_none2 (s : Txt) (h : noDots s = true) : strstr ['.', '.'] s = none := by
  induction s with
  | nil => rfl
  | cons c s ih =>
    have hs : noDots s = true := by
      rw [noDots.eq_def] at h
      split at h
      · cases h
      · rename_i heq
        injection heq with _ h2
        rw [h2]
        exact h
      · rename_i heq
        cases heq
    rw [strstr, if_neg, ih hs]
    · rfl
    · intro hp
      cases s with
      | nil => simp [List.isPrefixOf] at hp
      | cons d s =>
        simp only [List.isPrefixOf, Bool.and_true, Bool.and_eq_true, beq_iff_eq] at hp
        obtain ⟨rfl, rfl⟩ := hp
        simp [noDots] at h

theorem noDots_tail {c : Char} {s : Txt} (h : noDots (c :: s) = true) : noDots s = true := by
  rw [noDots.eq_def] at h
  split at h
  · cases h
  · rename_i heq
    injection heq with _ h2
    rw [h2]
    exact h
  · rename_i heq
    cases heq

theorem noDots_two {s : Txt} (h : noDots ('.' :: s) = true) : s.head? ≠ some '.' := by
  intro hh
  cases s with
  | nil => cases hh
  | cons d s =>
    injection hh with hh
    subst hh
    simp [noDots] at h

/-- Longer needles starting with two dots are not found either. -/
theorem strstr_none3 (s : Txt) (h : noDots s = true) : strstr ['.', '.', '='] s = none := by
  induction s with
  | nil => rfl
  | cons c s ih =>
    rw [strstr, if_neg, ih (noDots_tail h)]
    · rfl
    · intro hp
      cases s with
      | nil => simp [List.isPrefixOf] at hp
      | cons d s =>
        simp only [List.isPrefixOf, Bool.and_eq_true, beq_iff_eq] at hp
        obtain ⟨rfl, rfl, _⟩ := hp
        simp [noDots] at h

theorem prefix_dots {p : Txt} {c : Char} {s : Txt}
    (h : List.isPrefixOf ('.' :: '.' :: p) (c :: s) = true) : c = '.' ∧ s.head? = some '.' := by
  cases s with
  | nil => simp [List.isPrefixOf] at h
  | cons d s =>
    simp only [List.isPrefixOf, Bool.and_eq_true, beq_iff_eq] at h
    exact ⟨h.1.symm, by rw [h.2.1]; rfl⟩

/-- The first occurrence of a needle starting with two dots, after a text without two dots in
a row that does not end with a dot. -/
theorem strstr_at (p lo rest : Txt) (h : noDots lo = true) (hl : lo.getLast? ≠ some '.') :
    strstr ('.' :: '.' :: p) (lo ++ ('.' :: '.' :: p) ++ rest) = some (lo, rest) := by
  induction lo with
  | nil =>
    rw [List.nil_append, List.cons_append, strstr, if_pos]
    · simp
    · have := List.isPrefixOf_iff_prefix (l₁ := '.' :: '.' :: p) (l₂ := '.' :: ('.' :: p ++ rest))
      rw [this]
      exact ⟨rest, rfl⟩
  | cons c lo ih =>
    rw [List.cons_append, List.cons_append, strstr, if_neg, ih (noDots_tail h)]
    · rfl
    · intro hh
      apply hl
      cases lo with
      | nil => cases hh
      | cons d lo => rw [List.getLast?_cons_cons]; exact hh
    · intro hp
      obtain ⟨rfl, hd⟩ := prefix_dots hp
      cases lo with
      | nil => exact hl rfl
      | cons d lo =>
        exact noDots_two h (by simpa using hd)

/-- The text of an exclusive range contains no `..=`. -/
theorem strstr_excl (lo hi : Txt) (h : noDots lo = true) (hl : lo.getLast? ≠ some '.')
    (h2 : noDots hi = true) (hd : hi.head? ≠ some '.') (he : hi.head? ≠ some '=') :
    strstr ['.', '.', '='] (lo ++ ['.', '.'] ++ hi) = none := by
  induction lo with
  | nil =>
    simp only [List.nil_append, List.cons_append]
    rw [strstr, if_neg, strstr, if_neg, strstr_none3 hi h2]
    · rfl
    · intro hp
      exact hd (prefix_dots hp).2
    · intro hp
      cases hi with
      | nil => simp [List.isPrefixOf] at hp
      | cons c hi =>
        simp only [List.isPrefixOf, Bool.and_eq_true, beq_iff_eq] at hp
        exact he (by rw [← hp.2.2.1]; rfl)
  | cons c lo ih =>
    rw [List.cons_append, List.cons_append, strstr, if_neg, ih (noDots_tail h)]
    · rfl
    · intro hh
      apply hl
      cases lo with
      | nil => cases hh
      | cons d lo => rw [List.getLast?_cons_cons]; exact hh
    · intro hp
      obtain ⟨rfl, hd⟩ := prefix_dots hp
      cases lo with
      | nil => exact hl rfl
      | cons d lo => exact noDots_two h (by simpa using hd)

structure Clean (t : Txt) : Prop where
  ne : t ≠ []
  bar : '|' ∉ t
  dots : noDots t = true
  hd : t.head? ≠ some '.'
  he : t.head? ≠ some '='
  last : t.getLast? ≠ some '.'
  und : t ≠ ['_']

theorem cleanTok_iff {t : Txt} (h : cleanTok t = true) : Clean t := by
  simp only [cleanTok, Bool.and_eq_true, Bool.not_eq_true', bne_iff_ne, ne_eq,
    List.isEmpty_eq_false_iff, List.contains_eq_mem, decide_eq_false_iff_not] at h
  obtain ⟨⟨⟨⟨⟨⟨h1, h2⟩, h3⟩, h4⟩, h5⟩, h6⟩, h7⟩ := h
  exact ⟨h1, h2, h3, h4, h5, h6, h7⟩

theorem emitSingle_clean {t : Txt} (h : Clean t) :
    emitSingle t = if t.head? = some '"' then .streq t else .eq t := by
  rw [emitSingle, strstr_none3 t h.dots, strstr_none2 t h.dots]

theorem emitSingle_incl {lo hi : Txt} (h : Clean lo) :
    emitSingle (lo ++ ['.', '.', '='] ++ hi) = .incl lo hi := by
  rw [emitSingle, strstr_at ['='] lo hi h.dots h.last]

theorem emitSingle_excl {lo hi : Txt} (h : Clean lo) (h2 : Clean hi) :
    emitSingle (lo ++ ['.', '.'] ++ hi) = .excl lo hi := by
  rw [emitSingle, strstr_excl lo hi h.dots h.last h2.dots h2.hd h2.he,
    strstr_at [] lo hi h.dots h.last]

/-! ## Tags -/

theorem cTagFrom_none (i : Int) (d : Decl) (x : Txt) (h : x ∉ d.map Prod.fst) :
    cTagFrom i d x = none := by
  induction d generalizing i with
  | nil => rfl
  | cons p d ih =>
    obtain ⟨n, e⟩ := p
    simp only [List.map_cons, List.mem_cons, not_or] at h
    rw [cTagFrom, if_neg (fun e => h.1 e.symm), ih _ h.2]

theorem cTagFrom_some (i : Int) (d : Decl) (x : Txt) (h : x ∈ d.map Prod.fst) :
    ∃ t, cTagFrom i d x = some t := by
  induction d generalizing i with
  | nil => simp at h
  | cons p d ih =>
    obtain ⟨n, e⟩ := p
    simp only [List.map_cons, List.mem_cons] at h
    rw [cTagFrom]
    by_cases hn : n = x
    · exact ⟨i, by simp [hn]⟩
    · rw [if_neg hn]
      rcases h with h | h
      · exact absurd h.symm hn
      · exact ih _ h

theorem cTagFrom_ge (i : Int) (d : Decl) (x : Txt) (t : Int) (h : cTagFrom i d x = some t) :
    i ≤ t := by
  induction d generalizing i with
  | nil => cases h
  | cons p d ih =>
    obtain ⟨n, e⟩ := p
    rw [cTagFrom] at h
    split at h
    · injection h with h
      omega
    · have := ih _ h
      omega

theorem cTagFrom_inj (i : Int) (d : Decl) (x y : Txt) (t : Int) (h : cTagFrom i d x = some t)
    (h2 : cTagFrom i d y = some t) : x = y := by
  induction d generalizing i with
  | nil => cases h
  | cons p d ih =>
    obtain ⟨n, e⟩ := p
    rw [cTagFrom] at h h2
    by_cases hx : n = x <;> by_cases hy : n = y
    · rw [← hx, ← hy]
    · rw [if_pos hx] at h
      rw [if_neg hy] at h2
      injection h with h
      have := cTagFrom_ge _ _ _ _ h2
      omega
    · rw [if_neg hx] at h
      rw [if_pos hy] at h2
      injection h2 with h2
      have := cTagFrom_ge _ _ _ _ h
      omega
    · rw [if_neg hx] at h
      rw [if_neg hy] at h2
      exact ih _ h h2

theorem find_register (v : Int) (d : Decl) (reg : Reg) (x : Txt)
    (he : ∀ p ∈ d, p.2 = none) (hn : (d.map Prod.fst).Nodup) :
    findVariant (registerFrom v d reg) x =
      match cTagFrom v d x with
      | some t => some t
      | none => findVariant reg x := by
  induction d generalizing v reg with
  | nil => rfl
  | cons p d ih =>
    obtain ⟨n, e⟩ := p
    have : e = none := he _ List.mem_cons_self
    subst this
    simp only [List.map_cons, List.nodup_cons] at hn
    rw [registerFrom, ih _ _ (fun p h => he p (List.mem_cons_of_mem _ h)) hn.2, cTagFrom]
    by_cases hx : n = x
    · subst hx
      rw [cTagFrom_none _ _ _ hn.1]
      simp [findVariant]
    · rw [if_neg hx]
      simp [findVariant, hx]

theorem okDecl_iff {d : Decl} (h : okDecl d = true) :
    (∀ p ∈ d, p.2 = none) ∧ (d.map Prod.fst).Nodup := by
  simp only [okDecl, Bool.and_eq_true, List.all_eq_true, Option.isNone_iff_eq_none,
    decide_eq_true_eq] at h
  exact h

/-- **C53** (partial).  In an enum without explicit values, the tag an arm naming `x` tests for
is the tag stored by `x`, and by no other variant. -/
theorem enum_tags_partial (d : Decl) (hd : okDecl d = true) (x y : Txt)
    (hx : x ∈ d.map Prod.fst) (hy : y ∈ d.map Prod.fst) :
    ∃ t u, findVariant (register d) x = some t ∧ cTag d y = some u ∧ (u = t ↔ x = y) := by
  obtain ⟨he, hn⟩ := okDecl_iff hd
  obtain ⟨t, ht⟩ := cTagFrom_some 0 d x hx
  obtain ⟨u, hu⟩ := cTagFrom_some 0 d y hy
  refine ⟨t, u, ?_, hu, ?_⟩
  · rw [register, find_register 0 d [] x he hn, ht]
  · constructor
    · intro h
      subst h
      exact cTagFrom_inj 0 d x y u ht hu
    · intro h
      subst h
      rw [ht] at hu
      injection hu with hu
      exact hu.symm

example : okDecl [("E_A".toList, none), ("E_B".toList, none), ("E_C".toList, none)] = true := by
  decide +kernel

/-- The full statement fails with explicit values: in `enum E { A, B = 0, C }` an arm for `C`
takes values made with `B`, and in `enum E { A = 5, B }` an arm for `B` takes nothing. -/
theorem enum_explicit_violated :
    (let d : Decl := [("E_A".toList, none), ("E_B".toList, some 0), ("E_C".toList, none)]
     ∃ t, findVariant (register d) "E_C".toList = some t ∧ cTag d "E_B".toList = some t) ∧
    (let d : Decl := [("E_A".toList, some 5), ("E_B".toList, none)]
     ∃ t u, findVariant (register d) "E_B".toList = some t ∧ cTag d "E_B".toList = some u ∧
       t ≠ u) := by
  refine ⟨⟨1, ?_, ?_⟩, ⟨6, 1, ?_, ?_, ?_⟩⟩ <;> decide +kernel

/-- The explicit value is not the stored one either: `enum E { A = x }` stores 0, and an arm for
`A` compares with 0. -/
theorem enum_value_violated (n : Txt) (x : Int) :
    cTag [(n, some x)] n = some 0 ∧ findVariant (register [(n, some x)]) n = some 0 := by
  constructor
  · simp [cTag, cTagFrom]
  · simp [register, registerFrom, findVariant]

/-! ## Conditions -/

theorem not_registered {d : Decl} (hd : okDecl d = true) {t : Txt}
    (h : d.all (fun p => p.1 != t) = true) : findVariant (register d) t = none := by
  obtain ⟨he, hn⟩ := okDecl_iff hd
  rw [register, find_register 0 d [] t he hn, cTagFrom_none]
  · rfl
  · intro hm
    obtain ⟨p, hp, rfl⟩ := List.mem_map.1 hm
    rw [List.all_eq_true] at h
    simpa using h p hp

theorem any_name {d : Decl} {n : Txt} (h : d.any (fun p => p.1 == n) = true) :
    n ∈ d.map Prod.fst := by
  rw [List.any_eq_true] at h
  obtain ⟨p, hp, h⟩ := h
  rw [beq_iff_eq] at h
  exact List.mem_map.2 ⟨p, hp, h⟩

/-- The text of an alternative within the guard. -/
theorem altText_clean {den : Den} {d : Decl} {v : Val} {a : Alt} (h : okAlt den d v a = true) :
    altText a ≠ [] ∧ '|' ∉ altText a ∧ altText a ≠ ['_'] := by
  cases v <;> cases a <;> simp only [okAlt, Bool.and_eq_true, Bool.false_eq_true] at h
  · have := cleanTok_iff h.1.1.1
    exact ⟨this.ne, this.bar, this.und⟩
  · rename_i incl lo hi
    have h1 := cleanTok_iff h.1.1.1.1.1
    have h2 := cleanTok_iff h.1.1.1.1.2
    have hne := h1.ne
    refine ⟨?_, ?_, ?_⟩
    · simp [altText, hne]
    · cases incl <;> simp [altText, h1.bar, h2.bar]
    · intro he
      have := congrArg List.length he
      have h3 : 0 < lo.length := List.length_pos_iff.2 hne
      cases incl <;> simp [altText] at this <;> omega
  · have := cleanTok_iff h.1.1.1
    exact ⟨this.ne, this.bar, this.und⟩
  · have := cleanTok_iff h.1
    exact ⟨this.ne, this.bar, this.und⟩

/-- The emitted condition says what the alternative means. -/
theorem emitPart_ok (den : Den) (d : Decl) (ptr : Bool) (v : Val) (a : Alt)
    (hd : okDecl d = true) (hv : okVal d v = true) (h : okAlt den d v a = true) :
    ∃ b, evalC den d ptr (emitPart (register d) (altText a)) v = some b ∧
      (b = true ↔ matchesAlt den a v) := by
  cases v <;> cases a <;> simp only [okAlt, Bool.and_eq_true, Bool.false_eq_true] at h
  · rename_i n t
    obtain ⟨⟨⟨h1, h2⟩, h3⟩, h4⟩ := h
    rw [Option.isSome_iff_exists] at h2
    obtain ⟨a, ha⟩ := h2
    rw [bne_iff_ne] at h3
    rw [altText, emitPart, not_registered hd h4]
    simp only
    rw [emitSingle_clean (cleanTok_iff h1), if_neg h3]
    refine ⟨decide (n = a), by simp [evalC, ha], ?_⟩
    simp only [decide_eq_true_eq, matchesAlt, ha, Option.some.injEq]
    exact eq_comm
  · rename_i n incl lo hi
    obtain ⟨⟨⟨⟨⟨h1, h2⟩, h3⟩, h4⟩, h5⟩, h6⟩ := h
    rw [Option.isSome_iff_exists] at h3 h4
    obtain ⟨a, ha⟩ := h3
    obtain ⟨b, hb⟩ := h4
    cases incl with
    | true =>
      rw [emitPart, not_registered hd h6]
      simp only [altText, if_true]
      rw [emitSingle_incl (cleanTok_iff h1)]
      refine ⟨decide (a ≤ n) && decide (n ≤ b), by simp [evalC, ha, hb], ?_⟩
      simp [matchesAlt, ha, hb]
    | false =>
      rw [emitPart, not_registered hd h5]
      simp only [altText, Bool.false_eq_true, if_false]
      rw [emitSingle_excl (cleanTok_iff h1) (cleanTok_iff h2)]
      refine ⟨decide (a ≤ n) && decide (n < b), by simp [evalC, ha, hb], ?_⟩
      simp [matchesAlt, ha, hb]
  · rename_i s t
    obtain ⟨⟨⟨h1, h2⟩, h3⟩, h4⟩ := h
    rw [Option.isSome_iff_exists] at h2
    obtain ⟨a, ha⟩ := h2
    rw [beq_iff_eq] at h3
    rw [altText, emitPart, not_registered hd h4]
    simp only
    rw [emitSingle_clean (cleanTok_iff h1), if_pos h3]
    refine ⟨decide (s = a), by simp [evalC, ha], ?_⟩
    simp only [decide_eq_true_eq, matchesAlt, ha, Option.some.injEq]
    exact eq_comm
  · rename_i w n
    simp only [okVal] at hv
    obtain ⟨t, u, h1, h2, h3⟩ := enum_tags_partial d hd n w (any_name h.2) (any_name hv)
    rw [altText, emitPart, h1]
    refine ⟨decide (u = t), by simp [evalC, h2], ?_⟩
    simp [matchesAlt, h3]

theorem evalOr_ok (den : Den) (d : Decl) (ptr : Bool) (v : Val) (l : List Alt)
    (hd : okDecl d = true) (hv : okVal d v = true) (h : ∀ a ∈ l, okAlt den d v a = true) :
    ∃ b, evalOr den d ptr v (l.map fun a => emitPart (register d) (altText a)) = some b ∧
      (b = true ↔ ∃ a ∈ l, matchesAlt den a v) := by
  induction l with
  | nil => exact ⟨false, rfl, by simp⟩
  | cons a l ih =>
    obtain ⟨b, h1, h2⟩ := emitPart_ok den d ptr v a hd hv (h a List.mem_cons_self)
    obtain ⟨b', h3, h4⟩ := ih fun a ha => h a (List.mem_cons_of_mem _ ha)
    refine ⟨b || b', by simp [evalOr, h1, h3], ?_⟩
    simp [h2, h4]

theorem joined_bar (acc : Txt) (r : List Txt) (h : '|' ∉ acc) : '|' ∈ joined acc r ↔ r ≠ [] := by
  cases r with
  | nil => simp [joined, h]
  | cons t r => simp [joined]

/-- The condition of one arm. -/
theorem emitArm_ok (den : Den) (d : Decl) (ptr : Bool) (v : Val) (a : Arm)
    (hd : okDecl d = true) (hv : okVal d v = true) (h : okArm den d v a = true)
    (hl : (a.alts.map fun x => (altText x).length + 1).sum ≤ 1024) :
    ∃ t b, patText a.alts = some t ∧ evalOr den d ptr v (emitArm (register d) .other t) = some b ∧
      (b = true ↔ matchesArm den a v) := by
  obtain ⟨alts, g⟩ := a
  simp only [okArm, Bool.and_eq_true, Option.isNone_iff_eq_none] at h
  obtain ⟨rfl, h⟩ := h
  simp only at hl
  have key : alts = [.wild] ∨ (∃ x r, alts = x :: r ∧ ∀ y ∈ alts, okAlt den d v y = true) := by
    revert h
    split
    · exact fun h => absurd h (by simp)
    · exact fun _ => Or.inl rfl
    · rename_i hl1 _
      intro h
      rw [List.all_eq_true] at h
      cases alts with
      | nil => exact absurd rfl hl1
      | cons x r => exact Or.inr ⟨x, r, rfl, h⟩
  rcases key with rfl | ⟨x, r, rfl, h⟩
  · refine ⟨['_'], true, by decide +kernel, by simp [emitArm, evalOr, evalC], ?_⟩
    simp [matchesArm, matchesAlt]
  · simp only [List.map_cons, List.sum_cons] at hl
    have hx := altText_clean (h x List.mem_cons_self)
    have hr : ∀ t ∈ r.map altText, t ≠ [] ∧ '|' ∉ t := by
      intro t ht
      obtain ⟨y, hy, rfl⟩ := List.mem_map.1 ht
      have := altText_clean (h y (List.mem_cons_of_mem _ hy))
      exact ⟨this.1, this.2.1⟩
    have hj := joinBuf_ok (altText x) (r.map altText) (by
      rw [List.map_map, Function.comp_def]
      omega)
    obtain ⟨b, h1, h2⟩ := evalOr_ok den d ptr v (x :: r) hd hv h
    refine ⟨joined (altText x) (r.map altText), b, ?_, ?_, ?_⟩
    · rw [patText, if_pos (by omega), hj]
    · have hu : joined (altText x) (r.map altText) ≠ ['_'] := by
        intro he
        cases r with
        | nil => exact hx.2.2 (by simpa [joined] using he)
        | cons y r =>
          have : '|' ∈ joined (altText x) ((y :: r).map altText) := by
            rw [joined_bar _ _ hx.2.1]
            simp
          rw [he] at this
          simp at this
      rw [emitArm, if_neg hu]
      show evalOr den d ptr v (emitPattern _ _) = some b
      rw [emitPattern]
      cases r with
      | nil =>
        rw [if_neg]
        · simpa [joined] using h1
        · rw [joined_bar _ _ hx.2.1]
          simp
      | cons y r =>
        rw [if_pos, strtok_joined _ _ hx.1 hx.2.1 hr]
        · rw [← h1]
          simp [Function.comp_def]
        · rw [joined_bar _ _ hx.2.1]
          simp
    · rw [h2]
      simp [matchesArm]

/-- The chain of tests runs the body of the first arm that holds. -/
theorem runChain_first (den : Den) (d : Decl) (ptr : Bool) (v : Val) (arms : List Arm)
    (css : List (List Cond)) (hlen : css.length = arms.length)
    (h : ∀ (k : Nat) (a : Arm) (cs : List Cond), arms[k]? = some a → css[k]? = some cs →
      ∃ b, evalOr den d ptr v cs = some b ∧ (b = true ↔ matchesArm den a v)) (i : Nat) :
    ∃ o, runChain den d ptr v i css = some o ∧
      ∀ k, o = some k ↔ ∃ j, k = i + j ∧ First den arms v j := by
  induction arms generalizing css i with
  | nil =>
    have : css = [] := List.length_eq_zero_iff.1 hlen
    subst this
    refine ⟨none, rfl, ?_⟩
    intro k
    constructor
    · intro h
      cases h
    · rintro ⟨j, _, a, ha, _⟩
      simp at ha
  | cons a arms ih =>
    cases css with
    | nil => simp at hlen
    | cons cs css =>
      obtain ⟨b, hb1, hb2⟩ := h 0 a cs rfl rfl
      obtain ⟨o, ho1, ho2⟩ := ih css (by simpa using hlen)
        (fun k a cs h1 h2 => h (k + 1) a cs (by simpa using h1) (by simpa using h2)) (i + 1)
      refine ⟨if b then some i else o, by simp [runChain, hb1, ho1], ?_⟩
      intro k
      cases b with
      | true =>
        have hm := hb2.1 rfl
        simp only [if_true, Option.some.injEq]
        constructor
        · intro hk
          exact ⟨0, by omega, a, rfl, hm, fun j _ h => absurd h (by omega)⟩
        · rintro ⟨j, hj, x, _, _, hf⟩
          cases j with
          | zero => omega
          | succ j => exact absurd hm (hf 0 a (by omega) rfl)
      | false =>
        have hm : ¬ matchesArm den a v := fun hh => absurd (hb2.2 hh) (by simp)
        simp only [Bool.false_eq_true, if_false]
        rw [ho2]
        constructor
        · rintro ⟨j, hj, x, h1, h2, h3⟩
          refine ⟨j + 1, by omega, x, by simpa using h1, h2, ?_⟩
          intro l y hl hy
          cases l with
          | zero =>
            injection hy with hy
            exact hy ▸ hm
          | succ l => exact h3 l y (by omega) (by simpa using hy)
        · rintro ⟨j, hj, x, h1, h2, h3⟩
          cases j with
          | zero =>
            injection h1 with h1
            exact absurd (h1 ▸ h2) hm
          | succ j =>
            exact ⟨j, by omega, x, by simpa using h1, h2,
              fun l y hl hy => h3 (l + 1) y (by omega) (by simpa using hy)⟩

theorem allTexts_get (arms : List Arm) (ts : List Txt) (h : allTexts arms = some ts) :
    ts.length = arms.length ∧ ∀ (k : Nat) (a : Arm) (t : Txt), arms[k]? = some a → ts[k]? = some t →
      patText a.alts = some t := by
  induction arms generalizing ts with
  | nil =>
    injection h with h
    subst h
    exact ⟨rfl, by simp⟩
  | cons a arms ih =>
    rw [allTexts, Option.bind_eq_some_iff] at h
    obtain ⟨t, h1, h⟩ := h
    rw [Option.map_eq_some_iff] at h
    obtain ⟨ts', h2, rfl⟩ := h
    obtain ⟨h3, h4⟩ := ih ts' h2
    refine ⟨by simp [h3], ?_⟩
    intro k b u hb hu
    cases k with
    | zero =>
      injection hb with hb
      injection hu with hu
      subst hb hu
      exact h1
    | succ k => exact h4 k b u (by simpa using hb) (by simpa using hu)

theorem allTexts_some (arms : List Arm) (h : ∀ a ∈ arms, ∃ t, patText a.alts = some t) :
    ∃ ts, allTexts arms = some ts := by
  induction arms with
  | nil => exact ⟨[], rfl⟩
  | cons a arms ih =>
    obtain ⟨t, ht⟩ := h a List.mem_cons_self
    obtain ⟨ts, hts⟩ := ih fun a ha => h a (List.mem_cons_of_mem _ ha)
    exact ⟨t :: ts, by simp [allTexts, ht, hts]⟩

/-- **C28** (partial).  For integers, strings and enum values: if no arm has a guard, every
pattern is `_` or a list of literals, ranges and variants that fit the value, and the written
patterns stay below 1024 characters, then the match compiles and runs exactly the body of the
first arm that is right for the value (and none if there is no such arm).  Missing: arms with
guards, `Option`/`Result` values, `_` among alternatives, long patterns, tokens containing `|`
or `..` — for all of which the statement fails, see below. -/
theorem match_first_partial (den : Den) (d : Decl) (ptr : Bool) (arms : List Arm) (v : Val)
    (hd : okDecl d = true) (hv : okVal d v = true)
    (ha : ∀ a ∈ arms, okArm den d v a = true)
    (hl : ∀ a ∈ arms, (a.alts.map fun x => (altText x).length + 1).sum ≤ 1024) :
    ∃ o, runMatch den d .other ptr arms v = .ran o ∧
      ∀ i, o = some i ↔ First den arms v i := by
  obtain ⟨ts, hts⟩ := allTexts_some arms fun a h => by
    obtain ⟨t, _, h1, _⟩ := emitArm_ok den d ptr v a hd hv (ha a h) (hl a h)
    exact ⟨t, h1⟩
  obtain ⟨hlen, hget⟩ := allTexts_get arms ts hts
  obtain ⟨o, ho1, ho2⟩ := runChain_first den d ptr v arms
    (ts.map (emitArm (register d) .other)) (by simpa using hlen) (by
      intro k a cs h1 h2
      rw [List.getElem?_map, Option.map_eq_some_iff] at h2
      obtain ⟨t, h3, rfl⟩ := h2
      have hm := List.mem_of_getElem? h1
      obtain ⟨t', b, h4, h5, h6⟩ := emitArm_ok den d ptr v a hd hv (ha a hm) (hl a hm)
      have := hget k a t h1 h3
      rw [h4] at this
      injection this with this
      subst this
      exact ⟨b, h5, h6⟩) 0
  refine ⟨o, by simp [runMatch, hts, ho1], fun i => ?_⟩
  rw [ho2]
  constructor
  · rintro ⟨j, hj, h⟩
    have : i = j := by omega
    exact this ▸ h
  · intro h
    exact ⟨i, by omega, h⟩

/-- Decimal digits, and texts between quotes. -/
def den0 : Den where
  int t := if t.all Char.isDigit && !t.isEmpty then
      some (t.foldl (fun n c => 10 * n + (c.toNat - 48 : Int)) 0) else none
  str t := match t with
    | '"' :: r => if r.getLast? = some '"' then some r.dropLast else none
    | _ => none

/-- `match 7 { 1 || 2 => .., 5..8 => .., 3..=9 => .., _ => .. }` meets the hypotheses. -/
example :
    let arms : List Arm := [⟨[.lit "1".toList, .lit "2".toList], none⟩,
      ⟨[.rng false "5".toList "8".toList], none⟩, ⟨[.rng true "3".toList "9".toList], none⟩,
      ⟨[.wild], none⟩]
    (∀ a ∈ arms, okArm den0 [] (.int 7) a = true) ∧
      (∀ a ∈ arms, (a.alts.map fun x => (altText x).length + 1).sum ≤ 1024) ∧
      runMatch den0 [] .other false arms (.int 7) = .ran (some 1) := by
  decide +kernel

/-- An enum value and a string meet them too. -/
example :
    let d : Decl := [("E_A".toList, none), ("E_B".toList, none), ("E_C".toList, none)]
    okDecl d = true ∧ okVal d (.enm "E_C".toList) = true ∧
      okArm den0 d (.enm "E_C".toList) ⟨[.variant "E_A".toList, .variant "E_C".toList], none⟩ = true ∧
      okArm den0 [] (.str "hi".toList) ⟨[.lit "\"hi\"".toList], none⟩ = true := by
  decide +kernel

/-- The full statement fails for guards: they are parsed and then ignored.
`match 1 { 1 if false => a, _ => b }` runs `a`. -/
theorem guard_violated :
    let arms : List Arm := [⟨[.lit "1".toList], some false⟩, ⟨[.wild], none⟩]
    runMatch den0 [] .other false arms (.int 1) = .ran (some 0) ∧ ¬ First den0 arms (.int 1) 0 := by
  refine ⟨by decide +kernel, ?_⟩
  rintro ⟨a, ha, hm, _⟩
  injection ha with ha
  subst ha
  exact hm.2 rfl

/-- It fails for `Option` and `Result` values when no arm binds by reference: `_m->is_some` is
applied to a value that is not a pointer. -/
theorem option_value_violated :
    let arms : List Arm := [⟨[.lit "Some".toList], none⟩, ⟨[.lit "None".toList], none⟩]
    runMatch den0 [] .option false arms (.opt true) = .noCompile ∧
      runMatch den0 [] .result false [⟨[.lit "Ok".toList], none⟩] (.opt true) = .noCompile := by
  decide +kernel

/-- The condition printed for the four names of `Option` and `Result`, where it compiles (the
scrutinee is held by reference): `Some`/`Ok` holds of the full value only, `None`/`Err` of the
other. -/
theorem option_arms (den : Den) (d : Decl) (reg : Reg) (full : Bool) :
    evalOr den d true (.opt full) (emitArm reg .option "Some".toList) = some full ∧
      evalOr den d true (.opt full) (emitArm reg .option "None".toList) = some (!full) ∧
      evalOr den d true (.opt full) (emitArm reg .result "Ok".toList) = some full ∧
      evalOr den d true (.opt full) (emitArm reg .result "Err".toList) = some (!full) := by
  have h1 : emitArm reg .option "Some".toList = [.flag true false] := rfl
  have h2 : emitArm reg .option "None".toList = [.flag true true] := rfl
  have h3 : emitArm reg .result "Ok".toList = [.flag true false] := rfl
  have h4 : emitArm reg .result "Err".toList = [.flag true true] := rfl
  rw [h1, h2, h3, h4]
  cases full <;> simp [evalOr, evalC]

/-- `match o { Some(...) => .., None => .. }` with a reference binding runs the right body, for
every enum in scope. -/
theorem option_match_partial (den : Den) (d : Decl) (full : Bool) :
    runMatch den d .option true [⟨[.lit "Some".toList], none⟩, ⟨[.lit "None".toList], none⟩]
        (.opt full) = .ran (some (if full then 0 else 1)) ∧
      runMatch den d .result true [⟨[.lit "Ok".toList], none⟩, ⟨[.lit "Err".toList], none⟩]
        (.opt full) = .ran (some (if full then 0 else 1)) := by
  have t1 : allTexts [⟨[.lit "Some".toList], none⟩, ⟨[.lit "None".toList], none⟩]
      = some ["Some".toList, "None".toList] := by decide +kernel
  have t2 : allTexts [⟨[.lit "Ok".toList], none⟩, ⟨[.lit "Err".toList], none⟩]
      = some ["Ok".toList, "Err".toList] := by decide +kernel
  obtain ⟨h1, h2, h3, h4⟩ := option_arms den d (register d) full
  simp only [runMatch, t1, t2, List.map_cons, List.map_nil, runChain, h1, h2, h3, h4]
  cases full <;> simp

/-- It fails for `Option` values with misspelt patterns: every other name matches everything. -/
theorem option_other_violated :
    let arms : List Arm := [⟨[.lit "Sone".toList], none⟩, ⟨[.lit "None".toList], none⟩]
    runMatch den0 [] .option true arms (.opt false) = .ran (some 0) ∧
      ¬ First den0 arms (.opt false) 0 := by
  refine ⟨by decide +kernel, ?_⟩
  rintro ⟨a, ha, ⟨⟨x, hx, hm⟩, _⟩, _⟩
  injection ha with ha
  subst ha
  simp only [List.mem_singleton] at hx
  subst hx
  revert hm
  simp only [matchesAlt]
  decide +kernel

/-- It fails for `_` among alternatives: `1 || _` compares with an undeclared name. -/
theorem wild_alternative_violated :
    runMatch den0 [] .other false [⟨[.lit "1".toList, .wild], none⟩] (.int 1) = .noCompile := by
  decide +kernel

/-- It fails for string patterns containing `|` or `..`, which are taken apart. -/
theorem string_pattern_violated :
    runMatch den0 [] .other false [⟨[.lit "\"a|b\"".toList], none⟩] (.str "a|b".toList) = .noCompile ∧
    runMatch den0 [] .other false [⟨[.lit "\"a..b\"".toList], none⟩] (.str "a..b".toList) =
      .noCompile := by
  decide +kernel

/-- It fails for long patterns: the text is collected in 1024 bytes without a check.  Already
one long string overflows. -/
theorem long_pattern_violated (den : Den) (d : Decl) (k : Kind) (ptr : Bool) (v : Val) (t : Txt)
    (h : 1024 ≤ t.length) : runMatch den d k ptr [⟨[.lit t], none⟩] v = .overflow := by
  have : patText [.lit t] = none := by
    rw [patText, if_neg]
    simp only [altText]
    omega
  simp [runMatch, allTexts, this]

end Verif.Match
