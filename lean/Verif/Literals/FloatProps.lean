import Verif.Literals.FloatLemmas

/-!
# Floating literals: property C34
-/

namespace Verif.Literals

open Spec
open Verif.Lexer (isDigit isXdigit identChar identStart)
open Verif.Str (Byte)

theorem fends_suffix (x rest : List Byte) (h : FEnds rest) :
    Lexer.suffix (x ++ rest) x.length = .ok x.length := by
  unfold Lexer.suffix
  rw [rd_append]
  simp only [Run.ok_bind]
  cases rest with
  | nil => simp [identStart, Lexer.isAlpha]
  | cons c r =>
    have : identStart c = false :=
      byteRange (fun c => identChar c = false → identStart c = false) (by decide +kernel) c (h c r rfl).1
    simp [this]

/-- C34: the lexer takes a floating literal as one token -/
theorem float_token {t : List Byte} {q : ℚ} (h : FloatLit t q) {rest : List Byte} (hr : FEnds rest) :
    Lexer.number (t ++ rest) = .ok (.float, t.length) := by
  obtain ⟨ip, fr, fp, ex, e, n, rfl, hne, hfr, hex, hn, rfl, hfe⟩ := h
  obtain ⟨hd1, hd2⟩ := digits_of hn
  have hhd := expo_head hex hr
  -- the first two bytes
  obtain ⟨a, ha⟩ : ∃ a, Lexer.rd (ip ++ (fr ++ (ex ++ rest))) 0 = .ok a := by
    cases ip with
    | nil => exact absurd rfl hne
    | cons d ip => exact ⟨d, by simp [Lexer.rd]⟩
  obtain ⟨b, hb, hbne⟩ : ∃ b, Lexer.rd (ip ++ (fr ++ (ex ++ rest))) 1 = .ok b ∧
      ¬ (b = 120 ∨ b = 88) ∧ ¬ (b = 98 ∨ b = 66) ∧ ¬ (b = 111 ∨ b = 79) := by
    have hE : ∀ c : Byte, (c = 101 ∨ c = 69) →
        ¬ (c = 120 ∨ c = 88) ∧ ¬ (c = 98 ∨ c = 66) ∧ ¬ (c = 111 ∨ c = 79) := by
      rintro c (rfl | rfl) <;> decide
    cases ip with
    | nil => exact absurd rfl hne
    | cons d ip =>
      cases ip with
      | nil =>
        refine ⟨_, rd_append' [d] _ 1 rfl, ?_⟩
        cases hfr with
        | some => simp
        | none =>
          cases hex with
          | none => simp at hfe
          | pos h _ _ => simpa using hE _ h
          | plus h _ _ => simpa using hE _ h
          | minus h _ _ => simpa using hE _ h
      | cons c ip =>
        refine ⟨c, by simp [Lexer.rd], ?_⟩
        have hc := hd1 c (by simp)
        exact byteRange (fun c => isDigit c = true →
          ¬ (c = 120 ∨ c = 88) ∧ ¬ (c = 98 ∨ c = 66) ∧ ¬ (c = 111 ∨ c = 79)) (by decide +kernel) c hc
  have hsp : Lexer.span isDigit (ip ++ (fr ++ (ex ++ rest))) = ip.length := by
    refine span_stop hd1 ?_
    intro c r hc
    cases hfr with
    | none => exact (hhd c r hc).1
    | some => simp only [List.cons_append, List.cons.injEq] at hc; rw [← hc.1]; decide
  have hfrac : Lexer.fraction (ip ++ (fr ++ (ex ++ rest))) ip.length =
      .ok (decide (fr ≠ []), (ip ++ fr).length) := by
    unfold Lexer.fraction
    rw [rd_append]
    simp only [Run.ok_bind]
    cases hfr with
    | none =>
      have : ((([] : List Byte) ++ (ex ++ rest)).headD 0) ≠ 46 := by
        cases hx : ex ++ rest with
        | nil => decide
        | cons c r => exact (hhd c r hx).2
      rw [if_neg this]
      simp
    | some =>
      have h1 : Lexer.rd (ip ++ (46 :: fp ++ (ex ++ rest))) (ip.length + 1) =
          .ok ((fp ++ (ex ++ rest)).headD 0) := by
        have := rd_append' (ip ++ [46]) (fp ++ (ex ++ rest)) (ip.length + 1) (by simp)
        simpa using this
      have h2 : (fp ++ (ex ++ rest)).headD 0 ≠ 46 := by
        cases fp with
        | nil =>
          cases hx : ex ++ rest with
          | nil => decide
          | cons c r => exact (hhd c r hx).2
        | cons d fp =>
          have := hd2 d (by simp)
          exact byteRange (fun c => isDigit c = true → c ≠ 46) (by decide +kernel) d this
      have h3 : (ip ++ (46 :: fp ++ (ex ++ rest))).drop (ip.length + 1) = fp ++ (ex ++ rest) := by
        have := List.drop_left (l₁ := ip ++ [46]) (l₂ := fp ++ (ex ++ rest))
        simpa using this
      have h4 := span_stop (p := isDigit) (x := fp) (y := ex ++ rest) hd2 (fun c r h => (hhd c r h).1)
      rw [h1]
      simp only [List.cons_append, List.headD_cons, if_true, Run.ok_bind, h2, ne_eq, not_false_eq_true]
      rw [← List.cons_append, h3, h4]
      simp
      omega
  have hexp : Lexer.exponent (ip ++ (fr ++ (ex ++ rest))) (decide (fr ≠ []), (ip ++ fr).length) =
      .ok (true, (ip ++ (fr ++ ex)).length) := by
    have e1 : ip ++ (fr ++ (ex ++ rest)) = (ip ++ fr) ++ (ex ++ rest) := by simp
    rw [e1]
    unfold Lexer.exponent
    simp only [rd_append, Run.ok_bind]
    have num : ∀ (y ds : List Byte) (k : Nat), Numeral 10 ds k →
        Lexer.span isDigit (((ip ++ fr) ++ y ++ (ds ++ rest)).drop ((ip ++ fr).length + y.length)) = ds.length := by
      intro y ds k hk
      have h3 : ((ip ++ fr) ++ y ++ (ds ++ rest)).drop ((ip ++ fr).length + y.length) = ds ++ rest := by
        rw [← List.length_append, List.drop_left]
      rw [h3]
      exact span_stop (fun c hc => by rw [isDigit_val]; simpa using hk.val.1 c hc) (fends_stop hr)
    cases hex with
    | none =>
      have hf : fr ≠ [] := by simpa using hfe
      have : ¬ ((([] : List Byte) ++ rest).headD 0 = 101 ∨ (([] : List Byte) ++ rest).headD 0 = 69) := by
        cases rest with
        | nil => decide
        | cons c r => simpa using head_not_exp hr c r rfl
      rw [if_neg this]
      simp [hf]
    | pos h hn' hne' =>
      rename_i c ds k
      have h1 : Lexer.rd (ip ++ fr ++ (c :: ds ++ rest)) ((ip ++ fr).length + 1) =
          .ok ((ds ++ rest).headD 0) := by
        have := rd_append' (ip ++ fr ++ [c]) (ds ++ rest) ((ip ++ fr).length + 1) (by simp; omega)
        simpa using this
      have h2 : ¬ ((ds ++ rest).headD 0 = 43 ∨ (ds ++ rest).headD 0 = 45) := by
        cases ds with
        | nil => exact absurd rfl hne'
        | cons d ds =>
          have hd : isDigit d = true := by rw [isDigit_val]; simpa using hn'.val.1 d (by simp)
          exact byteRange (fun c => isDigit c = true → ¬ (c = 43 ∨ c = 45)) (by decide +kernel) d hd
      have h3 := num [c] ds k hn'
      simp only [List.length_singleton] at h3
      rw [if_pos (show (c :: ds ++ rest).headD 0 = 101 ∨ (c :: ds ++ rest).headD 0 = 69 from h), h1]
      simp only [Run.ok_bind, if_neg h2]
      have e2 : ip ++ fr ++ (c :: ds ++ rest) = ip ++ fr ++ [c] ++ (ds ++ rest) := by simp
      rw [e2, h3]
      simp
      omega
    | plus h hn' hne' =>
      rename_i c ds k
      have h1 : Lexer.rd (ip ++ fr ++ (c :: 43 :: ds ++ rest)) ((ip ++ fr).length + 1) = .ok 43 := by
        have := rd_append' (ip ++ fr ++ [c]) (43 :: ds ++ rest) ((ip ++ fr).length + 1) (by simp; omega)
        simpa using this
      have h3 := num [c, 43] ds k hn'
      simp only [List.length_cons, List.length_nil] at h3
      rw [if_pos (show (c :: 43 :: ds ++ rest).headD 0 = 101 ∨ (c :: 43 :: ds ++ rest).headD 0 = 69 from h), h1]
      simp only [Run.ok_bind, true_or, if_true]
      have e2 : ip ++ fr ++ (c :: 43 :: ds ++ rest) = ip ++ fr ++ [c, 43] ++ (ds ++ rest) := by simp
      rw [e2, h3]
      simp
      omega
    | minus h hn' hne' =>
      rename_i c ds k
      have h1 : Lexer.rd (ip ++ fr ++ (c :: 45 :: ds ++ rest)) ((ip ++ fr).length + 1) = .ok 45 := by
        have := rd_append' (ip ++ fr ++ [c]) (45 :: ds ++ rest) ((ip ++ fr).length + 1) (by simp; omega)
        simpa using this
      have h3 := num [c, 45] ds k hn'
      simp only [List.length_cons, List.length_nil] at h3
      rw [if_pos (show (c :: 45 :: ds ++ rest).headD 0 = 101 ∨ (c :: 45 :: ds ++ rest).headD 0 = 69 from h), h1]
      simp only [Run.ok_bind, or_true, if_true]
      have e2 : ip ++ fr ++ (c :: 45 :: ds ++ rest) = ip ++ fr ++ [c, 45] ++ (ds ++ rest) := by simp
      rw [e2, h3]
      simp
      omega
  have e0 : ip ++ (fr ++ ex) ++ rest = ip ++ (fr ++ (ex ++ rest)) := by simp
  have hsuf : Lexer.suffix (ip ++ (fr ++ (ex ++ rest))) (ip ++ (fr ++ ex)).length =
      .ok (ip ++ (fr ++ ex)).length := by
    rw [← e0]; exact fends_suffix _ rest hr
  rw [e0]
  unfold Lexer.number
  simp only [ha, hb, Run.ok_bind, hbne.1, hbne.2.1, hbne.2.2, and_false, if_false, hsp, hfrac, hexp, hsuf]
  rfl

theorem emit_lit {rn : ℚ → ℚ} (hr : Nearest rn) {q : ℚ} (h0 : 0 ≤ q) (h : q < limit) :
    ∃ k : ℕ, emitFloat (toDouble rn q) = fixed6 k ∧ (k : ℤ) = roundEven (rn q * 1000000) := by
  have hn := nearest_nonneg hr h0 h
  have h1 := roundEven_nonneg (x := rn q * 1000000) (by positivity)
  exact ⟨(roundEven (rn q * 1000000)).toNat, by simp [toDouble, h, emitFloat], Int.toNat_of_nonneg h1⟩

theorem limit_big : (2 : ℚ) ^ 40 < limit := by
  unfold limit
  have h1 : (2 : ℚ) ^ 40 < 2 ^ 970 := pow_lt_pow_right₀ (by norm_num) (by norm_num)
  have h2 : (0 : ℚ) ≤ (2 ^ 53 - 1) * 2 ^ 971 := mul_nonneg (by norm_num) (pow_nonneg (by norm_num) _)
  exact lt_of_lt_of_le h1 (le_add_of_nonneg_left h2)

/-- C34: a literal with at most six decimals below 2^33, and any literal from 2^33 on up to the largest
double, is emitted as a C literal that denotes the same double.  Missing: more decimals. -/
theorem float_kept_partial {rn : ℚ → ℚ} (hr : Nearest rn) {t : List Byte} {q : ℚ} (h : FloatLit t q)
    {rest : List Byte} (he : FEnds rest)
    (hq : (q < 2 ^ 33 ∧ ∃ m : ℕ, q = m / 1000000) ∨ (2 ^ 33 ≤ q ∧ q < limit)) :
    ∃ q', FloatLit (emitFloat (parseFloat rn (t ++ rest))) q' ∧ q' < limit ∧ rn q' = rn q := by
  have h0 := lit_nonneg h
  unfold parseFloat
  rw [scan_lit h he]
  rcases hq with ⟨hlt, m, rfl⟩ | ⟨hge, hlt⟩
  · have hl : (m : ℚ) / 1000000 < limit := by
      have := limit_big
      have : (2 : ℚ) ^ 33 < 2 ^ 40 := by norm_num
      linarith
    obtain ⟨d, hd, hc⟩ := double_close (m / 1000000) (-20) h0 (by norm_num) (by norm_num)
      (by norm_num at hlt ⊢; exact hlt)
    have h1 := (hr _ h0 hl).2 d hd
    obtain ⟨k, hk1, hk2⟩ := emit_lit hr h0 hl
    have h2 : |rn (m / 1000000) * 1000000 - (m : ℤ)| < 1 / 2 := by
      have h3 : |(m : ℚ) / 1000000 - rn (m / 1000000)| ≤ 2 ^ (-20 : ℤ) / 2 := le_trans h1 hc
      have e : rn ((m : ℚ) / 1000000) * 1000000 - ((m : ℤ) : ℚ) =
          -(((m : ℚ) / 1000000 - rn (m / 1000000)) * 1000000) := by push_cast; ring
      rw [e, abs_neg, abs_mul]
      norm_num at h3 ⊢
      linarith
    rw [roundEven_of h2] at hk2
    obtain rfl : k = m := by exact_mod_cast hk2
    exact ⟨k / 1000000, by rw [hk1]; exact fixed6_lit k, hl, rfl⟩
  · obtain ⟨k, hk1, hk2⟩ := emit_lit hr h0 hlt
    have hdb := (hr q h0 hlt).1
    have h33 : IsDouble ((2 : ℚ) ^ 33) := by
      have := isDouble_pow 33 (by norm_num) (by norm_num)
      exact_mod_cast this
    have hge' : 2 ^ 33 ≤ rn q := nearest_ge hr h0 hlt h33 hge
    have habs := roundEven_abs (rn q * 1000000)
    rw [← hk2] at habs
    have hc : |(k : ℚ) / 1000000 - rn q| ≤ 1 / 2000000 := by
      have e : (k : ℚ) / 1000000 - rn q = -(rn q * 1000000 - ((k : ℤ) : ℚ)) / 1000000 := by
        push_cast; ring
      rw [e, abs_div, abs_neg]
      norm_num at habs ⊢
      linarith
    have hmax := double_le_max (rn q) hdb
    have hk0 : (0 : ℚ) ≤ (k : ℚ) / 1000000 := by positivity
    have hkl : (k : ℚ) / 1000000 < limit := by
      have := (abs_le.mp hc).2
      have h970 : (1 : ℚ) ≤ 2 ^ 970 := one_le_pow₀ (by norm_num)
      unfold limit
      generalize ((2 : ℚ) ^ 53 - 1) * 2 ^ 971 = M at hmax ⊢
      generalize (2 : ℚ) ^ 970 = P at h970 ⊢
      linarith
    refine ⟨k / 1000000, by rw [hk1]; exact fixed6_lit k, hkl, ?_⟩
    by_contra hne
    obtain ⟨hd', hn'⟩ := hr _ hk0 hkl
    have h1 := le_trans (hn' _ hdb) hc
    -- two different doubles, both close
    have hdist : |rn (k / 1000000) - rn q| ≤ 1 / 1000000 := by
      have b1 := abs_le.mp h1
      have b2 := abs_le.mp hc
      rw [abs_le]
      constructor <;> linarith [b1.1, b1.2, b2.1, b2.2]
    obtain ⟨N, hN⟩ := double_big _ hdb hge'
    by_cases hb : 2 ^ 33 ≤ rn ((k : ℚ) / 1000000)
    · obtain ⟨M, hM⟩ := double_big _ hd' hb
      rw [hM, hN] at hdist hne
      have e : (M : ℚ) / 2 ^ 19 - N / 2 ^ 19 = ((M - N : ℤ) : ℚ) / 2 ^ 19 := by push_cast; ring
      rw [e, abs_div] at hdist
      have hMN : (1 : ℚ) ≤ |((M - N : ℤ) : ℚ)| := by
        have : M - N ≠ 0 := by
          intro hz
          exact hne (by rw [show M = N by omega])
        have := Int.one_le_abs this
        exact_mod_cast this
      norm_num at hdist
      norm_num at hMN
      linarith
    · push_neg at hb
      -- then rn q is 2^33 itself, and is printed exactly
      have h33le : (2 : ℚ) ^ 33 * 2 ^ 19 ≤ N := by
        rw [hN] at hge'
        rw [le_div_iff₀ (by norm_num)] at hge'
        exact hge'
      have hNe : N = 2 ^ 33 * 2 ^ 19 := by
        have h1 : (2 ^ 33 * 2 ^ 19 : ℤ) ≤ N := by exact_mod_cast h33le
        by_contra hcc
        have h2 : (2 ^ 33 * 2 ^ 19 + 1 : ℤ) ≤ N := by omega
        have h3 : (2 ^ 33 * 2 ^ 19 + 1 : ℚ) ≤ N := by exact_mod_cast h2
        have h4 := (abs_le.mp hdist).1
        rw [hN] at h4
        have h5 : (2 ^ 33 * 2 ^ 19 + 1 : ℚ) / 2 ^ 19 ≤ N / 2 ^ 19 := by
          apply div_le_div_of_nonneg_right h3; norm_num
        norm_num at h4 h5 hb
        linarith
      have hq33 : rn q = 2 ^ 33 := by rw [hN, hNe]; norm_num
      have hk33 : (k : ℤ) = 2 ^ 33 * 1000000 := by
        rw [hk2, hq33]
        exact roundEven_of (by norm_num)
      have hkq : (k : ℚ) / 1000000 = 2 ^ 33 := by
        have : (k : ℚ) = 2 ^ 33 * 1000000 := by exact_mod_cast hk33
        rw [this]; norm_num
      rw [hkq] at hn' hb
      have := hn' _ h33
      rw [sub_self, abs_zero] at this
      have := abs_nonpos_iff.mp this
      linarith

/-- C34: a literal between 2^-1074 and 2^-21 is emitted as 0. -/
theorem float_small_violated {rn : ℚ → ℚ} (hr : Nearest rn) {t : List Byte} {q : ℚ} (h : FloatLit t q)
    {rest : List Byte} (he : FEnds rest) (h1 : 2 ^ (-1074 : ℤ) ≤ q) (h2 : q ≤ 2 ^ (-21 : ℤ)) :
    emitFloat (parseFloat rn (t ++ rest)) = [48, 46, 48, 48, 48, 48, 48, 48] ∧ 0 < rn q := by
  have h0 := lit_nonneg h
  have hl : q < limit := by
    have := limit_big
    have : (2 : ℚ) ^ (-21 : ℤ) < 2 ^ 40 := by norm_num
    linarith
  unfold parseFloat
  rw [scan_lit h he]
  obtain ⟨k, hk1, hk2⟩ := emit_lit hr h0 hl
  have hlo := nearest_ge hr h0 hl (isDouble_pow (-1074) (by norm_num) (by norm_num)) h1
  have hhi := nearest_le hr h0 hl (isDouble_pow (-21) (by norm_num) (by norm_num)) h2
  have hpos : (0 : ℚ) < 2 ^ (-1074 : ℤ) := by positivity
  have hz : roundEven (rn q * 1000000) = 0 := by
    apply roundEven_of
    rw [Int.cast_zero, sub_zero, abs_of_nonneg (by linarith [mul_nonneg (le_trans hpos.le hlo) (by norm_num : (0:ℚ) ≤ 1000000)])]
    norm_num at hhi
    linarith
  rw [hz] at hk2
  obtain rfl : k = 0 := by exact_mod_cast hk2
  exact ⟨by rw [hk1]; decide, by linarith⟩

/-- C34: every literal with seven to nine decimals that matter, below 2^20, changes its value. -/
theorem float_decimals_violated {rn : ℚ → ℚ} (hr : Nearest rn) {t : List Byte} {q : ℚ} (h : FloatLit t q)
    {rest : List Byte} (he : FEnds rest) (hq : q < 2 ^ 20) (m : ℕ) (hm : q = m / 1000000000)
    (hn : ¬ 1000 ∣ m) (q' : ℚ) (h' : FloatLit (emitFloat (parseFloat rn (t ++ rest))) q') :
    rn q' ≠ rn q := by
  have h0 := lit_nonneg h
  have hl : q < limit := by
    have := limit_big
    have : (2 : ℚ) ^ 20 < 2 ^ 40 := by norm_num
    linarith
  unfold parseFloat at h'
  rw [scan_lit h he] at h'
  obtain ⟨k, hk1, hk2⟩ := emit_lit hr h0 hl
  rw [hk1] at h'
  obtain rfl := lit_unique h' (fixed6_lit k)
  have h20 : IsDouble ((2 : ℚ) ^ 20) := by
    have := isDouble_pow 20 (by norm_num) (by norm_num)
    exact_mod_cast this
  have hq20 : rn q ≤ 2 ^ 20 := nearest_le hr h0 hl h20 hq.le
  have habs := abs_le.mp (roundEven_abs (rn q * 1000000))
  rw [← hk2] at habs
  push_cast at habs
  have hk20 : (k : ℚ) / 1000000 < 2 ^ 21 := by norm_num at hq20 ⊢; linarith [habs.1]
  have hkl : (k : ℚ) / 1000000 < limit := by
    have := limit_big
    have : (2 : ℚ) ^ 21 < 2 ^ 40 := by norm_num
    linarith
  have hk0 : (0 : ℚ) ≤ (k : ℚ) / 1000000 := by positivity
  obtain ⟨d1, hd1, hc1⟩ := double_close q (-33) h0 (by norm_num) (by norm_num) (by norm_num at hq ⊢; exact hq)
  obtain ⟨d2, hd2, hc2⟩ := double_close ((k : ℚ) / 1000000) (-32) hk0 (by norm_num) (by norm_num)
    (by norm_num at hk20 ⊢; exact hk20)
  have a1 := abs_le.mp (le_trans ((hr q h0 hl).2 d1 hd1) hc1)
  have a2 := abs_le.mp (le_trans ((hr _ hk0 hkl).2 d2 hd2) hc2)
  intro heq
  rw [heq] at a2
  have hne : (m : ℤ) ≠ 1000 * k := by
    intro hmk
    exact hn ⟨k, by exact_mod_cast hmk⟩
  have e : q - (k : ℚ) / 1000000 = (((m : ℤ) - 1000 * k : ℤ) : ℚ) / 1000000000 := by
    rw [hm]; push_cast; ring
  norm_num at a1 a2
  rcases lt_or_gt_of_ne hne with hlt | hlt
  · have h5 : ((((m : ℤ) - 1000 * k : ℤ) : ℚ)) ≤ -1 := by
      have : (m : ℤ) - 1000 * k ≤ -1 := by omega
      exact_mod_cast this
    have : q - (k : ℚ) / 1000000 ≤ -1 / 1000000000 := by
      rw [e]; apply div_le_div_of_nonneg_right h5; norm_num
    linarith [a1.1, a1.2, a2.1, a2.2]
  · have h5 : (1 : ℚ) ≤ ((((m : ℤ) - 1000 * k : ℤ) : ℚ)) := by
      have : (1 : ℤ) ≤ (m : ℤ) - 1000 * k := by omega
      exact_mod_cast this
    have : 1 / 1000000000 ≤ q - (k : ℚ) / 1000000 := by
      rw [e]; apply div_le_div_of_nonneg_right h5; norm_num
    linarith [a1.1, a1.2, a2.1, a2.2]

/-- C34: a literal beyond the largest double is emitted as `inf`, which is no number in C. -/
theorem float_inf_violated {rn : ℚ → ℚ} {t : List Byte} {q : ℚ} (h : FloatLit t q)
    {rest : List Byte} (he : FEnds rest) (hq : limit ≤ q) :
    emitFloat (parseFloat rn (t ++ rest)) = [105, 110, 102] ∧
      ∀ q', ¬ FloatLit (emitFloat (parseFloat rn (t ++ rest))) q' := by
  unfold parseFloat
  rw [scan_lit h he]
  have e : emitFloat (toDouble rn q) = [105, 110, 102] := by
    simp [toDouble, not_lt.mpr hq, emitFloat]
  refine ⟨e, fun q' h' => ?_⟩
  rw [e] at h'
  obtain ⟨ip, fr, fp, ex, e, n, h1, hne, _, _, hn, _, _⟩ := h'
  cases ip with
  | nil => exact hne rfl
  | cons c ip =>
    simp only [List.cons_append, List.cons.injEq] at h1
    have := hn.val.1 c (by simp)
    rw [← h1.1] at this
    exact absurd this (by decide)

/-- C34: digits behind an underscore in the fraction are dropped without a word: `1.000_5` is one token
and is 1. -/
theorem float_underscore_violated (ip fp w rest : List Byte) (n : Nat) (hip : ip ≠ [])
    (hn : Numeral 10 (ip ++ fp) n) (hw : ∀ c ∈ w, identChar c = true)
    (hr : ∀ c r, rest = c :: r → identChar c = false) :
    scanFloat (ip ++ (46 :: fp ++ 95 :: (w ++ rest))) = (n : ℚ) * 10 ^ (-(fp.length : ℤ)) ∧
      Lexer.number (ip ++ (46 :: fp ++ 95 :: (w ++ rest))) = .ok (.float, (ip ++ (46 :: fp ++ 95 :: w)).length) := by
  obtain ⟨hd1, hd2⟩ := digits_of hn
  have h1 := takeWhile_stop (p := isDigit) (x := ip) (y := 46 :: (fp ++ 95 :: (w ++ rest))) hd1
    (fun c r h => by simp only [List.cons.injEq] at h; rw [← h.1]; decide)
  have h2 := takeWhile_stop (p := isDigit) (x := fp) (y := 95 :: (w ++ rest)) hd2
    (fun c r h => by simp only [List.cons.injEq] at h; rw [← h.1]; decide)
  constructor
  · unfold scanFloat
    simp only [List.cons_append, List.append_assoc, h1.1, h1.2, scanFrac, if_true, h2.1, h2.2]
    rw [hn.val.2]
    have : scanExp (95 :: (w ++ rest)) = 0 := by simp [scanExp]
    rw [this, zero_sub]
  · obtain ⟨a, ha⟩ : ∃ a, Lexer.rd (ip ++ (46 :: fp ++ 95 :: (w ++ rest))) 0 = .ok a := by
      cases ip with
      | nil => exact absurd rfl hip
      | cons d ip => exact ⟨d, by simp [Lexer.rd]⟩
    obtain ⟨b, hb, hbne⟩ : ∃ b, Lexer.rd (ip ++ (46 :: fp ++ 95 :: (w ++ rest))) 1 = .ok b ∧
        ¬ (b = 120 ∨ b = 88) ∧ ¬ (b = 98 ∨ b = 66) ∧ ¬ (b = 111 ∨ b = 79) := by
      cases ip with
      | nil => exact absurd rfl hip
      | cons d ip =>
        cases ip with
        | nil => exact ⟨46, rd_append' [d] _ 1 rfl, by decide⟩
        | cons c ip =>
          refine ⟨c, by simp [Lexer.rd], ?_⟩
          have hc := hd1 c (by simp)
          exact byteRange (fun c => isDigit c = true →
            ¬ (c = 120 ∨ c = 88) ∧ ¬ (c = 98 ∨ c = 66) ∧ ¬ (c = 111 ∨ c = 79)) (by decide +kernel) c hc
    have hsp : Lexer.span isDigit (ip ++ (46 :: fp ++ 95 :: (w ++ rest))) = ip.length :=
      span_stop hd1 (fun c r h => by simp only [List.cons_append, List.cons.injEq] at h; rw [← h.1]; decide)
    have hfrac : Lexer.fraction (ip ++ (46 :: fp ++ 95 :: (w ++ rest))) ip.length =
        .ok (true, (ip ++ 46 :: fp).length) := by
      have h1 : Lexer.rd (ip ++ (46 :: fp ++ 95 :: (w ++ rest))) (ip.length + 1) =
          .ok ((fp ++ 95 :: (w ++ rest)).headD 0) := by
        have := rd_append' (ip ++ [46]) (fp ++ 95 :: (w ++ rest)) (ip.length + 1) (by simp)
        simpa using this
      have h2 : (fp ++ 95 :: (w ++ rest)).headD 0 ≠ 46 := by
        cases fp with
        | nil => simp
        | cons d fp =>
          have := hd2 d (by simp)
          exact byteRange (fun c => isDigit c = true → c ≠ 46) (by decide +kernel) d this
      have h3 : (ip ++ (46 :: fp ++ 95 :: (w ++ rest))).drop (ip.length + 1) = fp ++ 95 :: (w ++ rest) := by
        have := List.drop_left (l₁ := ip ++ [46]) (l₂ := fp ++ 95 :: (w ++ rest))
        simpa using this
      have h4 := span_stop (p := isDigit) (x := fp) (y := 95 :: (w ++ rest)) hd2
        (fun c r h => by simp only [List.cons.injEq] at h; rw [← h.1]; decide)
      unfold Lexer.fraction
      rw [rd_append, h1]
      simp only [List.cons_append, List.headD_cons, if_true, Run.ok_bind, h2, ne_eq, not_false_eq_true]
      rw [← List.cons_append, h3, h4]
      simp
      omega
    have e1 : ip ++ (46 :: fp ++ 95 :: (w ++ rest)) = (ip ++ 46 :: fp) ++ 95 :: (w ++ rest) := by simp
    have hexp : Lexer.exponent (ip ++ (46 :: fp ++ 95 :: (w ++ rest))) (true, (ip ++ 46 :: fp).length) =
        .ok (true, (ip ++ 46 :: fp).length) := by
      rw [e1]
      unfold Lexer.exponent
      simp only [rd_append, Run.ok_bind, List.headD_cons]
      rw [if_neg (by decide)]
      rfl
    have hsuf : Lexer.suffix (ip ++ (46 :: fp ++ 95 :: (w ++ rest))) (ip ++ 46 :: fp).length =
        .ok ((ip ++ (46 :: fp ++ 95 :: w)).length) := by
      rw [e1]
      unfold Lexer.suffix
      simp only [rd_append, Run.ok_bind, List.headD_cons, List.drop_left]
      have := span_stop (p := identChar) (x := 95 :: w) (y := rest)
        (by intro c hc; rcases List.mem_cons.mp hc with rfl | hc; decide; exact hw c hc) hr
      rw [List.cons_append] at this
      rw [if_pos (by decide), this]
      simp
      omega
    unfold Lexer.number
    simp only [ha, hb, Run.ok_bind, hbne.1, hbne.2.1, hbne.2.2, and_false, if_false, hsp, hfrac, hexp, hsuf]
    rfl

/-! ## Cases -/

section Cases

/-- `2.5` -/
example : FloatLit [50, 46, 53] (25 / 10) := by
  refine ⟨[50], [46, 53], [53], [], 0, 25, rfl, by simp, .some _, .none, ?_, by norm_num, .inl (by simp)⟩
  have := Numeral.snoc (b := 10) (.snoc (d := 2) (c := 50) .nil (by omega) (by decide)) (d := 5) (c := 53)
    (by omega) (by decide)
  simpa using this

/-- `1e-7`, below 2^-21 -/
example : FloatLit [49, 101, 45, 55] (1 / 10000000) ∧ (1 / 10000000 : ℚ) ≤ 2 ^ (-21 : ℤ) := by
  refine ⟨⟨[49], [], [], [101, 45, 55], -7, 1, rfl, by simp, .none, ?_, ?_, by norm_num, .inr (by simp)⟩,
    by norm_num⟩
  · have := Numeral.snoc (b := 10) .nil (d := 7) (c := 55) (by omega) (by decide)
    exact .minus (.inl rfl) (by simpa using this) (by simp)
  · have := Numeral.snoc (b := 10) .nil (d := 1) (c := 49) (by omega) (by decide)
    simpa using this

/-- `0.1234567` has seven decimals -/
example : ¬ (1000 : ℕ) ∣ 123456700 := by decide

/-- rounding to the nearest double exists -/
example : ∃ rn, Nearest rn := nearest_exists

end Cases

end Verif.Literals
