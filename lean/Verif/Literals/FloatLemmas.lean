import Verif.Literals.FloatModel

/-!
# Floating literals: lemmas about doubles and texts
-/

namespace Verif.Literals

open Spec
open Verif.Lexer (isDigit isXdigit identChar identStart)
open Verif.Str (Byte)

/-! ## Doubles -/

theorem isDouble_pow (e : ℤ) (h1 : -1074 ≤ e) (h2 : e ≤ 971) : IsDouble (2 ^ e) :=
  ⟨1, e, by norm_num, h1, h2, by simp⟩

theorem isDouble_zero : IsDouble 0 := ⟨0, 0, by norm_num, by norm_num, by norm_num, by simp⟩

/-- below `2 ^ (e + 53)` there is a double within `2 ^ e / 2` -/
theorem double_close (x : ℚ) (e : ℤ) (h0 : 0 ≤ x) (h1 : -1074 ≤ e) (h2 : e ≤ 970)
    (hx : x < 2 ^ (e + 53)) : ∃ d, IsDouble d ∧ |x - d| ≤ 2 ^ e / 2 := by
  have hp : (0 : ℚ) < 2 ^ e := by positivity
  have hr := abs_sub_round (x / 2 ^ e)
  have hb : |x - (round (x / 2 ^ e) : ℚ) * 2 ^ e| ≤ 2 ^ e / 2 := by
    have : x - (round (x / 2 ^ e) : ℚ) * 2 ^ e = (x / 2 ^ e - (round (x / 2 ^ e) : ℚ)) * 2 ^ e := by
      field_simp
    rw [this, abs_mul, abs_of_pos hp]
    calc _ ≤ 1 / 2 * (2 : ℚ) ^ e := mul_le_mul_of_nonneg_right hr hp.le
      _ = _ := by ring
  have hlt : x / 2 ^ e < 2 ^ 53 := by
    rw [div_lt_iff₀ hp]
    calc x < 2 ^ (e + 53) := hx
      _ = 2 ^ 53 * 2 ^ e := by rw [zpow_add₀ (by norm_num)]; norm_num; ring
  have hge : 0 ≤ x / 2 ^ e := by positivity
  have hN0 : 0 ≤ round (x / 2 ^ e) := by
    rw [round_eq]
    exact Int.floor_nonneg.mpr (by linarith)
  have hN1 : round (x / 2 ^ e) ≤ 2 ^ 53 := by
    rw [round_eq]
    have : ⌊x / 2 ^ e + 1 / 2⌋ < 2 ^ 53 + 1 := by
      rw [Int.floor_lt]
      push_cast
      linarith
    omega
  rcases hN1.lt_or_eq with h | h
  · exact ⟨_, ⟨round (x / 2 ^ e), e, by rw [abs_of_nonneg hN0]; exact h, h1, by omega, rfl⟩, hb⟩
  · refine ⟨_, ⟨2 ^ 52, e + 1, by norm_num, by omega, by omega, rfl⟩, ?_⟩
    rw [h] at hb
    have : ((2 ^ 53 : ℤ) : ℚ) * 2 ^ e = ((2 ^ 52 : ℤ) : ℚ) * 2 ^ (e + 1) := by
      rw [zpow_add₀ (by norm_num)]; push_cast; ring
    rwa [this] at hb

/-- from `2 ^ 33` on doubles are multiples of `2 ^ -19` -/
theorem double_big (d : ℚ) (hd : IsDouble d) (h : 2 ^ 33 ≤ d) : ∃ N : ℤ, d = N / 2 ^ 19 := by
  obtain ⟨m, e, hm, _, _, rfl⟩ := hd
  have he : -19 ≤ e := by
    by_contra hc
    have h1 : (2 : ℚ) ^ e ≤ 2 ^ (-20 : ℤ) := zpow_le_zpow_right₀ (by norm_num) (by omega)
    have hp : (0 : ℚ) < 2 ^ e := by positivity
    have hm1 : (m : ℚ) < 2 ^ 53 := by
      have : m < 2 ^ 53 := (abs_lt.mp hm).2
      exact_mod_cast this
    have : (m : ℚ) * 2 ^ e < 2 ^ 33 := by
      calc (m : ℚ) * 2 ^ e < 2 ^ 53 * 2 ^ e := mul_lt_mul_of_pos_right hm1 hp
        _ ≤ 2 ^ 53 * 2 ^ (-20 : ℤ) := mul_le_mul_of_nonneg_left h1 (by norm_num)
        _ = 2 ^ 33 := by norm_num
    linarith
  obtain ⟨k, hk⟩ := Int.eq_ofNat_of_zero_le (show 0 ≤ e + 19 by omega)
  refine ⟨m * 2 ^ k, ?_⟩
  have : e = (k : ℤ) - 19 := by omega
  rw [this, zpow_sub₀ (by norm_num), zpow_natCast]
  push_cast
  norm_num
  ring

theorem double_le_max (d : ℚ) (hd : IsDouble d) : d ≤ (2 ^ 53 - 1) * 2 ^ 971 := by
  obtain ⟨m, e, hm, _, he, rfl⟩ := hd
  have hm1 : (m : ℚ) ≤ 2 ^ 53 - 1 := by
    have : m ≤ 2 ^ 53 - 1 := by have := (abs_lt.mp hm).2; omega
    exact_mod_cast this
  have hp : (0 : ℚ) < 2 ^ e := by positivity
  have h2 : (2 : ℚ) ^ e ≤ 2 ^ (971 : ℤ) := zpow_le_zpow_right₀ (by norm_num) he
  calc (m : ℚ) * 2 ^ e ≤ (2 ^ 53 - 1) * 2 ^ e := mul_le_mul_of_nonneg_right hm1 hp.le
    _ ≤ (2 ^ 53 - 1) * 2 ^ (971 : ℤ) := mul_le_mul_of_nonneg_left h2 (by norm_num)
    _ = (2 ^ 53 - 1) * 2 ^ 971 := by rw [show (971 : ℤ) = ((971 : ℕ) : ℤ) from rfl, zpow_natCast]

theorem isDouble_finite : Set.Finite {d | IsDouble d} := by
  have : {d | IsDouble d} ⊆
      (fun p : ℤ × ℤ => (p.1 : ℚ) * 2 ^ p.2) '' (Set.Icc (-2 ^ 53) (2 ^ 53) ×ˢ Set.Icc (-1074) 971) := by
    rintro d ⟨m, e, hm, h1, h2, rfl⟩
    have := abs_lt.mp hm
    exact ⟨(m, e), ⟨⟨by simp; omega, by simp; omega⟩, h1, h2⟩, rfl⟩
  exact (((Set.finite_Icc _ _).prod (Set.finite_Icc _ _)).image _).subset this

/-- there is a rounding function -/
theorem nearest_exists : ∃ rn, Nearest rn := by
  have : ∀ x : ℚ, ∃ d, IsDouble d ∧ ∀ d', IsDouble d' → |x - d| ≤ |x - d'| := by
    intro x
    obtain ⟨d, hd, hm⟩ := Set.exists_min_image {d | IsDouble d} (fun d => |x - d|) isDouble_finite
      ⟨0, isDouble_zero⟩
    exact ⟨d, hd, hm⟩
  choose rn h using this
  exact ⟨rn, fun x _ _ => h x⟩

/-- a nearest double does not cross another double -/
theorem nearest_ge {rn : ℚ → ℚ} (hr : Nearest rn) {x d : ℚ} (hx0 : 0 ≤ x) (hx : x < limit)
    (hd : IsDouble d) (h : d ≤ x) : d ≤ rn x := by
  by_contra hc
  have h1 := (hr x hx0 hx).2 d hd
  rw [abs_of_nonneg (by linarith), abs_of_nonneg (by linarith)] at h1
  linarith

theorem nearest_le {rn : ℚ → ℚ} (hr : Nearest rn) {x d : ℚ} (hx0 : 0 ≤ x) (hx : x < limit)
    (hd : IsDouble d) (h : x ≤ d) : rn x ≤ d := by
  by_contra hc
  have h1 := (hr x hx0 hx).2 d hd
  rw [abs_of_nonpos (by linarith), abs_of_nonpos (by linarith)] at h1
  linarith

theorem nearest_nonneg {rn : ℚ → ℚ} (hr : Nearest rn) {x : ℚ} (hx0 : 0 ≤ x) (hx : x < limit) :
    0 ≤ rn x := nearest_ge hr hx0 hx isDouble_zero hx0

theorem roundEven_abs (x : ℚ) : |x - roundEven x| ≤ 1 / 2 := by
  have h1 := Int.floor_le x
  have h2 := Int.lt_floor_add_one x
  unfold roundEven
  simp only
  rw [abs_le]
  split
  · constructor <;> linarith
  · split
    · push_cast; constructor <;> linarith
    · split
      · constructor <;> linarith
      · push_cast; constructor <;> linarith

theorem roundEven_of {x : ℚ} {k : ℤ} (h : |x - k| < 1 / 2) : roundEven x = k := by
  have h1 := roundEven_abs x
  have h2 : |((roundEven x : ℤ) : ℚ) - k| < 1 := by
    have : ((roundEven x : ℤ) : ℚ) - k = (x - k) - (x - roundEven x) := by ring
    rw [this]
    calc _ ≤ |x - k| + |x - roundEven x| := abs_sub _ _
      _ < 1 := by linarith
  have h3 : |roundEven x - k| < 1 := by
    have : ((|roundEven x - k| : ℤ) : ℚ) < 1 := by push_cast; exact h2
    exact_mod_cast this
  have := abs_lt.mp h3
  omega

theorem roundEven_nonneg {x : ℚ} (h : 0 ≤ x) : 0 ≤ roundEven x := by
  have h1 := abs_le.mp (roundEven_abs x)
  have h2 : (-1 : ℚ) < (roundEven x : ℤ) := by linarith [h1.2]
  have : (-1 : ℤ) < roundEven x := by exact_mod_cast h2
  omega

/-! ## Texts -/

theorem pad_spec (w : Nat) : ∀ n, n < 10 ^ w → (pad w n).length = w ∧
    ∀ xs m, Numeral 10 xs m → Numeral 10 (xs ++ pad w n) (10 ^ w * m + n) := by
  induction w with
  | zero =>
    intro n h
    refine ⟨rfl, fun xs m hm => ?_⟩
    obtain rfl : n = 0 := by simpa using h
    simpa [pad] using hm
  | succ w ih =>
    intro n h
    have h10 : n / 10 < 10 ^ w := by rw [Nat.div_lt_iff_lt_mul (by norm_num)]; rwa [← pow_succ]
    obtain ⟨h1, h2⟩ := ih (n / 10) h10
    refine ⟨by simp [pad, h1], fun xs m hm => ?_⟩
    have h3 := Numeral.snoc (h2 xs m hm) (d := n % 10) (by omega) (.inl ⟨by omega, rfl⟩)
    have : 10 * (10 ^ w * m + n / 10) + n % 10 = 10 ^ (w + 1) * m + n := by
      rw [pow_succ]
      have := Nat.div_add_mod n 10
      nlinarith
    rw [this] at h3
    simpa [pad] using h3

theorem fixed6_lit (k : Nat) : FloatLit (fixed6 k) ((k : ℚ) / 1000000) := by
  obtain ⟨h1, _⟩ := decF_spec (k / 1000000 + 1) (k / 1000000) (by omega)
  have hne : dec (k / 1000000) ≠ [] := by
    unfold dec decF
    split <;> simp
  obtain ⟨h2, h3⟩ := pad_spec 6 (k % 1000000) (by norm_num; omega)
  have h4 := h3 _ _ h1
  have : 10 ^ 6 * (k / 1000000) + k % 1000000 = k := by norm_num; omega
  rw [this] at h4
  refine ⟨dec (k / 1000000), 46 :: pad 6 (k % 1000000), pad 6 (k % 1000000), [], 0, k, by simp [fixed6],
    hne, .some _, .none, h4, ?_, .inl (by simp)⟩
  rw [h2]
  rw [show (0 - ((6 : ℕ) : ℤ)) = -6 from rfl, zpow_neg]
  norm_num
  ring

theorem digits_of {x y : List Byte} {n : Nat} (h : Numeral 10 (x ++ y) n) :
    (∀ c ∈ x, isDigit c = true) ∧ (∀ c ∈ y, isDigit c = true) := by
  have := h.val.1
  constructor <;> intro c hc <;> rw [isDigit_val] <;> simpa using this c (by simp [hc])

theorem notDigit_of_notIdent {c : Byte} (h : identChar c = false) : isDigit c = false :=
  byteRange (fun c => identChar c = false → isDigit c = false) (by decide +kernel) c h

theorem fends_stop {rest : List Byte} (h : FEnds rest) : ∀ c r, rest = c :: r → isDigit c = false :=
  fun c r hc => notDigit_of_notIdent (h c r hc).1

theorem head_not_exp {rest : List Byte} (h : FEnds rest) :
    ∀ c r, rest = c :: r → ¬ (c = 101 ∨ c = 69) := by
  intro c r hc
  have := (h c r hc).1
  exact byteRange (fun c => identChar c = false → ¬ (c = 101 ∨ c = 69)) (by decide +kernel) c this

theorem expo_scan {ex : List Byte} {e : Int} (h : Expo ex e) {rest : List Byte} (hr : FEnds rest) :
    scanExp (ex ++ rest) = e := by
  have key : ∀ {ds : List Byte} {n : Nat}, Numeral 10 ds n →
      valOf 10 ((ds ++ rest).takeWhile isDigit) = n := by
    intro ds n hn
    have h1 := hn.val
    rw [(takeWhile_stop (fun c hc => by rw [isDigit_val]; simpa using h1.1 c hc) (fends_stop hr)).1]
    exact h1.2
  cases h with
  | none =>
    cases rest with
    | nil => rfl
    | cons c r =>
      have := head_not_exp hr c r rfl
      simp [scanExp, this]
  | pos hc hn hne =>
    rename_i c ds n
    have h1 := key hn
    cases ds with
    | nil => exact absurd rfl hne
    | cons d ds =>
      have hd : isDigit d = true := by rw [isDigit_val]; simpa using hn.val.1 d (by simp)
      have h43 : d ≠ 43 := by rintro rfl; exact absurd hd (by decide)
      have h45 : d ≠ 45 := by rintro rfl; exact absurd hd (by decide)
      simp only [List.cons_append, scanExp, if_pos hc, if_neg h43, if_neg h45]
      rw [List.cons_append] at h1
      rw [h1]
  | plus hc hn hne =>
    simp only [List.cons_append, scanExp, if_pos hc, if_true]
    rw [key hn]
  | minus hc hn hne =>
    have : (45 : Byte) ≠ 43 := by decide
    simp only [List.cons_append, scanExp, if_pos hc, if_neg this, if_true]
    rw [key hn]

theorem expo_head {ex : List Byte} {e : Int} (h : Expo ex e) {rest : List Byte} (hr : FEnds rest) :
    ∀ c r, ex ++ rest = c :: r → isDigit c = false ∧ c ≠ 46 := by
  intro c r hc
  have hE : ∀ c : Byte, (c = 101 ∨ c = 69) → isDigit c = false ∧ c ≠ 46 := by
    rintro c (rfl | rfl) <;> decide
  cases h with
  | none => exact ⟨fends_stop hr c r hc, (hr c r hc).2⟩
  | pos h _ _ => simp only [List.cons_append, List.cons.injEq] at hc; rw [← hc.1]; exact hE _ h
  | plus h _ _ => simp only [List.cons_append, List.cons.injEq] at hc; rw [← hc.1]; exact hE _ h
  | minus h _ _ => simp only [List.cons_append, List.cons.injEq] at hc; rw [← hc.1]; exact hE _ h

/-- what `atof` reads from a literal followed by something else is the number denoted -/
theorem scan_lit {t : List Byte} {q : ℚ} (h : FloatLit t q) {rest : List Byte} (hr : FEnds rest) :
    scanFloat (t ++ rest) = q := by
  obtain ⟨ip, fr, fp, ex, e, n, rfl, hne, hfr, hex, hn, rfl, _⟩ := h
  obtain ⟨hd1, hd2⟩ := digits_of hn
  have hv := hn.val.2
  have hsc := expo_scan hex hr
  have hhd := expo_head hex hr
  cases hfr with
  | none =>
    have h1 := takeWhile_stop (p := isDigit) (x := ip) (y := ex ++ rest) hd1 (fun c r h => (hhd c r h).1)
    have h2 : scanFrac (ex ++ rest) = ([], ex ++ rest) := by
      unfold scanFrac
      split
      · rename_i h; rw [h]
      · rename_i c r h
        rw [if_neg (hhd c r h).2, h]
    unfold scanFloat
    simp only [List.nil_append, List.append_assoc, h1.1, h1.2, h2, hsc]
    rw [hv]
  | some =>
    have h1 := takeWhile_stop (p := isDigit) (x := ip) (y := 46 :: (fp ++ (ex ++ rest))) hd1
      (fun c r h => by simp only [List.cons.injEq] at h; rw [← h.1]; decide)
    have h2 := takeWhile_stop (p := isDigit) (x := fp) (y := ex ++ rest) hd2 (fun c r h => (hhd c r h).1)
    unfold scanFloat
    simp only [List.cons_append, List.append_assoc, h1.1, h1.2, scanFrac, if_true, h2.1, h2.2, hsc]
    rw [hv]

theorem lit_unique {t : List Byte} {q q' : ℚ} (h : FloatLit t q) (h' : FloatLit t q') : q = q' := by
  have hE : FEnds [] := fun c r h => by simp at h
  rw [← scan_lit h hE, ← scan_lit h' hE]

theorem lit_nonneg {t : List Byte} {q : ℚ} (h : FloatLit t q) : 0 ≤ q := by
  obtain ⟨ip, fr, fp, ex, e, n, _, _, _, _, _, rfl, _⟩ := h
  positivity

end Verif.Literals
