import Verif.Path.Model
import Verif.Str.Lemmas

/-! # Properties of paths (C20) -/

namespace Verif.Path
open Verif Verif.Str

theorem scanBack_eq {m : Mem Byte} {t : List Byte} (h : CText m t) (p : Byte → Bool) :
    ∀ n, n ≤ t.length → scanBack p m n = .ok (((t.take n).reverse.dropWhile p).length) := by
  intro n
  induction n with
  | zero => intro _; simp [scanBack]
  | succ n ih =>
      intro hn
      have hi : n < t.length := by omega
      rw [scanBack, h.load hi, Res.ok_bind, List.take_succ_eq_append_getElem hi,
        List.reverse_append]
      simp only [List.reverse_cons, List.reverse_nil, List.nil_append, List.cons_append,
        List.dropWhile_cons]
      split
      · exact ih (by omega)
      · simp; omega

/-- separators -/
def isSep (c : Byte) : Prop := sep c = true

theorem sep_iff (c : Byte) : sep c = true ↔ c = 47 ∨ c = 92 := by simp [sep]

/-- `join` puts exactly one separator between a directory and a component -/
theorem join_text {s : Str} {d c : List Byte} {m : Mem Byte} (hs : Text s d) (hm : CText m c) :
    ∃ p, join s m = .ok p ∧ Text p (Spec.joined d c) := by
  obtain ⟨n0, e0, t0⟩ := hs.ctext.new
  obtain ⟨o, eo, to⟩ := hm.new
  unfold join
  simp only [e0, Res.ok_bind, hs.length]
  by_cases hd : d = []
  · subst hd
    obtain ⟨w, ew, tw⟩ := t0.append to
    exact ⟨w, by simp [eo, ew], by simpa [Spec.joined] using tw⟩
  · have hpos : 0 < d.length := List.length_pos_iff.2 hd
    rw [if_pos hpos, hs.get (show d.length - 1 < d.length by omega), Res.ok_bind]
    have hlast : d.getLast? = some d[d.length - 1] := by
      rw [List.getLast?_eq_getElem?, List.getElem?_eq_getElem (by omega)]
    by_cases hl : sep d[d.length - 1] = true
    · have : ¬ (d[d.length - 1] ≠ 47 ∧ d[d.length - 1] ≠ 92) := by
        rcases (sep_iff _).1 hl with h | h <;> simp [h]
      rw [if_neg this]
      obtain ⟨w, ew, tw⟩ := t0.append to
      refine ⟨w, by simp [eo, ew], ?_⟩
      simpa [Spec.joined, hd, hlast, hl] using tw
    · have : d[d.length - 1] ≠ 47 ∧ d[d.length - 1] ≠ 92 := by
        rw [sep_iff, not_or] at hl; exact hl
      rw [if_pos this]
      obtain ⟨sp, es, ts⟩ := (cmem_ctext [47]).new
      obtain ⟨a, ea, ta⟩ := t0.append ts
      obtain ⟨w, ew, tw⟩ := ta.append to
      refine ⟨w, by simp [es, ea, eo, ew], ?_⟩
      simp only [Bool.not_eq_true] at hl
      simpa [Spec.joined, hd, hlast, hl, Str.Spec.lit] using tw

/-- shape of a joined path: a prefix that is empty or ends in a separator and strips to the
directory, then the component -/
theorem joined_split (d c : List Byte) : ∃ pre, Spec.joined d c = pre ++ c ∧
    (pre = [] ↔ d = []) ∧ Spec.strip pre = Spec.strip d ∧
    (pre ≠ [] → ∃ q x, pre = q ++ [x] ∧ sep x = true) := by
  unfold Spec.joined
  by_cases hd : d = []
  · exact ⟨[], by simp [hd], by simp [hd], by simp [hd], by simp⟩
  · obtain ⟨q, x, hq⟩ : ∃ q x, d = q ++ [x] := ⟨d.dropLast, d.getLast hd,
      (List.dropLast_concat_getLast hd).symm⟩
    by_cases hs : sep x = true
    · refine ⟨d, ?_, Iff.rfl, rfl, fun _ => ⟨q, x, hq, hs⟩⟩
      rw [if_neg hd, if_pos (by simp [hq, hs])]
    · refine ⟨d ++ [47], ?_, by simp [hd], ?_, fun _ => ⟨d, 47, rfl, rfl⟩⟩
      · rw [if_neg hd, if_neg (by simp [hq, hs])]
      · simp [Spec.strip, show sep 47 = true from rfl]

theorem dropWhile_app_all {α : Type} (p : α → Bool) (a b : List α) (h : ∀ x ∈ a, p x = true) :
    (a ++ b).dropWhile p = b.dropWhile p := by
  induction a with
  | nil => rfl
  | cons x a ih =>
      rw [List.cons_append, List.dropWhile_cons, if_pos (h x (by simp)),
        ih (fun y hy => h y (by simp [hy]))]

theorem dropWhile_head {α : Type} (p : α → Bool) (a b : List α) (hne : a ≠ [])
    (h : ∀ x ∈ a, p x = false) : (a ++ b).dropWhile p = a ++ b := by
  cases a with
  | nil => exact absurd rfl hne
  | cons x a => rw [List.cons_append, List.dropWhile_cons, h x (by simp)]; simp

/-- C20: after joining a directory and a component without separators, the file name is the
component -/
theorem join_file_name {s : Str} {d c : List Byte} {m : Mem Byte} (hs : Text s d) (hm : CText m c)
    (hc : c ≠ []) (hsep : ∀ x ∈ c, x ≠ 47 ∧ x ≠ 92) (hlen : (Spec.joined d c).length < 2 ^ 63) :
    ∃ p w, join s m = .ok p ∧ fileName p = .ok (some w) ∧ Text w c := by
  have hsep : ∀ x ∈ c, sep x = false := fun x hx => by
    have := hsep x hx; simp [sep, this.1, this.2]
  obtain ⟨p, hp, tp⟩ := join_text hs hm
  obtain ⟨pre, hj, _, _, hpre⟩ := joined_split d c
  rw [hj] at tp hlen
  have hcpos : 0 < c.length := List.length_pos_iff.2 hc
  have e1 : scanBack sep p.buf (pre ++ c).length = .ok (pre ++ c).length := by
    rw [scanBack_eq tp.ctext _ _ (Nat.le_refl _), List.take_length, List.reverse_append,
      dropWhile_head _ _ _ (by simpa using hc) (by simpa using hsep)]
    simp; omega
  have e2 : scanBack (fun c => !sep c) p.buf (pre ++ c).length = .ok pre.length := by
    rw [scanBack_eq tp.ctext _ _ (Nat.le_refl _), List.take_length, List.reverse_append,
      dropWhile_app_all _ _ _ (by simpa using hsep)]
    by_cases hpe : pre = []
    · simp [hpe]
    · obtain ⟨q, x, rfl, hx⟩ := hpre hpe
      simp [hx]
  obtain ⟨w, ew, tw⟩ := tp.substring hlen
    (show pre.length + ((pre ++ c).length - pre.length) ≤ (pre ++ c).length by simp)
  refine ⟨p, w, hp, ?_, ?_⟩
  · unfold fileName
    simp only [tp.length]
    rw [if_neg (by simp [hc]), e1, Res.ok_bind,
      if_neg (by simp [hc]), e2]
    simp only [Res.ok_bind]
    rw [ew]; rfl
  · simpa using tw

/-- C20: the file name of any path `pre/c///` is its last component, trailing separators ignored -/
theorem file_name_exact {p : Str} {pre c z : List Byte} (tp : Text p (pre ++ c ++ z))
    (hlen : (pre ++ c ++ z).length < 2 ^ 63) (hc : c ≠ []) (hsep : ∀ x ∈ c, x ≠ 47 ∧ x ≠ 92)
    (hz : ∀ x ∈ z, x = 47 ∨ x = 92) (hpre : pre ≠ [] → ∃ q x, pre = q ++ [x] ∧ (x = 47 ∨ x = 92)) :
    ∃ w, fileName p = .ok (some w) ∧ Text w c := by
  have hsep : ∀ x ∈ c, sep x = false := fun x hx => by
    have := hsep x hx; simp [sep, this.1, this.2]
  have hz : ∀ x ∈ z, sep x = true := fun x hx => (sep_iff x).2 (hz x hx)
  have e1 : scanBack sep p.buf (pre ++ c ++ z).length = .ok (pre ++ c).length := by
    rw [scanBack_eq tp.ctext _ _ (Nat.le_refl _), List.take_length, List.reverse_append,
      dropWhile_app_all _ _ _ (by simpa using hz), List.reverse_append,
      dropWhile_head _ _ _ (by simpa using hc) (by simpa using hsep)]
    simp; omega
  have e2 : scanBack (fun c => !sep c) p.buf (pre ++ c).length = .ok pre.length := by
    rw [scanBack_eq tp.ctext _ _ (by simp), List.take_left, List.reverse_append,
      dropWhile_app_all _ _ _ (by simpa using hsep)]
    by_cases hpe : pre = []
    · simp [hpe]
    · obtain ⟨q, x, rfl, hx⟩ := hpre hpe
      simp [(sep_iff x).2 hx]
  obtain ⟨w, ew, tw⟩ := tp.substring hlen
    (show pre.length + ((pre ++ c).length - pre.length) ≤ (pre ++ c ++ z).length by simp)
  refine ⟨w, ?_, ?_⟩
  · unfold fileName
    simp only [tp.length]
    rw [if_neg (by simp [hc]), e1, Res.ok_bind,
      if_neg (by simp [hc]), e2]
    simp only [Res.ok_bind]
    rw [ew]; rfl
  · simpa using tw

/-- a path made of separators only has no file name, and neither has the empty path -/
theorem file_name_none {p : Str} {z : List Byte} (tp : Text p z) (hz : ∀ x ∈ z, x = 47 ∨ x = 92) :
    fileName p = .ok none := by
  have hz : ∀ x ∈ z, sep x = true := fun x hx => (sep_iff x).2 (hz x hx)
  have e1 : scanBack sep p.buf z.length = .ok 0 := by
    rw [scanBack_eq tp.ctext _ _ (Nat.le_refl _), List.take_length]
    have := dropWhile_app_all sep z.reverse [] (by simpa using hz)
    simp only [List.append_nil] at this
    rw [this]; rfl
  unfold fileName
  simp only [tp.length, e1, Res.ok_bind]
  split <;> rfl

/-- "a/bc//" meets the hypotheses of `file_name_exact` -/
example : CText (cmem [97, 47, 98, 99, 47, 47]) ([97, 47] ++ [98, 99] ++ [47, 47]) ∧
    (∀ x ∈ [(98 : Byte), 99], x ≠ 47 ∧ x ≠ 92) ∧ (∀ x ∈ [(47 : Byte), 47], x = 47 ∨ x = 92) :=
  ⟨cmem_ctext [97, 47, 98, 99, 47, 47], by decide, by decide⟩

/-- C20: after joining a directory and a component without separators, the parent is the directory
(without trailing separators; `/` if it consists of separators only; none if it is empty) -/
theorem join_parent {s : Str} {d c : List Byte} {m : Mem Byte} (hs : Text s d) (hm : CText m c)
    (hc : c ≠ []) (hsep : ∀ x ∈ c, x ≠ 47 ∧ x ≠ 92) (hlen : (Spec.joined d c).length < 2 ^ 63) :
    ∃ p r, join s m = .ok p ∧ parent p = .ok r ∧
      match Spec.dir d with
      | none => r = none
      | some t => ∃ w, r = some w ∧ Text w t := by
  have hsep : ∀ x ∈ c, sep x = false := fun x hx => by
    have := hsep x hx; simp [sep, this.1, this.2]
  obtain ⟨p, hp, tp⟩ := join_text hs hm
  obtain ⟨pre, hj, hiff, hstrip, hpre⟩ := joined_split d c
  rw [hj] at tp hlen
  have e1 : scanBack sep p.buf (pre ++ c).length = .ok (pre ++ c).length := by
    rw [scanBack_eq tp.ctext _ _ (Nat.le_refl _), List.take_length, List.reverse_append,
      dropWhile_head _ _ _ (by simpa using hc) (by simpa using hsep)]
    simp; omega
  have e2 : scanBack (fun c => !sep c) p.buf (pre ++ c).length = .ok pre.length := by
    rw [scanBack_eq tp.ctext _ _ (Nat.le_refl _), List.take_length, List.reverse_append,
      dropWhile_app_all _ _ _ (by simpa using hsep)]
    by_cases hpe : pre = []
    · simp [hpe]
    · obtain ⟨q, x, rfl, hx⟩ := hpre hpe
      simp [hx]
  have e3 : scanBack sep p.buf pre.length = .ok (Spec.strip d).length := by
    rw [scanBack_eq tp.ctext _ _ (by simp), List.take_left, ← hstrip]
    simp [Spec.strip]
  have hne : ¬ (pre ++ c).length = 0 := by
    simp; intro _; exact hc
  refine ⟨p, ?_⟩
  simp only [hp, true_and]
  unfold parent
  simp only [tp.length]
  rw [if_neg hne, e1]
  simp only [Res.ok_bind]
  rw [e2]
  simp only [Res.ok_bind]
  by_cases hd : d = []
  · refine ⟨none, ?_, ?_⟩
    · rw [hiff.2 hd]; rfl
    · simp [Spec.dir, hd]
  · have hpe : ¬ pre.length = 0 := by
      intro h; exact hd (hiff.1 (List.length_eq_zero_iff.1 h))
    rw [if_neg hpe, e3]
    simp only [Res.ok_bind]
    by_cases hst : Spec.strip d = []
    · obtain ⟨w, ew, tw⟩ := (cmem_ctext [47]).new
      refine ⟨some w, ?_, ?_⟩
      · rw [hst]; simp [ew]
      · rw [Spec.dir, if_neg hd, if_pos hst]
        exact ⟨w, rfl, by simpa [Str.Spec.lit] using tw⟩
    · have hle : (Spec.strip d).length ≤ pre.length := by
        rw [← hstrip]; unfold Spec.strip
        have := (List.dropWhile_suffix (l := pre.reverse) sep).length_le
        simpa using this
      obtain ⟨w, ew, tw⟩ := tp.substring hlen
        (show 0 + (Spec.strip d).length ≤ (pre ++ c).length by simp; omega)
      refine ⟨some w, ?_, ?_⟩
      · rw [if_neg (by simpa using hst), ew]; rfl
      · rw [Spec.dir, if_neg hd, if_neg hst]
        refine ⟨w, rfl, ?_⟩
        have : ((pre ++ c).drop 0).take (Spec.strip d).length = Spec.strip d := by
          rw [List.drop_zero, List.take_append_of_le_length hle, ← hstrip]
          have hpf : Spec.strip pre <+: pre := by
            unfold Spec.strip
            have := (List.dropWhile_suffix (l := pre.reverse) sep)
            rw [← List.reverse_prefix] at this
            simpa using this
          exact (List.prefix_iff_eq_take.1 hpf).symm
        rw [this] at tw; exact tw

theorem extLoop_eq {m : Mem Byte} {t : List Byte} (h : CText m t) (pre : List Byte) :
    ∀ c post : List Byte, t = pre ++ c ++ post → (∀ x ∈ c, sep x = false) →
      (pre ≠ [] → ∃ q x, pre = q ++ [x] ∧ sep x = true) →
      extLoop m (pre ++ c).length
        = .ok (if 46 ∈ c then some ((pre ++ c).length - (c.reverse.takeWhile (· ≠ 46)).length)
          else none) := by
  intro c
  induction hn : c.length generalizing c with
  | zero =>
      intro post ht _ hpre
      have : c = [] := List.length_eq_zero_iff.1 hn
      subst this
      by_cases hpe : pre = []
      · subst hpe; rfl
      · obtain ⟨q, x, rfl, hx⟩ := hpre hpe
        have hx46 : x ≠ 46 := by rintro rfl; exact absurd hx (by decide)
        have hi : q.length < t.length := by rw [ht]; simp
        have hld : Mem.load m q.length = .ok x := by
          rw [h.load hi]; subst ht; simp
        simp only [List.append_nil, List.length_append, List.length_cons, List.length_nil]
        simp only [extLoop, hld, Res.ok_bind, hx46, if_false, hx, if_true]
        simp
  | succ n ih =>
      intro post ht hsep hpre
      have hc : c ≠ [] := by rintro rfl; simp at hn
      obtain ⟨b, x, rfl⟩ : ∃ b x, c = b ++ [x] :=
        ⟨c.dropLast, c.getLast hc, (List.dropLast_concat_getLast hc).symm⟩
      have hb : b.length = n := by simpa using hn
      have hx := hsep x (by simp)
      have hi : (pre ++ b).length < t.length := by rw [ht]; simp
      have hld : Mem.load m (pre ++ b).length = .ok x := by
        rw [h.load hi]; subst ht; simp [← List.append_assoc]
      rw [show (pre ++ (b ++ [x])).length = (pre ++ b).length + 1 by simp; omega]
      rw [extLoop, hld, Res.ok_bind]
      by_cases h46 : x = 46
      · subst h46; simp
      · rw [if_neg h46, if_neg (by simp [hx])]
        rw [ih b hb ([x] ++ post) (by rw [ht]; simp) (fun y hy => hsep y (by simp [hy])) hpre]
        have : 46 ∈ b ++ [x] ↔ 46 ∈ b := by simp [Ne.symm h46]
        simp only [this]
        split
        · rename_i hm
          congr 2
          rw [List.reverse_append]
          simp only [List.reverse_cons, List.reverse_nil, List.nil_append, List.cons_append,
            List.takeWhile_cons, h46, ne_eq, not_false_eq_true, decide_true, if_true,
            List.length_cons]
          omega
        · rfl

/-- C20: the extension of a joined path is what follows the last dot of the component -/
theorem join_extension {s : Str} {d c : List Byte} {m : Mem Byte} (hs : Text s d) (hm : CText m c)
    (hsep : ∀ x ∈ c, x ≠ 47 ∧ x ≠ 92) (hlen : (Spec.joined d c).length < 2 ^ 63) :
    ∃ p r, join s m = .ok p ∧ extension p = .ok r ∧
      match Spec.ext c with
      | none => r = none
      | some t => ∃ w, r = some w ∧ Text w t := by
  have hsep : ∀ x ∈ c, sep x = false := fun x hx => by
    have := hsep x hx; simp [sep, this.1, this.2]
  obtain ⟨p, hp, tp⟩ := join_text hs hm
  obtain ⟨pre, hj, hiff, hstrip, hpre⟩ := joined_split d c
  rw [hj] at tp hlen
  have e := extLoop_eq tp.ctext pre c [] (by simp) hsep hpre
  refine ⟨p, ?_⟩
  simp only [hp, true_and]
  unfold extension
  simp only [tp.length]
  rw [e]
  simp only [Res.ok_bind]
  by_cases h46 : 46 ∈ c
  · have hk : (c.reverse.takeWhile (· ≠ 46)).length ≤ c.length := by
      have := (List.takeWhile_prefix (l := c.reverse) (fun x => decide (x ≠ 46))).length_le
      simpa using this
    obtain ⟨w, ew, tw⟩ := tp.substring hlen
      (a := (pre ++ c).length - (c.reverse.takeWhile (· ≠ 46)).length)
      (n := (pre ++ c).length - ((pre ++ c).length - (c.reverse.takeWhile (· ≠ 46)).length))
      (by simp only [List.length_append]; omega)
    refine ⟨some w, ?_, ?_⟩
    · rw [if_pos h46]; simp only; rw [ew]; rfl
    · rw [Spec.ext, if_pos h46]
      refine ⟨w, rfl, ?_⟩
      have hsuf : (c.reverse.takeWhile (· ≠ 46)).reverse <:+ pre ++ c := by
        have h1 := (List.takeWhile_prefix (l := c.reverse) (fun x => decide (x ≠ 46)))
        rw [← List.reverse_suffix, List.reverse_reverse] at h1
        exact h1.trans (List.suffix_append _ _)
      obtain ⟨f, hf⟩ := hsuf
      have hfl : f.length = (pre ++ c).length - (c.reverse.takeWhile (· ≠ 46)).length := by
        rw [← hf]; simp
      rw [← hfl, ← hf] at tw
      rw [List.drop_left, List.take_of_length_le (by simp)] at tw
      exact tw
  · refine ⟨none, ?_, ?_⟩
    · rw [if_neg h46]; rfl
    · simp [Spec.ext, h46]

/-- "/usr/" joined with "lib.so": no doubled separator -/
example : Spec.joined [47, 117, 47] [108, 46, 115] = [47, 117, 47, 108, 46, 115] ∧
    Spec.dir [47, 117, 47] = some [47, 117] ∧ Spec.ext [108, 46, 115] = some [115] ∧
    (∀ x ∈ [(108 : Byte), 46, 115], x ≠ 47 ∧ x ≠ 92) ∧ CText (cmem [108, 46, 115]) [108, 46, 115] := by
  refine ⟨by decide, by decide, by decide, by decide, cmem_ctext [108, 46, 115]⟩

end Verif.Path
