import Verif.StrLit.Lemmas

/-!
# Segments of interpolated strings
-/

namespace Verif.StrLit

open Spec
open Verif.Str (Byte)

/-- a text that ends, or goes on with a brace -/
def Ends (b : List Byte) : Prop := b = [] ∨ ∃ r, b = 123 :: r ∨ b = 125 :: r

theorem tw_append (P : Byte → Bool) (h1 : P 123 = false) (h2 : P 125 = false) {b : List Byte}
    (hb : Ends b) : ∀ (a : List Byte) (k : Nat),
    ((a ++ b).take k).takeWhile P = (a.take k).takeWhile P := by
  intro a
  induction a with
  | nil =>
    intro k
    cases k with
    | zero => simp
    | succ k => rcases hb with rfl | ⟨r, rfl | rfl⟩ <;> simp [h1, h2]
  | cons c a ih =>
    intro k
    cases k with
    | zero => simp
    | succ k => simp only [List.cons_append, List.take_succ_cons, List.takeWhile_cons, ih k]

theorem tw_append' (P : Byte → Bool) (h1 : P 123 = false) (h2 : P 125 = false) {b : List Byte}
    (hb : Ends b) (a : List Byte) : (a ++ b).takeWhile P = a.takeWhile P := by
  have h := tw_append P h1 h2 hb a (a ++ b).length
  rw [List.take_of_length_le (Nat.le_refl _), List.take_of_length_le (by simp)] at h
  exact h

/-- an escape does not look beyond a brace -/
theorem esc_append (a : List Byte) {b : List Byte} (hb : Ends b) :
    esc (a ++ b) = (esc a).map fun q => (q.1, q.2 ++ b) := by
  cases a with
  | nil => rcases hb with rfl | ⟨r, rfl | rfl⟩ <;> rfl
  | cons c r =>
    simp only [List.cons_append, esc]
    cases simple c with
    | some v => rfl
    | none =>
      simp only
      have e := tw_append (fun c => decide (digit c < 8)) rfl rfl hb (c :: r) 3
      rw [List.cons_append] at e
      rw [e, tw_append' (fun c => decide (digit c < 16)) rfl rfl hb]
      have hl := (List.takeWhile_prefix (l := r) (fun c => decide (digit c < 16))).length_le
      have hl' := Nat.le_trans (take_tw_le (fun c => decide (digit c < 8)) (c :: r) 3)
        (List.takeWhile_prefix (l := c :: r) (fun c => decide (digit c < 8))).length_le
      split
      · split
        · simp only [Option.map_some, Option.some.injEq, Prod.mk.injEq, true_and]
          rw [← List.cons_append, List.drop_append_of_le_length hl']
        · rfl
      · split
        · split
          · simp only [Option.map_some, Option.some.injEq, Prod.mk.injEq, true_and]
            rw [List.drop_append_of_le_length hl]
          · rfl
        · rfl

/-- the text up to the next brace -/
theorem interp_prefix {dbl : Bool} {t : List Byte} {os : List Out} (h : Interp dbl t os) :
    ∃ x v t' os', t = x ++ t' ∧ Body x v ∧ 123 ∉ x ∧ 125 ∉ x ∧ os = v.map .byte ++ os' ∧
      Interp dbl t' os' ∧ Ends t' := by
  induction h with
  | nil => exact ⟨[], [], [], [], rfl, .nil, by simp, by simp, rfl, .nil, .inl rfl⟩
  | lbrace hd h _ =>
    exact ⟨[], [], _, _, rfl, .nil, by simp, by simp, rfl, .lbrace hd h, .inr ⟨_, .inl rfl⟩⟩
  | rbrace hd h _ =>
    exact ⟨[], [], _, _, rfl, .nil, by simp, by simp, rfl, .rbrace hd h, .inr ⟨_, .inr rfl⟩⟩
  | hole h1 h2 h3 h _ =>
    exact ⟨[], [], _, _, rfl, .nil, by simp, by simp, rfl, .hole h1 h2 h3 h, .inr ⟨_, .inl rfl⟩⟩
  | @esc r r' w os he _ ih =>
    obtain ⟨x, v, t', os', rfl, hb, n1, n2, rfl, hi, he'⟩ := ih
    obtain ⟨d, n, h3, h4, h5, _, h6, h7⟩ := esc_split he
    have hr : r = (d :: ((r.drop 1).take n ++ x)) ++ t' := by
      have : r = d :: ((r.drop 1).take n ++ (x ++ t')) := by
        rw [h4, List.take_append_drop]; exact h3
      simpa using this
    have hdig := tw_all _ n h5
    rw [hr] at he
    rw [esc_append _ he'] at he
    obtain ⟨⟨w', q⟩, hq, he⟩ := Option.map_eq_some_iff.mp he
    simp only [Prod.mk.injEq, List.append_cancel_right_eq] at he
    obtain ⟨rfl, rfl⟩ := he
    refine ⟨_, _, t', os', congrArg (92 :: ·) hr, .esc hq hb, ?_, ?_, rfl, hi, he'⟩
    · simp only [List.mem_cons, List.mem_append, not_or]
      refine ⟨by decide, fun hh => h6 hh.symm, fun hh => ?_, n1⟩
      have := hdig _ hh
      simp [digit] at this
    · simp only [List.mem_cons, List.mem_append, not_or]
      refine ⟨by decide, fun hh => h7 hh.symm, fun hh => ?_, n2⟩
      have := hdig _ hh
      simp [digit] at this
  | @raw c r os h1 h2 h3 _ ih =>
    obtain ⟨x, v, t', os', rfl, hb, n1, n2, rfl, hi, he'⟩ := ih
    exact ⟨c :: x, c :: v, t', os', rfl, .raw h1 hb, by simp [n1, Ne.symm h2], by simp [n2, Ne.symm h3],
      rfl, hi, he'⟩

theorem cut_append {c : Byte} (x r : List Byte) (h : c ∉ x) : cut c (x ++ c :: r) = some (x, r) := by
  induction x with
  | nil => simp [cut]
  | cons d x ih =>
    simp only [List.mem_cons, not_or] at h
    simp [cut, Ne.symm h.1, ih h.2]

theorem cut_none {c : Byte} (x : List Byte) (h : c ∉ x) : cut c x = none := by
  induction x with
  | nil => rfl
  | cons d x ih =>
    simp only [List.mem_cons, not_or] at h
    simp [cut, Ne.symm h.1, ih h.2]

theorem cut_after {c : Byte} (x r : List Byte) (h : c ∉ x) :
    ∀ q, cut c (x ++ r) = some q → x.length ≤ q.1.length := by
  induction x with
  | nil => simp
  | cons d x ih =>
    simp only [List.mem_cons, not_or] at h
    intro q hq
    simp only [List.cons_append, cut, Ne.symm h.1, if_false, Option.map_eq_some_iff] at hq
    obtain ⟨q', h1, rfl⟩ := hq
    simpa using ih h.2 q' h1

theorem cut2_none (x : List Byte) (h : (125 : Byte) ∉ x) : cut2 x = none := by
  induction x using cut2.induct with
  | case1 => rfl
  | case2 => rfl
  | case3 a b r hh => exact absurd (by simp [hh.1]) h
  | case4 a b r hh ih =>
    simp only [cut2, if_neg hh]
    rw [ih (fun hm => h (List.mem_cons_of_mem _ hm))]
    rfl

theorem cut2_append (x r : List Byte) (h : (125 : Byte) ∉ x) :
    cut2 (x ++ 125 :: 125 :: r) = some (x, r) := by
  induction x with
  | nil => simp [cut2]
  | cons d x ih =>
    simp only [List.mem_cons, not_or] at h
    have ih := ih h.2
    cases x with
    | nil =>
      simp only [List.cons_append, List.nil_append, cut2] at ih ⊢
      rw [if_neg (by simp [Ne.symm h.1])]
      simp
    | cons e x =>
      simp only [List.cons_append, cut2] at ih ⊢
      rw [if_neg (by simp [Ne.symm h.1])]
      rw [ih]
      rfl

theorem cut2_after (x : List Byte) (c : Byte) (r : List Byte) (h : (125 : Byte) ∉ x) (hc : c ≠ 125) :
    ∀ q, cut2 (x ++ c :: r) = some q → x.length < q.1.length := by
  induction x with
  | nil =>
    intro q hq
    cases r with
    | nil => simp [cut2] at hq
    | cons d r =>
      simp only [List.nil_append, cut2, hc, false_and, if_false, Option.map_eq_some_iff] at hq
      obtain ⟨q', _, rfl⟩ := hq
      simp
  | cons d x ih =>
    simp only [List.mem_cons, not_or] at h
    have ih := ih h.2
    intro q hq
    have : ∃ e y, x ++ c :: r = e :: y := by cases x <;> exact ⟨_, _, rfl⟩
    obtain ⟨e, y, he⟩ := this
    rw [List.cons_append, he] at hq
    simp only [cut2, Ne.symm h.1, false_and, if_false, Option.map_eq_some_iff] at hq
    obtain ⟨q', h1, rfl⟩ := hq
    rw [← he] at h1
    simpa using ih q' h1

theorem filter_none {α : Type} {o : Option α} {p : α → Bool} (h : ∀ q, o = some q → p q = false) :
    o.filter p = none := by
  cases o with
  | none => rfl
  | some q => simp [Option.filter, h q rfl]

theorem segments_lbrace (n : Nat) (x r : List Byte) (h1 : (123 : Byte) ∉ x) (h2 : (125 : Byte) ∉ x) :
    segments (n + 1) (x ++ 123 :: 123 :: r) =
      (segments n r).map fun ps => seg1 x ++ .text [123] :: ps := by
  have hne : x ++ 123 :: 123 :: r ≠ [] := by simp
  simp only [segments, if_neg hne, cut_append x (123 :: r) h1]
  have hf : (cut2 (x ++ 123 :: 123 :: r)).filter (fun q => decide (q.1.length < x.length)) = none :=
    filter_none fun q hq => by
      have := cut2_after x 123 (123 :: r) h2 (by decide) q hq
      simp; omega
  simp only [hf]

theorem segments_rbrace (n : Nat) (x r : List Byte) (h1 : (123 : Byte) ∉ x) (h2 : (125 : Byte) ∉ x) :
    segments (n + 1) (x ++ 125 :: 125 :: r) =
      (segments n r).map fun ps => seg1 x ++ .text [125] :: ps := by
  have hne : x ++ 125 :: 125 :: r ≠ [] := by simp
  simp only [segments, if_neg hne, cut2_append x r h2]
  cases hc : cut 123 (x ++ 125 :: 125 :: r) with
  | none => rfl
  | some q =>
    have hlt : x.length < q.1.length := by
      have h := cut_after (c := 123) (x ++ [125]) (125 :: r) (by simp [h1]) q (by simpa using hc)
      simp at h; omega
    simp only [Option.filter, hlt, decide_true, if_true]

theorem segments_hole (n : Nat) (x src r : List Byte) (h1 : (123 : Byte) ∉ x) (h2 : (125 : Byte) ∉ x)
    (hs : src ≠ []) (h3 : (123 : Byte) ∉ src) (h4 : (125 : Byte) ∉ src) :
    segments (n + 1) (x ++ 123 :: (src ++ 125 :: r)) =
      (segments n r).map fun ps => seg1 x ++ .hole src (colon 1 src) :: ps := by
  have hne : x ++ 123 :: (src ++ 125 :: r) ≠ [] := by simp
  simp only [segments, if_neg hne, cut_append x (src ++ 125 :: r) h1]
  have hf : (cut2 (x ++ 123 :: (src ++ 125 :: r))).filter
      (fun q => decide (q.1.length < x.length)) = none :=
    filter_none fun q hq => by
      have := cut2_after x 123 (src ++ 125 :: r) h2 (by decide) q hq
      simp; omega
  simp only [hf]
  split
  · rename_i r'' hh
    cases src with
    | nil => exact absurd rfl hs
    | cons c src =>
      simp only [List.cons_append, List.cons.injEq] at hh
      exact absurd (by simp [hh.1]) h3
  · rw [cut_append src r h4]

theorem segments_end (n : Nat) (x : List Byte) (h1 : (123 : Byte) ∉ x) (h2 : (125 : Byte) ∉ x) :
    segments (n + 1) x = some (seg1 x) := by
  simp only [segments, cut2_none x h2, cut_none x h1]
  unfold seg1
  split <;> simp_all

theorem colon_none (src : List Byte) (h : (58 : Byte) ∉ src) : ∀ d, colon d src = none := by
  intro d
  induction src generalizing d with
  | nil => simp [colon]
  | cons c src ih =>
    simp only [List.mem_cons, not_or] at h
    cases src with
    | nil => simp [colon, Ne.symm h.1]
    | cons e r =>
      simp only [colon, Ne.symm h.1, and_false, if_false]
      exact ih h.2 _

/-- parts and meaning agree -/
inductive Means : List Piece → List Out → Prop
  | nil : Means [] []
  | text {s v : List Byte} {ps : List Piece} {os : List Out} : Body s v → Means ps os →
      Means (.text s :: ps) (v.map .byte ++ os)
  | hole {src : List Byte} {ps : List Piece} {os : List Out} : Means ps os →
      Means (.hole src none :: ps) (.hole src :: os)

theorem Means.seg1 {x v : List Byte} (hb : Body x v) {ps : List Piece} {os : List Out}
    (h : Means ps os) : Means (seg1 x ++ ps) (v.map .byte ++ os) := by
  unfold StrLit.seg1
  split
  · rename_i hx
    subst hx
    cases hb
    exact h
  · exact .text hb h

theorem holes_append (v : List Byte) (os : List Out) : holes (v.map Out.byte ++ os) = holes os := by
  induction v with
  | nil => rfl
  | cons c v ih => simpa [holes] using ih

theorem segments_means {dbl : Bool} : ∀ (n : Nat) (t : List Byte) (os : List Out), Interp dbl t os →
    (∀ src ∈ holes os, 58 ∉ src) → t.length < n → ∃ ps, segments n t = some ps ∧ Means ps os := by
  intro n
  induction n with
  | zero => intro t os _ _ h; omega
  | succ n ih =>
    intro t os h hc hl
    obtain ⟨x, v, t', os', rfl, hb, n1, n2, rfl, hi, he⟩ := interp_prefix h
    rw [holes_append] at hc
    rcases he with rfl | ⟨r, he⟩
    · cases hi
      rw [List.append_nil]
      exact ⟨_, segments_end n x n1 n2, by simpa using Means.seg1 hb Means.nil⟩
    · cases hi with
      | nil => simp at he
      | @lbrace r' os'' _ hi =>
        obtain ⟨ps, h1, h2⟩ := ih r' os'' hi (by simpa [holes] using hc) (by simp at hl; omega)
        rw [segments_lbrace n x r' n1 n2, h1]
        refine ⟨_, rfl, Means.seg1 hb ?_⟩
        exact Means.text (s := [123]) (v := [123]) (.raw (by decide) .nil) h2
      | @rbrace r' os'' _ hi =>
        obtain ⟨ps, h1, h2⟩ := ih r' os'' hi (by simpa [holes] using hc) (by simp at hl; omega)
        rw [segments_rbrace n x r' n1 n2, h1]
        refine ⟨_, rfl, Means.seg1 hb ?_⟩
        exact Means.text (s := [125]) (v := [125]) (.raw (by decide) .nil) h2
      | @hole src r' os'' hs n3 n4 hi =>
        simp only [holes, List.mem_cons, forall_eq_or_imp] at hc
        obtain ⟨ps, h1, h2⟩ := ih r' os'' hi hc.2 (by simp at hl; omega)
        rw [segments_hole n x src r' n1 n2 hs n3 n4, h1]
        refine ⟨_, rfl, Means.seg1 hb ?_⟩
        rw [colon_none src hc.1]
        exact .hole h2
      | esc _ _ => simp at he
      | raw _ h1 h2 _ =>
        rcases he with he | he
        · exact absurd (by simpa using (List.cons.inj he).1) h1
        · exact absurd (by simpa using (List.cons.inj he).1) h2

theorem closing_src (src r : List Byte) (h1 : (123 : Byte) ∉ src) (h2 : (125 : Byte) ∉ src) :
    closing 1 (src ++ 125 :: r) = some (src, r) := by
  induction src with
  | nil => simp [closing]
  | cons c src ih =>
    simp only [List.mem_cons, not_or] at h1 h2
    simp [closing, Ne.symm h1.1, Ne.symm h2.1, ih h1.2 h2.2]

theorem unquote_id (x : List Byte) (h : (92 : Byte) ∉ x) : unquote x = x := by
  induction x using unquote.induct with
  | case1 => rfl
  | case2 => rfl
  | case3 c d r hh ih => exact absurd (by simp [hh.1]) h
  | case4 c d r hh ih =>
    simp only [unquote, if_neg hh]
    rw [ih (fun hm => h (List.mem_cons_of_mem _ hm))]

theorem print_means : ∀ (n : Nat) (t : List Byte) (os : List Out), Interp false t os →
    (∀ src ∈ holes os, 92 ∉ src) → t.length < n → ∃ ps, printSegments n t = .ok ps ∧ Means ps os := by
  intro n
  induction n with
  | zero => intro t os _ _ h; omega
  | succ n ih =>
    intro t os h hc hl
    obtain ⟨x, v, t', os', rfl, hb, n1, n2, rfl, hi, he⟩ := interp_prefix h
    rw [holes_append] at hc
    rcases he with rfl | ⟨r, he⟩
    · cases hi
      rw [List.append_nil]
      refine ⟨seg1 x, ?_, by simpa using Means.seg1 hb Means.nil⟩
      simp only [printSegments, cut_none x n1]
      unfold seg1
      split <;> simp_all
    · cases hi with
      | nil => simp at he
      | lbrace hd _ => simp at hd
      | rbrace hd _ => simp at hd
      | @hole src r' os'' hs n3 n4 hi =>
        simp only [holes, List.mem_cons, forall_eq_or_imp] at hc
        obtain ⟨ps, h1, h2⟩ := ih r' os'' hi hc.2 (by simp at hl; omega)
        have hne : x ++ 123 :: (src ++ 125 :: r') ≠ [] := by simp
        simp only [printSegments, if_neg hne, cut_append x _ n1, closing_src src r' n3 n4, h1,
          unquote_id src hc.1]
        exact ⟨_, rfl, Means.seg1 hb (.hole h2)⟩
      | esc _ _ => simp at he
      | raw _ h1 h2 _ =>
        rcases he with he | he
        · exact absurd (by simpa using (List.cons.inj he).1) h1
        · exact absurd (by simpa using (List.cons.inj he).1) h2

end Verif.StrLit
