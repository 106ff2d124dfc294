import Verif.Process.Model
import Verif.Str.Props

/-! # C63: running commands -/

namespace Verif.Process
open Verif Verif.Str Spec

/-- The text of the command line. -/
def line (p : List Byte) (as : List (List Byte)) : List Byte := p ++ as.flatMap fun a => 32 :: a

theorem addArgs_text : ∀ {as : List Str} {ts : List (List Byte)} {s : Str} {t : List Byte}, Texts as ts → Text s t →
    ∃ w, addArgs as s = .ok w ∧ Text w (line t ts)
  | [], [], s, t, _, h => ⟨s, rfl, by simpa [line] using h⟩
  | [], _ :: _, _, _, h, _ => h.elim
  | _ :: _, [], _, _, h, _ => h.elim
  | a :: as, u :: us, s, t, h, hs => by
      have hsp : CText (cmem [32]) [32] := ⟨by decide, [], rfl⟩
      obtain ⟨sp, e1, t1⟩ := hsp.new
      obtain ⟨s1, e2, t2⟩ := hs.append t1
      obtain ⟨s2, e3, t3⟩ := t2.append h.1
      obtain ⟨w, e4, t4⟩ := addArgs_text h.2 t3
      refine ⟨w, ?_, by simpa [line] using t4⟩
      rw [addArgs, e1, Res.ok_bind, e2, Res.ok_bind, e3, Res.ok_bind, e4]

/-- The command line is the program and the arguments with one space in front of each. -/
theorem build_text {c : Command} {p : List Byte} {ts : List (List Byte)} (hp : Text c.program p) (ha : Texts c.args ts)
    (hl : p.length < 2 ^ 63) : ∃ w, build c = .ok w ∧ Text w (line p ts) := by
  obtain ⟨s, e1, t1⟩ := hp.substring hl (a := 0) (n := p.length) (by omega)
  rw [List.drop_zero, List.take_length] at t1
  obtain ⟨w, e2, t2⟩ := addArgs_text ha t1
  exact ⟨w, by rw [build, hp.length, e1, Res.ok_bind, e2], t2⟩

theorem line_fields : ∀ {p : List Byte} {ts : List (List Byte)}, Plain p → (∀ t ∈ ts, Plain t) → Fields (line p ts) (p :: ts)
  | p, [], hp, _ => by simpa [line] using Fields.one hp
  | p, t :: ts, hp, h => by
      have := Fields.more hp (line_fields (p := t) (ts := ts) (h t (by simp)) (fun x hx => h x (by simp [hx])))
      simpa [line] using this

/-- Words of the shell are determined by the text. -/
theorem plain_no_blank {w : List Byte} (h : Plain w) : 32 ∉ w := by
  intro hm
  have := h.2 32 hm
  revert this; decide

/-- Words of a text, read from left to right. -/
def words (cur : List Byte) : List Byte → List (List Byte)
  | [] => if cur = [] then [] else [cur]
  | c :: r => if c = 32 then (if cur = [] then [] else [cur]) ++ words [] r else words (cur ++ [c]) r

theorem words_skip : ∀ (w cur r : List Byte), 32 ∉ w → words cur (w ++ r) = words (cur ++ w) r
  | [], cur, r, _ => by simp
  | c :: w, cur, r, h => by
      simp only [List.mem_cons, not_or] at h
      rw [List.cons_append, words, if_neg (Ne.symm h.1), words_skip w _ r h.2]
      simp

theorem words_end : ∀ (r cur : List Byte), words cur (r ++ [32]) = words cur r
  | [], cur => by simp [words]
  | c :: r, cur => by rw [List.cons_append, words, words, words_end, words_end]

/-- The fields of a command line are unique. -/
theorem fields_unique {t : List Byte} {ws : List (List Byte)} (h : Fields t ws) : words [] t = ws := by
  induction h with
  | one hw =>
      rename_i w
      have := words_skip w [] [] (plain_no_blank hw)
      simp only [List.append_nil, List.nil_append] at this
      rw [this, words, if_neg hw.1]
  | more hw _ ih =>
      rw [words_skip _ [] _ (plain_no_blank hw), List.nil_append, words, if_pos rfl, if_neg hw.1, ih]
      rfl
  | blank _ ih => rw [words, if_pos rfl, if_pos rfl, ih]; rfl
  | blankEnd _ ih => rw [words_end, ih]

/-- C63: the shell runs the program with exactly the arguments given, when none of them has a
character that means something to the shell, and none is empty. -/
theorem command_partial {c : Command} {p : List Byte} {ts : List (List Byte)} (hp : Text c.program p) (ha : Texts c.args ts)
    (hl : p.length < 2 ^ 63) (h1 : Plain p) (h2 : ∀ t ∈ ts, Plain t) :
    ∃ w t, build c = .ok w ∧ Text w t ∧ Fields t (p :: ts) := by
  obtain ⟨w, e, t⟩ := build_text hp ha hl
  exact ⟨w, _, e, t, line_fields h1 h2⟩

example : Fields (line [108, 115] [[45, 108], [47]]) [[108, 115], [45, 108], [47]] :=
  line_fields ⟨by decide, by decide⟩ (by
    intro t ht
    simp only [List.mem_cons, List.not_mem_nil, or_false] at ht
    rcases ht with rfl | rfl <;> exact ⟨by decide, by decide⟩)

/-- C63 fails for an argument with a blank: it arrives as two. -/
theorem blank_violated {c : Command} {p a b : List Byte} {arg : Str} (hp : Text c.program p) (ha : c.args = [arg])
    (ht : Text arg (a ++ 32 :: b)) (hl : p.length < 2 ^ 63) (h1 : Plain p) (h2 : Plain a) (h3 : Plain b) :
    ∃ w t, build c = .ok w ∧ Text w t ∧ Fields t [p, a, b] ∧ ¬ Fields t [p, a ++ 32 :: b] := by
  obtain ⟨w, e, t⟩ := build_text (ts := [a ++ 32 :: b]) hp (by rw [ha]; exact ⟨ht, trivial⟩) hl
  refine ⟨w, _, e, t, ?_⟩
  have := line_fields (p := p) (ts := [a, b]) h1 (by
    intro x hx
    simp only [List.mem_cons, List.not_mem_nil, or_false] at hx
    rcases hx with rfl | rfl <;> assumption)
  have hf : Fields (line p [a ++ 32 :: b]) [p, a, b] := by simpa [line] using this
  refine ⟨hf, fun h => ?_⟩
  have := (fields_unique hf).symm.trans (fields_unique h)
  simp at this

/-- C63 fails for an empty argument: it does not arrive at all. -/
theorem empty_violated {c : Command} {p b : List Byte} {arg arg' : Str} (hp : Text c.program p) (ha : c.args = [arg, arg'])
    (ht : Text arg []) (ht' : Text arg' b) (hl : p.length < 2 ^ 63) (h1 : Plain p) (h3 : Plain b) :
    ∃ w t, build c = .ok w ∧ Text w t ∧ Fields t [p, b] ∧ ¬ Fields t [p, [], b] := by
  obtain ⟨w, e, t⟩ := build_text (ts := [[], b]) hp (by rw [ha]; exact ⟨ht, ht', trivial⟩) hl
  refine ⟨w, _, e, t, ?_⟩
  have hf : Fields (line p [[], b]) [p, b] := by
    have := Fields.more h1 (Fields.blank (Fields.one h3))
    simpa [line] using this
  refine ⟨hf, fun h => ?_⟩
  have := (fields_unique hf).symm.trans (fields_unique h)
  simp at this

/-- C63 fails for every argument: text that the shell takes for a further command goes through
unchanged, so that `arg("x; rm y")` is the command line `p x; rm y`. -/
theorem injection_violated {c : Command} {p a : List Byte} {arg : Str} (hp : Text c.program p) (ha : c.args = [arg])
    (ht : Text arg a) (hl : p.length < 2 ^ 63) : ∃ w, build c = .ok w ∧ Text w (p ++ 32 :: a) := by
  obtain ⟨w, e, t⟩ := build_text (ts := [a]) hp (by rw [ha]; exact ⟨ht, trivial⟩) hl
  exact ⟨w, e, by simpa [line] using t⟩

/-! ## the output -/

theorem fgets_append : ∀ (n : Nat) (s : List Byte), (fgets n s).1 ++ (fgets n s).2 = s
  | 0, s => by simp [fgets]
  | n + 1, [] => by simp [fgets]
  | n + 1, c :: s => by
      rw [fgets]
      split
      · rfl
      · simp only [List.cons_append, fgets_append n s]

theorem collect_text (s : List Byte) (out : Str) (t : List Byte) (h0 : 0 ∉ s) (h : Text out t) :
    ∃ w, collect s out = .ok w ∧ Text w (t ++ s) := by
  fun_induction collect s out generalizing t with
  | case1 out => exact ⟨out, rfl, by simpa using h⟩
  | case2 out c s ih =>
      have hs := fgets_append 1023 (c :: s)
      have z1 : 0 ∉ (fgets 1023 (c :: s)).1 := fun hm => h0 (by rw [← hs]; exact List.mem_append_left _ hm)
      have z2 : 0 ∉ (fgets 1023 (c :: s)).2 := fun hm => h0 (by rw [← hs]; exact List.mem_append_right _ hm)
      obtain ⟨ck, e1, t1⟩ := CText.new (m := cmem (fgets 1023 (c :: s)).1) (t := (fgets 1023 (c :: s)).1) ⟨z1, [], rfl⟩
      obtain ⟨o, e2, t2⟩ := h.append t1
      obtain ⟨w, e3, t3⟩ := ih o _ z2 t2
      refine ⟨w, ?_, ?_⟩
      · rw [e1, Res.ok_bind, e2, Res.ok_bind, e3]
      · rw [List.append_assoc, hs] at t3; exact t3

/-- C63: everything the child writes is collected, whatever its length and lines, if there is no zero
byte in it; and `exit_code` is 0 exactly when the child exits with 0. -/
theorem output_partial (s : List Byte) (e : End) (h0 : 0 ∉ s) (hs : ∀ k, e = .signal k → 0 < k ∧ k < 128) :
    ∃ w n, output s e = .ok (w, n) ∧ Text w s ∧ (n = 0 ↔ exitCode e = some 0) := by
  obtain ⟨w, e1, t1⟩ := collect_text s empty [] h0 empty_text
  refine ⟨w, waitStatus e, ?_, by simpa using t1, ?_⟩
  · rw [output, new_nil, Res.ok_bind, e1, Res.ok_bind]
  · cases e with
    | exit n => simp only [waitStatus, exitCode, Option.some.injEq]; omega
    | signal n =>
        have := hs n rfl
        simp only [waitStatus, exitCode, reduceCtorEq, iff_false]
        omega

example : ∃ w n, output [104, 105, 10] (.exit 0) = .ok (w, n) ∧ Text w [104, 105, 10] ∧ n = 0 := by
  obtain ⟨w, n, h1, h2, h3⟩ := output_partial [104, 105, 10] (.exit 0) (by decide) (by intro k h; cases h)
  exact ⟨w, n, h1, h2, h3.2 rfl⟩

/-- C63 fails: `exit_code` is the wait status, 256 times the exit code. -/
theorem exit_code_violated (n : Nat) (h : n % 256 ≠ 0) (s : List Byte) (h0 : 0 ∉ s) :
    ∃ w, output s (.exit n) = .ok (w, 256 * (n % 256)) ∧ exitCode (.exit n) ≠ some (256 * (n % 256)) ∧
      status (.exit n) = 256 * (n % 256) := by
  obtain ⟨w, e1, t1⟩ := collect_text s empty [] h0 empty_text
  refine ⟨w, ?_, ?_, ?_⟩
  · rw [output, new_nil, Res.ok_bind, e1, Res.ok_bind, waitStatus, Nat.mul_comm]
  · simp only [exitCode, ne_eq, Option.some.injEq]; omega
  · rw [status, waitStatus, Nat.mul_comm]

/-- C63 fails for output with a zero byte: the rest of that line is lost. -/
theorem zero_byte_violated : ∃ w, output [97, 0, 98, 10, 99] (.exit 0) = .ok (w, 0) ∧ Text w [97, 99] := by
  have h1 : CText (cmem [97, 0, 98, 10]) [97] := cmem_ctext [97, 0, 98, 10]
  obtain ⟨c1, e1, t1⟩ := h1.new
  obtain ⟨o1, e2, t2⟩ := empty_text.append t1
  have h2 : CText (cmem [99]) [99] := cmem_ctext [99]
  obtain ⟨c2, e3, t3⟩ := h2.new
  obtain ⟨o2, e4, t4⟩ := t2.append t3
  refine ⟨o2, ?_, by simpa using t4⟩
  have f1 : fgets 1023 [97, 0, 98, 10, 99] = ([97, 0, 98, 10], [99]) := by decide
  have f2 : fgets 1023 [99] = ([99], []) := by decide
  rw [output, new_nil, Res.ok_bind, collect, f1]
  simp only [e1, Res.ok_bind, e2]
  rw [collect, f2]
  simp only [e3, Res.ok_bind, e4]
  rw [collect]
  rfl

end Verif.Process
