import Verif.LoadFile.Model

/-!
# Reading source files: theorems
-/

namespace Verif.LoadFile
open Verif
open Verif.Str (Byte)
open Spec

theorem cstr_noNul (t : Text) (h : (0 : Byte) ∉ t) : cstr t = t := by
  unfold cstr
  induction t with
  | nil => rfl
  | cons c t ih =>
    simp only [List.mem_cons, not_or] at h
    rw [List.takeWhile_cons_of_pos (by simpa using fun e => h.1 e.symm), ih h.2]

theorem cut_short (p : Text) (h : p.length ≤ 1023) : cut p = p := List.take_of_length_le h

/-- an ordinary file without NUL is read completely -/
theorem slurp_regular (n : Node) (b : Text) (h : Regular n b) (h0 : (0 : Byte) ∉ b) : slurp n = .ok b := by
  obtain ⟨h1, h2, h3⟩ := h
  unfold slurp longMax
  rw [h1, h2, if_neg (by omega), if_neg (by simp)]
  simp [cstr_noNul b h0]

/-- C194: a file that is there under the name it is asked for is the one that is read, to its last byte,
whatever the other places hold.  Missing: files with NUL bytes, and what is not an ordinary file. -/
theorem named_partial (fs : FS) (root : Option Text) (fn : Text) (n : Node) (b : Text)
    (h : fs fn = some n) (hr : Regular n b) (h0 : (0 : Byte) ∉ b) : load fs root fn = .ok (some b) := by
  unfold load openFile
  simp only [h, slurp_regular n b hr h0, Res.bind]

theorem places_eq (root : Option Text) (fn : Text) : places root fn =
    fn :: ((root.map (fun r => r ++ 47 :: fn)).toList ++ [localShare ++ fn, share ++ fn]) := by
  have h1 : localShare =
    [47, 117, 115, 114, 47, 108, 111, 99, 97, 108, 47, 115, 104, 97, 114, 101, 47, 122, 101, 110, 99, 47] := by
    decide +kernel
  have h2 : share = [47, 117, 115, 114, 47, 115, 104, 97, 114, 101, 47, 122, 101, 110, 99, 47] := by
    decide +kernel
  rw [h1, h2]; rfl

/-- C194: otherwise it is the first of the places that leads to something, if no path is longer than
1023 bytes. -/
theorem first_partial (fs : FS) (root : Option Text) (fn p : Text) (n : Node) (b : Text)
    (hlen : ∀ q ∈ places root fn, q.length ≤ 1023) (hf : First fs (places root fn) p)
    (h : fs p = some n) (hr : Regular n b) (h0 : (0 : Byte) ∉ b) : load fs root fn = .ok (some b) := by
  have key : openFile fs root fn = some n := by
    obtain ⟨a, c, he, ha, _⟩ := hf
    have hl : (localShare ++ fn).length ≤ 1023 := hlen _ (by rw [places_eq]; simp)
    have hs : (share ++ fn).length ≤ 1023 := hlen _ (by rw [places_eq]; simp)
    unfold openFile
    rw [cut_short _ hl, cut_short _ hs]
    cases root with
    | none =>
      simp only [places_eq, Option.map_none, Option.toList_none, List.nil_append] at he
      match a, he, ha with
      | [], he, _ => simp at he; rw [he.1, h]
      | [a1], he, ha =>
        simp at he; simp [← he.1] at ha; rw [ha]; simp [he.2.1, h]
      | [a1, a2], he, ha =>
        simp at he; simp [← he.1, ← he.2.1] at ha; simp [ha, he.2.2, h]
      | a1 :: a2 :: a3 :: a, he, _ => simp at he
    | some r =>
      have hr' : (r ++ 47 :: fn).length ≤ 1023 := hlen _ (by rw [places_eq]; simp)
      simp only [show cut (r ++ 47 :: fn) = r ++ 47 :: fn from cut_short _ hr']
      simp only [places_eq, Option.map_some, Option.toList_some, List.cons_append, List.nil_append] at he
      match a, he, ha with
      | [], he, _ => simp at he; rw [he.1, h]
      | [a1], he, ha =>
        simp at he; simp [← he.1] at ha; rw [ha]; simp [he.2.1, h]
      | [a1, a2], he, ha =>
        simp at he; simp [← he.1, ← he.2.1] at ha; simp [ha, he.2.2, h]
      | [a1, a2, a3], he, ha =>
        simp at he; simp [← he.1, ← he.2.1, ← he.2.2.1] at ha; simp [ha, he.2.2.2.1, h]
      | a1 :: a2 :: a3 :: a4 :: a, he, _ => simp at he
  unfold load
  simp only [key, slurp_regular n b hr h0, Res.bind]

/-- C194: "not found" is said exactly if none of the places leads to anything. -/
theorem missing_partial (fs : FS) (root : Option Text) (fn : Text)
    (hlen : ∀ q ∈ places root fn, q.length ≤ 1023) :
    load fs root fn = .ok none ↔ ∀ q ∈ places root fn, fs q = none := by
  have hl : (localShare ++ fn).length ≤ 1023 := hlen _ (by rw [places_eq]; simp)
  have hs : (share ++ fn).length ≤ 1023 := hlen _ (by rw [places_eq]; simp)
  have hload : load fs root fn = .ok none ↔ openFile fs root fn = none := by
    unfold load
    cases openFile fs root fn with
    | none => simp
    | some n => cases hs : slurp n <;> simp [Res.bind, hs]
  rw [hload]
  unfold openFile
  rw [cut_short _ hl, cut_short _ hs]
  cases root with
  | none =>
    simp only [places_eq, Option.map_none, Option.toList_none, List.nil_append, List.forall_mem_cons]
    cases fs fn <;> cases fs (localShare ++ fn) <;> cases fs (share ++ fn) <;> simp
  | some r =>
    have hr' : (r ++ 47 :: fn).length ≤ 1023 := hlen _ (by rw [places_eq]; simp)
    simp only [show cut (r ++ 47 :: fn) = r ++ 47 :: fn from cut_short _ hr']
    simp only [places_eq, Option.map_some, Option.toList_some, List.cons_append, List.nil_append,
      List.forall_mem_cons]
    cases fs fn <;> cases fs (r ++ 47 :: fn) <;> cases fs (localShare ++ fn) <;>
      cases fs (share ++ fn) <;> simp

/-- `"f"` below the root `"r"`, holding `"x"` -/
def demo : FS := fun p => if p = [114, 47, 102] then some ⟨1, [120]⟩ else none

example : load demo (some [114]) [102] = .ok (some [120]) :=
  first_partial demo (some [114]) [102] [114, 47, 102] ⟨1, [120]⟩ [120] (by decide +kernel)
    ⟨[[102]], [localShare ++ [102], share ++ [102]], by decide +kernel, by decide +kernel, by decide +kernel⟩
    (by decide +kernel) ⟨rfl, rfl, by decide⟩ (by decide)

example : load demo none [102] = .ok none :=
  (missing_partial demo none [102] (by decide +kernel)).2 (by decide +kernel)

/-- C194 fails for files with a NUL: what is behind the first one is silently left out. -/
theorem nul_violated (fs : FS) (root : Option Text) (fn a c : Text) (n : Node) (h : fs fn = some n)
    (hr : Regular n (a ++ 0 :: c)) (ha : (0 : Byte) ∉ a) : load fs root fn = .ok (some a) := by
  obtain ⟨h1, h2, h3⟩ := hr
  have hc : cstr (a ++ 0 :: c) = a := by
    have := cstr_noNul a ha
    unfold cstr at this ⊢
    rw [List.takeWhile_append, this]
    simp
  have : slurp n = .ok a := by
    unfold slurp longMax
    rw [h1, h2, if_neg (by omega), if_neg (by simp)]
    simp only [Int.toNat_natCast, List.take_length, hc]
  unfold load openFile
  simp only [h, this, Res.bind]

example : load (fun p => if p = [102] then some ⟨3, [65, 0, 66]⟩ else none) none [102] = .ok (some [65]) :=
  nul_violated _ none [102] [65] [66] ⟨3, [65, 0, 66]⟩ rfl ⟨rfl, rfl, by decide⟩ (by decide)

/-- C194 fails for pipes, as with `zc run /dev/stdin` behind a `|`: whatever comes through, memory in
front of the block is overwritten. -/
theorem pipe_violated (fs : FS) (root : Option Text) (fn b : Text) (h : fs fn = some ⟨-1, b⟩) :
    load fs root fn = .ub := by
  unfold load openFile
  simp [h, slurp, Res.bind]

/-- C194 fails for directories on file systems where they end at `LONG_MAX` (ext4). -/
theorem dir_violated (fs : FS) (root : Option Text) (fn : Text) (h : fs fn = some ⟨2 ^ 63 - 1, []⟩) :
    load fs root fn = .ub := by
  unfold load openFile
  simp [h, slurp, longMax, Res.bind]

/-- C194 fails where less can be read than the size says (a directory that tells a size, an error of the
disk): the text goes on with memory that was never written. -/
theorem short_violated (fs : FS) (root : Option Text) (fn : Text) (n : Node) (h : fs fn = some n)
    (hs : (n.data.length : Int) < n.size) (h0 : (0 : Byte) ∉ n.data) : load fs root fn = .ub := by
  have : slurp n = .ub := by
    unfold slurp
    split
    · rfl
    · rw [if_pos ⟨by omega, h0⟩]
  unfold load openFile
  simp only [h, this, Res.bind]

/-- a directory of 4096 bytes -/
example : load (fun p => if p = [102] then some ⟨4096, []⟩ else none) none [102] = .ub :=
  short_violated _ none [102] ⟨4096, []⟩ rfl (by decide) (by decide)

/-- C194 fails for files that do not tell their size, like those below `/proc`: they are read as empty. -/
theorem proc_violated (fs : FS) (root : Option Text) (fn b : Text) (h : fs fn = some ⟨0, b⟩) :
    load fs root fn = .ok (some []) := by
  unfold load openFile
  simp [h, slurp, longMax, cstr, Res.bind]

/-- C194 fails for long paths: they are cut at 1023 bytes, and if that leads to a file it is read instead
of the one that is there. -/
theorem long_violated (fs : FS) (r fn b : Text) (n : Node) (h1 : fs fn = none)
    (h2 : fs ((r ++ 47 :: fn).take 1023) = some n) (hr : Regular n b) (h0 : (0 : Byte) ∉ b) :
    load fs (some r) fn = .ok (some b) := by
  unfold load openFile cut
  simp only [h1, h2, slurp_regular n b hr h0, Res.bind]

/-- `"r/aaa…a.zc"` with two files: the one that is meant holds 1, the one that is read 2. -/
example : ∃ (fs : FS) (fn : Text), fs ([114] ++ 47 :: fn) = some ⟨1, [49]⟩ ∧
    load fs (some [114]) fn = .ok (some [50]) := by
  let fs : FS := fun p =>
    if p.length = 1024 then some ⟨1, [49]⟩ else if p.length = 1023 then some ⟨1, [50]⟩ else none
  have h : ∀ k : Nat, (List.replicate k (97 : Byte)).length = k := fun k => List.length_replicate
  generalize hfn : List.replicate 1022 (97 : Byte) = fn
  have hl : fn.length = 1022 := by rw [← hfn]; exact h 1022
  have h2 : ([114] ++ 47 :: fn).length = 1024 := by
    rw [List.length_append, List.length_cons, List.length_cons, hl]; rfl
  have h3 : (([114] ++ 47 :: fn).take 1023).length = 1023 := by
    rw [List.length_take, h2]; rfl
  refine ⟨fs, fn, ?_, long_violated fs [114] fn [50] ⟨1, [50]⟩ ?_ ?_ ⟨rfl, rfl, by decide⟩ (by decide)⟩
  · show (if _ then _ else _) = _
    rw [if_pos h2]
  · show (if _ then _ else _) = _
    rw [if_neg (by rw [hl]; decide), if_neg (by rw [hl]; decide)]
  · show (if _ then _ else _) = _
    rw [if_neg (by rw [h3]; decide), if_pos h3]

end Verif.LoadFile
