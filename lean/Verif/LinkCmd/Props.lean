import Verif.LinkCmd.Model

/-! # The command that compiles the C text, and the program that is run: properties (C187) -/

namespace Verif.LinkCmd
open BuildFlags (split)
open Spec

/-! ## The command -/

theorem sub_r {A : Type} (a : List A) {l m : List A} (h : l.Sublist m) : l.Sublist (a ++ m) :=
  h.trans (List.sublist_append_right _ _)

theorem sub_l {A : Type} (a : List A) {l m : List A} (h : l.Sublist m) : l.Sublist (m ++ a) :=
  h.trans (List.sublist_append_left _ _)

/-- C187: every word of the command, the flags and the link flags, the output and every C file are among
the arguments, in the order written, libraries behind the files that need them. -/
theorem args_wanted (c : Cfg) (out src : List Byte) : (wanted c out src).Sublist (args c out src) := by
  unfold wanted args
  have h1 : (split c.cc ++ split c.flags ++ split c.cflags).Sublist
      (split c.cc ++ split c.flags ++ split c.cflags ++ (if c.freestanding then [b "-ffreestanding"] else []) ++
        (if c.quiet then [b "-w"] else [])) := sub_l _ (sub_l _ (List.Sublist.refl _))
  have h2 : (split c.cc ++ split c.flags ++ split c.cflags ++ [b "-o", out, src] ++ c.cfiles).Sublist
      (split c.cc ++ split c.flags ++ split c.cflags ++ (if c.freestanding then [b "-ffreestanding"] else []) ++
        (if c.quiet then [b "-w"] else []) ++ [b "-o", out] ++ (src :: c.cfiles)) := by
    have := h1.append (List.Sublist.refl ([b "-o", out] ++ (src :: c.cfiles)))
    simp only [List.append_assoc, List.cons_append, List.nil_append] at this ⊢
    exact this
  exact sub_l _ (sub_l _ ((sub_l (platform c) h2).append (List.Sublist.refl _)))

/-- C187: nothing else is among them but what the compiler adds of its own. -/
theorem args_only (c : Cfg) (out src : List Byte) : ∀ a ∈ args c out src, a ∈ wanted c out src ∨ a ∈ own c := by
  intro a ha
  simp only [args, List.mem_append] at ha
  rcases ha with (((((((((h | h) | h) | h) | h) | h) | h) | h) | h) | h) | h
  · left; simp [wanted, h]
  · left; simp [wanted, h]
  · left; simp [wanted, h]
  · right
    split at h
    · simp only [List.mem_singleton] at h; simp [own, h]
    · cases h
  · right
    split at h
    · simp only [List.mem_singleton] at h; simp [own, h]
    · cases h
  · left
    simp only [List.mem_cons, List.not_mem_nil, or_false] at h
    rcases h with h | h <;> simp [wanted, h]
  · left
    rcases List.mem_cons.mp h with h | h <;> simp [wanted, h]
  · right
    simp only [platform] at h
    split at h
    · rcases List.mem_cons.mp h with h | h
      · simp [own, h]
      · split at h
        · simp only [List.mem_singleton] at h; simp [own, h]
        · cases h
    · cases h
  · left; simp [wanted, h]
  · right
    split at h
    · simp only [List.mem_singleton] at h; simp [own, h]
    · cases h
  · right
    simp only [includes] at h
    cases hd : c.dir with
    | some d =>
        rw [hd] at h
        rcases List.mem_cons.mp h with h | h
        · simp [own, hd, h]
        · split at h
          · simp only [List.mem_singleton] at h; simp [own, hd, h]
          · cases h
    | none =>
        rw [hd] at h
        rcases List.mem_cons.mp h with h | h
        · simp [own, h]
        · split at h
          · simp only [List.mem_singleton] at h; simp [own, h]
          · cases h

/-- C187: `-o` is followed by the output, the source, and the C files, and these by `-lm` if the program is
hosted, and by the link flags. -/
theorem args_shape (c : Cfg) (out src : List Byte) : ∃ before after,
    args c out src = before ++ [b "-o", out, src] ++ c.cfiles ++ (platform c ++ split c.link) ++ after ∧
    (platform c = if c.windows || c.freestanding then [] else if c.async then [b "-lm", b "-lpthread"] else [b "-lm"]) := by
  refine ⟨split c.cc ++ split c.flags ++ split c.cflags ++ (if c.freestanding then [b "-ffreestanding"] else []) ++
    (if c.quiet then [b "-w"] else []), (if c.windows then [b "-lws2_32"] else []) ++ includes c, ?_, ?_⟩
  · simp [args, List.append_assoc]
  · unfold platform
    cases c.windows <;> cases c.freestanding <;> cases c.async <;> rfl

/-! ## Linking -/

/-- a symbol is not both defined and wanted -/
def Ok (s : LSt) : Prop := ∀ x, s.undef x = true → s.known x = false

theorem load_ok (i : Unit') (s : LSt) : Ok (load i s) := by
  intro x h
  simp only [load, Bool.and_eq_true, Bool.not_eq_true'] at h
  simp only [load, h.1.2, h.2, Bool.or_false]

theorem archive_ok {s : LSt} (i : Unit') (h : Ok s) : Ok (archive i s) := by
  unfold archive
  split
  · exact load_ok i s
  · exact h

theorem load_comm (i j : Unit') (s : LSt) : load i (load j s) = load j (load i s) := by
  simp only [load, LSt.mk.injEq]
  constructor
  · funext x
    cases s.undef x <;> cases i.needs.contains x <;> cases j.needs.contains x <;> cases s.known x <;>
      cases i.defs.contains x <;> cases j.defs.contains x <;> rfl
  · funext x
    cases s.known x <;> cases i.defs.contains x <;> cases j.defs.contains x <;> rfl

theorem any_load {i j : Unit'} {s : LSt} (h : Ok s) (ha : Apart i j) :
    i.defs.any (load j s).undef = i.defs.any s.undef := by
  rw [Bool.eq_iff_iff, List.any_eq_true, List.any_eq_true]
  have key : ∀ x ∈ i.defs, (load j s).undef x = s.undef x := by
    intro x hx
    obtain ⟨h1, h2⟩ := ha.1 x hx
    have e1 : j.needs.contains x = false := by simpa using h1
    have e2 : j.defs.contains x = false := by simpa using h2
    simp only [load, e1, e2, Bool.or_false, Bool.not_false, Bool.and_true]
    cases hu : s.undef x with
    | false => rfl
    | true => simp [h x hu]
  constructor
  · rintro ⟨x, hx, hu⟩; exact ⟨x, hx, (key x hx) ▸ hu⟩
  · rintro ⟨x, hx, hu⟩; exact ⟨x, hx, (key x hx).symm ▸ hu⟩

theorem Apart.symm {i j : Unit'} (h : Apart i j) : Apart j i := ⟨h.2, h.1⟩

theorem archive_comm {i j : Unit'} {s : LSt} (h : Ok s) (ha : Apart i j) :
    archive i (archive j s) = archive j (archive i s) := by
  have e1 := any_load (s := s) h ha
  have e2 := any_load (s := s) h ha.symm
  by_cases hi : i.defs.any s.undef = true
  · by_cases hj : j.defs.any s.undef = true
    · simp only [archive, hi, hj, if_true, e1, e2]
      exact load_comm i j s
    · simp only [archive, hi, hj, if_true, e2, Bool.false_eq_true, if_false]
  · by_cases hj : j.defs.any s.undef = true
    · simp only [archive, hi, hj, if_true, e1, Bool.false_eq_true, if_false]
    · simp only [archive, hi, hj, Bool.false_eq_true, if_false]

theorem foldl_archive_ok {s : LSt} (h : Ok s) : ∀ l : List Unit', Ok (l.foldl (fun s i => archive i s) s)
  | [] => h
  | i :: l => foldl_archive_ok (archive_ok i h) l

theorem archive_last (m : Unit') : ∀ (libs : List Unit') (s : LSt), Ok s → (∀ i ∈ libs, Apart m i) →
    libs.foldl (fun s i => archive i s) (archive m s) = archive m (libs.foldl (fun s i => archive i s) s)
  | [], _, _, _ => rfl
  | i :: libs, s, h, ha => by
      have hc := archive_comm h (ha i (by simp))
      simp only [List.foldl_cons]
      rw [← hc]
      exact archive_last m libs (archive i s) (archive_ok i h) (fun j hj => ha j (by simp [hj]))

theorem objs_ok : ∀ (objs : List Unit') (s : LSt), Ok s → Ok (objs.foldl (fun s i => load i s) s)
  | [], _, h => h
  | i :: objs, s, _ => objs_ok objs _ (load_ok i s)

/-- C187 (partial): the command has `-lm` and `-lpthread` before the libraries of the user.  If none of
these uses them, or defines what they use, the program links just as with the two at the end.  Missing:
libraries that do (`static_math_violated`). -/
theorem links_partial (objs libs sys : List Unit') (ha : ∀ m ∈ sys, ∀ i ∈ libs, Apart m i) :
    link objs (sys ++ libs) = link objs (libs ++ sys) := by
  unfold link
  have h0 : Ok (objs.foldl (fun s i => load i s) (⟨fun _ => false, fun _ => false⟩ : LSt)) :=
    objs_ok objs _ (by intro x h; cases h)
  generalize objs.foldl (fun s i => load i s) (⟨fun _ => false, fun _ => false⟩ : LSt) = s at h0 ⊢
  induction sys generalizing s with
  | nil => simp
  | cons m sys ih =>
      have := ih (fun n hn => ha n (by simp [hn])) (archive m s) (archive_ok m h0)
      simp only [List.cons_append, List.foldl_cons, List.foldl_append] at this ⊢
      rw [this, archive_last m libs s h0 (ha m (by simp))]

/-- C187 refuted: a program uses `f` of a library that uses `sqrt`; with `-lm` before the library the
symbol is missing, behind it the program links. -/
theorem static_math_violated (f sqrt : Nat) (h : f ≠ sqrt) :
    ¬ Links [⟨[f], []⟩] ([⟨[], [sqrt]⟩] ++ [⟨[sqrt], [f]⟩]) ∧
    Links [⟨[f], []⟩] ([⟨[sqrt], [f]⟩] ++ [⟨[], [sqrt]⟩]) := by
  have h' : sqrt ≠ f := fun e => h e.symm
  constructor
  · intro hl
    have := hl sqrt
    simp [link, archive, load, h'] at this
  · intro x
    simp [link, archive, load, h']
    intros
    simp_all

/-! ## The program that is run -/

/-- C187 (partial): `zc run` runs the program just made, if its name is relative and not too long.
Missing: `run_absolute_violated`. -/
theorem run_partial (cwd out : List Byte) (hr : out.head? ≠ some 47) (hl : out.length ≤ 1021) :
    file cwd (runPath out) = file cwd out := by
  have e : runPath out = 46 :: 47 :: out := by
    unfold runPath
    rw [List.take_of_length_le (by simp; omega)]
    rfl
  rw [e, file, file, if_neg (by simp), if_neg hr]
  simp [comps]

/-- C187 refuted: with an absolute path for the output (and a working directory other than the root)
another file is run. -/
theorem run_absolute_violated (cwd p : List Byte) (hl : p.length ≤ 1020) (hc : comps [] cwd ≠ []) :
    file cwd (runPath (47 :: p)) = comps [] cwd ++ file cwd (47 :: p) ∧
    file cwd (runPath (47 :: p)) ≠ file cwd (47 :: p) := by
  have e : runPath (47 :: p) = 46 :: 47 :: 47 :: p := by
    unfold runPath
    rw [List.take_of_length_le (by simp; omega)]
    rfl
  have e1 : file cwd (runPath (47 :: p)) = comps [] cwd ++ file cwd (47 :: p) := by
    rw [e, file, file, if_neg (by simp), if_pos (by simp)]
    simp [comps]
  refine ⟨e1, ?_⟩
  rw [e1]
  intro h
  have := congrArg List.length h
  rw [List.length_append] at this
  have : (comps [] cwd).length = 0 := by omega
  exact hc (List.length_eq_zero_iff.mp this)

/-- `zc main.zc -lfoo -O2` with a C file, and a library that uses no mathematics -/
example : args ⟨b "gcc", b "-O2", [], b "-lfoo", [b "x.c"], false, false, false, true, none⟩ (b "a.out") (b "out.c") =
    [b "gcc", b "-O2", b "-o", b "a.out", b "out.c", b "x.c", b "-lm", b "-lpthread", b "-lfoo", b "-I.",
      b "-I./std/third-party/tre/include"] := by decide +kernel

example : link [⟨[1, 9], [0]⟩] ([⟨[], [9]⟩] ++ [⟨[2], [1]⟩, ⟨[], [2]⟩]) =
    link [⟨[1, 9], [0]⟩] ([⟨[2], [1]⟩, ⟨[], [2]⟩] ++ [⟨[], [9]⟩]) :=
  links_partial _ _ _ (by simp [Apart])

example : file (b "/home/u") (runPath (b "build/x")) = [b "home", b "u", b "build", b "x"] ∧
    file (b "/home/u") (runPath (b "/tmp/x")) = [b "home", b "u", b "tmp", b "x"] := by decide +kernel

end Verif.LinkCmd
