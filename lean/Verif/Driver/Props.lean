import Verif.Driver.Lemmas

/-!
# The command line and the driver: theorems

C101 (`command`, `position`, `file_first`, `flags_first`): behind a command every option means the same
wherever it stands, values may be joined or apart, files keep their order, and the last of several outputs
counts.  Not so: an option with a dot as the first argument is taken for the input file (`dash_dot_violated`);
a first argument that is no command, no option and has no dot is ignored (`unknown_violated`); `--cpp` behind
`--cc` takes the compiler back (`cc_violated`); arguments for the program become source files
(`program_args_violated`).

C102 (`check_files`, `frame`, `build_partial`, `transpile_partial`, `run_partial`, `status_iff`): which files
change and what the exit status is.  Not so: a file with the name of the generated one is overwritten and
removed (`temp_violated`, `extra_violated`); `run` removes a file with the name of the output
(`run_out_violated`) and looks for an absolute output elsewhere (`run_abs_violated`); a program that exits with
128 makes `zc run` exit with 0 (`status_violated`).
-/

namespace Verif.Driver
open Spec

/-! ## The command line -/

theorem modeOf_ok {w : Str} {c0 : Config} (h : modeOf w = some c0) : Ok c0 ∧ c0.input = none ∧
    ∀ r, commandLine (w :: r) = options c0 r := by
  unfold modeOf at h
  split at h
  · subst_vars; cases h; exact ⟨⟨by simp, by simp, by simp, by simp⟩, rfl, fun r => rfl⟩
  split at h
  · subst_vars; cases h; exact ⟨⟨by simp, by simp, by simp, by simp⟩, rfl, fun r => rfl⟩
  split at h
  · subst_vars; cases h; exact ⟨⟨by simp, by simp, by simp, by simp⟩, rfl, fun r => rfl⟩
  split at h
  · subst_vars; cases h; exact ⟨⟨by simp, by simp, by simp, by simp⟩, rfl, fun r => rfl⟩
  · cases h

theorem asks_iff {a : Str} : asks a = true ↔ Asks a := by
  unfold asks Asks
  simp only [Bool.or_eq_true, decide_eq_true_eq, List.mem_cons, List.not_mem_nil, or_false, or_assoc]

theorem asks_false {a : Str} (h : ¬ Asks a) : asks a = false := by
  cases e : asks a with
  | false => rfl
  | true => exact absurd (asks_iff.1 e) h

theorem options_ok (c0 : Config) (h0 : Ok c0) (l : List Item) (hw : ∀ i ∈ l, i.Wf)
    (ha : ∀ a ∈ l.flatMap Item.render, ¬ Asks a) (hf : c0.input.isSome ∨ ∃ a, .file a ∈ l) :
    ∃ c, options c0 (l.flatMap Item.render) = .go c ∧ Means l c0 c ∧ Ok c := by
  obtain ⟨c, h1, h2, h3⟩ := items_fold l c0 h0 hw
  refine ⟨c, ?_, h2, h3⟩
  have hin : c.input ≠ none := by
    intro e
    have hF := h2.files
    rw [e, h3.first e] at hF
    have hl := congrArg List.length hF
    rw [List.length_take] at hl
    rcases hf with hf | ⟨a, hf⟩
    · cases hi : c0.input with
      | none => rw [hi] at hf; simp at hf
      | some x => rw [hi] at hl; simp at hl; omega
    · have : a ∈ l.filterMap Item.asFile := List.mem_filterMap.2 ⟨_, hf, rfl⟩
      have := List.length_pos_of_mem this
      simp at hl; omega
  unfold options
  rw [h1]
  have hany : (l.flatMap Item.render).any asks = false := by
    rw [List.any_eq_false]
    intro a m h
    exact ha a m (asks_iff.1 h)
  simp only
  rw [hany]
  simp [hin]

/-- C101: behind a command each part of the command line means what the usage text says. -/
theorem command {w : Str} {c0 : Config} (hm : modeOf w = some c0) (l : List Item) (hw : ∀ i ∈ l, i.Wf)
    (ha : ∀ a ∈ l.flatMap Item.render, ¬ Asks a) (hf : ∃ a, .file a ∈ l) :
    ∃ c, commandLine (w :: l.flatMap Item.render) = .go c ∧ Means l c0 c := by
  obtain ⟨h0, _, hr⟩ := modeOf_ok hm
  obtain ⟨c, h1, h2, _⟩ := options_ok c0 h0 l hw ha (.inr hf)
  exact ⟨c, by rw [hr]; exact h1, h2⟩

/-- C101: a question for the version or the paths is answered wherever it stands, and nothing else is done. -/
theorem question {w : Str} {c0 : Config} (hm : modeOf w = some c0) (l l' : List Item) (hw : ∀ i ∈ l ++ l', i.Wf)
    (a : Str) (ha : Asks a) :
    commandLine (w :: (l.flatMap Item.render ++ a :: l'.flatMap Item.render)) = .info := by
  obtain ⟨h0, _, hr⟩ := modeOf_ok hm
  obtain ⟨c, h1, _, h3⟩ := items_fold l c0 h0 (fun i h => hw i (by simp [h]))
  obtain ⟨c', h1', _, _⟩ := items_fold l' c h3 (fun i h => hw i (by simp [h]))
  have hk : classify a = .info := by
    have key : ∀ v ∈ ["--version".toList, "-V".toList, "--paths".toList], classify v = .info := by decide +kernel
    exact key a ha
  have hs : step (c, none) a = (c, none) := by simp only [step, hk]
  rw [hr]
  unfold options
  rw [List.foldl_append, h1, List.foldl_cons, hs, h1']
  have hany : (l.flatMap Item.render ++ a :: l'.flatMap Item.render).any asks = true := by
    rw [List.any_append, List.any_cons, asks_iff.2 ha]; simp
  simp only
  rw [hany]
  simp

example : commandLine ["build".toList, "main.zc".toList, "--version".toList, "-q".toList] = .info := by rfl

/-- C101: `-o` without a name is an error. -/
theorem output_missing {w : Str} {c0 : Config} (hm : modeOf w = some c0) (l : List Item) (hw : ∀ i ∈ l, i.Wf) :
    commandLine (w :: (l.flatMap Item.render ++ ["-o".toList])) = .error := by
  obtain ⟨h0, _, hr⟩ := modeOf_ok hm
  obtain ⟨c, h1, _, h3⟩ := items_fold l c0 h0 hw
  have hs : step (c, none) "-o".toList = (c, some .out) := by
    have : classify "-o".toList = .value .out [] := by decide +kernel
    simp only [step, this]
  rw [hr]
  unfold options
  rw [List.foldl_append, h1, List.foldl_cons, hs, List.foldl_nil]

/-- C101: without a file there is nothing to do: an error. -/
theorem input_missing {w : Str} {c0 : Config} (hm : modeOf w = some c0) (l : List Item) (hw : ∀ i ∈ l, i.Wf)
    (ha : ∀ a ∈ l.flatMap Item.render, ¬ Asks a) (hf : ∀ a, .file a ∉ l) :
    commandLine (w :: l.flatMap Item.render) = .error := by
  obtain ⟨h0, hi, hr⟩ := modeOf_ok hm
  obtain ⟨c, h1, h2, h3⟩ := items_fold l c0 h0 hw
  have hfm : l.filterMap Item.asFile = [] := by
    rw [List.filterMap_eq_nil_iff]
    intro i m
    cases i with
    | file a => exact absurd m (hf a)
    | _ => rfl
  have hin : c.input = none := by
    have hF := h2.files
    rw [hi, h0.first hi, hfm] at hF
    cases hc : c.input with
    | none => rfl
    | some x => rw [hc] at hF; simp at hF
  have hany : (l.flatMap Item.render).any asks = false := by
    rw [List.any_eq_false]
    intro a m h
    exact ha a m (asks_iff.1 h)
  rw [hr]
  unfold options
  rw [h1]
  simp only
  rw [hany]
  simp [hin]

example : commandLine ["run".toList, "-O".toList, "2".toList] = .error := by rfl

/-- a command line with most of the options -/
def demoItems : List Item :=
  [.flag .quiet "-q".toList, .joined .I "inc".toList, .file "main.zc".toList, .apart .D "N=3".toList,
   .pass "-Wall".toList, .apart .o "prog".toList, .joined .l "m".toList, .file "b.c".toList, .joined .O "2".toList,
   .cc "zig".toList]

example : commandLine ("run".toList :: demoItems.flatMap Item.render) = .go
    { run := true, quiet := true, includes := ["inc".toList], defines := ["N".toList], output := some "prog".toList,
      flags := ["-Iinc".toList, "-DN=3".toList, "-Wall".toList, "-O2".toList], link := ["-lm".toList],
      input := some "main.zc".toList, extra := ["b.c".toList], cc := "zig cc".toList } := by rfl

example : (∀ i ∈ demoItems, i.Wf) ∧ (∀ a ∈ demoItems.flatMap Item.render, ¬ Asks a) ∧ ∃ a, .file a ∈ demoItems := by
  refine ⟨?_, ?_, ⟨"main.zc".toList, by simp [demoItems]⟩⟩
  · intro i h
    simp only [demoItems, List.mem_cons, List.not_mem_nil, or_false] at h
    rcases h with rfl | rfl | rfl | rfl | rfl | rfl | rfl | rfl | rfl | rfl
    · exact List.mem_cons_of_mem _ (List.mem_cons_self ..)
    · show "inc".toList ≠ []; decide
    · show "main.zc".toList.head? ≠ _; decide
    · trivial
    · exact ⟨'W', "all".toList, rfl, by decide, by decide⟩
    · trivial
    · show "m".toList ≠ []; decide
    · show "b.c".toList.head? ≠ _; decide
    · show "2".toList ≠ []; decide
    · trivial
  · unfold Asks; decide +kernel

theorem filterMap_notFile {β : Type} (f : Item → Option β) (hf : ∀ a, f (.file a) = none) (l : List Item) :
    l.filterMap f = (l.filter (!·.isFile)).filterMap f := by
  induction l with
  | nil => rfl
  | cons i l ih =>
    rw [List.filterMap_cons, List.filter_cons]
    cases hb : i.isFile with
    | true =>
      obtain ⟨a, rfl⟩ : ∃ a, i = .file a := by
        cases i <;> first | exact ⟨_, rfl⟩ | cases hb
      rw [hf]; simpa using ih
    | false => simp only [Bool.not_false, if_true]; rw [List.filterMap_cons, ih]

theorem filterMap_file (l : List Item) : l.filterMap Item.asFile = (l.filter (·.isFile)).filterMap Item.asFile := by
  induction l with
  | nil => rfl
  | cons i l ih =>
    rw [List.filterMap_cons, List.filter_cons]
    cases hb : i.isFile with
    | true => simp only [if_true]; rw [List.filterMap_cons, ih]
    | false =>
      have : i.asFile = none := by cases i <;> first | rfl | cases hb
      rw [this]; simpa using ih

theorem given_notFile (f : Flag) (l : List Item) : given f l = given f (l.filter (!·.isFile)) := by
  induction l with
  | nil => rfl
  | cons i l ih =>
    have h : ∀ j k, given f (j :: k) = (given f [j] || given f k) := fun j k => by simp [given]
    cases i with
    | file a =>
      rw [h, ih]
      have : given f [Item.file a] = false := rfl
      rw [this]; simp [Item.isFile]
    | _ => rw [h, ih]; simp only [List.filter_cons, Item.isFile, Bool.not_false, if_true]; rw [← h]

/-- C101: options may stand before, between or behind the files: only the order of the options and the order of
the files matter. -/
theorem position {w : Str} {c0 : Config} (hm : modeOf w = some c0) (l l' : List Item) (hw : ∀ i ∈ l, i.Wf)
    (ha : ∀ a ∈ l.flatMap Item.render, ¬ Asks a)
    (h1 : l.filter (·.isFile) = l'.filter (·.isFile)) (h2 : l.filter (!·.isFile) = l'.filter (!·.isFile))
    (hf : ∃ a, .file a ∈ l) :
    commandLine (w :: l.flatMap Item.render) = commandLine (w :: l'.flatMap Item.render) := by
  have mem : ∀ i, i ∈ l' → i ∈ l := by
    intro i hi
    cases hb : i.isFile with
    | true => exact (List.mem_filter.1 (h1 ▸ List.mem_filter.2 ⟨hi, hb⟩)).1
    | false => exact (List.mem_filter.1 (h2 ▸ List.mem_filter.2 ⟨hi, by simp [hb]⟩)).1
  obtain ⟨h0, _, hr⟩ := modeOf_ok hm
  obtain ⟨c, e1, m1, o1⟩ := options_ok c0 h0 l hw ha (.inr hf)
  have hf' : ∃ a, .file a ∈ l' := by
    obtain ⟨a, hf⟩ := hf
    exact ⟨a, (List.mem_filter.1 (h1 ▸ List.mem_filter.2 ⟨hf, rfl⟩)).1⟩
  obtain ⟨c', e2, m2, o2⟩ := options_ok c0 h0 l' (fun i hi => hw i (mem i hi))
    (fun a h => by
      obtain ⟨i, hi, hai⟩ := List.mem_flatMap.1 h
      exact ha a (List.mem_flatMap.2 ⟨i, mem i hi, hai⟩)) (.inr hf')
  have hg : ∀ f, given f l' = given f l := fun f => by rw [given_notFile f l', given_notFile f l, h2]
  have hm' : ∀ {β : Type} (f : Item → Option β), (∀ a, f (.file a) = none) → l'.filterMap f = l.filterMap f := by
    intro β f h; rw [filterMap_notFile f h l', filterMap_notFile f h l, h2]
  have hfi : l'.filterMap Item.asFile = l.filterMap Item.asFile := by
    rw [filterMap_file l', filterMap_file l, h1]
  have m2' : Means l c0 c' := by
    constructor
    · exact m2.run
    · exact m2.transpile
    · rw [m2.check, hg]
    · rw [m2.emitC, hg]
    · rw [m2.json, hg]
    · rw [m2.keepComments, hg]
    · rw [m2.verbose, hg]
    · rw [m2.quiet, hg]
    · rw [m2.noZen, hg]
    · rw [m2.typecheck, hg]
    · rw [m2.freestanding, hg]
    · rw [m2.cpp, hg, hg]
    · rw [m2.cuda, hg]
    · rw [m2.objc, hg]
    · rw [m2.cc, hm' _ fun _ => rfl]
    · rw [m2.output, hm' _ fun _ => rfl]
    · rw [m2.flags, hm' _ fun _ => rfl]
    · rw [m2.link, hm' _ fun _ => rfl]
    · rw [m2.includes, hm' _ fun _ => rfl]
    · rw [m2.defines, hm' _ fun _ => rfl]
    · rw [m2.files, hfi]
  rw [hr, hr, e1, e2, Means.unique m1 m2' o1 o2]

/-- the commands and the options for help have no dot -/
theorem no_dot {w : Str} (h : '.' ∈ w) : w ∉ ["lsp".toList, "repl".toList, "transpile".toList, "run".toList,
    "check".toList, "build".toList, "--help".toList, "-h".toList] := by
  intro hw
  have : ∀ v ∈ ["lsp".toList, "repl".toList, "transpile".toList, "run".toList,
    "check".toList, "build".toList, "--help".toList, "-h".toList], '.' ∉ v := by decide +kernel
  exact this w hw h

theorem commandLine_dot {w : Str} (h : '.' ∈ w) (r : List Str) :
    commandLine (w :: r) = options { input := some w } r := by
  have hn := no_dot h
  simp only [List.mem_cons, List.not_mem_nil, or_false, not_or] at hn
  obtain ⟨h1, h2, h3, h4, h5, h6, h7, h8⟩ := hn
  have hc : w.contains '.' = true := by simpa using h
  rw [commandLine.eq_2]
  rw [if_neg h1, if_neg h2, if_neg h3, if_neg h4, if_neg h5, if_neg h6, if_neg (fun h => h.elim h7 h8), if_pos hc]

theorem commandLine_other {w : Str} (h : '.' ∉ w) (hn : w ∉ ["lsp".toList, "repl".toList, "transpile".toList,
    "run".toList, "check".toList, "build".toList, "--help".toList, "-h".toList]) (r : List Str) :
    commandLine (w :: r) = if w.head? = some '-' then options {} (w :: r) else options {} r := by
  simp only [List.mem_cons, List.not_mem_nil, or_false, not_or] at hn
  obtain ⟨h1, h2, h3, h4, h5, h6, h7, h8⟩ := hn
  have hc : ¬ w.contains '.' = true := by simpa using h
  rw [commandLine.eq_2]
  rw [if_neg h1, if_neg h2, if_neg h3, if_neg h4, if_neg h5, if_neg h6, if_neg (fun h => h.elim h7 h8), if_neg hc]

/-- C101: a file with a dot in place of the command is built. -/
theorem file_first {f : Str} (hd : '.' ∈ f) (hm : f.head? ≠ some '-') (r : List Str)
    (ha : ¬ Asks f) : commandLine (f :: r) = commandLine ("build".toList :: f :: r) := by
  rw [commandLine_dot hd]
  have h1 : commandLine ("build".toList :: f :: r) = options {} (f :: r) := rfl
  rw [h1]
  have hc : classify f = .file := classify_file hm
  have hs : step (({} : Config), none) f = ({ input := some f }, none) := by
    simp only [step, hc]
  unfold options
  rw [List.foldl_cons, hs, List.any_cons, asks_false ha, Bool.false_or]

example : '.' ∈ "main.zc".toList ∧ "main.zc".toList.head? ≠ some '-' ∧ ¬ Asks "main.zc".toList := by
  unfold Asks; decide +kernel

/-- C101: an option without a dot in place of the command: build. -/
theorem flags_first {a : Str} (hd : '.' ∉ a) (hm : a.head? = some '-')
    (hh : a ∉ ["--help".toList, "-h".toList]) (r : List Str) :
    commandLine (a :: r) = commandLine ("build".toList :: a :: r) := by
  have hn : a ∉ ["lsp".toList, "repl".toList, "transpile".toList,
    "run".toList, "check".toList, "build".toList, "--help".toList, "-h".toList] := by
    intro h
    simp only [List.mem_cons, List.not_mem_nil, or_false] at h hh
    have key : ∀ v ∈ ["lsp".toList, "repl".toList, "transpile".toList, "run".toList, "check".toList,
      "build".toList], v.head? ≠ some '-' := by decide +kernel
    rcases h with h | h | h | h | h | h | h
    · exact key _ (by simp) (h ▸ hm)
    · exact key _ (by simp) (h ▸ hm)
    · exact key _ (by simp) (h ▸ hm)
    · exact key _ (by simp) (h ▸ hm)
    · exact key _ (by simp) (h ▸ hm)
    · exact key _ (by simp) (h ▸ hm)
    · exact hh h
  rw [commandLine_other hd hn, if_pos hm]
  rfl

example : '.' ∉ "-O2".toList ∧ "-O2".toList.head? = some '-' ∧ "-O2".toList ∉ ["--help".toList, "-h".toList] := by
  decide +kernel

/-- C101 violated: `zc -I./inc main.zc` takes the option for the input file and `main.zc` for a further one. -/
theorem dash_dot_violated {v f : Str} (hd : '.' ∈ v) (hf : f.head? ≠ some '-') (ha : ¬ Asks f) (x : Letter) :
    ∃ c, commandLine ['-' :: x.char :: v, f] = .go c ∧ c.input = some ('-' :: x.char :: v) ∧ c.extra = [f] ∧
      c.includes = [] ∧ c.output = none := by
  rw [commandLine_dot (by simp [hd])]
  have hc : classify f = .file := classify_file hf
  refine ⟨{ input := some ('-' :: x.char :: v), extra := [f] }, ?_, rfl, rfl, rfl, rfl⟩
  simp [options, step, hc, push64, asks_false ha]

example : '.' ∈ "./inc".toList := by decide +kernel

/-- C101 violated: a first argument that is neither a command nor an option and has no dot is ignored:
`zc bild main.zc` builds, `zc main` has no input file. -/
theorem unknown_violated {w : Str} (hd : '.' ∉ w) (hm : w.head? ≠ some '-')
    (hn : w ∉ ["lsp".toList, "repl".toList, "transpile".toList, "run".toList, "check".toList, "build".toList,
      "--help".toList, "-h".toList]) (r : List Str) :
    commandLine (w :: r) = commandLine ("build".toList :: r) := by
  rw [commandLine_other hd hn, if_neg hm]
  rfl

example : commandLine ["bild".toList, "main.zc".toList] = .go { input := some "main.zc".toList } := by rfl
example : commandLine ["main".toList] = .error := by rfl

/-- C101 violated: `--cpp` behind `--cc v` takes the compiler back. -/
theorem cc_violated {w : Str} {c0 : Config} (hm : modeOf w = some c0) (l : List Item) (hw : ∀ i ∈ l, i.Wf)
    (ha : ∀ a ∈ l.flatMap Item.render, ¬ Asks a) (hf : ∃ a, .file a ∈ l) (v : Str) (hv : ¬ Asks v) :
    ∃ c, commandLine (w :: (l ++ [Item.cc v, Item.flag .cpp "--cpp".toList]).flatMap Item.render) = .go c ∧
      c.cc = "g++".toList := by
  obtain ⟨c, h1, h2⟩ := command hm (l ++ [Item.cc v, Item.flag .cpp "--cpp".toList])
    (by
      intro i h
      rcases List.mem_append.1 h with h | h
      · exact hw i h
      · simp only [List.mem_cons, List.not_mem_nil, or_false] at h
        rcases h with rfl | rfl
        · trivial
        · exact List.mem_cons_self ..)
    (by
      intro a h
      rw [List.flatMap_append] at h
      rcases List.mem_append.1 h with h | h
      · exact ha a h
      · have h' : a = "--cc".toList ∨ a = v ∨ a = "--cpp".toList := by
          simpa [Item.render] using h
        rcases h' with rfl | rfl | rfl
        · unfold Asks; decide +kernel
        · exact hv
        · unfold Asks; decide +kernel)
    (by obtain ⟨a, h⟩ := hf; exact ⟨a, List.mem_append.2 (.inl h)⟩)
  refine ⟨c, h1, ?_⟩
  rw [h2.cc, List.filterMap_append, List.getLast?_append]
  simp [Item.asCc]

example : ∃ c, commandLine ["build".toList, "m.zc".toList, "--cc".toList, "clang++".toList, "--cpp".toList] = .go c ∧
    c.cc = "g++".toList := ⟨_, rfl, rfl⟩

/-- C101 violated: there is no way to give arguments to the program: what stands behind the file is a source
file or an option. -/
theorem program_args_violated {f : Str} (hf : f.head? ≠ some '-') (args : List Str)
    (h : ∀ a ∈ args, a.head? ≠ some '-') (hl : args.length ≤ 64) (ha : ∀ a ∈ f :: args, ¬ Asks a) :
    ∃ c, commandLine ("run".toList :: f :: args) = .go c ∧ c.input = some f ∧ c.extra = args := by
  have hr : (args.map Item.file).flatMap Item.render = args := by
    clear h hl ha
    induction args with
    | nil => rfl
    | cons a l ih => rw [List.map_cons, List.flatMap_cons, ih]; rfl
  have hr2 : ((f :: args).map Item.file).flatMap Item.render = f :: args := by
    rw [List.map_cons, List.flatMap_cons, hr]; rfl
  obtain ⟨c, h1, h2⟩ := command (w := "run".toList) rfl ((f :: args).map Item.file)
    (by
      intro i hi
      obtain ⟨a, m, rfl⟩ := List.mem_map.1 hi
      rcases List.mem_cons.1 m with rfl | m
      · exact hf
      · exact h a m)
    (by rw [hr2]; exact ha) ⟨f, by simp⟩
  rw [hr2] at h1
  refine ⟨c, h1, ?_⟩
  have hF := h2.files
  have e : ∀ l : List Str, (l.map Item.file).filterMap Item.asFile = l := by
    intro l
    induction l with
    | nil => rfl
    | cons a l ih => rw [List.map_cons, List.filterMap_cons]; simp [Item.asFile, ih]
  rw [e, List.take_of_length_le (by simp; omega)] at hF
  have hF' : c.input.toList ++ c.extra = f :: args := by simpa using hF
  cases hi : c.input with
  | some x => rw [hi] at hF'; simpa using hF'
  | none =>
    rw [hi] at hF'
    obtain ⟨c', g1, _, g3⟩ := options_ok { run := true } ⟨by simp, by simp, by simp, by simp⟩ ((f :: args).map Item.file)
      (by
        intro i hi
        obtain ⟨a, m, rfl⟩ := List.mem_map.1 hi
        rcases List.mem_cons.1 m with rfl | m
        · exact hf
        · exact h a m)
      (by rw [hr2]; exact ha) (.inr ⟨f, by simp⟩)
    rw [hr2] at g1
    have h3 : commandLine ("run".toList :: f :: args) = options { run := true } (f :: args) := rfl
    rw [h3, g1] at h1
    injection h1 with h1
    subst h1
    rw [g3.first hi] at hF'
    simp at hF'

example : ∃ c, commandLine ["run".toList, "main.zc".toList, "input.txt".toList] = .go c ∧
    c.extra = ["input.txt".toList] := ⟨_, rfl, rfl⟩

/-! ## Files -/

theorem put_same (fs : Fs) (p : Path) (v : Option Str) : fs.put p v p = v := by simp [Fs.put]
theorem put_ne (fs : Fs) {p q : Path} (v : Option Str) (h : q ≠ p) : fs.put p v q = fs q := by simp [Fs.put, h]

theorem readable_some {E : Env} {c : Config} {fs : Fs} :
    Readable E c fs ↔ ∃ x, (c.input.bind fun f => fs (resolve E.cwd f)) = some x := by
  unfold Readable
  cases c.input with
  | none => simp
  | some f => simp

/-- C102: checking changes no file, and the exit status says whether the program is right. -/
theorem check_files (E : Env) (c : Config) (fs : Fs) (hc : c.check = true) :
    (drive E c fs).2 = fs ∧ ((drive E c fs).1 = 0 ∨ (drive E c fs).1 = 1) ∧
      ((drive E c fs).1 = 0 ↔ Readable E c fs ∧ ∃ t, E.front c fs = some t) := by
  rw [readable_some]
  unfold drive
  simp only [hc, if_true]
  split
  · rename_i h; simp [h]
  · rename_i h
    split
    · rename_i h'; simp [h']
    · rename_i h'; simp [h, h']

/-- an environment in which everything works and the program exits with `n` -/
def demoEnv (n : Nat) : Env :=
  { cwd := ["w".toList], writable := fun _ => true, front := fun _ _ => some "int main..".toList,
    compile := fun _ _ => some "ELF".toList, exec := fun _ fs => (.exited n, fs) }

/-- a directory with a program -/
def demoFs : Fs := fun p => if p = ["w".toList, "main.zc".toList] then some "fn main..".toList else none

/-- the driver after the command line -/
theorem drive_build {E : Env} {c : Config} {fs : Fs} {text : Str} (h1 : Readable E c fs)
    (h2 : E.front c fs = some text) (h3 : c.check = false) (h4 : E.writable (resolve E.cwd (tempName c)) = true)
    (h5 : c.transpile = false) :
    drive E c fs =
      match E.compile c (fs.put (resolve E.cwd (tempName c)) (some text)) with
      | none => (1, if c.emitC then fs.put (resolve E.cwd (tempName c)) (some text)
          else (fs.put (resolve E.cwd (tempName c)) (some text)).put (resolve E.cwd (tempName c)) none)
      | some exe =>
        let fs2 := (fs.put (resolve E.cwd (tempName c)) (some text)).put (resolve E.cwd (outName c)) (some exe)
        let fs3 := if c.emitC then fs2 else fs2.put (resolve E.cwd (tempName c)) none
        if c.run then
          let r := match fs3 (resolve E.cwd ("./".toList ++ outName c)) with
            | none => (Status.exited 127, fs3)
            | some e => E.exec e fs3
          (exitStatus (runResult (runCommand r.1)), r.2.put (resolve E.cwd (outName c)) none)
        else (0, fs3) := by
  obtain ⟨x, h1⟩ := readable_some.1 h1
  unfold drive
  simp only [h1, h2, h3, h4, h5, Bool.false_eq_true, if_false]
  rw [if_neg (by simp)]
  rfl

/-- C102: without `run` no files change but the generated one and the output. -/
theorem frame (E : Env) (c : Config) (fs : Fs) (hr : c.run = false) :
    SameBut [resolve E.cwd (tempName c), resolve E.cwd (outName c)] fs (drive E c fs).2 := by
  intro q hq
  simp only [List.mem_cons, List.not_mem_nil, or_false, not_or] at hq
  obtain ⟨q1, q2⟩ := hq
  unfold drive
  simp only [hr, Bool.false_eq_true, if_false]
  split
  · rfl
  split
  · rfl
  split
  · rfl
  split
  · rfl
  split
  · split
    · rename_i o ho
      have : q ≠ resolve E.cwd o := by simpa [outName, ho] using q2
      simp [put_ne, q1, this]
    · simp [put_ne, q1]
  · split
    · split <;> simp [put_ne, q1]
    · split <;> simp [put_ne, q1, q2]

/-- C102, for programs whose generated file has a name of its own: `build` exits with 0 exactly if the program
is right, its text can be written and the C compiler succeeds; then the output is what the C compiler made and
the generated file stays only with `--emit-c`; if not, nothing has changed.  Missing: the name of its own, see
`temp_violated`. -/
theorem build_partial (E : Env) (c : Config) (fs : Fs) (h1 : c.check = false) (h2 : c.run = false)
    (h3 : c.transpile = false) (ht : fs (resolve E.cwd (tempName c)) = none) :
    ((drive E c fs).1 = 0 ∨ (drive E c fs).1 = 1) ∧
    ((drive E c fs).1 = 0 ↔ Readable E c fs ∧ E.writable (resolve E.cwd (tempName c)) = true ∧
      ∃ text, E.front c fs = some text ∧
        (E.compile c (fs.put (resolve E.cwd (tempName c)) (some text))).isSome) ∧
    ((drive E c fs).1 = 1 → SameBut (if c.emitC then [resolve E.cwd (tempName c)] else []) fs (drive E c fs).2) ∧
    (∀ text exe, (drive E c fs).1 = 0 → E.front c fs = some text →
      E.compile c (fs.put (resolve E.cwd (tempName c)) (some text)) = some exe →
      (drive E c fs).2 (resolve E.cwd (outName c)) = some exe ∧
      (drive E c fs).2 (resolve E.cwd (tempName c)) = (if c.emitC then some text else none) ∧
      SameBut [resolve E.cwd (tempName c), resolve E.cwd (outName c)] fs (drive E c fs).2) := by
  have hne := temp_ne_out E.cwd c
  by_cases hr : Readable E c fs
  · cases hf : E.front c fs with
    | none =>
      have e : drive E c fs = (1, fs) := by
        obtain ⟨x, hx⟩ := readable_some.1 hr
        simp [drive, hx, hf]
      rw [e]
      refine ⟨.inr rfl, by simp, fun _ q _ => rfl, by simp⟩
    | some text =>
      cases hw : E.writable (resolve E.cwd (tempName c)) with
      | false =>
        have e : drive E c fs = (1, fs) := by
          obtain ⟨x, hx⟩ := readable_some.1 hr
          simp [drive, hx, hf, h1, hw]
        rw [e]
        refine ⟨.inr rfl, by simp, fun _ q _ => rfl, by simp⟩
      | true =>
        rw [drive_build hr hf h1 hw h3]
        cases hc : E.compile c (fs.put (resolve E.cwd (tempName c)) (some text)) with
        | none =>
          refine ⟨.inr rfl, by simp [hc], ?_, by simp⟩
          intro _ q hq
          simp only
          cases hem : c.emitC with
          | true =>
            simp [hem] at hq
            simp [put_ne, hq]
          | false =>
            by_cases hqt : q = resolve E.cwd (tempName c)
            · subst hqt; simp [put_same, ht]
            · simp [put_ne, hqt]
        | some exe =>
          simp only [h2, Bool.false_eq_true, if_false]
          refine ⟨.inl trivial, by simp [hc, hr], by simp, ?_⟩
          intro text' exe' _ e1 e2
          cases e1
          rw [hc] at e2; cases e2
          refine ⟨?_, ?_, ?_⟩
          · cases c.emitC <;> simp [put_same, put_ne, hne.symm]
          · cases c.emitC <;> simp [put_same, put_ne, hne]
          · intro q hq
            simp only [List.mem_cons, List.not_mem_nil, or_false, not_or] at hq
            cases c.emitC <;> simp [put_ne, hq]
  · have e : drive E c fs = (1, fs) := by
      have : (c.input.bind fun f => fs (resolve E.cwd f)) = none := by
        cases hx : (c.input.bind fun f => fs (resolve E.cwd f)) with
        | none => rfl
        | some x => exact absurd (readable_some.2 ⟨x, hx⟩) hr
      simp [drive, this]
    rw [e]
    refine ⟨.inr rfl, by simp [hr], fun _ q _ => rfl, by simp⟩

example : demoFs (resolve (demoEnv 0).cwd (tempName {})) = none := by decide +kernel
example : (drive (demoEnv 0) { input := some "main.zc".toList } demoFs).1 = 0 ∧
    (drive (demoEnv 0) { input := some "main.zc".toList } demoFs).2 ["w".toList, "a.out".toList] = some "ELF".toList ∧
    (drive (demoEnv 0) { input := some "main.zc".toList } demoFs).2 ["w".toList, "out.c".toList] = none := by
  decide +kernel

/-- C102, for programs whose generated file has a name of its own: `transpile` writes the text to the file asked
for, or to `out.c`, and changes nothing else.  Missing: the name of its own, see `temp_violated`. -/
theorem transpile_partial (E : Env) (c : Config) (fs : Fs) {text : Str} (h1 : c.check = false)
    (h2 : c.transpile = true) (hr : Readable E c fs) (hf : E.front c fs = some text)
    (hw : E.writable (resolve E.cwd (tempName c)) = true) (ht : fs (resolve E.cwd (tempName c)) = none) :
    let p := resolve E.cwd (c.output.getD (tempName c))
    (drive E c fs).1 = 0 ∧ (drive E c fs).2 p = some text ∧ SameBut [p] fs (drive E c fs).2 := by
  obtain ⟨x, hx⟩ := readable_some.1 hr
  intro p
  cases ho : c.output with
  | none =>
    have e : drive E c fs = (0, fs.put p (some text)) := by
      simp [drive, hx, hf, h1, hw, h2, ho, p]
    rw [e]
    refine ⟨rfl, put_same .., fun q hq => put_ne _ _ (by simpa using hq)⟩
  | some o =>
    have e : drive E c fs = (0, ((fs.put (resolve E.cwd (tempName c)) (some text)).put
        (resolve E.cwd (tempName c)) none).put p (some text)) := by
      simp [drive, hx, hf, h1, hw, h2, ho, p]
    rw [e]
    refine ⟨rfl, put_same .., fun q hq => ?_⟩
    simp only
    rw [put_ne _ _ (by simpa using hq)]
    by_cases hqt : q = resolve E.cwd (tempName c)
    · subst hqt; rw [put_same, ht]
    · rw [put_ne _ _ hqt, put_ne _ _ hqt]

example : Readable (demoEnv 0) { transpile := true, emitC := true, input := some "main.zc".toList } demoFs :=
  ⟨"main.zc".toList, "fn main..".toList, rfl, by decide +kernel⟩

/-- C102: the exit status of `zc run` is that of the program for all values but 128. -/
theorem status_iff (n : Nat) (hn : n < 256) :
    exitStatus (runResult (runCommand (.exited n))) = n ↔ n ≠ 128 := by
  unfold exitStatus runResult runCommand
  simp only
  split <;> omega

/-- C102 violated: a program that exits with 128 makes `zc run` exit with 0. -/
theorem status_violated : exitStatus (runResult (runCommand (.exited 128))) = 0 := by decide

/-- a program killed by a signal: 255, as if it had exited with 255 -/
theorem status_signal : exitStatus (runResult (runCommand .signalled)) = 255 := by decide

theorem comps_dot (o : Str) : comps ('.' :: '/' :: o) [] = comps o [] := by
  simp [comps]

theorem resolve_dot (cwd : Path) (o : Str) (h : o.head? ≠ some '/') :
    resolve cwd ("./".toList ++ o) = resolve cwd o := by
  have e : "./".toList ++ o = '.' :: '/' :: o := rfl
  have e1 : resolve cwd ('.' :: '/' :: o) = cwd ++ comps ('.' :: '/' :: o) [] := if_neg (by simp)
  have e2 : resolve cwd o = cwd ++ comps o [] := if_neg h
  rw [e, e1, e2, comps_dot]

/-- C102, for outputs with a relative name and programs that do not exit with 128: `run` runs what the C
compiler made, with the files as they are after `build`; the exit status is the program's, and the files are
those it leaves but for the output, which is removed.  Missing: 128, see `status_violated`; absolute names, see
`run_abs_violated`; a file with the name of the output, see `run_out_violated`. -/
theorem run_partial (E : Env) (c : Config) (fs : Fs) {text exe : Str} {n : Nat} {fs' : Fs} (h1 : c.check = false)
    (h2 : c.run = true) (h3 : c.transpile = false) (hr : Readable E c fs) (hf : E.front c fs = some text)
    (hw : E.writable (resolve E.cwd (tempName c)) = true)
    (hc : E.compile c (fs.put (resolve E.cwd (tempName c)) (some text)) = some exe)
    (ha : (outName c).head? ≠ some '/') (hn : n < 256 ∧ n ≠ 128)
    (hx : E.exec exe (drive E { c with run := false } fs).2 = (.exited n, fs'))
    (hq : E.front { c with run := false } fs = E.front c fs ∧ ∀ g, E.compile { c with run := false } g = E.compile c g) :
    (drive E c fs).1 = n ∧ (drive E c fs).2 (resolve E.cwd (outName c)) = none ∧
      SameBut [resolve E.cwd (outName c)] fs' (drive E c fs).2 := by
  have hne := temp_ne_out E.cwd c
  have e0 := drive_build (c := { c with run := false }) (fs := fs) (E := E) hr (hq.1.trans hf) h1 hw h3
  rw [hq.2] at e0
  have e0' : drive E { c with run := false } fs = (0, if c.emitC then
      (fs.put (resolve E.cwd (tempName c)) (some text)).put (resolve E.cwd (outName c)) (some exe)
      else ((fs.put (resolve E.cwd (tempName c)) (some text)).put (resolve E.cwd (outName c)) (some exe)).put
        (resolve E.cwd (tempName c)) none) := by
    rw [e0]
    show (match E.compile c (fs.put (resolve E.cwd (tempName c)) (some text)) with | none => _ | some exe => _) = _
    rw [hc]; rfl
  rw [e0'] at hx
  have hat : (if c.emitC then
      (fs.put (resolve E.cwd (tempName c)) (some text)).put (resolve E.cwd (outName c)) (some exe)
      else ((fs.put (resolve E.cwd (tempName c)) (some text)).put (resolve E.cwd (outName c)) (some exe)).put
        (resolve E.cwd (tempName c)) none) (resolve E.cwd (outName c)) = some exe := by
    cases c.emitC
    · simp [put_ne, put_same, hne.symm]
    · simp [put_same]
  have e1 : drive E c fs = (exitStatus (runResult (runCommand (.exited n))),
      fs'.put (resolve E.cwd (outName c)) none) := by
    rw [drive_build hr hf h1 hw h3, hc]
    simp only [h2, if_true]
    rw [resolve_dot _ _ ha, hat]
    simp only
    simp only at hx
    rw [hx]
  rw [e1]
  exact ⟨(status_iff n hn.1).2 hn.2, put_same .., fun q hq => put_ne _ _ (by simpa using hq)⟩

example : (drive (demoEnv 7) { run := true, input := some "main.zc".toList } demoFs).1 = 7 := by decide +kernel

/-- C102 violated: whatever the C compiler says, a file with the name of the generated one is lost. -/
theorem temp_violated (E : Env) (c : Config) (fs : Fs) {text : Str} (h1 : c.check = false) (h2 : c.run = false)
    (h3 : c.transpile = false) (hr : Readable E c fs) (hf : E.front c fs = some text)
    (hw : E.writable (resolve E.cwd (tempName c)) = true) (he : c.emitC = false) :
    (drive E c fs).2 (resolve E.cwd (tempName c)) = none := by
  rw [drive_build hr hf h1 hw h3]
  cases E.compile c (fs.put (resolve E.cwd (tempName c)) (some text)) with
  | none => simp [he, put_same]
  | some exe => simp [he, h2, put_same]

/-- a directory with a program and a C file of the same name -/
def demoFs2 : Fs := fun p =>
  if p = ["w".toList, "main.zc".toList] then some "fn main..".toList
  else if p = ["w".toList, "main.c".toList] then some "int helper..".toList
  else none

/-- C102 violated: `zc build main.zc main.c -o main` overwrites the C file before the C compiler sees it, and
removes it. -/
theorem extra_violated : ∃ c, commandLine ["build".toList, "main.zc".toList, "main.c".toList, "-o".toList, "main".toList] = .go c ∧
    c.extra = ["main.c".toList] ∧ demoFs2 (resolve (demoEnv 0).cwd "main.c".toList) = some "int helper..".toList ∧
    (drive (demoEnv 0) c demoFs2).1 = 0 ∧
    (drive (demoEnv 0) c demoFs2).2 (resolve (demoEnv 0).cwd "main.c".toList) = none :=
  ⟨{ input := some "main.zc".toList, extra := ["main.c".toList], output := some "main".toList }, rfl,
    by decide +kernel⟩

/-- C102 violated: `run` removes the file with the name of the output, also one that was there before. -/
theorem run_out_violated (E : Env) (c : Config) (fs : Fs) {text exe : Str} (h1 : c.check = false)
    (h2 : c.run = true) (h3 : c.transpile = false) (hr : Readable E c fs) (hf : E.front c fs = some text)
    (hw : E.writable (resolve E.cwd (tempName c)) = true)
    (hc : E.compile c (fs.put (resolve E.cwd (tempName c)) (some text)) = some exe) :
    (drive E c fs).2 (resolve E.cwd (outName c)) = none := by
  rw [drive_build hr hf h1 hw h3, hc]
  simp only [h2, if_true]
  exact put_same ..

example : (drive (demoEnv 7) { run := true, input := some "main.zc".toList }
    (demoFs.put ["w".toList, "a.out".toList] (some "mine".toList))).2 ["w".toList, "a.out".toList] = none := by
  decide +kernel

/-- C102 violated: `run` with an absolute output looks for the program below the working directory: nothing is
run, and the exit status is 127. -/
theorem run_abs_violated (E : Env) (c : Config) (fs : Fs) {text exe o : Str} (h1 : c.check = false)
    (h2 : c.run = true) (h3 : c.transpile = false) (hr : Readable E c fs) (hf : E.front c fs = some text)
    (hw : E.writable (resolve E.cwd (tempName c)) = true) (he : c.emitC = false)
    (hc : E.compile c (fs.put (resolve E.cwd (tempName c)) (some text)) = some exe)
    (ho : c.output = some ('/' :: o)) (hd : E.cwd ≠ []) (hn : fs (E.cwd ++ comps ('/' :: o) []) = none) :
    (drive E c fs).1 = 127 := by
  have hout : outName c = '/' :: o := by simp [outName, ho]
  have e1 : resolve E.cwd (outName c) = comps ('/' :: o) [] := by rw [hout]; exact if_pos rfl
  have e2 : resolve E.cwd ("./".toList ++ outName c) = E.cwd ++ comps ('/' :: o) [] := by
    rw [hout]
    show resolve E.cwd ('.' :: '/' :: '/' :: o) = _
    have : resolve E.cwd ('.' :: '/' :: '/' :: o) = E.cwd ++ comps ('.' :: '/' :: '/' :: o) [] := if_neg (by simp)
    rw [this, comps_dot]
  have hne : E.cwd ++ comps ('/' :: o) [] ≠ comps ('/' :: o) [] := by
    intro h
    have := congrArg List.length h
    rw [List.length_append] at this
    exact hd (List.length_eq_zero_iff.1 (by omega))
  rw [drive_build hr hf h1 hw h3, hc]
  simp only [h2, he, if_true, Bool.false_eq_true, if_false]
  rw [e2, e1]
  have hz : (((fs.put (resolve E.cwd (tempName c)) (some text)).put (comps ('/' :: o) []) (some exe)).put
      (resolve E.cwd (tempName c)) none) (E.cwd ++ comps ('/' :: o) []) = none := by
    by_cases hq : E.cwd ++ comps ('/' :: o) [] = resolve E.cwd (tempName c)
    · rw [hq]; exact put_same ..
    · rw [put_ne _ _ hq, put_ne _ _ hne, put_ne _ _ hq]; exact hn
  rw [hz]
  rfl

example : (drive (demoEnv 7) { run := true, input := some "main.zc".toList, output := some "/t/p".toList } demoFs).1
    = 127 := by decide +kernel

end Verif.Driver
