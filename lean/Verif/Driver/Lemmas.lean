import Verif.Driver.Model

/-! # The command line and the driver: lemmas -/

namespace Verif.Driver
open Spec

theorem exact_none {a : Str} (h : ∀ p ∈ exactArgs, p.1 ≠ a) : classify a = byPrefix a := by
  unfold classify
  rw [List.find?_eq_none.2 (by intro p hp; simpa using h p hp)]

theorem exact_form : ∀ p ∈ exactArgs, p.1.head? = some '-' ∧
    (p.1.tail.head? = some '-' ∨ p.1 = ['-', 'V'] ∨ p.1 = ['-', 'v'] ∨ p.1 = ['-', 'q'] ∨ p.1 = ['-', 'g']) := by
  decide +kernel

/-- the option with this letter -/
def optOf : Letter → Opt
  | .o => .out | .I => .inc | .L => .lib ['-', 'L'] | .l => .lib ['-', 'l'] | .O => .opt | .D => .defn

theorem classify_letter (x : Letter) (v : Str) : classify ('-' :: x.char :: v) = .value (optOf x) v := by
  rw [exact_none]
  · cases x <;> rfl
  · intro p hp e
    have h := (exact_form p hp).2
    rw [e] at h
    cases x <;> simp [Letter.char] at h

theorem classify_pass {a : Str} (h : (Item.pass a).Wf) : classify a = .pass ∨ a = ['-', 'g'] := by
  obtain ⟨c, r, rfl, h1, h2⟩ := h
  by_cases hg : ('-' :: c :: r) = ['-', 'g']
  · exact .inr hg
  · left
    rw [exact_none]
    · unfold byPrefix
      split <;> first | rfl | simp_all
    · intro p hp e
      have h := (exact_form p hp).2
      rw [e] at h
      simp at h h1 h2 hg
      rcases h with h | h | h | h | h
      · exact h1.1 h
      · exact h2.2.2 h.1 h.2
      · exact h2.1 h.1 h.2
      · exact h2.2.1 h.1 h.2
      · exact hg h.1 h.2

theorem classify_file {a : Str} (h : (Item.file a).Wf) : classify a = .file := by
  rw [exact_none]
  · unfold byPrefix
    split <;> first | rfl | (exact absurd rfl h)
  · intro p hp e
    have h' := (exact_form p hp).1
    rw [e] at h'
    exact h h'

theorem take_take_append (n : Nat) (l m : List Str) : (l.take n ++ m).take n = (l ++ m).take n := by
  by_cases h : l.length ≤ n
  · rw [List.take_of_length_le h]
  · have : n ≤ l.length := by omega
    rw [List.take_append_of_le_length (by simp; omega), List.take_append_of_le_length this,
      List.take_take]
    simp

theorem push64_eq {l : List Str} (a : Str) (h : l.length ≤ 64) : push64 l a = (l ++ [a]).take 64 := by
  unfold push64
  split
  · rw [List.take_of_length_le (by simp; omega)]
  · have : l.length = 64 := by omega
    rw [List.take_append_of_le_length (by omega), List.take_of_length_le (by omega)]

/-- what the counters keep -/
structure Ok (c : Config) : Prop where
  inc : c.includes.length ≤ 64
  defs : c.defines.length ≤ 64
  extra : c.extra.length ≤ 64
  first : c.input = none → c.extra = []

theorem Means.trans {l l' : List Item} {a b c : Config} (h : Means l a b) (h' : Means l' b c) :
    Means (l ++ l') a c := by
  have hg : ∀ f, given f (l ++ l') = (given f l || given f l') := fun f => by simp [given]
  constructor <;>
    simp only [h.run, h'.run, h.transpile, h'.transpile, h'.check, h.check, h'.emitC, h.emitC, h'.json, h.json,
      h'.keepComments, h.keepComments, h'.verbose, h.verbose, h'.quiet, h.quiet, h'.noZen, h.noZen,
      h'.typecheck, h.typecheck, h'.freestanding, h.freestanding, h'.cpp, h.cpp, h'.cuda, h.cuda, h'.objc,
      h.objc, h'.flags, h.flags, h'.link, h.link, hg, Bool.or_assoc, List.filterMap_append, List.append_assoc]
  · cases a.cpp <;> cases given Flag.cpp l <;> cases given Flag.cuda l <;> simp
  · rw [h'.cc, h.cc, List.getLast?_append]
    cases (List.filterMap Item.asCc l').getLast? <;> simp
  · rw [h'.output, h.output, List.getLast?_append]
    cases (List.filterMap (Item.val .o) l').getLast? <;> simp
  · rw [h'.includes, h.includes, take_take_append, List.append_assoc]
  · rw [h'.defines, h.defines, take_take_append, List.map_append, List.append_assoc]
  · rw [h'.files, h.files, take_take_append, List.append_assoc, List.append_assoc]

theorem Means.refl (c : Config) (h : Ok c) : Means [] c c := by
  have := h.extra
  constructor <;> simp [given]
  · exact (List.take_of_length_le h.inc).symm
  · exact (List.take_of_length_le h.defs).symm
  · rw [List.take_of_length_le]
    cases c.input <;> simp <;> omega

theorem files_ok {l : List Str} {c : Config} (h : c.input.toList ++ c.extra = l.take 65)
    (h1 : c.input = none → c.extra = []) : c.extra.length ≤ 64 := by
  have h2 := congrArg List.length h
  rw [List.length_append, List.length_take] at h2
  cases hi : c.input with
  | none => rw [h1 hi]; simp
  | some i => rw [hi] at h2; simp at h2; omega

/-- one part -/
theorem item_step (i : Item) (hi : i.Wf) (c : Config) (hc : Ok c) :
    ∃ c', i.render.foldl step (c, none) = (c', none) ∧ Means [i] c c' ∧ Ok c' := by
  have hf : (c.input.toList ++ c.extra).length ≤ 65 := by
    have := hc.extra
    cases c.input <;> simp <;> omega
  have base : ∀ c' : Config, (c'.includes = c.includes) → c'.defines = c.defines → c'.input = c.input →
      c'.extra = c.extra → Ok c' := fun c' h1 h2 h3 h4 =>
    ⟨h1 ▸ hc.inc, h2 ▸ hc.defs, h4 ▸ hc.extra, by rw [h3, h4]; exact hc.first⟩
  have tI := List.take_of_length_le hc.inc
  have tD := List.take_of_length_le hc.defs
  have tF := List.take_of_length_le hf
  cases i with
  | flag f t =>
    have h : t ∈ f.text := hi
    cases f <;> simp only [Flag.text, List.mem_cons, List.not_mem_nil, or_false] at h
    all_goals
      first
        | (rcases h with h | h <;> subst h <;>
            exact ⟨_, rfl, by constructor <;> simp [given, Item.asCc, Item.val, Item.asFlag, Item.asLink, Item.asFile, List.filterMap_cons, tI, tD, tF],
              base _ rfl rfl rfl rfl⟩)
        | (subst h
           exact ⟨_, rfl, by constructor <;> simp [given, Item.asCc, Item.val, Item.asFlag, Item.asLink, Item.asFile, List.filterMap_cons, tI, tD, tF],
              base _ rfl rfl rfl rfl⟩)
  | cc v =>
    refine ⟨c.set .cc v, rfl, ?_, base _ rfl rfl rfl rfl⟩
    constructor <;> simp [Config.set, given, Item.asCc, Item.val, Item.asFlag, Item.asLink, Item.asFile, List.filterMap_cons, tI, tD, tF]
  | joined x v =>
    obtain ⟨y, r, rfl⟩ : ∃ y r, v = y :: r := by
      cases v with
      | nil => exact absurd rfl hi
      | cons y r => exact ⟨y, r, rfl⟩
    refine ⟨c.set (optOf x) (y :: r), by simp only [Item.render, List.foldl_cons, List.foldl_nil, step, classify_letter], ?_, ?_⟩
    · cases x <;> constructor <;>
        simp [Config.set, optOf, given, Item.asCc, Item.val, Item.asFlag, Item.asLink, Item.asFile, List.filterMap_cons, tI, tD, tF,
          push64_eq _ hc.inc, push64_eq _ hc.defs]
    · cases x <;> first
        | exact base _ rfl rfl rfl rfl
        | exact ⟨by simp [Config.set, optOf, push64_eq _ hc.inc]; omega, by simpa [Config.set, optOf] using hc.defs, hc.extra, hc.first⟩
        | exact ⟨hc.inc, by simp [Config.set, optOf, push64_eq _ hc.defs]; omega, hc.extra, hc.first⟩
  | apart x v =>
    refine ⟨c.set (optOf x) v, by simp only [Item.render, List.foldl_cons, List.foldl_nil, step, classify_letter], ?_, ?_⟩
    · cases x <;> constructor <;>
        simp [Config.set, optOf, given, Item.asCc, Item.val, Item.asFlag, Item.asLink, Item.asFile, List.filterMap_cons, tI, tD, tF,
          push64_eq _ hc.inc, push64_eq _ hc.defs]
    · cases x <;> first
        | exact base _ rfl rfl rfl rfl
        | exact ⟨by simp [Config.set, optOf, push64_eq _ hc.inc]; omega, by simpa [Config.set, optOf] using hc.defs, hc.extra, hc.first⟩
        | exact ⟨hc.inc, by simp [Config.set, optOf, push64_eq _ hc.defs]; omega, hc.extra, hc.first⟩
  | pass a =>
    refine ⟨{ c with flags := c.flags ++ [a] }, ?_, ?_, base _ rfl rfl rfl rfl⟩
    · rcases classify_pass hi with h | h
      · simp [Item.render, step, h]
      · subst h; simp [Item.render, step, show classify ['-', 'g'] = .debug from by decide +kernel]
    · constructor <;> simp [given, Item.asCc, Item.val, Item.asFlag, Item.asLink, Item.asFile, List.filterMap_cons, tI, tD, tF]
  | file a =>
    have h := classify_file hi
    cases hn : c.input with
    | none =>
      have he := hc.first hn
      refine ⟨{ c with input := some a }, by simp [Item.render, step, h, hn], ?_,
        ⟨hc.inc, hc.defs, hc.extra, by simp⟩⟩
      constructor <;> simp [given, Item.asCc, Item.val, Item.asFlag, Item.asLink, Item.asFile, List.filterMap_cons, tI, tD, hn, he]
    | some b =>
      refine ⟨{ c with extra := push64 c.extra a }, by simp [Item.render, step, h, hn], ?_,
        ⟨hc.inc, hc.defs, by simp [push64_eq _ hc.extra]; omega, by simp [hn]⟩⟩
      constructor <;> simp [given, Item.asCc, Item.val, Item.asFlag, Item.asLink, Item.asFile, List.filterMap_cons, tI, tD, hn,
        push64_eq _ hc.extra]

theorem items_fold (l : List Item) : ∀ (c : Config), Ok c → (∀ i ∈ l, i.Wf) →
    ∃ c', (l.flatMap Item.render).foldl step (c, none) = (c', none) ∧ Means l c c' ∧ Ok c' := by
  induction l with
  | nil => intro c hc _; exact ⟨c, rfl, Means.refl c hc, hc⟩
  | cons i l ih =>
    intro c hc hw
    obtain ⟨c1, h1, m1, o1⟩ := item_step i (hw i (by simp)) c hc
    obtain ⟨c2, h2, m2, o2⟩ := ih c1 o1 (fun j hj => hw j (by simp [hj]))
    refine ⟨c2, ?_, Means.trans m1 m2, o2⟩
    rw [List.flatMap_cons, List.foldl_append, h1, h2]

/-- the meaning determines the configuration -/
theorem Means.unique {l : List Item} {a b c : Config} (h : Means l a b) (h' : Means l a c)
    (hb : Ok b) (hc : Ok c) : b = c := by
  have hF := h.files.trans h'.files.symm
  have hin : b.input = c.input ∧ b.extra = c.extra := by
    cases h1 : b.input with
    | none =>
      have e := hb.first h1
      rw [h1, e] at hF
      cases h2 : c.input with
      | none => exact ⟨rfl, e.trans (hc.first h2).symm⟩
      | some x => rw [h2] at hF; simp at hF
    | some x =>
      rw [h1] at hF
      cases h2 : c.input with
      | none => rw [h2, hc.first h2] at hF; simp at hF
      | some y => rw [h2] at hF; simpa using hF
  have e1 := h.run.trans h'.run.symm
  have e2 := h.transpile.trans h'.transpile.symm
  have e3 := h.check.trans h'.check.symm
  have e4 := h.emitC.trans h'.emitC.symm
  have e5 := h.json.trans h'.json.symm
  have e6 := h.keepComments.trans h'.keepComments.symm
  have e7 := h.verbose.trans h'.verbose.symm
  have e8 := h.quiet.trans h'.quiet.symm
  have e9 := h.noZen.trans h'.noZen.symm
  have e10 := h.typecheck.trans h'.typecheck.symm
  have e11 := h.freestanding.trans h'.freestanding.symm
  have e12 := h.cpp.trans h'.cpp.symm
  have e13 := h.cuda.trans h'.cuda.symm
  have e14 := h.objc.trans h'.objc.symm
  have e15 := h.cc.trans h'.cc.symm
  have e16 := h.output.trans h'.output.symm
  have e17 := h.flags.trans h'.flags.symm
  have e18 := h.link.trans h'.link.symm
  have e19 := h.includes.trans h'.includes.symm
  have e20 := h.defines.trans h'.defines.symm
  cases b; cases c
  simp_all

/-! ## Paths -/

/-- the components of a name with something behind it that is in the last component -/
theorem comps_ext (e : Str) (he : e ≠ []) (hs : '/' ∉ e) (hd : e ≠ ['.']) : ∀ (s cur : Str), comps (s ++ e) cur ≠ comps s cur := by
  have key : ∀ (e cur : Str), '/' ∉ e → comps e cur = comps [] (cur ++ e) := by
    intro e
    induction e with
    | nil => intro cur _; simp
    | cons c e ih =>
      intro cur h
      have h1 : c ≠ '/' := fun q => h (by simp [q])
      have h2 : '/' ∉ e := fun q => h (by simp [q])
      rw [comps.eq_2, if_neg h1, ih _ h2]; simp
  intro s
  induction s with
  | nil =>
    intro cur
    rw [List.nil_append, key e cur hs]
    unfold comps
    have hne : cur ++ e ≠ [] := by simp [he]
    have hne' : cur ++ e ≠ cur := by simp [he]
    by_cases h1 : cur = [] ∨ cur = ['.']
    · rw [if_pos h1]
      rw [if_neg]
      · simp
      · rintro (h | h)
        · exact hne h
        · rcases h1 with rfl | rfl
          · exact hd h
          · simp [he] at h
    · rw [if_neg h1]
      split
      · simp
      · simpa using hne'
  | cons c s ih =>
    intro cur
    rw [List.cons_append, comps.eq_2, comps.eq_2]
    split
    · intro h
      exact ih [] (List.append_cancel_left h)
    · exact ih _

theorem resolve_ext (cwd : Path) (s e : Str) (he : e ≠ []) (hs : '/' ∉ e) (hd : e ≠ ['.']) :
    resolve cwd (s ++ e) ≠ resolve cwd s := by
  cases s with
  | nil =>
    have h1 : e.head? ≠ some '/' := by
      cases e with
      | nil => exact absurd rfl he
      | cons c r => intro h; simp at h; simp [h] at hs
    have := comps_ext e he hs hd [] []
    have e1 : resolve cwd ([] ++ e) = cwd ++ comps e [] := if_neg h1
    have e2 : resolve cwd [] = cwd ++ comps [] [] := if_neg (by simp)
    rw [e1, e2]
    intro h
    exact this (List.append_cancel_left h)
  | cons c s =>
    have := comps_ext e he hs hd (c :: s) []
    unfold resolve
    rw [List.cons_append, List.head?_cons, List.head?_cons]
    rw [List.cons_append] at this
    split
    · exact this
    · intro h
      exact this (List.append_cancel_left h)

theorem ext_ok (c : Config) : ext c ≠ [] ∧ '/' ∉ ext c ∧ ext c ≠ ['.'] := by
  unfold ext
  cases c.cuda <;> cases c.cpp <;> cases c.objc <;> decide +kernel

/-- the temporary file is not the output -/
theorem temp_ne_out (cwd : Path) (c : Config) : resolve cwd (tempName c) ≠ resolve cwd (outName c) := by
  obtain ⟨h1, h2, h3⟩ := ext_ok c
  unfold tempName outName
  cases c.output with
  | some o => exact resolve_ext cwd o _ h1 h2 h3
  | none =>
    intro h
    have h' : cwd ++ comps ("out".toList ++ ext c) [] = cwd ++ comps "a.out".toList [] := by
      simpa [resolve] using h
    have h'' := List.append_cancel_left h'
    revert h''
    unfold ext
    cases c.cuda <;> cases c.cpp <;> cases c.objc <;> decide +kernel

end Verif.Driver
