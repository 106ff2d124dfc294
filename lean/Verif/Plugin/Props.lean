import Verif.Plugin.Model

/-!
# Imports name the plugins they load, and blocks hand over their tokens
-/

namespace Verif.Plugin

open Spec

/-! ## Imports -/

/-- States behind imports, with what they found. -/
inductive Reach (dl : Loader) : St → List Import → Prop
  | nil : Reach dl {} []
  | old {st is n p a st'} : Reach dl st is → find st.loaded n = some p → register dl st n a = some st' →
      Reach dl st' (⟨p, a⟩ :: is)
  | new {st is n p a st'} : Reach dl st is → find st.loaded n = none → (paths n).findSome? dl = some p →
      register dl st n a = some st' → Reach dl st' (⟨p, a⟩ :: is)

/-- Each import that does not end the compiler is one of these. -/
theorem register_reach {dl : Loader} {st st' : St} {is : List Import} (h : Reach dl st is) {n : Str} {a : Option Str}
    (hr : register dl st n a = some st') : ∃ p, Reach dl st' (⟨p, a⟩ :: is) := by
  cases hf : find st.loaded n with
  | some p => exact ⟨p, .old h hf hr⟩
  | none =>
    cases hd : (paths n).findSome? dl with
    | some p => exact ⟨p, .new h hf hd hr⟩
    | none =>
      unfold register at hr
      rw [hf, hd] at hr
      cases hr

theorem find_name {ps : List P} {n : Str} {p : P} (h : find ps n = some p) : p.name = n ∧ p ∈ ps := by
  refine ⟨?_, List.mem_of_find?_eq_some h⟩
  have := List.find?_some h
  simpa using this

/-- What is loaded is of the loader, what is imported is what the imports found, and all of it is loaded. -/
theorem reach_inv {dl : Loader} {st : St} {is : List Import} (h : Reach dl st is) :
    (∀ p ∈ st.loaded, Has dl p) ∧ st.imported = is.map (fun i => (i.plugin.name, i.alias)) ∧
      ∀ i ∈ is, i.plugin ∈ st.loaded := by
  induction h with
  | nil => exact ⟨fun _ h => (nomatch h), rfl, fun _ h => (nomatch h)⟩
  | old _ hf hr ih =>
    obtain ⟨i1, i2, i3⟩ := ih
    unfold register at hr
    rw [hf] at hr
    cases hr
    refine ⟨i1, by rw [i2]; rfl, fun i hi => ?_⟩
    rcases List.mem_cons.1 hi with rfl | hi
    · exact (find_name hf).2
    · exact i3 i hi
  | new _ hf hd hr ih =>
    obtain ⟨i1, i2, i3⟩ := ih
    unfold register at hr
    rw [hf, hd] at hr
    cases hr
    refine ⟨fun p hp => ?_, by simp only [i2]; rfl, fun i hi => ?_⟩
    · rcases List.mem_cons.1 hp with rfl | hp
      · obtain ⟨path, _, e⟩ := List.exists_of_findSome?_eq_some hd
        exact ⟨path, e⟩
      · exact i1 p hp
    · rcases List.mem_cons.1 hi with rfl | hi
      · exact List.mem_cons_self ..
      · exact List.mem_cons_of_mem _ (i3 i hi)

theorem means_resolve {is : List Import} {x : Str} {p : P} (h : Means is x p) :
    ((is.map fun i => (i.plugin.name, i.alias)).find? fun i => i.2 = some x || i.1 = x) |>.map (·.1) |> (· = some p.name) := by
  induction h with
  | here hn =>
    rename_i i is x
    show Option.map _ (List.find? _ (List.map _ (i :: is))) = _
    rw [List.map_cons, List.find?_cons_of_pos (by simpa [Import.named] using hn)]
    rfl
  | there hn _ ih =>
    rename_i i is x p _
    show Option.map _ (List.find? _ (List.map _ (i :: is))) = _
    rw [List.map_cons, List.find?_cons_of_neg (by simpa [Import.named] using hn)]
    exact ih

theorem means_mem {is : List Import} {x : Str} {p : P} (h : Means is x p) : ∃ i ∈ is, i.plugin = p := by
  induction h with
  | here _ => exact ⟨_, List.mem_cons_self .., rfl⟩
  | there _ _ ih =>
    obtain ⟨i, hi, e⟩ := ih
    exact ⟨i, List.mem_cons_of_mem _ hi, e⟩

/-- **A name means the plugin of its latest import.**  Behind any imports, a name or alias leads to the plugin
that the latest import of this name has found, when no two plugins of the loader have the same name of their own. -/
theorem name_plugin {dl : Loader} {st : St} {is : List Import} (h : Reach dl st is)
    (huniq : ∀ p q, Has dl p → Has dl q → p.name = q.name → p = q) {x : Str} {p : P} (hm : Means is x p) :
    ∃ n, resolve st x = some n ∧ find st.loaded n = some p := by
  obtain ⟨i1, i2, i3⟩ := reach_inv h
  refine ⟨p.name, ?_, ?_⟩
  · unfold resolve
    rw [i2]
    exact means_resolve hm
  · obtain ⟨i, hi, rfl⟩ := means_mem hm
    have hmem := i3 i hi
    cases hf : find st.loaded i.plugin.name with
    | none =>
      have := List.find?_eq_none.1 hf _ hmem
      simp at this
    | some q =>
      obtain ⟨e, hq⟩ := find_name hf
      rw [huniq q i.plugin (i1 q hq) (i1 _ hmem) e]

/-- **A name that is imported always leads to a plugin**, whatever the loader has. -/
theorem name_found {dl : Loader} {st : St} {is : List Import} (h : Reach dl st is) {x n : Str}
    (hr : resolve st x = some n) : ∃ p, find st.loaded n = some p ∧ p.name = n := by
  obtain ⟨-, i2, i3⟩ := reach_inv h
  unfold resolve at hr
  rw [i2] at hr
  obtain ⟨⟨m, a⟩, hf, e⟩ := Option.map_eq_some_iff.1 hr
  have hmem := List.mem_of_find?_eq_some hf
  obtain ⟨i, hi, ei⟩ := List.mem_map.1 hmem
  have hn : i.plugin.name = n := by rw [← e, ← ei]
  cases hg : find st.loaded n with
  | none =>
    have := List.find?_eq_none.1 hg _ (i3 i hi)
    simp [hn] at this
  | some q => exact ⟨q, rfl, (find_name hg).1⟩

/-- **A name that is not imported leads to none.** -/
theorem name_unknown {dl : Loader} {st : St} {is : List Import} (h : Reach dl st is) {x : Str}
    (hn : ∀ i ∈ is, ¬ i.named x) : resolve st x = none := by
  obtain ⟨-, i2, -⟩ := reach_inv h
  unfold resolve
  rw [i2, Option.map_eq_none_iff, List.find?_eq_none]
  intro y hy
  obtain ⟨i, hi, rfl⟩ := List.mem_map.1 hy
  simpa [Import.named] using hn i hi

/-- **An import finds the file**: the path itself, then with the ending, then in the current directory; it fails only
where there is none of them. -/
theorem register_none {dl : Loader} {st : St} {n : Str} {a : Option Str} (hs : find st.loaded n = none)
    (hl : n.length ≤ 1000) : register dl st n a = none ↔ dl n = none ∧ dl (n ++ ".so".toList) = none ∧
      ('/' ∉ n → dl ("./".toList ++ n ++ ".so".toList) = none) := by
  have h1 : cut (n ++ ".so".toList) = n ++ ".so".toList := by
    unfold cut
    exact List.take_of_length_le (by simp only [List.length_append]; show n.length + 3 ≤ 1023; omega)
  have h2 : cut ("./".toList ++ n ++ ".so".toList) = "./".toList ++ n ++ ".so".toList := by
    unfold cut
    exact List.take_of_length_le (by simp only [List.length_append]; show 2 + n.length + 3 ≤ 1023; omega)
  have key : register dl st n a = none ↔ (paths n).findSome? dl = none := by
    unfold register
    rw [hs]
    simp only
    cases (paths n).findSome? dl <;> simp
  rw [key, List.findSome?_eq_none_iff]
  unfold paths
  rw [h1, h2]
  by_cases hm : '/' ∈ n
  · rw [if_pos hm]
    simp [hm]
  · rw [if_neg hm]
    simp [hm]

/-- **A plugin with the name of another takes its place**, also where the other was imported. -/
theorem same_name_violated {dl : Loader} {p q : P} (hpq : p.name = q.name) {n m a b : Str} (hn : (paths n).findSome? dl = some p)
    (hm : (paths m).findSome? dl = some q) (hne : m ≠ p.name) (hab : a ≠ b) (hq : a ≠ q.name) :
    ∃ st, Reach dl st [⟨q, some b⟩, ⟨p, some a⟩] ∧ Means [⟨q, some b⟩, ⟨p, some a⟩] a p ∧
      ∃ k, resolve st a = some k ∧ find st.loaded k = some q := by
  let st1 : St := { loaded := [p], imported := [(p.name, some a)] }
  let st2 : St := { loaded := [q, p], imported := [(q.name, some b), (p.name, some a)] }
  have h1 : register dl {} n (some a) = some st1 := by
    unfold register
    rw [show find ({} : St).loaded n = none from rfl, hn]
  have hf : find st1.loaded m = none := by
    show List.find? _ [p] = none
    rw [List.find?_cons_of_neg (by simpa using Ne.symm hne)]
    rfl
  have h2 : register dl st1 m (some b) = some st2 := by
    unfold register
    rw [hf, hm]
  refine ⟨st2, .new (.new .nil rfl hn h1) hf hm h2, .there ?_ (.here (.inl rfl)), p.name, ?_, ?_⟩
  · rintro (h | h)
    · exact hab (Option.some.inj h).symm
    · exact hq h.symm
  · show Option.map _ (List.find? _ [(q.name, some b), (p.name, some a)]) = _
    rw [List.find?_cons_of_neg (by simp [Ne.symm hab, Ne.symm hq]), List.find?_cons_of_pos (by simp)]
    rfl
  · show List.find? _ [q, p] = some q
    rw [List.find?_cons_of_pos (by simp [hpq])]

/-- A loader with two plugins, and imports of both. -/
example : ∃ (dl : Loader) (st : St) (is : List Import), Reach dl st is ∧
    (∀ p q, Has dl p → Has dl q → p.name = q.name → p = q) ∧ ∃ p, Means is "re".toList p ∧ p.name = "regex".toList := by
  let r : P := ⟨"regex".toList, id⟩
  let s : P := ⟨"sql".toList, id⟩
  let dl : Loader := fun n => if n = "./regex.so".toList then some r else if n = "sql.so".toList then some s else none
  have hr : (paths "regex".toList).findSome? dl = some r := by
    have : paths "regex".toList = ["regex".toList, "regex.so".toList, "./regex.so".toList] := by decide +kernel
    rw [this]
    simp only [dl, List.findSome?_cons]
    rw [if_neg (by decide +kernel), if_neg (by decide +kernel), if_neg (by decide +kernel), if_neg (by decide +kernel),
      if_pos trivial]
  have hs : (paths "sql".toList).findSome? dl = some s := by
    have : paths "sql".toList = ["sql".toList, "sql.so".toList, "./sql.so".toList] := by decide +kernel
    rw [this]
    simp only [dl, List.findSome?_cons]
    rw [if_neg (by decide +kernel), if_neg (by decide +kernel), if_neg (by decide +kernel), if_pos trivial]
  have hfs : find [r] "sql".toList = none := by
    show List.find? _ [r] = none
    rw [List.find?_cons_of_neg (by decide +kernel)]
    rfl
  have h1 : register dl {} "regex".toList (some "re".toList) =
      some { loaded := [r], imported := [(r.name, some "re".toList)] } := by
    unfold register
    rw [show find ({} : St).loaded _ = none from rfl, hr]
  have h2 : register dl { loaded := [r], imported := [(r.name, some "re".toList)] } "sql".toList none =
      some { loaded := [s, r], imported := [(s.name, none), (r.name, some "re".toList)] } := by
    unfold register
    rw [hfs, hs]
  refine ⟨dl, _, _, .new (.new .nil rfl hr h1) hfs hs h2, ?_, r, .there ?_ (.here (.inl rfl)), rfl⟩
  · have key : ∀ p, Has dl p → p = r ∨ p = s := by
      rintro p ⟨path, e⟩
      simp only [dl] at e
      split at e
      · exact .inl (Option.some.inj e).symm
      · split at e
        · exact .inr (Option.some.inj e).symm
        · cases e
    intro p q hp hq e
    have hrs : r.name ≠ s.name := by decide +kernel
    rcases key p hp with rfl | rfl <;> rcases key q hq with rfl | rfl
    · rfl
    · exact absurd e hrs
    · exact absurd e.symm hrs
    · rfl
  · rintro (h | h)
    · cases h
    · revert h
      show s.name = "re".toList → False
      decide +kernel

/-! ## Blocks in braces -/

/-- The last line of tokens. -/
def lastLine (last : Nat) (a : List Tok) : Nat := (a.getLast?.map (·.line)).getD last

theorem lastLine_append (last : Nat) (a b : List Tok) : lastLine last (a ++ b) = lastLine (lastLine last a) b := by
  unfold lastLine
  rw [List.getLast?_append]
  cases b.getLast? <;> simp

theorem lined_append (last : Nat) (a b : List Tok) :
    lined last (a ++ b) = lined last a ++ lined (lastLine last a) b := by
  induction a generalizing last with
  | nil => rfl
  | cons t a ih =>
    rw [List.cons_append, lined, ih, lined, List.append_assoc, show lastLine last (t :: a) = lastLine t.line a from
      lastLine_append last [t] a]

theorem loop_step {depth last : Nat} {body : Str} {t : Tok} {ts : List Tok} {d : Nat} (hd : d ≠ 0)
    (he : (if t.kind = .rbrace then (if t.kind = .lbrace then depth + 1 else depth) - 1
      else if t.kind = .lbrace then depth + 1 else depth) = d)
    (hfit : body.length + t.text.length + 2 < 8192) :
    macroLoop depth last body (t :: ts) = macroLoop d t.line (body ++ lined last [t]) ts := by
  rw [macroLoop]
  simp only
  rw [he, if_neg hd, if_pos hfit]
  simp [lined]

theorem macroLoop_bal {a : List Tok} (h : Bal a) : ∀ (depth last : Nat) (body : Str) (r : List Tok), 0 < depth →
    body.length + (lined last a).length + 1 < 8192 →
    macroLoop depth last body (a ++ r) = macroLoop depth (lastLine last a) (body ++ lined last a) r := by
  induction h with
  | nil =>
    intro depth last body r _ _
    simp [lined, lastLine]
  | tok h1 h2 _ ih =>
    rename_i t ts _
    intro depth last body r hd hl
    have hl' : (lined last (t :: ts)).length = t.text.length + 1 + (lined t.line ts).length := by
      rw [lined]; simp only [List.length_append, List.length_cons]
    rw [List.cons_append, loop_step (Nat.ne_of_gt hd) (by rw [if_neg h2, if_neg h1]) (by omega),
      ih depth t.line _ r hd (by simp only [lined, List.length_append, List.length_cons, List.length_nil] at *; omega)]
    have e1 : lined last (t :: ts) = lined last [t] ++ lined t.line ts := by simp [lined]
    have e2 : lastLine last (t :: ts) = lastLine t.line ts := lastLine_append last [t] ts
    rw [e1, e2, List.append_assoc]
  | block ho _ hc _ iha ihb =>
    rename_i o a c b _ _
    intro depth last body r hd hl
    have e1 : lined last (o :: (a ++ c :: b)) =
        lined last [o] ++ (lined o.line a ++ (lined (lastLine o.line a) [c] ++ lined c.line b)) := by
      have h1 : lined last (o :: (a ++ c :: b)) = lined last [o] ++ lined o.line (a ++ c :: b) := by simp [lined]
      have h2 : lined (lastLine o.line a) (c :: b) = lined (lastLine o.line a) [c] ++ lined c.line b := by simp [lined]
      rw [h1, lined_append, h2]
    have e2 : lastLine last (o :: (a ++ c :: b)) = lastLine c.line b := by
      rw [show o :: (a ++ c :: b) = ([o] ++ a ++ [c]) ++ b by simp, lastLine_append, lastLine_append]
      rfl
    have l1 : ∀ n (t : Tok), (lined n [t]).length = t.text.length + 1 := by intro n t; simp [lined]
    rw [e1] at hl
    simp only [List.length_append, l1] at hl
    rw [e1, e2, List.cons_append, List.append_assoc, List.cons_append,
      loop_step (d := depth + 1) (by omega) (by rw [if_neg (by rw [ho]; decide), if_pos ho]) (by omega),
      iha (depth + 1) o.line _ _ (by omega) (by simp only [List.length_append, l1]; omega),
      loop_step (d := depth) (by omega) (by rw [if_pos hc, if_neg (by rw [hc]; decide)]; omega)
        (by simp only [List.length_append, l1]; omega),
      ihb depth c.line _ r hd (by simp only [List.length_append, l1]; omega)]
    simp only [List.append_assoc]

/-- **A block in braces hands over its tokens**: a plugin gets the tokens between the braces, each behind a blank or,
where it is on another line, a line feed, and its text takes the place of the block, when the text has less than
8191 characters. -/
theorem macro_block {dl : Loader} {st : St} {is : List Import} (h : Reach dl st is)
    (huniq : ∀ p q, Has dl p → Has dl q → p.name = q.name → p = q) {x : Str} {p : P} (hm : Means is x p) {o c : Tok}
    {a r : List Tok} {line : Nat} (ho : o.kind = .lbrace) (ha : Bal a) (hc : c.kind = .rbrace)
    (hl : (lined line a).length < 8191) :
    macroCall st x line (o :: (a ++ c :: r)) = .text (p.fn (lined line a)) r := by
  obtain ⟨n, hn, hf⟩ := name_plugin h huniq hm
  have hloop : macroLoop 1 line [] (a ++ c :: r) = some (lined line a, r) := by
    rw [macroLoop_bal ha 1 line [] _ (by omega) (by simp only [List.length_nil]; omega), List.nil_append, macroLoop]
    simp only
    rw [if_pos hc, if_neg (show ¬ c.kind = .lbrace by rw [hc]; decide), if_pos rfl]
  unfold macroCall
  simp only
  rw [if_pos ho, hloop]
  simp only
  rw [hn]
  simp only
  rw [hf]

/-- **A block of a name that is not imported is an error**, whatever stands behind the name. -/
theorem macro_unknown {dl : Loader} {st : St} {is : List Import} (h : Reach dl st is) {x : Str}
    (hn : ∀ i ∈ is, ¬ i.named x) (line : Nat) (ts : List Tok) : macroCall st x line ts = .error := by
  cases ts with
  | nil => rfl
  | cons t ts =>
    unfold macroCall
    simp only
    by_cases ht : t.kind = .lbrace
    · rw [if_pos ht]
      cases macroLoop 1 line [] ts with
      | none => rfl
      | some q =>
        simp only
        rw [name_unknown h hn]
    · rw [if_neg ht]

/-- Without imports no name is imported; with an import of `sql` alone, `lisp` is not. -/
example (p : P) (hp : p.name = "sql".toList) : ∀ i ∈ [(⟨p, some "db".toList⟩ : Import)], ¬ i.named "lisp".toList := by
  intro i hi
  rw [List.mem_singleton.1 hi]
  simp [Import.named, hp]

/-- A block with a block in it. -/
example : Bal [⟨.ident, "a".toList, 1⟩, ⟨.lbrace, "{".toList, 2⟩, ⟨.other, "+".toList, 2⟩, ⟨.rbrace, "}".toList, 3⟩] ∧
    lined 1 [⟨.ident, "a".toList, 1⟩, ⟨.lbrace, "{".toList, 2⟩, ⟨.other, "+".toList, 2⟩, ⟨.rbrace, "}".toList, 3⟩] =
      " a\n{ +\n}".toList :=
  ⟨.tok (by decide) (by decide) (.block (a := [⟨.other, "+".toList, 2⟩]) (b := []) rfl (.tok (by decide) (by decide) .nil) rfl .nil),
    by decide +kernel⟩

/-- **The layout within a line, empty lines and comments are lost**: what a plugin gets depends on the tokens, and on
whether each is on a later line than the one before, only. -/
theorem layout_violated {a b : List Tok} (hab : a.map (·.text) = b.map (·.text)) :
    ∀ {last last' : Nat}, (∀ i, i < a.length →
      (((last :: a.map (·.line))[i]?.getD 0 < (a.map (·.line))[i]?.getD 0) ↔
        ((last' :: b.map (·.line))[i]?.getD 0 < (b.map (·.line))[i]?.getD 0))) →
      lined last a = lined last' b := by
  induction a generalizing b with
  | nil =>
    intro last last' _
    cases b with
    | nil => rfl
    | cons _ _ => cases hab
  | cons t a ih =>
    intro last last' hl
    cases b with
    | nil => cases hab
    | cons u b =>
      rw [List.map_cons, List.map_cons] at hab
      injection hab with ht hab
      have h0 := hl 0 (by simp)
      simp only [List.map_cons, List.getElem?_cons_zero, Option.getD_some] at h0
      have := ih hab (last := t.line) (last' := u.line) (fun i hi => by
        have := hl (i + 1) (by simpa using hi)
        simpa using this)
      rw [lined, lined, ht, this]
      by_cases e : last < t.line
      · rw [if_pos e, if_pos (h0.1 e)]
      · rw [if_neg e, if_neg (fun h => e (h0.2 h))]

/-- **A token that does not fit is left out**, and what follows it is taken as long as it fits: nothing is reported. -/
theorem long_violated {t : Tok} (h1 : t.kind ≠ .lbrace) (h2 : t.kind ≠ .rbrace) {depth last : Nat} (hd : 0 < depth)
    {body : Str} (hl : 8192 ≤ body.length + t.text.length + 2) (ts : List Tok) :
    macroLoop depth last body (t :: ts) = macroLoop depth t.line body ts ∧
      (¬ (t.kind = .ident ∧ t.text = "end".toList) → pluginLoop body (t :: ts) = pluginLoop body ts) := by
  constructor
  · rw [macroLoop]
    simp only
    rw [if_neg h2, if_neg h1, if_neg (by omega), if_neg (by omega)]
  · intro he
    rw [pluginLoop, if_neg he, if_neg (by omega)]

/-! ## Blocks with `end` -/

theorem pluginLoop_end {a : List Tok} (ha : ∀ t ∈ a, ¬ (t.kind = .ident ∧ t.text = "end".toList)) {e : Tok}
    (he : e.kind = .ident ∧ e.text = "end".toList) (r : List Tok) (body : Str)
    (hl : body.length + (spaced a).length + 1 < 8192) :
    pluginLoop body (a ++ e :: r) = some (body ++ spaced a, r) := by
  induction a generalizing body with
  | nil => rw [List.nil_append, pluginLoop, if_pos he]; simp [spaced]
  | cons t a ih =>
    have e1 : spaced (t :: a) = t.text ++ [' '] ++ spaced a := by simp [spaced]
    rw [e1] at hl ⊢
    simp only [List.length_append, List.length_cons, List.length_nil] at hl
    rw [List.cons_append, pluginLoop, if_neg (ha t (List.mem_cons_self ..)), if_pos (by omega),
      ih (fun u hu => ha u (List.mem_cons_of_mem _ hu)) _ (by simp only [List.length_append, List.length_cons, List.length_nil]; omega)]
    simp only [List.append_assoc]

/-- **A block up to `end` hands over its tokens**, each before a blank, when they have no `end` and less than 8191
characters, and the plugin is loaded under the name it has itself. -/
theorem plugin_block {st : St} {n e : Tok} {a r : List Tok} {p : P} (hn : n.kind = .ident) (hp : find st.loaded n.text = some p)
    (ha : ∀ t ∈ a, ¬ (t.kind = .ident ∧ t.text = "end".toList)) (he : e.kind = .ident ∧ e.text = "end".toList)
    (hl : (spaced a).length < 8191) {s : Tok} (hs : s.text = [';']) :
    pluginBlock st (n :: (a ++ e :: s :: r)) = .text (p.fn (spaced a)) r := by
  unfold pluginBlock
  simp only
  rw [if_pos hn, pluginLoop_end ha he _ _ (by simp only [List.length_nil]; omega)]
  simp only
  rw [if_pos hs]
  unfold pluginCode
  rw [hp]
  rfl

/-- **A block up to `end` ends at the first `end`**: what follows it is no part of the block, also where the language of
the plugin has this word. -/
theorem end_violated {st : St} {n e : Tok} {a r : List Tok} {p : P} (hn : n.kind = .ident) (hp : find st.loaded n.text = some p)
    (ha : ∀ t ∈ a, ¬ (t.kind = .ident ∧ t.text = "end".toList)) (he : e.kind = .ident ∧ e.text = "end".toList)
    (hl : (spaced a).length < 8191) {t : Tok} (ht : t.text ≠ [';']) :
    pluginBlock st (n :: (a ++ e :: t :: r)) = .text (p.fn (spaced a)) (t :: r) := by
  unfold pluginBlock
  simp only
  rw [if_pos hn, pluginLoop_end ha he _ _ (by simp only [List.length_nil]; omega)]
  simp only
  rw [if_neg ht]
  unfold pluginCode
  rw [hp]
  rfl

/-- **Lines are lost in a block up to `end`**: what the plugin gets does not depend on them. -/
theorem lines_violated {a b : List Tok} (h : a.map (·.text) = b.map (·.text)) : spaced a = spaced b := by
  have e : ∀ a : List Tok, spaced a = (a.map (·.text)).flatMap fun s => s ++ [' '] := by
    intro a
    unfold spaced
    rw [List.flatMap_map]
  rw [e, e, h]

/-- **A block up to `end` of an unknown plugin is left out**, with a comment in the C and no message. -/
theorem unknown_violated {st : St} {n e : Tok} {a r : List Tok} (hn : n.kind = .ident) (hp : find st.loaded n.text = none)
    (ha : ∀ t ∈ a, ¬ (t.kind = .ident ∧ t.text = "end".toList)) (he : e.kind = .ident ∧ e.text = "end".toList)
    (hl : (spaced a).length < 8191) :
    ∃ rest, pluginBlock st (n :: (a ++ e :: r)) =
      .text ("/* Unknown plugin: ".toList ++ n.text ++ " */\n".toList) rest := by
  unfold pluginBlock
  simp only
  rw [if_pos hn, pluginLoop_end ha he _ _ (by simp only [List.length_nil]; omega)]
  simp only
  unfold pluginCode
  rw [hp]
  exact ⟨_, rfl⟩

/-- **An alias is unknown in a block up to `end`**, although the same alias is known before braces. -/
theorem alias_violated {dl : Loader} {p : P} {n a : Str} (hn : (paths n).findSome? dl = some p) (hne : a ≠ p.name) :
    ∃ st, Reach dl st [⟨p, some a⟩] ∧ resolve st a = some p.name ∧ find st.loaded p.name = some p ∧
      ∀ body, pluginCode st a body = "/* Unknown plugin: ".toList ++ a ++ " */\n".toList := by
  let st1 : St := { loaded := [p], imported := [(p.name, some a)] }
  have h1 : register dl {} n (some a) = some st1 := by
    unfold register
    rw [show find ({} : St).loaded n = none from rfl, hn]
  refine ⟨st1, .new .nil rfl hn h1, ?_, ?_, fun body => ?_⟩
  · show Option.map _ (List.find? _ [(p.name, some a)]) = _
    rw [List.find?_cons_of_pos (by simp)]
    rfl
  · show List.find? _ [p] = _
    rw [List.find?_cons_of_pos (by simp)]
  · unfold pluginCode
    have : find st1.loaded a = none := by
      show List.find? _ [p] = none
      rw [List.find?_cons_of_neg (by simpa using Ne.symm hne)]
      rfl
    rw [this]

end Verif.Plugin
