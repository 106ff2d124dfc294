import Verif.BuildFlags.Lemmas

/-!
# Build flags: properties
-/

namespace Verif.BuildFlags

open Verif.Str (Byte)
open Spec

/-! ## `${NAME}` (C43) -/

/-- **C43**: for every text, every environment and every buffer of at least one byte, expansion writes
only inside the buffer and leaves a terminated text there: the one `expand` gives, shorter than the
buffer. -/
theorem expand_safe (env : Env) (dest : List (Option Byte)) (src : List Byte) (h : 1 ≤ dest.length) :
    ∃ m, expandMem env dest src = .ok m ∧ m.length = dest.length ∧
      (expand env dest.length src).length + 1 ≤ dest.length ∧
      m.take ((expand env dest.length src).length + 1) =
        (expand env dest.length src).map some ++ [some 0] := by
  have hlen := expandF_length env (src.length + 1) (dest.length - 1) src
  obtain ⟨m, hm, hl, ht⟩ := expandLoop_spec env (src.length + 1) dest 0 (dest.length - 1) src (by omega)
  simp only [Nat.zero_add, List.take_zero, List.nil_append] at hm ht
  obtain ⟨m2, hm2, hl2, ht2⟩ := write_ok (m := m) (pos := (expandF env (src.length + 1) (dest.length - 1) src).length)
    (bs := [0]) (by simp; omega)
  refine ⟨m2, by simp [expandMem, hm, hm2], by omega, by unfold expand; omega, ?_⟩
  have := ht2 1 (by simp)
  unfold expand
  rw [this, ht]
  simp

/-- **C43**: every reference to a variable that is set is replaced by its value, every other text is
copied, as long as the result fits. -/
theorem expand_pieces (env : Env) (size : Nat) (ps : List Piece) (h : ∀ p ∈ ps, p.Ok env)
    (hfit : (ps.flatMap Piece.value).length + 2 ≤ size) :
    expand env size (ps.flatMap Piece.text) = ps.flatMap Piece.value :=
  expandF_pieces env ps _ _ h (by omega) (by omega)

/-- **C43**: a text without references is copied, cut to the size of the buffer. -/
theorem expand_plain (env : Env) (size : Nat) (s : List Byte) (h : (36 : Byte) ∉ s) :
    expand env size s = s.take (size - 1) :=
  expandF_plain env s _ _ h (by omega)

/-- **C43**: a `$` without a brace after it is no reference: the text stays as it is, up to the size. -/
theorem expand_no_brace (env : Env) (size : Nat) (s : List Byte) (h : ∀ a b, s ≠ a ++ 36 :: 123 :: b) :
    expand env size s = s.take (size - 1) := by
  have gen : ∀ (s : List Byte) (f rem : Nat), (∀ a b, s ≠ a ++ 36 :: 123 :: b) → s.length < f →
      expandF env f rem s = s.take rem := by
    intro s
    induction s with
    | nil => intro f rem _ _; cases f <;> simp [expandF]
    | cons c s ih =>
        intro f rem h hf
        simp only [List.length_cons] at hf
        obtain ⟨g, rfl⟩ : ∃ g, f = g + 1 := ⟨f - 1, by omega⟩
        have ih := ih g (rem - 1) (fun a b e => h (c :: a) b (by rw [e]; rfl)) (by omega)
        cases rem with
        | zero => simp [expandF]
        | succ n =>
            have hn : ref env (c :: s) = none := by
              cases s with
              | nil => rfl
              | cons d s =>
                  rw [ref]
                  rw [if_neg]
                  rintro ⟨rfl, rfl⟩
                  exact h [] s rfl
            rw [expandF]
            simp only [Nat.add_one_ne_zero, if_false, hn, Option.filter_none, ih]
            simp
  exact gen s _ _ h (by omega)

/-- `cost$5` -/
example (env : Env) : expand env 2048 [99, 36, 53] = [99, 36, 53] :=
  expand_no_brace env 2048 _ (by
    intro a b
    rcases a with _ | ⟨a, _ | ⟨a', _ | ⟨_, _ | ⟨_, _⟩⟩⟩⟩ <;> simp)

/-- `a${X}b${Y}` with `X` = `hi` and no `Y` -/
example : expand (fun n => if n = [88] then some [104, 105] else none) 2048
    [97, 36, 123, 88, 125, 98, 36, 123, 89, 125] = [97, 104, 105, 98, 36, 123, 89, 125] := by
  decide +kernel

/-! ## Commands started by a source file (C38) -/

/-- **C38**: whatever the source, the environment, the output of the commands and the system are, the
only commands started by scanning it are `pkg-config --cflags` and `pkg-config --libs`, followed by
letters, digits, `-`, `_`, spaces and `.` only. -/
theorem commands_harmless (w : World) (src : List Byte) (link cflags : List Byte) :
    ∀ c ∈ (scan w src ⟨link, cflags, []⟩).cmds,
      ∃ libs, (∀ b ∈ libs, Harmless b) ∧
        (c = [112, 107, 103, 45, 99, 111, 110, 102, 105, 103, 32, 45, 45, 99, 102, 108, 97, 103, 115, 32] ++ libs ∨
         c = [112, 107, 103, 45, 99, 111, 110, 102, 105, 103, 32, 45, 45, 108, 105, 98, 115, 32] ++ libs) :=
  scanF_inv w (P := fun st => ∀ c ∈ st.cmds, CmdOk c) (fun d _ h => directive_cmds w d h) _ _ _
    (by simp)

/-- **C38**: a character that means something to a shell is not among the harmless ones. -/
theorem harmless_not_special (c : Byte) (h : Harmless c) :
    c ∉ ([59, 38, 124, 60, 62, 36, 96, 92, 34, 39, 40, 41, 123, 125, 42, 63, 91, 93, 35, 126, 33, 10, 13, 9,
      61, 37, 47] : List Byte) := by
  intro hc
  simp only [List.mem_cons, List.not_mem_nil, or_false] at hc
  unfold Harmless at h
  rcases hc with rfl | rfl | rfl | rfl | rfl | rfl | rfl | rfl | rfl | rfl | rfl | rfl | rfl | rfl | rfl |
    rfl | rfl | rfl | rfl | rfl | rfl | rfl | rfl | rfl | rfl | rfl | rfl <;> revert h <;> decide

/-- `//> pkg-config: sdl2` does start both commands -/
example : (scan ⟨fun _ => none, fun _ => none, fun _ => true⟩
    [47, 47, 62, 32, 112, 107, 103, 45, 99, 111, 110, 102, 105, 103, 58, 32, 115, 100, 108, 50, 10]
    ⟨[], [], []⟩).cmds.length = 2 := by decide +kernel

/-- `//> shell: ls` starts nothing -/
example : (scan ⟨fun _ => none, fun _ => none, fun _ => true⟩
    [47, 47, 62, 32, 115, 104, 101, 108, 108, 58, 32, 108, 115, 10] ⟨[], [], []⟩).cmds = [] := by
  decide +kernel

/-! ## Flags of directives (C37) -/

/-- **C37**: the flag buffers never overflow: whatever the source says, both texts stay shorter than
the buffers that hold them. -/
theorem flags_bounded (w : World) (src : List Byte) {st : St} (h1 : st.link.length + 1 ≤ 1024)
    (h2 : st.cflags.length + 1 ≤ 1024) :
    (scan w src st).link.length + 1 ≤ 1024 ∧ (scan w src st).cflags.length + 1 ≤ 1024 :=
  scanF_inv w (P := fun st => st.link.length + 1 ≤ 1024 ∧ st.cflags.length + 1 ≤ 1024)
    (fun d _ h => directive_bounds w d h.1 h.2) _ _ _ ⟨h1, h2⟩

/-- the word of a directive -/
def kindText : Kind → List Byte
  | .link => kLink
  | .cflags => kCflags
  | .incl => kInclude
  | .lib => kLib
  | .define => kDefine

/-- what a directive says, behind the system -/
def body (d : Dir) : List Byte := kindText d.kind ++ 32 :: d.value

theorem skipSp_value {v : List Byte} (h : v.head? ≠ some 32) : skipSp (32 :: v) = v := by
  cases v with
  | nil => rfl
  | cons c v =>
      have : c ≠ 32 := by simpa using h
      simp [skipSp, this]

/-- the state behind a directive that holds -/
def after (st : St) (d : Dir) : St :=
  if d.toLink then { st with link := appendFlag maxFlags st.link d.flag }
  else { st with cflags := appendFlag maxFlags st.cflags d.flag }

theorem directive_body (w : World) (d : Dir) (st : St) (h : FlagOk d.value) :
    directive w (body d) st = after st d := by
  obtain ⟨o, k, v⟩ := d
  have hs := skipSp_value h.2.1
  have hv : v.length ≤ 2000 := h.2.2.1
  have hl : v.take 2045 = v := List.take_of_length_le (by omega)
  cases k <;>
    simp_all [directive, body, kindText, after, Dir.toLink, Dir.flag, kLink, kCflags, kInclude, kLib,
      kFramework, kDefine, strip]

/-- the systems -/
def OsOk (o : Option (List Byte)) : Prop :=
  ∀ n, o = some n → n = osLinux ∨ n = osWindows ∨ n = osMacos ∨ n = osDarwin

/-- a directive behind `//> ` -/
def osText (d : Dir) : List Byte :=
  match d.os with
  | some o => o ++ 58 :: 32 :: body d
  | none => body d

theorem text_eq (d : Dir) : d.text = [47, 47, 62] ++ 32 :: osText d := by
  obtain ⟨o, k, v⟩ := d
  cases o <;> cases k <;>
    simp [Dir.text, osText, body, kindText, kLink, kCflags, kInclude, kLib, kDefine]

theorem cut_kind (k : Kind) (r : List Byte) :
    ∃ n, cut 58 (kindText k ++ r) = some (n, r) ∧
      ¬ (n = osLinux ∨ n = osWindows ∨ n = osMacos ∨ n = osDarwin) := by
  cases k
  · exact ⟨[108, 105, 110, 107], by simp [kindText, kLink, cut], by decide⟩
  · exact ⟨[99, 102, 108, 97, 103, 115], by simp [kindText, kCflags, cut], by decide⟩
  · exact ⟨[105, 110, 99, 108, 117, 100, 101], by simp [kindText, kInclude, cut], by decide⟩
  · exact ⟨[108, 105, 98], by simp [kindText, kLib, cut], by decide⟩
  · exact ⟨[100, 101, 102, 105, 110, 101], by simp [kindText, kDefine, cut], by decide⟩

theorem body_head (d : Dir) : (body d).head? ≠ some 32 := by
  unfold body
  cases d.kind <;> simp [kindText, kLink, kCflags, kInclude, kLib, kDefine]

theorem osPart_text (w : World) (d : Dir) (h : OsOk d.os) :
    osPart w (osText d) = if d.holds w.active then some (body d) else none := by
  obtain ⟨o, k, v⟩ := d
  cases o with
  | none =>
      obtain ⟨n, hn, hno⟩ := cut_kind k (32 :: v)
      simp only [osText, osPart, body, hn, if_neg hno, Dir.holds, if_true]
  | some o =>
      have ho := h o rfl
      have h58 : (58 : Byte) ∉ o := by rcases ho with rfl | rfl | rfl | rfl <;> decide
      simp only [osText, osPart, cut_append _ _ _ h58, if_pos ho, Dir.holds,
        skipSp_value (body_head ⟨some o, k, v⟩)]
      rfl

theorem kindText_facts (k : Kind) :
    (kindText k).length ≤ 8 ∧ ∀ c ∈ kindText k, c ≠ 36 ∧ c ≠ 10 := by
  cases k <;> decide

theorem os_facts {o : List Byte} (h : o = osLinux ∨ o = osWindows ∨ o = osMacos ∨ o = osDarwin) :
    o.length ≤ 7 ∧ (∀ c ∈ o, c ≠ 36 ∧ c ≠ 10) ∧ o.head? ≠ some 32 ∧ o ≠ [] := by
  rcases h with rfl | rfl | rfl | rfl <;> decide

theorem body_facts {d : Dir} (h : FlagOk d.value) :
    (body d).length ≤ 2009 ∧ (∀ c ∈ body d, c ≠ 36 ∧ c ≠ 10) ∧ (body d).getLast? ≠ some 13 := by
  have hk := kindText_facts d.kind
  obtain ⟨h1, h2, h3, h4⟩ := h
  refine ⟨?_, ?_, ?_⟩
  · simp only [body, List.length_append, List.length_cons]; omega
  · intro c hc
    simp only [body, List.mem_append, List.mem_cons] at hc
    rcases hc with hc | rfl | hc
    · exact hk.2 c hc
    · decide
    · refine ⟨(h4 c hc).2.1, ?_⟩
      rintro rfl
      exact absurd ((h4 10 hc).2.2 (by decide)) (by decide)
  · intro hc
    have : (body d).getLast? = d.value.getLast? := by
      unfold body
      cases hv : d.value with
      | nil => exact absurd hv h1
      | cons a v =>
          rw [List.getLast?_append, List.getLast?_cons_cons, List.getLast?_eq_some_getLast (by simp)]
          rfl
    rw [this] at hc
    exact absurd ((h4 13 (List.mem_of_getLast? hc)).2.2 (by decide)) (by decide)

theorem osText_facts {d : Dir} (h : FlagOk d.value) (ho : OsOk d.os) :
    (osText d).length ≤ 2047 ∧ (∀ c ∈ osText d, c ≠ 36 ∧ c ≠ 10) ∧ (osText d).getLast? ≠ some 13 ∧
      (osText d).head? ≠ some 32 := by
  obtain ⟨h1, h2, h3⟩ := body_facts h
  unfold osText
  cases hos : d.os with
  | none => exact ⟨by simp only; omega, h2, h3, body_head d⟩
  | some o =>
      obtain ⟨g1, g2, g3, g4⟩ := os_facts (ho o hos)
      refine ⟨?_, ?_, ?_, ?_⟩
      · simp only [List.length_append, List.length_cons]; omega
      · intro c hc
        simp only [List.mem_append, List.mem_cons] at hc
        rcases hc with hc | rfl | rfl | hc
        · exact g2 c hc
        · decide
        · decide
        · exact h2 c hc
      · have : (o ++ 58 :: 32 :: body d).getLast? = (body d).getLast? := by
          have hb : body d ≠ [] := by simp [body]
          cases hb' : body d with
          | nil => exact absurd hb' hb
          | cons a v =>
              rw [List.getLast?_append, List.getLast?_cons_cons, List.getLast?_cons_cons,
                List.getLast?_eq_some_getLast (by simp)]
              rfl
        simpa [this] using h3
      · cases o with
        | nil => exact absurd rfl g4
        | cons a o => simpa using g3

theorem dirLine_text (w : World) (d : Dir) (st : St) (h : FlagOk d.value) (ho : OsOk d.os) :
    dirLine w (32 :: osText d) st = if d.holds w.active then after st d else st := by
  obtain ⟨h1, h2, h3, h4⟩ := osText_facts h ho
  unfold dirLine
  simp only [skipSp_value h4, List.take_of_length_le h1, if_neg h3]
  rw [expand_plain w.env 2048 _ (fun hc => (h2 36 hc).1 rfl), List.take_of_length_le (by omega),
    osPart_text w d ho]
  cases d.holds w.active <;> simp [directive_body w d st h]

/-- a carriage return at the end of the line is no part of the flag -/
theorem dirLine_cr (w : World) (d : Dir) (st : St) (h : FlagOk d.value) (ho : OsOk d.os) (hl : (osText d).length < 2047) :
    dirLine w (32 :: osText d ++ [13]) st = dirLine w (32 :: osText d) st := by
  obtain ⟨h1, h2, h3, h4⟩ := osText_facts h ho
  have hs : skipSp (32 :: osText d ++ [13]) = osText d ++ [13] := by
    show skipSp (32 :: (osText d ++ [13])) = _
    refine skipSp_value ?_
    cases ht : osText d with
    | nil => simp
    | cons a t => rw [ht] at h4; simpa using h4
  unfold dirLine
  simp only [skipSp_value h4, hs, List.take_of_length_le h1, if_neg h3]
  rw [List.take_of_length_le (by simp; omega)]
  simp

theorem takeWhile_line (l r : List Byte) (h : (10 : Byte) ∉ l) :
    (l ++ 10 :: r).takeWhile (· != 10) = l ∧ (l ++ 10 :: r).dropWhile (· != 10) = 10 :: r := by
  induction l with
  | nil => simp
  | cons c l ih =>
      have hc : c ≠ 10 := fun e => h (by simp [e])
      have := ih (fun e => h (by simp [e]))
      simp [hc, this.1, this.2]

theorem strip_none : ∀ (p l : List Byte), (∀ r, l ≠ p ++ r) → strip p l = none
  | [], l, h => absurd rfl (h l)
  | _ :: _, [], _ => rfl
  | a :: p, c :: l, h => by
      unfold strip
      split
      · rename_i e
        exact strip_none p l (fun r hr => h r (by simp [e, hr]))
      · rfl

/-- lines as in the theorem, values with spaces allowed everywhere -/
def LineOk0 : Line → Prop
  | .code l => (10 : Byte) ∉ l ∧ ∀ r, l ≠ [47, 47, 62] ++ r
  | .dir d => FlagOk d.value ∧ OsOk d.os

theorem lineOk0 {l : Line} (h : LineOk l) : LineOk0 l := by
  cases l with
  | code l => exact h
  | dir d => exact ⟨h.1, h.2.2⟩

/-- the state behind one line -/
def step (w : World) (st : St) : Line → St
  | .code _ => st
  | .dir d => if d.holds w.active then after st d else st

theorem line_text_nl {l : Line} (h : LineOk0 l) : (10 : Byte) ∉ l.text := by
  cases l with
  | code l => exact h.1
  | dir d =>
      have := (osText_facts h.1 h.2).2.1
      simp only [Line.text, text_eq]
      intro hc
      simp only [List.mem_append, List.mem_cons, List.not_mem_nil, or_false] at hc
      rcases hc with hc | hc | hc
      · revert hc; decide
      · revert hc; decide
      · exact (this 10 hc).2 rfl

theorem scanF_source (w : World) : ∀ (ls : List Line) (f : Nat) (st : St), (∀ l ∈ ls, LineOk0 l) →
    (source ls).length < f → scanF w f (source ls) st = ls.foldl (step w) st
  | [], f, st, _, hf => by cases f <;> simp [scanF, source]
  | l :: ls, f, st, h, hf => by
      have hsrc : source (l :: ls) = l.text ++ 10 :: source ls := by simp [source]
      rw [hsrc] at hf ⊢
      simp only [List.length_append, List.length_cons] at hf
      obtain ⟨g, rfl⟩ : ∃ g, f = g + 1 := ⟨f - 1, by omega⟩
      have hl := h l (by simp)
      obtain ⟨e1, e2⟩ := takeWhile_line l.text (source ls) (line_text_nl hl)
      have ih := scanF_source w ls g (step w st l) (fun m hm => h m (by simp [hm])) (by omega)
      rw [List.foldl_cons, ← ih]
      cases hs : l.text ++ 10 :: source ls with
      | nil => simp at hs
      | cons a b =>
          rw [scanF]
          simp only [← hs, e1, e2, List.drop_succ_cons, List.drop_zero]
          cases l with
          | code t => simp only [Line.text, strip_none _ _ hl.2, step]
          | dir d =>
              simp only [Line.text, text_eq, strip_append, dirLine_text w d st hl.1 hl.2, step]

theorem flag_good {d : Dir} (h : FlagOk d.value) : Good d.flag := by
  obtain ⟨h1, h2, h3, h4⟩ := h
  obtain ⟨o, k, v⟩ := d
  simp only at h1 h2 h3 h4
  have hv : ∀ c ∈ v, c ≠ 34 ∧ (isSpace c = true → c = 32) := fun c hc => ⟨(h4 c hc).1, (h4 c hc).2.2⟩
  cases k
  · exact ⟨h1, by simp only [Dir.flag]; omega, hv⟩
  · exact ⟨h1, by simp only [Dir.flag]; omega, hv⟩
  all_goals
    refine ⟨by simp [Dir.flag], by simp only [Dir.flag, List.length_append, List.length_cons, List.length_nil]; omega, ?_⟩
    intro c hc
    simp only [Dir.flag, List.cons_append, List.nil_append, List.mem_cons] at hc
    rcases hc with rfl | rfl | hc
    · decide
    · decide
    · exact hv c hc

theorem flags_good {active : List Byte → Bool} {b : Bool} {ls : List Line} (h : ∀ l ∈ ls, LineOk0 l) :
    ∀ f ∈ flags active b ls, Good f := by
  intro f hf
  simp only [flags, List.mem_filterMap] at hf
  obtain ⟨l, hl, hm⟩ := hf
  cases l with
  | code t => simp at hm
  | dir d =>
      simp only at hm
      split at hm
      · simp at hm; rw [← hm]; exact flag_good (h _ hl).1
      · simp at hm

theorem need_append (a b : List (List Byte)) : need (a ++ b) = need a + need b := by simp [need]

theorem fold_flags (w : World) : ∀ (ls : List Line) (fl fc : List (List Byte)) (cmds : List (List Byte)),
    (∀ l ∈ ls, LineOk0 l) → (∀ f ∈ fl, Good f) → (∀ f ∈ fc, Good f) →
    need (fl ++ flags w.active true ls) < maxFlags → need (fc ++ flags w.active false ls) < maxFlags →
    ls.foldl (step w) ⟨join fl, join fc, cmds⟩ =
      ⟨join (fl ++ flags w.active true ls), join (fc ++ flags w.active false ls), cmds⟩
  | [], fl, fc, cmds, _, _, _, _, _ => by simp [flags]
  | .code t :: ls, fl, fc, cmds, h, h1, h2, n1, n2 => by
      have e : ∀ b, flags w.active b (.code t :: ls) = flags w.active b ls := fun b => by simp [flags]
      rw [e] at n1 n2
      rw [List.foldl_cons, e, e]
      exact fold_flags w ls fl fc cmds (fun m hm => h m (List.mem_cons_of_mem _ hm)) h1 h2 n1 n2
  | .dir d :: ls, fl, fc, cmds, h, h1, h2, n1, n2 => by
      have hls : ∀ m ∈ ls, LineOk0 m := fun m hm => h m (List.mem_cons_of_mem _ hm)
      have hd := flag_good (h (.dir d) (by simp)).1
      have e : ∀ b, flags w.active b (.dir d :: ls) =
          (if d.toLink = b ∧ d.holds w.active then [d.flag] else []) ++ flags w.active b ls := by
        intro b
        simp only [flags, List.filterMap_cons]
        split <;> rename_i hh <;> split at hh <;> simp_all
      rw [e] at n1 n2
      rw [List.foldl_cons, e, e, step]
      cases hh : d.holds w.active with
      | false =>
          simp only [hh, Bool.false_eq_true, and_false, if_false, List.nil_append] at n1 n2 ⊢
          exact fold_flags w ls fl fc cmds hls h1 h2 n1 n2
      | true =>
          have good_append : ∀ {fs : List (List Byte)}, (∀ f ∈ fs, Good f) → ∀ f ∈ fs ++ [d.flag], Good f := by
            intro fs hfs f hf
            rcases List.mem_append.1 hf with hf | hf
            · exact hfs f hf
            · rw [List.mem_singleton.1 hf]; exact hd
          cases hk : d.toLink with
          | true =>
              simp only [hh, hk, and_self, if_true, Bool.true_eq_false, false_and, if_false,
                List.nil_append, after, ← List.append_assoc] at n1 n2 ⊢
              rw [appendFlag_join (fun g hg => (h1 g hg).1) (by rw [need_append] at n1; omega)]
              exact fold_flags w ls _ fc cmds hls (good_append h1) h2 n1 n2
          | false =>
              simp only [hh, hk, and_self, if_true, Bool.false_eq_true, false_and, if_false,
                List.nil_append, after, ← List.append_assoc] at n1 n2 ⊢
              rw [appendFlag_join (fun g hg => (h2 g hg).1) (by rw [need_append] at n2; omega)]
              exact fold_flags w ls fl _ cmds hls h1 (good_append h2) n1 n2

theorem directives_core (w : World) (ls : List Line) (h : ∀ l ∈ ls, LineOk0 l)
    (h1 : need (flags w.active true ls) < 1024) (h2 : need (flags w.active false ls) < 1024) :
    split (scan w (source ls) ⟨[], [], []⟩).link = flags w.active true ls ∧
      split (scan w (source ls) ⟨[], [], []⟩).cflags = flags w.active false ls ∧
      (scan w (source ls) ⟨[], [], []⟩).cmds = [] := by
  have e := fold_flags w ls [] [] [] h (by simp) (by simp) (by simpa [maxFlags] using h1)
    (by simpa [maxFlags] using h2)
  simp only [List.nil_append, show join [] = [] from rfl] at e
  rw [scan, scanF_source w ls _ _ h (by omega), e]
  exact ⟨split_join (flags_good h), split_join (flags_good h), rfl⟩

/-- **C37**, in part: a source file of ordinary lines and of directives that name one flag each hands
the C compiler exactly the flags of the directives that hold on this system, each as one argument, in
order, and starts no command.  Missing: values with several flags, quotes, `$` or white space other than
spaces; `framework:` and `pkg-config:`; more than a kilobyte of flags.  See the violations below. -/
theorem directives_partial (w : World) (ls : List Line) (h : ∀ l ∈ ls, LineOk l)
    (h1 : need (flags w.active true ls) < 1024) (h2 : need (flags w.active false ls) < 1024) :
    split (scan w (source ls) ⟨[], [], []⟩).link = flags w.active true ls ∧
      split (scan w (source ls) ⟨[], [], []⟩).cflags = flags w.active false ls ∧
      (scan w (source ls) ⟨[], [], []⟩).cmds = [] :=
  directives_core w ls (fun l hl => lineOk0 (h l hl)) h1 h2

/-- `x`, `//> link: -lm`, `//> windows: link: -lw`, `//> include: a b` on Linux -/
example : ∀ l ∈ [Line.code [120], .dir ⟨none, .link, [45, 108, 109]⟩,
    .dir ⟨some osWindows, .link, [45, 108, 119]⟩, .dir ⟨none, .incl, [97, 32, 98]⟩], LineOk l := by
  intro l hl
  simp only [List.mem_cons, List.not_mem_nil, or_false] at hl
  rcases hl with rfl | rfl | rfl | rfl
  · exact ⟨by decide, by intro r; simp⟩
  · exact ⟨by simp [FlagOk]; decide, by decide, by simp⟩
  · exact ⟨by simp [FlagOk]; decide, by decide, by simp⟩
  · exact ⟨by simp [FlagOk]; decide, trivial, by simp⟩

example : flags (· = osLinux) true [Line.code [120], .dir ⟨none, .link, [45, 108, 109]⟩,
    .dir ⟨some osWindows, .link, [45, 108, 119]⟩, .dir ⟨none, .incl, [97, 32, 98]⟩] = [[45, 108, 109]] := by
  decide +kernel

/-! ## Violations -/

/-- a directive line that is taken as it is -/
theorem scan_line (w : World) (t : List Byte) (st : St) (h1 : ∀ c ∈ t, c ≠ 36 ∧ c ≠ 10 ∧ c ≠ 13)
    (h2 : t.length ≤ 2047) (h3 : t.head? ≠ some 32) (h4 : osPart w t = some t) :
    scan w ([47, 47, 62, 32] ++ t ++ [10]) st = directive w t st := by
  have hnl : (10 : Byte) ∉ [47, 47, 62, 32] ++ t := by
    intro hc
    rcases List.mem_append.1 hc with hc | hc
    · revert hc; decide
    · exact (h1 10 hc).2.1 rfl
  obtain ⟨e1, e2⟩ := takeWhile_line _ [] hnl
  have hlast : t.getLast? ≠ some 13 := fun hc => (h1 13 (List.mem_of_getLast? hc)).2.2 rfl
  have hd : dirLine w (32 :: t) st = directive w t st := by
    unfold dirLine
    simp only [skipSp_value h3, List.take_of_length_le h2, if_neg hlast]
    rw [expand_plain w.env 2048 _ (fun hc => (h1 36 hc).1 rfl), List.take_of_length_le (by omega), h4]
  unfold scan
  rw [scanF.eq_def]
  simp only [List.cons_append, List.nil_append] at e1 e2 ⊢
  rw [e1, e2]
  simp [strip, hd, scanF]

/-- the bytes of one flag -/
theorem flag_bytes {v : List Byte} (h : FlagOk v) : ∀ c ∈ v, c ≠ 36 ∧ c ≠ 10 ∧ c ≠ 13 := by
  intro c hc
  have := h.2.2.2 c hc
  refine ⟨this.2.1, ?_, ?_⟩
  · rintro rfl; exact absurd (this.2.2 (by decide)) (by decide)
  · rintro rfl; exact absurd (this.2.2 (by decide)) (by decide)

theorem flagOk_append {a b : List Byte} (ha : FlagOk a) (hb : FlagOk b) (hl : a.length + b.length < 900) :
    FlagOk (a ++ 32 :: b) := by
  refine ⟨by simp, ?_, by simp; omega, ?_⟩
  · have := ha.2.1
    cases a with
    | nil => exact absurd rfl ha.1
    | cons c a => simpa using this
  · intro c hc
    simp only [List.mem_append, List.mem_cons] at hc
    rcases hc with hc | rfl | hc
    · exact ha.2.2.2 c hc
    · decide
    · exact hb.2.2.2 c hc

/-- **C37** is violated: two flags in one directive, as in `//> link: -lraylib -lm` of the README, reach
the C compiler as *one* argument with a space in it. -/
theorem two_flags_violated (w : World) (a b : List Byte) (ha : FlagOk a) (hb : FlagOk b)
    (hl : a.length + b.length < 900) :
    split (scan w (source [.dir ⟨none, .link, a ++ 32 :: b⟩]) ⟨[], [], []⟩).link = [a ++ 32 :: b] ∧
      split (scan w (source [.dir ⟨none, .cflags, a ++ 32 :: b⟩]) ⟨[], [], []⟩).cflags = [a ++ 32 :: b] := by
  have hv := flagOk_append ha hb hl
  refine ⟨(directives_core w [.dir ⟨none, .link, a ++ 32 :: b⟩] ?_ ?_ ?_).1,
    (directives_core w [.dir ⟨none, .cflags, a ++ 32 :: b⟩] ?_ ?_ ?_).2.1⟩
  all_goals first
    | (intro l hl; rw [List.mem_singleton.1 hl]; exact ⟨hv, by simp [OsOk]⟩)
    | (simp [flags, need, Dir.toLink, Dir.holds, Dir.flag]; try omega)

/-- `//> link: -lraylib -lm` -/
example : split (scan ⟨fun _ => none, fun _ => none, fun _ => true⟩
    [47, 47, 62, 32, 108, 105, 110, 107, 58, 32, 45, 108, 114, 97, 121, 108, 105, 98, 32, 45, 108, 109, 10]
    ⟨[], [], []⟩).link = [[45, 108, 114, 97, 121, 108, 105, 98, 32, 45, 108, 109]] := by
  decide +kernel

/-- **C37** is violated: `//> framework: Cocoa` reaches the linker as the one argument
`-framework Cocoa`. -/
theorem framework_violated (w : World) (v : List Byte) (h : FlagOk v) (hl : v.length < 900) :
    split (scan w ([47, 47, 62, 32] ++ (kFramework ++ 32 :: v) ++ [10]) ⟨[], [], []⟩).link =
      [fFramework ++ v] := by
  have hb := flag_bytes h
  have hgood : Good (fFramework ++ v) := by
    refine ⟨by simp [fFramework], by simp [fFramework]; omega, ?_⟩
    intro c hc
    rcases List.mem_append.1 hc with hc | hc
    · exact (show ∀ c ∈ fFramework, c ≠ 34 ∧ (isSpace c = true → c = 32) by decide) c hc
    · exact ⟨(h.2.2.2 c hc).1, (h.2.2.2 c hc).2.2⟩
  have hn : need ([] ++ [fFramework ++ v]) < maxFlags := by
    simp only [need, List.nil_append, List.map_cons, List.map_nil, List.sum_cons, List.sum_nil,
      List.length_append, show fFramework.length = 11 from rfl, maxFlags]
    omega
  have ha := appendFlag_join (fs := []) (by simp) hn
  rw [scan_line]
  · have : directive w (kFramework ++ 32 :: v) ⟨[], [], []⟩ =
        ⟨appendFlag maxFlags (join []) (fFramework ++ v), [], []⟩ := by
      simp only [directive, kFramework, kLink, kCflags, kInclude, kLib, List.cons_append,
        List.nil_append, strip, join]
      simp
      rw [skipSp_value h.2.1, List.take_of_length_le (by simp [fFramework]; omega)]
    rw [this, ha]
    exact split_join (by simpa using hgood)
  · intro c hc
    rcases List.mem_append.1 hc with hc | hc
    · exact (show ∀ c ∈ kFramework, c ≠ 36 ∧ c ≠ 10 ∧ c ≠ 13 by decide) c hc
    · rcases List.mem_cons.1 hc with rfl | hc
      · decide
      · exact hb c hc
  · simp [kFramework]; omega
  · simp [kFramework]
  · simp [osPart, kFramework, cut, osLinux, osWindows, osMacos, osDarwin]

theorem directive_pkg (w : World) (libs : List Byte) (st : St) :
    directive w (kPkg ++ libs) st =
      if libs.all pkgChar then
        ⟨pkgRun w maxFlags st.link ((cmdLibs ++ libs).take 4095),
          pkgRun w maxFlags st.cflags ((cmdCflags ++ libs).take 4095),
          st.cmds ++ [(cmdCflags ++ libs).take 4095, (cmdLibs ++ libs).take 4095]⟩
      else st := by
  simp [directive, kPkg, kLink, kCflags, kInclude, kLib, kFramework, kDefine, kShell, kGet, strip]

/-- **C37** is violated: a package whose name has a `+`, such as `gtk+-3.0` in the README, adds no flags;
`pkg-config` is not even asked. -/
theorem plus_violated (w : World) (a b : List Byte) (ha : FlagOk a) (hb : FlagOk b)
    (hl : a.length + b.length < 900) (st : St) :
    scan w ([47, 47, 62, 32] ++ (kPkg ++ 32 :: (a ++ 43 :: b)) ++ [10]) st = st := by
  rw [scan_line, directive_pkg, if_neg]
  · simp [pkgChar, isAlnum]
  · intro c hc
    rcases List.mem_append.1 hc with hc | hc
    · exact (show ∀ c ∈ kPkg, c ≠ 36 ∧ c ≠ 10 ∧ c ≠ 13 by decide) c hc
    · simp only [List.mem_cons, List.mem_append] at hc
      rcases hc with rfl | hc | rfl | hc
      · decide
      · exact flag_bytes ha c hc
      · decide
      · exact flag_bytes hb c hc
  · simp [kPkg]; omega
  · simp [kPkg]
  · simp [osPart, kPkg, cut, osLinux, osWindows, osMacos, osDarwin]

/-- **C37** is violated: when `pkg-config` prints two flags, they reach the C compiler as one argument. -/
theorem pkg_output_violated (w : World) (v a b : List Byte) (hv : ∀ c ∈ v, pkgChar c = true)
    (hvl : v.length < 900) (ha : FlagOk a) (hb : FlagOk b) (hl : a.length + b.length < 900)
    (hout : w.out (cmdLibs ++ 32 :: v) = some (a ++ 32 :: b)) :
    split (scan w ([47, 47, 62, 32] ++ (kPkg ++ 32 :: v) ++ [10]) ⟨[], [], []⟩).link = [a ++ 32 :: b] := by
  have hok := flagOk_append ha hb hl
  have hgood : Good (a ++ 32 :: b) := flag_good (d := ⟨none, .link, a ++ 32 :: b⟩) hok
  have happ := appendFlag_join (fs := []) (f := a ++ 32 :: b) (max := maxFlags) (by simp)
    (by simp [need, maxFlags]; omega)
  have hnice : ∀ c, pkgChar c = true → c ≠ 36 ∧ c ≠ 10 ∧ c ≠ 13 := by
    intro c hc
    refine ⟨?_, ?_, ?_⟩ <;> rintro rfl <;> revert hc <;> decide
  rw [scan_line, directive_pkg, if_pos]
  · rw [List.take_of_length_le (l := cmdLibs ++ 32 :: v) (by simp [cmdLibs]; omega)]
    simp only [pkgRun, hout]
    rw [show ([] : List Byte) = join [] from rfl, happ]
    exact split_join (by simpa using hgood)
  · simp only [List.all_eq_true, List.mem_cons]
    rintro c (rfl | hc)
    · decide
    · exact hv c hc
  · intro c hc
    rcases List.mem_append.1 hc with hc | hc
    · exact (show ∀ c ∈ kPkg, c ≠ 36 ∧ c ≠ 10 ∧ c ≠ 13 by decide) c hc
    · rcases List.mem_cons.1 hc with rfl | hc
      · decide
      · exact hnice c (hv c hc)
  · simp [kPkg]; omega
  · simp [kPkg]
  · simp [osPart, kPkg, cut, osLinux, osWindows, osMacos, osDarwin]

/-- a world in which it happens -/
example : ∃ w : World, w.out (cmdLibs ++ 32 :: [97]) = some ([45, 108, 97] ++ 32 :: [45, 108, 98]) ∧
    FlagOk [45, 108, 97] ∧ FlagOk [45, 108, 98] ∧ pkgChar 97 = true :=
  ⟨⟨fun _ => none, fun _ => some ([45, 108, 97] ++ 32 :: [45, 108, 98]), fun _ => true⟩, rfl,
    by simp [FlagOk]; decide, by simp [FlagOk]; decide, by decide⟩

/-- **C37** is violated: a flag that does not fit the kilobyte any more is left out (with a warning) and
the compilation goes on without it. -/
theorem full_violated (w : World) (a b : List Byte) (ha : FlagOk a) (hb : FlagOk b) (hl : a.length < 1000)
    (hfull : 1022 < a.length + b.length) (hsp : (32 : Byte) ∉ a ++ b) :
    split (scan w (source [.dir ⟨none, .link, a⟩, .dir ⟨none, .link, b⟩]) ⟨[], [], []⟩).link = [a] := by
  have hg : Good a := flag_good (d := ⟨none, .link, a⟩) ha
  have ha0 : 0 < a.length := List.length_pos_iff.2 ha.1
  have hsa : (32 : Byte) ∉ a := fun h => hsp (by simp [h])
  have hsb : (32 : Byte) ∉ b := fun h => hsp (by simp [h])
  have h0 : appendFlag maxFlags [] a = join [a] := by
    have := appendFlag_join (fs := []) (f := a) (max := maxFlags) (by simp) (by simp [need, maxFlags]; omega)
    rw [List.nil_append] at this
    exact this
  have hj : join [a] = a := by simp [join, quoteFlag, hsa]
  have h1 : appendFlag maxFlags (join [a]) b = join [a] := by
    rw [hj, appendFlag]
    simp only [hsb, if_false, ha0, gt_iff_lt, if_true]
    rw [if_pos (by unfold maxFlags; omega)]
  rw [scan, scanF_source w _ _ _ ?_ (by omega)]
  · simp only [List.foldl_cons, List.foldl_nil, step, Dir.holds, if_true, after, Dir.toLink, Dir.flag, h0, h1]
    exact split_join (by simpa using hg)
  · intro l hl
    simp only [List.mem_cons, List.not_mem_nil, or_false] at hl
    rcases hl with rfl | rfl
    · exact ⟨ha, by simp [OsOk]⟩
    · exact ⟨hb, by simp [OsOk]⟩

/-- two such flags -/
example : ∃ a b : List Byte, FlagOk a ∧ FlagOk b ∧ a.length < 1000 ∧ 1022 < a.length + b.length ∧
    (32 : Byte) ∉ a ++ b := by
  obtain ⟨n, hn⟩ : ∃ n, n = 600 := ⟨_, rfl⟩
  have h : FlagOk (List.replicate n 97) := by
    refine ⟨by simp; omega, by rw [List.head?_replicate]; split <;> simp, by simp; omega, fun c hc => ?_⟩
    rw [List.eq_of_mem_replicate hc]; decide
  exact ⟨_, _, h, h, by simp; omega, by simp; omega, by simp [List.mem_replicate]⟩

/-- **C37** is violated: quotes in a value are lost, and a quoted part with a space falls apart:
`//> cflags: -DX="a b"` gives the two arguments `-DX=a` and `b`. -/
theorem quotes_violated (p a b : List Byte) (hp : ∀ c ∈ p, c ≠ 34 ∧ isSpace c = false)
    (ha : ∀ c ∈ a, c ≠ 34 ∧ isSpace c = false) (hb : ∀ c ∈ b, c ≠ 34 ∧ isSpace c = false) (hbn : b ≠ [])
    (hl : p.length + a.length + b.length < 900) :
    split (appendFlag maxFlags [] (p ++ 34 :: (a ++ 32 :: (b ++ [34])))) = [p ++ a, b] := by
  have hmem : (32 : Byte) ∈ p ++ 34 :: (a ++ 32 :: (b ++ [34])) := by simp
  have hq : ∀ (l t : List Byte), (∀ c ∈ l, c ≠ 34) → word true (l ++ 34 :: t) =
      (l ++ (word false t).1, (word false t).2) := by
    intro l t hl
    induction l with
    | nil => simp [word]
    | cons c l ih =>
        have := ih (fun d hd => hl d (by simp [hd]))
        simp [word, hl c (by simp), this]
  have hf : ∀ (l t : List Byte), (∀ c ∈ l, c ≠ 34 ∧ isSpace c = false) → word false (l ++ t) =
      (l ++ (word false t).1, (word false t).2) := by
    intro l t hl
    induction l with
    | nil => simp
    | cons c l ih =>
        have := ih (fun d hd => hl d (by simp [hd]))
        simp [word, hl c (by simp), this]
  have hw1 : word false (34 :: (p ++ 34 :: (a ++ 32 :: (b ++ [34])) ++ [34])) =
      (p ++ a, 32 :: (b ++ [34, 34])) := by
    have h1 := hq p (a ++ 32 :: (b ++ [34, 34])) (fun c hc => (hp c hc).1)
    have h2 := hf a (32 :: (b ++ [34, 34])) ha
    have h3 : word false (32 :: (b ++ [34, 34])) = ([], 32 :: (b ++ [34, 34])) := by simp [word, isSpace]
    rw [h2, h3] at h1
    simpa [word, isSpace] using h1
  have hw2 : word false (b ++ [34, 34]) = (b, []) := by
    have h1 := hf b [34, 34] hb
    simpa [word, isSpace] using h1
  have happ : appendFlag maxFlags [] (p ++ 34 :: (a ++ 32 :: (b ++ [34]))) =
      34 :: (p ++ 34 :: (a ++ 32 :: (b ++ [34])) ++ [34]) := by
    unfold appendFlag quoteFlag
    simp only [if_pos hmem, List.length_nil, gt_iff_lt, Nat.lt_irrefl, if_false]
    rw [if_neg]
    simp [maxFlags]; omega
  have hb0 : 0 < b.length := List.length_pos_iff.2 hbn
  rw [happ, split]
  obtain ⟨n, hn⟩ : ∃ n, (34 :: (p ++ 34 :: (a ++ 32 :: (b ++ [34])) ++ [34])).length + 1 = n + 3 :=
    ⟨(34 :: (p ++ 34 :: (a ++ 32 :: (b ++ [34])) ++ [34])).length - 2, by simp; omega⟩
  rw [hn, splitF]
  have hd1 : ∀ r : List Byte, (34 :: r).dropWhile isSpace = 34 :: r := fun r => by simp [isSpace]
  simp only [hd1, hw1, splitF_space]
  rw [splitF]
  obtain ⟨c, r, hcr⟩ : ∃ c r, b = c :: r := by
    cases b with
    | nil => exact absurd rfl hbn
    | cons c r => exact ⟨c, r, rfl⟩
  have hc : isSpace c = false := (hb c (by simp [hcr])).2
  have hd2 : (b ++ [34, 34]).dropWhile isSpace = b ++ [34, 34] := by
    rw [hcr]; simp [hc]
  rw [hd2]
  have hm : ∃ d t, b ++ [34, 34] = d :: t := ⟨c, r ++ [34, 34], by simp [hcr]⟩
  obtain ⟨d, t, hdt⟩ := hm
  rw [hdt] at hw2 ⊢
  simp only [hw2]
  rw [splitF, List.take_of_length_le (by simp; omega), List.take_of_length_le (by omega)]
  simp

/-! ## Flags of the command line (C56) -/

/-- text of an option in the flag string -/
def optText (o : Opt) : List Byte :=
  o.pre ++ (match o.val with | some v => quoteFlag v | none => [])

theorem optText_length (o : Opt) : (optText o).length ≤ o.arg.length + 2 := by
  obtain ⟨p, v⟩ := o
  cases v with
  | none => simp [optText, Opt.arg]
  | some v => simp only [optText, Opt.arg, Option.getD_some, List.length_append, quoteFlag_length]; split <;> omega

theorem optText_last {o : Opt} (h : o.Ok) : (optText o).getLast? ≠ some 32 := by
  obtain ⟨p, v⟩ := o
  obtain ⟨h1, h2, h3, h4⟩ := h
  have hp : (32 : Byte) ∉ p := fun hc => by have := (h2 32 hc).2; revert this; decide
  intro hc
  cases v with
  | none =>
      simp only [optText, List.append_nil] at hc
      exact hp (List.mem_of_getLast? hc)
  | some v =>
      simp only [optText, quoteFlag] at hc
      split at hc
      · rw [show p ++ 34 :: (v ++ [34]) = (p ++ 34 :: v) ++ [34] by simp, List.getLast?_concat] at hc
        simp at hc
      · rename_i hv
        rcases List.mem_append.1 (List.mem_of_getLast? hc) with hm | hm
        · exact hp hm
        · exact hv hm

theorem optText_head {o : Opt} (h : o.Ok) : ∃ c r, optText o = c :: r ∧ isSpace c = false := by
  obtain ⟨p, v⟩ := o
  obtain ⟨h1, h2, h3, h4⟩ := h
  cases p with
  | nil => exact absurd rfl h1
  | cons c p => exact ⟨c, _, rfl, (h2 c (by simp)).2⟩

theorem word_append (l t : List Byte) (hl : ∀ c ∈ l, c ≠ 34 ∧ isSpace c = false) :
    word false (l ++ t) = (l ++ (word false t).1, (word false t).2) := by
  induction l with
  | nil => simp
  | cons c l ih =>
      have := ih (fun d hd => hl d (by simp [hd]))
      simp [word, hl c (by simp), this]

theorem word_opt {o : Opt} {t : List Byte} (h : o.Ok) (ht : ∀ c, t.head? = some c → isSpace c = true) :
    word false (optText o ++ t) = (o.arg, t) := by
  obtain ⟨p, v⟩ := o
  obtain ⟨h1, h2, h3, h4⟩ := h
  have h0 := word_plain [] t (by simp) ht
  simp only [List.nil_append] at h0
  rw [optText, List.append_assoc, word_append _ _ h2]
  cases v with
  | none => simp [h0, Opt.arg]
  | some v =>
      have hv := h3 v rfl
      simp only [Opt.arg, Option.getD_some, quoteFlag]
      split
      · have := word_quoted v t (fun c hc => (hv c hc).1) ht
        simp [word, isSpace, this]
      · rename_i hs
        rw [word_plain v t (fun c hc => ⟨(hv c hc).1, ?_⟩) ht]
        cases hsp : isSpace c with
        | false => rfl
        | true => exact absurd ((hv c hc).2 hsp ▸ hc) hs

/-- options one behind the other -/
def joinO : List Opt → List Byte
  | [] => []
  | [o] => optText o
  | o :: p :: os => optText o ++ 32 :: joinO (p :: os)

theorem joinO_append : ∀ (os : List Opt) (o : Opt), os ≠ [] →
    joinO (os ++ [o]) = joinO os ++ 32 :: optText o
  | [], o, h => absurd rfl h
  | [a], o, _ => by simp [joinO]
  | a :: b :: os, o, _ => by
      have := joinO_append (b :: os) o (by simp)
      simp only [List.cons_append] at this ⊢
      simp [joinO, this]

theorem joinO_last : ∀ (os : List Opt), (∀ o ∈ os, o.Ok) → (joinO os).getLast? ≠ some 32
  | [], _ => by simp [joinO]
  | [a], h => optText_last (h a (by simp))
  | a :: b :: os, h => by
      have := joinO_last (b :: os) (fun o ho => h o (by simp [ho]))
      rw [joinO, List.getLast?_append]
      obtain ⟨c, r, hc, -⟩ : ∃ c r, joinO (b :: os) = c :: r ∧ True := by
        obtain ⟨c, r, hc, _⟩ := optText_head (h b (by simp))
        cases os with
        | nil => exact ⟨c, r, hc, trivial⟩
        | cons d os => exact ⟨c, r ++ 32 :: joinO (d :: os), by simp [joinO, hc], trivial⟩
      rw [hc] at this ⊢
      rw [List.getLast?_cons_cons]
      rw [List.getLast?_eq_some_getLast (by simp)] at this ⊢
      simpa using this

theorem splitF_joinO : ∀ (os : List Opt) (n : Nat), (∀ o ∈ os, o.Ok) → (joinO os).length < n →
    splitF n (joinO os) = os.map Opt.arg
  | [], n, _, _ => by cases n <;> simp [splitF, joinO]
  | [a], n, h, hn => by
      obtain ⟨m, rfl⟩ : ∃ m, n = m + 1 := ⟨n - 1, by omega⟩
      have ha := h a (by simp)
      obtain ⟨c, r, hq, hc⟩ := optText_head ha
      have hw := word_opt (t := []) ha (by simp)
      rw [List.append_nil, hq] at hw
      simp only [joinO, hq, splitF, List.dropWhile_cons, hc, Bool.false_eq_true, if_false, hw,
        List.take_of_length_le ha.2.2.2]
      cases m <;> simp [splitF]
  | a :: b :: os, n, h, hn => by
      obtain ⟨m, rfl⟩ : ∃ m, n = m + 1 := ⟨n - 1, by omega⟩
      have ha := h a (by simp)
      obtain ⟨c, r, hq, hc⟩ := optText_head ha
      have hw := word_opt (t := 32 :: joinO (b :: os)) ha (by simp [isSpace])
      simp only [joinO, List.length_append, List.length_cons] at hn ⊢
      rw [hq, List.cons_append] at hw ⊢
      simp only [splitF, List.dropWhile_cons, hc, Bool.false_eq_true, if_false, hw, splitF_space,
        List.take_of_length_le ha.2.2.2, List.map_cons]
      rw [splitF_joinO (b :: os) m (fun o ho => h o (by simp [ho])) (by omega)]
      simp

theorem strncat_fits {max : Nat} {d s : List Byte} {n : Nat} (h : d.length + s.length < max) (hn : s.length ≤ n) :
    strncat max d s n = .ok (d ++ s) := by
  unfold strncat
  rw [List.take_of_length_le hn, if_pos (by simp; omega)]

theorem mainAppend_fits {max : Nat} {dest : List Byte} {o : Opt} (hd : dest.getLast? ≠ some 32)
    (h : dest.length + o.arg.length + 4 ≤ max) :
    mainAppend max dest o.pre o.val =
      .ok ((if dest = [] then [] else dest ++ [32]) ++ optText o) := by
  obtain ⟨p, v⟩ := o
  have key : ∀ d : List Byte, d.length + (Opt.arg ⟨p, v⟩).length + 3 ≤ max →
      (do
        let d' ← strncat max d p (room max d.length)
        match v with
        | none => pure d'
        | some v =>
            if (32 : Byte) ∈ v then do
              let e ← strncat max d' [34] (room max d'.length)
              let g ← strncat max e v (room max (d'.length + 1))
              strncat max g [34] (room max g.length)
            else strncat max d' v (room max d'.length)) = .ok (d ++ optText ⟨p, v⟩) := by
    intro d hdl
    cases v with
    | none =>
        simp only [Opt.arg, Option.getD_none, List.append_nil] at hdl
        rw [strncat_fits (by omega) (by unfold room; split <;> omega)]
        simp [optText]
    | some v =>
        simp only [Opt.arg, Option.getD_some, List.length_append] at hdl
        rw [strncat_fits (by omega) (by unfold room; split <;> omega)]
        simp only [Run.ok_bind, optText, quoteFlag]
        split
        · rw [strncat_fits (by simp; omega) (by simp [room]; split <;> omega), Run.ok_bind,
            strncat_fits (by simp; omega) (by simp [room]; split <;> omega), Run.ok_bind,
            strncat_fits (by simp; omega) (by simp [room]; split <;> omega)]
          simp
        · rw [strncat_fits (by simp; omega) (by simp [room]; split <;> omega)]
          simp
  unfold mainAppend
  by_cases h0 : dest = []
  · subst h0
    have := key [] (by simp at h ⊢; omega)
    cases v <;> simpa using this
  · have hpos : 0 < dest.length := List.length_pos_iff.2 h0
    have := key (dest ++ [32]) (by simp at h ⊢; omega)
    simp only [gt_iff_lt, hpos, true_and]
    rw [if_pos hd, strncat_fits (by simp; omega) (by simp [room]; split <;> omega)]
    cases v <;> simpa [h0] using this

/-- **C56**, in part: options of the command line that are passed on reach the C compiler as one
argument each, in order, and the buffer does not overflow.  Missing: options whose prefix has white
space or quotes, values with quotes or white space other than spaces, and more than four kilobytes; see
the violations below. -/
theorem options_partial (os : List Opt) (h : ∀ o ∈ os, o.Ok)
    (hfit : (os.map fun o => o.arg.length + 3).sum < 4096) :
    ∃ d, os.foldlM (fun d o => mainAppend 4096 d o.pre o.val) [] = Run.ok d ∧ d.length < 4096 ∧
      split d = os.map Opt.arg := by
  suffices ∀ (done os : List Opt), (∀ o ∈ done, o.Ok) → (∀ o ∈ os, o.Ok) →
      (joinO done).length + (os.map fun o => o.arg.length + 3).sum < 4096 →
      os.foldlM (fun d o => mainAppend 4096 d o.pre o.val) (joinO done) = Run.ok (joinO (done ++ os)) ∧
        (joinO (done ++ os)).length < 4096 by
    obtain ⟨h1, h2⟩ := this [] os (by simp) h (by simpa [joinO] using hfit)
    rw [List.nil_append] at h1 h2
    exact ⟨_, h1, h2, splitF_joinO os _ h (by omega)⟩
  intro done os
  induction os generalizing done with
  | nil => intro hd _ hl; simp at hl ⊢; exact hl
  | cons o os ih =>
      intro hd ho hl
      simp only [List.map_cons, List.sum_cons] at hl
      have hstep : mainAppend 4096 (joinO done) o.pre o.val = .ok (joinO (done ++ [o])) := by
        rw [mainAppend_fits (joinO_last done hd) (by omega)]
        cases done with
        | nil => simp [joinO]
        | cons a as =>
            have hne : joinO (a :: as) ≠ [] := by
              obtain ⟨c, r, hc, _⟩ := optText_head (hd a (by simp))
              cases as <;> simp [joinO, hc]
            rw [if_neg hne, joinO_append _ _ (by simp)]
            simp
      have hlen : (joinO (done ++ [o])).length ≤ (joinO done).length + (o.arg.length + 3) := by
        have := optText_length o
        cases done with
        | nil => simp [joinO]; omega
        | cons a as => rw [joinO_append _ _ (by simp)]; simp; omega
      have := ih (done ++ [o]) (by
        intro q hq
        rcases List.mem_append.1 hq with hq | hq
        · exact hd q hq
        · rw [List.mem_singleton.1 hq]; exact ho o (by simp)) (fun q hq => ho q (by simp [hq])) (by omega)
      rw [List.append_assoc] at this
      rw [List.foldlM_cons, hstep]
      exact this

/-- `-Ia b`, `-g` -/
example : ∀ o ∈ [Opt.mk [45, 73] (some [97, 32, 98]), ⟨[45, 103], none⟩], o.Ok := by
  intro o ho
  simp only [List.mem_cons, List.not_mem_nil, or_false] at ho
  rcases ho with rfl | rfl <;> refine ⟨by simp, by decide, ?_, by simp [Opt.arg]⟩
  · intro v hv
    obtain rfl := Option.some.inj hv
    decide
  · simp

/-- **C56** is violated: once the buffer is full, one further option is written behind its end: the
length is counted up without a space having been written, and the room left wraps around. -/
theorem full_overflow_violated (max : Nat) (dest pre : List Byte) (val : Option (List Byte))
    (hmax : 2 ≤ max) (hfull : dest.length + 1 = max) (hlast : dest.getLast? ≠ some 32) (hp : pre ≠ []) :
    mainAppend max dest pre val = .ub := by
  have hpos : 0 < dest.length := by omega
  have hp0 : 0 < pre.length := List.length_pos_iff.2 hp
  unfold mainAppend
  simp only [gt_iff_lt, hpos, true_and]
  rw [if_pos hlast]
  have e1 : strncat max dest [32] (room max dest.length) = .ok dest := by
    simp [strncat, room, show dest.length < max by omega, show max - dest.length - 1 = 0 by omega]
  have e2 : strncat max dest pre (room max (dest.length + 1)) = .ub := by
    unfold strncat
    rw [if_neg]
    simp [room, show ¬ dest.length + 1 < max by omega]
    omega
  rw [e1]
  simp only [Run.ok_bind, e2]
  rfl

/-- **C56** is violated: one long value is enough to fill the buffer, so that any option behind it is
written out of bounds. -/
theorem long_option_violated (v pre : List Byte) (val : Option (List Byte)) (hv : 4093 ≤ v.length)
    (hs : (32 : Byte) ∉ v) (hp : pre ≠ []) :
    ∃ d, mainAppend 4096 [] [45, 68] (some v) = .ok d ∧ mainAppend 4096 d pre val = .ub := by
  refine ⟨[45, 68] ++ v.take 4093, ?_, full_overflow_violated 4096 _ pre val (by omega) (by simp; omega) ?_ hp⟩
  · simp only [mainAppend, List.length_nil, gt_iff_lt, Nat.lt_irrefl, false_and, if_false]
    rw [strncat_fits (by simp) (by simp [room])]
    simp only [Run.ok_bind, if_neg hs]
    unfold strncat
    simp [room]
    omega
  · intro hc
    have : (32 : Byte) ∈ [45, 68] ++ v.take 4093 := List.mem_of_getLast? hc
    simp only [List.mem_append, List.mem_cons, List.not_mem_nil, or_false] at this
    rcases this with (h | h) | h
    · revert h; decide
    · revert h; decide
    · exact hs (List.mem_of_mem_take h)

/-- **C56** is violated: an option that is passed on as it is, such as `-Wl,-rpath,/a b` or
`-fmacro-prefix-map=a b=c`, is not quoted and falls apart at its spaces. -/
theorem unquoted_violated (a b : List Byte) (ha : ∀ c ∈ a, c ≠ 34 ∧ isSpace c = false)
    (hb : ∀ c ∈ b, c ≠ 34 ∧ isSpace c = false) (hna : a ≠ []) (hnb : b ≠ [])
    (hl : a.length + b.length < 4000) :
    ∃ d, mainAppend 4096 [] (a ++ 32 :: b) none = .ok d ∧ split d = [a, b] := by
  refine ⟨a ++ 32 :: b, ?_, ?_⟩
  · simp only [mainAppend, List.length_nil, gt_iff_lt, Nat.lt_irrefl, false_and, if_false]
    rw [strncat_fits (by simp; omega) (by simp [room]; omega)]
    rfl
  · have := splitF_joinO [⟨a, none⟩, ⟨b, none⟩] ((a ++ 32 :: b).length + 1) ?_ (by simp [joinO, optText])
    · simpa [joinO, optText, Opt.arg, split] using this
    · intro o ho
      simp only [List.mem_cons, List.not_mem_nil, or_false] at ho
      rcases ho with rfl | rfl
      · exact ⟨hna, ha, by simp, by simp [Opt.arg]; omega⟩
      · exact ⟨hnb, hb, by simp, by simp [Opt.arg]; omega⟩

end Verif.BuildFlags
