import Verif.BuildFlags.Model

/-!
# Build flags: lemmas
-/

namespace Verif.BuildFlags

open Verif.Str (Byte)

theorem cut_append (c : Byte) : ∀ (a r : List Byte), c ∉ a → cut c (a ++ c :: r) = some (a, r)
  | [], r, _ => by simp [cut]
  | d :: a, r, h => by
      have hd : d ≠ c := fun e => h (by simp [e])
      have := cut_append c a r (fun e => h (by simp [e]))
      simp [cut, hd, this]

theorem cut_length (c : Byte) : ∀ (s a r : List Byte), cut c s = some (a, r) → r.length < s.length
  | [], a, r, h => by simp [cut] at h
  | d :: s, a, r, h => by
      unfold cut at h
      split at h
      · simp at h; simp [← h.2]
      · cases hc : cut c s with
        | none => simp [hc] at h
        | some p =>
            obtain ⟨a', r'⟩ := p
            simp [hc] at h
            have := cut_length c s a' r' hc
            simp [← h.2]; omega

/-! ## Expansion -/

theorem write_ok {m : List (Option Byte)} {pos : Nat} {bs : List Byte} (h : pos + bs.length ≤ m.length) :
    ∃ m', write m pos bs = .ok m' ∧ m'.length = m.length ∧
      ∀ k ≤ bs.length, m'.take (pos + k) = m.take pos ++ (bs.take k).map some := by
  refine ⟨m.take pos ++ bs.map some ++ m.drop (pos + bs.length), by simp [write, h], ?_, ?_⟩
  · simp; omega
  · intro k hk
    have hp : (m.take pos).length = pos := by simp; omega
    rw [List.append_assoc, List.take_append, hp, List.take_of_length_le (by omega),
      Nat.add_sub_cancel_left, List.take_append_of_le_length (by simpa using hk), List.map_take]

theorem expandF_length (env : Env) : ∀ (f rem : Nat) (s : List Byte), (expandF env f rem s).length ≤ rem
  | 0, rem, s => by simp [expandF]
  | f + 1, rem, [] => by simp [expandF]
  | f + 1, rem, c :: r => by
      unfold expandF
      by_cases h0 : rem = 0
      · simp [h0]
      · simp only [if_neg h0]
        cases hr : (ref env (c :: r)).filter fun p => decide (p.1.length < rem) with
        | none =>
            have := expandF_length env f (rem - 1) r
            simp; omega
        | some p =>
            obtain ⟨v, rest⟩ := p
            have hv : v.length < rem := by
              have := Option.filter_eq_some_iff.1 hr
              simpa using this.2
            have := expandF_length env f (rem - v.length) rest
            simp; omega

theorem expandLoop_spec (env : Env) : ∀ (f : Nat) (m : List (Option Byte)) (pos rem : Nat) (s : List Byte),
    pos + rem + 1 = m.length →
    ∃ m', expandLoop env f m pos rem s = .ok (m', pos + (expandF env f rem s).length) ∧
      m'.length = m.length ∧
      m'.take (pos + (expandF env f rem s).length) = m.take pos ++ (expandF env f rem s).map some
  | 0, m, pos, rem, s, h => ⟨m, by simp [expandLoop, expandF]⟩
  | f + 1, m, pos, rem, [], h => ⟨m, by simp [expandLoop, expandF]⟩
  | f + 1, m, pos, rem, c :: r, h => by
      by_cases h0 : rem = 0
      · exact ⟨m, by simp [expandLoop, expandF, h0]⟩
      · unfold expandLoop expandF
        simp only [if_neg h0]
        cases hr : (ref env (c :: r)).filter fun p => decide (p.1.length < rem) with
        | none =>
            obtain ⟨m1, hw, hl, ht⟩ := write_ok (m := m) (pos := pos) (bs := [c]) (by simp; omega)
            obtain ⟨m2, hw2, hl2, ht2⟩ := expandLoop_spec env f m1 (pos + 1) (rem - 1) r (by omega)
            refine ⟨m2, ?_, by omega, ?_⟩
            · simp only [hw, Run.ok_bind, hw2, List.length_cons]
              congr 2; omega
            · have := ht 1 (by simp)
              rw [this] at ht2
              simp only [List.length_cons]
              rw [show pos + ((expandF env f (rem - 1) r).length + 1)
                = pos + 1 + (expandF env f (rem - 1) r).length by omega, ht2]
              simp
        | some p =>
            obtain ⟨v, rest⟩ := p
            have hv : v.length < rem := by
              have := Option.filter_eq_some_iff.1 hr
              simpa using this.2
            have hlen : (v.take rem ++ List.replicate (rem - v.length) 0).length = rem := by
              simp; omega
            obtain ⟨m1, hw, hl, ht⟩ := write_ok (m := m) (pos := pos)
              (bs := v.take rem ++ List.replicate (rem - v.length) 0) (by rw [hlen]; omega)
            obtain ⟨m2, hw2, hl2, ht2⟩ :=
              expandLoop_spec env f m1 (pos + v.length) (rem - v.length) rest (by omega)
            refine ⟨m2, ?_, by omega, ?_⟩
            · simp only [strncpy, hw, Run.ok_bind, hw2, List.length_append]
              congr 2; omega
            · have := ht v.length (by rw [hlen]; omega)
              rw [this] at ht2
              simp only [List.length_append]
              rw [← Nat.add_assoc, ht2, List.take_of_length_le (l := v) (by omega)]
              simp

theorem ref_of_ne {env : Env} {c : Byte} {r : List Byte} (h : c ≠ 36) : ref env (c :: r) = none := by
  cases r <;> simp [ref, h]

theorem expandF_lit (env : Env) : ∀ (l t : List Byte) (f rem : Nat), (36 : Byte) ∉ l → l.length < f →
    l.length ≤ rem → expandF env f rem (l ++ t) = l ++ expandF env (f - l.length) (rem - l.length) t
  | [], t, f, rem, _, _, _ => by simp
  | c :: l, t, f, rem, h, hf, hr => by
      have hc : c ≠ 36 := fun e => h (by simp [e])
      have hl : (36 : Byte) ∉ l := fun e => h (by simp [e])
      simp only [List.length_cons] at hf hr
      obtain ⟨g, rfl⟩ : ∃ g, f = g + 1 := ⟨f - 1, by omega⟩
      have ih := expandF_lit env l t g (rem - 1) hl (by omega) (by omega)
      rw [List.cons_append, expandF]
      simp only [if_neg (show rem ≠ 0 by omega), ref_of_ne hc, Option.filter_none, ih,
        List.length_cons, List.cons_append]
      congr 3 <;> omega

theorem expandF_plain (env : Env) : ∀ (s : List Byte) (f rem : Nat), (36 : Byte) ∉ s → s.length < f →
    expandF env f rem s = s.take rem
  | [], f, rem, _, hf => by cases f <;> simp [expandF]
  | c :: s, f, rem, h, hf => by
      have hc : c ≠ 36 := fun e => h (by simp [e])
      have hl : (36 : Byte) ∉ s := fun e => h (by simp [e])
      simp only [List.length_cons] at hf
      obtain ⟨g, rfl⟩ : ∃ g, f = g + 1 := ⟨f - 1, by omega⟩
      have ih := expandF_plain env s g (rem - 1) hl (by omega)
      cases rem with
      | zero => simp [expandF]
      | succ n =>
          rw [expandF]
          simp only [Nat.add_one_ne_zero, if_false, ref_of_ne hc, Option.filter_none, ih]
          simp

theorem ref_braced (env : Env) {n t : List Byte} (h : (125 : Byte) ∉ n) (hl : n.length < 255) :
    ref env (36 :: 123 :: (n ++ 125 :: t)) = (env n).map fun v => (v, t) := by
  simp [ref, cut_append _ _ _ h, hl]

theorem ref_none_of_unset (env : Env) {n t : List Byte} (h : (125 : Byte) ∉ n) (hn : env n = none) :
    ref env (36 :: 123 :: (n ++ 125 :: t)) = none := by
  simp [ref, cut_append _ _ _ h, hn]

open Spec

theorem expandF_pieces (env : Env) : ∀ (ps : List Piece) (f rem : Nat), (∀ p ∈ ps, p.Ok env) →
    (ps.flatMap Piece.text).length < f → (ps.flatMap Piece.value).length < rem →
    expandF env f rem (ps.flatMap Piece.text) = ps.flatMap Piece.value
  | [], f, rem, _, hf, _ => by cases f <;> simp [expandF]
  | p :: ps, f, rem, hok, hf, hr => by
      have hp := hok p (by simp)
      have hps : ∀ q ∈ ps, q.Ok env := fun q hq => hok q (by simp [hq])
      rw [List.flatMap_cons, List.length_append] at hf hr
      rw [List.flatMap_cons, List.flatMap_cons]
      cases p with
      | lit t =>
          simp only [Piece.text, Piece.value, Piece.Ok] at hf hr hp ⊢
          rw [expandF_lit env t _ f rem hp (by omega) (by omega),
            expandF_pieces env ps _ _ hps (by omega) (by omega)]
      | set n v =>
          simp only [Piece.text, Piece.value, Piece.Ok] at hf hr hp ⊢
          obtain ⟨h1, h2, h3⟩ := hp
          simp only [List.length_append, List.length_cons, List.length_nil] at hf
          obtain ⟨g, rfl⟩ : ∃ g, f = g + 1 := ⟨f - 1, by omega⟩
          simp only [List.cons_append, List.nil_append, List.append_assoc]
          rw [expandF]
          simp only [if_neg (show rem ≠ 0 by omega), ref_braced env h1 h2, h3, Option.map_some,
            Option.filter_some, show v.length < rem by omega, decide_true, if_true]
          rw [expandF_pieces env ps _ _ hps (by omega) (by omega)]
      | unset n =>
          simp only [Piece.text, Piece.value, Piece.Ok] at hf hr hp ⊢
          obtain ⟨h1, h2, h3⟩ := hp
          simp only [List.length_append, List.length_cons, List.length_nil] at hf hr
          obtain ⟨g, rfl⟩ : ∃ g, f = g + 1 := ⟨f - 1, by omega⟩
          simp only [List.cons_append, List.nil_append, List.append_assoc]
          rw [expandF]
          simp only [if_neg (show rem ≠ 0 by omega), ref_none_of_unset env h1 h3, Option.filter_none]
          have := expandF_lit env (123 :: (n ++ [125])) (ps.flatMap Piece.text) g (rem - 1)
            (by simp [h2]) (by simp; omega) (by simp; omega)
          simp only [List.cons_append, List.append_assoc, List.nil_append] at this
          rw [this, expandF_pieces env ps _ _ hps
            (by simp only [List.length_cons, List.length_append, List.length_nil]; omega)
            (by simp only [List.length_cons, List.length_append, List.length_nil]; omega)]

/-! ## Flags -/

theorem quoteFlag_length (f : List Byte) :
    (quoteFlag f).length = f.length + (if (32 : Byte) ∈ f then 2 else 0) := by
  unfold quoteFlag; split <;> simp

theorem appendFlag_length {max : Nat} {dest : List Byte} (flag : List Byte) (h : dest.length + 1 ≤ max) :
    (appendFlag max dest flag).length + 1 ≤ max := by
  have hq := quoteFlag_length flag
  unfold appendFlag
  simp only
  generalize hn : (if (32 : Byte) ∈ flag then 2 else 0) = n at hq ⊢
  by_cases hd : dest.length > 0
  · simp only [hd, if_true]
    split
    · exact h
    · simp only [List.length_append, List.length_cons]; omega
  · simp only [hd, if_false]
    split
    · exact h
    · omega

/-- flags one behind the other -/
def join : List (List Byte) → List Byte
  | [] => []
  | [f] => quoteFlag f
  | f :: g :: fs => quoteFlag f ++ 32 :: join (g :: fs)

theorem join_append : ∀ (fs : List (List Byte)) (f : List Byte), fs ≠ [] →
    join (fs ++ [f]) = join fs ++ 32 :: quoteFlag f
  | [], f, h => absurd rfl h
  | [a], f, _ => by simp [join]
  | a :: b :: fs, f, _ => by
      have := join_append (b :: fs) f (by simp)
      simp only [List.cons_append] at this ⊢
      simp [join, this]

theorem quoteFlag_ne {f : List Byte} (h : f ≠ []) : quoteFlag f ≠ [] := by
  unfold quoteFlag; split <;> simp [h]

theorem join_ne : ∀ {fs : List (List Byte)}, fs ≠ [] → (∀ f ∈ fs, f ≠ []) → join fs ≠ []
  | [], h, _ => absurd rfl h
  | [a], _, h => by simpa [join] using quoteFlag_ne (h a (by simp))
  | a :: b :: fs, _, h => by simp [join]

theorem join_length : ∀ (fs : List (List Byte)), (join fs).length ≤ need fs
  | [] => by simp [join, need]
  | [a] => by simp [join, need, quoteFlag_length]; split <;> omega
  | a :: b :: fs => by
      have := join_length (b :: fs)
      simp only [join, need, List.map_cons, List.sum_cons, List.length_append, List.length_cons,
        quoteFlag_length] at this ⊢
      split <;> omega

theorem appendFlag_join {max : Nat} {fs : List (List Byte)} {f : List Byte} (hne : ∀ g ∈ fs, g ≠ [])
    (h : need (fs ++ [f]) < max) : appendFlag max (join fs) f = join (fs ++ [f]) := by
  have hl := join_length fs
  have hn : need (fs ++ [f]) = need fs + (f.length + 3) := by simp [need]
  have hcond : ¬ (join fs).length + (f.length + (if (32 : Byte) ∈ f then 2 else 0) +
      (if (join fs).length > 0 then 1 else 0)) + 1 > max := by
    split <;> split <;> omega
  unfold appendFlag
  simp only
  rw [if_neg hcond]
  by_cases hfs : fs = []
  · subst hfs; simp [join]
  · rw [if_pos (List.length_pos_iff.2 (join_ne hfs hne)), join_append fs f hfs]

/-- a flag that survives splitting -/
def Good (f : List Byte) : Prop :=
  f ≠ [] ∧ f.length ≤ 4095 ∧ ∀ c ∈ f, c ≠ 34 ∧ (isSpace c = true → c = 32)

theorem word_plain : ∀ (f t : List Byte), (∀ c ∈ f, c ≠ 34 ∧ isSpace c = false) →
    (∀ c, t.head? = some c → isSpace c = true) → word false (f ++ t) = (f, t)
  | [], [], _, _ => by simp [word]
  | [], c :: t, _, h => by
      have := h c rfl
      simp [word, this]
  | c :: f, t, h, ht => by
      have hc := h c (by simp)
      have := word_plain f t (fun d hd => h d (by simp [hd])) ht
      simp [word, hc.1, hc.2, this]

theorem word_quoted : ∀ (f t : List Byte), (∀ c ∈ f, c ≠ 34) →
    (∀ c, t.head? = some c → isSpace c = true) → word true (f ++ 34 :: t) = (f, t)
  | [], t, _, ht => by
      have := word_plain [] t (by simp) ht
      simp [word] at this ⊢
      exact this
  | c :: f, t, h, ht => by
      have hc := h c (by simp)
      have := word_quoted f t (fun d hd => h d (by simp [hd])) ht
      simp [word, hc, this]

theorem word_flag {f t : List Byte} (h : Good f) (ht : ∀ c, t.head? = some c → isSpace c = true) :
    word false (quoteFlag f ++ t) = (f, t) := by
  unfold quoteFlag
  split
  · have := word_quoted f t (fun c hc => (h.2.2 c hc).1) ht
    simp [word, isSpace, this]
  · rename_i hs
    refine word_plain f t (fun c hc => ⟨(h.2.2 c hc).1, ?_⟩) ht
    cases hsp : isSpace c with
    | false => rfl
    | true => exact absurd ((h.2.2 c hc).2 hsp ▸ hc) hs

theorem quoteFlag_head {f : List Byte} (h : Good f) :
    ∃ c r, quoteFlag f = c :: r ∧ isSpace c = false := by
  unfold quoteFlag
  split
  · exact ⟨34, f ++ [34], rfl, by decide⟩
  · rename_i hs
    cases f with
    | nil => exact absurd rfl h.1
    | cons c r =>
        refine ⟨c, r, rfl, ?_⟩
        cases hsp : isSpace c with
        | false => rfl
        | true => exact absurd (by simp [(h.2.2 c (by simp)).2 hsp]) hs

theorem splitF_step {f t : List Byte} (n : Nat) (h : Good f)
    (ht : ∀ c, t.head? = some c → isSpace c = true) :
    splitF (n + 1) (quoteFlag f ++ t) = f :: splitF n t := by
  obtain ⟨c, r, hq, hc⟩ := quoteFlag_head h
  have hw := word_flag h ht
  rw [hq] at hw ⊢
  simp only [List.cons_append] at hw ⊢
  simp only [splitF, List.dropWhile_cons, hc, Bool.false_eq_true, if_false, hw,
    List.take_of_length_le h.2.1]

theorem splitF_space (n : Nat) (s : List Byte) : splitF n (32 :: s) = splitF n s := by
  cases n with
  | zero => rfl
  | succ n => simp [splitF, isSpace]

theorem splitF_join : ∀ (fs : List (List Byte)) (n : Nat), (∀ f ∈ fs, Good f) → (join fs).length < n →
    splitF n (join fs) = fs
  | [], n, _, _ => by cases n <;> simp [splitF, join]
  | [a], n, h, hn => by
      obtain ⟨m, rfl⟩ : ∃ m, n = m + 1 := ⟨n - 1, by omega⟩
      have := splitF_step (t := []) m (h a (by simp)) (by simp)
      simp only [List.append_nil] at this
      simp only [join, this]
      cases m <;> simp [splitF]
  | a :: b :: fs, n, h, hn => by
      obtain ⟨m, rfl⟩ : ∃ m, n = m + 1 := ⟨n - 1, by omega⟩
      simp only [join, List.length_append, List.length_cons] at hn ⊢
      rw [splitF_step m (h a (by simp)) (by simp [isSpace]), splitF_space,
        splitF_join (b :: fs) m (fun f hf => h f (by simp [hf])) (by omega)]

theorem split_join {fs : List (List Byte)} (h : ∀ f ∈ fs, Good f) : split (join fs) = fs :=
  splitF_join fs _ h (by omega)

/-! ## Directives -/

theorem strip_append : ∀ (p s : List Byte), strip p (p ++ s) = some s
  | [], s => rfl
  | c :: p, s => by simp [strip, strip_append p s]

/-- a property of the flags and the commands that appending keeps, is kept by a directive -/
theorem directive_bounds (w : World) (d : List Byte) {st : St} (h1 : st.link.length + 1 ≤ maxFlags)
    (h2 : st.cflags.length + 1 ≤ maxFlags) :
    (directive w d st).link.length + 1 ≤ maxFlags ∧ (directive w d st).cflags.length + 1 ≤ maxFlags := by
  have hr : ∀ (dest cmd : List Byte), dest.length + 1 ≤ maxFlags →
      (pkgRun w maxFlags dest cmd).length + 1 ≤ maxFlags := by
    intro dest cmd h
    unfold pkgRun
    split
    · exact appendFlag_length _ h
    · exact h
  unfold directive
  repeat' split
  all_goals first
    | exact ⟨appendFlag_length _ h1, h2⟩
    | exact ⟨h1, appendFlag_length _ h2⟩
    | exact ⟨hr _ _ h1, hr _ _ h2⟩
    | exact ⟨h1, h2⟩

/-- the commands a directive may start -/
def CmdOk (cmd : List Byte) : Prop :=
  ∃ libs, (∀ c ∈ libs, Harmless c) ∧ (cmd = cmdCflags ++ libs ∨ cmd = cmdLibs ++ libs)

theorem pkgChar_harmless {c : Byte} (h : pkgChar c = true) : Harmless c := by
  simp [pkgChar, isAlnum] at h
  simpa [Harmless, or_assoc] using h

theorem directive_cmds (w : World) (d : List Byte) {st : St} (h : ∀ c ∈ st.cmds, CmdOk c) :
    ∀ c ∈ (directive w d st).cmds, CmdOk c := by
  unfold directive
  repeat' split
  all_goals try exact h
  rename_i libs _ hall
  intro c hc
  simp only [List.mem_append, List.mem_cons, List.not_mem_nil, or_false] at hc
  have hh : ∀ c ∈ libs, Harmless c := fun c hc => pkgChar_harmless (List.all_eq_true.1 hall c hc)
  rcases hc with hc | rfl | rfl
  · exact h c hc
  · exact ⟨libs.take (4095 - cmdCflags.length), fun c hc => hh c (List.mem_of_mem_take hc),
      .inl (by rw [List.take_append, List.take_of_length_le (l := cmdCflags) (by decide)])⟩
  · exact ⟨libs.take (4095 - cmdLibs.length), fun c hc => hh c (List.mem_of_mem_take hc),
      .inr (by rw [List.take_append, List.take_of_length_le (l := cmdLibs) (by decide)])⟩

theorem dirLine_cases (w : World) (l : List Byte) (st : St) :
    dirLine w l st = st ∨ ∃ d, dirLine w l st = directive w d st := by
  unfold dirLine
  simp only
  split
  · exact .inr ⟨_, rfl⟩
  · exact .inl rfl

/-- what every directive keeps, the scan keeps -/
theorem scanF_inv (w : World) {P : St → Prop} (hP : ∀ d st, P st → P (directive w d st)) :
    ∀ (f : Nat) (s : List Byte) (st : St), P st → P (scanF w f s st)
  | 0, s, st, h => h
  | f + 1, [], st, h => h
  | f + 1, c :: s, st, h => by
      rw [scanF]
      split
      · rename_i l _
        refine scanF_inv w hP f _ _ ?_
        rcases dirLine_cases w l st with e | ⟨d, e⟩
        · rw [e]; exact h
        · rw [e]; exact hP d st h
      · exact scanF_inv w hP f _ _ h

end Verif.BuildFlags
