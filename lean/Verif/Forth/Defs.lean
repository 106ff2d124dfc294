import Verif.Forth.Props

/-!
# Definitions and memory of the Forth plugin

C128 definitions, C129 memory.  Then cases.
-/

namespace Verif.Forth

open Spec

/-! ## C128: definitions -/

/-- Words with one blank between them. -/
def join : List Str → Str
  | [] => []
  | [w] => w
  | w :: v :: ws => w ++ ' ' :: join (v :: ws)

theorem join_tr (ws : List Str) : Tr (join ws) (text ws) := by
  cases ws with
  | nil => exact .inl rfl
  | cons w ws =>
    right
    induction ws generalizing w with
    | nil => simp [text, join]
    | cons v ws ih =>
      have e : text (w :: v :: ws) = w ++ ' ' :: text (v :: ws) := by simp [text]
      rw [e, ih v]
      simp [join]

theorem join_snoc (ws : List Str) (w : Str) (h : ws ≠ []) : join (ws ++ [w]) = join ws ++ ' ' :: w := by
  induction ws with
  | nil => exact absurd rfl h
  | cons v ws ih =>
    cases ws with
    | nil => rfl
    | cons u ws =>
      have := ih (by simp)
      simp only [List.cons_append] at this ⊢
      rw [join, this]
      simp [join]

theorem join_pos {ws : List Str} (h : ∀ w ∈ ws, IsTok w) (h0 : ws ≠ []) : 0 < (join ws).length := by
  cases ws with
  | nil => exact absurd rfl h0
  | cons w ws =>
    have : 0 < w.length := List.length_pos_iff.mpr (h w (by simp)).1
    cases ws with
    | nil => exact this
    | cons v ws =>
      rw [join, List.length_append]
      omega

/-- A word of a definition. -/
def BodyTok (w : Str) : Prop := IsTok w ∧ w ≠ ";".toList ∧ w ≠ "#end".toList

theorem addToken_join {ws : List Str} (h : ∀ w ∈ ws, IsTok w) {w : Str} 
    (hl : (join (ws ++ [w])).length < 512) : addToken (join ws) w = .ok (join (ws ++ [w])) := by
  cases ws with
  | nil =>
    have e : join ([] ++ [w]) = w := rfl
    rw [e] at hl ⊢
    unfold addToken
    simp only [join, List.length_nil, Nat.lt_irrefl, if_false, Nat.zero_add]
    rw [if_pos (by omega), if_pos hl]
    rfl
  | cons v ws =>
    have hp := join_pos h (by simp)
    rw [join_snoc _ w (by simp)] at hl ⊢
    rw [List.length_append, List.length_cons] at hl
    unfold addToken
    rw [if_pos hp]
    simp only [List.length_append, List.length_singleton]
    rw [if_pos (by omega), if_pos (by omega)]
    simp

theorem join_prefix (a b : List Str) : (join a).length ≤ (join (a ++ b)).length := by
  induction a with
  | nil => simp [join]
  | cons x a ih =>
    cases a with
    | nil =>
      cases b with
      | nil => exact Nat.le_refl _
      | cons y b => simp [join]
    | cons y a =>
      simp only [List.cons_append, join, List.length_append, List.length_cons] at ih ⊢
      omega

theorem source_tok (E : Fl) {w : Str} (h : IsTok w) (he : w ≠ "#end".toList) (r : Str) (k : Nat) (m : Mode)
    (s : St) :
    source E (k + 1) (w ++ ' ' :: r) m s =
      match m with
      | .running =>
        if w = ":".toList then source E k r .name s
        else do
          let p ← eval E (run E k) w r s
          source E k p.1 .running p.2
      | .name => source E k r (.body (w.take 31) []) s
      | .body n b =>
        if w = ";".toList then source E k r .running (define n b s)
        else (do
          let b' ← addToken b w
          source E k r (.body n b') s) := by
  rw [source, nextToken_tok h]
  simp only
  rw [if_neg he]
  cases m <;> rfl

theorem source_body (E : Fl) (name : Str) (done ws : List Str) (hd : ∀ w ∈ done, IsTok w)
    (h : ∀ w ∈ ws, BodyTok w) (hl : (join (done ++ ws)).length < 512) (r : Str) (k : Nat) (s : St) :
    source E (k + (ws.length + 1)) (text ws ++ (";".toList ++ ' ' :: r)) (.body name (join done)) s =
      source E k r .running (define name (join (done ++ ws)) s) := by
  induction ws generalizing done with
  | nil =>
    rw [text_nil, List.append_nil, List.length_nil, Nat.zero_add,
      source_tok E ⟨by decide, by decide⟩ (by decide)]
    simp only
    rw [if_pos (by trivial)]
  | cons w ws ih =>
    obtain ⟨h1, h2, h3⟩ := h w (by simp)
    have e : done ++ w :: ws = (done ++ [w]) ++ ws := by simp
    rw [text_cons, List.length_cons, show k + (ws.length + 1 + 1) = k + (ws.length + 1) + 1 by omega,
      source_tok E h1 h3]
    simp only
    rw [if_neg h2, addToken_join hd (by
      rw [e] at hl
      exact Nat.lt_of_le_of_lt (join_prefix (done ++ [w]) ws) hl)]
    simp only [Out.ok_bind]
    rw [ih (done ++ [w]) _ (fun x hx => h x (by simp [hx])) (by rw [← e]; exact hl), ← e]
    intro x hx
    rcases List.mem_append.mp hx with hx | hx
    · exact hd x hx
    · rw [List.mem_singleton.mp hx]; exact h1

/-- C128: a definition of a name of at most 31 characters, with a text of at most 511, is put to the
dictionary, if it has room; nothing is run. -/
theorem define_word (E : Fl) {name : Str} (hn : IsTok name) (hne : name ≠ "#end".toList)
    (hl : name.length ≤ 31) {ws : List Str} (h : ∀ w ∈ ws, BodyTok w) (hb : (join ws).length < 512)
    (s : St) (hd : s.dict.length < 128) (r : Str) (k : Nat) :
    source E (k + (ws.length + 3)) (text (":".toList :: name :: ws ++ [";".toList]) ++ r) .running s =
      source E k r .running { s with dict := (name, join ws) :: s.dict } := by
  simp only [List.cons_append, text_cons, text_append, List.append_assoc, text_nil]
  rw [show k + (ws.length + 3) = k + (ws.length + 1) + 1 + 1 by omega,
    source_tok E ⟨by decide, by decide⟩ (by decide)]
  simp only
  rw [if_pos (by trivial), source_tok E hn hne]
  simp only
  rw [List.take_of_length_le hl]
  have := source_body E name [] ws (by simp) h hb r k s
  rw [show join [] = [] from rfl, List.nil_append] at this
  rw [this]
  unfold define
  rw [if_pos hd]

/-- A name that can be called: not built in, and no number. -/
def Callable (t : Str) : Prop := IsTok t ∧ builtin t = none ∧ '.' ∉ t ∧ strtol t = none

theorem eval_call (E : Fl) (f : Str → St → Out St) {t : Str} (h : Callable t) {s : St} {b : Str}
    (hd : s.dict.lookup t = some b) (r : Str) : eval E f t r s = (do .ok (r, ← f b s)) := by
  unfold eval
  rw [h.2.1]
  simp only
  unfold other
  rw [if_neg h.2.2.1]
  simp only
  rw [h.2.2.2, hd]

/-- C128: to call a word is to run its text. -/
theorem call_word (E : Fl) {t : Str} (h : Callable t) {s : St} {ws : List Str}
    (hd : s.dict.lookup t = some (join ws)) {o1 : Out St} (hr : Runs E (text ws) s o1) {r : Str}
    {o : Out St} (ho : Then E o1 r o) : Runs E (t ++ ' ' :: r) s o := by
  obtain ⟨h0, k1, h1⟩ := hr
  rw [run_tr E k1 (join ws) (text ws) s (join_tr ws)] at h1
  cases o1 with
  | ok s' =>
    obtain ⟨h0', k2, h2⟩ := ho
    refine ⟨h0', max k1 k2 + 1, ?_⟩
    rw [run_tok E h.1, eval_call E _ h hd,
      run_mono E (Nat.le_max_left k1 k2) _ _ (by rw [h1]; exact h0), h1]
    simp only [Out.ok_bind]
    rw [run_mono E (Nat.le_max_right k1 k2) _ _ (by rw [h2]; exact h0'), h2]
  | exit =>
    cases ho
    refine ⟨by simp, k1 + 1, ?_⟩
    rw [run_tok E h.1, eval_call E _ h hd, h1]
    rfl
  | ub =>
    cases ho
    refine ⟨by simp, k1 + 1, ?_⟩
    rw [run_tok E h.1, eval_call E _ h hd, h1]
    rfl
  | more => exact absurd rfl h0

/-- C128: a word that is defined by a program does what the program does. -/
theorem call_program (E : Fl) (M : Str → St → Out St) (p : Prog) (hm : Means E M p)
    (hs : p.simple = true) {t : Str} (h : Callable t) {s : St}
    (hd : s.dict.lookup t = some (join p.words)) {r : Str} {o : Out St}
    (hx : p.exec M s ≠ .more) (ho : Then E (p.exec M s) r o) : Runs E (t ++ ' ' :: r) s o := by
  refine call_word E h hd (o1 := p.exec M s) ?_ ho
  have := structured_partial E M p hm hs s [] (p.exec M s) (by
    cases hy : p.exec M s with
    | ok s' => exact ⟨by simp, 1, rfl⟩
    | exit => rfl
    | ub => rfl
    | more => exact absurd hy hx)
  rw [List.append_nil] at this
  exact this

/-- C128, violated: a word is bound when it is called.  When a word that is used in a definition is
defined anew, the definition changes. -/
theorem late_binding_violated (E : Fl) {a b : Str} (ha : Callable a) (hb : Callable b) (hab : a ≠ b)
    (w1 w2 : List Str) (s : St) (hd : s.dict.length < 126) (s3 : St)
    (hs3 : s3 = define a (join w2) (define b (join [a]) (define a (join w1) s))) {o1 : Out St}
    (hr : Runs E (text w2) s3 o1) {r : Str} {o : Out St} (ho : Then E o1 r o) :
    Runs E (b ++ ' ' :: r) s3 o := by
  have hdict : s3.dict = (a, join w2) :: (b, join [a]) :: (a, join w1) :: s.dict := by
    rw [hs3]
    unfold define
    have e1 : s.dict.length < 128 := by omega
    have e2 : s.dict.length + 1 < 128 := by omega
    have e3 : s.dict.length + 1 + 1 < 128 := by omega
    simp only [e1, e2, e3, if_true, List.length_cons]
  have hla : s3.dict.lookup a = some (join w2) := by
    rw [hdict, List.lookup_cons]
    simp
  have hlb : s3.dict.lookup b = some (join [a]) := by
    rw [hdict, List.lookup_cons]
    have : (b == a) = false := by simpa using fun e => hab e.symm
    rw [this, List.lookup_cons]
    simp
  refine call_word E hb hlb (o1 := o1) ?_ ho
  have : text [a] = a ++ ' ' :: [] := by simp [text]
  rw [this]
  refine call_word E ha hla hr ?_
  cases o1 with
  | ok s' => exact ⟨by simp, 1, rfl⟩
  | exit => rfl
  | ub => rfl
  | more => exact absurd rfl hr.1

/-- C128, violated: a word that is defined anew by means of its old meaning never ends. -/
theorem redefinition_violated (E : Fl) {t : Str} (h : Callable t) {ws : List Str} (s : St)
    (hd : s.dict.lookup t = some (join (t :: ws))) (r : Str) (k : Nat) :
    run E k (t ++ ' ' :: r) s = .more := by
  induction k generalizing r with
  | zero => rfl
  | succ k ih =>
    rw [run_tok E h.1, eval_call E _ h hd,
      ← run_tr E k (join (t :: ws)) (text (t :: ws)) s (join_tr _)]
    have e : text (t :: ws) = t ++ ' ' :: text ws := by simp [text]
    rw [e, ih]
    rfl

/-- A word that is not known goes to the C program. -/
theorem unknown_word (E : Fl) {t : Str} (h : Callable t) {s : St} (hd : s.dict.lookup t = none)
    (f : Str → St → Out St) (r : Str) :
    eval E f t r s = (do .ok (r, ← write (t ++ [' ']) s)) := by
  unfold eval
  rw [h.2.1]
  simp only
  unfold other
  rw [if_neg h.2.2.1]
  simp only
  rw [h.2.2.2, hd]

/-- C128, violated: a word with a name of more than 31 characters is defined by its beginning, so that
it cannot be called: its name goes to the C program. -/
theorem long_name_violated (E : Fl) {name : Str} (h : Callable name) (hl : 31 < name.length) (b : Str)
    (s : St) (hd : s.dict.lookup name = none) (f : Str → St → Out St) (r : Str) :
    eval E f name r (define (name.take 31) b s) =
      (do .ok (r, ← write (name ++ [' ']) (define (name.take 31) b s))) := by
  apply unknown_word E h
  unfold define
  split
  · rw [List.lookup_cons]
    have : (name == name.take 31) = false := by
      rw [beq_eq_false_iff_ne]
      intro e
      have := congrArg List.length e
      rw [List.length_take] at this
      omega
    rw [this]
    exact hd
  · exact hd

/-- C128, violated: the 129th word is dropped without a message. -/
theorem full_dictionary_violated (name body : Str) (s : St) (hd : s.dict.length = 128) :
    define name body s = s := by
  unfold define
  rw [if_neg (by omega)]

/-- C128, violated: words of a long definition are dropped without a message. -/
theorem long_body_violated {b t : Str} (h0 : 0 < b.length) (h : b.length < 511)
    (hl : 511 ≤ b.length + t.length) : addToken b t = .ok (b ++ [' ']) := by
  unfold addToken
  rw [if_pos h0]
  simp only [List.length_append, List.length_singleton]
  rw [if_pos (by omega), if_neg (by omega)]

/-- C128, violated: the words of the prelude are not defined: `over` goes to the C program. -/
theorem prelude_violated (E : Fl) (w : Str)
    (hw : w ∈ ["squared".toList, "hypot".toList, "over".toList, "panic".toList])
    (f : Str → St → Out St) (r : Str) :
    eval E f w r init = .ok (r, { init with out := w ++ [' '] }) := by
  have h : Callable w := by
    simp only [List.mem_cons, List.not_mem_nil, or_false] at hw
    rcases hw with rfl | rfl | rfl | rfl <;>
      exact ⟨⟨by decide, by decide⟩, by decide +kernel, by decide, by decide +kernel⟩
  rw [unknown_word E h rfl]
  have hl : ([] ++ (w ++ [' '])).length < 8192 := by
    simp only [List.mem_cons, List.not_mem_nil, or_false] at hw
    rcases hw with rfl | rfl | rfl | rfl <;> decide
  unfold write
  rw [if_pos (by exact hl)]
  rfl

theorem dropWhile_replicate (n : Nat) (r : Str) :
    (List.replicate n ' ' ++ r).dropWhile blank = r.dropWhile blank := by
  induction n with
  | zero => rfl
  | succ n ih =>
    rw [List.replicate_succ, List.cons_append, List.dropWhile_cons, if_pos (by rfl)]
    exact ih

/-- C128, violated: between the words of a definition blanks do not count, not even in a string. -/
theorem blanks_violated (E : Fl) (n k : Nat) (r : Str) (m : Mode) (s : St) :
    source E k (List.replicate n ' ' ++ r) m s = source E k r m s := by
  cases k with
  | zero => rfl
  | succ k =>
    rw [source, source]
    have : nextToken (List.replicate n ' ' ++ r) = nextToken r := by
      unfold nextToken
      rw [dropWhile_replicate]
    rw [this]

/-- C128: a string that is run is written as it is. -/
theorem string_written (E : Fl) {t : Str} (hq : '"' ∉ t) (hs : t.head? ≠ some ' ') (r : Str) (k : Nat)
    (s : St) :
    run E (k + 1) (".\"".toList ++ ' ' :: (t ++ '"' :: r)) s = (do run E k r (← write t s)) := by
  rw [run_tok E ⟨by decide, by decide⟩]
  have hq' : quoted (t ++ '"' :: r) = some (t, r) := by
    have ha : afterBlank (t ++ '"' :: r) = t ++ '"' :: r := by
      cases t with
      | nil => exact afterBlank_other (by decide) _
      | cons c t =>
        apply afterBlank_other
        intro e
        apply hs
        rw [e]
        rfl
    unfold quoted upTo
    rw [ha, if_pos (by simp)]
    have h1 : (t ++ '"' :: r).takeWhile (· ≠ '"') = t ∧
        (t ++ '"' :: r).dropWhile (· ≠ '"') = '"' :: r := by
      clear hs ha
      induction t with
      | nil => exact ⟨rfl, rfl⟩
      | cons c t ih =>
        have hc : c ≠ '"' := by intro e; apply hq; rw [e]; simp
        obtain ⟨h1, h2⟩ := ih (fun hx => hq (by simp [hx]))
        rw [List.cons_append, List.takeWhile_cons, List.dropWhile_cons, if_pos (by simp [hc]),
          if_pos (by simp [hc]), h1, h2]
        exact ⟨rfl, rfl⟩
    rw [h1.1, h1.2]
    rfl
  unfold eval
  rw [show builtin ".\"".toList = some .dotq by decide +kernel]
  simp only
  rw [hq']
  simp only
  cases write t s <;> rfl

/-- C128, violated: what a block does depends on the blocks before it: the stack is not emptied. -/
theorem block_state_violated (E : Fl) (s : St) (v : Int) (st : List Int) (hs : s.stack = v :: st)
    (hv : (intText v).length < 8192) (k : Nat) :
    block E (k + 2) "emit".toList s = .ok { s with stack := st, out := intText v } := by
  unfold block
  rw [source]
  rw [show nextToken "emit".toList = some ("emit".toList, []) by decide +kernel]
  simp only
  rw [if_neg (by decide), if_neg (by decide),
    eval_plain E _ (w := .emit) (by decide +kernel) rfl]
  simp only [plain]
  unfold write
  have ht : top { s with out := [] } = v := by unfold top; simp only; rw [hs]; rfl
  rw [ht, if_pos (by simpa [rest] using hv)]
  simp only [Out.ok_bind, source, nextToken_nil, rest]
  rw [hs]
  rfl

/-! ## C129: memory -/

/-- Everything is within its bounds. -/
def Inv (s : St) : Prop :=
  s.stack.length ≤ 256 ∧ s.fstack.length ≤ 256 ∧ s.loops.length ≤ 32 ∧ s.dict.length ≤ 128 ∧
    s.out.length < 8192

theorem push_inv (v : Int) {s : St} (h : Inv s) : Inv (push v s) := by
  unfold push
  split
  · exact ⟨by simp; omega, h.2⟩
  · exact h

theorem rest_inv {s : St} (h : Inv s) : Inv (rest s) :=
  ⟨by unfold rest; simp only [List.length_tail]; have := h.1; omega, h.2⟩

theorem fpush_inv (v : F) {s : St} (h : Inv s) : Inv (fpush v s) := by
  unfold fpush
  split
  · exact ⟨h.1, by simp; omega, h.2.2⟩
  · exact h

theorem frest_inv {s : St} (h : Inv s) : Inv (frest s) :=
  ⟨h.1, by unfold frest; simp only [List.length_tail]; have := h.2.1; omega, h.2.2⟩

theorem write_inv {t : Str} {s s' : St} (h : Inv s) (hw : write t s = .ok s') : Inv s' := by
  unfold write at hw
  split at hw
  · rename_i hl
    injection hw with hw
    subst hw
    exact ⟨h.1, h.2.1, h.2.2.1, h.2.2.2.1, hl⟩
  · simp at hw

theorem store_inv {a v : Int} {s s' : St} (h : Inv s) (hw : store a v s = .ok s') : Inv s' := by
  unfold store at hw
  split at hw
  · injection hw with hw
    subst hw
    exact h
  · simp at hw

theorem bind_ok {α β : Type} {x : Out α} {f : α → Out β} {b : β} (h : (x >>= f) = .ok b) :
    ∃ a, x = .ok a ∧ f a = .ok b := by
  cases x with
  | ok a => exact ⟨a, rfl, h⟩
  | exit => simp at h
  | ub => simp at h
  | more => simp at h

theorem binary_inv {f : Int → Int → Out Int} {s s' : St} (h : Inv s) (hb : binary f s = .ok s') :
    Inv s' := by
  obtain ⟨v, -, e⟩ := bind_ok hb
  injection e with e
  subst e
  exact push_inv _ (rest_inv (rest_inv h))

theorem plain_inv (E : Fl) (w : Word) {s s' : St} (h : Inv s) (hp : plain E w s = .ok s') : Inv s' := by
  have hr := rest_inv h
  have hrr := rest_inv hr
  have hrrr := rest_inv hrr
  have hf := frest_inv h
  have hff := frest_inv hf
  have hb : ∀ f, binary f s = .ok s' → Inv s' := fun _ hb => binary_inv h hb
  cases w
  case add => rw [plain] at hp; exact hb _ hp
  case sub => rw [plain] at hp; exact hb _ hp
  case mul => rw [plain] at hp; exact hb _ hp
  case div =>
    simp only [plain] at hp
    split at hp
    · injection hp with hp; subst hp; exact push_inv _ hr
    · exact binary_inv h hp
  case mod =>
    simp only [plain] at hp
    split at hp
    · injection hp with hp; subst hp; exact push_inv _ hr
    · exact binary_inv h hp
  case shl => rw [plain] at hp; exact hb _ hp
  case shr => rw [plain] at hp; exact hb _ hp
  case band => rw [plain] at hp; exact hb _ hp
  case bor => rw [plain] at hp; exact hb _ hp
  case bxor => rw [plain] at hp; exact hb _ hp
  case bnot => injection hp with hp; subst hp; exact push_inv _ hr
  case eq => rw [plain] at hp; exact hb _ hp
  case gt => rw [plain] at hp; exact hb _ hp
  case lt => rw [plain] at hp; exact hb _ hp
  case choose => injection hp with hp; subst hp; exact push_inv _ hrrr
  case i =>
    simp only [plain] at hp
    split at hp
    · injection hp with hp; subst hp; exact push_inv _ h
    · simp at hp
  case fadd => injection hp with hp; subst hp; exact fpush_inv _ hff
  case fsub => injection hp with hp; subst hp; exact fpush_inv _ hff
  case fmul => injection hp with hp; subst hp; exact fpush_inv _ hff
  case fdiv =>
    simp only [plain] at hp
    split at hp
    · injection hp with hp; subst hp; exact fpush_inv _ hf
    · injection hp with hp; subst hp; exact fpush_inv _ hff
  case fsqrt => injection hp with hp; subst hp; exact fpush_inv _ hf
  case dup => injection hp with hp; subst hp; exact push_inv _ h
  case drop => injection hp with hp; subst hp; exact hr
  case swap => injection hp with hp; subst hp; exact push_inv _ (push_inv _ hrr)
  case rot => injection hp with hp; subst hp; exact push_inv _ (push_inv _ (push_inv _ hrrr))
  case nrot => injection hp with hp; subst hp; exact push_inv _ (push_inv _ (push_inv _ hrrr))
  case fdup => injection hp with hp; subst hp; exact fpush_inv _ h
  case fdrop => injection hp with hp; subst hp; exact hf
  case fswap => injection hp with hp; subst hp; exact fpush_inv _ (fpush_inv _ hff)
  case itof => injection hp with hp; subst hp; exact fpush_inv _ hr
  case ftoi =>
    simp only [plain] at hp
    split at hp
    · injection hp with hp; subst hp; exact push_inv _ hf
    · simp at hp
  case emit => exact write_inv hr hp
  case femit => exact write_inv hf hp
  case comma => exact write_inv h hp
  case cfetch => obtain ⟨v, -, e⟩ := bind_ok hp; injection e with e; subst e; exact push_inv _ hr
  case fetch => obtain ⟨v, -, e⟩ := bind_ok hp; injection e with e; subst e; exact push_inv _ hr
  case store => exact store_inv hrr hp
  case question => obtain ⟨v, -, e⟩ := bind_ok hp; injection e with e; subst e; exact hr
  case allot => obtain ⟨v, -, e⟩ := bind_ok hp; injection e with e; subst e; exact hr
  all_goals injection hp with hp; subst hp; exact h

theorem iterate_inv {f : Str → St → Out St} (hf : ∀ t s s', Inv s → f t s = .ok s' → Inv s') (b : Str)
    (n : Nat) (i : Int) {s s' : St} (h : Inv s) (hi : iterate f b n i s = .ok s') : Inv s' := by
  induction n generalizing i s with
  | zero => injection hi with hi; subst hi; exact h
  | succ n ih =>
    rw [iterate] at hi
    split at hi
    · rename_i hl
      obtain ⟨s1, h1, h2⟩ := bind_ok hi
      have i0 : Inv { s with loops := i :: s.loops } := ⟨h.1, h.2.1, by simp; omega, h.2.2.2⟩
      have i1 := hf _ _ _ i0 h1
      have i2 : Inv { s1 with loops := s1.loops.tail } :=
        ⟨i1.1, i1.2.1, by simp only [List.length_tail]; have := i1.2.2.1; omega, i1.2.2.2⟩
      exact ih _ i2 h2
    · simp at hi

theorem define_inv (n b : Str) {s : St} (h : Inv s) : Inv (define n b s) := by
  unfold define
  split
  · exact ⟨h.1, h.2.1, h.2.2.1, by simp; omega, h.2.2.2.2⟩
  · exact h

theorem named_inv {n b : Str} {s s' : St} (h : Inv s) (hn : named n b s = .ok s') : Inv s' := by
  unfold named at hn
  split at hn
  · split at hn
    · injection hn with hn; subst hn; exact define_inv _ _ h
    · simp at hn
  · injection hn with hn; subst hn; exact h

theorem here_inv (n : Int) {s : St} (h : Inv s) : Inv { s with here := n } := h

theorem putChars_inv (t : Str) {s s' : St} (h : Inv s) (hp : putChars t s = .ok s') : Inv s' := by
  induction t generalizing s with
  | nil => injection hp with hp; subst hp; exact h
  | cons c t ih =>
    obtain ⟨s1, h1, h2⟩ := bind_ok hp
    exact ih (here_inv _ (store_inv h h1)) h2

theorem other_inv (E : Fl) {f : Str → St → Out St} (hf : ∀ t s s', Inv s → f t s = .ok s' → Inv s')
    {t : Str} {s s' : St} (h : Inv s) (ho : other E f t s = .ok s') : Inv s' := by
  unfold other at ho
  revert ho
  split
  · intro ho; injection ho with ho; subst ho; exact fpush_inv _ h
  · split
    · intro ho; injection ho with ho; subst ho; exact push_inv _ h
    · split
      · intro ho; exact hf _ _ _ h ho
      · intro ho; exact write_inv h ho

theorem eval_inv (E : Fl) {f : Str → St → Out St} (hf : ∀ t s s', Inv s → f t s = .ok s' → Inv s')
    {t r : Str} {s : St} {p : Str × St} (h : Inv s) (he : eval E f t r s = .ok p) : Inv p.2 := by
  have fin : ∀ {x : Out St}, (∀ s', x = .ok s' → Inv s') → ∀ {r : Str},
      (do .ok (r, ← x) : Out (Str × St)) = .ok p → Inv p.2 := by
    intro x hx r hp
    obtain ⟨a, h1, h2⟩ := bind_ok hp
    injection h2 with h2
    subst h2
    exact hx _ h1
  unfold eval at he
  cases hb : builtin t with
  | none => rw [hb] at he; exact fin (fun s' hs => other_inv E hf h hs) he
  | some w =>
    rw [hb] at he
    cases w
    case if' =>
      simp only at he
      split at he <;> · injection he with he; subst he; exact rest_inv h
    case else' => injection he with he; subst he; exact h
    case comment => injection he with he; subst he; exact h
    case do' =>
      simp only at he
      split at he
      · simp at he
      · exact fin (fun s' hs => iterate_inv hf _ _ _ (rest_inv (rest_inv h)) hs) he
    case dotq =>
      simp only at he
      split at he
      · exact fin (fun s' hs => write_inv h hs) he
      · simp at he
    case squote =>
      simp only at he
      split at he
      · obtain ⟨s1, h1, h2⟩ := bind_ok he
        injection h2 with h2
        subst h2
        exact push_inv _ (push_inv _ (putChars_inv _ h h1))
      · simp at he
    case var =>
      simp only at he
      split at he
      · simp at he
      · obtain ⟨s1, h1, h2⟩ := bind_ok he
        injection h2 with h2
        subst h2
        have := named_inv h h1
        simp only
        split
        · exact this
        · exact this
    case const =>
      simp only at he
      split at he
      · simp at he
      · exact fin (fun s' hs => named_inv (rest_inv h) hs) he
    all_goals exact fin (fun s' hs => plain_inv E _ h hs) he

theorem run_inv (E : Fl) (k : Nat) : ∀ t s s', Inv s → run E k t s = .ok s' → Inv s' := by
  induction k with
  | zero => intro t s s' _ hr; simp [run] at hr
  | succ k ih =>
    intro t s s' h hr
    rw [run] at hr
    split at hr
    · injection hr with hr; subst hr; exact h
    · obtain ⟨p, h1, h2⟩ := bind_ok hr
      exact ih _ _ _ (eval_inv E ih h h1) h2

/-- C129: whatever a block does, the stacks, the dictionary and the text keep to their bounds. -/
theorem source_inv (E : Fl) (k : Nat) (t : Str) (m : Mode) (s s' : St) (h : Inv s)
    (hs : source E k t m s = .ok s') : Inv s' := by
  induction k generalizing t m s with
  | zero => simp [source] at hs
  | succ k ih =>
    rw [source] at hs
    split at hs
    · injection hs with hs; subst hs; exact h
    · split at hs
      · injection hs with hs; subst hs; exact h
      · split at hs
        · split at hs
          · exact ih _ _ _ h hs
          · obtain ⟨p, h1, h2⟩ := bind_ok hs
            exact ih _ _ _ (eval_inv E (run_inv E k) h h1) h2
        · exact ih _ _ _ h hs
        · split at hs
          · exact ih _ _ _ (define_inv _ _ h) hs
          · obtain ⟨b, h1, h2⟩ := bind_ok hs
            exact ih _ _ _ h h2

/-- C129, violated: an address is not looked at: reading and writing outside of the 4096 cells. -/
theorem address_violated (E : Fl) (s : St) (a v : Int) (st : List Int) (hs : s.stack = a :: v :: st)
    (ha : a < 0 ∨ 4096 ≤ a) (r : Str) (k : Nat) :
    run E (k + 1) ("@".toList ++ ' ' :: r) s = .ub ∧ run E (k + 1) ("!".toList ++ ' ' :: r) s = .ub := by
  have ht : top s = a := by unfold top; rw [hs]; rfl
  constructor
  · rw [run_word E (w := .fetch) ⟨by decide, by decide⟩ (by decide +kernel) rfl]
    simp only [plain, load, ht]
    rw [if_neg (by omega)]
    rfl
  · rw [run_word E (w := .store) ⟨by decide, by decide⟩ (by decide +kernel) rfl]
    simp only [plain, store, ht]
    rw [if_neg (by omega)]
    rfl

/-- C129, violated: more than 8191 characters of output overrun the buffer. -/
theorem long_output_violated (E : Fl) {t : Str} (h : Callable t) {s : St} (hd : s.dict.lookup t = none)
    (hl : 8191 ≤ s.out.length + t.length) (r : Str) (k : Nat) :
    run E (k + 1) (t ++ ' ' :: r) s = .ub := by
  rw [run_tok E h.1, unknown_word E h hd]
  unfold write
  rw [if_neg (by simp; omega)]
  rfl

/-- C129, violated: a variable with a name of 32 characters overruns its place. -/
theorem long_variable_violated (E : Fl) {t : Str} (ht : IsTok t) (hl : 32 ≤ t.length) (s : St)
    (hd : s.dict.length < 128) (r : Str) (k : Nat) :
    run E (k + 1) ("variable".toList ++ ' ' :: (t ++ ' ' :: r)) s = .ub := by
  rw [run_tok E ⟨by decide, by decide⟩]
  unfold eval
  rw [show builtin "variable".toList = some .var by decide +kernel]
  simp only
  rw [nextToken_tok ht]
  simp only
  unfold named
  rw [if_pos hd, if_neg (by omega)]
  rfl

/-- C129, violated: a blank behind a text of 511 characters overruns the body of a definition. -/
theorem body_overrun_violated {b : Str} (h : b.length = 511) (t : Str) : addToken b t = .ub := by
  have h0 : 0 < b.length := by omega
  unfold addToken
  rw [if_pos h0]
  simp only [List.length_append, List.length_singleton]
  rw [if_neg (by omega)]

/-! ## Cases -/

section Cases

/-- Some environment. -/
private def fl : Fl :=
  { zero := 0, isZero := (· = 0), add := fun a _ => a, sub := fun a _ => a, mul := fun a _ => a,
    div := fun a _ => a, sqrt := id, ofInt := fun _ => 0, toInt := fun _ => none,
    parse := fun _ => none, show' := fun _ => [] }

private def printed (src : String) : Out Str := (block fl 60 src.toList init).bind (fun s => .ok s.out)

example : printed "1 2 3 * + emit" = .ok "7".toList := by decide +kernel
example : printed ": sq dup * ; 7 sq emit , 010 emit" = .ok "49, 8".toList := by decide +kernel
example : printed "3 0 do i emit loop" = .ok "012".toList := by decide +kernel
example : printed "2 0 do 2 0 do i emit loop i emit loop" = .ok "010011".toList := by decide +kernel
example : printed "1 if 5 emit else 6 emit then 0 if 7 emit else 8 emit then" = .ok "58".toList := by
  decide +kernel
example : printed "0 if 1 if 2 emit then 3 emit then" = .ok "3".toList := by decide +kernel
example : printed "5 7 0 / drop emit" = .ok "7".toList := by decide +kernel
example : printed ": a 1 ; : b a ; : a 2 ; b emit" = .ok "2".toList := by decide +kernel
example : printed "1 2 over emit" = .ok "over 2".toList := by decide +kernel
example : printed ".\" a  b\" : w .\" a  b\" ; w" = .ok "a  ba b".toList := by decide +kernel
example : printed "variable x 5 x ! x @ emit" = .ok "5".toList := by decide +kernel
example : printed "5000 @" = .ub := by decide +kernel
example : printed "3 0 do i" = .exit := by decide +kernel

private theorem dec7 : Dec "7".toList 7 := .one (v := 7) (by decide)
private theorem dec12 : Dec "12".toList 12 := .snoc (s := "1".toList) (n := 1) (v := 2) (.one (v := 1) (by decide))
  (by decide) (by decide)


private theorem range_small {n : Int} (h0 : -100 < n) (h : n < 100) : Range n := by
  unfold Range
  omega

example (s : St) (h : s.stack = []) (r : Str) (k : Nat) :
    run fl (k + 3) ("12 7 - ".toList ++ r) s = run fl k r { s with stack := [5] } := by
  have := postfix_value fl (.bin .sub (.num "12".toList 12) (.num "7".toList 7))
    ⟨⟨dec12, range_small (by decide) (by decide)⟩, ⟨dec7, range_small (by decide) (by decide)⟩,
      range_small (by decide) (by decide), by simp⟩ s (by rw [h]; decide) r k
  rw [h] at this
  exact this

/-- What some words do. -/
private def meaning (w : Str) (s : St) : Out St :=
  match builtin w with
  | some w => plain fl w s
  | none => match strtol w with
    | some n => .ok (push n s)
    | none => .ok s

private theorem meant_emit : Meant fl meaning "emit".toList := by
  refine ⟨⟨by decide, by decide⟩, by decide, ?_⟩
  intro f r s
  rw [eval_plain fl f (w := .emit) (by decide +kernel) rfl]
  have : meaning "emit".toList s = plain fl .emit s := by
    unfold meaning
    rw [show builtin "emit".toList = some .emit by decide +kernel]
  rw [this]

private theorem meant_i : Meant fl meaning "i".toList := by
  refine ⟨⟨by decide, by decide⟩, by decide, ?_⟩
  intro f r s
  rw [eval_plain fl f (w := .i) (by decide +kernel) rfl]
  have : meaning "i".toList s = plain fl .i s := by
    unfold meaning
    rw [show builtin "i".toList = some .i by decide +kernel]
  rw [this]

/-- `do i emit loop` prints the numbers. -/
example (s : St) (o : Out St)
    (h : Then fl ((Prog.loop (.seq (.word "i".toList) (.word "emit".toList))).exec meaning s) [] o) :
    Runs fl "do i emit loop ".toList s o := by
  have := structured_partial fl meaning (.loop (.seq (.word "i".toList) (.word "emit".toList)))
    ⟨meant_i, meant_emit⟩ rfl s [] o h
  exact this

private theorem callable_sq : Callable "sq".toList :=
  ⟨⟨by decide, by decide⟩, by decide +kernel, by decide, by decide +kernel⟩

example (s : St) (hd : s.dict.length < 128) (r : Str) (k : Nat) :
    source fl (k + 5) (": sq dup * ; ".toList ++ r) .running s =
      source fl k r .running { s with dict := ("sq".toList, "dup *".toList) :: s.dict } :=
  define_word fl callable_sq.1 (by decide) (by decide) (ws := ["dup".toList, "*".toList])
    (by
      intro w hw
      simp only [List.mem_cons, List.not_mem_nil, or_false] at hw
      rcases hw with rfl | rfl <;> exact ⟨⟨by decide, by decide⟩, by decide, by decide⟩)
    (by decide) s hd r k

/-- `: sq sq 1 + ;` -/
example (r : Str) (k : Nat) :
    run fl k ("sq".toList ++ ' ' :: r) { init with dict := [("sq".toList, "sq 1 +".toList)] } = .more :=
  redefinition_violated fl callable_sq (ws := ["1".toList, "+".toList]) _ (by decide +kernel) r k

example : Inv init := ⟨by decide, by decide, by decide, by decide, by decide⟩

end Cases

/-! ## Words for the stack, and blanks -/

/-- C126: the words that move values about on the stack. -/
theorem stack_words (E : Fl) (s : St) (a b c : Int) (st : List Int) (hl : st.length < 253) (r : Str) (k : Nat) :
    run E (k + 1) ("dup".toList ++ ' ' :: r) { s with stack := a :: st } =
        run E k r { s with stack := a :: a :: st } ∧
      run E (k + 1) ("drop".toList ++ ' ' :: r) { s with stack := a :: st } = run E k r { s with stack := st } ∧
      run E (k + 1) ("swap".toList ++ ' ' :: r) { s with stack := a :: b :: st } =
        run E k r { s with stack := b :: a :: st } ∧
      run E (k + 1) ("rot".toList ++ ' ' :: r) { s with stack := a :: b :: c :: st } =
        run E k r { s with stack := c :: a :: b :: st } ∧
      run E (k + 1) ("-rot".toList ++ ' ' :: r) { s with stack := a :: b :: c :: st } =
        run E k r { s with stack := b :: c :: a :: st } ∧
      run E (k + 1) ("choose".toList ++ ' ' :: r) { s with stack := a :: b :: c :: st } =
        run E k r { s with stack := (if c ≠ 0 then b else a) :: st } := by
  have h1 : st.length < 256 := by omega
  have h2 : st.length + 1 < 256 := by omega
  have h3 : st.length + 1 + 1 < 256 := by omega
  refine ⟨?_, ?_, ?_, ?_, ?_, ?_⟩
  · rw [run_word E (w := .dup) ⟨by decide, by decide⟩ (by decide +kernel) rfl]
    simp [plain, push, top, h2]
  · rw [run_word E (w := .drop) ⟨by decide, by decide⟩ (by decide +kernel) rfl]
    simp [plain, rest]
  · rw [run_word E (w := .swap) ⟨by decide, by decide⟩ (by decide +kernel) rfl]
    simp [plain, push, top, rest, h1, h2]
  · rw [run_word E (w := .rot) ⟨by decide, by decide⟩ (by decide +kernel) rfl]
    simp [plain, push, top, rest, h1, h2, h3]
  · rw [run_word E (w := .nrot) ⟨by decide, by decide⟩ (by decide +kernel) rfl]
    simp [plain, push, top, rest, h1, h2, h3]
  · rw [run_word E (w := .choose) ⟨by decide, by decide⟩ (by decide +kernel) rfl]
    simp [plain, push, top, rest, h1]

/-- C127: words are separated by blanks, tabs and newlines, any number of them. -/
theorem any_blanks (E : Fl) {w u : Str} (h : IsTok w) (hu : ∀ c ∈ u, c = ' ' ∨ c = '\t' ∨ c = '\n') {b : Char}
    (hb : b = ' ' ∨ b = '\t' ∨ b = '\n') (r : Str) (k : Nat) (s : St) :
    run E (k + 1) (u ++ (w ++ b :: r)) s = run E (k + 1) (w ++ ' ' :: r) s := by
  have hbl : ∀ c : Char, (c = ' ' ∨ c = '\t' ∨ c = '\n') → blank c = true := by
    intro c hc
    rcases hc with rfl | rfl | rfl <;> decide
  have hd : (u ++ (w ++ b :: r)).dropWhile blank = w ++ b :: r := by
    induction u with
    | nil =>
      obtain ⟨h0, hw⟩ := h
      cases w with
      | nil => exact absurd rfl h0
      | cons c w =>
        rw [List.nil_append, List.cons_append, List.dropWhile_cons, if_neg (by simp [hw c (by simp)])]
    | cons c u ih =>
      rw [List.cons_append, List.dropWhile_cons, if_pos (hbl c (hu c (by simp)))]
      exact ih (fun c hc => hu c (by simp [hc]))
  have ht : ∀ (w : Str), (∀ c ∈ w, blank c = false) → (w ++ b :: r).takeWhile (fun c => !blank c) = w ∧
      (w ++ b :: r).dropWhile (fun c => !blank c) = b :: r := by
    intro w hw
    induction w with
    | nil => simp [List.takeWhile_cons, List.dropWhile_cons, hbl b hb]
    | cons c w ih =>
      obtain ⟨h1, h2⟩ := ih (fun x hx => hw x (by simp [hx]))
      rw [List.cons_append, List.takeWhile_cons, List.dropWhile_cons]
      simp only [hw c (by simp), Bool.not_false, if_true]
      exact ⟨by rw [h1], h2⟩
  have hn : nextToken (u ++ (w ++ b :: r)) = some (w, r) := by
    unfold nextToken
    rw [hd]
    obtain ⟨h1, h2⟩ := ht w h.2
    obtain ⟨h0, -⟩ := h
    cases w with
    | nil => exact absurd rfl h0
    | cons c w =>
      rw [List.cons_append] at h1 h2 ⊢
      simp only
      rw [h1, h2]
      rfl
  rw [run, hn, run, nextToken_tok h]

end Verif.Forth
