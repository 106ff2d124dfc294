import Verif.Asm.Lemmas

/-!
# The emitted text, read back
-/

namespace Verif.Asm

open Spec

/-- The constraint printed for an output. -/
def conOf (m : List Char) : List Char := if m = "inout".toList then "+r".toList else "=r".toList

/-- The tokens of an operand. -/
def opToks (c v : List Char) : List CTok := [.str c, .punct '(', .id v, .punct ')']

/-- The sections as printed. -/
def secsOf (n : Node) : List (List (List CTok)) :=
  (if n.outs ≠ [] then [n.outs.map fun o => opToks (conOf o.1) o.2] else []) ++
  ((if n.ins ≠ [] then [n.ins.map fun v => opToks "r".toList v]
    else if n.outs ≠ [] then [[]] else []) ++
   (if n.clobs ≠ [] then [n.clobs.map fun s => [CTok.str s]] else []))

/-- Operands are names and clobbers are plain. -/
structure Fit (n : Node) : Prop where
  outs : ∀ o ∈ n.outs, Name o.2
  ins : ∀ v ∈ n.ins, Name v
  clobs : ∀ s ∈ n.clobs, PlainStr s

/-- The tokens of the sections. -/
def secToks (l : List (List (List CTok))) : List CTok :=
  l.flatMap fun s => .punct ':' :: cseparated s

theorem lexes_sections (n : Node) (h : Fit n) :
    Lexes (printSections n) (secToks (secsOf n)) := by
  have h1 := lexes_secStart.append (lexes_commas outItem (fun o => opToks (conOf o.1) o.2) n.outs
    (fun o ho => lexes_out o (h.outs o ho)))
  have h2 := lexes_secStart.append (lexes_commas inItem (fun v => opToks "r".toList v) n.ins
    (fun o ho => lexes_in o (h.ins o ho)))
  have h3 := lexes_secStart.append (lexes_commas clobItem (fun s => [CTok.str s]) n.clobs
    (fun o ho => lexes_clob o (h.clobs o ho)))
  have e : secToks (secsOf n) =
      (if n.outs ≠ [] then [.punct ':'] ++ cseparated (n.outs.map fun o => opToks (conOf o.1) o.2)
        else []) ++
      ((if n.ins ≠ [] then [.punct ':'] ++ cseparated (n.ins.map fun v => opToks "r".toList v)
        else if n.outs ≠ [] then [.punct ':'] else []) ++
       (if n.clobs ≠ [] then [.punct ':'] ++ cseparated (n.clobs.map fun s => [CTok.str s])
        else [])) := by
    unfold secToks secsOf
    by_cases ho : n.outs = [] <;> by_cases hi : n.ins = [] <;> by_cases hc : n.clobs = [] <;>
      simp [ho, hi, hc, cseparated]
  rw [e]
  unfold printSections
  refine Lexes.append ?_ (Lexes.append ?_ ?_)
  · split
    · exact h1
    · exact Lexes.nil
  · split
    · exact h2
    · split
      · exact lexes_secStart
      · exact Lexes.nil
  · split
    · exact h3
    · exact Lexes.nil

theorem sec_items (n : Node) (s : List (List CTok)) (hs : s ∈ secsOf n) :
    (∀ p ∈ s, CTok.punct ',' ∉ p ∧ p ≠ []) ∧ (∀ p ∈ s, CTok.punct ':' ∉ p) := by
  have key : ∀ p ∈ s, (∃ c v, p = opToks c v) ∨ ∃ c, p = [CTok.str c] := by
    intro p hp
    unfold secsOf at hs
    rcases List.mem_append.mp hs with hs | hs
    · split at hs
      · simp only [List.mem_singleton] at hs
        subst hs
        obtain ⟨o, _, rfl⟩ := List.mem_map.mp hp
        exact .inl ⟨_, _, rfl⟩
      · simp at hs
    · rcases List.mem_append.mp hs with hs | hs
      · split at hs
        · simp only [List.mem_singleton] at hs
          subst hs
          obtain ⟨o, _, rfl⟩ := List.mem_map.mp hp
          exact .inl ⟨_, _, rfl⟩
        · split at hs
          · simp only [List.mem_singleton] at hs
            subst hs
            simp at hp
          · simp at hs
      · split at hs
        · simp only [List.mem_singleton] at hs
          subst hs
          obtain ⟨o, _, rfl⟩ := List.mem_map.mp hp
          exact .inr ⟨_, rfl⟩
        · simp at hs
  constructor
  · intro p hp
    rcases key p hp with ⟨c, v, rfl⟩ | ⟨c, rfl⟩ <;> simp [opToks]
  · intro p hp
    rcases key p hp with ⟨c, v, rfl⟩ | ⟨c, rfl⟩ <;> simp [opToks]

theorem split_secs (l : List CTok) (hl : CTok.punct ':' ∉ l) (ss : List (List (List CTok)))
    (h : ∀ s ∈ ss, ∀ p ∈ s, CTok.punct ':' ∉ p) :
    split (.punct ':') (l ++ secToks ss) = l :: ss.map cseparated := by
  induction ss generalizing l with
  | nil => simpa [secToks] using split_none _ l hl
  | cons s ss ih =>
    have e : secToks (s :: ss) = .punct ':' :: (cseparated s ++ secToks ss) := by
      simp [secToks]
    rw [e, split_cons _ _ _ hl, ih _ (colon_sep s (h s (by simp))) (fun x hx => h x (by simp [hx]))]
    rfl

theorem lits_colon (acc t : List Char) : CTok.punct ':' ∉ lits acc t := by
  intro h
  obtain ⟨s, hs⟩ := lits_mem acc t _ h
  cases hs

theorem lex_end : lex .out ");\n".toList = some [.punct ')', .punct ';'] := by decide +kernel

theorem lex_vol (r : List Char) : lex .out ("    __asm__ __volatile__(".toList ++ r) =
    (lex .out r).map ([.id "__asm__".toList, .id "__volatile__".toList, .punct '('] ++ ·) := by
  have h1 : ∀ r, lex .out ("    __asm__ __volatile__(".toList ++ r) =
      lex .out ("__asm__ __volatile__(".toList ++ r) := by
    intro r
    show lex .out (' ' :: ' ' :: ' ' :: ' ' :: ("__asm__ __volatile__(".toList ++ r)) = _
    simp only [lex_blank]
  rw [h1]
  show lex .out ('_' :: ("_asm__".toList ++ ' ' :: ("__volatile__(".toList ++ r))) = _
  rw [lex, show start '_' = ([], .id ['_']) from rfl]
  simp only
  rw [lex_id _ _ _ _ (by decide) (by decide), show start ' ' = ([], .out) from rfl]
  simp only
  show Option.map _ (Option.map _ (lex .out ('_' :: ("_volatile__".toList ++ '(' :: r)))) = _
  rw [lex, show start '_' = ([], .id ['_']) from rfl]
  simp only
  rw [lex_id _ _ _ _ (by decide) (by decide), show start '(' = ([.punct '('], .out) from rfl]
  simp only
  cases lex .out r <;> simp

theorem lex_plainasm (r : List Char) : lex .out ("    __asm__(".toList ++ r) =
    (lex .out r).map ([.id "__asm__".toList, .punct '('] ++ ·) := by
  have h1 : ∀ r, lex .out ("    __asm__(".toList ++ r) = lex .out ("__asm__(".toList ++ r) := by
    intro r
    show lex .out (' ' :: ' ' :: ' ' :: ' ' :: ("__asm__(".toList ++ r)) = _
    simp only [lex_blank]
  rw [h1]
  show lex .out ('_' :: ("_asm__".toList ++ '(' :: r)) = _
  rw [lex, show start '_' = ([], .id ['_']) from rfl]
  simp only
  rw [lex_id _ _ _ _ (by decide) (by decide), show start '(' = ([.punct '('], .out) from rfl]
  simp only
  cases lex .out r <;> simp

theorem inside_end (vol : Bool) (m : List CTok) :
    inside vol (m ++ [.punct ')', .punct ';']) = assemble vol (split (.punct ':') m) := by
  unfold inside
  rw [List.reverse_append]
  simp

theorem read_emit (n : Node) (h : Fit n) (t : List Char) (ht : expand n n.code = some t) :
    ∃ s, emit n = some s ∧
      readC s = assemble n.vol (lits [] t :: (secsOf n).map cseparated) := by
  refine ⟨_, by rw [emit, ht]; rfl, ?_⟩
  have h1 : lex .out (quote t ++ (printSections n ++ ");\n".toList)) =
      some (lits [] t ++ secToks (secsOf n) ++ [.punct ')', .punct ';']) := by
    rw [lexes_quote, lexes_sections n h, lex_end]
    simp
  have h2 : ∀ vol, inside vol (lits [] t ++ secToks (secsOf n) ++ [.punct ')', .punct ';']) =
      assemble vol (lits [] t :: (secsOf n).map cseparated) := by
    intro vol
    rw [inside_end, split_secs _ (lits_colon _ _) _ (fun s hs => (sec_items n s hs).2)]
  cases hv : n.vol
  · rw [if_neg (by simp), readC, lex_plainasm, h1]
    simp only [Option.map_some, List.cons_append, List.nil_append, and_self, if_true]
    have := h2 false
    cases hl : lits [] t with
    | nil => exact absurd hl (lits_ne _ _)
    | cons x xs =>
      rw [hl] at this
      simpa using this
  · rw [if_pos rfl, readC, lex_vol, h1]
    simp only [Option.map_some, List.cons_append, List.nil_append, and_self, if_true]
    exact h2 true

theorem mapM_op {α : Type} (l : List α) (c v : α → List Char) :
    (l.map fun o => opToks (c o) (v o)).mapM operand = some (l.map fun o => (c o, v o)) := by
  induction l with
  | nil => rfl
  | cons o l ih =>
    rw [List.map_cons, List.mapM_cons, ih]
    simp [opToks, operand]

theorem mapM_clob (l : List (List Char)) :
    (l.map fun s => [CTok.str s]).mapM clobber = some l := by
  induction l with
  | nil => rfl
  | cons o l ih =>
    rw [List.map_cons, List.mapM_cons, ih]
    simp [clobber]

theorem writes_con (m : List Char) : writes (conOf m) = true := by
  unfold conOf; split <;> decide

theorem assemble_ok (vol : Bool) (t : List CTok) (secs : List (List CTok)) (T os is cs)
    (h1 : literal t = some T) (h2 : (items (secs[0]?.getD [])).mapM operand = some os)
    (h3 : (items (secs[1]?.getD [])).mapM operand = some is)
    (h4 : (items (secs[2]?.getD [])).mapM clobber = some cs) (hl : secs.length ≤ 3)
    (hw : ∀ o ∈ os, writes o.1 = true) (hr : ∀ o ∈ is, writes o.1 = false) :
    assemble vol (t :: secs) = some ⟨vol, T, secs ≠ [], os, is, cs⟩ := by
  simp only [assemble, h1, h2, h3, h4, bind, Option.bind]
  rw [if_pos]
  refine ⟨hl, ?_, ?_⟩
  · simpa using hw
  · simpa using hr

theorem assemble_bad (vol : Bool) (t : List CTok) (secs : List (List CTok)) (os o)
    (h2 : (items (secs[0]?.getD [])).mapM operand = some os)
    (ho : o ∈ os) (hw : writes o.1 = false) : assemble vol (t :: secs) = none := by
  simp only [assemble, h2, bind, Option.bind]
  cases literal t with
  | none => rfl
  | some T =>
    simp only
    cases (items (secs[1]?.getD [])).mapM operand with
    | none => rfl
    | some is =>
      simp only
      cases (items (secs[2]?.getD [])).mapM clobber with
      | none => rfl
      | some cs =>
        simp only
        rw [if_neg]
        intro hh
        have := List.all_eq_true.mp hh.2.1 o ho
        rw [hw] at this
        cases this

/-- With outputs, the text is read as it was meant. -/
theorem read_outs (n : Node) (h : Fit n) (ho : n.outs ≠ []) (t : List Char)
    (ht : expand n n.code = some t) :
    ∃ s, emit n = some s ∧
      readC s = some ⟨n.vol, t ++ ['\n'], true, n.outs.map fun o => (conOf o.1, o.2),
        n.ins.map fun v => ("r".toList, v), n.clobs⟩ := by
  obtain ⟨s, h1, h2⟩ := read_emit n h t ht
  refine ⟨s, h1, ?_⟩
  rw [h2]
  have hs : secsOf n = (n.outs.map fun o => opToks (conOf o.1) o.2) ::
      (n.ins.map fun v => opToks "r".toList v) ::
      (if n.clobs ≠ [] then [n.clobs.map fun s => [CTok.str s]] else []) := by
    unfold secsOf
    by_cases hi : n.ins = [] <;> simp [ho, hi]
  have i1 := items_sep _ (sec_items n _ (by rw [hs]; exact List.mem_cons_self)).1
  have i2 := items_sep (n.ins.map fun v => opToks "r".toList v)
    (sec_items n _ (by rw [hs]; simp)).1
  rw [hs]
  have e := assemble_ok n.vol (lits [] t)
    (((n.outs.map fun o => opToks (conOf o.1) o.2) ::
      (n.ins.map fun v => opToks "r".toList v) ::
      (if n.clobs ≠ [] then [n.clobs.map fun s => [CTok.str s]] else [])).map cseparated)
    (t ++ ['\n']) (n.outs.map fun o => (conOf o.1, o.2)) (n.ins.map fun v => ("r".toList, v)) n.clobs
    (by rw [lits_literal]; simp) ?_ ?_ ?_ ?_ ?_ ?_
  · rw [e]; simp
  · simp only [List.map_cons, List.getElem?_cons_zero, Option.getD_some, i1]
    exact mapM_op _ _ _
  · simp only [List.map_cons, List.getElem?_cons_succ, List.getElem?_cons_zero, Option.getD_some, i2]
    exact mapM_op _ _ _
  · by_cases hc : n.clobs = []
    · simp [hc, items]
    · have i3 := items_sep (n.clobs.map fun s => [CTok.str s])
        (sec_items n _ (by rw [hs]; simp [hc])).1
      simp only [List.map_cons, List.getElem?_cons_succ, hc, ne_eq, not_false_eq_true, if_true,
        List.getElem?_cons_zero, Option.getD_some, i3]
      exact mapM_clob _
  · by_cases hc : n.clobs = [] <;> simp [hc]
  · intro o ho
    obtain ⟨p, _, rfl⟩ := List.mem_map.mp ho
    exact writes_con _
  · intro o ho
    obtain ⟨p, _, rfl⟩ := List.mem_map.mp ho
    rfl

/-- Without operands and clobbers, too. -/
theorem read_basic (n : Node) (ho : n.outs = []) (hi : n.ins = []) (hc : n.clobs = [])
    (t : List Char) (ht : expand n n.code = some t) :
    ∃ s, emit n = some s ∧ readC s = some ⟨n.vol, t ++ ['\n'], false, [], [], []⟩ := by
  obtain ⟨s, h1, h2⟩ := read_emit n ⟨by simp [ho], by simp [hi], by simp [hc]⟩ t ht
  refine ⟨s, h1, ?_⟩
  rw [h2]
  have e := assemble_ok n.vol (lits [] t) [] (t ++ ['\n']) [] [] []
    (by rw [lits_literal]; simp) rfl rfl rfl (by simp) (by simp) (by simp)
  simpa [secsOf, ho, hi, hc] using e

theorem mapM_cons_none {α β : Type} (f : α → Option β) (x : α) (l : List α) (h : f x = none) :
    (x :: l).mapM f = none := by
  rw [List.mapM_cons, h]; rfl

/-- Inputs without outputs: the compiler rejects the text. -/
theorem read_ins (n : Node) (h : Fit n) (ho : n.outs = []) (hi : n.ins ≠ []) (t : List Char)
    (ht : expand n n.code = some t) : ∃ s, emit n = some s ∧ readC s = none := by
  obtain ⟨s, h1, h2⟩ := read_emit n h t ht
  refine ⟨s, h1, ?_⟩
  rw [h2]
  have hs : secsOf n = (n.ins.map fun v => opToks "r".toList v) ::
      (if n.clobs ≠ [] then [n.clobs.map fun s => [CTok.str s]] else []) := by
    unfold secsOf
    simp [ho, hi]
  have i1 := items_sep _ (sec_items n _ (by rw [hs]; exact List.mem_cons_self)).1
  rw [hs]
  cases hn : n.ins with
  | nil => exact absurd hn hi
  | cons v vs =>
    refine assemble_bad _ _ _ ((v :: vs).map fun o => ("r".toList, o)) ("r".toList, v) ?_ (by simp) rfl
    rw [hn] at i1
    simp only [List.map_cons, List.getElem?_cons_zero, Option.getD_some] at i1 ⊢
    rw [i1]
    exact mapM_op (v :: vs) (fun _ => "r".toList) (fun v => v)

/-- Clobbers alone: the compiler rejects the text. -/
theorem read_clobs (n : Node) (h : Fit n) (ho : n.outs = []) (hi : n.ins = []) (hc : n.clobs ≠ [])
    (t : List Char) (ht : expand n n.code = some t) : ∃ s, emit n = some s ∧ readC s = none := by
  obtain ⟨s, h1, h2⟩ := read_emit n h t ht
  refine ⟨s, h1, ?_⟩
  rw [h2]
  have hs : secsOf n = [n.clobs.map fun s => [CTok.str s]] := by
    unfold secsOf
    simp [ho, hi, hc]
  have i1 := items_sep _ (sec_items n _ (by rw [hs]; exact List.mem_cons_self)).1
  rw [hs]
  have : (n.clobs.map fun s => [CTok.str s]).mapM operand = none := by
    cases hn : n.clobs with
    | nil => exact absurd hn hc
    | cons v vs => exact mapM_cons_none _ _ _ rfl
  simp only [assemble, List.map_cons, List.map_nil, List.getElem?_cons_zero, Option.getD_some, i1,
    this, bind, Option.bind]
  cases literal (lits [] t) <;> rfl

/-! ## The template -/

theorem takeWhile_name (v r : List Char) (h : '}' ∉ v) :
    (v ++ '}' :: r).takeWhile (· ≠ '}') = v := by
  induction v with
  | nil => simp
  | cons c v ih =>
    have hc : c ≠ '}' := by intro e; subst e; simp at h
    have h2 : '}' ∉ v := by intro e; exact h (by simp [e])
    have := ih h2
    simp only [ne_eq, decide_not] at this
    simp [hc, this]

theorem expand_hole (n : Node) (v r : List Char) (i : Nat) (h : '}' ∉ v) (hl : v.length < 64)
    (hi : index n v = some i) :
    expand n ('{' :: (v ++ '}' :: r)) = (expand n r).map ('%' :: decimal i ++ ·) := by
  rw [expand.eq_2, if_pos rfl, if_pos (by simp), takeWhile_name v r h, if_neg (by omega), hi]
  congr 2
  rw [← List.append_nil v, List.append_assoc, List.nil_append]
  simp

theorem expand_lit (n : Node) (c : Char) (r : List Char) (h : c ≠ '{') :
    expand n (c :: r) = (expand n r).map
      ((if c = '%' ∧ extended n = true then ['%', '%'] else [c]) ++ ·) := by
  rw [expand.eq_2, if_neg h]
  by_cases hc : c = '%'
  · subst hc; cases hx : extended n <;> simp
  · simp [hc]

/-- The template for the fragments. -/
def render (n : Node) (ops : List (List Char)) : List Frag → List Char
  | [] => []
  | .lit c :: r => (if c = '%' ∧ extended n = true then ['%', '%'] else [c]) ++ render n ops r
  | .hole v :: r => '%' :: decimal (ops.findIdx (· = v)) ++ render n ops r

theorem expand_text (n : Node) (ops : List (List Char))
    (hx : ∀ v ∈ ops, index n v = some (ops.findIdx (· = v)))
    (hn : ∀ v ∈ ops, Name v) (F : List Frag) (hh : ∀ v, .hole v ∈ F → v ∈ ops)
    (hl : ∀ c, .lit c ∈ F → c ≠ '{') : expand n (text F) = some (render n ops F) := by
  induction F with
  | nil => simp [text, expand, render]
  | cons f F ih =>
    have ih := ih (fun v hv => hh v (by simp [hv])) (fun v hv => hl v (by simp [hv]))
    cases f with
    | lit c =>
      have e : text (.lit c :: F) = c :: text F := by simp [text]
      rw [e, expand_lit n c _ (hl c (by simp)), ih]
      rfl
    | hole v =>
      have hv := hh v (by simp)
      have hN := hn v hv
      have e : text (.hole v :: F) = '{' :: (v ++ '}' :: text F) := by simp [text]
      have hb : '}' ∉ v := fun hm => by
        have := hN.2.2 _ hm
        revert this; decide
      rw [e, expand_hole n v _ _ hb hN.2.1 (hx v hv), ih]
      rfl

theorem digit_ok (d : Nat) (h : d < 10) :
    (Char.ofNat (48 + d)).isDigit = true ∧ (Char.ofNat (48 + d)).toNat - 48 = d ∧
      Char.ofNat (48 + d) ≠ '%' ∧ Char.ofNat (48 + d) ≠ '{' ∧ Char.ofNat (48 + d) ≠ '|' ∧
      Char.ofNat (48 + d) ≠ '}' := by
  revert d; decide

theorem gcc_decimal (dial : Bool) (a : Alt) (i : Nat) (r : List Char) :
    gcc dial .pct a (decimal i ++ r) = gcc dial (.num i) a r := by
  induction i using Nat.strongRecOn generalizing r with
  | _ i ih =>
    rw [decimal]
    split
    · next h =>
      have hd := digit_ok i h
      simp [gcc, hd]
    · next h =>
      have hd := digit_ok (i % 10) (Nat.mod_lt _ (by omega))
      rw [List.append_assoc, ih (i / 10) (by omega)]
      simp only [List.cons_append, List.nil_append, gcc, hd.1, if_true, hd.2.1]
      rw [show 10 * (i / 10) + i % 10 = i by omega]

theorem gcc_num (dial : Bool) (n : Nat) (a : Alt) (c : Char) (r : List Char)
    (h : c.isDigit = false) :
    gcc dial (.num n) a (c :: r) = (gcc dial .plain a (c :: r)).map (.op n :: ·) := by
  rw [gcc, gcc, h]
  simp only [Bool.false_eq_true, if_false]
  cases hs : step dial a c with
  | none => rfl
  | some p =>
    obtain ⟨o, st, a'⟩ := p
    simp only
    cases gcc dial st a' r <;> simp

theorem gcc_lit (dial : Bool) (c : Char) (r : List Char) (hp : c ≠ '%') (h1 : c ≠ '{') :
    gcc dial .plain .none (c :: r) = (gcc dial .plain .none r).map (.ch c :: ·) := by
  rw [gcc]
  have : step dial .none c = some ([.ch c], .plain, .none) := by
    simp [step, hp, h1]
  rw [this]
  rfl

theorem gcc_pct (dial : Bool) (r : List Char) :
    gcc dial .plain .none ('%' :: '%' :: r) = (gcc dial .plain .none r).map (.ch '%' :: ·) := by
  have : step dial .none '%' = some ([], .pct, .none) := by simp [step]
  rw [gcc, this]
  simp only [gcc, if_true]
  cases gcc dial .plain .none r <;> rfl

theorem gcc_op (dial : Bool) (i : Nat) (r : List Char) :
    gcc dial .plain .none ('%' :: decimal i ++ r) = gcc dial (.num i) .none r := by
  have : step dial .none '%' = some ([], .pct, .none) := by simp [step]
  rw [List.cons_append, gcc, this]
  simp only [gcc_decimal]
  cases gcc dial (.num i) .none r <;> rfl

/-- The pieces for the fragments. -/
def pieces (ops : List (List Char)) : List Frag → List Piece
  | [] => []
  | .lit c :: r => .ch c :: pieces ops r
  | .hole v :: r => .op (ops.findIdx (· = v)) :: pieces ops r

theorem render_head (n : Node) (ops) (c : Char) (F : List Frag) :
    ∃ r, render n ops (.lit c :: F) = c :: r := by
  simp only [render]
  split
  · next h => rw [h.1]; exact ⟨_, rfl⟩
  · exact ⟨_, rfl⟩

theorem gcc_render (dial : Bool) (n : Node) (ops : List (List Char)) (hext : extended n = true)
    (F : List Frag) (hl : ∀ c, .lit c ∈ F → c ≠ '{') (ha : Apart F)
    (hlast : ∀ v, F.getLast? ≠ some (.hole v)) :
    gcc dial .plain .none (render n ops F) = some (pieces ops F) := by
  induction F with
  | nil => simp [render, gcc, pieces]
  | cons f F ih =>
    have hl' : ∀ c, .lit c ∈ F → c ≠ '{' := fun v hv => hl v (by simp [hv])
    have hlast' : ∀ v, F.getLast? ≠ some (.hole v) := by
      intro v hv
      cases F with
      | nil => simp at hv
      | cons g G => exact hlast v (by rw [List.getLast?_cons_cons]; exact hv)
    have ha' : Apart F := by
      cases F with
      | nil => trivial
      | cons g G =>
        cases f with
        | lit c => cases g <;> simpa [Apart] using ha
        | hole v => cases g with
          | lit c => exact ha.2
          | hole w => exact ha
    have ih := ih hl' ha' hlast'
    cases f with
    | lit c =>
      by_cases hp : c = '%'
      · subst hp
        simp only [render, hext, and_self, if_true, List.cons_append, List.nil_append]
        rw [gcc_pct, ih]; rfl
      · simp only [render, hp, false_and, if_false, List.cons_append, List.nil_append]
        rw [gcc_lit dial c _ hp (hl c (by simp)), ih]; rfl
    | hole v =>
      simp only [render]
      rw [gcc_op]
      cases F with
      | nil => exact absurd (by simp) (hlast v)
      | cons g G =>
        cases g with
        | lit c =>
          obtain ⟨r, hr⟩ := render_head n ops c G
          rw [hr, gcc_num dial _ _ _ _ ha.1, ← hr, ih]
          rfl
        | hole w =>
          have hr : ∃ r, render n ops (.hole w :: G) = '%' :: r := ⟨_, rfl⟩
          obtain ⟨r, hr⟩ := hr
          rw [hr, gcc_num dial _ _ _ _ (by decide), ← hr, ih]
          rfl

theorem means_pieces (ops : List (List Char)) (F : List Frag) (hh : ∀ v, .hole v ∈ F → v ∈ ops) :
    Means ops F (pieces ops F) := by
  induction F with
  | nil => exact .nil
  | cons f F ih =>
    have ih := ih (fun v hv => hh v (by simp [hv]))
    cases f with
    | lit c => exact .lit c ih
    | hole v =>
      have hv := hh v (by simp)
      refine .hole v _ ?_ ?_ ih
      · have hlt : ops.findIdx (· = v) < ops.length := List.findIdx_lt_length_of_exists ⟨v, hv, by simp⟩
        rw [List.getElem?_eq_getElem hlt]
        have := List.findIdx_getElem (w := hlt)
        simpa using this
      · intro j hj he
        have := List.not_of_lt_findIdx hj
        have hjl : j < ops.length := by
          have := List.findIdx_le_length (xs := ops) (p := fun x => decide (x = v)); omega
        rw [List.getElem?_eq_getElem hjl] at he
        simp at he
        simp [he] at this

/-- The lines with newlines between them. -/
def glue : List (List Frag) → List Frag
  | [] => []
  | [x] => x
  | x :: y :: r => x ++ (.lit '\n' :: glue (y :: r))

theorem text_append (a b : List Frag) : text (a ++ b) = text a ++ text b := by simp [text]

theorem text_glue (ls : List (List Frag)) : text (glue ls) = joined (ls.map text) := by
  induction ls with
  | nil => rfl
  | cons x r ih =>
    cases r with
    | nil => rfl
    | cons y r =>
      rw [glue, text_append, show text (.lit '\n' :: glue (y :: r)) = '\n' :: text (glue (y :: r)) by
        simp [text], ih]
      rfl

theorem glue_whole (ls : List (List Frag)) (h : ls ≠ []) :
    glue ls ++ [.lit '\n'] = ls.flatMap fun l => l ++ [.lit '\n'] := by
  induction ls with
  | nil => exact absurd rfl h
  | cons x r ih =>
    cases r with
    | nil => simp [glue]
    | cons y r =>
      have := ih (by simp)
      rw [glue, List.flatMap_cons, ← this]
      simp

theorem glue_hole (ls : List (List Frag)) (v : List Char) (h : .hole v ∈ glue ls) :
    ∃ l ∈ ls, .hole v ∈ l := by
  induction ls with
  | nil => simp [glue] at h
  | cons x r ih =>
    cases r with
    | nil => exact ⟨x, by simp, h⟩
    | cons y r =>
      rw [glue] at h
      rcases List.mem_append.mp h with h | h
      · exact ⟨x, by simp, h⟩
      · rcases List.mem_cons.mp h with h | h
        · cases h
        · obtain ⟨l, hl, hm⟩ := ih h
          exact ⟨l, List.mem_cons_of_mem _ hl, hm⟩

theorem glue_lit (ls : List (List Frag)) (c : Char) (h : .lit c ∈ glue ls) :
    c = '\n' ∨ ∃ l ∈ ls, .lit c ∈ l := by
  induction ls with
  | nil => simp [glue] at h
  | cons x r ih =>
    cases r with
    | nil => exact .inr ⟨x, by simp, h⟩
    | cons y r =>
      rw [glue] at h
      rcases List.mem_append.mp h with h | h
      · exact .inr ⟨x, by simp, h⟩
      · rcases List.mem_cons.mp h with h | h
        · cases h; exact .inl rfl
        · rcases ih h with h | ⟨l, hl, hm⟩
          · exact .inl h
          · exact .inr ⟨l, List.mem_cons_of_mem _ hl, hm⟩

theorem apart_cons_lit (c : Char) (l : List Frag) (h : Apart l) : Apart (.lit c :: l) := by
  cases l with
  | nil => trivial
  | cons f l => cases f <;> exact h

theorem apart_newline (l m : List Frag) (hl : Apart l) (hm : Apart m) :
    Apart (l ++ .lit '\n' :: m) := by
  induction l with
  | nil => exact apart_cons_lit _ _ hm
  | cons f l ih =>
    cases l with
    | nil =>
      cases f with
      | lit c => exact apart_cons_lit _ _ (apart_cons_lit _ _ hm)
      | hole v => exact ⟨by decide, apart_cons_lit _ _ hm⟩
    | cons g l =>
      cases f with
      | lit c =>
        cases g <;> exact apart_cons_lit _ _ (ih hl)
      | hole v =>
        cases g with
        | lit c => exact ⟨hl.1, ih hl.2⟩
        | hole w => exact ih hl

theorem apart_whole (ls : List (List Frag)) (h : ∀ l ∈ ls, Apart l) :
    Apart (ls.flatMap fun l => l ++ [.lit '\n']) := by
  induction ls with
  | nil => trivial
  | cons x r ih =>
    rw [List.flatMap_cons]
    have := apart_newline x (r.flatMap fun l => l ++ [.lit '\n']) (h x (by simp))
      (ih (fun l hl => h l (by simp [hl])))
    simpa using this

theorem index_eq (n : Node) (v : List Char) :
    index n v = (n.outs.map (·.2) ++ n.ins).findIdx? (· = v) := by
  unfold index
  rw [List.findIdx?_append, List.findIdx?_map]
  have e : (fun o : List Char × List Char => decide (o.2 = v)) =
      ((fun x => decide (x = v)) ∘ fun o => o.2) := rfl
  rw [e]
  cases n.outs.findIdx? ((fun x => decide (x = v)) ∘ fun o => o.2) with
  | some i => rfl
  | none =>
    cases hi : n.ins.findIdx? (fun x => decide (x = v)) with
    | none => simp
    | some i => simp; omega

theorem index_some (n : Node) (v : List Char) (hv : v ∈ n.outs.map (·.2) ++ n.ins) :
    index n v = some ((n.outs.map (·.2) ++ n.ins).findIdx (· = v)) := by
  rw [index_eq]
  generalize n.outs.map (·.2) ++ n.ins = l at hv
  have : l.findIdx (· = v) < l.length := List.findIdx_lt_length_of_exists ⟨v, hv, by simp⟩
  rw [List.findIdx?_eq_some_iff_findIdx_eq]
  exact ⟨this, rfl⟩

theorem render_append (n : Node) (ops) (a b : List Frag) :
    render n ops (a ++ b) = render n ops a ++ render n ops b := by
  induction a with
  | nil => rfl
  | cons f a ih => cases f <;> simp [render, ih]

/-! ## Without operands -/

theorem expand_basic (n : Node) (hx : extended n = false) :
    ∀ (k : Nat) (code t : List Char), code.length ≤ k → expand n code = some t → t = code := by
  have hi : ∀ v, index n v = none := by
    intro v
    simp [extended] at hx
    simp [index, hx.1]
  intro k
  induction k with
  | zero =>
    intro code t hl ht
    have : code = [] := List.eq_nil_of_length_eq_zero (by omega)
    subst this
    rw [expand] at ht
    simpa using ht.symm
  | succ k ih =>
    intro code t hl ht
    cases code with
    | nil => rw [expand] at ht; simpa using ht.symm
    | cons c r =>
      simp only [List.length_cons] at hl
      rw [expand.eq_2] at ht
      split at ht
      · next hc =>
        split at ht
        · next hm =>
          split at ht
          · cases ht
          · rw [hi] at ht
            cases he : expand n (r.drop ((r.takeWhile (· ≠ '}')).length + 1)) with
            | none => rw [he] at ht; cases ht
            | some q =>
              rw [he] at ht
              have hq := ih _ _ (by simp only [List.length_drop]; omega) he
              simp only [Option.map_some, Option.some.injEq] at ht
              rw [← ht, hq, hc]
              have hd : r = r.takeWhile (· ≠ '}') ++
                  '}' :: r.drop ((r.takeWhile (· ≠ '}')).length + 1) := by
                obtain ⟨a, b, hab, hna⟩ := List.eq_append_cons_of_mem hm
                rw [hab, takeWhile_name a b hna]
                simp
              conv => rhs; rw [hd]
              simp
        · cases he : expand n r with
          | none => rw [he] at ht; cases ht
          | some q =>
            rw [he] at ht
            have hq := ih _ _ (by omega) he
            simp only [Option.map_some, Option.some.injEq] at ht
            rw [← ht, hq]
      · split at ht
        · next hc =>
          cases he : expand n r with
          | none => rw [he] at ht; cases ht
          | some q =>
            rw [he] at ht
            have hq := ih _ _ (by omega) he
            simp only [Option.map_some, Option.some.injEq, hx] at ht
            rw [← ht, hq, hc]
            rfl
        · cases he : expand n r with
          | none => rw [he] at ht; cases ht
          | some q =>
            rw [he] at ht
            have hq := ih _ _ (by omega) he
            simp only [Option.map_some, Option.some.injEq] at ht
            rw [← ht, hq]

theorem expand_short (n : Node) : ∀ (k : Nat) (code : List Char), code.length ≤ k →
    (∀ pre v post, code = pre ++ '{' :: (v ++ '}' :: post) → '}' ∉ v → v.length < 64) →
    ∃ t, expand n code = some t := by
  intro k
  induction k with
  | zero =>
    intro code hl _
    have : code = [] := List.eq_nil_of_length_eq_zero (by omega)
    subst this
    exact ⟨[], by rw [expand]⟩
  | succ k ih =>
    intro code hl hs
    cases code with
    | nil => exact ⟨[], by rw [expand]⟩
    | cons c r =>
      simp only [List.length_cons] at hl
      have hr := ih r (by omega) (fun pre v post h => hs (c :: pre) v post (by rw [h]; rfl))
      rw [expand.eq_2]
      split
      · next hc =>
        split
        · next hm =>
          obtain ⟨a, b, hab, hna⟩ := List.eq_append_cons_of_mem hm
          have ha := hs [] a b (by rw [hab, hc]; rfl) hna
          have ht : r.takeWhile (· ≠ '}') = a := by rw [hab]; exact takeWhile_name a b hna
          rw [ht, if_neg (by omega)]
          have hd : r.drop (a.length + 1) = b := by rw [hab]; simp
          rw [hd]
          obtain ⟨t, ht⟩ := ih b (by rw [hab] at hl; simp at hl; omega) (fun pre v post h =>
            hs (c :: (a ++ '}' :: pre)) v post (by rw [hab, h]; simp))
          rw [ht]
          exact ⟨_, rfl⟩
        · obtain ⟨t, ht⟩ := hr
          rw [ht]; exact ⟨_, rfl⟩
      · obtain ⟨t, ht⟩ := hr
        split <;> (rw [ht]; exact ⟨_, rfl⟩)

/-! ## The room for the template -/

theorem decimal_short (i : Nat) (h : i < 100) : (decimal i).length ≤ 2 := by
  rw [decimal]
  split
  · simp
  · rw [decimal, if_pos (by omega)]; simp

theorem findIdx?_lt {α : Type} (p : α → Bool) (l : List α) (i : Nat) (h : l.findIdx? p = some i) :
    i < l.length := by
  rw [List.findIdx?_eq_some_iff_findIdx_eq] at h
  exact h.1

theorem expand_room (n : Node) (h : n.outs.length + n.ins.length ≤ 100)
    (hn : ∀ v ∈ n.outs.map (·.2) ++ n.ins, v ≠ []) :
    ∀ (k : Nat) (code t : List Char), code.length ≤ k → expand n code = some t →
      t.length ≤ 2 * code.length := by
  intro k
  induction k with
  | zero =>
    intro code t hl ht
    have : code = [] := List.eq_nil_of_length_eq_zero (by omega)
    subst this
    rw [expand] at ht
    cases ht; simp
  | succ k ih =>
    intro code t hl ht
    cases code with
    | nil => rw [expand] at ht; cases ht; simp
    | cons c r =>
      simp only [List.length_cons] at hl
      rw [expand.eq_2] at ht
      split at ht
      · next hc =>
        split at ht
        · next hm =>
          obtain ⟨a, b, hab, hna⟩ := List.eq_append_cons_of_mem hm
          have hta : r.takeWhile (· ≠ '}') = a := by rw [hab]; exact takeWhile_name a b hna
          have hd : r.drop (a.length + 1) = b := by rw [hab]; simp
          have hlr : r.length = a.length + 1 + b.length := by rw [hab]; simp; omega
          rw [hta, hd] at ht
          split at ht
          · cases ht
          · cases he : expand n b with
            | none => rw [he] at ht; cases ht
            | some q =>
              rw [he] at ht
              have hq := ih _ _ (by omega) he
              simp only [Option.map_some, Option.some.injEq] at ht
              rw [← ht]
              cases hi : index n a with
              | none => simp [hlr]; omega
              | some i =>
                rw [index_eq] at hi
                have hlt := findIdx?_lt _ _ _ hi
                simp at hlt
                have := decimal_short i (by omega)
                have hane : a ≠ [] := by
                  rw [List.findIdx?_eq_some_iff_getElem] at hi
                  obtain ⟨hl, hp, _⟩ := hi
                  have hp : (n.outs.map (·.2) ++ n.ins)[i] = a := by simpa using hp
                  exact hn a (by rw [← hp]; exact List.getElem_mem hl)
                have : 0 < a.length := List.length_pos_iff.mpr hane
                simp [hlr]; omega
        · cases he : expand n r with
          | none => rw [he] at ht; cases ht
          | some q =>
            rw [he] at ht
            have hq := ih _ _ (by omega) he
            simp only [Option.map_some, Option.some.injEq] at ht
            rw [← ht]; simp; omega
      · split at ht
        · cases he : expand n r with
          | none => rw [he] at ht; cases ht
          | some q =>
            rw [he] at ht
            have hq := ih _ _ (by omega) he
            simp only [Option.map_some, Option.some.injEq] at ht
            rw [← ht]; split <;> simp <;> omega
        · cases he : expand n r with
          | none => rw [he] at ht; cases ht
          | some q =>
            rw [he] at ht
            have hq := ih _ _ (by omega) he
            simp only [Option.map_some, Option.some.injEq] at ht
            rw [← ht]; simp; omega

/-! ## Bare instructions -/

theorem lastChar_append (p s : List Char) (c : Char) (h : s.getLast? = some c) (hc : c ≠ ' ') :
    lastChar (p ++ s) = c := by
  have : (p ++ s).getLast? = some c := by
    rw [List.getLast?_append, h]; rfl
  simp [lastChar, this, hc]

theorem addArg_cases (code s : List Char) (c : Char) (h : code.getLast? = some c) :
    ((c = '%' ∨ c = '$') ∧ addArg code s = code ++ s) ∨ addArg code s = code ++ ' ' :: s := by
  by_cases h1 : c = '%'
  · subst h1; exact .inl ⟨.inl rfl, by simp [addArg, h]⟩
  · by_cases h2 : c = '$'
    · subst h2; exact .inl ⟨.inr rfl, by simp [addArg, h]⟩
    · right
      unfold addArg
      rw [h]
      split
      · next e => simp at e; exact absurd e h1
      · next e => simp at e; exact absurd e h2
      · rfl
      · next e => cases e

theorem body_arg (code : List Char) (c : Char) (t : Tok) (r : List Tok)
    (hc : lastChar code = c)
    (h1 : t.kind ≠ .semi) (h2 : t.kind ≠ .lbrace) (h3 : t.kind ≠ .rbrace) (h4 : t.kind ≠ .colon)
    (h5 : t.kind = .ident → c = '%' ∨ c = '$' ∨ c = ',') :
    body .args code (t :: r) = body .args (addArg code t.text) r := by
  rw [body]
  cases hk : t.kind <;> simp_all
  rcases h5 with h | h | h <;> simp [h]

theorem body_args (args : List Tok) : ∀ (pre s prev : List Char) (ts : List (List Char)) (rest),
    Spaced ts s → prev ≠ [] → s.getLast? = prev.getLast? → prev.getLast? ≠ some ' ' →
    ArgToks prev args →
    ∃ s', Spaced (ts ++ args.map (·.text)) s' ∧
      s'.getLast? = ((args.getLast?.map (·.text)).getD prev).getLast? ∧
      s'.getLast? ≠ some ' ' ∧ s' ≠ [] ∧
      body .args (pre ++ s) (args ++ rest) = body .args (pre ++ s') rest := by
  induction args with
  | nil =>
    intro pre s prev ts rest hs hp hl hb _
    refine ⟨s, by simpa using hs, hl, by rw [hl]; exact hb, ?_, rfl⟩
    intro e; rw [e] at hl
    exact hp (List.getLast?_eq_none_iff.mp hl.symm)
  | cons t args ih =>
    intro pre s prev ts rest hs hp hl hb ha
    obtain ⟨a1, a2, a3, a4, a5, a6, a7, a8⟩ := ha
    obtain ⟨c, hc⟩ : ∃ c, prev.getLast? = some c := by
      cases h : prev.getLast? with
      | none => exact absurd (List.getLast?_eq_none_iff.mp h) hp
      | some c => exact ⟨c, rfl⟩
    have hcb : c ≠ ' ' := by intro e; rw [hc, e] at hb; exact hb rfl
    have hlc := lastChar_append pre s c (by rw [hl]; exact hc) hcb
    rw [List.cons_append, body_arg (pre ++ s) c t _ hlc a3 a4 a5 a6 (by
      intro hk
      rcases a7 hk with h | h | h <;> rw [hc] at h <;> cases h <;> simp)]
    have hgl : (pre ++ s).getLast? = some c := by
      rw [List.getLast?_append, hl, hc]; rfl
    have key : ∃ s1, Spaced (ts ++ [t.text]) s1 ∧ s1.getLast? = t.text.getLast? ∧
        addArg (pre ++ s) t.text = pre ++ s1 := by
      have htl : ∀ q : List Char, (q ++ t.text).getLast? = t.text.getLast? := by
        intro q
        rw [List.getLast?_append]
        cases h : t.text.getLast? with
        | none => exact absurd (List.getLast?_eq_none_iff.mp h) a1
        | some x => rfl
      rcases addArg_cases (pre ++ s) t.text c hgl with ⟨h1, h2⟩ | h2
      · refine ⟨s ++ t.text, .tight _ _ _ hs ?_, htl _, by rw [h2, List.append_assoc]⟩
        rw [hl, hc]
        rcases h1 with h1 | h1 <;> simp [h1]
      · refine ⟨s ++ ' ' :: t.text, .blank _ _ _ hs, ?_, by rw [h2, List.append_assoc]⟩
        have := htl (s ++ [' '])
        simpa using this
    obtain ⟨s1, k1, k2, k3⟩ := key
    rw [k3]
    obtain ⟨s', j1, j2, j3, j4, j5⟩ := ih pre s1 t.text (ts ++ [t.text]) rest k1 a1 k2 a2 a8
    refine ⟨s', by simpa using j1, ?_, j3, j4, j5⟩
    rw [j2]
    cases args with
    | nil => simp
    | cons u us => simp [List.getLast?_cons_cons]; cases h : (u :: us).getLast? with
      | none => simp at h
      | some x => rfl

/-- What a new line is appended to. -/
def lineStart (code : List Char) : List Char := if code = [] then [] else code ++ ['\n']

theorem addLine_start (code s : List Char) : addLine code s = lineStart code ++ s := by
  unfold addLine lineStart; split <;> simp

theorem body_next (code : List Char) (is : List (Instr × Bool)) (ts : List Tok) (hts : Ends ts)
    (hc : lastChar code ≠ '%' ∧ lastChar code ≠ '$' ∧ lastChar code ≠ ',') :
    body .args code (instrToks is ++ ts) = body .top code (instrToks is ++ ts) := by
  cases is with
  | nil => exact (body_end_args hts code).trans (body_end hts code).symm
  | cons p is =>
    obtain ⟨i, semi⟩ := p
    simp only [instrToks, List.cons_append]
    rw [body, body]
    simp [hc]

theorem body_instrs (is : List (Instr × Bool)) (ts : List Tok) (hts : Ends ts)
    (h : ∀ p ∈ is, p.1.Ok ∧ (p.2 = false → p.1.Closed)) (code : List Char) :
    ∃ ls, Lines is ls ∧ (∀ l ∈ ls, l ≠ []) ∧
      body .top code (instrToks is ++ ts) = .ok (ls.foldl addLine code, ts) := by
  induction is generalizing code with
  | nil => exact ⟨[], .nil, by simp, body_end hts code⟩
  | cons p is ih =>
    obtain ⟨i, semi⟩ := p
    obtain ⟨⟨k1, k2, k3⟩, hcl⟩ := h (i, semi) (by simp)
    simp only at k1 k2 k3 hcl
    obtain ⟨s', j1, j2, j3, j4, j5⟩ := body_args i.args (lineStart code) i.name i.name [i.name]
      ((if semi then [⟨.semi, [';']⟩] else []) ++ (instrToks is ++ ts)) (.one _) k1 rfl k2 k3
    obtain ⟨ls, l1, l2, l3⟩ := ih (fun p hp => h p (by simp [hp])) (addLine code s')
    refine ⟨s' :: ls, .cons i semi s' (by simpa using j1) l1, ?_, ?_⟩
    · intro l hl
      rcases List.mem_cons.mp hl with rfl | hl
      · exact j4
      · exact l2 l hl
    · rw [List.foldl_cons, ← l3]
      simp only [instrToks, List.cons_append, List.append_assoc]
      rw [body]
      simp only
      rw [addLine_start, j5, ← addLine_start]
      cases semi with
      | true =>
        simp only [if_true, List.cons_append, List.nil_append]
        rw [body]
      | false =>
        simp only [Bool.false_eq_true, if_false, List.nil_append]
        apply body_next _ _ _ hts
        have hcl := hcl rfl
        unfold Instr.Closed opens at hcl
        rw [← j2] at hcl
        obtain ⟨c, hc⟩ : ∃ c, s'.getLast? = some c := by
          cases hh : s'.getLast? with
          | none => exact absurd (List.getLast?_eq_none_iff.mp hh) j4
          | some c => exact ⟨c, rfl⟩
        have hcb : c ≠ ' ' := by intro e; rw [hc, e] at j3; exact j3 rfl
        rw [addLine_start, lastChar_append _ s' c hc hcb]
        rw [hc] at hcl
        refine ⟨?_, ?_, ?_⟩ <;> (intro e; subst e; simp at hcl)

end Verif.Asm
