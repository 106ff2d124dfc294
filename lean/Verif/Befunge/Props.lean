import Verif.Befunge.Model

/-!
# The Befunge plugin: properties
-/

namespace Verif.Befunge

open Spec (St Conf Tame)

/-! ## The grid -/

theorem lines_ne (cs : List Char) : Spec.lines cs ≠ [] := by
  cases cs with
  | nil => simp [Spec.lines]
  | cons c cs =>
      rw [Spec.lines]
      split
      · simp
      · split <;> simp

theorem field_newline (cs : List Char) (i j : Nat) :
    Spec.field ('\n' :: cs) i j = if i = 0 then ' ' else Spec.field cs (i - 1) j := by
  cases i with
  | zero => simp [Spec.field, Spec.lines]
  | succ i => simp [Spec.field, Spec.lines]

theorem field_char (c : Char) (cs : List Char) (h : c ≠ '\n') (i j : Nat) :
    Spec.field (c :: cs) i j =
      if i = 0 then (if j = 0 then c else Spec.field cs 0 (j - 1)) else Spec.field cs i j := by
  have hl : Spec.lines (c :: cs) = (c :: (Spec.lines cs).headD []) :: (Spec.lines cs).tail := by
    rw [Spec.lines, if_neg h]
    cases e : Spec.lines cs with
    | nil => exact absurd e (lines_ne cs)
    | cons l ls => rfl
  unfold Spec.field
  rw [hl]
  cases e : Spec.lines cs with
  | nil => exact absurd e (lines_ne cs)
  | cons l ls =>
      cases i with
      | zero =>
          cases j with
          | zero => simp
          | succ j => simp
      | succ i => simp

/-- the cells written by the rest of the text, all others keep what they have -/
theorem load_cell (cs : List Char) (row col : Nat) (g : Grid) (i j : Nat) (hr : row < 25) (hi : i < 25)
    (hj : j < 80) (hfree : ∀ i j, (row < i ∨ (i = row ∧ col ≤ j)) → g i j = ' ') :
    load cs row col g i j =
      if row < i then Spec.field cs (i - row) j
      else if i = row ∧ col ≤ j then Spec.field cs 0 (j - col)
      else g i j := by
  induction cs generalizing row col g with
  | nil =>
      have hf : ∀ a b, Spec.field [] a b = ' ' := by
        intro a b
        cases a <;> simp [Spec.field, Spec.lines]
      simp only [load, hf]
      split
      · exact hfree i j (Or.inl (by assumption))
      · split
        · exact hfree i j (Or.inr (by assumption))
        · rfl
  | cons c cs ih =>
      rw [load]
      by_cases hc : c = '\n'
      · subst hc
        rw [if_pos rfl]
        simp only [field_newline]
        by_cases h25 : row + 1 ≥ 25
        · rw [if_pos h25, if_neg (by omega)]
          split
          · rename_i h
            simp only [if_true]
            exact hfree i j (Or.inr h)
          · rfl
        · rw [if_neg h25, ih (row + 1) 0 g (by omega) (fun i j h => hfree i j (by omega))]
          by_cases h1 : row < i
          · rw [if_pos h1, if_neg (by omega : i - row ≠ 0)]
            by_cases h2 : row + 1 < i
            · rw [if_pos h2, Nat.sub_sub]
            · rw [if_neg h2, if_pos ⟨by omega, Nat.zero_le j⟩]
              have : i - row - 1 = 0 := by omega
              rw [this, Nat.sub_zero]
          · rw [if_neg h1, if_neg (by omega), if_neg (by omega)]
            split
            · rename_i h
              simp only [if_true]
              exact hfree i j (Or.inr h)
            · rfl
      · rw [if_neg hc]
        simp only [field_char c cs hc]
        by_cases h80 : col < 80
        · rw [if_pos h80, ih row (col + 1) (g.set row col c) hr (by
            intro a b hab
            unfold Grid.set
            rw [if_neg (by omega)]
            exact hfree a b (by omega))]
          by_cases h1 : row < i
          · rw [if_pos h1, if_pos h1, if_neg (by omega : i - row ≠ 0)]
          · rw [if_neg h1, if_neg h1]
            by_cases h2 : i = row ∧ col ≤ j
            · rw [if_pos h2]
              by_cases h3 : j = col
              · rw [if_neg (by omega)]
                unfold Grid.set
                rw [if_pos ⟨h2.1, h3⟩]
                simp [h3]
              · rw [if_pos ⟨h2.1, by omega⟩]
                simp only [if_true]
                rw [if_neg (by omega), Nat.sub_sub]
            · rw [if_neg h2, if_neg (by omega)]
              unfold Grid.set
              rw [if_neg (by omega)]
        · rw [if_neg h80, ih row col g hr hfree]
          by_cases h1 : row < i
          · rw [if_pos h1, if_pos h1, if_neg (by omega : i - row ≠ 0)]
          · rw [if_neg h1, if_neg h1, if_neg (by omega), if_neg (by omega)]

/-- The program starts with the first character that ends no line. -/
theorem skipNl_drop (body : List Char) :
    skipNl body = body.dropWhile fun c => c == '\n' || c == '\r' := by
  induction body with
  | nil => rfl
  | cons c cs ih =>
      unfold skipNl
      by_cases h : c = '\n' ∨ c = '\r'
      · rw [if_pos h, ih, List.dropWhile_cons, if_pos (by simpa using h)]
      · rw [if_neg h, List.dropWhile_cons, if_neg (by simpa using h)]

/-- **C99.** The plugin reads the rows and columns of its text: every cell of the 80 by 25 playfield
has the character that stands there, apart from empty lines in front. -/
theorem grid_field (body : List Char) (i j : Nat) (hi : i < 25) (hj : j < 80) :
    gridOf body i j = Spec.field (skipNl body) i j := by
  unfold gridOf
  rw [load_cell _ 0 0 _ i j (by omega) hi hj (fun _ _ _ => rfl)]
  split
  · rw [Nat.sub_zero]
  · rw [if_pos ⟨by omega, Nat.zero_le j⟩, Nat.sub_zero]
    have : i = 0 := by omega
    rw [this]

/-! ## Steps -/

/-- the variables of the block for a state of Befunge -/
def view (s : St) : CSt :=
  { stack := s.stack, x := s.x, y := s.y, dx := s.dx, dy := s.dy, str := s.str, out := s.out }

/-- the same for running or ended programs -/
def cview : Conf → CConf
  | .run s => .run (view s)
  | .done o => .done o

/-- positions and directions that occur -/
structure Inv (g : Grid) (s : St) : Prop where
  x0 : 0 ≤ s.x
  x1 : s.x < 80
  y0 : 0 ≤ s.y
  y1 : s.y < 25
  dx0 : -1 ≤ s.dx
  dx1 : s.dx ≤ 1
  dy0 : -1 ≤ s.dy
  dy1 : s.dy ≤ 1
  grid : ∀ i j, i < 25 → j < 80 → s.grid i j = g i j

theorem wrap_mod (n x d : Int) (hn : 2 ≤ n) (h0 : 0 ≤ x) (h1 : x < n) (d0 : -1 ≤ d) (d1 : d ≤ 1) :
    wrap n (x + d) = (x + d) % n := by
  unfold wrap
  split
  · have : x + d = n := by omega
    rw [this, Int.emod_self]
  · split
    · have : x + d = -1 := by omega
      rw [this]
      have : (-1 : Int) % n = (-1 + n) % n := by rw [Int.add_emod_right]
      rw [this, Int.emod_eq_of_lt (by omega) (by omega)]
      omega
    · rw [Int.emod_eq_of_lt (by omega) (by omega)]

theorem move_view {g : Grid} {s : St} (h : Inv g s) : (view s).move = view s.advance := by
  simp only [CSt.move, view, St.advance]
  rw [wrap_mod 80 s.x s.dx (by omega) h.x0 h.x1 h.dx0 h.dx1,
    wrap_mod 25 s.y s.dy (by omega) h.y0 h.y1 h.dy0 h.dy1]

theorem inv_advance {g : Grid} {s : St} (h : Inv g s) : Inv g s.advance :=
  { x0 := Int.emod_nonneg _ (by omega), x1 := Int.emod_lt_of_pos _ (by omega)
    y0 := Int.emod_nonneg _ (by omega), y1 := Int.emod_lt_of_pos _ (by omega)
    dx0 := h.dx0, dx1 := h.dx1, dy0 := h.dy0, dy1 := h.dy1, grid := h.grid }

/-- the state with another stack, output and string mode -/
theorem Inv.same {g : Grid} {s t : St} (h : Inv g s) (hx : t.x = s.x) (hy : t.y = s.y) (hdx : t.dx = s.dx)
    (hdy : t.dy = s.dy) (hg : t.grid = s.grid) : Inv g t :=
  { x0 := hx ▸ h.x0, x1 := hx ▸ h.x1, y0 := hy ▸ h.y0, y1 := hy ▸ h.y1, dx0 := hdx ▸ h.dx0
    dx1 := hdx ▸ h.dx1, dy0 := hdy ▸ h.dy0, dy1 := hdy ▸ h.dy1, grid := hg ▸ h.grid }

/-- the state with another direction -/
theorem Inv.dir {g : Grid} {s t : St} (h : Inv g s) (hx : t.x = s.x) (hy : t.y = s.y)
    (hdx : -1 ≤ t.dx ∧ t.dx ≤ 1) (hdy : -1 ≤ t.dy ∧ t.dy ≤ 1) (hg : t.grid = s.grid) : Inv g t :=
  { x0 := hx ▸ h.x0, x1 := hx ▸ h.x1, y0 := hy ▸ h.y0, y1 := hy ▸ h.y1, dx0 := hdx.1
    dx1 := hdx.2, dy0 := hdy.1, dy1 := hdy.2, grid := hg ▸ h.grid }

theorem long_ok {v : Int} (h : Spec.Fits v) : long v = .ok v := by
  unfold long
  unfold Spec.Fits at h
  rw [if_pos h]

theorem push_ok {s : CSt} {v : Int} (h : s.stack.length < 1024) :
    s.push v = .ok { s with stack := v :: s.stack } := by
  unfold CSt.push
  rw [if_pos h]

/-- outside string mode, an instruction other than `#` leads to the same state as its C statement -/
theorem exec_instr {s t : St} {g : Grid} (hi : Inv g s) (hs : s.str = false) (ht : Tame s)
    (hn : s.cur ≠ '#') (ha : s.cur ≠ '@') (hsp : s.cur ≠ ' ') (h : Spec.instr s s.cur = some t) :
    exec (view s) (emitOp s.cur) = .ok (some (view t)) ∧ Inv g t := by
  unfold Tame at ht
  rw [hs, if_neg (by decide)] at ht
  generalize s.cur = c at *
  unfold Spec.instr at h
  obtain ⟨grid, stack, x, y, dx, dy, str, out⟩ := s
  simp only at hs ht hi
  subst hs
  split at h
  · rename_i hd
    cases h
    refine ⟨?_, hi.same rfl rfl rfl rfl rfl⟩
    have hlen := ht.1 hd
    simp [emitOp, hd, exec, CSt.push, view, hlen, St.push, Res.bind]
  · rename_i hd
    split at h
    · cases h
      exact ⟨rfl, hi.same rfl rfl rfl rfl rfl⟩
    · cases h
      exact ⟨rfl, hi.dir rfl rfl (by simp) (by simp) rfl⟩
    · cases h
      exact ⟨rfl, hi.dir rfl rfl (by simp) (by simp) rfl⟩
    · cases h
      exact ⟨rfl, hi.dir rfl rfl (by simp) (by simp) rfl⟩
    · cases h
      exact ⟨rfl, hi.dir rfl rfl (by simp) (by simp) rfl⟩
    · cases h
      rcases stack with _ | ⟨a, _ | ⟨b, st⟩⟩
      · simp at ht
      · simp at ht
      · have hf : Spec.Fits (b + a) := ht.2.2.2.2.1 rfl
        refine ⟨?_, hi.same rfl rfl rfl rfl rfl⟩
        show (((long (b + a)).bind _).bind _ : Res (Option CSt)) = _
        rw [long_ok hf]
        rfl
    · cases h
      rcases stack with _ | ⟨a, _ | ⟨b, st⟩⟩
      · simp at ht
      · simp at ht
      · have hf : Spec.Fits (b - a) := ht.2.2.2.2.2.1 rfl
        refine ⟨?_, hi.same rfl rfl rfl rfl rfl⟩
        show (((long (b - a)).bind _).bind _ : Res (Option CSt)) = _
        rw [long_ok hf]
        rfl
    · cases h
      rcases stack with _ | ⟨a, _ | ⟨b, st⟩⟩
      · simp at ht
      · simp at ht
      · have hf : Spec.Fits (b * a) := ht.2.2.2.2.2.2.1 rfl
        refine ⟨?_, hi.same rfl rfl rfl rfl rfl⟩
        show (((long (b * a)).bind _).bind _ : Res (Option CSt)) = _
        rw [long_ok hf]
        rfl
    · rcases stack with _ | ⟨a, _ | ⟨b, st⟩⟩
      · simp at ht
      · simp at ht
      · split at h
        · cases h
        · rename_i ha0
          cases h
          have ha0' : a ≠ 0 := ha0
          have hf : Spec.Fits (b.tdiv a) := ht.2.2.2.2.2.2.2.1 (by simp)
          refine ⟨?_, hi.same rfl rfl rfl rfl rfl⟩
          show (((if a ≠ 0 then long (b.tdiv a) else Res.ok 0).bind _).bind _ : Res (Option CSt)) = _
          rw [if_pos ha0', long_ok hf]
          rfl
    · rcases stack with _ | ⟨a, _ | ⟨b, st⟩⟩
      · simp at ht
      · simp at ht
      · split at h
        · cases h
        · rename_i ha0
          cases h
          have ha0' : a ≠ 0 := ha0
          have hf : Spec.Fits (b.tdiv a) := ht.2.2.2.2.2.2.2.1 (by simp)
          refine ⟨?_, hi.same rfl rfl rfl rfl rfl⟩
          show (((if a ≠ 0 then (long (b.tdiv a)).bind (fun _ => Res.ok (b.tmod a)) else Res.ok 0).bind _).bind _ :
            Res (Option CSt)) = _
          rw [if_pos ha0', long_ok hf]
          rfl
    · cases h
      rcases stack with _ | ⟨a, st⟩
      · simp at ht
      · exact ⟨rfl, hi.same rfl rfl rfl rfl rfl⟩
    · cases h
      rcases stack with _ | ⟨a, _ | ⟨b, st⟩⟩
      · simp at ht
      · simp at ht
      · exact ⟨rfl, hi.same rfl rfl rfl rfl rfl⟩
    · cases h
      rcases stack with _ | ⟨a, st⟩
      · simp at ht
      · have hl := ht.2.2.2.1 rfl
        refine ⟨?_, hi.same rfl rfl rfl rfl rfl⟩
        show (CSt.push _ a).bind _ = _
        rw [push_ok (by exact hl)]
        rfl
    · cases h
      rcases stack with _ | ⟨a, _ | ⟨b, st⟩⟩
      · simp at ht
      · simp at ht
      · exact ⟨rfl, hi.same rfl rfl rfl rfl rfl⟩
    · cases h
      refine ⟨?_, hi.same rfl rfl rfl rfl rfl⟩
      cases stack <;> rfl
    · cases h
      rcases stack with _ | ⟨a, st⟩
      · simp at ht
      · refine ⟨?_, hi.same rfl rfl rfl rfl rfl⟩
        show Res.ok (some _) = Res.ok (some _)
        simp [view, number, Spec.pop]
    · cases h
      rcases stack with _ | ⟨a, st⟩
      · simp at ht
      · exact ⟨rfl, hi.same rfl rfl rfl rfl rfl⟩
    · cases h
      rcases stack with _ | ⟨a, st⟩
      · simp at ht
      · refine ⟨?_, hi.dir rfl rfl (by simp only; split <;> simp) (by simp) rfl⟩
        show Res.ok (some _) = Res.ok (some _)
        simp only [view, Spec.pop]
        by_cases h0 : a = 0 <;> simp [h0]
    · cases h
      rcases stack with _ | ⟨a, st⟩
      · simp at ht
      · refine ⟨?_, hi.dir rfl rfl (by simp) (by simp only; split <;> simp) rfl⟩
        show Res.ok (some _) = Res.ok (some _)
        simp only [view, Spec.pop]
        by_cases h0 : a = 0 <;> simp [h0]
    · exact absurd rfl hn
    · simp at ht
    · simp at ht
    · cases h
    · cases h
    · cases h
    · cases h
      refine ⟨?_, hi⟩
      rename_i h1 h2 h3 h4 h5 h6 h7 h8 h9 h10 h11 h12 h13 h14 h15 h16 h17 h18 h19 h20 h21 h22 h23 h24 h25
      have he : emitOp c = .strChar c := by
        unfold emitOp
        rw [if_neg hd, if_neg h1, if_neg h2, if_neg h3, if_neg h4, if_neg h5, if_neg h6, if_neg h7,
          if_neg h8, if_neg h9, if_neg h10, if_neg h11, if_neg h12, if_neg h13, if_neg h14, if_neg h15,
          if_neg h16, if_neg h17, if_neg h18, if_neg h19, if_neg ha, if_neg hn]
      rw [he]
      rfl

theorem ops_emit {c : Char} (hq : c ≠ '"') (h : c ∉ Spec.ops) :
    emitOp c = (if '0' ≤ c ∧ c ≤ '9' then .digit c else .strChar c) := by
  simp only [Spec.ops, List.mem_cons, List.not_mem_nil, or_false, not_or] at h
  unfold emitOp
  simp [h, hq]

/-- one cell -/
theorem step_sim {s : St} {g : Grid} {c : Conf} (hi : Inv g s) (ht : Tame s) (h : Spec.step s = some c) :
    cstep g (view s) = .ok (cview c) ∧ ∀ t, c = .run t → Inv g t := by
  have hcur : s.cur = g s.y.toNat s.x.toNat :=
    hi.grid _ _ (by have := hi.y0; have := hi.y1; omega) (by have := hi.x0; have := hi.x1; omega)
  unfold cstep
  rw [if_pos (show 0 ≤ (view s).x ∧ (view s).x < 80 ∧ 0 ≤ (view s).y ∧ (view s).y < 25 from
    ⟨hi.x0, hi.x1, hi.y0, hi.y1⟩)]
  have hcc : cellCode g (view s).y.toNat (view s).x.toNat =
      if s.cur = ' ' then none else some (emitOp s.cur) := by
    rw [hcur]
    rfl
  rw [hcc]
  unfold Spec.step at h
  by_cases hstr : s.str = true
  · rw [if_pos hstr] at h
    unfold Tame at ht
    rw [if_pos hstr] at ht
    by_cases hq : s.cur = '"'
    · rw [if_pos hq] at h
      cases h
      have hi' : Inv g { s with str := false } := hi.same rfl rfl rfl rfl rfl
      refine ⟨?_, fun t e => by cases e; exact inv_advance hi'⟩
      rw [if_neg (by rw [hq]; decide), hq]
      show Res.ok (CConf.run _) = Res.ok (CConf.run _)
      rw [← move_view hi']
      simp [view, hstr]
    · rw [if_neg hq] at h
      cases h
      rcases ht with ht | ⟨hno, hlen⟩
      · exact absurd ht hq
      have hi' : Inv g (s.push s.cur.toNat) := hi.same rfl rfl rfl rfl rfl
      refine ⟨?_, fun t e => by cases e; exact inv_advance hi'⟩
      rw [if_neg (by intro e; rw [e] at hno; exact hno (by decide)), ops_emit hq hno]
      have hp : (view s).push (s.cur.toNat : Int) = .ok (view (s.push s.cur.toNat)) := by
        unfold CSt.push
        rw [if_pos (show (view s).stack.length < 1024 from hlen)]
        rfl
      have hx : exec (view s) (if '0' ≤ s.cur ∧ s.cur ≤ '9' then .digit s.cur else .strChar s.cur)
          = .ok (some (view (s.push s.cur.toNat))) := by
        have hv : (view s).str = true := hstr
        split
        · show ((view s).push (if (view s).str then _ else _)).bind _ = _
          rw [if_pos hv, hp]
          rfl
        · show (if (view s).str then ((view s).push _).bind _ else _) = _
          rw [if_pos hv, hp]
          rfl
      show (exec _ _).bind _ = _
      rw [hx]
      show Res.ok (CConf.run _) = Res.ok (CConf.run _)
      rw [← move_view hi']
  · rw [if_neg hstr] at h
    have hstr' : s.str = false := by simpa using hstr
    by_cases ha : s.cur = '@'
    · rw [if_pos ha] at h
      cases h
      refine ⟨?_, fun t e => by cases e⟩
      rw [if_neg (by rw [ha]; decide), ha]
      rfl
    · rw [if_neg ha] at h
      by_cases hsp : s.cur = ' '
      · rw [if_pos hsp]
        rw [hsp] at h
        have : Spec.instr s ' ' = some s := by
          simp [Spec.instr]
        rw [this] at h
        cases h
        refine ⟨?_, fun t e => by cases e; exact inv_advance hi⟩
        show Res.ok (CConf.run _) = Res.ok (CConf.run _)
        rw [move_view hi]
      · rw [if_neg hsp]
        by_cases hb : s.cur = '#'
        · rw [hb] at h ⊢
          have hin : s.Inner := by
            unfold Tame at ht
            rw [if_neg hstr] at ht
            exact ht.2.2.2.2.2.2.2.2.1 hb
          have : Spec.instr s '#' = some s.advance := by
            simp [Spec.instr]
          rw [this] at h
          cases h
          have hia := inv_advance hi
          refine ⟨?_, fun t e => by cases e; exact inv_advance hia⟩
          have hv : view s.advance = { view s with x := s.x + s.dx, y := s.y + s.dy } := by
            simp only [view, St.advance]
            rw [Int.emod_eq_of_lt hin.1 hin.2.1, Int.emod_eq_of_lt hin.2.2.1 hin.2.2.2]
          show Res.ok (CConf.run (CSt.move { view s with x := s.x + s.dx, y := s.y + s.dy })) = _
          rw [← hv, move_view hia]
          rfl
        · cases e : Spec.instr s s.cur with
          | none => rw [e] at h; cases h
          | some t =>
              rw [e] at h
              cases h
              obtain ⟨hx, hit⟩ := exec_instr hi hstr' ht hb ha hsp e
              refine ⟨?_, fun t e => by cases e; exact inv_advance hit⟩
              show (exec _ _).bind _ = _
              rw [hx]
              show Res.ok (CConf.run _) = Res.ok (CConf.run _)
              rw [move_view hit]

theorem run_sim (g : Grid) (n : Nat) (c c' : Conf) (hi : ∀ s, c = .run s → Inv g s)
    (ht : ∀ k s, k < n → Spec.run k c = some (.run s) → Tame s) (h : Spec.run n c = some c') :
    crun g n (cview c) = .ok (cview c') := by
  induction n generalizing c with
  | zero => cases h; rfl
  | succ n ih =>
      cases c with
      | done o => cases h; rfl
      | run s =>
          rw [Spec.run] at h
          cases e : Spec.step s with
          | none => rw [e] at h; cases h
          | some c1 =>
              rw [e] at h
              obtain ⟨h1, h2⟩ := step_sim (hi s rfl) (ht 0 s (by omega) rfl) e
              show (cstep g (view s)).bind (crun g n) = _
              rw [h1]
              exact ih c1 h2 (fun k t hk hr => ht (k + 1) t (by omega) (by
                rw [Spec.run, e]
                exact hr)) h

/-- **C99.** However many cells are executed, the compiled block is where Befunge-93 is - same stack,
position, direction, mode and output, or ended with the same output - as long as Befunge gives a meaning to
every step and the steps are tame: in string mode no instruction characters or blanks, no pop from an empty
stack, at most 1024 values, results that fit a `long`, no bridge over the edge, no `g` or `p`.

Partial: these restrictions are needed (the violations below), and `?`, `&`, `~` are left out. -/
theorem compiled_partial (body : List Char) (n : Nat) (c : Conf)
    (ht : ∀ k s, k < n → Spec.run k (Spec.start (Spec.field (skipNl body))) = some (.run s) → Tame s)
    (h : Spec.run n (Spec.start (Spec.field (skipNl body))) = some c) :
    compiled body n = .ok (cview c) := by
  have := run_sim (gridOf body) n (Spec.start (Spec.field (skipNl body))) c (by
    intro s e
    cases e
    exact
      { x0 := by simp, x1 := by simp, y0 := by simp, y1 := by simp
        dx0 := by simp, dx1 := by simp, dy0 := by simp, dy1 := by simp
        grid := fun i j hi hj => (grid_field body i j hi hj).symm }) ht h
  exact this

/-! ## A program that meets the conditions -/

instance (v : Int) : Decidable (Spec.Fits v) := by unfold Spec.Fits; infer_instance
instance (s : St) : Decidable s.Inner := by unfold St.Inner; infer_instance
instance (s : St) : Decidable (Tame s) := by unfold Tame; infer_instance

/-- every state of the first `n` is tame -/
def tameRun : Nat → Conf → Bool
  | 0, _ => true
  | _ + 1, .done _ => true
  | n + 1, .run s =>
      decide (Tame s) &&
        match Spec.step s with
        | none => true
        | some c => tameRun n c

theorem tameRun_tame (n : Nat) (c : Conf) (h : tameRun n c = true) :
    ∀ k s, k < n → Spec.run k c = some (.run s) → Tame s := by
  induction n generalizing c with
  | zero => intro k s hk; omega
  | succ n ih =>
      intro k s hk hr
      cases c with
      | done o =>
          cases k with
          | zero => cases hr
          | succ k => cases hr
      | run t =>
          simp only [tameRun, Bool.and_eq_true, decide_eq_true_eq] at h
          cases k with
          | zero => cases hr; exact h.1
          | succ k =>
              rw [Spec.run] at hr
              cases e : Spec.step t with
              | none => rw [e] at hr; cases hr
              | some c1 =>
                  rw [e] at hr h
                  exact ih c1 h.2 k s (by omega) hr

/-- what a Befunge program has written when it has ended within `n` cells -/
def Spec.written (n : Nat) (g : Grid) : Option (List Char) :=
  match Spec.run n (Spec.start g) with
  | some (.done o) => some o
  | _ => none

theorem written_done {n : Nat} {g : Grid} {o : List Char} (h : Spec.written n g = some o) :
    Spec.run n (Spec.start g) = some (.done o) := by
  unfold Spec.written at h
  split at h
  · cases h; assumption
  · cases h

/-- prints the letters on the stack up to a zero -/
def hello : List Char := "0\"olleH\">:#,_@".toList

/-- the conditions of `compiled_partial` hold for a whole run with string mode, a loop and a bridge -/
theorem hello_tame : tameRun 100 (Spec.start (Spec.field (skipNl hello))) = true := by decide +kernel

theorem hello_written : Spec.written 100 (Spec.field (skipNl hello)) = some "Hello".toList := by
  decide +kernel

theorem hello_compiled : compiled hello 100 = .ok (.done "Hello".toList) :=
  compiled_partial hello 100 _ (tameRun_tame _ _ hello_tame) (written_done hello_written)

/-! ## Violations -/

/-- the characters whose statement reads the stack without asking whether there is something on it -/
def popping : List Char := ['+', '-', '*', '/', '%', '!', '`', '.', ',', '_', '|']

/-- **Violated:** wherever the stack is empty, in string mode or not, an instruction that pops is undefined
behaviour in the compiled program; Befunge takes a zero. -/
theorem underflow_violated (g : Grid) (s : CSt) (hs : s.stack = []) (hx : 0 ≤ s.x ∧ s.x < 80)
    (hy : 0 ≤ s.y ∧ s.y < 25) (hc : g s.y.toNat s.x.toNat ∈ popping) : cstep g s = .ub := by
  unfold cstep
  rw [if_pos ⟨hx.1, hx.2, hy.1, hy.2⟩]
  unfold cellCode
  generalize g s.y.toNat s.x.toNat = c at *
  have hpop : s.pop = .ub := by unfold CSt.pop; rw [hs]
  have htop : ∀ f, s.onTop f = .ub := by intro f; unfold CSt.onTop; rw [hs]
  simp only [popping, List.mem_cons, List.not_mem_nil, or_false] at hc
  rcases hc with h | h | h | h | h | h | h | h | h | h | h <;> subst h <;>
    simp [emitOp, exec, hpop, htop, Res.bind]

/-- the usual way to print a text relies on it -/
theorem underflow_demo :
    Spec.written 100 (Spec.field "\"olleH\">:#,_@".toList) = some "Hello".toList ∧
    compiled "\"olleH\">:#,_@".toList 100 = .ub := by
  constructor <;> decide +kernel

/-- **Violated:** in string mode an instruction character is executed instead of pushed (here one that
turns), and a blank is dropped. -/
theorem string_violated (g : Grid) (s : CSt) (hx : 0 ≤ s.x ∧ s.x < 80) (hy : 0 ≤ s.y ∧ s.y < 25) :
    (g s.y.toNat s.x.toNat = ' ' → cstep g s = .ok (.run s.move)) ∧
    (g s.y.toNat s.x.toNat = 'v' → cstep g s = .ok (.run ({ s with dx := 0, dy := 1 } : CSt).move)) ∧
    (g s.y.toNat s.x.toNat = '@' → cstep g s = .ok (.done s.out)) := by
  refine ⟨fun h => ?_, fun h => ?_, fun h => ?_⟩ <;>
    · unfold cstep
      rw [if_pos ⟨hx.1, hx.2, hy.1, hy.2⟩]
      unfold cellCode
      rw [h]
      rfl

/-- words separated by a blank, and an address with an at sign -/
theorem string_demo :
    Spec.written 10 (Spec.field "\"a b\",,@".toList) = some "b ".toList ∧
    compiled "\"a b\",,@".toList 10 = .ok (.done "ba".toList) ∧
    Spec.written 10 (Spec.field "\"a@b\",,@".toList) = some "b@".toList ∧
    compiled "\"a@b\",,@".toList 10 = .ok (.done []) := by
  refine ⟨?_, ?_, ?_, ?_⟩ <;> decide +kernel

/-- a bridge heading left in the first column, with an end in the last -/
def edge : List Char := "# <".toList ++ List.replicate 73 ' ' ++ "@.1@".toList

/-- **Violated:** a bridge at the edge leads to the first cell behind it, not the second. -/
theorem bridge_violated :
    Spec.written 10 (Spec.field edge) = some "1 ".toList ∧ compiled edge 10 = .ok (.done []) := by
  constructor <;> decide +kernel

/-- **Violated:** `g` and `p` are ignored. -/
theorem getput_violated :
    Spec.written 10 (Spec.field "00g.@".toList) = some "48 ".toList ∧
    compiled "00g.@".toList 10 = .ok (.done "0 ".toList) ∧
    Spec.written 10 (Spec.field "1230p.@".toList) = some "1 ".toList ∧
    compiled "1230p.@".toList 10 = .ok (.done "0 ".toList) := by
  refine ⟨?_, ?_, ?_, ?_⟩ <;> decide +kernel

/-- **Violated:** with an apostrophe anywhere in the playfield the C compiler refuses the block. -/
theorem quote_violated (body : List Char) (i j : Nat) (hi : i < 25) (hj : j < 80)
    (h : Spec.field (skipNl body) i j = '\'') : ¬ compiles (gridOf body) := by
  intro hc
  have hg : gridOf body i j = '\'' := by rw [grid_field body i j hi hj, h]
  have := hc i j '\'' hi hj (by unfold cellCode; rw [hg]; rfl)
  exact this.2.2 rfl

theorem quote_demo : Spec.written 10 (Spec.field "\"'\",@".toList) = some "'".toList ∧
    ¬ compiles (gridOf "\"'\",@".toList) :=
  ⟨by decide +kernel, quote_violated _ 0 1 (by decide) (by decide) (by decide +kernel)⟩

/-- the block of `hello` is accepted -/
theorem hello_compiles : compiles (gridOf hello) := by
  intro r c ch hr hc h
  rw [cellCode, grid_field hello r c hr hc] at h
  have hl : Spec.lines (skipNl hello) = [skipNl hello] := by decide +kernel
  have hf : Spec.field (skipNl hello) r c ∈ ' ' :: skipNl hello := by
    unfold Spec.field
    rw [hl]
    cases r with
    | succ r => simp
    | zero =>
        simp only [List.getElem?_cons_zero, Option.getD_some]
        cases e : (skipNl hello)[c]? with
        | none => simp
        | some a => simp [List.mem_of_getElem? e]
  generalize Spec.field (skipNl hello) r c = a at *
  have hall : ∀ a ∈ ' ' :: skipNl hello, ∀ ch, (if a = ' ' then none else some (emitOp a)) = some (.strChar ch) →
      32 ≤ ch.toNat ∧ ch.toNat ≤ 126 ∧ ch ≠ '\'' := by
    intro a ha
    have : ' ' :: skipNl hello =
        [' ', '0', '"', 'o', 'l', 'l', 'e', 'H', '"', '>', ':', '#', ',', '_', '@'] := by decide +kernel
    rw [this] at ha
    simp only [List.mem_cons, List.not_mem_nil, or_false] at ha
    rcases ha with h | h | h | h | h | h | h | h | h | h | h | h | h | h | h <;> subst h <;>
      intro ch e <;> simp [emitOp] at e <;> subst e <;> decide
  exact hall a hf ch h

/-! ### More than 1024 values -/

theorem crun_add (g : Grid) (m n : Nat) (c : CConf) : crun g (m + n) c = (crun g m c).bind (crun g n) := by
  induction m generalizing c with
  | zero => rw [Nat.zero_add]; rfl
  | succ m ih =>
      rw [Nat.add_right_comm]
      cases c with
      | done o =>
          show Res.ok _ = crun g n (.done o)
          cases n <;> rfl
      | run s =>
          show (cstep g s).bind (crun g (m + n)) = ((cstep g s).bind (crun g m)).bind (crun g n)
          cases cstep g s with
          | ok c1 => exact ih c1
          | panic => rfl
          | ub => rfl

theorem crun_run (g : Grid) (n : Nat) (s : CSt) : crun g (n + 1) (.run s) = (cstep g s).bind (crun g n) := rfl

/-- pushes a value in every round -/
def pushing : Grid := gridOf ['1']

/-- at the start of a round -/
def round (l : List Int) (x : Int) : CConf :=
  .run { stack := l, x := x, y := 0, dx := 1, dy := 0, str := false, out := [] }

theorem pushing_blank (l : List Int) (x : Nat) (h0 : 0 < x) (h : x < 80) :
    cstep pushing { stack := l, x := x, y := 0, dx := 1, dy := 0, str := false, out := [] }
      = .ok (round l (if x = 79 then 0 else (x + 1 : Nat))) := by
  unfold cstep
  rw [if_pos (by simp; omega)]
  have : cellCode pushing (0 : Int).toNat ((x : Int)).toNat = none := by
    unfold cellCode pushing
    rw [grid_field _ _ _ (by decide) (by simp; omega)]
    have hs : skipNl ['1'] = ['1'] := by decide
    rw [hs, field_char '1' [] (by decide)]
    simp [Spec.field, Spec.lines]
    omega
  show (match cellCode pushing (0 : Int).toNat ((x : Int)).toNat with | none => _ | some c => _) = _
  rw [this]
  show Res.ok (CConf.run _) = Res.ok (CConf.run _)
  simp only [CSt.move, wrap]
  split <;> rename_i h1 <;> simp <;> omega

theorem pushing_blanks (l : List Int) (k x : Nat) (h0 : 0 < x) (h : x + k = 80) (hk : 0 < k) :
    crun pushing k (round l x) = .ok (round l 0) := by
  induction k generalizing x with
  | zero => omega
  | succ k ih =>
      show (cstep pushing _).bind (crun pushing k) = _
      rw [pushing_blank l x h0 (by omega)]
      by_cases hx : x = 79
      · rw [if_pos hx]
        have : k = 0 := by omega
        subst this
        rfl
      · rw [if_neg hx]
        exact ih (x + 1) (by omega) (by omega) (by omega)

theorem pushing_digit (l : List Int) :
    cstep pushing { stack := l, x := 0, y := 0, dx := 1, dy := 0, str := false, out := [] }
      = if l.length < 1024 then .ok (round (1 :: l) 1) else .ub := by
  have : cellCode pushing (0 : Int).toNat (0 : Int).toNat = some (.digit '1') := by decide +kernel
  unfold cstep
  rw [if_pos (by simp)]
  simp only [this]
  show ((CSt.push _ _).bind _).bind _ = _
  unfold CSt.push
  by_cases h : l.length < 1024
  · rw [if_pos h]
    simp only [if_pos h]
    rfl
  · rw [if_neg h]
    simp only [if_neg h]
    rfl

theorem pushing_round (l : List Int) (h : l.length < 1024) :
    crun pushing 80 (round l 0) = .ok (round (1 :: l) 0) := by
  rw [round, show (80 : Nat) = 79 + 1 from rfl, crun_run, pushing_digit, if_pos h]
  have hb := pushing_blanks (1 :: l) 79 1 (by omega) (by omega) (by omega)
  rw [show ((1 : Nat) : Int) = 1 from rfl] at hb
  simp only [Res.bind]
  exact hb

theorem pushing_rounds (k : Nat) (hk : k ≤ 1024) :
    crun pushing (80 * k) (round [] 0) = .ok (round (List.replicate k 1) 0) := by
  induction k with
  | zero => rfl
  | succ k ih =>
      rw [Nat.mul_succ, crun_add, ih (by omega)]
      show crun pushing 80 _ = _
      rw [pushing_round _ (by simp; omega)]
      rfl

/-- **Violated:** the program that is the digit 1 goes on for ever in Befunge; compiled it is undefined
behaviour in its 1025th round, as is any program that keeps more than 1024 values. -/
theorem overflow_violated (k : Nat) (hk : k = 1024) : compiled ['1'] (80 * k + 1) = .ub := by
  have h : compiled ['1'] (80 * k + 1) = crun pushing (80 * k + 1) (round [] 0) := rfl
  have hs : ∀ l : List Int, ¬ l.length < 1024 → crun pushing 1 (round l 0) = .ub := by
    intro l hl
    rw [round, show (1 : Nat) = 0 + 1 from rfl, crun_run, pushing_digit, if_neg hl]
    rfl
  rw [h, crun_add, pushing_rounds k (by omega)]
  exact hs _ (by rw [List.length_replicate, hk]; exact Nat.lt_irrefl _)

/-- Befunge gives a meaning to every step of it -/
theorem overflow_spec (n : Nat) : ∃ s, Spec.run n (Spec.start (Spec.field ['1'])) = some (.run s) := by
  have hstep : ∀ s : St, s.grid = Spec.field ['1'] → s.str = false →
      ∃ t, Spec.step s = some (.run t) ∧ t.grid = Spec.field ['1'] ∧ t.str = false := by
    intro s hg hs
    have hcur : s.cur = '1' ∨ s.cur = ' ' := by
      unfold St.cur
      rw [hg, field_char '1' [] (by decide)]
      simp only [Spec.field, Spec.lines]
      split
      · split
        · exact Or.inl rfl
        · simp
      · rename_i h
        cases e : s.y.toNat with
        | zero => exact absurd e h
        | succ k => simp
    unfold Spec.step
    rw [hs, if_neg (by decide)]
    rcases hcur with h | h <;> rw [h]
    · exact ⟨_, rfl, hg, hs⟩
    · exact ⟨_, rfl, hg, hs⟩
  have : ∀ n (s : St), s.grid = Spec.field ['1'] → s.str = false → ∃ t, Spec.run n (.run s) = some (.run t) := by
    intro n
    induction n with
    | zero => intro s _ _; exact ⟨s, rfl⟩
    | succ n ih =>
        intro s hg hs
        obtain ⟨t, h, hg', hs'⟩ := hstep s hg hs
        obtain ⟨u, hu⟩ := ih t hg' hs'
        refine ⟨u, ?_⟩
        rw [Spec.run, h]
        exact hu
  exact this n _ rfl rfl

/-! ### Labels -/

/-- **Violated:** two blocks in one function define the same labels (`space_handler`, `end_befunge`), which C
refuses. -/
theorem two_blocks_violated (g h : Grid) : ¬ (labels g ++ labels h).Nodup := by
  intro hn
  rw [List.nodup_append] at hn
  exact hn.2.2 .space (by simp [labels]) .space (by simp [labels]) rfl

/-- the labels of one block are distinct -/
theorem labels_nodup (g : Grid) : (labels g).Nodup := by
  have hrow : ∀ r (l : List Nat), l.Nodup →
      (l.filterMap fun c => if g r c = ' ' then none else some (Label.cell r c)).Nodup := by
    intro r l hl
    induction l with
    | nil => simp
    | cons c l ih =>
        rw [List.nodup_cons] at hl
        rw [List.filterMap_cons]
        split
        · exact ih hl.2
        · rename_i b hb
          split at hb
          · cases hb
          · cases hb
            rw [List.nodup_cons]
            refine ⟨?_, ih hl.2⟩
            intro hm
            rw [List.mem_filterMap] at hm
            obtain ⟨c', hc', e⟩ := hm
            split at e
            · cases e
            · cases e
              exact hl.1 hc'
  have hall : ∀ l : List Nat, l.Nodup →
      (l.flatMap fun r => (List.range 80).filterMap fun c =>
        if g r c = ' ' then none else some (Label.cell r c)).Nodup ∧
      ∀ x ∈ (l.flatMap fun r => (List.range 80).filterMap fun c =>
        if g r c = ' ' then none else some (Label.cell r c)), ∃ r ∈ l, ∃ c, x = .cell r c := by
    intro l hl
    have hmem : ∀ l : List Nat, ∀ x ∈ (l.flatMap fun r => (List.range 80).filterMap fun c =>
        if g r c = ' ' then none else some (Label.cell r c)), ∃ r ∈ l, ∃ c, x = .cell r c := by
      intro l x hx
      rw [List.mem_flatMap] at hx
      obtain ⟨r, hr, hx⟩ := hx
      rw [List.mem_filterMap] at hx
      obtain ⟨c, _, e⟩ := hx
      split at e
      · cases e
      · cases e; exact ⟨r, hr, c, rfl⟩
    refine ⟨?_, hmem l⟩
    induction l with
    | nil => simp
    | cons r l ih =>
        rw [List.nodup_cons] at hl
        rw [List.flatMap_cons, List.nodup_append]
        refine ⟨hrow r _ List.nodup_range, ih hl.2, ?_⟩
        intro x hx y hy e
        subst e
        rw [List.mem_filterMap] at hx
        obtain ⟨c, _, ex⟩ := hx
        obtain ⟨r', hr', c', ey⟩ := hmem l x hy
        split at ex
        · cases ex
        · subst ey
          cases ex
          exact hl.1 hr'
  obtain ⟨h1, h2⟩ := hall (List.range 25) List.nodup_range
  unfold labels
  rw [List.nodup_append]
  refine ⟨h1, by decide, ?_⟩
  intro x hx y hy e
  subst e
  obtain ⟨r, _, c, e⟩ := h2 x hx
  subst e
  simp at hy

/-! ### The layout -/

/-- the tokens of
```
1 v
  @
```
between the braces -/
def twoLines : List Brainfuck.Tok :=
  [⟨[49], true⟩, ⟨[118], false⟩, ⟨[64], true⟩]

/-- the text handed to the plugin -/
def handed (ts : List Brainfuck.Tok) : List Char :=
  (Brainfuck.collect [] ts).map fun b => Char.ofNat b.toNat

theorem handed_twoLines : handed twoLines = "\n1 v\n@".toList := by decide +kernel

/-- on the way down the third column -/
theorem layout_step (s : CSt) (hx : s.x = 2) (hy : 0 ≤ s.y ∧ s.y < 25) (hdx : s.dx = 0) (hdy : s.dy = 1)
    (hs : s.str = false) :
    ∃ t, cstep (gridOf (handed twoLines)) s = .ok (.run t) ∧ t.x = 2 ∧ (0 ≤ t.y ∧ t.y < 25) ∧ t.dx = 0 ∧
      t.dy = 1 ∧ t.str = false := by
  have hcell : cellCode (gridOf (handed twoLines)) s.y.toNat s.x.toNat =
      if s.y = 0 then some (.dir 0 1) else none := by
    unfold cellCode
    rw [grid_field _ _ _ (by omega) (by omega), handed_twoLines, hx]
    have hsk : skipNl "\n1 v\n@".toList = "1 v\n@".toList := by decide +kernel
    have hl : Spec.lines "1 v\n@".toList = [['1', ' ', 'v'], ['@']] := by decide +kernel
    unfold Spec.field
    rw [hsk, hl]
    by_cases h0 : s.y = 0
    · rw [h0]; rfl
    · rw [if_neg h0]
      obtain ⟨k, hk⟩ : ∃ k, s.y.toNat = k + 1 := ⟨s.y.toNat - 1, by omega⟩
      rw [hk]
      cases k <;> simp
  unfold cstep
  rw [if_pos ⟨by omega, by omega, hy.1, hy.2⟩, hcell]
  have hm : ∀ u : CSt, u.x = 2 → u.y = s.y → u.dx = 0 → u.dy = 1 → u.str = false →
      u.move.x = 2 ∧ (0 ≤ u.move.y ∧ u.move.y < 25) ∧ u.move.dx = 0 ∧ u.move.dy = 1 ∧ u.move.str = false := by
    intro u h1 h2 h3 h4 h5
    simp only [CSt.move, wrap, h1, h2, h3, h4, h5]
    refine ⟨by decide, ?_, trivial, trivial, trivial⟩
    split
    · omega
    · split <;> omega
  by_cases h0 : s.y = 0
  · rw [if_pos h0]
    exact ⟨_, rfl, hm _ hx rfl rfl rfl hs⟩
  · rw [if_neg h0]
    exact ⟨_, rfl, hm s hx rfl hdx hdy hs⟩

/-- **Violated:** between the braces the text is put together again from tokens, so that its columns are
lost: the program above ends in Befunge, the compiled one never does. -/
theorem layout_violated :
    Spec.written 10 (Spec.field "1 v\n  @".toList) = some [] ∧
    ∀ n, ∃ s, compiled (handed twoLines) n = .ok (.run s) := by
  refine ⟨by decide +kernel, ?_⟩
  have hdown : ∀ n (s : CSt), s.x = 2 → (0 ≤ s.y ∧ s.y < 25) → s.dx = 0 → s.dy = 1 → s.str = false →
      ∃ t, crun (gridOf (handed twoLines)) n (.run s) = .ok (.run t) := by
    intro n
    induction n with
    | zero => intro s _ _ _ _ _; exact ⟨s, rfl⟩
    | succ n ih =>
        intro s h1 h2 h3 h4 h5
        obtain ⟨t, h, g1, g2, g3, g4, g5⟩ := layout_step s h1 h2 h3 h4 h5
        obtain ⟨u, hu⟩ := ih t g1 g2 g3 g4 g5
        refine ⟨u, ?_⟩
        show (cstep _ s).bind (crun _ n) = _
        rw [h]
        exact hu
  have h0 : compiled (handed twoLines) 0 = .ok cstart := rfl
  have h1 : compiled (handed twoLines) 1 = .ok (.run
      { stack := [1], x := 1, y := 0, dx := 1, dy := 0, str := false, out := [] }) := by decide +kernel
  have h2 : compiled (handed twoLines) 2 = .ok (.run
      { stack := [1], x := 2, y := 0, dx := 1, dy := 0, str := false, out := [] }) := by decide +kernel
  have h3 : compiled (handed twoLines) 3 = .ok (.run
      { stack := [1], x := 2, y := 1, dx := 0, dy := 1, str := false, out := [] }) := by decide +kernel
  intro n
  match n with
  | 0 => exact ⟨_, h0⟩
  | 1 => exact ⟨_, h1⟩
  | 2 => exact ⟨_, h2⟩
  | n + 3 =>
      unfold compiled at h3 ⊢
      rw [Nat.add_comm, crun_add, h3]
      exact hdown n _ rfl (by decide) rfl rfl rfl

end Verif.Befunge
