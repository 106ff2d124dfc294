import Verif.Cmd.Model

/-! # C48: the command builder never overflows and keeps the text -/

namespace Verif.Cmd

open Verif.Str (Byte strlen CText cmem cmem_ctext)

/-- The builder holds the text `t`, with room for the terminator. -/
structure Holds (c : Cmd) (t : List Byte) : Prop where
  text : CText c.buf t
  len : c.len = t.length
  cap : c.buf.length = c.cap
  room : t.length < c.cap

theorem growCap_ok (need : Nat) : ∀ f cap, 0 < cap → need < f + cap →
    ∃ k, growCap (f + 1) need cap = some k ∧ need < k ∧ cap ≤ k := by
  intro f
  induction f with
  | zero => intro cap hc h; exact ⟨cap, by rw [growCap, if_neg (by omega)], by omega, Nat.le_refl _⟩
  | succ f ih =>
    intro cap hc h
    rw [growCap]
    split
    · obtain ⟨k, h1, h2, h3⟩ := ih (cap * 2) (by omega) (by omega)
      exact ⟨k, h1, h2, by omega⟩
    · exact ⟨cap, rfl, by omega, Nat.le_refl _⟩

theorem ctext_realloc {m : Mem Byte} {t : List Byte} (h : CText m t) (n : Nat)
    (hn : m.length ≤ n) : CText (Mem.realloc m n) t := by
  obtain ⟨h0, rest, rfl⟩ := h
  refine ⟨h0, rest ++ List.replicate (n - (t.map some ++ some 0 :: rest).length) none, ?_⟩
  unfold Mem.realloc
  rw [List.take_of_length_le hn]; simp

theorem ensureCap_ok {c : Cmd} {t : List Byte} (h : Holds c t) (k : Nat) :
    ∃ c', ensureCap c k = .ok c' ∧ Holds c' t ∧ t.length + k < c'.cap := by
  unfold ensureCap
  have hr := h.room
  rw [h.len]
  split
  · obtain ⟨cap, h1, h2, h3⟩ := growCap_ok (t.length + k) (t.length + k) c.cap (by omega) (by omega)
    rw [h1]
    have hlen := Mem.length_realloc c.buf cap (by rw [h.cap]; exact h3)
    exact ⟨_, rfl, ⟨ctext_realloc h.text cap (by rw [h.cap]; exact h3), rfl, hlen,
      by simp only; omega⟩, h2⟩
  · exact ⟨c, rfl, h, by omega⟩

/-- Copying a text with its terminator behind the text in a block with enough room. -/
theorem memcpy_text {d s : Mem Byte} {t u : List Byte} (hd : CText d t) (hs : CText s u)
    (hroom : t.length + u.length < d.length) :
    ∃ d', Mem.memcpy d t.length s 0 (u.length + 1) = .ok d' ∧ CText d' (t ++ u) ∧
      d'.length = d.length := by
  obtain ⟨h0, r, rfl⟩ := hd
  obtain ⟨h1, r', rfl⟩ := hs
  unfold Mem.memcpy
  rw [if_neg (by omega), if_pos ⟨by omega, by simp⟩]
  refine ⟨_, rfl, ⟨?_, List.drop (t.length + (u.length + 1)) (t.map some ++ some 0 :: r), ?_⟩, ?_⟩
  · intro hm
    rcases List.mem_append.mp hm with hm | hm
    · exact h0 hm
    · exact h1 hm
  · have e1 : (t.map some ++ some 0 :: r).take t.length = t.map some := by
      rw [List.take_append_of_le_length (by simp)]; exact List.take_of_length_le (by simp)
    have e2 : (u.map some ++ some 0 :: r').take (u.length + 1) = u.map some ++ [some 0] := by
      rw [show u.map some ++ some 0 :: r' = (u.map some ++ [some 0]) ++ r' by simp,
        List.take_append_of_le_length (by simp)]
      exact List.take_of_length_le (by simp)
    rw [e1, List.drop_zero, e2]; simp
  · simp at hroom ⊢; omega

theorem strcat_ok {d s : Mem Byte} {t u : List Byte} (hd : CText d t) (hs : CText s u)
    (hroom : t.length + u.length < d.length) :
    ∃ d', strcat d s = .ok d' ∧ CText d' (t ++ u) ∧ d'.length = d.length := by
  obtain ⟨d', h1, h2⟩ := memcpy_text hd hs hroom
  refine ⟨d', ?_, h2⟩
  unfold strcat
  rw [hd.strlen, hs.strlen]
  exact h1

theorem space_ok {c : Cmd} {t : List Byte} (h : Holds c t) (k : Nat)
    (hroom : t.length + (k + 1) < c.cap) :
    ∃ c', space c = .ok c' ∧ Holds c' (t ++ Spec.sep t) ∧
      (t ++ Spec.sep t).length + k < c'.cap := by
  unfold space Spec.sep
  rw [h.len]
  rcases List.eq_nil_or_concat t with rfl | ⟨t', x, rfl⟩
  · refine ⟨c, by simp, by simpa using h, by simp at hroom ⊢; omega⟩
  · rw [List.concat_eq_append] at h hroom ⊢
    rw [if_pos (by simp)]
    have hl : Mem.load c.buf ((t' ++ [x]).length - 1) = .ok x := by
      rw [h.text.load (by simp)]; simp
    rw [hl]
    simp only [Res.ok_bind]
    by_cases hx : x = 32
    · subst hx
      refine ⟨c, by simp, by simpa using h, ?_⟩
      simp at hroom ⊢; omega
    · have hne : ¬ (t' ++ [x] = [] ∨ (t' ++ [x]).getLast? = some 32) := by simp [hx]
      rw [if_neg hne, if_pos (by simpa using hx)]
      have hc32 : CText (cmem [32]) [32] := ⟨by simp, [], by simp [cmem]⟩
      obtain ⟨d', h1, h2, h3⟩ := strcat_ok h.text hc32 (by
        rw [h.cap]; simp at hroom ⊢; omega)
      rw [h1]
      refine ⟨_, rfl, ⟨h2, by simp, by rw [h3]; exact h.cap, by simp at hroom ⊢; omega⟩, ?_⟩
      simp at hroom ⊢; omega

theorem init_ok : ∃ c, init = .ok c ∧ Holds c [] := by
  refine ⟨⟨(Mem.malloc 1024).set 0 (some 0), 0, 1024⟩, ?_, ?_⟩
  · unfold init Mem.store; rw [if_pos (by rw [show (Mem.malloc (α := Byte) 1024).length = 1024 from List.length_replicate]; decide)]; rfl
  · refine ⟨⟨by simp, List.replicate 1023 none, ?_⟩, rfl, ?_, by decide⟩
    rotate_left
    · rw [List.length_set]; exact List.length_replicate
    rw [show Mem.malloc (α := Byte) 1024 = none :: List.replicate 1023 none from
      List.replicate_succ]
    rfl

theorem cmem_text {s : List Byte} (h : 0 ∉ s) : CText (cmem s) s := ⟨h, [], by simp [cmem]⟩

theorem step_ok {c : Cmd} {t : List Byte} (h : Holds c t) (o : Spec.Op) (ho : Spec.OpOk o) :
    ∃ c', step c o = .ok c' ∧ Holds c' (Spec.step t o) := by
  cases o with
  | add s =>
    cases s with
    | none => exact ⟨c, rfl, h⟩
    | some s =>
      cases s with
      | nil => exact ⟨c, rfl, by simpa [Spec.step] using h⟩
      | cons x s =>
        have hs := cmem_text ho
        have hx : x ≠ 0 := fun e => ho (by simp [e])
        simp only [step, Option.map_some, add]
        rw [hs.load (by simp)]
        simp only [Res.ok_bind, List.getElem_cons_zero, if_neg hx]
        rw [hs.strlen]
        simp only [Res.ok_bind]
        obtain ⟨c1, e1, h1, r1⟩ := ensureCap_ok h ((x :: s).length + 1 + 1)
        rw [e1]; simp only [Res.ok_bind]
        obtain ⟨c2, e2, h2, r2⟩ := space_ok h1 ((x :: s).length + 1) r1
        rw [e2]; simp only [Res.ok_bind]
        obtain ⟨d, e3, h3, h4⟩ := strcat_ok h2.text hs (by rw [h2.cap]; omega)
        rw [e3]; simp only [Res.ok_bind]
        refine ⟨_, rfl, ⟨?_, ?_, ?_, ?_⟩⟩
        · simpa [Spec.step] using h3
        · simp only [h2.len, Spec.step]; simp; omega
        · rw [h4]; exact h2.cap
        · simp [Spec.step] at r2 ⊢; omega
  | fmt out =>
    simp only [step, addFmt]
    obtain ⟨c1, e1, h1, r1⟩ := ensureCap_ok h (out.length + 1 + 1)
    rw [e1]; simp only [Res.ok_bind]
    obtain ⟨c2, e2, h2, r2⟩ := space_ok h1 (out.length + 1) r1
    rw [e2]; simp only [Res.ok_bind]
    obtain ⟨d, e3, h3, h4⟩ := memcpy_text h2.text (cmem_text ho) (by rw [h2.cap]; omega)
    have htake : out.take (c2.cap - c2.len - 1) = out :=
      List.take_of_length_le (by rw [h2.len]; omega)
    unfold vsnprintf
    rw [if_neg (by rw [h2.len]; omega), htake, h2.len, e3]
    refine ⟨_, rfl, ⟨?_, ?_, ?_, ?_⟩⟩
    · simpa [Spec.step] using h3
    · simp [Spec.step]; omega
    · rw [h4]; exact h2.cap
    · simp [Spec.step] at r2 ⊢; omega

/-- C48.  Whatever is appended to a fresh builder, no access leaves the buffer and the text
is exactly the pieces in order, separated by blanks. -/
theorem cmd_text (ops : List Spec.Op) (ho : ∀ o ∈ ops, Spec.OpOk o) :
    ∃ c, (init >>= fun c => run c ops) = .ok c ∧ CText c.buf (Spec.run [] ops) ∧
      c.len = (Spec.run [] ops).length ∧ c.len < c.buf.length := by
  have key : ∀ (ops : List Spec.Op) (c : Cmd) (t : List Byte), (∀ o ∈ ops, Spec.OpOk o) →
      Holds c t → ∃ c', run c ops = .ok c' ∧ Holds c' (Spec.run t ops) := by
    intro ops
    induction ops with
    | nil => intro c t _ h; exact ⟨c, rfl, h⟩
    | cons o ops ih =>
      intro c t ho h
      obtain ⟨c1, e1, h1⟩ := step_ok h o (ho o List.mem_cons_self)
      obtain ⟨c2, e2, h2⟩ := ih c1 _ (fun x hx => ho x (List.mem_cons_of_mem _ hx)) h1
      exact ⟨c2, by rw [run, e1]; exact e2, h2⟩
  obtain ⟨c0, e0, h0⟩ := init_ok
  obtain ⟨c, e, h⟩ := key ops c0 [] ho h0
  refine ⟨c, by rw [e0]; exact e, h.text, h.len, by rw [h.len, h.cap]; exact h.room⟩

theorem spec_join (t : List Byte) (xs : List (List Byte)) (ht : t ≠ [] ∧ t.getLast? ≠ some 32)
    (hx : ∀ x ∈ xs, x ≠ [] ∧ x.getLast? ≠ some 32) :
    Spec.run t (xs.map fun x => .add (some x)) = t ++ (xs.map fun x => 32 :: x).flatten := by
  induction xs generalizing t with
  | nil => simp [Spec.run]
  | cons x xs ih =>
    have h1 := hx x List.mem_cons_self
    have hs : Spec.step t (.add (some x)) = t ++ 32 :: x := by
      simp [Spec.step, Spec.sep, h1.1, ht.1, ht.2]
    simp only [Spec.run, List.map_cons, List.foldl_cons, hs] at ih ⊢
    rw [ih _ ⟨by simp, ?_⟩ fun y hy => hx y (List.mem_cons_of_mem _ hy)]
    · simp
    · rw [List.getLast?_append, List.getLast?_cons]
      obtain ⟨y, hy⟩ : ∃ y, x.getLast? = some y := by
        cases hq : x.getLast? with
        | none => exact absurd (List.getLast?_eq_none_iff.mp hq) h1.1
        | some y => exact ⟨y, rfl⟩
      rw [hy]
      have := h1.2; rw [hy] at this
      simpa using this

/-- C48.  Arguments that are not empty and do not end in a blank are joined by single
blanks. -/
theorem cmd_joined (x : List Byte) (xs : List (List Byte))
    (hx : ∀ y ∈ x :: xs, y ≠ [] ∧ y.getLast? ≠ some 32 ∧ 0 ∉ y) :
    ∃ c, (init >>= fun c => run c ((x :: xs).map fun y => .add (some y))) = .ok c ∧
      CText c.buf (x ++ (xs.map fun y => 32 :: y).flatten) := by
  obtain ⟨c, e, h, _⟩ := cmd_text ((x :: xs).map fun y => Spec.Op.add (some y)) (by
    intro o ho
    obtain ⟨y, hy, rfl⟩ := List.mem_map.mp ho
    exact (hx y hy).2.2)
  refine ⟨c, e, ?_⟩
  have h1 := hx x List.mem_cons_self
  have hs : Spec.step [] (.add (some x)) = x := by simp [Spec.step, Spec.sep, h1.1]
  have := spec_join x xs ⟨h1.1, h1.2.1⟩ fun y hy =>
    ⟨(hx y (List.mem_cons_of_mem _ hy)).1, (hx y (List.mem_cons_of_mem _ hy)).2.1⟩
  rw [← this]
  simpa only [Spec.run, List.map_cons, List.foldl_cons, hs] using h

/-! ## Argument list -/

/-- The list holds exactly these strings, and a null pointer follows unless it is empty. -/
structure ArgsHold (l : Args) (as : List (List Byte)) : Prop where
  mem : ∃ rest, l.args = as.map (fun a => some (some a)) ++ rest ∧
    (as ≠ [] → ∃ r, rest = some none :: r)
  count : l.count = as.length
  cap : l.args.length = l.cap
  room : as.length + 1 ≤ l.cap
  pos : 2 ≤ l.cap

theorem argAdd_ok {l : Args} {as : List (List Byte)} (h : ArgsHold l as) (s : List Byte) :
    ∃ l', argAdd l (some s) = .ok l' ∧ ArgsHold l' (as ++ [s]) := by
  obtain ⟨⟨rest, hm, _⟩, hcount, hcap, hroom, hpos⟩ := h
  -- after the optional growth there is room for two more cells
  obtain ⟨g, eg, hgc, hgm, hgl, hgr, hgp⟩ : ∃ g : Args,
      (if l.count + 1 ≥ l.cap then (⟨Mem.realloc l.args (l.cap * 2), l.count, l.cap * 2⟩ : Args)
        else l) = g ∧ g.count = as.length ∧
      (∃ rest, g.args = as.map (fun a => some (some a)) ++ rest) ∧ g.args.length = g.cap ∧
      as.length + 2 ≤ g.cap ∧ 2 ≤ g.cap := by
    split
    · refine ⟨_, rfl, hcount, ⟨rest ++ List.replicate (l.cap * 2 - l.args.length) none, ?_⟩, ?_, ?_, ?_⟩
      · simp only [Mem.realloc]
        rw [List.take_of_length_le (by omega), hm]; simp
      · exact Mem.length_realloc _ _ (by omega)
      · simp only; omega
      · simp only; omega
    · exact ⟨l, rfl, hcount, ⟨rest, hm⟩, hcap, by omega, hpos⟩
  obtain ⟨rest, hgm⟩ := hgm
  simp only [argAdd]
  rw [eg]
  have hlen : rest.length + as.length = g.cap := by
    rw [← hgl, hgm]; simp; omega
  match rest, hlen, hgm with
  | [], hlen, _ => simp at hlen; omega
  | [_], hlen, _ => simp at hlen; omega
  | r1 :: r2 :: rest, hlen, hgm =>
    have e1 : Mem.store g.args g.count (some s) =
        .ok (as.map (fun a => some (some a)) ++ some (some s) :: r2 :: rest) := by
      unfold Mem.store
      rw [if_pos (by rw [hgl, hgc]; omega), hgm, hgc]
      simp [List.set_append_right]
    have e2 : Mem.store (as.map (fun a => some (some a)) ++ some (some s) :: r2 :: rest)
        (g.count + 1) none =
        .ok (as.map (fun a => some (some a)) ++ some (some s) :: some none :: rest) := by
      unfold Mem.store
      rw [if_pos (by rw [hgc]; simp), hgc]
      rw [List.set_append_right (h := by simp)]
      simp [show as.length + 1 - as.length = 1 by omega]
    rw [e1]; simp only [Res.ok_bind]
    rw [e2]; simp only [Res.ok_bind]
    refine ⟨_, rfl, ⟨⟨some none :: rest, by simp, fun _ => ⟨_, rfl⟩⟩, by simp [hgc], ?_, ?_, hgp⟩⟩
    · simp at hlen ⊢; omega
    · simp; omega

/-- C48.  After any additions, the array given to `exec` is exactly the added strings in
order (null pointers are skipped), ended by a null pointer, and no access left the array. -/
theorem args_kept (as : List (Option (List Byte))) (h : as.filterMap id ≠ []) :
    ∃ l, argRun argInit as = .ok l ∧ readArgs l.args = .ok (as.filterMap id) ∧
      l.count = (as.filterMap id).length ∧ l.count < l.args.length := by
  have key : ∀ (as : List (Option (List Byte))) (l : Args) (bs : List (List Byte)), ArgsHold l bs →
      ∃ l', argRun l as = .ok l' ∧ ArgsHold l' (bs ++ as.filterMap id) := by
    intro as
    induction as with
    | nil => intro l bs h; exact ⟨l, rfl, by simpa using h⟩
    | cons a as ih =>
      intro l bs h
      cases a with
      | none =>
        obtain ⟨l', e, h'⟩ := ih l bs h
        exact ⟨l', by rw [argRun]; exact e, by simpa using h'⟩
      | some s =>
        obtain ⟨l1, e1, h1⟩ := argAdd_ok h s
        obtain ⟨l', e, h'⟩ := ih l1 _ h1
        exact ⟨l', by rw [argRun, e1]; exact e, by simpa using h'⟩
  obtain ⟨l, e, hl⟩ := key as argInit [] ⟨⟨Mem.malloc 32, by simp [argInit], by simp⟩, rfl,
    by simp [argInit, Mem.malloc], by simp [argInit], by simp [argInit]⟩
  rw [List.nil_append] at hl
  obtain ⟨⟨rest, hm, hn⟩, hcount, hcap, hroom, _⟩ := hl
  obtain ⟨r, rfl⟩ := hn h
  refine ⟨l, e, ?_, hcount, by omega⟩
  rw [hm]
  generalize as.filterMap id = bs
  induction bs with
  | nil => rfl
  | cons b bs ih => simp only [List.map_cons, List.cons_append, readArgs, ih, Res.ok_bind]

/-! ## Concrete cases -/

example : Spec.run [] [.add (some [103, 99, 99]), .add none, .add (some []), .fmt [45, 73, 32],
    .add (some [120])] = [103, 99, 99, 32, 45, 73, 32, 120] := by decide

example : (argRun argInit [some [1], none, some [2, 3]] >>= fun l => readArgs l.args) =
    .ok [[1], [2, 3]] := by decide +kernel

end Verif.Cmd
