import Verif.Vec.Model

/-! Helper lemmas for the vector model. -/

namespace Verif.Vec
open Verif

variable {α : Type}

/-- The concrete vector `v` holds the sequence `l`. -/
def Holds (v : Vec α) (l : List α) : Prop :=
  ∃ rest, v.buf = l.map some ++ rest ∧ v.len = l.length ∧ v.cap = v.buf.length

theorem holds_new : Holds (new : Vec α) [] := ⟨[], by simp [new]⟩

theorem holds_withCapacity (n : Nat) : Holds (withCapacity n : Vec α) [] := by
  unfold withCapacity
  split
  · exact ⟨[], by simp⟩
  · exact ⟨Mem.malloc n, by simp [Mem.malloc]⟩

theorem holds_grow {v : Vec α} {l : List α} (h : Holds v l) :
    Holds (grow v) l ∧ v.cap < (grow v).cap ∧ (grow v).len = v.len := by
  obtain ⟨rest, hb, hl, hc⟩ := h
  have hlt : v.cap < (if v.cap = 0 then 8 else v.cap * 2) := by split <;> omega
  refine ⟨⟨rest ++ List.replicate ((if v.cap = 0 then 8 else v.cap * 2) - v.buf.length) none, ?_, ?_, ?_⟩, ?_, ?_⟩
  · simp only [grow, Mem.realloc]
    rw [List.take_of_length_le (by rw [← hc]; omega)]
    rw [hb]; simp
  · simp [grow, hl]
  · simp only [grow]
    rw [Mem.length_realloc _ _ (by rw [← hc]; omega)]
  · simpa [grow] using hlt
  · simp [grow]

theorem le_doubleUntil (cap n : Nat) : cap ≤ doubleUntil cap n := by
  fun_induction doubleUntil cap n <;> omega

theorem doubleUntil_ge (cap n : Nat) (h : 0 < cap) : n ≤ doubleUntil cap n := by
  fun_induction doubleUntil cap n with
  | case1 c h' ih => exact ih (by omega)
  | case2 c h' => omega

theorem holds_growToFit {v : Vec α} {l : List α} (h : Holds v l) (n : Nat) :
    Holds (growToFit v n) l ∧ n ≤ (growToFit v n).cap ∧ (growToFit v n).len = v.len := by
  obtain ⟨rest, hb, hl, hc⟩ := h
  unfold growToFit
  split
  · exact ⟨⟨rest, hb, hl, hc⟩, by omega, rfl⟩
  · rename_i hn
    generalize hcap : doubleUntil (if v.cap = 0 then 8 else v.cap) n = c
    have h1 : (if v.cap = 0 then 8 else v.cap) ≤ c := hcap ▸ le_doubleUntil _ _
    have h2 : n ≤ c := hcap ▸ doubleUntil_ge _ _ (by split <;> omega)
    have h3 : v.buf.length ≤ c := by rw [← hc]; split at h1 <;> omega
    refine ⟨⟨rest ++ List.replicate (c - v.buf.length) none, ?_, hl, ?_⟩, by simpa [hcap] using h2, rfl⟩
    · simp only [Mem.realloc, hcap]
      rw [List.take_of_length_le h3, hb]; simp
    · simp only [hcap]; rw [Mem.length_realloc _ _ h3]

/-- after the growth test there is room for one more element -/
theorem holds_room {v : Vec α} {l : List α} (h : Holds v l) :
    ∃ w, (if v.len ≥ v.cap then grow v else v) = w ∧ Holds w l ∧ w.len < w.cap ∧ w.len = v.len := by
  refine ⟨_, rfl, ?_⟩
  have hlc : v.len ≤ v.cap := by
    obtain ⟨rest, hb, hl, hc⟩ := h
    rw [hc, hb, hl]; simp
  split
  · obtain ⟨h1, h2, h3⟩ := holds_grow h
    exact ⟨h1, by omega, h3⟩
  · exact ⟨h, by omega, rfl⟩

theorem load_holds {v : Vec α} {l : List α} (h : Holds v l) (i : Nat) (a : α)
    (hi : l[i]? = some a) : Mem.load v.buf i = .ok a := by
  obtain ⟨rest, hb, hl, hc⟩ := h
  rw [Mem.load_ok_iff, hb]
  have hlt : i < l.length := (List.getElem?_eq_some_iff.1 hi).1
  rw [List.getElem?_append_left (by simpa using hlt), List.getElem?_map, hi]; rfl

theorem push_holds {v : Vec α} {l : List α} (h : Holds v l) (a : α) :
    ∃ w, push v a = .ok w ∧ Holds w (l ++ [a]) := by
  obtain ⟨w, hw, hh, hlt, hlen⟩ := holds_room h
  unfold push
  simp only [hw]
  obtain ⟨rest, hb, hl, hc⟩ := hh
  have hlt' : w.len < w.buf.length := by omega
  simp only [Mem.store, hlt', if_true, Res.ok_bind, Res.pure_eq]
  refine ⟨_, rfl, rest.tail, ?_, ?_, ?_⟩
  · cases rest with
    | nil => rw [hb, hl] at hlt'; simp at hlt'
    | cons r rs =>
      simp only [hb, hl]
      rw [List.set_append_right _ _ (by simp)]
      simp
  · simp [hl]
  · simp [hc]

theorem insert_holds {v : Vec α} {l : List α} (h : Holds v l) (k : Nat) (a : α)
    (hk : k ≤ l.length) :
    ∃ w, insert v k a = .ok w ∧ Holds w (l.take k ++ a :: l.drop k) := by
  obtain ⟨w, hw, hh, hlt, hlen⟩ := holds_room h
  have hvl : v.len = l.length := by obtain ⟨_, _, hl, _⟩ := h; exact hl
  unfold insert
  have hk' : ¬ k > v.len := by omega
  simp only [hk', if_false, hw]
  obtain ⟨rest, hb, hl, hc⟩ := hh
  cases rest with
  | nil => rw [hc, hb, hl] at hlt; simp at hlt
  | cons r rs =>
  by_cases hkl : k < w.len
  · simp only [hkl, if_true, Mem.memmove, Mem.memcpy]
    have h0 : ¬ (w.len - k = 0) := by omega
    have h1 : k + 1 + (w.len - k) ≤ w.buf.length ∧ k + (w.len - k) ≤ w.buf.length := by
      rw [hb, hl] at *; simp at *; omega
    simp only [h0, if_false, h1, and_self, if_true, Res.ok_bind, Mem.store]
    have h2 : k < (w.buf.take (k + 1) ++ (w.buf.drop k).take (w.len - k) ++
        w.buf.drop (k + 1 + (w.len - k))).length := by
      simp [hb]; omega
    simp only [h2, if_true, Res.ok_bind, Res.pure_eq]
    refine ⟨_, rfl, rs, ?_, ?_, ?_⟩
    · simp only [hb, hl]
      rw [hl] at hkl
      have e1 : (l.map some ++ r :: rs).take (k + 1) = (l.take (k+1)).map some := by
        rw [List.take_append_of_le_length (by simp; omega), List.map_take]
      have e2 : ((l.map some ++ r :: rs).drop k).take (l.length - k) = (l.drop k).map some := by
        rw [List.drop_append_of_le_length (by simp; omega)]
        rw [List.take_append_of_le_length (by simp)]
        rw [List.take_of_length_le (by simp), List.map_drop]
      have e3 : (l.map some ++ r :: rs).drop (k + 1 + (l.length - k)) = rs := by
        have : k + 1 + (l.length - k) = (l.map (some : α → Option α)).length + 1 := by simp; omega
        rw [this, List.drop_append]; simp
      rw [e1, e2, e3]
      have e4 : (l.take (k+1)).map (some : α → Option α) = (l.take k).map some ++ [some l[k]] := by
        rw [List.take_succ_eq_append_getElem hkl, List.map_append]; rfl
      rw [e4]
      simp only [List.append_assoc]
      rw [List.set_append_right _ _ (by simp; omega)]
      simp [Nat.min_eq_left (Nat.le_of_lt hkl)]
    · simp [hl]; omega
    · simp [hc, hb]; omega
  · have hkw : k = w.len := by omega
    have hkb : k < w.buf.length := by omega
    simp only [hkl, if_false, Res.pure_eq, Res.ok_bind, Mem.store, hkb, if_true]
    refine ⟨_, rfl, rs, ?_, ?_, ?_⟩
    · simp only [hb]
      rw [List.set_append_right _ _ (by simp; omega)]
      have : k = l.length := by omega
      subst this
      simp
    · simp [hl]; omega
    · simp [hc]

theorem getElem?_length_sub_one (l : List α) : l[l.length - 1]? = l.getLast? := by
  rw [List.getLast?_eq_getElem?]

theorem dropLast_holds {v : Vec α} {l : List α} (h : Holds v l) :
    Holds ⟨v.buf, v.len - 1, v.cap⟩ l.dropLast := by
  obtain ⟨rest, hb, hl, hc⟩ := h
  cases hle : l.getLast? with
  | none =>
    rw [List.getLast?_eq_none_iff] at hle; subst hle
    exact ⟨rest, by simpa using hb, by simp [hl], hc⟩
  | some a =>
    have hne : l ≠ [] := by intro h; subst h; simp at hle
    refine ⟨some a :: rest, ?_, by simp [hl], hc⟩
    have : l = l.dropLast ++ [a] := by
      rw [List.getLast?_eq_some_getLast hne] at hle
      have := List.dropLast_concat_getLast hne
      simp at hle; rw [hle] at this; exact this.symm
    rw [hb]; conv => lhs; rw [this]
    simp

theorem pop_holds {v : Vec α} {l : List α} (h : Holds v l) (a : α) (ha : l.getLast? = some a) :
    ∃ w, pop v = .ok (w, a) ∧ Holds w l.dropLast := by
  have hl := h.choose_spec.2.1
  have hne : l ≠ [] := by intro h; subst h; simp at ha
  have h0 : ¬ v.len = 0 := by rw [hl]; simpa using hne
  unfold pop
  simp only [h0, if_false]
  rw [load_holds h (v.len - 1) a (by rw [hl, getElem?_length_sub_one]; exact ha)]
  exact ⟨_, rfl, dropLast_holds h⟩

theorem popOpt_holds {v : Vec α} {l : List α} (h : Holds v l) :
    ∃ w, popOpt v = .ok (w, l.getLast?) ∧ Holds w l.dropLast := by
  have hl := h.choose_spec.2.1
  unfold popOpt
  cases hg : l.getLast? with
  | none =>
    have : l = [] := by simpa using hg
    subst this
    simp only [List.length_nil] at hl
    simp only [hl, if_true]
    exact ⟨_, rfl, h⟩
  | some a =>
    have hne : l ≠ [] := by intro h; subst h; simp at hg
    have h0 : ¬ v.len = 0 := by rw [hl]; simpa using hne
    simp only [h0, if_false]
    rw [load_holds h (v.len - 1) a (by rw [hl, getElem?_length_sub_one]; exact hg)]
    exact ⟨_, rfl, dropLast_holds h⟩

theorem remove_holds {v : Vec α} {l : List α} (h : Holds v l) (k : Nat) (a : α)
    (ha : l[k]? = some a) :
    ∃ w, remove v k = .ok (w, a) ∧ Holds w (l.eraseIdx k) := by
  have hload := load_holds h k a ha
  obtain ⟨rest, hb, hl, hc⟩ := h
  obtain ⟨hk, hka⟩ := List.getElem?_eq_some_iff.1 ha
  unfold remove
  have h0 : ¬ k ≥ v.len := by omega
  simp only [h0, if_false, hload, Res.ok_bind]
  have hsplit : l = l.take k ++ a :: l.drop (k+1) := by
    rw [← hka, ← List.drop_eq_getElem_cons hk, List.take_append_drop]
  by_cases hkl : k < v.len - 1
  · simp only [hkl, if_true, Mem.memmove, Mem.memcpy]
    have h1 : ¬ (v.len - k - 1 = 0) := by omega
    have h2 : k + (v.len - k - 1) ≤ v.buf.length ∧ k + 1 + (v.len - k - 1) ≤ v.buf.length := by
      rw [hb, hl]; simp; omega
    simp only [h1, if_false, h2, and_self, if_true, Res.ok_bind, Res.pure_eq]
    refine ⟨_, rfl, v.buf.drop (k + (v.len - k - 1)), ?_, ?_, ?_⟩
    · simp only
      rw [List.append_cancel_right_eq]
      simp only [hb, hl]
      have e1 : (l.map some ++ rest).take k = (l.take k).map some := by
        rw [List.take_append_of_le_length (by simp; omega), List.map_take]
      have e2 : ((l.map some ++ rest).drop (k + 1)).take (l.length - k - 1)
          = (l.drop (k + 1)).map some := by
        rw [List.drop_append_of_le_length (by simp; omega)]
        rw [List.take_append_of_le_length (by simp; omega)]
        rw [List.take_of_length_le (by simp; omega), List.map_drop]
      rw [e1, e2, List.eraseIdx_eq_take_drop_succ, List.map_append]
    · simp [List.length_eraseIdx, hk, hl]
    · simp only [List.length_append, List.length_take, List.length_drop]
      rw [hc]; omega
  · simp only [hkl, if_false, Res.pure_eq, Res.ok_bind]
    refine ⟨_, rfl, some a :: rest, ?_, ?_, hc⟩
    · have hk' : k + 1 = l.length := by omega
      rw [List.eraseIdx_eq_take_drop_succ, hk', List.drop_length, List.append_nil]
      simp only [hb]
      conv => lhs; rw [hsplit, hk', List.drop_length]
      simp
    · simp [List.length_eraseIdx, hk, hl]

theorem append_holds {v w : Vec α} {l m : List α} (hv : Holds v l) (hw : Holds w m) :
    ∃ u, append v w = .ok u ∧ Holds u (l ++ m) := by
  have hvl := hv.choose_spec.2.1
  have hwl := hw.choose_spec.2.1
  obtain ⟨hg, hcap, hlen⟩ := holds_growToFit hv (v.len + w.len)
  have happ : append v w = (do
      let buf ← Mem.memcpy (growToFit v (v.len + w.len)).buf (growToFit v (v.len + w.len)).len
        w.buf 0 w.len
      pure ⟨buf, v.len + w.len, (growToFit v (v.len + w.len)).cap⟩) := rfl
  rw [happ]
  clear happ
  generalize growToFit v (v.len + w.len) = g at *
  obtain ⟨rest, hb, hl, hc⟩ := hg
  obtain ⟨rest', hb', hl', hc'⟩ := hw
  by_cases h0 : w.len = 0
  · have hm : m = [] := by rw [h0] at hl'; simpa using hl'.symm
    subst hm
    simp only [Mem.memcpy, h0, if_true, Res.ok_bind, Res.pure_eq]
    exact ⟨_, rfl, rest, by simpa using hb, by simp [hvl], hc⟩
  · have h1 : g.len + w.len ≤ g.buf.length ∧ 0 + w.len ≤ w.buf.length := by
      constructor
      · omega
      · rw [hb', hl']; simp
    simp only [Mem.memcpy, h0, if_false, h1, and_self, if_true, Res.ok_bind, Res.pure_eq]
    refine ⟨_, rfl, g.buf.drop (g.len + w.len), ?_, ?_, ?_⟩
    · simp only [List.map_append]
      rw [List.append_cancel_right_eq]
      rw [hb, hb', hl, hl']
      simp
    · simp [hvl, hwl]
    · simp; omega

theorem get_holds {v : Vec α} {l : List α} (h : Holds v l) (k : Nat) :
    get v k = match l[k]? with | some a => .ok a | none => .panic := by
  have hl := h.choose_spec.2.1
  unfold get
  cases hk : l[k]? with
  | none => simp at hk; simp [hl, hk]
  | some a =>
    have := (List.getElem?_eq_some_iff.1 hk).1
    rw [if_neg (by omega), load_holds h k a hk]

theorem first_holds {v : Vec α} {l : List α} (h : Holds v l) :
    first v = match l.head? with | some a => .ok a | none => .panic := by
  have hl := h.choose_spec.2.1
  unfold first
  cases l with
  | nil => simp at hl; simp [hl]
  | cons a t =>
    simp at hl
    rw [if_neg (by omega), load_holds h 0 a (by simp)]; rfl

theorem last_holds {v : Vec α} {l : List α} (h : Holds v l) :
    last v = match l.getLast? with | some a => .ok a | none => .panic := by
  have hl := h.choose_spec.2.1
  unfold last
  cases hg : l.getLast? with
  | none => simp at hg; subst hg; simp at hl; simp [hl]
  | some a =>
    have hne : l ≠ [] := by intro h; subst h; simp at hg
    have h0 : ¬ v.len = 0 := by rw [hl]; simpa using hne
    rw [if_neg h0, load_holds h (v.len - 1) a (by rw [hl, getElem?_length_sub_one]; exact hg)]

theorem containsLoop_holds [DecidableEq α] {v : Vec α} {l : List α} (h : Holds v l) (a : α)
    (i : Nat) : containsLoop v a i = .ok (decide (a ∈ l.drop i)) := by
  have hl := h.choose_spec.2.1
  fun_induction containsLoop v a i with
  | case1 i hi ih =>
    have hi' : i < l.length := by omega
    rw [load_holds h i l[i] (List.getElem?_eq_getElem hi')]
    simp only [Res.ok_bind]
    have hd := List.drop_eq_getElem_cons hi'
    split
    · rename_i heq; rw [hd]; simp [heq]
    · rename_i hne
      rw [ih]
      have : ¬ a = l[i] := fun h => hne h.symm
      simp only [hd, List.mem_cons, this, false_or]
  | case2 i hi =>
    rw [List.drop_eq_nil_of_le (by omega)]; simp

theorem clear_holds {v : Vec α} {l : List α} (h : Holds v l) : Holds (clear v) [] := by
  obtain ⟨rest, hb, hl, hc⟩ := h
  exact ⟨v.buf, by simp [clear], by simp [clear], by simp [clear, hc]⟩

theorem free_holds {v : Vec α} : Holds (free v) [] := ⟨[], by simp [free]⟩

theorem set_holds {v : Vec α} {l : List α} (h : Holds v l) (k : Nat) (a : α) (hk : k < l.length) :
    ∃ w, set v k a = .ok w ∧ Holds w (l.set k a) := by
  obtain ⟨rest, hb, hl, hc⟩ := h
  unfold set
  have h0 : ¬ k ≥ v.len := by omega
  have h1 : k < v.buf.length := by rw [hb]; simp; omega
  simp only [h0, if_false, Mem.store, h1, if_true, Res.ok_bind, Res.pure_eq]
  refine ⟨_, rfl, rest, ?_, by simp [hl], by simp [hc]⟩
  simp only [hb]
  rw [List.set_append_left _ _ (by simpa using hk), List.map_set]

theorem reverseLoop_holds (n : Nat) : ∀ (A M : List α) (rest : Mem α), M.length = n → 0 < n →
    reverseLoop (A.map some ++ (M.map some ++ rest)) A.length (A.length + M.length - 1)
      = .ok (A.map some ++ (M.reverse.map some ++ rest)) := by
  induction n using Nat.strongRecOn with
  | ind n ih =>
    intro A M rest hM hn
    match M, hM with
    | [], hM => simp at hM; omega
    | [x], _ =>
      rw [reverseLoop]
      have : ¬ A.length < A.length + [x].length - 1 := by simp
      rw [if_neg this]; simp
    | x :: y :: M', hM =>
      obtain ⟨N, z, hN⟩ : ∃ N z, y :: M' = N ++ [z] := by
        have hne : y :: M' ≠ [] := by simp
        exact ⟨_, _, (List.dropLast_concat_getLast hne).symm⟩
      rw [hN] at hM ⊢
      have hlt : A.length < A.length + (x :: (N ++ [z])).length - 1 := by simp
      have hj : A.length + (x :: (N ++ [z])).length - 1 = A.length + 1 + N.length := by
        simp; omega
      rw [reverseLoop, if_pos hlt, hj]
      have l1 : Mem.load (A.map some ++ ((x :: (N ++ [z])).map some ++ rest)) A.length = .ok x := by
        rw [Mem.load_ok_iff, List.getElem?_append_right (by simp)]; simp
      have l2 : Mem.load (A.map some ++ ((x :: (N ++ [z])).map some ++ rest))
          (A.length + 1 + N.length) = .ok z := by
        rw [Mem.load_ok_iff, List.getElem?_append_right (by simp; omega)]
        have e : A.length + 1 + N.length - (A.map (some : α → Option α)).length = N.length + 1 := by
          simp; omega
        rw [e]
        simp only [List.map_cons, List.cons_append, List.getElem?_cons_succ, List.map_append]
        rw [List.getElem?_append_left (by simp), List.getElem?_append_right (by simp)]; simp
      rw [l1, l2]
      simp only [Res.ok_bind]
      have s1 : Mem.store (A.map some ++ ((x :: (N ++ [z])).map some ++ rest)) A.length z
          = .ok (A.map some ++ ((z :: (N ++ [z])).map some ++ rest)) := by
        unfold Mem.store
        rw [if_pos (by simp), List.set_append_right _ _ (by simp)]; simp
      rw [s1]
      simp only [Res.ok_bind]
      have s2 : Mem.store (A.map some ++ ((z :: (N ++ [z])).map some ++ rest))
          (A.length + 1 + N.length) x
          = .ok (A.map some ++ ((z :: (N ++ [x])).map some ++ rest)) := by
        unfold Mem.store
        rw [if_pos (by simp; omega), List.set_append_right _ _ (by simp; omega)]
        have e : A.length + 1 + N.length - (A.map (some : α → Option α)).length = N.length + 1 := by
          simp; omega
        rw [e]
        simp only [List.map_cons, List.cons_append, List.set_cons_succ, List.map_append,
          List.append_assoc]
        rw [List.set_append_right _ _ (by simp)]; simp
      rw [s2]
      simp only [Res.ok_bind]
      have hN' : N.length + 2 = n := by simpa using hM
      by_cases h0 : N.length = 0
      · have : N = [] := by simpa using h0
        subst this
        rw [reverseLoop, if_neg (by simp)]; simp
      · have key := ih N.length (by omega) (A ++ [z]) N (some x :: rest) rfl (by omega)
        have e1 : (A ++ [z]).length = A.length + 1 := by simp
        rw [e1] at key
        have e2 : A.length + 1 + N.length - 1 = A.length + 1 + N.length - 1 := rfl
        have e3 : (A ++ [z]).map some ++ (N.map some ++ some x :: rest)
            = A.map some ++ ((z :: (N ++ [x])).map some ++ rest) := by simp
        rw [e3] at key
        rw [key]; simp

theorem reverse_holds {v : Vec α} {l : List α} (h : Holds v l) (hne : l ≠ []) :
    ∃ w, reverse v = .ok w ∧ Holds w l.reverse := by
  obtain ⟨rest, hb, hl, hc⟩ := h
  have hpos : 0 < l.length := List.length_pos_iff.2 hne
  have h0 : ¬ v.len = 0 := by omega
  unfold reverse
  simp only [h0, if_false]
  have := reverseLoop_holds l.length ([] : List α) l rest rfl hpos
  simp only [List.map_nil, List.nil_append, List.length_nil, Nat.zero_add] at this
  rw [hb, hl, this]
  exact ⟨_, rfl, rest, by simp, by simp, by rw [hc, hb]; simp⟩

theorem eqLoop_holds [DecidableEq α] {v w : Vec α} {l m : List α} (hv : Holds v l)
    (hw : Holds w m) (hlm : l.length = m.length) (i : Nat) :
    eqLoop v w i = .ok (decide (l.drop i = m.drop i)) := by
  have hl := hv.choose_spec.2.1
  fun_induction eqLoop v w i with
  | case1 i hi ih =>
    have hi' : i < l.length := by omega
    have hi'' : i < m.length := by omega
    rw [load_holds hv i l[i] (List.getElem?_eq_getElem hi'),
        load_holds hw i m[i] (List.getElem?_eq_getElem hi'')]
    simp only [Res.ok_bind]
    rw [List.drop_eq_getElem_cons hi', List.drop_eq_getElem_cons hi'']
    split
    · rename_i hne; simp only [List.cons.injEq, hne, false_and, decide_false]; rfl
    · rename_i heq
      rw [ih]
      have : l[i] = m[i] := Decidable.not_not.1 heq
      simp only [this, List.cons.injEq, true_and]
  | case2 i hi =>
    rw [List.drop_eq_nil_of_le (by omega), List.drop_eq_nil_of_le (by omega)]; simp

theorem eq_holds [DecidableEq α] {v w : Vec α} {l m : List α} (hv : Holds v l)
    (hw : Holds w m) : eq v w = .ok (decide (l = m)) := by
  have hl := hv.choose_spec.2.1
  have hm := hw.choose_spec.2.1
  unfold eq
  split
  · rename_i hne
    have : l ≠ m := by intro h; subst h; omega
    simp [this]
  · rw [eqLoop_holds hv hw (by omega)]; simp

theorem cloneLoop_holds {v : Vec α} {l : List α} (hv : Holds v l) (i : Nat) (hi : i ≤ l.length) :
    cloneLoop v ((l.take i).map some ++ List.replicate (l.length - i) none) i
      = .ok (l.map some) := by
  have hl := hv.choose_spec.2.1
  generalize hd : (l.take i).map some ++ List.replicate (l.length - i) none = d
  fun_induction cloneLoop v d i with
  | case1 d i hlt ih =>
    have hi' : i < l.length := by omega
    rw [load_holds hv i l[i] (List.getElem?_eq_getElem hi')]
    simp only [Res.ok_bind, Mem.store]
    have hlen : i < d.length := by rw [← hd]; simp; omega
    simp only [hlen, if_true, Res.ok_bind]
    apply ih
    · omega
    · subst hd
      rw [List.set_append_right _ _ (by simp; omega)]
      have e : l.length - i = (l.length - (i+1)) + 1 := by omega
      have e' : i - ((l.take i).map (some : α → Option α)).length = 0 := by simp; omega
      rw [e, e', List.replicate_succ, List.set_cons_zero, List.take_succ_eq_append_getElem hi',
        List.map_append, List.append_assoc]; rfl
  | case2 d i hlt =>
    have : i = l.length := by omega
    subst this
    simp at hd
    simp [hd]

theorem clone_holds {v : Vec α} {l : List α} (hv : Holds v l) :
    ∃ w, clone v = .ok w ∧ Holds w l := by
  have hl := hv.choose_spec.2.1
  unfold clone
  split
  · have : l = [] := by rw [← List.length_eq_zero_iff]; omega
    subst this
    exact ⟨_, rfl, [], by simp⟩
  · have := cloneLoop_holds hv 0 (by omega)
    simp only [List.take_zero, List.map_nil, List.nil_append, Nat.sub_zero] at this
    rw [← hl] at this
    unfold Mem.malloc
    rw [this]
    exact ⟨_, rfl, [], by simp, by simp [hl], by simp [hl]⟩

/-- All named vectors hold the named sequences. -/
def HoldsAll (s : Nat → Vec α) (t : Nat → List α) : Prop := ∀ i, Holds (s i) (t i)

theorem HoldsAll.upd {s : Nat → Vec α} {t : Nat → List α} (h : HoldsAll s t) (i : Nat)
    {v : Vec α} {l : List α} (hv : Holds v l) : HoldsAll (upd s i v) (upd t i l) := by
  intro k
  unfold Vec.upd
  split
  · exact hv
  · exact h k

/-- One call: the concrete outcome is the specified one. -/
theorem step_refines [DecidableEq α] {s : Nat → Vec α} {t : Nat → List α} (h : HoldsAll s t)
    (op : Op α) (hrev : ∀ i, op = .reverse i → t i ≠ []) :
    match Spec.step t op with
    | none => step s op = .panic
    | some (t', r) => ∃ s', step s op = .ok (s', r) ∧ HoldsAll s' t' := by
  cases op with
  | new i => exact ⟨_, rfl, h.upd i holds_new⟩
  | withCapacity i n => exact ⟨_, rfl, h.upd i (holds_withCapacity n)⟩
  | push i a =>
    obtain ⟨w, hw, hh⟩ := push_holds (h i) a
    exact ⟨_, by simp only [step, hw, Res.ok_bind, Res.pure_eq], h.upd i hh⟩
  | insert i k a =>
    have hl := (h i).choose_spec.2.1
    by_cases hk : k ≤ (t i).length
    · obtain ⟨w, hw, hh⟩ := insert_holds (h i) k a hk
      simp only [Spec.step, hk, if_true]
      exact ⟨_, by simp only [step, hw, Res.ok_bind, Res.pure_eq], h.upd i hh⟩
    · simp only [Spec.step, hk, if_false]
      have : k > (s i).len := by omega
      simp [step, insert, this]
  | pop i =>
    have hl := (h i).choose_spec.2.1
    cases hg : (t i).getLast? with
    | none =>
      have h0 : t i = [] := by simpa using hg
      have : (s i).len = 0 := by rw [hl, h0]; rfl
      simp [Spec.step, hg, step, pop, this]
    | some a =>
      obtain ⟨w, hw, hh⟩ := pop_holds (h i) a hg
      simp only [Spec.step, hg, Option.map_some]
      exact ⟨_, by simp only [step, hw, Res.ok_bind, Res.pure_eq], h.upd i hh⟩
  | popOpt i =>
    obtain ⟨w, hw, hh⟩ := popOpt_holds (h i)
    exact ⟨_, by simp only [step, hw, Res.ok_bind, Res.pure_eq], h.upd i hh⟩
  | remove i k =>
    have hl := (h i).choose_spec.2.1
    cases hg : (t i)[k]? with
    | none =>
      have : (s i).len ≤ k := by simp at hg; omega
      simp [Spec.step, hg, step, remove, this]
    | some a =>
      obtain ⟨w, hw, hh⟩ := remove_holds (h i) k a hg
      simp only [Spec.step, hg, Option.map_some]
      exact ⟨_, by simp only [step, hw, Res.ok_bind, Res.pure_eq], h.upd i hh⟩
  | append i j =>
    have h1 : HoldsAll (Vec.upd s j (free (s j))) (Vec.upd t j []) := h.upd j free_holds
    obtain ⟨w, hw, hh⟩ := append_holds (h1 i) (h j)
    refine ⟨upd (upd s j (free (s j))) i w, by simp only [step, hw, Res.ok_bind, Res.pure_eq], ?_⟩
    have e : Vec.upd t j [] i = if i = j then [] else t i := rfl
    rw [e] at hh
    exact h1.upd i hh
  | get i k =>
    have := get_holds (h i) k
    cases hg : (t i)[k]? with
    | none => rw [hg] at this; simp [Spec.step, hg, step, this]
    | some a =>
      rw [hg] at this; simp only [Spec.step, hg, Option.map_some]
      exact ⟨_, by simp only [step, this, Res.ok_bind, Res.pure_eq], h⟩
  | first i =>
    have := first_holds (h i)
    cases hg : (t i).head? with
    | none => rw [hg] at this; simp [Spec.step, hg, step, this]
    | some a =>
      rw [hg] at this; simp only [Spec.step, hg, Option.map_some]
      exact ⟨_, by simp only [step, this, Res.ok_bind, Res.pure_eq], h⟩
  | last i =>
    have := last_holds (h i)
    cases hg : (t i).getLast? with
    | none => rw [hg] at this; simp [Spec.step, hg, step, this]
    | some a =>
      rw [hg] at this; simp only [Spec.step, hg, Option.map_some]
      exact ⟨_, by simp only [step, this, Res.ok_bind, Res.pure_eq], h⟩
  | contains i a =>
    have := containsLoop_holds (h i) a 0
    simp only [List.drop_zero] at this
    exact ⟨_, by simp only [step, contains, this, Res.ok_bind, Res.pure_eq], h⟩
  | clear i => exact ⟨_, rfl, h.upd i (clear_holds (h i))⟩
  | free i => exact ⟨_, rfl, h.upd i free_holds⟩
  | set i k a =>
    have hl := (h i).choose_spec.2.1
    by_cases hk : k < (t i).length
    · obtain ⟨w, hw, hh⟩ := set_holds (h i) k a hk
      simp only [Spec.step, hk, if_true]
      exact ⟨_, by simp only [step, hw, Res.ok_bind, Res.pure_eq], h.upd i hh⟩
    · simp only [Spec.step, hk, if_false]
      have : (s i).len ≤ k := by omega
      simp [step, set, this]
  | reverse i =>
    obtain ⟨w, hw, hh⟩ := reverse_holds (h i) (hrev i rfl)
    exact ⟨_, by simp only [step, hw, Res.ok_bind, Res.pure_eq], h.upd i hh⟩
  | eq i j =>
    have := eq_holds (h i) (h j)
    exact ⟨_, by simp only [step, this, Res.ok_bind, Res.pure_eq], h⟩
  | clone i j =>
    obtain ⟨w, hw, hh⟩ := clone_holds (h i)
    exact ⟨_, by simp only [step, hw, Res.ok_bind, Res.pure_eq], h.upd j hh⟩
  | length i =>
    have hl := (h i).choose_spec.2.1
    exact ⟨s, by simp [step, hl], h⟩
  | isEmpty i =>
    have hl := (h i).choose_spec.2.1
    refine ⟨s, ?_, h⟩
    cases ht : t i <;> simp [step, hl, ht]

end Verif.Vec
