import Verif.Pratt.Lemmas

/-!
# Every text of the grammar is parsed to its tree
-/

namespace Verif.Pratt

open Spec

/-- reading an expression at some level, up to a place where nothing continues it -/
theorem comp_stop {g : G} (hg : WF g) {e : Expr} (h : Comp g e) {p : Nat} {ts rest : List Tok} {n : Nat}
    (hd : der g e p ts rest) (hp : p ≤ g.un) (hs : next g rest = 0 ∨ next g rest < p)
    (hn : 3 * ts.length + 1 ≤ n) : parseN g n p ts = some (e, rest) := by
  have hc : g.call = g.un + 1 := rfl
  have h1 := lev_pos hg hd
  have h2 := lev_ge hd (by omega)
  have h3 := le_thr g (lev g e)
  obtain ⟨m, hm, e1⟩ := h p p ts rest n hd (Nat.le_refl _) hp (by omega) (by omega) hn
  rw [e1]
  exact loop_stop (by omega) hp hs

theorem loop_post {g : G} {m p : Nat} {o : Op} {b : Bool} {l : Expr} {r : List Tok}
    (hb : (b && g.brk o) = false) (ho : isInc o = true) :
    loop g (m + 1) p l (⟨.op o, b⟩ :: r) = loop g m p (.post o l) r := by
  simp only [loop, hb, ho]; simp

theorem loop_bin {g : G} {m p : Nat} {o : Op} {b : Bool} {l e : Expr} {r r' : List Tok}
    (hb : (b && g.brk o) = false) (ho : isInc o = false) (h0 : g.prec o ≠ 0) (hp : p ≤ g.prec o)
    (hr : parseN g m (g.rhs o) r = some (e, r')) :
    loop g (m + 1) p l (⟨.op o, b⟩ :: r) = loop g m p (.bin o l e) r' := by
  have : ¬ (g.prec o = 0 ∨ g.prec o < p) := by omega
  simp only [loop, hb, ho, hr, if_neg this]; simp

theorem loop_call {g : G} {m p : Nat} {b : Bool} {l : Expr} {as : Args} {r r' : List Tok}
    (hp : p ≤ g.un) (hr : args g m r = some (as, r')) (hne : ∀ b' q, r ≠ ⟨.rpar, b'⟩ :: q) :
    loop g (m + 1) p l (⟨.lpar, b⟩ :: r) = loop g m p (.call l as) r' := by
  have : ¬ g.call < p := by unfold G.call; omega
  rcases r with _ | ⟨⟨k, b'⟩, q⟩
  · simp only [loop, if_neg this, hr]
  · cases k
    case rpar => exact absurd rfl (hne b' q)
    all_goals simp only [loop, if_neg this, hr]

theorem parse_not_rpar {g : G} {n p : Nat} {b : Bool} {r : List Tok} :
    parseN g n p (⟨.rpar, b⟩ :: r) = none := by
  cases n <;> simp only [parseN]

mutual
theorem comp {g : G} (hg : WF g) : ∀ (e : Expr), Comp g e
  | .id x, p, p', ts, rest, n, h, hp, hu, hpc, hs, hn => by
    obtain ⟨b, rfl, ha⟩ := h
    obtain ⟨n, rfl⟩ : ∃ k, n = k + 1 := ⟨n - 1, by omega⟩
    refine ⟨n, by simp at hn; omega, ?_⟩
    simp only [parseN]
    split
    · rename_i b' r'
      split
      · rename_i hh; exact absurd rfl (ha hh b' r')
      · rfl
    · rfl
  | .num v, p, p', ts, rest, n, h, hp, hu, hpc, hs, hn => by
    obtain ⟨b, rfl⟩ := h
    obtain ⟨n, rfl⟩ : ∃ k, n = k + 1 := ⟨n - 1, by omega⟩
    exact ⟨n, by simp at hn; omega, by simp only [parseN]⟩
  | .par e, p, p', ts, rest, n, h, hp, hu, hpc, hs, hn => by
    simp only [der] at h
    obtain ⟨b, b', r, rfl, hh, h⟩ := h
    obtain ⟨n, rfl⟩ : ∃ k, n = k + 1 := ⟨n - 1, by omega⟩
    have hl := der_length g e _ _ _ h
    simp only [List.length_cons] at hl hn
    have h1 := comp_stop hg (comp hg e) h (Nat.zero_le _) (.inl rfl) (n := n) (by omega)
    refine ⟨n, by omega, ?_⟩
    have e1 : (if g.heur = true then lamLook r else none) = none := by
      split
      · rename_i hx; exact (hh hx).1
      · rfl
    have e2 : (if g.heur = true then castLook r else none) = none := by
      split
      · rename_i hx; exact (hh hx).2
      · rfl
    simp only [parseN, e1, e2, h1]
  | .un o e, p, p', ts, rest, n, h, hp, hu, hpc, hs, hn => by
    simp only [der] at h
    obtain ⟨h1, h2, b, r, rfl, h⟩ := h
    obtain ⟨n, rfl⟩ : ∃ k, n = k + 1 := ⟨n - 1, by omega⟩
    have hl := der_length g e _ _ _ h
    simp only [List.length_cons] at hl hn
    simp only [lev, thr, hg.run, if_true] at hs
    have h1 := comp_stop hg (comp hg e) h (Nat.le_refl _) (.inr hs) (n := n) (by omega)
    exact ⟨n, by omega, by simp only [parseN, h2, h1, if_true]⟩
  | .post o e, p, p', ts, rest, n, h, hp, hu, hpc, hs, hn => by
    simp only [der] at h
    obtain ⟨h1, b, h2, h⟩ := h
    have hv := lev_ge h (Nat.le_refl _)
    have hc : g.call = g.un + 1 := rfl
    obtain ⟨m, hm, e1⟩ := comp hg e g.call p' ts _ n h (by omega) hu (Nat.le_refl _) (by
      have : next g (⟨.op o, b⟩ :: rest) = g.call := by simp [next, h1, h2]
      rw [this]
      have : lev g e = g.call ∨ g.call + 1 ≤ lev g e := by omega
      rcases this with hx | hx
      · simp [hx, thr, hg.rcall]
      · have := le_thr g (lev g e); omega) hn
    simp only [List.length_cons] at hm
    obtain ⟨m, rfl⟩ : ∃ k, m = k + 1 := ⟨m - 1, by omega⟩
    exact ⟨m, by omega, by rw [e1, loop_post h2 h1]⟩
  | .tryE e, p, p', ts, rest, n, h, hp, hu, hpc, hs, hn => by
    simp only [der] at h
    obtain ⟨h1, b, h⟩ := h
    have hv := lev_ge h (Nat.le_refl _)
    have hc : g.call = g.un + 1 := rfl
    obtain ⟨m, hm, e1⟩ := comp hg e g.call p' ts _ n h (by omega) hu (Nat.le_refl _) (by
      have : next g (⟨.quest, b⟩ :: rest) = g.call := by simp [next, h1]
      rw [this]
      have : lev g e = g.call ∨ g.call + 1 ≤ lev g e := by omega
      rcases this with hx | hx
      · simp [hx, thr, hg.rcall]
      · have := le_thr g (lev g e); omega) hn
    simp only [List.length_cons] at hm
    obtain ⟨m, rfl⟩ : ∃ k, m = k + 1 := ⟨m - 1, by omega⟩
    refine ⟨m, by omega, ?_⟩
    have : ¬ g.call < p' := by omega
    rw [e1]
    simp only [loop, if_neg this, h1]; simp
  | .bin o l r, p, p', ts, rest, n, h, hp, hu, hpc, hs, hn => by
    simp only [der] at h
    obtain ⟨h1, h2, h3, b, q, h4, hl, hr⟩ := h
    have hpr := hg.prec o
    have hc : g.call = g.un + 1 := rfl
    have hll := der_length g l _ _ _ hl
    have hrl := der_length g r _ _ _ hr
    simp only [List.length_cons] at hll
    simp only [lev] at hs
    have hL : (if g.right (g.prec o) then g.prec o + 1 else g.prec o) ≤ g.call := by split <;> omega
    have hv := lev_ge hl hL
    obtain ⟨m, hm, e1⟩ := comp hg l _ p' ts _ n hl (by split <;> omega) hu hL (by
      have : next g (⟨.op o, b⟩ :: q) = g.prec o := by simp [next, h3, h4]
      rw [this]
      by_cases hq : lev g l = g.prec o
      · rw [hq] at hv ⊢
        unfold thr
        split at hv
        · omega
        · rename_i hx; rw [if_neg hx]; omega
      · have := le_thr g (lev g l)
        have : g.prec o ≤ lev g l := by split at hv <;> omega
        omega) hn
    simp only [List.length_cons] at hm
    obtain ⟨m, rfl⟩ : ∃ k, m = k + 1 := ⟨m - 1, by omega⟩
    have h5 := comp_stop hg (comp hg r) (n := m) hr (by split <;> omega) (by
      right; unfold thr at hs; exact hs) (by omega)
    exact ⟨m, by omega, by rw [e1, loop_bin h4 h3 h2 (by omega) h5]⟩
  | .tern c t f, p, p', ts, rest, n, h, hp, hu, hpc, hs, hn => by
    simp only [der] at h
    obtain ⟨h1, b, b', q, q', h2, hc, ht, hf⟩ := h
    have hu3 := hg.un
    have hcl : g.call = g.un + 1 := rfl
    have hl1 := der_length g c _ _ _ hc
    have hl2 := der_length g t _ _ _ ht
    have hl3 := der_length g f _ _ _ hf
    simp only [List.length_cons] at hl1 hl2
    have hv := lev_ge hc (by omega)
    obtain ⟨m, hm, e1⟩ := comp hg c _ p' ts _ n hc (by omega) hu (by omega) (by
      have : next g (⟨.quest, b⟩ :: q) = 2 := by simp [next, h2]
      have := le_thr g (lev g c)
      omega) hn
    simp only [List.length_cons] at hm
    obtain ⟨m, rfl⟩ : ∃ k, m = k + 1 := ⟨m - 1, by omega⟩
    have h5 := comp_stop hg (comp hg t) (n := m) ht (by omega) (.inl rfl) (by omega)
    simp only [lev, thr, hg.rtern, if_true] at hs
    have h6 := comp_stop hg (comp hg f) (n := m) hf (by omega) (.inr hs) (by omega)
    refine ⟨m, by omega, ?_⟩
    have g1 : ¬ g.call < p' := by omega
    have g2 : ¬ 2 < p' := by omega
    rw [e1]
    simp only [loop, if_neg g1, if_neg g2, h2, h5, h6, if_true]
  | .call f as, p, p', ts, rest, n, h, hp, hu, hpc, hs, hn => by
    simp only [der] at h
    obtain ⟨b, q, hf, ha⟩ := h
    have hc : g.call = g.un + 1 := rfl
    have hl1 := der_length g f _ _ _ hf
    have hl2 := ders_length g as _ _ _ ha
    simp only [List.length_cons] at hl1
    have hv := lev_ge hf (Nat.le_refl _)
    obtain ⟨m, hm, e1⟩ := comp hg f g.call p' ts _ n hf (by omega) hu (Nat.le_refl _) (by
      have : next g (⟨.lpar, b⟩ :: q) = g.call := by simp [next]
      rw [this]
      have : lev g f = g.call ∨ g.call + 1 ≤ lev g f := by omega
      rcases this with hx | hx
      · simp [hx, thr, hg.rcall]
      · have := le_thr g (lev g f); omega) hn
    simp only [List.length_cons] at hm
    obtain ⟨m, rfl⟩ : ∃ k, m = k + 1 := ⟨m - 1, by omega⟩
    refine ⟨m, by omega, ?_⟩
    rw [e1]
    cases as with
    | nil =>
      obtain ⟨_, b', rfl⟩ := ha
      have : ¬ g.call < p' := by omega
      simp only [loop, if_neg this]
    | cons e as =>
      have ha' : ders g (.cons e as) false q rest := by
        cases as <;> simpa only [ders] using ha
      have h6 := comps hg (.cons e as) q rest m ha' (by omega)
      refine loop_call hu h6 ?_
      intro b' q' hq
      rw [hq] at h6
      cases m with
      | zero => simp [args] at h6
      | succ k => simp [args, parse_not_rpar] at h6
  | .idx a i, p, p', ts, rest, n, h, hp, hu, hpc, hs, hn => by
    simp only [der] at h
    obtain ⟨b, b', q, ha, hi⟩ := h
    have hc : g.call = g.un + 1 := rfl
    have hl1 := der_length g a _ _ _ ha
    have hl2 := der_length g i _ _ _ hi
    simp only [List.length_cons] at hl1 hl2
    have hv := lev_ge ha (Nat.le_refl _)
    obtain ⟨m, hm, e1⟩ := comp hg a g.call p' ts _ n ha (by omega) hu (Nat.le_refl _) (by
      have : next g (⟨.lbr, b⟩ :: q) = g.call := by simp [next]
      rw [this]
      have : lev g a = g.call ∨ g.call + 1 ≤ lev g a := by omega
      rcases this with hx | hx
      · simp [hx, thr, hg.rcall]
      · have := le_thr g (lev g a); omega) hn
    simp only [List.length_cons] at hm
    obtain ⟨m, rfl⟩ : ∃ k, m = k + 1 := ⟨m - 1, by omega⟩
    have h6 := comp_stop hg (comp hg i) (n := m) hi (by omega) (.inl rfl) (by omega)
    refine ⟨m, by omega, ?_⟩
    have : ¬ g.call < p' := by omega
    rw [e1]
    simp only [loop, if_neg this, h6]
  | .mem ptr e f, p, p', ts, rest, n, h, hp, hu, hpc, hs, hn => by
    simp only [der] at h
    obtain ⟨b, b', h⟩ := h
    have hv := lev_ge h (Nat.le_refl _)
    have hc : g.call = g.un + 1 := rfl
    obtain ⟨m, hm, e1⟩ := comp hg e g.call p' ts _ n h (by omega) hu (Nat.le_refl _) (by
      have : next g (⟨if ptr = true then .arrow else .dot, b⟩ :: ⟨.ident f, b'⟩ :: rest) = g.call := by
        cases ptr <;> simp [next]
      rw [this]
      have : lev g e = g.call ∨ g.call + 1 ≤ lev g e := by omega
      rcases this with hx | hx
      · simp [hx, thr, hg.rcall]
      · have := le_thr g (lev g e); omega) hn
    simp only [List.length_cons] at hm
    obtain ⟨m, rfl⟩ : ∃ k, m = k + 1 := ⟨m - 1, by omega⟩
    refine ⟨m, by omega, ?_⟩
    have : ¬ g.call < p' := by omega
    rw [e1]
    cases ptr <;> simp [loop, if_neg this]
  | .cast x s e, p, p', ts, rest, n, h, hp, hu, hpc, hs, hn => by
    simp only [der] at h
    obtain ⟨h1, h2, b, r, q, rfl, h3, h4, h⟩ := h
    obtain ⟨n, rfl⟩ : ∃ k, n = k + 1 := ⟨n - 1, by omega⟩
    have hl := der_length g e _ _ _ h
    have hl2 := castLook_length h4
    simp only [List.length_cons] at hl hn
    simp only [lev, thr, hg.run, if_true] at hs
    have h5 := comp_stop hg (comp hg e) h (Nat.le_refl _) (.inr hs) (n := n) (by simp at hl2; omega)
    refine ⟨n, by simp at hl2; omega, ?_⟩
    simp only [parseN, h2, h3, h4, h5, if_true]
  | .lam ps e, p, p', ts, rest, n, h, hp, hu, hpc, hs, hn => by
    simp only [der] at h
    obtain ⟨h2, h0, q, hm, h⟩ := h
    obtain ⟨n, rfl⟩ : ∃ k, n = k + 1 := ⟨n - 1, by omega⟩
    have hl := der_length g e _ _ _ h
    rcases hm with ⟨b, r, rfl, h3⟩ | ⟨x, b, b', rfl, rfl⟩
    · have hl2 := lamLook_length h3
      simp only [List.length_cons] at hl hn
      have h5 := comp_stop hg (comp hg e) h (Nat.zero_le _) (.inl h0) (n := n) (by simp at hl2; omega)
      refine ⟨n, by simp at hl2; omega, ?_⟩
      simp only [parseN, h2, h3, h5, if_true]
    · simp only [List.length_cons] at hl hn
      have h5 := comp_stop hg (comp hg e) h (Nat.zero_le _) (.inl h0) (n := n) (by omega)
      refine ⟨n, by omega, ?_⟩
      simp only [parseN, h2, h5, if_true]
theorem comps {g : G} (hg : WF g) : ∀ (as : Args), Comps g as
  | .nil, ts, rest, n, h, hn => by simp [ders] at h
  | .cons e .nil, ts, rest, n, h, hn => by
    simp only [ders] at h
    obtain ⟨b, h⟩ := h
    obtain ⟨n, rfl⟩ : ∃ k, n = k + 1 := ⟨n - 1, by omega⟩
    have h5 := comp_stop hg (comp hg e) h (Nat.zero_le _) (.inl rfl) (n := n) (by omega)
    simp only [args, h5]
  | .cons e (.cons e' as), ts, rest, n, h, hn => by
    simp only [ders] at h
    obtain ⟨b, q, h, h2⟩ := h
    obtain ⟨n, rfl⟩ : ∃ k, n = k + 1 := ⟨n - 1, by omega⟩
    have hl := der_length g e _ _ _ h
    simp only [List.length_cons] at hl
    have h5 := comp_stop hg (comp hg e) h (Nat.zero_le _) (.inl rfl) (n := n) (by omega)
    have h6 := comps hg (.cons e' as) q rest n (by simpa only [ders] using h2) (by omega)
    simp only [args, h5, h6]
end

/-- Every text of the grammar that nothing continues is parsed to its tree. -/
theorem parse_complete {g : G} (hg : WF g) {e : Expr} {ts rest : List Tok}
    (h : der g e 0 ts rest) (hs : next g rest = 0) : parse g ts = some (e, rest) :=
  comp_stop hg (comp hg e) h (Nat.zero_le _) (.inl hs) (Nat.le_refl _)

end Verif.Pratt
