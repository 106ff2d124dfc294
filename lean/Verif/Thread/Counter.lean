import Verif.Thread.Lemmas

/-! # A counter under a mutex: lemmas -/

namespace Verif.Thread
open Spec

/-- the thread holds the mutex -/
def State.hd (s : State) (m u : Nat) : Bool := decide (s.mtx[m]? = some (.held u))

theorem hd_unique {s : State} {m t u : Nat} (h : s.hd m t = true) (hu : u ≠ t) : s.hd m u = false := by
  unfold State.hd at *
  have h' := of_decide_eq_true h
  apply decide_eq_false
  rw [h']
  intro e
  injection e with e
  injection e with e
  exact hu e.symm

/-- what a thread still has to add -/
def CT (N : Nat → Nat → Nat) (m x : Nat) (heap : List Cell) (h : Bool) (v : Int) (n : Nat) : Phase → Prop
  | .start b => h = false ∧ ∃ f c, heap[b]? = some (.live f c) ∧ n = N f c
  | .run _ code => ∃ l, Counts m x h l n code ∧ ∀ w, l = some w → v = w ∧ h = true
  | .fin _ => n = 0 ∧ h = false
  | .ended => n = 0 ∧ h = false

theorem CT_mono {N : Nat → Nat → Nat} {m x : Nat} {heap heap' : List Cell} {h : Bool} {v v' : Int} {n : Nat}
    {p : Phase} (hh : ∀ b f c, p.blk = some b → heap[b]? = some (.live f c) → heap'[b]? = some (.live f c))
    (hv : v' = v ∨ h = false) (hc : CT N m x heap h v n p) : CT N m x heap' h v' n p := by
  cases p with
  | start b =>
    obtain ⟨h1, f, c, h2, h3⟩ := hc
    exact ⟨h1, f, c, hh b f c rfl h2, h3⟩
  | run b code =>
    obtain ⟨l, h1, h2⟩ := hc
    refine ⟨l, h1, fun w hw => ?_⟩
    obtain ⟨h3, h4⟩ := h2 w hw
    rcases hv with hv | hv
    · exact ⟨hv.trans h3, h4⟩
    · rw [hv] at h4; cases h4
  | fin b => exact hc
  | ended => exact hc

/-- the invariant: value of the variable and what is still to be added -/
structure CInv (N : Nat → Nat → Nat) (m x : Nat) (total : Int) (tr : List Ev) (s : State) (ns : List Nat) : Prop where
  len : ns.length = s.thr.length
  each : ∀ t n p, ns[t]? = some n → s.ph t = some p → CT N m x s.heap (s.hd m t) (s.mem x) n p
  ghost : ∀ t, s.thr.length ≤ t → s.hd m t = false
  sum : s.mem x + ns.sum = total + spawnSum N tr

theorem sum_set : ∀ (l : List Nat) (t a b : Nat), l[t]? = some a → (l.set t b).sum + a = l.sum + b
  | [], t, a, b, h => by simp at h
  | y :: l, 0, a, b, h => by simp at h; subst h; simp; omega
  | y :: l, t + 1, a, b, h => by
    have := sum_set l t a b (by simpa using h)
    simp; omega

theorem spawnSum_snoc (N : Nat → Nat → Nat) (tr : List Ev) (e : Ev) :
    spawnSum N (tr ++ [e]) = spawnSum N tr + spawnSum N [e] := by
  induction tr with
  | nil => simp [spawnSum]
  | cons a l ih => cases a <;> simp only [List.cons_append, spawnSum] at * <;> omega

theorem cinv_update {N : Nat → Nat → Nat} {m x : Nat} {total : Int} {tr : List Ev} {s s' : State} {ns : List Nat}
    {e : Ev} {t n n' : Nat} {p' : Phase} (hi : CInv N m x total tr s ns) (ht : ns[t]? = some n)
    (hlen : s'.thr.length = s.thr.length)
    (hph : ∀ u, s'.ph u = if u = t then some p' else s.ph u)
    (hnew : CT N m x s'.heap (s'.hd m t) (s'.mem x) n' p')
    (hh : ∀ u q b f c, u ≠ t → s.ph u = some q → q.blk = some b → s.heap[b]? = some (.live f c) →
      s'.heap[b]? = some (.live f c))
    (hhd : ∀ u, u ≠ t → s'.hd m u = s.hd m u) (hmem : s'.mem x = s.mem x ∨ s.hd m t = true)
    (hsum : s'.mem x + n' = s.mem x + n) (he : spawnSum N [e] = 0) :
    CInv N m x total (tr ++ [e]) s' (ns.set t n') := by
  have htl : t < s.thr.length := by rw [← hi.len]; exact (List.getElem?_eq_some_iff.1 ht).1
  refine ⟨by rw [List.length_set, hi.len, hlen], ?_, ?_, ?_⟩
  · intro u k p hk hp
    rw [hph] at hp
    by_cases hu : u = t
    · subst hu
      rw [if_pos rfl] at hp
      cases hp
      rw [List.getElem?_set_self (by rw [hi.len]; exact htl)] at hk
      cases hk
      exact hnew
    · rw [if_neg hu] at hp
      rw [List.getElem?_set_ne (fun q => hu q.symm)] at hk
      rw [hhd u hu]
      refine CT_mono (fun b f c hb => hh u p b f c hu hp hb) ?_ (hi.each u k p hk hp)
      rcases hmem with hmem | hmem
      · exact .inl hmem
      · exact .inr (hd_unique hmem hu)
  · intro u hu
    rw [hlen] at hu
    rw [hhd u (by omega)]
    exact hi.ghost u hu
  · have h1 := sum_set ns t n n' ht
    have h2 := hi.sum
    rw [spawnSum_snoc, he]
    omega

/-- the thread holds a mutex: after a step that does not touch it -/
theorem hd_congr {s s' : State} {m : Nat} (h : s'.mtx = s.mtx) (u : Nat) : s'.hd m u = s.hd m u := by
  unfold State.hd; rw [h]

theorem hd_eq {s s' : State} {m u : Nat} (h : s'.mtx[m]? = some (.held u) ↔ s.mtx[m]? = some (.held u)) :
    s'.hd m u = s.hd m u := by
  unfold State.hd
  exact decide_eq_decide.2 h

/-- a call that neither touches the mutex nor the variable -/
theorem cinv_keep {N : Nat → Nat → Nat} {m x : Nat} {total : Int} {tr : List Ev} {s s' : State} {ns : List Nat}
    {e : Ev} {t : Nat} {b : Option Nat} {a : Act} {k : Int → Code} {r : Int} (hi : CInv N m x total tr s ns)
    (hat : s.ph t = some (.run b (.act a k))) (hlen : s'.thr.length = s.thr.length)
    (hph : ∀ u, s'.ph u = if u = t then some (.run b (k r)) else s.ph u)
    (hh : ∀ (b f c : Nat), s.heap[b]? = some (Cell.live f c) → s'.heap[b]? = some (Cell.live f c))
    (hhd : ∀ u, s'.hd m u = s.hd m u) (hmem : s'.mem x = s.mem x) (he : spawnSum N [e] = 0)
    (hc : ∀ h l n, Counts m x h l n (.act a k) → Counts m x h l n (k r)) :
    ∃ ns', CInv N m x total (tr ++ [e]) s' ns' := by
  have htl := ph_lt hat
  obtain ⟨n, hn⟩ : ∃ n, ns[t]? = some n := ⟨_, List.getElem?_eq_getElem (by rw [hi.len]; exact htl)⟩
  refine ⟨ns.set t n, cinv_update hi hn hlen hph ?_ (fun u q b' f c _ _ _ => hh b' f c) (fun u _ => hhd u)
    (.inl hmem) (by rw [hmem]) he⟩
  obtain ⟨l, h1, h2⟩ := hi.each t n _ hn hat
  rw [hhd, hmem]
  exact ⟨l, hc _ _ _ h1, h2⟩

theorem set_hd {l : List Mx} {m m' : Nat} {x : Mx} (h : m' ≠ m) (u : Nat) :
    (l.set m' x)[m]? = some (.held u) ↔ l[m]? = some (.held u) := by
  rw [List.getElem?_set_ne h]

/-- each step keeps the invariant -/
theorem cinv_step {fns : Nat → Nat → Code} {N : Nat → Nat → Nat} {m x : Nat} {total : Int} {tr : List Ev}
    {s s' : State} {ns : List Nat} {e : Ev} (hf : ∀ f c, Counts m x false none (N f c) (fns f c)) (hv : Inv tr s)
    (hi : CInv N m x total tr s ns) (hs : Step fns s e s') (hd : ∀ t, e ≠ .died t) :
    ∃ ns', CInv N m x total (tr ++ [e]) s' ns' := by
  have hmv := step_move hs
  have get : ∀ {t : Nat} {p : Phase}, s.ph t = some p → ∃ n, ns[t]? = some n := fun h =>
    ⟨_, List.getElem?_eq_getElem (by rw [hi.len]; exact ph_lt h)⟩
  cases hs with
  | @begin t b f c h1 h2 =>
    have h1' := in_iff.1 h1
    obtain ⟨n, hn⟩ := get h1'
    obtain ⟨g1, f', c', g2, g3⟩ := hi.each t n _ hn h1'
    rw [h2] at g2
    cases g2
    refine ⟨_, cinv_update (n' := n) hi hn (length_go ..) (ph_go h1') ?_ (fun u q b' f c _ _ _ h => h) (fun u _ => rfl)
      (.inl rfl) rfl rfl⟩
    refine ⟨none, ?_, fun w hw => by cases hw⟩
    show Counts m x (s.hd m t) none n _
    rw [g1, g3]
    exact hf f c
  | @finish t b h1 =>
    have h1' := in_iff.1 h1
    obtain ⟨n, hn⟩ := get h1'
    obtain ⟨l, g1, g2⟩ := hi.each t n _ hn h1'
    have g1' : s.hd m t = false ∧ n = 0 := g1
    refine ⟨_, cinv_update (n' := n) hi hn (length_go ..) (ph_go h1') ?_ (fun u q b' f c _ _ _ h => h) (fun u _ => rfl)
      (.inl rfl) rfl rfl⟩
    exact ⟨g1'.2, g1'.1⟩
  | @free t b f c h1 h2 =>
    have h1' := in_iff.1 h1
    obtain ⟨n, hn⟩ := get h1'
    have g := hi.each t n _ hn h1'
    refine ⟨_, cinv_update (n' := n) hi hn (length_go ..) (ph_go h1') ?_ ?_ (fun u _ => rfl) (.inl rfl) rfl rfl⟩
    · exact g
    · intro u q b' f' c' hu hq hb hl
      have hne : b ≠ b' := by
        rintro rfl
        exact hu (hv.inj u q t _ b hq h1' hb rfl)
      show (s.heap.set b .freed)[b']? = _
      rw [List.getElem?_set_ne hne]; exact hl
  | @spawnOom t b f c k h1 =>
    exact cinv_keep hi (at_iff.1 h1) (length_go ..) (ph_go (at_iff.1 h1)) (fun _ _ _ h => h) (fun u => rfl) rfl rfl
      (fun h l n g => g _)
  | @spawnFail t b f c k h1 =>
    exact cinv_keep hi (at_iff.1 h1) (length_go ..) (ph_go (at_iff.1 h1))
      (fun b f c h => (snoc_iff _ (by simp) _).2 h) (fun u => rfl) rfl rfl (fun h l n g => g _)
  | @spawn t b f c k h1 =>
    cases hmv with
    | spawn _ b' _ _ k' h1' h3 h4 =>
      have h1'' := at_iff.1 h1
      rw [h1''] at h1'
      injection h1' with h1'
      injection h1' with e1 e2
      injection e2 with e2 e3
      subst e1; subst e3
      have htl := ph_lt h1''
      refine ⟨ns ++ [N f c], ⟨?_, ?_, ?_, ?_⟩⟩
      · simp [hi.len, length_go]
      · intro u n p hn hp
        rw [h3] at hp
        by_cases hu : u = t
        · subst hu
          rw [if_pos rfl] at hp
          cases hp
          rw [List.getElem?_append_left (by rw [hi.len]; exact htl)] at hn
          obtain ⟨l, g1, g2⟩ := hi.each u n _ hn h1''
          exact ⟨l, g1 _, g2⟩
        · rw [if_neg hu] at hp
          by_cases hl : u = s.thr.length
          · subst hl
            rw [if_pos rfl] at hp
            cases hp
            rw [← hi.len] at hn
            simp at hn
            subst hn
            refine ⟨hi.ghost _ (Nat.le_refl _), f, c, ?_, rfl⟩
            show (s.heap ++ [_])[s.heap.length]? = _
            simp
          · rw [if_neg hl] at hp
            have hul := ph_lt hp
            rw [List.getElem?_append_left (by rw [hi.len]; exact hul)] at hn
            refine CT_mono (fun b' f' c' _ h => ?_) (.inl rfl) (hi.each u n p hn hp)
            show (s.heap ++ [_])[b']? = _
            rw [List.getElem?_append_left (List.getElem?_eq_some_iff.1 h).1]
            exact h
      · intro u hu
        have hu' : s.thr.length + 1 ≤ u := by simpa [length_go] using hu
        exact hi.ghost u (by omega)
      · have h2 := hi.sum
        rw [spawnSum_snoc]
        show s.mem x + _ = _
        simp [spawnSum]
        omega
    | other _ _ _ _ _ _ he => cases he
  | @join t b u k th h1 h2 h3 h4 =>
    exact cinv_keep hi (at_iff.1 h1) (by simp [State.release, State.go]) (fun u => by rw [ph_release, ph_go (at_iff.1 h1)])
      (fun _ _ _ h => h) (fun u => rfl) rfl rfl (fun h l n g => g _)
  | @joinSelf t b k th h1 h2 h3 =>
    exact cinv_keep hi (at_iff.1 h1) (length_go ..) (ph_go (at_iff.1 h1)) (fun _ _ _ h => h) (fun u => rfl) rfl rfl
      (fun h l n g => g _)
  | @detach t b u k th h1 h2 h3 =>
    exact cinv_keep hi (at_iff.1 h1) (by simp [State.release, State.go]) (fun u => by rw [ph_release, ph_go (at_iff.1 h1)])
      (fun _ _ _ h => h) (fun u => rfl) rfl rfl (fun h l n g => g _)
  | @cancel t b u k th h1 h2 h3 =>
    exact cinv_keep hi (at_iff.1 h1) (by simp [State.go])
      (fun u => by rw [← ph_go (at_iff.1 h1)]; exact ph_mark (s.go _ _).thr _ (fun th => { th with cancelled := true }) (fun _ => rfl) u)
      (fun _ _ _ h => h) (fun u => rfl) rfl rfl (fun h l n g => g _)
  | die => exact absurd rfl (hd _)
  | @mnew t b k h1 =>
    exact cinv_keep hi (at_iff.1 h1) (length_go ..) (ph_go (at_iff.1 h1)) (fun _ _ _ h => h)
      (fun u => hd_eq (snoc_iff _ (by simp) _)) rfl rfl (fun h l n g => g _)
  | @lock t b m' k h1 h2 =>
    have h1' := at_iff.1 h1
    by_cases hm : m' = m
    · subst hm
      have hlt := (List.getElem?_eq_some_iff.1 h2).1
      obtain ⟨n, hn⟩ := get h1'
      obtain ⟨l, g1, g2⟩ := hi.each t n _ hn h1'
      rw [Counts] at g1
      simp only [if_true] at g1
      refine ⟨_, cinv_update (n' := n) hi hn (length_go ..) (ph_go h1') ?_ (fun u q b' f c _ _ _ h => h) ?_ (.inl rfl) rfl rfl⟩
      · refine ⟨none, ?_, fun w hw => by cases hw⟩
        have : State.hd { s.go t (.run b (k 0)) with mtx := s.mtx.set m' (.held t) } m' t = true := by
          simp [State.hd, hlt]
        rw [this]
        exact g1.2 0
      · intro u hu
        have e1 : s.hd m' u = false := by simp [State.hd, h2]
        rw [e1]
        have : t ≠ u := fun h => hu h.symm
        simp [State.hd, hlt, this]
    · refine cinv_keep hi h1' (length_go ..) (ph_go h1') (fun _ _ _ h => h) (fun u => hd_eq (set_hd hm u)) rfl rfl ?_
      intro h l n g
      rw [Counts] at g
      simp only [if_neg hm] at g
      exact g 0
  | @unlock t b m' k h1 h2 =>
    have h1' := at_iff.1 h1
    by_cases hm : m' = m
    · subst hm
      have hlt := (List.getElem?_eq_some_iff.1 h2).1
      obtain ⟨n, hn⟩ := get h1'
      obtain ⟨l, g1, g2⟩ := hi.each t n _ hn h1'
      rw [Counts] at g1
      simp only [if_true] at g1
      refine ⟨_, cinv_update (n' := n) hi hn (length_go ..) (ph_go h1') ?_ (fun u q b' f c _ _ _ h => h) ?_ (.inl rfl) rfl rfl⟩
      · refine ⟨none, ?_, fun w hw => by cases hw⟩
        have : State.hd { s.go t (.run b (k 0)) with mtx := s.mtx.set m' .free } m' t = false := by
          simp [State.hd, hlt]
        rw [this]
        exact g1.2 0
      · intro u hu
        have e1 : s.hd m' u = false := by
          have : t ≠ u := fun h => hu h.symm
          simp [State.hd, h2, this]
        rw [e1]
        simp [State.hd, hlt]
    · refine cinv_keep hi h1' (length_go ..) (ph_go h1') (fun _ _ _ h => h) (fun u => hd_eq (set_hd hm u)) rfl rfl ?_
      intro h l n g
      rw [Counts] at g
      simp only [if_neg hm] at g
      exact g 0
  | @mfree t b m' k h1 h2 =>
    refine cinv_keep hi (at_iff.1 h1) (length_go ..) (ph_go (at_iff.1 h1)) (fun _ _ _ h => h) (fun u => hd_eq ?_) rfl rfl
      (fun h l n g => g _)
    by_cases hm : m' = m
    · subst hm
      show (s.mtx.set m' .destroyed)[m']? = _ ↔ _
      rw [List.getElem?_set_self (List.getElem?_eq_some_iff.1 h2).1, h2]
      constructor <;> intro h <;> cases h
    · exact set_hd hm u
  | @load t b y k h1 =>
    have h1' := at_iff.1 h1
    by_cases hy : y = x
    · subst hy
      obtain ⟨n, hn⟩ := get h1'
      obtain ⟨l, g1, g2⟩ := hi.each t n _ hn h1'
      rw [Counts] at g1
      simp only [if_true] at g1
      refine ⟨_, cinv_update (n' := n) hi hn (length_go ..) (ph_go h1') ?_ (fun u q b' f c _ _ _ h => h) (fun u _ => rfl)
        (.inl rfl) rfl rfl⟩
      exact ⟨some (s.mem y), g1.2 _, fun w hw => ⟨by cases hw; rfl, g1.1⟩⟩
    · refine cinv_keep hi h1' (length_go ..) (ph_go h1') (fun _ _ _ h => h) (fun u => rfl) rfl rfl ?_
      intro h l n g
      rw [Counts] at g
      simp only [if_neg hy] at g
      exact g _
  | @store t b y v k h1 =>
    have h1' := at_iff.1 h1
    by_cases hy : y = x
    · subst hy
      obtain ⟨n, hn⟩ := get h1'
      obtain ⟨l, g1, g2⟩ := hi.each t n _ hn h1'
      rw [Counts] at g1
      simp only [if_true] at g1
      obtain ⟨gh, gl, n', rfl, gk⟩ := g1
      obtain ⟨gm, _⟩ := g2 _ gl
      have hnew : (fun z => if z = y then v else s.mem z) y = v := by simp
      refine ⟨_, cinv_update (n' := n') hi hn (length_go ..) (ph_go h1') ?_ (fun u q b' f c _ _ _ h => h) (fun u _ => rfl)
        (.inr gh) ?_ rfl⟩
      · exact ⟨none, gk 0, fun w hw => by cases hw⟩
      · show (fun z => if z = y then v else s.mem z) y + (n' : Int) = s.mem y + ((n' + 1 : Nat) : Int)
        rw [hnew, gm]
        omega
    · refine cinv_keep hi h1' (length_go ..) (ph_go h1') (fun _ _ _ h => h) (fun u => rfl) ?_ rfl ?_
      · show (fun z => if z = y then v else s.mem z) x = s.mem x
        have : ¬ x = y := fun h => hy h.symm
        simp [this]
      · intro h l n g
        rw [Counts] at g
        simp only [if_neg hy] at g
        exact g 0
  | @sleep t b k h1 =>
    exact cinv_keep hi (at_iff.1 h1) (length_go ..) (ph_go (at_iff.1 h1)) (fun _ _ _ h => h) (fun u => rfl) rfl rfl
      (fun h l n g => g _)

theorem cinv_exec {fns : Nat → Nat → Code} {N : Nat → Nat → Nat} {m x n0 k : Nat} {main : Code} {mem : Nat → Int}
    {tr : List Ev} {s : State} (hf : ∀ f c, Counts m x false none (N f c) (fns f c))
    (h0 : Counts m x false none n0 main) (h : Exec fns (init main k mem) tr s) (hd : ∀ t, .died t ∉ tr) :
    ∃ ns, CInv N m x (mem x + n0) tr s ns := by
  induction h with
  | nil =>
    have hn : ∀ t, (init main k mem).hd m t = false := by
      intro t
      apply decide_eq_false
      show (List.replicate k Mx.free)[m]? ≠ _
      rw [List.getElem?_replicate]
      split <;> simp
    refine ⟨[n0], rfl, ?_, fun t _ => hn t, ?_⟩
    · intro t n p ht hp
      cases t with
      | succ t => simp at ht
      | zero =>
        simp at ht
        subst ht
        have : p = .run none main := by simpa [State.ph, init] using hp.symm
        subst this
        rw [hn]
        exact ⟨none, h0, fun w hw => by cases hw⟩
    · simp [init, spawnSum]
  | @snoc tr s e s' hx ha hs ih =>
    obtain ⟨ns, hi⟩ := ih (fun t h => hd t (by simp [h]))
    exact cinv_step hf (inv_exec hx) hi hs (fun t h => hd t (by simp [h]))

end Verif.Thread
