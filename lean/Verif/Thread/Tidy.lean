import Verif.Thread.Counter

/-! # Programs that join what they spawn: lemmas -/

namespace Verif.Thread
open Spec

theorem map_modify {α : Type} (g : Thr → α) (f : Thr → Thr) (hf : ∀ th, g (f th) = g th) (l : List Thr) (t u : Nat) :
    (l.modify t f)[u]?.map g = l[u]?.map g := by
  rw [List.getElem?_modify]
  cases l[u]? with
  | none => simp
  | some th =>
    by_cases h : t = u
    · simp [h, hf]
    · simp [h]

/-- the thread can be joined -/
def State.jn (s : State) (u : Nat) : Option Bool := s.thr[u]?.map (·.joinable)

/-- the thread is to be cancelled -/
def State.cn (s : State) (u : Nat) : Option Bool := s.thr[u]?.map (·.cancelled)

theorem jn_go (s : State) (t : Nat) (p : Phase) (u : Nat) : (s.go t p).jn u = s.jn u :=
  map_modify (·.joinable) (fun th => { th with phase := p }) (fun _ => rfl) s.thr t u

theorem cn_go (s : State) (t : Nat) (p : Phase) (u : Nat) : (s.go t p).cn u = s.cn u :=
  map_modify (·.cancelled) (fun th => { th with phase := p }) (fun _ => rfl) s.thr t u

theorem cn_release (s : State) (t : Nat) (u : Nat) : (s.release t).cn u = s.cn u :=
  map_modify (·.cancelled) (fun th => { th with joinable := false }) (fun _ => rfl) s.thr t u

theorem jn_release (s : State) (t : Nat) (u : Nat) (h : u ≠ t) : (s.release t).jn u = s.jn u := by
  unfold State.jn State.release
  rw [List.getElem?_modify]
  have : ¬ t = u := fun e => h e.symm
  cases s.thr[u]? <;> simp [this]

/-- what the phase of a thread says; `kids`: threads it has to join -/
def TP (h : Bool) (kids : List Nat) : Phase → Prop
  | .start _ => h = false ∧ kids = []
  | .run _ code => Tidy 0 h kids code
  | .fin _ => h = false
  | .ended => h = false

/-- the invariant -/
structure TInv (s : State) (K : Nat → List Nat) : Prop where
  each : ∀ t p, s.ph t = some p → TP (s.hd 0 t) (K t) p
  kids : ∀ t u, u ∈ K t → t < u ∧ s.jn u = some true
  nodup : ∀ t, (K t).Nodup
  disj : ∀ t t' u, u ∈ K t → u ∈ K t' → t = t'
  calm : ∀ t, s.cn t ≠ some true
  mtx : s.mtx = [.free] ∨ ∃ t, s.mtx = [.held t]
  ghost : ∀ t, s.thr.length ≤ t → s.hd 0 t = false ∧ K t = []

theorem tinv_update {s s' : State} {K : Nat → List Nat} {t : Nat} {p' : Phase} {l : List Nat} (hi : TInv s K)
    (htl : t < s.thr.length) (hlen : s'.thr.length = s.thr.length)
    (hph : ∀ u, s'.ph u = if u = t then some p' else s.ph u) (hnew : TP (s'.hd 0 t) l p')
    (hl : ∀ u ∈ l, u ∈ K t) (hn : l.Nodup) (hhd : ∀ u, u ≠ t → s'.hd 0 u = s.hd 0 u)
    (hj : ∀ u, s.jn u = some true → u ∉ K t ∨ u ∈ l → s'.jn u = some true) (hc : ∀ u, s'.cn u = s.cn u)
    (hm : s'.mtx = [.free] ∨ ∃ t, s'.mtx = [.held t]) :
    TInv s' (fun u => if u = t then l else K u) := by
  have sub : ∀ v u, u ∈ (if v = t then l else K v) → u ∈ K v := by
    intro v u hu
    by_cases hv : v = t
    · rw [if_pos hv] at hu; rw [hv]; exact hl u hu
    · rw [if_neg hv] at hu; exact hu
  refine ⟨?_, ?_, ?_, ?_, fun u => by rw [hc]; exact hi.calm u, hm, ?_⟩
  · intro u p hp
    rw [hph] at hp
    by_cases hu : u = t
    · subst hu
      rw [if_pos rfl] at hp
      cases hp
      show TP _ (if u = u then l else K u) _
      rw [if_pos rfl]
      exact hnew
    · rw [if_neg hu] at hp
      show TP _ (if u = t then l else K u) _
      rw [if_neg hu, hhd u hu]
      exact hi.each u p hp
  · intro v u hu
    have h1 := sub v u hu
    obtain ⟨h2, h3⟩ := hi.kids v u h1
    refine ⟨h2, hj u h3 ?_⟩
    by_cases hv : v = t
    · right; subst hv; simpa using hu
    · left; intro h4; exact hv (hi.disj v t u h1 h4)
  · intro v
    show (if v = t then l else K v).Nodup
    by_cases hv : v = t
    · rw [if_pos hv]; exact hn
    · rw [if_neg hv]; exact hi.nodup v
  · intro v v' u h1 h2
    exact hi.disj v v' u (sub v u h1) (sub v' u h2)
  · intro u hu
    rw [hlen] at hu
    have : ¬ u = t := by omega
    show _ ∧ (if u = t then l else K u) = []
    rw [if_neg this, hhd u this]
    exact hi.ghost u hu

/-- a call that touches neither the mutex nor other threads -/
theorem tinv_keep {s s' : State} {K : Nat → List Nat} {t : Nat} {p p' : Phase} (hi : TInv s K) (hp : s.ph t = some p)
    (hthr : s'.thr = (s.go t p').thr) (hm : s'.mtx = s.mtx)
    (hnew : TP (s.hd 0 t) (K t) p') : ∃ K', TInv s' K' := by
  have hs : ∀ u, s'.ph u = (s.go t p').ph u := fun u => by unfold State.ph; rw [hthr]
  refine ⟨_, tinv_update (l := K t) hi (ph_lt hp) (by rw [hthr, length_go]) (fun u => by rw [hs, ph_go hp])
    (by rw [hd_congr hm]; exact hnew) (fun u h => h) (hi.nodup t) (fun u _ => hd_congr hm u) ?_ ?_ (by rw [hm]; exact hi.mtx)⟩
  · intro u hu _
    rw [← hu, ← jn_go s t p' u]
    unfold State.jn; rw [hthr]
  · intro u
    rw [← cn_go s t p' u]
    unfold State.cn; rw [hthr]

theorem erase_release {s : State} {K : Nat → List Nat} {t u : Nat} {p' : Phase} (hi : TInv s K) (v : Nat)
    (hv : s.jn v = some true) (hor : v ∉ K t ∨ v ∈ (K t).erase u) (hu : u ∈ K t) :
    ((s.go t p').release u).jn v = some true := by
  have : v ≠ u := by
    rintro rfl
    rcases hor with h | h
    · exact h hu
    · exact ((hi.nodup t).mem_erase_iff.1 h).1 rfl
  rw [jn_release _ _ _ this, jn_go]; exact hv

theorem release_length (s : State) (u : Nat) : (s.release u).thr.length = s.thr.length := by
  simp [State.release]

theorem tinv_step {fns : Nat → Nat → Code} {s s' : State} {K : Nat → List Nat} {e : Ev}
    (hf : ∀ f c, Tidy 0 false [] (fns f c)) (hi : TInv s K) (hs : Step fns s e s') : ∃ K', TInv s' K' := by
  have hmv := step_move hs
  cases hs with
  | @begin t b f c h1 h2 =>
    have h1' := in_iff.1 h1
    have g := hi.each t _ h1'
    refine tinv_keep hi h1' (p' := .run (some b) (fns f c)) rfl rfl ?_
    show Tidy 0 _ _ _
    rw [g.1, g.2]
    exact hf f c
  | @finish t b h1 =>
    have h1' := in_iff.1 h1
    have g : s.hd 0 t = false := hi.each t _ h1'
    exact tinv_keep hi h1' (p' := .fin b) rfl rfl g
  | @free t b f c h1 h2 =>
    have h1' := in_iff.1 h1
    have g : s.hd 0 t = false := hi.each t _ h1'
    exact tinv_keep hi h1' (p' := .ended) rfl rfl g
  | @spawnOom t b f c k h1 =>
    have h1' := at_iff.1 h1
    have g : Tidy 0 (s.hd 0 t) (K t) (.act (.spawn f c) k) := hi.each t _ h1'
    exact tinv_keep hi h1' (p' := .run b (k (-1))) rfl rfl (by have g' := g (-1); rw [if_pos (by decide)] at g'; exact g')
  | @spawnFail t b f c k h1 =>
    have h1' := at_iff.1 h1
    have g : Tidy 0 (s.hd 0 t) (K t) (.act (.spawn f c) k) := hi.each t _ h1'
    exact tinv_keep hi h1' (p' := .run b (k (-1))) rfl rfl (by have g' := g (-1); rw [if_pos (by decide)] at g'; exact g')
  | @spawn t b f c k h1 =>
    have h1' := at_iff.1 h1
    have g : Tidy 0 (s.hd 0 t) (K t) (.act (.spawn f c) k) := hi.each t _ h1'
    have htl := ph_lt h1'
    have g' := g s.thr.length
    have : ¬ ((s.thr.length : Int) < 0) := by omega
    rw [if_neg this, Int.toNat_natCast] at g'
    cases hmv with
    | other _ _ _ _ _ _ he => cases he
    | spawn _ b' _ _ k' h1'' h3 h4 =>
      rw [h1'] at h1''
      injection h1'' with h1''
      injection h1'' with e1 e2
      injection e2 with e2 e3
      subst e1; subst e3
      have fresh : ∀ v, s.thr.length ∉ K v := by
        intro v hv
        have := (hi.kids v _ hv).2
        unfold State.jn at this
        simp at this
      have jold : ∀ (th : Thr) u, u < s.thr.length →
          (((s.go t (.run b (k s.thr.length))).thr ++ [th])[u]?).map (·.joinable) = s.jn u := by
        intro th u hu
        rw [List.getElem?_append_left (by rw [length_go]; exact hu)]
        exact jn_go s t _ u
      refine ⟨fun u => if u = t then s.thr.length :: K t else K u, ?_, ?_, ?_, ?_, ?_, hi.mtx, ?_⟩
      · intro u p hp
        rw [h3] at hp
        by_cases hu : u = t
        · subst hu
          rw [if_pos rfl] at hp
          cases hp
          show Tidy 0 _ (if u = u then _ else _) _
          rw [if_pos rfl]
          exact g'
        · rw [if_neg hu] at hp
          show TP _ (if u = t then _ else _) _
          rw [if_neg hu]
          by_cases hl : u = s.thr.length
          · rw [if_pos hl] at hp
            cases hp
            exact hi.ghost u (by omega)
          · rw [if_neg hl] at hp
            exact hi.each u p hp
      · intro v u hu
        have cases' : u ∈ K v ∨ v = t ∧ u = s.thr.length := by
          by_cases hv : v = t
          · subst hv; simp at hu; rcases hu with h | h
            · exact .inr ⟨rfl, h⟩
            · exact .inl h
          · simp [hv] at hu; exact .inl hu
        rcases cases' with h | ⟨rfl, rfl⟩
        · obtain ⟨q1, q2⟩ := hi.kids v u h
          refine ⟨q1, ?_⟩
          have hul : u < s.thr.length := by
            apply Classical.byContradiction; intro hc
            unfold State.jn at q2
            rw [List.getElem?_eq_none (by omega)] at q2
            cases q2
          exact (jold _ u hul).trans q2
        · refine ⟨htl, ?_⟩
          show (((s.go v (.run b (k s.thr.length))).thr ++ [_])[s.thr.length]?).map _ = _
          rw [List.getElem?_append_right (by rw [length_go]; omega)]
          simp [length_go]
      · intro v
        show (if v = t then _ else _ : List Nat).Nodup
        by_cases hv : v = t
        · rw [if_pos hv]; exact List.nodup_cons.2 ⟨fresh t, hi.nodup t⟩
        · rw [if_neg hv]; exact hi.nodup v
      · intro v v' u q1 q2
        by_cases hul : u = s.thr.length
        · have w : ∀ v, u ∈ (if v = t then s.thr.length :: K t else K v) → v = t := by
            intro v hv
            apply Classical.byContradiction; intro hc
            rw [if_neg hc, hul] at hv
            exact fresh v hv
          rw [w v q1, w v' q2]
        · have w : ∀ v, u ∈ (if v = t then s.thr.length :: K t else K v) → u ∈ K v := by
            intro v hv
            by_cases hc : v = t
            · subst hc; simp [hul] at hv; exact hv
            · rw [if_neg hc] at hv; exact hv
          exact hi.disj v v' u (w v q1) (w v' q2)
      · intro u
        show (((s.go t (.run b (k s.thr.length))).thr ++ [_])[u]?).map _ ≠ _
        by_cases hul : u < s.thr.length
        · rw [List.getElem?_append_left (by rw [length_go]; exact hul)]
          intro h
          exact hi.calm u ((cn_go s t _ u).symm.trans h)
        · rw [List.getElem?_append_right (by rw [length_go]; omega)]
          cases hq : u - (s.go t (.run b (k s.thr.length))).thr.length <;> simp
      · intro u hu
        have hu' : s.thr.length + 1 ≤ u := by simpa [length_go] using hu
        show _ ∧ (if u = t then _ else _) = []
        rw [if_neg (by omega)]
        exact hi.ghost u (by omega)
  | @join t b u k th h1 h2 h3 h4 =>
    have h1' := at_iff.1 h1
    have g : Tidy 0 (s.hd 0 t) (K t) (.act (.join u) k) := hi.each t _ h1'
    obtain ⟨_, gu, gk⟩ := g
    exact ⟨_, tinv_update (p' := .run b (k 1)) (l := (K t).erase u) hi (ph_lt h1') (by rw [release_length, length_go])
      (fun v => by rw [ph_release, ph_go h1']) (gk 1) (fun v hv => List.mem_of_mem_erase hv) ((hi.nodup t).erase u)
      (fun _ _ => rfl) (fun v hv hor => erase_release hi v hv hor gu) (fun v => by rw [cn_release, cn_go]) hi.mtx⟩
  | @joinSelf t b k th h1 h2 h3 =>
    have h1' := at_iff.1 h1
    have g : Tidy 0 (s.hd 0 t) (K t) (.act (.join t) k) := hi.each t _ h1'
    have := (hi.kids t t g.2.1).1
    omega
  | @detach t b u k th h1 h2 h3 =>
    have h1' := at_iff.1 h1
    have g : Tidy 0 (s.hd 0 t) (K t) (.act (.detach u) k) := hi.each t _ h1'
    obtain ⟨gu, gk⟩ := g
    exact ⟨_, tinv_update (p' := .run b (k 1)) (l := (K t).erase u) hi (ph_lt h1') (by rw [release_length, length_go])
      (fun v => by rw [ph_release, ph_go h1']) (gk 1) (fun v hv => List.mem_of_mem_erase hv) ((hi.nodup t).erase u)
      (fun _ _ => rfl) (fun v hv hor => erase_release hi v hv hor gu) (fun v => by rw [cn_release, cn_go]) hi.mtx⟩
  | @cancel t b u k th h1 h2 h3 =>
    have g : Tidy 0 (s.hd 0 t) (K t) (.act (.cancel u) k) := hi.each t _ (at_iff.1 h1)
    exact g.elim
  | @die t b a k th h1 h2 h3 =>
    exact absurd (show s.cn t = some true by simp [State.cn, h1, h3]) (hi.calm t)
  | @mnew t b k h1 =>
    have g : Tidy 0 (s.hd 0 t) (K t) (.act .mnew k) := hi.each t _ (at_iff.1 h1)
    exact g.elim
  | @lock t b m k h1 h2 =>
    have h1' := at_iff.1 h1
    have g : Tidy 0 (s.hd 0 t) (K t) (.act (.lock m) k) := hi.each t _ h1'
    obtain ⟨rfl, gh, gk⟩ := g
    have hm : s.mtx = [.free] := by
      rcases hi.mtx with h | ⟨v, h⟩
      · exact h
      · rw [h] at h2; simp at h2
    refine ⟨_, tinv_update (l := K t) hi (ph_lt h1') (length_go ..) (ph_go h1') ?_ (fun u h => h) (hi.nodup t) ?_
      (fun u hu _ => (jn_go s t _ u).trans hu) (cn_go s t _) (.inr ⟨t, by simp [hm]⟩)⟩
    · have : State.hd { s.go t (.run b (k 0)) with mtx := s.mtx.set 0 (.held t) } 0 t = true := by simp [State.hd, hm]
      rw [this]; exact gk 0
    · intro u hu
      have : t ≠ u := fun h => hu h.symm
      simp [State.hd, hm, this]
  | @unlock t b m k h1 h2 =>
    have h1' := at_iff.1 h1
    have g : Tidy 0 (s.hd 0 t) (K t) (.act (.unlock m) k) := hi.each t _ h1'
    obtain ⟨rfl, gh, gk⟩ := g
    have hm : s.mtx = [.held t] := by
      rcases hi.mtx with h | ⟨v, h⟩
      · rw [h] at h2; simp at h2
      · rw [h] at h2; simp at h2; rw [h, h2]
    refine ⟨_, tinv_update (l := K t) hi (ph_lt h1') (length_go ..) (ph_go h1') ?_ (fun u h => h) (hi.nodup t) ?_
      (fun u hu _ => (jn_go s t _ u).trans hu) (cn_go s t _) (.inl (by simp [hm]))⟩
    · have : State.hd { s.go t (.run b (k 0)) with mtx := s.mtx.set 0 .free } 0 t = false := by simp [State.hd, hm]
      rw [this]; exact gk 0
    · intro u hu
      have : t ≠ u := fun h => hu h.symm
      simp [State.hd, hm, this]
  | @mfree t b m k h1 h2 =>
    have g : Tidy 0 (s.hd 0 t) (K t) (.act (.mfree m) k) := hi.each t _ (at_iff.1 h1)
    exact g.elim
  | @load t b y k h1 =>
    have h1' := at_iff.1 h1
    have g : Tidy 0 (s.hd 0 t) (K t) (.act (.load y) k) := hi.each t _ h1'
    exact tinv_keep hi h1' (p' := .run b (k (s.mem y))) rfl rfl (g _)
  | @store t b y v k h1 =>
    have h1' := at_iff.1 h1
    have g : Tidy 0 (s.hd 0 t) (K t) (.act (.store y v) k) := hi.each t _ h1'
    exact tinv_keep hi h1' (p' := .run b (k 0)) rfl rfl (g 0)
  | @sleep t b k h1 =>
    have h1' := at_iff.1 h1
    have g : Tidy 0 (s.hd 0 t) (K t) (.act .sleep k) := hi.each t _ h1'
    exact tinv_keep hi h1' (p' := .run b (k 0)) rfl rfl (g 0)

theorem tinv_exec {fns : Nat → Nat → Code} {main : Code} {mem : Nat → Int} {tr : List Ev} {s : State}
    (hf : ∀ f c, Tidy 0 false [] (fns f c)) (h0 : Tidy 0 false [] main) (h : Exec fns (init main 1 mem) tr s) :
    ∃ K, TInv s K := by
  induction h with
  | nil =>
    refine ⟨fun _ => [], ?_, fun t u h => by simp at h, fun t => List.nodup_nil, fun t t' u h => by simp at h, ?_, .inl rfl, ?_⟩
    · intro t p hp
      have : (init main 1 mem).hd 0 t = false := rfl
      rw [this]
      cases t with
      | succ t => simp [State.ph, init] at hp
      | zero =>
        have : p = .run none main := by simpa [State.ph, init] using hp.symm
        subst this
        exact h0
    · intro t
      cases t <;> simp [State.cn, init]
    · intro t _; exact ⟨rfl, rfl⟩
  | snoc _ _ hs ih =>
    obtain ⟨K, hi⟩ := ih
    exact tinv_step hf hi hs

/-- no step is undefined -/
theorem tidy_not_bad {s : State} {K : Nat → List Nat} {tr : List Ev} (hv : Inv tr s) (hi : TInv s K) : ¬ Bad s := by
  have live : ∀ {t b p}, s.ph t = some p → p.blk = some b → s.heap[b]? ≠ some .freed := by
    intro t b p h1 h2 h3
    obtain ⟨f, c, u, h4, _⟩ := hv.own t p b h1 h2
    rw [h3] at h4; cases h4
  have kid : ∀ {t u : Nat}, u ∈ K t → ∃ th, s.thr[u]? = some th ∧ th.joinable = true := by
    intro t u hu
    have := (hi.kids t u hu).2
    unfold State.jn at this
    cases hc : s.thr[u]? with
    | none => rw [hc] at this; cases this
    | some th => rw [hc] at this; exact ⟨th, rfl, by simpa using this⟩
  intro h
  cases h with
  | start h1 h2 => exact live (in_iff.1 h1) rfl h2
  | free h1 h2 => exact live (in_iff.1 h1) rfl h2
  | @join t b u k th h1 h2 h3 =>
    have g : Tidy 0 (s.hd 0 t) (K t) (.act (.join u) k) := hi.each t _ (at_iff.1 h1)
    obtain ⟨th', q1, q2⟩ := kid g.2.1
    rw [h2] at q1; cases q1; rw [h3] at q2; cases q2
  | @detach t b u k th h1 h2 h3 =>
    have g : Tidy 0 (s.hd 0 t) (K t) (.act (.detach u) k) := hi.each t _ (at_iff.1 h1)
    obtain ⟨th', q1, q2⟩ := kid g.1
    rw [h2] at q1; cases q1; rw [h3] at q2; cases q2
  | @cancel t b u k th h1 h2 h3 =>
    have g : Tidy 0 (s.hd 0 t) (K t) (.act (.cancel u) k) := hi.each t _ (at_iff.1 h1)
    exact g
  | @noThread t b u k a h1 h2 h3 =>
    rcases h2 with rfl | rfl | rfl
    · have g : Tidy 0 (s.hd 0 t) (K t) (.act (.join u) k) := hi.each t _ (at_iff.1 h1)
      obtain ⟨th', q1, q2⟩ := kid g.2.1
      rw [h3] at q1; cases q1
    · have g : Tidy 0 (s.hd 0 t) (K t) (.act (.detach u) k) := hi.each t _ (at_iff.1 h1)
      obtain ⟨th', q1, q2⟩ := kid g.1
      rw [h3] at q1; cases q1
    · have g : Tidy 0 (s.hd 0 t) (K t) (.act (.cancel u) k) := hi.each t _ (at_iff.1 h1)
      exact g
  | @mnew t b k h1 =>
    have g : Tidy 0 (s.hd 0 t) (K t) (.act .mnew k) := hi.each t _ (at_iff.1 h1)
    exact g
  | @lock t b m k h1 h2 =>
    have g : Tidy 0 (s.hd 0 t) (K t) (.act (.lock m) k) := hi.each t _ (at_iff.1 h1)
    obtain ⟨rfl, _, _⟩ := g
    rcases hi.mtx with h | ⟨v, h⟩ <;> rw [h] at h2 <;> simp at h2
  | @unlock t b m k h1 h2 =>
    have g : Tidy 0 (s.hd 0 t) (K t) (.act (.unlock m) k) := hi.each t _ (at_iff.1 h1)
    obtain ⟨rfl, g, _⟩ := g
    exact h2 (of_decide_eq_true g)
  | @mfree t b m k h1 h2 =>
    have g : Tidy 0 (s.hd 0 t) (K t) (.act (.mfree m) k) := hi.each t _ (at_iff.1 h1)
    exact g

/-- a thread that waits for nothing can go on -/
theorem can_step {fns : Nat → Nat → Code} {s : State} {K : Nat → List Nat} {tr : List Ev} {t : Nat} {p : Phase}
    (hv : Inv tr s) (hi : TInv s K) (hp : s.ph t = some p) (hne : p ≠ .ended) (hal : ∀ b, p = .run b .done → b ≠ none)
    (hl : ∀ b m k, p = .run b (.act (.lock m) k) → s.mtx[0]? = some .free)
    (hj : ∀ b u k, p = .run b (.act (.join u) k) → u ∈ K t → s.ph u = some .ended) : ∃ e s', Step fns s e s' := by
  cases p with
  | ended => exact absurd rfl hne
  | start b =>
    obtain ⟨f, c, u, h, _⟩ := hv.own t _ b hp rfl
    exact ⟨_, _, .begin (in_iff.2 hp) h⟩
  | fin b =>
    obtain ⟨f, c, u, h, _⟩ := hv.own t _ b hp rfl
    exact ⟨_, _, .free (in_iff.2 hp) h⟩
  | run b code =>
    cases code with
    | done =>
      cases b with
      | none => exact absurd rfl (hal none rfl)
      | some b => exact ⟨_, _, .finish (in_iff.2 hp)⟩
    | act a k =>
      have hat := at_iff.2 hp
      have g : Tidy 0 (s.hd 0 t) (K t) (.act a k) := hi.each t _ hp
      cases a with
      | spawn f c => exact ⟨_, _, .spawn hat⟩
      | join u =>
        have hu := g.2.1
        have h1 := hj b u k rfl hu
        have h2 := (hi.kids t u hu).2
        obtain ⟨th, h3, h4⟩ := in_iff.2 h1
        unfold State.jn at h2
        rw [h3] at h2
        exact ⟨_, _, .join hat h3 h4 (by simpa using h2)⟩
      | detach u =>
        have h2 := (hi.kids t u g.1).2
        unfold State.jn at h2
        cases hc : s.thr[u]? with
        | none => rw [hc] at h2; cases h2
        | some th => rw [hc] at h2; exact ⟨_, _, .detach hat hc (by simpa using h2)⟩
      | cancel u => exact g.elim
      | mnew => exact g.elim
      | mfree m => exact g.elim
      | lock m =>
        obtain ⟨rfl, _, _⟩ := g
        exact ⟨_, _, .lock hat (hl b 0 k rfl)⟩
      | unlock m =>
        obtain ⟨rfl, g, _⟩ := g
        exact ⟨_, _, .unlock hat (of_decide_eq_true g)⟩
      | load x => exact ⟨_, _, .load hat⟩
      | store x v => exact ⟨_, _, .store hat⟩
      | sleep => exact ⟨_, _, .sleep hat⟩

/-- the last thread that has not ended -/
theorem last_thread {s : State} {p0 : Phase} (h0 : s.ph 0 = some p0) (hp0 : p0 ≠ .ended) :
    ∃ t p, s.ph t = some p ∧ p ≠ .ended ∧ ∀ u q, t < u → s.ph u = some q → q = .ended := by
  have main : ∀ n, (∃ t p, s.thr.length ≤ t + n ∧ s.ph t = some p ∧ p ≠ .ended) →
      ∃ t p, s.ph t = some p ∧ p ≠ .ended ∧ ∀ u q, t < u → s.ph u = some q → q = .ended := by
    intro n
    induction n with
    | zero =>
      rintro ⟨t, p, h1, h2, h3⟩
      exact absurd (ph_lt h2) (by omega)
    | succ n ih =>
      rintro ⟨t, p, h1, h2, h3⟩
      by_cases hc : ∃ u q, t < u ∧ s.ph u = some q ∧ q ≠ .ended
      · obtain ⟨u, q, g1, g2, g3⟩ := hc
        exact ih ⟨u, q, by omega, g2, g3⟩
      · refine ⟨t, p, h2, h3, fun u q g1 g2 => ?_⟩
        apply Classical.byContradiction; intro g3
        exact hc ⟨u, q, g1, g2, g3⟩
  exact main s.thr.length ⟨0, p0, by omega, h0, hp0⟩

end Verif.Thread
