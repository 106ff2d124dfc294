import Verif.Defer.Sim

/-!
# Every object is destroyed or handed over once

A conservation law for the intended runs: objects held by variables whose scope is still open, plus
objects made, equal objects held afterwards plus objects destroyed plus objects handed over.
-/

namespace Verif.Defer

open Spec (Clean clean clean1 leave back)

/-- variables that will be destroyed -/
def cells : List Clean → List Nat
  | [] => []
  | .act _ _ :: ks => cells ks
  | .drop c :: ks => c :: cells ks

theorem cells_append (a b : List Clean) : cells (a ++ b) = cells a ++ cells b := by
  induction a with
  | nil => rfl
  | cons k a ih => cases k <;> simp [cells, ih]

/-- how many open variables hold object `i` -/
def cnt (i : Nat) (ks : List Clean) (s : Sto) : Nat :=
  (cells ks).countP fun c => decide (s.val c = .obj i)

/-- visible variables that hold an object will be destroyed -/
def Own (s : Sto) (ρ : Env) (ks : List Clean) : Prop :=
  ∀ x c, look ρ x = some c → c < s.nc ∧ ∀ i, s.val c = .obj i → c ∈ cells ks

/-- the list of cleanups is in order -/
def Well (s : Sto) : List Clean → Prop
  | [] => True
  | .act _ ρ :: ks => Own s ρ ks ∧ Well s ks
  | .drop c :: ks => c < s.nc ∧ c ∉ cells ks ∧ Well s ks

/-- memory changes by new variables and by moves only -/
structure Keep (s s' : Sto) : Prop where
  nc : s.nc ≤ s'.nc
  no : s.no ≤ s'.no
  val : ∀ c < s.nc, s'.val c = s.val c ∨ s'.val c = .gone

theorem Keep.refl (s : Sto) : Keep s s := ⟨Nat.le_refl _, Nat.le_refl _, fun _ _ => .inl rfl⟩

theorem Keep.trans {a b c : Sto} (h : Keep a b) (g : Keep b c) : Keep a c :=
  ⟨Nat.le_trans h.nc g.nc, Nat.le_trans h.no g.no, fun d hd => by
    have := h.nc
    rcases g.val d (by omega) with e | e
    · rw [e]; exact h.val d hd
    · exact .inr e⟩

theorem Own.keep {s s' : Sto} {ρ : Env} {ks : List Clean} (h : Own s ρ ks) (hk : Keep s s') :
    Own s' ρ ks := fun x c hx => by
  obtain ⟨h1, h2⟩ := h x c hx
  refine ⟨Nat.lt_of_lt_of_le h1 hk.nc, fun i hi => h2 i ?_⟩
  rcases hk.val c h1 with e | e
  · rw [← e]; exact hi
  · rw [e] at hi; exact absurd hi (by simp)

theorem Well.keep {s s' : Sto} (hk : Keep s s') : ∀ {ks : List Clean}, Well s ks → Well s' ks
  | [], _ => trivial
  | .act _ _ :: _, h => ⟨h.1.keep hk, Well.keep hk h.2⟩
  | .drop _ :: _, h => ⟨Nat.lt_of_lt_of_le h.1 hk.nc, h.2.1, Well.keep hk h.2.2⟩

theorem Well.nodup {s : Sto} : ∀ {ks : List Clean}, Well s ks → (cells ks).Nodup
  | [], _ => List.nodup_nil
  | .act _ _ :: ks, h => by
    have h2 : (cells ks).Nodup := Well.nodup (s := s) (ks := ks) h.2
    exact h2
  | .drop _ :: _, h => List.nodup_cons.2 ⟨h.2.1, Well.nodup h.2.2⟩

theorem Well.lt {s : Sto} : ∀ {ks : List Clean}, Well s ks → ∀ c ∈ cells ks, c < s.nc
  | [], _, c, hc => by simp [cells] at hc
  | .act _ _ :: _, h, c, hc => Well.lt h.2 c hc
  | .drop d :: _, h, c, hc => by
    rcases List.mem_cons.1 hc with rfl | hc
    · exact h.1
    · exact Well.lt h.2.2 c hc

theorem Well.right {s : Sto} : ∀ {a ks : List Clean}, Well s (a ++ ks) → Well s ks
  | [], _, h => h
  | .act _ _ :: _, _, h => Well.right h.2
  | .drop _ :: _, _, h => Well.right h.2.2

theorem keep_set (s : Sto) (ρ : Env) (x : Name) : Keep s (s.set ρ x .gone) := by
  unfold Sto.set
  split
  · refine ⟨Nat.le_refl _, Nat.le_refl _, fun c _ => ?_⟩
    simp only [upd]
    split
    · exact .inr rfl
    · exact .inl rfl
  · exact Keep.refl s

theorem countP_upd (L : List Nat) (hn : L.Nodup) (f : Nat → Val) (c i : Nat)
    (h : f c = .obj i → c ∈ L) :
    L.countP (fun d => decide (upd f c .gone d = .obj i)) + (if f c = .obj i then 1 else 0) =
      L.countP (fun d => decide (f d = .obj i)) := by
  induction L with
  | nil =>
    have : f c ≠ .obj i := fun e => by simpa using h e
    simp [this]
  | cons d L ih =>
    obtain ⟨hd, hn⟩ := List.nodup_cons.1 hn
    simp only [List.countP_cons]
    by_cases hdc : d = c
    · subst hdc
      have hsame : L.countP (fun e => decide (upd f d .gone e = .obj i)) =
          L.countP (fun e => decide (f e = .obj i)) := by
        refine List.countP_congr fun e he => ?_
        have : e ≠ d := fun x => hd (x ▸ he)
        simp [upd, this]
      rw [hsame]
      by_cases hv : f d = .obj i <;> simp [upd, hv]
    · have := ih hn (fun e => by
        rcases List.mem_cons.1 (h e) with rfl | hm
        · exact absurd rfl hdc
        · exact hm)
      simp only [upd, hdc, if_false] at this ⊢
      omega

/-- taking an object out of a variable -/
theorem cnt_take {s : Sto} {ρ : Env} {ks : List Clean} (x : Name) (i : Nat) (hn : (cells ks).Nodup)
    (ho : Own s ρ ks) :
    cnt i ks (s.set ρ x .gone) + (if s.get ρ x = .obj i then 1 else 0) = cnt i ks s := by
  unfold cnt Sto.set Sto.get
  cases hx : look ρ x with
  | none => simp
  | some c => exact countP_upd _ hn _ _ _ ((ho x c hx).2 i)

/-- events that end an object's life here -/
def gone (i : Nat) (t : List Ev) : Nat := t.count (.drop (.obj i)) + t.count (.given (.obj i))

theorem gone_append (i : Nat) (a b : List Ev) : gone i (a ++ b) = gone i a + gone i b := by
  simp [gone]; omega

/-- how often object `i` is made -/
def made (i : Nat) (t : List Ev) : Nat := t.count (.new i)

theorem made_append (i : Nat) (a b : List Ev) : made i (a ++ b) = made i a + made i b := by
  simp [made]

theorem act_count {s : Sto} {ρ : Env} {ks : List Clean} (a : Act) (i : Nat)
    (hn : (cells ks).Nodup) (ho : Own s ρ ks) :
    cnt i ks s = cnt i ks (Spec.act a ρ s).2 + gone i (Spec.act a ρ s).1 ∧
    made i (Spec.act a ρ s).1 = 0 ∧ Keep s (Spec.act a ρ s).2 ∧ (Spec.act a ρ s).2.no = s.no := by
  cases a with
  | use a xs => exact ⟨by simp [Spec.act, gone], by simp [Spec.act, made], Keep.refl s, rfl⟩
  | consume x =>
    refine ⟨?_, by simp [Spec.act, made], keep_set s ρ x, ?_⟩
    · have := cnt_take x i hn ho
      simp only [Spec.act, gone, List.count_cons, List.count_nil]
      rw [← this]
      by_cases h : s.get ρ x = .obj i <;> simp [h]
    · simp only [Spec.act, Sto.set]; split <;> rfl

theorem clean_count (i : Nat) : ∀ (a ks : List Clean) (s : Sto), Well s (a ++ ks) →
    cnt i (a ++ ks) s = cnt i ks (clean a s).2 + gone i (clean a s).1 ∧
    made i (clean a s).1 = 0 ∧ Keep s (clean a s).2 ∧ (clean a s).2.no = s.no
  | [], ks, s, _ => ⟨by simp [clean, gone], rfl, Keep.refl s, rfl⟩
  | .act b ρ :: a, ks, s, h => by
    have hw : Well s (a ++ ks) := h.2
    have ho : Own s ρ (a ++ ks) := h.1
    obtain ⟨h1, h2, h3, h4⟩ := act_count b i (Well.nodup hw) ho
    obtain ⟨g1, g2, g3, g4⟩ := clean_count i a ks (Spec.act b ρ s).2 (Well.keep h3 hw)
    simp only [clean, clean1, gone_append, made_append, h2, g2, g4, h4]
    refine ⟨?_, trivial, h3.trans g3, trivial⟩
    have : cnt i (.act b ρ :: a ++ ks) s = cnt i (a ++ ks) s := rfl
    omega
  | .drop c :: a, ks, s, h => by
    have hs : (clean1 (.drop c) s).2 = s := by simp only [clean1]; split <;> rfl
    obtain ⟨g1, g2, g3, g4⟩ := clean_count i a ks s h.2.2
    simp only [clean, gone_append, made_append, hs, g2]
    refine ⟨?_, ?_, g3, g4⟩
    · have : cnt i (.drop c :: a ++ ks) s =
          cnt i (a ++ ks) s + (if s.val c = .obj i then 1 else 0) := by
        simp [cnt, cells, List.countP_cons]
      rw [this, g1]
      simp only [clean1]
      cases hv : s.val c with
      | obj j =>
        by_cases hj : j = i
        · subst hj; simp [gone]; omega
        · simp [gone, hj]
      | num k => simp [gone]
      | gone => simp [gone]
    · simp only [clean1]
      split <;> simp [made]

/-- conservation for a run inside a scope -/
structure Good (i : Nat) (outer : List Clean) (σ : Spec.St) (r : Out × List Ev × Spec.St) : Prop where
  keep : Keep σ.sto r.2.2.sto
  made : made i r.2.1 = if σ.sto.no ≤ i ∧ i < r.2.2.sto.no then 1 else 0
  le : gone i r.2.1 ≤ cnt i (σ.cl ++ outer) σ.sto + Defer.made i r.2.1
  done : r.1 ≠ .cut → Well r.2.2.sto (r.2.2.cl ++ outer) ∧ Own r.2.2.sto r.2.2.env (r.2.2.cl ++ outer) ∧
    cnt i (σ.cl ++ outer) σ.sto + Defer.made i r.2.1 =
      cnt i (r.2.2.cl ++ outer) r.2.2.sto + gone i r.2.1

/-- conservation for a whole scope -/
structure GoodB (i : Nat) (ks : List Clean) (s : Sto) (r : Out × List Ev × Sto) : Prop where
  keep : Keep s r.2.2
  made : made i r.2.1 = if s.no ≤ i ∧ i < r.2.2.no then 1 else 0
  le : gone i r.2.1 ≤ cnt i ks s + Defer.made i r.2.1
  done : r.1 ≠ .cut → cnt i ks s + Defer.made i r.2.1 = cnt i ks r.2.2 + gone i r.2.1

theorem made_seq {i a b c : Nat} (h1 : a ≤ b) (h2 : b ≤ c) :
    (if a ≤ i ∧ i < b then 1 else 0) + (if b ≤ i ∧ i < c then 1 else 0) =
      (if a ≤ i ∧ i < c then 1 else 0 : Nat) := by
  split <;> split <;> split <;> omega

theorem leave_good {i : Nat} {outer : List Clean} {ρ : Env} {s : Sto} {r : Out × List Ev × Spec.St}
    (h : Good i outer ⟨ρ, [], s⟩ r) : GoodB i outer s (leave r) := by
  obtain ⟨o, t, σ⟩ := r
  by_cases ho : o = .cut
  · subst ho
    exact ⟨h.keep, h.made, h.le, fun e => absurd rfl e⟩
  · obtain ⟨h1, h2, h3⟩ := h.done ho
    obtain ⟨g1, g2, g3, g4⟩ := clean_count i σ.cl outer σ.sto h1
    have hl : leave (o, t, σ) = (o, t ++ (clean σ.cl σ.sto).1, (clean σ.cl σ.sto).2) := by
      cases o <;> first | rfl | exact absurd rfl ho
    rw [hl]
    have hm := h.made
    simp only [List.nil_append] at h3 hm
    refine ⟨h.keep.trans g3, ?_, ?_, fun _ => ?_⟩
    · simp only [made_append, g2, g4, hm, Nat.add_zero]
    · simp only [made_append, gone_append, g2]; omega
    · simp only [made_append, gone_append, g2]; omega

theorem back_good {i : Nat} {outer : List Clean} {σ : Spec.St} {r : Out × List Ev × Sto}
    (h : GoodB i (σ.cl ++ outer) σ.sto r) (hw : Well σ.sto (σ.cl ++ outer))
    (ho : Own σ.sto σ.env (σ.cl ++ outer)) : Good i outer σ (back σ r) :=
  ⟨h.keep, h.made, h.le, fun hc => ⟨hw.keep h.keep, ho.keep h.keep, h.done hc⟩⟩

/-- memory after a test -/
theorem cnt_k (i : Nat) (ks : List Clean) (s : Sto) (k : Nat) : cnt i ks { s with k := k } = cnt i ks s :=
  rfl

theorem keep_test (orc : Nat → Bool) (c : Option Nat) (s : Sto) : Keep s (testO orc c s).2.2 := by
  cases c
  · exact Keep.refl s
  · exact ⟨Nat.le_refl _, Nat.le_refl _, fun _ _ => .inl rfl⟩

theorem test_facts (orc : Nat → Bool) (c : Option Nat) (s : Sto) (i : Nat) (ks : List Clean) :
    made i (testO orc c s).2.1 = 0 ∧ gone i (testO orc c s).2.1 = 0 ∧
    (testO orc c s).2.2.no = s.no ∧ cnt i ks (testO orc c s).2.2 = cnt i ks s := by
  cases c
  · exact ⟨rfl, rfl, rfl, rfl⟩
  · refine ⟨by simp [testO, testC, made], by simp [testO, testC, gone], rfl, rfl⟩

theorem goodB_pre {i : Nat} {ks : List Clean} {s s' : Sto} {r : Out × List Ev × Sto} (p : List Ev)
    (hk : Keep s s') (hm : made i p = if s.no ≤ i ∧ i < s'.no then 1 else 0)
    (he : cnt i ks s + made i p = cnt i ks s' + gone i p) (h : GoodB i ks s' r) :
    GoodB i ks s (r.1, p ++ r.2.1, r.2.2) := by
  have h1 := h.made
  have h2 := h.le
  refine ⟨hk.trans h.keep, ?_, ?_, fun hc => ?_⟩
  · simp only [made_append, hm, h1]
    exact made_seq hk.no h.keep.no
  · simp only [made_append, gone_append]; omega
  · have := h.done hc
    simp only [made_append, gone_append]; omega

theorem goodB_test {i : Nat} {ks : List Clean} {s : Sto} {r : Out × List Ev × Sto} (orc : Nat → Bool)
    (c : Option Nat) (h : GoodB i ks (testO orc c s).2.2 r) :
    GoodB i ks s (r.1, (testO orc c s).2.1 ++ r.2.1, r.2.2) := by
  obtain ⟨h1, h2, h3, h4⟩ := test_facts orc c s i ks
  refine goodB_pre _ (keep_test orc c s) ?_ ?_ h
  · rw [h1, h3]; split <;> omega
  · omega

theorem made_none (i : Nat) (s : Sto) (t : List Ev) (h : made i t = 0 := by rfl) :
    made i t = if s.no ≤ i ∧ i < s.no then 1 else 0 := by
  rw [h, if_neg]; omega

theorem goodB_norm (i : Nat) (ks : List Clean) (s : Sto) : GoodB i ks s (.norm, [], s) :=
  ⟨Keep.refl s, made_none i s [], by simp [gone],
    fun _ => by simp [made, gone]⟩

theorem goodB_seq {i : Nat} {ks : List Clean} {s s' : Sto} {o : Out} {p : List Ev}
    {r : Out × List Ev × Sto} (ho : o ≠ .cut) (h : GoodB i ks s (o, p, s')) (g : GoodB i ks s' r) :
    GoodB i ks s (r.1, p ++ r.2.1, r.2.2) :=
  goodB_pre p h.keep h.made (h.done ho) g

theorem goodB_out {i : Nat} {ks : List Clean} {s s' : Sto} {o o' : Out} {p : List Ev}
    (ho : o ≠ .cut) (h : GoodB i ks s (o, p, s')) : GoodB i ks s (o', p, s') :=
  ⟨h.keep, h.made, h.le, fun _ => h.done ho⟩

theorem iter_good (orc : Nat → Bool) {c : Option Nat} {i : Nat} {ks : List Clean} {s0 : Sto}
    {body : Sto → Out × List Ev × Sto} (hb : ∀ s, Keep s0 s → GoodB i ks s (body s)) :
    ∀ (n : Nat) (s : Sto), Keep s0 s → GoodB i ks s (iter (testO orc c) body n s)
  | 0, s, _ => ⟨Keep.refl s, made_none i s [],
      by simp [iter, gone], fun h => absurd rfl h⟩
  | n + 1, s, hk => by
    have hk1 : Keep s0 (testO orc c s).2.2 := hk.trans (keep_test orc c s)
    have hB := hb _ hk1
    simp only [iter]
    split
    · generalize hr : body (testO orc c s).2.2 = r at hB ⊢
      obtain ⟨o, t, s'⟩ := r
      have hk2 : Keep s0 s' := hk1.trans hB.keep
      cases o <;> simp only
      · exact goodB_test orc c (goodB_seq (by simp) hB (iter_good orc (c := c) hb n s' hk2))
      · exact goodB_test orc c (goodB_out (o' := .norm) (by simp) hB)
      · exact goodB_test orc c (goodB_seq (by simp) hB (iter_good orc (c := c) hb n s' hk2))
      · exact goodB_test orc c hB
      · exact goodB_test orc c hB
    · have := goodB_test orc c (goodB_norm i ks (testO orc c s).2.2)
      simpa using this

theorem iterDo_good (orc : Nat → Bool) {c : Nat} {i : Nat} {ks : List Clean} {s0 : Sto}
    {body : Sto → Out × List Ev × Sto} (hb : ∀ s, Keep s0 s → GoodB i ks s (body s)) :
    ∀ (n : Nat) (s : Sto), Keep s0 s → GoodB i ks s (iterDo (testC orc c) body n s)
  | 0, s, _ => ⟨Keep.refl s, made_none i s [],
      by simp [iterDo, gone], fun h => absurd rfl h⟩
  | n + 1, s, hk => by
    have hB := hb s hk
    simp only [iterDo]
    generalize hr : body s = r at hB ⊢
    obtain ⟨o, t, s'⟩ := r
    have hk1 : Keep s0 s' := hk.trans hB.keep
    have hk2 : Keep s0 (testO orc (some c) s').2.2 := hk1.trans (keep_test orc (some c) s')
    have key : GoodB i ks s' (if (testC orc c s').1 = true then
          ((iterDo (testC orc c) body n (testC orc c s').2.2).1,
            (testC orc c s').2.1 ++ (iterDo (testC orc c) body n (testC orc c s').2.2).2.1,
            (iterDo (testC orc c) body n (testC orc c s').2.2).2.2)
         else (.norm, (testC orc c s').2.1, (testC orc c s').2.2)) := by
      split
      · exact goodB_test orc (some c) (iterDo_good orc (c := c) hb n _ hk2)
      · have := goodB_test orc (some c) (goodB_norm i ks (testO orc (some c) s').2.2)
        simp only [List.append_nil] at this
        exact this
    have hh : ∀ o, o ≠ .cut → GoodB i ks s (o, t, s') → GoodB i ks s
        (if (testC orc c s').1 = true then
          ((iterDo (testC orc c) body n (testC orc c s').2.2).1,
            t ++ ((testC orc c s').2.1 ++ (iterDo (testC orc c) body n (testC orc c s').2.2).2.1),
            (iterDo (testC orc c) body n (testC orc c s').2.2).2.2)
         else (.norm, t ++ (testC orc c s').2.1, (testC orc c s').2.2)) := by
      intro o ho hB
      have := goodB_seq ho hB key
      split at this <;> rename_i ht
      · simp only [ht, if_true]; exact this
      · simp only [ht]; exact this
    cases o <;> simp only
    · exact hh .norm (by simp) hB
    · exact goodB_out (by simp) hB
    · exact hh .cont (by simp) hB
    · exact hB
    · exact hB

/-- one statement that neither makes nor ends objects and leaves memory alone -/
theorem good_same {i : Nat} {outer : List Clean} {σ : Spec.St} (o : Out)
    (hw : Well σ.sto (σ.cl ++ outer)) (ho : Own σ.sto σ.env (σ.cl ++ outer)) :
    Good i outer σ (o, [], σ) :=
  ⟨Keep.refl _, made_none i _ [], by simp [gone],
    fun _ => ⟨hw, ho, by simp [made, gone]⟩⟩

theorem good_act {i : Nat} {outer : List Clean} {σ : Spec.St} (a : Act) (o : Out)
    (hw : Well σ.sto (σ.cl ++ outer)) (ho : Own σ.sto σ.env (σ.cl ++ outer)) :
    Good i outer σ (o, (Spec.act a σ.env σ.sto).1, { σ with sto := (Spec.act a σ.env σ.sto).2 }) := by
  obtain ⟨h1, h2, h3, h4⟩ := act_count a i hw.nodup ho
  refine ⟨h3, ?_, ?_, fun _ => ⟨hw.keep h3, ho.keep h3, ?_⟩⟩
  · simp only [h4]; exact made_none i _ _ h2
  · simp only [h2]; omega
  · simp only [h2]; omega

/-- a new variable does not change what the others hold -/
theorem cnt_new {i : Nat} {ks : List Clean} {s : Sto} (hw : Well s ks) (v : Val) (s' : Sto)
    (h : s'.val = upd s.val s.nc v) : cnt i ks s' = cnt i ks s := by
  unfold cnt
  rw [h]
  refine List.countP_congr fun c hc => ?_
  have := hw.lt c hc
  have : c ≠ s.nc := by omega
  simp [upd, this]

theorem keep_new {s s' : Sto} (v : Val) (h : s'.val = upd s.val s.nc v) (h1 : s.nc ≤ s'.nc)
    (h2 : s.no ≤ s'.no) : Keep s s' := by
  refine ⟨h1, h2, fun c hc => .inl ?_⟩
  rw [h]
  have : c ≠ s.nc := by omega
  simp [upd, this]

theorem own_new {s s' : Sto} {ρ : Env} {ks : List Clean} (y : Name) (hk : Keep s s')
    (hn : s.nc < s'.nc) (ho : Own s ρ ks) (k : List Clean)
    (hv : ∀ i, s'.val s.nc = .obj i → s.nc ∈ cells (k ++ ks)) :
    Own s' ((y, s.nc) :: ρ) (k ++ ks) := by
  intro x c hx
  by_cases hxy : x = y
  · subst hxy
    rw [look_self] at hx
    injection hx with hx
    subst hx
    exact ⟨hn, hv⟩
  · rw [look_cons x y _ _ hxy] at hx
    obtain ⟨h1, h2⟩ := (ho.keep hk) x c hx
    exact ⟨h1, fun i hi => by rw [cells_append]; exact List.mem_append_right _ (h2 i hi)⟩

theorem set_nc (s : Sto) (ρ : Env) (x : Name) (v : Val) : (s.set ρ x v).nc = s.nc := by
  unfold Sto.set; split <;> rfl
theorem set_no (s : Sto) (ρ : Env) (x : Name) (v : Val) : (s.set ρ x v).no = s.no := by
  unfold Sto.set; split <;> rfl

theorem good_test {i : Nat} {outer : List Clean} {σ : Spec.St} (orc : Nat → Bool) (c : Nat)
    {r : Out × List Ev × Sto} (hw : Well σ.sto (σ.cl ++ outer))
    (ho : Own σ.sto σ.env (σ.cl ++ outer)) (h : GoodB i (σ.cl ++ outer) (testC orc c σ.sto).2.2 r) :
    Good i outer σ (r.1, (testC orc c σ.sto).2.1 ++ r.2.1, { σ with sto := r.2.2 }) :=
  back_good (goodB_test orc (some c) h) hw ho

theorem good_skip {i : Nat} {outer : List Clean} {σ : Spec.St} (orc : Nat → Bool) (c : Nat) (o : Out)
    (hw : Well σ.sto (σ.cl ++ outer)) (ho : Own σ.sto σ.env (σ.cl ++ outer)) :
    Good i outer σ (o, (testC orc c σ.sto).2.1, { σ with sto := (testC orc c σ.sto).2.2 }) := by
  have h : GoodB i (σ.cl ++ outer) (testC orc c σ.sto).2.2 (o, [], (testC orc c σ.sto).2.2) :=
    goodB_out (o := .norm) (by simp) (goodB_norm _ _ _)
  have := good_test orc c hw ho h
  simpa using this

mutual
theorem good_run (orc : Nat → Bool) (n i : Nat) : ∀ (s : Stmt) (ds : List Cl) (bs : List Nat)
    (σ : Spec.St) (outer : List Clean), ok s ds bs = true → Well σ.sto (σ.cl ++ outer) →
    Own σ.sto σ.env (σ.cl ++ outer) → Good i outer σ (Spec.run orc n s σ)
  | .act a, ds, bs, σ, outer, hok, hw, ho => good_act a .norm hw ho
  | .decl x, ds, bs, σ, outer, hok, hw, ho => by
    have hk : Keep σ.sto (Spec.run orc n (.decl x) σ).2.2.sto :=
      keep_new (.obj σ.sto.no) rfl (Nat.le_succ _) (Nat.le_succ _)
    have hc : cnt i (σ.cl ++ outer) (Spec.run orc n (.decl x) σ).2.2.sto =
        cnt i (σ.cl ++ outer) σ.sto := cnt_new hw (.obj σ.sto.no) _ rfl
    have hm : made i [Ev.new σ.sto.no] = if σ.sto.no ≤ i ∧ i < σ.sto.no + 1 then 1 else 0 := by
      by_cases h : σ.sto.no = i
      · subst h; simp [made]
      · rw [if_neg (by omega)]; simp [made, h]
    have hg : gone i [Ev.new σ.sto.no] = 0 := by simp [gone]
    refine ⟨hk, hm, by show gone i [_] ≤ _; omega, fun _ => ⟨?_, ?_, ?_⟩⟩
    · exact ⟨Nat.lt_succ_self _, fun h => Nat.lt_irrefl _ (hw.lt _ h), hw.keep hk⟩
    · exact own_new x hk (Nat.lt_succ_self _) ho [.drop σ.sto.nc] (fun _ _ => by simp [cells])
    · show cnt i (σ.cl ++ outer) σ.sto + made i [Ev.new σ.sto.no] =
        cnt i (.drop σ.sto.nc :: (σ.cl ++ outer)) (Spec.run orc n (.decl x) σ).2.2.sto + gone i [Ev.new σ.sto.no]
      have : cnt i (.drop σ.sto.nc :: (σ.cl ++ outer)) (Spec.run orc n (.decl x) σ).2.2.sto =
          cnt i (σ.cl ++ outer) (Spec.run orc n (.decl x) σ).2.2.sto +
            (if σ.sto.no = i then 1 else 0) := by
        simp [cnt, cells, List.countP_cons, Spec.run, upd]
      rw [this, hc, hg, hm]
      by_cases h : σ.sto.no = i
      · rw [if_pos h, if_pos (by omega)]
      · rw [if_neg h, if_neg (by omega)]
  | .val x k, ds, bs, σ, outer, hok, hw, ho => by
    have hk : Keep σ.sto (Spec.run orc n (.val x k) σ).2.2.sto :=
      keep_new (.num k) rfl (Nat.le_succ _) (Nat.le_refl _)
    have hc : cnt i (σ.cl ++ outer) (Spec.run orc n (.val x k) σ).2.2.sto =
        cnt i (σ.cl ++ outer) σ.sto := cnt_new hw (.num k) _ rfl
    refine ⟨hk, made_none i _ [], by simp [Spec.run, gone], fun _ => ⟨hw.keep hk, ?_, ?_⟩⟩
    · exact own_new x hk (Nat.lt_succ_self _) ho [] (fun j hj => by simp [Spec.run, upd] at hj)
    · show cnt i (σ.cl ++ outer) σ.sto + 0 = cnt i (σ.cl ++ outer) _ + 0
      rw [hc]
  | .letMove y x, ds, bs, σ, outer, hok, hw, ho => by
    let s1 : Sto := { σ.sto with
      val := upd σ.sto.val σ.sto.nc (σ.sto.get σ.env x), nc := σ.sto.nc + 1 }
    have hk1 : Keep σ.sto s1 := keep_new (σ.sto.get σ.env x) rfl (Nat.le_succ _) (Nat.le_refl _)
    have hk : Keep σ.sto (s1.set σ.env x .gone) := hk1.trans (keep_set _ _ _)
    have hw1 : Well s1 (.drop σ.sto.nc :: (σ.cl ++ outer)) :=
      ⟨Nat.lt_succ_self _, fun h => Nat.lt_irrefl _ (hw.lt _ h), hw.keep hk1⟩
    have hs : Spec.run orc n (.letMove y x) σ = (.norm, [.moved (σ.sto.get σ.env x)],
      ⟨(y, σ.sto.nc) :: σ.env, .drop σ.sto.nc :: σ.cl, s1.set σ.env x .gone⟩) := rfl
    rw [hs]
    have hg : gone i [Ev.moved (σ.sto.get σ.env x)] = 0 := by simp [gone]
    have hm : made i [Ev.moved (σ.sto.get σ.env x)] = 0 := by simp [made]
    have hx : s1.get σ.env x = σ.sto.get σ.env x := by
      unfold Sto.get
      cases hl : look σ.env x with
      | none => rfl
      | some c =>
        have := (ho x c hl).1
        have : c ≠ σ.sto.nc := by omega
        simp [s1, upd, this]
    have ho1 : Own s1 σ.env (.drop σ.sto.nc :: (σ.cl ++ outer)) := fun z c hz => by
      obtain ⟨h1, h2⟩ := (ho.keep hk1) z c hz
      exact ⟨h1, fun j hj => List.mem_cons_of_mem _ (h2 j hj)⟩
    refine ⟨hk, ?_, by rw [hg]; omega, fun _ => ⟨?_, ?_, ?_⟩⟩
    · simp only [set_no]; exact made_none i σ.sto _ hm
    · exact hw1.keep (keep_set _ _ _)
    · exact own_new y hk (by rw [set_nc]; exact Nat.lt_succ_self _) ho [.drop σ.sto.nc]
        (fun _ _ => by simp [cells])
    · have h1 := cnt_take x i hw1.nodup ho1
      have h2 : cnt i (.drop σ.sto.nc :: (σ.cl ++ outer)) s1 =
          cnt i (σ.cl ++ outer) s1 + (if σ.sto.get σ.env x = .obj i then 1 else 0) := by
        simp [cnt, cells, List.countP_cons, s1, upd]
      have h3 : cnt i (σ.cl ++ outer) s1 = cnt i (σ.cl ++ outer) σ.sto :=
        cnt_new hw (σ.sto.get σ.env x) _ rfl
      rw [hx] at h1
      simp only [hg, hm, List.cons_append]
      omega
  | .assign x, ds, bs, σ, outer, hok, hw, ho => by simp [ok] at hok
  | .defer a, ds, bs, σ, outer, hok, hw, ho =>
    ⟨Keep.refl _, made_none i _ [], by simp [Spec.run, gone],
      fun _ => ⟨⟨ho, hw⟩, ho, rfl⟩⟩
  | .block ss, ds, bs, σ, outer, hok, hw, ho =>
    back_good (leave_good (good_runL orc n i ss ds bs ⟨σ.env, [], σ.sto⟩ (σ.cl ++ outer)
      (by simpa [ok] using hok) hw ho)) hw ho
  | .ifS c t, ds, bs, σ, outer, hok, hw, ho => by
    simp only [ok, Bool.and_eq_true] at hok
    have hk := keep_test orc (some c) σ.sto
    have := leave_good (good_run orc n i t ds bs ⟨σ.env, [], (testC orc c σ.sto).2.2⟩ (σ.cl ++ outer)
      hok.2 (hw.keep hk) (ho.keep hk))
    simp only [Spec.run]
    split
    · exact good_test orc c hw ho this
    · exact good_skip orc c .norm hw ho
  | .ifElse c t e, ds, bs, σ, outer, hok, hw, ho => by
    simp only [ok, Bool.and_eq_true] at hok
    have hk := keep_test orc (some c) σ.sto
    have h1 := leave_good (good_run orc n i t ds bs ⟨σ.env, [], (testC orc c σ.sto).2.2⟩ (σ.cl ++ outer)
      hok.1.1.2 (hw.keep hk) (ho.keep hk))
    have h2 := leave_good (good_run orc n i e ds bs ⟨σ.env, [], (testC orc c σ.sto).2.2⟩ (σ.cl ++ outer)
      hok.2 (hw.keep hk) (ho.keep hk))
    simp only [Spec.run]
    split
    · exact good_test orc c hw ho h1
    · exact good_test orc c hw ho h2
  | .guard c t, ds, bs, σ, outer, hok, hw, ho => by
    simp only [ok, Bool.and_eq_true] at hok
    have hk := keep_test orc (some c) σ.sto
    have := leave_good (good_run orc n i t ds bs ⟨σ.env, [], (testC orc c σ.sto).2.2⟩ (σ.cl ++ outer)
      hok.2 (hw.keep hk) (ho.keep hk))
    simp only [Spec.run]
    split
    · exact good_skip orc c .norm hw ho
    · exact good_test orc c hw ho this
  | .loop c b, ds, bs, σ, outer, hok, hw, ho => by
    simp only [ok, Bool.and_eq_true] at hok
    exact back_good (iter_good orc (fun s hk => leave_good (good_run orc n i b ds _ ⟨σ.env, [], s⟩
      (σ.cl ++ outer) hok.2 (hw.keep hk) (ho.keep hk))) n σ.sto (Keep.refl _)) hw ho
  | .doWhile b c, ds, bs, σ, outer, hok, hw, ho => by
    simp only [ok, Bool.and_eq_true] at hok
    exact back_good (iterDo_good orc (fun s hk => leave_good (good_run orc n i b ds _ ⟨σ.env, [], s⟩
      (σ.cl ++ outer) hok.2 (hw.keep hk) (ho.keep hk))) n σ.sto (Keep.refl _)) hw ho
  | .brk, ds, bs, σ, outer, hok, hw, ho => good_same .brk hw ho
  | .cont, ds, bs, σ, outer, hok, hw, ho => good_same .cont hw ho
  | .brkL _, ds, bs, σ, outer, hok, hw, ho => good_same .brk hw ho
  | .ret, ds, bs, σ, outer, hok, hw, ho => good_same .ret hw ho
  | .retv a, ds, bs, σ, outer, hok, hw, ho => good_act a .ret hw ho
  | .retMove x, ds, bs, σ, outer, hok, hw, ho => good_act (.consume x) .ret hw ho
  | .retSlice a, ds, bs, σ, outer, hok, hw, ho => good_act a .ret hw ho
  | .attempt c, ds, bs, σ, outer, hok, hw, ho => by
    simp only [Spec.run]
    exact good_skip orc c _ hw ho
theorem good_runL (orc : Nat → Bool) (n i : Nat) : ∀ (ss : Block) (ds : List Cl) (bs : List Nat)
    (σ : Spec.St) (outer : List Clean), okL ss ds bs = true → Well σ.sto (σ.cl ++ outer) →
    Own σ.sto σ.env (σ.cl ++ outer) → Good i outer σ (Spec.runL orc n ss σ)
  | .nil, ds, bs, σ, outer, hok, hw, ho => good_same .norm hw ho
  | .cons s ss, ds, bs, σ, outer, hok, hw, ho => by
    simp only [okL, Bool.and_eq_true] at hok
    have h := good_run orc n i s ds bs σ outer hok.1 hw ho
    have ih := good_runL orc n i ss (emit s ds bs).2 bs (Spec.run orc n s σ).2.2 outer hok.2
    simp only [Spec.runL]
    generalize Spec.run orc n s σ = r at h ih
    obtain ⟨o, t, τ⟩ := r
    cases o
    · obtain ⟨h1, h2, h3⟩ := h.done (by simp)
      have ih := ih h1 h2
      have hm := h.made
      have im := ih.made
      have il := ih.le
      simp only at hm im il h3 ⊢
      refine ⟨h.keep.trans ih.keep, ?_, ?_, fun hc => ?_⟩
      · simp only [made_append, hm, im]
        exact made_seq h.keep.no ih.keep.no
      · simp only [made_append, gone_append]; omega
      · obtain ⟨g1, g2, g3⟩ := ih.done hc
        refine ⟨g1, g2, ?_⟩
        simp only at g3
        simp only [made_append, gone_append]; omega
    all_goals exact h
end

end Verif.Defer
