import Verif.Defer.Count

/-!
# No destructor for a moved-out variable, as long as no variable is returned by name
-/

namespace Verif.Defer

mutual
/-- no `return x` of a variable with a destructor -/
def noRetMove : Stmt → Bool
  | .retMove _ => false
  | .block ss => noRetMoveL ss
  | .ifS _ t => noRetMove t
  | .ifElse _ t e => noRetMove t && noRetMove e
  | .guard _ b => noRetMove b
  | .loop _ b => noRetMove b
  | .doWhile b _ => noRetMove b
  | _ => true
/-- the same for lists -/
def noRetMoveL : Block → Bool
  | .nil => true
  | .cons s ss => noRetMove s && noRetMoveL ss
end

mutual
/-- no `memset` without clearing the flag -/
def noZero : CStmt → Bool
  | .prim (.zero _) => false
  | .prim _ => true
  | .block ss => noZeroL ss
  | .ifS _ _ t => noZero t
  | .ifElse _ _ t e => noZero t && noZero e
  | .loop _ b => noZero b
  | .doWhile b _ => noZero b
/-- the same for lists -/
def noZeroL : CBlock → Bool
  | .nil => true
  | .cons s ss => noZero s && noZeroL ss
end

/-- the same for Lean lists -/
def noZeros (l : List CStmt) : Prop := noZeroL (ofList l) = true

theorem noZeros_append {a b : List CStmt} (ha : noZeros a) (hb : noZeros b) : noZeros (a ++ b) := by
  induction a with
  | nil => exact hb
  | cons s a ih =>
    simp only [noZeros, ofList, noZeroL, List.cons_append, Bool.and_eq_true] at ha ⊢
    exact ⟨ha.1, ih ha.2⟩

theorem noZeros_one (s : CStmt) : noZeros [s] ↔ noZero s = true := by simp [noZeros, ofList, noZeroL]

theorem noZero_act (a : Act) : noZero (.prim a.prim) = true := by cases a <;> rfl

theorem noZeros_unw (ds : List Cl) (n : Nat) : noZeros (unw ds n) := by
  unfold unw
  generalize ds.take (ds.length - n) = l
  induction l with
  | nil => rfl
  | cons d l ih =>
    have : noZero d.stmt = true := by
      cases d
      · exact noZero_act _
      · rfl
    simpa [noZeros, ofList, noZeroL, this] using ih

theorem noZero_onl {l : List CStmt} (h : noZeros l) : noZero (one l) = true := by
  match l with
  | [] => rfl
  | [s] => exact (noZeros_one s).1 h
  | _ :: _ :: _ => rfl

mutual
theorem tree_noZero : ∀ (s : Stmt) (ds : List Cl) (bs : List Nat), noRetMove s = true →
    noZeros (tree s ds bs)
  | .act a, ds, bs, _ => (noZeros_one _).2 (noZero_act a)
  | .decl x, ds, bs, _ => rfl
  | .val x k, ds, bs, _ => rfl
  | .letMove y x, ds, bs, _ => rfl
  | .assign x, ds, bs, _ => rfl
  | .defer a, ds, bs, _ => rfl
  | .block ss, ds, bs, h => by
    simp only [tree, noZeros_one, noZero]
    exact noZeros_append (treeL_noZero ss ds bs (by simpa [noRetMove] using h)) (noZeros_unw _ _)
  | .ifS c t, ds, bs, h => by
    simp only [noRetMove] at h
    simp only [tree, noZeros_one, noZero]
    exact noZero_onl (tree_noZero t ds bs h)
  | .ifElse c t e, ds, bs, h => by
    simp only [noRetMove, Bool.and_eq_true] at h
    simp only [tree, noZeros_one, noZero, Bool.and_eq_true]
    exact ⟨noZero_onl (tree_noZero t ds bs h.1), noZero_onl (tree_noZero e ds bs h.2)⟩
  | .guard c b, ds, bs, h => by
    simp only [noRetMove] at h
    simp only [tree, noZeros_one, noZero]
    exact noZero_onl (tree_noZero b ds bs h)
  | .loop c b, ds, bs, h => by
    simp only [noRetMove] at h
    simp only [tree, noZeros_one, noZero]
    exact noZero_onl (tree_noZero b ds _ h)
  | .doWhile b c, ds, bs, h => by
    simp only [noRetMove] at h
    simp only [tree, noZeros_one, noZero]
    exact noZero_onl (tree_noZero b ds _ h)
  | .brk, ds, bs, _ => by
    cases bs with
    | nil => rfl
    | cons b bs => exact noZeros_append (noZeros_unw _ _) rfl
  | .cont, ds, bs, _ => by
    cases bs with
    | nil => rfl
    | cons b bs => exact noZeros_append (noZeros_unw _ _) rfl
  | .brkL l, ds, bs, _ => by
    cases bs with
    | nil => rfl
    | cons b bs => exact noZeros_append (noZeros_unw _ _) rfl
  | .ret, ds, bs, _ => noZeros_append (noZeros_unw _ _) rfl
  | .retv a, ds, bs, _ => by
    simp only [tree]
    split
    · simp only [noZeros_one, noZero, ofList, noZeroL, noZero_act, Bool.true_and]
      exact noZeros_append (noZeros_unw _ _) rfl
    · rfl
  | .retMove x, ds, bs, h => by simp [noRetMove] at h
  | .retSlice a, ds, bs, _ => by
    simp [tree, noZeros_one, noZero, ofList, noZeroL, noZero_act]
  | .attempt c, ds, bs, _ => rfl
theorem treeL_noZero : ∀ (ss : Block) (ds : List Cl) (bs : List Nat), noRetMoveL ss = true →
    noZeros (treeL ss ds bs)
  | .nil, ds, bs, _ => rfl
  | .cons s ss, ds, bs, h => by
    simp only [noRetMoveL, Bool.and_eq_true] at h
    exact noZeros_append (tree_noZero s ds bs h.1) (treeL_noZero ss _ bs h.2)
end

/-- `let y = x` only takes variables that still hold an object: programs that pass a check for
uses after moves -/
def MovesOk (t : List Ev) : Prop := ∀ v, .moved v ∈ t → ∃ i, v = .obj i

/-- set flags belong to variables that hold an object -/
def Inv2 (σ : CSt) : Prop := ∀ c, σ.flag c = true → ∃ i, σ.sto.val c = .obj i

/-- what is kept along runs -/
def Fine (r : Out × List Ev × CSt) : Prop := MovesOk r.2.1 → Spec.NoGhost r.2.1 ∧ Inv2 r.2.2

theorem movesOk_append {a b : List Ev} : MovesOk (a ++ b) ↔ MovesOk a ∧ MovesOk b :=
  ⟨fun h => ⟨fun v hv => h v (List.mem_append_left _ hv), fun v hv => h v (List.mem_append_right _ hv)⟩,
    fun h v hv => (List.mem_append.1 hv).elim (h.1 v) (h.2 v)⟩

theorem noGhost_append {a b : List Ev} (ha : Spec.NoGhost a) (hb : Spec.NoGhost b) :
    Spec.NoGhost (a ++ b) := fun v hv => (List.mem_append.1 hv).elim (ha v) (hb v)

theorem Inv2.gone {σ : CSt} (h : Inv2 σ) (x : Name) :
    Inv2 (({ σ with sto := σ.sto.set σ.env x .gone } : CSt).setFlag x false) := by
  intro c
  simp only [CSt.setFlag, Sto.set]
  cases hx : look σ.env x with
  | none => exact h c
  | some d =>
    simp only [upd]
    by_cases hc : c = d
    · simp [hc]
    · simp only [hc, if_false]; exact h c

theorem fine_prim (orc : Nat → Bool) (p : Prim) (σ : CSt) (hp : noZero (.prim p) = true)
    (h : Inv2 σ) : Fine (runP orc p σ) := by
  intro hm
  cases p with
  | use a xs => exact ⟨by simp [Spec.NoGhost, runP], h⟩
  | move x => exact ⟨by simp [Spec.NoGhost, runP], h.gone x⟩
  | fresh x =>
    refine ⟨by simp [Spec.NoGhost, runP], fun c => ?_⟩
    simp only [runP, upd]
    by_cases hc : c = σ.sto.nc
    · simp [hc]
    · simp only [hc, if_false]; exact h c
  | num x k =>
    refine ⟨by simp [Spec.NoGhost, runP], fun c => ?_⟩
    simp only [runP, upd]
    by_cases hc : c = σ.sto.nc
    · simp [hc]
    · simp only [hc, if_false]; exact h c
  | letMove y x =>
    obtain ⟨i, hi⟩ := hm (σ.sto.get ((y, σ.sto.nc) :: σ.env) x) (by simp [runP])
    have h0 : Inv2 (⟨(y, σ.sto.nc) :: σ.env, ⟨upd σ.sto.val σ.sto.nc
        (σ.sto.get ((y, σ.sto.nc) :: σ.env) x), σ.sto.nc + 1, σ.sto.no, σ.sto.k⟩,
        upd σ.flag σ.sto.nc true⟩ : CSt) := by
      intro c
      simp only [upd]
      by_cases hc : c = σ.sto.nc
      · simp [hc, hi]
      · simp only [hc, if_false]; exact h c
    exact ⟨by simp [Spec.NoGhost, runP], h0.gone x⟩
  | assign x =>
    refine ⟨by simp [Spec.NoGhost, runP], fun c => ?_⟩
    simp only [runP, Sto.set]
    cases hx : look σ.env x with
    | none => exact h c
    | some d =>
      simp only [upd]
      by_cases hc : c = d
      · simp [hc]
      · simp only [hc, if_false]; exact h c
  | zero x => simp [noZero] at hp
  | dropIf x =>
    simp only [runP]
    cases hx : look σ.env x with
    | none => exact ⟨by simp [Spec.NoGhost], h⟩
    | some c =>
      refine ⟨fun v hv => ?_, h⟩
      simp only at hv
      split at hv
      · rename_i hf
        obtain ⟨i, hi⟩ := h c hf
        exact ⟨i, by simpa [hi] using hv⟩
      · simp at hv
  | tryRet c => exact ⟨by simp [Spec.NoGhost, runP, testC], h⟩
  | ret => exact ⟨by simp [Spec.NoGhost, runP], h⟩
  | retv a =>
    cases a with
    | use a xs => exact ⟨by simp [Spec.NoGhost, runP], h⟩
    | consume x => exact ⟨by simp [Spec.NoGhost, runP], h.gone x⟩
  | brk => exact ⟨by simp [Spec.NoGhost, runP], h⟩
  | cont => exact ⟨by simp [Spec.NoGhost, runP], h⟩
  | goto l => exact ⟨by simp [Spec.NoGhost, runP], h⟩

theorem noGhost_test (orc : Nat → Bool) (c : Option Nat) (σ : CSt) :
    Spec.NoGhost (testS orc c σ).2.1 := by
  cases c <;> simp [Spec.NoGhost, testS, testO, testC]

theorem inv2_test (orc : Nat → Bool) (c : Option Nat) {σ : CSt} (h : Inv2 σ) :
    Inv2 (testS orc c σ).2.2 := by
  cases c <;> exact h

theorem fine_pre {p : List Ev} {r : Out × List Ev × CSt} (o : Out) (hp : Spec.NoGhost p) (h : Fine r) :
    Fine (o, p ++ r.2.1, r.2.2) := fun hm => by
  obtain ⟨h1, h2⟩ := h (movesOk_append.1 hm).2
  exact ⟨noGhost_append hp h1, h2⟩

theorem iter_fine (orc : Nat → Bool) (c : Option Nat) {body : CSt → Out × List Ev × CSt}
    (hb : ∀ σ, Inv2 σ → Fine (body σ)) :
    ∀ (n : Nat) (σ : CSt), Inv2 σ → Fine (iter (testS orc c) body n σ)
  | 0, σ, h => fun _ => ⟨by simp [Spec.NoGhost, iter], h⟩
  | n + 1, σ, h => by
    have h1 := inv2_test orc c h
    have hB := hb _ h1
    have hg := noGhost_test orc c σ
    simp only [iter]
    split
    · generalize hr : body (testS orc c σ).2.2 = r at hB ⊢
      obtain ⟨o, t, σ'⟩ := r
      have hh : Fine ((iter (testS orc c) body n σ').1, (testS orc c σ).2.1 ++
          (t ++ (iter (testS orc c) body n σ').2.1), (iter (testS orc c) body n σ').2.2) := by
        intro hm
        have hm1 := (movesOk_append.1 hm).2
        obtain ⟨g1, g2⟩ := hB (movesOk_append.1 hm1).1
        obtain ⟨g3, g4⟩ := iter_fine orc c hb n σ' g2 (movesOk_append.1 hm1).2
        exact ⟨noGhost_append hg (noGhost_append g1 g3), g4⟩
      cases o <;> simp only
      · exact hh
      · exact fine_pre .norm hg hB
      · exact hh
      · exact fine_pre .ret hg hB
      · exact fine_pre .cut hg hB
    · exact fun _ => ⟨hg, h1⟩

theorem iterDo_fine (orc : Nat → Bool) (c : Option Nat) {body : CSt → Out × List Ev × CSt}
    (hb : ∀ σ, Inv2 σ → Fine (body σ)) :
    ∀ (n : Nat) (σ : CSt), Inv2 σ → Fine (iterDo (testS orc c) body n σ)
  | 0, σ, h => fun _ => ⟨by simp [Spec.NoGhost, iterDo], h⟩
  | n + 1, σ, h => by
    have hB := hb σ h
    simp only [iterDo]
    generalize hr : body σ = r at hB ⊢
    obtain ⟨o, t, σ'⟩ := r
    have hg := noGhost_test orc c σ'
    have hh : Fine (if (testS orc c σ').1 = true then
        ((iterDo (testS orc c) body n (testS orc c σ').2.2).1,
          t ++ ((testS orc c σ').2.1 ++ (iterDo (testS orc c) body n (testS orc c σ').2.2).2.1),
          (iterDo (testS orc c) body n (testS orc c σ').2.2).2.2)
        else (.norm, t ++ (testS orc c σ').2.1, (testS orc c σ').2.2)) := by
      intro hm
      split at hm
      · rename_i ht
        simp only [ht, if_true]
        obtain ⟨g1, g2⟩ := hB (movesOk_append.1 hm).1
        obtain ⟨g3, g4⟩ := iterDo_fine orc c hb n _ (inv2_test orc c g2)
          (movesOk_append.1 (movesOk_append.1 hm).2).2
        exact ⟨noGhost_append g1 (noGhost_append hg g3), g4⟩
      · rename_i ht
        simp only [ht]
        obtain ⟨g1, g2⟩ := hB (movesOk_append.1 hm).1
        exact ⟨noGhost_append g1 hg, inv2_test orc c g2⟩
    cases o <;> simp only
    · exact hh
    · exact hB
    · exact hh
    · exact hB
    · exact hB

mutual
theorem fine_run (orc : Nat → Bool) (n : Nat) : ∀ (s : CStmt) (σ : CSt), noZero s = true → Inv2 σ →
    Fine (runC orc n s σ)
  | .prim p, σ, hp, h => fine_prim orc p σ hp h
  | .block ss, σ, hp, h => by
    have := fine_runL orc n ss σ (by simpa [noZero] using hp) h
    exact fun hm => ⟨(this hm).1, (this hm).2⟩
  | .ifS neg c t, σ, hp, h => by
    simp only [runC]
    split
    · exact fine_pre _ (noGhost_test orc _ σ)
        (fine_run orc n t _ (by simpa [noZero] using hp) (inv2_test orc (some c) h))
    · exact fun _ => ⟨noGhost_test orc _ σ, inv2_test orc (some c) h⟩
  | .ifElse neg c t e, σ, hp, h => by
    simp only [noZero, Bool.and_eq_true] at hp
    simp only [runC]
    split
    · exact fine_pre _ (noGhost_test orc _ σ) (fine_run orc n t _ hp.1 (inv2_test orc (some c) h))
    · exact fine_pre _ (noGhost_test orc _ σ) (fine_run orc n e _ hp.2 (inv2_test orc (some c) h))
  | .loop c b, σ, hp, h =>
    iter_fine orc c (fun τ hτ => fine_run orc n b τ (by simpa [noZero] using hp) hτ) n σ h
  | .doWhile b c, σ, hp, h =>
    iterDo_fine orc (some c) (fun τ hτ => fine_run orc n b τ (by simpa [noZero] using hp) hτ) n σ h
theorem fine_runL (orc : Nat → Bool) (n : Nat) : ∀ (ss : CBlock) (σ : CSt), noZeroL ss = true →
    Inv2 σ → Fine (runCL orc n ss σ)
  | .nil, σ, _, h => fun _ => ⟨by simp [Spec.NoGhost, runCL], h⟩
  | .cons s ss, σ, hp, h => by
    simp only [noZeroL, Bool.and_eq_true] at hp
    have h1 := fine_run orc n s σ hp.1 h
    have ih := fine_runL orc n ss (runC orc n s σ).2.2 hp.2
    simp only [runCL]
    generalize runC orc n s σ = r at h1 ih
    obtain ⟨o, t, τ⟩ := r
    cases o
    · intro hm
      obtain ⟨g1, g2⟩ := h1 (movesOk_append.1 hm).1
      obtain ⟨g3, g4⟩ := ih g2 (movesOk_append.1 hm).2
      exact ⟨noGhost_append g1 g3, g4⟩
    all_goals exact h1
end

theorem erase_noGhost {t : List Ev} (h : Spec.NoGhost t) : erase t = t := by
  unfold erase
  rw [List.filter_eq_self]
  intro e he
  cases e <;> try rfl
  rename_i v
  obtain ⟨i, rfl⟩ := h v he
  rfl

theorem movesOk_erase {t : List Ev} (h : MovesOk (erase t)) : MovesOk t := fun v hv =>
  h v (List.mem_filter.2 ⟨hv, rfl⟩)

end Verif.Defer
