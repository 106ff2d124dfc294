import Verif.ExprGen.Model

/-! # C81: expressions do what they say -/

namespace Verif.ExprGen

open Spec

variable {T : Type}

/-! ## Simulation -/

/-- The stores stay related: `I` are the names that are not the program's. -/
structure Good (I : Name → Prop) (ρ0 σ0 ρ σ : Env) : Prop where
  agree : ∀ x, ¬ I x → σ x = ρ x
  tmp : ∀ x, I x → σ x = σ0 x
  own : ∀ x, I x → ρ x = ρ0 x
  len : ∀ x, (ρ x).length = (ρ0 x).length

/-- Outcomes are the same. -/
def Sim (I : Name → Prop) (ρ0 σ0 : Env) (r c : Res (Int × Env × World T)) : Prop :=
  match r with
  | .ok (v, ρ, w) => ∃ σ, c = .ok (v, σ, w) ∧ Good I ρ0 σ0 ρ σ
  | .panic => c = .panic
  | .ub => c = .ub

/-- The same for code that sets `_ifval`. -/
def SimB (I : Name → Prop) (ρ0 σ0 : Env) (r c : Res (Int × Env × World T)) : Prop :=
  match r with
  | .ok (v, ρ, w) => ∃ u σ, c = .ok (u, σ, w) ∧
      Good I ρ0 (fun x => if x = "_ifval" then some v :: (σ0 x).tail else σ0 x) ρ σ
  | .panic => c = .panic
  | .ub => c = .ub

theorem sim_ok {I : Name → Prop} {ρ0 σ0 ρ σ : Env} (g : Good I ρ0 σ0 ρ σ) (v : Int) (w : World T) :
    Sim I ρ0 σ0 (.ok (v, ρ, w)) (.ok (v, σ, w)) := ⟨σ, rfl, g⟩

theorem sim_bind {I : Name → Prop} {ρ0 σ0 ρ1 σ1 : Env} {r c : Res (Int × Env × World T)}
    {f g : Int × Env × World T → Res (Int × Env × World T)} (h : Sim I ρ0 σ0 r c)
    (k : ∀ v ρ σ w, Good I ρ0 σ0 ρ σ → Sim I ρ1 σ1 (f (v, ρ, w)) (g (v, σ, w))) :
    Sim I ρ1 σ1 (r >>= f) (c >>= g) := by
  cases r with
  | ok o =>
    obtain ⟨v, ρ, w⟩ := o
    obtain ⟨σ, rfl, hg⟩ := h
    exact k v ρ σ w hg
  | panic =>
    cases h
    exact rfl
  | ub =>
    cases h
    exact rfl

theorem simB_bind {I : Name → Prop} {ρ0 σ0 ρ1 σ1 : Env} {r c : Res (Int × Env × World T)}
    {f g : Int × Env × World T → Res (Int × Env × World T)} (h : Sim I ρ0 σ0 r c)
    (k : ∀ v ρ σ w, Good I ρ0 σ0 ρ σ → SimB I ρ1 σ1 (f (v, ρ, w)) (g (v, σ, w))) :
    SimB I ρ1 σ1 (r >>= f) (c >>= g) := by
  cases r with
  | ok o =>
    obtain ⟨v, ρ, w⟩ := o
    obtain ⟨σ, rfl, hg⟩ := h
    exact k v ρ σ w hg
  | panic =>
    cases h
    exact rfl
  | ub =>
    cases h
    exact rfl

theorem sim_val {I : Name → Prop} {ρ1 σ1 : Env} {x : Res Int} {f g : Int → Res (Int × Env × World T)}
    (k : ∀ v, Sim I ρ1 σ1 (f v) (g v)) : Sim I ρ1 σ1 (x >>= f) (x >>= g) := by
  cases x with
  | ok v => exact k v
  | panic => exact rfl
  | ub => exact rfl

theorem good_get {I : Name → Prop} {ρ0 σ0 ρ σ : Env} (g : Good I ρ0 σ0 ρ σ) (x : Name) (hx : ¬ I x) :
    σ.get x = ρ.get x := by
  unfold Env.get
  rw [g.agree x hx]

theorem good_set {I : Name → Prop} {ρ0 σ0 ρ σ : Env} (g : Good I ρ0 σ0 ρ σ) (x : Name) (hx : ¬ I x) (v : Int)
    (hne : ρ x ≠ []) : Good I ρ0 σ0 (ρ.set x v) (σ.set x v) := by
  constructor
  · intro y hy
    unfold Env.set
    rw [g.agree y hy]
  · intro y hy
    have : y ≠ x := fun e => hx (e ▸ hy)
    simp only [Env.set, this, if_false]
    exact g.tmp y hy
  · intro y hy
    have : y ≠ x := fun e => hx (e ▸ hy)
    simp only [Env.set, this, if_false]
    exact g.own y hy
  · intro y
    rw [← g.len y]
    unfold Env.set
    split
    · rename_i h
      subst h
      cases hρ : ρ y with
      | nil => exact absurd hρ hne
      | cons a l => simp
    · rfl

theorem sim_put {I : Name → Prop} {ρ0 σ0 ρ σ ρ1 σ1 : Env} (g : Good I ρ0 σ0 ρ σ) (x : Name) (hx : ¬ I x) (v : Int)
    {f k : Env → Res (Int × Env × World T)} (h : ∀ ρ σ, Good I ρ0 σ0 ρ σ → Sim I ρ1 σ1 (f ρ) (k σ)) :
    Sim I ρ1 σ1 (ρ.put x v >>= f) (σ.put x v >>= k) := by
  unfold Env.put
  rw [g.agree x hx]
  cases hρ : ρ x with
  | nil => exact rfl
  | cons a l => exact h _ _ (good_set g x hx v (by rw [hρ]; simp))

theorem push_same (ρ : Env) (x : Name) (v : Option Int) : ρ.push x v x = v :: ρ x := by
  simp [Env.push]

theorem push_other (ρ : Env) (x y : Name) (v : Option Int) (h : y ≠ x) : ρ.push x v y = ρ y := by
  simp [Env.push, h]

theorem good_push_tmp {I : Name → Prop} {ρ0 σ0 ρ σ : Env} (g : Good I ρ0 σ0 ρ σ) (t : Name) (ht : I t) (u : Option Int) :
    Good I ρ0 (σ0.push t u) ρ (σ.push t u) := by
  constructor
  · intro y hy
    have : y ≠ t := fun e => hy (e ▸ ht)
    rw [push_other _ _ _ _ this]
    exact g.agree y hy
  · intro y hy
    unfold Env.push
    rw [g.tmp y hy]
  · exact g.own
  · exact g.len

/-- After the initialiser the helper variable is set. -/
theorem good_set_tmp {I : Name → Prop} {ρ0 σ0 ρ σ : Env} (t : Name) (ht : I t) (u : Option Int) (v : Int)
    (g : Good I ρ0 (σ0.push t u) ρ σ) : Good I ρ0 (σ0.push t (some v)) ρ (σ.set t v) := by
  constructor
  · intro y hy
    have : y ≠ t := fun e => hy (e ▸ ht)
    simp only [Env.set, this, if_false]
    exact g.agree y hy
  · intro y hy
    by_cases e : y = t
    · subst e
      have := g.tmp y hy
      rw [push_same] at this ⊢
      simp [Env.set, this]
    · have := g.tmp y hy
      rw [push_other _ _ _ _ e] at this ⊢
      simp only [Env.set, e, if_false]
      exact this
  · exact g.own
  · exact g.len

theorem put_tmp {I : Name → Prop} {ρ0 σ0 ρ σ : Env} (t : Name) (ht : I t) (u : Option Int) (v : Int)
    (g : Good I ρ0 (σ0.push t u) ρ σ) : σ.put t v = .ok (σ.set t v) := by
  have := g.tmp t ht
  rw [push_same] at this
  unfold Env.put
  rw [this]

theorem get_tmp {I : Name → Prop} {ρ0 σ0 ρ σ : Env} (t : Name) (ht : I t) (v : Int)
    (g : Good I ρ0 (σ0.push t (some v)) ρ σ) : σ.get t = .ok v := by
  have := g.tmp t ht
  rw [push_same] at this
  unfold Env.get
  rw [this]

/-- Leaving the scope of a helper variable. -/
theorem good_pop_tmp {I : Name → Prop} {ρ0 σ0 ρ σ : Env} (t : Name) (ht : I t) (u : Option Int)
    (g : Good I ρ0 (σ0.push t u) ρ σ) : Good I ρ0 σ0 ρ (σ.pop t) := by
  constructor
  · intro y hy
    have : y ≠ t := fun e => hy (e ▸ ht)
    simp only [Env.pop, this, if_false]
    exact g.agree y hy
  · intro y hy
    by_cases e : y = t
    · subst e
      have := g.tmp y hy
      rw [push_same] at this
      simp [Env.pop, this]
    · have := g.tmp y hy
      rw [push_other _ _ _ _ e] at this
      simp only [Env.pop, e, if_false]
      exact this
  · exact g.own
  · exact g.len

/-- A helper variable that holds an operand. -/
theorem sim_dcl {I : Name → Prop} {ρ0 σ0 σ : Env} {w : World T} (L : Lang T) (rf : Bool) (t : Name) (ht : I t) (a b : CE)
    {r : Res (Int × Env × World T)} {f : Int × Env × World T → Res (Int × Env × World T)}
    (h : Sim I ρ0 (σ0.push t none) r (run L rf a (σ.push t none) w))
    (k : ∀ v ρ σ w, Good I ρ0 (σ0.push t (some v)) ρ σ →
      Sim I ρ0 (σ0.push t (some v)) (f (v, ρ, w)) (run L rf b σ w)) :
    Sim I ρ0 σ0 (r >>= f) (run L rf (.dcl t a b) σ w) := by
  unfold run
  cases r with
  | ok o =>
    obtain ⟨v, ρ, w1⟩ := o
    obtain ⟨σ1, hc, hg⟩ := h
    rw [hc]
    show Sim I ρ0 σ0 (f (v, ρ, w1)) ((σ1.put t v) >>= fun σ => run L rf b σ w1 >>= fun o => .ok (o.1, o.2.1.pop t, o.2.2))
    rw [put_tmp t ht none v hg]
    have hk := k v ρ (σ1.set t v) w1 (good_set_tmp t ht none v hg)
    show Sim I ρ0 σ0 (f (v, ρ, w1)) (run L rf b (σ1.set t v) w1 >>= fun o => .ok (o.1, o.2.1.pop t, o.2.2))
    cases hf : f (v, ρ, w1) with
    | ok o2 =>
      rw [hf] at hk
      obtain ⟨u, ρ2, w2⟩ := o2
      obtain ⟨σ2, hc2, hg2⟩ := hk
      rw [hc2]
      exact ⟨σ2.pop t, rfl, good_pop_tmp t ht (some v) hg2⟩
    | panic =>
      rw [hf] at hk
      rw [show run L rf b (σ1.set t v) w1 = .panic from hk]
      exact rfl
    | ub =>
      rw [hf] at hk
      rw [show run L rf b (σ1.set t v) w1 = .ub from hk]
      exact rfl
  | panic =>
    rw [show run L rf a (σ.push t none) w = .panic from h]
    exact rfl
  | ub =>
    rw [show run L rf a (σ.push t none) w = .ub from h]
    exact rfl

/-- Code that gives a value also sets `_ifval` to it. -/
theorem simB_leaf {I : Name → Prop} {ρ0 σ0 σ : Env} {w : World T} (L : Lang T) (rf : Bool) (hI : I "_ifval") (a : CE)
    {r : Res (Int × Env × World T)} (h : Sim I ρ0 σ0 r (run L rf a σ w)) (hd : σ0 "_ifval" ≠ []) :
    SimB I ρ0 σ0 r (run L rf (.asg "_ifval" a) σ w) := by
  unfold run
  cases r with
  | ok o =>
    obtain ⟨v, ρ, w1⟩ := o
    obtain ⟨σ1, hc, hg⟩ := h
    rw [hc]
    have ht := hg.tmp _ hI
    show SimB I ρ0 σ0 (.ok (v, ρ, w1)) (σ1.put "_ifval" v >>= fun σ => .ok (v, σ, w1))
    have hp : σ1.put "_ifval" v = .ok (σ1.set "_ifval" v) := by
      unfold Env.put
      rw [ht]
      cases hs : σ0 "_ifval" with
      | nil => exact absurd hs hd
      | cons => rfl
    rw [hp]
    refine ⟨v, σ1.set "_ifval" v, rfl, ?_, ?_, hg.own, hg.len⟩
    · intro y hy
      have : y ≠ "_ifval" := fun e => hy (e ▸ hI)
      simp only [Env.set, this, if_false]
      exact hg.agree y hy
    · intro y hy
      unfold Env.set
      split
      · rw [hg.tmp y hy]
      · exact hg.tmp y hy
  | panic =>
    rw [show run L rf a σ w = .panic from h]
    exact rfl
  | ub =>
    rw [show run L rf a σ w = .ub from h]
    exact rfl

/-! ## Quiet expressions -/

theorem okb {α β : Type} (a : α) (f : α → Res β) : (Res.ok a >>= f) = f a := rfl

theorem ok_of_bind {α β : Type} {x : Res α} {f : α → Res β} {b : β} (h : (x >>= f) = .ok b) :
    ∃ a, x = .ok a ∧ f a = .ok b := by
  cases x with
  | ok a => exact ⟨a, rfl, h⟩
  | panic => cases h
  | ub => cases h

/-- Quiet expressions change nothing. -/
theorem quiet_eval (L : Lang T) (rf : Bool) (e : Ex) (h : Quiet e) : ∀ (ρ : Env) (w : World T) (v : Int) (ρ' : Env)
    (w' : World T), eval L rf e ρ w = .ok (v, ρ', w') → ρ' = ρ ∧ w' = w := by
  induction e with
  | lit n =>
    intro ρ w v ρ' w' he
    cases he
    exact ⟨rfl, rfl⟩
  | var x =>
    intro ρ w v ρ' w' he
    unfold eval at he
    obtain ⟨u, -, hk⟩ := ok_of_bind he; clear he; have he := hk; clear hk
    cases he
    exact ⟨rfl, rfl⟩
  | bin op a b iha ihb =>
    intro ρ w v ρ' w' he
    unfold eval at he
    split at he
    · obtain ⟨⟨vb, ρ1, w1⟩, h1, hk⟩ := ok_of_bind he; clear he; have he := hk; clear hk
      obtain ⟨⟨va, ρ2, w2⟩, h2, hk⟩ := ok_of_bind he; clear he; have he := hk; clear hk
      obtain ⟨u, -, hk⟩ := ok_of_bind he; clear he; have he := hk; clear hk
      cases he
      obtain ⟨rfl, rfl⟩ := ihb h.2 _ _ _ _ _ h1
      exact iha h.1 _ _ _ _ _ h2
    · obtain ⟨⟨vb, ρ1, w1⟩, h1, hk⟩ := ok_of_bind he; clear he; have he := hk; clear hk
      obtain ⟨⟨va, ρ2, w2⟩, h2, hk⟩ := ok_of_bind he; clear he; have he := hk; clear hk
      obtain ⟨u, -, hk⟩ := ok_of_bind he; clear he; have he := hk; clear hk
      cases he
      obtain ⟨rfl, rfl⟩ := iha h.1 _ _ _ _ _ h1
      exact ihb h.2 _ _ _ _ _ h2
  | land a b iha ihb =>
    intro ρ w v ρ' w' he
    unfold eval at he
    obtain ⟨⟨va, ρ1, w1⟩, h1, hk⟩ := ok_of_bind he; clear he; have he := hk; clear hk
    obtain ⟨rfl, rfl⟩ := iha h.1 _ _ _ _ _ h1
    dsimp only at he
    split at he
    · cases he
      exact ⟨rfl, rfl⟩
    · obtain ⟨⟨vb, ρ2, w2⟩, h2, hk⟩ := ok_of_bind he; clear he; have he := hk; clear hk
      cases he
      exact ihb h.2 _ _ _ _ _ h2
  | lor a b iha ihb =>
    intro ρ w v ρ' w' he
    unfold eval at he
    obtain ⟨⟨va, ρ1, w1⟩, h1, hk⟩ := ok_of_bind he; clear he; have he := hk; clear hk
    obtain ⟨rfl, rfl⟩ := iha h.1 _ _ _ _ _ h1
    dsimp only at he
    split at he
    · obtain ⟨⟨vb, ρ2, w2⟩, h2, hk⟩ := ok_of_bind he; clear he; have he := hk; clear hk
      cases he
      exact ihb h.2 _ _ _ _ _ h2
    · cases he
      exact ⟨rfl, rfl⟩
  | cond c a b ihc iha ihb =>
    intro ρ w v ρ' w' he
    unfold eval at he
    obtain ⟨⟨vc, ρ1, w1⟩, h1, hk⟩ := ok_of_bind he; clear he; have he := hk; clear hk
    obtain ⟨rfl, rfl⟩ := ihc h.1 _ _ _ _ _ h1
    dsimp only at he
    split at he
    · exact ihb h.2.2 _ _ _ _ _ he
    · exact iha h.2.1 _ _ _ _ _ he
  | load a ih =>
    intro ρ w v ρ' w' he
    unfold eval at he
    obtain ⟨⟨p, ρ1, w1⟩, h1, hk⟩ := ok_of_bind he; clear he; have he := hk; clear hk
    obtain ⟨rfl, rfl⟩ := ih h _ _ _ _ _ h1
    cases he
    exact ⟨rfl, rfl⟩
  | coal a b iha ihb =>
    intro ρ w v ρ' w' he
    unfold eval at he
    obtain ⟨⟨va, ρ1, w1⟩, h1, hk⟩ := ok_of_bind he; clear he; have he := hk; clear hk
    obtain ⟨rfl, rfl⟩ := iha h.1 _ _ _ _ _ h1
    dsimp only at he
    split at he
    · exact ihb h.2 _ _ _ _ _ he
    · cases he
      exact ⟨rfl, rfl⟩
  | opt a off ih =>
    intro ρ w v ρ' w' he
    unfold eval at he
    obtain ⟨⟨p, ρ1, w1⟩, h1, hk⟩ := ok_of_bind he; clear he; have he := hk; clear hk
    obtain ⟨rfl, rfl⟩ := ih h _ _ _ _ _ h1
    dsimp only at he
    split at he <;> cases he <;> exact ⟨rfl, rfl⟩
  | _ => exact h.elim

theorem write_same (w : World T) (p : Int) : w.write p (w.mem p) = w := by
  unfold World.write
  have : (fun b => if b = p then w.mem p else w.mem b) = w.mem := by
    funext b
    split
    · rename_i h
      rw [h]
    · rfl
  rw [this]

theorem set_same (ρ : Env) (x : Name) (v : Int) (h : ρ.get x = .ok v) : ρ.put x v = .ok ρ := by
  unfold Env.get at h
  unfold Env.put
  cases hr : ρ x with
  | nil =>
    rw [hr] at h
    cases h
  | cons u l =>
    rw [hr] at h
    cases u with
    | none => cases h
    | some u =>
      cases h
      dsimp only
      congr 1
      funext y
      unfold Env.set
      split
      · rename_i e
        subst e
        rw [hr]
        rfl
      · rfl

theorem resNames_sub (e : Ex) (x : Name) (h : x ∈ resNames e) : x ∈ fv e ∨ x ∈ lets e := by
  induction e with
  | letE y a b iha ihb =>
    rcases ihb h with h1 | h1
    · by_cases e : x = y
      · right
        simp [lets, e]
      · left
        simp [fv, h1, e]
    · right
      simp [lets, h1]
  | seq a b iha ihb =>
    rcases ihb h with h1 | h1
    · left
      simp [fv, h1]
    · right
      exact h1
  | _ => exact Or.inl h

theorem fv_names (e : Ex) (x : Name) (h : x ∈ fv e) : x ∈ names e := by
  induction e <;> simp_all [fv, names]
  all_goals grind

/-! ## The theorem -/

/-- What is to be shown of an expression. -/
def Fine (L : Lang T) (rf : Bool) (e : Ex) : Prop :=
  ∀ I : Name → Prop, (∀ x, reserved x → I x) → (∀ x ∈ names e, ¬ I x) → ∀ (ρ0 σ0 ρ σ : Env) (w : World T),
    Good I ρ0 σ0 ρ σ → (∀ x ∈ fv e, ρ0 x ≠ []) →
    Sim I ρ0 σ0 (eval L rf e ρ w) (run L rf (gen e).plain σ w) ∧
    (σ0 "_ifval" ≠ [] → SimB I ρ0 σ0 (eval L rf e ρ w) (run L rf (gen e).branch σ w))

/-- For expressions that are no blocks, the first half is enough. -/
theorem fine_leaf (L : Lang T) (rf : Bool) (e : Ex) (c : CE) (hc : gen e = .leaf c)
    (h : ∀ I : Name → Prop, (∀ x, reserved x → I x) → (∀ x ∈ names e, ¬ I x) → ∀ (ρ0 σ0 ρ σ : Env) (w : World T),
      Good I ρ0 σ0 ρ σ → (∀ x ∈ fv e, ρ0 x ≠ []) → Sim I ρ0 σ0 (eval L rf e ρ w) (run L rf c σ w)) :
    Fine L rf e := by
  intro I hI hn ρ0 σ0 ρ σ w g hs
  have := h I hI hn ρ0 σ0 ρ σ w g hs
  rw [hc]
  exact ⟨this, fun hd => simB_leaf L rf (hI _ (Or.inr (Or.inr rfl))) c this hd⟩

theorem cond_tmp {I : Name → Prop} {ρ0 σ0 ρ σ : Env} {w : World T} (L : Lang T) (rf : Bool) (t : Name) (ht : I t) (v : Int)
    (a b : CE) (g : Good I ρ0 (σ0.push t (some v)) ρ σ) :
    run L rf (.cond (.var t) a b) σ w = if v = 0 then run L rf b σ w else run L rf a σ w := by
  simp only [run]
  rw [get_tmp t ht v g]
  rfl

theorem bassoc {α β γ : Type} (x : Res α) (f : α → Res β) (g : β → Res γ) :
    (x >>= f) >>= g = x >>= fun a => f a >>= g := by
  cases x <;> rfl

/-- A quiet place is found again as often as one likes. -/
theorem quiet_run (L : Lang T) (rf : Bool) (a : Ex) (hq : Quiet a) (hf : Fine L rf a) (I : Name → Prop)
    (hI : ∀ x, reserved x → I x) (hn : ∀ x ∈ names a, ¬ I x) (ρ0 ρ : Env) (w : World T) (hs : ∀ x ∈ fv a, ρ0 x ≠ []) :
    (∃ p, eval L rf a ρ w = .ok (p, ρ, w) ∧ ∀ σ0 σ, Good I ρ0 σ0 ρ σ →
      ∃ σ1, run L rf (gen a).plain σ w = .ok (p, σ1, w) ∧ Good I ρ0 σ0 ρ σ1) ∨
    (eval L rf a ρ w = .panic ∧ ∀ σ0 σ, Good I ρ0 σ0 ρ σ → run L rf (gen a).plain σ w = .panic) ∨
    (eval L rf a ρ w = .ub ∧ ∀ σ0 σ, Good I ρ0 σ0 ρ σ → run L rf (gen a).plain σ w = .ub) := by
  cases he : eval L rf a ρ w with
  | ok o =>
    obtain ⟨p, ρ', w'⟩ := o
    obtain ⟨h1, h2⟩ := quiet_eval L rf a hq _ _ _ _ _ he
    rw [h1, h2] at he ⊢
    refine Or.inl ⟨p, rfl, fun σ0 σ g => ?_⟩
    have := (hf I hI hn ρ0 σ0 ρ σ w g hs).1
    rw [he] at this
    exact this
  | panic =>
    refine Or.inr (Or.inl ⟨rfl, fun σ0 σ g => ?_⟩)
    have := (hf I hI hn ρ0 σ0 ρ σ w g hs).1
    rw [he] at this
    exact this
  | ub =>
    refine Or.inr (Or.inr ⟨rfl, fun σ0 σ g => ?_⟩)
    have := (hf I hI hn ρ0 σ0 ρ σ w g hs).1
    rw [he] at this
    exact this

/-- `??`. -/
theorem sim_coal (L : Lang T) (rf : Bool) (a b : Ex) (hfa : Fine L rf a) (hfb : Fine L rf b) (I : Name → Prop)
    (hI : ∀ x, reserved x → I x) (na : ∀ x ∈ names a, ¬ I x) (nb : ∀ x ∈ names b, ¬ I x) (ρ0 σ0 ρ σ : Env) (w : World T)
    (g : Good I ρ0 σ0 ρ σ) (sa : ∀ x ∈ fv a, ρ0 x ≠ []) (sb : ∀ x ∈ fv b, ρ0 x ≠ []) :
    Sim I ρ0 σ0 (eval L rf (.coal a b) ρ w)
      (run L rf (.dcl "_l" (gen a).plain (.cond (.var "_l") (.var "_l") (gen b).plain)) σ w) := by
  have hl : I "_l" := hI _ (Or.inl rfl)
  unfold eval
  refine sim_dcl L rf "_l" hl _ _ (hfa I hI na _ _ _ _ w (good_push_tmp g _ hl _) sa).1 fun va ρ σ w g => ?_
  rw [cond_tmp L rf "_l" hl va _ _ g]
  dsimp only
  split
  · exact (hfb I hI nb _ _ _ _ w g sb).1
  · simp only [run]
    rw [get_tmp "_l" hl va g]
    exact sim_ok g _ _

/-- Leaving the scope of a variable of the program. -/
theorem let_pop {I : Name → Prop} {ρ0 ρ1 ρ2 S S' σ2 : Env} {x : Name} {v : Int} (hx : ¬ I x)
    (g : Good I (ρ1.push x (some v)) S ρ2 σ2) (hS : ∀ y, I y → S y = S' y) (ho : ∀ y, I y → ρ1 y = ρ0 y)
    (hl : ∀ y, (ρ1 y).length = (ρ0 y).length) : Good I ρ0 S' (ρ2.pop x) (σ2.pop x) := by
  constructor
  · intro y hy
    unfold Env.pop
    rw [g.agree y hy]
  · intro y hy
    have : y ≠ x := fun e => hx (e ▸ hy)
    simp only [Env.pop, this, if_false]
    rw [g.tmp y hy, hS y hy]
  · intro y hy
    have : y ≠ x := fun e => hx (e ▸ hy)
    simp only [Env.pop, this, if_false]
    rw [g.own y hy, push_other _ _ _ _ this, ho y hy]
  · intro y
    have := g.len y
    by_cases e : y = x
    · subst e
      rw [push_same] at this
      simp only [Env.pop, if_true, List.length_tail, this, List.length_cons]
      rw [← hl]
      omega
    · rw [push_other _ _ _ _ e] at this
      simp only [Env.pop, e, if_false]
      rw [this, hl]

/-- The state behind the initialiser of a new variable. -/
theorem let_enter (L : Lang T) (rf : Bool) (a : Ex) (hfa : Fine L rf a) (I : Name → Prop)
    (hI : ∀ x, reserved x → I x) (na : ∀ x ∈ names a, ¬ I x) (x : Name) (hx : ¬ I x) (hxa : x ∉ names a) (ρ0 σ0 ρ σ : Env)
    (w : World T) (g : Good I ρ0 σ0 ρ σ) (sa : ∀ x ∈ fv a, ρ0 x ≠ []) :
    (∃ v ρ1 σ1 w1, eval L rf a ρ w = .ok (v, ρ1, w1) ∧ run L rf (gen a).plain (σ.push x none) w = .ok (v, σ1, w1) ∧
      σ1.put x v = .ok (σ1.set x v) ∧ Good I (ρ1.push x (some v)) (σ1.set x v) (ρ1.push x (some v)) (σ1.set x v) ∧
      (∀ y, I y → σ1.set x v y = σ0 y) ∧ (∀ y, I y → ρ1 y = ρ0 y) ∧ ∀ y, (ρ1 y).length = (ρ0 y).length) ∨
    (eval L rf a ρ w = .panic ∧ run L rf (gen a).plain (σ.push x none) w = .panic) ∨
    (eval L rf a ρ w = .ub ∧ run L rf (gen a).plain (σ.push x none) w = .ub) := by
  have hsim := (hfa (fun y => I y ∨ y = x) (fun y hy => Or.inl (hI y hy))
    (fun y hy hh => hh.elim (na y hy) (fun e => hxa (e ▸ hy))) ρ (σ.push x none) ρ (σ.push x none) w
    ⟨fun y hy => by
        rw [not_or] at hy
        rw [push_other _ _ _ _ hy.2]
        exact g.agree y hy.1, fun _ _ => rfl, fun _ _ => rfl, fun _ => rfl⟩
    (fun y hy h0 => sa y hy (by
      have := g.len y
      rw [h0] at this
      exact List.length_eq_zero_iff.mp this.symm))).1
  cases he : eval L rf a ρ w with
  | ok o =>
    rw [he] at hsim
    obtain ⟨v, ρ1, w1⟩ := o
    obtain ⟨σ1, hr, g1⟩ := hsim
    have hσx : σ1 x = none :: σ x := by rw [g1.tmp x (Or.inr rfl), push_same]
    have hρx : ρ1 x = ρ x := g1.own x (Or.inr rfl)
    refine Or.inl ⟨v, ρ1, σ1, w1, rfl, hr, ?_, ⟨?_, fun _ _ => rfl, fun _ _ => rfl, fun _ => rfl⟩, ?_, ?_, ?_⟩
    · unfold Env.put
      rw [hσx]
    · intro y hy
      by_cases e : y = x
      · subst e
        rw [push_same, hρx]
        simp only [Env.set, if_true, hσx, List.tail_cons]
        rw [g.agree y hy]
      · rw [push_other _ _ _ _ e]
        simp only [Env.set, e, if_false]
        exact g1.agree y (fun hh => hh.elim hy e)
    · intro y hy
      have e : y ≠ x := fun e => hx (e ▸ hy)
      simp only [Env.set, e, if_false]
      rw [g1.tmp y (Or.inl hy), push_other _ _ _ _ e, g.tmp y hy]
    · intro y hy
      rw [g1.own y (Or.inl hy), g.own y hy]
    · intro y
      rw [g1.len y, g.len y]
  | panic =>
    rw [he] at hsim
    exact Or.inr (Or.inl ⟨rfl, hsim⟩)
  | ub =>
    rw [he] at hsim
    exact Or.inr (Or.inr ⟨rfl, hsim⟩)

theorem fine (L : Lang T) (rf : Bool) (e : Ex) (h : Clear e) : Fine L rf e := by
  induction e with
  | lit n =>
    refine fine_leaf L rf _ _ rfl ?_
    intro I hI hn ρ0 σ0 ρ σ w g hs
    exact sim_ok g _ _
  | var x =>
    refine fine_leaf L rf _ _ rfl ?_
    intro I hI hn ρ0 σ0 ρ σ w g hs
    simp only [eval, run]
    rw [good_get g x (hn x (by simp [names]))]
    exact sim_val fun v => sim_ok g _ _
  | bin op a b iha ihb =>
    refine fine_leaf L rf _ _ rfl ?_
    intro I hI hn ρ0 σ0 ρ σ w g hs
    have na : ∀ x ∈ names a, ¬ I x := fun x hx => hn x (by simp [names, hx])
    have nb : ∀ x ∈ names b, ¬ I x := fun x hx => hn x (by simp [names, hx])
    have sa : ∀ x ∈ fv a, ρ0 x ≠ [] := fun x hx => hs x (by simp [fv, hx])
    have sb : ∀ x ∈ fv b, ρ0 x ≠ [] := fun x hx => hs x (by simp [fv, hx])
    unfold eval run
    cases rf with
    | true =>
      simp only [if_true]
      refine sim_bind (ihb h.2 I hI nb _ _ _ _ w g sb).1 fun vb ρ σ w g => ?_
      refine sim_bind (iha h.1 I hI na _ _ _ _ w g sa).1 fun va ρ σ w g => ?_
      exact sim_val fun v => sim_ok g _ _
    | false =>
      simp only [Bool.false_eq_true, if_false]
      refine sim_bind (iha h.1 I hI na _ _ _ _ w g sa).1 fun va ρ σ w g => ?_
      refine sim_bind (ihb h.2 I hI nb _ _ _ _ w g sb).1 fun vb ρ σ w g => ?_
      exact sim_val fun v => sim_ok g _ _
  | land a b iha ihb =>
    refine fine_leaf L rf _ _ rfl ?_
    intro I hI hn ρ0 σ0 ρ σ w g hs
    have na : ∀ x ∈ names a, ¬ I x := fun x hx => hn x (by simp [names, hx])
    have nb : ∀ x ∈ names b, ¬ I x := fun x hx => hn x (by simp [names, hx])
    have sa : ∀ x ∈ fv a, ρ0 x ≠ [] := fun x hx => hs x (by simp [fv, hx])
    have sb : ∀ x ∈ fv b, ρ0 x ≠ [] := fun x hx => hs x (by simp [fv, hx])
    unfold eval run
    refine sim_bind (iha h.1 I hI na _ _ _ _ w g sa).1 fun va ρ σ w g => ?_
    dsimp only
    split
    · exact sim_ok g _ _
    · exact sim_bind (ihb h.2 I hI nb _ _ _ _ w g sb).1 fun vb ρ σ w g => sim_ok g _ _
  | lor a b iha ihb =>
    refine fine_leaf L rf _ _ rfl ?_
    intro I hI hn ρ0 σ0 ρ σ w g hs
    have na : ∀ x ∈ names a, ¬ I x := fun x hx => hn x (by simp [names, hx])
    have nb : ∀ x ∈ names b, ¬ I x := fun x hx => hn x (by simp [names, hx])
    have sa : ∀ x ∈ fv a, ρ0 x ≠ [] := fun x hx => hs x (by simp [fv, hx])
    have sb : ∀ x ∈ fv b, ρ0 x ≠ [] := fun x hx => hs x (by simp [fv, hx])
    unfold eval run
    refine sim_bind (iha h.1 I hI na _ _ _ _ w g sa).1 fun va ρ σ w g => ?_
    dsimp only
    split
    · exact sim_bind (ihb h.2 I hI nb _ _ _ _ w g sb).1 fun vb ρ σ w g => sim_ok g _ _
    · exact sim_ok g _ _
  | cond c a b ihc iha ihb =>
    refine fine_leaf L rf _ _ rfl ?_
    intro I hI hn ρ0 σ0 ρ σ w g hs
    have nc : ∀ x ∈ names c, ¬ I x := fun x hx => hn x (by simp [names, hx])
    have na : ∀ x ∈ names a, ¬ I x := fun x hx => hn x (by simp [names, hx])
    have nb : ∀ x ∈ names b, ¬ I x := fun x hx => hn x (by simp [names, hx])
    have sc : ∀ x ∈ fv c, ρ0 x ≠ [] := fun x hx => hs x (by simp [fv, hx])
    have sa : ∀ x ∈ fv a, ρ0 x ≠ [] := fun x hx => hs x (by simp [fv, hx])
    have sb : ∀ x ∈ fv b, ρ0 x ≠ [] := fun x hx => hs x (by simp [fv, hx])
    unfold eval run
    refine sim_bind (ihc h.1 I hI nc _ _ _ _ w g sc).1 fun vc ρ σ w g => ?_
    dsimp only
    split
    · exact (ihb h.2.2 I hI nb _ _ _ _ w g sb).1
    · exact (iha h.2.1 I hI na _ _ _ _ w g sa).1
  | load a ih =>
    refine fine_leaf L rf _ _ rfl ?_
    intro I hI hn ρ0 σ0 ρ σ w g hs
    unfold eval run
    exact sim_bind (ih h I hI hn _ _ _ _ w g hs).1 fun vc ρ σ w g => sim_ok g _ _
  | call f a ih =>
    refine fine_leaf L rf _ _ rfl ?_
    intro I hI hn ρ0 σ0 ρ σ w g hs
    unfold eval run
    exact sim_bind (ih h I hI hn _ _ _ _ w g hs).1 fun vc ρ σ w g => sim_ok g _ _
  | asg x a ih =>
    refine fine_leaf L rf _ _ rfl ?_
    intro I hI hn ρ0 σ0 ρ σ w g hs
    have na : ∀ x ∈ names a, ¬ I x := fun x hx => hn x (by simp [names, hx])
    have sa : ∀ x ∈ fv a, ρ0 x ≠ [] := fun x hx => hs x (by simp [fv, hx])
    unfold eval run
    refine sim_bind (ih h I hI na _ _ _ _ w g sa).1 fun va ρ σ w g => ?_
    exact sim_put g x (hn x (by simp [names])) va fun ρ σ g => sim_ok g _ _
  | store a b iha ihb =>
    refine fine_leaf L rf _ _ rfl ?_
    intro I hI hn ρ0 σ0 ρ σ w g hs
    have na : ∀ x ∈ names a, ¬ I x := fun x hx => hn x (by simp [names, hx])
    have nb : ∀ x ∈ names b, ¬ I x := fun x hx => hn x (by simp [names, hx])
    have sa : ∀ x ∈ fv a, ρ0 x ≠ [] := fun x hx => hs x (by simp [fv, hx])
    have sb : ∀ x ∈ fv b, ρ0 x ≠ [] := fun x hx => hs x (by simp [fv, hx])
    unfold eval run
    cases rf with
    | true =>
      simp only [if_true]
      refine sim_bind (ihb h.2 I hI nb _ _ _ _ w g sb).1 fun vb ρ σ w g => ?_
      exact sim_bind (iha h.1 I hI na _ _ _ _ w g sa).1 fun va ρ σ w g => sim_ok g _ _
    | false =>
      simp only [Bool.false_eq_true, if_false]
      refine sim_bind (iha h.1 I hI na _ _ _ _ w g sa).1 fun va ρ σ w g => ?_
      exact sim_bind (ihb h.2 I hI nb _ _ _ _ w g sb).1 fun vb ρ σ w g => sim_ok g _ _
  | opAsg op x b ih =>
    refine fine_leaf L rf _ _ rfl ?_
    intro I hI hn ρ0 σ0 ρ σ w g hs
    have nb : ∀ x ∈ names b, ¬ I x := fun x hx => hn x (by simp [names, hx])
    have sb : ∀ x ∈ fv b, ρ0 x ≠ [] := fun x hx => hs x (by simp [fv, hx])
    have hx := hn x (by simp [names])
    cases rf with
    | true =>
      unfold eval
      simp only [if_true]
      have hrun : run L true (.asg x (.bin op (.var x) (gen b).plain)) σ w =
          run L true (gen b).plain σ w >>= fun o => o.2.1.get x >>= fun vx => L.op op vx o.1 >>= fun v =>
            o.2.1.put x v >>= fun σ => .ok (v, σ, o.2.2) := by
        simp only [run, if_true, bassoc, okb]
      rw [hrun]
      refine sim_bind (ih h I hI nb _ _ _ _ w g sb).1 fun vb ρ σ w g => ?_
      dsimp only
      rw [good_get g x hx]
      refine sim_val fun vx => sim_val fun v => ?_
      exact sim_put g x hx v fun ρ σ g => sim_ok g _ _
    | false =>
      unfold eval
      simp only [Bool.false_eq_true, if_false]
      have hrun : run L false (.asg x (.bin op (.var x) (gen b).plain)) σ w =
          σ.get x >>= fun vx => run L false (gen b).plain σ w >>= fun o => L.op op vx o.1 >>= fun v =>
            o.2.1.put x v >>= fun σ => .ok (v, σ, o.2.2) := by
        simp only [run, Bool.false_eq_true, if_false, bassoc, okb]
      rw [hrun, good_get g x hx]
      refine sim_val fun vx => ?_
      refine sim_bind (ih h I hI nb _ _ _ _ w g sb).1 fun vb ρ σ w g => ?_
      refine sim_val fun v => ?_
      exact sim_put g x hx v fun ρ σ g => sim_ok g _ _
  | opStore op a b iha ihb =>
    refine fine_leaf L rf _ _ rfl ?_
    intro I hI hn ρ0 σ0 ρ σ w g hs
    have na : ∀ x ∈ names a, ¬ I x := fun x hx => hn x (by simp [names, hx])
    have nb : ∀ x ∈ names b, ¬ I x := fun x hx => hn x (by simp [names, hx])
    have sa : ∀ x ∈ fv a, ρ0 x ≠ [] := fun x hx => hs x (by simp [fv, hx])
    have sb : ∀ x ∈ fv b, ρ0 x ≠ [] := fun x hx => hs x (by simp [fv, hx])
    have fa := iha h.1
    have qa := h.2.2
    cases rf with
    | true =>
      unfold eval run
      simp only [if_true]
      have hrun : run L true (.bin op (.load (gen a).plain) (gen b).plain) σ w =
          run L true (gen b).plain σ w >>= fun o => run L true (gen a).plain o.2.1 o.2.2 >>= fun p =>
            L.op op (p.2.2.mem p.1) o.1 >>= fun v => .ok (v, p.2.1, p.2.2) := by
        simp only [run, if_true, bassoc, okb]
      rw [hrun, bassoc]
      refine sim_bind (ihb h.2.1 I hI nb _ _ _ _ w g sb).1 fun vb ρ σ w g => ?_
      dsimp only
      rcases quiet_run L true a qa fa I hI na ρ0 ρ w sa with ⟨p, he, hr⟩ | ⟨he, hr⟩ | ⟨he, hr⟩
      · obtain ⟨σ1, hr1, g1⟩ := hr _ _ g
        obtain ⟨σ2, hr2, g2⟩ := hr _ _ g1
        rw [he, hr1]
        simp only [okb, bassoc]
        refine sim_val fun v => ?_
        rw [hr2]
        exact sim_ok g2 _ _
      · rw [he, hr _ _ g]
        exact rfl
      · rw [he, hr _ _ g]
        exact rfl
    | false =>
      unfold eval run
      simp only [Bool.false_eq_true, if_false]
      have hrun : ∀ σ w, run L false (.bin op (.load (gen a).plain) (gen b).plain) σ w =
          run L false (gen a).plain σ w >>= fun p => run L false (gen b).plain p.2.1 p.2.2 >>= fun o =>
            L.op op (p.2.2.mem p.1) o.1 >>= fun v => .ok (v, o.2.1, o.2.2) := by
        intro σ w
        simp only [run, Bool.false_eq_true, if_false, bassoc, okb]
      rcases quiet_run L false a qa fa I hI na ρ0 ρ w sa with ⟨p, he, hr⟩ | ⟨he, hr⟩ | ⟨he, hr⟩
      · obtain ⟨σ1, hr1, g1⟩ := hr _ _ g
        obtain ⟨σ2, hr2, g2⟩ := hr _ _ g1
        rw [he, hr1]
        simp only [okb]
        rw [hrun, hr2]
        simp only [okb, bassoc]
        refine sim_bind (ihb h.2.1 I hI nb _ _ _ _ w g2 sb).1 fun vb ρ σ w g => ?_
        exact sim_val fun v => sim_ok g _ _
      · rw [he, hr _ _ g]
        exact rfl
      · rw [he, hr _ _ g]
        exact rfl
  | coal a b iha ihb =>
    refine fine_leaf L rf _ _ rfl ?_
    intro I hI hn ρ0 σ0 ρ σ w g hs
    have na : ∀ x ∈ names a, ¬ I x := fun x hx => hn x (by simp [names, hx])
    have nb : ∀ x ∈ names b, ¬ I x := fun x hx => hn x (by simp [names, hx])
    have sa : ∀ x ∈ fv a, ρ0 x ≠ [] := fun x hx => hs x (by simp [fv, hx])
    have sb : ∀ x ∈ fv b, ρ0 x ≠ [] := fun x hx => hs x (by simp [fv, hx])
    have hl : I "_l" := hI _ (Or.inl rfl)
    unfold eval
    refine sim_dcl L rf "_l" hl _ _ (iha h.1 I hI na _ _ _ _ w (good_push_tmp g _ hl _) sa).1 fun va ρ σ w g => ?_
    rw [cond_tmp L rf "_l" hl va _ _ g]
    dsimp only
    split
    · exact (ihb h.2 I hI nb _ _ _ _ w g sb).1
    · simp only [run]
      rw [get_tmp "_l" hl va g]
      exact sim_ok g _ _
  | coalAsg x b ih =>
    refine fine_leaf L rf _ _ rfl ?_
    intro I hI hn ρ0 σ0 ρ σ w g hs
    have nb : ∀ x ∈ names b, ¬ I x := fun x hx => hn x (by simp [names, hx])
    have sb : ∀ x ∈ fv b, ρ0 x ≠ [] := fun x hx => hs x (by simp [fv, hx])
    have hx := hn x (by simp [names])
    have fx : Fine L rf (.var x) := by
      refine fine_leaf L rf _ _ rfl ?_
      intro I hI hn ρ0 σ0 ρ σ w g hs
      simp only [eval, run]
      rw [good_get g x (hn x (by simp [names]))]
      exact sim_val fun v => sim_ok g _ _
    have heq : eval L rf (.coalAsg x b) ρ w =
        eval L rf (.coal (.var x) b) ρ w >>= fun o => o.2.1.put x o.1 >>= fun ρ => .ok (o.1, ρ, o.2.2) := by
      simp only [eval, bassoc, okb]
      cases hv : ρ.get x with
      | ok vx =>
        simp only [okb]
        split
        · rfl
        · simp only [okb]
          rw [set_same ρ x vx hv]
          rfl
      | panic => rfl
      | ub => rfl
    rw [heq]
    unfold run
    refine sim_bind (sim_coal L rf (.var x) b fx (ih h) I hI (by simpa [names] using hx) nb _ _ _ _ w g
      (fun y hy => hs y (by simp [fv] at hy ⊢; exact Or.inl hy)) sb) fun v ρ σ w g => ?_
    exact sim_put g x hx v fun ρ σ g => sim_ok g _ _
  | coalStore a b iha ihb =>
    refine fine_leaf L rf _ _ rfl ?_
    intro I hI hn ρ0 σ0 ρ σ w g hs
    have na : ∀ x ∈ names a, ¬ I x := fun x hx => hn x (by simp [names, hx])
    have nb : ∀ x ∈ names b, ¬ I x := fun x hx => hn x (by simp [names, hx])
    have sa : ∀ x ∈ fv a, ρ0 x ≠ [] := fun x hx => hs x (by simp [fv, hx])
    have sb : ∀ x ∈ fv b, ρ0 x ≠ [] := fun x hx => hs x (by simp [fv, hx])
    have fa := iha h.1
    have fb := ihb h.2.1
    have fl : Fine L rf (.load a) := by
      refine fine_leaf L rf _ _ rfl ?_
      intro I hI hn ρ0 σ0 ρ σ w g hs
      unfold eval run
      exact sim_bind (fa I hI hn _ _ _ _ w g hs).1 fun vc ρ σ w g => sim_ok g _ _
    have hd : ∀ σ, Good I ρ0 σ0 ρ σ → _ := fun σ g =>
      sim_coal L rf (.load a) b fl fb I hI na nb _ _ _ _ w g sa sb
    have hcoal : eval L rf (.coal (.load a) b) ρ w = eval L rf a ρ w >>= fun o =>
        if o.2.2.mem o.1 = 0 then eval L rf b o.2.1 o.2.2 else .ok (o.2.2.mem o.1, o.2.1, o.2.2) := by
      simp only [eval, bassoc, okb]
    have hgen : (gen (.load a)).plain = .load (gen a).plain := rfl
    rw [hgen] at hd
    generalize hD : CE.dcl "_l" (.load (gen a).plain) (.cond (.var "_l") (.var "_l") (gen b).plain) = D at hd ⊢
    rcases quiet_run L rf a h.2.2.1 fa I hI na ρ0 ρ w sa with ⟨p, he, hr⟩ | ⟨he, hr⟩ | ⟨he, hr⟩
    · rw [hcoal, he] at hd
      simp only [okb] at hd
      have hev : eval L rf (.coalStore a b) ρ w = if w.mem p = 0 then
          eval L rf b ρ w >>= fun o => .ok (o.1, o.2.1, o.2.2.write p o.1) else .ok (w.mem p, ρ, w) := by
        simp only [eval, he, okb]
      rw [hev]
      have hq : ∀ v ρ' w', (if w.mem p = 0 then eval L rf b ρ w else .ok (w.mem p, ρ, w)) = .ok (v, ρ', w') →
          ρ' = ρ ∧ w' = w := by
        intro v ρ' w' hh
        split at hh
        · exact quiet_eval L rf b h.2.2.2 _ _ _ _ _ hh
        · cases hh
          exact ⟨rfl, rfl⟩
      have hev2 : (if w.mem p = 0 then
          eval L rf b ρ w >>= fun o => .ok (o.1, o.2.1, o.2.2.write p o.1) else .ok (w.mem p, ρ, w)) =
          (if w.mem p = 0 then eval L rf b ρ w else .ok (w.mem p, ρ, w)) >>= fun o =>
            .ok (o.1, o.2.1, o.2.2.write p o.1) := by
        split
        · rfl
        · simp only [okb, write_same]
      rw [hev2]
      generalize (if w.mem p = 0 then eval L rf b ρ w else .ok (w.mem p, ρ, w)) = r at hd hq ⊢
      unfold run
      cases rf with
      | true =>
        simp only [if_true]
        cases r with
        | ok o =>
          obtain ⟨v, ρ', w'⟩ := o
          obtain ⟨rfl, rfl⟩ := hq _ _ _ rfl
          obtain ⟨σ1, hr1, g1⟩ := hd σ g
          obtain ⟨σ2, hr2, g2⟩ := hr _ _ g1
          rw [hr1]
          simp only [okb]
          rw [hr2]
          exact sim_ok g2 _ _
        | panic =>
          rw [show run L true D σ w = .panic from hd σ g]
          exact rfl
        | ub =>
          rw [show run L true D σ w = .ub from hd σ g]
          exact rfl
      | false =>
        simp only [Bool.false_eq_true, if_false]
        obtain ⟨σ1, hr1, g1⟩ := hr _ _ g
        rw [hr1]
        simp only [okb]
        cases r with
        | ok o =>
          obtain ⟨v, ρ', w'⟩ := o
          obtain ⟨rfl, rfl⟩ := hq _ _ _ rfl
          obtain ⟨σ2, hr2, g2⟩ := hd σ1 g1
          rw [hr2]
          exact sim_ok g2 _ _
        | panic =>
          rw [show run L false D σ1 w = .panic from hd σ1 g1]
          exact rfl
        | ub =>
          rw [show run L false D σ1 w = .ub from hd σ1 g1]
          exact rfl
    · rw [hcoal, he] at hd
      have hev : eval L rf (.coalStore a b) ρ w = .panic := by
        simp only [eval, he]
        rfl
      rw [hev]
      unfold run
      cases rf with
      | true =>
        simp only [if_true]
        rw [show run L true D σ w = .panic from hd σ g]
        exact rfl
      | false =>
        simp only [Bool.false_eq_true, if_false]
        rw [hr _ _ g]
        exact rfl
    · rw [hcoal, he] at hd
      have hev : eval L rf (.coalStore a b) ρ w = .ub := by
        simp only [eval, he]
        rfl
      rw [hev]
      unfold run
      cases rf with
      | true =>
        simp only [if_true]
        rw [show run L true D σ w = .ub from hd σ g]
        exact rfl
      | false =>
        simp only [Bool.false_eq_true, if_false]
        rw [hr _ _ g]
        exact rfl
  | opt a off ih =>
    refine fine_leaf L rf _ _ rfl ?_
    intro I hI hn ρ0 σ0 ρ σ w g hs
    have hl : I "_t" := hI _ (Or.inr (Or.inl rfl))
    unfold eval
    refine sim_dcl L rf "_t" hl _ _ (ih h I hI hn _ _ _ _ w (good_push_tmp g _ hl _) hs).1 fun va ρ σ w g => ?_
    rw [cond_tmp L rf "_t" hl va _ _ g]
    dsimp only
    split
    · exact sim_ok g _ _
    · simp only [run]
      rw [get_tmp "_t" hl va g]
      exact sim_ok g _ _
  | ifE c a b ihc iha ihb =>
    refine fine_leaf L rf _ _ rfl ?_
    intro I hI hn ρ0 σ0 ρ σ w g hs
    have nc : ∀ x ∈ names c, ¬ I x := fun x hx => hn x (by simp [names, hx])
    have na : ∀ x ∈ names a, ¬ I x := fun x hx => hn x (by simp [names, hx])
    have nb : ∀ x ∈ names b, ¬ I x := fun x hx => hn x (by simp [names, hx])
    have sc : ∀ x ∈ fv c, ρ0 x ≠ [] := fun x hx => hs x (by simp [fv, hx])
    have sa : ∀ x ∈ fv a, ρ0 x ≠ [] := fun x hx => hs x (by simp [fv, hx])
    have sb : ∀ x ∈ fv b, ρ0 x ≠ [] := fun x hx => hs x (by simp [fv, hx])
    have hv : I "_ifval" := hI _ (Or.inr (Or.inr rfl))
    have htyp : (resNames a).all (fun x => !(σ x).isEmpty) = true := by
      rw [List.all_eq_true]
      intro x hx
      rcases resNames_sub a x hx with h1 | h1
      · rw [g.agree x (na x (fv_names a x h1))]
        have := sa x h1
        have hl := g.len x
        cases hρ : ρ x with
        | nil =>
          rw [hρ] at hl
          exact absurd (List.length_eq_zero_iff.mp hl.symm) this
        | cons => rfl
      · exact absurd h1 (h.2.2.2 x hx)
    have hrun : run L rf (.typ (resNames a) (.raw "_ifval" (.seq (.ifs (gen c).plain (gen a).branch (gen b).branch)
        (.var "_ifval")))) σ w =
        run L rf (gen c).plain (σ.push "_ifval" none) w >>= fun o =>
          (if o.1 = 0 then run L rf (gen b).branch o.2.1 o.2.2 else run L rf (gen a).branch o.2.1 o.2.2) >>= fun q =>
            q.2.1.get "_ifval" >>= fun v => .ok (v, q.2.1.pop "_ifval", q.2.2) := by
      rw [run, if_pos htyp]
      simp only [run, bassoc, okb]
    rw [hrun]
    unfold eval
    refine sim_bind (ihc h.1 I hI nc _ _ _ _ w (good_push_tmp g _ hv none) sc).1 fun vc ρ σ w g => ?_
    have hB : SimB I ρ0 (σ0.push "_ifval" none) (if vc = 0 then eval L rf b ρ w else eval L rf a ρ w)
        (if vc = 0 then run L rf (gen b).branch σ w else run L rf (gen a).branch σ w) := by
      have hd : σ0.push "_ifval" none "_ifval" ≠ [] := by
        rw [push_same]
        simp
      split
      · exact (ihb h.2.2.1 I hI nb _ _ _ _ w g sb).2 hd
      · exact (iha h.2.1 I hI na _ _ _ _ w g sa).2 hd
    dsimp only
    revert hB
    generalize (if vc = 0 then eval L rf b ρ w else eval L rf a ρ w) = r
    generalize (if vc = 0 then run L rf (gen b).branch σ w else run L rf (gen a).branch σ w) = k
    intro hB
    cases r with
    | ok o =>
      obtain ⟨v, ρ', w'⟩ := o
      obtain ⟨u, σ', rfl, g'⟩ := hB
      have e : (fun x => if x = "_ifval" then some v :: (σ0.push "_ifval" none x).tail else σ0.push "_ifval" none x) =
          σ0.push "_ifval" (some v) := by
        funext x
        unfold Env.push
        split <;> rfl
      rw [e] at g'
      simp only [okb]
      rw [get_tmp "_ifval" hv v g']
      exact sim_ok (good_pop_tmp "_ifval" hv _ g') _ _
    | panic =>
      rw [show k = .panic from hB]
      exact rfl
    | ub =>
      rw [show k = .ub from hB]
      exact rfl
  | ifNo c a => exact h.elim
  | letE x a b iha ihb =>
    intro I hI hn ρ0 σ0 ρ σ w g hs
    have na : ∀ x ∈ names a, ¬ I x := fun x hx => hn x (by simp [names, hx])
    have nb : ∀ x ∈ names b, ¬ I x := fun x hx => hn x (by simp [names, hx])
    have sa : ∀ x ∈ fv a, ρ0 x ≠ [] := fun x hx => hs x (by simp [fv, hx])
    have hx : ¬ I x := hn x (by simp [names])
    have run_dcl : ∀ B, run L rf (.dcl x (gen a).plain B) σ w =
        run L rf (gen a).plain (σ.push x none) w >>= fun o => o.2.1.put x o.1 >>= fun σ => run L rf B σ o.2.2 >>= fun q =>
          .ok (q.1, q.2.1.pop x, q.2.2) := by
      intro B
      simp only [run]
    have gp : (gen (.letE x a b)).plain = .dcl x (gen a).plain (gen b).plain := rfl
    have gb : (gen (.letE x a b)).branch = .dcl x (gen a).plain (gen b).branch := rfl
    rw [gp, gb, run_dcl, run_dcl]
    unfold eval
    rcases let_enter L rf a (iha h.1) I hI na x hx h.2.2 ρ0 σ0 ρ σ w g sa with
      ⟨v, ρ1, σ1, w1, he, hr, hp, g1, hS, ho, hlen⟩ | ⟨he, hr⟩ | ⟨he, hr⟩
    · have sb : ∀ y ∈ fv b, (ρ1.push x (some v)) y ≠ [] := by
        intro y hy h0
        by_cases e : y = x
        · subst e
          rw [push_same] at h0
          cases h0
        · rw [push_other _ _ _ _ e] at h0
          have := hlen y
          rw [h0] at this
          exact hs y (by simp [fv, hy, e]) (List.length_eq_zero_iff.mp this.symm)
      have hb := ihb h.2.1 I hI nb _ _ _ _ w1 g1 sb
      rw [he, hr]
      simp only [okb, hp]
      constructor
      · have hb := hb.1
        cases hE : eval L rf b (ρ1.push x (some v)) w1 with
        | ok o =>
          rw [hE] at hb
          obtain ⟨u, ρ2, w2⟩ := o
          obtain ⟨σ2, hr2, g2⟩ := hb
          rw [hr2]
          exact sim_ok (let_pop hx g2 hS ho hlen) _ _
        | panic =>
          rw [hE] at hb
          rw [show run L rf (gen b).plain (σ1.set x v) w1 = .panic from hb]
          exact rfl
        | ub =>
          rw [hE] at hb
          rw [show run L rf (gen b).plain (σ1.set x v) w1 = .ub from hb]
          exact rfl
      · intro hd
        have hv : I "_ifval" := hI _ (Or.inr (Or.inr rfl))
        have hb := hb.2 (by rw [hS _ hv]; exact hd)
        cases hE : eval L rf b (ρ1.push x (some v)) w1 with
        | ok o =>
          rw [hE] at hb
          obtain ⟨u, ρ2, w2⟩ := o
          obtain ⟨u', σ2, hr2, g2⟩ := hb
          rw [hr2]
          refine ⟨u', σ2.pop x, rfl, let_pop hx g2 (fun y hy => ?_) ho hlen⟩
          split <;> rw [hS y hy]
        | panic =>
          rw [hE] at hb
          rw [show run L rf (gen b).branch (σ1.set x v) w1 = .panic from hb]
          exact rfl
        | ub =>
          rw [hE] at hb
          rw [show run L rf (gen b).branch (σ1.set x v) w1 = .ub from hb]
          exact rfl
    · rw [he, hr]
      exact ⟨rfl, fun _ => rfl⟩
    · rw [he, hr]
      exact ⟨rfl, fun _ => rfl⟩
  | seq a b iha ihb =>
    intro I hI hn ρ0 σ0 ρ σ w g hs
    have na : ∀ x ∈ names a, ¬ I x := fun x hx => hn x (by simp [names, hx])
    have nb : ∀ x ∈ names b, ¬ I x := fun x hx => hn x (by simp [names, hx])
    have sa : ∀ x ∈ fv a, ρ0 x ≠ [] := fun x hx => hs x (by simp [fv, hx])
    have sb : ∀ x ∈ fv b, ρ0 x ≠ [] := fun x hx => hs x (by simp [fv, hx])
    have ha := (iha h.1 I hI na _ _ _ _ w g sa).1
    constructor
    · unfold eval
      show Sim I ρ0 σ0 _ (run L rf (.seq (gen a).plain (gen b).plain) σ w)
      unfold run
      exact sim_bind ha fun va ρ σ w g => (ihb h.2 I hI nb _ _ _ _ w g sb).1
    · intro hd
      unfold eval
      show SimB I ρ0 σ0 _ (run L rf (.seq (gen a).plain (gen b).branch) σ w)
      unfold run
      exact simB_bind ha fun va ρ σ w g => (ihb h.2 I hI nb _ _ _ _ w g sb).2 hd

/-- **C81 (what holds).** The C code of an expression does exactly what the expression means: same value, same variables, same world, same
errors, in either order of evaluation. -/
theorem expressions_partial (L : Lang T) (rf : Bool) (e : Ex) (hc : Clear e) (hn : ∀ x ∈ names e, ¬ reserved x) (ρ : Env)
    (w : World T) (hs : ∀ x ∈ fv e, ρ x ≠ []) : run L rf (gen e).plain ρ w = eval L rf e ρ w := by
  have h := (fine L rf e hc reserved (fun _ h => h) hn ρ ρ ρ ρ w
    ⟨fun _ _ => rfl, fun _ _ => rfl, fun _ _ => rfl, fun _ => rfl⟩ hs).1
  cases he : eval L rf e ρ w with
  | ok o =>
    rw [he] at h
    obtain ⟨v, ρ', w'⟩ := o
    obtain ⟨σ, hr, g⟩ := h
    rw [hr]
    have : σ = ρ' := by
      funext x
      by_cases hx : reserved x
      · rw [g.tmp x hx, g.own x hx]
      · exact g.agree x hx
    rw [this]
  | panic =>
    rw [he] at h
    exact h
  | ub =>
    rw [he] at h
    exact h

/-- `t[i + 1] += next(x ?? 3) * (if p?.n < 4 { let k = 2; f(k); x } else { let y = x; y ??= 9; y })` -/
def caseEx : Ex :=
  .opStore "+" (.bin "+" (.var "t") (.bin "+" (.var "i") (.lit 1)))
    (.bin "*" (.call "next" (.coal (.var "x") (.lit 3)))
      (.ifE (.bin "<" (.opt (.var "p") 8) (.lit 4))
        (.letE "k" (.lit 2) (.seq (.call "f" (.var "k")) (.var "x")))
        (.letE "y" (.var "x") (.seq (.coalAsg "y" (.lit 9)) (.var "y")))))

theorem case_clear : Clear caseEx ∧ (∀ x ∈ names caseEx, ¬ reserved x) ∧
    ∀ x ∈ fv caseEx, (fun y => if y ∈ ["t", "i", "x", "p"] then [some (1 : Int)] else []) x ≠ [] := by
  refine ⟨?_, ?_, ?_⟩
  · simp [caseEx, Clear, Quiet, names, resNames, lets, fv]
  · simp [caseEx, names, reserved]
  · simp [caseEx, fv]

/-! ## What fails -/

/-- A function that counts its calls and gives the number of those before; operators add. -/
def counting : Lang Int where
  op _ a b := .ok (a + b)
  fn _ _ w := (w.rest, { w with rest := w.rest + 1 })

/-- **C81 fails: compound assignments find their place twice.** `t[next()] += k` calls `next` twice, and adds to one element what it has read from
another, in both orders. -/
theorem twice_violated (rf : Bool) (ρ : Env) (w : World Int) (k : Int) :
    (∃ w', eval counting rf (.opStore "+" (.call "next" (.lit 0)) (.lit k)) ρ w = .ok (w.mem w.rest + k, ρ, w') ∧
      w'.rest = w.rest + 1) ∧
    (∃ w' v, run counting rf (gen (.opStore "+" (.call "next" (.lit 0)) (.lit k))).plain ρ w = .ok (v, ρ, w') ∧
      w'.rest = w.rest + 2 ∧
      (rf = false → v = w.mem (w.rest + 1) + k ∧ w'.mem w.rest = v) ∧
      (rf = true → v = w.mem w.rest + k ∧ w'.mem (w.rest + 1) = v)) := by
  constructor
  · cases rf
    · exact ⟨_, rfl, rfl⟩
    · exact ⟨_, rfl, rfl⟩
  · cases rf
    · refine ⟨_, _, rfl, ?_, fun _ => ⟨rfl, ?_⟩, fun h => by cases h⟩
      · show w.rest + 1 + 1 = w.rest + 2
        omega
      · simp [World.write, counting]
    · refine ⟨_, _, rfl, ?_, (fun h => by cases h), fun _ => ⟨rfl, ?_⟩⟩
      · show w.rest + 1 + 1 = w.rest + 2
        omega
      · simp [World.write, counting]

/-- **C81 fails: variables named `_l`.** `_l ?? d` reads the helper variable before it is set. -/
theorem helper_violated (L : Lang T) (rf : Bool) (ρ : Env) (w : World T) (v d : Int) (hρ : ρ "_l" = [some v]) (hv : v ≠ 0) :
    eval L rf (.coal (.var "_l") (.lit d)) ρ w = .ok (v, ρ, w) ∧
      run L rf (gen (.coal (.var "_l") (.lit d))).plain ρ w = .ub := by
  constructor
  · simp only [eval, Env.get, hρ, okb, if_neg hv]
  · simp [gen, Code.leaf, run, Env.get, push_same]

/-- **C81 fails: `_l` on the right.** `x ?? _l` with `x = 0` is 0, whatever `_l` is. -/
theorem helper_right_violated (L : Lang T) (rf : Bool) (ρ : Env) (w : World T) (v : Int) (hx : ρ "x" = [some 0])
    (hρ : ρ "_l" = [some v]) :
    eval L rf (.coal (.var "x") (.var "_l")) ρ w = .ok (v, ρ, w) ∧
      ∃ σ, run L rf (gen (.coal (.var "x") (.var "_l"))).plain ρ w = .ok (0, σ, w) := by
  constructor
  · simp only [eval, Env.get, hx, okb, if_true, hρ]
  · have h1 : (ρ.push "_l" none).get "x" = .ok 0 := by
      unfold Env.get
      rw [push_other _ _ _ _ (by decide), hx]
    have h2 : (ρ.push "_l" none).put "_l" 0 = .ok ((ρ.push "_l" none).set "_l" 0) := by
      unfold Env.put
      rw [push_same]
    have h3 : ((ρ.push "_l" none).set "_l" 0).get "_l" = .ok 0 := by
      simp [Env.get, Env.set]
    simp only [gen, Code.leaf, run, h1, okb, h2, h3, if_true]
    exact ⟨_, rfl⟩

/-- **C81 fails: variables named `_t`.** `_t?.f` reads the helper variable before it is set. -/
theorem helper_field_violated (L : Lang T) (rf : Bool) (ρ : Env) (w : World T) (p off : Int) (hρ : ρ "_t" = [some p])
    (hp : p ≠ 0) : eval L rf (.opt (.var "_t") off) ρ w = .ok (w.mem (p + off), ρ, w) ∧
      run L rf (gen (.opt (.var "_t") off)).plain ρ w = .ub := by
  constructor
  · simp only [eval, Env.get, hρ, okb, if_neg hp]
  · simp [gen, Code.leaf, run, Env.get, push_same]

/-- **C81 fails: variables named `_ifval`.** -/
theorem helper_if_violated (L : Lang T) (rf : Bool) (ρ : Env) (w : World T) (v : Int) (hρ : ρ "_ifval" = [some v]) :
    eval L rf (.ifE (.lit 1) (.var "_ifval") (.lit 0)) ρ w = .ok (v, ρ, w) ∧
      run L rf (gen (.ifE (.lit 1) (.var "_ifval") (.lit 0))).plain ρ w = .ub := by
  constructor
  · simp [eval, Env.get, hρ]
  · simp [gen, Code.leaf, run, Env.get, push_same, resNames, fv, hρ]

/-- **C81 fails: variables of a block.** `if c { let y = n; y } else { m }` is rejected by the C compiler, since `__typeof__(y)` stands in front of the
block. -/
theorem block_violated (L : Lang T) (rf : Bool) (ρ : Env) (w : World T) (c : Ex) (n m : Int) (hy : ρ "y" = []) :
    run L rf (gen (.ifE c (.letE "y" (.lit n) (.var "y")) (.lit m))).plain ρ w = .panic := by
  simp [gen, Code.leaf, run, resNames, fv, hy]

/-- The meaning of such an expression. -/
theorem block_meaning (L : Lang T) (rf : Bool) (ρ : Env) (w : World T) (n m : Int) :
    ∃ σ, eval L rf (.ifE (.lit 1) (.letE "y" (.lit n) (.var "y")) (.lit m)) ρ w = .ok (n, σ, w) := by
  simp [eval, Env.get, push_same]

/-- **C81 fails: no `else`.** `let x = if c { n };` is accepted, and reads a variable that has not been set if the condition is
false. -/
theorem no_else_violated (L : Lang T) (rf : Bool) (ρ : Env) (w : World T) (n : Int) :
    run L rf (gen (.ifNo (.lit 0) (.lit n))).plain ρ w = .ub := by
  simp [gen, Code.leaf, run, resNames, fv, Env.get, push_same]

/-- **C81 fails: shadowing.** `let x = x + 1;` in an inner block does not read the outer `x`: the new one is read before it is
set. -/
theorem shadow_violated (rf : Bool) (ρ : Env) (w : World Int) (v : Int) (hx : ρ "x" = [some v]) :
    (∃ σ, eval counting rf (.letE "x" (.bin "+" (.var "x") (.lit 1)) (.var "x")) ρ w = .ok (v + 1, σ, w)) ∧
      run counting rf (gen (.letE "x" (.bin "+" (.var "x") (.lit 1)) (.var "x"))).plain ρ w = .ub := by
  constructor
  · cases rf <;> simp [eval, Env.get, push_same, hx, counting]
  · cases rf
    · simp [gen, Code.leaf, run, Env.get, push_same]
    · simp [gen, Code.leaf, run, Env.get, push_same]

/-- **C81 fails: `??=` with a moving place.** In `t[i] ??= (i = 1)`, if C evaluates the right side first, the value goes to another
element than the one that was empty. -/
theorem moving_violated (L : Lang T) (ρ : Env) (w : World T) (hi : ρ "i" = [some 0]) (hm : w.mem 0 = 0) :
    (∃ σ, eval L true (.coalStore (.var "i") (.asg "i" (.lit 1))) ρ w = .ok (1, σ, w.write 0 1)) ∧
      ∃ σ, run L true (gen (.coalStore (.var "i") (.asg "i" (.lit 1)))).plain ρ w = .ok (1, σ, w.write 1 1) := by
  constructor
  · simp [eval, Env.get, Env.put, hi, hm]
  · simp [gen, Code.leaf, run, Env.get, Env.put, Env.push, Env.set, Env.pop, hi, hm]

end Verif.ExprGen
