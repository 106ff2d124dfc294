import Verif.GenImpl.Model
import Verif.Generics.Lemmas

/-! # Methods of generic structs (C166) -/

namespace Verif.GenImpl

open Generics (Name sanitize placeholder replaceTypeStr)
open GenCall (unmangle)
open Spec

/-- What a call leaves behind: `N` are the new instances, `X` the blocks made for older ones. -/
structure Post (S S' : St) (N : List Inst) (X : List (Impl × Inst)) : Prop where
  tpls : S'.tpls = S.tpls
  impls : S'.impls = S.impls
  insts : S'.insts = N ++ S.insts
  made : S'.made.Perm (S.made ++ (N.flatMap (pairs S.impls) ++ X))
  nodup : (S.insts.map (·.name)).Nodup → (S'.insts.map (·.name)).Nodup
  meths : ∀ i ∈ N, ∀ p ∈ S.impls, p.struct = i.tpl → ∀ r ∈ p.needs S.tpls i, Met S'.insts r
  fields : ∀ i ∈ N, ∀ t, S.tpls.find? (fun t => t.name = i.tpl) = some t → ∀ r ∈ t.needs S.tpls i, Met S'.insts r

theorem Post.refl (S : St) : Post S S [] [] := ⟨rfl, rfl, rfl, by simp, id, by simp, by simp⟩

theorem Post.mono {S S' : St} {N X} (h : Post S S' N X) {r : Req} (hr : Met S.insts r) : Met S'.insts r := by
  rcases hr with hr | ⟨i, hi, he⟩
  · exact .inl hr
  · exact .inr ⟨i, by rw [h.insts]; exact List.mem_append_right _ hi, he⟩

theorem Post.trans {S S1 S2 : St} {N1 N2 X1 X2} (h1 : Post S S1 N1 X1) (h2 : Post S1 S2 N2 X2) : Post S S2 (N2 ++ N1) (X1 ++ X2) := by
  refine ⟨by rw [h2.tpls, h1.tpls], by rw [h2.impls, h1.impls], by rw [h2.insts, h1.insts, List.append_assoc], ?_, fun h => h2.nodup (h1.nodup h), ?_, ?_⟩
  · refine h2.made.trans ((h1.made.append_right _).trans ?_)
    rw [h1.impls, List.flatMap_append, List.append_assoc]
    refine List.Perm.append_left _ ?_
    generalize N1.flatMap (pairs S.impls) = A
    generalize N2.flatMap (pairs S.impls) = B
    -- (A ++ X1) ++ (B ++ X2) ~ (B ++ A) ++ (X1 ++ X2)
    rw [List.append_assoc, List.append_assoc]
    refine ((List.perm_append_comm_assoc X1 B X2).append_left A).trans ?_
    exact List.perm_append_comm_assoc A B (X1 ++ X2)
  · intro i hi p hp he r hr
    rcases List.mem_append.mp hi with hi | hi
    · exact h2.meths i hi p (by rw [h1.impls]; exact hp) he r (by rw [h1.tpls]; exact hr)
    · exact h2.mono (h1.meths i hi p hp he r hr)
  · intro i hi t ht r hr
    rcases List.mem_append.mp hi with hi | hi
    · exact h2.fields i hi t (by rw [h1.tpls]; exact ht) r (by rw [h1.tpls]; exact hr)
    · exact h2.mono (h1.fields i hi t ht r hr)

/-- Calls that leave this behind for their request. -/
def Good (rec : St → Req → Option St) : Prop := ∀ S r S', rec S r = some S' → (∃ N, Post S S' N []) ∧ Met S'.insts r

theorem Good.fold {rec : St → Req → Option St} (h : Good rec) : ∀ (rs : List Req) (S S' : St), rs.foldlM rec S = some S' →
    (∃ N, Post S S' N []) ∧ ∀ r ∈ rs, Met S'.insts r := by
  intro rs
  induction rs with
  | nil => intro S S' he; cases he; exact ⟨⟨[], Post.refl S⟩, by simp⟩
  | cons r rs ih =>
    intro S S' he
    rw [List.foldlM_cons] at he
    cases h1 : rec S r with
    | none => rw [h1] at he; cases he
    | some S1 =>
      rw [h1] at he
      obtain ⟨⟨N1, p1⟩, m1⟩ := h S r S1 h1
      obtain ⟨⟨N2, p2⟩, m2⟩ := ih S1 S' he
      refine ⟨⟨N2 ++ N1, by simpa using p1.trans p2⟩, fun q hq => ?_⟩
      rcases List.mem_cons.mp hq with rfl | hq
      · exact p2.mono m1
      · exact m2 q hq

theorem Good.methods {rec : St → Req → Option St} (h : Good rec) {S S' : St} {p : Impl} {i : Inst} (he : methods rec S p i = some S') :
    (∃ N, Post S S' N [(p, i)]) ∧ ∀ r ∈ p.needs S.tpls i, Met S'.insts r := by
  unfold GenImpl.methods at he
  cases h1 : (p.needs S.tpls i).foldlM rec S with
  | none => rw [h1] at he; cases he
  | some S1 =>
    rw [h1] at he
    cases he
    obtain ⟨⟨N, q⟩, m⟩ := h.fold _ _ _ h1
    refine ⟨⟨N, q.tpls, q.impls, q.insts, ?_, q.nodup, q.meths, q.fields⟩, m⟩
    have := q.made.append_right [(p, i)]
    simpa [List.append_assoc] using this

/-- Several blocks for one instance. -/
theorem Good.blocks {rec : St → Req → Option St} (h : Good rec) {i : Inst} : ∀ (ps : List Impl) (S S' : St),
    ps.foldlM (fun st p => GenImpl.methods rec st p i) S = some S' →
    (∃ N, Post S S' N (ps.map fun p => (p, i))) ∧ ∀ p ∈ ps, ∀ r ∈ p.needs S.tpls i, Met S'.insts r := by
  intro ps
  induction ps with
  | nil => intro S S' he; cases he; exact ⟨⟨[], Post.refl S⟩, by simp⟩
  | cons p ps ih =>
    intro S S' he
    rw [List.foldlM_cons] at he
    cases h1 : GenImpl.methods rec S p i with
    | none => rw [h1] at he; cases he
    | some S1 =>
      rw [h1] at he
      obtain ⟨⟨N1, p1⟩, m1⟩ := h.methods h1
      obtain ⟨⟨N2, p2⟩, m2⟩ := ih S1 S' he
      refine ⟨⟨N2 ++ N1, by simpa using p1.trans p2⟩, fun q hq r hr => ?_⟩
      rcases List.mem_cons.mp hq with rfl | hq
      · exact p2.mono (m1 r hr)
      · exact m2 q hq r (by rw [p1.tpls]; exact hr)

/-- One block for several instances. -/
theorem Good.late {rec : St → Req → Option St} (h : Good rec) {p : Impl} : ∀ (is : List Inst) (S S' : St),
    is.foldlM (fun st i => GenImpl.methods rec st p i) S = some S' →
    (∃ N, Post S S' N (is.map fun i => (p, i))) ∧ ∀ i ∈ is, ∀ r ∈ p.needs S.tpls i, Met S'.insts r := by
  intro is
  induction is with
  | nil => intro S S' he; cases he; exact ⟨⟨[], Post.refl S⟩, by simp⟩
  | cons i is ih =>
    intro S S' he
    rw [List.foldlM_cons] at he
    cases h1 : GenImpl.methods rec S p i with
    | none => rw [h1] at he; cases he
    | some S1 =>
      rw [h1] at he
      obtain ⟨⟨N1, p1⟩, m1⟩ := h.methods h1
      obtain ⟨⟨N2, p2⟩, m2⟩ := ih S1 S' he
      refine ⟨⟨N2 ++ N1, by simpa using p1.trans p2⟩, fun q hq r hr => ?_⟩
      rcases List.mem_cons.mp hq with rfl | hq
      · exact p2.mono (m1 r hr)
      · exact m2 q hq r (by rw [p1.tpls]; exact hr)

theorem inst_good : ∀ n, Good (inst n) := by
  intro n
  induction n with
  | zero => intro S r S' he; cases he
  | succ n ih =>
    intro S r S' he
    rw [inst] at he
    by_cases h1 : placeholder r.arg = true
    · rw [if_pos h1] at he
      cases he
      exact ⟨⟨[], Post.refl S⟩, .inl h1⟩
    · rw [if_neg h1] at he
      by_cases h2 : (S.insts.any fun i => i.name = r.name) = true
      · rw [if_pos h2] at he
        cases he
        obtain ⟨i, hi, hn⟩ := List.any_eq_true.mp h2
        exact ⟨⟨[], Post.refl S⟩, .inr ⟨i, hi, by simpa using hn⟩⟩
      · rw [if_neg h2] at he
        cases h3 : S.tpls.find? (fun t => t.name = r.tpl) with
        | none => rw [h3] at he; cases he
        | some t =>
          rw [h3] at he
          simp only at he
          cases h4 : (t.needs S.tpls ⟨r.name, r.tpl, r.arg, r.type⟩).foldlM (inst n) { S with insts := ⟨r.name, r.tpl, r.arg, r.type⟩ :: S.insts } with
          | none => rw [h4] at he; cases he
          | some S1 =>
            rw [h4] at he
            obtain ⟨⟨N1, p1⟩, m1⟩ := ih.fold _ _ _ h4
            obtain ⟨⟨N2, p2⟩, m2⟩ := ih.blocks _ _ _ he
            have p3 := p1.trans p2
            rw [List.nil_append] at p3
            have hin : (⟨r.name, r.tpl, r.arg, r.type⟩ : Inst) ∈ S'.insts := by rw [p3.insts]; simp
            refine ⟨⟨(N2 ++ N1) ++ [⟨r.name, r.tpl, r.arg, r.type⟩], p3.tpls, p3.impls, ?_, ?_, ?_, ?_, ?_⟩, .inr ⟨_, hin, rfl⟩⟩
            · rw [p3.insts]; simp
            · refine p3.made.trans (List.Perm.of_eq ?_)
              rw [p1.impls, List.flatMap_append (xs := N2 ++ N1)]
              simp [pairs]
            · intro hnd
              refine p3.nodup ?_
              rw [List.map_cons, List.nodup_cons]
              refine ⟨fun hm => h2 ?_, hnd⟩
              obtain ⟨j, hj, he'⟩ := List.mem_map.mp hm
              exact List.any_eq_true.mpr ⟨j, hj, by simpa using he'⟩
            · intro i hi p hp hs q hq
              rcases List.mem_append.mp hi with hi | hi
              · exact p3.meths i hi p hp hs q hq
              · simp at hi; subst hi
                refine m2 p ?_ q (by rw [p1.tpls]; exact hq)
                rw [p1.impls]
                exact List.mem_filter.mpr ⟨hp, by simpa using hs⟩
            · intro i hi t' ht q hq
              rcases List.mem_append.mp hi with hi | hi
              · exact p3.fields i hi t' ht q hq
              · simp at hi; subst hi
                have : t' = t := by
                  have h5 : S.tpls.find? (fun t => decide (t.name = r.tpl)) = some t' := ht
                  rw [h3] at h5; exact (Option.some.inj h5).symm
                subst this
                exact p2.mono (m1 q hq)

/-! ## programs -/

/-- What holds between definitions. -/
structure Inv (S : St) : Prop where
  made : S.made.Perm (S.insts.flatMap (pairs S.impls))
  nodup : (S.insts.map (·.name)).Nodup

theorem pairs_cons (p : Impl) (ps : List Impl) (i : Inst) : pairs (p :: ps) i = (if p.struct = i.tpl then [(p, i)] else []) ++ pairs ps i := by
  unfold pairs
  by_cases h : p.struct = i.tpl <;> simp [h]

/-- A block more: its pairs with all instances. -/
theorem flatMap_cons_perm (p : Impl) (ps : List Impl) : ∀ is : List Inst,
    (is.flatMap (pairs (p :: ps))).Perm (is.flatMap (pairs ps) ++ (is.filter fun i => i.tpl = p.struct).map fun i => (p, i)) := by
  intro is
  induction is with
  | nil => exact .refl _
  | cons i is ih =>
    rw [List.flatMap_cons, List.flatMap_cons, pairs_cons]
    by_cases h : p.struct = i.tpl
    · rw [if_pos h, List.filter_cons_of_pos (by simpa using h.symm), List.map_cons, List.append_assoc, List.append_assoc]
      refine ((ih.append_left _).append_left _).trans ?_
      -- [x] ++ (A ++ (B ++ C)) ~ A ++ (B ++ x :: C)
      show ((p, i) :: (pairs ps i ++ (is.flatMap (pairs ps) ++ _))).Perm _
      rw [← List.append_assoc, ← List.append_assoc]
      exact List.perm_middle.symm
    · rw [if_neg h, List.filter_cons_of_neg (by simpa using fun e => h e.symm), List.nil_append, List.append_assoc]
      exact ih.append_left _

theorem declare_inv {fuel : Nat} {S S' : St} {d : Decl} (hd : Single d) (hi : Inv S) (he : declare fuel S d = some S') : Inv S' := by
  cases d with
  | struct t => cases he; exact ⟨hi.made, hi.nodup⟩
  | useMulti => exact hd.elim
  | use r =>
    obtain ⟨⟨N, p⟩, _⟩ := inst_good fuel S r S' he
    refine ⟨?_, p.nodup hi.nodup⟩
    rw [p.insts, p.impls, List.flatMap_append]
    refine p.made.trans ?_
    rw [List.append_nil]
    exact (hi.made.append_right _).trans List.perm_append_comm
  | impl p =>
    obtain ⟨⟨N, q⟩, _⟩ := (inst_good fuel).late _ _ _ he
    refine ⟨?_, q.nodup hi.nodup⟩
    rw [q.insts, q.impls, List.flatMap_append]
    refine q.made.trans ?_
    refine (hi.made.append_right _).trans ?_
    refine List.Perm.trans ?_ ((flatMap_cons_perm p S.impls S.insts).symm.append_left _)
    exact List.perm_append_comm_assoc _ _ _

theorem run_inv {fuel : Nat} : ∀ (D : List Decl) (S S' : St), (∀ d ∈ D, Single d) → Inv S → run fuel S D = some S' → Inv S' := by
  intro D
  induction D with
  | nil => intro S S' _ hi he; cases he; exact hi
  | cons d D ih =>
    intro S S' hs hi he
    unfold run at he
    rw [List.foldlM_cons] at he
    cases h1 : declare fuel S d with
    | none => rw [h1] at he; cases he
    | some S1 =>
      rw [h1] at he
      exact ih S1 S' (fun d hd => hs d (by simp [hd])) (declare_inv (hs d (by simp)) hi h1) he

/-- C166 (partial): whatever the order of structs, `impl` blocks and uses, at the end of the program every `impl` block of a generic struct was written for
every instance of it, exactly once, and no two instances have the same name.  Missing: programs on which the compiler does not end, and structs with
several parameters (`Limits`). -/
theorem methods_partial {fuel : Nat} {D : List Decl} {S : St} (hs : ∀ d ∈ D, Single d) (he : run fuel ⟨[], [], [], []⟩ D = some S) :
    S.made.Perm (S.insts.flatMap fun i => (S.impls.filter fun p => p.struct = i.tpl).map fun p => (p, i)) ∧ (S.insts.map (·.name)).Nodup :=
  let h := run_inv D _ _ hs ⟨.refl _, by simp⟩ he
  ⟨h.made, h.nodup⟩

/-- The blocks of a program are those in its state. -/
theorem run_impls {fuel : Nat} : ∀ (D : List Decl) (S S' : St), run fuel S D = some S' → ∀ p, (p ∈ S'.impls ↔ p ∈ S.impls ∨ Decl.impl p ∈ D) := by
  intro D
  induction D with
  | nil => intro S S' he p; cases he; simp
  | cons d D ih =>
    intro S S' he p
    unfold run at he
    rw [List.foldlM_cons] at he
    cases h1 : declare fuel S d with
    | none => rw [h1] at he; cases he
    | some S1 =>
      rw [h1] at he
      rw [ih S1 S' he p, List.mem_cons]
      cases d with
      | struct t => cases h1; simp
      | useMulti t args =>
        have : S1.impls = S.impls := by
          have h1 : instMulti S t args = some S1 := h1
          unfold instMulti at h1
          split at h1
          · cases h1; rfl
          · split at h1
            · cases h1; rfl
            · cases h1
        rw [this]; simp
      | use r =>
        obtain ⟨⟨N, q⟩, _⟩ := inst_good fuel S r S1 h1
        rw [q.impls]; simp
      | impl p' =>
        obtain ⟨⟨N, q⟩, _⟩ := (inst_good fuel).late _ _ _ h1
        rw [q.impls]
        simp only [List.mem_cons, Decl.impl.injEq]
        constructor
        · rintro ((h | h) | h)
          · exact .inr (.inl h)
          · exact .inl h
          · exact .inr (.inr h)
        · rintro (h | h | h)
          · exact .inl (.inr h)
          · exact .inl (.inl h)
          · exact .inr h

/-- Every method of every block has a function for every instance. -/
theorem functions_partial {fuel : Nat} {D : List Decl} {S : St} (hs : ∀ d ∈ D, Single d) (he : run fuel ⟨[], [], [], []⟩ D = some S) {p : Impl} (hp : Decl.impl p ∈ D)
    {i : Inst} (hi : i ∈ S.insts) (ht : i.tpl = p.struct) {m : Meth} (hm : m ∈ p.meths) : i.name ++ m.suffix ∈ functions S := by
  have h1 := (run_impls D _ _ he p).mpr (.inr hp)
  have h2 := (methods_partial hs he).1
  refine List.mem_flatMap.mpr ⟨(p, i), h2.mem_iff.mpr (List.mem_flatMap.mpr ⟨i, hi, List.mem_map.mpr ⟨p, List.mem_filter.mpr ⟨h1, by simpa using ht.symm⟩, rfl⟩⟩),
    List.mem_map.mpr ⟨m, hm, rfl⟩⟩

/-! ## the types of the methods -/

/-- What holds between definitions when the generic structs are known. -/
structure Closed (tpls : List Tpl) (S : St) : Prop where
  same : S.tpls = tpls
  meths : ∀ i ∈ S.insts, ∀ p ∈ S.impls, p.struct = i.tpl → ∀ r ∈ p.needs tpls i, Met S.insts r
  fields : ∀ i ∈ S.insts, ∀ t, tpls.find? (fun t => t.name = i.tpl) = some t → ∀ r ∈ t.needs tpls i, Met S.insts r

theorem declare_closed {fuel : Nat} {tpls : List Tpl} {S S' : St} {d : Decl} (h1 : Single d) (h2 : NoStruct d) (hc : Closed tpls S) (he : declare fuel S d = some S') :
    Closed tpls S' ∧ (∀ r, d = .use r → Met S'.insts r) ∧ ∀ r, Met S.insts r → Met S'.insts r := by
  cases d with
  | struct => exact h2.elim
  | useMulti => exact h1.elim
  | use r =>
    obtain ⟨⟨N, p⟩, m⟩ := inst_good fuel S r S' he
    refine ⟨⟨by rw [p.tpls, hc.same], fun i hi q hq hs r hr => ?_, fun i hi t ht r hr => ?_⟩, fun r' hr' => by cases hr'; exact m, fun _ h => p.mono h⟩
    · rw [p.insts] at hi
      rw [p.impls] at hq
      rcases List.mem_append.mp hi with hi | hi
      · exact p.meths i hi q hq hs r (by rw [hc.same]; exact hr)
      · exact p.mono (hc.meths i hi q hq hs r hr)
    · rw [p.insts] at hi
      rcases List.mem_append.mp hi with hi | hi
      · exact p.fields i hi t (by rw [hc.same]; exact ht) r (by rw [hc.same]; exact hr)
      · exact p.mono (hc.fields i hi t ht r hr)
  | impl b =>
    obtain ⟨⟨N, p⟩, m⟩ := (inst_good fuel).late _ _ _ he
    have ht0 : ({ S with impls := b :: S.impls } : St).tpls = tpls := hc.same
    refine ⟨⟨by rw [p.tpls, ht0], fun i hi q hq hs r hr => ?_, fun i hi t ht r hr => ?_⟩, (fun r' hr' => nomatch hr'), fun _ h => p.mono h⟩
    · rw [p.insts] at hi
      rw [p.impls] at hq
      rcases List.mem_append.mp hi with hi | hi
      · exact p.meths i hi q hq hs r (by rw [ht0]; exact hr)
      · rcases List.mem_cons.mp hq with rfl | hq
        · exact m i (List.mem_filter.mpr ⟨hi, by simpa using hs.symm⟩) r (by rw [ht0]; exact hr)
        · exact p.mono (hc.meths i hi q hq hs r hr)
    · rw [p.insts] at hi
      rcases List.mem_append.mp hi with hi | hi
      · exact p.fields i hi t (by rw [ht0]; exact ht) r (by rw [ht0]; exact hr)
      · exact p.mono (hc.fields i hi t ht r hr)

/-- C166 (partial): with the generic structs defined before, every type that the program uses, and every one that a field or a method of an instance asks
for, has an instance under its name. -/
theorem types_partial {fuel : Nat} {tpls : List Tpl} : ∀ {D : List Decl} {S S' : St}, (∀ d ∈ D, Single d ∧ NoStruct d) → Closed tpls S → run fuel S D = some S' →
    Closed tpls S' ∧ (∀ r, Decl.use r ∈ D → Met S'.insts r) ∧ ∀ r, Met S.insts r → Met S'.insts r := by
  intro D
  induction D with
  | nil => intro S S' _ hc he; cases he; exact ⟨hc, by simp, fun _ h => h⟩
  | cons d D ih =>
    intro S S' hs hc he
    unfold run at he
    rw [List.foldlM_cons] at he
    cases h1 : declare fuel S d with
    | none => rw [h1] at he; cases he
    | some S1 =>
      rw [h1] at he
      obtain ⟨a, b, c⟩ := declare_closed (hs d (by simp)).1 (hs d (by simp)).2 hc h1
      obtain ⟨a', b', c'⟩ := ih (fun d hd => hs d (by simp [hd])) a he
      refine ⟨a', fun r hr => ?_, fun r hr => c' r (c r hr)⟩
      rcases List.mem_cons.mp hr with rfl | hr
      · exact c' r (b r rfl)
      · exact b' r hr

/-! ## nothing else -/

/-- Calls that only make what is asked for. -/
def Sound (P : Inst → Prop) (tpls : List Tpl) (impls : List Impl) (rec : St → Req → Option St) : Prop :=
  ∀ S r S', S.tpls = tpls → S.impls = impls → P ⟨r.name, r.tpl, r.arg, r.type⟩ → rec S r = some S' → (∀ i ∈ S.insts, P i) → ∀ i ∈ S'.insts, P i

theorem Sound.fold {P tpls impls rec} (hg : Good rec) (h : Sound P tpls impls rec) : ∀ (rs : List Req) (S S' : St), S.tpls = tpls → S.impls = impls →
    (∀ r ∈ rs, P ⟨r.name, r.tpl, r.arg, r.type⟩) → rs.foldlM rec S = some S' → (∀ i ∈ S.insts, P i) → ∀ i ∈ S'.insts, P i := by
  intro rs
  induction rs with
  | nil => intro S S' _ _ _ he hi; cases he; exact hi
  | cons r rs ih =>
    intro S S' ht hm hr he hi
    rw [List.foldlM_cons] at he
    cases h1 : rec S r with
    | none => rw [h1] at he; cases he
    | some S1 =>
      rw [h1] at he
      obtain ⟨⟨N, p⟩, _⟩ := hg S r S1 h1
      exact ih S1 S' (by rw [p.tpls, ht]) (by rw [p.impls, hm]) (fun q hq => hr q (by simp [hq])) he (h S r S1 ht hm (hr r (by simp)) h1 hi)

theorem Sound.methods {P tpls impls rec} (hg : Good rec) (h : Sound P tpls impls rec) {S S' : St} {p : Impl} {i : Inst} (ht : S.tpls = tpls) (hm : S.impls = impls)
    (hr : ∀ r ∈ p.needs tpls i, P ⟨r.name, r.tpl, r.arg, r.type⟩) (he : GenImpl.methods rec S p i = some S') (hi : ∀ i ∈ S.insts, P i) : ∀ i ∈ S'.insts, P i := by
  unfold GenImpl.methods at he
  cases h1 : (p.needs S.tpls i).foldlM rec S with
  | none => rw [h1] at he; cases he
  | some S1 =>
    rw [h1] at he
    cases he
    exact h.fold hg (p.needs S.tpls i) S S1 ht hm (by rw [ht]; exact hr) h1 hi

theorem Sound.blocks {P tpls impls rec} (hg : Good rec) (h : Sound P tpls impls rec) {xs : List (Impl × Inst)} : ∀ (S S' : St), S.tpls = tpls → S.impls = impls →
    (∀ x ∈ xs, ∀ r ∈ x.1.needs tpls x.2, P ⟨r.name, r.tpl, r.arg, r.type⟩) → xs.foldlM (fun st x => GenImpl.methods rec st x.1 x.2) S = some S' →
    (∀ i ∈ S.insts, P i) → ∀ i ∈ S'.insts, P i := by
  induction xs with
  | nil => intro S S' _ _ _ he hi; cases he; exact hi
  | cons x xs ih =>
    intro S S' ht hm hr he hi
    rw [List.foldlM_cons] at he
    cases h1 : GenImpl.methods rec S x.1 x.2 with
    | none => rw [h1] at he; cases he
    | some S1 =>
      rw [h1] at he
      obtain ⟨⟨N, p⟩, _⟩ := hg.methods h1
      exact ih S1 S' (by rw [p.tpls, ht]) (by rw [p.impls, hm]) (fun q hq => hr q (by simp [hq])) he (h.methods hg ht hm (hr x (by simp)) h1 hi)

theorem inst_sound {P : Inst → Prop} {tpls : List Tpl} {impls : List Impl}
    (hf : ∀ i t r, P i → t ∈ tpls → t.name = i.tpl → r ∈ t.needs tpls i → P ⟨r.name, r.tpl, r.arg, r.type⟩)
    (hm : ∀ i p r, P i → p ∈ impls → p.struct = i.tpl → r ∈ p.needs tpls i → P ⟨r.name, r.tpl, r.arg, r.type⟩) : ∀ n, Sound P tpls impls (inst n) := by
  intro n
  induction n with
  | zero => intro S r S' _ _ _ he; cases he
  | succ n ih =>
    intro S r S' ht hi hP he hall
    rw [inst] at he
    by_cases h1 : placeholder r.arg = true
    · rw [if_pos h1] at he; cases he; exact hall
    · rw [if_neg h1] at he
      by_cases h2 : (S.insts.any fun i => i.name = r.name) = true
      · rw [if_pos h2] at he; cases he; exact hall
      · rw [if_neg h2] at he
        cases h3 : S.tpls.find? (fun t => t.name = r.tpl) with
        | none => rw [h3] at he; cases he
        | some t =>
          rw [h3] at he
          simp only at he
          cases h4 : (t.needs S.tpls ⟨r.name, r.tpl, r.arg, r.type⟩).foldlM (inst n) { S with insts := ⟨r.name, r.tpl, r.arg, r.type⟩ :: S.insts } with
          | none => rw [h4] at he; cases he
          | some S1 =>
            rw [h4] at he
            obtain ⟨⟨N1, p1⟩, _⟩ := (inst_good n).fold _ _ _ h4
            have htm : t ∈ tpls := by rw [← ht]; exact List.mem_of_find?_eq_some h3
            have htn : t.name = r.tpl := by simpa using List.find?_some h3
            have a : ∀ i ∈ S1.insts, P i := by
              refine ih.fold (inst_good n) _ _ _ (by exact ht) (by exact hi) (fun q hq => ?_) h4 (fun i hi' => ?_)
              · rw [ht] at hq
                exact hf _ t q hP htm htn hq
              · rcases List.mem_cons.mp hi' with rfl | hi'
                · exact hP
                · exact hall i hi'
            have ht1 : S1.tpls = tpls := by rw [p1.tpls]; exact ht
            have hi1 : S1.impls = impls := by rw [p1.impls]; exact hi
            have he' : ((S1.impls.filter fun p => p.struct = r.tpl).map fun p => (p, (⟨r.name, r.tpl, r.arg, r.type⟩ : Inst))).foldlM
                (fun st x => GenImpl.methods (inst n) st x.1 x.2) S1 = some S' := by rw [List.foldlM_map]; exact he
            refine ih.blocks (inst_good n) _ _ ht1 hi1 (fun x hx q hq => ?_) he' a
            obtain ⟨p, hp, rfl⟩ := List.mem_map.mp hx
            obtain ⟨h5, h6⟩ := List.mem_filter.mp hp
            rw [hi1] at h5
            exact hm _ p q hP h5 (by simpa using h6) hq

/-- C166: every instance that is made is asked for. -/
theorem asked_only {fuel : Nat} {tpls : List Tpl} {D0 : List Decl} : ∀ {D : List Decl} {S S' : St}, (∀ d ∈ D, Single d ∧ NoStruct d) → (∀ d ∈ D, d ∈ D0) →
    S.tpls = tpls → (∀ p ∈ S.impls, Decl.impl p ∈ D0) → (∀ i ∈ S.insts, Asked tpls D0 i) → run fuel S D = some S' → ∀ i ∈ S'.insts, Asked tpls D0 i := by
  intro D
  induction D with
  | nil => intro S S' _ _ _ _ hi he; cases he; exact hi
  | cons d D ih =>
    intro S S' hs hsub ht hm hi he
    unfold run at he
    rw [List.foldlM_cons] at he
    cases h1 : declare fuel S d with
    | none => rw [h1] at he; cases he
    | some S1 =>
      rw [h1] at he
      have hsound : ∀ impls : List Impl, (∀ p ∈ impls, Decl.impl p ∈ D0) → Sound (Asked tpls D0) tpls impls (inst fuel) := fun impls hi' =>
        inst_sound (fun i t r a b c e => .field a b c e) (fun i p r a b c e => .meth a (hi' p b) c e) fuel
      cases d with
      | struct t => exact False.elim (hs (.struct t) (by simp)).2
      | useMulti t a => exact False.elim (hs (.useMulti t a) (by simp)).1
      | use r =>
        obtain ⟨⟨N, p⟩, _⟩ := inst_good fuel S r S1 h1
        exact ih (fun d hd => hs d (by simp [hd])) (fun d hd => hsub d (by simp [hd])) (by rw [p.tpls, ht]) (by rw [p.impls]; exact hm)
          (hsound _ hm S r S1 ht rfl (.use (hsub _ (by simp))) h1 hi) he
      | impl b =>
        obtain ⟨⟨N, p⟩, _⟩ := (inst_good fuel).late _ _ _ h1
        have hm' : ∀ q ∈ b :: S.impls, Decl.impl q ∈ D0 := by
          intro q hq
          rcases List.mem_cons.mp hq with rfl | hq
          · exact hsub _ (by simp)
          · exact hm q hq
        have h1' : ((S.insts.filter fun i => i.tpl = b.struct).map fun i => (b, i)).foldlM (fun st x => GenImpl.methods (inst fuel) st x.1 x.2)
            { S with impls := b :: S.impls } = some S1 := by rw [List.foldlM_map]; exact h1
        refine ih (fun d hd => hs d (by simp [hd])) (fun d hd => hsub d (by simp [hd])) (by rw [p.tpls]; exact ht) (by rw [p.impls]; exact hm') ?_ he
        refine (hsound _ hm').blocks (inst_good fuel) { S with impls := b :: S.impls } _ ht rfl (fun x hx q hq => ?_) h1' hi
        obtain ⟨i, hii, rfl⟩ := List.mem_map.mp hx
        obtain ⟨h5, h6⟩ := List.mem_filter.mp hii
        exact .meth (hi i h5) (hsub _ (by simp)) (of_decide_eq_true h6).symm hq

end Verif.GenImpl
