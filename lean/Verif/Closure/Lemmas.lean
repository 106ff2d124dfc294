import Verif.Closure.Model

/-! # Lemmas about captures and the code of lambdas -/

namespace Verif.Closure

open Spec

/-! ## Free names and references -/

mutual
theorem freeEx_refs (b : List Name) (x : Name) : ∀ e : Ex, SeenEx e →
    (x ∈ freeEx b e ↔ x ∈ refsEx e ∧ x ∉ b)
  | .lit _, _ => by simp [freeEx, refsEx]
  | .var y, _ => by
    simp only [freeEx, refsEx]
    split
    · next h =>
      simp only [List.not_mem_nil, List.mem_singleton, false_iff, not_and]
      rintro rfl hn; exact hn h
    · next h =>
      simp only [List.mem_singleton]
      exact ⟨by rintro rfl; exact ⟨rfl, h⟩, fun h => h.1⟩
  | .bin _ l r, h => by
    simp only [freeEx, refsEx, List.mem_append, freeEx_refs b x l h.1, freeEx_refs b x r h.2]
    exact or_and_right.symm
  | .un _ e, h => by
    simp only [freeEx, refsEx]
    exact freeEx_refs b x e h
  | .asg y e, h => by
    have ih := freeEx_refs b x e h
    simp only [freeEx, refsEx, List.mem_append, List.mem_cons, ih]
    split
    · next hy =>
      simp only [List.not_mem_nil, false_or]
      constructor
      · exact fun h => ⟨.inr h.1, h.2⟩
      · rintro ⟨rfl | h, hb⟩
        · exact absurd hy hb
        · exact ⟨h, hb⟩
    · next hy =>
      simp only [List.mem_singleton]
      constructor
      · rintro (rfl | h)
        · exact ⟨.inl rfl, hy⟩
        · exact ⟨.inr h.1, h.2⟩
      · rintro ⟨h | h, hb⟩
        · exact .inl h
        · exact .inr ⟨h, hb⟩
  | .call y as, h => by
    have ih := freeExs_refs b x as h
    simp only [freeEx, refsEx, List.mem_append, List.mem_cons, ih]
    split
    · next hy =>
      simp only [List.not_mem_nil, false_or]
      constructor
      · exact fun h => ⟨.inr h.1, h.2⟩
      · rintro ⟨rfl | h, hb⟩
        · exact absurd hy hb
        · exact ⟨h, hb⟩
    · next hy =>
      simp only [List.mem_singleton]
      constructor
      · rintro (rfl | h)
        · exact ⟨.inl rfl, hy⟩
        · exact ⟨.inr h.1, h.2⟩
      · rintro ⟨h | h, hb⟩
        · exact .inl h
        · exact .inr ⟨h, hb⟩
  | .field _, h => h.elim
  | .setField _ _, h => h.elim
  | .callField _ _, h => h.elim
  | .cond _ _ _, h => h.elim
  | .cast _, h => h.elim
  | .lam _ _ _ _ _, h => h.elim
theorem freeExs_refs (b : List Name) (x : Name) : ∀ es : Exs, SeenExs es →
    (x ∈ freeExs b es ↔ x ∈ refsExs es ∧ x ∉ b)
  | .nil, _ => by simp [freeExs, refsExs]
  | .cons e es, h => by
    simp only [freeExs, refsExs, List.mem_append, freeEx_refs b x e h.1, freeExs_refs b x es h.2]
    exact or_and_right.symm
end

/-- Free names in the scope of more binders. -/
theorem scope_cons {x y : Name} {b : List Name} : x ∉ y :: b ↔ x ≠ y ∧ x ∉ b := by
  simp

mutual
theorem freeSt_sound (x : Name) : ∀ (s : St) (b : List Name), SeenSt s → x ∈ freeSt b s →
    x ∈ refsSt s ∧ x ∉ b
  | .expr e, b, h, hx => (freeEx_refs b x e h).1 hx
  | .decl _ e, b, h, hx => (freeEx_refs b x e h).1 hx
  | .ret e, b, h, hx => (freeEx_refs b x e h).1 hx
  | .ite c l r, b, h, hx => by
    simp only [freeSt, List.mem_append] at hx
    simp only [refsSt, List.mem_append]
    rcases hx with (hx | hx) | hx
    · have := (freeEx_refs b x c h.1).1 hx; exact ⟨.inl (.inl this.1), this.2⟩
    · have := freeSts_sound x l b h.2.1 hx; exact ⟨.inl (.inr this.1), this.2⟩
    · have := freeSts_sound x r b h.2.2 hx; exact ⟨.inr this.1, this.2⟩
  | .whil c l, b, h, hx => by
    simp only [freeSt, List.mem_append] at hx
    simp only [refsSt, List.mem_append]
    rcases hx with hx | hx
    · have := (freeEx_refs b x c h.1).1 hx; exact ⟨.inl this.1, this.2⟩
    · have := freeSts_sound x l b h.2 hx; exact ⟨.inr this.1, this.2⟩
  | .forr y e c s l, b, h, hx => by
    simp only [freeSt, List.mem_append] at hx
    simp only [refsSt, List.mem_append]
    rcases hx with ((hx | hx) | hx) | hx
    · have := (freeEx_refs b x e h.1).1 hx; exact ⟨.inl (.inl (.inl this.1)), this.2⟩
    · have := (freeEx_refs (y :: b) x c h.2.1).1 hx
      exact ⟨.inl (.inl (.inr this.1)), (scope_cons.1 this.2).2⟩
    · have := (freeEx_refs (y :: b) x s h.2.2.1).1 hx
      exact ⟨.inl (.inr this.1), (scope_cons.1 this.2).2⟩
    · have := freeSts_sound x l (y :: b) h.2.2.2 hx
      exact ⟨.inr this.1, (scope_cons.1 this.2).2⟩
  | .block l, b, h, hx => by
    simp only [freeSt] at hx
    exact freeSts_sound x l b h hx
  | .brk, _, _, hx => by simp [freeSt] at hx
  | .cont, _, _, hx => by simp [freeSt] at hx
  | .const _ _, _, h, _ => h.elim
  | .forIn _ _ _ _, _, h, _ => h.elim
  | .defer _, _, h, _ => h.elim
theorem freeSts_sound (x : Name) : ∀ (ss : Sts) (b : List Name), SeenSts ss → x ∈ freeSts b ss →
    x ∈ refsSts ss ∧ x ∉ b
  | .nil, _, _, hx => by simp [freeSts] at hx
  | .cons s ss, b, h, hx => by
    simp only [freeSts, List.mem_append] at hx
    simp only [refsSts, List.mem_append]
    rcases hx with hx | hx
    · have := freeSt_sound x s b h.1 hx; exact ⟨.inl this.1, this.2⟩
    · have := freeSts_sound x ss _ h.2 hx
      refine ⟨.inr this.1, fun hb => this.2 ?_⟩
      split
      · exact List.mem_cons_of_mem _ hb
      · exact List.mem_cons_of_mem _ hb
      · exact hb
end

mutual
theorem freeSt_complete (x : Name) : ∀ (s : St) (b : List Name), SeenSt s → x ∈ refsSt s →
    x ∉ b → x ∉ declsSt s → x ∈ freeSt b s
  | .expr e, b, h, hx, hb, _ => (freeEx_refs b x e h).2 ⟨hx, hb⟩
  | .decl _ e, b, h, hx, hb, _ => (freeEx_refs b x e h).2 ⟨hx, hb⟩
  | .ret e, b, h, hx, hb, _ => (freeEx_refs b x e h).2 ⟨hx, hb⟩
  | .ite c l r, b, h, hx, hb, hd => by
    simp only [declsSt, List.mem_append, not_or] at hd
    simp only [refsSt, List.mem_append] at hx
    simp only [freeSt, List.mem_append]
    rcases hx with (hx | hx) | hx
    · exact .inl (.inl ((freeEx_refs b x c h.1).2 ⟨hx, hb⟩))
    · exact .inl (.inr (freeSts_complete x l b h.2.1 hx hb hd.1))
    · exact .inr (freeSts_complete x r b h.2.2 hx hb hd.2)
  | .whil c l, b, h, hx, hb, hd => by
    simp only [declsSt] at hd
    simp only [refsSt, List.mem_append] at hx
    simp only [freeSt, List.mem_append]
    rcases hx with hx | hx
    · exact .inl ((freeEx_refs b x c h.1).2 ⟨hx, hb⟩)
    · exact .inr (freeSts_complete x l b h.2 hx hb hd)
  | .forr y e c s l, b, h, hx, hb, hd => by
    simp only [declsSt, List.mem_cons, not_or] at hd
    have hb' : x ∉ y :: b := scope_cons.2 ⟨hd.1, hb⟩
    simp only [refsSt, List.mem_append] at hx
    simp only [freeSt, List.mem_append]
    rcases hx with ((hx | hx) | hx) | hx
    · exact .inl (.inl (.inl ((freeEx_refs b x e h.1).2 ⟨hx, hb⟩)))
    · exact .inl (.inl (.inr ((freeEx_refs _ x c h.2.1).2 ⟨hx, hb'⟩)))
    · exact .inl (.inr ((freeEx_refs _ x s h.2.2.1).2 ⟨hx, hb'⟩))
    · exact .inr (freeSts_complete x l _ h.2.2.2 hx hb' hd.2)
  | .block l, b, h, hx, hb, hd => by
    simp only [freeSt]
    exact freeSts_complete x l b h hx hb hd
  | .brk, _, _, hx, _, _ => by simp [refsSt] at hx
  | .cont, _, _, hx, _, _ => by simp [refsSt] at hx
  | .const _ _, _, h, _, _, _ => h.elim
  | .forIn _ _ _ _, _, h, _, _, _ => h.elim
  | .defer _, _, h, _, _, _ => h.elim
theorem freeSts_complete (x : Name) : ∀ (ss : Sts) (b : List Name), SeenSts ss → x ∈ refsSts ss →
    x ∉ b → x ∉ declsSts ss → x ∈ freeSts b ss
  | .nil, _, _, hx, _, _ => by simp [refsSts] at hx
  | .cons s ss, b, h, hx, hb, hd => by
    simp only [declsSts, List.mem_append, not_or] at hd
    simp only [refsSts, List.mem_append] at hx
    simp only [freeSts, List.mem_append]
    rcases hx with hx | hx
    · exact .inl (freeSt_complete x s b h.1 hx hb hd.1)
    · refine .inr (freeSts_complete x ss _ h.2 hx ?_ hd.2)
      split
      · next y e =>
        refine scope_cons.2 ⟨?_, hb⟩
        rintro rfl
        exact hd.1 (by simp [declsSt])
      · exact h.1.elim
      · exact hb
end

mutual
theorem declsSt_bound (x : Name) : ∀ s : St, x ∈ declsSt s → x ∈ boundSt s
  | .decl _ _, h => h
  | .ite _ a b, h => by
    simp only [declsSt, boundSt, List.mem_append] at *
    exact h.imp (declsSts_bound x a) (declsSts_bound x b)
  | .whil _ b, h => by
    simp only [declsSt, boundSt] at *
    exact declsSts_bound x b h
  | .forr _ _ _ _ b, h => by
    simp only [declsSt, boundSt, List.mem_cons] at *
    exact h.imp id (declsSts_bound x b)
  | .block b, h => by
    simp only [declsSt, boundSt] at *
    exact declsSts_bound x b h
  | .expr _, h => by simp [declsSt] at h
  | .const _ _, h => by simp [declsSt] at h
  | .ret _, h => by simp [declsSt] at h
  | .forIn _ _ _ _, h => by simp [declsSt] at h
  | .brk, h => by simp [declsSt] at h
  | .cont, h => by simp [declsSt] at h
  | .defer _, h => by simp [declsSt] at h
theorem declsSts_bound (x : Name) : ∀ ss : Sts, x ∈ declsSts ss → x ∈ boundSts ss
  | .nil, h => by simp [declsSts] at h
  | .cons s ss, h => by
    simp only [declsSts, boundSts, List.mem_append] at *
    exact h.imp (declsSt_bound x s) (declsSts_bound x ss)
end

/-! ## The list of captures -/

theorem any_name {caps : List (Name × Bool)} {x : Name} :
    caps.any (·.1 = x) = true ↔ x ∈ caps.map (·.1) := by
  simp [List.any_eq_true, List.mem_map]

theorem explicits_spec : ∀ (ex caps : List (Name × Bool)), (caps.map (·.1)).Nodup →
    ((explicits ex caps).map (·.1)).Nodup ∧ ∀ x m, (x, m) ∈ explicits ex caps ↔
      (x, m) ∈ caps ∨ (x ∉ caps.map (·.1) ∧ ∃ a r, ex = a ++ (x, m) :: r ∧ x ∉ a.map (·.1))
  | [], caps, hn => ⟨hn, fun x m => by simp [explicits]⟩
  | (y, k) :: ex, caps, hn => by
    simp only [explicits]
    split
    · next h =>
      rw [any_name] at h
      obtain ⟨h1, h2⟩ := explicits_spec ex caps hn
      refine ⟨h1, fun x m => ?_⟩
      rw [h2]
      refine or_congr Iff.rfl (and_congr_right fun hx => ?_)
      have hxy : x ≠ y := by rintro rfl; exact hx h
      constructor
      · rintro ⟨a, r, rfl, ha⟩
        exact ⟨(y, k) :: a, r, rfl, by simp [hxy]; simpa using ha⟩
      · rintro ⟨a, r, h, ha⟩
        cases a with
        | nil => simp at h; exact absurd h.1.1.symm hxy
        | cons p a =>
          simp only [List.cons_append, List.cons.injEq] at h
          exact ⟨a, r, h.2, fun hh => ha (by simp only [List.map_cons, List.mem_cons]; exact .inr hh)⟩
    · next h =>
      rw [any_name] at h
      have hn' : ((caps ++ [(y, k)]).map (·.1)).Nodup := by
        rw [List.map_append, List.nodup_append]
        refine ⟨hn, by simp, ?_⟩
        intro a ha b hb
        simp only [List.map_cons, List.map_nil, List.mem_singleton] at hb
        rintro rfl
        exact h (hb ▸ ha)
      obtain ⟨h1, h2⟩ := explicits_spec ex _ hn'
      refine ⟨h1, fun x m => ?_⟩
      rw [h2]
      simp only [List.mem_append, List.mem_singleton, Prod.mk.injEq, List.map_append, List.map_cons,
        List.map_nil, not_or]
      constructor
      · rintro ((hc | ⟨rfl, rfl⟩) | ⟨⟨hx, hy⟩, a, r, rfl, ha⟩)
        · exact .inl hc
        · exact .inr ⟨h, [], ex, rfl, by simp⟩
        · exact .inr ⟨hx, (y, k) :: a, r, rfl, by
            simp only [List.map_cons, List.mem_cons, not_or]; exact ⟨hy, ha⟩⟩
      · rintro (hc | ⟨hx, a, r, h, ha⟩)
        · exact .inl (.inl hc)
        · cases a with
          | nil =>
            simp only [List.nil_append, List.cons.injEq, Prod.mk.injEq] at h
            exact .inl (.inr ⟨h.1.1.symm, h.1.2.symm⟩)
          | cons p a =>
            simp only [List.cons_append, List.cons.injEq] at h
            obtain ⟨rfl, rfl⟩ := h
            simp only [List.map_cons, List.mem_cons, not_or] at ha
            exact .inr ⟨⟨hx, ha.1⟩, a, r, rfl, ha.2⟩

theorem implicits_spec (S : Scope) (ps decls : List Name) (byRef : Bool) :
    ∀ (refs : List Name) (caps : List (Name × Bool)), (caps.map (·.1)).Nodup →
    ((implicits S ps decls byRef refs caps).map (·.1)).Nodup ∧ ∀ x m,
      (x, m) ∈ implicits S ps decls byRef refs caps ↔ (x, m) ∈ caps ∨
        (x ∉ caps.map (·.1) ∧ m = byRef ∧ x ∈ refs ∧ skipped S ps decls x = false)
  | [], caps, hn => ⟨hn, fun x m => by simp [implicits]⟩
  | y :: refs, caps, hn => by
    simp only [implicits]
    split
    · next h =>
      rw [Bool.or_eq_true, any_name] at h
      obtain ⟨h1, h2⟩ := implicits_spec S ps decls byRef refs caps hn
      refine ⟨h1, fun x m => ?_⟩
      rw [h2]
      refine or_congr Iff.rfl (and_congr_right fun hx => and_congr_right fun _ => ?_)
      constructor
      · exact fun h => ⟨List.mem_cons_of_mem _ h.1, h.2⟩
      · rintro ⟨hm, hs⟩
        rcases List.mem_cons.1 hm with rfl | hm
        · rcases h with h | h
          · rw [hs] at h; cases h
          · exact absurd h hx
        · exact ⟨hm, hs⟩
    · next h =>
      rw [Bool.or_eq_true, any_name, not_or] at h
      have hn' : ((caps ++ [(y, byRef)]).map (·.1)).Nodup := by
        rw [List.map_append, List.nodup_append]
        refine ⟨hn, by simp, ?_⟩
        intro a ha b hb
        simp only [List.map_cons, List.map_nil, List.mem_singleton] at hb
        rintro rfl
        exact h.2 (hb ▸ ha)
      obtain ⟨h1, h2⟩ := implicits_spec S ps decls byRef refs _ hn'
      refine ⟨h1, fun x m => ?_⟩
      rw [h2]
      simp only [List.mem_append, List.mem_cons (a := x), List.mem_cons (a := (x, m)),
        List.not_mem_nil, or_false, Prod.mk.injEq, List.map_append, List.map_cons,
        List.map_nil, not_or]
      constructor
      · rintro ((hc | ⟨rfl, rfl⟩) | ⟨⟨hx, hy⟩, rfl, hr, hs⟩)
        · exact .inl hc
        · exact .inr ⟨h.2, rfl, .inl rfl, by simpa using h.1⟩
        · exact .inr ⟨hx, rfl, .inr hr, hs⟩
      · rintro (hc | ⟨hx, rfl, hr | hr, hs⟩)
        · exact .inl (.inl hc)
        · exact .inl (.inr ⟨hr, rfl⟩)
        · by_cases hy : x = y
          · exact .inl (.inr ⟨hy, rfl⟩)
          · exact .inr ⟨⟨hx, hy⟩, rfl, hr, hs⟩

theorem first_of {x : Name} : ∀ ex : List (Name × Bool), x ∈ ex.map (·.1) →
    ∃ m a r, ex = a ++ (x, m) :: r ∧ x ∉ a.map (·.1)
  | [], h => by cases h
  | p :: ex, hx => by
    by_cases hp : p.1 = x
    · exact ⟨p.2, [], ex, by rw [← hp]; rfl, by simp⟩
    · simp only [List.map_cons, List.mem_cons] at hx
      rcases hx with hx | hx
      · exact absurd hx.symm hp
      · obtain ⟨m, a, r, rfl, ha⟩ := first_of ex hx
        exact ⟨m, p :: a, r, rfl, by
          simp only [List.map_cons, List.mem_cons, not_or]; exact ⟨fun h => hp h.symm, ha⟩⟩

theorem explicits_names (ex : List (Name × Bool)) (x : Name) :
    x ∈ (explicits ex []).map (·.1) ↔ x ∈ ex.map (·.1) := by
  have h := (explicits_spec ex [] (by simp)).2
  constructor
  · rintro hx
    obtain ⟨⟨y, m⟩, hm, rfl⟩ := List.mem_map.1 hx
    rcases (h y m).1 hm with hm | ⟨_, a, r, rfl, _⟩
    · cases hm
    · simp
  · intro hx
    obtain ⟨m, a, r, he, ha⟩ := first_of ex hx
    exact List.mem_map.2 ⟨(x, m), (h x m).2 (.inr ⟨by simp, a, r, he, ha⟩), rfl⟩

/-- The list of captures of any lambda. -/
theorem capList_spec (S : Scope) (ps : List Name) (byRef : Bool) (ex : List (Name × Bool))
    (body : Sts) : ((capList S ps byRef ex body).map (·.1)).Nodup ∧ ∀ x m,
      (x, m) ∈ capList S ps byRef ex body ↔
        (∃ a r, ex = a ++ (x, m) :: r ∧ x ∉ a.map (·.1)) ∨ (x ∉ ex.map (·.1) ∧ m = byRef ∧
          x ∈ refsSts body ∧ skipped S ps (declsSts body) x = false) := by
  obtain ⟨h1, h2⟩ := explicits_spec ex [] (by simp)
  obtain ⟨h3, h4⟩ := implicits_spec S ps (declsSts body) byRef (refsSts body) _ h1
  refine ⟨h3, fun x m => ?_⟩
  unfold capList
  rw [h4, h2, explicits_names]
  simp

/-! ## The code of a body runs like the body -/

/-- The places of names agree. -/
def Agree (caps : List Name) (ctx env envZ : Env) : Prop :=
  ∀ x, place envZ x = if x ∈ caps then place ctx x else place env x

theorem Agree.cons {caps : List Name} {ctx env envZ : Env} (h : Agree caps ctx env envZ) {x : Name}
    (hx : x ∉ caps) (l : Nat) : Agree caps ctx ((x, l) :: env) ((x, l) :: envZ) := by
  intro y
  simp only [place]
  by_cases hy : x = y
  · subst hy; simp [hx]
  · simp only [hy, if_false]; exact h y

theorem load_agree {caps : List Name} {ctx env envZ : Env} (h : Agree caps ctx env envZ) (σ : State)
    (x : Name) : load envZ σ x = if x ∈ caps then load ctx σ x else load env σ x := by
  unfold load; rw [h x]; by_cases hx : x ∈ caps <;> simp only [hx, if_true, if_false]

theorem store_agree {caps : List Name} {ctx env envZ : Env} (h : Agree caps ctx env envZ)
    (σ : State) (x : Name) (v : Int) :
    store envZ σ x v = if x ∈ caps then store ctx σ x v else store env σ x v := by
  unfold store; rw [h x]; by_cases hx : x ∈ caps <;> simp only [hx, if_true, if_false]

mutual
theorem eval_gen (W : World) {caps : List Name} {ctx env envZ : Env}
    (ha : Agree caps ctx env envZ) : ∀ (e : Ex) (σ : State), PlainEx e →
    (∀ f ∈ calledEx e, f ∉ caps) → eval W ctx env σ (genEx caps e) = eval W [] envZ σ e
  | .lit n, σ, _, _ => by simp only [genEx, eval]
  | .var x, σ, _, _ => by
    simp only [genEx]
    split
    · next h => simp only [eval, load_agree ha, h, if_true]
    · next h => simp only [eval, load_agree ha, h, if_false]
  | .bin o a b, σ, hp, hc => by
    simp only [calledEx, List.mem_append] at hc
    simp only [genEx, eval, eval_gen W ha a σ hp.1 (fun f h => hc f (.inl h))]
    congr 1; funext r
    rw [eval_gen W ha b r.2 hp.2 (fun f h => hc f (.inr h))]
  | .un f a, σ, hp, hc => by
    simp only [genEx, eval, eval_gen W ha a σ hp hc]
  | .asg x e, σ, hp, hc => by
    simp only [genEx]
    split
    · next h =>
      simp only [eval, eval_gen W ha e σ hp hc]
      congr 1; funext r
      rw [store_agree ha, if_pos h]
    · next h =>
      simp only [eval, eval_gen W ha e σ hp hc]
      congr 1; funext r
      rw [store_agree ha, if_neg h]
  | .call f as, σ, hp, hc => by
    simp only [calledEx, List.mem_cons] at hc
    simp only [genEx, if_neg (hc f (.inl rfl)), eval,
      evals_gen W ha as σ hp (fun g h => hc g (.inr h))]
  | .cond c a b, σ, hp, hc => by
    simp only [calledEx, List.mem_append] at hc
    simp only [genEx, eval, eval_gen W ha c σ hp.1 (fun f h => hc f (.inl (.inl h)))]
    congr 1; funext r
    rw [eval_gen W ha a r.2 hp.2.1 (fun f h => hc f (.inl (.inr h))),
      eval_gen W ha b r.2 hp.2.2 (fun f h => hc f (.inr h))]
  | .cast e, σ, hp, hc => by
    simp only [genEx, eval, eval_gen W ha e σ hp hc]
  | .field _, _, hp, _ => hp.elim
  | .setField _ _, _, hp, _ => hp.elim
  | .callField _ _, _, hp, _ => hp.elim
  | .lam _ _ _ _ _, _, hp, _ => hp.elim
theorem evals_gen (W : World) {caps : List Name} {ctx env envZ : Env}
    (ha : Agree caps ctx env envZ) : ∀ (es : Exs) (σ : State), PlainExs es →
    (∀ f ∈ calledExs es, f ∉ caps) → evals W ctx env σ (genExs caps es) = evals W [] envZ σ es
  | .nil, σ, _, _ => by simp only [genExs, evals]
  | .cons e es, σ, hp, hc => by
    simp only [calledExs, List.mem_append] at hc
    simp only [genExs, evals, eval_gen W ha e σ hp.1 (fun f h => hc f (.inl h))]
    congr 1; funext r
    rw [evals_gen W ha es r.2 hp.2 (fun f h => hc f (.inr h))]
end

mutual
theorem exec_gen (W : World) {caps : List Name} {ctx : Env} : ∀ (n : Nat) (env envZ : Env)
    (σ : State) (s : St), Agree caps ctx env envZ → PlainSt s → (∀ f ∈ calledSt s, f ∉ caps) →
    (∀ x ∈ boundSt s, x ∉ caps) →
    exec W ctx n env σ (genSt caps s) = exec W [] n envZ σ s
  | 0, _, _, _, _, _, _, _, _ => rfl
  | n + 1, env, envZ, σ, s, ha, hp, hc, hb => by
    cases s with
    | expr e => simp only [genSt, exec, eval_gen W ha e σ hp hc]
    | decl x e => simp only [genSt, exec, eval_gen W ha e σ hp hc]
    | const x e => simp only [genSt, exec, eval_gen W ha e σ hp hc]
    | ret e => simp only [genSt, exec, eval_gen W ha e σ hp hc]
    | ite c a b =>
      simp only [calledSt, List.mem_append] at hc
      simp only [boundSt, List.mem_append] at hb
      simp only [genSt, exec, eval_gen W ha c σ hp.1 (fun f h => hc f (.inl (.inl h)))]
      congr 1; funext r
      rw [execs_gen W n env envZ r.2 a ha hp.2.1 (fun f h => hc f (.inl (.inr h)))
          (fun x h => hb x (.inl h)),
        execs_gen W n env envZ r.2 b ha hp.2.2 (fun f h => hc f (.inr h))
          (fun x h => hb x (.inr h))]
    | whil c b =>
      have ih := fun σ => exec_gen W n env envZ σ (.whil c b) ha hp hc hb
      simp only [calledSt, List.mem_append] at hc
      simp only [boundSt] at hb
      simp only [genSt] at ih
      simp only [genSt, exec, eval_gen W ha c σ hp.1 (fun f h => hc f (.inl h))]
      congr 1; funext r
      rw [execs_gen W n env envZ r.2 b ha hp.2 (fun f h => hc f (.inr h)) hb]
      split
      · rfl
      · congr 1; funext q
        simp only [ih]
    | forr x e c s b =>
      simp only [calledSt, List.mem_append] at hc
      simp only [boundSt, List.mem_cons] at hb
      simp only [genSt, exec, eval_gen W ha e σ hp.1 (fun f h => hc f (.inl (.inl (.inl h))))]
      congr 1; funext r
      exact loop_gen W n _ _ _ c s b (ha.cons (hb x (.inl rfl)) _) hp.2.1 hp.2.2.1 hp.2.2.2
        (fun f h => hc f (.inl (.inl (.inr h)))) (fun f h => hc f (.inl (.inr h)))
        (fun f h => hc f (.inr h)) (fun y h => hb y (.inr h))
    | forIn x lo hi b =>
      simp only [calledSt, List.mem_append] at hc
      simp only [boundSt, List.mem_cons] at hb
      simp only [genSt, exec, eval_gen W ha lo σ hp.1 (fun f h => hc f (.inl (.inl h)))]
      congr 1; funext r
      exact range_gen W n x _ _ _ _ hi b (ha.cons (hb x (.inl rfl)) _) hp.2.1 hp.2.2
        (fun f h => hc f (.inl (.inr h))) (fun f h => hc f (.inr h)) (fun y h => hb y (.inr h))
    | block b =>
      simp only [genSt, exec]
      exact execs_gen W n env envZ σ b ha hp hc hb
    | brk => rfl
    | cont => rfl
    | defer e => exact hp.elim
theorem execs_gen (W : World) {caps : List Name} {ctx : Env} : ∀ (n : Nat) (env envZ : Env)
    (σ : State) (ss : Sts), Agree caps ctx env envZ → PlainSts ss →
    (∀ f ∈ calledSts ss, f ∉ caps) → (∀ x ∈ boundSts ss, x ∉ caps) →
    execs W ctx n env σ (genSts caps ss) = execs W [] n envZ σ ss
  | 0, _, _, _, _, _, _, _, _ => rfl
  | n + 1, env, envZ, σ, .nil, _, _, _, _ => rfl
  | n + 1, env, envZ, σ, .cons s ss, ha, hp, hc, hb => by
    have hs := exec_gen W n env envZ σ s ha hp.1
    simp only [calledSts, List.mem_append] at hc
    simp only [boundSts, List.mem_append] at hb
    specialize hs (fun f h => hc f (.inl h)) (fun x h => hb x (.inl h))
    have hr := fun env envZ σ (ha : Agree caps ctx env envZ) => execs_gen W n env envZ σ ss ha hp.2
      (fun f h => hc f (.inr h)) (fun x h => hb x (.inr h))
    cases s with
    | decl x e =>
      simp only [genSts, genSt, execs, eval_gen W ha e σ hp.1 (fun f h => hc f (.inl h))]
      congr 1; funext r
      exact hr _ _ _ (ha.cons (hb x (.inl (by simp [boundSt]))) _)
    | const x e =>
      simp only [genSts, genSt, execs, eval_gen W ha e σ hp.1 (fun f h => hc f (.inl h))]
      congr 1; funext r
      exact hr _ _ _ (ha.cons (hb x (.inl (by simp [boundSt]))) _)
    | expr e => simp only [genSt] at hs; simp only [genSts, genSt, execs, hs, hr _ _ _ ha]
    | ret e => simp only [genSt] at hs; simp only [genSts, genSt, execs, hs, hr _ _ _ ha]
    | ite c a b => simp only [genSt] at hs; simp only [genSts, genSt, execs, hs, hr _ _ _ ha]
    | whil c b => simp only [genSt] at hs; simp only [genSts, genSt, execs, hs, hr _ _ _ ha]
    | forr x e c s b => simp only [genSt] at hs; simp only [genSts, genSt, execs, hs, hr _ _ _ ha]
    | forIn x lo hi b => simp only [genSt] at hs; simp only [genSts, genSt, execs, hs, hr _ _ _ ha]
    | block b => simp only [genSt] at hs; simp only [genSts, genSt, execs, hs, hr _ _ _ ha]
    | brk => simp only [genSt] at hs; simp only [genSts, genSt, execs, hs, hr _ _ _ ha]
    | cont => simp only [genSt] at hs; simp only [genSts, genSt, execs, hs, hr _ _ _ ha]
    | defer e => exact hp.1.elim
theorem loop_gen (W : World) {caps : List Name} {ctx : Env} : ∀ (n : Nat) (env envZ : Env)
    (σ : State) (c s : Ex) (b : Sts), Agree caps ctx env envZ → PlainEx c → PlainEx s →
    PlainSts b → (∀ f ∈ calledEx c, f ∉ caps) → (∀ f ∈ calledEx s, f ∉ caps) →
    (∀ f ∈ calledSts b, f ∉ caps) → (∀ x ∈ boundSts b, x ∉ caps) →
    loop W ctx n env σ (genEx caps c) (genEx caps s) (genSts caps b) = loop W [] n envZ σ c s b
  | 0, _, _, _, _, _, _, _, _, _, _, _, _, _, _ => rfl
  | n + 1, env, envZ, σ, c, s, b, ha, h1, h2, h3, c1, c2, c3, hb => by
    have ih := fun σ => loop_gen W n env envZ σ c s b ha h1 h2 h3 c1 c2 c3 hb
    simp only [loop, eval_gen W ha c σ h1 c1]
    congr 1; funext r
    rw [execs_gen W n env envZ r.2 b ha h3 c3 hb]
    split
    · rfl
    · congr 1; funext q
      simp only [eval_gen W ha s q.2 h2 c2, ih]
theorem range_gen (W : World) {caps : List Name} {ctx : Env} : ∀ (n : Nat) (x : Name) (l : Nat)
    (env envZ : Env) (σ : State) (hi : Ex) (b : Sts), Agree caps ctx env envZ → PlainEx hi →
    PlainSts b → (∀ f ∈ calledEx hi, f ∉ caps) →
    (∀ f ∈ calledSts b, f ∉ caps) → (∀ x ∈ boundSts b, x ∉ caps) →
    range W ctx n x l env σ (genEx caps hi) (genSts caps b) = range W [] n x l envZ σ hi b
  | 0, _, _, _, _, _, _, _, _, _, _, _, _, _ => rfl
  | n + 1, x, l, env, envZ, σ, hi, b, ha, h1, h3, c1, c3, hb => by
    have ih := fun σ => range_gen W n x l env envZ σ hi b ha h1 h3 c1 c3 hb
    simp only [range, eval_gen W ha hi σ h1 c1]
    congr 1; funext r
    rw [execs_gen W n env envZ r.2 b ha h3 c3 hb]
    split
    · rfl
    · split
      · congr 1; funext q
        simp only [ih]
      · rfl
end

/-! ## Bodies without `defer` -/

theorem append_nil : ∀ ss : Sts, ss.append .nil = ss
  | .nil => rfl
  | .cons s ss => by simp only [Sts.append, append_nil ss]

theorem plain_deferred : ∀ ss : Sts, PlainSts ss → deferred ss = [] ∧ undeferred ss = ss
  | .nil, _ => ⟨rfl, rfl⟩
  | .cons s ss, h => by
    obtain ⟨h1, h2⟩ := plain_deferred ss h.2
    cases s with
    | defer e => exact h.1.elim
    | _ => exact ⟨h1, by simp only [undeferred, h2]⟩

theorem emit_plain (caps : List Name) (b : Sts) (h : PlainSts b) : emitBody caps b = genSts caps b := by
  obtain ⟨h1, h2⟩ := plain_deferred b h
  simp only [emitBody, h1, h2, stsOf, append_nil]

mutual
theorem seenEx_plain : ∀ e : Ex, SeenEx e → PlainEx e
  | .lit _, _ => trivial
  | .var _, _ => trivial
  | .bin _ a b, h => ⟨seenEx_plain a h.1, seenEx_plain b h.2⟩
  | .un _ a, h => seenEx_plain a h
  | .asg _ e, h => seenEx_plain e h
  | .call _ as, h => seenExs_plain as h
  | .field _, h => h.elim
  | .setField _ _, h => h.elim
  | .callField _ _, h => h.elim
  | .cond _ _ _, h => h.elim
  | .cast _, h => h.elim
  | .lam _ _ _ _ _, h => h.elim
theorem seenExs_plain : ∀ es : Exs, SeenExs es → PlainExs es
  | .nil, _ => trivial
  | .cons e es, h => ⟨seenEx_plain e h.1, seenExs_plain es h.2⟩
end

mutual
theorem seenSt_plain : ∀ s : St, SeenSt s → PlainSt s
  | .expr e, h => seenEx_plain e h
  | .decl _ e, h => seenEx_plain e h
  | .ret e, h => seenEx_plain e h
  | .ite c a b, h => ⟨seenEx_plain c h.1, seenSts_plain a h.2.1, seenSts_plain b h.2.2⟩
  | .whil c b, h => ⟨seenEx_plain c h.1, seenSts_plain b h.2⟩
  | .forr _ e c s b, h => ⟨seenEx_plain e h.1, seenEx_plain c h.2.1, seenEx_plain s h.2.2.1,
      seenSts_plain b h.2.2.2⟩
  | .block b, h => seenSts_plain b h
  | .brk, _ => trivial
  | .cont, _ => trivial
  | .const _ _, h => h.elim
  | .forIn _ _ _ _, h => h.elim
  | .defer _, h => h.elim
theorem seenSts_plain : ∀ ss : Sts, SeenSts ss → PlainSts ss
  | .nil, _ => trivial
  | .cons s ss, h => ⟨seenSt_plain s h.1, seenSts_plain ss h.2⟩
end

/-! ## Free names of the code -/

theorem mem_if {α : Type} {p : Prop} [Decidable p] {x : α} {a b : List α} :
    x ∈ (if p then a else b) ↔ (p ∧ x ∈ a) ∨ (¬ p ∧ x ∈ b) := by
  by_cases h : p <;> simp [h]

mutual
theorem freeEx_gen (caps b : List Name) (x : Name) : ∀ e : Ex, PlainEx e →
    x ∈ freeEx b (genEx caps e) → x ∈ freeEx b e ∧ x ∉ caps
  | .lit _, _, h => by simp [genEx, freeEx] at h
  | .var y, _, h => by
    simp only [genEx] at h
    split at h
    · simp [freeEx] at h
    · next hy =>
      refine ⟨h, ?_⟩
      simp only [freeEx] at h
      split at h
      · cases h
      · rw [List.mem_singleton] at h; subst h; exact hy
  | .bin _ l r, hp, h => by
    simp only [genEx, freeEx, List.mem_append] at *
    rcases h with h | h
    · have := freeEx_gen caps b x l hp.1 h; exact ⟨.inl this.1, this.2⟩
    · have := freeEx_gen caps b x r hp.2 h; exact ⟨.inr this.1, this.2⟩
  | .un _ e, hp, h => by
    simp only [genEx, freeEx] at *
    exact freeEx_gen caps b x e hp h
  | .asg y e, hp, h => by
    simp only [genEx] at h
    split at h
    · simp only [freeEx, List.mem_append] at *
      have := freeEx_gen caps b x e hp h; exact ⟨.inr this.1, this.2⟩
    · next hy =>
      simp only [freeEx, List.mem_append] at *
      rcases h with h | h
      · refine ⟨.inl h, ?_⟩
        split at h
        · cases h
        · rw [List.mem_singleton] at h; subst h; exact hy
      · have := freeEx_gen caps b x e hp h; exact ⟨.inr this.1, this.2⟩
  | .call y as, hp, h => by
    simp only [genEx] at h
    split at h
    · simp only [freeEx, List.mem_append] at *
      have := freeExs_gen caps b x as hp h; exact ⟨.inr this.1, this.2⟩
    · next hy =>
      simp only [freeEx, List.mem_append] at *
      rcases h with h | h
      · refine ⟨.inl h, ?_⟩
        split at h
        · cases h
        · rw [List.mem_singleton] at h; subst h; exact hy
      · have := freeExs_gen caps b x as hp h; exact ⟨.inr this.1, this.2⟩
  | .cond c l r, hp, h => by
    simp only [genEx, freeEx, List.mem_append] at *
    rcases h with (h | h) | h
    · have := freeEx_gen caps b x c hp.1 h; exact ⟨.inl (.inl this.1), this.2⟩
    · have := freeEx_gen caps b x l hp.2.1 h; exact ⟨.inl (.inr this.1), this.2⟩
    · have := freeEx_gen caps b x r hp.2.2 h; exact ⟨.inr this.1, this.2⟩
  | .cast e, hp, h => by
    simp only [genEx, freeEx] at *
    exact freeEx_gen caps b x e hp h
  | .field _, h, _ => h.elim
  | .setField _ _, h, _ => h.elim
  | .callField _ _, h, _ => h.elim
  | .lam _ _ _ _ _, h, _ => h.elim
theorem freeExs_gen (caps b : List Name) (x : Name) : ∀ es : Exs, PlainExs es →
    x ∈ freeExs b (genExs caps es) → x ∈ freeExs b es ∧ x ∉ caps
  | .nil, _, h => by simp [genExs, freeExs] at h
  | .cons e es, hp, h => by
    simp only [genExs, freeExs, List.mem_append] at *
    rcases h with h | h
    · have := freeEx_gen caps b x e hp.1 h; exact ⟨.inl this.1, this.2⟩
    · have := freeExs_gen caps b x es hp.2 h; exact ⟨.inr this.1, this.2⟩
end

mutual
theorem freeSt_gen (caps : List Name) (x : Name) : ∀ (s : St) (b : List Name), PlainSt s →
    x ∈ freeSt b (genSt caps s) → x ∈ freeSt b s ∧ x ∉ caps
  | .expr e, b, hp, h => freeEx_gen caps b x e hp h
  | .decl _ e, b, hp, h => freeEx_gen caps b x e hp h
  | .const _ e, b, hp, h => freeEx_gen caps b x e hp h
  | .ret e, b, hp, h => freeEx_gen caps b x e hp h
  | .ite c l r, b, hp, h => by
    simp only [genSt, freeSt, List.mem_append] at *
    rcases h with (h | h) | h
    · have := freeEx_gen caps b x c hp.1 h; exact ⟨.inl (.inl this.1), this.2⟩
    · have := freeSts_gen caps x l b hp.2.1 h; exact ⟨.inl (.inr this.1), this.2⟩
    · have := freeSts_gen caps x r b hp.2.2 h; exact ⟨.inr this.1, this.2⟩
  | .whil c l, b, hp, h => by
    simp only [genSt, freeSt, List.mem_append] at *
    rcases h with h | h
    · have := freeEx_gen caps b x c hp.1 h; exact ⟨.inl this.1, this.2⟩
    · have := freeSts_gen caps x l b hp.2 h; exact ⟨.inr this.1, this.2⟩
  | .forr y e c s l, b, hp, h => by
    simp only [genSt, freeSt, List.mem_append] at *
    rcases h with ((h | h) | h) | h
    · have := freeEx_gen caps b x e hp.1 h; exact ⟨.inl (.inl (.inl this.1)), this.2⟩
    · have := freeEx_gen caps _ x c hp.2.1 h; exact ⟨.inl (.inl (.inr this.1)), this.2⟩
    · have := freeEx_gen caps _ x s hp.2.2.1 h; exact ⟨.inl (.inr this.1), this.2⟩
    · have := freeSts_gen caps x l _ hp.2.2.2 h; exact ⟨.inr this.1, this.2⟩
  | .forIn y lo hi l, b, hp, h => by
    simp only [genSt, freeSt, List.mem_append] at *
    rcases h with (h | h) | h
    · have := freeEx_gen caps b x lo hp.1 h; exact ⟨.inl (.inl this.1), this.2⟩
    · have := freeEx_gen caps _ x hi hp.2.1 h; exact ⟨.inl (.inr this.1), this.2⟩
    · have := freeSts_gen caps x l _ hp.2.2 h; exact ⟨.inr this.1, this.2⟩
  | .block l, b, hp, h => by
    simp only [genSt, freeSt] at *
    exact freeSts_gen caps x l b hp h
  | .brk, _, _, h => by simp [genSt, freeSt] at h
  | .cont, _, _, h => by simp [genSt, freeSt] at h
  | .defer _, _, hp, _ => hp.elim
theorem freeSts_gen (caps : List Name) (x : Name) : ∀ (ss : Sts) (b : List Name), PlainSts ss →
    x ∈ freeSts b (genSts caps ss) → x ∈ freeSts b ss ∧ x ∉ caps
  | .nil, _, _, h => by simp [genSts, freeSts] at h
  | .cons s ss, b, hp, h => by
    simp only [genSts, freeSts, List.mem_append] at *
    rcases h with h | h
    · have := freeSt_gen caps x s b hp.1 h; exact ⟨.inl this.1, this.2⟩
    · have := freeSts_gen caps x ss _ hp.2 h
      refine ⟨.inr ?_, this.2⟩
      cases s <;> exact this.1
end

/-! ## Creating -/

theorem place_names {ctx : Env} {x : Name} : (∃ l, place ctx x = some l) ↔ x ∈ ctx.map (·.1) := by
  induction ctx with
  | nil => simp [place]
  | cons p r ih =>
    obtain ⟨y, k⟩ := p
    simp only [place, List.map_cons, List.mem_cons]
    by_cases h : y = x
    · simp [h]
    · simp only [h, if_false, ih]
      exact ⟨.inr, fun hh => hh.resolve_left fun e => h e.symm⟩

theorem create_spec (env : Env) : ∀ (caps : List (Name × Bool)) (σ : State) (m : Nat),
    (caps.map (·.1)).Nodup → m ≤ σ.mem.length →
    (∀ p ∈ caps, p.1 ≠ "ctx" ∧ ∃ l, place env p.1 = some l ∧ l < m) →
    ∃ ctx σ', create env caps σ = .val (ctx, σ') ∧ ctx.map (·.1) = caps.map (·.1) ∧
      (∀ x l, place ctx x = some l → (x, true) ∈ caps → place env x = some l) ∧
      (∀ x l, place ctx x = some l → (x, false) ∈ caps → σ.mem.length ≤ l ∧
        ∃ k, place env x = some k ∧ k < m ∧ σ'.mem[l]? = σ.mem[k]?) ∧
      (∀ x y l, place ctx x = some l → place ctx y = some l → m ≤ l → x = y) ∧
      (∀ x l, place ctx x = some l → l < m ∨ σ.mem.length ≤ l) ∧
      (∀ l, l < σ.mem.length → σ'.mem[l]? = σ.mem[l]?) ∧ σ'.trace = σ.trace
  | [], σ, m, _, _, _ => ⟨[], σ, rfl, rfl, by simp [place], by simp [place], by simp [place],
      by simp [place], fun _ _ => rfl, rfl⟩
  | (x, b) :: r, σ, m, hn, hm, hp => by
    simp only [List.map_cons, List.nodup_cons] at hn
    obtain ⟨hx, l, hl, hlm⟩ := hp (x, b) (by simp)
    have hr : ∀ p ∈ r, p.1 ≠ "ctx" ∧ ∃ l, place env p.1 = some l ∧ l < m :=
      fun p h => hp p (by simp [h])
    have hnot : ∀ m, (x, m) ∉ r := fun m h => hn.1 (List.mem_map.2 ⟨_, h, rfl⟩)
    simp only at hx hl
    cases b with
    | true =>
      obtain ⟨ctx, σ', h1, h2, h3, h4, h5, h6, h7, h8⟩ := create_spec env r σ m hn.2 hm hr
      refine ⟨(x, l) :: ctx, σ', ?_, by simp [h2], ?_, ?_, ?_, ?_, h7, h8⟩
      · simp only [create, if_neg hx, hl, if_true, h1, Ans.bind]
      · intro y k hy hm
        simp only [place] at hy
        split at hy
        · next e => subst e; cases hy; exact hl
        · next e =>
          refine h3 y k hy ?_
          simp only [List.mem_cons, Prod.mk.injEq] at hm
          exact hm.resolve_left fun h => e h.1.symm
      · intro y k hy hm
        simp only [List.mem_cons, Prod.mk.injEq] at hm
        simp only [place] at hy
        split at hy
        · next e => subst e; exact absurd hm (by simpa using hnot false)
        · next e => exact h4 y k hy (hm.resolve_left fun h => by cases h.2)
      · intro y z k hy hz hk
        simp only [place] at hy hz
        split at hy
        · cases hy; omega
        · split at hz
          · cases hz; omega
          · exact h5 y z k hy hz hk
      · intro y k hy
        simp only [place] at hy
        split at hy
        · cases hy; exact .inl hlm
        · exact h6 y k hy
    | false =>
      have hv : σ.mem[l]? = some (σ.mem[l]'(by omega)) := List.getElem?_eq_getElem _
      generalize σ.mem[l]'(by omega) = v at hv
      have hlen : (fresh σ v).2.mem.length = σ.mem.length + 1 := by simp [fresh]
      have hold : ∀ k, k < σ.mem.length → (fresh σ v).2.mem[k]? = σ.mem[k]? := by
        intro k hk
        simp only [fresh]
        rw [List.getElem?_append_left hk]
      obtain ⟨ctx, σ', h1, h2, h3, h4, h5, h6, h7, h8⟩ :=
        create_spec env r (fresh σ v).2 m hn.2 (by omega) hr
      have hxc : ∀ y k, place ctx y = some k → y ∈ r.map (·.1) := by
        intro y k hy
        rw [← h2]; exact place_names.1 ⟨k, hy⟩
      refine ⟨(x, (fresh σ v).1) :: ctx, σ', ?_, by simp [h2], ?_, ?_, ?_, ?_, ?_, ?_⟩
      · simp only [create, if_neg hx, hl, hv, h1, Ans.bind]
        rfl
      · intro y k hy hm
        simp only [List.mem_cons, Prod.mk.injEq] at hm
        simp only [place] at hy
        split at hy
        · next e => subst e; exact absurd hm (by simpa using hnot true)
        · next e => exact h3 y k hy (hm.resolve_left fun h => by cases h.2)
      · intro y k hy hm
        simp only [place] at hy
        split at hy
        · next e =>
          subst e; cases hy
          refine ⟨Nat.le_refl _, l, hl, hlm, ?_⟩
          rw [show (fresh σ v).1 = σ.mem.length from rfl, h7 _ (by omega), hv]
          simp [fresh]
        · next e =>
          simp only [List.mem_cons, Prod.mk.injEq] at hm
          obtain ⟨g1, q, g2, g3, g4⟩ := h4 y k hy (hm.resolve_left fun h => e h.1.symm)
          exact ⟨by omega, q, g2, g3, by rw [g4, hold q (by omega)]⟩
      · intro y z k hy hz hk
        simp only [place] at hy hz
        split at hy
        · next e1 =>
          split at hz
          · next e2 => exact e1.symm.trans e2
          · cases hy
            have := h6 z _ hz
            simp only [hlen] at this
            simp only [fresh] at this hk
            omega
        · split at hz
          · cases hz
            have := h6 y _ hy
            simp only [hlen] at this
            simp only [fresh] at this hk
            omega
          · exact h5 y z k hy hz hk
      · intro y k hy
        simp only [place] at hy
        split at hy
        · cases hy; exact .inr (Nat.le_refl _)
        · have := h6 y k hy
          omega
      · intro k hk
        rw [h7 k (by omega), hold k hk]
      · exact h8.trans rfl

/-! ## Parameters -/

theorem bindParams_agree {caps : List Name} {ctx : Env} : ∀ (ps : List Name) (vs : List Int)
    (σ : State) (env envZ : Env), Agree caps ctx env envZ → (∀ x ∈ ps, x ∉ caps) →
    Agree caps ctx (bindParams ps vs σ env).1 (bindParams ps vs σ envZ).1 ∧
      (bindParams ps vs σ env).2 = (bindParams ps vs σ envZ).2
  | [], vs, σ, env, envZ, ha, _ => by
    cases vs <;> exact ⟨ha, rfl⟩
  | p :: ps, [], σ, env, envZ, ha, _ => ⟨ha, rfl⟩
  | p :: ps, v :: vs, σ, env, envZ, ha, h => by
    simp only [bindParams]
    exact bindParams_agree ps vs _ _ _ (ha.cons (h p (by simp)) _) (fun x hx => h x (by simp [hx]))

theorem place_append (a b : Env) (x : Name) :
    place (a ++ b) x = if x ∈ a.map (·.1) then place a x else place b x := by
  induction a with
  | nil => simp
  | cons p r ih =>
    obtain ⟨y, k⟩ := p
    simp only [List.cons_append, place, List.map_cons, List.mem_cons]
    by_cases h : y = x
    · simp [h]
    · have : ¬ x = y := fun e => h e.symm
      simp only [h, this, if_false, false_or, ih]

/-! ## Lengths -/

theorem nodup_le : ∀ (l k : List Name), l.Nodup → (∀ x ∈ l, x ∈ k) → l.length ≤ k.length
  | [], _, _, _ => Nat.zero_le _
  | x :: l, k, hn, hs => by
    simp only [List.nodup_cons] at hn
    have hx : x ∈ k := hs x (by simp)
    have := nodup_le l (k.erase x) hn.2 fun y hy => by
      have hne : y ≠ x := by rintro rfl; exact hn.1 hy
      exact (List.mem_erase_of_ne hne).2 (hs y (by simp [hy]))
    rw [List.length_erase_of_mem hx] at this
    have : 0 < k.length := List.length_pos_of_mem hx
    simp only [List.length_cons]
    omega

/-! ## The order of definitions -/

theorem infix_left {α : Type} {a b c : List α} (h : a <:+: b) : a <:+: b ++ c := by
  obtain ⟨s, t, rfl⟩ := h
  exact ⟨s, t ++ c, by simp⟩

theorem infix_right {α : Type} {a b c : List α} (h : a <:+: c) : a <:+: b ++ c := by
  obtain ⟨s, t, rfl⟩ := h
  exact ⟨b ++ s, t, by simp⟩

mutual
theorem lamsEx_reg (i : Nat) (b : Sts) : ∀ e : Ex, (i, b) ∈ lamsEx e → regSts b ++ [i] <:+: regEx e
  | .bin _ l r, h => by
    simp only [lamsEx, List.mem_append] at h
    simp only [regEx]
    exact h.elim (fun h => infix_left (lamsEx_reg i b l h)) (fun h => infix_right (lamsEx_reg i b r h))
  | .un _ e, h => by
    simp only [lamsEx] at h; simp only [regEx]; exact lamsEx_reg i b e h
  | .asg _ e, h => by
    simp only [lamsEx] at h; simp only [regEx]; exact lamsEx_reg i b e h
  | .setField _ e, h => by
    simp only [lamsEx] at h; simp only [regEx]; exact lamsEx_reg i b e h
  | .call _ as, h => by
    simp only [lamsEx] at h; simp only [regEx]; exact lamsExs_reg i b as h
  | .callField _ as, h => by
    simp only [lamsEx] at h; simp only [regEx]; exact lamsExs_reg i b as h
  | .cond c l r, h => by
    simp only [lamsEx, List.mem_append] at h
    simp only [regEx]
    rcases h with (h | h) | h
    · exact infix_left (infix_left (lamsEx_reg i b c h))
    · exact infix_left (infix_right (lamsEx_reg i b l h))
    · exact infix_right (lamsEx_reg i b r h)
  | .cast e, h => by
    simp only [lamsEx] at h; simp only [regEx]; exact lamsEx_reg i b e h
  | .lam j _ _ _ c, h => by
    simp only [lamsEx, List.mem_cons, Prod.mk.injEq] at h
    simp only [regEx]
    rcases h with ⟨rfl, rfl⟩ | h
    · exact List.infix_refl _
    · exact infix_left (lamsSts_reg i b c h)
  | .lit _, h => by simp [lamsEx] at h
  | .var _, h => by simp [lamsEx] at h
  | .field _, h => by simp [lamsEx] at h
theorem lamsExs_reg (i : Nat) (b : Sts) : ∀ es : Exs, (i, b) ∈ lamsExs es →
    regSts b ++ [i] <:+: regExs es
  | .nil, h => by simp [lamsExs] at h
  | .cons e es, h => by
    simp only [lamsExs, List.mem_append] at h
    simp only [regExs]
    exact h.elim (fun h => infix_left (lamsEx_reg i b e h))
      (fun h => infix_right (lamsExs_reg i b es h))
theorem lamsSt_reg (i : Nat) (b : Sts) : ∀ s : St, (i, b) ∈ lamsSt s → regSts b ++ [i] <:+: regSt s
  | .expr e, h => by
    simp only [lamsSt] at h; simp only [regSt]; exact lamsEx_reg i b e h
  | .decl _ e, h => by
    simp only [lamsSt] at h; simp only [regSt]; exact lamsEx_reg i b e h
  | .const _ e, h => by
    simp only [lamsSt] at h; simp only [regSt]; exact lamsEx_reg i b e h
  | .ret e, h => by
    simp only [lamsSt] at h; simp only [regSt]; exact lamsEx_reg i b e h
  | .defer e, h => by
    simp only [lamsSt] at h; simp only [regSt]; exact lamsEx_reg i b e h
  | .ite c l r, h => by
    simp only [lamsSt, List.mem_append] at h
    simp only [regSt]
    rcases h with (h | h) | h
    · exact infix_left (infix_left (lamsEx_reg i b c h))
    · exact infix_left (infix_right (lamsSts_reg i b l h))
    · exact infix_right (lamsSts_reg i b r h)
  | .whil c l, h => by
    simp only [lamsSt, List.mem_append] at h
    simp only [regSt]
    exact h.elim (fun h => infix_left (lamsEx_reg i b c h)) (fun h => infix_right (lamsSts_reg i b l h))
  | .forr _ e c s l, h => by
    simp only [lamsSt, List.mem_append] at h
    simp only [regSt]
    rcases h with ((h | h) | h) | h
    · exact infix_left (infix_left (infix_left (lamsEx_reg i b e h)))
    · exact infix_left (infix_left (infix_right (lamsEx_reg i b c h)))
    · exact infix_left (infix_right (lamsEx_reg i b s h))
    · exact infix_right (lamsSts_reg i b l h)
  | .forIn _ lo hi l, h => by
    simp only [lamsSt, List.mem_append] at h
    simp only [regSt]
    rcases h with (h | h) | h
    · exact infix_left (infix_left (lamsEx_reg i b lo h))
    · exact infix_left (infix_right (lamsEx_reg i b hi h))
    · exact infix_right (lamsSts_reg i b l h)
  | .block l, h => by
    simp only [lamsSt] at h; simp only [regSt]; exact lamsSts_reg i b l h
  | .brk, h => by simp [lamsSt] at h
  | .cont, h => by simp [lamsSt] at h
theorem lamsSts_reg (i : Nat) (b : Sts) : ∀ ss : Sts, (i, b) ∈ lamsSts ss →
    regSts b ++ [i] <:+: regSts ss
  | .nil, h => by simp [lamsSts] at h
  | .cons s ss, h => by
    simp only [lamsSts, List.mem_append] at h
    simp only [regSts]
    exact h.elim (fun h => infix_left (lamsSt_reg i b s h))
      (fun h => infix_right (lamsSts_reg i b ss h))
end

end Verif.Closure
