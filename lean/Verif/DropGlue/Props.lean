import Verif.DropGlue.Model

/-! # Destructors of parts (C161) -/

namespace Verif.DropGlue
open Spec

/-! ## propagation ends, and is complete -/

theorem pass_mono : ∀ (ds : List Def) (fl : List Name) (n : Name), n ∈ fl → n ∈ (pass ds fl).2
  | [], _, _, h => h
  | d :: ds, fl, n, h => by
    rw [pass]
    split
    · exact pass_mono ds _ n (by simp [h])
    · exact pass_mono ds _ n h

theorem pass_false : ∀ (ds : List Def) (fl : List Name), (pass ds fl).1 = false →
    (pass ds fl).2 = fl ∧ ∀ d ∈ ds, d.kind ≠ .enum → (∃ m ∈ d.members, owned fl m.2 = true) → d.name ∈ fl
  | [], fl, _ => ⟨rfl, by simp⟩
  | d :: ds, fl, h => by
    rw [pass] at h ⊢
    split at h
    · cases h
    · rename_i hc
      rw [if_neg hc]
      obtain ⟨h1, h2⟩ := pass_false ds fl h
      refine ⟨h1, fun d' hd' hk hm => ?_⟩
      rcases List.mem_cons.mp hd' with rfl | hd'
      · apply Classical.byContradiction
        intro hn
        apply hc
        simp only [Bool.and_eq_true, Bool.not_eq_true', bne_iff_ne, ne_eq, List.any_eq_true]
        exact ⟨by simpa using hn, hk, hm⟩
      · exact h2 d' hd' hk hm

/-- Definitions without flag. -/
def missing (ds : List Def) (fl : List Name) : Nat := ds.countP fun d => !fl.contains d.name

theorem missing_mono {ds : List Def} {fl fl' : List Name} (h : ∀ n ∈ fl, n ∈ fl') : missing ds fl' ≤ missing ds fl := by
  unfold missing
  apply List.countP_mono_left
  intro d _ hd
  simp only [Bool.not_eq_true', List.contains_eq_mem, decide_eq_false_iff_not] at hd ⊢
  exact fun hh => hd (h _ hh)

theorem missing_lt {ds : List Def} {fl fl' : List Name} (h : ∀ n ∈ fl, n ∈ fl') {d : Def} (hd : d ∈ ds) (h1 : d.name ∉ fl) (h2 : d.name ∈ fl') :
    missing ds fl' < missing ds fl := by
  induction ds with
  | nil => cases hd
  | cons e ds ih =>
    have hm := missing_mono (ds := ds) h
    have hc : ∀ l : List Name, missing (e :: ds) l = missing ds l + if e.name ∈ l then 0 else 1 := by
      intro l
      unfold missing
      rw [List.countP_cons]
      by_cases he : e.name ∈ l <;> simp [he]
    rw [hc, hc]
    rcases List.mem_cons.mp hd with rfl | hd
    · rw [if_pos h2, if_neg h1]; omega
    · have := ih hd
      by_cases he : e.name ∈ fl
      · rw [if_pos he, if_pos (h _ he)]; omega
      · rw [if_neg he]; split <;> omega

theorem pass_true : ∀ (ds : List Def) (fl : List Name), (pass ds fl).1 = true → ∃ d ∈ ds, d.name ∉ fl ∧ d.name ∈ (pass ds fl).2
  | [], _, h => by cases h
  | d :: ds, fl, h => by
    rw [pass] at h ⊢
    split at h
    · rename_i hc
      rw [if_pos hc]
      refine ⟨d, by simp, ?_, pass_mono ds _ _ (by simp)⟩
      simp only [Bool.and_eq_true, Bool.not_eq_true'] at hc
      simpa using hc.1
    · rename_i hc
      rw [if_neg hc]
      obtain ⟨e, h1, h2⟩ := pass_true ds fl h
      exact ⟨e, by simp [h1], h2⟩

theorem rounds_mono (ds : List Def) : ∀ k fl n, n ∈ fl → n ∈ rounds ds k fl
  | 0, _, _, h => h
  | k + 1, fl, n, h => by
    rw [rounds]
    split
    · exact rounds_mono ds k _ n (pass_mono ds fl n h)
    · exact pass_mono ds fl n h

theorem rounds_end (ds : List Def) : ∀ k fl, missing ds fl < k →
    ∀ d ∈ ds, d.kind ≠ .enum → (∃ m ∈ d.members, owned (rounds ds k fl) m.2 = true) → d.name ∈ rounds ds k fl
  | 0, _, h => by omega
  | k + 1, fl, h => by
    rw [rounds]
    split
    · rename_i hc
      obtain ⟨e, h1, h2, h3⟩ := pass_true ds fl hc
      have := missing_lt (pass_mono ds fl) h1 h2 h3
      exact rounds_end ds k _ (by omega)
    · rename_i hc
      obtain ⟨h1, h2⟩ := pass_false ds fl (by simpa using hc)
      rw [h1]
      exact h2

/-- C161: the rounds of `propagate_drop_traits` come to an end after at most as many as there are structs, and then every struct that has a member
with a destructor has one. -/
theorem rounds_closed (ds : List Def) (fl : List Name) : ∀ d ∈ ds, d.kind ≠ .enum →
    (∃ m ∈ d.members, owned (rounds ds (ds.length + 1) fl) m.2 = true) → d.name ∈ rounds ds (ds.length + 1) fl :=
  rounds_end ds _ fl (by unfold missing; have := List.countP_le_length (p := fun d : Def => !fl.contains d.name) (l := ds); omega)

/-- An invariant of propagation. -/
theorem rounds_inv {I : Name → Prop} (ds : List Def)
    (hs : ∀ d ∈ ds, ∀ m ∈ d.members, ∀ k, m.2 = .named k → I k → I d.name) :
    ∀ k fl, (∀ n ∈ fl, I n) → ∀ n ∈ rounds ds k fl, I n := by
  have hp : ∀ (ds' : List Def) fl, (∀ d ∈ ds', d ∈ ds) → (∀ n ∈ fl, I n) → ∀ n ∈ (pass ds' fl).2, I n := by
    intro ds'
    induction ds' with
    | nil => intro fl _ h; exact h
    | cons d ds' ih =>
      intro fl hd h
      rw [pass]
      split
      · rename_i hc
        apply ih _ (fun x hx => hd x (by simp [hx]))
        intro n hn
        rcases List.mem_cons.mp hn with rfl | hn
        · simp only [Bool.and_eq_true, List.any_eq_true] at hc
          obtain ⟨m, hm, ho⟩ := hc.2.2
          cases ht : m.2 with
          | named k =>
            rw [ht] at ho
            exact hs d (hd d (by simp)) m hm k ht (h k (by simpa [owned] using ho))
          | scalar => rw [ht] at ho; cases ho
          | ptr => rw [ht] at ho; cases ho
          | array _ _ => rw [ht] at ho; cases ho
        · exact h n hn
      · exact ih _ (fun x hx => hd x (by simp [hx])) h
  intro k
  induction k with
  | zero => intro fl h; exact h
  | succ k ih =>
    intro fl h
    rw [rounds]
    split
    · exact ih _ (hp ds fl (fun _ h => h) h)
    · exact hp ds fl (fun _ h => h) h

/-! ## the tables -/

theorem parse_append (A : List Item) (i : Item) : parse (A ++ [i]) = step (parse A) i := by
  simp [parse, List.foldl_append]

/-- Induction along the text. -/
theorem snoc_ind {motive : List Item → Prop} (nil : motive []) (snoc : ∀ A i, motive A → motive (A ++ [i])) : ∀ P, motive P := by
  intro P
  have : ∀ n (P : List Item), P.length = n → motive P := by
    intro n
    induction n with
    | zero => intro P h; rw [List.length_eq_zero_iff.mp h]; exact nil
    | succ n ih =>
      intro P h
      rcases List.eq_nil_or_concat P with rfl | ⟨A, i, rfl⟩
      · simp at h
      · rw [List.concat_eq_append] at h ⊢
        exact snoc A i (ih A (by simpa using h))
  exact this _ P rfl

theorem parse_parsed (P : List Item) (d : Def) : d ∈ (parse P).parsed ↔ .decl d ∈ P := by
  induction P using snoc_ind with
  | nil => simp [parse]
  | snoc A i ih =>
    rw [parse_append]
    cases i <;> simp [step, ih, or_comm]

theorem parse_insts (P : List Item) (d : Def) : d ∈ (parse P).insts ↔ ∃ t, .inst d t ∈ P := by
  induction P using snoc_ind with
  | nil => simp [parse]
  | snoc A i ih =>
    rw [parse_append]
    cases i with
    | decl => simp [step, ih]
    | impl => simp [step, ih]
    | inst e t =>
      simp only [step, List.mem_cons, ih, List.mem_append, List.not_mem_nil, or_false, Item.inst.injEq]
      constructor
      · rintro (rfl | ⟨t', h⟩)
        · exact ⟨t, .inr ⟨rfl, rfl⟩⟩
        · exact ⟨t', .inl h⟩
      · rintro ⟨t', h | ⟨rfl, _⟩⟩
        · exact .inr ⟨t', h⟩
        · exact .inl rfl

theorem parse_impls (P : List Item) (n : Name) : n ∈ (parse P).impls ↔ .impl n ∈ P := by
  induction P using snoc_ind with
  | nil => simp [parse]
  | snoc A i ih =>
    rw [parse_append]
    cases i <;> simp [step, ih, or_comm]

theorem mem_defs (P : List Item) (d : Def) : d ∈ defs P ↔ .decl d ∈ P ∨ ∃ t, .inst d t ∈ P := by
  unfold defs
  rw [List.mem_filterMap]
  constructor
  · rintro ⟨i, hi, h⟩
    cases i with
    | decl e => simp only [defOf, Option.some.injEq] at h; subst h; exact .inl hi
    | impl => cases h
    | inst e t => simp only [defOf, Option.some.injEq] at h; subst h; exact .inr ⟨t, hi⟩
  · rintro (h | ⟨t, h⟩)
    · exact ⟨_, h, rfl⟩
    · exact ⟨_, h, rfl⟩

theorem tables_defs (P : List Item) (d : Def) : d ∈ (parse P).insts ++ (parse P).parsed ↔ d ∈ defs P := by
  rw [List.mem_append, parse_insts, parse_parsed, mem_defs, or_comm]

theorem same_of_name {P : List Item} (h : ((defs P).map (·.name)).Nodup) {d e : Def} (hd : d ∈ defs P) (he : e ∈ defs P) (hn : d.name = e.name) :
    d = e := by
  revert h hd he
  generalize defs P = l
  intro h hd he
  induction l with
  | nil => cases hd
  | cons a l ih =>
    rw [List.map_cons, List.nodup_cons] at h
    rcases List.mem_cons.mp hd with h1 | h1 <;> rcases List.mem_cons.mp he with h2 | h2
    · rw [h1, h2]
    · exact absurd (List.mem_map.mpr ⟨e, h2, by rw [← hn, h1]⟩) h.1
    · exact absurd (List.mem_map.mpr ⟨d, h1, by rw [hn, h2]⟩) h.1
    · exact ih h.2 h1 h2

theorem lookup_iff {P : List Item} (h : ((defs P).map (·.name)).Nodup) (n : Name) (d : Def) :
    (parse P).lookup n = some d ↔ d ∈ defs P ∧ d.name = n := by
  unfold St.lookup
  constructor
  · intro hf
    exact ⟨(tables_defs P d).mp (List.mem_of_find?_eq_some hf), by simpa using List.find?_some hf⟩
  · rintro ⟨h1, h2⟩
    cases hf : ((parse P).insts ++ (parse P).parsed).find? (fun x : Def => decide (x.name = n)) with
    | none =>
      have := List.find?_eq_none.mp hf d ((tables_defs P d).mpr h1)
      simp [h2] at this
    | some e =>
      have he := (tables_defs P e).mp (List.mem_of_find?_eq_some hf)
      have hn : e.name = n := by simpa using List.find?_some hf
      rw [same_of_name h he h1 (hn.trans h2.symm)]

theorem flags_step (st : St) (i : Item) (n : Name) (h : n ∈ st.flags) : n ∈ (step st i).flags := by
  cases i with
  | decl => exact h
  | impl m =>
    simp only [step]
    split
    · split
      · exact h
      · simp [h]
    · exact h
  | inst d t =>
    simp only [step]
    split
    · simp [h]
    · exact h

theorem flags_mono (A B : List Item) (n : Name) (h : n ∈ (parse A).flags) : n ∈ (parse (A ++ B)).flags := by
  induction B using snoc_ind with
  | nil => simpa using h
  | snoc B i ih => rw [← List.append_assoc, parse_append]; exact flags_step _ _ _ ih

theorem flags_sound {P : List Item} (hf : Fine P) : ∀ A B, P = A ++ B → ∀ n ∈ (parse A).flags, Manual A n := by
  intro A
  induction A using snoc_ind with
  | nil => intro B _ n hn; simp [parse] at hn
  | snoc A i ih =>
    intro B hP n hn
    have ih := ih (i :: B) (by simpa using hP)
    have up : ∀ k, Manual A k → Manual (A ++ [i]) k := by
      rintro k (h | ⟨d, t, h1, h2, h3⟩)
      · exact .inl (by simp [h])
      · exact .inr ⟨d, t, by simp [h1], h2, by simp [h3]⟩
    rw [parse_append] at hn
    cases i with
    | decl => exact up _ (ih n hn)
    | impl m =>
      simp only [step] at hn
      split at hn
      · split at hn
        · exact up _ (ih n hn)
        · rcases List.mem_cons.mp hn with rfl | hn
          · exact .inl (by simp)
          · exact up _ (ih n hn)
      · exact up _ (ih n hn)
    | inst d t =>
      simp only [step] at hn
      split at hn
      · rename_i ht
        rcases List.mem_cons.mp hn with rfl | hn
        · rcases ih t ht with h | ⟨e, u, h1, h2, _⟩
          · exact .inr ⟨d, t, by simp, rfl, by simp [h]⟩
          · exact absurd h2 (hf.generic d t e u (by simp [hP]) (by simp [hP, h1]))
        · exact up _ (ih n hn)
      · exact up _ (ih n hn)

theorem impl_flag {P : List Item} (hf : Fine P) {A B : List Item} {n : Name} (hP : P = A ++ .impl n :: B) : n ∈ (parse (A ++ [.impl n])).flags := by
  obtain ⟨d, h1, h2, h3⟩ := hf.impl A B n hP
  have hn : ((defs A).map (·.name)).Nodup := by
    have : ((defs P).map (·.name)) = (defs A).map (·.name) ++ (defs (.impl n :: B)).map (·.name) := by
      rw [hP]; simp [defs]
    have hh := hf.names
    rw [this] at hh
    exact (List.nodup_append.mp hh).1
  have hl : (parse A).lookup n = some d := (lookup_iff hn n d).mpr ⟨(mem_defs A d).mpr (.inl h1), h2⟩
  rw [parse_append]
  simp only [step, hl]
  rw [if_neg h3]
  simp

theorem flags_complete {P : List Item} (hf : Fine P) {n : Name} (h : Manual P n) : n ∈ (parse P).flags := by
  rcases h with h | ⟨d, t, h1, rfl, h3⟩
  · obtain ⟨A, B, hP⟩ := List.append_of_mem h
    have := flags_mono _ B n (impl_flag hf hP)
    rwa [List.append_assoc, List.singleton_append, ← hP] at this
  · obtain ⟨A, B, hP⟩ := List.append_of_mem h1
    have hB := (hf.inst A B d t hP).1
    have hA : .impl t ∈ A := by
      rw [hP] at h3
      simp only [List.mem_append, List.mem_cons] at h3
      rcases h3 with h3 | h3 | h3
      · exact h3
      · cases h3
      · exact absurd h3 hB
    obtain ⟨A1, A2, hA'⟩ := List.append_of_mem hA
    have ht := flags_mono _ A2 t (impl_flag hf (A := A1) (B := A2 ++ .inst d t :: B) (by rw [hP, hA']; simp))
    rw [List.append_assoc, List.singleton_append, ← hA'] at ht
    have : d.name ∈ (parse (A ++ [.inst d t])).flags := by
      rw [parse_append]
      simp [step, ht]
    have := flags_mono _ B _ this
    rwa [List.append_assoc, List.singleton_append, ← hP] at this

theorem manual_def {P : List Item} (hf : Fine P) {n : Name} (h : Manual P n) : ∃ d ∈ defs P, d.name = n := by
  rcases h with h | ⟨d, t, h1, rfl, _⟩
  · obtain ⟨A, B, hP⟩ := List.append_of_mem h
    obtain ⟨d, h1, h2, _⟩ := hf.impl A B n hP
    exact ⟨d, (mem_defs P d).mpr (.inl (by simp [hP, h1])), h2⟩
  · exact ⟨d, (mem_defs P d).mpr (.inr ⟨t, h1⟩), rfl⟩

theorem Owner.ofMember {P : List Item} {d : Def} (hd : d ∈ defs P) {m : Name × Ty} (hm : m ∈ d.members) (h : Owner P m.2) : Owner P (.named d.name) := by
  obtain ⟨p, k, h1, h2⟩ := h
  exact ⟨_, k, .member hd rfl (x := m.1) (t := m.2) hm h1, h2⟩

/-- C161 (partial): in the programs described by `Fine`, a type is destroyed exactly when one of its parts, or it itself, has a destructor.
Missing: what `Fine` excludes, see the file `Limits`. -/
theorem flags_iff_partial {P : List Item} (hf : Fine P) (n : Name) : n ∈ (final P).flags ↔ Owner P (.named n) := by
  constructor
  · intro h
    refine rounds_inv (I := fun n => Owner P (.named n)) (parse P).parsed ?_ _ _ ?_ n h
    · intro d hd m hm k hk ho
      rw [parse_parsed] at hd
      exact Owner.ofMember ((mem_defs P d).mpr (.inl hd)) hm (hk ▸ ho)
    · intro n hn
      exact ⟨[], n, .here n, flags_sound hf P [] (by simp) n hn⟩
  · rintro ⟨p, m, h1, h2⟩
    have base : ∀ k, Manual P k → k ∈ (final P).flags := fun k hk => rounds_mono _ _ _ _ (flags_complete hf hk)
    have : ∀ t p m, Part P t p m → Manual P m → ∀ n, t = .named n → n ∈ (final P).flags := by
      intro t p m h hm
      induction h with
      | here k => intro n hn; cases hn; exact base _ hm
      | elem => intro n hn; cases hn
      | @member d k x t p m hd hk hmem hp ih =>
        intro n hn
        cases hn
        subst hk
        have ho : Owner P t := ⟨p, m, hp, hm⟩
        by_cases hkind : d.kind = .struct
        · cases t with
          | scalar => cases hp
          | ptr => cases hp
          | array t k => obtain _ | _ | ⟨_, hp⟩ := hp; exact absurd ⟨_, m, hp, hm⟩ (hf.array d hd x t k hmem)
          | named k =>
            have hk := ih hm k rfl
            rcases (mem_defs P d).mp hd with hd' | ⟨u, hd'⟩
            · refine rounds_closed (parse P).parsed (parse P).flags d ((parse_parsed P d).mpr hd') (by rw [hkind]; decide) ⟨_, hmem, ?_⟩
              exact List.contains_iff_mem.mpr hk
            · rcases hf.whole d u hd' with h | h
              · exact base _ (.inr ⟨d, u, hd', rfl, h⟩)
              · exact absurd ho (h _ hmem)
        · exact absurd ho (hf.choice d hd hkind _ hmem)
    exact this _ p m h1 h2 n rfl

theorem take_plain {c : Char} {t : Name} (h : c ∉ t) : t.takeWhile (· ≠ c) = t := by
  induction t with
  | nil => rfl
  | cons a s ih =>
    simp only [List.mem_cons, not_or] at h
    rw [List.takeWhile_cons, if_pos (by simpa using Ne.symm h.1), ih h.2]

theorem take_base (t a : Name) : (t ++ '_' :: a).takeWhile (· ≠ '_') = t.takeWhile (· ≠ '_') := by
  induction t with
  | nil => simp
  | cons c s ih =>
    rw [List.cons_append, List.takeWhile_cons, List.takeWhile_cons, ih]

theorem checkImpl_iff {P : List Item} (hf : Fine P) {d : Def} (hd : d ∈ defs P) : checkImpl (final P) d.name = true ↔ Manual P d.name := by
  have hi : ∀ n, n ∈ (final P).impls ↔ .impl n ∈ P := fun n => parse_impls P n
  have hlt : ∀ n, .impl n ∈ P → n.takeWhile (· ≠ '<') = n := by
    exact fun n hn => take_plain (hf.plain n hn).2
  have hb : ((final P).impls.map (·.takeWhile (· ≠ '<'))).contains (d.name.takeWhile (· ≠ '_')) = true ↔
      .impl (d.name.takeWhile (· ≠ '_')) ∈ P := by
    rw [List.contains_iff_mem, List.mem_map]
    constructor
    · rintro ⟨n, h1, h2⟩
      rw [hi] at h1
      rw [hlt n h1] at h2
      exact h2 ▸ h1
    · intro h
      exact ⟨_, (hi _).mpr h, hlt _ h⟩
  unfold checkImpl
  rw [Bool.or_eq_true, hb, List.contains_iff_mem, hi]
  constructor
  · rintro (h | h)
    · exact .inl h
    · rcases (mem_defs P d).mp hd with hd' | ⟨t, hd'⟩
      · have := hf.prefixes d _ hd' h rfl
        exact .inl (this ▸ h)
      · obtain ⟨A, B, hP⟩ := List.append_of_mem hd'
        obtain ⟨_, ⟨g, hg, hgt⟩, a, ha⟩ := hf.inst A B d t hP
        have : d.name.takeWhile (· ≠ '_') = t.takeWhile (· ≠ '_') := by rw [ha, take_base]
        rw [this] at h
        rw [← hgt] at h
        have hh := hf.prefixes g _ hg h rfl
        rw [← hh, hgt] at h
        exact .inr ⟨d, t, hd', rfl, h⟩
  · rintro (h | ⟨e, t, h1, h2, h3⟩)
    · exact .inl h
    · right
      obtain ⟨A, B, hP⟩ := List.append_of_mem h1
      obtain ⟨_, _, a, ha⟩ := hf.inst A B e t hP
      have ht := (hf.plain t h3).1
      rw [← h2, ha, take_base, take_plain ht]
      exact h3

theorem calls_succ (st : St) (f : Nat) (n : Name) (d : Def) (h : st.lookup n = some d) :
    calls st (f + 1) n = (if checkImpl st n then [[]] else []) ++
        d.members.flatMap fun m => match m.2 with
          | .named k => if st.flags.contains k then (calls st f k).map (Step.member m.1 :: ·) else []
          | _ => [] := by
  rw [calls, h]
  rfl

/-- C161 (partial): the destructors that are called when a value goes away are those of its parts: each part that has one, and no other. -/
theorem calls_spec_partial {P : List Item} (hf : Fine P) {rank : Name → Nat} (hr : Ranked P rank) : ∀ (f : Nat) (n : Name), rank n < f →
    ∀ p, p ∈ calls (final P) f n ↔ ∃ m, Part P (.named n) p m ∧ Manual P m := by
  intro f
  induction f with
  | zero => intro n h; omega
  | succ f ih =>
    intro n hlt p
    cases hl : (final P).lookup n with
    | none =>
      rw [calls, hl]
      simp only [List.not_mem_nil, false_iff, not_exists, not_and]
      intro m hp hm
      have hno : ∀ d ∈ defs P, d.name ≠ n := by
        intro d hd he
        have : (final P).lookup n = some d := (lookup_iff hf.names n d).mpr ⟨hd, he⟩
        rw [hl] at this; cases this
      cases hp with
      | here =>
        obtain ⟨d, h1, h2⟩ := manual_def hf hm
        exact hno d h1 h2
      | member hd hk _ _ => exact hno _ hd hk
    | some d =>
      obtain ⟨hd, hdn⟩ := (lookup_iff hf.names n d).mp hl
      subst hdn
      rw [calls_succ _ _ _ d hl, List.mem_append, List.mem_flatMap]
      constructor
      · rintro (h | ⟨⟨x, t⟩, hm, h⟩)
        · split at h
          · rename_i hc
            simp only [List.mem_singleton] at h
            subst h
            exact ⟨d.name, .here _, (checkImpl_iff hf hd).mp hc⟩
          · cases h
        · cases t with
          | scalar => cases h
          | ptr => cases h
          | array => cases h
          | named k =>
            simp only at h
            split at h
            · rw [List.mem_map] at h
              obtain ⟨q, hq, rfl⟩ := h
              obtain ⟨m, h1, h2⟩ := (ih k (by have := hr d hd x k hm; omega) q).mp hq
              exact ⟨m, .member hd rfl hm h1, h2⟩
            · cases h
      · rintro ⟨m, hp, hm⟩
        cases hp with
        | here => left; rw [if_pos ((checkImpl_iff hf hd).mpr hm)]; simp
        | @member d' _ x t q _ hd' hk hmem hq =>
          right
          have := same_of_name hf.names hd' hd hk
          subst this
          refine ⟨_, hmem, ?_⟩
          cases t with
          | scalar => cases hq
          | ptr => cases hq
          | array t k => obtain _ | _ | ⟨_, hq⟩ := hq; exact absurd ⟨_, m, hq, hm⟩ (hf.array d' hd x t k hmem)
          | named k =>
            simp only
            rw [if_pos (by rw [List.contains_iff_mem]; exact (flags_iff_partial hf k).mpr ⟨q, m, hq, hm⟩), List.mem_map]
            exact ⟨q, (ih k (by have := hr d' hd x k hmem; omega) q).mpr ⟨m, hq, hm⟩, rfl⟩

/-- C161 (partial): a variable that goes away destroys its parts. -/
theorem destroy_spec_partial {P : List Item} (hf : Fine P) {rank : Name → Nat} (hr : Ranked P rank) {n : Name} {f : Nat} (h : rank n < f) (p : List Step) :
    p ∈ destroy (final P) f (.named n) ↔ ∃ m, Part P (.named n) p m ∧ Manual P m := by
  unfold destroy
  by_cases hn : n ∈ (final P).flags
  · show p ∈ (if (final P).flags.contains n = true then calls (final P) f n else []) ↔ _
    rw [if_pos (List.contains_iff_mem.mpr hn)]
    exact calls_spec_partial hf hr f n h p
  · show p ∈ (if (final P).flags.contains n = true then calls (final P) f n else []) ↔ _
    rw [if_neg (fun h => hn (List.contains_iff_mem.mp h))]
    simp only [List.not_mem_nil, false_iff, not_exists, not_and]
    intro m h1 h2
    exact hn ((flags_iff_partial hf n).mpr ⟨p, m, h1, h2⟩)

/-- C161: when the members of each definition have different names, nothing is destroyed twice; and no part is destroyed before the
value it belongs to.  This holds for every program. -/
theorem calls_once {P : List Item} (hm : ∀ n d, (final P).lookup n = some d → (d.members.map (·.1)).Nodup) : ∀ (f : Nat) (n : Name),
    (calls (final P) f n).Pairwise fun p q => p ≠ q ∧ ¬ q <+: p := by
  intro f
  induction f with
  | zero => intro n; simp [calls]
  | succ f ih =>
    intro n
    cases hl : (final P).lookup n with
    | none => rw [calls, hl]; simp
    | some d =>
      rw [calls_succ _ _ _ d hl]
      have hmem := hm n d hl
      rw [List.pairwise_append]
      have hne : ∀ (ms : List (Name × Ty)) q, q ∈ (ms.flatMap fun m => match m.2 with
          | .named k => if (final P).flags.contains k then (calls (final P) f k).map (Step.member m.1 :: ·) else []
          | _ => []) → ∃ x r, x ∈ ms.map (·.1) ∧ q = Step.member x :: r := by
        intro ms q hq
        rw [List.mem_flatMap] at hq
        obtain ⟨⟨x, t⟩, h1, h2⟩ := hq
        cases t with
        | named k =>
          simp only at h2
          split at h2
          · rw [List.mem_map] at h2
            obtain ⟨r, _, rfl⟩ := h2
            exact ⟨x, r, List.mem_map.mpr ⟨_, h1, rfl⟩, rfl⟩
          · cases h2
        | scalar => cases h2
        | ptr => cases h2
        | array => cases h2
      refine ⟨by split <;> simp, ?_, ?_⟩
      · generalize d.members = ms at hmem
        induction ms with
        | nil => simp
        | cons m ms ihm =>
          rw [List.map_cons, List.nodup_cons] at hmem
          rw [List.flatMap_cons, List.pairwise_append]
          refine ⟨?_, ihm hmem.2, ?_⟩
          · split
            · split
              · rw [List.pairwise_map]
                refine (ih _).imp ?_
                rintro p q ⟨h1, h2⟩
                exact ⟨by simpa using h1, by simpa using h2⟩
              · simp
            · simp
          · intro p hp q hq
            obtain ⟨x, r, hx, rfl⟩ := hne [m] p (by simpa using hp)
            obtain ⟨y, s, hy, rfl⟩ := hne ms q hq
            have : x ≠ y := by
              rintro rfl
              simp only [List.map_cons, List.map_nil, List.mem_singleton] at hx
              exact hmem.1 (hx ▸ hy)
            refine ⟨by simp [this], ?_⟩
            rw [List.cons_prefix_cons]
            simp [Ne.symm this]
      · intro p hp q hq
        obtain ⟨y, s, _, rfl⟩ := hne _ q hq
        split at hp
        · simp only [List.mem_singleton] at hp
          subst hp
          simp
        · cases hp

/-- `struct String {…}`, `impl Drop for String`, `struct Vec<T> {…}`, `impl Drop for Vec<T>`, `struct A { s: String; v: Vec<int>; }`,
`struct B { a: A; t: String; n: int; }`. -/
def sample : List Item :=
  [.decl ⟨"String".toList, .struct, [("p".toList, .ptr)]⟩, .impl "String".toList,
   .decl ⟨"Vec".toList, .struct, [("p".toList, .ptr)]⟩, .impl "Vec".toList,
   .inst ⟨"Vec_int".toList, .struct, [("p".toList, .ptr)]⟩ "Vec".toList,
   .decl ⟨"A".toList, .struct, [("s".toList, .named "String".toList), ("v".toList, .named "Vec_int".toList)]⟩,
   .decl ⟨"B".toList, .struct, [("a".toList, .named "A".toList), ("t".toList, .named "String".toList), ("n".toList, .scalar)]⟩]

/-- The strings and the vector of a variable of type `B` are destroyed, in the order of the members. -/
example : destroy (final sample) 5 (.named "B".toList) =
    [[.member "a".toList, .member "s".toList], [.member "a".toList, .member "v".toList], [.member "t".toList]] := by decide +kernel

end Verif.DropGlue
