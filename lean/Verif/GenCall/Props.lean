import Verif.GenCall.Model
import Verif.GenBody.Lemmas

/-! # Instances of generic functions (C165) -/

namespace Verif.GenCall

open Generics (Name isIdent sanitize)
open GenBody (mangledPart)
open GenBody.Spec (segs inName)
open Spec

/-! ## names -/

theorem sanitizeChar_ident (x : Char) : ∀ y ∈ Generics.sanitizeChar x, isIdent y = true := by
  intro y hy
  unfold Generics.sanitizeChar at hy
  split at hy
  · revert y; decide
  · split at hy
    · revert y; decide
    · split at hy
      · cases hy
      · split at hy
        · rename_i h; simp at hy; subst hy; exact h
        · revert y; decide

theorem sanitize_ident (s : Name) : ∀ y ∈ sanitize s, isIdent y = true := by
  intro y hy
  unfold sanitize at hy
  obtain ⟨x, _, hx⟩ := List.mem_flatMap.mp hy
  exact sanitizeChar_ident x y hx

theorem sanitize_self {s : Name} (h : ∀ x ∈ s, isIdent x = true) : sanitize s = s := by
  have hk : Generics.structKw.isPrefixOf s = false := by
    cases hb : Generics.structKw.isPrefixOf s with
    | false => rfl
    | true =>
      obtain ⟨t, rfl⟩ := List.isPrefixOf_iff_prefix.mp hb
      have := h ' ' (by simp [Generics.structKw])
      exact absurd this (by decide)
  unfold sanitize
  rw [hk]
  show s.flatMap Generics.sanitizeChar = s
  clear hk
  induction s with
  | nil => rfl
  | cons x s ih =>
    rw [List.flatMap_cons, ih (fun y hy => h y (by simp [hy]))]
    have hx := h x (by simp)
    have : Generics.sanitizeChar x = [x] := by
      unfold Generics.sanitizeChar
      rw [if_neg, if_neg, if_neg, if_pos hx]
      · rintro (rfl | rfl) <;> exact absurd hx (by decide)
      · rintro (rfl | rfl | rfl) <;> exact absurd hx (by decide)
      · rintro rfl; exact absurd hx (by decide)
    rw [this]; rfl

theorem mangled_ident {p c w : Name} (hp0 : p ≠ []) (hp : GenBody.Plain p) (hw : ∀ x ∈ w, isIdent x = true) : mangledPart p c 0 none w = inName p c w := by
  have := GenBody.mangled_word (c := c) hp0 hp hw (prev := none) rfl (r := []) rfl
  simpa [mangledPart] using this

/-- The name of an instance. -/
def iname (f c : Name) : Name := f ++ '_' :: sanitize c

section
variable {D : List Decl} (hF : Fine D)
include hF

theorem plain_param {t : Tpl} (ht : Decl.tpl t ∈ D) : t.param ≠ [] ∧ GenBody.Plain t.param := by
  obtain ⟨h1, h2, h3⟩ := hF.param t ht
  exact ⟨h1, fun x hx => ⟨h2 x hx, fun e => h3 (e ▸ hx)⟩⟩

/-- The name of a call with the parameter, in the copy. -/
theorem name_param {t u : Tpl} (ht : Decl.tpl t ∈ D) (hu : Decl.tpl u ∈ D) (c : Name) :
    mangledPart t.param (sanitize c) 0 none (Item.call u.name t.param).name = iname u.name c := by
  obtain ⟨h1, h2, h3⟩ := hF.param t ht
  have hs : sanitize t.param = t.param := sanitize_self h2
  show mangledPart t.param (sanitize c) 0 none (u.name ++ '_' :: sanitize t.param) = _
  rw [mangled_ident h1 (plain_param hF ht).2, hs, GenBody.inName_us, GenBody.inAll_us, GenBody.inAll_same (hF.apart t u ht hu), GenBody.inAll_self h3]
  · rfl
  · intro x hx
    rcases List.mem_append.mp hx with hx | hx
    · exact hF.ident u hu x hx
    · rcases List.mem_cons.mp hx with rfl | hx
      · rfl
      · exact sanitize_ident _ x hx

/-- The name of a call with a type, in the copy. -/
theorem name_typed {t u : Tpl} (ht : Decl.tpl t ∈ D) (hu : Decl.tpl u ∈ D) {d : Name} (hd : Used D d) (c : Name) :
    mangledPart t.param (sanitize c) 0 none (Item.call u.name d).name = iname u.name d := by
  obtain ⟨h1, h2, h3⟩ := hF.param t ht
  show mangledPart t.param (sanitize c) 0 none (u.name ++ '_' :: sanitize d) = _
  rw [mangled_ident h1 (plain_param hF ht).2, GenBody.inName_us, GenBody.inAll_us, GenBody.inAll_same (hF.apart t u ht hu), GenBody.inAll_same (hF.plain d t hd ht)]
  · rfl
  · intro x hx
    rcases List.mem_append.mp hx with hx | hx
    · exact hF.ident u hu x hx
    · rcases List.mem_cons.mp hx with rfl | hx
      · rfl
      · exact sanitize_ident _ x hx

theorem iname_inj {t u : Tpl} (ht : Decl.tpl t ∈ D) (hu : Decl.tpl u ∈ D) {c d : Name} (hc : Used D c) (hd : Used D d)
    (h : iname t.name c = iname u.name d) : t.name = u.name ∧ c = d := by
  have h1 : t.name = u.name := by
    apply hF.clear t u d ht hu hd
    refine ⟨sanitize c, ?_⟩
    have : t.name ++ '_' :: sanitize c = u.name ++ '_' :: sanitize d := h
    rw [← this]; simp
  refine ⟨h1, ?_⟩
  unfold iname at h
  rw [h1] at h
  have h2 := List.append_cancel_left h
  injection h2 with _ h3
  rw [← hF.undone c hc, ← hF.undone d hd, h3]

theorem template_iname {ts : List Tpl} (hts : ∀ t ∈ ts, Decl.tpl t ∈ D) {u : Tpl} (hu : u ∈ ts) {c : Name} (hc : Used D c) :
    ∃ t, template ts (iname u.name c) = some t ∧ t.name = u.name := by
  have hcont : (iname u.name c).contains '_' = true := by simp [iname]
  have hp : (u.name ++ ['_']).isPrefixOf (iname u.name c) = true := by
    rw [List.isPrefixOf_iff_prefix]; exact ⟨sanitize c, by simp [iname]⟩
  obtain ⟨t, ht⟩ : ∃ t, ts.find? (fun t => (t.name ++ ['_']).isPrefixOf (iname u.name c)) = some t := by
    cases hf : ts.find? (fun t => (t.name ++ ['_']).isPrefixOf (iname u.name c)) with
    | some t => exact ⟨t, rfl⟩
    | none => exact absurd hp (by simpa using List.find?_eq_none.mp hf u hu)
  refine ⟨t, by rw [template, if_pos hcont, ht], ?_⟩
  have h1 := List.find?_some ht
  have h2 := List.mem_of_find?_eq_some ht
  exact hF.clear t u c (hts t h2) (hts u hu) hc (List.isPrefixOf_iff_prefix.mp h1)

theorem generic_none {c : Name} (hc : Used D c) : stillGeneric [] (sanitize c) = false := by
  have h := hF.concrete c hc
  unfold stillGeneric
  match hs : sanitize c with
  | [] => rfl
  | [x] =>
    have := h x hs
    simp only [List.contains_nil, Bool.or_false]
    rw [Bool.eq_false_iff]
    intro hq
    simp only [Bool.and_eq_true, decide_eq_true_eq] at hq
    exact this hq
  | _ :: _ :: _ => rfl

theorem generic_param {t : Tpl} (ht : Decl.tpl t ∈ D) {c : Name} (hc : Used D c) : stillGeneric [t.param] (sanitize c) = false := by
  have h1 := generic_none hF hc
  have h2 := hF.plain c t hc ht
  have h3 := (hF.param t ht).2.2
  unfold stillGeneric at h1 ⊢
  rw [Bool.or_eq_false_iff] at h1 ⊢
  refine ⟨h1.1, ?_⟩
  rw [Bool.eq_false_iff]
  intro hm
  simp at hm
  rw [hm, GenBody.segs_self h3] at h2
  exact h2 (by simp)

end

theorem Spec.Needs.used {D : List Decl} {f c : Name} (h : Needs D f c) : Used D c := by
  induction h with
  | fn h1 h2 => exact .inl ⟨_, _, _, h1, h2⟩
  | typed h1 h2 h3 => exact .inr ⟨_, _, h1, h2, h3⟩
  | param _ _ _ ih => exact ih

/-! ## invariant -/

/-- The generic functions so far. -/
structure TsOK (D : List Decl) (ts : List Tpl) : Prop where
  mem : ∀ t ∈ ts, Decl.tpl t ∈ D
  nodup : (ts.map (·.name)).Nodup
  ranked : ∀ pre t post, ts = pre ++ t :: post → ∀ c ∈ t.calls, ∃ u ∈ post, u.name = c.1

/-- There is an instance. -/
def Has (S : St) (f c : Name) : Prop := ∃ i ∈ S.insts, i.tpl = f ∧ i.arg = c

structure Inv (D : List Decl) (ts : List Tpl) (S : St) : Prop where
  tpls : S.tpls = ts
  insts : ∀ i ∈ S.insts, Needs D i.tpl i.arg ∧ i.name = iname i.tpl i.arg ∧ ∃ t ∈ ts, t.name = i.tpl
  reg : ∀ i ∈ S.insts, i.name ∈ S.funcs
  funcs : ∀ m ∈ S.funcs, (∃ calls, Decl.fn m calls ∈ D) ∨ ∃ i ∈ S.insts, i.name = m
  closed : ∀ i ∈ S.insts, ∀ t ∈ ts, t.name = i.tpl → ∀ g, (g, t.param) ∈ t.calls → Has S g i.arg
  typed : ∀ t ∈ ts, ∀ g c, (g, c) ∈ t.calls → c ≠ t.param → Has S g c
  nodup : (S.insts.map (·.name)).Nodup

/-- Nothing gets lost, and what is new belongs to the given functions. -/
structure Grows (S S' : St) (fs : List Name) : Prop where
  old : ∀ i ∈ S.insts, i ∈ S'.insts
  new : ∀ i ∈ S'.insts, i ∈ S.insts ∨ i.tpl ∈ fs

theorem Grows.refl (S : St) (fs : List Name) : Grows S S fs := ⟨fun _ h => h, fun _ h => .inl h⟩

theorem Grows.trans {S S' S'' : St} {fs gs hs : List Name} (h : Grows S S' fs) (h' : Grows S' S'' gs) (hf : ∀ x ∈ fs, x ∈ hs) (hg : ∀ x ∈ gs, x ∈ hs) : Grows S S'' hs :=
  ⟨fun i hi => h'.old i (h.old i hi), fun i hi => by
    rcases h'.new i hi with h1 | h1
    · rcases h.new i h1 with h2 | h2
      · exact .inl h2
      · exact .inr (hf _ h2)
    · exact .inr (hg _ h1)⟩

theorem Grows.has {S S' : St} {fs : List Name} (h : Grows S S' fs) {f c : Name} (hh : Has S f c) : Has S' f c := by
  obtain ⟨i, hi, h1⟩ := hh
  exact ⟨i, h.old i hi, h1⟩

theorem name_unique {ts : List Tpl} (h : (ts.map (·.name)).Nodup) {t u : Tpl} (ht : t ∈ ts) (hu : u ∈ ts) (he : t.name = u.name) : t = u := by
  induction ts with
  | nil => cases ht
  | cons x ts ih =>
    rw [List.map_cons, List.nodup_cons] at h
    rcases List.mem_cons.mp ht with rfl | ht' <;> rcases List.mem_cons.mp hu with rfl | hu'
    · rfl
    · exact absurd (List.mem_map.mpr ⟨u, hu', he.symm⟩) h.1
    · exact absurd (List.mem_map.mpr ⟨t, ht', he⟩) h.1
    · exact ih h.2 ht' hu'

theorem mem_calls {t : Tpl} {g c : Name} : (g, c) ∈ t.calls ↔ ∃ r ∈ t.refs, r.item = .call g c := by
  unfold Tpl.calls
  rw [List.mem_filterMap]
  constructor
  · rintro ⟨r, hr, he⟩
    refine ⟨r, hr, ?_⟩
    cases hi : r.item with
    | call g' c' => rw [hi] at he; simp at he; rw [he.1, he.2]
    | var n => rw [hi] at he; simp at he
  · rintro ⟨r, hr, he⟩
    exact ⟨r, hr, by rw [he]⟩

/-- The state after an instance was added. -/
theorem Inv.add {D : List Decl} (hF : Fine D) {ts : List Tpl} (hts : TsOK D ts) {S : St} (hi : Inv D ts S) {t : Tpl} (ht : t ∈ ts) {c : Name}
    (hn : Needs D t.name c) (hno : ¬ Has S t.name c) (hcl : ∀ g, (g, t.param) ∈ t.calls → Has S g c) :
    Inv D ts ⟨S.tpls, iname t.name c :: S.funcs, S.insts ++ [⟨iname t.name c, t.name, c⟩]⟩ := by
  have hhas : ∀ {g d}, Has S g d → Has ⟨S.tpls, iname t.name c :: S.funcs, S.insts ++ [⟨iname t.name c, t.name, c⟩]⟩ g d := by
    rintro g d ⟨i, h1, h2⟩
    exact ⟨i, List.mem_append_left _ h1, h2⟩
  refine ⟨hi.tpls, fun i h => ?_, fun i h => ?_, fun m h => ?_, fun i h u hu he g hg => ?_, fun u hu g d h1 h2 => hhas (hi.typed u hu g d h1 h2), ?_⟩
  · rcases List.mem_append.mp h with h | h
    · exact hi.insts i h
    · simp at h; subst h
      exact ⟨hn, rfl, t, ht, rfl⟩
  · rcases List.mem_append.mp h with h | h
    · exact List.mem_cons_of_mem _ (hi.reg i h)
    · simp at h; subst h; simp
  · rcases List.mem_cons.mp h with rfl | h
    · exact .inr ⟨⟨iname t.name c, t.name, c⟩, List.mem_append_right _ (List.mem_singleton.mpr rfl), rfl⟩
    · rcases hi.funcs m h with h | ⟨i, h1, h2⟩
      · exact .inl h
      · exact .inr ⟨i, List.mem_append_left _ h1, h2⟩
  · rcases List.mem_append.mp h with h | h
    · exact hhas (hi.closed i h u hu he g hg)
    · simp at h; subst h
      have : u = t := name_unique hts.nodup hu ht he
      subst this
      exact hhas (hcl g hg)
  · rw [List.map_append, List.nodup_append]
    refine ⟨hi.nodup, by simp, ?_⟩
    intro a ha b hb hab
    simp at hb
    subst hb
    obtain ⟨i, h1, h2⟩ := List.mem_map.mp ha
    obtain ⟨h3, h4, u, hu, h5⟩ := hi.insts i h1
    have h6 : iname u.name i.arg = iname t.name c := by rw [h5, ← h4, h2, hab]
    obtain ⟨h7, h8⟩ := iname_inj hF (hts.mem u hu) (hts.mem t ht) h3.used hn.used h6
    exact hno ⟨i, h1, by rw [← h5, h7], h8⟩

theorem not_has_funcs {D : List Decl} (hF : Fine D) {ts : List Tpl} (hts : TsOK D ts) {S : St} (hi : Inv D ts S) {t : Tpl} (ht : t ∈ ts) {c : Name} (hc : Used D c) :
    iname t.name c ∈ S.funcs ↔ Has S t.name c := by
  constructor
  · intro h
    rcases hi.funcs _ h with ⟨calls, h1⟩ | ⟨i, h1, h2⟩
    · exact absurd rfl (hF.own t _ calls c (hts.mem t ht) h1 hc)
    · obtain ⟨h3, h4, u, hu, h5⟩ := hi.insts i h1
      have h6 : iname u.name i.arg = iname t.name c := by rw [h5, ← h4, h2]
      obtain ⟨h7, h8⟩ := iname_inj hF (hts.mem u hu) (hts.mem t ht) h3.used hc h6
      exact ⟨i, h1, by rw [← h5, h7], h8⟩
  · rintro ⟨i, h1, h2, h3⟩
    have := hi.reg i h1
    rw [(hi.insts i h1).2.1, h2, h3] at this
    exact this

/-- One call makes its instance, with all that it needs. -/
theorem inst_ok {D : List Decl} (hF : Fine D) {ts : List Tpl} (hts : TsOK D ts) {known : List Name}
    (hk : ∀ c, Used D c → stillGeneric known (sanitize c) = false) :
    ∀ (n : Nat) (pre : List Tpl) (t : Tpl) (post : List Tpl), ts = pre ++ t :: post → post.length < n → ∀ (S : St), Inv D ts S →
      ∀ (c c' : Name), sanitize c' = sanitize c → Needs D t.name c →
      ∃ S', inst known n S t.name c' c = some S' ∧ Inv D ts S' ∧ Grows S S' ((t :: post).map (·.name)) ∧ Has S' t.name c := by
  intro n
  induction n with
  | zero => intro pre t post _ h; omega
  | succ n ih =>
    intro pre t post hsplit hlen S hi c c' hcc hn
    have ht : t ∈ ts := by rw [hsplit]; simp
    have htD := hts.mem t ht
    have hc := hn.used
    have hfind : S.tpls.find? (fun x => x.name = t.name) = some t := by
      rw [hi.tpls]
      cases hf : ts.find? (fun x => decide (x.name = t.name)) with
      | none => exact absurd (List.find?_eq_none.mp hf t ht) (by simp)
      | some u =>
        have h1 := List.find?_some hf
        have h2 := List.mem_of_find?_eq_some hf
        rw [name_unique hts.nodup h2 ht (by simpa using h1)]
    rw [inst, hfind]
    simp only [hcc, hk c hc, Bool.false_eq_true, if_false]
    by_cases hhas : Has S t.name c
    · have : S.funcs.contains (t.name ++ '_' :: sanitize c) = true := List.contains_iff_mem.mpr ((not_has_funcs hF hts hi ht hc).mpr hhas)
      rw [if_pos this]
      exact ⟨S, rfl, hi, Grows.refl _ _, hhas⟩
    · have : ¬ S.funcs.contains (t.name ++ '_' :: sanitize c) = true := fun h => hhas ((not_has_funcs hF hts hi ht hc).mp (List.contains_iff_mem.mp h))
      rw [if_neg this]
      -- the names in the body
      have key : ∀ (rs : List Ref), (∀ r ∈ rs, r ∈ t.refs) → ∀ (S : St), Inv D ts S →
          ∃ S', (rs.map fun r => mangledPart t.param (sanitize c) 0 none r.item.name).foldlM (fun (st' : St) m =>
            match template st'.tpls m with
            | none => some st'
            | some t' => inst known n st' t'.name (m.drop (t'.name.length + 1)) (unmangle (m.drop (t'.name.length + 1)))) S = some S' ∧
            Inv D ts S' ∧ Grows S S' (post.map (·.name)) ∧ ∀ r ∈ rs, ∀ g, r.item = .call g t.param → Has S' g c := by
        intro rs
        induction rs with
        | nil => intro _ S hi; exact ⟨S, rfl, hi, Grows.refl _ _, by simp⟩
        | cons r rs ihr =>
          intro hsub S hi
          have hr : r ∈ t.refs := hsub r (by simp)
          -- a call of a known function
          have hcall : ∀ (g d : Name), (∃ x, (g, x) ∈ t.calls) → Needs D g d →
              mangledPart t.param (sanitize c) 0 none r.item.name = iname g d →
              ∃ S1, (match template S.tpls (mangledPart t.param (sanitize c) 0 none r.item.name) with
                | none => some S
                | some t' => inst known n S t'.name ((mangledPart t.param (sanitize c) 0 none r.item.name).drop (t'.name.length + 1))
                    (unmangle ((mangledPart t.param (sanitize c) 0 none r.item.name).drop (t'.name.length + 1)))) = some S1 ∧
                Inv D ts S1 ∧ Grows S S1 (post.map (·.name)) ∧ Has S1 g d := by
            rintro g d ⟨x, hx⟩ hnd hname
            obtain ⟨u, hu, hug⟩ := hts.ranked pre t post hsplit _ hx
            simp only at hug
            have huts : u ∈ ts := by rw [hsplit]; simp [hu]
            obtain ⟨pre', post', hpost⟩ := List.append_of_mem hu
            obtain ⟨t', ht', hte⟩ := template_iname hF hts.mem huts hnd.used
            rw [hname, hi.tpls, ← hug, ht']
            simp only
            have hdrop : (iname u.name d).drop (t'.name.length + 1) = sanitize d := by
              rw [hte]
              unfold iname
              rw [show u.name ++ '_' :: sanitize d = (u.name ++ ['_']) ++ sanitize d by simp, List.drop_left' (by simp)]
            rw [hdrop, hF.undone d hnd.used, hte]
            have hnd' : Needs D u.name d := by rw [hug]; exact hnd
            obtain ⟨S1, h1, h2, h3, h4⟩ := ih (pre ++ t :: pre') u post' (by rw [hsplit, hpost]; simp) (by rw [hpost] at hlen; simp at hlen; omega) S hi d (sanitize d)
              (sanitize_self (sanitize_ident d)) hnd'
            refine ⟨S1, h1, h2, ⟨h3.old, fun i hii => ?_⟩, h4⟩
            rcases h3.new i hii with h | h
            · exact .inl h
            · refine .inr ?_
              rw [hpost, List.map_append]
              exact List.mem_append_right _ h
          have hstep : ∃ S1, (match template S.tpls (mangledPart t.param (sanitize c) 0 none r.item.name) with
                | none => some S
                | some t' => inst known n S t'.name ((mangledPart t.param (sanitize c) 0 none r.item.name).drop (t'.name.length + 1))
                    (unmangle ((mangledPart t.param (sanitize c) 0 none r.item.name).drop (t'.name.length + 1)))) = some S1 ∧
                Inv D ts S1 ∧ Grows S S1 (post.map (·.name)) ∧ ∀ g, r.item = .call g t.param → Has S1 g c := by
            cases hit : r.item with
            | call g x =>
              have hx : (g, x) ∈ t.calls := mem_calls.mpr ⟨r, hr, hit⟩
              obtain ⟨u, hu, hug⟩ := hts.ranked pre t post hsplit _ hx
              simp only at hug
              have huD : Decl.tpl u ∈ D := hts.mem u (by rw [hsplit]; simp [hu])
              by_cases hxp : x = t.param
              · subst hxp
                have hname := name_param hF htD huD c
                rw [hug] at hname
                obtain ⟨S1, h1, h2, h3, h4⟩ := hcall g c ⟨_, hx⟩ (.param htD hn hx) (by rw [hit]; exact hname)
                rw [hit] at h1
                exact ⟨S1, h1, h2, h3, fun g' hg' => by cases hg'; exact h4⟩
              · have hxu : Used D x := .inr ⟨t, g, htD, hx, hxp⟩
                have hname := name_typed hF htD huD hxu c
                rw [hug] at hname
                obtain ⟨S1, h1, h2, h3, h4⟩ := hcall g x ⟨_, hx⟩ (.typed htD hx hxp) (by rw [hit]; exact hname)
                rw [hit] at h1
                exact ⟨S1, h1, h2, h3, fun g' hg' => by cases hg'; exact absurd rfl hxp⟩
            | var v =>
              have hnone : template S.tpls (mangledPart t.param (sanitize c) 0 none v) = none := by
                unfold template
                split
                · rw [hi.tpls, List.find?_eq_none]
                  intro u hu hp
                  exact hF.vars t u r v c htD (hts.mem u hu) hr hit hc (List.isPrefixOf_iff_prefix.mp hp)
                · rfl
              refine ⟨S, ?_, hi, Grows.refl _ _, by simp⟩
              show (match template S.tpls (mangledPart t.param (sanitize c) 0 none v) with | none => some S | some t' => _) = some S
              rw [hnone]
          obtain ⟨S1, h1, h2, h3, h4⟩ := hstep
          obtain ⟨S2, h5, h6, h7, h8⟩ := ihr (fun q hq => hsub q (by simp [hq])) S1 h2
          refine ⟨S2, ?_, h6, h3.trans h7 (fun _ h => h) (fun _ h => h), fun q hq g hg => ?_⟩
          · rw [List.map_cons, List.foldlM_cons, h1]
            exact h5
          · rcases List.mem_cons.mp hq with rfl | hq
            · exact h7.has (h4 g hg)
            · exact h8 q hq g hg
      obtain ⟨S1, h1, h2, h3, h4⟩ := key (t.refs.filter fun r => r.path.all entered) (fun r hr => (List.mem_filter.mp hr).1) S hi
      refine ⟨⟨S1.tpls, iname t.name c :: S1.funcs, S1.insts ++ [⟨iname t.name c, t.name, c⟩]⟩, ?_, ?_, ⟨?_, ?_⟩, ⟨⟨iname t.name c, t.name, c⟩, List.mem_append_right _ (List.mem_singleton.mpr rfl), rfl, rfl⟩⟩
      · exact congrArg (Option.map fun (st' : St) => St.mk st'.tpls ((t.name ++ '_' :: sanitize c) :: st'.funcs) (st'.insts ++ [Inst.mk (t.name ++ '_' :: sanitize c) t.name c])) h1
      · refine h2.add hF hts ht hn ?_ fun g hg => ?_
        · rintro ⟨i, hi1, hi2, hi3⟩
          rcases h3.new i hi1 with h | h
          · exact hhas ⟨i, h, hi2, hi3⟩
          · have hnd := hts.nodup
            rw [hsplit, List.map_append, List.map_cons, List.nodup_append, List.nodup_cons] at hnd
            rw [hi2] at h
            exact hnd.2.1.1 h
        · obtain ⟨r, hr, he⟩ := mem_calls.mp hg
          exact h4 r (List.mem_filter.mpr ⟨hr, hF.visible t r g htD hr he⟩) g he
      · exact fun i hi' => List.mem_append_left _ (h3.old i hi')
      · intro i hi'
        rcases List.mem_append.mp hi' with h | h
        · rcases h3.new i h with h | h
          · exact .inl h
          · exact .inr (by simp only [List.map_cons]; exact List.mem_cons_of_mem _ h)
        · simp at h; subst h
          exact .inr (by simp)

/-! ## programs -/

/-- The calls of one definition. -/
theorem uses_ok {D : List Decl} (hF : Fine D) {ts : List Tpl} (hts : TsOK D ts) {known : List Name}
    (hk : ∀ c, Used D c → stillGeneric known (sanitize c) = false) {fuel : Nat} (hfuel : ts.length < fuel) :
    ∀ (calls : List (Name × Name)), (∀ x ∈ calls, x.1 ∈ ts.map (·.name)) →
      (∀ x ∈ calls, Needs D x.1 x.2 ∨ stillGeneric known (sanitize x.2) = true) → ∀ (S : St), Inv D ts S →
      ∃ S', calls.foldlM (fun st' c => useCall known fuel st' c.1 c.2) S = some S' ∧ Inv D ts S' ∧ Grows S S' (ts.map (·.name)) ∧
        ∀ x ∈ calls, stillGeneric known (sanitize x.2) = false → Has S' x.1 x.2 := by
  intro calls
  induction calls with
  | nil => intro _ _ S hi; exact ⟨S, rfl, hi, Grows.refl _ _, by simp⟩
  | cons x calls ih =>
    intro h1 h2 S hi
    obtain ⟨t, ht, hte⟩ := List.mem_map.mp (h1 x (by simp))
    have hany : (S.tpls.any fun y => y.name = x.1) = true := by rw [hi.tpls, List.any_eq_true]; exact ⟨t, ht, by simpa using hte⟩
    have hstep : ∃ S1, useCall known fuel S x.1 x.2 = some S1 ∧ Inv D ts S1 ∧ Grows S S1 (ts.map (·.name)) ∧ (stillGeneric known (sanitize x.2) = false → Has S1 x.1 x.2) := by
      unfold useCall
      rw [if_pos hany]
      rcases h2 x (by simp) with hn | hg
      · obtain ⟨pre, post, hsplit⟩ := List.append_of_mem ht
        obtain ⟨S1, h3, h4, h5, h6⟩ := inst_ok hF hts hk fuel pre t post hsplit (by rw [hsplit] at hfuel; simp at hfuel; omega) S hi x.2 x.2 rfl (by rw [hte]; exact hn)
        rw [hte] at h3 h6
        refine ⟨S1, h3, h4, ⟨h5.old, fun i hii => ?_⟩, fun _ => h6⟩
        rcases h5.new i hii with h | h
        · exact .inl h
        · refine .inr ?_
          rw [hsplit, List.map_append]
          exact List.mem_append_right _ h
      · refine ⟨S, ?_, hi, Grows.refl _ _, fun h => by rw [hg] at h; cases h⟩
        obtain ⟨m, rfl⟩ : ∃ m, fuel = m + 1 := ⟨fuel - 1, by omega⟩
        rw [inst]
        split
        · rfl
        · rw [if_pos hg]
    obtain ⟨S1, h3, h4, h5, h6⟩ := hstep
    obtain ⟨S2, h7, h8, h9, h10⟩ := ih (fun y hy => h1 y (by simp [hy])) (fun y hy => h2 y (by simp [hy])) S1 h4
    refine ⟨S2, ?_, h8, h5.trans h9 (fun _ h => h) (fun _ h => h), fun y hy hg => ?_⟩
    · rw [List.foldlM_cons, h3]; exact h7
    · rcases List.mem_cons.mp hy with rfl | hy
      · exact h9.has (h6 hg)
      · exact h10 y hy hg

theorem run_ok {D : List Decl} (hF : Fine D) {fuel : Nat} (hfuel : D.length < fuel) :
    ∀ (rest done : List Decl), D = done ++ rest → ∀ (ts : List Tpl) (S : St), TsOK D ts → (∀ t, Decl.tpl t ∈ done ↔ t ∈ ts) → ts.length ≤ done.length → Inv D ts S →
      (∀ n calls, Decl.fn n calls ∈ done → ∀ x ∈ calls, Has S x.1 x.2) → Ordered (ts.map (·.name)) rest →
      ∃ S' ts', rest.foldlM (declare fuel) S = some S' ∧ TsOK D ts' ∧ Inv D ts' S' ∧ (∀ t, Decl.tpl t ∈ D ↔ t ∈ ts') ∧
        ∀ n calls, Decl.fn n calls ∈ D → ∀ x ∈ calls, Has S' x.1 x.2 := by
  intro rest
  induction rest with
  | nil =>
    intro done hD ts S hts hmem _ hi hfn _
    rw [List.append_nil] at hD
    subst hD
    exact ⟨S, ts, rfl, hts, hi, hmem, hfn⟩
  | cons d rest ih =>
    intro done hD ts S hts hmem hlen hi hfn hord
    have hD' : D = (done ++ [d]) ++ rest := by rw [hD]; simp
    have hdD : d ∈ D := by rw [hD]; simp
    have hle : ts.length < fuel := by rw [hD] at hfuel; simp at hfuel; omega
    cases d with
    | tpl t =>
      obtain ⟨h1, h2, h3⟩ := hord
      have hgen : stillGeneric [t.param] (sanitize t.param) = true := by
        rw [sanitize_self (hF.param t hdD).2.1]
        simp [stillGeneric]
      obtain ⟨S1, h4, h5, h6, h7⟩ := uses_ok hF hts (known := [t.param]) (fun c hc => generic_param hF hdD hc) hle t.calls h1 (fun x hx => by
        by_cases hxp : x.2 = t.param
        · right; rw [hxp]; exact hgen
        · left; exact .typed hdD hx hxp) S hi
      have hts' : TsOK D (t :: ts) := by
        refine ⟨fun u hu => ?_, ?_, fun pre u post he c hc => ?_⟩
        · rcases List.mem_cons.mp hu with rfl | hu
          · exact hdD
          · exact hts.mem u hu
        · rw [List.map_cons, List.nodup_cons]; exact ⟨h2, hts.nodup⟩
        · cases pre with
          | nil =>
            simp at he
            obtain ⟨rfl, rfl⟩ := he
            obtain ⟨v, hv, hve⟩ := List.mem_map.mp (h1 c hc)
            exact ⟨v, hv, hve⟩
          | cons p pre =>
            simp at he
            exact hts.ranked pre u post he.2 c hc
      have hi' : Inv D (t :: ts) ⟨t :: S1.tpls, S1.funcs, S1.insts⟩ := by
        refine ⟨by rw [h5.tpls], fun i h => ?_, h5.reg, h5.funcs, fun i h u hu he g hg => ?_, fun u hu g c hg hc => ?_, h5.nodup⟩
        · obtain ⟨a, b, u, hu, e⟩ := h5.insts i h
          exact ⟨a, b, u, List.mem_cons_of_mem _ hu, e⟩
        · rcases List.mem_cons.mp hu with rfl | hu
          · obtain ⟨_, _, v, hv, e⟩ := h5.insts i h
            exact absurd (List.mem_map.mpr ⟨v, hv, by rw [e, he]⟩) h2
          · exact h5.closed i h u hu he g hg
        · rcases List.mem_cons.mp hu with rfl | hu
          · exact h7 (g, c) hg (generic_param hF hdD (.inr ⟨_, g, hdD, hg, hc⟩))
          · exact h5.typed u hu g c hg hc
      obtain ⟨S2, ts2, h8, h9⟩ := ih (done ++ [.tpl t]) hD' (t :: ts) ⟨t :: S1.tpls, S1.funcs, S1.insts⟩ hts' (fun u => by
          rw [List.mem_append, hmem u]; simp [or_comm]) (by simp; omega) hi' (fun n calls hm x hx => by
          rcases List.mem_append.mp hm with hm | hm
          · exact h6.has (hfn n calls hm x hx)
          · simp at hm) h3
      refine ⟨S2, ts2, ?_, h9⟩
      rw [List.foldlM_cons, declare, h4]
      exact h8
    | fn n calls =>
      obtain ⟨h1, h3⟩ := hord
      have hi0 : Inv D ts ⟨S.tpls, n :: S.funcs, S.insts⟩ := by
        refine ⟨hi.tpls, hi.insts, fun i h => List.mem_cons_of_mem _ (hi.reg i h), fun m hm => ?_, hi.closed, hi.typed, hi.nodup⟩
        rcases List.mem_cons.mp hm with rfl | hm
        · exact .inl ⟨calls, hdD⟩
        · exact hi.funcs m hm
      obtain ⟨S1, h4, h5, h6, h7⟩ := uses_ok hF hts (known := []) (fun c hc => generic_none hF hc) hle calls h1 (fun x hx => .inl (.fn hdD hx)) _ hi0
      obtain ⟨S2, ts2, h8, h9⟩ := ih (done ++ [.fn n calls]) hD' ts S1 hts (fun u => by
          rw [List.mem_append, hmem u]; simp) (by simp; omega) h5 (fun m cs hm x hx => by
          rcases List.mem_append.mp hm with hm | hm
          · exact h6.has (hfn m cs hm x hx)
          · simp at hm
            obtain ⟨rfl, rfl⟩ := hm
            exact h7 x hx (generic_none hF (.inl ⟨_, _, _, hdD, hx⟩))) h3
      refine ⟨S2, ts2, ?_, h9⟩
      rw [List.foldlM_cons, declare, h4]
      exact h8

/-- C165 (partial): for the given programs the compiler ends, and makes exactly the instances that the program needs, each once under its own name and with
its own type.  Missing: the programs of the theorems in `Limits`. -/
theorem instances_partial {D : List Decl} (hF : Fine D) {fuel : Nat} (hfuel : D.length < fuel) :
    ∃ S, run fuel D = some S ∧ (∀ f c, Needs D f c ↔ ∃ i ∈ S.insts, i.tpl = f ∧ i.arg = c) ∧ (S.insts.map (·.name)).Nodup ∧
      ∀ i ∈ S.insts, i.name = i.tpl ++ '_' :: sanitize i.arg ∧ ∃ t, Decl.tpl t ∈ D ∧ t.name = i.tpl := by
  obtain ⟨S, ts, h1, h2, h3, h4, h5⟩ := run_ok hF hfuel D [] rfl [] ⟨[], [], []⟩ ⟨by simp, by simp, by simp⟩ (by simp) (by simp)
    ⟨rfl, by simp, by simp, by simp, by simp, by simp, by simp⟩ (by simp) hF.ordered
  refine ⟨S, h1, fun f c => ⟨fun h => ?_, ?_⟩, h3.nodup, fun i hi => ?_⟩
  · induction h with
    | fn ha hb => exact h5 _ _ ha _ hb
    | typed ha hb hc => exact h3.typed _ ((h4 _).mp ha) _ _ hb hc
    | param ha _ hc ih =>
      obtain ⟨i, hi, he, hr⟩ := ih
      obtain ⟨j, hj, hj1, hj2⟩ := h3.closed i hi _ ((h4 _).mp ha) he.symm _ hc
      exact ⟨j, hj, hj1, by rw [hj2, hr]⟩
  · rintro ⟨i, hi, rfl, rfl⟩
    exact (h3.insts i hi).1
  · obtain ⟨_, b, t, ht, e⟩ := h3.insts i hi
    exact ⟨b, t, h2.mem t ht, e⟩

end Verif.GenCall
