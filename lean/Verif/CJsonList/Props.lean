import Verif.CJsonList.Lemmas

/-! # Lists of cJSON are lists (C164) -/

namespace Verif.CJsonList
open Spec

/-- All arrays are lists, no item is in two of them, and items in none point nowhere. -/
structure Inv (h : Heap) (A : Arrays) : Prop where
  rep : ∀ p, Rep h p (A p)
  disj : ∀ p q x, x ∈ A p → x ∈ A q → p = q
  free : ∀ x, Free A x → h.next x = none ∧ h.prev x = none

theorem Rep.frame {h h' : Heap} {p q : Nat} {ls ks : List Nat} (hr : Rep h q ks) (hf : Frame h h' p ls) (hq : q ≠ p) (hd : ∀ x ∈ ks, x ∉ ls) : Rep h' q ks :=
  ⟨by rw [hf.child q hq, hr.child], Fwd.congr (fun a ha => hf.next a (hd a ha)) hr.fwd, Bwd.congr (fun a ha => hf.prev a (hd a ha)) hr.bwd, hr.nodup⟩

theorem set_same (A : Arrays) (p : Nat) (ls : List Nat) : (A.set p ls) p = ls := if_pos rfl
theorem set_ne (A : Arrays) {p q : Nat} (ls : List Nat) (h : q ≠ p) : (A.set p ls) q = A q := if_neg h

/-- The invariant after a change of one array, by which an item may have come in and one may have gone out. -/
theorem Inv.update {h h' : Heap} {A : Arrays} (hi : Inv h A) {p : Nat} {ls : List Nat} {new : List Nat} (hr : Rep h' p ls) (hf : Frame h h' p (new ++ A p))
    (hnew : ∀ x ∈ new, Free A x) (hsub : ∀ x ∈ ls, x ∈ new ∨ x ∈ A p) (hin : ∀ x ∈ new, x ∈ ls)
    (hout : ∀ x ∈ A p, x ∉ ls → h'.next x = none ∧ h'.prev x = none) : Inv h' (A.set p ls) := by
  refine ⟨fun q => ?_, fun q q' x hx hx' => ?_, fun x hx => ?_⟩
  · by_cases hq : q = p
    · subst hq; rw [set_same]; exact hr
    · rw [set_ne A ls hq]
      refine (hi.rep q).frame hf hq fun x hx hm => ?_
      rcases List.mem_append.mp hm with hm | hm
      · exact hnew x hm q hx
      · exact hq (hi.disj q p x hx hm)
  · by_cases hq : q = p <;> by_cases hq' : q' = p
    · rw [hq, hq']
    · subst hq
      rw [set_same] at hx
      rw [set_ne A ls hq'] at hx'
      rcases hsub x hx with h1 | h1
      · exact absurd hx' (hnew x h1 q')
      · exact hi.disj _ _ x h1 hx'
    · subst hq'
      rw [set_same] at hx'
      rw [set_ne A ls hq] at hx
      rcases hsub x hx' with h1 | h1
      · exact absurd hx (hnew x h1 q)
      · exact hi.disj _ _ x hx h1
    · rw [set_ne A ls hq] at hx
      rw [set_ne A ls hq'] at hx'
      exact hi.disj _ _ x hx hx'
  · have hxl : x ∉ ls := by have := hx p; rwa [set_same] at this
    by_cases hxp : x ∈ A p
    · exact hout x hxp hxl
    · have hxn : x ∉ new := fun hm => hxl (hin x hm)
      have hxa : x ∉ new ++ A p := by simp [hxn, hxp]
      rw [hf.next x hxa, hf.prev x hxa]
      refine hi.free x fun q => ?_
      by_cases hq : q = p
      · subst hq; exact hxp
      · have := hx q; rwa [set_ne A ls hq] at this

theorem filter_mid {x : Nat} {as bs : List Nat} (h : (as ++ x :: bs).Nodup) : (as ++ x :: bs).filter (· ≠ x) = as ++ bs := by
  obtain ⟨_, h2, h3⟩ := List.nodup_append.mp h
  obtain ⟨h4, _⟩ := List.nodup_cons.mp h2
  rw [List.filter_append, List.filter_cons]
  simp only [ne_eq, not_true_eq_false, decide_false]
  rw [List.filter_eq_self.mpr, List.filter_eq_self.mpr]
  · simp
  · intro a ha; simp; rintro rfl; exact h4 ha
  · intro a ha; simp; rintro rfl; exact h3 a ha a (by simp) rfl

theorem map_mid {x r : Nat} {as bs : List Nat} (h : (as ++ x :: bs).Nodup) : (as ++ x :: bs).map (fun y => if y = x then r else y) = as ++ r :: bs := by
  obtain ⟨_, h2, h3⟩ := List.nodup_append.mp h
  obtain ⟨h4, _⟩ := List.nodup_cons.mp h2
  have hid : ∀ l : List Nat, x ∉ l → l.map (fun y => if y = x then r else y) = l := by
    intro l hl
    conv => rhs; rw [← List.map_id l]
    apply List.map_congr_left
    intro a ha
    rw [if_neg (by rintro rfl; exact hl ha)]; rfl
  rw [List.map_append, List.map_cons, if_pos rfl, hid as (fun hm => h3 x hm x (by simp) rfl), hid bs h4]

/-- C164: one call does to the arrays what it should. -/
theorem step_inv {h : Heap} {A : Arrays} (hi : Inv h A) (op : Op) (hl : Legal A op) : Inv (step h op) (Spec.step A op) := by
  cases op with
  | add p x =>
    have hfree : Free A x := hl
    obtain ⟨h1, h2⟩ := add_rep (hi.rep p) (hfree p) (hi.free x hfree).1
    refine hi.update (new := [x]) h1 h2 (by simpa using hfree) (fun y hy => ?_) (by simp) (fun y hy hn => ?_)
    · rcases List.mem_append.mp hy with hy | hy
      · exact .inr hy
      · exact .inl hy
    · exact absurd (List.mem_append_left _ hy) hn
  | detach p x =>
    obtain ⟨as, bs, hab⟩ := List.append_of_mem (show x ∈ A p from hl)
    have hr := hi.rep p
    rw [hab] at hr
    obtain ⟨h', h1, h2, h3, h4⟩ := detach_rep hr
    have he : step h (.detach p x) = h' := by simp [step, h1]
    have hs : Spec.step A (.detach p x) = A.set p (as ++ bs) := by
      show A.set p ((A p).filter (· ≠ x)) = _
      rw [hab, filter_mid hr.nodup]
    rw [he, hs]
    refine hi.update (new := []) h2 (by rw [hab]; exact h3) (by simp) (fun y hy => .inr ?_) (by simp) (fun y hy hn => ?_)
    · rw [hab]; rcases List.mem_append.mp hy with hy | hy
      · simp [hy]
      · simp [hy]
    · rw [hab] at hy
      rcases List.mem_append.mp hy with hy | hy
      · exact absurd (List.mem_append_left _ hy) hn
      · rcases List.mem_cons.mp hy with rfl | hy
        · exact h4
        · exact absurd (List.mem_append_right _ hy) hn
  | insert p i x =>
    have hfree : Free A x := hl
    by_cases hlt : i < (A p).length
    · have hab : A p = (A p).take i ++ (A p)[i] :: (A p).drop (i + 1) := by simp
      have hlen : ((A p).take i).length = i := by simp; omega
      have hr := hi.rep p
      rw [hab] at hr
      have hx := hfree p
      rw [hab] at hx
      obtain ⟨h', h1, h2, h3⟩ := insert_rep hr hx
      rw [hlen] at h1
      have he : step h (.insert p i x) = h' := by simp [step, h1]
      have hs : Spec.step A (.insert p i x) = A.set p ((A p).take i ++ x :: (A p)[i] :: (A p).drop (i + 1)) := by
        show A.set p _ = _
        rw [List.drop_eq_getElem_cons hlt]
      rw [he, hs]
      rw [← hab] at h3
      have hm : ∀ y, y ∈ (A p).take i ++ x :: (A p)[i] :: (A p).drop (i + 1) ↔ y = x ∨ y ∈ A p := by
        intro y
        conv => rhs; rw [hab]
        simp only [List.mem_append, List.mem_cons]
        constructor
        · rintro (h | h | h | h) <;> simp [h]
        · rintro (h | h | h | h) <;> simp [h]
      refine hi.update (new := [x]) h2 h3 (by simpa using hfree) (fun y hy => ?_) (fun y hy => ?_) (fun y hy hn => ?_)
      · rcases (hm y).mp hy with h | h
        · exact .inl (by simp [h])
        · exact .inr h
      · exact (hm y).mpr (.inl (by simpa using hy))
      · exact absurd ((hm y).mpr (.inr hy)) hn
    · have hg : get h p i = none := by rw [get_rep (hi.rep p)]; exact List.getElem?_eq_none (by omega)
      have he : step h (.insert p i x) = add h p x := by simp [step, insert, hg]
      have hs : Spec.step A (.insert p i x) = A.set p (A p ++ [x]) := by
        show A.set p _ = _
        rw [List.take_of_length_le (by omega), List.drop_eq_nil_of_le (by omega)]
      rw [he, hs]
      obtain ⟨h1, h2⟩ := add_rep (hi.rep p) (hfree p) (hi.free x hfree).1
      refine hi.update (new := [x]) h1 h2 (by simpa using hfree) (fun y hy => ?_) (by simp) (fun y hy hn => ?_)
      · rcases List.mem_append.mp hy with hy | hy
        · exact .inr hy
        · exact .inl hy
      · exact absurd (List.mem_append_left _ hy) hn
  | replace p x r =>
    obtain ⟨hx, hfree⟩ := hl
    obtain ⟨as, bs, hab⟩ := List.append_of_mem hx
    have hr := hi.rep p
    have hrn := hfree p
    rw [hab] at hr hrn
    obtain ⟨h2, h3, h4⟩ := replace_rep hr hrn
    have hs : Spec.step A (.replace p x r) = A.set p (as ++ r :: bs) := by
      show A.set p _ = _
      rw [hab, map_mid hr.nodup]
    rw [hs]
    show Inv (replace h p x r) _
    refine hi.update (new := [r]) h2 (by rw [hab]; exact h3) (by simpa using hfree) (fun y hy => ?_) (by simp) (fun y hy hn => ?_)
    · rw [hab]
      rcases List.mem_append.mp hy with hy | hy
      · exact .inr (by simp [hy])
      · rcases List.mem_cons.mp hy with rfl | hy
        · exact .inl (by simp)
        · exact .inr (by simp [hy])
    · rw [hab] at hy
      rcases List.mem_append.mp hy with hy | hy
      · exact absurd (List.mem_append_left _ hy) hn
      · rcases List.mem_cons.mp hy with rfl | hy
        · exact h4
        · exact absurd (by simp [hy]) hn

/-- C164: after any sequence of calls, what `cJSON_GetArrayItem` and `cJSON_GetArraySize` (and with them every loop over an array) give is what the
lists have. -/
theorem run_inv {h : Heap} {A : Arrays} (hi : Inv h A) (ops : List Op) (hl : AllLegal A ops) :
    Inv (ops.foldl step h) (ops.foldl Spec.step A) ∧
      (∀ p i, get (ops.foldl step h) p i = (ops.foldl Spec.step A p)[i]?) ∧
      (∀ p f, (ops.foldl Spec.step A p).length ≤ f → size (ops.foldl step h) f p = min (ops.foldl Spec.step A p).length 2147483647) := by
  induction ops generalizing h A with
  | nil => exact ⟨hi, fun p i => get_rep (hi.rep p) i, fun p f hf => size_rep (hi.rep p) hf⟩
  | cons op ops ih => exact ih (step_inv hi op hl.1) hl.2

/-- Items and arrays that have just been made. -/
def empty : Heap := ⟨fun _ => none, fun _ => none, fun _ => none⟩

theorem empty_inv : Inv empty (fun _ => []) :=
  ⟨fun _ => ⟨rfl, trivial, trivial, by simp⟩, by simp, fun _ _ => ⟨rfl, rfl⟩⟩

def sample : List Op := [.add 0 1, .add 0 2, .insert 0 0 3, .insert 0 1 4, .replace 0 2 5, .detach 0 3, .add 9 3, .insert 9 7 6, .detach 0 5]

example : AllLegal (fun _ => []) sample ∧ sample.foldl Spec.step (fun _ => []) 0 = [4, 1] ∧ sample.foldl Spec.step (fun _ => []) 9 = [3, 6] := by
  refine ⟨?_, rfl, rfl⟩
  simp only [sample, AllLegal, Legal, Free, Spec.step, Arrays.set]
  refine ⟨by simp, ?_, ?_, ?_, ?_, ?_, ?_, ?_, ?_, trivial⟩
  · intro p; by_cases hp : p = 0 <;> simp [hp]
  · intro p; by_cases hp : p = 0 <;> simp [hp]
  · intro p; by_cases hp : p = 0 <;> simp [hp]
  · refine ⟨by simp, ?_⟩; intro p; by_cases hp : p = 0 <;> simp [hp]
  · simp
  · intro p; by_cases hp : p = 0 <;> simp [hp]
  · intro p; by_cases hp : p = 0 <;> by_cases hp' : p = 9 <;> simp [hp, hp']
  · simp

/-- C164 refuted: an item of one array that is added to another takes the items behind it along, which then are in both; and the first array loses its
end: what is added to it appears nowhere or in the other. -/
theorem shared_violated : (∃ ops, AllLegal (fun _ => []) ops ∧
    let h := step (ops.foldl step empty) (.add 9 1)
    (ops.foldl Spec.step (fun _ => []) 0 = [1, 2] ∧ ops.foldl Spec.step (fun _ => []) 9 = [3]) ∧
    (List.range 4).map (get h 9) = [some 3, some 1, some 2, none] ∧
    (List.range 3).map (get (step h (.add 0 4)) 0) = [some 1, some 2, none] ∧
    (List.range 5).map (get (step h (.add 0 4)) 9) = [some 3, some 4, none, none, none]) := by
  refine ⟨[.add 0 1, .add 0 2, .add 9 3], ?_, ⟨rfl, rfl⟩, by decide +kernel, by decide +kernel, by decide +kernel⟩
  simp only [AllLegal, Legal, Free, Spec.step, Arrays.set]
  refine ⟨by simp, ?_, ?_, trivial⟩
  · intro p; by_cases hp : p = 0 <;> simp [hp]
  · intro p; by_cases hp : p = 0 <;> simp [hp]

end Verif.CJsonList
