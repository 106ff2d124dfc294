import Verif.Iter.Model
import Verif.Vec.Lemmas

/-! Property C09: iterators of vectors and slices. -/

namespace Verif.Iter
open Verif

variable {α σ : Type}

theorem loadR_prefix (l : List α) (rest : Mem α) (i : Nat) (h : i < l.length) :
    loadR (l.map some ++ rest) i = .ok l[i] := by
  unfold loadR
  rw [List.getElem?_append_left (by simpa using h), List.getElem?_map, List.getElem?_eq_getElem h]
  rfl

theorem forIn_from (body : σ → α → σ ⊕ σ) (l : List α) (rest : Mem α) :
    ∀ (f i : Nat) (s : σ), i ≤ l.length → l.length - i < f →
      forIn body f ⟨l.map some ++ rest, l.length, i⟩ s = .ok (Spec.loop body s (l.drop i)) := by
  intro f
  induction f with
  | zero => intro i s _ h; omega
  | succ f ih =>
    intro i s hi hf
    unfold forIn next
    by_cases hlt : i < l.length
    · simp only [hlt, if_true, loadR_prefix l rest i hlt, Run.ok_bind]
      rw [List.drop_eq_getElem_cons hlt]
      unfold Spec.loop
      cases body s l[i] with
      | inl s' => exact ih (i + 1) s' hlt (by omega)
      | inr s' => rfl
    · simp only [hlt, if_false, Run.ok_bind]
      rw [List.drop_eq_nil_of_le (by omega)]; rfl

/-- **C09 (vectors and slices).**  A `for` loop over a buffer holding the elements `l` (with any
spare capacity behind them, written or not) runs its body on exactly the elements of `l`, in
index order, each once, until a `break`; it never reads outside the elements, and it ends
after at most one call of `next` more than there are elements. -/
theorem for_visits_in_order (body : σ → α → σ ⊕ σ) (l : List α) (rest : Mem α) (s : σ) (f : Nat)
    (hf : l.length < f) :
    forIn body f (vecIterator ⟨l.map some ++ rest, l.length, (l.map some ++ rest).length⟩) s
      = .ok (Spec.loop body s l) ∧
    forIn body f (sliceIterator ⟨l.map some ++ rest, l.length⟩) s = .ok (Spec.loop body s l) :=
  ⟨forIn_from body l rest f 0 s (Nat.zero_le _) (by omega),
   forIn_from body l rest f 0 s (Nat.zero_le _) (by omega)⟩

/-- The vector produced by pushing any sequence one by one is iterated in push order. -/
theorem vec_for_after_pushes [DecidableEq α] (body : σ → α → σ ⊕ σ) (s : σ) (l : List α) :
    ∃ v, l.foldlM (fun v a => Vec.push v a) Vec.new = .ok v ∧
      ∀ f, l.length < f → forIn body f (vecIterator v) s = .ok (Spec.loop body s l) := by
  have key : ∀ (l acc : List α) (v : Vec.Vec α), Vec.Holds v acc →
      ∃ w, l.foldlM (fun v a => Vec.push v a) v = .ok w ∧ Vec.Holds w (acc ++ l) := by
    intro l
    induction l with
    | nil => intro acc v h; exact ⟨v, rfl, by simpa using h⟩
    | cons a l ih =>
      intro acc v h
      obtain ⟨w, hw, hh⟩ := Vec.push_holds h a
      obtain ⟨u, hu, hh2⟩ := ih (acc ++ [a]) w hh
      refine ⟨u, ?_, by simpa using hh2⟩
      rw [List.foldlM_cons, hw]; exact hu
  obtain ⟨v, hv, rest, hb, hl, hc⟩ := key l [] Vec.new Vec.holds_new
  refine ⟨v, hv, fun f hf => ?_⟩
  unfold vecIterator
  simp only [List.nil_append] at hb hl
  rw [hb, hl]
  exact forIn_from body l rest f 0 s (Nat.zero_le _) (by omega)

theorem forRef_from (g : α → α) (rest : Mem α) (pre : List α) : ∀ (l : List α) (f : Nat),
    l.length < f → forRef g (pre.length + l.length) f pre.length (pre.map some ++ l.map some ++ rest)
      = .ok (pre.map some ++ (l.map g).map some ++ rest) := by
  intro l
  induction l generalizing pre with
  | nil =>
    intro f hf
    obtain ⟨f, rfl⟩ : ∃ k, f = k + 1 := ⟨f - 1, by simp at hf; omega⟩
    unfold forRef nextRef
    simp
  | cons a l ih =>
    intro f hf
    obtain ⟨f, rfl⟩ : ∃ k, f = k + 1 := ⟨f - 1, by simp at hf; omega⟩
    unfold forRef nextRef
    simp only [List.length_cons, Nat.lt_add_right_iff_pos, Nat.zero_lt_succ, if_true]
    have hload : loadR (pre.map some ++ (a :: l).map some ++ rest) pre.length = .ok a := by
      unfold loadR
      rw [List.append_assoc, List.getElem?_append_right (by simp)]
      simp
    have hset : (pre.map some ++ (a :: l).map some ++ rest).set pre.length (some (g a))
        = (pre ++ [g a]).map some ++ l.map some ++ rest := by
      rw [List.append_assoc, List.set_append_right _ _ (by simp)]
      simp
    rw [hload]
    simp only [Run.ok_bind]
    rw [if_pos (by simp), hset]
    have := ih (pre ++ [g a]) f (by simp at hf; omega)
    have hlen : (pre ++ [g a]).length + l.length = pre.length + (l.length + 1) := by simp; omega
    rw [hlen] at this
    have h1 : (pre ++ [g a]).length = pre.length + 1 := by simp
    rw [h1] at this
    rw [this]
    simp

/-- **C09 (by reference).**  `for x in &vec { *x = f(*x) }` applies `f` to every element exactly
once and touches nothing else. -/
theorem forRef_maps (g : α → α) (l : List α) (rest : Mem α) (f : Nat) (hf : l.length < f) :
    forRef g l.length f 0 (l.map some ++ rest) = .ok ((l.map g).map some ++ rest) := by
  have := forRef_from g rest [] l f hf
  simpa using this

/-- `Slice::get`/`at` return the element at a valid index and none otherwise, in every case
without touching memory outside the slice. -/
theorem slice_get_spec (l : List α) (rest : Mem α) (i : Nat) :
    sliceGet ⟨l.map some ++ rest, l.length⟩ i = .ok l[i]? := by
  unfold sliceGet
  by_cases h : i < l.length
  · rw [if_neg (by simpa using h)]
    have : Mem.load (l.map some ++ rest) i = .ok l[i] := by
      rw [Mem.load_ok_iff, List.getElem?_append_left (by simpa using h), List.getElem?_map,
        List.getElem?_eq_getElem h]
      rfl
    simp only [this, Res.ok_bind, List.getElem?_eq_getElem h]
  · rw [if_pos (by simpa using h), List.getElem?_eq_none (by omega)]

/-- Non-vacuity: collecting the even numbers, breaking at 5. -/
example : forIn (fun (s : List Nat) x => if x = 5 then .inr s else if x % 2 = 0 then .inl (s ++ [x]) else .inl s)
    9 (vecIterator ⟨[some 2, some 3, some 4, some 5, some 6, none, none], 5, 7⟩) [] = .ok [2, 4] := by
  decide

example : forRef (· + 10) 3 4 0 [some 1, some 2, some 3, none] = .ok [some 11, some 12, some 13, none] := by
  decide

end Verif.Iter
