import Verif.CJsonList.Model

/-! # Linked lists -/

namespace Verif.CJsonList
open Spec

/-- `next` runs through the list and then to `e`. -/
def Fwd (nx : Nat → Option Nat) : List Nat → Option Nat → Prop
  | [], _ => True
  | a :: l, e => nx a = l.head?.or e ∧ Fwd nx l e

/-- `prev` of each is the one before, that of the first is `s`. -/
def Bwd (pv : Nat → Option Nat) : Option Nat → List Nat → Prop
  | _, [] => True
  | s, a :: l => pv a = s ∧ Bwd pv (some a) l

theorem Fwd.append {nx : Nat → Option Nat} : ∀ (as bs : List Nat) (e : Option Nat), Fwd nx (as ++ bs) e ↔ Fwd nx as (bs.head?.or e) ∧ Fwd nx bs e
  | [], bs, e => by simp [Fwd]
  | a :: as, bs, e => by
    have ih := Fwd.append (nx := nx) as bs e
    cases as <;> simp [Fwd] at * <;> simp [ih, and_assoc]

theorem Bwd.append {pv : Nat → Option Nat} : ∀ (as bs : List Nat) (s : Option Nat), Bwd pv s (as ++ bs) ↔ Bwd pv s as ∧ Bwd pv (as.getLast?.or s) bs
  | [], bs, s => by simp [Bwd]
  | a :: as, bs, s => by
    have ih := Bwd.append (pv := pv) as bs (some a)
    simp only [List.cons_append, Bwd, ih, and_assoc]
    cases as with
    | nil => simp
    | cons b as => rw [List.getLast?_cons_cons]; cases h : (b :: as).getLast? <;> simp_all

theorem Fwd.congr {nx nx' : Nat → Option Nat} : ∀ {l : List Nat} {e : Option Nat}, (∀ a ∈ l, nx' a = nx a) → Fwd nx l e → Fwd nx' l e
  | [], _, _, _ => trivial
  | a :: l, e, h, ⟨h1, h2⟩ => ⟨by rw [h a (by simp), h1], Fwd.congr (fun b hb => h b (by simp [hb])) h2⟩

theorem Bwd.congr {pv pv' : Nat → Option Nat} : ∀ {l : List Nat} {s : Option Nat}, (∀ a ∈ l, pv' a = pv a) → Bwd pv s l → Bwd pv' s l
  | [], _, _, _ => trivial
  | a :: l, s, h, ⟨h1, h2⟩ => ⟨by rw [h a (by simp), h1], Bwd.congr (fun b hb => h b (by simp [hb])) h2⟩

/-- An array of the heap is a list. -/
structure Rep (h : Heap) (p : Nat) (ls : List Nat) : Prop where
  child : h.child p = ls.head?
  fwd : Fwd h.next ls none
  bwd : Bwd h.prev ls.getLast? ls
  nodup : ls.Nodup

/-- Nothing but the given items and array changed. -/
structure Frame (h h' : Heap) (p : Nat) (ls : List Nat) : Prop where
  next : ∀ y, y ∉ ls → h'.next y = h.next y
  prev : ∀ y, y ∉ ls → h'.prev y = h.prev y
  child : ∀ q, q ≠ p → h'.child q = h.child q

theorem upd_same {f : Nat → Option Nat} {a : Nat} {v : Option Nat} : upd f a v a = v := if_pos rfl
theorem upd_ne {f : Nat → Option Nat} {a b : Nat} {v : Option Nat} (h : b ≠ a) : upd f a v b = f b := if_neg h

/-! ## adding -/

theorem add_rep {h : Heap} {p x : Nat} {ls : List Nat} (hr : Rep h p ls) (hx : x ∉ ls) (hn : h.next x = none) :
    Rep (add h p x) p (ls ++ [x]) ∧ Frame h (add h p x) p (x :: ls) := by
  cases ls with
  | nil =>
    have hc : h.child p = none := hr.child
    have he : add h p x = ((h.setChild p (some x)).setPrev x (some x)).setNext x none := by unfold add; rw [hc]
    rw [he]
    refine ⟨⟨?_, ?_, ?_, by simp⟩, ⟨?_, ?_, ?_⟩⟩
    · exact upd_same
    · exact ⟨by simp [Heap.setNext, upd_same], trivial⟩
    · exact ⟨by simp [Heap.setNext, Heap.setPrev, upd_same], trivial⟩
    · intro y hy; exact upd_ne (by simpa using hy)
    · intro y hy; exact upd_ne (by simpa using hy)
    · intro q hq; exact upd_ne hq
  | cons c as =>
    obtain ⟨l, hl⟩ : ∃ l, (c :: as).getLast? = some l := ⟨_, List.getLast?_eq_some_getLast (by simp)⟩
    have hc : h.child p = some c := hr.child
    have hp : h.prev c = some l := by rw [← hl]; exact hr.bwd.1
    have he : add h p x = ((h.setNext l (some x)).setPrev x (some l)).setPrev c (some x) := by unfold add; simp only [hc, hp]
    obtain ⟨bs, hbs⟩ : ∃ bs, c :: as = bs ++ [l] := by
      obtain ⟨ys, hys⟩ := List.getLast?_eq_some_iff.mp hl
      exact ⟨ys, hys⟩
    have hlm : l ∈ c :: as := by rw [hbs]; simp
    have hxl : x ≠ l := by rintro rfl; exact hx hlm
    have hxc : x ≠ c := by rintro rfl; exact hx (by simp)
    rw [he]
    refine ⟨⟨?_, ?_, ?_, ?_⟩, ⟨?_, ?_, ?_⟩⟩
    · exact hc
    · show Fwd (upd h.next l (some x)) ((c :: as) ++ [x]) none
      have hf := hr.fwd
      rw [hbs] at hf ⊢
      rw [Fwd.append, Fwd.append]
      rw [Fwd.append] at hf
      have hnd := hr.nodup
      rw [hbs] at hnd
      have hnl : l ∉ bs := by
        intro hm
        exact (List.nodup_append.mp hnd).2.2 l hm l (by simp) rfl
      refine ⟨⟨?_, ?_⟩, ?_⟩
      · exact Fwd.congr (fun a ha => upd_ne (by rintro rfl; exact hnl ha)) hf.1
      · exact ⟨by simp [upd_same], trivial⟩
      · exact ⟨by rw [upd_ne hxl, hn]; rfl, trivial⟩
    · show Bwd (upd (upd h.prev x (some l)) c (some x)) _ ((c :: as) ++ [x])
      rw [Bwd.append]
      have hb := hr.bwd
      refine ⟨⟨by rw [upd_same, List.getLast?_concat], ?_⟩, ?_⟩
      · refine Bwd.congr (fun a ha => ?_) hb.2
        have hac : a ≠ c := by rintro rfl; exact (List.nodup_cons.mp hr.nodup).1 ha
        rw [upd_ne hac, upd_ne (by rintro rfl; exact hx (by simp [ha]))]
      · exact ⟨by rw [upd_ne hxc, upd_same, hl]; rfl, trivial⟩
    · rw [List.nodup_append]
      exact ⟨hr.nodup, by simp, by intro a ha b hb; simp at hb; subst hb; rintro rfl; exact hx ha⟩
    · intro y hy
      exact upd_ne (by rintro rfl; exact hy (by simp [List.mem_cons.mp hlm]))
    · intro y hy
      show upd (upd h.prev x (some l)) c (some x) y = _
      rw [upd_ne (by rintro rfl; exact hy (by simp)), upd_ne (by rintro rfl; exact hy (by simp))]
    · intro q _; rfl

/-! ## going through -/

theorem walk_spec {h : Heap} : ∀ (i : Nat) (ls : List Nat), Fwd h.next ls none → walk h ls.head? i = ls[i]?
  | _, [], _ => by simp [walk]
  | 0, a :: l, _ => by simp [walk]
  | i + 1, a :: l, ⟨h1, h2⟩ => by
    show walk h (h.next a) i = _
    rw [h1, Option.or_none, walk_spec i l h2]
    simp

theorem get_rep {h : Heap} {p : Nat} {ls : List Nat} (hr : Rep h p ls) (i : Nat) : get h p i = ls[i]? := by
  unfold get; rw [hr.child, walk_spec i ls hr.fwd]

theorem sizeFrom_spec {h : Heap} : ∀ (ls : List Nat) (f : Nat), ls.length ≤ f → Fwd h.next ls none → sizeFrom h f ls.head? = ls.length
  | [], f, _, _ => by cases f <;> rfl
  | a :: l, 0, hf, _ => by simp at hf
  | a :: l, f + 1, hf, ⟨h1, h2⟩ => by
    show sizeFrom h f (h.next a) + 1 = _
    rw [h1, Option.or_none, sizeFrom_spec l f (by simpa using hf) h2]
    rfl

theorem size_rep {h : Heap} {p : Nat} {ls : List Nat} (hr : Rep h p ls) {f : Nat} (hf : ls.length ≤ f) : size h f p = min ls.length 2147483647 := by
  unfold size; rw [hr.child, sizeFrom_spec ls f hf hr.fwd]

theorem snoc_cases (as : List Nat) : as = [] ∨ ∃ as' a, as = as' ++ [a] := by
  rcases List.eq_nil_or_concat as with h | ⟨as', a, h⟩
  · exact .inl h
  · exact .inr ⟨as', a, by rw [h, List.concat_eq_append]⟩

/-! ## taking out -/

theorem Rep.next_mid {h : Heap} {p x : Nat} {as bs : List Nat} (hr : Rep h p (as ++ x :: bs)) : h.next x = bs.head? := by
  have := ((Fwd.append _ _ _).mp hr.fwd).2.1
  rw [this, Option.or_none]

theorem Rep.prev_mid {h : Heap} {p x : Nat} {as bs : List Nat} (hr : Rep h p (as ++ x :: bs)) : h.prev x = as.getLast?.or (x :: bs).getLast? := by
  have := ((Bwd.append _ _ _).mp hr.bwd).2.1
  rw [this]
  cases as with
  | nil => simp
  | cons a as => rw [List.getLast?_append]; cases h1 : (a :: as).getLast? with
    | none => simp at h1
    | some y => simp

theorem detach_rep {h : Heap} {p x : Nat} {as bs : List Nat} (hr : Rep h p (as ++ x :: bs)) :
    ∃ h', detach h p x = some h' ∧ Rep h' p (as ++ bs) ∧ Frame h h' p (as ++ x :: bs) ∧ h'.next x = none ∧ h'.prev x = none := by
  have hnx := hr.next_mid
  have hpx := hr.prev_mid
  have hnd := hr.nodup
  have hf := hr.fwd
  have hb := hr.bwd
  rw [Fwd.append] at hf
  rw [Bwd.append] at hb
  obtain ⟨hnd1, hnd2, hnd3⟩ := List.nodup_append.mp hnd
  obtain ⟨hxb, hnb⟩ := List.nodup_cons.mp hnd2
  have hxa : x ∉ as := fun hm => hnd3 x hm x (by simp) rfl
  have hndn : (as ++ bs).Nodup := List.nodup_append.mpr ⟨hnd1, hnb, fun a ha b hb => hnd3 a ha b (by simp [hb])⟩
  rcases snoc_cases as with rfl | ⟨as', a, rfl⟩
  · -- the first item
    have hc : h.child p = some x := hr.child
    cases bs with
    | nil =>
      refine ⟨⟨upd h.next x none, upd h.prev x none, upd h.child p none⟩, ?_, ⟨?_, ?_, ?_, hndn⟩, ⟨?_, ?_, ?_⟩, upd_same, upd_same⟩
      · simp at hnx
        simp [detach, hc, hnx, Heap.setNext, Heap.setPrev, Heap.setChild]
      · exact upd_same
      · trivial
      · trivial
      · intro y hy; exact upd_ne (by simpa using hy)
      · intro y hy; exact upd_ne (by simpa using hy)
      · intro q hq; exact upd_ne hq
    | cons b bs =>
      have hbx : b ≠ x := by rintro rfl; exact hxb (by simp)
      have hpx' : h.prev x = (b :: bs).getLast? := by rw [hpx]; simp [List.getLast?_cons_cons]
      refine ⟨⟨upd h.next x none, upd (upd h.prev b (h.prev x)) x none, upd h.child p (some b)⟩, ?_, ⟨?_, ?_, ?_, hndn⟩, ⟨?_, ?_, ?_⟩, upd_same, upd_same⟩
      · simp at hnx
        simp [detach, hc, hnx, Heap.setNext, Heap.setPrev, Heap.setChild]
      · exact upd_same
      · exact Fwd.congr (fun y hy => upd_ne (by rintro rfl; exact hxb hy)) hf.2.2
      · refine ⟨?_, ?_⟩
        · show upd (upd h.prev b (h.prev x)) x none b = _
          rw [upd_ne hbx, upd_same, hpx']; rfl
        · refine Bwd.congr (fun y hy => ?_) hb.2.2.2
          show upd (upd h.prev b (h.prev x)) x none y = _
          rw [upd_ne (by rintro rfl; exact hxb (by simp [hy])), upd_ne (by rintro rfl; exact (List.nodup_cons.mp hnb).1 hy)]
      · intro y hy; exact upd_ne (by rintro rfl; simp at hy)
      · intro y hy
        show upd (upd h.prev b (h.prev x)) x none y = _
        rw [upd_ne (by rintro rfl; simp at hy), upd_ne (by rintro rfl; simp at hy)]
      · intro q hq; exact upd_ne hq
  · -- a later item
    obtain ⟨c, hcm, hc⟩ : ∃ c, c ∈ as' ++ [a] ∧ (as' ++ [a]).head? = some c := by
      cases as' with
      | nil => exact ⟨a, by simp, rfl⟩
      | cons d as' => exact ⟨d, by simp, rfl⟩
    have hcx : c ≠ x := by rintro rfl; exact hxa hcm
    have hax : a ≠ x := by rintro rfl; exact hxa (by simp)
    have hch : h.child p = some c := by rw [hr.child, List.head?_append, hc]; rfl
    have hpx' : h.prev x = some a := by rw [hpx, List.getLast?_concat]; rfl
    have hna : a ∉ as' := by
      intro hm
      exact (List.nodup_append.mp hnd1).2.2 a hm a (by simp) rfl
    cases bs with
    | nil =>
      simp at hnx
      refine ⟨⟨upd (upd h.next a none) x none, upd (upd h.prev c (some a)) x none, h.child⟩, ?_, ⟨?_, ?_, ?_, hndn⟩, ⟨?_, ?_, ?_⟩, upd_same, upd_same⟩
      · simp [detach, hch, hcx, hnx, hpx', Heap.setNext, Heap.setPrev, upd]
      · rw [List.append_nil]; rw [hch, hc]
      · rw [List.append_nil, Fwd.append]
        rw [Fwd.append] at hf
        refine ⟨Fwd.congr (fun y hy => ?_) hf.1.1, ?_, trivial⟩
        · show upd (upd h.next a none) x none y = _
          rw [upd_ne (by rintro rfl; exact hxa (by simp [hy])), upd_ne (by rintro rfl; exact hna hy)]
        · show upd (upd h.next a none) x none a = _
          rw [upd_ne hax, upd_same]; rfl
      · show Bwd (upd (upd h.prev c (some a)) x none) (as' ++ [a] ++ []).getLast? (as' ++ [a] ++ [])
        rw [List.append_nil, List.getLast?_concat]
        have hb1 := hb.1
        generalize hL : as' ++ [a] = L at *
        cases L with
        | nil => trivial
        | cons d L =>
          cases hc
          refine ⟨by rw [upd_ne hcx, upd_same], Bwd.congr (fun y hy => ?_) hb1.2⟩
          rw [upd_ne (by rintro rfl; exact hxa (by simp [hy])), upd_ne (by rintro rfl; exact (List.nodup_cons.mp hnd1).1 hy)]
      · intro y hy
        show upd (upd h.next a none) x none y = _
        rw [upd_ne (by rintro rfl; simp at hy), upd_ne (by rintro rfl; simp at hy)]
      · intro y hy
        show upd (upd h.prev c (some a)) x none y = _
        rw [upd_ne (by rintro rfl; simp at hy), upd_ne (by rintro rfl; exact hy (List.mem_append_left _ hcm))]
      · intro q _; rfl
    | cons b bs =>
      simp at hnx
      have hbx : b ≠ x := by rintro rfl; exact hxb (by simp)
      have hba : b ∉ as' ++ [a] := fun hm => hnd3 b hm b (by simp) rfl
      refine ⟨⟨upd (upd h.next a (some b)) x none, upd (upd h.prev b (some a)) x none, h.child⟩, ?_, ⟨?_, ?_, ?_, hndn⟩, ⟨?_, ?_, ?_⟩, upd_same, upd_same⟩
      · simp [detach, hch, hcx, hnx, hpx', Heap.setNext, Heap.setPrev, upd, hax.symm]
      · rw [List.head?_append, hc, hch]; rfl
      · rw [Fwd.append, Fwd.append]
        rw [Fwd.append] at hf
        refine ⟨⟨Fwd.congr (fun y hy => ?_) hf.1.1, ?_, trivial⟩, ?_⟩
        · show upd (upd h.next a (some b)) x none y = _
          rw [upd_ne (by rintro rfl; exact hxa (by simp [hy])), upd_ne (by rintro rfl; exact hna hy)]
        · show upd (upd h.next a (some b)) x none a = _
          rw [upd_ne hax, upd_same]; rfl
        · refine Fwd.congr (fun y hy => ?_) hf.2.2
          show upd (upd h.next a (some b)) x none y = _
          rw [upd_ne (by rintro rfl; exact hxb hy), upd_ne (by rintro rfl; exact hnd3 y (by simp) y (by simp [List.mem_cons.mp hy]) rfl)]
      · show Bwd (upd (upd h.prev b (some a)) x none) (as' ++ [a] ++ b :: bs).getLast? (as' ++ [a] ++ b :: bs)
        rw [Bwd.append]
        have hlast : (as' ++ [a] ++ x :: b :: bs).getLast? = (as' ++ [a] ++ b :: bs).getLast? := by
          simp only [List.getLast?_append, List.getLast?_cons_cons]
        rw [hlast] at hb
        refine ⟨Bwd.congr (fun y hy => ?_) hb.1, ?_, ?_⟩
        · rw [upd_ne (by rintro rfl; exact hxa hy), upd_ne (by rintro rfl; exact hba hy)]
        · rw [upd_ne hbx, upd_same, List.getLast?_concat]; rfl
        · refine Bwd.congr (fun y hy => ?_) hb.2.2.2
          rw [upd_ne (by rintro rfl; exact hxb (by simp [hy])), upd_ne (by rintro rfl; exact (List.nodup_cons.mp hnb).1 hy)]
      · intro y hy
        show upd (upd h.next a (some b)) x none y = _
        rw [upd_ne (by rintro rfl; simp at hy), upd_ne (by rintro rfl; simp at hy)]
      · intro y hy
        show upd (upd h.prev b (some a)) x none y = _
        rw [upd_ne (by rintro rfl; simp at hy), upd_ne (by rintro rfl; simp at hy)]
      · intro q _; rfl

/-! ## putting in -/

theorem insert_rep {h : Heap} {p x y : Nat} {as bs : List Nat} (hr : Rep h p (as ++ y :: bs)) (hx : x ∉ as ++ y :: bs) :
    ∃ h', insert h p as.length x = some h' ∧ Rep h' p (as ++ x :: y :: bs) ∧ Frame h h' p (x :: (as ++ y :: bs)) := by
  have hg : get h p as.length = some y := by rw [get_rep hr]; simp
  have hpy := hr.prev_mid
  have hnd := hr.nodup
  have hf := hr.fwd
  have hb := hr.bwd
  rw [Fwd.append] at hf
  rw [Bwd.append] at hb
  obtain ⟨hnd1, hnd2, hnd3⟩ := List.nodup_append.mp hnd
  obtain ⟨hyb, hnb⟩ := List.nodup_cons.mp hnd2
  have hya : y ∉ as := fun hm => hnd3 y hm y (by simp) rfl
  have hxa : x ∉ as := fun hm => hx (by simp [hm])
  have hxy : x ≠ y := by rintro rfl; exact hx (by simp)
  have hxb : x ∉ bs := fun hm => hx (by simp [hm])
  have hndn : (as ++ x :: y :: bs).Nodup := by
    refine List.nodup_append.mpr ⟨hnd1, List.nodup_cons.mpr ⟨by simp [hxy, hxb], hnd2⟩, fun a ha b hb => ?_⟩
    rcases List.mem_cons.mp hb with rfl | hb
    · rintro rfl; exact hxa ha
    · exact hnd3 a ha b hb
  have hlast : (as ++ x :: y :: bs).getLast? = (as ++ y :: bs).getLast? := by
    rw [List.getLast?_append, List.getLast?_append, List.getLast?_cons_cons]
  rcases snoc_cases as with rfl | ⟨as', a, rfl⟩
  · have hc : h.child p = some y := hr.child
    refine ⟨⟨upd h.next x (some y), upd (upd h.prev x (h.prev y)) y (some x), upd h.child p (some x)⟩, ?_, ⟨?_, ?_, ?_, hndn⟩, ⟨?_, ?_, ?_⟩⟩
    · unfold insert
      rw [hg]
      simp [hc, Heap.setNext, Heap.setPrev, Heap.setChild]
    · exact upd_same
    · refine ⟨by simp [upd_same], Fwd.congr (fun z hz => upd_ne ?_) hf.2⟩
      rintro rfl; exact hx hz
    · show Bwd _ ([] ++ x :: y :: bs).getLast? (x :: y :: bs)
      rw [hlast]
      refine ⟨?_, upd_same, Bwd.congr (fun z hz => ?_) hb.2.2⟩
      · show upd (upd h.prev x (h.prev y)) y (some x) x = _
        rw [upd_ne hxy, upd_same, hpy]; rfl
      · show upd (upd h.prev x (h.prev y)) y (some x) z = _
        rw [upd_ne (by rintro rfl; exact hyb hz), upd_ne (by rintro rfl; exact hxb hz)]
    · intro z hz; exact upd_ne (by rintro rfl; simp at hz)
    · intro z hz
      show upd (upd h.prev x (h.prev y)) y (some x) z = _
      rw [upd_ne (by rintro rfl; simp at hz), upd_ne (by rintro rfl; simp at hz)]
    · intro q hq; exact upd_ne hq
  · obtain ⟨c, hcm, hc⟩ : ∃ c, c ∈ as' ++ [a] ∧ (as' ++ [a]).head? = some c := by
      cases as' with
      | nil => exact ⟨a, by simp, rfl⟩
      | cons d as' => exact ⟨d, by simp, rfl⟩
    have hcy : c ≠ y := by rintro rfl; exact hya hcm
    have hay : a ≠ y := by rintro rfl; exact hya (by simp)
    have hax : a ≠ x := by rintro rfl; exact hxa (by simp)
    have hch : h.child p = some c := by rw [hr.child, List.head?_append, hc]; rfl
    have hpy' : h.prev y = some a := by rw [hpy, List.getLast?_concat]; rfl
    have hna : a ∉ as' := by
      intro hm
      exact (List.nodup_append.mp hnd1).2.2 a hm a (by simp) rfl
    refine ⟨⟨upd (upd h.next x (some y)) a (some x), upd (upd h.prev x (some a)) y (some x), h.child⟩, ?_, ⟨?_, ?_, ?_, hndn⟩, ⟨?_, ?_, ?_⟩⟩
    · unfold insert
      rw [hg]
      simp [hch, hcy, hpy', Heap.setNext, Heap.setPrev, upd, hxy]
    · rw [List.head?_append, hc, hch]; rfl
    · rw [Fwd.append, Fwd.append]
      rw [Fwd.append] at hf
      refine ⟨⟨Fwd.congr (fun z hz => ?_) hf.1.1, ?_, trivial⟩, ?_, ?_⟩
      · show upd (upd h.next x (some y)) a (some x) z = _
        rw [upd_ne (by rintro rfl; exact hna hz), upd_ne (by rintro rfl; exact hxa (by simp [hz]))]
      · show upd (upd h.next x (some y)) a (some x) a = _
        rw [upd_same]; rfl
      · show upd (upd h.next x (some y)) a (some x) x = _
        rw [upd_ne hax.symm, upd_same]; rfl
      · refine Fwd.congr (fun z hz => ?_) hf.2
        show upd (upd h.next x (some y)) a (some x) z = _
        rw [upd_ne (by rintro rfl; exact hnd3 z (by simp) z hz rfl), upd_ne (by rintro rfl; exact hx (List.mem_append_right _ hz))]
    · rw [hlast, Bwd.append]
      refine ⟨Bwd.congr (fun z hz => ?_) hb.1, ?_, ?_, ?_⟩
      · show upd (upd h.prev x (some a)) y (some x) z = _
        rw [upd_ne (by rintro rfl; exact hya hz), upd_ne (by rintro rfl; exact hxa hz)]
      · show upd (upd h.prev x (some a)) y (some x) x = _
        rw [upd_ne hxy, upd_same, List.getLast?_concat]; rfl
      · exact upd_same
      · refine Bwd.congr (fun z hz => ?_) hb.2.2
        show upd (upd h.prev x (some a)) y (some x) z = _
        rw [upd_ne (by rintro rfl; exact hyb hz), upd_ne (by rintro rfl; exact hxb hz)]
    · intro z hz
      show upd (upd h.next x (some y)) a (some x) z = _
      rw [upd_ne (by rintro rfl; simp at hz), upd_ne (by rintro rfl; simp at hz)]
    · intro z hz
      show upd (upd h.prev x (some a)) y (some x) z = _
      rw [upd_ne (by rintro rfl; simp at hz), upd_ne (by rintro rfl; simp at hz)]
    · intro q _; rfl

/-! ## replacing -/

theorem replace_rep {h : Heap} {p x r : Nat} {as bs : List Nat} (hr : Rep h p (as ++ x :: bs)) (hrn : r ∉ as ++ x :: bs) :
    Rep (replace h p x r) p (as ++ r :: bs) ∧ Frame h (replace h p x r) p (r :: (as ++ x :: bs)) ∧ (replace h p x r).next x = none ∧
      (replace h p x r).prev x = none := by
  have hnx := hr.next_mid
  have hpx := hr.prev_mid
  have hnd := hr.nodup
  have hf := hr.fwd
  have hb := hr.bwd
  rw [Fwd.append] at hf
  rw [Bwd.append] at hb
  obtain ⟨hnd1, hnd2, hnd3⟩ := List.nodup_append.mp hnd
  obtain ⟨hxb, hnb⟩ := List.nodup_cons.mp hnd2
  have hxa : x ∉ as := fun hm => hnd3 x hm x (by simp) rfl
  have hra : r ∉ as := fun hm => hrn (by simp [hm])
  have hrx : r ≠ x := by rintro rfl; exact hrn (by simp)
  have hrb : r ∉ bs := fun hm => hrn (by simp [hm])
  have hndn : (as ++ r :: bs).Nodup := by
    refine List.nodup_append.mpr ⟨hnd1, List.nodup_cons.mpr ⟨hrb, hnb⟩, fun a ha b hb => ?_⟩
    rcases List.mem_cons.mp hb with rfl | hb
    · rintro rfl; exact hra ha
    · exact hnd3 a ha b (by simp [hb])
  rcases snoc_cases as with rfl | ⟨as', a, rfl⟩
  · have hc : h.child p = some x := hr.child
    cases bs with
    | nil =>
      simp at hnx hpx
      have he : replace h p x r = ⟨upd (upd h.next r none) x none, upd (upd (upd h.prev r (some x)) r (some r)) x none, upd h.child p (some r)⟩ := by
        simp [replace, hrx, hrx.symm, hnx, hpx, hc, Heap.setNext, Heap.setPrev, Heap.setChild, upd]
      rw [he]
      refine ⟨⟨upd_same, ⟨?_, trivial⟩, ⟨?_, trivial⟩, hndn⟩, ⟨?_, ?_, ?_⟩, upd_same, upd_same⟩
      · show upd (upd h.next r none) x none r = _
        rw [upd_ne hrx, upd_same]; rfl
      · show upd (upd (upd h.prev r (some x)) r (some r)) x none r = _
        rw [upd_ne hrx, upd_same]; rfl
      · intro z hz
        show upd (upd h.next r none) x none z = _
        rw [upd_ne (by rintro rfl; simp at hz), upd_ne (by rintro rfl; simp at hz)]
      · intro z hz
        show upd (upd (upd h.prev r (some x)) r (some r)) x none z = _
        rw [upd_ne (by rintro rfl; simp at hz), upd_ne (by rintro rfl; simp at hz), upd_ne (by rintro rfl; simp at hz)]
      · intro q hq; exact upd_ne hq
    | cons b bs =>
      simp at hnx
      have hbx : b ≠ x := by rintro rfl; exact hxb (by simp)
      have hbr : b ≠ r := by rintro rfl; exact hrb (by simp)
      have hpx' : h.prev x = (b :: bs).getLast? := by rw [hpx]; simp [List.getLast?_cons_cons]
      have hpne : h.prev x ≠ some x := by
        rw [hpx']
        intro hl
        exact hxb (List.mem_of_getLast? hl)
      have he : replace h p x r = ⟨upd (upd h.next r (some b)) x none, upd (upd (upd h.prev r (h.prev x)) b (some r)) x none, upd h.child p (some r)⟩ := by
        simp [replace, hrx, hrx.symm, hnx, hpne, hc, Heap.setNext, Heap.setPrev, Heap.setChild, upd, hbx.symm]
      rw [he]
      refine ⟨⟨upd_same, ⟨?_, ?_⟩, ⟨?_, ?_, ?_⟩, hndn⟩, ⟨?_, ?_, ?_⟩, upd_same, upd_same⟩
      · show upd (upd h.next r (some b)) x none r = _
        rw [upd_ne hrx, upd_same]; rfl
      · refine Fwd.congr (fun z hz => ?_) hf.2.2
        show upd (upd h.next r (some b)) x none z = _
        rw [upd_ne (by rintro rfl; exact hxb hz), upd_ne (by rintro rfl; exact hrb hz)]
      · show upd (upd (upd h.prev r (h.prev x)) b (some r)) x none r = _
        rw [upd_ne hrx, upd_ne hbr.symm, upd_same, hpx']; simp [List.getLast?_cons_cons]
      · show upd (upd (upd h.prev r (h.prev x)) b (some r)) x none b = _
        rw [upd_ne hbx, upd_same]
      · refine Bwd.congr (fun z hz => ?_) hb.2.2.2
        show upd (upd (upd h.prev r (h.prev x)) b (some r)) x none z = _
        rw [upd_ne (by rintro rfl; exact hxb (by simp [hz])), upd_ne (by rintro rfl; exact (List.nodup_cons.mp hnb).1 hz),
          upd_ne (by rintro rfl; exact hrb (by simp [hz]))]
      · intro z hz
        show upd (upd h.next r (some b)) x none z = _
        rw [upd_ne (by rintro rfl; simp at hz), upd_ne (by rintro rfl; simp at hz)]
      · intro z hz
        show upd (upd (upd h.prev r (h.prev x)) b (some r)) x none z = _
        rw [upd_ne (by rintro rfl; simp at hz), upd_ne (by rintro rfl; simp at hz), upd_ne (by rintro rfl; simp at hz)]
      · intro q hq; exact upd_ne hq
  · obtain ⟨c, hcm, hc⟩ : ∃ c, c ∈ as' ++ [a] ∧ (as' ++ [a]).head? = some c := by
      cases as' with
      | nil => exact ⟨a, by simp, rfl⟩
      | cons d as' => exact ⟨d, by simp, rfl⟩
    have hcx : c ≠ x := by rintro rfl; exact hxa hcm
    have hax : a ≠ x := by rintro rfl; exact hxa (by simp)
    have har : a ≠ r := by rintro rfl; exact hra (by simp)
    have hcr : c ≠ r := by rintro rfl; exact hra hcm
    have hch : h.child p = some c := by rw [hr.child, List.head?_append, hc]; rfl
    have hpx' : h.prev x = some a := by rw [hpx, List.getLast?_concat]; rfl
    have hna : a ∉ as' := by
      intro hm
      exact (List.nodup_append.mp hnd1).2.2 a hm a (by simp) rfl
    rw [Fwd.append] at hf
    cases bs with
    | nil =>
      simp at hnx
      have he : replace h p x r = ⟨upd (upd (upd h.next r none) a (some r)) x none, upd (upd (upd h.prev r (some a)) c (some r)) x none, h.child⟩ := by
        simp [replace, hrx, hnx, hpx', hch, hcx, Heap.setNext, Heap.setPrev, upd, har.symm]
      rw [he]
      refine ⟨⟨?_, ?_, ?_, hndn⟩, ⟨?_, ?_, ?_⟩, upd_same, upd_same⟩
      · rw [List.head?_append, hc, hch]; rfl
      · rw [Fwd.append, Fwd.append]
        refine ⟨⟨Fwd.congr (fun z hz => ?_) hf.1.1, ?_, trivial⟩, ?_, trivial⟩
        · show upd (upd (upd h.next r none) a (some r)) x none z = _
          rw [upd_ne (by rintro rfl; exact hxa (by simp [hz])), upd_ne (by rintro rfl; exact hna hz), upd_ne (by rintro rfl; exact hra (by simp [hz]))]
        · show upd (upd (upd h.next r none) a (some r)) x none a = _
          rw [upd_ne hax, upd_same]; rfl
        · show upd (upd (upd h.next r none) a (some r)) x none r = _
          rw [upd_ne hrx, upd_ne har.symm, upd_same]; rfl
      · show Bwd (upd (upd (upd h.prev r (some a)) c (some r)) x none) _ _
        rw [List.getLast?_concat, Bwd.append]
        have hb1 := hb.1
        refine ⟨?_, ?_, trivial⟩
        · generalize as' ++ [a] = L at *
          cases L with
          | nil => trivial
          | cons d L =>
            cases hc
            refine ⟨by rw [upd_ne hcx, upd_same], Bwd.congr (fun y hy => ?_) hb1.2⟩
            rw [upd_ne (by rintro rfl; exact hxa (by simp [hy])), upd_ne (by rintro rfl; exact (List.nodup_cons.mp hnd1).1 hy),
              upd_ne (by rintro rfl; exact hra (by simp [hy]))]
        · rw [upd_ne hrx, upd_ne hcr.symm, upd_same, List.getLast?_concat]; rfl
      · intro z hz
        show upd (upd (upd h.next r none) a (some r)) x none z = _
        rw [upd_ne (by rintro rfl; simp at hz), upd_ne (by rintro rfl; simp at hz), upd_ne (by rintro rfl; simp at hz)]
      · intro z hz
        show upd (upd (upd h.prev r (some a)) c (some r)) x none z = _
        rw [upd_ne (by rintro rfl; simp at hz), upd_ne (by rintro rfl; exact hz (List.mem_cons_of_mem _ (List.mem_append_left _ hcm))), upd_ne (by rintro rfl; simp at hz)]
      · intro q _; rfl
    | cons b bs =>
      simp at hnx
      have hbx : b ≠ x := by rintro rfl; exact hxb (by simp)
      have hbr : b ≠ r := by rintro rfl; exact hrb (by simp)
      have hba : b ∉ as' ++ [a] := fun hm => hnd3 b hm b (by simp) rfl
      have he : replace h p x r = ⟨upd (upd (upd h.next r (some b)) a (some r)) x none, upd (upd (upd h.prev r (some a)) b (some r)) x none, h.child⟩ := by
        simp [replace, hrx, hnx, hpx', hch, hcx, Heap.setNext, Heap.setPrev, upd, har.symm, hbr.symm]
      rw [he]
      have hlast : (as' ++ [a] ++ x :: b :: bs).getLast? = (as' ++ [a] ++ r :: b :: bs).getLast? := by
        simp only [List.getLast?_append, List.getLast?_cons_cons]
      rw [hlast] at hb
      refine ⟨⟨?_, ?_, ?_, hndn⟩, ⟨?_, ?_, ?_⟩, upd_same, upd_same⟩
      · rw [List.head?_append, hc, hch]; rfl
      · rw [Fwd.append, Fwd.append]
        refine ⟨⟨Fwd.congr (fun z hz => ?_) hf.1.1, ?_, trivial⟩, ?_, ?_⟩
        · show upd (upd (upd h.next r (some b)) a (some r)) x none z = _
          rw [upd_ne (by rintro rfl; exact hxa (by simp [hz])), upd_ne (by rintro rfl; exact hna hz), upd_ne (by rintro rfl; exact hra (by simp [hz]))]
        · show upd (upd (upd h.next r (some b)) a (some r)) x none a = _
          rw [upd_ne hax, upd_same]; rfl
        · show upd (upd (upd h.next r (some b)) a (some r)) x none r = _
          rw [upd_ne hrx, upd_ne har.symm, upd_same]; rfl
        · refine Fwd.congr (fun z hz => ?_) hf.2.2
          show upd (upd (upd h.next r (some b)) a (some r)) x none z = _
          rw [upd_ne (by rintro rfl; exact hxb hz), upd_ne (by rintro rfl; exact hnd3 z (by simp) z (by simp [List.mem_cons.mp hz]) rfl),
            upd_ne (by rintro rfl; exact hrb hz)]
      · show Bwd (upd (upd (upd h.prev r (some a)) b (some r)) x none) _ _
        rw [Bwd.append]
        refine ⟨Bwd.congr (fun z hz => ?_) hb.1, ?_, ?_, ?_⟩
        · rw [upd_ne (by rintro rfl; exact hxa hz), upd_ne (by rintro rfl; exact hba hz), upd_ne (by rintro rfl; exact hra hz)]
        · rw [upd_ne hrx, upd_ne hbr.symm, upd_same, List.getLast?_concat]; rfl
        · rw [upd_ne hbx, upd_same]
        · refine Bwd.congr (fun z hz => ?_) hb.2.2.2
          rw [upd_ne (by rintro rfl; exact hxb (by simp [hz])), upd_ne (by rintro rfl; exact (List.nodup_cons.mp hnb).1 hz),
            upd_ne (by rintro rfl; exact hrb (by simp [hz]))]
      · intro z hz
        show upd (upd (upd h.next r (some b)) a (some r)) x none z = _
        rw [upd_ne (by rintro rfl; simp at hz), upd_ne (by rintro rfl; simp at hz), upd_ne (by rintro rfl; simp at hz)]
      · intro z hz
        show upd (upd (upd h.prev r (some a)) b (some r)) x none z = _
        rw [upd_ne (by rintro rfl; simp at hz), upd_ne (by rintro rfl; simp at hz), upd_ne (by rintro rfl; simp at hz)]
      · intro q _; rfl

end Verif.CJsonList
