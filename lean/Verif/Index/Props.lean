import Verif.Index.Model

/-! # Arrays and slices: properties (C82 and C83) -/

namespace Verif.Index

open Spec

/-! ## Numbers -/

theorem pow_pred {w : Nat} (h : 0 < w) : (2 : Int) ^ w = 2 * 2 ^ (w - 1) := by
  obtain ⟨k, rfl⟩ : ∃ k, w = k + 1 := ⟨w - 1, by omega⟩
  simp only [Nat.add_sub_cancel, Int.pow_succ]
  omega

theorem pow_pos (k : Nat) : (0 : Int) < 2 ^ k := Int.pow_pos (by decide)

theorem signed_small {w : Nat} (hw : 0 < w) {i : Int} (h1 : -2 ^ (w - 1) ≤ i) (h2 : i < 2 ^ (w - 1)) : signed w i = i := by
  have hp := pow_pred hw
  unfold signed
  rw [Int.emod_eq_of_lt (by omega) (by omega)]
  omega

theorem signed_big {w : Nat} (hw : 0 < w) {i : Int} (h1 : 2 ^ (w - 1) ≤ i) (h2 : i < 2 ^ w) : signed w i = i - 2 ^ w := by
  have hp := pow_pred hw
  have hpos := pow_pos (w - 1)
  unfold signed
  have : i + 2 ^ (w - 1) = (i + 2 ^ (w - 1) - 2 ^ w) + 2 ^ w := by omega
  rw [this, Int.add_emod_right, Int.emod_eq_of_lt (by omega) (by omega)]
  omega

theorem pow_mono {a b : Nat} (h : a ≤ b) : (2 : Int) ^ a ≤ 2 ^ b := by
  obtain ⟨k, rfl⟩ := Nat.exists_eq_add_of_le h
  rw [Int.pow_add]
  have h1 := pow_pos a
  have h2 := pow_pos k
  have : (2 : Int) ^ a * 1 ≤ 2 ^ a * 2 ^ k := Int.mul_le_mul_of_nonneg_left (by omega) (by omega)
  omega

/-- Indices that are in the range of `long` or `unsigned long` are checked rightly. -/
theorem check_spec {L : Nat} (hL : 32 ≤ L) {i n : Int} (hn : n < 2 ^ 31) (h1 : -2 ^ (L - 1) ≤ i) (h2 : i < 2 ^ L) :
    check L i n = if 0 ≤ i ∧ i < n then .ok i else .panic := by
  have hm := pow_mono (a := 31) (b := L - 1) (by omega)
  have hw : 0 < L := by omega
  unfold check
  by_cases hs : i < 2 ^ (L - 1)
  · rw [signed_small hw h1 hs]
    by_cases h : 0 ≤ i ∧ i < n
    · rw [if_pos h, if_neg (by omega)]
    · rw [if_neg h, if_pos (by omega)]
  · have hs' : (2 : Int) ^ (L - 1) ≤ i := by omega
    rw [signed_big hw hs' h2, if_pos (by omega), if_neg (by omega)]

/-! ## Types -/

theorem array_wrap {ds : List Int} (h : Sizes ds) : wrap .elem (ds.map .size) = array ds := by
  induction ds with
  | nil => rfl
  | cons d ds ih =>
    have hd := h d (by simp)
    simp only [List.map_cons, wrap, array, Dim.kept]
    rw [signed_small (by decide) (by omega) (by simpa using hd.2), ih fun x hx => h x (by simp [hx])]

theorem cText_spec : ∀ (t : Ty) (ds : List Int), Plain t →
    ∃ h es, cText ds t = some (h, ds ++ es) ∧ cArr h.cty es = ctype t ∧ ((∀ k u, t = .arr k u → k = 0) → es = [])
  | .elem, ds, _ => ⟨.elem, [], by simp [cText], rfl, fun _ => rfl⟩
  | .arr n t, ds, hp => by
    obtain ⟨h0, ht, hs⟩ := hp
    by_cases hn : n = 0
    · obtain ⟨h, es, e1, e2, e3⟩ := cText_spec t [] ht
      have := e3 (hs hn)
      subst this
      refine ⟨.slice h, [], ?_, ?_, fun _ => rfl⟩
      · simp [cText, hn, e1]
      · simp only [cArr] at e2
        simp [cArr, ctype, hn, Head.cty, e2]
    · obtain ⟨h, es, e1, e2, _⟩ := cText_spec t (ds ++ [n]) ht
      refine ⟨h, n :: es, ?_, ?_, fun hh => absurd (hh n t rfl) hn⟩
      · have : 0 < n := by omega
        simp [cText, hn, this, e1]
      · simp [cArr, ctype, hn, e2]

/-- **C82.** The C type of a variable is the one that is meant: `T[2][3]` has two rows of three elements. -/
theorem declared_spec (t : Ty) (h : Plain t) : declared t = some (ctype t) := by
  obtain ⟨hd, es, e1, e2, _⟩ := cText_spec t [] h
  simp only [List.nil_append] at e1
  simp [declared, e1, e2]

example : Plain (wrap .elem [.size 2, .size 3, .open]) ∧
    declared (wrap .elem [.size 2, .size 3, .open]) = some (.arr 2 (.arr 3 (.slice .elem))) := by
  have h : wrap .elem [.size 2, .size 3, .open] = .arr 2 (.arr 3 (.arr 0 .elem)) := by decide
  rw [h]
  refine ⟨⟨by decide, ⟨by decide, ⟨by decide, trivial, fun _ _ _ h => by cases h⟩, fun h => by cases h⟩, fun h => by cases h⟩, by decide⟩

/-! ## Arrays -/

/-- Where an element lies: row after row. -/
def offset : List Int → List Int → Int
  | _ :: ds, i :: is => i * count ds + offset ds is
  | _, _ => 0

theorem count_pos : ∀ {ds : List Int}, Sizes ds → 0 < count ds
  | [], _ => by decide
  | d :: ds, h => Int.mul_pos (h d (by simp)).1 (count_pos fun x hx => h x (by simp [hx]))

theorem cells_array : ∀ {ds : List Int}, Sizes ds → (array ds).cells = count ds
  | [], _ => rfl
  | d :: ds, h => by
    have hd := h d (by simp)
    have hne : ¬ d = 0 := by omega
    have hs : Sizes ds := fun x hx => h x (by simp [hx])
    simp only [array, Ty.cells, hne, if_false, count, cells_array hs]

theorem offset_range : ∀ {ds is : List Int}, Sizes ds → Valid ds is → 0 ≤ offset ds is ∧ offset ds is < count ds
  | [], [], _, _ => by decide
  | [], _ :: _, _, h => h.elim
  | _ :: _, [], _, h => h.elim
  | d :: ds, i :: is, hs, ⟨h0, h1, h2⟩ => by
    have hs' : Sizes ds := fun x hx => hs x (by simp [hx])
    obtain ⟨a, b⟩ := offset_range hs' h2
    have hc := count_pos hs'
    simp only [offset, count]
    have e1 : 0 ≤ i * count ds := Int.mul_nonneg h0 (by omega)
    have e2 : (i + 1) * count ds ≤ d * count ds := Int.mul_le_mul_of_nonneg_right (by omega) (by omega)
    rw [Int.add_mul] at e2
    omega

theorem offset_inj : ∀ {ds is js : List Int}, Sizes ds → Valid ds is → Valid ds js → offset ds is = offset ds js → is = js
  | [], [], [], _, _, _, _ => rfl
  | [], _ :: _, _, _, h, _, _ => h.elim
  | [], [], _ :: _, _, _, h, _ => h.elim
  | _ :: _, [], _, _, h, _, _ => h.elim
  | _ :: _, _ :: _, [], _, _, h, _ => h.elim
  | d :: ds, i :: is, j :: js, hs, ⟨_, _, hi⟩, ⟨_, _, hj⟩, he => by
    have hs' : Sizes ds := fun x hx => hs x (by simp [hx])
    have hc := count_pos hs'
    have ri := offset_range hs' hi
    have rj := offset_range hs' hj
    simp only [offset] at he
    have hij : i = j := by
      rcases Int.lt_trichotomy i j with h | h | h
      · have : (i + 1) * count ds ≤ j * count ds := Int.mul_le_mul_of_nonneg_right (by omega) (by omega)
        rw [Int.add_mul] at this
        omega
      · exact h
      · have : (j + 1) * count ds ≤ i * count ds := Int.mul_le_mul_of_nonneg_right (by omega) (by omega)
        rw [Int.add_mul] at this
        omega
    subst hij
    rw [offset_inj hs' hi hj (by omega)]

/-- The place of an element, and that there is none if an index is not in its range. -/
theorem place_array {L : Nat} (hL : 32 ≤ L) (m : Mem) : ∀ (ds is : List Int) (v : Bool) (a : Int), Sizes ds → Fits L is →
    is.length = ds.length → place L m v (array ds) a is = if Valid ds is then .ok (a + offset ds is) else .panic
  | [], [], v, a, _, _, _ => by
    simp [array, place, Valid, offset]
  | [], _ :: _, _, _, _, _, h => by simp at h
  | _ :: _, [], _, _, _, _, h => by simp at h
  | d :: ds, i :: is, v, a, hs, hf, hl => by
    have hs' : Sizes ds := fun x hx => hs x (by simp [hx])
    have hd := hs d (by simp)
    have hne : ¬ d = 0 := by omega
    have hi := hf i (by simp)
    simp only [array, place, hne, if_false]
    rw [check_spec hL hd.2 hi.1 hi.2]
    by_cases h : 0 ≤ i ∧ i < d
    · rw [if_pos h]
      simp only [cells_array hs']
      rw [place_array hL m ds is false _ hs' (fun x hx => hf x (by simp [hx])) (by simpa using hl)]
      by_cases hv : Valid ds is
      · rw [if_pos hv, if_pos ⟨h.1, h.2, hv⟩]
        simp only [offset, Int.add_assoc]
      · rw [if_neg hv, if_neg fun hh => hv hh.2.2]
    · rw [if_neg h, if_neg fun hh => h ⟨hh.1, hh.2.1⟩]

/-- The array in the program and the one that is meant read the same, and end in the same way; nothing else has changed. -/
def Agree (ds : List Int) (a : Int) (f : List Int → Int) (m : Mem) (r : List (Option Int) × End Mem) (s : List (Option Int) × End Arr) : Prop :=
  r.1 = s.1 ∧
  match r.2, s.2 with
  | .done m', .done A' => Lies ds m' a A' f ∧ ∀ b, (b < a ∨ a + count ds ≤ b) → m' b = m b
  | .stopped, .stopped => True
  | _, _ => False

theorem lies_put {ds : List Int} {m : Mem} {a : Int} {A : Arr} {f : List Int → Int} (h : Lies ds m a A f) {is : List Int} (hv : Valid ds is) (v : Int) :
    Lies ds (put m (f is) (.int v)) a (fun js => if js = is then v else A js) f := by
  refine ⟨h.inside, h.apart, fun js hj => ?_⟩
  unfold put
  by_cases e : js = is
  · subst e; simp
  · have : f js ≠ f is := fun hh => e (h.apart _ _ hj hv hh)
    simp [e, this, h.value js hj]

theorem runs_ok {S O : Type} {f : S → O → Res (S × Option Int)} {s s' : S} {o : O} {w : Option Int} (h : f s o = .ok (s', w)) (os : List O) :
    runs f s (o :: os) = (w :: (runs f s' os).1, (runs f s' os).2) := by simp [runs, h]

theorem runs_panic {S O : Type} {f : S → O → Res (S × Option Int)} {s : S} {o : O} (h : f s o = .panic) (os : List O) :
    runs f s (o :: os) = ([], .stopped) := by simp [runs, h]

/-- Operations whose place is that of the specification, as long as `I` holds, behave as it says. -/
theorem runs_agree (L : Nat) (ds : List Int) (a : Int) (f : List Int → Int) (I : Mem → Prop)
    (hI : ∀ m is v, I m → Valid ds is → a ≤ f is → f is < a + count ds → I (put m (f is) (.int v))) :
    ∀ (xs : List (Root × Op)), (∀ x ∈ xs, ∀ m, I m →
      place L m x.1.var x.1.ty x.1.at_ x.2.ix = if Valid ds x.2.ix then .ok (f x.2.ix) else .panic) →
    ∀ (m : Mem) (A : Arr), I m → Lies ds m a A f →
    Agree ds a f m (runs (stepAt L) m xs) (runs (Spec.step ds) A (xs.map (·.2))) := by
  intro xs
  induction xs with
  | nil => intro _ m A _ hl; exact ⟨rfl, hl, fun _ _ => rfl⟩
  | cons x xs ih =>
    intro hpl m A hi hl
    obtain ⟨r, o⟩ := x
    have hx := hpl (r, o) (by simp) m hi
    have ih := ih fun y hy => hpl y (by simp [hy])
    rw [List.map_cons]
    cases o with
    | read is =>
      have hx : place L m r.var r.ty r.at_ is = if Valid ds is then .ok (f is) else .panic := hx
      by_cases hv : Valid ds is
      · have e1 : stepAt L m (r, .read is) = .ok (m, some (A is)) := by
          simp only [stepAt, step, hx, if_pos hv, hl.value is hv]
        have e2 : Spec.step ds A (.read is) = .ok (A, some (A is)) := by simp only [Spec.step, if_pos hv]
        rw [runs_ok e1, runs_ok e2]
        obtain ⟨g1, g2⟩ := ih m A hi hl
        exact ⟨by rw [g1], g2⟩
      · have e1 : stepAt L m (r, .read is) = .panic := by simp only [stepAt, step, hx, if_neg hv]
        have e2 : Spec.step ds A (.read is) = .panic := by simp only [Spec.step, if_neg hv]
        rw [runs_panic e1, runs_panic e2]
        exact ⟨rfl, trivial⟩
    | write is v =>
      have hx : place L m r.var r.ty r.at_ is = if Valid ds is then .ok (f is) else .panic := hx
      by_cases hv : Valid ds is
      · have e1 : stepAt L m (r, .write is v) = .ok (put m (f is) (.int v), none) := by
          simp only [stepAt, step, hx, if_pos hv, hl.value is hv]
        have e2 : Spec.step ds A (.write is v) = .ok (fun js => if js = is then v else A js, none) := by
          simp only [Spec.step, if_pos hv]
        rw [runs_ok e1, runs_ok e2]
        obtain ⟨b1, b2⟩ := hl.inside is hv
        obtain ⟨g1, g2⟩ := ih _ _ (hI m is v hi hv b1 b2) (lies_put hl hv v)
        refine ⟨by rw [g1], ?_⟩
        revert g2
        generalize (runs (stepAt L) (put m (f is) (.int v)) xs).2 = r1
        generalize (runs (Spec.step ds) (fun js => if js = is then v else A js) (xs.map (·.2))).2 = r2
        cases r1 <;> cases r2 <;> simp only [imp_self]
        rintro ⟨g1, g2⟩
        refine ⟨g1, fun b hb => ?_⟩
        rw [g2 b hb]
        unfold put
        rw [if_neg (by omega)]
      · have e1 : stepAt L m (r, .write is v) = .panic := by simp only [stepAt, step, hx, if_neg hv]
        have e2 : Spec.step ds A (.write is v) = .panic := by simp only [Spec.step, if_neg hv]
        rw [runs_panic e1, runs_panic e2]
        exact ⟨rfl, trivial⟩

/-- **C82.** A variable or field that is an array of arrays … of numbers, with sizes in the range of `int`: whatever was in memory there, it is an array
whose elements are all apart, and every sequence of reads and writes gives what it gives for that array, and stops where an index is
not in its range; nothing else in memory changes. -/
theorem arrays_spec {L : Nat} (hL : 32 ≤ L) (ds : List Int) (hs : Sizes ds) (v : Bool) (a : Int) (m : Mem)
    (hm : ∀ b, a ≤ b → b < a + count ds → ∃ w, m b = some (.int w)) :
    ∃ A f, Lies ds m a A f ∧ ∀ ops : List Op, (∀ o ∈ ops, o.ix.length = ds.length ∧ Fits L o.ix) →
      Agree ds a f m (runs (stepAt L) m (ops.map fun o => (⟨v, wrap .elem (ds.map .size), a⟩, o))) (runs (Spec.step ds) A ops) := by
  refine ⟨fun is => match m (a + offset ds is) with
    | some (.int w) => w
    | _ => 0, fun is => a + offset ds is, ⟨?_, ?_, ?_⟩, ?_⟩
  · intro is hv
    have := offset_range hs hv
    omega
  · intro is js hi hj he
    exact offset_inj hs hi hj (by omega)
  · intro is hv
    have := offset_range hs hv
    obtain ⟨w, hw⟩ := hm (a + offset ds is) (by omega) (by omega)
    simp only [hw]
  · intro ops ho
    have hmap : (ops.map fun o => ((⟨v, wrap .elem (ds.map .size), a⟩ : Root), o)).map (·.2) = ops := by
      simp [List.map_map, Function.comp_def]
    have h := runs_agree L ds a (fun is => a + offset ds is) (fun _ => True) (fun _ _ _ _ _ _ _ => trivial)
      (ops.map fun o => ((⟨v, wrap .elem (ds.map .size), a⟩ : Root), o)) (by
        intro x hx m' _
        obtain ⟨o, ho', rfl⟩ := List.mem_map.mp hx
        simp only [array_wrap hs]
        exact place_array hL m' ds o.ix v a hs (ho o ho').2 (ho o ho').1) m
      (fun is => match m (a + offset ds is) with
        | some (.int w) => w
        | _ => 0) trivial ⟨fun is hv => by
          have := offset_range hs hv
          omega, fun is js hi hj he => offset_inj hs hi hj (by omega), fun is hv => by
          have := offset_range hs hv
          obtain ⟨w, hw⟩ := hm (a + offset ds is) (by omega) (by omega)
          simp only [hw]⟩
    rw [hmap] at h
    exact h

/-- The numbers from 100 on in six cells. -/
def six : Mem := fun b => if 0 ≤ b ∧ b < 6 then some (.int (100 + b)) else none

example : Sizes [2, 3] ∧ (∀ b, 0 ≤ b → b < 0 + count [2, 3] → ∃ w, six b = some (.int w)) ∧
    (runs (stepAt 64) six [(⟨true, wrap .elem [.size 2, .size 3], 0⟩, .read [1, 2]), (⟨true, wrap .elem [.size 2, .size 3], 0⟩, .write [0, 1] 7),
      (⟨true, wrap .elem [.size 2, .size 3], 0⟩, .read [0, 1]), (⟨true, wrap .elem [.size 2, .size 3], 0⟩, .read [0, 3])]).1 = [some 105, none, some 7] := by
  refine ⟨fun d hd => by simp at hd; omega, fun b h1 h2 => ⟨100 + b, ?_⟩, by decide⟩
  have : count [2, 3] = 6 := by decide
  unfold six
  rw [if_pos (by omega)]

/-! ## Slices -/

/-- The array with `n` elements from `a` on, and variables in `P` that are slices of all of it. -/
inductive Sees (P : Int → Prop) (a n : Int) : Root → Prop where
  | array (v : Bool) : 0 < n → Sees P a n ⟨v, wrap .elem [.size n], a⟩
  | slice (p : Int) : P p → Sees P a n ⟨true, wrap .elem [.open], p⟩

/-- **C83, partial.** Variables that are slices of an array, mixed with the array itself: all of them read and write the same elements, and stop
where the index is not in the range. Missing: slices that are not variables, see `field_slice_violated` and `array_of_slices_violated`. -/
theorem views_partial {L : Nat} (hL : 32 ≤ L) (P : Int → Prop) (a n : Int) (h0 : 0 ≤ n) (hn : n < 2 ^ 31) (m : Mem)
    (hm : ∀ b, a ≤ b → b < a + n → ∃ w, m b = some (.int w)) (hP : ∀ p, P p → m p = some (view a n)) :
    ∃ A f, Lies [n] m a A f ∧ ∀ xs : List (Root × Op), (∀ x ∈ xs, Sees P a n x.1 ∧ x.2.ix.length = 1 ∧ Fits L x.2.ix) →
      Agree [n] a f m (runs (stepAt L) m xs) (runs (Spec.step [n]) A (xs.map (·.2))) := by
  have hlies : Lies [n] m a (fun is => match m (a + is.headD 0) with
      | some (.int w) => w
      | _ => 0) (fun is => a + is.headD 0) := by
    refine ⟨?_, ?_, ?_⟩
    · intro is hv
      match is, hv with
      | [i], hv =>
        have hc : count [n] = n := by simp [count]
        simp only [List.headD_cons]
        have := hv.1; have := hv.2.1
        omega
    · intro is js hi hj he
      match is, js, hi, hj with
      | [i], [j], hi, hj =>
        simp only [List.headD_cons] at he
        have : i = j := by omega
        rw [this]
    · intro is hv
      match is, hv with
      | [i], hv =>
        have := hv.1; have := hv.2.1
        obtain ⟨w, hw⟩ := hm (a + i) (by omega) (by omega)
        simp only [List.headD_cons, hw]
  refine ⟨_, _, hlies, fun xs hx => ?_⟩
  refine runs_agree L [n] a _ (fun m' => ∀ p, P p → m' p = some (view a n)) ?_ xs ?_ m _ hP hlies
  · intro m' is v hi hv h1 h2 p hp
    have hc : count [n] = n := by simp [count]
    rw [hc] at h2
    obtain ⟨w, hw⟩ := hm _ h1 h2
    have : p ≠ a + is.headD 0 := fun e => by
      have := hP p hp
      rw [e, hw] at this
      cases this
    simp only [put, if_neg this]
    exact hi p hp
  · intro x hxm m' hI
    obtain ⟨hsee, hlen, hfit⟩ := hx x hxm
    obtain ⟨r, o⟩ := x
    obtain ⟨i, h⟩ : ∃ i, o.ix = [i] := by
      simp only at hlen
      match o.ix, hlen with
      | [i], _ => exact ⟨i, rfl⟩
    · simp only [h] at hfit ⊢
      have hi := hfit i (by simp)
      cases hsee with
      | array v hpos =>
        have hs : Sizes [n] := fun d hd => by simp at hd; subst hd; exact ⟨hpos, hn⟩
        have := array_wrap hs
        simp only [List.map_cons, List.map_nil] at this
        simp only [this]
        rw [place_array hL m' [n] [i] v a hs hfit rfl]
        simp [offset, count]
      | slice p hp =>
        have hw : wrap .elem [.open] = .arr 0 .elem := by decide
        simp only [hw, place, if_true, hI p hp, view]
        rw [check_spec hL hn hi.1 hi.2]
        by_cases hv : 0 ≤ i ∧ i < n
        · rw [if_pos hv, if_pos ⟨hv.1, hv.2, trivial⟩]
          simp [Ty.cells]
        · rw [if_neg hv, if_neg fun hh => hv ⟨hh.1, hh.2.1⟩]

/-- Three numbers, and a slice of them. -/
def three : Mem := fun b => if 0 ≤ b ∧ b < 3 then some (.int (10 + b)) else if b = 8 then some (view 0 3) else none

example : (∀ b, 0 ≤ b → b < 0 + 3 → ∃ w, three b = some (.int w)) ∧ (∀ p, p = 8 → three p = some (view 0 3)) ∧
    (runs (stepAt 64) three [(⟨true, wrap .elem [.open], 8⟩, .write [2] 5), (⟨true, wrap .elem [.size 3], 0⟩, .read [2]),
      (⟨true, wrap .elem [.open], 8⟩, .read [3])]).1 = [none, some 5] := by
  refine ⟨fun b h1 h2 => ⟨10 + b, ?_⟩, fun p hp => by subst hp; decide, by decide⟩
  unfold three
  rw [if_pos (by omega)]

/-- **C83, partial.** Arrays and variables that are slices whose elements are slices: an element is that of the row at its own cell, and an index of
a row that is not in the range stops. Missing: the index into the row is not checked, see `array_of_slices_violated`. -/
theorem rows_partial {L : Nat} (hL : 32 ≤ L) (m : Mem) (n a d len i j : Int) (hn : n < 2 ^ 31) (hi : Fits L [i]) :
    (0 < n → m (a + i) = some (.slice d len) → ∀ v, place L m v (wrap .elem [.size n, .open]) a [i, j] =
      if 0 ≤ i ∧ i < n then .ok (d + j) else .panic) ∧
    (∀ p, m p = some (.slice a n) → m (a + i) = some (.slice d len) →
      place L m true (wrap .elem [.open, .open]) p [i, j] = if 0 ≤ i ∧ i < n then .ok (d + j) else .panic) := by
  have hf := hi i (by simp)
  have hc := check_spec hL hn hf.1 hf.2
  constructor
  · intro h0 hm v
    have hk : signed 32 n = n := signed_small (by decide) (by omega) (by omega)
    have h0' : ¬ n = 0 := by omega
    simp only [wrap, Dim.kept, hk, place, h0', if_false, hc]
    by_cases h : 0 ≤ i ∧ i < n
    · simp [h, Ty.cells, hm]
    · simp [h]
  · intro p hp hm
    simp only [wrap, Dim.kept, place, if_true, hp, hc]
    by_cases h : 0 ≤ i ∧ i < n
    · simp [h, Ty.cells, hm]
    · simp [h]

example : place 64 (fun b => if b = 5 then some (view 10 2) else if b = 6 then some (view 20 3) else none) true
    (wrap .elem [.size 2, .open]) 5 [1, 2] = .ok 22 := by decide

/-- **C83, partial.** A part of a slice whose bounds are in its range is the slice of that part. Missing: that others stop, see `part_bounds_violated`. -/
theorem part_partial (d len s e : Int) (h0 : 0 ≤ s) (h1 : s ≤ e) (h2 : e ≤ len) (hl : len < 2 ^ 31) :
    part (.slice d len) (some s) (some e) = view (d + s) (e - s) ∧
    part (.slice d len) none (some e) = view d e ∧
    part (.slice d len) (some s) none = view (d + s) (len - s) := by
  have p31 : (2 : Int) ^ (32 - 1) = 2147483648 := by decide
  have h31 : (2 : Int) ^ 31 = 2147483648 := by decide
  rw [h31] at hl
  have e1 : signed 32 s = s := signed_small (by decide) (by omega) (by omega)
  have e2 : signed 32 (e - s) = e - s := signed_small (by decide) (by omega) (by omega)
  have e3 : signed 32 e = e := signed_small (by decide) (by omega) (by omega)
  have e4 : signed 32 (len - s) = len - s := signed_small (by decide) (by omega) (by omega)
  refine ⟨?_, ?_, ?_⟩ <;> simp [part, view, partStart, Whole.data, Whole.rest, e1, e2, e3, e4]

example : part (.slice 100 10) (some 3) (some 7) = view 103 4 := by decide

/-! ## What is not so -/

/-- Four numbers of which the first two belong to one array and the others to the next one; at 8 the slice of the first two, and at 9 … what the part `[0..4]` of it is. -/
def two : Mem := fun b => if 0 ≤ b ∧ b < 4 then some (.int (10 + b)) else if b = 8 then some (view 0 2)
  else if b = 9 then some (part (.slice 0 2) (some 0) (some 4)) else none

/-- Elements of a slice that is a field are not checked: the neighbour is overwritten. -/
theorem field_slice_violated : ∃ (m : Mem) (r : Root), r.var = false ∧ m r.at_ = some (view 0 2) ∧
    (match step 64 m r (.write [3] 99) with
      | .ok (m', _) => m 3 = some (.int 13) ∧ m' 3 = some (.int 99)
      | _ => False) ∧ step 64 m r (.read [1000]) = .ub :=
  ⟨two, ⟨false, .arr 0 .elem, 8⟩, rfl, by decide, ⟨by decide, by decide⟩, rfl⟩

/-- Elements of the slices in an array are not checked, although the array is a variable. -/
theorem array_of_slices_violated : ∃ (m : Mem) (r : Root), r.var = true ∧ r.ty = wrap .elem [.size 1, .open] ∧ m r.at_ = some (view 0 2) ∧
    step 64 m r (.read [0, 3]) = .ok (m, some 13) :=
  ⟨two, ⟨true, .arr 1 (.arr 0 .elem), 8⟩, rfl, by decide, by decide, rfl⟩

/-- Bounds of a part are not checked: it may be longer than the whole, and its elements then are those of the neighbour. -/
theorem part_bounds_violated : ∃ (m : Mem) (r : Root), r.var = true ∧ m r.at_ = some (part (.slice 0 2) (some 0) (some 4)) ∧
    step 64 m r (.read [3]) = .ok (m, some 13) :=
  ⟨two, ⟨true, .arr 0 .elem, 9⟩, rfl, by decide, rfl⟩

/-- A part from the start of something behind a pointer without an end is empty, and one with a negative start is in front of it. -/
theorem part_open_violated (a : Int) : part (.ptr a) (some 1) none = view (a + 1) 0 ∧
    part (.slice a 2) (some (-1)) (some 1) = view (a + -1) 2 := ⟨rfl, rfl⟩

/-- A variable `_start` as the start is not read: the variable of the block is, before it has a value. -/
theorem part_capture_violated (w : Whole) (env : String → Int) (e : Int) : partVar w "_start" env e = .ub ∧
    partVar w "s" env e = .ok (part w (some (env "s")) (some e)) := ⟨rfl, rfl⟩

/-- Arrays are not passed by value: what a function writes to its parameter is written to the array of the caller. -/
theorem param_value_violated : ∃ m : Mem, (match step 64 m (param 2 0) (.write [0] 99) with
      | .ok (m', _) => m 0 = some (.int 10) ∧ m' 0 = some (.int 99)
      | _ => False) := ⟨two, by decide, by decide⟩

/-- The checks of a parameter use its own size: an array of two elements given for one of four is written behind its end. -/
theorem param_size_violated : ∃ m : Mem, (match step 64 m (param 4 0) (.write [3] 99), step 64 m ⟨true, .arr 2 .elem, 0⟩ (.write [3] 99) with
      | .ok (m', _), .panic => m 3 = some (.int 13) ∧ m' 3 = some (.int 99)
      | _, _ => False) := ⟨two, by decide, by decide⟩

/-- Sizes are cut to `int`: `int[4294967297]` has one element, and `int[4294967296]` is a slice. -/
theorem size_cut_violated : wrap .elem [.size 4294967297] = .arr 1 .elem ∧ wrap .elem [.size 4294967296] = wrap .elem [.open] := by decide

/-- A negative size is not rejected: the compiler does not end. -/
theorem size_negative_violated (n : Int) (h : n < 0) (t : Ty) : declared (.arr n t) = none := by
  have h1 : ¬ n = 0 := by omega
  have h2 : ¬ 0 < n := by omega
  simp [declared, cText, h1, h2]

/-- `int[][3]`, a slice of arrays, is declared as an array of slices, like `int[3][]`. -/
theorem slice_of_arrays_violated : declared (wrap .elem [.open, .size 3]) = declared (wrap .elem [.size 3, .open]) ∧
    ctype (wrap .elem [.open, .size 3]) ≠ ctype (wrap .elem [.size 3, .open]) := by decide

/-- An index of 128 bits is cut before it is checked: `a[2^64]` is `a[0]`; and where `long` has 32 bits, so is `a[2^32]`. -/
theorem index_cut_violated : check 64 (2 ^ 64) 3 = .ok 0 ∧ check 32 (2 ^ 32) 3 = .ok 0 := by decide

end Verif.Index
