import Verif.Vector.Model

/-!
# Vector literals and indexing: what holds, and where not
-/

namespace Verif.Vector

open Spec

/-! ### Reading -/

theorem toks_head_name (e : E) : beginsWithName e → ∃ s r, e.toks = .ident s :: r ∧ ∀ r' c, (∃ q, r ++ c :: r' = .colon :: q) → c = .colon := by
  induction e with
  | num n => intro h; exact h.elim
  | var x => intro _; exact ⟨x, [], rfl, fun r' c ⟨q, h⟩ => by simpa using (List.cons.inj h).1⟩
  | neg e _ => intro h; exact h.elim
  | tick => intro _; exact ⟨"tick", _, rfl, fun r' c ⟨q, h⟩ => by simp at h⟩
  | add a b iha _ =>
    intro h
    obtain ⟨s, r, h1, h2⟩ := iha h
    refine ⟨s, r ++ [.plus] ++ b.toks, by simp [E.toks, h1], ?_⟩
    intro r' c ⟨q, hq⟩
    have := h2 (b.toks ++ c :: r') .plus ⟨q, by simpa using hq⟩
    exact absurd this (by decide)

theorem toks_head_other (e : E) : ¬ beginsWithName e → ∃ t r, e.toks = t :: r ∧ (∀ s, t ≠ .ident s) ∧ t ≠ .rbrace ∧
    ∀ r' c, (∃ q, r ++ c :: r' = .colon :: q) → c = .colon := by
  induction e with
  | num n => intro _; exact ⟨_, [], rfl, by simp, by simp, fun r' c ⟨q, h⟩ => by simpa using (List.cons.inj h).1⟩
  | var x => intro h; exact absurd trivial h
  | neg e _ => intro _; exact ⟨.minus, _, rfl, by simp, by simp, fun r' c ⟨q, h⟩ => by simp at h⟩
  | tick => intro h; exact absurd trivial h
  | add a b iha _ =>
    intro h
    obtain ⟨t, r, h1, h2, h3, h4⟩ := iha h
    refine ⟨t, r ++ [.plus] ++ b.toks, by simp [E.toks, h1], h2, h3, ?_⟩
    intro r' c ⟨q, hq⟩
    have := h4 (b.toks ++ c :: r') .plus ⟨q, by simpa using hq⟩
    exact absurd this (by decide)

/-- what stands behind the first item is no colon -/
theorem items_cons (a : List Tok) (r : List (List Tok)) :
    ∃ c q, items (a :: r) = a ++ c :: q ∧ c ≠ .colon := by
  cases r with
  | nil => exact ⟨.rbrace, [], rfl, by decide⟩
  | cons b r => exact ⟨.comma, items (b :: r), by simp [items], by decide⟩

/-- **C188.** Literals with names are read as they are written. -/
theorem read_named (fs : List (String × E)) : read (.named fs) = some fs := by
  cases fs with
  | nil => rfl
  | cons f r =>
    obtain ⟨c, q, h, _⟩ := items_cons ([.ident f.1, .colon] ++ f.2.toks) (r.map fun f => [.ident f.1, .colon] ++ f.2.toks)
    have ht : (Lit.named (f :: r)).toks = .ident f.1 :: .colon :: (f.2.toks ++ c :: q) := by
      simp only [Lit.toks, List.map_cons, h]; simp
    simp [read, ht, isInit, positional]

/-- **C188, partial.** Literals without names are read, with their values in order, unless the first value begins with a name. -/
theorem read_positional_partial (es : List E) (h : ∀ e, es.head? = some e → ¬ beginsWithName e) :
    ∃ fs, read (.pos es) = some fs ∧ fs.map (·.2) = es := by
  have hn : ∀ (l : List E) i, (number i l).map (·.2) = l := by
    intro l; induction l with
    | nil => intro i; rfl
    | cons a l ih => intro i; simp [number, ih]
  cases es with
  | nil => exact ⟨[], rfl, rfl⟩
  | cons e r =>
    obtain ⟨t, u, h1, h2, h3, h4⟩ := toks_head_other e (h e rfl)
    obtain ⟨c, q, h5, h6⟩ := items_cons e.toks (r.map E.toks)
    have ht : (Lit.pos (e :: r)).toks = t :: (u ++ c :: q) := by
      simp only [Lit.toks, List.map_cons]; rw [h5, h1]; rfl
    have hi : isInit (Lit.pos (e :: r)).toks = true := by
      rw [ht]; cases t <;> simp_all [isInit]
    have hp : positional (Lit.pos (e :: r)).toks = true := by
      rw [ht]
      cases hu : u ++ c :: q with
      | nil => simp at hu
      | cons d w =>
        cases d with
        | colon => exact absurd (h4 q c ⟨w, hu⟩) h6
        | _ => cases t <;> simp_all [positional]
    exact ⟨number 0 (e :: r), by simp [read, hi, hp], hn _ _⟩

/-- **C188 is violated.** A literal whose first value begins with a name, a variable or a call, is never taken for one. -/
theorem read_name_violated (e : E) (r : List E) (h : beginsWithName e) : read (.pos (e :: r)) = none := by
  obtain ⟨s, u, h1, h4⟩ := toks_head_name e h
  obtain ⟨c, q, h5, h6⟩ := items_cons e.toks (r.map E.toks)
  have ht : (Lit.pos (e :: r)).toks = .ident s :: (u ++ c :: q) := by
    simp only [Lit.toks, List.map_cons]; rw [h5, h1]; rfl
  have hi : isInit (Lit.pos (e :: r)).toks = false := by
    rw [ht]
    cases hu : u ++ c :: q with
    | nil => simp at hu
    | cons d w =>
      cases d with
      | colon => exact absurd (h4 q c ⟨w, hu⟩) h6
      | _ => simp [isInit]
  simp [read, hi]

/-- `i32x4{a, b, c, d}`; with `-(a)` first it is read. -/
example : read (.pos [.var "a", .var "b", .var "c", .var "d"]) = none ∧
    (read (.pos [.neg (.var "a"), .var "b"])).isSome := by decide +kernel

/-! ### Values -/

theorem evals_length (env : String → Int) (t : Lane) (es : List E) (k : Nat) : (evals env t es k).1.length = es.length := by
  induction es generalizing k with
  | nil => rfl
  | cons e r ih => simp [evals, ih]

theorem evals_get (env : String → Int) (t : Lane) (es : List E) (k i : Nat) (e : E) (h : es[i]? = some e) :
    (evals env t es k).1[i]? = some (t.conv (e.eval env (before env es i k)).1) := by
  induction es generalizing k i with
  | nil => simp at h
  | cons a r ih =>
    cases i with
    | zero => simp at h; subst h; simp [evals, before]
    | succ i =>
      simp at h
      simp only [evals, List.getElem?_cons_succ]
      rw [ih _ _ h]; simp [before]

theorem evals_end (env : String → Int) (t : Lane) (es : List E) (k : Nat) :
    (evals env t es k).2 = before env es es.length k := by
  induction es generalizing k with
  | nil => rfl
  | cons a r ih => simp only [evals]; rw [ih]; simp [before]

theorem init_perLane (env : String → Int) (t : Lane) (lanes : Nat) (es : List E) (k : Nat) (h : es.length ≤ lanes) :
    ∃ r, init env t lanes es k = some r ∧ PerLane env t lanes es k r := by
  refine ⟨((evals env t es k).1 ++ List.replicate (lanes - es.length) 0, (evals env t es k).2), by simp only [init, if_pos h], ?_, ?_, ?_,
    evals_end env t es k⟩
  · simp [evals_length]; omega
  · intro i e he
    have hi : i < es.length := by
      rcases Nat.lt_or_ge i es.length with h | h
      · exact h
      · simp [List.getElem?_eq_none h] at he
    show (_ ++ _)[i]? = _
    rw [List.getElem?_append_left (by rw [evals_length]; exact hi)]
    exact evals_get env t es k i e he
  · intro i h1 h2
    show (_ ++ _)[i]? = _
    rw [List.getElem?_append_right (by rw [evals_length]; exact h1), evals_length]
    simp [List.getElem?_replicate]; omega

/-- **C188, partial.** Two or more values, no more than lanes, the first of which does not begin with a name: each is in its lane, the other lanes are 0, and each
expression is evaluated once, in turn. -/
theorem per_lane_partial (env : String → Int) (t : Lane) (lanes : Nat) (es : List E) (k : Nat) (h2 : 2 ≤ es.length) (hl : es.length ≤ lanes)
    (hn : ∀ e, es.head? = some e → ¬ beginsWithName e) :
    ∃ r, run env t lanes (.pos es) k = some r ∧ PerLane env t lanes es k r := by
  obtain ⟨fs, h1, h3⟩ := read_positional_partial es hn
  have hg : gen lanes fs = es := by
    have hlen : fs.length = es.length := by rw [← h3]; simp
    match fs, hlen, h3 with
    | [], hlen, _ => simp at hlen; omega
    | [f], hlen, _ => simp at hlen; omega
    | f :: g :: r, _, h3 => exact h3
  obtain ⟨r, h4, h5⟩ := init_perLane env t lanes es k hl
  exact ⟨r, by simp [run, h1, hg, h4], h5⟩

theorem pure_eval (env : String → Int) (e : E) (h : Spec.pure e) (k : Nat) : (e.eval env k).2 = k ∧ ∀ k', (e.eval env k').1 = (e.eval env k).1 := by
  induction e generalizing k with
  | num n => exact ⟨rfl, fun _ => rfl⟩
  | var x => exact ⟨rfl, fun _ => rfl⟩
  | neg e ih => exact ⟨(ih h k).1, fun k' => by simp [E.eval, (ih h k).2 k']⟩
  | tick => exact h.elim
  | add a b iha ihb =>
    refine ⟨by simp [E.eval, (iha h.1 k).1, (ihb h.2 k).1], fun k' => ?_⟩
    simp [E.eval, (iha h.1 k).1, (iha h.1 k').1, (iha h.1 k).2 k', (ihb h.2 k).2 k']

theorem evals_replicate (env : String → Int) (t : Lane) (e : E) (h : Spec.pure e) (n k : Nat) :
    evals env t (List.replicate n e) k = (List.replicate n (t.conv (e.eval env k).1), k) := by
  induction n with
  | zero => rfl
  | succ n ih => simp [List.replicate_succ, evals, (pure_eval env e h k).1, ih]

/-- **C188, partial.** `V{v: e}` puts the value of `e` into all lanes if `e` has no effect, with any number of lanes, and so does `V{e}`. -/
theorem broadcast_partial (env : String → Int) (t : Lane) (lanes : Nat) (x : String) (e : E) (k : Nat) (h : Spec.pure e) :
    (∃ r, run env t lanes (.named [(x, e)]) k = some r ∧ Broadcast env t lanes e k r) ∧
      (¬ beginsWithName e → run env t lanes (.pos [e]) k = run env t lanes (.named [(x, e)]) k) := by
  have hr : init env t lanes (List.replicate lanes e) k = some (List.replicate lanes (t.conv (e.eval env k).1), k) := by
    simp [init, evals_replicate env t e h]
  constructor
  · refine ⟨_, by simpa [run, read_named, gen] using hr, by simp, ?_, (pure_eval env e h k).1.symm⟩
    intro y hy; exact (List.mem_replicate.mp hy).2
  · intro hb
    obtain ⟨fs, h1, h3⟩ := read_positional_partial [e] (by intro e' he; simp at he; subst he; exact hb)
    match fs, h3 with
    | [f], h3 =>
      simp at h3
      simp [run, h1, read_named, gen, h3]

/-- **C188 is violated.** `V{v: tick()}` with two lanes or more calls `tick` once for every lane, and the lanes differ (when they can hold the numbers). -/
theorem broadcast_violated (env : String → Int) (t : Lane) (lanes : Nat) (x : String) (k : Nat) (hl : 2 ≤ lanes) :
    (∃ r, run env t lanes (.named [(x, .tick)]) k = some r ∧ r.2 = k + lanes ∧
      r.1[0]? = some (t.conv k) ∧ r.1[1]? = some (t.conv (k + 1 : Nat))) ∧
    ¬ ∃ r, run env t lanes (.named [(x, .tick)]) k = some r ∧ Broadcast env t lanes .tick k r := by
  have hrun : run env t lanes (.named [(x, .tick)]) k = init env t lanes (List.replicate lanes .tick) k := by
    simp [run, read_named, gen]
  obtain ⟨r, h1, h2, h3, _, h5⟩ := init_perLane env t lanes (List.replicate lanes .tick) k (by simp)
  have hb : ∀ i, i ≤ lanes → before env (List.replicate lanes .tick) i k = k + i := by
    intro i hi
    have : ∀ i k, (List.replicate i E.tick).foldl (fun k e => (e.eval env k).2) k = k + i := by
      intro i; induction i with
      | zero => intro k; rfl
      | succ i ih => intro k; simp only [List.replicate_succ, List.foldl_cons]; rw [ih]; simp [E.eval]; omega
    simp only [before, List.take_replicate, Nat.min_eq_left hi, this]
  have hend : r.2 = k + lanes := by rw [h5]; simp [hb]
  refine ⟨⟨r, by rw [hrun, h1], hend, ?_, ?_⟩, ?_⟩
  · have := h3 0 .tick (by simp [List.getElem?_replicate]; omega)
    rw [hb 0 (by omega)] at this; exact this
  · have := h3 1 .tick (by simp [List.getElem?_replicate]; omega)
    rw [hb 1 (by omega)] at this; exact this
  · rintro ⟨q, hq, _, _, hq3⟩
    rw [hrun, h1] at hq
    obtain rfl := Option.some.inj hq
    rw [hend] at hq3
    simp [E.eval] at hq3
    omega

/-- Four lanes: `i32x4{v: tick()}` is `{5, 6, 7, 8}` after five calls, `i32x4{1, 300, tick()}` is `{1, 300, 5, 0}`; in lanes of 8 bits 300 is 44. -/
example : run (fun _ => 0) ⟨32, true⟩ 4 (.named [("v", .tick)]) 5 = some ([5, 6, 7, 8], 9) ∧
    run (fun _ => 0) ⟨32, true⟩ 4 (.pos [.num 1, .num 300, .tick]) 5 = some ([1, 300, 5, 0], 6) ∧
    run (fun _ => 0) ⟨8, true⟩ 4 (.named [("v", .num 300)]) 5 = some ([44, 44, 44, 44], 5) ∧
    run (fun _ => 0) ⟨8, false⟩ 2 (.named [("v", .neg (.num 1))]) 5 = some ([255, 255], 5) := by decide +kernel

/-- **C188.** More values than lanes are an error of the C compiler. -/
theorem too_many (env : String → Int) (t : Lane) (lanes : Nat) (es : List E) (k : Nat) (h2 : 2 ≤ es.length) (hl : lanes < es.length) :
    run env t lanes (.pos es) k = none := by
  by_cases hn : ∀ e, es.head? = some e → ¬ beginsWithName e
  · obtain ⟨fs, h1, h3⟩ := read_positional_partial es hn
    have hlen : fs.length = es.length := by rw [← h3]; simp
    have hg : gen lanes fs = es := by
      match fs, hlen, h3 with
      | [], hlen, _ => simp at hlen; omega
      | [f], hlen, _ => simp at hlen; omega
      | f :: g :: r, _, h3 => exact h3
    simp [run, h1, hg, init, Nat.not_le.mpr hl]
  · match es, hn with
    | [], hn => simp at hn
    | e :: r, hn =>
      have : beginsWithName e := by simpa using hn
      simp [run, read_name_violated e r this]

/-- **C188.** Names are not looked at without the checker: two or more fields, whatever they are called, are lanes in the order in which they are written. -/
theorem names_ignored (env : String → Int) (t : Lane) (lanes : Nat) (fs : List (String × E)) (k : Nat) (h2 : 2 ≤ fs.length) (hl : fs.length ≤ lanes) :
    ∃ r, run env t lanes (.named fs) k = some r ∧ PerLane env t lanes (fs.map (·.2)) k r := by
  have hg : gen lanes fs = fs.map (·.2) := by
    match fs, h2 with
    | f :: g :: r, _ => rfl
  obtain ⟨r, h4, h5⟩ := init_perLane env t lanes (fs.map (·.2)) k (by simpa using hl)
  exact ⟨r, by simp [run, read_named, hg, h4], h5⟩

/-! ### The checker -/

/-- **C188.** The checker accepts one value for all lanes exactly if it is given to the field. -/
theorem check_named (v x : String) (e : E) : ∃ fs, read (.named [(x, e)]) = some fs ∧ (checked v fs = true ↔ x = v) :=
  ⟨_, read_named _, by simp [checked]⟩

/-- **C188 is violated.** With the checker, every literal with a value for each lane is an error, unless the field is called `_v0` and there is one value. -/
theorem check_positional_violated (v : String) (es : List E) (fs : List (String × E)) (h0 : es ≠ []) (hv : v ≠ "_v0")
    (h : read (.pos es) = some fs) : checked v fs = false := by
  match es, h0 with
  | e :: r, _ =>
    by_cases hn : beginsWithName e
    · simp [read_name_violated e r hn] at h
    · have hr : read (.pos (e :: r)) = some (number 0 (e :: r)) := by
        obtain ⟨fs', h1, h3⟩ := read_positional_partial (e :: r) (by intro e' he; simp at he; subst he; exact hn)
        rw [h1]
        unfold read at h1
        split at h1
        · split at h1 <;> simp_all
        · simp at h1
      rw [hr] at h
      obtain rfl := Option.some.inj h
      have hs : ("_v" ++ toString 0 : String) = "_v0" := by decide +kernel
      simp only [checked, number, List.all_cons, hs]
      have : ("_v0" == v) = false := by simpa using fun h => hv h.symm
      simp [this]

/-- `i32x4{1, 2, 3, 4}` is such a literal. -/
example : ∃ fs, read (.pos [.num 1, .num 2, .num 3, .num 4]) = some fs ∧ checked "v" fs = false ∧
    fs.map (·.1) = ["_v0", "_v1", "_v2", "_v3"] := ⟨_, rfl, by decide +kernel, by decide +kernel⟩

/-! ### Indexing -/

/-- **C188, partial.** An index within the vector gives the lane; an array of the same size does the same and stops the program for any other index. -/
theorem index_partial (v : List Int) (i : Nat) (x : Int) (h : v[i]? = some x) :
    index .struct v i = .ok x ∧ index (.array v.length) v i = .ok x ∧
      ∀ j : Int, (j < 0 ∨ j ≥ v.length) → index (.array v.length) v j = .panic := by
  obtain ⟨hi, hx⟩ := List.getElem?_eq_some_iff.mp h
  have hp : 0 < v.length := by omega
  have hg : v.getD i 0 = x := by simp [List.getD, h]
  refine ⟨?_, ?_, ?_⟩
  · simp [index, hi, hx]
  · simp only [index, if_pos hp]
    rw [if_neg (by omega), if_pos (by omega)]
    simpa using hg
  · intro j hj
    simp only [index, if_pos hp, if_pos hj]

/-- **C188 is violated.** An index outside a vector is not stopped, it has no meaning. -/
theorem index_violated (v : List Int) (i : Int) (h : i < 0 ∨ i ≥ v.length) : index .struct v i = .ub := by
  simp only [index]
  rw [if_neg (by omega)]

example : index .struct [1, 2, 3, 4] 3 = .ok 4 ∧ index .struct [1, 2, 3, 4] 4 = .ub ∧ index (.array 4) [1, 2, 3, 4] 4 = .panic ∧
    index (.array 4) [1, 2, 3, 4] (-1) = .panic := by decide +kernel

end Verif.Vector
