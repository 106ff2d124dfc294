import Verif.Args.Model

/-! # C79: arguments reach the parameters they are meant for -/

namespace Verif.Args

open Spec

/-! ## Defaults -/

theorem six_same {n k : Nat} (h : k ≤ 6) : sixDigits n k * 10 ^ k = n * 10 ^ 6 := by
  obtain ⟨j, hj⟩ : ∃ j, 6 = k + j := ⟨6 - k, by omega⟩
  have e : 2 * n * 10 ^ 6 + 10 ^ k = 10 ^ k * (2 * (n * 10 ^ j) + 1) := by
    rw [hj, Nat.pow_add]
    simp only [Nat.mul_add, Nat.mul_one]
    congr 1
    ac_rfl
  have hp : 0 < 10 ^ k := Nat.pow_pos (by decide)
  have : sixDigits n k = n * 10 ^ j := by
    unfold sixDigits
    rw [e, Nat.mul_comm 2 (10 ^ k), Nat.mul_div_mul_left _ _ hp]
    omega
  rw [this, hj, Nat.pow_add]
  ac_rfl

mutual
theorem again_ok {V : Type} (W : World V) (env : Name → Option V) : ∀ e : Ex, Simple e →
    ∃ e', again e = some e' ∧ eval W env e' = eval W env e
  | .int n, _ => ⟨_, rfl, rfl⟩
  | .flt n k, h => ⟨_, rfl, by
    simp only [eval, Option.some.injEq]
    exact W.same _ _ _ _ (six_same h)⟩
  | .var x, _ => ⟨_, rfl, rfl⟩
  | .bin op a b, h => by
    obtain ⟨a', h1, h2⟩ := again_ok W env a h.1
    obtain ⟨b', h3, h4⟩ := again_ok W env b h.2
    exact ⟨.bin op a' b', by rw [again, h1, h3], by rw [eval, eval, h2, h4]⟩
  | .un op a, h => by
    obtain ⟨a', h1, h2⟩ := again_ok W env a h
    exact ⟨.un op a', by rw [again, h1]; rfl, by rw [eval, eval, h2]⟩
  | .call f as, h => by
    obtain ⟨as', h1, h2⟩ := agains_ok W env as h
    exact ⟨.call f as', by rw [again, h1]; rfl, by rw [eval, eval, h2]⟩
  | .other _ _, h => by cases h
theorem agains_ok {V : Type} (W : World V) (env : Name → Option V) : ∀ es : Exs, Simples es →
    ∃ es', agains es = some es' ∧ evals W env es' = evals W env es
  | .nil, _ => ⟨_, rfl, rfl⟩
  | .cons e es, h => by
    obtain ⟨e', h1, h2⟩ := again_ok W env e h.1
    obtain ⟨es', h3, h4⟩ := agains_ok W env es h.2
    exact ⟨.cons e' es', by rw [agains, h1, h3], by rw [evals, evals, h2, h4]⟩
end

mutual
theorem eval_scope {V : Type} (W : World V) (l g : Name → Option V) : ∀ e : Ex, (∀ x ∈ vars e, l x = none) →
    eval W (scope l g) e = eval W g e
  | .int _, _ => rfl
  | .flt _ _, _ => rfl
  | .var x, h => by simp [eval, scope, h x (by simp [vars])]
  | .bin op a b, h => by
    rw [eval, eval, eval_scope W l g a fun x hx => h x (by simp [vars, hx]),
      eval_scope W l g b fun x hx => h x (by simp [vars, hx])]
  | .un op a, h => by rw [eval, eval, eval_scope W l g a fun x hx => h x (by simpa [vars] using hx)]
  | .call f as, h => by rw [eval, eval, evals_scope W l g as fun x hx => h x (by simpa [vars] using hx)]
  | .other k as, h => by rw [eval, eval, evals_scope W l g as fun x hx => h x (by simpa [vars] using hx)]
theorem evals_scope {V : Type} (W : World V) (l g : Name → Option V) : ∀ es : Exs, (∀ x ∈ varss es, l x = none) →
    evals W (scope l g) es = evals W g es
  | .nil, _ => rfl
  | .cons e es, h => by
    rw [evals, evals, eval_scope W l g e fun x hx => h x (by simp [varss, hx]),
      evals_scope W l g es fun x hx => h x (by simp [varss, hx])]
end

theorem defaults_le : ∀ {qs : List Param} {es : List Ex}, defaults qs = some es → es.length ≤ qs.length
  | [], es, h => by
    cases h
    simp
  | q :: qs, es, h => by
    rw [defaults] at h
    split at h
    · have := defaults_le h
      simp only [List.length_cons]
      omega
    · split at h
      · rename_i h2
        cases h
        have := defaults_le h2
        simp only [List.length_cons]
        omega
      · cases h

theorem defaults_at : ∀ {qs : List Param} {es : List Ex}, defaults qs = some es → es.length = qs.length →
    ∀ (i : Nat) (q : Param), qs[i]? = some q → ∃ d e, q.dflt = some d ∧ again d = some e ∧ es[i]? = some e
  | [], _, _, _, _, _, h => by simp at h
  | q :: qs, es, h, hl, i, q', hi => by
    rw [defaults] at h
    split at h
    · have := defaults_le h
      simp only [List.length_cons] at hl
      omega
    · rename_i d hd
      split at h
      · rename_i e es' h1 h2
        cases h
        cases i with
        | zero =>
          simp only [List.getElem?_cons_zero, Option.some.injEq] at hi
          subst hi
          exact ⟨d, e, hd, h1, rfl⟩
        | succ i =>
          exact defaults_at h2 (by simpa using hl) i q' (by simpa using hi)
      · cases h

theorem defaults_all {V : Type} (W : World V) (env : Name → Option V) : ∀ {qs : List Param},
    (∀ q ∈ qs, q.dflt.isSome) → (∀ q ∈ qs, ∀ d, q.dflt = some d → Simple d) →
    ∃ es, defaults qs = some es ∧ es.length = qs.length
  | [], _, _ => ⟨[], rfl, rfl⟩
  | q :: qs, h1, h2 => by
    obtain ⟨d, hd⟩ := Option.isSome_iff_exists.1 (h1 q (by simp))
    obtain ⟨e, he, _⟩ := again_ok W env d (h2 q (by simp) d hd)
    obtain ⟨es, h3, h4⟩ := defaults_all W env (qs := qs) (fun x hx => h1 x (by simp [hx]))
      fun x hx => h2 x (by simp [hx])
    exact ⟨e :: es, by rw [defaults, hd]; simp only [he, h3], by simp [h4]⟩

/-! ## Arguments -/

theorem validate_iff (ps : List Param) : ∀ (as : List Arg) (k : Nat), validate ps k as = true ↔
    ∀ (i : Nat) (a : Arg) (p : Param) (n : Name), as[i]? = some a → ps[k + i]? = some p → a.name = some n → n = p.name
  | [], k => by simp [validate]
  | a :: as, k => by
    rw [validate, Bool.and_eq_true, validate_iff ps as (k + 1)]
    constructor
    · rintro ⟨h1, h2⟩ i b p n hb hp hn
      cases i with
      | zero =>
        simp only [List.getElem?_cons_zero, Option.some.injEq] at hb
        subst hb
        rw [Nat.add_zero] at hp
        rw [hn, hp] at h1
        simpa using h1
      | succ i =>
        exact h2 i b p n (by simpa using hb) (by rw [← hp]; congr 1; omega) hn
    · intro h
      refine ⟨?_, fun i b p n hb hp hn => h (i + 1) b p n (by simpa using hb) (by rw [← hp]; congr 1; omega) hn⟩
      split
      · rename_i n p hn hp
        simpa using h 0 a p n rfl (by simpa using hp) hn
      · rfl

theorem written_length (ps : List Param) (nm : Bool) : ∀ (as : List Arg) (k : Nat),
    (written ps nm k as).length = as.length
  | [], _ => rfl
  | _ :: as, k => by simp [written, written_length ps nm as (k + 1)]

theorem written_at (ps : List Param) (nm : Bool) : ∀ (as : List Arg) (k i : Nat) (a : Arg), as[i]? = some a →
    (written ps nm k as)[i]? = some ⟨a.e, !nm && a.array && (match ps[k + i]? with
      | some p => p.slice
      | none => false)⟩
  | [], _, _, _, h => by simp at h
  | b :: as, k, 0, a, h => by
    simp only [List.getElem?_cons_zero, Option.some.injEq] at h
    subst h
    rfl
  | b :: as, k, i + 1, a, h => by
    have := written_at ps nm as (k + 1) i a (by simpa using h)
    rw [written, List.getElem?_cons_succ, this, show k + 1 + i = k + (i + 1) by omega]

theorem received_at {V : Type} (W : World V) (env : Name → Option V) : ∀ (cs : List CArg) (i : Nat) (c : CArg),
    cs[i]? = some c → (received W env cs)[i]? = some (eval W env c.e)
  | [], _, _, h => by simp at h
  | d :: cs, 0, c, h => by
    simp only [List.getElem?_cons_zero, Option.some.injEq] at h
    subst h
    rfl
  | d :: cs, i + 1, c, h => by
    rw [received, List.getElem?_cons_succ]
    exact received_at W env cs i c (by simpa using h)

theorem received_length {V : Type} (W : World V) (env : Name → Option V) : ∀ cs : List CArg,
    (received W env cs).length = cs.length
  | [] => rfl
  | _ :: cs => by simp [received, received_length W env cs]

theorem nodup_name {ps : List Param} (h : (ps.map (·.name)).Nodup) {i j : Nat} {p q : Param}
    (hi : ps[i]? = some p) (hj : ps[j]? = some q) (e : p.name = q.name) : i = j := by
  have h1 : (ps.map (·.name))[i]? = some p.name := by simp [hi]
  have h2 : (ps.map (·.name))[j]? = some p.name := by simp [hj, e]
  obtain ⟨l1, g1⟩ := List.getElem?_eq_some_iff.1 h1
  obtain ⟨l2, g2⟩ := List.getElem?_eq_some_iff.1 h2
  rw [List.nodup_iff_pairwise_ne, List.pairwise_iff_getElem] at h
  rcases Nat.lt_trichotomy i j with hl | hl | hl
  · exact absurd (g1.trans g2.symm) (h i j l1 l2 hl)
  · exact hl
  · exact absurd (g2.trans g1.symm) (h j i l2 l1 hl)

/-- What an accepted call looks like. -/
theorem compile_inv {ps : List Param} {pl : Place} {as : List Arg} {cs : List CArg}
    (hp : pl = .after ∨ named as = false) (hc : compile ps pl as = .ok cs) (hl : cs.length = ps.length) :
    InOrder ps as ∧ ∃ ds : List Ex, cs = written ps (named as) 0 as ++ ds.map (⟨·, false⟩) ∧
      ∀ (i : Nat) (p : Param), as.length ≤ i → ps[i]? = some p →
        ∃ d e, p.dflt = some d ∧ again d = some e ∧ ds[i - as.length]? = some e := by
  unfold compile at hc
  split at hc
  · cases hc
  · rename_i hv
    split at hc
    · cases hc
    · rename_i ds hds
      cases hc
      have hlen : as.length + ds.length = ps.length := by
        simpa [written_length] using hl
      have hd : defaults (ps.drop as.length) = some ds ∨ (ds = [] ∧ as.length = ps.length) := by
        split at hds
        · exact .inl hds
        · cases hds
          exact .inr ⟨rfl, by simpa using hlen⟩
      have hat : ∀ (i : Nat) (p : Param), as.length ≤ i → ps[i]? = some p →
          ∃ d e, p.dflt = some d ∧ again d = some e ∧ ds[i - as.length]? = some e := by
        intro i p hi hpi
        rcases hd with hd | ⟨rfl, hd⟩
        · refine defaults_at hd (by simp; omega) (i - as.length) p ?_
          rw [List.getElem?_drop, show as.length + (i - as.length) = i by omega, hpi]
        · have := (List.getElem?_eq_some_iff.1 hpi).1
          omega
      refine ⟨⟨by omega, ?_, ?_⟩, ds, rfl, hat⟩
      · rcases hp with rfl | hp
        · intro i a p n ha hpi hn
          have hnm : named as = true := by
            unfold named
            rw [List.any_eq_true]
            exact ⟨a, List.mem_of_getElem? ha, by rw [hn]; rfl⟩
          have hval : validate ps 0 as = true := by
            cases h : validate ps 0 as with
            | true => rfl
            | false => exact absurd (by simp [Place.defn, hnm, h]) hv
          exact (validate_iff ps as 0).1 hval i a p n ha (by simpa using hpi) hn
        · intro i a p n ha _ hn
          unfold named at hp
          rw [List.any_eq_false] at hp
          exact absurd (by rw [hn]; rfl) (hp a (List.mem_of_getElem? ha))
      · intro p hpm
        obtain ⟨i, hi⟩ := List.mem_iff_getElem?.1 hpm
        rw [List.getElem?_drop] at hi
        obtain ⟨d, _, h, _⟩ := hat (as.length + i) p (by omega) hi
        rw [h]
        rfl

/-- C79 (partial): an accepted call of a function gives every parameter the value of the argument meant for it, or of its
default, and is accepted exactly if the arguments stand in order and those missing have defaults.
The call stands after the definition, or names no argument; it stands behind the head of the function, or leaves nothing out;
defaults are simple and name nothing local to the caller; no array is given for a slice in a call with names.
Missing from the full claim: names in methods, in the function itself and before it (`named_violated`), defaults in methods
and before the function (`early_violated`), defaults with names of the caller or of parameters (`capture_violated`,
`parameter_violated`), small decimals (`decimal_violated`), other kinds of defaults (`kind_violated`), slices
(`slice_violated`), 17 parameters (`many_violated`), names of structs (`struct_violated`). -/
theorem call_partial {V : Type} (W : World V) {ps : List Param} {locals : Name → Option V} (hg : Good ps locals)
    (globals : Name → Option V) {pl : Place} {as : List Arg} (hp : pl = .after ∨ named as = false) :
    declare ps = .ok () ∧
    (∀ cs, compile ps pl as = .ok cs → accepted ps as cs →
      Passed W (scope locals globals) globals ps as (received W (scope locals globals) cs)) ∧
    ((pl = .after ∨ pl = .inside ∨ pl = .static ∨ as.length = ps.length) →
      (named as = true → ∀ (i : Nat) (a : Arg) (p : Param), as[i]? = some a → ps[i]? = some p → p.slice = true →
        a.array = false) →
      ((∃ cs, compile ps pl as = .ok cs ∧ accepted ps as cs) ↔ InOrder ps as)) := by
  refine ⟨by unfold declare; rw [if_pos hg.few], ?_, ?_⟩
  · intro cs hc ha
    obtain ⟨ho, ds, rfl, hat⟩ := compile_inv hp hc ha.1
    have hw : ∀ (i : Nat) (a : Arg), as[i]? = some a →
        (received W (scope locals globals) (written ps (named as) 0 as ++ ds.map (⟨·, false⟩)))[i]? =
          some (eval W (scope locals globals) a.e) := by
      intro i a h
      have h1 := (List.getElem?_eq_some_iff.1 h).1
      rw [received_at W _ _ i _ (by
        rw [List.getElem?_append_left (by rw [written_length]; exact h1)]
        exact written_at ps (named as) as 0 i a h)]
    have hself : ∀ (j : Nat) (a : Arg), as[j]? = some a → j < ps.length ∧ Given ps as j a := by
      intro j a h
      have h1 := (List.getElem?_eq_some_iff.1 h).1
      have h2 : j < ps.length := Nat.lt_of_lt_of_le h1 ho.few
      refine ⟨h2, ?_⟩
      cases hn : a.name with
      | none => exact .pos h hn
      | some n =>
        have h3 : ps[j]? = some ps[j] := List.getElem?_eq_getElem h2
        exact .name j ps[j] h h3 (by rw [hn, ho.names j a _ n h h3 hn])
    constructor
    · rw [received_length]
      exact ha.1
    · intro i a hi hgv
      cases hgv with
      | name j p h1 h2 h3 =>
        have hj := (hself j a h1).1
        have hpj : ps[j]? = some ps[j] := List.getElem?_eq_getElem hj
        have hij := nodup_name hg.distinct h2 hpj (ho.names j a _ _ h1 hpj h3)
        subst hij
        exact hw _ a h1
      | pos h1 _ => exact hw i a h1
    · intro i p hi hno
      have hge : as.length ≤ i := by
        refine Nat.le_of_not_lt fun hlt => ?_
        exact hno as[i] (hself i _ (List.getElem?_eq_getElem hlt)).2
      obtain ⟨d, e, h1, h2, h3⟩ := hat i p hge hi
      have hmem := List.mem_of_getElem? hi
      refine ⟨d, h1, ?_⟩
      rw [received_at W _ _ i ⟨e, false⟩ (by
        rw [List.getElem?_append_right (by rw [written_length]; exact hge), written_length, List.getElem?_map, h3]
        rfl)]
      obtain ⟨e', h4, h5⟩ := again_ok W (scope locals globals) d (hg.simple p hmem d h1)
      rw [h2] at h4
      cases h4
      rw [h5, eval_scope W locals globals d (hg.closed p hmem d h1)]
    · intro j a h
      exact ⟨j, hself j a h⟩
  · intro hs hsl
    constructor
    · rintro ⟨cs, hc, ha⟩
      exact (compile_inv hp hc ha.1).1
    · intro ho
      have hval : validate ps 0 as = true := (validate_iff ps as 0).2 fun i a p n h1 h2 h3 =>
        ho.names i a p n h1 (by simpa using h2) h3
      have hds : ∃ ds, (if pl.sig then defaults (ps.drop as.length) else some []) = some ds ∧
          as.length + ds.length = ps.length := by
        split
        · obtain ⟨ds, h1, h2⟩ := defaults_all W globals (qs := ps.drop as.length) ho.rest
            fun q hq => hg.simple q (List.mem_of_mem_drop hq)
          refine ⟨ds, h1, ?_⟩
          have := ho.few
          rw [List.length_drop] at h2
          omega
        · rename_i h
          rcases hs with hs | hs | hs | hs
          · exact absurd (by rw [hs]; rfl) h
          · exact absurd (by rw [hs]; rfl) h
          · exact absurd (by rw [hs]; rfl) h
          · exact ⟨[], rfl, hs⟩
      obtain ⟨ds, h1, h2⟩ := hds
      refine ⟨written ps (named as) 0 as ++ ds.map (⟨·, false⟩), ?_, ?_, ?_⟩
      · unfold compile
        rw [if_neg (by simp [hval]), h1]
      · simp [written_length, h2]
      · intro i p a c hpi hai hci hsp haa
        rw [List.getElem?_append_left (by
          rw [written_length]
          exact (List.getElem?_eq_some_iff.1 hai).1), written_at ps _ as 0 i a hai] at hci
        cases hci
        rw [Nat.zero_add, hpi]
        simp only [haa, hsp, Bool.and_true]
        cases hn : named as with
        | false => rfl
        | true => exact absurd (hsl hn i a p hai hpi hsp) (by rw [haa]; simp)

/-! ### A case -/

/-- `fn area(w: int, h: int = LIMIT * 2, scale: float = 0.5)` -/
def area : List Param := [⟨"w", false, none⟩, ⟨"h", false, some (.bin "*" (.var "LIMIT") (.int 2))⟩,
  ⟨"scale", false, some (.flt 5 1)⟩]

/-- Integers, with decimals in millionths and products. -/
def ints : World Int where
  int n := n
  flt n k := (n * 10 ^ 6 : Int) / 10 ^ k
  bin _ a b := a * b
  un _ a := -a
  fn _ vs := vs.length
  other _ vs := vs.length
  same := by
    intro n k m j h
    have hk : (0 : Int) < 10 ^ k := Int.pow_pos (by decide)
    have hj : (0 : Int) < 10 ^ j := Int.pow_pos (by decide)
    have h' : (n : Int) * 10 ^ j = m * 10 ^ k := by exact_mod_cast h
    rw [← Int.mul_ediv_mul_of_pos (n * 10 ^ 6 : Int) (10 ^ k) hj, ← Int.mul_ediv_mul_of_pos (m * 10 ^ 6 : Int) (10 ^ j) hk]
    congr 1
    · calc (10 : Int) ^ j * (n * 10 ^ 6) = n * 10 ^ j * 10 ^ 6 := by ac_rfl
        _ = (m : Int) * 10 ^ k * 10 ^ 6 := by rw [h']
        _ = (10 : Int) ^ k * (m * 10 ^ 6) := by ac_rfl
    · ac_rfl

/-- The global `LIMIT` is 10. -/
def globals : Name → Option Int := fun x => if x = "LIMIT" then some 10 else none

/-- A caller with a local `n`. -/
def caller : Name → Option Int := fun x => if x = "n" then some 3 else none

theorem area_good : Good area caller where
  few := by decide
  distinct := by decide
  simple := by
    intro p hp d hd
    simp only [area, List.mem_cons, List.not_mem_nil, or_false] at hp
    rcases hp with rfl | rfl | rfl <;> cases hd <;> simp [Simple]
  closed := by
    intro p hp d hd x hx
    simp only [area, List.mem_cons, List.not_mem_nil, or_false] at hp
    rcases hp with rfl | rfl | rfl <;> cases hd <;> simp [vars] at hx
    subst hx
    decide

/-- `area(w: n)` -/
example : ∃ cs, compile area .after [⟨some "w", .var "n", false⟩] = .ok cs ∧
    accepted area [⟨some "w", .var "n", false⟩] cs ∧
    received ints (scope caller globals) cs = [some 3, some 20, some 500000] := by
  obtain ⟨_, _, h⟩ := call_partial ints area_good globals (pl := .after) (as := [⟨some "w", .var "n", false⟩]) (.inl rfl)
  obtain ⟨cs, h1, h2⟩ := (h (.inl rfl) (by
    intro _ i a p ha hp hs
    cases i with
    | zero =>
      cases ha
      rfl
    | succ i => simp at ha)).2 ⟨by decide, by
      intro i a p n ha hp hn
      cases i with
      | zero =>
        cases ha
        cases hp
        cases hn
        rfl
      | succ i => simp at ha, by
      intro p hp
      simp only [area, List.length_cons, List.length_nil, List.drop_succ_cons, List.drop_zero, List.mem_cons,
        List.not_mem_nil, or_false] at hp
      rcases hp with rfl | rfl <;> rfl⟩
  refine ⟨cs, h1, h2, ?_⟩
  have : compile area .after [⟨some "w", .var "n", false⟩] = .ok [⟨.var "n", false⟩,
      ⟨.bin "*" (.var "LIMIT") (.int 2), false⟩, ⟨.flt 500000 6, false⟩] := rfl
  rw [this] at h1
  cases h1
  rfl

/-! ### Where the full claim fails -/

/-- C79, violated: in methods, static methods, the function itself and before it, names of arguments are not looked
at: `f(b: x, a: y)` gives `x` to `a`. -/
theorem named_violated {V : Type} (W : World V) (env : Name → Option V) {pl : Place} (h : pl ≠ .after) (a b : Name)
    (x y : Ex) :
    let ps : List Param := [⟨a, false, none⟩, ⟨b, false, none⟩]
    let as : List Arg := [⟨some b, x, false⟩, ⟨some a, y, false⟩]
    Given ps as 0 ⟨some a, y, false⟩ ∧
    ∃ cs, compile ps pl as = .ok cs ∧ accepted ps as cs ∧ received W env cs = [eval W env x, eval W env y] := by
  intro ps as
  refine ⟨.name 1 ⟨a, false, none⟩ rfl rfl rfl, [⟨x, false⟩, ⟨y, false⟩], ?_, ⟨rfl, ?_⟩, rfl⟩
  · unfold compile
    have : pl.defn = false := by cases pl <;> first | rfl | exact absurd rfl h
    rw [this]
    simp only [Bool.false_and, Bool.false_eq_true, if_false]
    split
    · rename_i hd
      split at hd <;> cases hd
    · rename_i ds hd
      split at hd <;> cases hd <;> rfl
  · intro i p _ _ hp _ _ hs
    have : p.slice = false := by
      match i, hp with
      | 0, hp => cases hp; rfl
      | 1, hp => cases hp; rfl
      | i + 2, hp => simp [ps] at hp
    rw [this] at hs
    cases hs

/-- C79, violated: a call of a method, or before the function, that leaves out an argument with a default is
rejected. -/
theorem early_violated {ps : List Param} {pl : Place} {as : List Arg} (h : pl = .before ∨ pl = .method)
    (hl : as.length < ps.length) {cs : List CArg} (hc : compile ps pl as = .ok cs) : ¬ accepted ps as cs := by
  rintro ⟨h1, _⟩
  have h : pl.sig = false := by rcases h with h | h <;> rw [h] <;> rfl
  unfold compile at hc
  rw [h] at hc
  split at hc
  · cases hc
  · simp only [Bool.false_eq_true, if_false, List.map_nil, List.append_nil] at hc
    cases hc
    rw [written_length] at h1
    omega

/-- C79, violated: a default that names a global means the local variable of that name where the call stands. -/
theorem capture_violated {V : Type} (W : World V) (locals globals : Name → Option V) (p x : Name) (v : V)
    (hl : locals x = some v) :
    ∃ cs, compile [⟨p, false, some (.var x)⟩] .after [] = .ok cs ∧ accepted [⟨p, false, some (.var x)⟩] [] cs ∧
      received W (scope locals globals) cs = [some v] :=
  ⟨[⟨.var x, false⟩], rfl, ⟨rfl, fun _ _ _ _ _ h => by simp at h⟩, by simp [received, eval, scope, hl]⟩

/-- C79, violated: a default that names another parameter means whatever has that name where the call stands. -/
theorem parameter_violated {V : Type} (W : World V) (env : Name → Option V) (a b : Name) (e : Ex) :
    ∃ cs, compile [⟨a, false, none⟩, ⟨b, false, some (.var a)⟩] .after [⟨none, e, false⟩] = .ok cs ∧
      received W env cs = [eval W env e, env a] :=
  ⟨[⟨e, false⟩, ⟨.var a, false⟩], rfl, rfl⟩

/-- C79, violated: a decimal below half a millionth becomes 0 as a default. -/
theorem decimal_violated {n k : Nat} (p : Name) (h : 2 * n * 10 ^ 6 < 10 ^ k) :
    compile [⟨p, false, some (.flt n k)⟩] .after [] = .ok [⟨.flt 0 6, false⟩] := by
  have : sixDigits n k = 0 := by
    unfold sixDigits
    refine Nat.div_eq_of_lt ?_
    rw [Nat.two_mul (10 ^ k)]
    exact Nat.add_lt_add_right h _
  show compile [⟨p, false, some (.flt n k)⟩] .after [] = _
  have ha : again (.flt n k) = some (.flt 0 6) := by rw [again, this]
  have hd : defaults [⟨p, false, some (.flt n k)⟩] = some [.flt 0 6] := by
    rw [defaults]
    simp only [ha, defaults]
  unfold compile
  rw [if_neg (by simp [named])]
  simp only [Place.sig, if_true, List.length_nil, List.drop_zero, hd]
  rfl

/-- C79, violated: a default of another kind, as `a ? b : c`, makes every call that leaves it out an error. -/
theorem kind_violated (p : Name) (k : Nat) (as : Exs) : compile [⟨p, false, some (.other k as)⟩] .after [] = .panic := rfl

/-- C79, violated: an array is not made a slice in a call with names. -/
theorem slice_violated (p : Name) (e : Ex) (pl : Place) {cs : List CArg}
    (hc : compile [⟨p, true, none⟩] pl [⟨some p, e, true⟩] = .ok cs) :
    ¬ accepted [⟨p, true, none⟩] [⟨some p, e, true⟩] cs := by
  rintro ⟨_, h⟩
  have : cs = [⟨e, false⟩] := by
    unfold compile at hc
    split at hc
    · cases hc
    · split at hc
      · cases hc
      · rename_i ds hd
        cases hc
        have : ds = [] := by
          split at hd
          · have := defaults_le hd
            simpa using this
          · cases hd
            rfl
        rw [this]
        rfl
  subst this
  exact absurd (h 0 _ _ _ rfl rfl rfl rfl rfl) (by simp)

/-- The same call without the name is accepted. -/
theorem slice_accepted (p : Name) (e : Ex) (pl : Place) :
    ∃ cs, compile [⟨p, true, none⟩] pl [⟨none, e, true⟩] = .ok cs ∧ accepted [⟨p, true, none⟩] [⟨none, e, true⟩] cs := by
  refine ⟨[⟨e, true⟩], ?_, rfl, ?_⟩
  · cases pl <;> rfl
  · intro i _ _ c _ _ hc _ _
    cases i with
    | zero =>
      cases hc
      rfl
    | succ i => simp at hc

/-- C79, violated: 17 parameters overrun the tables. -/
theorem many_violated {ps : List Param} (h : 16 < ps.length) : declare ps = .ub := by
  unfold declare
  rw [if_neg (by omega)]

/-- C79, violated: the arguments of a call that names a struct are lost. -/
theorem struct_violated {V : Type} (zero : V) (fields : List Name) (as : List Arg) (v : V)
    (hv : v ∈ callStruct zero fields as) : v = zero := by
  unfold callStruct at hv
  obtain ⟨_, _, rfl⟩ := List.mem_map.1 hv
  rfl

end Verif.Args
