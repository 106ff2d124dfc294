import Verif.MatchExpr.Model

/-!
# The variables of payloads, the warning about missing variants, and the value of a `match`
-/

namespace Verif.MatchExpr

open Spec

/-! ## Payloads -/

theorem takeWhile_stop (s t : Str) (h : '_' ∉ s) : (s ++ '_' :: t).takeWhile (· ≠ '_') = s := by
  induction s with
  | nil => rfl
  | cons c s ih =>
    have hc : c ≠ '_' := fun e => h (by rw [e]; exact List.mem_cons_self ..)
    rw [List.cons_append, List.takeWhile_cons_of_pos (by simpa using hc), ih fun hm => h (List.mem_cons_of_mem _ hm)]

/-- The member is what follows the last `_`. -/
theorem lastPart_eq (e v : Str) (h : '_' ∉ v) : lastPart (e ++ '_' :: v) = v := by
  unfold lastPart
  have : (e ++ '_' :: v).reverse = v.reverse ++ '_' :: e.reverse := by simp
  rw [this, takeWhile_stop _ _ (by simpa using h), List.reverse_reverse]

theorem vars_get {G B : Type} (ref : Bool) (c : Case G B) (i : Nat) (b : Bool × Str) (h : c.binds[i]? = some b) :
    (vars ref c)[i]? = some (b.2, access ref c.pattern c.binds.length i b.1) := by
  obtain ⟨hi, hb⟩ := List.getElem?_eq_some_iff.1 h
  unfold vars
  rw [List.getElem?_zipWith, h, List.getElem?_range hi]

theorem hasRef_mem {G B : Type} {cs : List (Case G B)} {c : Case G B} (hc : c ∈ cs) {i : Nat} {b : Bool × Str}
    (h : c.binds[i]? = some b) : (b.1 || hasRef cs) = hasRef cs := by
  cases hb : b.1 with
  | false => rfl
  | true =>
    have : hasRef cs = true := by
      unfold hasRef
      rw [List.any_eq_true]
      exact ⟨c, hc, List.any_eq_true.2 ⟨b, List.mem_of_getElem? h, hb⟩⟩
    rw [this]
    rfl

/-- **The variables of an arm have the parts of the payload.**  In any `match`, an arm `E::V(x, y, ...)` for a variant
whose name has no `_` gives a single variable the payload, and several variables the parts of a tuple in order; a
variable with `ref` gets the address, whatever the other arms have. -/
theorem payload_parts {G B V : Type} {cs : List (Case G B)} {c : Case G B} (hc : c ∈ cs) {en v : Str} (hv : '_' ∉ v)
    (hp : c.pattern = en ++ '_' :: v) (e : Enum) (vs : List V)
    (hpay : if c.binds.length = 1 then e.payload v ≠ .none else e.payload v = .tuple vs.length ∧ c.binds.length ≤ vs.length)
    {i : Nat} {b : Bool × Str} (hb : c.binds[i]? = some b) :
    ∃ a, (vars (hasRef cs) c)[i]? = some (b.2, a) ∧ a.addr = b.1 ∧
      some (get e (hasRef cs) v vs a) = (if c.binds.length = 1 then some (.whole vs) else vs[i]?.map .part) := by
  refine ⟨_, vars_get _ c i b hb, rfl, ?_⟩
  have hi : i < c.binds.length := (List.getElem?_eq_some_iff.1 hb).1
  unfold access Spec.get
  rw [hp, lastPart_eq en v hv]
  simp only
  rw [if_neg (by rw [hasRef_mem hc hb]; simp)]
  by_cases h1 : c.binds.length = 1
  · rw [if_pos h1] at hpay ⊢
    rw [h1]
    simp only [Nat.lt_irrefl, if_false]
    cases hx : e.payload v with
    | none => exact absurd hx hpay
    | one => simp
    | tuple n => simp
  · rw [if_neg h1] at hpay ⊢
    rw [if_pos (by omega), hpay.1]
    simp only [if_true]
    rw [if_neg (by omega)]
    have : i < vs.length := by omega
    rw [List.getElem?_eq_getElem this]
    rfl

/-- **A variant whose name has a `_`** does not: the variable is read from the member named by what follows the last
`_`, which holds the payload of another variant, or does not exist. -/
theorem underscore_violated {V : Type} (e : Enum) (ref : Bool) {en x y : Str} (hy : '_' ∉ y) (vs : List V) :
    get e ref (x ++ '_' :: y) vs (access ref (en ++ '_' :: (x ++ '_' :: y)) 1 0 false) =
      if e.payload y = .none then .noMember else .otherMember := by
  have hl : lastPart (en ++ '_' :: (x ++ '_' :: y)) = y := by
    have := lastPart_eq (en ++ '_' :: x) y hy
    simpa using this
  have hne : y ≠ x ++ '_' :: y := by
    intro h
    have := congrArg List.length h
    simp at this
    omega
  unfold access Spec.get
  rw [hl]
  simp only [Nat.lt_irrefl, if_false, Bool.false_or, ne_eq, not_true_eq_false]
  cases hp : e.payload y with
  | none => rfl
  | one => simp [hne]
  | tuple n => simp [hne]

/-- An enum with variants `Rect` and `Big_Rect`: the arm of `Big_Rect` reads the payload of `Rect`. -/
example : get (V := Nat) [("Rect".toList, .one), ("Big_Rect".toList, .one)] false ("Big".toList ++ '_' :: "Rect".toList) [7]
    (access false ("Shape".toList ++ '_' :: ("Big".toList ++ '_' :: "Rect".toList)) 1 0 false) = .otherMember := by
  rw [underscore_violated _ _ (by decide +kernel)]
  decide +kernel

/-- A variable of `Circle`, beside `Rect(w, h)`. -/
example : get (V := Nat) [("Circle".toList, .one), ("Rect".toList, .tuple 2)] true "Rect".toList [3, 4]
    (access true "Shape_Rect".toList 2 1 true) = .part 4 := by decide +kernel

/-- **`match self` does not compile** unless an arm has a `ref`: `self` is an address, and members are read with a dot.
/repo/src/codegen/codegen_stmt.c:237-243. -/
theorem self_violated {V : Type} (e : Enum) (made : Str) (vs : List V) (pattern : Str) (count i : Nat) :
    get e true made vs (access false pattern count i false) = .noMember := rfl

/-! ## Missing variants -/

theorem findSome_mem {reg : Reg} {ps : List Str} {x : Str × Str} (h : ps.findSome? (fun p => reg.find? (·.2 = p)) = some x) :
    x ∈ reg ∧ x.2 ∈ ps := by
  obtain ⟨p, hp, hx⟩ := List.exists_of_findSome?_eq_some h
  have := List.find?_some hx
  simp only [decide_eq_true_eq] at this
  exact ⟨List.mem_of_find?_eq_some hx, by rw [this]; exact hp⟩

/-- **Exactly the missing variants are warned about**, when each arm has one alternative, none has a guard, and the arms
name variants of one enum. -/
theorem missing_exact_partial {reg : Reg} {ps : List Str} {e : Str} (hw : ['_'] ∉ ps → ∃ v ∈ reg, v.2 ∈ ps)
    (he : ∀ v ∈ reg, v.2 ∈ ps → v.1 = e) (v : Str) :
    v ∈ missing reg ps ↔ Uncovered ((reg.filter (·.1 = e)).map (·.2)) (ps.map fun p => ([p], false)) v := by
  unfold missing Uncovered
  by_cases hwild : ['_'] ∈ ps
  · rw [if_pos hwild]
    constructor
    · intro h; cases h
    · rintro ⟨-, h⟩
      exact absurd (List.mem_singleton.2 rfl) (h (['_'] :: [], false) (List.mem_map.2 ⟨['_'], hwild, rfl⟩) rfl).1
  · rw [if_neg hwild]
    obtain ⟨w, hwr, hwp⟩ := hw hwild
    cases hf : ps.findSome? (fun p => reg.find? (·.2 = p)) with
    | none =>
      exfalso
      rw [List.findSome?_eq_none_iff] at hf
      have := hf w.2 hwp
      rw [List.find?_eq_none] at this
      exact this w hwr (by simp)
    | some x =>
      obtain ⟨hx1, hx2⟩ := findSome_mem hf
      have hxe := he x hx1 hx2
      simp only [List.mem_map, List.mem_filter, Bool.and_eq_true, decide_eq_true_eq, Bool.not_eq_true', hxe]
      constructor
      · rintro ⟨u, ⟨hu, hue, hup⟩, rfl⟩
        refine ⟨⟨u, ⟨hu, hue⟩, rfl⟩, ?_⟩
        rintro a ⟨p, hp, rfl⟩ -
        simp only [List.mem_singleton]
        refine ⟨fun h => hwild (by rw [h]; exact hp), fun h => ?_⟩
        rw [← h, ← List.contains_iff_mem, hup] at hp
        cases hp
      · rintro ⟨⟨u, ⟨hu, hue⟩, rfl⟩, h⟩
        refine ⟨u, ⟨hu, hue, ?_⟩, rfl⟩
        cases hcon : ps.contains u.2 with
        | false => rfl
        | true =>
          have := (h ([u.2], false) ⟨u.2, List.contains_iff_mem.1 hcon, rfl⟩ rfl).2
          simp at this

/-- Arms for two variants of three. -/
example : missing [("E".toList, "E_C".toList), ("E".toList, "E_B".toList), ("E".toList, "E_A".toList)] ["E_A".toList, "E_C".toList] =
    ["E_B".toList] := by decide +kernel

/-- **A variant in an alternative is warned about**: an arm `A || B` beside an arm `C` has warnings for both, though
nothing is missing. -/
theorem alternative_violated {e a b c : Str} (hc1 : a ≠ c) (hc2 : b ≠ c)
    (hw : ∀ x ∈ [a ++ '|' :: b, c], x ≠ ['_']) :
    missing [(e, c), (e, b), (e, a)] [a ++ '|' :: b, c] = [b, a] ∧
      ∀ v, ¬ Uncovered [c, b, a] [([a, b], false), ([c], false)] v := by
  have h1 : a ++ '|' :: b ≠ a := fun h => by have := congrArg List.length h; simp at this
  have h2 : a ++ '|' :: b ≠ b := fun h => by have := congrArg List.length h; simp at this; omega
  have w1 := hw _ (List.mem_cons_self ..)
  have w2 := hw c (by simp)
  constructor
  · unfold missing
    rw [if_neg (by simp only [List.mem_cons, List.not_mem_nil, or_false, not_or]; exact ⟨w1.symm, w2.symm⟩)]
    by_cases h3 : c = a ++ '|' :: b
    · simp [h3.symm, hc1, hc2]
    · have h3' : a ++ '|' :: b ≠ c := fun h => h3 h.symm
      simp [List.findSome?, List.find?, h1.symm, h2.symm, h3, hc1, hc2]
  · rintro v ⟨hv, h⟩
    have k1 := (h ([a, b], false) (by simp) rfl).2
    have k2 := (h ([c], false) (by simp) rfl).2
    simp at hv k1 k2
    rcases hv with e | e | e
    · exact k2 e
    · exact k1.2 e
    · exact k1.1 e

/-- **Nothing is warned about when all arms have alternatives**: with one arm `A || B` the third variant is missing. -/
theorem only_alternatives_violated {e a b c : Str} (hc1 : a ≠ c) (hc2 : b ≠ c) (hc : '|' ∉ c)
    (hw : ∀ x ∈ [a, b, c], x ≠ ['_']) :
    missing [(e, c), (e, b), (e, a)] [a ++ '|' :: b] = [] ∧ Uncovered [c, b, a] [([a, b], false)] c := by
  have h1 : a ≠ a ++ '|' :: b := fun h => by have := congrArg List.length h; simp at this
  have h2 : b ≠ a ++ '|' :: b := fun h => by have := congrArg List.length h; simp at this; omega
  have h3 : c ≠ a ++ '|' :: b := fun h => hc (by rw [h]; simp)
  constructor
  · unfold missing
    split
    · rfl
    · simp [List.findSome?, List.find?, h1, h2, h3]
  · refine ⟨by simp, ?_⟩
    intro x hx _
    simp at hx
    subst hx
    simp only [List.mem_cons, List.not_mem_nil, or_false, not_or]
    exact ⟨⟨(hw a (by simp)).symm, (hw b (by simp)).symm⟩, hc1.symm, hc2.symm⟩

/-- **A guarded arm counts as one for all values**: nothing is warned about. -/
theorem guard_missing_violated (e a : Str) : missing [(e, a)] [a] = [] ∧ Uncovered [a] [([a], true)] a := by
  constructor
  · unfold missing
    split
    · rfl
    · simp [List.findSome?, List.find?]
  · exact ⟨by simp, fun x hx h => by simp at hx; subst hx; cases h⟩

/-! ## Values -/

theorem conv_ty (v : Val) : conv v.ty v = some v := by cases v <;> rfl

/-- **The value of a `match` is that of the chosen arm**, when the arms are expressions, or blocks that end with one, of one
type, and there is an arm that is not a block. -/
theorem match_value_partial {bs : List Body} {t : Ty} (ht : ∀ b ∈ bs, ∃ v, (b = .expr v ∨ b = .block v) ∧ v.ty = t)
    (hx : ∃ v, .expr v ∈ bs) {i : Nat} {b : Body} (hi : bs[i]? = some b) :
    ∃ v, bodyVal b = some v ∧ value bs (some i) = .value v := by
  have hty : matchTy bs = some t := by
    unfold matchTy
    cases hf : bs.findSome? infer with
    | none =>
      obtain ⟨v, hv⟩ := hx
      rw [List.findSome?_eq_none_iff] at hf
      cases hf _ hv
    | some u =>
      obtain ⟨b, hb, hu⟩ := List.exists_of_findSome?_eq_some hf
      obtain ⟨v, rfl | rfl, hv⟩ := ht b hb
      · rw [← hv]; exact hu.symm
      · cases hu
  have has : ∀ b ∈ bs, ∃ v, bodyVal b = some v ∧ assign t b = .value v := by
    intro b hb
    obtain ⟨v, rfl | rfl, hv⟩ := ht b hb
    · exact ⟨v, rfl, by simp only [assign]; rw [← hv, conv_ty]⟩
    · exact ⟨v, rfl, by simp only [assign]; rw [← hv, conv_ty]⟩
  obtain ⟨v, h1, h2⟩ := has b (List.mem_of_getElem? hi)
  refine ⟨v, h1, ?_⟩
  unfold value
  rw [hty]
  simp only
  rw [if_neg, hi]
  · exact h2
  · rw [List.any_eq_true]
    rintro ⟨x, hx, he⟩
    obtain ⟨w, -, h⟩ := has x hx
    rw [h] at he
    cases he

/-- An expression and a block. -/
example : value [.expr (.int 4), .block (.int 5)] (some 1) = .value (.int 5) := rfl

/-- **Texts are no values**: a `match` whose arms are string literals is not C, as the number of characters printed is
assigned to a string. -/
theorem string_violated {bs : List Body} {s : Str} (h : bs.head? = some (.str s)) (c : Option Nat) : value bs c = .notC := by
  cases bs with
  | nil => cases h
  | cons b bs =>
    cases h
    have : matchTy (.str s :: bs) = some .string := rfl
    unfold value
    rw [this]
    simp only
    rw [if_pos (List.any_eq_true.2 ⟨Body.str s, List.mem_cons_self .., rfl⟩)]

/-- **A text is printed instead**, where the first arm is a number. -/
theorem printed_violated (n : Int) (s : Str) : value [.expr (.int n), .str s] (some 1) = .printed s := rfl

/-- **`return` in an arm is not C**, whatever the other arms are, and whichever is chosen. -/
theorem return_violated {bs : List Body} (h : .ret ∈ bs) (c : Option Nat) : value bs c = .notC := by
  unfold value
  cases matchTy bs with
  | none => rfl
  | some t =>
    simp only
    rw [if_pos (List.any_eq_true.2 ⟨.ret, h, rfl⟩)]

/-- **Blocks alone are not C**: the `match` is written as a statement. -/
theorem blocks_violated {bs : List Body} (h : ∀ b ∈ bs, ∃ v, b = .block v) (c : Option Nat) : value bs c = .notC := by
  have : matchTy bs = none := by
    unfold matchTy
    rw [List.findSome?_eq_none_iff]
    intro b hb
    obtain ⟨v, rfl⟩ := h b hb
    rfl
  unfold value
  rw [this]

/-- **The first arm decides on the type**: a fraction in a later one is cut off. -/
theorem type_violated (n k : Int) : value [.expr (.int n), .expr (.half (2 * k + 1))] (some 1) =
    .value (.int ((2 * k + 1).tdiv 2)) := rfl

example : value [.expr (.int 1), .expr (.half 5)] (some 1) = .value (.int 2) := rfl

/-- **When no arm is chosen the value is that of a variable never set.** -/
theorem unset_violated (n : Int) : value [.expr (.int n)] none = .unset := rfl

end Verif.MatchExpr
