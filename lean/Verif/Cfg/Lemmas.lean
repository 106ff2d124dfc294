import Verif.Cfg.Model

/-! Lemmas on the `@cfg` model: the text of a condition and its value. -/

namespace Verif.Cfg
open Spec

/-- The entries of `not` form, as text, each preceded by the operator. -/
def negTail (sep : CTok) (ns : List String) : Cond :=
  ns.flatMap fun m => [sep, .bang, .defined m]

/-- The entries of `not` form, as text. -/
def negText (sep : CTok) : List String → Cond
  | [] => []
  | n :: ns => .bang :: .defined n :: negTail sep ns

/-- The names under `not` in a list of entries. -/
def negNames : List Item → List String
  | [] => []
  | .pos _ :: is => negNames is
  | .neg n :: is => n :: negNames is

/-- The text of one attribute that has no plain name in `any` or `all`. -/
def attrText : Attr → Cond
  | .name n => [.defined n]
  | .not n => [.bang, .defined n]
  | .any is => .lp :: negText .oror (negNames is) ++ [.rp]
  | .all is => .lp :: negText .andand (negNames is) ++ [.rp]

/-- The text of a list of attributes after `c`. -/
def condText (c : Option Cond) : List Attr → Option Cond
  | [] => c
  | a :: as => condText (some (join .andand c (attrText a))) as

theorem items_not_comma (sep : CTok) (t : Tok) (acc : Option Cond) (n : String) (r : List Tok) :
    items sep t acc (.ident "not" :: .lparen :: .ident n :: .rparen :: .comma :: r)
      = items sep t (some (join sep acc [.bang, .defined n])) r := by
  rw [items.eq_def]; simp

theorem items_not_end (sep : CTok) (t : Tok) (acc : Option Cond) (n : String) (r : List Tok) :
    items sep t acc (.ident "not" :: .lparen :: .ident n :: .rparen :: .rparen :: r)
      = .ok (join sep acc [.bang, .defined n], .rparen :: r) := by
  rw [items.eq_def]; simp

theorem items_some (sep : CTok) (t : Tok) (o : Cond) (n : String) (is : List Item)
    (r : List Tok) (h : ∀ m, .pos m ∉ is) :
    items sep t (some o) (itemsToks (.neg n :: is) ++ .rparen :: r)
      = .ok (o ++ negTail sep (n :: negNames is), .rparen :: r) := by
  induction is generalizing o n with
  | nil => simp [itemsToks, Item.toks, items_not_end, join, negNames, negTail]
  | cons i is ih =>
    cases i with
    | pos m => exact absurd (by simp) (h m)
    | neg m =>
      have := ih (o ++ [sep, .bang, .defined n]) m (fun k hk => h k (by simp [hk]))
      simp only [itemsToks, Item.toks, List.cons_append, List.nil_append]
      rw [items_not_comma]
      simp only [join]
      rw [show (o ++ sep :: [CTok.bang, CTok.defined n]) = o ++ [sep, .bang, .defined n] from rfl, this]
      simp [negTail, negNames]

theorem items_none (sep : CTok) (t : Tok) (is : List Item) (r : List Tok)
    (h : ∀ m, .pos m ∉ is) (hne : is ≠ []) :
    items sep t none (itemsToks is ++ .rparen :: r)
      = .ok (negText sep (negNames is), .rparen :: r) := by
  match is with
  | [] => exact absurd rfl hne
  | .pos m :: is => exact absurd (by simp) (h m)
  | [.neg n] => simp [itemsToks, Item.toks, items_not_end, join, negNames, negTail, negText]
  | .neg n :: .pos m :: is => exact absurd (by simp) (h m)
  | .neg n :: .neg m :: is =>
    have := items_some sep t [.bang, .defined n] m is r (fun k hk => h k (by simp [hk]))
    simp only [itemsToks, Item.toks, List.cons_append, List.nil_append]
    simp only [List.cons_append, List.nil_append] at this
    rw [items_not_comma]
    simp only [join]
    rw [this]
    simp [negTail, negNames, negText]

/-- An entry that is a plain name stops the compiler, wherever it stands in the list. -/
theorem items_plain (sep : CTok) (acc : Option Cond) (is : List Item) (r : List Tok) (m : String)
    (h : .pos m ∈ is) (hn : ∀ n, .pos n ∈ is → n ≠ "not") :
    items sep .at acc (itemsToks is ++ .rparen :: r) = .panic := by
  induction is generalizing acc with
  | nil => simp at h
  | cons i is ih =>
    cases i with
    | pos n =>
      have hn' : n ≠ "not" := hn n (by simp)
      cases is with
      | nil => simp [itemsToks, Item.toks, items, hn']
      | cons j js => simp [itemsToks, Item.toks, items, hn']
    | neg n =>
      have h' : .pos m ∈ is := by simpa using h
      cases is with
      | nil => simp at h'
      | cons j js =>
        simp only [itemsToks, Item.toks, List.cons_append, List.nil_append]
        rw [items_not_comma]
        exact ih _ h' (fun k hk => hn k (by simp [hk]))

theorem hasPlain_false {is : List Item}
    (h : (is.any fun | .pos _ => true | .neg _ => false) = false) (m : String) :
    Item.pos m ∉ is := by
  intro hm
  rw [List.any_eq_false] at h
  exact absurd (h _ hm) (by simp)

/-- One attribute without plain names in `any` or `all`. -/
theorem cfgArgs_text (c : Option Cond) (a : Attr) (r : List Tok) (hp : a.Proper)
    (hpl : a.hasPlain = false) :
    cfgArgs .at c (a.toks.drop 2 ++ r) = .ok (join .andand c (attrText a), r) := by
  cases a with
  | name n =>
    obtain ⟨h1, h2, h3⟩ := hp
    simp [Attr.toks, cfgArgs, h1, h2, h3, attrText]
  | not n => simp [Attr.toks, cfgArgs, attrText]
  | any is =>
    have hi := items_none .oror .at is (.rparen :: r) (hasPlain_false hpl) hp.1
    simp only [Attr.toks, List.append_assoc, List.cons_append, List.nil_append,
      List.drop_succ_cons, List.drop_zero] at *
    simp [cfgArgs, hi, attrText]
  | all is =>
    have hi := items_none .andand .at is (.rparen :: r) (hasPlain_false hpl) hp.1
    simp only [Attr.toks, List.append_assoc, List.cons_append, List.nil_append,
      List.drop_succ_cons, List.drop_zero] at *
    simp [cfgArgs, hi, attrText]

theorem toks_head (a : Attr) : a.toks = .at :: .ident "cfg" :: a.toks.drop 2 := by
  cases a <;> simp [Attr.toks]

theorem toks_length (a : Attr) : 2 ≤ a.toks.length := by rw [toks_head]; simp

/-- The tokens after the attributes do not begin another `@cfg`. -/
def NoAt : List Tok → Prop
  | .at :: .ident s :: _ => s ≠ "cfg"
  | _ => True

theorem attrs_stop (fuel : Nat) (c : Option Cond) (r : List Tok) (h : NoAt r) :
    attrs fuel c r = .ok (c, r) := by
  unfold attrs
  split
  · next s rest => simp [NoAt] at h; simp [h]
  · rfl

theorem attrs_text (c : Option Cond) (as : List Attr) (r : List Tok) (fuel : Nat)
    (hf : as.length ≤ fuel) (hp : ∀ a ∈ as, a.Proper) (hpl : ∀ a ∈ as, a.hasPlain = false)
    (hr : NoAt r) :
    attrs fuel c (toks as ++ r) = .ok (condText c as, r) := by
  induction as generalizing c fuel with
  | nil => simpa [toks, condText] using attrs_stop fuel c r hr
  | cons a as ih =>
    obtain ⟨f, rfl⟩ : ∃ f, fuel = f + 1 := ⟨fuel - 1, by simp at hf; omega⟩
    have e : toks (a :: as) ++ r = .at :: .ident "cfg" :: (a.toks.drop 2 ++ (toks as ++ r)) := by
      rw [show toks (a :: as) = a.toks ++ toks as by simp [toks], toks_head a]
      simp
    rw [e, attrs]
    simp only [if_true]
    rw [cfgArgs_text c a _ (hp a (by simp)) (hpl a (by simp))]
    simp only [Res.ok_bind]
    rw [ih _ f (by simpa using hf) (fun b hb => hp b (by simp [hb])) (fun b hb => hpl b (by simp [hb]))]
    rfl

/-- An attribute with a plain name in `any` or `all` stops the compiler. -/
theorem attrs_plain (c : Option Cond) (as : List Attr) (r : List Tok) (fuel : Nat)
    (hf : as.length ≤ fuel) (hp : ∀ a ∈ as, a.Proper) (a : Attr) (ha : a ∈ as)
    (hpl : a.hasPlain = true) :
    attrs fuel c (toks as ++ r) = .panic := by
  induction as generalizing c fuel with
  | nil => simp at ha
  | cons b as ih =>
    obtain ⟨f, rfl⟩ : ∃ f, fuel = f + 1 := ⟨fuel - 1, by simp at hf; omega⟩
    have e : toks (b :: as) ++ r = .at :: .ident "cfg" :: (b.toks.drop 2 ++ (toks as ++ r)) := by
      rw [show toks (b :: as) = b.toks ++ toks as by simp [toks], toks_head b]
      simp
    rw [e, attrs]
    simp only [if_true]
    cases hb : b.hasPlain with
    | false =>
      rw [cfgArgs_text c b _ (hp b (by simp)) hb]
      simp only [Res.ok_bind]
      rcases List.mem_cons.1 ha with rfl | ha
      · rw [hb] at hpl; cases hpl
      · exact ih _ f (by simpa using hf) (fun x hx => hp x (by simp [hx])) ha
    | true =>
      have : cfgArgs .at c (b.toks.drop 2 ++ (toks as ++ r)) = .panic := by
        have hpb := hp b (by simp)
        cases b with
        | name n => simp [Attr.hasPlain] at hb
        | not n => simp [Attr.hasPlain] at hb
        | any is =>
          obtain ⟨i, hi, hx⟩ := List.any_eq_true.1 hb
          cases i with
          | neg m => simp at hx
          | pos m =>
            have := items_plain .oror none is (.rparen :: (toks as ++ r)) m hi hpb.2
            simp only [Attr.toks, List.append_assoc, List.cons_append, List.nil_append,
              List.drop_succ_cons, List.drop_zero] at *
            simp [cfgArgs, this]
        | all is =>
          obtain ⟨i, hi, hx⟩ := List.any_eq_true.1 hb
          cases i with
          | neg m => simp at hx
          | pos m =>
            have := items_plain .andand none is (.rparen :: (toks as ++ r)) m hi hpb.2
            simp only [Attr.toks, List.append_assoc, List.cons_append, List.nil_append,
              List.drop_succ_cons, List.drop_zero] at *
            simp [cfgArgs, this]
      rw [this]
      rfl

/-! ### The value of the text -/

theorem unE_neg (D : Env) (f : Nat) (n : String) (r : Cond) :
    unE D (f + 2) (.bang :: .defined n :: r) = some (!D n, r) := by
  simp [unE]

/-- The rest of a condition at which an operand of `&&` ends. -/
def EndAnd : Cond → Prop
  | .andand :: _ => False
  | _ => True

/-- The rest of a condition at which an operand of `||` ends. -/
def EndOr : Cond → Prop
  | .andand :: _ | .oror :: _ => False
  | _ => True

theorem andE_end (D : Env) (f : Nat) (ts r : Cond) (b : Bool)
    (h : unE D f ts = some (b, r)) (hr : EndAnd r) : andE D (f + 1) ts = some (b, r) := by
  rw [andE, h]
  cases r with
  | nil => rfl
  | cons x r => cases x <;> first | rfl | exact absurd hr (by simp [EndAnd])

theorem orE_end (D : Env) (f : Nat) (ts r : Cond) (b : Bool)
    (h : andE D f ts = some (b, r)) (hr : EndOr r) : orE D (f + 1) ts = some (b, r) := by
  rw [orE, h]
  cases r with
  | nil => rfl
  | cons x r => cases x <;> first | rfl | exact absurd hr (by simp [EndOr])

theorem andE_negs (D : Env) (n : String) (ns : List String) (r : Cond) (f : Nat)
    (hf : ns.length + 3 ≤ f) (hr : EndAnd r) :
    andE D f (negText .andand (n :: ns) ++ r)
      = some ((n :: ns).all fun n => !D n, r) := by
  induction ns generalizing n f with
  | nil =>
    obtain ⟨g, rfl⟩ : ∃ g, f = g + 3 := ⟨f - 3, by simp at hf; omega⟩
    simpa [negText, negTail] using andE_end D (g + 2) _ r _ (unE_neg D g n r) hr
  | cons m ns ih =>
    obtain ⟨g, rfl⟩ : ∃ g, f = g + 3 := ⟨f - 3, by simp at hf; omega⟩
    have e : negText .andand (n :: m :: ns) ++ r
        = .bang :: .defined n :: .andand :: (negText .andand (m :: ns) ++ r) := by
      simp [negText, negTail]
    rw [e, andE, unE_neg]
    simp only
    rw [ih m (g + 2) (by simp at hf; omega)]
    simp

theorem orE_negs (D : Env) (n : String) (ns : List String) (r : Cond) (f : Nat)
    (hf : ns.length + 4 ≤ f) (hr : EndOr r) :
    orE D f (negText .oror (n :: ns) ++ r)
      = some ((n :: ns).any fun n => !D n, r) := by
  induction ns generalizing n f with
  | nil =>
    obtain ⟨g, rfl⟩ : ∃ g, f = g + 4 := ⟨f - 4, by simp at hf; omega⟩
    have h : andE D (g + 3) (.bang :: .defined n :: r) = some (!D n, r) :=
      andE_end D (g + 2) _ r _ (unE_neg D g n r) (by
        revert hr; cases r with
        | nil => simp [EndAnd]
        | cons x r => cases x <;> simp [EndAnd, EndOr])
    simpa [negText, negTail] using orE_end D (g + 3) _ r _ h hr
  | cons m ns ih =>
    obtain ⟨g, rfl⟩ : ∃ g, f = g + 4 := ⟨f - 4, by simp at hf; omega⟩
    have e : negText .oror (n :: m :: ns) ++ r
        = .bang :: .defined n :: .oror :: (negText .oror (m :: ns) ++ r) := by
      simp [negText, negTail]
    have h : andE D (g + 3) (.bang :: .defined n :: .oror :: (negText .oror (m :: ns) ++ r))
        = some (!D n, .oror :: (negText .oror (m :: ns) ++ r)) :=
      andE_end D (g + 2) _ _ _ (unE_neg D g n _) (by simp [EndAnd])
    rw [e, orE, h]
    simp only
    rw [ih m (g + 3) (by simp at hf; omega)]
    simp

theorem negNames_any (D : Env) (is : List Item) (h : ∀ m, .pos m ∉ is) :
    (negNames is).any (fun n => !D n) = is.any (·.holds D) := by
  induction is with
  | nil => rfl
  | cons i is ih =>
    cases i with
    | pos m => exact absurd (by simp) (h m)
    | neg m => simp only [negNames, List.any_cons, Item.holds, ih (fun k hk => h k (by simp [hk]))]

theorem negNames_all (D : Env) (is : List Item) (h : ∀ m, .pos m ∉ is) :
    (negNames is).all (fun n => !D n) = is.all (·.holds D) := by
  induction is with
  | nil => rfl
  | cons i is ih =>
    cases i with
    | pos m => exact absurd (by simp) (h m)
    | neg m => simp only [negNames, List.all_cons, Item.holds, ih (fun k hk => h k (by simp [hk]))]

theorem negNames_ne (is : List Item) (h : ∀ m, .pos m ∉ is) (hne : is ≠ []) :
    ∃ n ns, negNames is = n :: ns := by
  match is with
  | [] => exact absurd rfl hne
  | .pos m :: is => exact absurd (by simp) (h m)
  | .neg n :: is => exact ⟨n, _, rfl⟩

theorem negText_length (sep : CTok) (n : String) (ns : List String) :
    (negText sep (n :: ns)).length = 3 * ns.length + 2 := by
  have : ∀ ns : List String, (negTail sep ns).length = 3 * ns.length := by
    intro ns
    induction ns with
    | nil => rfl
    | cons m ns ih => simp [negTail] at ih ⊢; omega
  simp [negText, this]

/-- An attribute's text is a unary expression whose value is the documented one. -/
theorem unE_attr (D : Env) (a : Attr) (r : Cond) (f : Nat) (hf : (attrText a).length + 4 ≤ f)
    (hp : a.Proper) (hpl : a.hasPlain = false) :
    unE D f (attrText a ++ r) = some (a.holds D, r) := by
  obtain ⟨g, rfl⟩ : ∃ g, f = g + 2 := ⟨f - 2, by omega⟩
  cases a with
  | name n => simp [attrText, unE, Attr.holds]
  | not n => simp [attrText, unE, Attr.holds]
  | any is =>
    obtain ⟨n, ns, e⟩ := negNames_ne is (hasPlain_false hpl) hp.1
    have hl := negText_length .oror n ns
    have := orE_negs D n ns (.rp :: r) (g + 1) (by
      simp only [attrText, e, List.length_cons, List.length_append, hl, List.length_nil] at hf
      omega) (by simp [EndOr])
    simp only [attrText, e, List.cons_append, List.append_assoc, List.nil_append]
    rw [unE, this]
    simp only [Attr.holds, ← negNames_any D is (hasPlain_false hpl), e]
  | all is =>
    obtain ⟨n, ns, e⟩ := negNames_ne is (hasPlain_false hpl) hp.1
    have hl := negText_length .andand n ns
    have hlen : ns.length + 4 ≤ g + 1 := by
      simp only [attrText, e, List.length_cons, List.length_append, hl, List.length_nil] at hf
      omega
    obtain ⟨k, rfl⟩ : ∃ k, g = k + 3 := ⟨g - 3, by omega⟩
    have := andE_negs D n ns (.rp :: r) (k + 3) (by omega) (by simp [EndAnd])
    have := orE_end D (k + 3) _ _ _ this (by simp [EndOr])
    simp only [attrText, e, List.cons_append, List.append_assoc, List.nil_append]
    rw [unE, this]
    simp only [Attr.holds, ← negNames_all D is (hasPlain_false hpl), e]

/-- The texts of attributes, each preceded by `&&`. -/
def andTail (as : List Attr) : Cond := as.flatMap fun a => .andand :: attrText a

theorem condText_some (o : Cond) (as : List Attr) :
    condText (some o) as = some (o ++ andTail as) := by
  induction as generalizing o with
  | nil => simp [condText, andTail]
  | cons a as ih => simp [condText, ih, join, andTail]

theorem condText_none (a : Attr) (as : List Attr) :
    condText none (a :: as) = some (attrText a ++ andTail as) := by
  simp [condText, condText_some, join]

theorem andE_attrs (D : Env) (a : Attr) (as : List Attr) (f : Nat)
    (hf : (attrText a ++ andTail as).length + 5 ≤ f)
    (hp : ∀ x ∈ a :: as, x.Proper) (hpl : ∀ x ∈ a :: as, x.hasPlain = false) :
    andE D f (attrText a ++ andTail as) = some (holds D (a :: as), []) := by
  induction as generalizing a f with
  | nil =>
    obtain ⟨g, rfl⟩ : ∃ g, f = g + 1 := ⟨f - 1, by omega⟩
    have := unE_attr D a [] g (by simp [andTail] at hf; omega) (hp a (by simp)) (hpl a (by simp))
    simpa [andTail, holds] using andE_end D g _ _ _ this (by simp [EndAnd])
  | cons b as ih =>
    obtain ⟨g, rfl⟩ : ∃ g, f = g + 1 := ⟨f - 1, by omega⟩
    have e : andTail (b :: as) = .andand :: (attrText b ++ andTail as) := by simp [andTail]
    rw [e] at hf ⊢
    have hu := unE_attr D a (.andand :: (attrText b ++ andTail as)) g
      (by simp at hf; omega) (hp a (by simp)) (hpl a (by simp))
    rw [andE, hu]
    simp only
    rw [ih b g (by simp at hf ⊢; omega) (fun x hx => hp x (by simp [hx]))
      (fun x hx => hpl x (by simp [hx]))]
    simp [holds]

theorem evalIf_attrs (D : Env) (a : Attr) (as : List Attr)
    (hp : ∀ x ∈ a :: as, x.Proper) (hpl : ∀ x ∈ a :: as, x.hasPlain = false) :
    evalIf D (attrText a ++ andTail as) = some (holds D (a :: as)) := by
  have hne : 1 ≤ (attrText a ++ andTail as).length := by cases a <;> simp [attrText]
  unfold evalIf
  by_cases h : 3 ≤ (attrText a ++ andTail as).length
  · have := andE_attrs D a as (3 * (attrText a ++ andTail as).length + 2) (by omega) hp hpl
    rw [orE_end D _ _ _ _ this (by simp [EndOr])]
  · -- a single name or negation
    match as with
    | [] =>
      cases a with
      | name n => simp [attrText, andTail, orE, andE, unE, holds, Attr.holds]
      | not n => simp [attrText, andTail, orE, andE, unE, holds, Attr.holds]
      | any is =>
        have h1 := hpl (.any is) (by simp)
        have h2 : (Attr.any is).Proper := hp _ (by simp)
        obtain ⟨n, ns, e⟩ := negNames_ne is (hasPlain_false h1) h2.1
        simp [attrText, e, negText] at h
      | all is =>
        have h1 := hpl (.all is) (by simp)
        have h2 : (Attr.all is).Proper := hp _ (by simp)
        obtain ⟨n, ns, e⟩ := negNames_ne is (hasPlain_false h1) h2.1
        simp [attrText, e, negText] at h
    | b :: bs =>
      have h1 : 1 ≤ (attrText a).length := by cases a <;> simp [attrText]
      have h2 : 1 ≤ (attrText b).length := by cases b <;> simp [attrText]
      simp [andTail] at h
      omega

end Verif.Cfg
