import Verif.LambdaHead.Model

/-! # Heads of lambdas: properties (C179) -/

namespace Verif.LambdaHead
open Verif Spec

variable {L : Lang}

/-! ## `fn` lambdas -/

theorem capLoop_ok : ∀ (l : List Item) (acc : List (String × Bool)) (d : Bool) (rest : List Tok),
    acc.length + (names l).length ≤ 32 →
    capLoop acc d (sepBy itemText l ++ .rb :: rest) = .ok (acc ++ names l, mode d l, .rb :: rest)
  | [], acc, d, rest, _ => by simp [sepBy, capLoop, names, mode]
  | [.name x true], acc, d, rest, h => by
      have : acc.length < 32 := by simp [names] at h; omega
      simp [sepBy, itemText, capLoop, names, mode, this]
  | [.name x false], acc, d, rest, h => by
      have : acc.length < 32 := by simp [names] at h; omega
      simp [sepBy, itemText, capLoop, names, mode, this]
  | [.default true], acc, d, rest, h => by simp [sepBy, itemText, capLoop, names, mode]
  | [.default false], acc, d, rest, h => by simp [sepBy, itemText, capLoop, names, mode]
  | .name x true :: b :: l, acc, d, rest, h => by
      simp only [names, List.length_cons] at h
      have h1 : acc.length < 32 := by omega
      have ih := capLoop_ok (b :: l) (acc ++ [(x, true)]) d rest (by simp only [List.length_append, List.length_cons, List.length_nil]; omega)
      simp only [sepBy, itemText, List.cons_append, List.nil_append, List.append_assoc, capLoop, h1, if_true, ih]
      simp [names, mode]
  | .name x false :: b :: l, acc, d, rest, h => by
      simp only [names, List.length_cons] at h
      have h1 : acc.length < 32 := by omega
      have ih := capLoop_ok (b :: l) (acc ++ [(x, false)]) d rest (by simp only [List.length_append, List.length_cons, List.length_nil]; omega)
      simp only [sepBy, itemText, List.cons_append, List.nil_append, List.append_assoc, capLoop, h1, if_true, ih]
      simp [names, mode]
  | .default true :: b :: l, acc, d, rest, h => by
      have ih := capLoop_ok (b :: l) acc true rest h
      simp only [sepBy, itemText, List.cons_append, List.nil_append, List.append_assoc, capLoop, ih]
      simp [names, mode]
  | .default false :: b :: l, acc, d, rest, h => by
      have ih := capLoop_ok (b :: l) acc false rest h
      simp only [sepBy, itemText, List.cons_append, List.nil_append, List.append_assoc, capLoop, ih]
      simp [names, mode]

/-- the text of typed parameters -/
def fnText (ps : List (String × L.T)) : List Tok := sepBy paramText (ps.map fun p => (p.1, some p.2))

theorem fnText_cons2 (p q : String × L.T) (ps : List (String × L.T)) :
    fnText (p :: q :: ps) = .ident p.1 :: .colon :: (L.prT p.2 ++ .comma :: fnText (q :: ps)) := by
  simp [fnText, sepBy, paramText]

theorem fnText_one (p : String × L.T) : fnText [p] = .ident p.1 :: .colon :: L.prT p.2 := by
  simp [fnText, sepBy, paramText]

theorem fnText_len : ∀ ps : List (String × L.T), ps.length ≤ (fnText ps).length
  | [] => by simp
  | [p] => by rw [fnText_one]; simp
  | p :: q :: ps => by
      have := fnText_len (q :: ps)
      rw [fnText_cons2]; simp only [List.length_cons, List.length_append] at this ⊢; omega

/-- the parameters behind the first one: each with a comma in front -/
theorem fnParams_rest : ∀ (ps : List (String × L.T)) (acc : List (String × L.T)) (n : Nat) (rest : List Tok),
    ps ≠ [] → acc ≠ [] → ps.length < n → acc.length + ps.length ≤ 16 → (∀ p ∈ ps, Reads L p.2) →
    fnParams L n acc (.comma :: (fnText ps ++ .rp :: rest)) = .ok (acc ++ ps, rest)
  | [], _, _, _, h, _, _, _, _ => absurd rfl h
  | [p], acc, n, rest, _, ha, hn, hl, hr => by
      obtain ⟨n, rfl⟩ : ∃ m, n = m + 2 := ⟨n - 2, by simp at hn; omega⟩
      have h1 : acc.length < 16 := by simp at hl; omega
      have ht := hr p (by simp) (.rp :: rest) ⟨_, _, rfl, by simp⟩
      have he : acc.isEmpty = false := by cases acc with | nil => exact absurd rfl ha | cons _ _ => rfl
      rw [fnText_one]
      simp [fnParams, needComma, he, h1, ht]
  | p :: q :: ps, acc, n, rest, _, ha, hn, hl, hr => by
      obtain ⟨n, rfl⟩ : ∃ m, n = m + 1 := ⟨n - 1, by simp at hn; omega⟩
      have h1 : acc.length < 16 := by simp at hl; omega
      have ht := hr p (by simp) (.comma :: (fnText (q :: ps) ++ .rp :: rest)) ⟨_, _, rfl, by simp⟩
      have he : acc.isEmpty = false := by cases acc with | nil => exact absurd rfl ha | cons _ _ => rfl
      have ih := fnParams_rest (q :: ps) (acc ++ [p]) n rest (by simp) (by simp)
        (by simp only [List.length_cons] at hn ⊢; omega)
        (by simp only [List.length_cons, List.length_append, List.length_nil] at hl ⊢; omega)
        (fun r hm => hr r (by simp only [List.mem_cons] at hm ⊢; exact .inr hm))
      rw [fnText_cons2]
      simp [fnParams, needComma, he, h1, ht, ih]

theorem fnParams_ok (ps : List (String × L.T)) (n : Nat) (rest : List Tok) (hn : ps.length < n)
    (hl : ps.length ≤ 16) (hr : ∀ p ∈ ps, Reads L p.2) :
    fnParams L n [] (fnText ps ++ .rp :: rest) = .ok (ps, rest) := by
  obtain ⟨n, rfl⟩ : ∃ m, n = m + 1 := ⟨n - 1, by omega⟩
  match ps, hn, hl, hr with
  | [], _, _, _ => simp [fnText, sepBy, fnParams]
  | [p], hn, hl, hr =>
      obtain ⟨n, rfl⟩ : ∃ m, n = m + 1 := ⟨n - 1, by simp at hn; omega⟩
      have ht := hr p (by simp) (.rp :: rest) ⟨_, _, rfl, by simp⟩
      rw [fnText_one]
      simp [fnParams, needComma, ht]
  | p :: q :: ps, hn, hl, hr =>
      have ht := hr p (by simp) (.comma :: (fnText (q :: ps) ++ .rp :: rest)) ⟨_, _, rfl, by simp⟩
      have ih := fnParams_rest (q :: ps) [p] n rest (by simp) (by simp)
        (by simp only [List.length_cons] at hn ⊢; omega)
        (by simp only [List.length_cons, List.length_nil] at hl ⊢; omega)
        (fun r hm => hr r (by simp only [List.mem_cons] at hm ⊢; exact .inr hm))
      rw [fnText_cons2]
      simp [fnParams, needComma, ht, ih]

theorem capList_ok (caps : List Item) (rest : List Tok) (h : (names caps).length ≤ 32) :
    capList ((if caps.isEmpty then [] else .lb :: (sepBy itemText caps ++ [.rb])) ++ .lp :: rest)
      = .ok (names caps, mode false caps, .lp :: rest) := by
  cases caps with
  | nil => rfl
  | cons c caps =>
      have := capLoop_ok (c :: caps) [] false (.lp :: rest) (by simpa using h)
      simp [capList, this]

theorem fn_ok (caps : List Item) (ps : List (String × L.T)) (ret : Option L.T) (body : List Tok)
    (h : Good body (.fn caps ps ret)) :
    primary L (text body (.fn caps ps ret)) = .ok (meaning body (.fn caps ps ret)) := by
  obtain ⟨h1, h2, h3, h4, r, rfl⟩ := h
  have ho : atOpen ((if caps.isEmpty then [] else .lb :: (sepBy itemText caps ++ [.rb])) ++
      .lp :: (fnText ps ++ .rp :: (retText ret ++ .lbrace :: r))) = true := by
    cases caps <;> rfl
  have hp := fnParams_ok ps ((fnText ps ++ .rp :: (retText ret ++ .lbrace :: r)).length + 1)
    (retText ret ++ .lbrace :: r) (by have := fnText_len ps; simp only [List.length_append]; omega) h2 h3
  have hret : fnRet L (retText ret ++ .lbrace :: r) = .ok (ret, .lbrace :: r) := by
    cases ret with
    | none => rfl
    | some t =>
        have := h4 t rfl (.lbrace :: r) ⟨_, _, rfl, by simp⟩
        simp [retText, fnRet, this]
  show primary L (.ident "fn" :: (_ ++ .lp :: (fnText ps ++ .rp :: (retText ret ++ .lbrace :: r)))) = _
  simp only [primary, ho, and_self, if_true, fnHead, capList_ok caps _ h1, Res.ok_bind, hp, hret, meaning]

/-! ## arrow lambdas -/

theorem arrowScan_nest {ts : List Tok} (h : Nest .la .ra (fun k => k ≠ .semi ∧ k ≠ .comma ∧ k ≠ .lbrace ∧
    k ≠ .rbrace ∧ k ≠ .eq ∧ ∀ fat, k ≠ .arrow fat) ts) :
    ∀ (d : Nat) (rest : List Tok), arrowScan d (ts ++ rest) = arrowScan d rest := by
  induction h with
  | nil => intros; rfl
  | @cons t r h1 h2 h3 _ ih =>
      intro d rest
      have hs : stops t = false := by
        obtain ⟨a1, a2, a3, a4, a5, _⟩ := h3
        cases t <;> simp_all [stops]
      have ha : isArrow t = false := by
        obtain ⟨_, _, _, _, _, a6⟩ := h3
        cases t <;> simp_all [isArrow]
      simp [arrowScan, hs, h1, h2, ha, ih]
  | @wrap a b _ _ iha ihb =>
      intro d rest
      have e : (Tok.la :: (a ++ .ra :: b)) ++ rest = .la :: (a ++ (.ra :: (b ++ rest))) := by simp
      rw [e, arrowScan]
      simp only [stops, Bool.false_eq_true, if_false, if_true, iha]
      rw [arrowScan]
      simp [stops, ihb]

theorem skipTy_flat : ∀ (a rest : List Tok), Tok.comma ∉ a → Tok.rp ∉ a → skipTy (a ++ rest) = skipTy rest
  | [], _, _, _ => rfl
  | t :: a, rest, h1, h2 => by
      simp only [List.mem_cons, not_or] at h1 h2
      have ih := skipTy_flat a rest h1.2 h2.2
      cases t <;> simp_all [skipTy]

theorem param_look {p : String × Option L.T} (h : ∀ t, p.2 = some t → Reads L t ∧ Flat L t)
    (k : Tok) (hk : k = .comma ∨ k = .rp) (rest : List Tok) :
    ∃ r, paramText p ++ k :: rest = .ident p.1 :: r ∧ skipAnn r = k :: rest ∧
      ann L r = .ok (p.2, k :: rest) := by
  obtain ⟨x, o⟩ := p
  cases o with
  | none => exact ⟨k :: rest, rfl, by rcases hk with rfl | rfl <;> rfl, by rcases hk with rfl | rfl <;> rfl⟩
  | some t =>
      obtain ⟨hr, hf⟩ := h t rfl
      refine ⟨.colon :: (L.prT t ++ k :: rest), rfl, ?_, ?_⟩
      · rw [skipAnn, skipTy_flat _ _ hf.1 hf.2]; rcases hk with rfl | rfl <;> rfl
      · have := hr (k :: rest) ⟨k, rest, rfl, by rcases hk with rfl | rfl <;> simp⟩
        simp [ann, this]

theorem sepBy_len (ps : List (String × Option L.T)) : ps.length ≤ (sepBy paramText ps).length := by
  induction ps with
  | nil => simp
  | cons p ps ih =>
      have h1 : 1 ≤ (paramText p).length := by
        obtain ⟨x, o⟩ := p; cases o <;> simp [paramText]
      cases ps with
      | nil => simpa [sepBy] using h1
      | cons q ps => simp only [sepBy, List.length_append, List.length_cons] at ih ⊢; omega

theorem look_ok : ∀ (ps : List (String × Option L.T)) (acc : List String) (n : Nat) (rest : List Tok),
    ps ≠ [] → ps.length < n → acc.length + ps.length ≤ 16 →
    (∀ p ∈ ps, ∀ t, p.2 = some t → Reads L t ∧ Flat L t) →
    look n acc (sepBy paramText ps ++ .rp :: rest) = .ok (if atArrow rest then some (acc ++ ps.map (·.1)) else none)
  | [], _, _, _, h, _, _, _ => absurd rfl h
  | [p], acc, n, rest, _, hn, hl, hp => by
      obtain ⟨n, rfl⟩ : ∃ m, n = m + 1 := ⟨n - 1, by omega⟩
      obtain ⟨r, e, hs, _⟩ := param_look (hp p (by simp)) .rp (.inr rfl) rest
      have h1 : acc.length < 16 := by simp at hl; omega
      simp [sepBy, e, look, h1, hs]
  | p :: q :: ps, acc, n, rest, _, hn, hl, hp => by
      obtain ⟨n, rfl⟩ : ∃ m, n = m + 1 := ⟨n - 1, by omega⟩
      obtain ⟨r, e, hs, _⟩ := param_look (hp p (by simp)) .comma (.inl rfl)
        (sepBy paramText (q :: ps) ++ .rp :: rest)
      have h1 : acc.length < 16 := by simp at hl; omega
      have ih := look_ok (q :: ps) (acc ++ [p.1]) n rest (by simp)
        (by simp only [List.length_cons] at hn ⊢; omega)
        (by simp only [List.length_cons, List.length_append, List.length_nil] at hl ⊢; omega)
        (fun r hm => hp r (by simp only [List.mem_cons] at hm ⊢; exact .inr hm))
      simp only [sepBy, List.append_assoc, List.cons_append, e, look, h1, if_true, hs, ih]
      simp

theorem again_ok : ∀ (ps : List (String × Option L.T)) (acc : List (String × Option L.T)) (rest : List Tok)
    (fat : Bool), ps ≠ [] → (∀ p ∈ ps, ∀ t, p.2 = some t → Reads L t ∧ Flat L t) →
    again L (ps.map (·.1)) acc (sepBy paramText ps ++ .rp :: .arrow fat :: rest) = .ok (acc ++ ps, rest)
  | [], _, _, _, h, _ => absurd rfl h
  | [p], acc, rest, fat, _, hp => by
      obtain ⟨r, e, _, ha⟩ := param_look (hp p (by simp)) .rp (.inr rfl) (.arrow fat :: rest)
      simp [sepBy, e, again, ha]
  | p :: q :: ps, acc, rest, fat, _, hp => by
      obtain ⟨r, e, _, ha⟩ := param_look (hp p (by simp)) .comma (.inl rfl)
        (sepBy paramText (q :: ps) ++ .rp :: .arrow fat :: rest)
      have ih := again_ok (q :: ps) (acc ++ [p]) rest fat (by simp)
        (fun r hm => hp r (by simp only [List.mem_cons] at hm ⊢; exact .inr hm))
      simp only [sepBy, List.append_assoc, List.cons_append, e, List.map_cons, again, List.drop_succ_cons,
        List.drop_zero, ha, Res.ok_bind] at ih ⊢
      rw [ih]
      simp

theorem depthScan_nest {ts : List Tok} (h : Nest .lp .rp (fun _ => True) ts) :
    ∀ (d : Nat) (rest : List Tok), 1 ≤ d → depthScan d (ts ++ rest) = depthScan d rest := by
  induction h with
  | nil => intros; rfl
  | @cons t r h1 h2 _ _ ih =>
      intro d rest hd
      cases t <;> simp_all [depthScan]
  | @wrap a b _ _ iha ihb =>
      intro d rest hd
      have e : (Tok.lp :: (a ++ .rp :: b)) ++ rest = .lp :: (a ++ (.rp :: (b ++ rest))) := by simp
      rw [e, depthScan, iha _ _ (by omega), depthScan, if_neg (by omega)]
      exact ihb d rest hd

theorem nest_append {o c : Tok} {p : Tok → Prop} {a b : List Tok} (ha : Nest o c p a) (hb : Nest o c p b) :
    Nest o c p (a ++ b) := by
  induction ha with
  | nil => exact hb
  | cons h1 h2 h3 _ ih => exact .cons h1 h2 h3 ih
  | wrap ha _ _ ih =>
      rw [List.cons_append, List.append_assoc, List.cons_append]
      exact .wrap ha ih

theorem params_closed : ∀ ps : List (String × Option L.T),
    (∀ p ∈ ps, ∀ t, p.2 = some t → Reads L t ∧ Closed L t) →
    Nest .lp .rp (fun _ => True) (sepBy paramText ps) := by
  have h1 : ∀ p : String × Option L.T, (∀ t, p.2 = some t → Reads L t ∧ Closed L t) →
      Nest .lp .rp (fun _ => True) (paramText p) := by
    intro ⟨x, o⟩ h
    cases o with
    | none => exact .cons (by simp) (by simp) trivial .nil
    | some t => exact .cons (by simp) (by simp) trivial (.cons (by simp) (by simp) trivial (h t rfl).2)
  intro ps
  induction ps with
  | nil => intro _; exact .nil
  | cons p ps ih =>
      intro h
      have hp := h1 p (h p (by simp))
      cases ps with
      | nil => exact hp
      | cons q ps =>
          exact nest_append hp (.cons (by simp) (by simp) trivial
            (ih fun r hm => h r (by simp only [List.mem_cons] at hm ⊢; exact .inr hm)))

theorem param_ann {p : String × Option L.T} (h : ∀ t, p.2 = some t → Reads L t)
    (k : Tok) (hk : k = .comma ∨ k = .rp) (rest : List Tok) :
    ∃ r, paramText p ++ k :: rest = .ident p.1 :: r ∧ ann L r = .ok (p.2, k :: rest) := by
  obtain ⟨x, o⟩ := p
  cases o with
  | none => exact ⟨k :: rest, rfl, by rcases hk with rfl | rfl <;> rfl⟩
  | some t =>
      refine ⟨.colon :: (L.prT t ++ k :: rest), rfl, ?_⟩
      have := h t rfl (k :: rest) ⟨k, rest, rfl, by rcases hk with rfl | rfl <;> simp⟩
      simp [ann, this]

theorem capParams_ok : ∀ (ps : List (String × Option L.T)) (acc : List (String × Option L.T)) (n : Nat)
    (rest : List Tok), ps ≠ [] → ps.length < n → acc.length + ps.length ≤ 16 →
    (∀ p ∈ ps, ∀ t, p.2 = some t → Reads L t) →
    capParams L n acc (sepBy paramText ps ++ .rp :: rest) = .ok (acc ++ ps, rest)
  | [], _, _, _, h, _, _, _ => absurd rfl h
  | [p], acc, n, rest, _, hn, hl, hp => by
      obtain ⟨n, rfl⟩ : ∃ m, n = m + 1 := ⟨n - 1, by omega⟩
      obtain ⟨r, e, ha⟩ := param_ann (hp p (by simp)) .rp (.inr rfl) rest
      have h1 : acc.length < 16 := by simp at hl; omega
      simp [sepBy, e, capParams, h1, ha]
  | p :: q :: ps, acc, n, rest, _, hn, hl, hp => by
      obtain ⟨n, rfl⟩ : ∃ m, n = m + 1 := ⟨n - 1, by omega⟩
      obtain ⟨r, e, ha⟩ := param_ann (hp p (by simp)) .comma (.inl rfl)
        (sepBy paramText (q :: ps) ++ .rp :: rest)
      have h1 : acc.length < 16 := by simp at hl; omega
      have ih := capParams_ok (q :: ps) (acc ++ [p]) n rest (by simp)
        (by simp only [List.length_cons] at hn ⊢; omega)
        (by simp only [List.length_cons, List.length_append, List.length_nil] at hl ⊢; omega)
        (fun r hm => hp r (by simp only [List.mem_cons] at hm ⊢; exact .inr hm))
      simp only [sepBy, List.append_assoc, List.cons_append, e, capParams, h1, if_true, ha, Res.ok_bind, ih]
      simp

/-! ## The property -/

/-- C179 (partial): every lambda, in each of the six forms, is read with exactly the captures,
parameters, types and the mode of capture that are written, and the body begins behind the arrow
or at the brace.  Missing from the full claim: more than 16 parameters or 32 captures
(`paren_overflow_violated`, `cap_overflow_violated`, `fn_overflow_violated`, `caps_overflow_violated`), types with commas or parentheses
in the forms with lookahead (`comma_violated`, `function_type_violated`) and `[&]() -> e`
(`no_params_violated`). -/
theorem lambda_read_partial (f : Form L) (body : List Tok) (h : Good body f) :
    primary L (text body f) = .ok (meaning body f) := by
  cases f with
  | bare x =>
      show primary L (.ident x :: .arrow false :: body) = _
      rw [primary, if_neg (by simp [atOpen])]
      rfl
  | typed x t =>
      obtain ⟨hr, hp⟩ := h
      have hs : arrowScan 0 (L.prT t ++ .arrow false :: body) = true := by
        rw [arrowScan_nest hp]; rfl
      have ht := hr (.arrow false :: body) ⟨_, _, rfl, by simp⟩
      show primary L (.ident x :: .colon :: (L.prT t ++ .arrow false :: body)) = _
      rw [primary, if_neg (by simp [atOpen])]
      simp [identHead, hs, ht, meaning]
  | paren ps =>
      obtain ⟨hl, hp⟩ := h
      cases ps with
      | nil => simp [text, primary, parenHead, sepBy, look, atArrow, isArrow, meaning]
      | cons p ps =>
          have h1 := look_ok (p :: ps) [] ((sepBy paramText (p :: ps) ++ .rp :: .arrow false :: body).length + 1)
            (.arrow false :: body) (by simp)
            (by have := sepBy_len (p :: ps); simp only [List.length_append]; omega) (by simpa using hl) hp
          have h2 := again_ok (p :: ps) [] body false (by simp) hp
          show primary L (.lp :: (sepBy paramText (p :: ps) ++ .rp :: .arrow false :: body)) = _
          simp only [atArrow, isArrow, if_true, List.nil_append, List.map_cons] at h1 h2
          simp only [primary, parenHead, h1, Res.ok_bind, h2, meaning]
  | capBare m x => cases m <;> rfl
  | capParen m ps =>
      obtain ⟨hne, hl, hp⟩ := h
      have h1 := capParams_ok ps [] ((sepBy paramText ps ++ .rp :: .arrow false :: body).length + 1)
        (.arrow false :: body) hne (by have := sepBy_len ps; simp only [List.length_append]; omega)
        (by simpa using hl) (fun p hm t ht => (hp p hm t ht).1)
      have h2 : depthScan 0 (.lp :: (sepBy paramText ps ++ .rp :: .arrow false :: body)) = true := by
        rw [depthScan, depthScan_nest (params_closed ps hp) _ _ (by omega)]; rfl
      have h3 : ∀ b, capHead L b (.lp :: (sepBy paramText ps ++ .rp :: .arrow false :: body))
          = .ok (.lam ps b body) := by
        intro b
        simp only [capHead, h2, if_true, h1, Res.ok_bind, List.nil_append]
      cases m
      · exact h3 false
      · exact h3 true
  | fn caps ps ret => exact fn_ok caps ps ret body h

/-- C179: a name that is followed neither by an arrow nor by a colon is not taken for a lambda
(`fn` in front of a parenthesis or bracket is one). -/
theorem name_kept (x : String) (r : List Tok) (ha : ∀ fat r', r ≠ .arrow fat :: r')
    (hc : ∀ r', r ≠ .colon :: r') (hf : x ≠ "fn") : primary L (.ident x :: r) = .ok .no := by
  rw [primary, if_neg (by simp [hf])]
  unfold identHead
  split
  · exact absurd rfl (hc _)
  · unfold bare
    split
    · exact absurd rfl (ha _ _)
    · rfl

/-- C179: names in parentheses with no arrow behind them, a tuple or a parenthesised name, are not
taken for a lambda, up to 16 names. -/
theorem tuple_kept (p : String) (ps : List String) (r : List Tok) (hl : ps.length < 16)
    (ha : atArrow r = false) :
    primary L (.lp :: (sepBy (fun x => [Tok.ident x]) (p :: ps) ++ .rp :: r)) = .ok .no := by
  have e : ∀ qs : List String, sepBy (fun x => [Tok.ident x]) qs
      = sepBy (paramText (L := L)) (qs.map fun x => (x, none)) := by
    intro qs
    induction qs with
    | nil => rfl
    | cons q qs ih =>
        cases qs with
        | nil => rfl
        | cons q' qs => simp only [sepBy, List.map_cons, paramText] at ih ⊢; rw [ih]
  rw [e]
  have h1 := look_ok (L := L) ((p :: ps).map fun x => (x, none)) []
    ((sepBy (paramText (L := L)) ((p :: ps).map fun x => (x, none)) ++ .rp :: r).length + 1) r (by simp)
    (by have := sepBy_len (L := L) ((p :: ps).map fun x => (x, none)); simp only [List.length_append]; omega)
    (by simp; omega) (by
      intro q hq t ht
      simp only [List.mem_map] at hq
      obtain ⟨x, _, rfl⟩ := hq
      cases ht)
  simp only [primary, parenHead, h1, ha, Res.ok_bind, Bool.false_eq_true, if_false]

/-! ## Where it does not hold -/

/-- C179 refuted: the guard of a case that ends in a name, as in `n if ok => e`, is read as a lambda
with that name as its parameter and `e` as its body: `=>` is the same token as `->`. -/
theorem guard_violated (x : String) (body : List Tok) :
    primary L (.ident x :: .arrow true :: body) = .ok (.lam [(x, none)] false body) := by
  rw [primary, if_neg (by simp [atOpen])]
  rfl

/-- C179 refuted: so is the guard that is a name in parentheses. -/
theorem guard_paren_violated (x : String) (body : List Tok) :
    primary L (.lp :: .ident x :: .rp :: .arrow true :: body) = .ok (.lam [(x, none)] false body) := by
  simp [primary, parenHead, look, skipAnn, atArrow, isArrow, again, ann]

/-- C179 refuted: `[&]() -> e` and `[=]() -> e` are rejected, although `() -> e` and `fn[&]() {..}`
are accepted. -/
theorem no_params_violated (byRef fat : Bool) (body : List Tok) :
    primary L (capText byRef ++ .lp :: .rp :: .arrow fat :: body) = .panic := by
  cases byRef <;>
    simp [capText, primary, bracketHead, capHead, depthScan, atArrow, isArrow, capParams]

/-- C179 refuted: a parameter whose type has a comma between angle brackets, as in
`(m: Map<K, V>) -> e`, is not seen as one: the text is not taken for a lambda. -/
theorem comma_violated (x k : String) (a c : List Tok) (h1 : Tok.comma ∉ a) (h2 : Tok.rp ∉ a) :
    primary L (.lp :: .ident x :: .colon :: (a ++ .comma :: .ident k :: .ra :: c)) = .ok .no := by
  simp [primary, parenHead, look, skipAnn, skipTy_flat a _ h1 h2, skipTy]

/-- C179 refuted: nor is `x: Map<K, V> -> e`. -/
theorem comma_bare_violated (x : String) (a c : List Tok)
    (h : ∀ k ∈ a, ∀ fat, k ≠ .arrow fat) :
    primary L (.ident x :: .colon :: (a ++ .comma :: c)) = .ok .no := by
  have hs : ∀ d, arrowScan d (a ++ .comma :: c) = false := by
    induction a with
    | nil => intro d; rfl
    | cons t a ih =>
        intro d
        have ih := ih (fun k hk => h k (by simp [hk]))
        have ha : isArrow t = false := by
          have := h t (by simp)
          cases t <;> simp_all [isArrow]
        simp only [List.cons_append, arrowScan, ha, Bool.false_and, Bool.false_eq_true, if_false, ih]
        simp
  rw [primary, if_neg (by simp [atOpen])]
  simp [identHead, hs, bare]

/-- C179 refuted: in `(f: fn(A) -> B, y: C) -> e` the search stops at the parenthesis of the type:
`f` is taken for the only parameter and everything behind the comma for the body. -/
theorem function_type_violated (x : String) (t : L.T) (a b rest : List Tok) (fat : Bool)
    (ht : L.prT t = a ++ .rp :: .arrow fat :: b) (h1 : Tok.comma ∉ a) (h2 : Tok.rp ∉ a) (hr : Reads L t) :
    primary L (.lp :: .ident x :: .colon :: (L.prT t ++ .comma :: rest))
      = .ok (.lam [(x, some t)] false rest) := by
  have hy := hr (.comma :: rest) ⟨_, _, rfl, by simp⟩
  have hs : skipTy (L.prT t ++ .comma :: rest) = .rp :: .arrow fat :: (b ++ .comma :: rest) := by
    rw [ht, List.append_assoc, skipTy_flat a _ h1 h2]; rfl
  simp only [primary, parenHead, look, skipAnn, hs, List.length_nil, Nat.zero_lt_succ, if_true, atArrow, isArrow,
    List.nil_append, Res.ok_bind, again, List.drop_succ_cons, List.drop_zero, ann, hy]

theorem look_over : ∀ (xs : List String) (acc : List String) (n : Nat) (rest : List Tok),
    acc.length ≤ 16 → 16 < acc.length + xs.length → xs.length < n →
    look n acc (sepBy (fun x => [Tok.ident x]) xs ++ .rp :: rest) = .ub
  | [], acc, n, rest, h1, h2, _ => by simp at h2; omega
  | [x], acc, n, rest, h1, h2, hn => by
      obtain ⟨n, rfl⟩ : ∃ m, n = m + 1 := ⟨n - 1, by omega⟩
      have : ¬ acc.length < 16 := by simp at h2; omega
      simp [sepBy, look, this]
  | x :: y :: xs, acc, n, rest, h1, h2, hn => by
      obtain ⟨n, rfl⟩ : ∃ m, n = m + 1 := ⟨n - 1, by omega⟩
      by_cases h : acc.length < 16
      · have ih := look_over (y :: xs) (acc ++ [x]) n rest
          (by simp only [List.length_append, List.length_cons, List.length_nil]; omega)
          (by simp only [List.length_append, List.length_cons, List.length_nil] at h2 ⊢; omega)
          (by simp only [List.length_cons] at hn ⊢; omega)
        simp only [sepBy, List.cons_append, List.nil_append, look, h, if_true, skipAnn, ih]
      · simp only [sepBy, List.cons_append, List.nil_append, look, h, if_false]

/-- C179 refuted: any expression that begins with more than 16 names in parentheses, a lambda or a
tuple, makes the compiler write behind the end of an array. -/
theorem paren_overflow_violated (xs : List String) (r : List Tok) (h : 16 < xs.length) :
    primary L (.lp :: (sepBy (fun x => [Tok.ident x]) xs ++ .rp :: r)) = .ub := by
  have hlen : ∀ l : List String, l.length ≤ (sepBy (fun x => [Tok.ident x]) l).length := by
    intro l
    induction l with
    | nil => simp
    | cons a l ih =>
        cases l with
        | nil => simp [sepBy]
        | cons b l => simp only [sepBy, List.length_append, List.length_cons, List.length_nil] at ih ⊢; omega
  have := look_over xs [] ((sepBy (fun x => [Tok.ident x]) xs ++ .rp :: r).length + 1) r (by simp)
    (by simpa using h) (by have := hlen xs; simp only [List.length_append]; omega)
  simp only [primary, parenHead, this]
  rfl

theorem capParams_over : ∀ (xs : List String) (acc : List (String × Option L.T)) (n : Nat) (rest : List Tok),
    acc.length ≤ 16 → 16 < acc.length + xs.length → xs.length < n →
    capParams L n acc (sepBy (fun x => [Tok.ident x]) xs ++ .rp :: rest) = .ub
  | [], acc, n, rest, h1, h2, _ => by simp at h2; omega
  | [x], acc, n, rest, h1, h2, hn => by
      obtain ⟨n, rfl⟩ : ∃ m, n = m + 1 := ⟨n - 1, by omega⟩
      have : ¬ acc.length < 16 := by simp at h2; omega
      simp [sepBy, capParams, this]
  | x :: y :: xs, acc, n, rest, h1, h2, hn => by
      obtain ⟨n, rfl⟩ : ∃ m, n = m + 1 := ⟨n - 1, by omega⟩
      by_cases h : acc.length < 16
      · have ih := capParams_over (y :: xs) (acc ++ [(x, none)]) n rest
          (by simp only [List.length_append, List.length_cons, List.length_nil]; omega)
          (by simp only [List.length_append, List.length_cons, List.length_nil] at h2 ⊢; omega)
          (by simp only [List.length_cons] at hn ⊢; omega)
        simp only [sepBy, List.cons_append, List.nil_append, capParams, h, if_true, ann, Res.ok_bind, ih]
      · simp only [sepBy, List.cons_append, List.nil_append, capParams, h, if_false]

/-- C179 refuted: so does `[&](..) -> e` with more than 16 names. -/
theorem cap_overflow_violated (xs : List String) (byRef fat : Bool) (body : List Tok) (h : 16 < xs.length) :
    primary L (capText byRef ++ .lp :: (sepBy (fun x => [Tok.ident x]) xs ++ .rp :: .arrow fat :: body)) = .ub := by
  have hn : ∀ l : List String, Nest .lp .rp (fun _ => True) (sepBy (fun x => [Tok.ident x]) l) ∧
      l.length ≤ (sepBy (fun x => [Tok.ident x]) l).length := by
    intro l
    induction l with
    | nil => exact ⟨.nil, by simp⟩
    | cons a l ih =>
        cases l with
        | nil => exact ⟨.cons (by simp) (by simp) trivial .nil, by simp [sepBy]⟩
        | cons b l =>
            refine ⟨.cons (by simp) (by simp) trivial (.cons (by simp) (by simp) trivial ih.1), ?_⟩
            have := ih.2
            simp only [sepBy, List.length_append, List.length_cons, List.length_nil] at this ⊢; omega
  have h2 : depthScan 0 (.lp :: (sepBy (fun x => [Tok.ident x]) xs ++ .rp :: .arrow fat :: body)) = true := by
    rw [depthScan, depthScan_nest (hn xs).1 _ _ (by omega)]; rfl
  have h1 := capParams_over (L := L) xs []
    ((sepBy (fun x => [Tok.ident x]) xs ++ .rp :: .arrow fat :: body).length + 1) (.arrow fat :: body) (by simp)
    (by simpa using h) (by have := (hn xs).2; simp only [List.length_append]; omega)
  have h3 : ∀ b, capHead L b (.lp :: (sepBy (fun x => [Tok.ident x]) xs ++ .rp :: .arrow fat :: body)) = .ub := by
    intro b
    simp only [capHead, h2, if_true, h1]
    rfl
  cases byRef
  · exact h3 false
  · exact h3 true

theorem capLoop_over : ∀ (xs : List (String × Bool)) (acc : List (String × Bool)) (d : Bool) (rest : List Tok),
    acc.length ≤ 32 → 32 < acc.length + xs.length →
    capLoop acc d (sepBy itemText (xs.map fun p => Item.name p.1 p.2) ++ .rb :: rest) = .ub
  | [], acc, d, rest, h1, h2 => by simp at h2; omega
  | [(x, m)], acc, d, rest, h1, h2 => by
      have : ¬ acc.length < 32 := by simp at h2; omega
      cases m <;> simp [sepBy, itemText, capLoop, this]
  | (x, m) :: y :: xs, acc, d, rest, h1, h2 => by
      by_cases h : acc.length < 32
      · have ih := capLoop_over (y :: xs) (acc ++ [(x, m)]) d rest
          (by simp only [List.length_append, List.length_cons, List.length_nil]; omega)
          (by simp only [List.length_append, List.length_cons, List.length_nil] at h2 ⊢; omega)
        simp only [List.map_cons] at ih
        cases m <;>
          simp only [List.map_cons, sepBy, itemText, List.cons_append, List.nil_append, capLoop, h, if_true, ih]
      · cases m <;>
          simp only [List.map_cons, sepBy, itemText, List.cons_append, List.nil_append, capLoop, h, if_false]

/-- C179 refuted: so does a capture list with more than 32 names. -/
theorem caps_overflow_violated (xs : List (String × Bool)) (r : List Tok) (h : 32 < xs.length) :
    primary L (.ident "fn" :: .lb :: (sepBy itemText (xs.map fun p => Item.name p.1 p.2) ++ .rb :: r)) = .ub := by
  have := capLoop_over xs [] false r (by simp) (by simpa using h)
  rw [primary, if_pos ⟨rfl, rfl⟩]
  simp only [fnHead, capList, this]
  rfl

theorem fnParams_over : ∀ (ps : List (String × L.T)) (acc : List (String × L.T)) (n : Nat) (rest : List Tok),
    ps ≠ [] → acc ≠ [] → ps.length < n → acc.length ≤ 16 → 16 < acc.length + ps.length →
    (∀ p ∈ ps, Reads L p.2) → fnParams L n acc (.comma :: (fnText ps ++ .rp :: rest)) = .ub
  | [], _, _, _, h, _, _, _, _, _ => absurd rfl h
  | p :: ps, acc, n, rest, _, ha, hn, hl, hg, hr => by
      obtain ⟨n, rfl⟩ : ∃ m, n = m + 1 := ⟨n - 1, by omega⟩
      have he : acc.isEmpty = false := by cases acc with | nil => exact absurd rfl ha | cons _ _ => rfl
      obtain ⟨r, e⟩ : ∃ r, fnText (p :: ps) ++ .rp :: rest = .ident p.1 :: r := by
        cases ps with
        | nil => exact ⟨_, by rw [fnText_one]; rfl⟩
        | cons q ps => exact ⟨_, by rw [fnText_cons2]; rfl⟩
      by_cases h1 : acc.length < 16
      · cases ps with
        | nil => simp at hg; omega
        | cons q ps =>
            have ht := hr p (by simp) (.comma :: (fnText (q :: ps) ++ .rp :: rest)) ⟨_, _, rfl, by simp⟩
            have ih := fnParams_over (q :: ps) (acc ++ [p]) n rest (by simp) (by simp)
              (by simp only [List.length_cons] at hn ⊢; omega)
              (by simp only [List.length_append, List.length_cons, List.length_nil]; omega)
              (by simp only [List.length_cons, List.length_append, List.length_nil] at hg ⊢; omega)
              (fun r hm => hr r (by simp only [List.mem_cons] at hm ⊢; exact .inr hm))
            rw [fnText_cons2]
            simp [fnParams, needComma, he, h1, ht, ih]
      · rw [e]
        simp [fnParams, needComma, he, h1]

/-- C179 refuted: so does a `fn` lambda with more than 16 parameters. -/
theorem fn_overflow_violated (ps : List (String × L.T)) (r : List Tok) (h : 16 < ps.length)
    (hr : ∀ p ∈ ps, Reads L p.2) : primary L (.ident "fn" :: .lp :: (fnText ps ++ .rp :: r)) = .ub := by
  match ps, h, hr with
  | p :: q :: ps, h, hr =>
      have ht := hr p (by simp) (.comma :: (fnText (q :: ps) ++ .rp :: r)) ⟨_, _, rfl, by simp⟩
      have hlen := fnText_len (p :: q :: ps)
      have ih := fnParams_over (q :: ps) [p] ((fnText (p :: q :: ps) ++ .rp :: r).length) r (by simp) (by simp)
        (by simp only [List.length_append, List.length_cons] at hlen ⊢; omega) (by simp)
        (by simp only [List.length_cons, List.length_nil] at h ⊢; omega)
        (fun r hm => hr r (by simp only [List.mem_cons] at hm ⊢; exact .inr hm))
      rw [primary, if_pos ⟨rfl, rfl⟩]
      rw [fnText_cons2] at ih ⊢
      simp only [List.cons_append, List.append_assoc] at ih ⊢
      simp only [fnHead, capList, Res.ok_bind, fnParams, needComma, List.isEmpty_nil, if_true, List.length_nil,
        Nat.zero_lt_succ, ht, List.nil_append, ih]
      rfl

/-! ## A language of types -/

/-- Types that are a name, or a name with one argument between angle brackets. -/
inductive Ty where
  | name (w : String)
  | app (w : String) (a : String)
  deriving DecidableEq, Repr

/-- reads them -/
def tyRead : List Tok → Option (Ty × List Tok)
  | .ident w :: .la :: .ident a :: .ra :: r => some (.app w a, r)
  | .ident w :: r => some (.name w, r)
  | _ => none

/-- writes them -/
def tyText : Ty → List Tok
  | .name w => [.ident w]
  | .app w a => [.ident w, .la, .ident a, .ra]

/-- the language of these types -/
def sample : Lang := ⟨Ty, tyRead, tyText⟩

theorem sample_reads (t : Ty) : Reads sample t := by
  intro rest h
  obtain ⟨k, r, rfl, h⟩ := h
  cases t with
  | name w => rcases h with rfl | rfl | rfl | rfl <;> rfl
  | app w a => rfl

theorem sample_plain (t : Ty) : Plain sample t := by
  cases t with
  | name w => exact .cons (by simp) (by simp) (by simp) .nil
  | app w a =>
      exact .cons (by simp) (by simp) (by simp)
        (.wrap (a := [.ident a]) (b := []) (.cons (by simp) (by simp) (by simp) .nil) .nil)

/-- Every hypothesis holds of these types, so that every form is read as written, e.g.
`fn[&, a, &b](x: int, v: Vec<int>) -> int {` -/
example (r : List Tok) :
    primary sample ([.ident "fn", .lb, .amp, .comma, .ident "a", .comma, .amp, .ident "b", .rb, .lp, .ident "x",
        .colon, .ident "int", .comma, .ident "v", .colon, .ident "Vec", .la, .ident "int", .ra, .rp, .arrow false,
        .ident "int", .lbrace] ++ r)
      = .ok (.fn ⟨[("a", false), ("b", true)], true, [("x", .name "int"), ("v", .app "Vec" "int")],
          some (.name "int")⟩ (.lbrace :: r)) :=
  lambda_read_partial (L := sample) (.fn [.default true, .name "a" false, .name "b" true]
    [("x", .name "int"), ("v", .app "Vec" "int")] (some (.name "int"))) (.lbrace :: r)
    ⟨by decide, by decide, fun _ _ => sample_reads _, fun _ _ => sample_reads _, r, rfl⟩

/-- `v: Vec<int> -> e` -/
example (e : List Tok) : primary sample ([.ident "v", .colon, .ident "Vec", .la, .ident "int", .ra, .arrow false] ++ e)
    = .ok (.lam [("v", some (.app "Vec" "int"))] false e) :=
  lambda_read_partial (L := sample) (.typed "v" (.app "Vec" "int")) e ⟨sample_reads _, sample_plain _⟩

end Verif.LambdaHead
