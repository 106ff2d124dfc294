import Verif.Complete.Model

/-!
# C152: the names offered are those in scope; C151: fields behind a dot; C153: the outline
-/

namespace Verif.Complete
open Spec

/-! ## The search -/

/-- Sizes of lists one behind the other. -/
theorem sizes_append (a b : List Node) : sizes (a ++ b) = sizes a + sizes b := by
  induction a with
  | nil => simp [sizes]
  | cons n a ih => simp only [List.cons_append, sizes, ih]; omega

/-- A statement counts itself. -/
theorem size_eq (n : Node) : size n = 1 + sizes n.children := by
  cases n with
  | mk k cs => cases k <;> simp [size, Node.children, sizes]

/-- Each statement of a list counts. -/
theorem length_le_sizes (q : List Node) : q.length ≤ sizes q := by
  induction q with
  | nil => simp [sizes]
  | cons n q ih => simp only [List.length_cons, sizes, size_eq n]; omega

/-- A variable declared in a statement is the statement or is declared in one of those inside. -/
theorem decl_iff (n : Node) (x : Str) (ty : Option Str) (l : Nat) :
    Decl n x ty l ↔ n.kind = .var x ty l ∨ ∃ m ∈ n.children, Decl m x ty l := by
  constructor
  · intro h
    cases h with
    | var => exact Or.inl rfl
    | block hm h => exact Or.inr ⟨_, hm, h⟩
    | ifs hm h => exact Or.inr ⟨_, hm, h⟩
    | whiles hm h => exact Or.inr ⟨_, hm, h⟩
    | fors hm h => exact Or.inr ⟨_, hm, h⟩
  · cases n with
    | mk k cs =>
      intro h
      rcases h with h | ⟨m, hm, h⟩
      · have e : k = .var x ty l := h
        rw [e]
        exact .var
      · cases k with
        | var => cases hm
        | other => cases hm
        | block => exact .block hm h
        | ifs => exact .ifs hm h
        | whiles => exact .whiles hm h
        | fors => exact .fors hm h

/-- With places for all, every statement is taken. -/
theorem visit_iff (x : Str) (ty : Option Str) (l : Nat) : ∀ (k : Nat) (q : List Node) (tail : Nat),
    tail + sizes q < 1024 + q.length → sizes q ≤ k →
    ((∃ n ∈ visit k q tail, n.kind = .var x ty l) ↔ ∃ n ∈ q, Decl n x ty l) := by
  intro k
  induction k with
  | zero =>
    intro q tail _ hk
    cases q with
    | nil => simp [visit]
    | cons n q => simp only [sizes, size_eq n] at hk; omega
  | succ k ih =>
    intro q tail ht hk
    cases q with
    | nil => simp [visit]
    | cons n q =>
      have hn := size_eq n
      have hq := length_le_sizes q
      have hc := length_le_sizes n.children
      simp only [sizes, List.length_cons] at ht hk
      have htail : tail < 1024 := by omega
      have htake : n.children.take (1024 - tail) = n.children := List.take_of_length_le (by omega)
      rw [visit, if_pos htail]
      simp only [htake]
      have := ih (q ++ n.children) (tail + n.children.length)
        (by rw [sizes_append, List.length_append]; omega) (by rw [sizes_append]; omega)
      constructor
      · rintro ⟨m, hm, hv⟩
        rcases List.mem_cons.1 hm with rfl | hm
        · exact ⟨_, List.mem_cons_self .., (decl_iff ..).2 (Or.inl hv)⟩
        · obtain ⟨a, ha, hd⟩ := this.1 ⟨m, hm, hv⟩
          rcases List.mem_append.1 ha with ha | ha
          · exact ⟨a, List.mem_cons_of_mem _ ha, hd⟩
          · exact ⟨n, List.mem_cons_self .., (decl_iff ..).2 (Or.inr ⟨a, ha, hd⟩)⟩
      · rintro ⟨m, hm, hd⟩
        rcases List.mem_cons.1 hm with rfl | hm
        · rcases (decl_iff ..).1 hd with hv | ⟨a, ha, hd⟩
          · exact ⟨_, List.mem_cons_self .., hv⟩
          · obtain ⟨b, hb, hv⟩ := this.2 ⟨a, List.mem_append_right _ ha, hd⟩
            exact ⟨b, List.mem_cons_of_mem _ hb, hv⟩
        · obtain ⟨b, hb, hv⟩ := this.2 ⟨m, List.mem_append_left _ hm, hd⟩
          exact ⟨b, List.mem_cons_of_mem _ hb, hv⟩

/-- In a function of less than 1024 statements every declaration is found. -/
theorem visited_iff {b : Node} (hb : size b < 1024) (x : Str) (ty : Option Str) (l : Nat) :
    (∃ n ∈ visited b, n.kind = .var x ty l) ↔ Decl b x ty l := by
  unfold visited
  rw [visit_iff x ty l 1024 [b] 1 (by simp only [sizes, List.length_cons, List.length_nil]; omega)
    (by simp only [sizes]; omega)]
  simp

/-! ## C152 -/

/-- **The names offered for a function** of less than 1024 statements are its parameters and the variables declared in it,
through blocks, `if`, `while` and `for`, whose node is of a line before the cursor. -/
theorem locals_iff {f : Fn} {b : Node} (hf : f.body = some b) (hb : size b < 1024) (line : Nat) (x : Str) :
    x ∈ locals f line ↔ x ∈ f.params.map (·.1) ∨ ∃ ty l, l < line ∧ Decl b x ty l := by
  unfold locals
  rw [hf, List.mem_append, List.mem_filterMap]
  refine or_congr_right ⟨?_, ?_⟩
  · rintro ⟨n, hn, e⟩
    cases hk : n.kind with
    | var y ty l =>
      rw [hk] at e
      simp only at e
      split at e
      · rename_i hl
        cases e
        exact ⟨ty, l, hl, (visited_iff hb _ _ _).1 ⟨n, hn, hk⟩⟩
      · cases e
    | block => rw [hk] at e; cases e
    | ifs => rw [hk] at e; cases e
    | whiles => rw [hk] at e; cases e
    | fors => rw [hk] at e; cases e
    | other => rw [hk] at e; cases e
  · rintro ⟨ty, l, hl, hd⟩
    obtain ⟨n, hn, hk⟩ := (visited_iff hb _ _ _).2 hd
    refine ⟨n, hn, ?_⟩
    rw [hk]
    simp only [if_pos hl]

/-- Statements inside one that is entered. -/
theorem decl_child {k : Kind} (hk : k = .block ∨ k = .ifs ∨ k = .whiles ∨ k = .fors) {cs : List Node} {n : Node} (hn : n ∈ cs)
    {x : Str} {ty : Option Str} {l : Nat} (h : Decl n x ty l) : Decl (.mk k cs) x ty l := by
  rcases hk with rfl | rfl | rfl | rfl
  · exact .block hn h
  · exact .ifs hn h
  · exact .whiles hn h
  · exact .fors hn h

/-- A variable before the cursor is declared in the function. -/
theorem before_decl {p : Place} (hp : Plain p) {n : Node} (h : Before p n) {x : Str} {ty : Option Str} {l : Nat}
    (hd : Decl n x ty l) : Decl p.node x ty l := by
  induction h with
  | here hn => exact .block (List.mem_append_left _ hn) hd
  | block hn => exact .block (List.mem_append_left _ hn) hd
  | first hn => exact .fors (List.mem_append_left _ hn) hd
  | inner _ ih => exact decl_child hp.1 (List.mem_append_right _ (List.mem_cons_self ..)) (ih hp.2 hd)

/-- **Every variable in scope is offered**, in a function of less than 1024 statements, where the cursor is inside blocks,
`if`, `while` and `for` only, and not on the first line of the file. -/
theorem scope_offered_partial {f : Fn} {p : Place} (hf : f.body = some p.node) (hsize : size p.node < 1024) (hp : Plain p)
    {x : Str} {ty : Option Str} {l line : Nat} {cs : List Node} (h : Before p (.mk (.var x ty (stamp false l)) cs))
    (hl : 0 < line) : x ∈ locals f line :=
  (locals_iff hf hsize line x).2 (Or.inr ⟨ty, 0, hl, before_decl hp h .var⟩)

/-- Parameters are offered always. -/
theorem params_offered (f : Fn) (line : Nat) {x : Str} (h : x ∈ f.params.map (·.1)) : x ∈ locals f line :=
  List.mem_append_left _ h

/-- A place in a `while` in a function, with a variable before it, and one in the `while`. -/
def samplePlace : Place :=
  .within .block [.mk (.var ['x'] none 0) []] (.within .whiles [] (.here [.mk (.var ['y'] none 0) []] []) []) [.mk .other []]

example : Plain samplePlace ∧ size samplePlace.node < 1024 ∧ Before samplePlace (.mk (.var ['x'] none 0) []) ∧
    Before samplePlace (.mk (.var ['y'] none 0) []) :=
  ⟨⟨Or.inl rfl, Or.inr (Or.inr (Or.inl rfl)), trivial⟩, by decide, .block (by simp), .inner (.inner (.here (by simp)))⟩

/-- **The function chosen is the one whose name is on the latest line that is not behind the cursor.** -/
theorem target_spec (fs : List Fn) (line : Nat) :
    match target fs line with
    | none => ∀ f ∈ fs, 0 < f.line → line < f.line - 1
    | some f => f ∈ fs ∧ 0 < f.line ∧ f.line - 1 ≤ line ∧ ∀ g ∈ fs, 0 < g.line → g.line - 1 ≤ line → g.line ≤ f.line := by
  have H : ∀ (fs : List Fn) (best : Option Fn) (old : List Fn),
      (match best with
        | none => ∀ f ∈ old, 0 < f.line → line < f.line - 1
        | some f => f ∈ old ∧ 0 < f.line ∧ f.line - 1 ≤ line ∧ ∀ g ∈ old, 0 < g.line → g.line - 1 ≤ line → g.line ≤ f.line) →
      match search line fs best with
      | none => ∀ f ∈ old ++ fs, 0 < f.line → line < f.line - 1
      | some f => f ∈ old ++ fs ∧ 0 < f.line ∧ f.line - 1 ≤ line ∧
          ∀ g ∈ old ++ fs, 0 < g.line → g.line - 1 ≤ line → g.line ≤ f.line := by
    intro fs
    induction fs with
    | nil => intro best old h; rw [List.append_nil]; exact h
    | cons f fs ih =>
      intro best old h
      rw [search, show old ++ f :: fs = (old ++ [f]) ++ fs by simp]
      by_cases hc : 0 < f.line ∧ f.line - 1 ≤ line ∧ below best f = true
      · rw [if_pos hc]
        obtain ⟨h0, h1, h2⟩ := hc
        apply ih
        refine ⟨by simp, h0, h1, ?_⟩
        intro g hg hg0 hg1
        rcases List.mem_append.1 hg with hg | hg
        · cases best with
          | none => exact absurd (h g hg hg0) (by omega)
          | some b =>
            have hb := h.2.2.2 g hg hg0 hg1
            have := of_decide_eq_true h2
            omega
        · rw [List.mem_singleton.1 hg]; exact Nat.le_refl _
      · rw [if_neg hc]
        apply ih
        cases best with
        | none =>
          intro g hg hg0
          rcases List.mem_append.1 hg with hg | hg
          · exact h g hg hg0
          · rw [List.mem_singleton.1 hg] at hg0 ⊢
            refine Nat.lt_of_not_le fun hle => hc ⟨hg0, hle, rfl⟩
        | some b =>
          obtain ⟨m, b0, b1, b2⟩ := h
          refine ⟨List.mem_append_left _ m, b0, b1, ?_⟩
          intro g hg hg0 hg1
          rcases List.mem_append.1 hg with hg | hg
          · exact b2 g hg hg0 hg1
          · rw [List.mem_singleton.1 hg] at hg0 hg1 ⊢
            refine Nat.le_of_not_lt fun hlt => hc ⟨hg0, hg1, decide_eq_true hlt⟩
  have := H fs none [] (fun f hf => nomatch hf)
  rw [List.nil_append] at this
  exact this

/-- **In a file of functions one below the other, the function around the cursor is chosen.** -/
theorem target_around {fs gs : List Fn} {f : Fn} {line : Nat} (h0 : 0 < f.line) (h1 : f.line - 1 ≤ line)
    (hf : ∀ g ∈ fs, g.line < f.line) (hg : ∀ g ∈ gs, line < g.line - 1) : target (fs ++ f :: gs) line = some f := by
  have h := target_spec (fs ++ f :: gs) line
  have hm : f ∈ fs ++ f :: gs := by simp
  cases ht : target (fs ++ f :: gs) line with
  | none =>
    rw [ht] at h
    exact absurd (h f hm h0) (by omega)
  | some g =>
    rw [ht] at h
    obtain ⟨m, g0, g1, g2⟩ := h
    have := g2 f hm h0 h1
    rcases List.mem_append.1 m with m | m
    · have := hf g m; omega
    · rcases List.mem_cons.1 m with rfl | m
      · rfl
      · have := hg g m; omega

/-! ## C151 -/

/-- The text behind the lines before. -/
theorem fromLine_append (pre : List Str) (hp : ∀ l ∈ pre, '\n' ∉ l) (s : Str) :
    fromLine pre.length (pre.flatMap (fun l => l ++ ['\n']) ++ s) = s := by
  induction pre with
  | nil => rw [List.flatMap_nil, List.nil_append, List.length_nil, fromLine]
  | cons l pre ih =>
    have hl := hp l (List.mem_cons_self ..)
    have H : ∀ l : Str, '\n' ∉ l → ∀ r, fromLine (pre.length + 1) (l ++ '\n' :: r) = fromLine pre.length r := by
      intro l hl r
      induction l with
      | nil => rw [List.nil_append, fromLine, if_pos rfl]
      | cons c l ih =>
        rw [List.cons_append, fromLine, if_neg (fun e => hl (by rw [e]; exact List.mem_cons_self ..)),
          ih (fun h => hl (List.mem_cons_of_mem _ h))]
    rw [List.flatMap_cons, List.length_cons, List.append_assoc, List.append_assoc, List.cons_append, List.nil_append, H l hl]
    exact ih (fun l h => hp l (List.mem_cons_of_mem _ h))

/-- The characters of names are the letters, the digits and `_`. -/
theorem isIdent_spec (c : Char) :
    isIdent c = true ↔ ('a' ≤ c ∧ c ≤ 'z') ∨ ('A' ≤ c ∧ c ≤ 'Z') ∨ ('0' ≤ c ∧ c ≤ '9') ∨ c = '_' := by
  simp only [isIdent, Bool.or_eq_true, Bool.and_eq_true, decide_eq_true_eq, beq_iff_eq, or_assoc]

/-- **The name before a dot is the name that is written there**, with blanks behind it or not. -/
theorem nameBefore_spec {l x bl : Str} (hx : ∀ c ∈ x, isIdent c = true) (hne : x ≠ []) (hb : ∀ c ∈ bl, isBlank c = true)
    (hl : ∀ c, l.getLast? = some c → isIdent c = false) : nameBefore (l ++ x ++ bl) = x := by
  unfold nameBefore
  have hbx : ∀ c, isIdent c = true → isBlank c = false := by
    intro c hc
    cases hcb : isBlank c with
    | false => rfl
    | true =>
      unfold isBlank at hcb
      rcases Bool.or_eq_true_iff.1 hcb with e | e
      · have := beq_iff_eq.1 e; subst this; exact absurd hc (by decide)
      · have := beq_iff_eq.1 e; subst this; exact absurd hc (by decide)
  rw [List.reverse_append, List.reverse_append, List.dropWhile_append_of_pos (fun c h => hb c (List.mem_reverse.1 h))]
  cases hr : x.reverse with
  | nil => exact absurd (List.reverse_eq_nil_iff.1 hr) hne
  | cons c r =>
    have hcx : ∀ d ∈ c :: r, isIdent d = true := by
      intro d hd; rw [← hr] at hd; exact hx d (List.mem_reverse.1 hd)
    have hc := hcx c (List.mem_cons_self ..)
    rw [List.cons_append, List.dropWhile_cons_of_neg (by rw [hbx c hc]; decide), ← List.cons_append,
      List.takeWhile_append_of_pos hcx]
    have : l.reverse.takeWhile isIdent = [] := by
      cases hlr : l.reverse with
      | nil => rfl
      | cons d r' =>
        rw [List.takeWhile_cons_of_neg]
        rw [hl d (by rw [List.getLast?_eq_head?_reverse, hlr]; rfl)]
        decide
    rw [this, List.append_nil, ← hr, List.reverse_reverse]

/-- **The name of the struct is found in the text of the type**, also of a pointer, and behind `struct`. -/
theorem cleanName_spec {n : Str} (h1 : '*' ∉ n) (h2 : ¬ "struct ".toList <+: n) (k : Nat) :
    cleanName (n ++ List.replicate k '*') = n ∧ cleanName ("struct ".toList ++ n ++ List.replicate k '*') = n := by
  have ht : ∀ k, (n ++ List.replicate k '*').takeWhile (· ≠ '*') = n := by
    intro k
    rw [List.takeWhile_append_of_pos (fun c hc => by simpa using fun e => h1 (by rw [← e]; exact hc))]
    cases k with
    | zero => simp
    | succ k => rw [List.replicate_succ, List.takeWhile_cons_of_neg (by simp), List.append_nil]
  unfold cleanName
  constructor
  · rw [if_neg, ht]
    intro h
    have h := List.isPrefixOf_iff_prefix.1 h
    apply h2
    rcases Nat.le_total 7 n.length with hle | hle
    · exact List.prefix_of_prefix_length_le h (List.prefix_append ..) hle
    · obtain ⟨r, hr⟩ := h
      have e : (n ++ List.replicate k '*').take 7 = "struct ".toList := by rw [← hr]; rfl
      have hs : n <+: "struct ".toList := by
        rw [← e]
        exact List.prefix_take_iff.2 ⟨List.prefix_append .., hle⟩
      rcases Nat.lt_or_ge n.length 7 with hlt | hge
      · exfalso
        have hget : ("struct ".toList ++ r)[n.length]? = (n ++ List.replicate k '*')[n.length]? := by rw [hr]
        rw [List.getElem?_append_left (by exact hlt), List.getElem?_append_right (Nat.le_refl _), Nat.sub_self] at hget
        have hd : ∀ i : Nat, ("struct ".toList)[i]? ≠ some '*' := by
          intro i h
          have := List.mem_of_getElem? h
          revert this
          decide
        cases k with
        | zero =>
          rw [List.getElem?_eq_getElem (by exact hlt)] at hget
          cases hget
        | succ k => exact hd _ hget
      · have hl : n.length = 7 := by omega
        rw [← hs.eq_of_length (by rw [hl]; rfl)]
        exact List.prefix_refl _
  · rw [if_pos (List.isPrefixOf_iff_prefix.2 (by rw [List.append_assoc]; exact List.prefix_append ..)), List.append_assoc,
      show (7 : Nat) = "struct ".toList.length from rfl, List.drop_left, ht]

/-- The type of a parameter. -/
theorem localType_param {f : Fn} {x t : Str} (h : f.params.find? (fun p => p.1 = x) = some (x, some t)) :
    localType (some f) x = some t := by
  unfold localType
  simp only [h, Option.bind_some]

/-- The type of a variable, if all variables of its name in the function have it. -/
theorem localType_var {f : Fn} {b : Node} (hf : f.body = some b) (hb : size b < 1024) {x t : Str}
    (hp : x ∉ f.params.map (·.1)) {l : Nat} (hd : Decl b x (some t) l) (hu : ∀ ty l, Decl b x ty l → ty = some t) :
    localType (some f) x = some t := by
  unfold localType
  have h1 : f.params.find? (fun p => p.1 = x) = none := by
    rw [List.find?_eq_none]
    intro p hp' e
    exact hp (List.mem_map.2 ⟨p, hp', of_decide_eq_true e⟩)
  simp only [h1, Option.bind_none]
  unfold findLocal
  rw [hf]
  simp only
  rw [if_neg (by simpa using hp)]
  obtain ⟨n, hn, hk⟩ := (visited_iff hb _ _ _).2 hd
  cases hs : (visited b).findSome? (fun n =>
      match n.kind with
      | .var y ty _ => if y = x then some ty else none
      | _ => none) with
  | none =>
    have := List.findSome?_eq_none_iff.1 hs n hn
    rw [hk] at this
    simp at this
  | some ty =>
    obtain ⟨m, hm, e⟩ := List.exists_of_findSome?_eq_some hs
    cases hmk : m.kind with
    | var y ty' l' =>
      rw [hmk] at e
      simp only at e
      split at e
      · rename_i hy
        cases e
        subst hy
        rw [hu _ _ ((visited_iff hb _ _ _).1 ⟨m, hm, hmk⟩)]
        rfl
      · cases e
    | block => rw [hmk] at e; cases e
    | ifs => rw [hmk] at e; cases e
    | whiles => rw [hmk] at e; cases e
    | fors => rw [hmk] at e; cases e
    | other => rw [hmk] at e; cases e

/-- **Behind a dot the fields of the struct of the variable are offered, and nothing else**: the cursor is right behind the
dot, the name before it has the type `t` in the function around, and the names and texts fit the buffers. -/
theorem dot_fields_partial {c : Ctx} {is : List Item} {pre : List Str} (hpre : ∀ l ∈ pre, '\n' ∉ l) {l x bl r : Str}
    (hx : ∀ c ∈ x, isIdent c = true) (hne : x ≠ []) (hxl : x.length < 256) (hb : ∀ c ∈ bl, isBlank c = true)
    (hl : ∀ c, l.getLast? = some c → isIdent c = false) {t : Str}
    (ht : localType (target (functions is) pre.length) x = some t) (htl : (cleanName t).length < 256)
    {fs : List (Str × Str)} (hs : c.structs.find? (fun s => s.1 = cleanName t) = some (cleanName t, fs))
    (hfs : ∀ p ∈ fs, p.2.length < 250) :
    completion c is (pre.flatMap (fun l => l ++ ['\n']) ++ (l ++ x ++ bl ++ '.' :: r)) pre.length ((l ++ x ++ bl).length + 1) =
      .fields fs := by
  unfold completion
  simp only [fromLine_append pre hpre]
  rw [if_pos (Nat.succ_pos _), Nat.add_sub_cancel, if_neg (by rw [List.length_append]; omega),
    if_pos (by rw [List.getElem?_append_right (Nat.le_refl _), Nat.sub_self]; rfl), List.take_left,
    nameBefore_spec hx hne hb hl, if_neg hne, if_neg (by omega)]
  unfold typeText
  rw [ht]
  simp only
  rw [if_neg (by omega)]
  unfold fieldsOf
  rw [hs]
  simp only [Option.map_some]
  rw [if_pos (List.all_eq_true.2 fun p hp => decide_eq_true (by have := hfs p hp; omega))]

/-- `p .` on the second line, in a function with a parameter of type `P*`. -/
example : completion { structs := [(['P'], [(['x'], ['i'])])] } [.fn ⟨['f'], 1, 1, [(['p'], some ['P', '*'])], none⟩]
    "fn f(p: P*) {\n  p .\n}".toList 1 5 = .fields [(['x'], ['i'])] :=
  dot_fields_partial (pre := ["fn f(p: P*) {".toList]) (l := "  ".toList) (x := ['p']) (bl := [' ']) (r := "\n}".toList)
    (t := ['P', '*']) (by decide) (by decide) (by decide) (by decide) (by decide) (by intro c h; cases h; rfl) (by decide +kernel) (by decide)
    (by decide +kernel) (by decide)

/-! ## C153 -/

/-- The entries of functions are the functions of the file, in order and at their places. -/
theorem outline_functions (is : List Item) : ((outline is).filter fun e => e.kind == 12) =
    (functions is).map fun f => ⟨f.name, 12, f.line - 1, f.col - 1, []⟩ := by
  unfold outline functions
  induction nodes is with
  | nil => rfl
  | cons i is ih =>
    cases i <;> simp [entry, List.filterMap_cons, ih]

/-- Variables are listed at their places. -/
theorem outline_var {is : List Item} {n : Str} {l c : Nat} (h : Item.var n l c ∈ is) :
    ⟨n, 13, l - 1, c - 1, []⟩ ∈ outline is := by
  refine List.mem_filterMap.2 ⟨.var n l c, ?_, rfl⟩
  induction is with
  | nil => cases h
  | cons i is ih =>
    rcases List.mem_cons.1 h with rfl | h
    · simp [nodes, nodesOf]
    · simp [nodes, ih h]

/-- A declaration that is listed. -/
def listed : Item → Option Str
  | .fn f => some f.name
  | .struct n _ | .enum n | .const n => some n
  | .var n _ _ => some n
  | _ => none

/-- **The outline lists the functions, structs, enums, variables and constants of a file in their order**, when the file
imports none for the first time. -/
theorem outline_names {is : List Item} (h : ∀ fs, Item.imports fs ∉ is) : (outline is).map (·.name) = is.filterMap listed := by
  unfold outline
  induction is with
  | nil => rfl
  | cons i is ih =>
    have ih := ih fun fs hm => h fs (List.mem_cons_of_mem _ hm)
    cases i with
    | imports fs => exact absurd (List.mem_cons_self ..) (h fs)
    | _ => simp [nodes, nodesOf, entry, listed, List.filterMap_cons, ih]

/-- The fields of a struct are listed below it. -/
theorem outline_fields {is : List Item} {n : Str} {fs : List (Str × Str)} (h : Item.struct n fs ∈ is) :
    ∃ e ∈ outline is, e.name = n ∧ e.kind = 23 ∧ e.fields = fs.map (·.1) := by
  refine ⟨_, List.mem_filterMap.2 ⟨.struct n fs, ?_, rfl⟩, rfl, rfl, rfl⟩
  induction is with
  | nil => cases h
  | cons i is ih =>
    rcases List.mem_cons.1 h with rfl | h
    · simp [nodes, nodesOf]
    · have := ih h
      simp [nodes, this]

/-- A file with a struct and a function. -/
example : (outline [.struct ['S'] [(['a'], ['i'])], .generic ['g'], .fn ⟨['f'], 3, 4, [], none⟩]).map (·.name) = [['S'], ['f']] :=
  outline_names (by simp)

end Verif.Complete
