import Verif.GenBody.Lemmas

/-!
# C70: the code of an instance is the code of the template with the arguments put in

and C71: so are its raw texts.
-/

namespace Verif.GenBody

open DeclOrder (Prim dim)
open Generics (Name Ty isIdent sanitize zText cText txt replaceTypeStr parts sliceKw structKw suffixRule)
open Generics.Spec
open Spec

variable {p : Name}

/-! ## C71: raw texts -/

theorem param_plain (hp : Param p) : Plain p := hp.ident

theorem param_ident (hp : Param p) : ∀ x ∈ p, isIdent x = true := fun x hx => (hp.ident x hx).1

theorem tpl_comma {g : Name} (h : Tpl g) : ',' ∉ g := fun hh =>
  absurd (h.ident _ hh).1 (by decide)

/-- The words of a text equal to `p` are replaced, and nothing else. -/
theorem words_partial (p : Name) (hp0 : p ≠ []) (hp : ∀ x ∈ p, isIdent x = true) (cs ps : List Piece)
    (h : Code ps) (he : ∀ a ∈ ps, Ends a) :
    replaceWords p (text cs) (text ps) = text (ps.flatMap (forWord p cs)) := by
  have hc : ',' ∉ p := fun hh => absurd (hp _ hh) (by decide)
  rw [replaceWords, if_neg hc]
  refine rep_text_aux hp0 hp rfl h he ?_
  intro a _
  cases a with
  | word _ => rfl
  | mark _ => trivial
  | str _ => intro h; cases h

/-- The buffer of the result is large enough for every text and every two words. -/
theorem words_fit (p c s : Name) (hp0 : p ≠ []) :
    (rep p c 0 none false s).length + 1 = bufSize p c s := by
  have := rep_length (c := c) hp0 s 0 none false (Nat.zero_le _)
  unfold bufSize
  omega

/-- In every text, exactly the parts of names equal to `p` are replaced. -/
theorem parts_exact (p c s : Name) (hp : Param p) :
    mangledPart p c 0 none s = text ((tokens s).map (inPiece p c)) := by
  conv => lhs; rw [← tokens_text s]
  exact mangled_loose hp.ne (param_plain hp) (tokens_loose s) (fun _ _ => rfl)

/-- The buffer for it is too small exactly for results of 4096 characters and more. -/
theorem parts_overflow_iff (p c s : Name) (hp : Param p) :
    replaceMangled p c s = .ub ↔ 4096 ≤ (text ((tokens s).map (inPiece p c))).length := by
  unfold replaceMangled
  rw [parts_exact p c s hp]
  split
  · simp [*]
  · simp [*]

/-- What a raw text of a method of `os` stands for in the instance `ns` with the argument `cs`:
the parameter is the argument, the struct is the instance, parts of names become parts of names
of instances. -/
def Spec.inRaw (p clean : Name) (cs : List Piece) (st : Option (Name × Name)) : Piece → List Piece
  | .word w =>
    if w = p then cs
    else match st with
      | some (os, ns) => if w = os then [.word ns] else [.word (inName p clean w)]
      | none => [.word (inName p clean w)]
  | q => [q]

/-- Texts without surprises: strings do not end with a backslash and mention no name with the
part `p`. -/
def Spec.Quiet (p : Name) : Piece → Prop
  | .str b => b.getLast? ≠ some '\\' ∧ ∀ w, .word w ∈ tokens b → Apart p w
  | _ => True

/-- The pieces of an argument: no `p` in its names, nor the name of the struct around. -/
structure Spec.Filled (p : Name) (st : Option (Name × Name)) (cs : List Piece) : Prop where
  fill : Fill cs
  apart : ∀ w, .word w ∈ cs → Apart p w ∧ ∀ os ns, st = some (os, ns) → w ≠ os

/-- the struct around, its name and that of the instance -/
structure Spec.Inside (p os ns : Name) : Prop where
  ne : os ≠ []
  ident : ∀ x ∈ os, isIdent x = true
  notP : os ≠ p
  ns_ne : ns ≠ []
  ns_ident : ∀ x ∈ ns, isIdent x = true
  ns_apart : Apart p ns

theorem flat_inPiece {c : Name} {q : Piece} (hq : Quiet p q) :
    text ((flat q).map (inPiece p c)) = text [inPiece p c q] := by
  cases q with
  | word w => rfl
  | mark x => rfl
  | str b =>
    have : (tokens b).map (inPiece p c) = tokens b := by
      conv => rhs; rw [← List.map_id (tokens b)]
      apply List.map_congr_left
      intro a ha
      cases a with
      | word w => simp [inPiece, inName_apart (hq.2 w ha)]
      | mark _ => rfl
      | str _ => rfl
    have h2 : (flat (.str b)).map (inPiece p c) = flat (.str b) := by
      simp [flat, this, inPiece]
    rw [h2, flat_text]
    simp [text, inPiece]

theorem parts_code {c : Name} (hp : Param p) {ps : List Piece} (h : Code ps) (hq : ∀ a ∈ ps, Quiet p a) :
    mangledPart p c 0 none (text ps) = text (ps.map (inPiece p c)) := by
  rw [← flat_all_text, mangled_loose hp.ne (param_plain hp) (code_loose h) (fun _ _ => rfl)]
  clear h
  induction ps with
  | nil => rfl
  | cons a ps ih =>
    rw [List.flatMap_cons, List.map_append, text_append, flat_inPiece (hq a (by simp)),
      ih (fun b hb => hq b (by simp [hb])), List.map_cons, text_cons]
    simp [text]

theorem forWord_quiet {cs : List Piece} (hc : Fill cs) {w : Name} {ps : List Piece}
    (h : ∀ a ∈ ps, Quiet p a) : ∀ a ∈ ps.flatMap (forWord w cs), Quiet p a := by
  intro a ha
  obtain ⟨b, hb, hab⟩ := List.mem_flatMap.1 ha
  cases b with
  | word v =>
    simp only [forWord] at hab
    by_cases e : v = w
    · rw [if_pos e] at hab
      rcases hc.plain a hab with ⟨v, rfl⟩ | ⟨v, rfl, _⟩ <;> trivial
    · rw [if_neg e] at hab
      have : a = .word v := by simpa using hab
      subst this; trivial
  | mark x =>
    have : a = .mark x := by simpa [forWord] using hab
    subst this; trivial
  | str s =>
    have : a = .str s := by simpa [forWord] using hab
    subst this; exact h _ hb

theorem inPiece_fill {st : Option (Name × Name)} {cs : List Piece} (hc : Filled p st cs) (c : Name) :
    cs.map (inPiece p c) = cs := by
  conv => rhs; rw [← List.map_id cs]
  apply List.map_congr_left
  intro a ha
  cases a with
  | word w => simp [inPiece, inName_apart (hc.apart w ha).1]
  | mark _ => rfl
  | str _ => rfl

theorem fill_still {os ns : Name} {cs : List Piece} (hc : Filled p (some (os, ns)) cs) :
    cs.flatMap (forWord os [.word ns]) = cs := by
  have hcs := hc.apart
  clear hc
  induction cs with
  | nil => rfl
  | cons b cs ihc =>
    rw [List.flatMap_cons, ihc (fun w hw => hcs w (by simp [hw]))]
    cases b with
    | word v =>
      simp only [forWord]
      rw [if_neg ((hcs v (by simp)).2 os ns rfl)]; rfl
    | mark _ => rfl
    | str _ => rfl

/-- A raw text of a template becomes the text it stands for in the instance, if that has less
than 4096 characters. -/
theorem raw_partial (hp : Param p) (st : Option (Name × Name))
    (hst : ∀ os ns, st = some (os, ns) → Inside p os ns) (cs : List Piece) (hc : Filled p st cs)
    (ps : List Piece) (h : Code ps) (hq : ∀ a ∈ ps, Quiet p a)
    (hl : (text (ps.flatMap (inRaw p (sanitize (text cs)) cs st))).length < 4096) :
    rawText p (text cs) st (text ps) =
      .ok (text (ps.flatMap (inRaw p (sanitize (text cs)) cs st))) := by
  have hends : ∀ qs : List Piece, (∀ a ∈ qs, Quiet p a) → ∀ a ∈ qs, Ends a := by
    intro qs hqs a ha
    have := hqs a ha
    cases a with
    | word _ => trivial
    | mark _ => trivial
    | str b => exact this.1
  have h1 := words_partial p hp.ne (param_ident hp) cs ps h (hends _ hq)
  have c1 : Code (ps.flatMap (forWord p cs)) := forWord_code hc.fill h
  have q1 := forWord_quiet hc.fill (w := p) hq
  -- what the three steps give
  have key : mangledPart p (sanitize (text cs)) 0 none
      (selfWords st (replaceWords p (text cs) (text ps))) =
      text (ps.flatMap (inRaw p (sanitize (text cs)) cs st)) := by
    cases st with
    | none =>
      rw [selfWords, h1, parts_code hp c1 q1]
      clear h hq hl h1 c1 q1 hends
      congr 1
      induction ps with
      | nil => rfl
      | cons a ps ih =>
        rw [List.flatMap_cons, List.map_append, ih, List.flatMap_cons]
        congr 1
        cases a with
        | word w =>
          simp only [forWord, inRaw]
          by_cases e : w = p
          · rw [if_pos e, if_pos e, inPiece_fill hc]
          · rw [if_neg e, if_neg e]; rfl
        | mark _ => rfl
        | str _ => rfl
    | some q =>
      obtain ⟨os, ns⟩ := q
      have hi := hst os ns rfl
      have hf := fill_word hi.ns_ne hi.ns_ident
      have h2 := words_partial os hi.ne hi.ident [.word ns] _ c1 (hends _ q1)
      rw [show text [.word ns] = ns by simp [text, Piece.text]] at h2
      simp only [selfWords]
      rw [h1, h2, parts_code hp (forWord_code hf c1) (forWord_quiet hf q1)]
      clear h hq hl h1 c1 q1 h2 hends
      congr 1
      induction ps with
      | nil => rfl
      | cons a ps ih =>
        rw [List.flatMap_cons, List.flatMap_append, List.map_append, ih, List.flatMap_cons]
        congr 1
        cases a with
        | word w =>
          simp only [forWord, inRaw]
          by_cases e : w = p
          · rw [if_pos e, if_pos e]
            rw [fill_still hc, inPiece_fill hc]
          · rw [if_neg e, if_neg e]
            simp only [List.flatMap_cons, List.flatMap_nil, List.append_nil]
            by_cases eo : w = os
            · simp [forWord, eo, inPiece, inName_apart hi.ns_apart]
            · simp [forWord, eo, inPiece]
        | mark _ => rfl
        | str _ => rfl
  unfold rawText replaceMangled
  rw [key, if_neg (by omega)]

section examples

/-- `T* x = (T*)malloc(sizeof(T)); Box_T__init("T", x);` -/
def exampleRaw : List Piece :=
  [.word "T".toList, .mark '*', .mark ' ', .word "x".toList, .mark '=', .word "malloc".toList,
    .mark '(', .word "sizeof".toList, .mark '(', .word "T".toList, .mark ')', .mark ')', .mark ';',
    .word "Box_T__init".toList, .mark '(', .str "a \\\" T".toList, .mark ',', .word "x".toList,
    .mark ')', .mark ';']

theorem exampleParam : Param "T".toList :=
  { ne := by decide, ident := by decide, ptr := by decide }

example : rawText "T".toList "int*".toList (some ("Box".toList, "Box_intPtr".toList)) (text exampleRaw) =
    .ok "int** x=malloc(sizeof(int*));Box_intPtr__init(\"a \\\" T\",x);".toList := by
  have h := raw_partial exampleParam (some ("Box".toList, "Box_intPtr".toList))
    (by
      rintro os ns h
      simp only [Option.some.injEq, Prod.mk.injEq] at h
      obtain ⟨rfl, rfl⟩ := h
      exact ⟨by decide, by decide, by decide, by decide, by decide, fun _ => by decide⟩)
    [.word "int".toList, .mark '*']
    { fill := ⟨.cons ⟨by decide, by decide⟩ trivial (.one ⟨by decide, by decide⟩), by decide, by
          intro a ha
          simp only [List.mem_cons, List.not_mem_nil, or_false] at ha
          rcases ha with rfl | rfl
          · exact .inl ⟨_, rfl⟩
          · exact .inr ⟨_, rfl, by decide⟩⟩
      apart := by
        intro w hw
        simp only [List.mem_cons, Piece.word.injEq, reduceCtorEq, List.not_mem_nil, or_false] at hw
        subst hw
        refine ⟨fun h => absurd h (by decide), ?_⟩
        rintro os ns h
        simp only [Option.some.injEq, Prod.mk.injEq] at h
        obtain ⟨rfl, rfl⟩ := h
        decide }
    exampleRaw
    (by
      repeat' first | exact GenBody.Spec.Code.nil | refine GenBody.Spec.Code.one ?_ | refine GenBody.Spec.Code.cons ?_ ?_ ?_
      all_goals first
        | trivial
        | (exact ⟨by decide, by decide⟩)
        | (exact (by decide : '(' ≠ '\\'))
        | (repeat' first
            | exact Body.nil
            | exact Body.esc _ (by repeat' first | exact Body.nil | refine Body.char _ (by decide) (by decide) ?_)
            | refine Body.char _ (by decide) (by decide) ?_))
    (by
      intro a ha
      simp only [exampleRaw, List.mem_cons, List.not_mem_nil, or_false] at ha
      rcases ha with rfl | rfl | rfl | rfl | rfl | rfl | rfl | rfl | rfl | rfl | rfl | rfl | rfl | rfl |
        rfl | rfl | rfl | rfl | rfl | rfl
      all_goals first
        | trivial
        | (refine ⟨by decide, ?_⟩
           intro w hw
           have : w = "a".toList ∨ w = "T".toList := by
             simpa [tokens, isIdent] using hw
           rcases this with rfl | rfl <;> exact fun h => absurd h (by decide)))
    (by decide +kernel)
  rw [show text [Piece.word "int".toList, .mark '*'] = "int*".toList by decide] at h
  rw [h]
  congr 1

end examples

/-- A text with a string that ends with a backslash: what follows is taken for a string, up to
the next quote. -/
theorem backslash_violated (hp : Param p) (c b s : Name) (hb : Body b) (hl : b.getLast? = some '\\')
    (hs : '"' ∉ s) : replaceWords p c ('"' :: b ++ '"' :: s) = '"' :: b ++ '"' :: s := by
  rw [replaceWords, if_neg hp.comma]
  have hpre : ∀ t : Name, ¬ p <+: '"' :: t := by
    rintro t ⟨q, hq⟩
    cases p with
    | nil => exact hp.ne rfl
    | cons y p =>
      injection hq with h1 _
      exact (ident_noQuote (hp.ident y (by simp)).1).1 h1
  rw [List.cons_append, rep_step (fun h => hpre _ h.2.1), if_pos ⟨rfl, by simp⟩]
  simp only [Bool.not_false]
  have hne : b ≠ [] := by rintro rfl; cases hl
  rw [rep_body hb, rep_step (fun h => hpre _ h.2.1), lastOr_ne hne, hl, if_neg (by simp)]
  simp only [List.cons.injEq, true_and, List.append_cancel_left_eq]
  exact rep_string s hs (some '"')

/-- `"\\\\"; T x;` keeps `T`. -/
example : replaceWords "T".toList "int".toList "\"\\\\\"; T x;".toList = "\"\\\\\"; T x;".toList :=
  backslash_violated exampleParam "int".toList "\\\\".toList "; T x;".toList
    (.esc '\\' .nil) rfl (by decide)

/-- After the character literal `'"'` nothing is replaced up to the next quote. -/
theorem quote_violated (hp : Param p) (c s : Name) (hs : '"' ∉ s) :
    replaceWords p c ('\'' :: '"' :: '\'' :: s) = '\'' :: '"' :: '\'' :: s := by
  rw [replaceWords, if_neg hp.comma, rep_mark hp.ne (param_ident hp) (by decide) (by decide), rep_step,
    if_pos ⟨rfl, by simp⟩]
  · simp only [Bool.not_false, List.cons.injEq, true_and]
    exact rep_string ('\'' :: s) (by simp [hs]) _
  · simp

/-- The character literal `'T'` is changed by every argument, a text longer than a character. -/
theorem char_violated (hp : Param p) (cs : List Piece) :
    replaceWords p (text cs) ('\'' :: p ++ ['\'']) = '\'' :: text cs ++ ['\''] := by
  have := words_partial p hp.ne (param_ident hp) cs [.mark '\'', .word p, .mark '\'']
    (.cons ⟨by decide, by decide⟩ trivial (.cons ⟨hp.ne, param_ident hp⟩ trivial
      (.one ⟨by decide, by decide⟩))) (by
      intro a ha
      simp only [List.mem_cons, List.not_mem_nil, or_false] at ha
      rcases ha with rfl | rfl | rfl <;> trivial)
  simpa [text, Piece.text, forWord] using this

/-- A string with a name that has the part `T` is changed: `"max_T"`. -/
theorem string_violated (hp : Param p) (cs : List Piece) (x : Name)
    (hx : ∀ z ∈ x, isIdent z = true) (hxp : p ∉ segs x) (hl : (text cs).length + x.length < 1000) :
    rawText p (text cs) none ('"' :: (x ++ '_' :: p) ++ ['"']) =
      .ok ('"' :: (x ++ '_' :: sanitize (text cs)) ++ ['"']) := by
  have hw : ∀ z ∈ x ++ '_' :: p, isIdent z = true := by
    intro z hz
    simp only [List.mem_append, List.mem_cons] at hz
    rcases hz with h | rfl | h
    · exact hx z h
    · decide
    · exact param_ident hp z h
  have hbody : ∀ s : Name, (∀ z ∈ s, isIdent z = true) → Body s := by
    intro s
    induction s with
    | nil => intro _; exact .nil
    | cons y s ih =>
      intro h
      have := ident_noQuote (h y (by simp))
      exact .char y this.1 this.2 (ih fun z hz => h z (by simp [hz]))
  have h1 : replaceWords p (text cs) ('"' :: (x ++ '_' :: p) ++ ['"']) =
      '"' :: (x ++ '_' :: p) ++ ['"'] := by
    have := words_partial p hp.ne (param_ident hp) cs [.str (x ++ '_' :: p)] (.one (hbody _ hw)) (by
      intro a ha
      simp only [List.mem_cons, List.not_mem_nil, or_false] at ha
      subst ha
      show (x ++ '_' :: p).getLast? ≠ some '\\'
      intro h
      exact (ident_noQuote (ident_getLast hw h)).2 rfl)
    simpa [text, Piece.text, forWord] using this
  have h2 : mangledPart p (sanitize (text cs)) 0 none ('"' :: (x ++ '_' :: p) ++ ['"']) =
      '"' :: (x ++ '_' :: sanitize (text cs)) ++ ['"'] := by
    have hL : Loose [.mark '"', .word (x ++ '_' :: p), .mark '"'] :=
      .mark (by decide) (.word (by simp) hw (by
        intro b hb; injection hb with hb; exact ⟨_, hb.symm⟩) (.mark (by decide) .nil))
    have := mangled_loose (c := sanitize (text cs)) hp.ne (param_plain hp) hL (prev := none) (by simp)
    simp only [text, List.flatMap_cons, List.flatMap_nil, Piece.text, List.map_cons, List.map_nil,
      inPiece, inName_us, inAll_us, inAll_same hxp, inAll_self hp.noUs] at this
    simpa [text] using this
  unfold rawText selfWords replaceMangled
  rw [h1, h2, if_neg]
  have : ∀ s : Name, (sanitize s).length ≤ 3 * s.length := sanitize_length
  have := this (text cs)
  simp only [List.length_append, List.length_cons, List.length_nil]
  omega

/-- An argument that has the parameter as a part of its name is put in twice: `T` with the
argument `My_T` becomes `My_My_T`. -/
theorem twice_violated (hp : Param p) (x : Name)
    (hx : ∀ z ∈ x, isIdent z = true) (hxp : p ∉ segs x) (hl : x.length + p.length < 1000) :
    rawText p (x ++ '_' :: p) none p = .ok (x ++ '_' :: (x ++ '_' :: p)) := by
  have hw : ∀ z ∈ x ++ '_' :: p, isIdent z = true := by
    intro z hz
    simp only [List.mem_append, List.mem_cons] at hz
    rcases hz with h | rfl | h
    · exact hx z h
    · decide
    · exact param_ident hp z h
  have h1 : replaceWords p (x ++ '_' :: p) p = x ++ '_' :: p := by
    have := words_partial p hp.ne (param_ident hp) [.word (x ++ '_' :: p)] [.word p]
      (.one ⟨hp.ne, param_ident hp⟩) (by
        intro a ha
        simp only [List.mem_cons, List.not_mem_nil, or_false] at ha
        subst ha; trivial)
    simpa [text, Piece.text, forWord] using this
  have h2 : mangledPart p (x ++ '_' :: p) 0 none (x ++ '_' :: p) = x ++ '_' :: (x ++ '_' :: p) := by
    have := mangled_word (c := x ++ '_' :: p) hp.ne (param_plain hp) hw (prev := none) rfl (r := []) rfl
    rw [List.append_nil] at this
    rw [this, inName_us, inAll_us, inAll_same hxp, inAll_self hp.noUs]
    simp [mangledPart]
  unfold rawText selfWords replaceMangled
  rw [Generics.sanitize_ident hw]
  simp only
  rw [h1, h2, if_neg]
  simp only [List.length_append, List.length_cons]
  omega

/-- Two parameters: what is put in for the first is read again for the second. -/
theorem capture_violated (p q : Name) (hp : Param p) (hq : Param q) (c : Name)
    (hc : ',' ∉ c) : replaceWords (p ++ ',' :: q) (q ++ ',' :: c) p = c := by
  have hparts : ∀ x y : Name, ',' ∉ x → ',' ∉ y → parts (x ++ ',' :: y) = [x, y] := by
    intro x y hx hy
    induction x with
    | nil => simp [parts, Generics.parts_single hy]
    | cons z x ih =>
      have hz : z ≠ ',' := by rintro rfl; exact hx (by simp)
      rw [List.cons_append, parts, if_neg hz, ih (fun h => hx (by simp [h]))]
  have hself : ∀ (u d : Name), Param u → rep u d 0 none false u = d := by
    intro u d hu
    have := rep_word (c := d) (param_ident hu) hu.ne (param_ident hu) (prev := none) rfl (r := []) rfl
    rw [List.append_nil, if_pos rfl] at this
    rw [this]; simp [rep]
  rw [replaceWords, if_pos (by simp), hparts p q hp.comma hq.comma, hparts q c hq.comma hc]
  simp [hself p q hp, hself q c hq]

/-- A raw text of 4096 characters and more is written past the end of the buffer, whatever it
is: here one without parameters. -/
theorem long_violated (hp : Param p) (c : Name) (n : Nat) (hn : 4096 ≤ n) :
    rawText p c none (List.replicate n ';') = .ub := by
  have h1 : ∀ n prev, rep p c 0 prev false (List.replicate n ';') = List.replicate n ';' := by
    intro n
    induction n with
    | zero => intro _; rfl
    | succ n ih =>
      intro prev
      rw [List.replicate_succ, rep_mark hp.ne (param_ident hp) (by decide) (by decide), ih]
  have h2 : ∀ n prev, mangledPart p (sanitize c) 0 prev (List.replicate n ';') = List.replicate n ';' := by
    intro n
    induction n with
    | zero => intro _; rfl
    | succ n ih =>
      intro prev
      rw [List.replicate_succ, mangled_mark hp.ne (param_plain hp) (by decide), ih]
  unfold rawText selfWords replaceMangled
  simp only
  rw [replaceWords, if_neg hp.comma, h1, h2, if_pos]
  simpa using hn

/-! ## C70: types as the code generator gets them -/

theorem form_txt (t : Ty) : ∀ (b : Bool) (d : Name), (Form.of t).txt b d = txt b t d := by
  induction t with
  | rawFn r a ihr iha =>
    intro b d
    cases b <;> simp [Form.of, Form.txt, txt, ihr, iha]
  | ptr t ih => intro b d; simp [Form.of, Form.txt, txt, ih]
  | arr t n ih => intro b d; simp [Form.of, Form.txt, txt, ih]
  | slice t ih => intro b d; simp [Form.of, Form.txt, txt, ih]
  | const t ih => intro b d; simp [Form.of, Form.txt, txt, ih]
  | _ => intro b d; simp [Form.of, Form.txt, txt, zText]

/-- An argument the code generator reads from its text: the name of a struct (no name of
`type_from_string_helper`), an instance, or a primitive type known by its name, and pointers. -/
inductive Spec.Read : Ty → Prop
  | prim (k : Prim) : (∀ x ∈ k.zText.toList, isIdent x = true) →
      (∀ q, known k.zText.toList = some q → q.cText = k.cText ∧ q.zText = k.zText) →
      (known k.zText.toList = none → k.cText = k.zText) → Read (.prim k)
  | name (n : Name) : (∀ x ∈ n, isIdent x = true) → known n = none → Read (.name n)
  | app (g : Name) (t : Ty) : Tpl g → known (zText (.app g t)) = none → Read (.app g t)
  | app2 (g : Name) (t u : Ty) : Tpl g → known (zText (.app2 g t u)) = none → Read (.app2 g t u)
  | ptr {t : Ty} : Read t → Read (.ptr t)

theorem fromString_ident {n : Name} (hn : ∀ x ∈ n, isIdent x = true) :
    fromString n = match known n with
      | some q => .prim q
      | none => .named false n := by
  have hl := (Generics.ident_last hn).1
  rw [fromString, dif_neg hl, if_neg (Generics.noStruct_ident hn), Generics.sanitize_ident hn]
  rfl

theorem fromString_txt {a : Ty} (h : Read a) : ∀ b d, (fromString (zText a)).txt b d = txt b a d := by
  induction h with
  | prim k hi hk hn =>
    intro b d
    rw [show zText (.prim k) = k.zText.toList by simp [zText, txt], fromString_ident hi]
    cases hkn : known k.zText.toList with
    | none => cases b <;> simp [Form.txt, txt, hn hkn]
    | some q => obtain ⟨h1, h2⟩ := hk q hkn; simp [Form.txt, txt, h1, h2]
  | name n hi hk =>
    intro b d
    rw [show zText (.name n) = n by simp [zText, txt], fromString_ident hi, hk]
    simp [Form.txt, txt]
  | app g t hg hk =>
    intro b d
    rw [fromString_ident, hk]
    · simp [Form.txt, txt, zText]
    · intro x hx
      simp only [zText, txt, List.append_nil] at hx
      exact Generics.mem_inst hg (fun z hz => Generics.sanitize_mem z hz) x hx
  | app2 g t u hg hk =>
    intro b d
    rw [fromString_ident, hk]
    · simp [Form.txt, txt, zText]
    · intro x hx
      simp only [zText, txt, List.append_nil, List.append_assoc, List.cons_append] at hx
      refine Generics.mem_inst hg (r := sanitize (txt false t []) ++ '_' :: sanitize (txt false u []))
        (fun z hz => ?_) x hx
      simp only [List.mem_append, List.mem_cons] at hz
      rcases hz with hz | rfl | hz
      · exact Generics.sanitize_mem z hz
      · decide
      · exact Generics.sanitize_mem z hz
  | @ptr t _ ih =>
    intro b d
    rw [show zText (.ptr t) = zText t ++ ['*'] by simp [zText, txt], fromString, dif_pos (by simp),
      List.dropLast_concat, Form.txt, txt, ih]

/-- All primitive types are read, but those with a text of two words and the types of C `c_int`, … -/
theorem read_prim (k : Prim) (h : ' ' ∉ k.zText.toList) (hc : k.cText = k.zText ∨ k = .int) :
    Read (.prim k) := by
  have hi : ∀ x ∈ k.zText.toList, isIdent x = true := by
    revert h; cases k <;> decide +kernel
  have hk : known k.zText.toList = none ∨ known k.zText.toList = some k := by
    cases k <;> decide +kernel
  refine .prim k hi ?_ ?_
  · intro q hq
    rcases hk with e | e <;> rw [e] at hq
    · cases hq
    · cases hq; exact ⟨rfl, rfl⟩
  · intro e
    rcases hc with hc | rfl
    · exact hc
    · revert e; decide +kernel

theorem argOf_none (hp : Param p) {c n : Name} (h : n ≠ p) : argOf p c n = none := by
  rw [argOf, if_neg hp.comma, if_neg h]

theorem argOf_some (hp : Param p) (c : Name) : argOf p c p = some c := by
  rw [argOf, if_neg hp.comma, if_pos rfl]

theorem formal_named (p c : Name) (st : Option (Name × Name)) (kw : Bool) (n : Name) :
    replaceFormal p c st (.named kw n) =
      match argOf p c n with
      | some a => fromString a
      | none =>
        match asSelf st n with
        | some ns => .named kw ns
        | none =>
          match suffixRule p c n with
          | some m => .named kw m
          | none => .named kw n := by
  rw [replaceFormal.eq_def]
  rfl

theorem asSelf_none {st : Option (Name × Name)} {n : Name}
    (h : ∀ os ns, st = some (os, ns) → n ≠ os) : asSelf st n = none := by
  cases st with
  | none => rfl
  | some q => exact if_neg (h q.1 q.2 rfl)

/-- A name that ends with no part `p` and is not the struct around stays. -/
theorem formal_still (hp : Param p) {c n : Name} {st : Option (Name × Name)} (h1 : n ≠ p)
    (h2 : Generics.Spec.lastSeg n ≠ p) (h3 : ∀ os ns, st = some (os, ns) → n ≠ os) (kw : Bool) :
    replaceFormal p c st (.named kw n) = .named kw n := by
  have hs : suffixRule p c n = none :=
    Generics.suffixRule_none hp (fun h => h2 (Generics.lastSeg_suffix hp h))
  rw [formal_named, argOf_none hp h1]
  simp only [asSelf_none h3, hs]

theorem suffix_inst (hp : Param p) {c n : Name} {st : Option (Name × Name)} (hc : ',' ∉ c) (hc0 : c ≠ [])
    (h3 : ∀ os ns, st = some (os, ns) → n ++ '_' :: p ≠ os) (kw : Bool) :
    replaceFormal p c st (.named kw (n ++ '_' :: p)) = .named kw (n ++ '_' :: sanitize c) := by
  have h1 : n ++ '_' :: p ≠ p := fun e => hp.noUs (by rw [← e]; simp)
  have hs := Generics.suffixRule_some hp hc hc0 n
  rw [formal_named, argOf_none hp h1]
  simp only [asSelf_none h3, hs]

theorem clean_formal (hp : Param p) {c : Name} {st : Option (Name × Name)}
    (ho : ∀ os ns, st = some (os, ns) → Tpl os) {t : Ty} (h : Clean p (st.map (·.1)) t) :
    replaceFormal p c st (Form.of t) = Form.of t := by
  have hno : ∀ {g r : Name}, ∀ os ns, st = some (os, ns) → g ++ '_' :: r ≠ os := by
    intro g r os ns e e'
    exact (ho os ns e).noUs (by rw [← e']; simp)
  have hseg : ∀ {u : Ty}, Clean p (st.map (·.1)) u →
      Generics.Spec.lastSeg (sanitize (zText u)) ≠ p := by
    intro u h
    have h1 := Generics.clean_seg hp h [] Generics.Tl.nil
    rw [zText, Generics.sanitize_eq (Generics.clean_noStruct h false [] Generics.Tl.nil)]
    exact h1
  induction h with
  | prim => rfl
  | name n hn hi hl hs hos =>
    refine formal_still hp ?_ hl ?_ false
    · rintro rfl
      exact hl (Generics.lastSeg_self hp.noUs)
    · rintro os ns e rfl
      exact hos (by rw [e]; rfl)
  | par n hpn hl hos =>
    refine formal_still hp hl ?_ ?_ false
    · rw [Generics.lastSeg_self hpn.noUs]; exact hl
    · rintro os ns e rfl
      exact hos (by rw [e]; rfl)
  | ptr _ ih => simp only [Form.of, replaceFormal, ih]
  | arr _ _ ih => simp only [Form.of, replaceFormal, ih]
  | slice _ ih => simp only [Form.of, replaceFormal, ih]
  | @app u g hg hu =>
    refine formal_still hp ?_ ?_ hno false
    · intro e; exact hp.noUs (by rw [← e]; simp)
    · rw [Generics.lastSeg_us]; exact hseg hu
  | @app2 t u g hg ht hu =>
    have e : g ++ '_' :: sanitize (zText t) ++ '_' :: sanitize (zText u) =
        g ++ '_' :: (sanitize (zText t) ++ '_' :: sanitize (zText u)) := by simp
    show replaceFormal p c st (.named false (g ++ '_' :: sanitize (zText t) ++ '_' :: sanitize (zText u))) = _
    rw [formal_still hp]
    · rfl
    · intro e'; exact hp.noUs (by rw [← e']; simp)
    · rw [Generics.lastSeg_us]; exact hseg hu
    · rw [e]; exact hno
  | @const t ht ih =>
    have hne : ∀ kw n, Form.of t = .named kw n → n ≠ p := by
      intro kw n hn e
      cases ht with
      | name m _ _ hl _ _ =>
        simp only [Form.of, Form.named.injEq] at hn
        rw [hn.2, e] at hl
        exact hl (Generics.lastSeg_self hp.noUs)
      | par m _ hl _ =>
        simp only [Form.of, Form.named.injEq] at hn
        exact hl (hn.2.trans e)
      | app g _ _ =>
        simp only [Form.of, Form.named.injEq] at hn
        exact hp.noUs (by rw [← e, ← hn.2]; simp)
      | app2 g _ _ _ =>
        simp only [Form.of, Form.named.injEq] at hn
        exact hp.noUs (by rw [← e, ← hn.2]; simp)
      | _ => simp [Form.of] at hn
    show replaceFormal p c st (.const (Form.of t)) = .const (Form.of t)
    cases hf : Form.of t with
    | named kw n =>
      rw [hf] at ih
      simp only [replaceFormal] at ih ⊢
      rw [argOf_none hp (hne kw n hf)] at ih ⊢
      simp only at ih ⊢
      rw [ih]
    | _ =>
      rw [hf] at ih
      simp only [replaceFormal] at ih ⊢
      try rw [ih]

/-- the name of a type that ends with the parameter, before and after -/
theorem tail_name (hp : Param p) {os : Option Name} {t : Ty} (h : Tail p os t) {a : Ty} (ha : Actual p a) :
    ∃ x, (∀ z ∈ x, isIdent z = true) ∧ (x = [] ∨ ∃ x', x = x' ++ ['_']) ∧ sanitize (zText t) = x ++ p ∧
      sanitize (zText (subst (one p a) t)) = x ++ sanitize (zText a) := by
  obtain ⟨x, h1, h2, h3, h4, h5, h6⟩ := Generics.tail_text hp h ha
  refine ⟨x, h3, h2, ?_, h5⟩
  rw [h1, Generics.sanitize_ident]
  intro z hz
  rcases List.mem_append.1 hz with hz | hz
  · exact h3 z hz
  · exact param_ident hp z hz

theorem app_form (hp : Param p) {a : Ty} (ha : Actual p a) {st : Option (Name × Name)}
    (ho : ∀ os ns, st = some (os, ns) → Tpl os) {x : Name} (g : Name)
    (hx : x = [] ∨ ∃ x', x = x' ++ ['_']) :
    replaceFormal p (zText a) st (.named false (g ++ '_' :: (x ++ p))) =
      .named false (g ++ '_' :: (x ++ sanitize (zText a))) := by
  obtain ⟨y, hy⟩ : ∃ y, g ++ '_' :: x = y ++ ['_'] := by
    rcases hx with rfl | ⟨x', rfl⟩
    · exact ⟨g, rfl⟩
    · exact ⟨g ++ '_' :: x', by simp⟩
  have e : ∀ q : Name, g ++ '_' :: (x ++ q) = y ++ '_' :: q := by
    intro q
    have : (g ++ '_' :: x) ++ q = (y ++ ['_']) ++ q := by rw [hy]
    simpa using this
  rw [e, e]
  refine suffix_inst hp ha.comma ha.nonempty ?_ false
  intro os ns h e'
  exact (ho os ns h).noUs (by rw [← e']; simp)

theorem tail_formal (hp : Param p) {a : Ty} (ha : Actual p a) (hr : Read a) {st : Option (Name × Name)}
    (ho : ∀ os ns, st = some (os, ns) → Tpl os) {t : Ty} (h : Tail p (st.map (·.1)) t) :
    ∀ b d, (replaceFormal p (zText a) st (Form.of t)).txt b d = txt b (subst (one p a) t) d := by
  induction h with
  | par =>
    intro b d
    have e : subst (one p a) (.par p) = a := by simp [subst, one]
    rw [e, Form.of, formal_named, argOf_some hp]
    exact fromString_txt hr b d
  | slice _ ih =>
    intro b d
    simp only [Form.of, replaceFormal, Form.txt, subst, txt, ih]
  | @app t g hg ht ih =>
    intro b d
    obtain ⟨x, h1, h2, h3, h4⟩ := tail_name hp ht ha
    rw [Form.of, h3, app_form hp ha ho g h2, Form.txt, subst, txt]
    rw [show txt false (subst (one p a) t) [] = zText (subst (one p a) t) from rfl, h4]
    simp
  | @app2 t u g hg ht hu ih =>
    intro b d
    obtain ⟨x, h1, h2, h3, h4⟩ := tail_name hp hu ha
    have e : ∀ q : Name, g ++ '_' :: sanitize (zText t) ++ '_' :: q = g ++ '_' :: ((sanitize (zText t) ++ '_' :: []) ++ q) := by
      intro q; simp
    have e2 : ∀ q : Name, g ++ '_' :: sanitize (zText t) ++ '_' :: (x ++ q) =
        g ++ '_' :: ((sanitize (zText t) ++ '_' :: x) ++ q) := by intro q; simp
    rw [Form.of, h3, e2, app_form hp ha ho g (x := sanitize (zText t) ++ '_' :: x) ?_, Form.txt, subst, txt,
      Generics.clean_subst ht]
    · rw [show txt false (subst (one p a) u) [] = zText (subst (one p a) u) from rfl, h4]
      simp [zText]
    · right
      rcases h2 with rfl | ⟨x', rfl⟩
      · exact ⟨sanitize (zText t), by simp⟩
      · exact ⟨sanitize (zText t) ++ '_' :: x', by simp⟩

/-- The types that fit become the substituted types for the code generator. -/
theorem formal_partial (hp : Param p) {a : Ty} (ha : Actual p a) (hr : Read a) {st : Option (Name × Name)}
    (ho : ∀ os ns, st = some (os, ns) → Generics.Spec.Around p a os ns) {t : Ty}
    (h : Fits p (st.map (·.1)) a t) (b : Bool) (d : Name) :
    (replaceFormal p (zText a) st (Form.of t)).txt b d = txt b (subst (one p a) (selfIn st t)) d := by
  have ho' : ∀ os ns, st = some (os, ns) → Tpl os := fun os ns e => (ho os ns e).tpl
  induction h generalizing b d with
  | clean h => rw [clean_formal hp ho' h, Generics.clean_selfIn h, Generics.clean_subst h, form_txt]
  | par =>
    have e : selfIn st (.par p) = .par p := by cases st <;> rfl
    rw [e]
    exact tail_formal hp ha hr ho' .par b d
  | self n hn =>
    cases hst : st with
    | none => rw [hst] at hn; cases hn
    | some q =>
      obtain ⟨os, ns⟩ := q
      rw [hst] at hn
      simp only [Option.map_some, Option.some.injEq] at hn
      subst hn
      have hA := ho os ns hst
      rw [Form.of, formal_named, argOf_none hp hA.ne]
      simp [asSelf, selfIn, self, subst, txt, Form.txt]
  | ptr _ ih =>
    have e : ∀ t : Ty, selfIn st (.ptr t) = .ptr (selfIn st t) := by intro t; cases st <;> rfl
    rw [e]
    simp only [Form.of, replaceFormal, Form.txt, subst, txt, ih]
  | arr n _ ih =>
    have e : ∀ t : Ty, selfIn st (.arr t n) = .arr (selfIn st t) n := by intro t; cases st <;> rfl
    rw [e]
    simp only [Form.of, replaceFormal, Form.txt, subst, txt, ih]
  | app g hg ht =>
    rw [Generics.tail_selfIn (Tail.app g hg ht)]
    exact tail_formal hp ha hr ho' (.app g hg ht) b d
  | app2 g hg ht hu =>
    rw [Generics.tail_selfIn (Tail.app2 g hg ht hu)]
    exact tail_formal hp ha hr ho' (.app2 g hg ht hu) b d
  | slice ht _ =>
    rw [Generics.tail_selfIn (Tail.slice ht)]
    exact tail_formal hp ha hr ho' (.slice ht) b d

/-! ## C70: bodies -/

/-- the type in the instance -/
def Spec.inType (p : Name) (a : Ty) (st : Option (Name × Name)) (t : Ty) : Ty :=
  subst (one p a) (selfIn st t)

/-- the name in the instance: methods belong to the type in the instance -/
def Spec.inVar (p : Name) (a : Ty) (st : Option (Name × Name)) : VName → VName
  | .plain n => .plain n
  | .static o m => .static (inType p a st o) m

/-- the raw text in the instance -/
def Spec.inText (p : Name) (a : Ty) (cs : List Piece) (st : Option (Name × Name))
    (ps : List Piece) : List Piece :=
  ps.flatMap (inRaw p (sanitize (zText a)) cs st)

/-- The code in the instance: every type, name and raw text in it. -/
def Spec.inst (p : Name) (a : Ty) (cs : List Piece) (st : Option (Name × Name)) (s : Src) : Src :=
  zeros (map (inType p a st) (inType p a st) (inVar p a st) (inText p a cs st) s)

/-- Types methods belong to: the parameter, a type without it, instances of a template `g`. -/
inductive Spec.Owner (p : Name) (os : Option Name) : Ty → Prop
  | par : Owner p os (.par p)
  | prim (k : Prim) : p ∉ segs (sanitize k.zText.toList) → Owner p os (.prim k)
  | name (n : Name) : (∀ x ∈ n, isIdent x = true) → p ∉ segs n → os ≠ some n → Owner p os (.name n)
  | app (g : Name) {t : Ty} : Tpl g → p ∉ segs g → Owner p os t → Owner p os (.app g t)
  | app2 (g : Name) {t u : Ty} : Tpl g → p ∉ segs g → Owner p os t → Owner p os u →
      Owner p os (.app2 g t u)

/-- Names that are no trouble: `p` is no part of the name, the name of no other function begins like
one of a method of the struct around. -/
def Spec.VFits (p : Name) (a : Ty) (st : Option (Name × Name)) : VName → Prop
  | .plain n => (∀ x ∈ n, isIdent x = true) ∧ Apart p n ∧ n.length < 4096 ∧
      ∀ os ns, st = some (os, ns) → ¬ os ++ ['_', '_'] <+: n
  | .static o m => (∀ x ∈ m, isIdent x = true) ∧ p ∉ segs m ∧
      (sanitize (zText (inType p a st o)) ++ '_' :: '_' :: m).length < 4096 ∧
      ((∃ os ns, st = some (os, ns) ∧ o = .name os ∧ p ∉ segs os) ∨
       (Owner p (st.map (·.1)) o ∧ ∀ os ns, st = some (os, ns) →
        ¬ os ++ ['_', '_'] <+: sanitize (zText (inType p a st o)) ++ '_' :: '_' :: m))

/-- types that fit -/
def Spec.TFits (p : Name) (a : Ty) (st : Option (Name × Name)) (t : Ty) : Prop :=
  Fits p (st.map (·.1)) a t

/-- raw texts that fit -/
def Spec.RFits (p : Name) (a : Ty) (cs : List Piece) (st : Option (Name × Name)) (ps : List Piece) : Prop :=
  GenBody.Spec.Code ps ∧ (∀ x ∈ ps, Quiet p x) ∧ (text (inText p a cs st ps)).length < 4096

/-- Code that fits: types and names that fit, raw texts without surprises, and nothing of the
template in the kinds of nodes that are not copied. -/
def Spec.BFits (p : Name) (a : Ty) (cs : List Piece) (st : Option (Name × Name)) : Src → Prop
  | .nil => True
  | .function _ r ri as ais b nx => TFits p a st r ∧ TFits p a st ri ∧ RFits p a cs st as ∧ (∀ t ∈ ais, TFits p a st t) ∧ BFits p a cs st b ∧ BFits p a cs st nx
  | .block b nx => BFits p a cs st b ∧ BFits p a cs st nx
  | .raw s nx => RFits p a cs st s ∧ BFits p a cs st nx
  | .varDecl _ t i e nx => TFits p a st t ∧ TFits p a st i ∧ BFits p a cs st e ∧ BFits p a cs st nx
  | .ret e nx => BFits p a cs st e ∧ BFits p a cs st nx
  | .binary _ l r nx => BFits p a cs st l ∧ BFits p a cs st r ∧ BFits p a cs st nx
  | .unary _ e nx => BFits p a cs st e ∧ BFits p a cs st nx
  | .call f as nx => BFits p a cs st f ∧ BFits p a cs st as ∧ BFits p a cs st nx
  | .var n nx => VFits p a st n ∧ BFits p a cs st nx
  | .int _ nx => BFits p a cs st nx
  | .str _ nx => BFits p a cs st nx
  | .member e _ nx => BFits p a cs st e ∧ BFits p a cs st nx
  | .index e i nx => BFits p a cs st e ∧ BFits p a cs st i ∧ BFits p a cs st nx
  | .cast t i e nx => TFits p a st t ∧ TFits p a st i ∧ BFits p a cs st e ∧ BFits p a cs st nx
  | .structInit t fs nx => TFits p a st t ∧ BFits p a cs st fs ∧ BFits p a cs st nx ∧
      (isValue (inType p a st t) = true ↔ (zText (inType p a st t)).getLast? = some '*' ∨
        isPrimitive (zText (inType p a st t)) = true)
  | .ite e x y nx => BFits p a cs st e ∧ BFits p a cs st x ∧ BFits p a cs st y ∧ BFits p a cs st nx
  | .while_ e b nx => BFits p a cs st e ∧ BFits p a cs st b ∧ BFits p a cs st nx
  | .for_ i e s b nx => BFits p a cs st i ∧ BFits p a cs st e ∧ BFits p a cs st s ∧ BFits p a cs st b ∧ BFits p a cs st nx
  | .sizeofType t nx => TFits p a st t ∧ BFits p a cs st nx
  | .sizeofExpr e nx => BFits p a cs st e ∧ BFits p a cs st nx
  | .other _ t x y z nx =>
      (∀ u, t = some u → zText (inType p a st u) = zText u) ∧
      meant (inst p a cs st x) = meant x ∧ meant (inst p a cs st y) = meant y ∧
      meant (inst p a cs st z) = meant z ∧ BFits p a cs st nx

theorem mangled_one {c w : Name} (hp : Param p) (hw : ∀ x ∈ w, isIdent x = true) :
    mangledPart p c 0 none w = inName p c w := by
  have := mangled_word (c := c) hp.ne (param_plain hp) hw (prev := none) rfl (r := []) rfl
  simpa [mangledPart] using this

theorem owner_text (hp : Param p) {a : Ty} {st : Option (Name × Name)} {t : Ty}
    (h : Owner p (st.map (·.1)) t) :
    inAll p (sanitize (zText a)) (sanitize (zText t)) = sanitize (zText (inType p a st t)) := by
  have hs : ∀ (g : Name) (w : Name), Tpl g → sanitize (g ++ '_' :: sanitize w) = g ++ '_' :: sanitize w := by
    intro g w hg
    exact Generics.sanitize_ident (fun x hx => Generics.mem_inst hg (fun z hz => Generics.sanitize_mem z hz) x hx)
  induction h with
  | par =>
    have e : inType p a st (.par p) = a := by cases st <;> simp [inType, selfIn, self, subst, one]
    rw [e, show zText (.par p) = p by simp [zText, txt], Generics.sanitize_ident (param_ident hp),
      inAll_self hp.noUs]
  | prim k h =>
    have e : inType p a st (.prim k) = .prim k := by cases st <;> simp [inType, selfIn, self, subst]
    rw [e, inAll_same]
    simpa [zText, txt] using h
  | name n hi hn hos =>
    have e : inType p a st (.name n) = .name n := by
      cases st with
      | none => simp [inType, selfIn, subst]
      | some q =>
        have : n ≠ q.1 := fun e => hos (by rw [e]; rfl)
        simp [inType, selfIn, self, subst, this]
    rw [e, inAll_same]
    rw [show zText (.name n) = n by simp [zText, txt], Generics.sanitize_ident hi]
    exact hn
  | @app g t hg hgp _ ih =>
    have e : inType p a st (.app g t) = .app g (inType p a st t) := by
      cases st <;> simp [inType, selfIn, self, subst]
    have z : ∀ u, zText (.app g u) = g ++ '_' :: sanitize (zText u) := by intro u; simp [zText, txt]
    rw [e, z, z, hs _ _ hg, hs _ _ hg, inAll_us, inAll_same hgp, ih]
  | @app2 g t u hg hgp _ _ iht ihu =>
    have e : inType p a st (.app2 g t u) = .app2 g (inType p a st t) (inType p a st u) := by
      cases st <;> simp [inType, selfIn, self, subst]
    have z : ∀ t u, zText (.app2 g t u) = g ++ '_' :: (sanitize (zText t) ++ '_' :: sanitize (zText u)) := by
      intro t u; simp [zText, txt]
    have hs2 : ∀ v w : Name, sanitize (g ++ '_' :: (sanitize v ++ '_' :: sanitize w)) =
        g ++ '_' :: (sanitize v ++ '_' :: sanitize w) := by
      intro v w
      refine Generics.sanitize_ident (fun x hx => Generics.mem_inst hg (fun z hz => ?_) x hx)
      simp only [List.mem_append, List.mem_cons] at hz
      rcases hz with hz | rfl | hz
      · exact Generics.sanitize_mem z hz
      · decide
      · exact Generics.sanitize_mem z hz
    rw [e, z, z, hs2, hs2, inAll_us, inAll_us, inAll_same hgp, iht, ihu]

/-- Names in expressions are the names in the instance. -/
theorem names_partial (hp : Param p) {a : Ty} {st : Option (Name × Name)}
    (ho : ∀ os ns, st = some (os, ns) → Generics.Spec.Around p a os ns) {v : VName}
    (h : VFits p a st v) : varText p (zText a) st v.text = .ok (inVar p a st v).text := by
  cases v with
  | plain n =>
    obtain ⟨h1, h2, h3, h4⟩ := h
    show varText p (zText a) st n = .ok n
    unfold varText replaceMangled
    rw [mangled_one hp h1, inName_apart h2, if_neg (by omega), Res.ok_bind]
    cases st with
    | none => rfl
    | some q =>
      simp only
      rw [if_neg (h4 q.1 q.2 rfl)]
  | static o m =>
    obtain ⟨h1, h2, h3, h4⟩ := h
    have hid : ∀ x ∈ sanitize (zText o) ++ '_' :: '_' :: m, isIdent x = true := by
      intro x hx
      simp only [List.mem_append, List.mem_cons] at hx
      rcases hx with hx | rfl | rfl | hx
      · exact Generics.sanitize_mem x hx
      · decide
      · decide
      · exact h1 x hx
    have hm : inAll p (sanitize (zText a)) ('_' :: m) = '_' :: m := by
      refine inAll_same ?_
      have : segs ('_' :: m) = [] :: segs m := by simp [segs]
      rw [this, List.mem_cons, not_or]
      exact ⟨hp.ne, h2⟩
    show varText p (zText a) st (sanitize (zText o) ++ '_' :: '_' :: m) =
      .ok (sanitize (zText (inType p a st o)) ++ '_' :: '_' :: m)
    unfold varText replaceMangled
    rw [mangled_one hp hid, inName_us, inAll_us, hm]
    rcases h4 with ⟨os, ns, rfl, rfl, hos⟩ | ⟨ho', hpre⟩
    · have hA := ho os ns rfl
      have hoi : ∀ x ∈ os, isIdent x = true := fun x hx => (hA.tpl.ident x hx).1
      have hni : ∀ x ∈ ns, isIdent x = true := by
        rw [hA.inst]
        exact fun x hx => Generics.mem_inst hA.tpl (fun z hz => Generics.sanitize_mem z hz) x hx
      have e1 : sanitize (zText (.name os)) = os := by
        rw [show zText (.name os) = os by simp [zText, txt], Generics.sanitize_ident hoi]
      have e2 : sanitize (zText (inType p a (some (os, ns)) (.name os))) = ns := by
        rw [show inType p a (some (os, ns)) (.name os) = .name ns by simp [inType, selfIn, self, subst],
          show zText (.name ns) = ns by simp [zText, txt], Generics.sanitize_ident hni]
      rw [e2] at h3
      have hlen : os.length ≤ ns.length := by rw [hA.inst]; simp
      simp only [List.length_append, List.length_cons] at h3
      rw [e1, e2, inAll_same hos, if_neg (by simp only [List.length_append, List.length_cons]; omega),
        Res.ok_bind]
      simp only
      rw [if_pos ⟨m, by simp⟩, List.drop_left' rfl]
    · rw [owner_text hp ho', if_neg (by omega), Res.ok_bind]
      cases st with
      | none => rfl
      | some q =>
        simp only
        rw [if_neg (hpre q.1 q.2 rfl)]

theorem map_isNil {τ ι ν ρ τ' ι' ν' ρ' : Type} (f : τ → τ') (g : ι → ι') (h : ν → ν') (k : ρ → ρ')
    (n : Node τ ι ν ρ) : (map f g h k n).isNil = n.isNil := by
  cases n <;> rfl

theorem seen_nodes (s : Src) : seen (nodes s) = meant s := by
  have hf : ∀ t, (Form.of t).txt true [] = cText t := fun t => form_txt t true []
  unfold seen nodes meant
  induction s with
  | function n r ri as ais b nx ih1 ih2 =>
    simp only [map, ih1, ih2, hf, id, List.map_map]
    congr 1
    exact List.map_congr_left (fun t _ => hf t)
  | other k t x y z nx ih1 ih2 ih3 ih4 =>
    simp only [map, ih1, ih2, ih3, ih4, Option.map_map]
    rfl
  | _ => simp only [map, *, id]

/-- The body of a template becomes the body of the instance, if everything in it fits. -/
theorem body_partial (hp : Param p) {a : Ty} (ha : Actual p a) (hr : Read a) {st : Option (Name × Name)}
    (ho : ∀ os ns, st = some (os, ns) → Generics.Spec.Around p a os ns ∧ Inside p os ns)
    {cs : List Piece} (hcs : text cs = zText a) (hc : Filled p st cs) (s : Src)
    (h : BFits p a cs st s) :
    ∃ n, copy p (zText a) st (nodes s) = .ok n ∧ seen n = meant (inst p a cs st s) := by
  have ho1 : ∀ os ns, st = some (os, ns) → Generics.Spec.Around p a os ns := fun os ns e => (ho os ns e).1
  have ho2 : ∀ os ns, st = some (os, ns) → Inside p os ns := fun os ns e => (ho os ns e).2
  have hT : ∀ {t : Ty}, TFits p a st t → replaceTypeStr p (zText a) st (zText t) = zText (inType p a st t) :=
    fun h => Generics.replace_fits_txt false hp ha (fun e => by cases e) ho1 h
  have hI : ∀ {t : Ty}, TFits p a st t → (replaceFormal p (zText a) st (Form.of t)).txt true [] =
      cText (inType p a st t) :=
    fun h => formal_partial hp ha hr ho1 h true []
  have hR : ∀ {ps : List Piece}, RFits p a cs st ps →
      rawText p (zText a) st (text ps) = .ok (text (inText p a cs st ps)) := by
    rintro ps ⟨h1, h2, h3⟩
    rw [← hcs]
    have := raw_partial hp st ho2 cs hc ps h1 h2 (by simpa only [inText, hcs] using h3)
    rw [this, inText, hcs]
  unfold nodes inst meant seen
  induction s with
  | nil => exact ⟨_, rfl, rfl⟩
  | function n r ri as ais b nx ih1 ih2 =>
    obtain ⟨t1, t2, t3, t4, h1, h2⟩ := h
    obtain ⟨n1, e1, m1⟩ := ih1 h1
    obtain ⟨n2, e2, m2⟩ := ih2 h2
    refine ⟨_, by simp only [map, copy, e1, e2, hR t3, Res.ok_bind]; rfl, ?_⟩
    simp only [map, zeros, hT t1, hI t2, m1, m2, id, List.map_map]
    congr 1
    exact List.map_congr_left (fun t ht => hI (t4 t ht))
  | raw ps nx ih =>
    obtain ⟨t1, h1⟩ := h
    obtain ⟨n1, e1, m1⟩ := ih h1
    exact ⟨_, by simp only [map, copy, e1, hR t1, Res.ok_bind]; rfl, by simp only [map, zeros, m1, id]⟩
  | var v nx ih =>
    obtain ⟨t1, h1⟩ := h
    obtain ⟨n1, e1, m1⟩ := ih h1
    exact ⟨_, by simp only [map, copy, e1, names_partial hp ho1 t1, Res.ok_bind]; rfl,
      by simp only [map, zeros, m1, id]⟩
  | varDecl n t i e nx ih1 ih2 =>
    obtain ⟨t1, t2, h1, h2⟩ := h
    obtain ⟨n1, e1, m1⟩ := ih1 h1
    obtain ⟨n2, e2, m2⟩ := ih2 h2
    exact ⟨_, by simp only [map, copy, e1, e2, Res.ok_bind]; rfl,
      by simp only [map, zeros, hT t1, hI t2, m1, m2, id]⟩
  | cast t i e nx ih1 ih2 =>
    obtain ⟨t1, t2, h1, h2⟩ := h
    obtain ⟨n1, e1, m1⟩ := ih1 h1
    obtain ⟨n2, e2, m2⟩ := ih2 h2
    exact ⟨_, by simp only [map, copy, e1, e2, Res.ok_bind]; rfl,
      by simp only [map, zeros, hT t1, hI t2, m1, m2, id]⟩
  | structInit t fs nx ih1 ih2 =>
    obtain ⟨t1, h1, h2, hv⟩ := h
    obtain ⟨n1, e1, m1⟩ := ih1 h1
    obtain ⟨n2, e2, m2⟩ := ih2 h2
    simp only [map, copy, e1, e2, Res.ok_bind, hT t1, zeros, map_isNil]
    by_cases hc : isValue (inType p a st t) = true ∧ fs.isNil = true
    · rw [if_pos hc, if_pos ⟨hv.1 hc.1, hc.2⟩]
      exact ⟨_, rfl, by simp only [map, m2]⟩
    · rw [if_neg hc, if_neg (fun e => hc ⟨hv.2 e.1, e.2⟩)]
      exact ⟨_, rfl, by simp only [map, m1, m2, id]⟩
  | sizeofType t nx ih =>
    obtain ⟨t1, h1⟩ := h
    obtain ⟨n1, e1, m1⟩ := ih h1
    exact ⟨_, by simp only [map, copy, e1, Res.ok_bind]; rfl, by simp only [map, zeros, hT t1, m1, id]⟩
  | other k t x y z nx ih1 ih2 ih3 ih4 =>
    obtain ⟨h0, h1, h2, h3, h4⟩ := h
    obtain ⟨n4, e4, m4⟩ := ih4 h4
    refine ⟨_, by simp only [map, copy, e4, Res.ok_bind]; rfl, ?_⟩
    have sn := seen_nodes
    unfold seen nodes meant at sn
    unfold inst meant at h1 h2 h3
    simp only [map, zeros, m4, sn, h1, h2, h3]
    congr 1
    cases t with
    | none => rfl
    | some u => simp [h0 u rfl]
  | block b nx ih1 ih2 =>
    obtain ⟨h1, h2⟩ := h
    obtain ⟨n1, e1, m1⟩ := ih1 h1
    obtain ⟨n2, e2, m2⟩ := ih2 h2
    exact ⟨_, by simp only [map, copy, e1, e2, Res.ok_bind]; rfl, by simp only [map, zeros, m1, m2]⟩
  | ret b nx ih1 ih2 =>
    obtain ⟨h1, h2⟩ := h
    obtain ⟨n1, e1, m1⟩ := ih1 h1
    obtain ⟨n2, e2, m2⟩ := ih2 h2
    exact ⟨_, by simp only [map, copy, e1, e2, Res.ok_bind]; rfl, by simp only [map, zeros, m1, m2]⟩
  | unary o b nx ih1 ih2 =>
    obtain ⟨h1, h2⟩ := h
    obtain ⟨n1, e1, m1⟩ := ih1 h1
    obtain ⟨n2, e2, m2⟩ := ih2 h2
    exact ⟨_, by simp only [map, copy, e1, e2, Res.ok_bind]; rfl, by simp only [map, zeros, m1, m2]⟩
  | member b f nx ih1 ih2 =>
    obtain ⟨h1, h2⟩ := h
    obtain ⟨n1, e1, m1⟩ := ih1 h1
    obtain ⟨n2, e2, m2⟩ := ih2 h2
    exact ⟨_, by simp only [map, copy, e1, e2, Res.ok_bind]; rfl, by simp only [map, zeros, m1, m2]⟩
  | sizeofExpr b nx ih1 ih2 =>
    obtain ⟨h1, h2⟩ := h
    obtain ⟨n1, e1, m1⟩ := ih1 h1
    obtain ⟨n2, e2, m2⟩ := ih2 h2
    exact ⟨_, by simp only [map, copy, e1, e2, Res.ok_bind]; rfl, by simp only [map, zeros, m1, m2]⟩
  | int v nx ih =>
    obtain ⟨n1, e1, m1⟩ := ih h
    exact ⟨_, by simp only [map, copy, e1, Res.ok_bind]; rfl, by simp only [map, zeros, m1]⟩
  | str v nx ih =>
    obtain ⟨n1, e1, m1⟩ := ih h
    exact ⟨_, by simp only [map, copy, e1, Res.ok_bind]; rfl, by simp only [map, zeros, m1]⟩
  | binary o l r nx ih1 ih2 ih3 =>
    obtain ⟨h1, h2, h3⟩ := h
    obtain ⟨n1, e1, m1⟩ := ih1 h1
    obtain ⟨n2, e2, m2⟩ := ih2 h2
    obtain ⟨n3, e3, m3⟩ := ih3 h3
    exact ⟨_, by simp only [map, copy, e1, e2, e3, Res.ok_bind]; rfl, by simp only [map, zeros, m1, m2, m3]⟩
  | call l r nx ih1 ih2 ih3 =>
    obtain ⟨h1, h2, h3⟩ := h
    obtain ⟨n1, e1, m1⟩ := ih1 h1
    obtain ⟨n2, e2, m2⟩ := ih2 h2
    obtain ⟨n3, e3, m3⟩ := ih3 h3
    exact ⟨_, by simp only [map, copy, e1, e2, e3, Res.ok_bind]; rfl, by simp only [map, zeros, m1, m2, m3]⟩
  | index l r nx ih1 ih2 ih3 =>
    obtain ⟨h1, h2, h3⟩ := h
    obtain ⟨n1, e1, m1⟩ := ih1 h1
    obtain ⟨n2, e2, m2⟩ := ih2 h2
    obtain ⟨n3, e3, m3⟩ := ih3 h3
    exact ⟨_, by simp only [map, copy, e1, e2, e3, Res.ok_bind]; rfl, by simp only [map, zeros, m1, m2, m3]⟩
  | while_ l r nx ih1 ih2 ih3 =>
    obtain ⟨h1, h2, h3⟩ := h
    obtain ⟨n1, e1, m1⟩ := ih1 h1
    obtain ⟨n2, e2, m2⟩ := ih2 h2
    obtain ⟨n3, e3, m3⟩ := ih3 h3
    exact ⟨_, by simp only [map, copy, e1, e2, e3, Res.ok_bind]; rfl, by simp only [map, zeros, m1, m2, m3]⟩
  | ite l r q nx ih1 ih2 ih3 ih4 =>
    obtain ⟨h1, h2, h3, h4⟩ := h
    obtain ⟨n1, e1, m1⟩ := ih1 h1
    obtain ⟨n2, e2, m2⟩ := ih2 h2
    obtain ⟨n3, e3, m3⟩ := ih3 h3
    obtain ⟨n4, e4, m4⟩ := ih4 h4
    exact ⟨_, by simp only [map, copy, e1, e2, e3, e4, Res.ok_bind]; rfl,
      by simp only [map, zeros, m1, m2, m3, m4]⟩
  | for_ l r q b nx ih1 ih2 ih3 ih4 ih5 =>
    obtain ⟨h1, h2, h3, h4, h5⟩ := h
    obtain ⟨n1, e1, m1⟩ := ih1 h1
    obtain ⟨n2, e2, m2⟩ := ih2 h2
    obtain ⟨n3, e3, m3⟩ := ih3 h3
    obtain ⟨n4, e4, m4⟩ := ih4 h4
    obtain ⟨n5, e5, m5⟩ := ih5 h5
    exact ⟨_, by simp only [map, copy, e1, e2, e3, e4, e5, Res.ok_bind]; rfl,
      by simp only [map, zeros, m1, m2, m3, m4, m5]⟩

section examples

/-- `fn make(v: T) -> Box<T>* { let x: T = v; let p: Box* = (Box*)malloc(sizeof(T)); raw { T y; }
return Box<T>::init(p, x, T {}); }` -/
def exampleBody : Src :=
  let T : Ty := .par "T".toList
  let boxT : Ty := .app "Box".toList T
  .function "make".toList (.ptr boxT) (.ptr boxT) [.word "T".toList, .mark ' ', .word "v".toList] [T]
    (.block
      (.varDecl "x".toList T T (.var (.plain "v".toList) .nil)
        (.varDecl "p".toList (.ptr (.name "Box".toList)) (.ptr (.name "Box".toList))
          (.cast (.ptr (.name "Box".toList)) (.ptr (.name "Box".toList))
            (.call (.var (.plain "malloc".toList) .nil) (.sizeofType T .nil) .nil) .nil)
          (.raw [.word "T".toList, .mark ' ', .word "y".toList, .mark ';']
            (.ret (.call (.var (.static boxT "init".toList) .nil)
              (.var (.plain "p".toList) (.var (.plain "x".toList) (.structInit T .nil .nil))) .nil) .nil))))
      .nil) .nil

/-- the same for `u8` -/
def exampleInst : Node Name Name Name Name :=
  .function "make".toList "Box_uint8_t*".toList "Box_uint8_t*".toList "uint8_t v".toList ["uint8_t".toList]
    (.block
      (.varDecl "x".toList "uint8_t".toList "uint8_t".toList (.var "v".toList .nil)
        (.varDecl "p".toList "Box_uint8_t*".toList "Box_uint8_t*".toList
          (.cast "Box_uint8_t*".toList "Box_uint8_t*".toList
            (.call (.var "malloc".toList .nil) (.sizeofType "uint8_t".toList .nil) .nil) .nil)
          (.raw "uint8_t y;".toList
            (.ret (.call (.var "Box_uint8_t__init".toList .nil)
              (.var "p".toList (.var "x".toList (.int 0 .nil))) .nil) .nil))))
      .nil) .nil

theorem exampleU8 : Actual "T".toList (.prim .u8) :=
  ⟨(by intro _ _ h; cases h), by decide, by decide, by decide, by decide, by decide⟩

theorem exampleBox : Tpl "Box".toList := ⟨by decide, by decide, by decide⟩

example : ∃ n, copy "T".toList "uint8_t".toList (some ("Box".toList, "Box_uint8_t".toList))
    (nodes exampleBody) = .ok n ∧ seen n = exampleInst := by
  have hFp : ∀ {os : Option Name}, Fits "T".toList os (.prim .u8) (.par "T".toList) := Fits.par
  have hFb : Fits "T".toList (some "Box".toList) (.prim .u8) (.ptr (.app "Box".toList (.par "T".toList))) :=
    .ptr (.app _ exampleBox .par)
  have hFs : Fits "T".toList (some "Box".toList) (.prim .u8) (.ptr (.name "Box".toList)) := .ptr (.self _ rfl)
  have hv : ∀ n ∈ ["v".toList, "malloc".toList, "p".toList, "x".toList],
      VFits "T".toList (.prim .u8) (some ("Box".toList, "Box_uint8_t".toList)) (.plain n) := by
    intro n hn
    simp only [List.mem_cons, List.not_mem_nil, or_false] at hn
    rcases hn with rfl | rfl | rfl | rfl
    all_goals
      refine ⟨by decide, fun h => absurd h (by decide), by decide, ?_⟩
      rintro os ns h
      simp only [Option.some.injEq, Prod.mk.injEq] at h
      obtain ⟨rfl, rfl⟩ := h
      decide
  have h := body_partial (p := "T".toList) (a := .prim .u8) exampleParam exampleU8
    (read_prim .u8 (by decide) (.inl rfl)) (st := some ("Box".toList, "Box_uint8_t".toList))
    (by
      rintro os ns h
      simp only [Option.some.injEq, Prod.mk.injEq] at h
      obtain ⟨rfl, rfl⟩ := h
      exact ⟨⟨exampleBox, by decide, by decide⟩,
        ⟨by decide, by decide, by decide, by decide, by decide, fun _ => by decide⟩⟩)
    (cs := [.word "uint8_t".toList]) (by decide)
    { fill := fill_word (by decide) (by decide)
      apart := by
        intro w hw
        simp only [List.mem_singleton, Piece.word.injEq] at hw
        subst hw
        refine ⟨fun _ => by decide, ?_⟩
        rintro os ns h
        simp only [Option.some.injEq, Prod.mk.injEq] at h
        obtain ⟨rfl, rfl⟩ := h
        decide }
    exampleBody
    (by
      refine ⟨hFb, hFb, ⟨?_, ?_, by decide⟩, ?_, ⟨⟨hFp, hFp, ⟨hv _ (by simp), trivial⟩, hFs, hFs,
        ⟨hFs, hFs, ⟨⟨hv _ (by simp), trivial⟩, ⟨hFp, trivial⟩, trivial⟩, trivial⟩, ⟨?_, ?_, by decide⟩,
        ⟨⟨⟨?_, trivial⟩, ⟨hv _ (by simp), hv _ (by simp), hFp, trivial, trivial, ?_⟩, trivial⟩, trivial⟩⟩, trivial⟩,
        trivial⟩
      · exact .cons ⟨by decide, by decide⟩ trivial (.cons ⟨by decide, by decide⟩ trivial
          (.one ⟨by decide, by decide⟩))
      · intro x hx
        simp only [List.mem_cons, List.not_mem_nil, or_false] at hx
        rcases hx with rfl | rfl | rfl <;> trivial
      · intro t ht
        simp only [List.mem_singleton] at ht
        subst ht; exact hFp
      · exact .cons ⟨by decide, by decide⟩ trivial (.cons ⟨by decide, by decide⟩ trivial
          (.cons ⟨by decide, by decide⟩ trivial (.one ⟨by decide, by decide⟩)))
      · intro x hx
        simp only [List.mem_cons, List.not_mem_nil, or_false] at hx
        rcases hx with rfl | rfl | rfl | rfl <;> trivial
      · refine ⟨by decide, by decide, by decide, .inr ⟨.app _ exampleBox (by decide) .par, ?_⟩⟩
        rintro os ns h
        simp only [Option.some.injEq, Prod.mk.injEq] at h
        obtain ⟨rfl, rfl⟩ := h
        decide
      · decide)
  exact h

end examples

/-- The code of the instance is lost in every kind of node that is not copied: a declaration of type
`T` in a `loop`, a `match`, a `defer`, … keeps the type `T`. -/
theorem other_violated {a : Ty} (hne : zText a ≠ p) (cs : List Piece) (st : Option (Name × Name))
    (k : Other) (v : Name) :
    ∃ n, copy p (zText a) st (nodes (.other k none (.varDecl v (.par p) (.par p) .nil .nil) .nil .nil .nil)) = .ok n ∧
      seen n = .other k none (.varDecl v p p .nil .nil) .nil .nil .nil ∧
      meant (inst p a cs st (.other k none (.varDecl v (.par p) (.par p) .nil .nil) .nil .nil .nil)) =
        .other k none (.varDecl v (zText a) (cText a) .nil .nil) .nil .nil .nil ∧
      seen n ≠ meant (inst p a cs st (.other k none (.varDecl v (.par p) (.par p) .nil .nil) .nil .nil .nil)) := by
  have e : inType p a st (.par p) = a := by cases st <;> simp [inType, selfIn, self, subst, one]
  have m : meant (inst p a cs st (.other k none (.varDecl v (.par p) (.par p) .nil .nil) .nil .nil .nil)) =
        .other k none (.varDecl v (zText a) (cText a) .nil .nil) .nil .nil .nil := by
    simp [inst, map, zeros, meant, e]
  have z : ∀ b, txt b (.par p) [] = p := by intro b; simp [txt]
  refine ⟨_, rfl, by simp [seen, map, Form.of, Form.txt, zText, z], m, ?_⟩
  rw [m]
  simp only [seen, map, Form.of, Form.txt, zText, z, id]
  intro h
  injection h with _ _ h _ _ _
  injection h with _ h _ _ _
  exact hne h.symm

/-- A variable with the part `p` in its name is declared with one name and used with another. -/
theorem declared_violated (hp : Param p) {a : Ty} (hs : sanitize (zText a) ≠ p) (x : Name)
    (hx : ∀ z ∈ x, isIdent z = true) (hxp : p ∉ segs x) (hl : x.length + 3 * (zText a).length < 4000) :
    copy p (zText a) none (nodes (.varDecl (x ++ '_' :: p) (.par p) (.par p) .nil
        (.var (.plain (x ++ '_' :: p)) .nil))) =
      .ok (.varDecl (x ++ '_' :: p) (replaceTypeStr p (zText a) none p) (fromString (zText a)) .nil
        (.var (x ++ '_' :: sanitize (zText a)) .nil)) ∧ x ++ '_' :: p ≠ x ++ '_' :: sanitize (zText a) := by
  have hi : ∀ z ∈ x ++ '_' :: p, isIdent z = true := by
    intro z hz
    simp only [List.mem_append, List.mem_cons] at hz
    rcases hz with hz | rfl | hz
    · exact hx z hz
    · decide
    · exact param_ident hp z hz
  have hl2 := sanitize_length (zText a)
  have hm : varText p (zText a) none (x ++ '_' :: p) = .ok (x ++ '_' :: sanitize (zText a)) := by
    unfold varText replaceMangled
    rw [mangled_one hp hi, inName_us, inAll_us, inAll_same hxp, inAll_self hp.noUs, if_neg ?_]
    · rfl
    · simp only [List.length_append, List.length_cons]; omega
  refine ⟨?_, ?_⟩
  · have z : zText (.par p) = p := by simp [zText, txt]
    simp only [nodes, map, copy, VName.text, hm, Res.ok_bind, z, Form.of, formal_named, argOf_some hp]
  · intro h
    rw [List.append_cancel_left_eq] at h
    injection h with _ h
    exact hs h.symm

/-- `max_T` -/
example : copy "T".toList "Pair".toList none (nodes (.varDecl "max_T".toList (.par "T".toList) (.par "T".toList)
      .nil (.var (.plain "max_T".toList) .nil))) =
    .ok (.varDecl "max_T".toList (replaceTypeStr "T".toList "Pair".toList none "T".toList)
      (fromString "Pair".toList) .nil (.var "max_Pair".toList .nil)) :=
  (declared_violated exampleParam (a := .name "Pair".toList) (by decide) "max".toList (by decide) (by decide)
    (by decide)).1

/-- `const T` is not constant in an instance. -/
theorem const_violated (hp : Param p) {a : Ty} (hr : Read a) (hd : ¬ "const ".toList <+: cText a)
    (st : Option (Name × Name)) :
    (replaceFormal p (zText a) st (Form.of (.const (.par p)))).txt true [] = cText a ∧
      cText a ≠ cText (inType p a st (.const (.par p))) := by
  have e : inType p a st (.const (.par p)) = .const a := by
    cases st <;> simp [inType, selfIn, self, subst, one]
  constructor
  · have : replaceFormal p (zText a) st (Form.of (.const (.par p))) = fromString (zText a) := by
      rw [Form.of, Form.of, replaceFormal.eq_def]
      simp only [argOf_some hp]
    rw [this]
    exact fromString_txt hr true []
  · rw [e]
    intro h
    refine hd ⟨cText a, ?_⟩
    have : cText (.const a) = "const ".toList ++ cText a := by simp [cText, txt]
    rw [← this, ← h]

/-- The result type of a function type is not replaced. -/
theorem result_violated {a : Ty} (st : Option (Name × Name)) (u : Ty) :
    ∃ r, (replaceFormal p (zText a) st (Form.of (.rawFn (.par p) u))).txt true [] = p ++ " (*)(".toList ++ r := by
  refine ⟨(replaceFormal p (zText a) st (Form.of u)).txt true [] ++ [')'], ?_⟩
  rw [Form.of, replaceFormal.eq_def]
  simp [Form.txt, Form.of]

/-- For the arguments with a text of two words, `uint` and `u128`, the type of the instance is a
struct that does not exist. -/
theorem two_words_violated (hp : Param p) (st : Option (Name × Name)) :
    (replaceFormal p (zText (.prim .uint)) st (Form.of (.par p))).txt true [] = "unsigned_int".toList ∧
    (replaceFormal p (zText (.prim .u128)) st (Form.of (.par p))).txt true [] = "unsigned___int128".toList := by
  have h1 : fromString (zText (.prim .uint)) = .named false "unsigned_int".toList := by
    rw [fromString, dif_neg (by decide), if_neg (by decide)]
    decide +kernel
  have h2 : fromString (zText (.prim .u128)) = .named false "unsigned___int128".toList := by
    rw [fromString, dif_neg (by decide), if_neg (by decide)]
    decide +kernel
  constructor
  · rw [Form.of, formal_named, argOf_some hp]
    simp only [h1]; decide
  · rw [Form.of, formal_named, argOf_some hp]
    simp only [h2]; decide

/-- For the types of C, `c_int`, `c_long`, …, the type of the instance is a struct too. -/
theorem c_types_violated (hp : Param p) (st : Option (Name × Name)) (k : Prim)
    (hk : k.cText ≠ k.zText) (h : k ≠ .int) :
    (replaceFormal p (zText (.prim k)) st (Form.of (.par p))).txt true [] = k.zText.toList ∧
    k.zText.toList ≠ cText (.prim k) := by
  have hi : ∀ x ∈ k.zText.toList, isIdent x = true := by
    revert hk h; cases k <;> decide +kernel
  have hn : known k.zText.toList = none := by
    revert hk h; cases k <;> decide +kernel
  have z : zText (.prim k) = k.zText.toList := by simp [zText, txt]
  constructor
  · rw [Form.of, formal_named, argOf_some hp, z]
    simp only
    rw [fromString_ident hi, hn]
    simp [Form.txt]
  · have : cText (.prim k) = k.cText.toList := by simp [cText, txt]
    rw [this]
    intro e
    exact hk (String.toList_inj.1 e).symm

/-- In an instance for an argument whose name begins with an underscore (`i128` is `__int128`),
the names of methods of the instance itself, `Box<T>::new`, are changed twice. -/
theorem underscore_violated (hp : Param p) {a : Ty} {os c' m : Name} (ht : Tpl os) (hos : p ∉ segs os)
    (hm : ∀ x ∈ m, isIdent x = true) (hmp : p ∉ segs m) (hc : sanitize (zText a) = '_' :: c')
    (hl : os.length + 3 * (zText a).length + m.length < 4000) :
    varText p (zText a) (some (os, os ++ '_' :: sanitize (zText a)))
        (VName.static (.app os (.par p)) m).text =
      .ok (os ++ '_' :: '_' :: c' ++ '_' :: '_' :: c' ++ '_' :: '_' :: m) ∧
    (inVar p a (some (os, os ++ '_' :: sanitize (zText a))) (.static (.app os (.par p)) m)).text =
      os ++ '_' :: '_' :: c' ++ '_' :: '_' :: m := by
  have hs : ∀ (g : Name) (w : Name), Tpl g → sanitize (g ++ '_' :: sanitize w) = g ++ '_' :: sanitize w := by
    intro g w hg
    exact Generics.sanitize_ident (fun x hx => Generics.mem_inst hg (fun z hz => Generics.sanitize_mem z hz) x hx)
  have e0 : sanitize (zText (.app os (.par p))) = os ++ '_' :: p := by
    rw [show zText (.app os (.par p)) = os ++ '_' :: sanitize p by simp [zText, txt], hs _ _ ht,
      Generics.sanitize_ident (param_ident hp)]
  have hl2 := sanitize_length (zText a)
  have hid : ∀ x ∈ os ++ '_' :: (p ++ '_' :: '_' :: m), isIdent x = true := by
    intro x hx
    simp only [List.mem_append, List.mem_cons] at hx
    rcases hx with hx | rfl | hx | rfl | rfl | hx
    · exact (ht.ident x hx).1
    · decide
    · exact param_ident hp x hx
    · decide
    · decide
    · exact hm x hx
  have hm' : inAll p (sanitize (zText a)) ('_' :: m) = '_' :: m := by
    refine inAll_same ?_
    have : segs ('_' :: m) = [] :: segs m := by simp [segs]
    rw [this, List.mem_cons, not_or]
    exact ⟨hp.ne, hmp⟩
  have e1 : (VName.static (.app os (.par p)) m).text = os ++ '_' :: (p ++ '_' :: '_' :: m) := by
    rw [VName.text, e0]; simp
  constructor
  · rw [e1]
    unfold varText replaceMangled
    rw [mangled_one hp hid, inName_us, inAll_us, inAll_us, inAll_same hos, inAll_self hp.noUs, hm',
      if_neg (by simp only [List.length_append, List.length_cons]; omega), Res.ok_bind]
    simp only
    rw [hc, if_pos ⟨c' ++ '_' :: '_' :: m, by simp⟩, List.drop_left' rfl]
    simp
  · have e : inType p a (some (os, os ++ '_' :: sanitize (zText a))) (.app os (.par p)) = .app os a := by
      simp [inType, selfIn, self, subst, one]
    rw [inVar, VName.text, e, show zText (.app os a) = os ++ '_' :: sanitize (zText a) by simp [zText, txt],
      hs _ _ ht, hc]

/-- `Vec<T>::new` for `i128` -/
example : varText "T".toList "__int128".toList (some ("Vec".toList, "Vec___int128".toList)) "Vec_T__new".toList =
    .ok "Vec___int128___int128__new".toList :=
  (underscore_violated exampleParam (a := .prim .i128) (os := "Vec".toList) (m := "new".toList)
    ⟨by decide, by decide, by decide⟩ (by decide) (by decide) (by decide) (c' := "_int128".toList) (by decide) (by decide)).1

end Verif.GenBody
