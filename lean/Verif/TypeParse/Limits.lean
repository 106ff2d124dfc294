import Verif.TypeParse.Props

/-!
# C147: names of primitive types, and where types are not read as they are written;
# C148: a name followed by `<`
-/

namespace Verif.TypeParse
open Spec

/-! ## The primitive types of the documentation -/

namespace Spec

/-- The table of README.md:211-229, without the rows `iN` and `uN`. (`string` is a `typedef` of
`char*`; `__int128` is the type `__int128_t` names.) -/
def documented : List (Str × Str) := [
  ("int".toList, "int32_t".toList), ("uint".toList, "uint32_t".toList),
  ("c_char".toList, "char".toList), ("c_uchar".toList, "unsigned char".toList),
  ("c_short".toList, "short".toList), ("c_ushort".toList, "unsigned short".toList),
  ("c_int".toList, "int".toList), ("c_uint".toList, "unsigned int".toList),
  ("c_long".toList, "long".toList), ("c_ulong".toList, "unsigned long".toList),
  ("c_long_long".toList, "long long".toList),
  ("c_ulong_long".toList, "unsigned long long".toList),
  ("I8".toList, "int8_t".toList), ("i8".toList, "int8_t".toList),
  ("I16".toList, "int16_t".toList), ("i16".toList, "int16_t".toList),
  ("I32".toList, "int32_t".toList), ("i32".toList, "int32_t".toList),
  ("I64".toList, "int64_t".toList), ("i64".toList, "int64_t".toList),
  ("I128".toList, "__int128".toList), ("i128".toList, "__int128".toList),
  ("U8".toList, "uint8_t".toList), ("u8".toList, "uint8_t".toList),
  ("U16".toList, "uint16_t".toList), ("u16".toList, "uint16_t".toList),
  ("U32".toList, "uint32_t".toList), ("u32".toList, "uint32_t".toList),
  ("U64".toList, "uint64_t".toList), ("u64".toList, "uint64_t".toList),
  ("U128".toList, "unsigned __int128".toList), ("u128".toList, "unsigned __int128".toList),
  ("isize".toList, "ptrdiff_t".toList), ("usize".toList, "size_t".toList),
  ("byte".toList, "uint8_t".toList),
  ("F32".toList, "float".toList), ("f32".toList, "float".toList),
  ("F64".toList, "double".toList), ("f64".toList, "double".toList),
  ("bool".toList, "bool".toList), ("char".toList, "char".toList),
  ("string".toList, "string".toList),
  ("U0".toList, "void".toList), ("u0".toList, "void".toList), ("void".toList, "void".toList)]

/-- The number a list of digits writes. -/
def value : Str → Nat → Nat
  | [], a => a
  | c :: ds, a => value ds (a * 10 + (c.toNat - 48))

/-- Widths that have a name in C. -/
def named : Nat → Bool
  | 8 | 16 | 32 | 64 | 128 => true
  | _ => false

end Spec

/-- Every name of the documentation is the type of the documentation. -/
theorem prim_documented : ∀ p ∈ documented, ∃ c, prim p.1 = some (.prim c) ∧ c = p.2 := by
  have h : ∀ p ∈ documented, (match prim p.1 with | some (.prim c) => decide (c = p.2) | _ => false) = true := by
    decide +kernel
  intro p hp
  have := h p hp
  split at this
  · rename_i c e; exact ⟨c, e, of_decide_eq_true this⟩
  · exact nomatch this

theorem atoi_value (ds : Str) : ∀ a, ds.foldl (fun a c => a * 10 + (c.toNat - '0'.toNat)) a = value ds a := by
  induction ds with
  | nil => intro a; rfl
  | cons c ds ih => intro a; exact ih _

theorem look_early (c : Char) (hc : c = 'i' ∨ c = 'u') (d : Char) (ds : Str) (hd : isDigit d = true)
    (h : named (value (d :: ds) 0) = false) (h0 : 0 < value (d :: ds) 0) :
    look (c :: d :: ds) early = none := by
  have key : ∀ (l : List (Str × Str)), (∀ p ∈ l, p.1 ≠ c :: d :: ds) → look (c :: d :: ds) l = none := by
    intro l
    induction l with
    | nil => intro _; rfl
    | cons p l ih =>
        intro hl
        obtain ⟨k, v⟩ := p
        show (if c :: d :: ds = k then _ else _) = _
        rw [if_neg (fun e => hl _ (.head _) e.symm)]
        exact ih fun q hq => hl q (.tail _ hq)
  refine key _ fun p hp e => ?_
  have hall : ∀ p ∈ early, ∀ a b r, p.1 = a :: b :: r → (a = 'i' ∨ a = 'u') → isDigit b = true →
      named (value (b :: r) 0) = true ∨ value (b :: r) 0 = 0 := by
    intro p hp a b r e ha hb
    have := (show ∀ p ∈ early, (match p.1 with
      | a :: b :: r => (!(a == 'i' || a == 'u') || !isDigit b || named (value (b :: r) 0)
          || value (b :: r) 0 == 0)
      | _ => true) = true by decide +kernel) p hp
    rw [e] at this
    have h1 : (a == 'i' || a == 'u') = true := by
      rcases ha with rfl | rfl <;> rfl
    dsimp only at this
    rw [h1, hb] at this
    simp only [Bool.not_true, Bool.false_or, Bool.or_eq_true, beq_iff_eq] at this
    exact this
  rcases hall p hp c d ds e hc hd with h1 | h1
  · rw [h] at h1; exact nomatch h1
  · omega

/-- `iN` and `uN` are integers of `N` bits, for every `N` that C has no name for. -/
theorem prim_bits (c : Char) (hc : c = 'i' ∨ c = 'u') (ds : Str) (hne : ds ≠ [])
    (hd : ∀ d ∈ ds, isDigit d = true) (h : named (value ds 0) = false) (h0 : 0 < value ds 0) :
    prim (c :: ds) = some (.bits (c == 'i') (value ds 0)) := by
  cases ds with
  | nil => exact absurd rfl hne
  | cons d ds =>
      have hd0 := hd d (.head _)
      have e1 := look_early c hc d ds hd0 h h0
      have ea : atoi (d :: ds) = value (d :: ds) 0 := atoi_value (d :: ds) 0
      have hall : (d :: ds).all isDigit = true := List.all_eq_true.mpr hd
      have e2 : bitInt (c :: d :: ds) = some (.bits (c == 'i') (value (d :: ds) 0)) := by
        unfold bitInt
        dsimp only
        rw [if_pos ⟨hc, hd0⟩, if_pos ⟨hall, by rw [ea]; exact h0⟩, ea]
        have hw : ∀ w, named w = false → width (c == 'i') w = .bits (c == 'i') w := by
          intro w hw
          unfold width
          rw [if_neg (by rintro rfl; exact nomatch hw), if_neg (by rintro rfl; exact nomatch hw),
            if_neg (by rintro rfl; exact nomatch hw), if_neg (by rintro rfl; exact nomatch hw),
            if_neg (by rintro rfl; exact nomatch hw)]
        rw [hw _ h]
      unfold prim
      rw [e1, e2]

theorem name_good (env : Env) {q : Option Bool} {n : Str} {s : Nat} (h : word n = false) :
    (W.mk q (.name n) s []).good (plain env) :=
  ⟨h, fun _ h => (nomatch h), fun h => (nomatch h)⟩

/-! ## Examples -/

/-- Numbers only, and `N` is a constant. -/
def sampleSize : List Tok → Option (Int × List Tok)
  | .num n :: .rbrack :: r => some ((n : Int), .rbrack :: r)
  | .ident ['N'] :: .rbrack :: r => some (4, .rbrack :: r)
  | _ => none

/-- A file without aliases and imports. -/
def sample : Env where
  alias := fun _ => none
  self := none
  join := fun a b => a ++ '_' :: b
  resolve := id
  size := sampleSize
  size_num := fun _ _ _ => rfl
  size_le := by
    intro ts k r h
    unfold sampleSize at h
    split at h
    · cases h; simp only [weight]; omega
    · cases h; simp only [weight]; omega
    · exact nomatch h

/-- `Map<string, Vec<int>>*[3]` -/
def mapTy : W :=
  .mk none (.app "Map".toList (.more (.mk none (.name "string".toList) 0 [])
    (.one (.mk none (.app "Vec".toList (.one (.mk none (.name "int".toList) 0 [])) 0) 0 []))) 0)
    1 [some 3]

theorem mapTy_good : mapTy.good (plain sample) :=
  ⟨⟨rfl, ⟨rfl, by decide +kernel⟩, ⟨name_good sample rfl,
    ⟨⟨rfl, ⟨rfl, by decide +kernel⟩, name_good sample rfl, trivial⟩,
      fun _ h => (nomatch h), fun h => (nomatch h)⟩⟩, rfl⟩,
    by intro n h; rcases List.mem_singleton.mp h with rfl; decide, fun h => (nomatch h)⟩

example : mapTy.toks = [.ident "Map".toList, .lt, .ident "string".toList, .comma,
    .ident "Vec".toList, .lt, .ident "int".toList, .gt 0, .gt 0, .star, .lbrack, .num 3, .rbrack] := rfl

example : parse sample (mapTy.toks ++ [.eq 1])
    = .ok (.arr (.ptr (.app "Map".toList [.prim "string".toList,
        .app "Vec".toList [.prim "int32_t".toList]])) 3, [.eq 1]) :=
  read_W sample mapTy mapTy_good [.eq 1] trivial

/-- `fn(int, char*) -> bool` -/
def fnTy : W :=
  .mk none (.fn 0 (.some (.more (.mk none (.name "int".toList) 0 [])
    (.one (.mk none (.name "char".toList) 1 [])))) (.some (.mk none (.name "bool".toList) 0 []))) 0 []

theorem fnTy_good : fnTy.good (plain sample) :=
  ⟨⟨⟨name_good sample rfl, name_good sample rfl⟩,
    name_good sample (q := none) rfl⟩, fun _ h => (nomatch h), fun _ => ⟨rfl, rfl⟩⟩

example : parse sample (fnTy.toks ++ [.semi])
    = .ok (.fn false [.prim "int32_t".toList, .ptr (.prim "char".toList)] (.prim "bool".toList),
        [.semi]) :=
  read_W sample fnTy fnTy_good [.semi] trivial

example : prim "i256".toList = some (.bits true 256) :=
  prim_bits 'i' (.inl rfl) "256".toList (by decide) (by decide) (by decide) (by decide)

/-! ## Where types are not read as they are written -/

theorem parse_name (env : Env) (n : Str) (hw : word n = false) (rest : List Tok)
    (h : follows .plain rest) : parse env (.ident n :: rest) = .ok (nameTy env false n, rest) :=
  read_W env (.mk none (.name n) 0 []) (name_good env hw) rest h

theorem list_stop {env : Env} {ts r : List Tok} {t : Ty} (h : parse env ts = .ok (t, r))
    (hn : ∀ x, r ≠ .comma :: x) : list (parse env) ts = .ok ([t], r) := by
  unfold list
  rw [h]
  simp only [R.bind_ok, more_stop _ _ hn]

theorem stars_none {ts : List Tok} (h : ∀ r, ts ≠ .star :: r) : stars ts = (0, ts) := by
  unfold stars
  split
  · exact absurd rfl (h _)
  · exact absurd rfl (h _)
  · rfl

theorem dims_none (env : Env) (k : Nat) {ts : List Tok} (h : ∀ r, ts ≠ .lbrack :: r) :
    dims env k ts = .ok ([], ts) := by
  unfold dims
  split
  · exact absurd rfl (h _)
  · exact absurd rfl (h _)
  · exact absurd rfl (h _)
  · rfl

theorem parse_unknown (env : Env) (t : Tok) (hi : ∀ n, t ≠ .ident n) (hb : t ≠ .lbrack)
    (hp : t ≠ .lparen) (hs : t ≠ .star) (rest : List Tok) :
    parse env (t :: rest) = .ok (.unknown, t :: rest) := by
  have h1 := stars_none (ts := t :: rest) (fun r e => hs (List.cons.inj e).1)
  have h2 := dims_none env (weight (t :: rest)) (ts := t :: rest) (fun r e => hb (List.cons.inj e).1)
  have h3 : qual (t :: rest) = (id, t :: rest) := by
    cases t with
    | ident n => exact absurd rfl (hi n)
    | _ => rfl
  have h4 : core env (parse env) (t :: rest) = .ok (.unknown, t :: rest) := by
    cases t with
    | ident n => exact absurd rfl (hi n)
    | lbrack => exact absurd rfl hb
    | lparen => exact absurd rfl hp
    | _ => rfl
  rw [parse_step]
  unfold step
  simp only [h3, h4, R.bind_ok, h1, h2, arrs, ptrs, id]

theorem qual_word {n : Str} (h : word n = false) (r : List Tok) :
    qual (.ident n :: r) = (id, .ident n :: r) := by
  obtain ⟨_, _, _, a, b, _⟩ := word_ne h
  show (if n = kwRestrict then _ else _) = _
  rw [if_neg b, if_neg a]

theorem core_word (env : Env) {n : Str} (h : word n = false) (r : List Tok) :
    core env (parse env) (.ident n :: r) = name env (parse env) false n r := by
  obtain ⟨a, b, c, _, _, _⟩ := word_ne h
  show (if n = kwFn then _ else (if n = kwStruct ∨ n = kwEnum then _ else _)) = _
  rw [if_neg c, if_neg (fun o => o.elim a b)]

/-- A generic type, by what its arguments are read as. -/
theorem parse_app (env : Env) (n : Str) (hw : word n = false) (hp : plain env n) (ts : List Tok)
    (args : List Ty) (r rest : List Tok) (hl : list (parse env) ts = .ok (args, r))
    (hc : close r = some rest) (hs : ∀ x, rest ≠ .star :: x) (hb : ∀ x, rest ≠ .lbrack :: x) :
    parse env (.ident n :: .lt :: ts) = .ok (.app (env.resolve n) args, rest) := by
  obtain ⟨_, _, _, _, _, f⟩ := word_ne hw
  have h1 := path_stop env n (ts := .lt :: ts) (fun r e => nomatch (List.cons.inj e).1)
  rw [parse_step]
  unfold step
  simp only [qual_word hw, core_word env hw]
  unfold name
  simp only [hp.1, if_neg f, h1, R.bind_ok, hp.2, hl, hc, stars_none hs, dims_none env _ hb, arrs,
    ptrs, id]

/-- A blank before `>>` counts as one of the two: the type ends, and a `>` is left over. -/
theorem gap_violated (env : Env) (a b c : Str) (ha : word a = false) (hb : word b = false)
    (hc : word c = false) (pa : plain env a) (pb : plain env b) (rest : List Tok)
    (he : ∀ r, rest ≠ .eq 0 :: r) :
    parse env (.ident a :: .lt :: .ident b :: .lt :: .ident c :: .gt 1 :: .gt 0 :: rest)
      = .ok (.app (env.resolve a) [.app (env.resolve b) [nameTy env false c]], .gt 0 :: rest) := by
  have h1 : list (parse env) (.ident c :: .gt 1 :: .gt 0 :: rest)
      = .ok ([nameTy env false c], .gt 1 :: .gt 0 :: rest) := by
    refine list_stop (parse_name env c hc _ ?_) (fun _ e => nomatch (List.cons.inj e).1)
    exact trivial
  have c1 : close (.gt 1 :: .gt 0 :: rest) = some (.gt 0 :: .gt 0 :: rest) := by
    unfold close
    split
    · rename_i heq; cases heq; exact absurd rfl (he _)
    · rename_i heq; cases heq
    · rename_i heq; cases heq; rfl
    · rename_i heq; cases heq
    · rename_i h3 _ heq; cases heq; exact (h3 _ _ rfl rfl).elim
    · rename_i heq; exact absurd rfl (heq _ _)
  have c2 : close (.gt 0 :: .gt 0 :: rest) = some (.gt 0 :: rest) := by
    unfold close
    split
    · rename_i heq; cases heq; exact absurd rfl (he _)
    · rename_i heq; cases heq; rfl
    · rename_i heq; cases heq
    · rename_i heq; cases heq
    · rename_i heq; cases heq; rfl
    · rename_i heq; exact absurd rfl (heq _ _)
  have h2 := parse_app env b hb pb _ _ _ _ h1 c1 (fun x e => nomatch (List.cons.inj e).1)
    (fun x e => nomatch (List.cons.inj e).1)
  have h3 : list (parse env) (.ident b :: .lt :: .ident c :: .gt 1 :: .gt 0 :: rest)
      = .ok ([.app (env.resolve b) [nameTy env false c]], .gt 0 :: .gt 0 :: rest) := by
    exact list_stop h2 (fun _ e => nomatch (List.cons.inj e).1)
  exact parse_app env a ha pa _ _ _ _ h3 c2 (fun x e => nomatch (List.cons.inj e).1)
    (fun x e => nomatch (List.cons.inj e).1)

/-- `let p: T*= q`: the `=` is read as part of the star, and is lost. -/
theorem assign_violated (env : Env) (n : Str) (hw : word n = false) (rest : List Tok)
    (hs : ∀ x, rest ≠ .star :: x) (hb : ∀ x, rest ≠ .lbrack :: x) :
    parse env (.ident n :: .star :: .eq 0 :: rest) = .ok (.ptr (nameTy env false n), rest) := by
  obtain ⟨_, _, _, _, _, f⟩ := word_ne hw
  have h1 := name_read env (parse env) false n f (ts := .star :: .eq 0 :: rest) trivial
  have h2 : stars (.star :: .eq 0 :: rest) = (1, rest) := by
    show ((stars rest).1 + 1, (stars rest).2) = _
    rw [stars_none hs]
  rw [parse_step]
  unfold step
  simp only [qual_word hw, core_word env hw, h1, R.bind_ok, h2, dims_none env _ hb, arrs, ptrs, id]

/-- `let v: T<U>= x`: `>=` is one token, and the type is an error. -/
theorem ge_violated (env : Env) (n c : Str) (hw : word n = false) (hp : plain env n)
    (hc : word c = false) (g : Nat) (rest : List Tok) :
    parse env (.ident n :: .lt :: .ident c :: .gt g :: .eq 0 :: rest) = .err := by
  obtain ⟨_, _, _, _, _, f⟩ := word_ne hw
  have hf : follows .plain (.gt g :: .eq 0 :: rest) := by
    cases g with
    | zero => exact .inl rfl
    | succ g => exact trivial
  have h1 : list (parse env) (.ident c :: .gt g :: .eq 0 :: rest)
      = .ok ([nameTy env false c], .gt g :: .eq 0 :: rest) := by
    exact list_stop (parse_name env c hc _ hf) (fun _ e => nomatch (List.cons.inj e).1)
  have h2 := path_stop env n (ts := .lt :: .ident c :: .gt g :: .eq 0 :: rest)
    (fun r e => nomatch (List.cons.inj e).1)
  have h3 : close (.gt g :: .eq 0 :: rest) = none := rfl
  rw [parse_step]
  unfold step
  simp only [qual_word hw, core_word env hw]
  unfold name
  simp only [hp.1, if_neg f, h2, R.bind_ok, hp.2, h1, h3, R.bind_err]

/-- `Vec<>` is a type: its argument is unknown. -/
theorem empty_violated (env : Env) (n : Str) (hw : word n = false) (hp : plain env n)
    (rest : List Tok) (h : follows (.gt 1) rest) :
    parse env (.ident n :: .lt :: .gt 1 :: rest) = .ok (.app (env.resolve n) [.unknown], rest) := by
  have h0 : parse env (.gt 1 :: rest) = .ok (.unknown, .gt 1 :: rest) := by
    exact parse_unknown env (.gt 1) (fun _ e => nomatch e) (fun e => nomatch e) (fun e => nomatch e)
      (fun e => nomatch e) _
  have h1 : list (parse env) (.gt 1 :: rest) = .ok ([.unknown], .gt 1 :: rest) := by
    exact list_stop h0 (fun _ e => nomatch (List.cons.inj e).1)
  exact parse_app env n hw hp _ _ _ _ h1 (close_gt (after_of_follows h))
    (fun x e => by subst e; exact h) (fun x e => by subst e; exact h)

/-! ## C148: a name followed by `<` -/

theorem rangle_gt {g : Nat} {rest : List Tok} (h1 : ∀ r, rest ≠ .gt 0 :: r)
    (h2 : ∀ r, rest ≠ .eq 0 :: r) : rangle (.gt g :: rest) = true := by
  unfold rangle
  split
  · rename_i heq; cases heq; exact absurd rfl (h1 _)
  · rename_i heq; cases heq; exact absurd rfl (h2 _)
  · rfl
  · rename_i heq; exact absurd rfl (heq _ _)

/-- Up to eight types between `<` and `>` behind the name of a generic are its arguments. -/
theorem generic_read (env : Env) (template : Str → Bool) (a : Str) (ht : template a = true) (ws : Ws)
    (hg : ws.good (plain env)) (g : Nat) (hc : ws.last.closes g)
    (hn : (ws.ty (nameTy env) env.resolve).length ≤ 8) (rest : List Tok)
    (h1 : ∀ r, rest ≠ .gt 0 :: r) (h2 : ∀ r, rest ≠ .eq 0 :: r) :
    langle env template a (ws.toks ++ .gt g :: rest)
      = .generic (ws.ty (nameTy env) env.resolve) rest := by
  have hf : follows ws.last (.gt g :: rest) := by
    cases g with
    | succ g => cases rest <;> exact trivial
    | zero =>
        unfold follows
        split <;> first | exact trivial | skip
        · rename_i heq; cases heq
        · rename_i heq; cases heq
        · rename_i heq; cases heq
        · rename_i heq; cases heq
        · rename_i heq; cases heq
        · rename_i heq; cases heq
        · rename_i heq; cases heq
        · rename_i heq
          exact absurd (List.cons.inj heq).2 (h2 _)
        · exact hc
  have e := (read_ws env ws hg (.gt g :: rest) hf (fun r e => nomatch (List.cons.inj e).1)).1
  unfold langle ahead
  simp only [e, R.bind_ok, rangle_gt h1 h2, ht, if_true]
  rw [if_neg (by omega)]

/-- `a < v` and `a < v * w` are comparisons, if what follows does not look like the rest of a list of
types: no `,`, `>`, `<`, `<<`, `[`, `::` behind the name. -/
theorem compare_partial (env : Env) (template : Str → Bool) (a v : Str) (hv : word v = false)
    (s : Nat) (rest : List Tok) (hf : follows (W.mk none (.name v) s []).last rest)
    (hc : ∀ r, rest ≠ .comma :: r) (hg : ∀ g r, rest ≠ .gt g :: r) :
    langle env template a (.ident v :: (starToks s ++ rest)) = .compare := by
  have e := read_W env (.mk none (.name v) s []) (name_good env hv) rest hf
  have ht : (W.mk none (.name v) s []).toks ++ rest = .ident v :: (starToks s ++ rest) := by
    simp only [W.toks, Core.toks, qualToks, dimToks, List.nil_append, List.append_nil,
      List.cons_append]
  rw [ht] at e
  have e2 : list (parse env) (.ident v :: (starToks s ++ rest))
      = .ok ([(W.mk none (.name v) s []).ty (nameTy env) env.resolve], rest) := by
    exact list_stop e hc
  have e3 : rangle rest = false := by
    unfold rangle
    split
    · rfl
    · rfl
    · exact absurd rfl (hg _ _)
    · rfl
  unfold langle ahead
  simp only [e2, R.bind_ok, e3]

/-- A token that no type begins or goes on with. -/
def Spec.value1 : Tok → Bool
  | .num _ | .other _ | .lbrace => true
  | _ => false

/-- `a < 5`, `a < -b` and the like are comparisons, whatever follows. -/
theorem compare_number (env : Env) (template : Str → Bool) (a : Str) (t : Tok)
    (h : value1 t = true) (rest : List Tok) : langle env template a (t :: rest) = .compare := by
  have e : parse env (t :: rest) = .ok (.unknown, t :: rest) := by
    refine parse_unknown env t ?_ ?_ ?_ ?_ rest
    · rintro n rfl; exact nomatch h
    · rintro rfl; exact nomatch h
    · rintro rfl; exact nomatch h
    · rintro rfl; exact nomatch h
  have e2 : list (parse env) (t :: rest) = .ok ([.unknown], t :: rest) := by
    refine list_stop e fun r e => ?_
    rw [(List.cons.inj e).1] at h
    exact nomatch h
  have e3 : rangle (t :: rest) = false := by
    unfold rangle
    split
    · rfl
    · rfl
    · rename_i heq
      rw [(List.cons.inj heq).1] at h
      exact nomatch h
    · rfl
  unfold langle ahead
  simp only [e2, R.bind_ok, e3]

theorem langle_err {env : Env} {ts : List Tok} (h : parse env ts = .err) (template : Str → Bool)
    (a : Str) : langle env template a ts = .error := by
  unfold langle ahead list
  rw [h]; rfl

/-- `a < v[i]` is an error: "Array size must be a known compile-time constant integer", unless `i` is
one. -/
theorem index_violated (env : Env) (template : Str → Bool) (a v : Str) (hv : word v = false)
    (r : List Tok) (hr : ∀ x, r ≠ .rbrack :: x) (hs : env.size r = none) :
    langle env template a (.ident v :: .lbrack :: r) = .error := by
  refine langle_err ?_ template a
  obtain ⟨_, _, _, _, _, f⟩ := word_ne hv
  have h1 := name_read env (parse env) false v f (ts := .lbrack :: r) trivial
  have h2 := stars_none (ts := .lbrack :: r) (fun r e => nomatch (List.cons.inj e).1)
  have h3 : dims env (weight (.lbrack :: r)) (.lbrack :: r) = .err := by
    have : weight (.lbrack :: r) = weight r + 1 := by simp only [weight]; omega
    rw [this]
    have h4 : dims env (weight r + 1) (.lbrack :: r) = (match env.size r with
        | some (n, .rbrack :: r') => (dims env (weight r) r').bind fun (ds, r) => .ok (n :: ds, r)
        | _ => .err) := by
      generalize weight r = k
      cases r with
      | nil => rfl
      | cons t r =>
          cases t with
          | rbrack => exact absurd rfl (hr _)
          | _ => rfl
    rw [h4, hs]
  rw [parse_step]
  unfold step
  simp only [qual_word hv, core_word env hv, h1, R.bind_ok, h2, h3, R.bind_err]

/-- `a < (x + …)` is an error: "Expected ) in tuple". -/
theorem paren_violated (env : Env) (template : Str → Bool) (a x : Str) (hx : word x = false)
    (c : Char) (r : List Tok) :
    langle env template a (.lparen :: .ident x :: .other c :: r) = .error := by
  refine langle_err ?_ template a
  have e : list (parse env) (.ident x :: .other c :: r) = .ok ([nameTy env false x], .other c :: r) := by
    refine list_stop (parse_name env x hx _ ?_) (fun _ e => nomatch (List.cons.inj e).1)
    exact trivial
  rw [parse_step]
  show (R.bind (core env (parse env) (.lparen :: .ident x :: .other c :: r)) _) = _
  have : core env (parse env) (.lparen :: .ident x :: .other c :: r) = .err := by
    show (list (parse env) _).bind _ = _
    rw [e]; rfl
  rw [this]; rfl

/-- `a < v << 1` is an error: "Expected > after generic". -/
theorem shift_violated (env : Env) (template : Str → Bool) (a v : Str) (hv : word v = false)
    (hp : plain env v) (k : Nat) (r : List Tok) :
    langle env template a (.ident v :: .ltOp :: .num k :: r) = .error := by
  refine langle_err ?_ template a
  obtain ⟨_, _, _, _, _, f⟩ := word_ne hv
  have e0 : parse env (.num k :: r) = .ok (.unknown, .num k :: r) := by
    exact parse_unknown env (.num k) (fun _ e => nomatch e) (fun e => nomatch e) (fun e => nomatch e)
      (fun e => nomatch e) _
  have e : list (parse env) (.num k :: r) = .ok ([.unknown], .num k :: r) := by
    exact list_stop e0 (fun _ e => nomatch (List.cons.inj e).1)
  have h2 := path_stop env v (ts := .ltOp :: .num k :: r) (fun r e => nomatch (List.cons.inj e).1)
  have h3 : close (.num k :: r) = none := rfl
  rw [parse_step]
  unfold step
  simp only [qual_word hv, core_word env hv]
  unfold name
  simp only [hp.1, if_neg f, h2, R.bind_ok, hp.2, e, h3, R.bind_err]

/-- Two comparisons in a list, `a < b, c > d`, are read as the arguments of a generic `a`, and are an
error: "Unknown generic". -/
theorem pair_violated (env : Env) (template : Str → Bool) (a b c d : Str) (ha : template a = false)
    (hb : word b = false) (hc : word c = false) (g : Nat) (r : List Tok) :
    langle env template a (.ident b :: .comma :: .ident c :: .gt g :: .ident d :: r) = .error := by
  have hw : ∀ n, word n = false → (W.mk none (.name n) 0 []).good (plain env) := fun n h => name_good env h
  have hf : follows .plain (.gt g :: .ident d :: r) := by
    cases g with
    | zero => exact trivial
    | succ g => exact trivial
  have e := (read_ws env (.more (.mk none (.name b) 0 []) (.one (.mk none (.name c) 0 [])))
    ⟨hw b hb, hw c hc⟩ (.gt g :: .ident d :: r) hf (fun r e => nomatch (List.cons.inj e).1)).1
  have e : list (parse env) (.ident b :: .comma :: .ident c :: .gt g :: .ident d :: r)
      = .ok ([nameTy env false b, nameTy env false c], .gt g :: .ident d :: r) := e
  have h3 : rangle (.gt g :: .ident d :: r) = true := rfl
  unfold langle ahead
  simp only [e, R.bind_ok, h3, ha]
  rfl

/-- A ninth type argument is written behind the array of the compiler. -/
theorem ninth_violated (env : Env) (template : Str → Bool) (a : Str) (ws : Ws)
    (hg : ws.good (plain env)) (hn : 8 < (ws.ty (nameTy env) env.resolve).length) (rest : List Tok)
    (h1 : ∀ r, rest ≠ .gt 0 :: r) (h2 : ∀ r, rest ≠ .eq 0 :: r) :
    langle env template a (ws.toks ++ .gt 1 :: rest) = .overrun := by
  have hf : follows ws.last (.gt 1 :: rest) := by cases rest <;> exact trivial
  have e := (read_ws env ws hg (.gt 1 :: rest) hf (fun r e => nomatch (List.cons.inj e).1)).1
  unfold langle ahead
  simp only [e, R.bind_ok, rangle_gt h1 h2]
  rw [if_pos hn]

/-! Examples: `f<int>(…)`, `i < n;`, `i < n * m)`, `x < data[i]`, `i < (n + 1)`, `f(a < b, c > d)`. -/

example : langle sample (· == "max".toList) "max".toList
    [.ident "int".toList, .gt 0, .lparen, .num 1, .rparen]
    = .generic [.prim "int32_t".toList] [.lparen, .num 1, .rparen] :=
  generic_read sample _ _ rfl (.one (.mk none (.name "int".toList) 0 []))
    (name_good sample rfl) 0 trivial (by decide) _
    (fun _ h => nomatch h) (fun _ h => nomatch h)

example : langle sample (fun _ => false) ['i'] [.ident ['n'], .star, .ident ['m'], .rparen] = .compare :=
  compare_partial sample _ _ ['n'] rfl 1 [.ident ['m'], .rparen] trivial (fun _ h => nomatch h)
    (fun _ _ h => nomatch h)

example : langle sample (fun _ => false) ['x']
    [.ident "data".toList, .lbrack, .ident ['i'], .rbrack, .rparen] = .error :=
  index_violated sample _ _ "data".toList rfl _ (fun _ h => nomatch h) rfl

example : langle sample (fun _ => false) ['i']
    [.lparen, .ident ['n'], .other '+', .num 1, .rparen] = .error :=
  paren_violated sample _ _ ['n'] rfl '+' _

example : langle sample (fun _ => false) ['i'] [.ident ['n'], .ltOp, .num 1, .rparen] = .error :=
  shift_violated sample _ _ ['n'] rfl ⟨rfl, by decide +kernel⟩ 1 _

/-- Nine times `int`. -/
def nine : Nat → Ws
  | 0 => .one (.mk none (.name "int".toList) 0 [])
  | n + 1 => .more (.mk none (.name "int".toList) 0 []) (nine n)

example : langle sample (fun _ => true) ['f'] ((nine 8).toks ++ [.gt 1, .lparen]) = .overrun := by
  have hg : ∀ n, (nine n).good (plain sample) := by
    intro n
    induction n with
    | zero => exact name_good sample rfl
    | succ n ih => exact ⟨name_good sample rfl, ih⟩
  exact ninth_violated sample _ _ (nine 8) (hg 8) (by decide) [.lparen]
    (fun _ h => nomatch h) (fun _ h => nomatch h)

/-! ## Names of modules -/

/-- **`A::B::C` is read to its end, from the left to the right.** -/
theorem path_read (env : Env) (ms : List Str) (r : List Tok) (hr : ∀ t, r ≠ .dcolon :: t) : ∀ n : Str,
    path env n (ms.flatMap (fun m => [.dcolon, .ident m]) ++ r) = .ok (ms.foldl env.join n, r) := by
  induction ms with
  | nil =>
    intro n
    rw [List.flatMap_nil, List.nil_append, List.foldl_nil]
    cases r with
    | nil => rfl
    | cons t r =>
      cases t with
      | dcolon => exact absurd rfl (hr r)
      | _ => rfl
  | cons m ms ih =>
    intro n
    exact ih (env.join n m)

/-- A type of a module, which is no alias and no primitive type, is that of the names joined. -/
theorem module_type (env : Env) (P : List Tok → R (Ty × List Tok)) {n : Str} (ha : env.alias n = none) (hn : n ≠ kwSelf)
    (ms : List Str) {r : List Tok} (hr : ∀ t, r ≠ .dcolon :: t) (h1 : ∀ t, r ≠ .lt :: t) (h2 : ∀ t, r ≠ .ltOp :: t)
    (hp : prim (ms.foldl env.join n) = none) :
    name env P false n (ms.flatMap (fun m => [.dcolon, .ident m]) ++ r) =
      .ok (.named false (env.resolve (ms.foldl env.join n)), r) := by
  unfold name
  rw [ha]
  simp only
  rw [if_neg hn, path_read env ms r hr, R.bind_ok]
  simp only [hp]

/-- Two modules and a type. -/
example : (["b".toList, "T".toList].flatMap (fun m => [Tok.dcolon, .ident m])) =
    [.dcolon, .ident "b".toList, .dcolon, .ident "T".toList] := rfl

end Verif.TypeParse
