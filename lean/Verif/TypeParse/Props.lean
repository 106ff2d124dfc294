import Verif.TypeParse.Lemmas

/-!
# C147: types are read as they are written
-/

namespace Verif.TypeParse
open Spec

/-- What a name alone means: an alias, a primitive type, or a struct. -/
def Spec.nameTy (env : Env) (x : Bool) (n : Str) : Ty :=
  match env.alias n with
  | some t => t
  | none =>
    match prim n with
    | some t => t
    | none => .named x (env.resolve n)

/-- A name that is neither an alias nor a primitive type. -/
def Spec.plain (env : Env) (n : Str) : Prop := env.alias n = none ∧ prim n = none

/-- What may come behind a core: a star or a bracket too. -/
def after (l : Last) : List Tok → Prop
  | .lt :: _ | .ltOp :: _ | .dcolon :: _ | .arrow :: _ => False
  | .eq 0 :: _ => l = .plain
  | .gt 0 :: .eq 0 :: _ => l = .plain ∨ l = .star
  | .gt 0 :: _ => l.closes 0
  | _ => True

theorem after_of_follows {l : Last} {ts : List Tok} (h : follows l ts) : after l ts := by
  unfold follows at h
  split at h <;> first | exact h.elim | skip
  · exact h
  · exact h
  · rename_i r hne
    unfold after
    split <;> simp_all
  · unfold after
    split <;> simp_all

theorem word_ne {n : Str} (h : word n = false) :
    n ≠ kwStruct ∧ n ≠ kwEnum ∧ n ≠ kwFn ∧ n ≠ kwConst ∧ n ≠ kwRestrict ∧ n ≠ kwSelf := by
  simp only [word, Bool.or_eq_false_iff, beq_eq_false_iff_ne] at h
  obtain ⟨⟨⟨⟨⟨a, b⟩, c⟩, d⟩, e⟩, f⟩ := h
  exact ⟨a, b, c, d, e, f⟩

theorem path_stop (env : Env) (n : Str) {ts : List Tok} (h : ∀ r, ts ≠ .dcolon :: r) :
    path env n ts = .ok (n, ts) := by
  unfold path
  split
  · exact absurd rfl (h _)
  · exact absurd rfl (h _)
  · rfl

theorem close_gt {g : Nat} {ts : List Tok} (h : after (.gt g) ts) :
    close (.gt g :: ts) = some ts := by
  unfold after at h
  split at h
  · exact h.elim
  · exact h.elim
  · exact h.elim
  · exact h.elim
  · exact nomatch h
  · rcases h with h | h <;> exact nomatch h
  · rename_i r hne
    obtain rfl : g = 0 := h
    unfold close
    split
    · rename_i heq; cases heq; exact absurd rfl (hne _)
    · rename_i heq; cases heq; rfl
    · rename_i heq; cases heq
    · rename_i heq; cases heq
    · rename_i heq; cases heq; rfl
    · rename_i heq; exact absurd rfl (heq _ _)
  · rename_i h1 h2 h3 h4 h5 h6 h7
    unfold close
    split
    · rename_i heq; cases heq; exact absurd rfl (h6 _)
    · rename_i heq; cases heq; exact absurd rfl (h7 _)
    · rename_i heq; cases heq; exact absurd rfl (h7 _)
    · rename_i heq; cases heq; exact absurd rfl (h5 _)
    · rename_i heq; cases heq; rfl
    · rename_i heq; exact absurd rfl (heq _ _)

theorem stars_toks : ∀ (s : Nat) (ts : List Tok), (∀ r, ts ≠ .star :: r) →
    (0 < s → ∀ r, ts ≠ .eq 0 :: r) → stars (starToks s ++ ts) = (s, ts)
  | 0, ts, h, _ => by
      show stars ts = _
      unfold stars
      split
      · exact absurd rfl (h _)
      · exact absurd rfl (h _)
      · rfl
  | s + 1, ts, h, he => by
      have ih := stars_toks s ts h fun _ => he (by omega)
      have hne : ∀ r, starToks s ++ ts ≠ .eq 0 :: r := by
        cases s with
        | zero => exact he (by omega)
        | succ s => intro r e; exact nomatch (List.cons.inj e).1
      show stars (.star :: (starToks s ++ ts)) = _
      unfold stars
      split
      · rename_i heq; exact absurd (List.cons.inj heq).2 (hne _)
      · rename_i heq
        obtain ⟨-, rfl⟩ := List.cons.inj heq
        rw [ih]
      · rename_i h1; exact absurd rfl (h1 _)

theorem ptrs_ptr (n : Nat) (t : Ty) : ptrs n (.ptr t) = .ptr (ptrs n t) := by
  induction n generalizing t with
  | zero => rfl
  | succ n ih => exact ih (.ptr t)

theorem ptrs_eq (n : Nat) (t : Ty) : ptrs n t = ptrTy n t := by
  induction n generalizing t with
  | zero => rfl
  | succ n ih =>
      show ptrs n (.ptr t) = _
      rw [ptrs_ptr, ih]; rfl

theorem dims_toks (env : Env) : ∀ (d : List (Option Nat)) (ts : List Tok) (k : Nat),
    (∀ n ∈ d, n.getD 0 < 2147483648) → (∀ r, ts ≠ .lbrack :: r) → weight (dimToks d ++ ts) ≤ k →
    dims env k (dimToks d ++ ts) = .ok (d.map fun n => ((n.getD 0 : Nat) : Int), ts)
  | [], ts, k, _, h, _ => by
      show dims env k ts = _
      unfold dims
      split
      · exact absurd rfl (h _)
      · exact absurd rfl (h _)
      · exact absurd rfl (h _)
      · rfl
  | none :: d, ts, k, hd, h, hk => by
      cases k with
      | zero => simp only [dimToks, List.cons_append, weight] at hk; omega
      | succ k =>
          have ih := dims_toks env d ts k (fun n m => hd n (.tail _ m)) h
            (by simp only [dimToks, List.cons_append, weight] at hk; omega)
          show (dims env k (dimToks d ++ ts)).bind _ = _
          rw [ih]; rfl
  | some n :: d, ts, k, hd, h, hk => by
      cases k with
      | zero => simp only [dimToks, List.cons_append, weight] at hk; omega
      | succ k =>
          have ih := dims_toks env d ts k (fun n m => hd n (.tail _ m)) h
            (by simp only [dimToks, List.cons_append, weight] at hk; omega)
          have e := env.size_num n (dimToks d ++ ts) (hd (some n) (.head _))
          show (match env.size (.num n :: .rbrack :: (dimToks d ++ ts)) with
            | some (n, .rbrack :: r) => (dims env k r).bind fun (ds, r) => .ok (n :: ds, r)
            | _ => .err) = _
          rw [e]
          show (dims env k (dimToks d ++ ts)).bind _ = _
          rw [ih]; rfl

theorem arrs_eq (d : List (Option Nat)) (t : Ty) :
    arrs (d.map fun n => ((n.getD 0 : Nat) : Int)) t = dimTy d t := by
  induction d with
  | nil => rfl
  | cons n d ih => simp only [List.map, arrs, dimTy, ih]

/-- A core begins with a name that is no qualifier, or with a bracket. -/
theorem core_head (env : Env) (c : Core) (h : c.good (plain env)) (ts : List Tok) :
    qual (c.toks ++ ts) = (id, c.toks ++ ts) ∧ (∀ r, c.toks ++ ts ≠ .rparen :: r) := by
  have key : ∀ (n : Str) (r : List Tok), n ≠ kwRestrict → n ≠ kwConst →
      qual (.ident n :: r) = (id, .ident n :: r) := by
    intro n r h1 h2
    show (if n = kwRestrict then _ else _) = _
    rw [if_neg h1, if_neg h2]
  cases c with
  | name n =>
      obtain ⟨_, _, _, a, b, _⟩ := word_ne (show word n = false from h)
      exact ⟨key n _ b a, fun r e => nomatch (List.cons.inj e).1⟩
  | tag n => exact ⟨key _ _ (by decide) (by decide), fun r e => nomatch (List.cons.inj e).1⟩
  | app n args g =>
      obtain ⟨_, _, _, a, b, _⟩ := word_ne (show word n = false from h.1)
      exact ⟨key n _ b a, fun r e => nomatch (List.cons.inj e).1⟩
  | slice t => exact ⟨rfl, fun r e => nomatch (List.cons.inj e).1⟩
  | arr t n => exact ⟨rfl, fun r e => nomatch (List.cons.inj e).1⟩
  | tup ts => exact ⟨rfl, fun r e => nomatch (List.cons.inj e).1⟩
  | fn s a r => exact ⟨key _ _ (by decide) (by decide), fun r e => nomatch (List.cons.inj e).1⟩

theorem toks_head (env : Env) (w : W) (h : w.good (plain env)) (ts : List Tok) :
    ∀ r, w.toks ++ ts ≠ .rparen :: r := by
  cases w with
  | mk q c s d =>
      intro r e
      simp only [W.toks, List.append_assoc] at e
      cases q with
      | none => exact (core_head env c h.1 _).2 r e
      | some b => cases b <;> exact nomatch (List.cons.inj e).1

theorem ws_head (env : Env) (w : Ws) (h : w.good (plain env)) (ts : List Tok) :
    ∀ r, w.toks ++ ts ≠ .rparen :: r := by
  cases w with
  | one t => exact toks_head env t h ts
  | more t u =>
      intro r e
      simp only [Ws.toks, List.append_assoc] at e
      exact toks_head env t h.1 _ r e

/-- A type with its stars and sizes, once its core is read. -/
theorem step_core (env : Env) (q : Option Bool) (c : Core) (s : Nat) (d : List (Option Nat))
    (h : (W.mk q c s d).good (plain env)) (rest : List Tok)
    (hr : follows (W.mk q c s d).last rest)
    (hc : ∀ tail, (c.open = true → follows c.last tail) → after c.last tail →
      core env (parse env) (c.toks ++ tail) = .ok (c.ty (nameTy env) env.resolve, tail)) :
    parse env ((W.mk q c s d).toks ++ rest)
      = .ok ((W.mk q c s d).ty (nameTy env) env.resolve, rest) := by
  obtain ⟨hg, hd, ho⟩ := h
  rw [parse_step]
  have hstar : ∀ r, rest ≠ .star :: r := fun r e => by subst e; exact hr
  have hbrack : ∀ r, rest ≠ .lbrack :: r := fun r e => by subst e; exact hr
  have e1 : core env (parse env) (c.toks ++ (starToks s ++ (dimToks d ++ rest)))
      = .ok (c.ty (nameTy env) env.resolve, starToks s ++ (dimToks d ++ rest)) := by
    refine hc _ (fun o => ?_) ?_
    · obtain ⟨rfl, rfl⟩ := ho o
      exact hr
    · cases s with
      | succ s => exact trivial
      | zero =>
          cases d with
          | nil => exact after_of_follows hr
          | cons n d => cases n <;> exact trivial
  have e2 : stars (starToks s ++ (dimToks d ++ rest)) = (s, dimToks d ++ rest) := by
    refine stars_toks s _ ?_ ?_
    · cases d with
      | nil => exact hstar
      | cons n d => cases n <;> exact fun r e => nomatch (List.cons.inj e).1
    · intro hs
      cases d with
      | nil =>
          intro r e
          obtain ⟨s, rfl⟩ : ∃ s', s = s' + 1 := ⟨s - 1, by omega⟩
          have hr : follows .star rest := hr
          have e : rest = .eq 0 :: r := e
          subst e
          exact nomatch (show Last.star = Last.plain from hr)
      | cons n d => cases n <;> exact fun r e => nomatch (List.cons.inj e).1
  have e3 := dims_toks env d rest _ hd hbrack (Nat.le_refl _)
  have eq : ∀ f ts, qual (qualToks q ++ (c.toks ++ ts)) = (f, c.toks ++ ts) →
      f = qualTy q → ts = starToks s ++ (dimToks d ++ rest) →
      step env (parse env) (qualToks q ++ (c.toks ++ ts))
        = .ok ((W.mk q c s d).ty (nameTy env) env.resolve, rest) := by
    intro f ts h1 h2 h3
    subst h2 h3
    unfold step
    simp only [h1, e1, R.bind_ok, e2, e3, arrs_eq, ptrs_eq]
    rfl
  have ht : (W.mk q c s d).toks ++ rest
      = qualToks q ++ (c.toks ++ (starToks s ++ (dimToks d ++ rest))) := by
    simp only [W.toks, List.append_assoc]
  rw [ht]
  cases q with
  | none => exact eq id _ (core_head env c hg _).1 rfl rfl
  | some b => cases b <;> exact eq _ _ rfl rfl rfl

/-- What may be read of a list of types. -/
def ListRead (env : Env) (ws : Ws) (rest : List Tok) : Prop :=
  list (parse env) (ws.toks ++ rest) = .ok (ws.ty (nameTy env) env.resolve, rest) ∧
  (∀ k, weight (ws.toks ++ rest) < k →
    more (parse env) k (.comma :: (ws.toks ++ rest)) = .ok (ws.ty (nameTy env) env.resolve, rest)) ∧
  (∀ k, weight (ws.toks ++ rest) < k →
    fnArgs.fnList (parse env) k (ws.toks ++ rest) = .ok (ws.ty (nameTy env) env.resolve, rest))

theorem more_stop (P : Rd) (k : Nat) {ts : List Tok} (h : ∀ r, ts ≠ .comma :: r) :
    more P k ts = .ok ([], ts) := by
  unfold more
  split
  · exact absurd rfl (h _)
  · exact absurd rfl (h _)
  · rfl

theorem list_one (env : Env) (t : W) (rest : List Tok) (hn : ∀ r, rest ≠ .comma :: r)
    (ht : parse env (t.toks ++ rest) = .ok (t.ty (nameTy env) env.resolve, rest)) :
    ListRead env (.one t) rest := by
  refine ⟨?_, ?_, ?_⟩
  · show (parse env (t.toks ++ rest)).bind _ = _
    rw [ht]
    simp only [R.bind_ok, more_stop _ _ hn]
    rfl
  · intro k hk
    cases k with
    | zero => omega
    | succ k =>
        show (parse env (t.toks ++ rest)).bind _ = _
        rw [ht]
        simp only [R.bind_ok, more_stop _ _ hn]
        rfl
  · intro k hk
    cases k with
    | zero => omega
    | succ k =>
        show (parse env (t.toks ++ rest)).bind _ = _
        rw [ht]
        simp only [R.bind_ok]
        split
        · exact absurd rfl (hn _)
        · exact absurd rfl (hn _)
        · rfl

theorem list_more (env : Env) (t : W) (ts : Ws) (rest : List Tok) (hg : ts.good (plain env))
    (ht : ∀ r, parse env (t.toks ++ .comma :: r) = .ok (t.ty (nameTy env) env.resolve, .comma :: r))
    (hts : ListRead env ts rest) : ListRead env (.more t ts) rest := by
  obtain ⟨_, h2, h3⟩ := hts
  have e : (Ws.more t ts).toks ++ rest = t.toks ++ .comma :: (ts.toks ++ rest) := by
    simp only [Ws.toks, List.append_assoc, List.cons_append]
  refine ⟨?_, ?_, ?_⟩
  · rw [e]
    show (parse env _).bind _ = _
    rw [ht]
    simp only [R.bind_ok]
    rw [h2 _ (by simp only [weight]; omega)]
    rfl
  · intro k hk
    rw [e] at hk ⊢
    cases k with
    | zero => omega
    | succ k =>
        show (parse env _).bind _ = _
        rw [ht]
        simp only [R.bind_ok]
        rw [h2 _ (by rw [weight_append] at hk; simp only [weight] at hk; omega)]
        rfl
  · intro k hk
    rw [e] at hk ⊢
    cases k with
    | zero => omega
    | succ k =>
        have e2 := h3 k (by rw [weight_append] at hk; simp only [weight] at hk; omega)
        have hh := ws_head env ts hg rest
        show (parse env _).bind _ = _
        rw [ht]
        simp only [R.bind_ok]
        rw [e2]; rfl

theorem name_read (env : Env) (P : Rd) (x : Bool) (n : Str) (hn : n ≠ kwSelf) {ts : List Tok}
    (h : after .plain ts) : name env P x n ts = .ok (nameTy env x n, ts) := by
  unfold name nameTy
  cases env.alias n with
  | some t => rfl
  | none =>
      dsimp only
      rw [if_neg hn, path_stop env n (fun r e => by subst e; exact h)]
      simp only [R.bind_ok]
      cases prim n with
      | some t => rfl
      | none =>
          dsimp only
          split
          · exact h.elim
          · exact h.elim
          · rfl

mutual
/-- Every type is read as it is written. -/
theorem read_W (env : Env) : ∀ (w : W), w.good (plain env) → ∀ rest, follows w.last rest →
    parse env (w.toks ++ rest) = .ok (w.ty (nameTy env) env.resolve, rest)
  | .mk q c s d, h, rest, hr =>
      step_core env q c s d h rest hr fun tail h1 h2 => read_core env c h.1 tail h1 h2

theorem read_core (env : Env) : ∀ (c : Core), c.good (plain env) → ∀ tail,
    (c.open = true → follows c.last tail) → after c.last tail →
    core env (parse env) (c.toks ++ tail) = .ok (c.ty (nameTy env) env.resolve, tail)
  | .name n, h, tail, _, ha => by
      obtain ⟨a, b, c, d, e, f⟩ := word_ne (show word n = false from h)
      show (if n = kwFn then _ else (if n = kwStruct ∨ n = kwEnum then _ else _)) = _
      rw [if_neg c, if_neg (fun o => o.elim a b)]
      exact name_read env _ false n f ha
  | .tag n, h, tail, _, ha => by
      obtain ⟨_, _, _, _, _, f⟩ := word_ne (show word n = false from h)
      exact name_read env _ true n f ha
  | .app n args g, h, tail, _, ha => by
      obtain ⟨hw, ⟨hal, hpr⟩, hg, hl⟩ := h
      obtain ⟨a, b, c, d, e, f⟩ := word_ne hw
      have hfol : follows args.last (.gt g :: tail) := by
        have ha : after (.gt g) tail := ha
        cases g with
        | succ g => cases tail <;> exact trivial
        | zero =>
            unfold follows
            split <;> first | exact trivial | skip
            · rename_i heq; cases heq
            · rename_i heq; cases heq
            · rename_i heq; cases heq
            · rename_i heq; cases heq
            · rename_i heq; cases heq
            · rename_i heq; cases heq
            · rename_i heq; cases heq
            · rename_i heq
              obtain ⟨-, rfl⟩ := List.cons.inj heq
              exact nomatch (show Last.gt 0 = Last.plain from ha)
            · exact hl
      have hlist := (read_ws env args hg (.gt g :: tail) hfol (fun r e => nomatch (List.cons.inj e).1)).1
      have ht : (Core.app n args g).toks ++ tail = .ident n :: .lt :: (args.toks ++ .gt g :: tail) := by
        simp only [Core.toks, List.cons_append, List.append_assoc, List.nil_append]
      rw [ht]
      show (if n = kwFn then _ else (if n = kwStruct ∨ n = kwEnum then _ else _)) = _
      rw [if_neg c, if_neg (fun o => o.elim a b)]
      have hp := path_stop env n (ts := .lt :: (args.toks ++ .gt g :: tail))
        (fun r e => nomatch (List.cons.inj e).1)
      unfold name
      simp only [hal, if_neg f, hp, R.bind_ok, hpr, hlist, close_gt ha]
      rfl
  | .slice t, h, tail, _, ha => by
      have e := read_W env t h (.rbrack :: tail) trivial
      have ht : (Core.slice t).toks ++ tail = .lbrack :: (t.toks ++ .rbrack :: tail) := by
        simp only [Core.toks, List.cons_append, List.append_assoc, List.nil_append]
      rw [ht]
      show (parse env _).bind _ = _
      rw [e]; rfl
  | .arr t n, h, tail, _, ha => by
      have e := read_W env t h.1 (.semi :: .num n :: .rbrack :: tail) trivial
      have ht : (Core.arr t n).toks ++ tail
          = .lbrack :: (t.toks ++ .semi :: .num n :: .rbrack :: tail) := by
        simp only [Core.toks, List.cons_append, List.append_assoc, List.nil_append]
      rw [ht]
      show (parse env _).bind _ = _
      rw [e]
      simp only [R.bind_ok]
      rw [env.size_num n tail h.2]
      rfl
  | .tup ts, h, tail, _, ha => by
      have e := (read_ws env ts h (.rparen :: tail) trivial
        (fun r e => nomatch (List.cons.inj e).1)).1
      have ht : (Core.tup ts).toks ++ tail = .lparen :: (ts.toks ++ .rparen :: tail) := by
        simp only [Core.toks, List.cons_append, List.append_assoc, List.nil_append]
      rw [ht]
      show (list (parse env) _).bind _ = _
      rw [e]; rfl
  | .fn s args ret, h, tail, ho, ha => by
      have ht : (Core.fn s args ret).toks ++ tail
          = .ident kwFn :: (starToks s ++ .lparen :: (args.toks ++ .rparen :: (ret.toks ++ tail))) := by
        simp only [Core.toks, List.cons_append, List.append_assoc]; rfl
      have e1 := stars_toks s (.lparen :: (args.toks ++ .rparen :: (ret.toks ++ tail)))
        (fun r e => nomatch (List.cons.inj e).1) (fun _ r e => nomatch (List.cons.inj e).1)
      have e2 := read_args env args h.1 (ret.toks ++ tail)
      rw [ht]
      show fnType (parse env) _ = _
      unfold fnType
      simp only [e1, e2, R.bind_ok]
      cases ret with
      | void =>
          have ha : after .plain tail := ha
          simp only [Ret.toks, List.nil_append]
          split
          · rename_i heq
            obtain ⟨-, rfl⟩ := List.cons.inj heq
            exact ha.elim
          · rename_i heq
            obtain ⟨-, rfl⟩ := List.cons.inj heq
            rw [ptrs_eq]; rfl
          · rename_i heq; exact absurd rfl (heq _)
      | some t =>
          have e3 := read_W env t h.2 tail (ho rfl)
          simp only [Ret.toks, List.cons_append]
          rw [e3]
          simp only [R.bind_ok, ptrs_eq]
          rfl

theorem read_ws (env : Env) : ∀ (ws : Ws), ws.good (plain env) → ∀ rest, follows ws.last rest →
    (∀ r, rest ≠ .comma :: r) → ListRead env ws rest
  | .one t, h, rest, hf, hn => list_one env t rest hn (read_W env t h rest hf)
  | .more t ts, h, rest, hf, hn =>
      list_more env t ts rest h.2 (fun r => read_W env t h.1 (.comma :: r) trivial)
        (read_ws env ts h.2 rest hf hn)

theorem read_args (env : Env) : ∀ (a : Args), a.good (plain env) → ∀ tail,
    fnArgs (parse env) (a.toks ++ .rparen :: tail)
      = .ok (a.ty (nameTy env) env.resolve, .rparen :: tail)
  | .none, _, tail => rfl
  | .some ts, h, tail => by
      have e := (read_ws env ts h (.rparen :: tail) trivial
        (fun r e => nomatch (List.cons.inj e).1)).2.2 _ (Nat.lt_succ_self _)
      have hh := ws_head env ts h (.rparen :: tail)
      show fnArgs (parse env) (ts.toks ++ _) = _
      unfold fnArgs
      split
      · rename_i heq; exact absurd heq (hh _)
      · exact e
end

end Verif.TypeParse
