import Verif.Cfg.Lemmas

/-!
# C59: conditional compilation with `@cfg`

The README: `@cfg(NAME)`, `@cfg(not(NAME))`, `@cfg(any(...))`, `@cfg(all(...))` include a
declaration exactly if the condition over the `-D` names holds, several `@cfg` are ANDed, and
this works on any top-level declaration.
-/

set_option linter.unusedSimpArgs false

namespace Verif.Cfg
open Spec

/-! ### The condition -/

/-- The condition written in the C file has, for the C preprocessor, exactly the documented
value, for every set of `-D` names, as long as `any` and `all` list only `not(...)` entries;
the tokens after the attributes are left alone.  (Missing for the full claim: plain names in
`any` and `all`, which never compile — `cfg_plain_violated`.) -/
theorem cfg_condition_partial (D : Env) (a : Attr) (as : List Attr) (r : List Tok) (fuel : Nat)
    (hf : (a :: as).length ≤ fuel) (hp : ∀ x ∈ a :: as, x.Proper)
    (hpl : ∀ x ∈ a :: as, x.hasPlain = false) (hr : NoAt r) :
    ∃ c, attrs fuel none (toks (a :: as) ++ r) = .ok (some c, r) ∧
      evalIf D c = some (holds D (a :: as)) :=
  ⟨_, by rw [attrs_text none (a :: as) r fuel hf hp hpl hr, condText_none],
    evalIf_attrs D a as hp hpl⟩

/-- `@cfg(A) @cfg(not(B)) @cfg(any(not(C), not(D)))` -/
example : ∃ c, attrs 9 none (toks [.name "A", .not "B", .any [.neg "C", .neg "D"]] ++ [.ident "fn"])
      = .ok (some c, [.ident "fn"]) ∧
    evalIf (fun n => n == "A" || n == "C") c = some true := by
  have := cfg_condition_partial (fun n => n == "A" || n == "C") (.name "A")
    [.not "B", .any [.neg "C", .neg "D"]] [.ident "fn"] 9 (by simp)
    (by simp [Attr.Proper]) (by simp [Attr.hasPlain]) (by simp [NoAt])
  obtain ⟨c, h1, h2⟩ := this
  exact ⟨c, h1, by rw [h2]; simp [holds, Attr.holds, Item.holds]⟩

/-- The documented `any(A, B)` and `all(A, B)` never compile: whenever one of the attributes
lists a plain name inside `any` or `all`, the compiler stops with an error, whatever else is
written and whatever is defined. -/
theorem cfg_plain_violated (as : List Attr) (r : List Tok) (fuel : Nat)
    (hf : as.length ≤ fuel) (hp : ∀ x ∈ as, x.Proper) (a : Attr) (ha : a ∈ as)
    (hpl : a.hasPlain = true) :
    attrs fuel none (toks as ++ r) = .panic :=
  attrs_plain none as r fuel hf hp a ha hpl

/-- The README's own example, `@cfg(any(USE_OPENGL, USE_VULKAN)) fn ...`. -/
example : attrs 10 none (toks [.any [.pos "USE_OPENGL", .pos "USE_VULKAN"]] ++ [.ident "fn"])
    = .panic :=
  cfg_plain_violated _ _ _ (by simp) (by simp [Attr.Proper]) (.any [.pos "USE_OPENGL", .pos "USE_VULKAN"])
    (by simp) (by simp [Attr.hasPlain])

/-! ### The guards -/

/-- The node of a declaration whose attributes parse. -/
def parsed (s : Src) : Decl := ⟨s.kind, s.name, s.body, condText none s.attrs⟩

/-- The attributes have a meaning the parser accepts. -/
def Accepted (s : Src) : Prop := ∀ a ∈ s.attrs, a.Proper ∧ a.hasPlain = false

theorem toks_len (as : List Attr) : as.length ≤ (toks as).length := by
  induction as with
  | nil => simp
  | cons a as ih =>
    have := toks_length a
    have e : toks (a :: as) = a.toks ++ toks as := by simp [toks]
    rw [e]
    simp
    omega

theorem parseDecl_ok (s : Src) (h : Accepted s) : parseDecl s = .ok [parsed s] := by
  have := attrs_text none s.attrs [] (toks s.attrs).length (toks_len _) (fun a ha => (h a ha).1)
    (fun a ha => (h a ha).2) trivial
  simp only [List.append_nil] at this
  simp [parseDecl, this, attach, parsed]

theorem parseProg_ok (p : List Src) (h : ∀ s ∈ p, Accepted s) :
    parseProg p = .ok (p.map parsed) := by
  induction p with
  | nil => rfl
  | cons s p ih =>
    simp [parseProg, parseDecl_ok s (h s (by simp)), ih (fun x hx => h x (by simp [hx]))]

/-- A run of lines that balances and contributes the texts `out`. -/
def Bal (D : Env) (seg : List Line) (out : List (Part × String × Nat)) : Prop :=
  ∀ r, preprocess D [] (seg ++ r) = (preprocess D [] r).map (out ++ ·)

theorem Bal.nil (D : Env) : Bal D [] [] := by
  intro r; cases h : preprocess D [] r <;> simp [h]

theorem Bal.append {D : Env} {s₁ s₂ : List Line} {o₁ o₂} (h₁ : Bal D s₁ o₁) (h₂ : Bal D s₂ o₂) :
    Bal D (s₁ ++ s₂) (o₁ ++ o₂) := by
  intro r
  rw [List.append_assoc, h₁, h₂, Option.map_map]
  congr 1
  funext x
  simp

theorem Bal.text (D : Env) (p : Part) (n : String) (b : Nat) :
    Bal D [.text p n b] [(p, n, b)] := by
  intro r; simp [preprocess]

theorem Bal.group {D : Env} {c : Cond} {v : Bool} (h : evalIf D c = some v) (p : Part)
    (n : String) (b : Nat) :
    Bal D [.ifc c, .text p n b, .endif] (if v then [(p, n, b)] else []) := by
  intro r
  cases v <;> simp [preprocess, h]

theorem Bal.final {D : Env} {s : List Line} {o} (h : Bal D s o) : preprocess D [] s = some o := by
  have := h []
  simpa [preprocess] using this

theorem holds_nil (D : Env) : holds D [] = true := rfl

/-- The guard printed around a part does what its attributes say. -/
theorem guarded_bal (D : Env) (p : Part) (s : Src) (h : Accepted s) :
    Bal D (guarded p (parsed s)) (if holds D s.attrs then [(p, s.name, s.body)] else []) := by
  cases e : s.attrs with
  | nil =>
    simp only [guarded, parsed, e, condText, holds_nil, if_true]
    exact Bal.text D p _ _
  | cons a as =>
    have hv := evalIf_attrs D a as (fun x hx => (h x (e ▸ hx)).1) (fun x hx => (h x (e ▸ hx)).2)
    simp only [guarded, parsed, e, condText_none]
    exact Bal.group hv p _ _

/-- A pass whose output for every declaration follows its condition. -/
theorem pass_bal (D : Env) (q : List Src) (f : Decl → List Line)
    (o : Src → List (Part × String × Nat))
    (h : ∀ s ∈ q, Bal D (f (parsed s)) (if holds D s.attrs then o s else [])) :
    Bal D ((q.map parsed).flatMap f) ((q.filter fun s => holds D s.attrs).flatMap o) := by
  induction q with
  | nil => exact Bal.nil D
  | cons s q ih =>
    have h1 := h s (by simp)
    have h2 := ih fun x hx => h x (by simp [hx])
    simp only [List.map_cons, List.flatMap_cons, List.filter_cons]
    cases hv : holds D s.attrs with
    | true => simp only [hv, if_true] at h1; simpa using h1.append h2
    | false => simp [hv] at h1; simpa using h1.append h2

/-- A kind whose every part is guarded (and balanced). -/
def Kind.covered : Kind → Bool
  | .fn | .struct false | .enum | .trait | .global | .impl => true
  | _ => false

/-- What a covered or unguarded declaration may be. -/
def Fine (s : Src) : Prop := s.attrs = [] ∨ s.kind.covered = true

/-- The selected form of one declaration. -/
def erase (s : Src) : Src := { s with attrs := [] }

theorem select_eq (D : Env) (p : List Src) :
    select D p = (p.filter fun s => holds D s.attrs).map erase := rfl

theorem guardedPass (D : Env) (K : Kind → Bool) (p : Part) (f : Decl → List Line)
    (hf : ∀ d, f d = if K d.kind then guarded p d else []) (s : Src) (h : Accepted s) :
    Bal D (f (parsed s))
      (if holds D s.attrs then (if K s.kind then [(p, s.name, s.body)] else []) else []) := by
  rw [hf]
  show Bal D (if K s.kind then _ else _) _
  cases K s.kind with
  | true => simpa using guarded_bal D p s h
  | false => simpa using Bal.nil D

theorem barePass (D : Env) (K : Kind → Bool) (p : Part) (f : Decl → List Line)
    (hf : ∀ d, f d = if K d.kind then bare p d else []) (s : Src)
    (hk : ∀ k, K k = true → k.covered = false) (h : Fine s) :
    Bal D (f (parsed s))
      (if holds D s.attrs then (if K s.kind then [(p, s.name, s.body)] else []) else []) := by
  rw [hf]
  show Bal D (if K s.kind then _ else _) _
  cases hK : K s.kind with
  | true =>
    have : s.attrs = [] := by
      rcases h with h | h
      · exact h
      · rw [hk _ hK] at h; cases h
    simpa [this, holds_nil, bare, parsed] using Bal.text D p s.name s.body
  | false => simpa using Bal.nil D

theorem protoPass (D : Env) (s : Src) (h : Accepted s) (hs : Fine s) :
    Bal D (emitProto (parsed s))
      (if holds D s.attrs then (if s.kind.isFunc then [(.proto, s.name, s.body)] else []) else []) := by
  have hk : (parsed s).kind = s.kind := rfl
  unfold emitProto
  rw [hk]
  cases e : s.kind with
  | fn => simpa [Kind.isFunc] using guarded_bal D .proto s h
  | impl => simpa [Kind.isFunc] using guarded_bal D .proto s h
  | implTrait =>
    have : s.attrs = [] := by
      rcases hs with hs | hs
      · exact hs
      · rw [e] at hs; cases hs
    simpa [this, parsed, condText, Kind.isFunc, holds_nil] using Bal.text D .proto s.name s.body
  | _ => simpa [Kind.isFunc] using Bal.nil D

theorem typePass (D : Env) (s : Src) (h : Accepted s) :
    Bal D (emitTypeDef (parsed s))
      (if holds D s.attrs then (match s.kind with
        | .struct _ | .enum => [(.typeDef, s.name, s.body)] | _ => []) else []) := by
  have hk : (parsed s).kind = s.kind := rfl
  unfold emitTypeDef
  rw [hk]
  cases e : s.kind with
  | struct b => simpa using guarded_bal D .typeDef s h
  | enum => simpa using guarded_bal D .typeDef s h
  | _ => simpa using Bal.nil D

theorem mergeGlobals_distinct (m ds : List Decl)
    (h : ((m ++ ds).map (·.name)).Nodup) : mergeGlobals m ds = ds.reverse ++ m := by
  induction ds generalizing m with
  | nil => rfl
  | cons d ds ih =>
    have hn : m.any (fun g => g.name == d.name) = false := by
      rw [List.any_eq_false]
      intro g hg
      simp only [beq_iff_eq]
      intro e
      rw [List.map_append, List.nodup_append] at h
      exact h.2.2 _ (List.mem_map_of_mem hg) _ (by simp) e
    rw [mergeGlobals, hn]
    simp only [Bool.false_eq_true, if_false]
    rw [ih]
    · simp
    · have : (d :: m ++ ds).Perm (m ++ d :: ds) := by
        simpa using (List.perm_middle (a := d) (l₁ := m) (l₂ := ds)).symm
      exact (this.map (·.name)).nodup_iff.2 h

/-- The globals have different names. -/
def DistinctGlobals (p : List Src) : Prop :=
  ((p.filter fun s => s.kind = .global).map (·.name)).Nodup

theorem filter_map_parsed (p : List Src) (P : Kind → Bool) :
    (p.map parsed).filter (fun d => P d.kind) = (p.filter fun s => P s.kind).map parsed := by
  rw [List.filter_map]; rfl

theorem emitGlobals_distinct (p : List Src) (h : DistinctGlobals p) :
    emitGlobals (p.map parsed)
      = (p.map parsed).flatMap fun d => if d.kind = .global then guarded .global d else [] := by
  unfold emitGlobals
  rw [mergeGlobals_distinct]
  · simp only [List.reverse_reverse, List.append_nil]
    induction p with
    | nil => rfl
    | cons s p ih =>
      have h' : DistinctGlobals p := by
        unfold DistinctGlobals at h ⊢
        rw [List.filter_cons] at h
        split at h
        · exact (List.nodup_cons.1 h).2
        · exact h
      rw [List.map_cons, List.filter_cons, List.flatMap_cons]
      by_cases hk : (parsed s).kind = .global
      · simp [hk, ih h']
      · simp [hk, ih h']
  · rw [List.nil_append, List.map_reverse]
    have e := filter_map_parsed p (fun k => decide (k = .global))
    rw [e, List.map_map]
    exact (List.reverse_perm _).nodup_iff.2 h

theorem mergedFuncs_map (p : List Src) :
    mergedFuncs (p.map parsed) =
      ((p.filter fun s => s.kind = .fn).reverse ++
        (p.filter fun s => s.kind = .impl ∨ s.kind = .implTrait).reverse).map parsed := by
  unfold mergedFuncs
  have e1 := filter_map_parsed p (fun k => decide (k = .fn))
  have e2 := filter_map_parsed p (fun k => decide (k = .impl ∨ k = .implTrait))
  rw [e1, e2]
  simp

/-- The texts the C compiler sees, as a function of the selected declarations. -/
def texts (D : Env) (p : List Src) : List (Part × String × Nat) :=
  let sel (q : List Src) := q.filter fun s => holds D s.attrs
  let on (P : Part) (K : Kind → Bool) (s : Src) : List (Part × String × Nat) :=
    if K s.kind then [(P, s.name, s.body)] else []
  let fs := (p.filter fun s => s.kind = .fn).reverse ++
        (p.filter fun s => s.kind = .impl ∨ s.kind = .implTrait).reverse
  (sel p).flatMap (on .include fun k => k = .include) ++
  (sel p).flatMap (on .enumProto fun k => k = .enum) ++
  (sel p).flatMap (on .alias fun k => k = .alias) ++
  (sel p).flatMap (on .alias fun k => k = .alias) ++
  (sel p).flatMap (on .trait fun k => k = .trait) ++
  (sel p).flatMap (on .raw fun k => k = .raw) ++
  (sel p).flatMap (fun s => match s.kind with
        | .struct _ | .enum => [(.typeDef, s.name, s.body)] | _ => []) ++
  (sel p).flatMap (on .global fun k => k = .global) ++
  (sel fs).flatMap (on .proto Kind.isFunc) ++
  (sel p.reverse).flatMap (on .vtable fun k => k = .implTrait) ++
  (sel p).flatMap (on .dropGlue fun k => k = .struct true) ++
  (sel p).flatMap (on .test fun k => k = .test) ++
  (sel fs).flatMap (on .code Kind.isFunc)

theorem emit_bal (D : Env) (p : List Src) (ha : ∀ s ∈ p, Accepted s) (hf : ∀ s ∈ p, Fine s)
    (hg : DistinctGlobals p) : Bal D (emit (p.map parsed)) (texts D p) := by
  unfold emit texts
  rw [emitGlobals_distinct p hg, mergedFuncs_map]
  have hq : ∀ s ∈ ((p.filter fun s => s.kind = .fn).reverse ++
        (p.filter fun s => s.kind = .impl ∨ s.kind = .implTrait).reverse), s ∈ p := by
    intro s hs
    simp at hs
    rcases hs with hs | hs <;> exact hs.1
  have hr : (p.map parsed).reverse = p.reverse.map parsed := by simp
  rw [hr]
  have hc : ∀ K : Kind → Bool, (∀ k, K k = true → k.covered = false) →
      ∀ k, K k = true → k.covered = false := fun _ h => h
  refine Bal.append (Bal.append (Bal.append (Bal.append (Bal.append (Bal.append (Bal.append
    (Bal.append (Bal.append (Bal.append (Bal.append (Bal.append ?_ ?_) ?_) ?_) ?_) ?_) ?_) ?_) ?_)
    ?_) ?_) ?_) ?_
  · exact pass_bal D p _ _ fun s hs => barePass D (fun k => k = .include) .include _
      (fun d => by simp [emitInclude]) s (by simp [Kind.covered]) (hf s hs)
  · exact pass_bal D p _ _ fun s hs => guardedPass D (fun k => k = .enum) .enumProto _
      (fun d => by simp [emitEnumProto]) s (ha s hs)
  · exact pass_bal D p _ _ fun s hs => barePass D (fun k => k = .alias) .alias _
      (fun d => by simp [emitGlobalAlias]) s (by simp [Kind.covered]) (hf s hs)
  · exact pass_bal D p _ _ fun s hs => guardedPass D (fun k => k = .alias) .alias _
      (fun d => by simp [emitTypeAlias]) s (ha s hs)
  · exact pass_bal D p _ _ fun s hs => guardedPass D (fun k => k = .trait) .trait _
      (fun d => by simp [emitTrait]) s (ha s hs)
  · exact pass_bal D p _ _ fun s hs => barePass D (fun k => k = .raw) .raw _
      (fun d => by simp [emitRaw]) s (by simp [Kind.covered]) (hf s hs)
  · exact pass_bal D p _ _ fun s hs => typePass D s (ha s hs)
  · exact pass_bal D p _ _ fun s hs => guardedPass D (fun k => k = .global) .global
      (fun d => if d.kind = .global then guarded .global d else []) (fun d => by simp) s (ha s hs)
  · exact pass_bal D _ _ _ fun s hs => protoPass D s (ha s (hq s hs)) (hf s (hq s hs))
  · exact pass_bal D _ _ _ fun s hs => barePass D (fun k => k = .implTrait) .vtable _
      (fun d => by simp [emitVtable]) s (by simp [Kind.covered]) (hf s (by simpa using hs))
  · exact pass_bal D p _ _ fun s hs => barePass D (fun k => k = .struct true) .dropGlue _
      (fun d => by simp [emitDropGlue]) s (by simp [Kind.covered]) (hf s hs)
  · exact pass_bal D p _ _ fun s hs => barePass D (fun k => k = .test) .test _
      (fun d => by simp [emitTest]) s (by simp [Kind.covered]) (hf s hs)
  · exact pass_bal D _ _ _ fun s hs => guardedPass D Kind.isFunc .code _
      (fun d => by simp [emitCode]) s (ha s (hq s hs))

theorem filter_select (D : Env) (p : List Src) :
    (select D p).filter (fun s => holds D s.attrs) = select D p := by
  rw [select_eq, List.filter_eq_self]
  intro s hs
  obtain ⟨x, _, rfl⟩ := List.mem_map.1 hs
  rfl

theorem select_filter_kind (D : Env) (p : List Src) (P : Kind → Bool) :
    (select D p).filter (fun s => P s.kind) = select D (p.filter fun s => P s.kind) := by
  induction p with
  | nil => rfl
  | cons s p ih =>
    rw [select_eq] at ih ⊢
    rw [select_eq] at ih ⊢
    by_cases h1 : holds D s.attrs <;> by_cases h2 : P s.kind <;>
      simp [h1, h2, erase] at ih ⊢ <;> exact ih

theorem flatMap_select {β : Type} (D : Env) (p : List Src) (o : Src → List β)
    (ho : ∀ s, o (erase s) = o s) :
    ((select D p).filter fun s => holds D s.attrs).flatMap o
      = (p.filter fun s => holds D s.attrs).flatMap o := by
  rw [filter_select, select_eq, List.flatMap_map]
  congr 1
  funext s
  exact ho s

theorem select_append (D : Env) (p q : List Src) : select D (p ++ q) = select D p ++ select D q := by
  simp [select_eq]

theorem select_reverse (D : Env) (p : List Src) : select D p.reverse = (select D p).reverse := by
  simp [select_eq]

theorem texts_select (D : Env) (p : List Src) : texts D (select D p) = texts D p := by
  unfold texts
  have e1 := select_filter_kind D p (fun k => decide (k = .fn))
  have e2 := select_filter_kind D p (fun k => decide (k = .impl ∨ k = .implTrait))
  simp only []
  rw [e1, e2, ← select_reverse, ← select_reverse, ← select_append, ← select_reverse]
  repeat rw [flatMap_select D _ _ (by intro s; rfl)]

theorem texts_mem (D : Env) (p : List Src) (t : Part × String × Nat) (ht : t ∈ texts D p) :
    ∃ s ∈ select D p, t.2 = (s.name, s.body) := by
  have hfs : ∀ s, holds D s.attrs = true → s ∈ p →
      ∃ s' ∈ select D p, (s.name, s.body) = (s'.name, s'.body) := fun s h1 h2 =>
    ⟨erase s, List.mem_map.2 ⟨s, by simp [h1, h2], rfl⟩, rfl⟩
  have on : ∀ (q : List Src) (P : Part) (K : Kind → Bool), (∀ s ∈ q, s ∈ p) →
      t ∈ (q.filter fun s => holds D s.attrs).flatMap
        (fun s => if K s.kind then [(P, s.name, s.body)] else []) →
      ∃ s ∈ select D p, t.2 = (s.name, s.body) := by
    intro q P K hq h
    obtain ⟨s, hs, h⟩ := List.mem_flatMap.1 h
    rw [List.mem_filter] at hs
    split at h
    · simp at h; subst h; exact hfs s hs.2 (hq s hs.1)
    · simp at h
  have hq : ∀ s ∈ ((p.filter fun s => s.kind = .fn).reverse ++
        (p.filter fun s => s.kind = .impl ∨ s.kind = .implTrait).reverse), s ∈ p := by
    intro s hs
    simp at hs
    rcases hs with hs | hs <;> exact hs.1
  have hp : ∀ s ∈ p, s ∈ p := fun _ h => h
  have hr : ∀ s ∈ p.reverse, s ∈ p := fun s h => by simpa using h
  simp only [texts] at ht
  rcases List.mem_append.1 ht with ht | ht
  case inr => exact on _ _ _ hq ht
  rcases List.mem_append.1 ht with ht | ht
  case inr => exact on _ _ (fun k => k = .test) hp ht
  rcases List.mem_append.1 ht with ht | ht
  case inr => exact on _ _ (fun k => k = .struct true) hp ht
  rcases List.mem_append.1 ht with ht | ht
  case inr => exact on _ _ (fun k => k = .implTrait) hr ht
  rcases List.mem_append.1 ht with ht | ht
  case inr => exact on _ _ _ hq ht
  rcases List.mem_append.1 ht with ht | ht
  case inr => exact on _ _ (fun k => k = .global) hp ht
  rcases List.mem_append.1 ht with ht | ht
  case inr =>
    obtain ⟨s, hs, h⟩ := List.mem_flatMap.1 ht
    rw [List.mem_filter] at hs
    have : t.2 = (s.name, s.body) := by
      revert h; cases s.kind <;> simp +contextual
    rw [this]
    exact hfs s hs.2 hs.1
  rcases List.mem_append.1 ht with ht | ht
  case inr => exact on _ _ (fun k => k = .raw) hp ht
  rcases List.mem_append.1 ht with ht | ht
  case inr => exact on _ _ (fun k => k = .trait) hp ht
  rcases List.mem_append.1 ht with ht | ht
  case inr => exact on _ _ (fun k => k = .alias) hp ht
  rcases List.mem_append.1 ht with ht | ht
  case inr => exact on _ _ (fun k => k = .alias) hp ht
  rcases List.mem_append.1 ht with ht | ht
  case inr => exact on _ _ (fun k => k = .enum) hp ht
  exact on _ _ (fun k => k = .include) hp ht

theorem texts_essential (D : Env) (p : List Src) (s : Src) (hs : s ∈ p)
    (h : holds D s.attrs = true) : (essential s.kind, s.name, s.body) ∈ texts D p := by
  simp only [texts, List.mem_append, List.mem_flatMap, List.mem_filter, List.mem_reverse]
  cases e : s.kind with
  | «include» => simp only [or_assoc]; exact Or.inl ⟨s, ⟨hs, h⟩, by simp [e, essential]⟩
  | fn => exact Or.inr ⟨s, ⟨by simp [hs, e], h⟩, by simp [e, essential, Kind.isFunc]⟩
  | impl => exact Or.inr ⟨s, ⟨by simp [hs, e], h⟩, by simp [e, essential, Kind.isFunc]⟩
  | implTrait => exact Or.inr ⟨s, ⟨by simp [hs, e], h⟩, by simp [e, essential, Kind.isFunc]⟩
  | test => exact Or.inl (Or.inr ⟨s, ⟨hs, h⟩, by simp [e, essential]⟩)
  | global =>
    exact Or.inl (Or.inl (Or.inl (Or.inl (Or.inl (Or.inr ⟨s, ⟨hs, h⟩, by simp [e, essential]⟩)))))
  | struct b =>
    exact Or.inl (Or.inl (Or.inl (Or.inl (Or.inl (Or.inl (Or.inr ⟨s, ⟨hs, h⟩, by simp [e, essential]⟩))))))
  | enum =>
    exact Or.inl (Or.inl (Or.inl (Or.inl (Or.inl (Or.inl (Or.inr ⟨s, ⟨hs, h⟩, by simp [e, essential]⟩))))))
  | raw =>
    exact Or.inl (Or.inl (Or.inl (Or.inl (Or.inl (Or.inl (Or.inl (Or.inr ⟨s, ⟨hs, h⟩, by simp [e, essential]⟩)))))))
  | trait =>
    exact Or.inl (Or.inl (Or.inl (Or.inl (Or.inl (Or.inl (Or.inl (Or.inl
      (Or.inr ⟨s, ⟨hs, h⟩, by simp [e, essential]⟩))))))))
  | alias =>
    exact Or.inl (Or.inl (Or.inl (Or.inl (Or.inl (Or.inl (Or.inl (Or.inl (Or.inl
      (Or.inr ⟨s, ⟨hs, h⟩, by simp [e, essential]⟩)))))))))

/-- Compiling a program with `@cfg` attributes is compiling the program with the excluded
declarations deleted and the attributes erased: the C compiler sees the same text; that text
has the essential part of every included declaration, and nothing but parts of included
declarations.  For every set of `-D` names and every program whose guarded declarations are functions,
structs without a destructor, enums, traits, globals or plain impls, with globals of different
names.  (Missing for the full claim: the other kinds, equal names of globals, and declarations
of several nodes; each fails, see below.) -/
theorem cfg_select_partial (D : Env) (p : List Src) (ha : ∀ s ∈ p, Accepted s)
    (hf : ∀ s ∈ p, Fine s) (hg : DistinctGlobals p) :
    ∃ out, compile D p = .ok (some out) ∧ compile D (select D p) = .ok (some out) ∧
      (∀ s ∈ p, holds D s.attrs = true → (essential s.kind, s.name, s.body) ∈ out) ∧
      (∀ t ∈ out, ∃ s ∈ select D p, t.2 = (s.name, s.body)) := by
  refine ⟨texts D p, ?_, ?_, fun s hs h => texts_essential D p s hs h,
    fun t ht => texts_mem D p t ht⟩
  · simp [compile, parseProg_ok p ha, (emit_bal D p ha hf hg).final]
  · have ha' : ∀ s ∈ select D p, Accepted s := by
      intro s hs
      obtain ⟨x, _, rfl⟩ := List.mem_map.1 hs
      intro a h; simp at h
    have hf' : ∀ s ∈ select D p, Fine s := by
      intro s hs
      obtain ⟨x, _, rfl⟩ := List.mem_map.1 hs
      exact Or.inl rfl
    have hg' : DistinctGlobals (select D p) := by
      unfold DistinctGlobals at hg ⊢
      have e := select_filter_kind D p (fun k => decide (k = .global))
      rw [e, select_eq, List.map_map]
      exact hg.sublist ((List.filter_sublist).map _)
    simp [compile, parseProg_ok _ ha', (emit_bal D _ ha' hf' hg').final, texts_select]

/-- Two alternative functions, as in the project's test. -/
example : ∃ out, compile (fun n => n == "A")
      [⟨[.name "A"], .fn, "mode", 1⟩, ⟨[.not "A"], .fn, "mode", 2⟩, ⟨[], .fn, "main", 3⟩]
        = .ok (some out) ∧
    compile (fun n => n == "A") [⟨[], .fn, "mode", 1⟩, ⟨[], .fn, "main", 3⟩] = .ok (some out) := by
  have := cfg_select_partial (fun n => n == "A")
    [⟨[.name "A"], .fn, "mode", 1⟩, ⟨[.not "A"], .fn, "mode", 2⟩, ⟨[], .fn, "main", 3⟩]
    (by simp [Accepted, Attr.Proper, Attr.hasPlain]) (by simp [Fine, Kind.covered])
    (by simp [DistinctGlobals])
  have e : select (fun n => n == "A")
      [⟨[.name "A"], .fn, "mode", 1⟩, ⟨[.not "A"], .fn, "mode", 2⟩, ⟨[], .fn, "main", 3⟩]
      = [⟨[], .fn, "mode", 1⟩, ⟨[], .fn, "main", 3⟩] := by decide
  rw [e] at this
  obtain ⟨out, h1, h2, _⟩ := this
  exact ⟨out, h1, h2⟩

/-! ### Where it fails -/

/-- `@cfg(A) impl Trait for S { }`: whatever is defined, whatever the rest of the program, the
`#if` printed before the prototypes is never closed: the C file does not compile. -/
theorem cfg_impl_trait_violated (D : Env) (n : String) (b : Nat) (a : String)
    (h : a ≠ "not" ∧ a ≠ "any" ∧ a ≠ "all") :
    compile D [⟨[.name a], .implTrait, n, b⟩] = .ok none := by
  have hp := parseProg_ok [⟨[.name a], .implTrait, n, b⟩]
    (by simpa [Accepted, Attr.Proper, Attr.hasPlain] using h)
  have he := evalIf_attrs D (.name a) [] (by simpa [Attr.Proper] using h) (by simp [Attr.hasPlain])
  simp only [attrText, andTail, List.flatMap_nil, List.append_nil] at he
  cases hv : holds D [.name a] <;>
    simp [compile, hp, parsed, condText, join, attrText, emit, emitInclude, emitEnumProto,
      emitGlobalAlias, emitTypeAlias, emitTrait, emitRaw, emitTypeDef, emitGlobals, mergeGlobals,
      mergedFuncs, emitProto, emitVtable, emitDropGlue, emitTest, emitCode, Kind.isFunc, guarded,
      bare, preprocess, he, hv]

/-- `@cfg(A)` on `raw`, `test`, an alias, an include and the drop glue of a struct is without
effect: the text stays although `A` is not defined. -/
theorem cfg_unguarded_violated (n : String) (b : Nat) :
    (∃ out, compile (fun _ => false) [⟨[.name "A"], .raw, n, b⟩] = .ok (some out) ∧
      (.raw, n, b) ∈ out) ∧
    (∃ out, compile (fun _ => false) [⟨[.name "A"], .test, n, b⟩] = .ok (some out) ∧
      (.test, n, b) ∈ out) ∧
    (∃ out, compile (fun _ => false) [⟨[.name "A"], .alias, n, b⟩] = .ok (some out) ∧
      (.alias, n, b) ∈ out) ∧
    (∃ out, compile (fun _ => false) [⟨[.name "A"], .include, n, b⟩] = .ok (some out) ∧
      (.include, n, b) ∈ out) ∧
    (∃ out, compile (fun _ => false) [⟨[.name "A"], .struct true, n, b⟩] = .ok (some out) ∧
      (.dropGlue, n, b) ∈ out ∧ (.typeDef, n, b) ∉ out) := by
  have hp : ∀ k, parseProg [⟨[.name "A"], k, n, b⟩] = .ok [⟨k, n, b, some [.defined "A"]⟩] :=
    fun k => parseProg_ok [⟨[.name "A"], k, n, b⟩] (by simp [Accepted, Attr.Proper, Attr.hasPlain])
  have he : evalIf (fun _ => false) [.defined "A"] = some false := by
    simp [evalIf, orE, andE, unE]
  refine ⟨?_, ?_, ?_, ?_, ?_⟩ <;>
    simp [compile, hp, emit, emitInclude, emitEnumProto,
      emitGlobalAlias, emitTypeAlias, emitTrait, emitRaw, emitTypeDef, emitGlobals, mergeGlobals,
      mergedFuncs, emitProto, emitVtable, emitDropGlue, emitTest, emitCode, Kind.isFunc, guarded,
      bare, preprocess, he]

/-- Two alternatives of one global: only the later one is written, so with `A` defined there
is no definition at all. -/
theorem cfg_globals_violated (n : String) (b₁ b₂ : Nat) :
    compile (fun m => m == "A") [⟨[.name "A"], .global, n, b₁⟩, ⟨[.not "A"], .global, n, b₂⟩]
      = .ok (some []) ∧
    compile (fun m => m == "A")
        (select (fun m => m == "A")
          [⟨[.name "A"], .global, n, b₁⟩, ⟨[.not "A"], .global, n, b₂⟩])
      = .ok (some [(.global, n, b₁)]) := by
  have he : evalIf (fun m => m == "A") [.bang, .defined "A"] = some false := by
    simp [evalIf, orE, andE, unE]
  have hp : parseProg [⟨[.name "A"], .global, n, b₁⟩, ⟨[.not "A"], .global, n, b₂⟩]
      = .ok [⟨.global, n, b₁, some [.defined "A"]⟩, ⟨.global, n, b₂, some [.bang, .defined "A"]⟩] :=
    parseProg_ok [⟨[.name "A"], .global, n, b₁⟩, ⟨[.not "A"], .global, n, b₂⟩]
      (by simp [Accepted, Attr.Proper, Attr.hasPlain])
  have hp' : parseProg [⟨[], .global, n, b₁⟩] = .ok [⟨.global, n, b₁, none⟩] :=
    parseProg_ok [⟨[], .global, n, b₁⟩] (by simp [Accepted])
  constructor
  · simp [compile, hp, emit, emitInclude, emitEnumProto,
      emitGlobalAlias, emitTypeAlias, emitTrait, emitRaw, emitTypeDef, emitGlobals, mergeGlobals,
      mergedFuncs, emitProto, emitVtable, emitDropGlue, emitTest, emitCode, Kind.isFunc, guarded,
      bare, preprocess, he]
  · have : select (fun m => m == "A")
          [⟨[.name "A"], .global, n, b₁⟩, ⟨[.not "A"], .global, n, b₂⟩]
        = [⟨[], .global, n, b₁⟩] := by simp [select, holds, Attr.holds]
    rw [this]
    simp [compile, hp', emit, emitInclude, emitEnumProto,
      emitGlobalAlias, emitTypeAlias, emitTrait, emitRaw, emitTypeDef, emitGlobals, mergeGlobals,
      mergedFuncs, emitProto, emitVtable, emitDropGlue, emitTest, emitCode, Kind.isFunc, guarded,
      bare, preprocess]

/-- `@cfg(A) import "file";` with a file of two functions: although `A` is not defined, the
second function is compiled. -/
theorem cfg_import_violated (f g : String) (b₁ b₂ : Nat) :
    ∃ ds out, parseImport [.name "A"] [⟨[], .fn, f, b₁⟩, ⟨[], .fn, g, b₂⟩] = .ok ds ∧
      preprocess (fun _ => false) [] (emit ds) = some out ∧
      (.code, g, b₂) ∈ out ∧ ∀ b, b ≠ b₂ → (.code, f, b) ∉ out := by
  have hp : parseProg [⟨[], .fn, f, b₁⟩, ⟨[], .fn, g, b₂⟩]
      = .ok [⟨.fn, f, b₁, none⟩, ⟨.fn, g, b₂, none⟩] :=
    parseProg_ok [⟨[], .fn, f, b₁⟩, ⟨[], .fn, g, b₂⟩] (by simp [Accepted])
  have ht := attrs_text none [.name "A"] [] (toks [.name "A"]).length (toks_len _)
    (by simp [Attr.Proper]) (by simp [Attr.hasPlain]) trivial
  have he : evalIf (fun _ => false) [.defined "A"] = some false := by
    simp [evalIf, orE, andE, unE]
  simp only [List.append_nil] at ht
  refine ⟨_, [(.proto, g, b₂), (.code, g, b₂)],
    by simp only [parseImport, ht, hp, Res.ok_bind]; rfl, ?_, ?_, ?_⟩
  · simp [attach, condText, join, attrText, emit, emitInclude, emitEnumProto,
      emitGlobalAlias, emitTypeAlias, emitTrait, emitRaw, emitTypeDef, emitGlobals, mergeGlobals,
      mergedFuncs, emitProto, emitVtable, emitDropGlue, emitTest, emitCode, Kind.isFunc, guarded,
      bare, preprocess, he]
  · simp
  · intro b hb h; simp at h; exact hb h.2

/-- A plain `import` of a file removes the condition of the file's first declaration: the
function is compiled although `A` is not defined. -/
theorem cfg_import_erases_violated (f : String) (b : Nat) :
    ∃ ds out, parseImport [] [⟨[.name "A"], .fn, f, b⟩] = .ok ds ∧
      preprocess (fun _ => false) [] (emit ds) = some out ∧ (.code, f, b) ∈ out := by
  have hp : parseProg [⟨[.name "A"], .fn, f, b⟩] = .ok [⟨.fn, f, b, some [.defined "A"]⟩] :=
    parseProg_ok [⟨[.name "A"], .fn, f, b⟩] (by simp [Accepted, Attr.Proper, Attr.hasPlain])
  refine ⟨[⟨.fn, f, b, none⟩], [(.proto, f, b), (.code, f, b)], ?_, ?_, by simp⟩
  · simp [parseImport, toks, attrs, hp, attach]
  · simp [emit, emitInclude, emitEnumProto,
      emitGlobalAlias, emitTypeAlias, emitTrait, emitRaw, emitTypeDef, emitGlobals, mergeGlobals,
      mergedFuncs, emitProto, emitVtable, emitDropGlue, emitTest, emitCode, Kind.isFunc, guarded,
      bare, preprocess]

end Verif.Cfg
