import Verif.LspNav.Lemmas

/-!
# Where the entries of the index come from
-/

namespace Verif.LspNav
open Verif Spec

/-! ## Every entry is a name of the file -/

/-- What is said of the places of declarations holds of those the parser knows. -/
def CtxAt (P : String → Tok → Prop) (c : Ctx) : Prop :=
  (∀ x s, c.funcs.lookup x = some s → P x s.1) ∧ (∀ x t, c.syms.lookup x = some (some t) → P x t)

/-- An entry is a name of the program, and leads to the declaration. -/
structure Entry (P : String → Tok → Prop) (toks : List Tok) (ds : List (Tok × String)) (r : Rng) : Prop where
  mem : r.tok ∈ toks
  name : r.name = r.tok.name
  line : 0 < r.tok.line
  ref : ∀ d', r.dt = some d' → P r.name d'
  dfn : r.dt = none → (r.tok, r.hover) ∈ ds

theorem Entry.mono {P : String → Tok → Prop} {l l' : List Tok} {ds ds' : List (Tok × String)} {r : Rng}
    (h : Entry P l ds r) (hl : ∀ t ∈ l, t ∈ l') (hd : ∀ t ∈ ds, t ∈ ds') : Entry P l' ds' r :=
  ⟨hl _ h.mem, h.name, h.line, h.ref, fun e => hd _ (h.dfn e)⟩

/-- A variable. -/
theorem entry_var (P : String → Tok → Prop) (c : Ctx) (hc : CtxOk c) (ha : CtxAt P c) (t : Tok) (ht : 0 < t.line) :
    ∀ r ∈ walk (varNode c t), Entry P [t] [] r := by
  rw [walk_var c t ht hc]
  split
  · rename_i dd hd
    intro r hr
    simp only [List.mem_singleton] at hr
    subst hr
    refine ⟨by simp, rfl, ht, fun d' h => ?_, fun h => by simp at h⟩
    simp only [Option.some.injEq] at h
    subst h
    exact ha.2 _ _ hd
  · intro r hr; simp at hr

mutual
theorem entryE (P : String → Tok → Prop) (c : Ctx) (hc : CtxOk c) (ha : CtxAt P c) : ∀ e : Expr,
    (∀ t ∈ toksE e, 0 < t.line) → ∀ r ∈ walk (parseE c e), Entry P (toksE e) [] r
  | .lit, _, r, hr => by simp [parseE, walk, addDef, addRef] at hr
  | .var t, hl, r, hr => entry_var P c hc ha t (hl t (by simp)) r hr
  | .call t args, hl, r, hr => by
    have ht := hl t (by simp)
    have h := entryEs P c hc ha args (fun s hs => hl s (by simp [hs]))
    have hv := entry_var P c hc ha t ht
    simp only [parseE] at hr
    cases hf : c.funcs.lookup t.name with
    | some s =>
      obtain ⟨dd, defs⟩ := s
      obtain ⟨hd, hn⟩ := hc.funcs _ _ hf
      have hz : defaultNodes c (defs.drop args.length) = .nil :=
        defaults_nil c _ (fun z hz => hn z (List.mem_of_mem_drop hz))
      rw [hf] at hr
      simp only [hz, walk, walks, walks_app, addDef, addRef, List.append_nil] at hr
      simp only [ht, hd, and_self, if_true, reduceCtorEq, or_self, false_and, if_false, List.nil_append,
        List.mem_append, List.mem_singleton] at hr
      rcases hr with rfl | hr
      · refine ⟨by simp, rfl, ht, fun d' h' => ?_, fun h' => by simp at h'⟩
        simp only [Option.some.injEq] at h'
        subst h'
        exact ha.1 _ _ hf
      · exact (h r hr).mono (by simp +contextual) (by simp)
    | none =>
      rw [hf] at hr
      simp only [walk, walks, addDef, addRef, List.append_nil, reduceCtorEq, if_false, List.nil_append,
        List.mem_append] at hr
      rcases hr with hr | hr
      · exact (hv r hr).mono (by simp) (by simp)
      · exact (h r hr).mono (by simp +contextual) (by simp)
  | .bin l r', hl, r, hr => by
    simp only [parseE, walk, walks, addDef, addRef, List.append_nil, reduceCtorEq, if_false, List.nil_append,
        List.mem_append] at hr
    rcases hr with hr | hr
    · exact (entryE P c hc ha l (fun s hs => hl s (by simp [hs])) r hr).mono (by simp +contextual) (by simp)
    · exact (entryE P c hc ha r' (fun s hs => hl s (by simp [hs])) r hr).mono (by simp +contextual) (by simp)
  | .under e, hl, r, hr => by simp [parseE, walk, addDef, addRef] at hr
theorem entryEs (P : String → Tok → Prop) (c : Ctx) (hc : CtxOk c) (ha : CtxAt P c) : ∀ e : Exprs,
    (∀ t ∈ toksEs e, 0 < t.line) → ∀ r ∈ walks (parseEs c e), Entry P (toksEs e) [] r
  | .nil, _, r, hr => by simp [parseEs, walks] at hr
  | .cons e es, hl, r, hr => by
    simp only [parseEs, walks, List.mem_append] at hr
    rcases hr with hr | hr
    · exact (entryE P c hc ha e (fun s hs => hl s (by simp [hs])) r hr).mono (by simp +contextual) (by simp)
    · exact (entryEs P c hc ha es (fun s hs => hl s (by simp [hs])) r hr).mono (by simp +contextual) (by simp)
end

/-- What is shown for the variables of a list. -/
def shown (l : List Tok) : List (Tok × String) := l.map (fun t => (t, "var " ++ t.name))

@[simp] theorem shown_append (a b : List Tok) : shown (a ++ b) = shown a ++ shown b := by simp [shown]

theorem ctxAt_let {P : String → Tok → Prop} {c : Ctx} (ha : CtxAt P c) (t : Tok) (h : P t.name t) :
    CtxAt P { c with syms := (t.name, some t) :: c.syms } := by
  refine ⟨ha.1, fun x v hv => ?_⟩
  simp only [lookup_cons] at hv
  split at hv
  · rename_i e
    simp only [Option.some.injEq] at hv
    subst hv
    rw [e]
    exact h
  · exact ha.2 x v hv

theorem mem_grp {r : Rng} {n : Nodes} : r ∈ walk (.mk .group none "" none "" n) ↔ r ∈ walks n := by
  simp [walk, addDef, addRef]

theorem parseS_at {P : String → Tok → Prop} {c : Ctx} (ha : CtxAt P c) (s : Stmt)
    (h : ∀ t ∈ letsS s, P t.name t) : CtxAt P (parseS c s).2 := by
  cases s <;> simp only [parseS]
  case decl t e => exact ctxAt_let ha t (h t (by simp [letsS]))
  all_goals exact ha

mutual
theorem entryS (P : String → Tok → Prop) : ∀ (s : Stmt) (c : Ctx), CtxOk c → CtxAt P c →
    (∀ t ∈ toksS s, 0 < t.line) → (∀ t ∈ letsS s, P t.name t) →
    ∀ r ∈ walk (parseS c s).1, Entry P (toksS s) (shown (letsS s)) r
  | .decl t e, c, hc, ha, hl, hd, r, hr => by
    have ht := hl t (by simp)
    simp only [parseS, walk, walks, addDef, addRef, List.append_nil, reduceCtorEq, if_false, ht, or_true,
      and_self, if_true, List.mem_append, List.mem_singleton] at hr
    rcases hr with rfl | hr
    · exact ⟨by simp, rfl, ht, fun d' h => by simp at h, fun _ => by simp [letsS, shown]⟩
    · exact (entryE P c hc ha e (fun s hs => hl s (by simp [hs])) r hr).mono (by simp +contextual) (by simp)
  | .expr e, c, hc, ha, hl, hd, r, hr => (entryE P c hc ha e hl r hr).mono (fun _ h => h) (by simp)
  | .ifs e a b, c, hc, ha, hl, hd, r, hr => by
    simp only [parseS, mem_grp, walks, List.append_nil, List.mem_append] at hr
    rcases hr with hr | hr | hr
    · exact (entryE P c hc ha e (fun s hs => hl s (by simp [hs])) r hr).mono (by simp +contextual) (by simp)
    · exact (entryB P a c hc ha (fun s hs => hl s (by simp [hs])) (fun s hs => hd s (by simp [letsS, hs])) r
        (mem_grp.mp hr)).mono (by simp +contextual) (by simp +contextual [letsS])
    · exact (entryB P b c hc ha (fun s hs => hl s (by simp [hs])) (fun s hs => hd s (by simp [letsS, hs])) r
        (mem_grp.mp hr)).mono (by simp +contextual) (by simp +contextual [letsS])
  | .whiles e b, c, hc, ha, hl, hd, r, hr => by
    simp only [parseS, mem_grp, walks, List.append_nil, List.mem_append] at hr
    rcases hr with hr | hr
    · exact (entryE P c hc ha e (fun s hs => hl s (by simp [hs])) r hr).mono (by simp +contextual) (by simp)
    · exact (entryB P b c hc ha (fun s hs => hl s (by simp [hs])) (fun s hs => hd s (by simp [letsS, hs])) r
        (mem_grp.mp hr)).mono (by simp +contextual) (by simp +contextual [letsS])
  | .ret e, c, hc, ha, hl, hd, r, hr => by
    simp only [parseS, mem_grp, walks, List.append_nil] at hr
    exact (entryE P c hc ha e hl r hr).mono (fun _ h => h) (by simp)
  | .block b, c, hc, ha, hl, hd, r, hr => by
    simp only [parseS, mem_grp] at hr
    exact entryB P b c hc ha hl hd r hr
  | .under e, c, hc, ha, hl, hd, r, hr => by simp [parseS, walk, addDef, addRef] at hr
theorem entryB (P : String → Tok → Prop) : ∀ (s : Block) (c : Ctx), CtxOk c → CtxAt P c →
    (∀ t ∈ toksB s, 0 < t.line) → (∀ t ∈ letsB s, P t.name t) →
    ∀ r ∈ walks (parseL c s), Entry P (toksB s) (shown (letsB s)) r
  | .nil, _, _, _, _, _, r, hr => by simp [parseL, walks] at hr
  | .cons s b, c, hc, ha, hl, hd, r, hr => by
    have hls : ∀ t ∈ toksS s, 0 < t.line := fun s hs => hl s (by simp [hs])
    have hds : ∀ t ∈ letsS s, P t.name t := fun s hs => hd s (by simp [letsB, hs])
    simp only [parseL, walks, List.mem_append] at hr
    rcases hr with hr | hr
    · exact (entryS P s c hc ha hls hds r hr).mono (by simp +contextual) (by simp +contextual [letsB])
    · exact (entryB P b _ (parseS_ctx (k := true) (x := "") c hc s hls).1 (parseS_at ha s hds)
        (fun s hs => hl s (by simp [hs])) (fun s hs => hd s (by simp [letsB, hs])) r hr).mono
        (by simp +contextual) (by simp +contextual [letsB])
end

/-- The declarations of an item. -/
def declsI (i : Item) : List (Tok × String) := decls [i]

theorem decls_cons (i : Item) (f : File) : decls (i :: f) = declsI i ++ decls f := by
  simp [decls, declsI]

theorem declsI_fn (t : Tok) (ps : List (Tok × Option Tok)) (ret : String) (body : Block) :
    declsI (.fn t ps ret body) = (t, fnHover t.name ret) :: shown (letsB body) := by
  simp [declsI, decls, fnHover, shown]

theorem declsI_glob (t : Tok) (e : Expr) : declsI (.glob t e) = [(t, "var " ++ t.name)] := by
  simp [declsI, decls]

theorem inBody_at {P : String → Tok → Prop} {c : Ctx} (ha : CtxAt P c) {t : Tok} {ps : List (Tok × Option Tok)}
    (h : P t.name t) : CtxAt P (inBody c t ps) := by
  refine ⟨fun x s hs => ?_, fun x v hv => ha.2 x v (paramSyms_some _ hv)⟩
  simp only [inBody, lookup_cons] at hs
  split at hs
  · rename_i e
    simp only [Option.some.injEq] at hs
    subst hs
    rw [e]
    exact h
  · exact ha.1 x s hs

theorem entryI (P : String → Tok → Prop) (i : Item) (c : Ctx) (hc : CtxOk c) (ha : CtxAt P c)
    (hb : i.bare) (hl : ∀ t ∈ toksI i, 0 < t.line) (hd : ∀ p ∈ declsI i, P p.1.name p.1) :
    (∀ r ∈ walk (parseItem c i).1, Entry P (toksI i) (declsI i) r) ∧ CtxAt P (parseItem c i).2 := by
  cases i with
  | fn t ps ret body =>
    have h0 : 0 < t.line := hl t (by simp [toksI_fn])
    have hd0 : P t.name t := hd (t, _) (by rw [declsI_fn]; exact List.mem_cons_self ..)
    refine ⟨fun r hr => ?_, ?_⟩
    · have hw : walk (parseItem c (.fn t ps ret body)).1
          = ⟨t, t.name, none, fnHover t.name ret⟩ :: walks (parseL (inBody c t ps) body) := by
        simp [parseItem, walk, walks, addDef, addRef, h0, inBody]
      rw [hw] at hr
      simp only [List.mem_cons] at hr
      rcases hr with rfl | hr
      · exact ⟨by simp [toksI_fn], rfl, h0, fun d' h => by simp at h, fun _ => by simp [declsI_fn]⟩
      · refine (entryB P body _ (inBody_ok hc h0 hb) (inBody_at ha hd0)
          (fun s hs => hl s (by simp [toksI_fn, hs])) (fun s hs => ?_) r hr).mono
          (by simp +contextual [toksI_fn]) (by simp +contextual [declsI_fn])
        exact hd (s, "var " ++ s.name) (by rw [declsI_fn]; simp only [shown]; exact List.mem_cons_of_mem _ (List.mem_map.mpr ⟨s, hs, rfl⟩))
    · exact ⟨(inBody_at (ps := ps) ha hd0).1, ha.2⟩
  | glob t e =>
    have h0 : 0 < t.line := hl t (by simp)
    have hd0 : P t.name t := hd (t, _) (by rw [declsI_glob]; exact List.mem_cons_self ..)
    refine ⟨fun r hr => ?_, ctxAt_let ha t hd0⟩
    have hw : walk (parseItem c (.glob t e)).1
          = ⟨t, t.name, none, "var " ++ t.name⟩ :: walk (parseE c e) := by
        simp [parseItem, walk, walks, addDef, addRef, h0]
    rw [hw] at hr
    simp only [List.mem_cons] at hr
    rcases hr with rfl | hr
    · exact ⟨by simp, rfl, h0, fun d' h => by simp at h, fun _ => by simp [declsI_glob]⟩
    · exact (entryE P c hc ha e (fun s hs => hl s (by simp [hs])) r hr).mono (by simp +contextual) (by simp)

theorem entryF (P : String → Tok → Prop) : ∀ (f : File) (c : Ctx), CtxOk c → CtxAt P c →
    NoDefaults f → (∀ t ∈ toksF f, 0 < t.line) → (∀ p ∈ decls f, P p.1.name p.1) →
    (∀ r ∈ walks (parseFile c f).1, Entry P (toksF f) (decls f) r) ∧ CtxAt P (parseFile c f).2 := by
  intro f
  induction f with
  | nil => intro c _ ha _ _ _; exact ⟨fun r hr => by simp [parseFile, walks] at hr, ha⟩
  | cons i r ih =>
    intro c hc ha hb hl hd
    have hl' : ∀ t ∈ toksI i, 0 < t.line := fun s hs => hl s (by simp [toksF, hs])
    obtain ⟨h1, h2⟩ := entryI P i c hc ha (bare_of hb (by simp)) hl'
      (fun p hp => hd p (by rw [decls_cons]; simp [hp]))
    obtain ⟨h3, h4⟩ := ih (parseItem c i).2 (itemCtx (k := true) (x := "") i c hc (bare_of hb (by simp)) hl').1 h2
      (fun j hj => hb j (by simp [hj]))
      (fun s hs => hl s (by simp only [toksF, List.flatMap_cons, List.mem_append]; exact .inr hs))
      (fun p hp => hd p (by rw [decls_cons]; simp [hp]))
    refine ⟨fun q hq => ?_, h4⟩
    simp only [parseFile, walks, List.mem_append] at hq
    rcases hq with hq | hq
    · exact (h1 q hq).mono (by simp +contextual [toksF]) (by simp +contextual [decls_cons])
    · refine (h3 q hq).mono (fun t ht => ?_) (by simp +contextual [decls_cons])
      simp only [toksF, List.flatMap_cons, List.mem_append]; exact .inr ht

/-! ## Every declaration has an entry -/

mutual
theorem defS : ∀ (s : Stmt) (c : Ctx), (∀ t ∈ toksS s, 0 < t.line) → ∀ t ∈ letsS s,
    (⟨t, t.name, none, "var " ++ t.name⟩ : Rng) ∈ walk (parseS c s).1
  | .decl v e, c, hl, t, ht => by
    simp only [letsS, List.mem_singleton] at ht
    subst ht
    simp [parseS, walk, addDef, hl t (by simp)]
  | .expr e, c, hl, t, ht => by simp [letsS] at ht
  | .ifs e a b, c, hl, t, ht => by
    simp only [letsS, List.mem_append] at ht
    simp only [parseS, mem_grp, walks, List.append_nil, List.mem_append]
    rcases ht with ht | ht
    · exact .inr (.inl (mem_grp.mpr (defB a c (fun s hs => hl s (by simp [hs])) t ht)))
    · exact .inr (.inr (mem_grp.mpr (defB b c (fun s hs => hl s (by simp [hs])) t ht)))
  | .whiles e b, c, hl, t, ht => by
    simp only [letsS] at ht
    simp only [parseS, mem_grp, walks, List.append_nil, List.mem_append]
    exact .inr (mem_grp.mpr (defB b c (fun s hs => hl s (by simp [hs])) t ht))
  | .ret e, c, hl, t, ht => by simp [letsS] at ht
  | .block b, c, hl, t, ht => by
    simp only [letsS] at ht
    simp only [parseS, mem_grp]
    exact defB b c hl t ht
  | .under e, c, hl, t, ht => by simp [letsS] at ht
theorem defB : ∀ (s : Block) (c : Ctx), (∀ t ∈ toksB s, 0 < t.line) → ∀ t ∈ letsB s,
    (⟨t, t.name, none, "var " ++ t.name⟩ : Rng) ∈ walks (parseL c s)
  | .nil, c, hl, t, ht => by simp [letsB] at ht
  | .cons s b, c, hl, t, ht => by
    simp only [letsB, List.mem_append] at ht
    simp only [parseL, walks, List.mem_append]
    rcases ht with ht | ht
    · exact .inl (defS s c (fun s hs => hl s (by simp [hs])) t ht)
    · exact .inr (defB b _ (fun s hs => hl s (by simp [hs])) t ht)
end

theorem defF : ∀ (f : File) (c : Ctx), (∀ t ∈ toksF f, 0 < t.line) → ∀ p ∈ decls f,
    (⟨p.1, p.1.name, none, p.2⟩ : Rng) ∈ walks (parseFile c f).1 := by
  intro f
  induction f with
  | nil => intro c _ p hp; simp [decls] at hp
  | cons i r ih =>
    intro c hl p hp
    rw [decls_cons] at hp
    simp only [parseFile, walks, List.mem_append] at hp ⊢
    have hl' : ∀ t ∈ toksI i, 0 < t.line := fun s hs => hl s (by simp [toksF, hs])
    rcases hp with hp | hp
    · left
      cases i with
      | fn t ps ret body =>
        have h0 : 0 < t.line := hl' t (by simp [toksI_fn])
        have hw : walk (parseItem c (.fn t ps ret body)).1
            = ⟨t, t.name, none, fnHover t.name ret⟩ :: walks (parseL (inBody c t ps) body) := by
          simp [parseItem, walk, walks, addDef, addRef, h0, inBody]
        rw [declsI_fn] at hp
        rw [hw]
        simp only [List.mem_cons] at hp ⊢
        rcases hp with rfl | hp
        · exact .inl rfl
        · simp only [shown] at hp
          obtain ⟨s, hs, rfl⟩ := List.mem_map.mp hp
          exact .inr (defB body _ (fun s hs => hl' s (by simp [toksI_fn, hs])) s hs)
      | glob t e =>
        have h0 : 0 < t.line := hl' t (by simp)
        rw [declsI_glob] at hp
        simp only [List.mem_singleton] at hp
        subst hp
        simp [parseItem, walk, addDef, h0]
    · exact .inr (ih _ (fun s hs => hl s (by
        simp only [toksF, List.flatMap_cons, List.mem_append]; exact .inr hs)) p hp)

/-! ## Sessions -/

/-- What the parser knows after some files. -/
def hctx (hist : List (String × File)) : Ctx := hist.foldl (fun c q => (parseFile c q.2).2) ⟨[], []⟩

theorem hctx_snoc (h : List (String × File)) (u : String) (f : File) :
    hctx (h ++ [(u, f)]) = (parseFile (hctx h) f).2 := by
  simp [hctx]

/-- The project after some files. -/
structure Inv (hist : List (String × File)) (p : Proj) : Prop where
  ctx : p.ctx = hctx hist
  nodup : (p.files.map (·.1)).Nodup
  known : ∀ u, u ∈ p.files.map (·.1) ↔ u ∈ hist.map (·.1)
  index : ∀ u idx, (u, idx) ∈ p.files → ∃ a f b, hist = a ++ (u, f) :: b ∧ u ∉ b.map (·.1) ∧
    idx = walks (parseFile (hctx a) f).1

theorem setFile_keys (u : String) (idx : List Rng) (l : List (String × List Rng)) :
    (setFile u idx l).map (·.1) = l.map (·.1) := by
  induction l with
  | nil => rfl
  | cons q r ih =>
    obtain ⟨v, i⟩ := q
    simp only [setFile]
    split <;> simp [ih]

theorem setFile_mem (u : String) (idx : List Rng) : ∀ (l : List (String × List Rng)), (l.map (·.1)).Nodup →
    ∀ q ∈ setFile u idx l, (q = (u, idx)) ∨ (q ∈ l ∧ q.1 ≠ u) := by
  intro l
  induction l with
  | nil => intro _ q hq; simp [setFile] at hq
  | cons c r ih =>
    obtain ⟨v, i⟩ := c
    intro hn q hq
    simp only [List.map_cons, List.nodup_cons] at hn
    simp only [setFile] at hq
    split at hq
    · rename_i e
      subst e
      simp only [List.mem_cons] at hq
      rcases hq with rfl | hq
      · exact .inl rfl
      · exact .inr ⟨by simp [hq], fun e => hn.1 (e ▸ List.mem_map.mpr ⟨q, hq, rfl⟩)⟩
    · rename_i e
      simp only [List.mem_cons] at hq
      rcases hq with rfl | hq
      · exact .inr ⟨by simp, e⟩
      · rcases ih hn.2 q hq with h | h
        · exact .inl h
        · exact .inr ⟨by simp [h.1], h.2⟩

theorem inv_step {hist : List (String × File)} {p q : Proj} {u : String} {f : File} (hi : Inv hist p)
    (h : p.update u f = .ok q) : Inv (hist ++ [(u, f)]) q := by
  simp only [Proj.update] at h
  split at h
  · simp only [Res.ok.injEq] at h
    subst h
    rw [hi.ctx]
    have old : ∀ v idx, (v, idx) ∈ p.files → v ≠ u → ∃ a g b, hist ++ [(u, f)] = a ++ (v, g) :: b ∧
        v ∉ b.map (·.1) ∧ idx = walks (parseFile (hctx a) g).1 := by
      intro v idx hm hv
      obtain ⟨a, g, b, he, hb, hx⟩ := hi.index v idx hm
      refine ⟨a, g, b ++ [(u, f)], by simp [he], ?_, hx⟩
      simp only [List.map_append, List.map_cons, List.map_nil, List.mem_append, List.mem_singleton, not_or]
      exact ⟨hb, hv⟩
    split
    · rename_i ha
      simp only [List.any_eq_true, beq_iff_eq] at ha
      obtain ⟨z, hz, hzu⟩ := ha
      have hu : u ∈ p.files.map (·.1) := List.mem_map.mpr ⟨z, hz, hzu⟩
      refine ⟨(hctx_snoc hist u f).symm, by rw [setFile_keys]; exact hi.nodup, fun v => ?_, fun v idx hm => ?_⟩
      · rw [setFile_keys, hi.known]
        simp only [List.map_append, List.map_cons, List.map_nil, List.mem_append, List.mem_singleton]
        constructor
        · exact .inl
        · rintro (h | h)
          · exact h
          · subst h; exact (hi.known _).mp hu
      · rcases setFile_mem _ _ _ hi.nodup _ hm with h | h
        · simp only [Prod.mk.injEq] at h
          obtain ⟨rfl, rfl⟩ := h
          exact ⟨hist, f, [], by simp, by simp, rfl⟩
        · exact old v idx h.1 h.2
    · rename_i ha
      have hu : u ∉ p.files.map (·.1) := by
        intro hm
        obtain ⟨z, hz, hzu⟩ := List.mem_map.mp hm
        exact ha (List.any_eq_true.mpr ⟨z, hz, by simpa using hzu⟩)
      refine ⟨(hctx_snoc hist u f).symm, ?_, fun v => ?_, fun v idx hm => ?_⟩
      · simp only [List.map_cons, List.nodup_cons]
        exact ⟨hu, hi.nodup⟩
      · simp only [List.map_cons, List.mem_cons, hi.known, List.map_append, List.map_nil, List.mem_append,
          List.mem_singleton]
        simp only [List.not_mem_nil, or_false]
        exact Or.comm
      · simp only [List.mem_cons] at hm
        rcases hm with h | h
        · simp only [Prod.mk.injEq] at h
          obtain ⟨rfl, rfl⟩ := h
          exact ⟨hist, f, [], by simp, by simp, rfl⟩
        · exact old v idx h (fun e => hu (e ▸ List.mem_map.mpr ⟨_, h, rfl⟩))
  · cases h

theorem inv_session : ∀ (rest hist : List (String × File)) (p q : Proj), Inv hist p →
    session p rest = .ok q → Inv (hist ++ rest) q := by
  intro rest
  induction rest with
  | nil => intro hist p q hi h; simp only [session, Res.ok.injEq] at h; subst h; simpa using hi
  | cons c r ih =>
    obtain ⟨u, f⟩ := c
    intro hist p q hi h
    simp only [session] at h
    split at h
    · rename_i q' hq
      have := ih (hist ++ [(u, f)]) q' q (inv_step hi hq) h
      simpa using this
    · cases h
    · cases h

theorem inv_new : Inv [] Proj.new :=
  ⟨rfl, by simp [Proj.new], fun u => by simp [Proj.new], fun u idx h => by simp [Proj.new] at h⟩

/-- The project of a session. -/
theorem inv_of {hist : List (String × File)} {p : Proj} (h : session Proj.new hist = .ok p) : Inv hist p := by
  simpa using inv_session hist [] _ _ inv_new h

theorem current_eq {a b : List (String × File)} {u : String} {f : File} (h : u ∉ b.map (·.1)) :
    current (a ++ (u, f) :: b) u = some f := by
  simp only [current, List.reverse_append, List.reverse_cons, List.append_assoc]
  have : ∀ q ∈ b.reverse, q.1 ≠ u := by
    intro q hq e
    exact h (e ▸ List.mem_map.mpr ⟨q, by simpa using hq, rfl⟩)
  generalize b.reverse = l at this
  induction l with
  | nil => simp
  | cons q r ih =>
    obtain ⟨v, g⟩ := q
    have hv : u ≠ v := fun e => this (v, g) (by simp) e.symm
    simp only [List.cons_append, lookup_cons, hv, if_false]
    exact ih (fun q hq => this q (by simp [hq]))

/-- What holds of every file read holds of the context. -/
theorem hctx_ok {k : Bool} {x : String} {P : String → Tok → Prop} : ∀ (hist : List (String × File)),
    (∀ q ∈ hist, NoDefaults q.2) → (∀ q ∈ hist, ∀ t ∈ toksF q.2, 0 < t.line) →
    CtxOk (hctx hist) ∧ (hist.any (fun q => q.2.any (declares k x)) = true → Ok k x (hctx hist)) ∧
      ((∀ q ∈ hist, ∀ p ∈ decls q.2, P p.1.name p.1) → CtxAt P (hctx hist)) := by
  intro hist
  suffices ∀ (rest pre : List (String × File)), hist = pre ++ rest →
      (CtxOk (hctx pre) ∧ (pre.any (fun q => q.2.any (declares k x)) = true → Ok k x (hctx pre)) ∧
      ((∀ q ∈ pre, ∀ p ∈ decls q.2, P p.1.name p.1) → CtxAt P (hctx pre))) →
      (∀ q ∈ rest, NoDefaults q.2) → (∀ q ∈ rest, ∀ t ∈ toksF q.2, 0 < t.line) →
      CtxOk (hctx hist) ∧ (hist.any (fun q => q.2.any (declares k x)) = true → Ok k x (hctx hist)) ∧
      ((∀ q ∈ hist, ∀ p ∈ decls q.2, P p.1.name p.1) → CtxAt P (hctx hist)) from
    this hist [] rfl ⟨⟨fun _ _ h => by simp [hctx] at h, fun _ _ h => by simp [hctx] at h⟩,
      fun h => by simp at h, fun _ => ⟨fun _ _ h => by simp [hctx] at h, fun _ _ h => by simp [hctx] at h⟩⟩
  intro rest
  induction rest with
  | nil => intro pre he h _ _; simp only [List.append_nil] at he; subst he; exact h
  | cons q r ih =>
    obtain ⟨u, f⟩ := q
    intro pre he h hb hl
    obtain ⟨h1, h2⟩ := fileCtx (k := k) (x := x) f (hctx pre) h.1 (hb (u, f) (by simp)) (hl (u, f) (by simp))
    refine ih (pre ++ [(u, f)]) (by simp [he]) ⟨by rw [hctx_snoc]; exact h1, fun ha => ?_, fun ha => ?_⟩
      (fun q hq => hb q (by simp [hq])) (fun q hq => hl q (by simp [hq]))
    · rw [hctx_snoc]
      simp only [List.any_append, List.any_cons, List.any_nil, Bool.or_false, Bool.or_eq_true] at ha
      rcases ha with ha | ha
      · exact h2 (.inl (h.2.1 ha))
      · exact h2 (.inr ha)
    · rw [hctx_snoc]
      exact (entryF P f _ h.1 (h.2.2 (fun q hq => ha q (by simp [hq]))) (hb (u, f) (by simp)) (hl (u, f) (by simp))
        (ha (u, f) (by simp))).2

end Verif.LspNav
