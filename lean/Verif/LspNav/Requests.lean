import Verif.LspNav.Index

/-!
# The requests
-/

namespace Verif.LspNav
open Verif Spec

theorem names_eq (f : File) : names f = toksF f := usesF_fst "" [] f

/-! ## The names of a declaration -/

/-- Variables are declared under their names. -/
def Named (env : Env) : Prop := ∀ x d, env.lookup x = some d → d.2.name = x

theorem named_let {env : Env} (h : Named env) (u : String) (t : Tok) : Named ((t.name, (u, t)) :: env) := by
  intro x d hd
  simp only [lookup_cons] at hd
  split at hd
  · rename_i e
    simp only [Option.some.injEq] at hd
    subst hd
    exact e.symm
  · exact h x d hd

theorem named_list {env : Env} (h : ∀ q ∈ env, q.2.2.name = q.1) : Named env := by
  induction env with
  | nil => intro x d hd; simp at hd
  | cons q r ih =>
    obtain ⟨y, e⟩ := q
    intro x d hd
    simp only [lookup_cons] at hd
    split at hd
    · rename_i ex
      simp only [Option.some.injEq] at hd
      subst hd
      rw [ex]
      exact h (y, e) (by simp)
    · exact ih (fun q hq => h q (by simp [hq])) x d hd

theorem find_named {top env : Env} (ht : Named top) (he : Named env) {x : String} {d : Decl}
    (h : find top env x = some d) : d.2.name = x := by
  unfold find at h
  split at h
  · rename_i e hd
    simp only [Option.some.injEq] at h
    subst h
    exact he _ _ hd
  · exact ht _ _ h

theorem nameE {top env : Env} (ht : Named top) (he : Named env) (e : Expr) :
    ∀ p ∈ usesE top env e, ∀ d, p.2 = some d → d.2.name = p.1.name := by
  intro p hp d hd
  rw [usesE_find top env e p hp] at hd
  exact find_named ht he hd

mutual
theorem nameS {top : Env} (u : String) (ht : Named top) : ∀ (s : Stmt) (env : Env), Named env →
    ∀ p ∈ usesS u top env s, ∀ d, p.2 = some d → d.2.name = p.1.name
  | .decl t e, env, he, p, hp => by
    simp only [usesS, List.mem_cons] at hp
    rcases hp with rfl | hp
    · intro d hd
      simp only [Option.some.injEq] at hd
      subst hd
      rfl
    · exact nameE ht he e p hp
  | .expr e, env, he, p, hp => nameE ht he e p hp
  | .ifs c a b, env, he, p, hp => by
    simp only [usesS, List.mem_append] at hp
    rcases hp with hp | hp | hp
    · exact nameE ht he c p hp
    · exact nameB u ht a env he p hp
    · exact nameB u ht b env he p hp
  | .whiles c b, env, he, p, hp => by
    simp only [usesS, List.mem_append] at hp
    rcases hp with hp | hp
    · exact nameE ht he c p hp
    · exact nameB u ht b env he p hp
  | .ret e, env, he, p, hp => nameE ht he e p hp
  | .block b, env, he, p, hp => nameB u ht b env he p hp
  | .under e, env, he, p, hp => nameE ht he e p hp
theorem nameB {top : Env} (u : String) (ht : Named top) : ∀ (s : Block) (env : Env), Named env →
    ∀ p ∈ usesB u top env s, ∀ d, p.2 = some d → d.2.name = p.1.name
  | .nil, env, he, p, hp => by simp [usesB] at hp
  | .cons s r, env, he, p, hp => by
    simp only [usesB, List.mem_append] at hp
    rcases hp with hp | hp
    · exact nameS u ht s env he p hp
    · refine nameB u ht r _ ?_ p hp
      cases s <;> simp only [after]
      case decl t e => exact named_let he u t
      all_goals exact he
end

theorem nameF {top : Env} (u : String) (ht : Named top) (f : File) :
    ∀ p ∈ usesF u top f, ∀ d, p.2 = some d → d.2.name = p.1.name := by
  intro p hp d hd
  simp only [usesF, List.mem_flatMap] at hp
  obtain ⟨i, _, hp⟩ := hp
  cases i with
  | fn t ps ret body =>
    simp only [usesI, List.mem_cons, List.mem_append, List.mem_flatMap] at hp
    rcases hp with rfl | ⟨q, _, rfl | hp⟩ | hp
    · simp only [Option.some.injEq] at hd; subst hd; rfl
    · simp only [Option.some.injEq] at hd; subst hd; rfl
    · cases hq : q.2 with
      | none => rw [hq] at hp; simp [usesD] at hp
      | some s =>
        rw [hq] at hp
        simp only [usesD, List.mem_singleton] at hp
        subst hp
        exact ht _ _ hd
    · refine nameB u ht body _ (named_list ?_) p hp d hd
      intro q hq
      simp only [List.mem_reverse, List.mem_map] at hq
      obtain ⟨z, _, rfl⟩ := hq
      rfl
  | glob t e =>
    simp only [usesI, List.mem_cons] at hp
    rcases hp with rfl | hp
    · simp only [Option.some.injEq] at hd; subst hd; rfl
    · exact nameE ht (fun _ _ h => by simp at h) e p hp d hd

theorem tops_named (us : List String) (hist : List (String × File)) : Named (tops us hist) := by
  apply named_list
  intro q hq
  simp only [tops, List.mem_flatMap, List.mem_map] at hq
  obtain ⟨u, _, i, _, rfl⟩ := hq
  rfl

/-- A name that stands for a declaration is its name. -/
theorem uses_name {hist : List (String × File)} {u : String} {t : Tok} {d : Decl}
    (h : (t, some d) ∈ uses hist u) : d.2.name = t.name :=
  nameF u (tops_named _ _) _ _ h d rfl

/-! ## The index of a file -/

/-- What the index of a file says. -/
structure Facts (P : String → Tok → Prop) (x : String) (hist : List (String × File)) (u : String)
    (idx : List Rng) (f : File) : Prop where
  cur : current hist u = some f
  mem : (u, f) ∈ hist
  named : named x idx = withName x (toksF f)
  entry : ∀ r ∈ idx, Entry P (toksF f) (decls f) r
  dfn : ∀ q ∈ decls f, (⟨q.1, q.1.name, none, q.2⟩ : Rng) ∈ idx

theorem facts {P : String → Tok → Prop} {k : Bool} {x : String} {d : Decl} {hist : List (String × File)} {p : Proj}
    (hf : Fit k x d hist) (hi : Inv hist p) (hP : ∀ q ∈ hist, ∀ p ∈ decls q.2, P p.1.name p.1)
    {u : String} {idx : List Rng} (hm : (u, idx) ∈ p.files) : ∃ f, Facts P x hist u idx f := by
  obtain ⟨a, f, b, he, hb, hx⟩ := hi.index u idx hm
  have hc : current hist u = some f := by rw [he]; exact current_eq hb
  have hmem : (u, f) ∈ hist := by simp [he]
  have hl : ∀ q ∈ hist, ∀ t ∈ toksF q.2, 0 < t.line := fun q hq t ht => (hf.placed q hq t (by rw [names_eq]; exact ht)).1
  obtain ⟨h1, h2, h3⟩ := hctx_ok (k := k) (x := x) (P := P) a (fun q hq => hf.bare q (by simp [he, hq]))
    (fun q hq => hl q (by simp [he, hq]))
  have h3 := h3 (fun q hq => hP q (by simp [he, hq]))
  subst hx
  refine ⟨f, hc, hmem, ?_, ?_, ?_⟩
  · refine namedF k x u (tops (uris hist) hist) f (hctx a) _ h1 (hf.plain u f hc) (hf.bare _ hmem) (hl _ hmem) ?_
      (fun ht => hf.settled ht a u f b he hb) h2
    intro q hq hqx
    rw [hf.bound u q (by simp only [uses, hc]; exact hq) hqx]
    simp
  · exact (entryF P f _ h1 h3 (hf.bare _ hmem) (hl _ hmem) (hP _ hmem)).1
  · exact defF f _ (hl _ hmem)

theorem file_of {hist : List (String × File)} {p : Proj} (hi : Inv hist p) {u : String} {f : File}
    (h : current hist u = some f) : ∃ idx, (u, idx) ∈ p.files := by
  have : (u, f) ∈ hist := by
    unfold current at h
    have : ∀ (l : List (String × File)), l.lookup u = some f → (u, f) ∈ l := by
      intro l
      induction l with
      | nil => intro h; simp at h
      | cons q r ih =>
        obtain ⟨v, g⟩ := q
        intro h
        simp only [lookup_cons] at h
        split at h
        · rename_i e
          simp only [Option.some.injEq] at h
          simp [e, h]
        · simp [ih h]
    simpa using this _ h
  have := (hi.known u).mpr (List.mem_map.mpr ⟨_, this, rfl⟩)
  obtain ⟨⟨v, idx⟩, hq, rfl⟩ := List.mem_map.mp this
  exact ⟨idx, hq⟩

theorem lookup_mem {α β : Type} [DecidableEq α] {l : List (α × β)} (hn : (l.map (·.1)).Nodup) {a : α} {b : β}
    (h : (a, b) ∈ l) : l.lookup a = some b := by
  induction l with
  | nil => simp at h
  | cons q r ih =>
    obtain ⟨c, e⟩ := q
    simp only [List.map_cons, List.nodup_cons] at hn
    simp only [List.mem_cons, Prod.mk.injEq] at h
    simp only [lookup_cons]
    rcases h with ⟨rfl, rfl⟩ | h
    · simp
    · have : a ≠ c := fun ec => hn.1 (ec ▸ List.mem_map.mpr ⟨_, h, rfl⟩)
      simp [this, ih hn.2 h]

theorem index_of {hist : List (String × File)} {p : Proj} (hi : Inv hist p) {u : String} {idx : List Rng}
    (h : (u, idx) ∈ p.files) : p.index u = some idx := lookup_mem hi.nodup h

/-- An occurrence has a file. -/
theorem uses_file {hist : List (String × File)} {u : String} {q : Tok × Option Decl} (h : q ∈ uses hist u) :
    ∃ f, current hist u = some f ∧ q.1 ∈ toksF f := by
  cases hc : current hist u with
  | none => simp [uses, hc, usesF] at h
  | some f =>
    refine ⟨f, rfl, ?_⟩
    rw [← usesF_fst u (tops (uris hist) hist)]
    simp only [uses, hc, Option.getD_some] at h
    exact List.mem_map.mpr ⟨q, h, rfl⟩

/-! ## Places -/

theorem covers_at {r : Rng} {line col : Nat} (hl : 0 < r.tok.line) (hc : 0 < r.tok.col) :
    r.covers line col = true ↔ At r.tok line col := by
  simp only [Rng.covers, Bool.and_eq_true, beq_iff_eq, decide_eq_true_eq, At]
  omega

theorem apart_at {a b : Tok} {line col : Nat} (h : Apart a b) (ha : At a line col) (hb : At b line col) : False := by
  simp only [Apart, At] at h ha hb
  omega

theorem pairwise_eq {l : List Tok} (h : l.Pairwise Apart) {a b : Tok} (ha : a ∈ l) (hb : b ∈ l) {line col : Nat}
    (hA : At a line col) (hB : At b line col) : a = b := by
  induction l with
  | nil => simp at ha
  | cons t r ih =>
    simp only [List.pairwise_cons] at h
    simp only [List.mem_cons] at ha hb
    rcases ha with rfl | ha <;> rcases hb with rfl | hb
    · rfl
    · exact (apart_at (h.1 b hb) hA hB).elim
    · exact (apart_at (h.1 a ha) hB hA).elim
    · exact ih h.2 ha hb

theorem pairwise_nodup {l : List Tok} (h : l.Pairwise Apart) : l.Nodup := by
  refine h.imp ?_
  intro a b hab e
  subst e
  simp only [Apart] at hab
  omega

/-- What is found at an occurrence. -/
theorem found {P : String → Tok → Prop} {k : Bool} {x : String} {d : Decl} {hist : List (String × File)}
    (hf : Fit k x d hist) {u : String} {idx : List Rng} {f : File} (hF : Facts P x hist u idx f)
    {t : Tok} (ht : t ∈ toksF f) {line col : Nat} (hA : At t line col) {r : Rng} (hr : r ∈ idx)
    (hc : r.covers line col = true) : r.tok = t ∧ r.name = t.name := by
  have he := hF.entry r hr
  have hp := hf.placed _ hF.mem r.tok (by rw [names_eq]; exact he.mem)
  have hap := hf.apart u f hF.cur
  rw [names_eq] at hap
  have : r.tok = t := pairwise_eq hap he.mem ht ((covers_at hp.1 hp.2).mp hc) hA
  exact ⟨this, by rw [he.name, this]⟩

theorem exists_entry {P : String → Tok → Prop} {x : String} {hist : List (String × File)}
    {u : String} {idx : List Rng} {f : File} (hF : Facts P x hist u idx f) {t : Tok} (ht : t ∈ toksF f) (hx : t.name = x) :
    ∃ r ∈ idx, r.tok = t := by
  have : t ∈ withName x (toksF f) := List.mem_filter.mpr ⟨ht, by simpa using hx⟩
  rw [← hF.named] at this
  simp only [named, List.mem_map, List.mem_filter] at this
  obtain ⟨r, ⟨hr, _⟩, e⟩ := this
  exact ⟨r, hr, e⟩

theorem entry_covers {P : String → Tok → Prop} {k : Bool} {x : String} {d : Decl} {hist : List (String × File)}
    (hf : Fit k x d hist) {u : String} {idx : List Rng} {f : File} (hF : Facts P x hist u idx f)
    {r : Rng} (hr : r ∈ idx) {line col : Nat} (h : At r.tok line col) : r.covers line col = true := by
  have hp := hf.placed _ hF.mem r.tok (by rw [names_eq]; exact (hF.entry r hr).mem)
  exact (covers_at hp.1 hp.2).mpr h

theorem symbolAt_eq {P : String → Tok → Prop} {k : Bool} {x : String} {d : Decl} {hist : List (String × File)}
    (hf : Fit k x d hist) {u : String} {idx : List Rng} {f : File} (hF : Facts P x hist u idx f)
    {t : Tok} (ht : t ∈ toksF f) (hx : t.name = x) {line col : Nat} (hA : At t line col) :
    symbolAt idx line col = some x := by
  obtain ⟨r0, hr0, e0⟩ := exists_entry hF ht hx
  unfold symbolAt
  cases h : idx.find? (fun r => r.covers line col) with
  | none => exact absurd (entry_covers hf hF hr0 (by rw [e0]; exact hA)) (by simpa using List.find?_eq_none.mp h r0 hr0)
  | some r =>
    have := found hf hF ht hA (List.mem_of_find?_eq_some h) (by simpa using List.find?_some h)
    simp [this.2, hx]

theorem findAt_eq {P : String → Tok → Prop} {k : Bool} {x : String} {d : Decl} {hist : List (String × File)}
    (hf : Fit k x d hist) {u : String} {idx : List Rng} {f : File} (hF : Facts P x hist u idx f)
    {t : Tok} (ht : t ∈ toksF f) (hx : t.name = x) {line col : Nat} (hA : At t line col) :
    ∃ r ∈ idx, findAt idx line col = some r ∧ r.tok = t ∧ r.name = x := by
  obtain ⟨r0, hr0, e0⟩ := exists_entry hF ht hx
  unfold findAt
  cases h : idx.reverse.find? (fun r => r.covers line col) with
  | none =>
    exact absurd (entry_covers hf hF hr0 (by rw [e0]; exact hA))
      (by simpa using List.find?_eq_none.mp h r0 (by simpa using hr0))
  | some r =>
    have hr : r ∈ idx := by simpa using List.mem_of_find?_eq_some h
    have := found hf hF ht hA hr (by simpa using List.find?_some h)
    exact ⟨r, hr, rfl, this.1, this.2.trans hx⟩

/-! ## References -/

theorem mem_references {p : Proj} {x v : String} {s : Tok} :
    (v, s) ∈ p.references x ↔ ∃ idx, (v, idx) ∈ p.files ∧ s ∈ named x idx := by
  simp only [Proj.references, List.mem_flatMap, List.mem_map, named]
  constructor
  · rintro ⟨⟨w, idx⟩, hq, r, hr, e⟩
    simp only [Prod.mk.injEq] at e
    obtain ⟨rfl, rfl⟩ := e
    exact ⟨idx, hq, r, hr, rfl⟩
  · rintro ⟨idx, hq, r, hr, rfl⟩
    exact ⟨(v, idx), hq, r, hr, rfl⟩

theorem nodup_flat (x : String) : ∀ (l : List (String × List Rng)), (l.map (·.1)).Nodup →
    (∀ q ∈ l, (named x q.2).Nodup) →
    (l.flatMap (fun f => (f.2.filter (fun r => r.name == x)).map (fun r => (f.1, r.tok)))).Nodup := by
  intro l
  induction l with
  | nil => intro _ _; simp
  | cons q r ih =>
    intro hn hq
    simp only [List.map_cons, List.nodup_cons] at hn
    simp only [List.flatMap_cons]
    rw [List.nodup_append]
    refine ⟨?_, ih hn.2 (fun z hz => hq z (by simp [hz])), ?_⟩
    · have h := hq q (by simp)
      have e : (q.2.filter (fun r => r.name == x)).map (fun r => (q.1, r.tok))
          = (named x q.2).map (fun t => (q.1, t)) := by simp [named]
      rw [e]
      exact List.Pairwise.map _ (fun a b hab e => hab (by simpa using e)) h
    · intro a ha b hb e
      subst e
      simp only [List.mem_map] at ha
      simp only [List.mem_flatMap, List.mem_map] at hb
      obtain ⟨_, _, rfl⟩ := ha
      obtain ⟨z, hz, _, _, e⟩ := hb
      simp only [Prod.mk.injEq] at e
      exact hn.1 (e.1 ▸ List.mem_map.mpr ⟨z, hz, rfl⟩)

theorem references_spec {k : Bool} {x : String} {d : Decl} {hist : List (String × File)} {p : Proj}
    (hf : Fit k x d hist) (hi : Inv hist p) (hx : d.2.name = x) :
    (p.references x).Nodup ∧ ∀ v s, (v, s) ∈ p.references x ↔ (s, some d) ∈ uses hist v := by
  constructor
  · refine nodup_flat x p.files hi.nodup ?_
    rintro ⟨v, idx⟩ hq
    obtain ⟨f, hF⟩ := facts (P := fun _ _ => True) hf hi (fun _ _ _ _ => trivial) hq
    have hap := hf.apart v f hF.cur
    rw [names_eq] at hap
    show (named x idx).Nodup
    rw [hF.named]
    exact (pairwise_nodup hap).filter _
  · intro v s
    rw [mem_references]
    constructor
    · rintro ⟨idx, hq, hs⟩
      obtain ⟨f, hF⟩ := facts (P := fun _ _ => True) hf hi (fun _ _ _ _ => trivial) hq
      rw [hF.named] at hs
      simp only [withName, List.mem_filter, beq_iff_eq] at hs
      have : s ∈ (uses hist v).map (·.1) := by
        simp only [uses, hF.cur, Option.getD_some, usesF_fst]
        exact hs.1
      obtain ⟨q, hq', e⟩ := List.mem_map.mp this
      obtain ⟨a, b⟩ := q
      simp only at e
      subst e
      have := hf.bound v _ hq' hs.2
      simp only at this
      rw [← this]
      exact hq'
    · intro h
      obtain ⟨f, hc, hs⟩ := uses_file h
      obtain ⟨idx, hq⟩ := file_of hi hc
      obtain ⟨g, hF⟩ := facts (P := fun _ _ => True) hf hi (fun _ _ _ _ => trivial) hq
      have : g = f := by have := hF.cur; rw [hc] at this; simpa using this.symm
      subst this
      refine ⟨idx, hq, ?_⟩
      rw [hF.named]
      exact List.mem_filter.mpr ⟨hs, by simpa using (uses_name h).symm.trans hx⟩

/-! ## The edits of a renaming -/

/-- The edits hold these names, each once. -/
structure Edits (E : List (String × Tok)) (A : List (String × List Tok)) : Prop where
  keys : ∀ q ∈ A, ∃ t, (q.1, t) ∈ E
  nodup : (A.map (·.1)).Nodup
  once : ∀ q ∈ A, q.2.Nodup
  mem : ∀ v s, (∃ es, (v, es) ∈ A ∧ s ∈ es) ↔ (v, s) ∈ E

theorem addEdit_keys (u : String) (t : Tok) : ∀ (A : List (String × List Tok)),
    (∀ q ∈ A, lower q.1 = lower u → q.1 = u) →
    (addEdit u t A).map (·.1) = if u ∈ A.map (·.1) then A.map (·.1) else A.map (·.1) ++ [u] := by
  intro A
  induction A with
  | nil => intro _; simp [addEdit]
  | cons q r ih =>
    obtain ⟨v, es⟩ := q
    intro h
    simp only [addEdit]
    by_cases e : lower v = lower u
    · have := h (v, es) (by simp) e
      simp only at this
      subst this
      simp
    · have hv : u ≠ v := fun e' => e (by rw [e'])
      rw [if_neg e]
      simp only [List.map_cons, ih (fun q hq => h q (by simp [hq])), List.mem_cons, hv, false_or]
      split <;> simp

theorem addEdit_mem (u : String) (t : Tok) : ∀ (A : List (String × List Tok)),
    (∀ q ∈ A, lower q.1 = lower u → q.1 = u) → ∀ v s,
    (∃ es, (v, es) ∈ addEdit u t A ∧ s ∈ es) ↔ (∃ es, (v, es) ∈ A ∧ s ∈ es) ∨ (v = u ∧ s = t) := by
  intro A
  induction A with
  | nil =>
    intro _ v s
    simp only [addEdit, List.mem_singleton, Prod.mk.injEq, List.not_mem_nil, false_and, exists_const, false_or]
    constructor
    · rintro ⟨es, ⟨rfl, rfl⟩, hs⟩
      exact ⟨rfl, by simpa using hs⟩
    · rintro ⟨rfl, rfl⟩
      exact ⟨_, ⟨rfl, rfl⟩, by simp⟩
  | cons q r ih =>
    obtain ⟨w, es⟩ := q
    intro h v s
    have ih := ih (fun q hq => h q (by simp [hq])) v s
    simp only [addEdit]
    by_cases e : lower w = lower u
    · have := h (w, es) (by simp) e
      simp only at this
      subst this
      rw [if_pos rfl]
      simp only [List.mem_cons, Prod.mk.injEq]
      constructor
      · rintro ⟨z, ⟨rfl, rfl⟩ | hz, hs⟩
        · simp only [List.mem_append, List.mem_singleton] at hs
          rcases hs with hs | hs
          · exact .inl ⟨es, .inl ⟨rfl, rfl⟩, hs⟩
          · exact .inr ⟨rfl, hs⟩
        · exact .inl ⟨z, .inr hz, hs⟩
      · rintro (⟨z, ⟨rfl, rfl⟩ | hz, hs⟩ | ⟨rfl, rfl⟩)
        · exact ⟨_, .inl ⟨rfl, rfl⟩, by simp [hs]⟩
        · exact ⟨z, .inr hz, hs⟩
        · exact ⟨_, .inl ⟨rfl, rfl⟩, by simp⟩
    · rw [if_neg e]
      simp only [List.mem_cons, Prod.mk.injEq]
      constructor
      · rintro ⟨z, ⟨rfl, rfl⟩ | hz, hs⟩
        · exact .inl ⟨_, .inl ⟨rfl, rfl⟩, hs⟩
        · rcases ih.mp ⟨z, hz, hs⟩ with ⟨y, hy, hs'⟩ | h
          · exact .inl ⟨y, .inr hy, hs'⟩
          · exact .inr h
      · rintro (⟨z, ⟨rfl, rfl⟩ | hz, hs⟩ | h)
        · exact ⟨_, .inl ⟨rfl, rfl⟩, hs⟩
        · obtain ⟨y, hy, hs'⟩ := ih.mpr (.inl ⟨z, hz, hs⟩)
          exact ⟨y, .inr hy, hs'⟩
        · obtain ⟨y, hy, hs'⟩ := ih.mpr (.inr h)
          exact ⟨y, .inr hy, hs'⟩

theorem addEdit_once (u : String) (t : Tok) : ∀ (A : List (String × List Tok)),
    (∀ q ∈ A, lower q.1 = lower u → q.1 = u) → (∀ q ∈ A, q.2.Nodup) → (∀ es, (u, es) ∈ A → t ∉ es) →
    ∀ q ∈ addEdit u t A, q.2.Nodup := by
  intro A
  induction A with
  | nil => intro _ _ _ q hq; simp only [addEdit, List.mem_singleton] at hq; subst hq; simp
  | cons c r ih =>
    obtain ⟨w, es⟩ := c
    intro h ho hn q hq
    simp only [addEdit] at hq
    by_cases e : lower w = lower u
    · have := h (w, es) (by simp) e
      simp only at this
      subst this
      rw [if_pos rfl] at hq
      simp only [List.mem_cons] at hq
      rcases hq with rfl | hq
      · simp only
        rw [List.nodup_append]
        exact ⟨ho (w, es) (by simp), by simp, fun a ha b hb e => by
          simp only [List.mem_singleton] at hb
          subst hb
          subst e
          exact hn es (by simp) ha⟩
      · exact ho q (by simp [hq])
    · rw [if_neg e] at hq
      simp only [List.mem_cons] at hq
      rcases hq with rfl | hq
      · exact ho _ (by simp)
      · exact ih (fun q hq => h q (by simp [hq])) (fun q hq => ho q (by simp [hq]))
          (fun es he => hn es (by simp [he])) q hq

theorem edits_step {E : List (String × Tok)} {A : List (String × List Tok)} (h : Edits E A) {u : String} {t : Tok}
    (hu : ∀ q ∈ E, lower q.1 = lower u → q.1 = u) (hn : (u, t) ∉ E) : Edits (E ++ [(u, t)]) (addEdit u t A) := by
  have hA : ∀ q ∈ A, lower q.1 = lower u → q.1 = u := by
    intro q hq e
    obtain ⟨s, hs⟩ := h.keys q hq
    exact hu _ hs e
  have hmem : ∀ v s, (∃ es, (v, es) ∈ addEdit u t A ∧ s ∈ es) ↔ (v, s) ∈ E ++ [(u, t)] := by
    intro v s
    rw [addEdit_mem u t A hA, h.mem]
    simp
  refine ⟨?_, ?_, ?_, hmem⟩
  · intro q hq
    have hk : q.1 ∈ (addEdit u t A).map (·.1) := List.mem_map.mpr ⟨q, hq, rfl⟩
    rw [addEdit_keys u t A hA] at hk
    have : q.1 ∈ A.map (·.1) ∨ q.1 = u := by
      split at hk
      · exact .inl hk
      · simpa using hk
    rcases this with hk | hk
    · obtain ⟨z, hz, e⟩ := List.mem_map.mp hk
      obtain ⟨s, hs⟩ := h.keys z hz
      exact ⟨s, by simp only [List.mem_append]; exact .inl (e ▸ hs)⟩
    · exact ⟨t, by simp [hk]⟩
  · rw [addEdit_keys u t A hA]
    split
    · exact h.nodup
    · rename_i hu
      rw [List.nodup_append]
      exact ⟨h.nodup, by simp, fun a ha b hb e => by
        simp only [List.mem_singleton] at hb
        subst hb
        subst e
        exact hu ha⟩
  · exact addEdit_once u t A hA h.once (fun es he ht => hn ((h.mem u t).mp ⟨es, he, ht⟩))

theorem edits_fold : ∀ (R E : List (String × Tok)) (A : List (String × List Tok)), Edits E A → (E ++ R).Nodup →
    (∀ q ∈ E ++ R, ∀ z ∈ E ++ R, lower q.1 = lower z.1 → q.1 = z.1) →
    Edits (E ++ R) (R.foldl (fun a e => addEdit e.1 e.2 a) A) := by
  intro R
  induction R with
  | nil => intro E A h _ _; simpa using h
  | cons c r ih =>
    obtain ⟨u, t⟩ := c
    intro E A h hn hl
    have e : E ++ (u, t) :: r = (E ++ [(u, t)]) ++ r := by simp
    have h1 := edits_step h (u := u) (t := t) (fun q hq => hl q (by simp [hq]) (u, t) (by simp)) (by
      intro hm
      rw [List.nodup_append] at hn
      exact hn.2.2 (u, t) hm (u, t) (by simp) rfl)
    rw [e] at hn hl ⊢
    exact ih _ _ h1 hn hl

end Verif.LspNav
