import Verif.LspNav.Requests

/-!
# Rename, references, go to definition, hover: theorems
-/

namespace Verif.LspNav
open Verif Spec

/-! ## C96: references and renaming -/

/-- **C96** (partial: `Fit`).  From any occurrence, the references are exactly the occurrences of the
same declaration in the whole project, each once. -/
theorem references_partial {k : Bool} {x : String} {d : Decl} {hist : List (String × File)} {p : Proj}
    (hf : Fit k x d hist) (h : session Proj.new hist = .ok p) {u : String} {t : Tok} {line col : Nat}
    (ht : (t, some d) ∈ uses hist u) (hx : t.name = x) (hA : At t line col) :
    (p.refsAt u line col).Nodup ∧ ∀ v s, (v, s) ∈ p.refsAt u line col ↔ (s, some d) ∈ uses hist v := by
  have hi := inv_of h
  obtain ⟨f, hc, hm⟩ := uses_file ht
  obtain ⟨idx, hq⟩ := file_of hi hc
  obtain ⟨g, hF⟩ := facts (P := fun _ _ => True) hf hi (fun _ _ _ _ => trivial) hq
  have : g = f := by have := hF.cur; rw [hc] at this; simpa using this.symm
  subst this
  obtain ⟨r, _, hr, _, hn⟩ := findAt_eq hf hF hm hx hA
  simp only [Proj.refsAt, index_of hi hq, hr, hn]
  exact references_spec hf hi ((uses_name ht).trans hx)

/-- **C96** (partial: `Fit`, and the names of the files differ in more than case).  Renaming from any
occurrence edits, file by file, exactly the occurrences of the same declaration in the whole project,
each once. -/
theorem rename_partial {k : Bool} {x : String} {d : Decl} {hist : List (String × File)} {p : Proj}
    (hf : Fit k x d hist) (hl : ∀ q ∈ hist, ∀ z ∈ hist, lower q.1 = lower z.1 → q.1 = z.1)
    (h : session Proj.new hist = .ok p) {u : String} {t : Tok} {line col : Nat}
    (ht : (t, some d) ∈ uses hist u) (hx : t.name = x) (hA : At t line col) :
    ∃ changes, p.rename u line col = some changes ∧ (changes.map (·.1)).Nodup ∧ (∀ c ∈ changes, c.2.Nodup) ∧
      ∀ v s, (∃ es, (v, es) ∈ changes ∧ s ∈ es) ↔ (s, some d) ∈ uses hist v := by
  have hi := inv_of h
  obtain ⟨f, hc, hm⟩ := uses_file ht
  obtain ⟨idx, hq⟩ := file_of hi hc
  obtain ⟨g, hF⟩ := facts (P := fun _ _ => True) hf hi (fun _ _ _ _ => trivial) hq
  have : g = f := by have := hF.cur; rw [hc] at this; simpa using this.symm
  subst this
  obtain ⟨h1, h2⟩ := references_spec hf hi ((uses_name ht).trans hx)
  have hk : ∀ q ∈ p.references x, ∃ g, (q.1, g) ∈ hist := by
    rintro ⟨v, s⟩ hs
    obtain ⟨idx', hq', _⟩ := mem_references.mp hs
    obtain ⟨z, hz, e⟩ := List.mem_map.mp ((hi.known v).mp (List.mem_map.mpr ⟨_, hq', rfl⟩))
    exact ⟨z.2, by obtain ⟨a, b⟩ := z; simp only at e; subst e; exact hz⟩
  have hE := edits_fold (p.references x) [] [] ⟨fun _ h => by simp at h, by simp, fun _ h => by simp at h,
    fun v s => by simp⟩ (by simpa using h1) (by
      intro q hq z hz e
      obtain ⟨g1, hg1⟩ := hk q (by simpa using hq)
      obtain ⟨g2, hg2⟩ := hk z (by simpa using hz)
      exact hl _ hg1 _ hg2 e)
  simp only [List.nil_append] at hE
  refine ⟨_, ?_, hE.nodup, hE.once, fun v s => (hE.mem v s).trans (h2 v s)⟩
  simp only [Proj.rename, index_of hi hq, symbolAt_eq hf hF hm hx hA]

/-! ## C97: go to definition and hover -/

/-- The definition found for a name declared once. -/
theorem findDefinition_eq {x : String} {d : Decl} {p : Proj} {idx : List Rng}
    (hn : (p.files.map (·.1)).Nodup) (hm : (d.1, idx) ∈ p.files) (hd : ∃ r ∈ idx, r.isDef = true ∧ r.name = x)
    (ho : ∀ v i, (v, i) ∈ p.files → ∀ r ∈ i, r.isDef = true → r.name = x → v = d.1 ∧ r.tok = d.2) :
    ∃ r, p.findDefinition x = some (d.1, r) ∧ r.tok = d.2 := by
  unfold Proj.findDefinition
  cases h : p.files.findSome? (fun f => (f.2.find? (fun r => r.isDef && r.name == x)).map (fun r => (f.1, r))) with
  | none =>
    rw [List.findSome?_eq_none_iff] at h
    have := h _ hm
    simp only [Option.map_eq_none_iff, List.find?_eq_none] at this
    obtain ⟨r, hr, h1, h2⟩ := hd
    exact absurd (by simp [h1, h2]) (this r hr)
  | some q =>
    obtain ⟨f, hf, hq⟩ := List.exists_of_findSome?_eq_some h
    simp only [Option.map_eq_some_iff] at hq
    obtain ⟨r, hr, rfl⟩ := hq
    have h1 := List.find?_some hr
    simp only [Bool.and_eq_true, beq_iff_eq] at h1
    obtain ⟨e1, e2⟩ := ho f.1 f.2 hf r (List.mem_of_find?_eq_some hr) h1.1 h1.2
    exact ⟨r, by rw [e1], e2⟩

/-- **C97** (partial: `Fit`; `x` is declared nowhere else, now or before; and, from another file, no
declaration there has the place of this one).  From any occurrence, go to definition leads to the
declaration. -/
theorem goto_partial {k : Bool} {x : String} {d : Decl} {hist : List (String × File)} {p : Proj}
    (hf : Fit k x d hist) (h : session Proj.new hist = .ok p)
    {g : File} {text : String} (hg : current hist d.1 = some g) (hd : (d.2, text) ∈ decls g)
    (ho : ∀ q ∈ hist, ∀ e ∈ decls q.2, e.1.name = x → (q.1, e.1) = d)
    {u : String} {t : Tok} {line col : Nat} (ht : (t, some d) ∈ uses hist u) (hx : t.name = x) (hA : At t line col)
    (hother : u ≠ d.1 → ∀ f, current hist u = some f → ∀ e ∈ decls f, ¬ At e.1 (d.2.line - 1) (d.2.col - 1)) :
    p.goto u line col = some (d.1, d.2.line - 1, d.2.col - 1) := by
  have hi := inv_of h
  have hdx : d.2.name = x := (uses_name ht).trans hx
  have hP : ∀ q ∈ hist, ∀ e ∈ decls q.2, (fun n s => n = x → s = d.2) e.1.name e.1 := by
    intro q hq e he hn
    have := ho q hq e he hn
    rw [← this]
  obtain ⟨f, hc, hm⟩ := uses_file ht
  obtain ⟨idx, hq⟩ := file_of hi hc
  obtain ⟨f', hF⟩ := facts (P := fun n s => n = x → s = d.2) hf hi hP hq
  have e : f' = f := by have := hF.cur; rw [hc] at this; simpa using this.symm
  subst e
  obtain ⟨r, hri, hr, hrt, hn⟩ := findAt_eq hf hF hm hx hA
  obtain ⟨jdx, hj⟩ := file_of hi hg
  obtain ⟨g', hG⟩ := facts (P := fun n s => n = x → s = d.2) hf hi hP hj
  have e : g' = g := by have := hG.cur; rw [hg] at this; simpa using this.symm
  subst e
  have hdef := hG.dfn _ hd
  have hdm : d.2 ∈ toksF g' := (hG.entry _ hdef).mem
  have hpl := hf.placed _ hG.mem d.2 (by rw [names_eq]; exact hdm)
  have hAd : At d.2 (d.2.line - 1) (d.2.col - 1) := by simp only [At]; omega
  simp only [Proj.goto, index_of hi hq, hr]
  cases hdt : r.dt with
  | none =>
    have h1 := (hF.entry r hri).dfn hdt
    have h2 := ho _ hF.mem _ h1 ((hF.entry r hri).name ▸ hn)
    simp only [← h2]
  | some dd =>
    have hdd : dd = d.2 := (hF.entry r hri).ref dd hdt hn
    subst hdd
    simp only
    by_cases hu : u = d.1
    · subst hu
      have hij : idx = jdx := by
        have h1 := index_of hi hq
        rw [index_of hi hj] at h1
        simpa using h1.symm
      subst hij
      obtain ⟨r2, hr2, h2, ht2, hn2⟩ := findAt_eq hf hG hdm hdx hAd
      -- the entry of the declaration is the only one with that place
      have : r2 = ⟨d.2, d.2.name, none, text⟩ := by
        have hnd : (named x idx).Nodup := by
          rw [hG.named]
          have hap := hf.apart d.1 g' hG.cur
          rw [names_eq] at hap
          exact (pairwise_nodup hap).filter _
        have m1 : r2 ∈ idx.filter (fun r => r.name == x) := List.mem_filter.mpr ⟨hr2, by simpa using hn2⟩
        have m2 : (⟨d.2, d.2.name, none, text⟩ : Rng) ∈ idx.filter (fun r => r.name == x) :=
          List.mem_filter.mpr ⟨hdef, by simpa using hdx⟩
        have inj : ∀ (l : List Rng), (l.map (·.tok)).Nodup → ∀ a ∈ l, ∀ b ∈ l, a.tok = b.tok → a = b := by
          intro l
          induction l with
          | nil => intro _ a ha; simp at ha
          | cons z l ih =>
            intro hl a ha b hb hab
            simp only [List.map_cons, List.nodup_cons] at hl
            simp only [List.mem_cons] at ha hb
            rcases ha with rfl | ha <;> rcases hb with rfl | hb
            · rfl
            · exact absurd (List.mem_map.mpr ⟨b, hb, hab.symm⟩) hl.1
            · exact absurd (List.mem_map.mpr ⟨a, ha, hab⟩) hl.1
            · exact ih hl.2 a ha b hb hab
        exact inj _ hnd _ m1 _ m2 ht2
      rw [h2, this]
      simp [Rng.isDef]
    · have hnone : (findAt idx (d.2.line - 1) (d.2.col - 1)).any Rng.isDef = false := by
        cases hfa : findAt idx (d.2.line - 1) (d.2.col - 1) with
        | none => rfl
        | some r2 =>
          simp only [Option.any_some]
          cases hid : r2.isDef with
          | false => rfl
          | true =>
            exfalso
            have hr2 : r2 ∈ idx := by
              unfold findAt at hfa
              simpa using List.mem_of_find?_eq_some hfa
            have hcv : r2.covers (d.2.line - 1) (d.2.col - 1) = true := by
              unfold findAt at hfa
              simpa using List.find?_some hfa
            have he := hF.entry r2 hr2
            have hp2 := hf.placed _ hF.mem r2.tok (by rw [names_eq]; exact he.mem)
            exact hother hu f' hc _ (he.dfn (by simpa [Rng.isDef] using hid)) ((covers_at hp2.1 hp2.2).mp hcv)
      rw [hnone]
      simp only [Bool.false_eq_true, if_false, hn]
      obtain ⟨r3, h3, ht3⟩ := findDefinition_eq (x := x) (d := d) hi.nodup hj ⟨_, hdef, rfl, hdx⟩ (by
        intro v i hv r0 hr0 hid hnm
        obtain ⟨fv, hV⟩ := facts (P := fun n s => n = x → s = d.2) hf hi hP hv
        have he := hV.entry r0 hr0
        have := ho _ hV.mem _ (he.dfn (by simpa [Rng.isDef] using hid)) (he.name ▸ hnm)
        simp only [← this, and_self])
      simp [h3, ht3]

/-- **C97** (partial: `Fit`; `x` is declared nowhere else, now or before; only in the file of the
declaration).  Hovering over any occurrence shows the declaration. -/
theorem hover_partial {k : Bool} {x : String} {d : Decl} {hist : List (String × File)} {p : Proj}
    (hf : Fit k x d hist) (h : session Proj.new hist = .ok p)
    {g : File} {text : String} (hg : current hist d.1 = some g) (hd : (d.2, text) ∈ decls g)
    (ho : ∀ q ∈ hist, ∀ e ∈ decls q.2, e.1.name = x → (q.1, e.1) = d)
    {t : Tok} {line col : Nat} (ht : (t, some d) ∈ uses hist d.1) (hx : t.name = x) (hA : At t line col) :
    p.hover d.1 line col = some text := by
  have hi := inv_of h
  have hdx : d.2.name = x := (uses_name ht).trans hx
  have hP : ∀ q ∈ hist, ∀ e ∈ decls q.2, (fun n s => n = x → s = d.2) e.1.name e.1 := by
    intro q hq e he hn
    have := ho q hq e he hn
    rw [← this]
  obtain ⟨f, hc, hm⟩ := uses_file ht
  obtain ⟨idx, hq⟩ := file_of hi hc
  obtain ⟨f', hF⟩ := facts (P := fun n s => n = x → s = d.2) hf hi hP hq
  have e : f' = f := by have := hF.cur; rw [hc] at this; simpa using this.symm
  subst e
  have e : g = f' := by rw [hc] at hg; simpa using hg.symm
  subst e
  obtain ⟨r, hri, hr, hrt, hn⟩ := findAt_eq hf hF hm hx hA
  have hdef := hF.dfn _ hd
  have hdm : d.2 ∈ toksF g := (hF.entry _ hdef).mem
  have hpl := hf.placed _ hF.mem d.2 (by rw [names_eq]; exact hdm)
  have hAd : At d.2 (d.2.line - 1) (d.2.col - 1) := by simp only [At]; omega
  have hnd : (named x idx).Nodup := by
    rw [hF.named]
    have hap := hf.apart d.1 g hF.cur
    rw [names_eq] at hap
    exact (pairwise_nodup hap).filter _
  have inj : ∀ (l : List Rng), (l.map (·.tok)).Nodup → ∀ a ∈ l, ∀ b ∈ l, a.tok = b.tok → a = b := by
    intro l
    induction l with
    | nil => intro _ a ha; simp at ha
    | cons z l ih =>
      intro hl a ha b hb hab
      simp only [List.map_cons, List.nodup_cons] at hl
      simp only [List.mem_cons] at ha hb
      rcases ha with rfl | ha <;> rcases hb with rfl | hb
      · rfl
      · exact absurd (List.mem_map.mpr ⟨b, hb, hab.symm⟩) hl.1
      · exact absurd (List.mem_map.mpr ⟨a, ha, hab⟩) hl.1
      · exact ih hl.2 a ha b hb hab
  have only : ∀ r2 ∈ idx, r2.tok = d.2 → r2.name = x → r2 = ⟨d.2, d.2.name, none, text⟩ := by
    intro r2 hr2 ht2 hn2
    exact inj _ hnd _ (List.mem_filter.mpr ⟨hr2, by simpa using hn2⟩) _
      (List.mem_filter.mpr ⟨hdef, by simpa using hdx⟩) ht2
  simp only [Proj.hover, index_of hi hq, hr]
  cases hdt : r.dt with
  | none =>
    have h1 := (hF.entry r hri).dfn hdt
    have h2 := ho _ hF.mem _ h1 ((hF.entry r hri).name ▸ hn)
    have h3 := only r hri (by rw [← h2]) hn
    simp only [h3]
  | some dd =>
    have hdd : dd = d.2 := (hF.entry r hri).ref dd hdt hn
    subst hdd
    simp only
    obtain ⟨r2, hr2, h2, ht2, hn2⟩ := findAt_eq hf hF hdm hdx hAd
    rw [h2, only r2 hr2 ht2 hn2]
    simp [Rng.isDef]

/-! ## The hypotheses are met -/

/-- `fn add(a: int) -> int { let s = a + 1; return s; }`. -/
def fileA : File :=
  [.fn ⟨1, 4, "add"⟩ [(⟨1, 8, "a"⟩, none)] "int"
    (.cons (.decl ⟨2, 9, "s"⟩ (.bin (.var ⟨2, 13, "a"⟩) .lit)) (.cons (.ret (.var ⟨3, 12, "s"⟩)) .nil))]

/-- `fn main() -> int { let s = add(1); if s { return add(s); } return 0; }`, from line `n`. -/
def fileAt (n : Nat) : File :=
  [.fn ⟨n, 4, "main"⟩ [] "int"
    (.cons (.decl ⟨n + 1, 9, "s"⟩ (.call ⟨n + 1, 13, "add"⟩ (.cons .lit .nil)))
      (.cons (.ifs (.var ⟨n + 2, 8, "s"⟩)
        (.cons (.ret (.call ⟨n + 3, 16, "add"⟩ (.cons (.var ⟨n + 3, 20, "s"⟩) .nil))) .nil) .nil)
        (.cons (.ret .lit) .nil)))]

/-- Below a comment. -/
def fileB : File := fileAt 3

/-- Two files. -/
def ab : List (String × File) := [("file:///a.zc", fileA), ("file:///b.zc", fileB)]

/-- The declaration of `add`. -/
def dAdd : Decl := ("file:///a.zc", ⟨1, 4, "add"⟩)

instance (a b : Tok) : Decidable (Apart a b) := by unfold Apart; infer_instance

theorem ab_current {u : String} {f : File} (h : current ab u = some f) :
    (u = "file:///a.zc" ∧ f = fileA) ∨ (u = "file:///b.zc" ∧ f = fileB) := by
  simp only [current, ab, List.reverse_cons, List.reverse_nil, List.nil_append, List.cons_append, lookup_cons] at h
  split at h
  · rename_i e; exact .inr ⟨e, by simpa using h.symm⟩
  · split at h
    · rename_i e; exact .inl ⟨e, by simpa using h.symm⟩
    · simp at h

theorem ab_fit : Fit true "add" dAdd ab where
  placed := by
    intro q hq
    simp only [ab, List.mem_cons, List.not_mem_nil, or_false] at hq
    rcases hq with rfl | rfl <;> decide
  bare := by
    intro q hq i hi
    simp only [ab, List.mem_cons, List.not_mem_nil, or_false] at hq
    rcases hq with rfl | rfl
    · simp only [fileA, List.mem_cons, List.not_mem_nil, or_false] at hi
      subst hi
      simp
    · simp only [fileB, fileAt, List.mem_cons, List.not_mem_nil, or_false] at hi
      subst hi
      simp
  apart := by
    intro u f h
    rcases ab_current h with ⟨_, rfl⟩ | ⟨_, rfl⟩ <;> decide +kernel
  plain := by
    intro u f h i hi
    rcases ab_current h with ⟨_, rfl⟩ | ⟨_, rfl⟩
    · simp only [fileA, List.mem_cons, List.not_mem_nil, or_false] at hi
      subst hi
      simp [PlainI, PlainB, PlainS, PlainE, PlainEs]
    · simp only [fileB, fileAt, List.mem_cons, List.not_mem_nil, or_false] at hi
      subst hi
      simp [PlainI, PlainB, PlainS, PlainE, PlainEs]
  bound := by
    intro u
    cases h : current ab u with
    | none => intro p hp; simp [uses, h, usesF] at hp
    | some f => rcases ab_current h with ⟨rfl, rfl⟩ | ⟨rfl, rfl⟩ <;> decide +kernel
  settled := by
    intro _ pre u f post h hu
    rcases pre with _ | ⟨a, _ | ⟨b, _ | ⟨c, pre⟩⟩⟩
    · simp only [ab, List.nil_append, List.cons.injEq, Prod.mk.injEq] at h
      obtain ⟨⟨_, rfl⟩, _⟩ := h
      simp [fileA, Above, inside, declares]
    · simp only [ab, List.cons_append, List.nil_append, List.cons.injEq, Prod.mk.injEq] at h
      obtain ⟨rfl, ⟨_, rfl⟩, _⟩ := h
      simp [fileA, fileB, fileAt, Above, inside, declares]
    · simp [ab] at h
    · simp [ab] at h

/-- The answer to a request after a session. -/
def ask {α : Type} (hist : List (String × File)) (f : Proj → α) : Option α :=
  match session Proj.new hist with
  | .ok p => some (f p)
  | _ => none

/-- The project is read. -/
theorem ab_ok : ∃ p, session Proj.new ab = .ok p := by
  have : ask ab (fun _ => true) = some true := by decide +kernel
  unfold ask at this
  split at this
  · rename_i p h; exact ⟨p, h⟩
  · simp at this

/-- The other hypotheses. -/
theorem ab_hyps : (⟨6, 16, "add"⟩, some dAdd) ∈ uses ab "file:///b.zc" ∧
    (∀ q ∈ ab, ∀ z ∈ ab, lower q.1 = lower z.1 → q.1 = z.1) ∧
    current ab dAdd.1 = some fileA ∧ (dAdd.2, "fn add(...) -> int") ∈ decls fileA ∧
    (∀ q ∈ ab, ∀ e ∈ decls q.2, e.1.name = "add" → (q.1, e.1) = dAdd) ∧
    (∀ e ∈ decls fileB, ¬ At e.1 (dAdd.2.line - 1) (dAdd.2.col - 1)) := by
  refine ⟨by decide +kernel, ?_, rfl, by decide +kernel, ?_, ?_⟩
  · intro q hq z hz
    simp only [ab, List.mem_cons, List.not_mem_nil, or_false] at hq hz
    rcases hq with rfl | rfl <;> rcases hz with rfl | rfl <;> decide +kernel
  · intro q hq
    simp only [ab, List.mem_cons, List.not_mem_nil, or_false] at hq
    rcases hq with rfl | rfl <;> decide +kernel
  · simp only [At]; decide +kernel

/-- The theorems, together, for this project. -/
theorem ab_requests : ask ab (fun p => p.rename "file:///b.zc" 5 16) =
      some (some [("file:///b.zc", [⟨4, 13, "add"⟩, ⟨6, 16, "add"⟩]), ("file:///a.zc", [⟨1, 4, "add"⟩])]) ∧
    ask ab (fun p => p.goto "file:///b.zc" 5 16) = some (some ("file:///a.zc", 0, 3)) ∧
    ask ab (fun p => p.hover "file:///a.zc" 0 4) = some (some "fn add(...) -> int") := by decide +kernel

/-! ## What goes wrong -/

/-- **C96** fails: whatever the declarations mean, the references of a name include every declaration
in the project that is spelled alike; renaming edits them all. -/
theorem alike_violated {hist : List (String × File)} {p : Proj} (h : session Proj.new hist = .ok p)
    {u : String} {idx : List Rng} {r : Rng} {line col : Nat} (hu : p.index u = some idx)
    (hr : findAt idx line col = some r) {v : String} {f : File} (hc : current hist v = some f)
    (hl : ∀ t ∈ names f, 0 < t.line) {e : Tok × String} (he : e ∈ decls f) (hn : e.1.name = r.name) :
    (v, e.1) ∈ p.refsAt u line col := by
  have hi := inv_of h
  obtain ⟨jdx, hj⟩ := file_of hi hc
  obtain ⟨a, g, b, hh, hb, hx⟩ := hi.index v jdx hj
  have : g = f := by
    have h1 : current hist v = some g := by rw [hh]; exact current_eq hb
    rw [hc] at h1
    simpa using h1.symm
  subst this
  have hd := defF g (hctx a) (fun t ht => hl t (by rw [names_eq]; exact ht)) e he
  rw [← hx] at hd
  simp only [Proj.refsAt, hu, hr]
  refine mem_references.mpr ⟨jdx, hj, ?_⟩
  simp only [named, List.mem_map, List.mem_filter]
  exact ⟨_, ⟨hd, by simpa using hn⟩, rfl⟩

/-- **C96** fails: renaming the variable `s` of one function also edits the `s` of a function in
another file, which stands for another variable. -/
theorem rename_local_violated : ask ab (fun p => p.rename "file:///a.zc" 1 8) =
      some (some [("file:///b.zc", [⟨4, 9, "s"⟩, ⟨5, 8, "s"⟩, ⟨6, 20, "s"⟩]),
        ("file:///a.zc", [⟨2, 9, "s"⟩, ⟨3, 12, "s"⟩])]) ∧
    (⟨5, 8, "s"⟩, some ("file:///b.zc", ⟨4, 9, "s"⟩)) ∈ uses ab "file:///b.zc" ∧
    (⟨2, 9, "s"⟩, some ("file:///a.zc", ⟨2, 9, "s"⟩)) ∈ uses ab "file:///a.zc" := by decide +kernel

/-- **C96** fails: a parameter cannot be renamed, neither where it is declared nor where it is used. -/
theorem rename_param_violated : ask ab (fun p => p.rename "file:///a.zc" 0 7) = some none ∧
    ask ab (fun p => p.rename "file:///a.zc" 1 12) = some none ∧
    uses ab "file:///a.zc" = [(⟨1, 4, "add"⟩, some dAdd), (⟨1, 8, "a"⟩, some ("file:///a.zc", ⟨1, 8, "a"⟩)),
      (⟨2, 9, "s"⟩, some ("file:///a.zc", ⟨2, 9, "s"⟩)), (⟨2, 13, "a"⟩, some ("file:///a.zc", ⟨1, 8, "a"⟩)),
      (⟨3, 12, "s"⟩, some ("file:///a.zc", ⟨2, 9, "s"⟩))] := by decide +kernel

/-- `let n = 1; return -n;`. -/
def underFile : List (String × File) :=
  [("u", [.fn ⟨1, 4, "f"⟩ [] "int" (.cons (.decl ⟨2, 9, "n"⟩ .lit) (.cons (.ret (.under (.var ⟨3, 13, "n"⟩))) .nil))])]

/-- **C96** fails: a use below a unary operator (or a cast, an index, a member, ...) is not edited. -/
theorem rename_under_violated :
    ask underFile (fun p => p.rename "u" 1 8) = some (some [("u", [⟨2, 9, "n"⟩])]) ∧
    (⟨3, 13, "n"⟩, some ("u", ⟨2, 9, "n"⟩)) ∈ uses underFile "u" := by decide +kernel

/-- `fn main() { helper(); }  fn helper() {}`. -/
def forward : File :=
  [.fn ⟨1, 4, "main"⟩ [] "void" (.cons (.expr (.call ⟨2, 5, "helper"⟩ .nil)) .nil),
   .fn ⟨5, 4, "helper"⟩ [] "void" .nil]

/-- **C96** fails: a call above the declaration is not edited, until the file is read again. -/
theorem rename_forward_violated :
    ask [("u", forward)] (fun p => p.rename "u" 4 3) = some (some [("u", [⟨5, 4, "helper"⟩])]) ∧
    (⟨2, 5, "helper"⟩, some ("u", ⟨5, 4, "helper"⟩)) ∈ uses [("u", forward)] "u" ∧
    ask [("u", forward), ("u", forward)] (fun p => p.rename "u" 4 3)
      = some (some [("u", [⟨2, 5, "helper"⟩, ⟨5, 4, "helper"⟩])]) := by decide +kernel

/-- `fn cb() {}  fn main() { let h = cb; }`. -/
def valueFile : List (String × File) :=
  [("u", [.fn ⟨1, 4, "cb"⟩ [] "void" .nil,
    .fn ⟨3, 4, "main"⟩ [] "void" (.cons (.decl ⟨4, 9, "h"⟩ (.var ⟨4, 13, "cb"⟩)) .nil)])]

/-- **C96** fails: a function used as a value is not edited. -/
theorem rename_value_violated :
    ask valueFile (fun p => p.rename "u" 0 3) = some (some [("u", [⟨1, 4, "cb"⟩])]) ∧
    (⟨4, 13, "cb"⟩, some ("u", ⟨1, 4, "cb"⟩)) ∈ uses valueFile "u" := by decide +kernel

/-- `let LIMIT = 5;  fn f(n: int = LIMIT) {}` and, in another file, `fn main() { f(); }`. -/
def defaultFiles : List (String × File) :=
  [("lib", [.glob ⟨1, 5, "LIMIT"⟩ .lit, .fn ⟨2, 4, "f"⟩ [(⟨2, 6, "n"⟩, some ⟨2, 15, "LIMIT"⟩)] "void" .nil]),
   ("app", [.fn ⟨1, 4, "main"⟩ [] "void" (.cons (.expr (.call ⟨2, 5, "f"⟩ .nil)) .nil)])]

/-- **C96** fails: renaming a variable that is a default value edits the beginning of the file with
the call, where there is no such name, and not the default value. -/
theorem rename_default_violated :
    ask defaultFiles (fun p => p.rename "lib" 0 5)
      = some (some [("app", [⟨1, 1, "LIMIT"⟩]), ("lib", [⟨1, 5, "LIMIT"⟩])]) ∧
    (⟨2, 15, "LIMIT"⟩, some ("lib", ⟨1, 5, "LIMIT"⟩)) ∈ uses defaultFiles "lib" ∧
    (uses defaultFiles "app").map (·.1) = [⟨1, 4, "main"⟩, ⟨2, 5, "f"⟩] := by decide +kernel

/-- `fn f() {}`; and, in a file whose name differs in case only, `fn main() { f(); }`. -/
def caseFiles : List (String × File) :=
  [("file:///Util.zc", [.fn ⟨1, 4, "f"⟩ [] "void" .nil]),
   ("file:///util.zc", [.fn ⟨1, 4, "main"⟩ [] "void" (.cons (.expr (.call ⟨2, 5, "f"⟩ .nil)) .nil)])]

/-- **C96** fails: with two files whose names differ in case only, all edits are for one of them. -/
theorem rename_case_violated :
    ask caseFiles (fun p => p.rename "file:///util.zc" 1 4)
      = some (some [("file:///util.zc", [⟨2, 5, "f"⟩, ⟨1, 4, "f"⟩])]) ∧
    (uses caseFiles "file:///util.zc").map (·.1) = [⟨1, 4, "main"⟩, ⟨2, 5, "f"⟩] := by decide +kernel

/-- The same two files, with `main` in the first line. -/
def cross : List (String × File) := [("file:///a.zc", fileA), ("file:///b.zc", fileAt 1)]

/-- **C97** fails: the place of the declaration is first looked up in the file with the use; if
something is declared there, go to definition leads to it and hovering shows it: here `main` for a
call of `add`. -/
theorem goto_cross_violated :
    (⟨4, 16, "add"⟩, some dAdd) ∈ uses cross "file:///b.zc" ∧
    ask cross (fun p => p.goto "file:///b.zc" 3 16) = some (some ("file:///b.zc", 0, 3)) ∧
    ask cross (fun p => p.hover "file:///b.zc" 3 16) = some (some "fn main(...) -> int") := by decide +kernel

/-- **C97** fails: otherwise nothing is shown for a name of another file. -/
theorem hover_cross_violated : (⟨6, 16, "add"⟩, some dAdd) ∈ uses ab "file:///b.zc" ∧
    ask ab (fun p => p.hover "file:///b.zc" 5 16) = some none := by decide +kernel

/-- `fn f() { let n = 1; { let n = 2; n; } return n; }`. -/
def shadow : List (String × File) :=
  [("u", [.fn ⟨1, 4, "f"⟩ [] "int" (.cons (.decl ⟨2, 9, "n"⟩ .lit)
      (.cons (.block (.cons (.decl ⟨3, 9, "n"⟩ .lit) (.cons (.expr (.var ⟨4, 5, "n"⟩)) .nil)))
        (.cons (.ret (.var ⟨6, 12, "n"⟩)) .nil)))])]

/-- Shadowing is followed by go to definition. -/
theorem goto_shadow : ask shadow (fun p => (p.goto "u" 3 4, p.goto "u" 5 11)) =
    some (some ("u", 2, 8), some ("u", 1, 8)) := by decide +kernel

/-- The file of `add`, two lines further down. -/
def fileA' : File := [.fn ⟨3, 4, "add"⟩ [] "int" (.cons (.ret .lit) .nil)]

/-- The library is edited after the application was read. -/
def stale : List (String × File) := [("file:///a.zc", fileA), ("file:///b.zc", fileAt 7), ("file:///a.zc", fileA'),
  ("file:///c.zc", [.glob ⟨1, 5, "add"⟩ .lit])]

/-- **C97** fails: with another declaration of the name in the project, a call leads to the file read
last, although that is a variable of a file the call has nothing to do with. -/
theorem goto_other_violated :
    ask stale (fun p => p.goto "file:///b.zc" 9 16) = some (some ("file:///c.zc", 0, 4)) ∧
    (⟨10, 16, "add"⟩, some ("file:///a.zc", ⟨3, 4, "add"⟩)) ∈ uses stale "file:///b.zc" := by
  decide +kernel

/-- **C97** fails: reading a file that declares a name too long for 256 bytes of text overflows. -/
theorem hover_overflow_violated (p : Proj) (u : String) (f : File) (hl : ∀ t ∈ names f, 0 < t.line)
    {e : Tok × String} (he : e ∈ decls f) (hlen : 256 ≤ e.2.length) : p.update u f = .ub := by
  have hd := defF f p.ctx (fun t ht => hl t (by rw [names_eq]; exact ht)) e he
  have : fits (walks (parseFile p.ctx f).1) = false := by
    rw [fits, List.all_eq_false]
    exact ⟨_, hd, by simp; omega⟩
  simp [Proj.update, this]

/-- Such a name. -/
theorem hover_overflow_case : ∀ n, 252 ≤ n →
    Proj.new.update "u" [.glob ⟨1, 5, String.ofList (List.replicate n 'a')⟩ .lit] = .ub := by
  intro n hn
  refine hover_overflow_violated _ _ _ ?_ (e := (⟨1, 5, String.ofList (List.replicate n 'a')⟩,
    "var " ++ String.ofList (List.replicate n 'a'))) (by simp [decls]) (by
      have : "var ".length = 4 := by decide
      simp only [String.length_append, String.length_ofList, List.length_replicate]; omega)
  simp [names, usesF, usesI, usesE]

end Verif.LspNav
