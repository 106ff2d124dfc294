import Verif.Modules.Model

/-! # Lemmas about imports -/

namespace Verif.Modules

open Spec

variable {fs : Path → Option File}

/-- The C name of what an item declares. -/
def defName (pre : Option Name) : Item → Option Name
  | .imp _ _ => none
  | .fn f _ => some (own pre f)
  | .struct t _ => some (own pre t)
  | .method t f _ => some (own pre t ++ "__" ++ f)

/-- The references of an item. -/
def bodyOf : Item → List Ref
  | .imp _ _ => []
  | .fn _ b | .struct _ b | .method _ _ b => b

/-- The state behind an item that is no import. -/
def declared (pre : Option Name) (p : Path) (i : Nat) (it : Item) (s : St) : St :=
  match it with
  | .imp _ _ => s
  | .fn f body => { s with evs := s.evs ++ .dfn (own pre f) p i :: uses pre p i s body }
  | .struct t fields =>
    { s with structs := own pre t :: s.structs, evs := s.evs ++ (uses pre p i s fields ++ [.dfn (own pre t) p i]) }
  | .method t f body => { s with evs := s.evs ++ .dfn (own pre t ++ "__" ++ f) p i :: uses pre p i s body }

/-- No import. -/
def isDecl : Item → Bool
  | .imp _ _ => false
  | _ => true

theorem declares_iff (it : Item) : Declares it ↔ isDecl it = true := by
  constructor
  · intro h
    cases h <;> rfl
  · intro h
    cases it with
    | imp => cases h
    | fn f b => exact .fn f b
    | struct t b => exact .struct t b
    | method t f b => exact .method t f b

theorem defName_decl {pre : Option Name} {it : Item} (h : isDecl it = true) : ∃ c, defName pre it = some c := by
  cases it with
  | imp => cases h
  | fn f b => exact ⟨_, rfl⟩
  | struct t b => exact ⟨_, rfl⟩
  | method t f b => exact ⟨_, rfl⟩

/-- Parsing without the depth. -/
inductive Runs (fs : Path → Option File) : Option Name → Path → Nat → List Item → St → St → Prop where
  | nil {pre p i s} : Runs fs pre p i [] s s
  | skip {pre p i k q is s s'} (hk : tooMany k = false) (h : q ∈ s.imported) (hr : Runs fs pre p (i + 1) is s s') :
      Runs fs pre p i (.imp k q :: is) s s'
  | incl {pre p i k q is s s'} (hk : tooMany k = false) (h : q ∉ s.imported) (hh : header q = true)
      (hr : Runs fs pre p (i + 1) is { register k q s with evs := s.evs ++ [.incl q] } s') :
      Runs fs pre p i (.imp k q :: is) s s'
  | imp {pre p i k q f is s s1 s'} (hk : tooMany k = false) (h : q ∉ s.imported) (hh : header q = false)
      (hf : fs q = some f) (hq : Runs fs (prefixOf k pre q) q 0 f (register k q s) s1)
      (hr : Runs fs pre p (i + 1) is s1 s') : Runs fs pre p i (.imp k q :: is) s s'
  | decl {pre p i it is s s'} (hd : isDecl it = true) (hr : Runs fs pre p (i + 1) is (declared pre p i it s) s') :
      Runs fs pre p i (it :: is) s s'

theorem run_runs {rec : Option Name → Path → File → St → R}
    (hrec : ∀ pre p f s s', rec pre p f s = .ok s' → Runs fs pre p 0 f s s') {pre : Option Name} {p : Path} :
    ∀ {is : List Item} {i : Nat} {s s' : St}, run fs rec pre p i is s = .ok s' → Runs fs pre p i is s s' := by
  intro is
  induction is with
  | nil =>
    intro i s s' h
    simp only [run, R.ok.injEq] at h
    subst h
    exact .nil
  | cons it is ih =>
    intro i s s' h
    cases it with
    | imp k q =>
      simp only [run, item] at h
      by_cases hk : tooMany k
      · simp [hk] at h
      rw [if_neg hk] at h
      have hk : tooMany k = false := by simpa using hk
      by_cases hq : q ∈ s.imported
      · rw [if_pos hq] at h
        exact .skip hk hq (ih h)
      rw [if_neg hq] at h
      by_cases hh : header q
      · rw [if_pos hh] at h
        exact .incl hk hq hh (ih h)
      rw [if_neg hh] at h
      have hh : header q = false := by simpa using hh
      cases hf : fs q with
      | none => simp [hf] at h
      | some f =>
        simp only [hf] at h
        cases hr : rec (prefixOf k pre q) q f (register k q s) with
        | ok s1 =>
          simp only [hr] at h
          exact .imp hk hq hh hf (hrec _ _ _ _ _ hr) (ih h)
        | missing => simp [hr] at h
        | over => simp [hr] at h
        | out => simp [hr] at h
    | fn f b => exact .decl rfl (ih h)
    | struct t b => exact .decl rfl (ih h)
    | method t f b => exact .decl rfl (ih h)

theorem parse_runs (n : Nat) : ∀ {pre : Option Name} {p : Path} {f : File} {s s' : St},
    parse fs n pre p f s = .ok s' → Runs fs pre p 0 f s s' := by
  induction n with
  | zero =>
    intro pre p f s s' h
    cases h
  | succ n ih =>
    intro pre p f s s' h
    exact run_runs (fun _ _ _ _ _ h => ih h) h

/-! ## Growth -/

/-- What only grows. -/
structure Grows (s s' : St) : Prop where
  imported : ∀ q, q ∈ s.imported → q ∈ s'.imported
  mods : ∀ m, m ∈ s.mods → m ∈ s'.mods
  sels : ∀ e, e ∈ s.sels → e ∈ s'.sels
  structs : ∀ t, t ∈ s.structs → t ∈ s'.structs
  evs : ∀ e, e ∈ s.evs → e ∈ s'.evs

theorem Grows.refl (s : St) : Grows s s := ⟨fun _ h => h, fun _ h => h, fun _ h => h, fun _ h => h, fun _ h => h⟩

theorem Grows.trans {a b c : St} (h : Grows a b) (h' : Grows b c) : Grows a c :=
  ⟨fun _ x => h'.1 _ (h.1 _ x), fun _ x => h'.2 _ (h.2 _ x), fun _ x => h'.3 _ (h.3 _ x), fun _ x => h'.4 _ (h.4 _ x),
    fun _ x => h'.5 _ (h.5 _ x)⟩

theorem register_imported (k : Import) (q : Path) (s : St) : (register k q s).imported = q :: s.imported := by
  cases k <;> rfl

theorem register_structs (k : Import) (q : Path) (s : St) : (register k q s).structs = s.structs := by
  cases k <;> rfl

theorem register_evs (k : Import) (q : Path) (s : St) : (register k q s).evs = s.evs := by
  cases k <;> rfl

theorem grows_register (k : Import) (q : Path) (s : St) : Grows s (register k q s) := by
  refine ⟨?_, ?_, ?_, ?_, ?_⟩
  · intro r h
    rw [register_imported]
    exact List.mem_cons_of_mem _ h
  · intro m h
    cases k with
    | named => exact List.mem_cons_of_mem _ h
    | _ => exact h
  · intro m h
    cases k with
    | sel => exact List.mem_append_right _ h
    | _ => exact h
  · intro t h
    rwa [register_structs]
  · intro t h
    rwa [register_evs]

theorem grows_incl (k : Import) (q : Path) (s : St) : Grows s { register k q s with evs := s.evs ++ [.incl q] } := by
  have := grows_register k q s
  exact ⟨this.1, this.2, this.3, this.4, fun _ h => List.mem_append_left _ h⟩

theorem declared_same (pre : Option Name) (p : Path) (i : Nat) (it : Item) (s : St) :
    (declared pre p i it s).imported = s.imported ∧ (declared pre p i it s).mods = s.mods ∧
      (declared pre p i it s).sels = s.sels := by
  cases it <;> exact ⟨rfl, rfl, rfl⟩

theorem grows_declared (pre : Option Name) (p : Path) (i : Nat) (it : Item) (s : St) :
    Grows s (declared pre p i it s) := by
  obtain ⟨h1, h2, h3⟩ := declared_same pre p i it s
  refine ⟨by rw [h1]; exact fun _ h => h, by rw [h2]; exact fun _ h => h, by rw [h3]; exact fun _ h => h, ?_, ?_⟩
  · intro t h
    cases it with
    | struct => exact List.mem_cons_of_mem _ h
    | _ => exact h
  · intro e h
    cases it with
    | imp => exact h
    | _ => exact List.mem_append_left _ h

theorem Runs.grows {pre : Option Name} {p : Path} {i : Nat} {is : List Item} {s s' : St} (h : Runs fs pre p i is s s') :
    Grows s s' := by
  induction h with
  | nil => exact .refl _
  | skip _ _ _ ih => exact ih
  | incl _ _ _ _ ih => exact (grows_incl _ _ _).trans ih
  | imp _ _ _ _ _ _ ih1 ih2 => exact (grows_register _ _ _).trans (ih1.trans ih2)
  | decl _ _ ih => exact (grows_declared _ _ _ _ _).trans ih

/-! ## Everything is written -/

theorem mem_declared {pre : Option Name} {p : Path} {i : Nat} {it : Item} {s : St} {c : Name}
    (h : defName pre it = some c) : Ev.dfn c p i ∈ (declared pre p i it s).evs := by
  cases it with
  | imp => cases h
  | fn f b => cases h; simp [declared]
  | struct t b => cases h; simp [declared]
  | method t f b => cases h; simp [declared]

theorem use_declared {pre : Option Name} {p : Path} {i : Nat} {it : Item} {s : St} {r : Ref} (h : r ∈ bodyOf it) :
    Ev.use p i r (cname pre s r) ∈ (declared pre p i it s).evs := by
  cases it with
  | imp => cases h
  | fn f b => simp only [declared, uses]; simp; exact .inr ⟨r, h, rfl, rfl⟩
  | struct t b => simp only [declared, uses]; simp; exact .inr ⟨r, h, rfl, rfl⟩
  | method t f b => simp only [declared, uses]; simp; exact .inr ⟨r, h, rfl, rfl⟩

/-- New events of a declaration. -/
theorem declared_new {pre : Option Name} {p : Path} {i : Nat} {it : Item} {s : St} {e : Ev}
    (h : e ∈ (declared pre p i it s).evs) :
    e ∈ s.evs ∨ (∃ c, defName pre it = some c ∧ e = .dfn c p i) ∨ (∃ r, r ∈ bodyOf it ∧ e = .use p i r (cname pre s r)) := by
  cases it with
  | imp => exact .inl h
  | fn f b =>
    simp only [declared, uses, List.mem_append, List.mem_cons, List.mem_map] at h
    rcases h with h | h | ⟨r, hr, h⟩
    · exact .inl h
    · exact .inr (.inl ⟨_, rfl, h⟩)
    · exact .inr (.inr ⟨r, hr, h.symm⟩)
  | struct t b =>
    simp only [declared, uses, List.mem_append, List.mem_map, List.mem_singleton] at h
    rcases h with h | ⟨r, hr, h⟩ | h
    · exact .inl h
    · exact .inr (.inr ⟨r, hr, h.symm⟩)
    · exact .inr (.inl ⟨_, rfl, h⟩)
  | method t f b =>
    simp only [declared, uses, List.mem_append, List.mem_cons, List.mem_map] at h
    rcases h with h | h | ⟨r, hr, h⟩
    · exact .inl h
    · exact .inr (.inl ⟨_, rfl, h⟩)
    · exact .inr (.inr ⟨r, hr, h.symm⟩)

/-- The declarations and references of a file are written, its structs are known, its imports are done. -/
structure Written (pre : Option Name) (p : Path) (i : Nat) (is : List Item) (s : St) : Prop where
  defs : ∀ (j : Nat) (it : Item) (c : Name), is[j]? = some it → defName pre it = some c → Ev.dfn c p (i + j) ∈ s.evs
  refs : ∀ (j : Nat) (it : Item) (r : Ref), is[j]? = some it → r ∈ bodyOf it → ∃ c, Ev.use p (i + j) r c ∈ s.evs
  structs : ∀ (t : Name) (b : List Ref), Item.struct t b ∈ is → own pre t ∈ s.structs
  imps : ∀ (k : Import) (q : Path), Item.imp k q ∈ is → q ∈ s.imported

theorem Written.grow {pre : Option Name} {p : Path} {i : Nat} {is : List Item} {s s' : St} (h : Written pre p i is s)
    (g : Grows s s') : Written pre p i is s' :=
  ⟨fun j it c h1 h2 => g.5 _ (h.1 j it c h1 h2), fun j it r h1 h2 => by
      obtain ⟨c, hc⟩ := h.2 j it r h1 h2
      exact ⟨c, g.5 _ hc⟩,
    fun t b h1 => g.4 _ (h.3 t b h1), fun k q h1 => g.1 _ (h.4 k q h1)⟩

theorem Written.cons {pre : Option Name} {p : Path} {i : Nat} {it : Item} {is : List Item} {s : St}
    (h : Written pre p (i + 1) is s) (hd : ∀ c, defName pre it = some c → Ev.dfn c p i ∈ s.evs)
    (hr : ∀ r, r ∈ bodyOf it → ∃ c, Ev.use p i r c ∈ s.evs) (ht : ∀ t b, it = .struct t b → own pre t ∈ s.structs)
    (hi : ∀ k q, it = .imp k q → q ∈ s.imported) : Written pre p i (it :: is) s := by
  refine ⟨?_, ?_, ?_, ?_⟩
  · intro j it' c h1 h2
    cases j with
    | zero =>
      simp only [List.getElem?_cons_zero, Option.some.injEq] at h1
      subst h1
      exact hd c h2
    | succ j =>
      rw [List.getElem?_cons_succ] at h1
      have := h.1 j it' c h1 h2
      rwa [show i + 1 + j = i + (j + 1) by omega] at this
  · intro j it' r h1 h2
    cases j with
    | zero =>
      simp only [List.getElem?_cons_zero, Option.some.injEq] at h1
      subst h1
      exact hr r h2
    | succ j =>
      rw [List.getElem?_cons_succ] at h1
      have := h.2 j it' r h1 h2
      rwa [show i + 1 + j = i + (j + 1) by omega] at this
  · intro t b hm
    rcases List.mem_cons.1 hm with hm | hm
    · exact ht t b hm.symm
    · exact h.3 t b hm
  · intro k q hm
    rcases List.mem_cons.1 hm with hm | hm
    · exact hi k q hm.symm
    · exact h.4 k q hm

theorem Runs.written {pre : Option Name} {p : Path} {i : Nat} {is : List Item} {s s' : St} (h : Runs fs pre p i is s s') :
    Written pre p i is s' := by
  induction h with
  | nil => exact ⟨(fun _ _ _ h => by simp at h), (fun _ _ _ h => by simp at h), (fun _ _ h => by cases h), (fun _ _ h => by cases h)⟩
  | skip _ hq hr ih =>
    refine ih.cons (fun c h => by cases h) (fun c h => by cases h) (fun t b h => by cases h) fun k q h => ?_
    cases h
    exact hr.grows.1 _ hq
  | incl _ _ _ hr ih =>
    refine ih.cons (fun c h => by cases h) (fun c h => by cases h) (fun t b h => by cases h) fun k q h => ?_
    cases h
    refine hr.grows.1 _ ?_
    show _ ∈ (register _ _ _).imported
    rw [register_imported]
    exact List.mem_cons_self
  | imp _ _ _ _ hq hr _ ih =>
    refine ih.cons (fun c h => by cases h) (fun c h => by cases h) (fun t b h => by cases h) fun k q h => ?_
    cases h
    refine hr.grows.1 _ (hq.grows.1 _ ?_)
    rw [register_imported]
    exact List.mem_cons_self
  | decl hd hr ih =>
    refine ih.cons (fun c h => hr.grows.5 _ (mem_declared h)) (fun r h => ⟨_, hr.grows.5 _ (use_declared h)⟩) ?_ ?_
    · intro t b h
      subst h
      exact hr.grows.4 _ List.mem_cons_self
    · intro k q h
      subst h
      cases hd

/-- Files that are new among the imported ones are written, with some prefix. -/
theorem Runs.files {pre : Option Name} {p : Path} {i : Nat} {is : List Item} {s s' : St} (h : Runs fs pre p i is s s') :
    ∀ q, q ∈ s'.imported → q ∈ s.imported ∨ header q = true ∨
      ∃ f pre', fs q = some f ∧ Written pre' q 0 f s' := by
  induction h with
  | nil => exact fun q h => .inl h
  | skip _ _ _ ih => exact ih
  | incl _ _ hh _ ih =>
    intro r hr
    rcases ih r hr with h | h | h
    · rw [show (St.imported _) = _ from register_imported _ _ _] at h
      rcases List.mem_cons.1 h with h | h
      · subst h
        exact .inr (.inl hh)
      · exact .inl h
    · exact .inr (.inl h)
    · exact .inr (.inr h)
  | imp _ _ _ hf hq hr ih1 ih2 =>
    intro r h
    rcases ih2 r h with h | h | h
    · rcases ih1 r h with h | h | ⟨f, pre', h1, h2⟩
      · rw [register_imported] at h
        rcases List.mem_cons.1 h with h | h
        · subst h
          exact .inr (.inr ⟨_, _, hf, hq.written.grow hr.grows⟩)
        · exact .inl h
      · exact .inr (.inl h)
      · exact .inr (.inr ⟨f, pre', h1, h2.grow hr.grows⟩)
    · exact .inr (.inl h)
    · exact .inr (.inr h)
  | decl _ _ ih =>
    intro r h
    rw [← (declared_same _ _ _ _ _).1]
    exact ih r h

/-! ## Nothing is written twice -/

theorem sites_append (a b : List Ev) : sites (a ++ b) = sites a ++ sites b := by
  simp [sites, List.filterMap_append]

theorem sites_uses (pre : Option Name) (p : Path) (i : Nat) (s : St) (rs : List Ref) : sites (uses pre p i s rs) = [] := by
  simp [sites, uses, List.filterMap_map, Function.comp_def]

theorem mem_sites {evs : List Ev} {x : Path × Nat} : x ∈ sites evs ↔ ∃ c, Ev.dfn c x.1 x.2 ∈ evs := by
  unfold sites
  rw [List.mem_filterMap]
  constructor
  · rintro ⟨e, he, h⟩
    cases e with
    | dfn c p i =>
      simp only [Option.some.injEq] at h
      subst h
      exact ⟨c, he⟩
    | use => cases h
    | incl => cases h
  · rintro ⟨c, h⟩
    exact ⟨_, h, rfl⟩

theorem declared_sites {pre : Option Name} {p : Path} {i : Nat} {it : Item} {s : St} (h : isDecl it = true) :
    sites (declared pre p i it s).evs = sites s.evs ++ [(p, i)] := by
  cases it with
  | imp => cases h
  | fn f b =>
    show sites (_ ++ _ :: _) = _
    rw [sites_append]
    congr 1
    show (p, i) :: sites (uses pre p i s b) = _
    rw [sites_uses]
  | struct t b =>
    show sites (_ ++ (_ ++ _)) = _
    rw [sites_append, sites_append, sites_uses]
    rfl
  | method t f b =>
    show sites (_ ++ _ :: _) = _
    rw [sites_append]
    congr 1
    show (p, i) :: sites (uses pre p i s b) = _
    rw [sites_uses]

/-- The main file is not imported. -/
def NoMain (fs : Path → Option File) (main : Path) : Prop :=
  ∀ (p : Path) (f : File) (k : Import), fs p = some f → Item.imp k main ∉ f

/-- The definitions that come new: of this file from place `i` on, and of files that were not imported before. -/
theorem Runs.once {main : Path} (hm : NoMain fs main) {pre : Option Name} {p : Path} {i : Nat} {is : List Item} {s s' : St}
    (h : Runs fs pre p i is s s') (hp : p = main ∨ p ∈ s.imported) (hi : ∀ k, Item.imp k main ∉ is) :
    ∃ l, sites s'.evs = sites s.evs ++ l ∧ l.Nodup ∧ (main ∈ s'.imported → main ∈ s.imported) ∧
      ∀ x, x ∈ l → (x.1 = p ∧ i ≤ x.2 ∧ x.2 < i + is.length) ∨ (x.1 ∉ s.imported ∧ x.1 ∈ s'.imported ∧ x.1 ≠ p) := by
  induction h with
  | nil => exact ⟨[], by simp, List.nodup_nil, fun h => h, fun _ h => by cases h⟩
  | skip _ _ _ ih =>
    obtain ⟨l, h1, h2, h3, h4⟩ := ih hp fun k hk => hi k (List.mem_cons_of_mem _ hk)
    refine ⟨l, h1, h2, h3, fun x hx => ?_⟩
    rcases h4 x hx with h | h
    · exact .inl ⟨h.1, by omega, by simp only [List.length_cons]; omega⟩
    · exact .inr h
  | @incl pre p i k q is s s' _ hq hh hr ih =>
    obtain ⟨l, h1, h2, h3, h4⟩ := ih (hp.imp id ((grows_incl _ _ _).1 _)) fun k hk => hi k (List.mem_cons_of_mem _ hk)
    have hqm : q ≠ main := fun e => hi k (by rw [e]; exact List.mem_cons_self)
    rw [show (St.imported _) = _ from register_imported _ _ _] at h3
    refine ⟨l, ?_, h2, ?_, fun x hx => ?_⟩
    · rw [h1]
      congr 1
      show sites (s.evs ++ [Ev.incl q]) = _
      rw [sites_append]
      show _ ++ [] = _
      simp
    · intro h
      rcases List.mem_cons.1 (h3 h) with h | h
      · exact absurd h.symm hqm
      · exact h
    · rcases h4 x hx with h | h
      · exact .inl ⟨h.1, by omega, by simp only [List.length_cons]; omega⟩
      · refine .inr ⟨fun hh => h.1 ((grows_incl _ _ _).1 _ hh), h.2⟩
  | @imp pre p i k q f is s s1 s' _ hq hh hf hqr hr ih1 ih2 =>
    have hqm : q ≠ main := fun e => hi k (by rw [e]; exact List.mem_cons_self)
    obtain ⟨l, h1, h2, h3, h4⟩ := ih1 (.inr (by rw [register_imported]; exact List.mem_cons_self)) (fun k => hm q f k hf)
    obtain ⟨l', h1', h2', h3', h4'⟩ := ih2 (hp.imp id fun h => hqr.grows.1 _ ((grows_register _ _ _).1 _ h))
      fun k hk => hi k (List.mem_cons_of_mem _ hk)
    rw [register_evs] at h1
    rw [register_imported] at h3
    have hmain : main ∈ s1.imported → main ∈ s.imported := fun h => by
      rcases List.mem_cons.1 (h3 h) with h | h
      · exact absurd h.symm hqm
      · exact h
    have hl : ∀ x, x ∈ l → x.1 ∉ s.imported ∧ x.1 ∈ s1.imported ∧ x.1 ≠ p := by
      intro x hx
      have hx' : x.1 ∉ s.imported ∧ x.1 ∈ s1.imported := by
        rcases h4 x hx with h | h
        · rw [h.1]
          exact ⟨hq, hqr.grows.1 _ (by rw [register_imported]; exact List.mem_cons_self)⟩
        · exact ⟨fun h' => h.1 ((grows_register _ _ _).1 _ h'), h.2.1⟩
      refine ⟨hx'.1, hx'.2, fun e => ?_⟩
      rw [e] at hx'
      rcases hp with hp | hp
      · rw [hp] at hx'
        exact hx'.1 (hmain hx'.2)
      · exact hx'.1 hp
    refine ⟨l ++ l', by rw [h1', h1, List.append_assoc], ?_, fun h => hmain (h3' h), ?_⟩
    · rw [List.nodup_append]
      refine ⟨h2, h2', fun a ha b hb e => ?_⟩
      subst e
      obtain ⟨x1, x2, x3⟩ := hl a ha
      rcases h4' a hb with h | h
      · exact x3 h.1
      · exact h.1 x2
    · intro x hx
      rcases List.mem_append.1 hx with hx | hx
      · obtain ⟨x1, x2, x3⟩ := hl x hx
        exact .inr ⟨x1, hr.grows.1 _ x2, x3⟩
      · rcases h4' x hx with h | h
        · exact .inl ⟨h.1, by omega, by simp only [List.length_cons]; omega⟩
        · exact .inr ⟨fun h' => h.1 (hqr.grows.1 _ ((grows_register _ _ _).1 _ h')), h.2⟩
  | @decl pre p i it is s s' hd hr ih =>
    obtain ⟨e1, _, _⟩ := declared_same pre p i it s
    obtain ⟨l, h1, h2, h3, h4⟩ := ih (by rw [e1]; exact hp) fun k hk => hi k (List.mem_cons_of_mem _ hk)
    rw [e1] at h3 h4
    refine ⟨(p, i) :: l, by rw [h1, declared_sites hd, List.append_assoc]; rfl, ?_, h3, ?_⟩
    · refine List.nodup_cons.2 ⟨fun h => ?_, h2⟩
      rcases h4 _ h with h | h
      · have := h.2.1
        simp only at this
        omega
      · exact h.2.2 rfl
    · intro x hx
      rcases List.mem_cons.1 hx with hx | hx
      · subst hx
        exact .inl ⟨rfl, Nat.le_refl _, by simp⟩
      · rcases h4 x hx with h | h
        · exact .inl ⟨h.1, by omega, by simp only [List.length_cons]; omega⟩
        · exact .inr h

/-! ## Parsing ends -/

/-- The files not imported yet. -/
def left (paths : List Path) (s : St) : Nat := (paths.filter fun q => decide (q ∉ s.imported)).length

theorem left_mono (paths : List Path) {s s' : St} (h : Grows s s') : left paths s' ≤ left paths s := by
  unfold left
  induction paths with
  | nil => exact Nat.le_refl _
  | cons q qs ih =>
    by_cases h1 : q ∈ s.imported
    · have h2 := h.1 _ h1
      simpa [List.filter_cons, h1, h2] using ih
    · by_cases h2 : q ∈ s'.imported
      · simp only [List.filter_cons, h1, h2, not_true_eq_false, not_false_eq_true, decide_true, decide_false, if_true,
          Bool.false_eq_true, if_false, List.length_cons]
        omega
      · simp only [List.filter_cons, h1, h2, not_false_eq_true, decide_true, if_true, List.length_cons]
        omega

theorem left_register (paths : List Path) {s : St} {q : Path} (k : Import) (hq : q ∈ paths) (hs : q ∉ s.imported) :
    left paths (register k q s) < left paths s := by
  have hle := fun qs => left_mono qs (grows_register k q s)
  unfold left at hle ⊢
  induction paths with
  | nil => cases hq
  | cons r rs ih =>
    by_cases e : r = q
    · subst e
      have h2 : r ∈ (register k r s).imported := by rw [register_imported]; exact List.mem_cons_self
      simp only [List.filter_cons, hs, h2, not_true_eq_false, not_false_eq_true, decide_true, decide_false, if_true,
        Bool.false_eq_true, if_false, List.length_cons]
      have := hle rs
      omega
    · have hq' : q ∈ rs := by
        rcases List.mem_cons.1 hq with h | h
        · exact absurd h.symm e
        · exact h
      have := ih hq'
      have h2 : r ∈ (register k q s).imported ↔ r ∈ s.imported := by
        rw [register_imported]
        simp [e]
      by_cases h1 : r ∈ s.imported
      · simp only [List.filter_cons, h1, h2, not_true_eq_false, decide_false, Bool.false_eq_true, if_false]
        exact this
      · simp only [List.filter_cons, h1, h2, not_false_eq_true, decide_true, if_true, List.length_cons]
        omega

theorem parse_ends {paths : List Path} (hp : ∀ q f, fs q = some f → q ∈ paths) (n : Nat) :
    ∀ {pre : Option Name} {p : Path} {f : File} {s : St}, left paths s < n → parse fs n pre p f s ≠ .out := by
  induction n with
  | zero =>
    intro pre p f s h
    omega
  | succ n ih =>
    intro pre p f s h
    unfold parse
    generalize 0 = i
    induction f generalizing i s with
    | nil => simp [run]
    | cons it is ih' =>
      have key : item fs (parse fs n) pre p i it s ≠ .out ∧
          ∀ s1, item fs (parse fs n) pre p i it s = .ok s1 → left paths s1 < n + 1 := by
        cases it with
        | imp k q =>
          unfold item
          by_cases hk : tooMany k
          · simp [hk]
          simp only [hk, Bool.false_eq_true, if_false]
          by_cases hq : q ∈ s.imported
          · simp only [hq, if_true]
            refine ⟨by simp, fun s1 e => ?_⟩
            cases e
            exact h
          simp only [hq, if_false]
          by_cases hh : header q
          · simp only [hh, if_true]
            refine ⟨by simp, fun s1 e => ?_⟩
            cases e
            exact Nat.lt_of_le_of_lt (left_mono paths (grows_incl k q s)) h
          simp only [hh, Bool.false_eq_true, if_false]
          cases hf : fs q with
          | none => simp
          | some f =>
            simp only
            have hl := left_register paths k (hp q f hf) hq
            refine ⟨ih (by omega), fun s1 e => ?_⟩
            have := left_mono paths (parse_runs n e).grows
            omega
        | fn f b =>
          refine ⟨by simp [item], fun s1 e => ?_⟩
          exact Nat.lt_of_le_of_lt (left_mono paths (by cases e; exact grows_declared pre p i (.fn f b) s)) h
        | struct f b =>
          refine ⟨by simp [item], fun s1 e => ?_⟩
          exact Nat.lt_of_le_of_lt (left_mono paths (by cases e; exact grows_declared pre p i (.struct f b) s)) h
        | method t f b =>
          refine ⟨by simp [item], fun s1 e => ?_⟩
          exact Nat.lt_of_le_of_lt (left_mono paths (by cases e; exact grows_declared pre p i (.method t f b) s)) h
      unfold run
      cases e : item fs (parse fs n) pre p i it s with
      | ok s1 => exact ih' (key.2 s1 e) (i + 1)
      | missing => simp
      | over => simp
      | out => exact absurd e key.1

end Verif.Modules
