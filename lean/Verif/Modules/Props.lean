import Verif.Modules.Lemmas

/-! # Properties of imports -/

namespace Verif.Modules

open Spec

variable {fs : Path → Option File} {main : Path}

theorem program_runs {n : Nat} {s : St} (h : program fs n main = .ok s) :
    ∃ f, fs main = some f ∧ Runs fs none main 0 f .init s := by
  unfold program at h
  cases hf : fs main with
  | none => simp [hf] at h
  | some f =>
    simp only [hf] at h
    exact ⟨f, rfl, parse_runs n h⟩

theorem mentions_iff (r : Ref) (it : Item) : Mentions r it ↔ r ∈ bodyOf it := by
  constructor
  · intro h
    cases h <;> assumption
  · intro h
    cases it with
    | imp => cases h
    | fn => exact .fn h
    | struct => exact .struct h
    | method => exact .method h

/-! ## Files are compiled once -/

theorem part_imported {s : St} {f : File} (hf : fs main = some f) (h : Runs fs none main 0 f .init s) {p : Path}
    (hp : Part fs main p) : p = main ∨ (p ∈ s.imported ∧ header p = false) := by
  induction hp with
  | main => exact .inl rfl
  | @imp p q g k _ hg hi hq ih =>
    refine .inr ⟨?_, hq⟩
    rcases ih with ih | ⟨ih, hh⟩
    · subst ih
      rw [hf] at hg
      cases hg
      exact h.written.4 k q hi
    · rcases h.files p ih with h' | h' | ⟨g', pre, h1, h2⟩
      · cases h'
      · rw [hh] at h'
        cases h'
      · rw [hg] at h1
        cases h1
        exact h2.4 k q hi

/-- Every file of the program is written. -/
theorem part_written {s : St} {f : File} (hf : fs main = some f) (h : Runs fs none main 0 f .init s) {p : Path} {g : File}
    (hp : Part fs main p) (hg : fs p = some g) : ∃ pre, Written pre p 0 g s := by
  rcases part_imported hf h hp with e | ⟨e, hh⟩
  · subst e
    rw [hf] at hg
    cases hg
    exact ⟨none, h.written⟩
  · rcases h.files p e with h' | h' | ⟨g', pre, h1, h2⟩
    · cases h'
    · rw [hh] at h'
      cases h'
    · rw [hg] at h1
      cases h1
      exact ⟨pre, h2⟩

theorem drop_cons {α : Type} {l : List α} {i : Nat} {a : α} {t : List α} (h : l.drop i = a :: t) :
    l[i]? = some a ∧ l.drop (i + 1) = t := by
  constructor
  · have := List.getElem?_drop (xs := l) (i := i) (j := 0)
    rw [h] at this
    simpa using this.symm
  · rw [← List.drop_drop, h]
    rfl

/-- Definitions are those of files of the program. -/
theorem defs_of_parts {pre : Option Name} {p : Path} {i : Nat} {is : List Item} {s s' : St} (h : Runs fs pre p i is s s')
    {f : File} (hf : fs p = some f) (hd : f.drop i = is) (hp : Part fs main p) :
    ∀ c q j, Ev.dfn c q j ∈ s'.evs → Ev.dfn c q j ∈ s.evs ∨
      (Part fs main q ∧ ∃ g it, fs q = some g ∧ g[j]? = some it ∧ Declares it) := by
  induction h generalizing f with
  | nil => exact fun _ _ _ h => .inl h
  | skip _ _ _ ih => exact ih hf (drop_cons hd).2 hp
  | incl _ _ _ _ ih =>
    intro c q j h
    rcases ih hf (drop_cons hd).2 hp c q j h with h | h
    · rcases List.mem_append.1 h with h | h
      · exact .inl h
      · simp at h
    · exact .inr h
  | imp _ _ hh hq _ _ ih1 ih2 =>
    intro c r j h
    rcases ih2 hf (drop_cons hd).2 hp c r j h with h | h
    · have := ih1 hq rfl (.imp hp hf (List.mem_of_getElem? (drop_cons hd).1) hh) c r j h
      rwa [register_evs] at this
    · exact .inr h
  | decl hdc _ ih =>
    intro c q j h
    rcases ih hf (drop_cons hd).2 hp c q j h with h | h
    · rcases declared_new h with h | ⟨c', _, h⟩ | ⟨r, _, h⟩
      · exact .inl h
      · cases h
        exact .inr ⟨hp, f, _, hf, (drop_cons hd).1, (declares_iff _).2 hdc⟩
      · cases h
    · exact .inr h

theorem count_one {l : List (Path × Nat)} (h : l.Nodup) {x : Path × Nat} (hx : x ∈ l) : l.count x = 1 := by
  have h1 := List.nodup_iff_count.1 h x
  have h2 := List.count_pos_iff.2 hx
  omega

/-- C85: reading the files of a program comes to an end, however they import each other, and then every
declaration of every file of the program has been written exactly once, and nothing else has. `paths` are the files that exist;
no file imports the main file (`main_violated`). -/
theorem each_once {paths : List Path} (hpaths : ∀ q f, fs q = some f → q ∈ paths)
    (hm : ∀ (p : Path) (f : File) (k : Import), fs p = some f → Item.imp k main ∉ f) :
    program fs (paths.length + 1) main ≠ .out ∧
    ∀ n s, program fs n main = .ok s →
      (∀ (p : Path) (f : File) (i : Nat) (it : Item), Part fs main p → fs p = some f → f[i]? = some it → Declares it →
        (sites s.evs).count (p, i) = 1) ∧
      (∀ (p : Path) (i : Nat), (p, i) ∈ sites s.evs →
        Part fs main p ∧ ∃ f it, fs p = some f ∧ f[i]? = some it ∧ Declares it) := by
  constructor
  · unfold program
    cases hf : fs main with
    | none => simp
    | some f =>
      refine parse_ends hpaths _ ?_
      have := List.length_filter_le (fun q => decide (q ∉ St.init.imported)) paths
      unfold left
      omega
  · intro n s h
    obtain ⟨f, hf, hr⟩ := program_runs h
    constructor
    · intro p g i it hp hg hi hd
      obtain ⟨l, h1, h2, _⟩ := hr.once hm (.inl rfl) fun k => hm main f k hf
      obtain ⟨pre, hw⟩ := part_written hf hr hp hg
      obtain ⟨c, hc⟩ := defName_decl (pre := pre) ((declares_iff it).1 hd)
      have hmem : (p, i) ∈ sites s.evs := mem_sites.2 ⟨c, by
        have := hw.1 i it c hi hc
        rwa [Nat.zero_add] at this⟩
      rw [h1] at hmem ⊢
      have e : sites St.init.evs = [] := rfl
      rw [e, List.nil_append] at hmem ⊢
      exact count_one h2 hmem
    · intro p i h
      obtain ⟨c, hc⟩ := mem_sites.1 h
      rcases defs_of_parts (main := main) hr hf rfl .main c p i hc with h | h
      · cases h
      · exact h

/-! ## Names -/

/-- Induction over the frames of a program: `I` holds of states, `F` of a place in a file, `Φ` of references. -/
theorem frames {I : St → Prop} {F : Option Name → Path → Nat → St → Prop} {Φ : Path → Nat → Ref → Name → Prop}
    (hskip : ∀ pre p i s f k q, fs p = some f → f[i]? = some (.imp k q) → q ∈ s.imported → I s → F pre p i s →
      F pre p (i + 1) s)
    (hincl : ∀ pre p i s f k q, fs p = some f → f[i]? = some (.imp k q) → q ∉ s.imported → header q = true → I s →
      F pre p i s →
      I { register k q s with evs := s.evs ++ [.incl q] } ∧
        F pre p (i + 1) { register k q s with evs := s.evs ++ [.incl q] })
    (henter : ∀ pre p i s f k q g, fs p = some f → f[i]? = some (.imp k q) → q ∉ s.imported → header q = false →
      fs q = some g → I s → F pre p i s → I (register k q s) ∧ F (prefixOf k pre q) q 0 (register k q s))
    (hleave : ∀ pre p i s f k q g s1, fs p = some f → f[i]? = some (.imp k q) → q ∉ s.imported → header q = false →
      fs q = some g → I s → F pre p i s → Runs fs (prefixOf k pre q) q 0 g (register k q s) s1 → I s1 →
      F pre p (i + 1) s1)
    (hdecl : ∀ pre p i s f it, fs p = some f → f[i]? = some it → isDecl it = true → I s → F pre p i s →
      I (declared pre p i it s) ∧ F pre p (i + 1) (declared pre p i it s) ∧
        ∀ r, r ∈ bodyOf it → Φ p i r (cname pre s r))
    {pre : Option Name} {p : Path} {i : Nat} {is : List Item} {s s' : St} (h : Runs fs pre p i is s s')
    {f : File} (hf : fs p = some f) (hd : f.drop i = is) (hI : I s) (hF : F pre p i s) :
    I s' ∧ ∀ q j r c, Ev.use q j r c ∈ s'.evs → Ev.use q j r c ∈ s.evs ∨ Φ q j r c := by
  induction h generalizing f with
  | nil => exact ⟨hI, fun _ _ _ _ h => .inl h⟩
  | skip _ hq _ ih => exact ih hf (drop_cons hd).2 hI (hskip _ _ _ _ _ _ _ hf (drop_cons hd).1 hq hI hF)
  | incl _ hq hh _ ih =>
    obtain ⟨h1, h2⟩ := hincl _ _ _ _ _ _ _ hf (drop_cons hd).1 hq hh hI hF
    obtain ⟨h3, h4⟩ := ih hf (drop_cons hd).2 h1 h2
    refine ⟨h3, fun q j r c h => ?_⟩
    rcases h4 q j r c h with h | h
    · rcases List.mem_append.1 h with h | h
      · exact .inl h
      · simp at h
    · exact .inr h
  | imp _ hq hh hg hr _ ih1 ih2 =>
    obtain ⟨h1, h2⟩ := henter _ _ _ _ _ _ _ _ hf (drop_cons hd).1 hq hh hg hI hF
    obtain ⟨h3, h4⟩ := ih1 hg rfl h1 h2
    obtain ⟨h5, h6⟩ := ih2 hf (drop_cons hd).2 h3 (hleave _ _ _ _ _ _ _ _ _ hf (drop_cons hd).1 hq hh hg hI hF hr h3)
    refine ⟨h5, fun q j r c h => ?_⟩
    rcases h6 q j r c h with h | h
    · have := h4 q j r c h
      rwa [register_evs] at this
    · exact .inr h
  | decl hdc _ ih =>
    obtain ⟨h1, h2, h3⟩ := hdecl _ _ _ _ _ _ hf (drop_cons hd).1 hdc hI hF
    obtain ⟨h4, h5⟩ := ih hf (drop_cons hd).2 h1 h2
    refine ⟨h4, fun q j r c h => ?_⟩
    rcases h5 q j r c h with h | h
    · rcases declared_new h with h | ⟨c', _, h⟩ | ⟨r', hr', h⟩
      · exact .inl h
      · cases h
      · cases h
        exact .inr (h3 _ hr')
    · exact .inr h

/-! ### Plain imports -/

/-- Without names and single names nothing gets a prefix. -/
theorem plain_written (hpl : AllPlain fs) {pre : Option Name} {p : Path} {i : Nat} {is : List Item} {s s' : St}
    (h : Runs fs pre p i is s s') (hpre : pre = none) (his : ∀ k q, Item.imp k q ∈ is → k = .plain) :
    ∀ q, q ∈ s'.imported → q ∈ s.imported ∨ header q = true ∨ ∃ f, fs q = some f ∧ Written none q 0 f s' := by
  induction h with
  | nil => exact fun q h => .inl h
  | skip _ _ _ ih => exact ih hpre fun k q h => his k q (List.mem_cons_of_mem _ h)
  | incl _ _ hh _ ih =>
    intro r hr
    rcases ih hpre (fun k q h => his k q (List.mem_cons_of_mem _ h)) r hr with h | h
    · rw [show (St.imported _) = _ from register_imported _ _ _] at h
      rcases List.mem_cons.1 h with h | h
      · subst h
        exact .inr (.inl hh)
      · exact .inl h
    · exact .inr h
  | imp _ _ _ hf hq hr ih1 ih2 =>
    intro r h
    have hk := his _ _ List.mem_cons_self
    subst hk
    rcases ih2 hpre (fun k q h => his k q (List.mem_cons_of_mem _ h)) r h with h | h
    · rcases ih1 hpre (fun k q h => hpl _ _ _ _ hf h) r h with h | h | ⟨f, h1, h2⟩
      · rw [register_imported] at h
        rcases List.mem_cons.1 h with h | h
        · subst h
          refine .inr (.inr ⟨_, hf, ?_⟩)
          have := hq.written.grow hr.grows
          simp only [prefixOf, hpre] at this
          exact this
        · exact .inl h
      · exact .inr (.inl h)
      · exact .inr (.inr ⟨f, h1, h2.grow hr.grows⟩)
    · exact .inr h
  | decl _ _ ih =>
    intro r h
    rw [← (declared_same _ _ _ _ _).1]
    exact ih hpre (fun k q h => his k q (List.mem_cons_of_mem _ h)) r h

theorem means_of_accepted {evs : List Ev} (ha : Accepted evs) {c : Name} {p : Path} {i : Nat} (h : Ev.dfn c p i ∈ evs) :
    Means evs c p i := by
  refine ⟨h, fun q j hq => ?_⟩
  have mem : ∀ {l : List Ev} {c : Name} {p : Path} {i : Nat}, Ev.dfn c p i ∈ l → c ∈ names l := fun h =>
    List.mem_filterMap.2 ⟨_, h, rfl⟩
  unfold Accepted at ha
  induction evs with
  | nil => cases h
  | cons e es ih =>
    by_cases he : ∃ c' p' i', e = .dfn c' p' i'
    · obtain ⟨c', p', i', rfl⟩ := he
      have hn : (c' :: names es).Nodup := ha
      rw [List.nodup_cons] at hn
      rcases List.mem_cons.1 h with h' | h' <;> rcases List.mem_cons.1 hq with hq' | hq'
      · cases h'
        cases hq'
        exact ⟨rfl, rfl⟩
      · cases h'
        exact absurd (mem (l := es) hq') hn.1
      · cases hq'
        exact absurd (mem (l := es) h') hn.1
      · exact ih hn.2 h' hq'
    · have hn : names (e :: es) = names es := by
        cases e with
        | dfn c' p' i' => exact absurd ⟨_, _, _, rfl⟩ he
        | use => rfl
        | incl => rfl
      rw [hn] at ha
      refine ih ha ?_ ?_
      · rcases List.mem_cons.1 h with h | h
        · exact absurd ⟨_, _, _, h.symm⟩ he
        · exact h
      · rcases List.mem_cons.1 hq with h | h
        · exact absurd ⟨_, _, _, h.symm⟩ he
        · exact h

/-- C86 (partial): if all imports are plain, a name that a file of the program declares means that declaration wherever it stands:
the name of a function in a call, that of a struct in a type; and `t::g` in the main file, behind the struct or behind the
import of its file, means the method. The C compiler accepts the definitions.
Missing from the full claim: `t::g` in front of the struct (`early_violated`). -/
theorem plain_partial (hpl : AllPlain fs) (hm : ∀ (p : Path) (f : File) (k : Import), fs p = some f → Item.imp k main ∉ f)
    {n : Nat} {s : St} (h : program fs n main = .ok s) (ha : Accepted s.evs)
    {p : Path} {f : File} {j : Nat} {it : Item} {r : Ref} (hp : Part fs main p) (hf : fs p = some f) (hj : f[j]? = some it)
    (hr : Mentions r it) {q : Path} {g : File} {k : Nat} (hq : Part fs main q) (hg : fs q = some g) :
    (∃ c, Ev.use p j r c ∈ s.evs) ∧ ∀ c, Ev.use p j r c ∈ s.evs →
      (∀ x b, r = .call x → g[k]? = some (.fn x b) → Means s.evs c q k) ∧
      (∀ t b, r = .ty t → g[k]? = some (.struct t b) → Means s.evs c q k) ∧
      (∀ t x b, r = .path t x → p = main → g[k]? = some (.method t x b) →
        (∃ i b', i < j ∧ (f[i]? = some (.struct t b') ∨
          ∃ q' g', f[i]? = some (.imp .plain q') ∧ header q' = false ∧ fs q' = some g' ∧ .struct t b' ∈ g')) →
        Means s.evs c q k) := by
  obtain ⟨fm, hfm, hruns⟩ := program_runs h
  constructor
  · obtain ⟨pre, hw⟩ := part_written hfm hruns hp hf
    have := hw.2 j it r hj ((mentions_iff _ _).1 hr)
    rwa [Nat.zero_add] at this
  · -- definitions have their own names
    have hwq : Written none q 0 g s := by
      rcases part_imported hfm hruns hq with e | ⟨e, hh⟩
      · subst e
        rw [hfm] at hg
        cases hg
        exact hruns.written
      · rcases plain_written hpl hruns rfl (fun k q h => hpl _ _ _ _ hfm h) q e with h' | h' | ⟨g', h1, h2⟩
        · cases h'
        · rw [hh] at h'
          cases h'
        · rw [hg] at h1
          cases h1
          exact h2
    have hdef : ∀ it c, g[k]? = some it → defName none it = some c → Means s.evs c q k := fun it c h1 h2 =>
      means_of_accepted ha (by
        have := hwq.1 k it c h1 h2
        rwa [Nat.zero_add] at this)
    -- and so have references
    have key := frames (fs := fs) (I := fun s => s.mods = [] ∧ s.sels = [])
      (F := fun pre p i s => pre = none ∧ (p = main →
        (∀ q', q' ∈ s.imported → header q' = false → ∃ g', fs q' = some g' ∧ ∀ t b, .struct t b ∈ g' → t ∈ s.structs) ∧
        ∀ f, fs p = some f → ∀ (i' : Nat) (it : Item), i' < i → f[i']? = some it →
          (∀ t b, it = .struct t b → t ∈ s.structs) ∧ ∀ k q', it = .imp k q' → q' ∈ s.imported))
      (Φ := fun p j r c => (∀ x, r = .call x → c = x) ∧ (∀ t, r = .ty t → c = t) ∧
        ∀ t x, r = .path t x → p = main → ∀ f, fs p = some f → ∀ i b', i < j → (f[i]? = some (.struct t b') ∨
          ∃ q' g', f[i]? = some (.imp .plain q') ∧ header q' = false ∧ fs q' = some g' ∧ .struct t b' ∈ g') →
          c = t ++ "__" ++ x)
      ?_ ?_ ?_ ?_ ?_ hruns hfm rfl ⟨rfl, rfl⟩ ⟨rfl, fun _ => ⟨(fun q' h => by cases h), fun _ _ i' _ h => by omega⟩⟩
    · intro c hc
      rcases key.2 p j r c hc with h' | ⟨h1, h2, h3⟩
      · cases h'
      · refine ⟨fun x b e hk => ?_, fun t b e hk => ?_, fun t x b e hpm hk hi => ?_⟩
        · rw [h1 x e]
          exact hdef _ _ hk rfl
        · rw [h2 t e]
          exact hdef _ _ hk rfl
        · obtain ⟨i, b', h4, h5⟩ := hi
          rw [h3 t x e hpm f hf i b' h4 h5]
          exact hdef _ _ hk rfl
    · -- skip
      rintro pre p i s f k q' hf hi hq' _ ⟨h1, h2⟩
      refine ⟨h1, fun e => ⟨(h2 e).1, fun f' hf' i' it hlt hit => ?_⟩⟩
      rcases Nat.lt_succ_iff_lt_or_eq.1 hlt with h | h
      · exact (h2 e).2 f' hf' i' it h hit
      · subst h
        rw [hf] at hf'
        cases hf'
        rw [hi] at hit
        cases hit
        refine ⟨(fun t b e => by cases e), fun k q'' e => ?_⟩
        cases e
        exact hq'
    · -- header
      rintro pre p i s f k q' hf hi hq' hh ⟨hm1, hs1⟩ ⟨h1, h2⟩
      have hk := hpl _ _ _ _ hf (List.mem_of_getElem? hi)
      subst hk
      refine ⟨⟨hm1, hs1⟩, h1, fun e => ⟨fun q'' hq'' hh' => ?_, fun f' hf' i' it hlt hit => ?_⟩⟩
      · rcases List.mem_cons.1 hq'' with h | h
        · subst h
          rw [hh] at hh'
          cases hh'
        · exact (h2 e).1 q'' h hh'
      · rcases Nat.lt_succ_iff_lt_or_eq.1 hlt with h | h
        · obtain ⟨h3, h4⟩ := (h2 e).2 f' hf' i' it h hit
          exact ⟨h3, fun k q'' e => List.mem_cons_of_mem _ (h4 k q'' e)⟩
        · subst h
          rw [hf] at hf'
          cases hf'
          rw [hi] at hit
          cases hit
          refine ⟨(fun t b e => by cases e), fun k q'' e => ?_⟩
          cases e
          exact List.mem_cons_self
    · -- enter
      rintro pre p i s f k q' g' hf hi hq' hh hg' ⟨hm1, hs1⟩ ⟨h1, h2⟩
      have hk := hpl _ _ _ _ hf (List.mem_of_getElem? hi)
      subst hk
      refine ⟨⟨hm1, hs1⟩, h1, fun e => ?_⟩
      subst e
      exact absurd (List.mem_of_getElem? hi) (hm _ _ _ hf)
    · -- leave
      rintro pre p i s f k q' g' s1 hf hi hq' hh hg' ⟨hm1, hs1⟩ ⟨h1, h2⟩ hr _
      have hk := hpl _ _ _ _ hf (List.mem_of_getElem? hi)
      subst hk
      have hgr := (grows_register .plain q' s).trans hr.grows
      have hown : ∀ t b, .struct t b ∈ g' → t ∈ s1.structs := fun t b ht => by
        have := hr.written.3 t b ht
        simpa only [prefixOf, h1, own] using this
      refine ⟨h1, fun e => ⟨fun q'' hq'' hh' => ?_, fun f' hf' i' it hlt hit => ?_⟩⟩
      · rcases plain_written hpl hr h1 (fun k q h => hpl _ _ _ _ hg' h) q'' hq'' with h | h | ⟨g'', h3, h4⟩
        · rw [register_imported] at h
          rcases List.mem_cons.1 h with h | h
          · subst h
            exact ⟨g', hg', hown⟩
          · obtain ⟨g'', h3, h4⟩ := (h2 e).1 q'' h hh'
            exact ⟨g'', h3, fun t b ht => hgr.4 _ (h4 t b ht)⟩
        · rw [hh'] at h
          cases h
        · exact ⟨g'', h3, h4.3⟩
      · rcases Nat.lt_succ_iff_lt_or_eq.1 hlt with h | h
        · obtain ⟨h3, h4⟩ := (h2 e).2 f' hf' i' it h hit
          exact ⟨fun t b e => hgr.4 _ (h3 t b e), fun k q'' e => hgr.1 _ (h4 k q'' e)⟩
        · subst h
          rw [hf] at hf'
          cases hf'
          rw [hi] at hit
          cases hit
          refine ⟨(fun t b e => by cases e), fun k q'' e => ?_⟩
          cases e
          refine hr.grows.1 _ ?_
          rw [register_imported]
          exact List.mem_cons_self
    · -- declaration
      rintro pre p i s f it hf hi hd ⟨hm1, hs1⟩ ⟨h1, h2⟩
      obtain ⟨e1, e2, e3⟩ := declared_same pre p i it s
      have hgr := grows_declared pre p i it s
      refine ⟨⟨e2.trans hm1, e3.trans hs1⟩, ⟨h1, fun e => ⟨fun q'' hq'' hh' => ?_, fun f' hf' i' it' hlt hit => ?_⟩⟩, ?_⟩
      · rw [e1] at hq''
        obtain ⟨g'', h3, h4⟩ := (h2 e).1 q'' hq'' hh'
        exact ⟨g'', h3, fun t b ht => hgr.4 _ (h4 t b ht)⟩
      · rcases Nat.lt_succ_iff_lt_or_eq.1 hlt with h | h
        · obtain ⟨h3, h4⟩ := (h2 e).2 f' hf' i' it' h hit
          exact ⟨fun t b e => hgr.4 _ (h3 t b e), fun k q'' e => hgr.1 _ (h4 k q'' e)⟩
        · subst h
          rw [hf] at hf'
          cases hf'
          rw [hi] at hit
          cases hit
          refine ⟨fun t b e => ?_, fun k q'' e => ?_⟩
          · subst e h1
            exact List.mem_cons_self
          · subst e
            cases hd
      · subst h1
        intro r _
        have hsel : ∀ a, findSel s a = none := fun a => by unfold findSel; rw [hs1]; rfl
        have hmod : ∀ a, findMod s a = none := fun a => by unfold findMod; rw [hm1]; rfl
        refine ⟨fun x e => by subst e; rfl, fun t e => ?_, fun t x e hpm f' hf' i' b' hlt hor => ?_⟩
        · subst e
          simp only [cname, tyName, hsel]
        · subst e
          have ht : t ∈ s.structs := by
            rcases hor with ho | ⟨q', g', ho, hh', hg', ht⟩
            · exact ((h2 hpm).2 f' hf' i' _ hlt ho).1 t b' rfl
            · have := ((h2 hpm).2 f' hf' i' _ hlt ho).2 _ _ rfl
              obtain ⟨g'', h3, h4⟩ := (h2 hpm).1 q' this hh'
              rw [hg'] at h3
              cases h3
              exact h4 t b' ht
          simp only [cname, seg, hsel, hmod, ht, ite_self, if_true]

/-! ### Modules -/

/-- The prefix a new file is written with comes from an import of it. -/
theorem prefixed {pre : Option Name} {p : Path} {i : Nat} {is : List Item} {s s' : St} (h : Runs fs pre p i is s s')
    {f : File} (hf : fs p = some f) (hd : f.drop i = is) :
    ∀ q, q ∈ s'.imported → q ∈ s.imported ∨ header q = true ∨
      ∃ g p' f' k pre', fs q = some g ∧ fs p' = some f' ∧ .imp k q ∈ f' ∧ Written (prefixOf k pre' q) q 0 g s' := by
  induction h generalizing f with
  | nil => exact fun q h => .inl h
  | skip _ _ _ ih => exact ih hf (drop_cons hd).2
  | incl _ _ hh _ ih =>
    intro r hr
    rcases ih hf (drop_cons hd).2 r hr with h | h
    · rw [show (St.imported _) = _ from register_imported _ _ _] at h
      rcases List.mem_cons.1 h with h | h
      · subst h
        exact .inr (.inl hh)
      · exact .inl h
    · exact .inr h
  | imp _ _ _ hg hq hr ih1 ih2 =>
    intro r h
    rcases ih2 hf (drop_cons hd).2 r h with h | h
    · rcases ih1 hg rfl r h with h | h | ⟨g, p', f', k, pre', h1, h2, h3, h4⟩
      · rw [register_imported] at h
        rcases List.mem_cons.1 h with h | h
        · subst h
          exact .inr (.inr ⟨_, _, f, _, _, hg, hf, List.mem_of_getElem? (drop_cons hd).1, hq.written.grow hr.grows⟩)
        · exact .inl h
      · exact .inr (.inl h)
      · exact .inr (.inr ⟨g, p', f', k, pre', h1, h2, h3, h4.grow hr.grows⟩)
    · exact .inr h
  | decl _ _ ih =>
    intro r h
    rw [← (declared_same _ _ _ _ _).1]
    exact ih hf (drop_cons hd).2 r h

/-- New files are imported by this file or by another new one. -/
theorem importer {pre : Option Name} {p : Path} {i : Nat} {is : List Item} {s s' : St} (h : Runs fs pre p i is s s') :
    ∀ q, q ∈ s'.imported → q ∈ s.imported ∨ (∃ k, Item.imp k q ∈ is) ∨
      ∃ p' f' k, p' ∈ s'.imported ∧ p' ∉ s.imported ∧ fs p' = some f' ∧ Item.imp k q ∈ f' := by
  induction h with
  | nil => exact fun q h => .inl h
  | skip _ _ _ ih =>
    intro q hq
    rcases ih q hq with h | ⟨k, h⟩ | h
    · exact .inl h
    · exact .inr (.inl ⟨k, List.mem_cons_of_mem _ h⟩)
    · exact .inr (.inr h)
  | incl _ _ hh _ ih =>
    intro q hq
    rcases ih q hq with h | ⟨k, h⟩ | ⟨p', f', k, h1, h2, h3⟩
    · rw [show (St.imported _) = _ from register_imported _ _ _] at h
      rcases List.mem_cons.1 h with h | h
      · subst h
        exact .inr (.inl ⟨_, List.mem_cons_self⟩)
      · exact .inl h
    · exact .inr (.inl ⟨k, List.mem_cons_of_mem _ h⟩)
    · exact .inr (.inr ⟨p', f', k, h1, fun h => h2 ((grows_incl _ _ _).1 _ h), h3⟩)
  | @imp _ _ _ k0 q0 f0 _ s s1 s' _ hn _ hg hq hr ih1 ih2 =>
    intro q h
    have hq0 : q0 ∈ s1.imported := by
      refine hq.grows.1 _ ?_
      rw [register_imported]
      exact List.mem_cons_self
    rcases ih2 q h with h | ⟨k, h⟩ | ⟨p', f', k, h1, h2, h3⟩
    · rcases ih1 q h with h | ⟨k, h⟩ | ⟨p', f', k, h1, h2, h3⟩
      · rw [register_imported] at h
        rcases List.mem_cons.1 h with h | h
        · subst h
          exact .inr (.inl ⟨_, List.mem_cons_self⟩)
        · exact .inl h
      · exact .inr (.inr ⟨q0, f0, k, hr.grows.1 _ hq0, hn, hg, h⟩)
      · exact .inr (.inr ⟨p', f', k, hr.grows.1 _ h1, fun h => h2 ((grows_register _ _ _).1 _ h), h3⟩)
    · exact .inr (.inl ⟨k, List.mem_cons_of_mem _ h⟩)
    · exact .inr (.inr ⟨p', f', k, h1, fun h => h2 (hq.grows.1 _ ((grows_register _ _ _).1 _ h)), h3⟩)
  | decl _ _ ih =>
    intro q hq
    rcases ih q hq with h | ⟨k, h⟩ | ⟨p', f', k, h1, h2, h3⟩
    · rw [(declared_same _ _ _ _ _).1] at h
      exact .inl h
    · exact .inr (.inl ⟨k, List.mem_cons_of_mem _ h⟩)
    · rw [(declared_same _ _ _ _ _).1] at h2
      exact .inr (.inr ⟨p', f', k, h1, h2, h3⟩)

theorem mem_targets {f : File} {q : Path} : q ∈ targets f ↔ ∃ k, Item.imp k q ∈ f := by
  unfold targets
  rw [List.mem_filterMap]
  constructor
  · rintro ⟨it, h1, h2⟩
    cases it with
    | imp k q' =>
      simp only [Option.some.injEq] at h2
      subst h2
      exact ⟨k, h1⟩
    | _ => cases h2
  · rintro ⟨k, h⟩
    exact ⟨_, h, rfl⟩

theorem targets_nodup {f : File} (h : (targets f).Nodup) {q : Path} {k k' : Import} (h1 : Item.imp k q ∈ f)
    (h2 : Item.imp k' q ∈ f) : k' = k := by
  induction f with
  | nil => cases h1
  | cons it is ih =>
    by_cases hi : ∃ k0 q0, it = .imp k0 q0
    · obtain ⟨k0, q0, rfl⟩ := hi
      have hn : (q0 :: targets is).Nodup := h
      rw [List.nodup_cons] at hn
      rcases List.mem_cons.1 h1 with h1' | h1' <;> rcases List.mem_cons.1 h2 with h2' | h2'
      · cases h1'
        cases h2'
        rfl
      · cases h1'
        exact absurd (mem_targets (f := is) |>.2 ⟨_, h2'⟩) hn.1
      · cases h2'
        exact absurd (mem_targets (f := is) |>.2 ⟨_, h1'⟩) hn.1
      · exact ih hn.2 h1' h2'
    · have hn : targets (it :: is) = targets is := by
        cases it with
        | imp k0 q0 => exact absurd ⟨_, _, rfl⟩ hi
        | _ => rfl
      rw [hn] at h
      refine ih h ?_ ?_
      · rcases List.mem_cons.1 h1 with h' | h'
        · exact absurd ⟨_, _, h'.symm⟩ hi
        · exact h'
      · rcases List.mem_cons.1 h2 with h' | h'
        · exact absurd ⟨_, _, h'.symm⟩ hi
        · exact h'

theorem targets_take {f : File} {i : Nat} {k : Import} {q : Path} (h : f[i]? = some (.imp k q)) :
    targets (f.take (i + 1)) = targets (f.take i) ++ [q] := by
  rw [List.take_add_one, h]
  simp [targets, List.filterMap_append]

theorem targets_take_sub {f : File} {i : Nat} {q : Path} (h : q ∈ targets (f.take i)) : q ∈ targets (f.take (i + 1)) := by
  rw [List.take_add_one]
  simp only [targets, List.filterMap_append, List.mem_append] at h ⊢
  exact .inl h

theorem targets_fresh {f : File} (hn : (targets f).Nodup) {i : Nat} {k : Import} {q : Path} (h : f[i]? = some (.imp k q)) :
    q ∉ targets (f.take i) := by
  intro hq
  have hs : List.Sublist (targets (f.take (i + 1))) (targets f) := (List.take_sublist _ _).filterMap _
  have := hn.sublist hs
  rw [targets_take h, List.nodup_append] at this
  exact this.2.2 q hq q (by simp) rfl

/-- What holds of the tables. -/
structure Tables (fs : Path → Option File) (main : Path) (s : St) : Prop where
  noMain : main ∉ s.imported
  mods : ∀ m, m ∈ s.mods → ∃ p f, fs p = some f ∧ Item.imp (.named m.alias) m.file ∈ f
  sels : ∀ e, e ∈ s.sels → ∃ p f ns x, fs p = some f ∧ Item.imp (.sel ns) e.file ∈ f ∧ x ∈ ns ∧ e.here = x.2.getD x.1 ∧
    e.sym = x.1
  imps : ∀ q, q ∈ s.imported → ∃ p f k, (p = main ∨ p ∈ s.imported) ∧ fs p = some f ∧ Item.imp k q ∈ f

/-- What holds at item `i` of a file. -/
structure Frame (fs : Path → Option File) (main : Path) (pre : Option Name) (p : Path) (i : Nat) (s : St) : Prop where
  pre : p = main → pre = none
  here : p = main ∨ p ∈ s.imported
  done : ∀ f k q, fs p = some f → Item.imp k q ∈ f → k ≠ .plain → q ∈ s.imported → q ∈ targets (f.take i)
  mods : ∀ (f : File) (i' : Nat) (m : Name) (q : Path), fs p = some f → i' < i → f[i']? = some (.imp (.named m) q) →
    ⟨m, q⟩ ∈ s.mods ∧
    (header q = false → ∀ g t b, fs q = some g → Item.struct t b ∈ g → own (some (base q)) t ∈ s.structs)
  sels : ∀ (f : File) (i' : Nat) (ns : List (Name × Option Name)) (q : Path), fs p = some f → i' < i →
    f[i']? = some (.imp (.sel ns) q) → (∀ x, x ∈ ns → ⟨x.2.getD x.1, x.1, q⟩ ∈ s.sels) ∧
    (header q = false → ∀ g t b, fs q = some g → Item.struct t b ∈ g → own (some (base q)) t ∈ s.structs)

theorem tables_register {s : St} (ho : Once fs main) (h : Tables fs main s) {p : Path} {f : File} {i : Nat} {k : Import}
    {q : Path} (hp : p = main ∨ p ∈ s.imported) (hf : fs p = some f) (hi : f[i]? = some (.imp k q)) :
    Tables fs main (register k q s) := by
  have hmem := List.mem_of_getElem? hi
  refine ⟨?_, ?_, ?_, ?_⟩
  · rw [register_imported]
    intro hm
    rcases List.mem_cons.1 hm with hm | hm
    · subst hm
      exact ho.main _ _ _ hf hmem
    · exact h.noMain hm
  · intro m hm
    cases k with
    | named a =>
      rcases List.mem_cons.1 hm with hm | hm
      · subst hm
        exact ⟨p, f, hf, hmem⟩
      · exact h.mods m hm
    | _ => exact h.mods m hm
  · intro e he
    cases k with
    | sel ns =>
      rcases List.mem_append.1 he with he | he
      · rw [List.mem_reverse, List.mem_map] at he
        obtain ⟨x, hx, he⟩ := he
        subst he
        exact ⟨p, f, ns, x, hf, hmem, hx, rfl, rfl⟩
      · exact h.sels e he
    | _ => exact h.sels e he
  · rw [register_imported]
    intro q' hq'
    rcases List.mem_cons.1 hq' with e | e
    · subst e
      exact ⟨p, f, k, hp.imp id (List.mem_cons_of_mem _), hf, hmem⟩
    · obtain ⟨p', f', k', h1, h2⟩ := h.imps q' e
      exact ⟨p', f', k', h1.imp id (List.mem_cons_of_mem _), h2⟩

/-- An item that is no import of a new name: the frame goes on. -/
theorem frame_step {pre : Option Name} {p : Path} {i : Nat} {s s' : St} (h : Frame fs main pre p i s) (hg : Grows s s')
    {f : File} (hf : fs p = some f)
    (hnew : ∀ k q, .imp k q ∈ f → k ≠ .plain → q ∈ s'.imported → q ∈ s.imported ∨ q ∈ targets (f.take (i + 1)))
    (hmod : ∀ m q, f[i]? = some (.imp (.named m) q) → ⟨m, q⟩ ∈ s'.mods ∧
      (header q = false → ∀ g t b, fs q = some g → Item.struct t b ∈ g → own (some (base q)) t ∈ s'.structs))
    (hsel : ∀ ns q, f[i]? = some (.imp (.sel ns) q) → (∀ x, x ∈ ns → ⟨x.2.getD x.1, x.1, q⟩ ∈ s'.sels) ∧
      (header q = false → ∀ g t b, fs q = some g → Item.struct t b ∈ g → own (some (base q)) t ∈ s'.structs)) :
    Frame fs main pre p (i + 1) s' := by
  refine ⟨h.pre, h.here.imp id (hg.1 _), ?_, ?_, ?_⟩
  · intro f' k q hf' hi hk hq
    rw [hf] at hf'
    cases hf'
    rcases hnew k q hi hk hq with h' | h'
    · exact targets_take_sub (h.done f k q hf hi hk h')
    · exact h'
  · intro f' i' m q hf' hlt hi
    rcases Nat.lt_succ_iff_lt_or_eq.1 hlt with hl | hl
    · obtain ⟨h1, h2⟩ := h.mods f' i' m q hf' hl hi
      exact ⟨hg.2 _ h1, fun e g t b h3 h4 => hg.4 _ (h2 e g t b h3 h4)⟩
    · subst hl
      rw [hf] at hf'
      cases hf'
      exact hmod m q hi
  · intro f' i' ns q hf' hlt hi
    rcases Nat.lt_succ_iff_lt_or_eq.1 hlt with hl | hl
    · obtain ⟨h1, h2⟩ := h.sels f' i' ns q hf' hl hi
      exact ⟨fun x hx => hg.3 _ (h1 x hx), fun e g t b h3 h4 => hg.4 _ (h2 e g t b h3 h4)⟩
    · subst hl
      rw [hf] at hf'
      cases hf'
      exact hsel ns q hi

theorem mem_register_mod (m : Name) (q : Path) (s : St) : ⟨m, q⟩ ∈ (register (.named m) q s).mods := List.mem_cons_self

theorem mem_register_sel {ns : List (Name × Option Name)} (q : Path) (s : St) {x : Name × Option Name} (hx : x ∈ ns) :
    ⟨x.2.getD x.1, x.1, q⟩ ∈ (register (.sel ns) q s).sels := by
  refine List.mem_append_left _ ?_
  rw [List.mem_reverse, List.mem_map]
  exact ⟨x, hx, rfl⟩

/-- The names that references become. -/
theorem tables_frames (ho : Once fs main) {Φ : Path → Nat → Ref → Name → Prop}
    (hΦ : ∀ pre p i s r, Tables fs main s → Frame fs main pre p i s → Φ p i r (cname pre s r))
    {f : File} (hf : fs main = some f) {s : St} (h : Runs fs none main 0 f .init s) :
    ∀ q j r c, Ev.use q j r c ∈ s.evs → Φ q j r c := by
  have key := frames (fs := fs) (I := Tables fs main) (F := Frame fs main) (Φ := Φ) ?_ ?_ ?_ ?_ ?_ h hf rfl
    ⟨(fun h => by cases h), (fun _ h => by cases h), (fun _ h => by cases h), (fun _ h => by cases h)⟩
    ⟨fun _ => rfl, .inl rfl, (fun _ _ _ _ _ _ h => by cases h), (fun _ _ _ _ _ h => by omega), (fun _ _ _ _ _ h => by omega)⟩
  · intro q j r c hc
    rcases key.2 q j r c hc with h | h
    · cases h
    · exact h
  · -- skip
    intro pre p i s f k q hf hi hq _ hF
    have hk : k = .plain := Classical.byContradiction fun hk =>
      targets_fresh (ho.twice _ _ hf) hi (hF.done f k q hf (List.mem_of_getElem? hi) hk hq)
    subst hk
    refine frame_step hF (.refl s) hf (fun _ _ _ _ h => .inl h) (fun m q h => ?_) (fun ns q h => ?_)
    · rw [hi] at h; cases h
    · rw [hi] at h; cases h
  · -- header
    intro pre p i s f k q hf hi hq hh hI hF
    have hT := tables_register ho hI hF.here hf hi
    refine ⟨⟨hT.1, hT.2, hT.3, hT.4⟩, frame_step hF (grows_incl _ _ _) hf (fun k' q' h1 h2 h3 => ?_) (fun m q' h => ?_)
      (fun ns q' h => ?_)⟩
    · rw [show (St.imported _) = _ from register_imported _ _ _] at h3
      rcases List.mem_cons.1 h3 with h | h
      · subst h
        refine .inr ?_
        rw [targets_take hi]
        simp
      · exact .inl h
    · rw [hi] at h
      cases h
      exact ⟨mem_register_mod _ _ _, fun e => by rw [hh] at e; cases e⟩
    · rw [hi] at h
      cases h
      exact ⟨fun x hx => mem_register_sel _ _ hx, fun e => by rw [hh] at e; cases e⟩
  · -- enter
    intro pre p i s f k q g hf hi hq hh hg hI hF
    refine ⟨tables_register ho hI hF.here hf hi, ?_, .inr ?_, ?_, (fun _ _ _ _ _ h => by omega), (fun _ _ _ _ _ h => by omega)⟩
    · intro e
      rw [e] at hi
      exact absurd (List.mem_of_getElem? hi) (ho.main _ _ _ hf)
    · rw [register_imported]
      exact List.mem_cons_self
    · intro g' k' q' hg' hi' hk' hq'
      rw [hg] at hg'
      cases hg'
      have hmem := List.mem_of_getElem? hi
      have hqm : ¬ (q = main ∨ q ∈ s.imported) := by
        rintro (e | e)
        · rw [e] at hmem
          exact ho.main _ _ _ hf hmem
        · exact hq e
      rw [register_imported] at hq'
      rcases List.mem_cons.1 hq' with e | e
      · rw [e] at hi'
        have := ho.alone q p g f k' k q hg hf hi' hmem hk'
        exact absurd (this ▸ hF.here) hqm
      · obtain ⟨p', f', k'', h1, h2, h3⟩ := hI.imps q' e
        have := ho.alone q p' g f' k' k'' q' hg h2 hi' h3 hk'
        exact absurd (this ▸ h1) hqm
  · -- leave
    intro pre p i s f k q g s1 hf hi hq hh hg hI hF hr hI1
    have hgr := (grows_register k q s).trans hr.grows
    refine frame_step hF hgr hf (fun k' q' h1 h2 h3 => ?_) (fun m q' h => ?_) (fun ns q' h => ?_)
    · have hp : ∀ p', p' ∈ s1.imported → p' ∉ s.imported → p' ≠ p := by
        intro p' h1 h2 e
        subst e
        rcases hF.here with h | h
        · subst h
          exact hI1.noMain h1
        · exact h2 h
      rcases importer hr q' h3 with h | ⟨k'', h⟩ | ⟨p', f', k'', h4, h5, h6, h7⟩
      · rw [register_imported] at h
        rcases List.mem_cons.1 h with h | h
        · subst h
          refine .inr ?_
          rw [targets_take hi]
          simp
        · exact .inl h
      · exact absurd (ho.alone p q f g k' k'' q' hf hg h1 h h2) (hp q (hr.grows.1 _ (by
          rw [register_imported]
          exact List.mem_cons_self)) hq)
      · exact absurd (ho.alone p p' f f' k' k'' q' hf h6 h1 h7 h2) (hp p' h4 fun h => h5 ((grows_register _ _ _).1 _ h))
    · rw [hi] at h
      cases h
      exact ⟨hr.grows.2 _ (mem_register_mod _ _ _), fun _ g' t b h1 h2 => by
        rw [hg] at h1
        cases h1
        exact hr.written.3 t b h2⟩
    · rw [hi] at h
      cases h
      exact ⟨fun x hx => hr.grows.3 _ (mem_register_sel _ _ hx), fun _ g' t b h1 h2 => by
        rw [hg] at h1
        cases h1
        exact hr.written.3 t b h2⟩
  · -- declaration
    intro pre p i s f it hf hi hd hI hF
    obtain ⟨e1, e2, e3⟩ := declared_same pre p i it s
    refine ⟨⟨by rw [e1]; exact hI.1, by rw [e2]; exact hI.2, by rw [e3]; exact hI.3, by rw [e1]; exact hI.4⟩,
      frame_step hF (grows_declared _ _ _ _ _) hf (fun k' q' h1 h2 h3 => ?_) (fun m q' h => ?_) (fun ns q' h => ?_),
      fun r _ => hΦ pre p i s r hI hF⟩
    · rw [e1] at h3
      exact .inl h3
    · rw [hi] at h
      cases h
      cases hd
    · rw [hi] at h
      cases h
      cases hd

theorem findMod_some {s : St} (hT : Tables fs main s) (hc : Clear fs) {m : Name} {q : Path} (hm : ⟨m, q⟩ ∈ s.mods) :
    findMod s m = some ⟨m, q⟩ := by
  unfold findMod
  cases h : s.mods.find? (·.alias = m) with
  | none =>
    rw [List.find?_eq_none] at h
    exact absurd (h _ hm) (by simp)
  | some e =>
    have h1 : e.alias = m := by simpa using List.find?_some h
    obtain ⟨p', f', h2, h3⟩ := hT.mods e (List.mem_of_find?_eq_some h)
    obtain ⟨p, f, h4, h5⟩ := hT.mods _ hm
    obtain ⟨a, b⟩ := e
    simp only at h1 h3 h5
    subst h1
    rw [hc.aliases _ _ _ _ _ _ _ h4 h2 h5 h3]

theorem findSel_some {s : St} (hT : Tables fs main s) (hc : Clear fs) {m x : Name} {q : Path} (hm : ⟨m, x, q⟩ ∈ s.sels) :
    findSel s m = some ⟨m, x, q⟩ := by
  unfold findSel
  cases h : s.sels.find? (·.here = m) with
  | none =>
    rw [List.find?_eq_none] at h
    exact absurd (h _ hm) (by simp)
  | some e =>
    have h1 : e.here = m := by simpa using List.find?_some h
    obtain ⟨p', f', ns', x', h2, h3, h4, h5, h6⟩ := hT.sels e (List.mem_of_find?_eq_some h)
    obtain ⟨p, f, ns, y, h7, h8, h9, h10, h11⟩ := hT.sels _ hm
    obtain ⟨a, b, c⟩ := e
    simp only at h1 h3 h5 h6 h8 h10 h11
    subst h1
    obtain ⟨e1, e2⟩ := hc.singles _ _ _ _ _ _ _ _ _ _ h7 h2 h8 h3 h9 h4 (h5.symm.trans h10)
    rw [h6, h11, e1, e2]

theorem findSel_none {s : St} (hT : Tables fs main s) {m : Name} (h : NoSingle fs m) : findSel s m = none := by
  unfold findSel
  rw [List.find?_eq_none]
  intro e he
  obtain ⟨p', f', ns', x', h2, h3, h4, h5, h6⟩ := hT.sels e he
  rw [h5]
  simpa using h _ _ _ _ _ h2 h3 h4

theorem findMod_none {s : St} (hT : Tables fs main s) {m : Name} (h : NoAlias fs m) : findMod s m = none := by
  unfold findMod
  rw [List.find?_eq_none]
  intro e he
  obtain ⟨p', f', h2, h3⟩ := hT.mods e he
  simpa using h _ _ _ _ h2 h3

theorem noSingle_alias (hc : Clear fs) {p : Path} {f : File} {m : Name} {q : Path} (hf : fs p = some f)
    (hi : Item.imp (.named m) q ∈ f) : NoSingle fs m := fun _ _ _ _ _ h1 h2 h3 =>
  hc.single _ _ _ _ _ _ _ _ _ hf h1 hi h2 h3

theorem seg_alias {s : St} (hT : Tables fs main s) (hc : Clear fs) {m : Name} {q : Path} (hm : ⟨m, q⟩ ∈ s.mods)
    (pre : Option Name) (b : Name) : seg pre s m b = if header q then b else base q ++ "_" ++ b := by
  obtain ⟨p, f, h1, h2⟩ := hT.mods _ hm
  have h3 := findSel_none hT (noSingle_alias hc h1 h2)
  simp only [seg, h3, ite_self, findMod_some hT hc hm]

theorem seg_struct {s : St} (hT : Tables fs main s) {t : Name} (h1 : NoSingle fs t) (h2 : NoAlias fs t) (ht : t ∈ s.structs)
    (pre : Option Name) (b : Name) : seg pre s t b = t ++ "__" ++ b := by
  simp only [seg, findSel_none hT h1, ite_self, findMod_none hT h2, ht, if_true]

/-- A file that is imported with a name or for single names is written with its base name. -/
theorem module_written (ho : Once fs main) {s : St} {fm : File} (hfm : fs main = some fm) (h : Runs fs none main 0 fm .init s)
    {p q : Path} {f g : File} {k : Import} (hp : Part fs main p) (hf : fs p = some f) (hi : Item.imp k q ∈ f)
    (hk : k ≠ .plain) (hh : header q = false) (hg : fs q = some g) : Written (some (base q)) q 0 g s := by
  rcases part_imported hfm h (.imp hp hf hi hh) with e | ⟨e, _⟩
  · subst e
    exact absurd hi (ho.main _ _ _ hf)
  · rcases prefixed h hfm rfl q e with h' | h' | ⟨g', p', f', k', pre', h1, h2, h3, h4⟩
    · cases h'
    · rw [hh] at h'
      cases h'
    · rw [hg] at h1
      cases h1
      have e := ho.alone _ _ _ _ _ _ _ hf h2 hi h3 hk
      subst e
      rw [hf] at h2
      cases h2
      have e := targets_nodup (ho.twice _ _ hf) hi h3
      subst e
      cases k' with
      | plain => exact absurd rfl hk
      | named m => exact h4
      | sel ns => exact h4

/-- C86 (partial): behind `import "q" as m`, in any file, `m::x` means the function `x` of that file and `m::t::x` means the method of its
struct `t`; in the main file the type `m::t` means its struct. For a C header the name is used as it is.
Missing from the full claim: files imported more than once (`again_violated`), aliases used twice (`alias_violated`), files of the
same name (`base_violated`: the C compiler rejects the program), types in files that are modules themselves (`inner_type_violated`). -/
theorem module_partial (ho : Once fs main) (hc : Clear fs) {n : Nat} {s : St} (h : program fs n main = .ok s)
    (ha : Accepted s.evs) {p q : Path} {f : File} {i j : Nat} {m : Name} {it : Item} {r : Ref} (hp : Part fs main p)
    (hf : fs p = some f) (hi : f[i]? = some (.imp (.named m) q)) (hij : i < j) (hj : f[j]? = some it)
    (hr : Mentions r it) :
    (∃ c, Ev.use p j r c ∈ s.evs) ∧ ∀ c, Ev.use p j r c ∈ s.evs →
      (header q = true → ∀ x, (r = .path m x ∨ r = .qty m x ∧ p = main ∧ NoSingle fs x) → c = x) ∧
      (header q = false → ∀ g, fs q = some g → ∀ k b,
        (∀ x, r = .path m x → g[k]? = some (.fn x b) → Means s.evs c q k) ∧
        (∀ t x b', r = .path3 m t x → .struct t b' ∈ g → NoSingle fs (base q ++ "_" ++ t) →
          NoAlias fs (base q ++ "_" ++ t) → g[k]? = some (.method t x b) → Means s.evs c q k) ∧
        (∀ t, r = .qty m t → p = main → NoSingle fs (base q ++ "_" ++ t) → g[k]? = some (.struct t b) →
          Means s.evs c q k)) := by
  obtain ⟨fm, hfm, hruns⟩ := program_runs h
  constructor
  · obtain ⟨pre, hw⟩ := part_written hfm hruns hp hf
    have := hw.2 j it r hj ((mentions_iff _ _).1 hr)
    rwa [Nat.zero_add] at this
  intro c hc'
  have key := tables_frames ho (main := main) (Φ := fun p' j' r' c' => p' = p → j' = j →
      (header q = true → ∀ x, (r' = .path m x ∨ r' = .qty m x ∧ p = main ∧ NoSingle fs x) → c' = x) ∧
      (header q = false → ∀ g, fs q = some g →
        (∀ x, r' = .path m x → c' = base q ++ "_" ++ x) ∧
        (∀ t x b', r' = .path3 m t x → .struct t b' ∈ g → NoSingle fs (base q ++ "_" ++ t) →
          NoAlias fs (base q ++ "_" ++ t) → c' = base q ++ "_" ++ t ++ "__" ++ x) ∧
        (∀ t, r' = .qty m t → p = main → NoSingle fs (base q ++ "_" ++ t) → c' = base q ++ "_" ++ t))) ?_ hfm hruns
  · obtain ⟨h1, h2⟩ := key p j r c hc' rfl rfl
    refine ⟨h1, fun hh g hg k b => ?_⟩
    have hw := module_written ho hfm hruns hp hf (List.mem_of_getElem? hi) (by simp) hh hg
    have hdef : ∀ it c, g[k]? = some it → defName (some (base q)) it = some c → Means s.evs c q k := fun it c h1 h2 =>
      means_of_accepted ha (by
        have := hw.1 k it c h1 h2
        rwa [Nat.zero_add] at this)
    obtain ⟨h3, h4, h5⟩ := h2 hh g hg
    refine ⟨fun x e hk => ?_, fun t x b' e h6 h7 h8 hk => ?_, fun t e h6 h7 hk => ?_⟩
    · rw [h3 x e]
      exact hdef _ _ hk rfl
    · rw [h4 t x b' e h6 h7 h8]
      exact hdef _ _ hk rfl
    · rw [h5 t e h6 h7]
      exact hdef _ _ hk rfl
  · rintro pre p' j' s r' hT hF rfl rfl
    obtain ⟨h1, h2⟩ := hF.mods f i m q hf hij hi
    have hseg := seg_alias hT hc h1
    refine ⟨fun hh x hx => ?_, fun hh g hg => ⟨fun x e => ?_, fun t x b' e h3 h4 h5 => ?_, fun t e h3 h4 => ?_⟩⟩
    · rcases hx with e | ⟨e, e1, e2⟩
      · subst e
        simp only [cname, hseg, hh, if_true]
      · subst e
        rw [hF.pre e1]
        simp only [cname, qualified, findMod_some hT hc h1, hh, if_true, tyName, findSel_none hT e2]
    · subst e
      simp only [cname, hseg, hh, Bool.false_eq_true, if_false]
    · subst e
      simp only [cname, hseg, hh, Bool.false_eq_true, if_false]
      exact seg_struct hT h4 h5 (h2 hh g t b' hg h3) pre x
    · subst e
      rw [hF.pre h3]
      simp only [cname, qualified, findMod_some hT hc h1, hh, Bool.false_eq_true, if_false, tyName, findSel_none hT h4]

/-- C86 (partial): in the main file, behind `import { x as y } from "q"`, the type `y` means the struct `x` of that file and `y::g` means its method.
Missing from the full claim: functions imported by name (`single_fn_violated`) and all single names in other files
(`single_inner_violated`). -/
theorem single_partial (ho : Once fs main) (hc : Clear fs) {n : Nat} {s : St} (h : program fs n main = .ok s)
    (ha : Accepted s.evs) {q : Path} {f g : File} {i j : Nat} {ns : List (Name × Option Name)} {x : Name × Option Name}
    {it : Item} {r : Ref} (hf : fs main = some f) (hi : f[i]? = some (.imp (.sel ns) q)) (hx : x ∈ ns) (hij : i < j)
    (hj : f[j]? = some it) (hr : Mentions r it) (hh : header q = false) (hg : fs q = some g) :
    (∃ c, Ev.use main j r c ∈ s.evs) ∧ ∀ c, Ev.use main j r c ∈ s.evs → ∀ k b,
      (r = .ty (x.2.getD x.1) → g[k]? = some (.struct x.1 b) → Means s.evs c q k) ∧
      (∀ y b', r = .path (x.2.getD x.1) y → .struct x.1 b' ∈ g → g[k]? = some (.method x.1 y b) → Means s.evs c q k) := by
  obtain ⟨fm, hfm, hruns⟩ := program_runs h
  have e := hfm
  rw [hf] at e
  cases e
  constructor
  · have := hruns.written.2 j it r hj ((mentions_iff _ _).1 hr)
    rwa [Nat.zero_add] at this
  intro c hc' k b
  have hw := module_written ho hfm hruns .main hf (List.mem_of_getElem? hi) (by simp) hh hg
  have hdef : ∀ it c, g[k]? = some it → defName (some (base q)) it = some c → Means s.evs c q k := fun it c h1 h2 =>
    means_of_accepted ha (by
      have := hw.1 k it c h1 h2
      rwa [Nat.zero_add] at this)
  have key := tables_frames ho (main := main) (Φ := fun p' j' r' c' => p' = main → j' = j →
      (r' = .ty (x.2.getD x.1) → c' = base q ++ "_" ++ x.1) ∧
      (∀ y b', r' = .path (x.2.getD x.1) y → .struct x.1 b' ∈ g → c' = base q ++ "_" ++ x.1 ++ "__" ++ y)) ?_ hfm hruns
  · obtain ⟨h1, h2⟩ := key main j r c hc' rfl rfl
    refine ⟨fun e hk => ?_, fun y b' e h3 hk => ?_⟩
    · rw [h1 e]
      exact hdef _ _ hk rfl
    · rw [h2 y b' e h3]
      exact hdef _ _ hk rfl
  · rintro pre p' j' s r' hT hF e rfl
    have hpre := hF.pre e
    subst e hpre
    obtain ⟨h1, h2⟩ := hF.sels f i ns q hf hij hi
    have h3 := findSel_some hT hc (h1 x hx)
    refine ⟨fun e => ?_, fun y b' e h4 => ?_⟩
    · subst e
      simp only [cname, tyName, h3]
    · subst e
      have h5 := h2 hh g _ b' hg h4
      simp only [own] at h5
      simp only [cname, seg, Option.isNone_none, if_true, h3, h5]

/-! ## Programs -/

/-- A program from a list of its files. -/
def files (l : List (Path × File)) (p : Path) : Option File := (l.find? (·.1 = p)).map (·.2)

/-- What is written, if reading succeeds. -/
def evsOf : R → List Ev
  | .ok s => s.evs
  | _ => []

theorem files_mem {l : List (Path × File)} {p : Path} {f : File} (h : files l p = some f) : (p, f) ∈ l := by
  unfold files at h
  cases e : l.find? (·.1 = p) with
  | none => simp [e] at h
  | some x =>
    rw [e] at h
    have h1 := List.mem_of_find?_eq_some e
    have h2 : x.1 = p := by simpa using List.find?_some e
    simp only [Option.map_some, Option.some.injEq] at h
    subst h2 h
    exact h1

/-- A program of three files. -/
def demo : List (Path × File) :=
  [("main.zc", [.imp (.named "geo") "lib/geo.zc", .imp (.sel [("Pen", some "P"), ("Ink", none)]) "pen.zc",
      .imp .plain "util.zc", .imp (.named "c") "math.h",
      .fn "main" [.path "geo" "area", .path3 "geo" "Box" "new", .qty "geo" "Box", .ty "P", .path "P" "new", .path "Ink" "new",
        .path "c" "sqrt", .call "help"]]),
    ("lib/geo.zc", [.struct "Box" [], .method "Box" "new" [], .fn "area" []]),
    ("pen.zc", [.struct "Pen" [], .method "Pen" "new" [], .struct "Ink" [], .method "Ink" "new" []]),
    ("util.zc", [.fn "help" []])]

theorem demo_evs : evsOf (program (files demo) 5 "main.zc") =
    [.dfn "geo_Box" "lib/geo.zc" 0, .dfn "geo_Box__new" "lib/geo.zc" 1, .dfn "geo_area" "lib/geo.zc" 2,
      .dfn "pen_Pen" "pen.zc" 0, .dfn "pen_Pen__new" "pen.zc" 1, .dfn "pen_Ink" "pen.zc" 2,
      .dfn "pen_Ink__new" "pen.zc" 3, .dfn "help" "util.zc" 0, .incl "math.h", .dfn "main" "main.zc" 4,
      .use "main.zc" 4 (.path "geo" "area") "geo_area", .use "main.zc" 4 (.path3 "geo" "Box" "new") "geo_Box__new",
      .use "main.zc" 4 (.qty "geo" "Box") "geo_Box", .use "main.zc" 4 (.ty "P") "pen_Pen",
      .use "main.zc" 4 (.path "P" "new") "pen_Pen__new", .use "main.zc" 4 (.path "Ink" "new") "pen_Ink__new",
      .use "main.zc" 4 (.path "c" "sqrt") "sqrt", .use "main.zc" 4 (.call "help") "help"] := by
  decide +kernel

/-- The imports of a program. -/
def imports (l : List (Path × File)) : List (Path × Import × Path) :=
  l.flatMap fun x => x.2.filterMap fun
    | .imp k q => some (x.1, k, q)
    | _ => none

theorem mem_imports {l : List (Path × File)} {p : Path} {f : File} {k : Import} {q : Path} (h : files l p = some f)
    (hi : Item.imp k q ∈ f) : (p, k, q) ∈ imports l :=
  List.mem_flatMap.2 ⟨_, files_mem h, List.mem_filterMap.2 ⟨_, hi, rfl⟩⟩

theorem demo_once : Once (files demo) "main.zc" := by
  refine ⟨fun p f k h hi => ?_, fun p f h => ?_, fun p p' f f' k k' q h h' hi hi' hk => ?_⟩
  · exact absurd (mem_imports h hi) ((by decide +kernel : ∀ x ∈ imports demo, x.2.2 ≠ "main.zc") _ · rfl)
  · exact (by decide +kernel : ∀ x ∈ demo, (targets x.2).Nodup) _ (files_mem h)
  · exact (by decide +kernel : ∀ x ∈ imports demo, ∀ y ∈ imports demo, x.2.2 = y.2.2 → y.1 = x.1) _ (mem_imports h hi) _
      (mem_imports h' hi') rfl

theorem demo_clear : Clear (files demo) := by
  refine ⟨fun p p' f f' m q q' h h' hi hi' => ?_, fun p p' f f' m q q' ns x h h' hi hi' hx => ?_,
    fun p p' f f' q q' ns ns' x x' h h' hi hi' hx hx' e => ?_⟩
  · exact (by decide +kernel : ∀ x ∈ imports demo, ∀ y ∈ imports demo,
      (∃ m ∈ ["geo", "c"], x.2.1 = .named m) → x.2.1 = y.2.1 → y.2.2 = x.2.2) _ (mem_imports h hi) _ (mem_imports h' hi')
      ((by decide +kernel : ∀ x ∈ imports demo, (match x.2.1 with | .named _ => true | _ => false) = true →
        ∃ m ∈ ["geo", "c"], x.2.1 = .named m) _ (mem_imports h hi) rfl) rfl
  · have h1 := (by decide +kernel : ∀ x ∈ imports demo, (match x.2.1 with
      | .named m => decide (m = "geo" ∨ m = "c")
      | _ => true) = true) _ (mem_imports h hi)
    have h2 := (by decide +kernel : ∀ x ∈ imports demo, (match x.2.1 with
      | .sel ns => decide (∀ x ∈ ns, x.2.getD x.1 ≠ "geo" ∧ x.2.getD x.1 ≠ "c")
      | _ => true) = true) _ (mem_imports h' hi')
    simp only [decide_eq_true_eq] at h1 h2
    have h2 := h2 x hx
    rcases h1 with h1 | h1 <;> subst h1
    · exact h2.1
    · exact h2.2
  · have h1 : ∀ {p : Path} {f : File} {q : Path} {ns : List (Name × Option Name)} {x : Name × Option Name},
        files demo p = some f → Item.imp (.sel ns) q ∈ f → x ∈ ns →
        q = "pen.zc" ∧ (x = ("Pen", some "P") ∨ x = ("Ink", none)) := by
      intro p f q ns x h hi hx
      have := (by decide +kernel : ∀ x ∈ imports demo, (match x.2.1 with
        | .sel ns => decide (x.2.2 = "pen.zc" ∧ ∀ y ∈ ns, y = ("Pen", some "P") ∨ y = ("Ink", none))
        | _ => true) = true) _ (mem_imports h hi)
      simp only [decide_eq_true_eq] at this
      exact ⟨this.1, this.2 x hx⟩
    obtain ⟨h2, h3⟩ := h1 h hi hx
    obtain ⟨h4, h5⟩ := h1 h' hi' hx'
    refine ⟨h4.trans h2.symm, ?_⟩
    rcases h3 with h3 | h3 <;> rcases h5 with h5 | h5 <;> subst h3 h5
    · rfl
    · exact absurd e (by decide)
    · exact absurd e (by decide)
    · rfl

theorem demo_accepted : Accepted (evsOf (program (files demo) 5 "main.zc")) := by
  rw [demo_evs]
  unfold Accepted
  decide +kernel

/-- The hypotheses of `module_partial` and `single_partial` hold for `demo`, and what they give is what stands in `demo_evs`. -/
example : ∃ s, program (files demo) 5 "main.zc" = .ok s ∧ Accepted s.evs ∧
    Means s.evs "geo_area" "lib/geo.zc" 2 ∧ Means s.evs "geo_Box__new" "lib/geo.zc" 1 ∧ Means s.evs "geo_Box" "lib/geo.zc" 0 ∧
    Means s.evs "pen_Pen" "pen.zc" 0 ∧ Means s.evs "pen_Pen__new" "pen.zc" 1 := by
  have ha := demo_accepted
  have he := demo_evs
  cases h : program (files demo) 5 "main.zc" with
  | ok s =>
    rw [h] at ha he
    refine ⟨s, rfl, ha, ?_, ?_, ?_, ?_, ?_⟩ <;> refine means_of_accepted ha ?_ <;> rw [he] <;>
      decide +kernel
  | missing => rw [h] at he; cases he
  | over => rw [h] at he; cases he
  | out => rw [h] at he; cases he

example {s : St} (h : program (files demo) 5 "main.zc" = .ok s) :
    ∀ c, Ev.use "main.zc" 4 (.path "geo" "area") c ∈ s.evs → Means s.evs c "lib/geo.zc" 2 := fun c hc =>
  (((module_partial demo_once demo_clear h (by have := demo_accepted; rwa [h] at this) .main
    (f := [.imp (.named "geo") "lib/geo.zc", .imp (.sel [("Pen", some "P"), ("Ink", none)]) "pen.zc",
      .imp .plain "util.zc", .imp (.named "c") "math.h",
      .fn "main" [.path "geo" "area", .path3 "geo" "Box" "new", .qty "geo" "Box", .ty "P", .path "P" "new",
        .path "Ink" "new", .path "c" "sqrt", .call "help"]])
    (i := 0) (j := 4) (by decide +kernel) rfl (by decide) rfl (.fn (by decide +kernel))).2 c hc).2 (by decide +kernel)
    [.struct "Box" [], .method "Box" "new" [], .fn "area" []] (by decide +kernel) 2 []).1 "area" rfl rfl

/-- A program with plain imports only. -/
def flat : List (Path × File) :=
  [("main.zc", [.imp .plain "a.zc", .fn "main" [.call "f", .ty "T", .path "T" "new"]]),
    ("a.zc", [.imp .plain "b.zc", .fn "f" [.ty "T"]]),
    ("b.zc", [.imp .plain "a.zc", .struct "T" [], .method "T" "new" [.call "f"]])]

/-- The hypotheses of `each_once` and `plain_partial` hold for `flat`, where two files import each other. -/
example : AllPlain (files flat) ∧ (∀ p f k, files flat p = some f → Item.imp k "main.zc" ∉ f) ∧
    (∀ q f, files flat q = some f → q ∈ ["main.zc", "a.zc", "b.zc"]) ∧
    Accepted (evsOf (program (files flat) 4 "main.zc")) ∧
    evsOf (program (files flat) 4 "main.zc") =
      [.dfn "T" "b.zc" 1, .dfn "T__new" "b.zc" 2, .use "b.zc" 2 (.call "f") "f", .dfn "f" "a.zc" 1,
        .use "a.zc" 1 (.ty "T") "T", .dfn "main" "main.zc" 1, .use "main.zc" 1 (.call "f") "f",
        .use "main.zc" 1 (.ty "T") "T", .use "main.zc" 1 (.path "T" "new") "T__new"] := by
  refine ⟨fun p f k q h hi => ?_, fun p f k h hi => ?_, fun q f h => ?_, ?_, by decide +kernel⟩
  · exact (by decide +kernel : ∀ x ∈ imports flat, x.2.1 = .plain) _ (mem_imports h hi)
  · exact absurd (mem_imports h hi) ((by decide +kernel : ∀ x ∈ imports flat, x.2.2 ≠ "main.zc") _ · rfl)
  · exact (by decide +kernel : ∀ x ∈ flat, x.1 ∈ ["main.zc", "a.zc", "b.zc"]) _ (files_mem h)
  · unfold Accepted
    decide +kernel

/-! ## Violations -/

/-- C85: if a file imports the main file, the main file is read a second time: its definitions stand twice in the C file. -/
theorem main_violated :
    let l := [("main.zc", [.imp .plain "a.zc", .fn "f" [], .fn "main" []]), ("a.zc", [.imp .plain "main.zc", .fn "g" [.call "f"]])]
    sites (evsOf (program (files l) 4 "main.zc")) = [("main.zc", 1), ("main.zc", 2), ("a.zc", 1), ("main.zc", 1), ("main.zc", 2)] ∧
      ¬ Accepted (evsOf (program (files l) 4 "main.zc")) := by
  refine ⟨by decide +kernel, ?_⟩
  unfold Accepted
  decide +kernel

/-- C86: a function of a module cannot call the module's other functions by name: the definition gets a prefix and the call does
not. Without `f` in the main file the call means nothing; with it, it means that one. -/
theorem own_call_violated :
    let a : Path × File := ("a.zc", [.fn "f" [], .fn "g" [.call "f"]])
    let l := [("main.zc", [.imp (.named "m") "a.zc", .fn "main" [.path "m" "g"]]), a]
    let l' := [("main.zc", [.imp (.named "m") "a.zc", .fn "f" [], .fn "main" [.path "m" "g"]]), a]
    (.use "a.zc" 1 (.call "f") "f" ∈ evsOf (program (files l) 4 "main.zc") ∧
      names (evsOf (program (files l) 4 "main.zc")) = ["a_f", "a_g", "main"]) ∧
    (.use "a.zc" 1 (.call "f") "f" ∈ evsOf (program (files l') 4 "main.zc") ∧
      .dfn "f" "main.zc" 1 ∈ evsOf (program (files l') 4 "main.zc") ∧
      names (evsOf (program (files l') 4 "main.zc")) = ["a_f", "a_g", "f", "main"]) := by
  refine ⟨⟨by decide +kernel, by decide +kernel⟩, by decide +kernel, by decide +kernel, by decide +kernel⟩

/-- C86: nor can it reach the methods of its own structs with `T::new`. -/
theorem own_method_violated :
    let l := [("main.zc", [.imp (.named "m") "a.zc", .fn "main" [.path "m" "f"]]),
      ("a.zc", [.struct "T" [], .method "T" "new" [], .fn "f" [.path "T" "new"]])]
    .use "a.zc" 2 (.path "T" "new") "T_new" ∈ evsOf (program (files l) 4 "main.zc") ∧
      names (evsOf (program (files l) 4 "main.zc")) = ["a_T", "a_T__new", "a_f", "main"] := by
  exact ⟨by decide +kernel, by decide +kernel⟩

/-- C86: a function that is imported by its name cannot be called by it. -/
theorem single_fn_violated :
    let l := [("main.zc", [.imp (.sel [("f", none)]) "a.zc", .fn "main" [.call "f"]]), ("a.zc", [.fn "f" []])]
    .use "main.zc" 1 (.call "f") "f" ∈ evsOf (program (files l) 4 "main.zc") ∧
      names (evsOf (program (files l) 4 "main.zc")) = ["a_f", "main"] := by
  exact ⟨by decide +kernel, by decide +kernel⟩

/-- C86: in a module, a struct that is imported by its name means one of the module itself. -/
theorem single_inner_violated :
    let l := [("main.zc", [.imp (.named "m") "a.zc", .fn "main" [.path "m" "f"]]),
      ("a.zc", [.imp (.sel [("T", none)]) "b.zc", .fn "f" [.ty "T", .path "T" "new"]]),
      ("b.zc", [.struct "T" [], .method "T" "new" []])]
    .use "a.zc" 1 (.ty "T") "a_T" ∈ evsOf (program (files l) 4 "main.zc") ∧
      .use "a.zc" 1 (.path "T" "new") "T_new" ∈ evsOf (program (files l) 4 "main.zc") ∧
      names (evsOf (program (files l) 4 "main.zc")) = ["b_T", "b_T__new", "a_f", "main"] := by
  exact ⟨by decide +kernel, by decide +kernel, by decide +kernel⟩

/-- C86: in a module, a type of another module gets two prefixes. -/
theorem inner_type_violated :
    let l := [("main.zc", [.imp (.named "m") "a.zc", .fn "main" [.path "m" "f"]]),
      ("a.zc", [.imp (.named "n") "b.zc", .fn "f" [.qty "n" "T"]]), ("b.zc", [.struct "T" []])]
    .use "a.zc" 1 (.qty "n" "T") "a_b_T" ∈ evsOf (program (files l) 4 "main.zc") ∧
      names (evsOf (program (files l) 4 "main.zc")) = ["b_T", "a_f", "main"] := by
  exact ⟨by decide +kernel, by decide +kernel⟩

/-- C86: the second import of a file is skipped with its alias, in the same file and in others. -/
theorem again_violated :
    let l := [("main.zc", [.imp .plain "a.zc", .imp (.named "m") "a.zc", .fn "main" [.path "m" "f"]]), ("a.zc", [.fn "f" []])]
    let l' := [("main.zc", [.imp (.named "m") "a.zc", .imp .plain "b.zc", .fn "main" [.call "g"]]),
      ("b.zc", [.imp (.named "n") "a.zc", .fn "g" [.path "n" "f"]]), ("a.zc", [.fn "f" []])]
    (.use "main.zc" 2 (.path "m" "f") "m_f" ∈ evsOf (program (files l) 4 "main.zc") ∧
      names (evsOf (program (files l) 4 "main.zc")) = ["f", "main"]) ∧
    (.use "b.zc" 1 (.path "n" "f") "n_f" ∈ evsOf (program (files l') 4 "main.zc") ∧
      names (evsOf (program (files l') 4 "main.zc")) = ["a_f", "g", "main"]) := by
  exact ⟨⟨by decide +kernel, by decide +kernel⟩, by decide +kernel, by decide +kernel⟩

/-- C86: a file that a module imports plainly gets the prefix of the module: neither the module nor the main file, which imports it
too, can call its functions. -/
theorem nested_violated :
    let l := [("main.zc", [.imp (.named "m") "a.zc", .imp .plain "b.zc", .fn "main" [.path "m" "f", .call "g"]]),
      ("a.zc", [.imp .plain "b.zc", .fn "f" [.call "g"]]), ("b.zc", [.fn "g" []])]
    .use "a.zc" 1 (.call "g") "g" ∈ evsOf (program (files l) 4 "main.zc") ∧
      .use "main.zc" 2 (.call "g") "g" ∈ evsOf (program (files l) 4 "main.zc") ∧
      names (evsOf (program (files l) 4 "main.zc")) = ["a_g", "a_f", "main"] := by
  exact ⟨by decide +kernel, by decide +kernel, by decide +kernel⟩

/-- C86: modules of the same file name in different directories have the same prefix. -/
theorem base_violated :
    let l := [("main.zc", [.imp (.named "m") "x/a.zc", .imp (.named "n") "y/a.zc", .fn "main" [.path "m" "f", .path "n" "f"]]),
      ("x/a.zc", [.fn "f" []]), ("y/a.zc", [.fn "f" []])]
    ¬ Accepted (evsOf (program (files l) 4 "main.zc")) ∧
      names (evsOf (program (files l) 4 "main.zc")) = ["a_f", "a_f", "main"] := by
  refine ⟨?_, by decide +kernel⟩
  unfold Accepted
  decide +kernel

/-- C86: aliases are global, the latest wins: an alias in an imported file changes what the importing file means by its own. -/
theorem alias_violated :
    let l := [("main.zc", [.imp (.named "m") "a.zc", .imp .plain "b.zc", .fn "main" [.path "m" "f"]]),
      ("a.zc", [.fn "f" []]), ("b.zc", [.imp (.named "m") "c.zc"]), ("c.zc", [.fn "f" []])]
    .use "main.zc" 2 (.path "m" "f") "c_f" ∈ evsOf (program (files l) 4 "main.zc") ∧
      .dfn "c_f" "c.zc" 0 ∈ evsOf (program (files l) 4 "main.zc") ∧
      .dfn "a_f" "a.zc" 0 ∈ evsOf (program (files l) 4 "main.zc") := by
  exact ⟨by decide +kernel, by decide +kernel, by decide +kernel⟩

/-- C86: `T::new` in front of the struct becomes another name than behind it. -/
theorem early_violated :
    let l := [("main.zc", [.fn "main" [.path "T" "new"], .struct "T" [], .method "T" "new" []])]
    .use "main.zc" 0 (.path "T" "new") "T_new" ∈ evsOf (program (files l) 4 "main.zc") ∧
      names (evsOf (program (files l) 4 "main.zc")) = ["main", "T", "T__new"] := by
  exact ⟨by decide +kernel, by decide +kernel⟩

/-- C86: more than 32 names in one import overflow the table, whatever the program. -/
theorem names_violated {ns : List (Name × Option Name)} (h : 32 < ns.length) (q : Path) (is : File) (n : Nat)
    (hm : fs main = some (.imp (.sel ns) q :: is)) : program fs (n + 1) main = .over := by
  unfold program
  simp [hm, parse, run, item, tooMany, h]

/-! ## The search for files -/

/-- The first of the places where the file is readable. -/
theorem search_find {readable : Path → Bool} {fn : Path} {ds : List Path} (h : ∀ d, d ∈ ds → (join d fn).length < 1024) :
    search readable fn ds = (ds.map (join · fn)).find? readable := by
  induction ds with
  | nil => rfl
  | cons d ds ih =>
    have ih := ih fun d hd => h d (List.mem_cons_of_mem _ hd)
    simp only [search, h d List.mem_cons_self, true_and, List.map_cons, List.find?_cons, ih]
    cases readable (join d fn) <;> simp

/-- C87: a file named without a directory prefix is taken from the first place that has it: beside the importing file, then in the current
directory, then in the include paths in their order, then in the installed ones. -/
theorem locate_first {readable : Path → Bool} {cur fn : Path} {incs roots : List Path} (ha : fn.toList.head? ≠ some '/')
    (hr : relative fn = false) (hl : ∀ d, d ∈ incs ++ roots → (join d fn).length < 1024) :
    (∀ q, (places cur incs roots fn).find? readable = some q → locate readable cur incs roots fn = q) ∧
    ((places cur incs roots fn).find? readable = none → readable (locate readable cur incs roots fn) = false) := by
  have e : locate readable cur incs roots fn = ((places cur incs roots fn).find? readable).getD fn := by
    unfold locate places
    simp only [if_neg ha, hr, Bool.false_or]
    cases hd : dirOf cur with
    | none =>
      simp only [List.nil_append, List.cons_append, List.find?_cons, search_find hl]
      cases readable fn <;> simp
    | some d =>
      simp only [List.cons_append, List.nil_append, List.find?_cons]
      cases h1 : readable (join d fn)
      · cases h2 : readable fn <;> simp [h2, search_find hl]
      · simp [h1]
  rw [e]
  constructor
  · intro q h
    rw [h]
    rfl
  · intro h
    rw [h]
    rw [List.find?_eq_none] at h
    have : fn ∈ places cur incs roots fn := by
      unfold places
      simp
    simpa using h fn this

/-- C87: `./` and `../` mean the directory of the importing file if the file is there. -/
theorem locate_relative {readable : Path → Bool} {cur fn d : Path} {incs roots : List Path} (hr : relative fn = true)
    (hd : dirOf cur = some d) (h : readable (join d fn) = true) : locate readable cur incs roots fn = join d fn := by
  have ha : fn.toList.head? ≠ some '/' := by
    intro e
    unfold relative at hr
    split at hr <;> simp_all
  unfold locate
  simp [ha, hd, hr, h]

/-- C87: an absolute path that can be read is taken as it is. -/
theorem locate_absolute {readable : Path → Bool} {cur fn : Path} {incs roots : List Path} (ha : fn.toList.head? = some '/')
    (h : readable fn = true) : locate readable cur incs roots fn = fn := by
  unfold locate
  simp [ha, h]

/-- C87: if it is not there, a file of the same path below an include path is taken instead. -/
theorem relative_violated {readable : Path → Bool} {cur fn d inc : Path} {incs roots : List Path} (hr : relative fn = true)
    (hd : dirOf cur = some d) (h : readable (join d fn) = false) (hi : readable (join inc (join d fn)) = true)
    (hl : (join inc (join d fn)).length < 1024) :
    locate readable cur (inc :: incs) roots fn = join inc (join d fn) := by
  have ha : fn.toList.head? ≠ some '/' := by
    intro e
    unfold relative at hr
    split at hr <;> simp_all
  unfold locate
  simp [ha, hd, hr, h, search, hi, hl]

/-- C87: a name that begins with `./` or `../` is never looked up from the working directory: it means the directory of the
importing file, or that path below one of the other directories. -/
theorem locate_own {readable : Path → Bool} {cur fn d : Path} {incs roots : List Path} {rest : List Char}
    (hr : fn.toList = '.' :: '/' :: rest ∨ fn.toList = '.' :: '.' :: '/' :: rest) (hd : dirOf cur = some d) :
    locate readable cur incs roots fn = join d fn ∨
      ∃ r ∈ incs ++ roots, locate readable cur incs roots fn = join r (join d fn) := by
  have ha : fn.toList.head? ≠ some '/' := by
    rcases hr with e | e <;> rw [e] <;> simp
  have hrel : relative fn = true := by
    unfold relative
    rcases hr with e | e <;> simp [e]
  have hs : ∀ ds : List Path, search readable (join d fn) ds = none ∨
      ∃ r ∈ ds, search readable (join d fn) ds = some (join r (join d fn)) := by
    intro ds
    induction ds with
    | nil => exact Or.inl rfl
    | cons r rs ih =>
      unfold search
      split
      · exact Or.inr ⟨r, List.mem_cons_self, rfl⟩
      · rcases ih with h | ⟨q, h1, h2⟩
        · exact Or.inl h
        · exact Or.inr ⟨q, List.mem_cons_of_mem _ h1, h2⟩
  unfold locate
  simp only [ha, hd, hrel, Bool.true_or, if_true, if_false]
  split
  · exact Or.inl rfl
  · rcases hs (incs ++ roots) with h | ⟨r, h1, h2⟩
    · rw [h]; exact Or.inl rfl
    · rw [h2]; exact Or.inr ⟨r, h1, rfl⟩

/-- A file of that name in the working directory is not taken. -/
example : locate (fun p => p = "../a.zc") "src/main.zc" [] [] "../a.zc" = "src/../a.zc" := by decide +kernel

example : locate (fun p => p = "lib/std/a.zc") "src/main.zc" ["inc", "lib"] ["/usr/share"] "std/a.zc" = "lib/std/a.zc" ∧
    locate (fun p => p = "src/./a.zc" || p = "./a.zc") "src/main.zc" [] [] "./a.zc" = "src/./a.zc" ∧
    locate (fun p => p = "inc/src/./a.zc") "src/main.zc" ["inc"] [] "./a.zc" = "inc/src/./a.zc" := by
  decide +kernel

/-- C86: the prefix of an imported file consists of letters, digits and `_`, whatever its path. -/
theorem base_ident (p : Path) : ∀ c ∈ (base p).toList, c.isAlphanum = true ∨ c = '_' := by
  intro c hc
  unfold base at hc
  rw [String.toList_ofList, List.mem_map] at hc
  obtain ⟨a, _, rfl⟩ := hc
  split
  · exact Or.inl (by assumption)
  · exact Or.inr rfl

example : base "lib/my-math.v2.zc" = "my_math_v2" := by decide +kernel

end Verif.Modules
