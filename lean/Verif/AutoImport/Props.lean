import Verif.AutoImport.Model

/-!
# Files that are imported without being named: what reaches the program
-/

namespace Verif.AutoImport

open Spec
open Verif.Modules (Path dirOf join search locate)

variable {fs : Path → Option File}

/-- a file that was parsed: its declarations are in the lists, as far as they are kept at a place not above `m`, and what it needs was imported -/
def Done (fs : Path → Option File) (m : Nat) (p : Path) (is : List Item) (s : St) : Prop :=
  (∀ k n, .decl k n ∈ is → kept m k = true → (p, n) ∈ s.lists) ∧ (∀ q, Needs is q → fs q ≠ none → q ∈ s.imported)

def Grows (s s' : St) : Prop := (∀ q, q ∈ s.imported → q ∈ s'.imported) ∧ (∀ d, d ∈ s.lists → d ∈ s'.lists)

theorem Grows.trans {a b c : St} (h : Grows a b) (h' : Grows b c) : Grows a c :=
  ⟨fun q hq => h'.1 q (h.1 q hq), fun d hd => h'.2 d (h.2 d hd)⟩

theorem Done.grow {m : Nat} {p : Path} {is : List Item} {s s' : St} (h : Done fs m p is s) (g : Grows s s') : Done fs m p is s' :=
  ⟨fun k n hn hk => g.2 _ (h.1 k n hn hk), fun q hq hf => g.1 _ (h.2 q hq hf)⟩

theorem Needs.tail {it : Item} {r : List Item} {q : Path} (h : Needs r q) : Needs (it :: r) q :=
  h.imp (List.mem_cons_of_mem _) fun ⟨sc, h⟩ => ⟨sc, List.mem_cons_of_mem _ h⟩

theorem kept_mono {a b : Nat} {k : Kind} (h : a ≤ b) (hk : kept b k = true) : kept a k = true := by
  cases k <;> simp_all [kept] <;> omega

theorem Reach.trans {a b c : Path} (h : Reach fs a b) (h' : Reach fs b c) : Reach fs a c := by
  induction h with
  | refl => exact h'
  | step hf hi _ ih => exact .step hf hi (ih h')

/-- the declaration `d` is in the file `g` -/
def InFile (g : File) (d : Decl) : Prop := ∃ k, .decl k d.2 ∈ g

/-- everything there is to say about parsing the items `is` of the file `p` -/
structure Good (fs : Path → Option File) (m : Nat) (p : Path) (is : List Item) (s : St) (ns : List Decl) (s' : St) : Prop where
  grows : Grows s s'
  done : Done fs m p is s'
  here : ∀ k n, .decl k n ∈ is → (p, n) ∈ ns
  new : ∀ r, r ∈ s'.imported → r ∉ s.imported → ∃ g, fs r = some g ∧ Done fs m r g s' ∧
    (∃ t, Needs is t ∧ Reach fs t r) ∧ ((∀ k n, .decl k n ∈ g → (r, n) ∈ ns) ∨ Hidden fs r)
  nodup : s.imported.Nodup → s'.imported.Nodup
  only : ∀ d, d ∈ ns ∨ d ∈ s'.lists → d ∈ s.lists ∨ (d.1 = p ∧ InFile is d) ∨
    (d.1 ∈ s'.imported ∧ d.1 ∉ s.imported ∧ ∃ g, fs d.1 = some g ∧ InFile g d)

/-- an imported file and then the rest of the items -/
theorem Good.into {m : Nat} {p q : Path} {f : File} {it : Item} {r : List Item} {s s1 s2 : St} {a b ns : List Decl}
    (hit : (it = .imp q ∧ ns = a ++ b) ∨ ((∃ sc, it = .auto sc q) ∧ ns = b ∧ Hidden fs q)) (hq : q ∉ s.imported) (hf : fs q = some f)
    (h1 : Good fs m q f (mark q s) a s1) (h2 : Good fs m p r s1 b s2) : Good fs m p (it :: r) s ns s2 := by
  have g0 : Grows s (mark q s) := ⟨fun x hx => List.mem_cons_of_mem _ hx, fun d hd => hd⟩
  have g1 : Grows s s1 := g0.trans h1.grows
  have hq1 : q ∈ s1.imported := h1.grows.1 q (by simp [mark])
  have hq2 : q ∈ s2.imported := h2.grows.1 q hq1
  have hb : ∀ d, d ∈ b → d ∈ ns := by
    intro d hd
    rcases hit with ⟨_, rfl⟩ | ⟨_, rfl, _⟩
    · simp [hd]
    · exact hd
  have hdecl : ∀ k n, .decl k n ∈ it :: r → .decl k n ∈ r := by
    intro k n hn
    rcases List.mem_cons.mp hn with h | h
    · rcases hit with ⟨rfl, _⟩ | ⟨⟨_, rfl⟩, _⟩ <;> cases h
    · exact h
  have hneed : ∀ x, Needs (it :: r) x → x = q ∨ Needs r x := by
    rintro x (hx | ⟨sc, hx⟩)
    · rcases List.mem_cons.mp hx with h | h
      · rcases hit with ⟨rfl, _⟩ | ⟨⟨_, rfl⟩, _⟩
        · cases h; exact .inl rfl
        · cases h
      · exact .inr (.inl h)
    · rcases List.mem_cons.mp hx with h | h
      · rcases hit with ⟨rfl, _⟩ | ⟨⟨_, rfl⟩, _⟩
        · cases h
        · cases h; exact .inl rfl
      · exact .inr (.inr ⟨sc, h⟩)
  have hitq : Needs (it :: r) q := by
    rcases hit with ⟨rfl, _⟩ | ⟨⟨sc, rfl⟩, _⟩
    · exact .inl (List.mem_cons_self ..)
    · exact .inr ⟨sc, List.mem_cons_self ..⟩
  refine ⟨g1.trans h2.grows, ⟨?_, ?_⟩, ?_, ?_, ?_, ?_⟩
  · intro k n hn hk; exact h2.done.1 k n (hdecl k n hn) hk
  · intro x hx hfx
    rcases hneed x hx with rfl | h
    · exact hq2
    · exact h2.done.2 x h hfx
  · intro k n hn; exact hb _ (h2.here k n (hdecl k n hn))
  · intro x hx hxs
    by_cases hx1 : x ∈ s1.imported
    · by_cases hxq : x = q
      · subst hxq
        refine ⟨f, hf, h1.done.grow h2.grows, ⟨x, hitq, .refl x⟩, ?_⟩
        rcases hit with ⟨_, rfl⟩ | ⟨_, _, hh⟩
        · exact .inl fun k n hn => List.mem_append_left _ (h1.here k n hn)
        · exact .inr hh
      · obtain ⟨g, hg, hd, ⟨t, ht, hr⟩, ho⟩ := h1.new x hx1 (by simp [mark, hxq, hxs])
        have hqx : Reach fs q x := .step hf ht hr
        refine ⟨g, hg, hd.grow h2.grows, ⟨q, hitq, hqx⟩, ?_⟩
        rcases hit with ⟨_, rfl⟩ | ⟨_, _, p', f', sc', a', h3, h4, h5⟩
        · rcases ho with ho | ho
          · exact .inl fun k n hn => List.mem_append_left _ (ho k n hn)
          · exact .inr ho
        · exact .inr ⟨p', f', sc', a', h3, h4, Reach.trans h5 hqx⟩
    · obtain ⟨g, hg, hd, ⟨t, ht, hr⟩, ho⟩ := h2.new x hx hx1
      refine ⟨g, hg, hd, ⟨t, Needs.tail ht, hr⟩, ?_⟩
      rcases ho with ho | ho
      · exact .inl fun k n hn => hb _ (ho k n hn)
      · exact .inr ho
  · intro hn
    exact h2.nodup (h1.nodup (List.nodup_cons.mpr ⟨hq, hn⟩))
  · intro d hd
    have first : d ∈ a ∨ d ∈ s1.lists → d ∈ s.lists ∨ (d.1 = p ∧ InFile (it :: r) d) ∨
        (d.1 ∈ s2.imported ∧ d.1 ∉ s.imported ∧ ∃ g, fs d.1 = some g ∧ InFile g d) := by
      intro hd
      rcases h1.only d hd with h | ⟨h3, h4⟩ | ⟨h3, h4, h5⟩
      · exact .inl h
      · rw [h3]; exact .inr (.inr ⟨hq2, hq, f, hf, h4⟩)
      · exact .inr (.inr ⟨h2.grows.1 _ h3, fun h => h4 (g0.1 _ h), h5⟩)
    have hd' : d ∈ a ∨ (d ∈ b ∨ d ∈ s2.lists) := by
      rcases hd with hd | hd
      · rcases hit with ⟨rfl, rfl⟩ | ⟨_, rfl, _⟩
        · rcases List.mem_append.mp hd with h | h
          · exact .inl h
          · exact .inr (.inl h)
        · exact .inr (.inl hd)
      · exact .inr (.inr hd)
    rcases hd' with hd | hd
    · exact first (.inl hd)
    · rcases h2.only d hd with h | ⟨h3, k, h4⟩ | ⟨h3, h4, h5⟩
      · exact first (.inr h)
      · exact .inr (.inl ⟨h3, k, List.mem_cons_of_mem _ h4⟩)
      · exact .inr (.inr ⟨h3, fun h => h4 (g1.1 _ h), h5⟩)

/-- an item that is skipped because its file is there or is missing -/
theorem Good.skip {m : Nat} {p q : Path} {it : Item} {r : List Item} {s s' : St} {ns : List Decl} (h : Good fs m p r s ns s')
    (hit : it = .imp q ∨ ∃ sc, it = .auto sc q) (hq : q ∈ s.imported ∨ fs q = none) : Good fs m p (it :: r) s ns s' := by
  have hdecl : ∀ k n, .decl k n ∈ it :: r → .decl k n ∈ r := by
    intro k n hn
    rcases List.mem_cons.mp hn with h | h
    · rcases hit with rfl | ⟨_, rfl⟩ <;> cases h
    · exact h
  refine ⟨h.grows, ⟨fun k n hn => h.done.1 k n (hdecl k n hn), ?_⟩, fun k n hn => h.here k n (hdecl k n hn), ?_, h.nodup, ?_⟩
  · intro x hx hf
    have : x = q ∨ Needs r x := by
      rcases hx with hx | ⟨sc, hx⟩
      · rcases List.mem_cons.mp hx with h | h
        · rcases hit with rfl | ⟨_, rfl⟩
          · cases h; exact .inl rfl
          · cases h
        · exact .inr (.inl h)
      · rcases List.mem_cons.mp hx with h | h
        · rcases hit with rfl | ⟨_, rfl⟩
          · cases h
          · cases h; exact .inl rfl
        · exact .inr (.inr ⟨sc, h⟩)
    rcases this with rfl | hn
    · rcases hq with hq | hq
      · exact h.grows.1 _ hq
      · exact absurd hq hf
    · exact h.done.2 x hn hf
  · intro x hx hxs
    obtain ⟨g, hg, hd, ⟨t, ht, hr⟩, ho⟩ := h.new x hx hxs
    exact ⟨g, hg, hd, ⟨t, Needs.tail ht, hr⟩, ho⟩
  · intro d hd
    exact (h.only d hd).imp id (Or.imp (fun ⟨h1, k, h2⟩ => ⟨h1, k, List.mem_cons_of_mem _ h2⟩) id)

theorem run_good {m : Nat} {rec : Nat → Path → File → St → Option (List Decl × St)} {p : Path} {sc : Nat} (hsc : sc ≤ m)
    (hrec : ∀ sc q f s ns s', sc ≤ m → fs q = some f → rec sc q f s = some (ns, s') → Good fs m q f s ns s') (is : List Item)
    (ha : ∀ sc' a, .auto sc' a ∈ is → sc' ≤ m ∧ Hidden fs a) :
    ∀ s ns s', run fs rec sc p is s = some (ns, s') → Good fs m p is s ns s' := by
  induction is with
  | nil =>
    intro s ns s' h
    simp only [run] at h
    cases h
    exact ⟨⟨fun _ h => h, fun _ h => h⟩, ⟨by simp, by simp [Needs]⟩, by simp, fun r h h' => absurd h h', id,
      fun d h => .inl (h.resolve_left (by simp))⟩
  | cons it r ih =>
    have ih := ih fun sc' a h => ha sc' a (List.mem_cons_of_mem _ h)
    intro s ns s' h
    cases it with
    | decl k n =>
      simp only [run] at h
      split at h
      · cases h
      next ms t hr =>
        cases h
        have g := ih _ _ _ hr
        have hi : (if kept sc k = true then { s with lists := (p, n) :: s.lists } else s).imported = s.imported := by split <;> rfl
        have hl : ∀ d, d ∈ s.lists → d ∈ (if kept sc k = true then { s with lists := (p, n) :: s.lists } else s).lists := by
          intro d hd; split
          · exact List.mem_cons_of_mem _ hd
          · exact hd
        refine ⟨⟨fun q hq => g.grows.1 q (by rw [hi]; exact hq), fun d hd => g.grows.2 d (hl d hd)⟩, ⟨?_, ?_⟩, ?_, ?_, ?_, ?_⟩
        · intro k' n' hn hk
          rcases List.mem_cons.mp hn with hh | hh
          · cases hh
            refine g.grows.2 _ ?_
            rw [if_pos (kept_mono hsc hk)]
            exact List.mem_cons_self ..
          · exact g.done.1 k' n' hh hk
        · intro x hx
          refine g.done.2 x ?_
          rcases hx with hx | ⟨sc', hx⟩
          · exact .inl (by simpa using hx)
          · exact .inr ⟨sc', by simpa using hx⟩
        · intro k' n' hn
          rcases List.mem_cons.mp hn with hh | hh
          · cases hh; exact List.mem_cons_self ..
          · exact List.mem_cons_of_mem _ (g.here k' n' hh)
        · intro x hx hxs
          obtain ⟨g', hg, hd, ⟨t, ht, hr⟩, ho⟩ := g.new x hx (by rw [hi]; exact hxs)
          exact ⟨g', hg, hd, ⟨t, Needs.tail ht, hr⟩, ho.imp (fun h k n hn => List.mem_cons_of_mem _ (h k n hn)) id⟩
        · intro hn; exact g.nodup (by rw [hi]; exact hn)
        · intro d hd
          have self : d = (p, n) → d ∈ s.lists ∨ (d.1 = p ∧ InFile (Item.decl k n :: r) d) ∨
              (d.1 ∈ s'.imported ∧ d.1 ∉ s.imported ∧ ∃ g, fs d.1 = some g ∧ InFile g d) := by
            rintro rfl; exact .inr (.inl ⟨rfl, k, List.mem_cons_self ..⟩)
          have hd' : d = (p, n) ∨ (d ∈ ms ∨ d ∈ s'.lists) := by
            rcases hd with hd | hd
            · rcases List.mem_cons.mp hd with h | h
              · exact .inl h
              · exact .inr (.inl h)
            · exact .inr (.inr hd)
          rcases hd' with h | hd
          · exact self h
          · rcases g.only d hd with h | ⟨h1, k', h2⟩ | ⟨h1, h2, h3⟩
            · split at h
              · rcases List.mem_cons.mp h with h | h
                · exact self h
                · exact .inl h
              · exact .inl h
            · exact .inr (.inl ⟨h1, k', List.mem_cons_of_mem _ h2⟩)
            · exact .inr (.inr ⟨h1, by rw [hi] at h2; exact h2, h3⟩)
    | imp q =>
      simp only [run] at h
      split at h
      next hq => exact (ih _ _ _ h).skip (.inl rfl) (.inl hq)
      next hq =>
        split at h
        · cases h
        · next f hf =>
          split at h
          · cases h
          · next a s1 h1 =>
            split at h
            · cases h
            · next b s2 h2 =>
              cases h
              exact Good.into (.inl ⟨rfl, rfl⟩) hq hf (hrec _ _ _ _ _ _ hsc hf h1) (ih _ _ _ h2)
    | auto sc' q =>
      have ha' := ha sc' q (List.mem_cons_self ..)
      simp only [run] at h
      split at h
      next hf => exact (ih _ _ _ h).skip (.inr ⟨sc', rfl⟩) (.inr hf)
      next f hf =>
        split at h
        next hq => exact (ih _ _ _ h).skip (.inr ⟨sc', rfl⟩) (.inl hq)
        next hq =>
          split at h
          · cases h
          · next a s1 h1 =>
            exact Good.into (.inr ⟨⟨sc', rfl⟩, rfl, ha'.2⟩) hq hf (hrec _ _ _ _ _ _ (Nat.max_le.mpr ⟨hsc, ha'.1⟩) hf h1) (ih _ _ _ h)

/-- all places that need a file are at most at `m` -/
def AtMost (fs : Path → Option File) (m : Nat) : Prop := ∀ p f sc q, fs p = some f → .auto sc q ∈ f → sc ≤ m

theorem parse_good {m : Nat} (hm : AtMost fs m) (n : Nat) :
    ∀ sc p f s ns s', sc ≤ m → fs p = some f → parse fs n sc p f s = some (ns, s') → Good fs m p f s ns s' := by
  induction n with
  | zero => intro sc p f s ns s' _ _ h; simp [parse] at h
  | succ n ih =>
    intro sc p f s ns s' hsc hf h
    exact run_good hsc ih f (fun sc' a ha => ⟨hm p f sc' a hf ha, p, f, sc', a, hf, ha, .refl a⟩) _ _ _ h

/-- every file that is needed was parsed -/
theorem program_all {m : Nat} (hmost : AtMost fs m) {n : Nat} {main : Path} {ns : List Decl} {s : St} (h : program fs n main = some (ns, s))
    {r : Path} {g : File} (hr : Reach fs main r) (hg : fs r = some g) :
    Done fs m r g s ∧ ((∀ k n, .decl k n ∈ g → (r, n) ∈ ns) ∨ Hidden fs r) := by
  simp only [program] at h
  split at h
  · cases h
  · next f hf =>
    have G := parse_good hmost n _ _ _ _ _ _ (Nat.zero_le m) hf h
    have hm : main ∈ s.imported := G.grows.1 _ (by simp [mark])
    have all : ∀ x, x ∈ s.imported → ∀ g, fs x = some g → Done fs m x g s ∧ ((∀ k n, .decl k n ∈ g → (x, n) ∈ ns) ∨ Hidden fs x) := by
      intro x hx g hg
      by_cases hxm : x = main
      · subst hxm
        rw [hf] at hg; cases hg
        exact ⟨G.done, .inl G.here⟩
      · obtain ⟨g', hg', hd, _, ho⟩ := G.new x hx (by simp [mark, hxm])
        rw [hg'] at hg; cases hg
        exact ⟨hd, ho⟩
    have vis : ∀ p r, Reach fs p r → p ∈ s.imported → fs r ≠ none → r ∈ s.imported := by
      intro p r hr
      induction hr with
      | refl => intro h _; exact h
      | step hf' hi hrest ih =>
        intro hp hn
        have hd := (all _ hp _ hf').1
        refine ih (hd.2 _ hi ?_) hn
        intro hq
        cases hrest with
        | refl => exact hn hq
        | step hf2 _ _ => rw [hq] at hf2; cases hf2
    exact all r (vis main r hr hm (by simp [hg])) g hg

/-- **C189, partial.** From every file that is needed, in whatever order the files come, the lists have the types; the functions too if no method has such a loop; and the
globals too if no function has one.  Missing: `lost_violated`. -/
theorem listed_partial {n : Nat} {main : Path} {ns : List Decl} {s : St} (h : program fs n main = some (ns, s)) {r : Path} {g : File}
    (hr : Reach fs main r) (hg : fs r = some g) {k : Nat} :
    (AtMost fs 2 → .decl .type k ∈ g → (r, k) ∈ s.lists) ∧ (AtMost fs 1 → .decl .func k ∈ g → (r, k) ∈ s.lists) ∧
      (AtMost fs 0 → .decl .glob k ∈ g → (r, k) ∈ s.lists) :=
  ⟨fun hm hk => (program_all hm h hr hg).1.1 _ k hk rfl, fun hm hk => (program_all hm h hr hg).1.1 _ k hk rfl,
    fun hm hk => (program_all hm h hr hg).1.1 _ k hk rfl⟩

/-- **C189, partial.** All declarations reach the program from every file that is not needed by a file that is imported without being named.  Missing: `lost_violated`. -/
theorem tree_partial {m : Nat} (hm : AtMost fs m) {n : Nat} {main : Path} {ns : List Decl} {s : St} (h : program fs n main = some (ns, s))
    {r : Path} {g : File} (hr : Reach fs main r) (hg : fs r = some g) (hh : ¬ Hidden fs r) {k : Kind} {i : Nat} (hk : .decl k i ∈ g) : (r, i) ∈ ns :=
  (program_all hm h hr hg).2.elim (fun h => h k i hk) fun h => absurd h hh

/-- **C189.** Nothing else reaches the program, and no file is parsed twice. -/
theorem only_needed {m : Nat} (hm : AtMost fs m) {n : Nat} {main : Path} {ns : List Decl} {s : St} (h : program fs n main = some (ns, s)) :
    (∀ d, d ∈ ns ∨ d ∈ s.lists → ∃ g k, Reach fs main d.1 ∧ fs d.1 = some g ∧ .decl k d.2 ∈ g) ∧ s.imported.Nodup := by
  simp only [program] at h
  split at h
  · cases h
  · next f hf =>
    have G := parse_good hm n _ _ _ _ _ _ (Nat.zero_le m) hf h
    have reach : ∀ x, x ∈ s.imported → x ∉ (mark main ⟨[], []⟩).imported → Reach fs main x := by
      intro x h1 h2
      obtain ⟨_, _, _, ⟨t, ht, hr⟩, _⟩ := G.new x h1 h2
      exact .step hf ht hr
    refine ⟨?_, G.nodup (by simp [mark])⟩
    intro d hd
    rcases G.only d hd with h | ⟨h1, k, h2⟩ | ⟨h1, h2, g, h3, k, h4⟩
    · simp [mark] at h
    · exact ⟨f, k, h1 ▸ .refl _, h1 ▸ hf, h2⟩
    · exact ⟨g, k, reach _ h1 h2, h3, h4⟩

/-! ### Declarations that are lost -/

/-- `std/core.zc` has the global `__zen_hash_seed` (0), the function `_zen_panic` (1) and `#define panic(msg) ...` (2); `std/slice.zc` imports `std/option.zc`, which
imports it.  The main file imports `a.zc`, which has a loop over an array at `sc`, and `std/core.zc`; `first` is whether `std/core.zc` comes first. -/
def demo (first : Bool) (sc : Nat) : Path → Option File := fun p =>
  if p = "main.zc" then some ((if first then [.imp "std/core.zc", .imp "a.zc"] else [.imp "a.zc", .imp "std/core.zc"]) ++ [.decl .func 0])
  else if p = "a.zc" then some [.auto sc "std/slice.zc", .decl .func 0]
  else if p = "std/slice.zc" then some [.imp "std/option.zc", .decl .type 0]
  else if p = "std/option.zc" then some [.imp "std/core.zc", .decl .type 0]
  else if p = "std/core.zc" then some [.decl .glob 0, .decl .func 1, .decl .line 2]
  else none

/-- which declarations of `std/core.zc` are printed -/
def printed (o : Option (List Decl × St)) : Option (List Bool) :=
  o.map fun (ns, s) => [0, 1, 2].map fun n => decide (("std/core.zc", n) ∈ ns) || decide (("std/core.zc", n) ∈ s.lists)

/-- **C189 is violated.** The main file imports `std/core.zc` and yet has neither `panic` nor the variable that maps and sets need, because another file that has a loop in
a function was imported before; if the loop is in a method, the function is missing too.  In the other order all are there. -/
theorem lost_violated :
    (∀ b sc, ∃ f g, demo b sc "main.zc" = some f ∧ .imp "std/core.zc" ∈ f ∧ demo b sc "std/core.zc" = some g ∧
      g = [.decl .glob 0, .decl .func 1, .decl .line 2]) ∧
    printed (program (demo false 1) 9 "main.zc") = some [false, true, false] ∧
    printed (program (demo false 2) 9 "main.zc") = some [false, false, false] ∧
    printed (program (demo true 2) 9 "main.zc") = some [true, true, true] := by
  refine ⟨?_, by decide +kernel, by decide +kernel, by decide +kernel⟩
  intro b sc
  cases b
  · exact ⟨_, _, rfl, by simp, rfl, rfl⟩
  · exact ⟨_, _, rfl, by simp, rfl, rfl⟩

/-- The hypotheses of the theorems hold for it. -/
example : AtMost (demo false 1) 1 := by
  intro p f sc q h hq
  unfold demo at h
  split at h
  · cases h; simp at hq
  split at h
  · cases h; simp at hq; omega
  split at h
  · cases h; simp at hq
  split at h
  · cases h; simp at hq
  split at h
  · cases h; simp at hq
  · cases h

/-! ### Which file it is -/

/-- **C189, partial.** If neither an include path nor `ZC_ROOT` has such a file, the file that is found is the one that an `import` of it finds (`Modules.locate`), and if
none is found such an `import` finds none that can be read.  Missing: `location_violated`. -/
theorem location_partial (readable : Path → Bool) (cur : Path) (extra roots : List Path) (fn : Path) (hrel : Modules.relative fn = false)
    (habs : fn.toList.head? ≠ some '/') (hdot : readable (join "." fn) = readable fn) (hx : search readable fn extra = none) :
    match autoLocate readable cur roots fn with
    | some p => locate readable cur [] (extra ++ roots) fn = p ∧ readable p = true
    | none => readable (locate readable cur [] (extra ++ roots) fn) = false := by
  have hs : ∀ l : List Path, search readable fn (extra ++ l) = search readable fn l := by
    intro l
    induction extra with
    | nil => rfl
    | cons d ds ih =>
      simp only [search] at hx
      split at hx
      · cases hx
      · next h => simp only [List.cons_append, search, if_neg h]; exact ih hx
  have hok : ∀ (l : List Path) p, search readable fn l = some p → readable p = true := by
    intro l
    induction l with
    | nil => intro p h; simp [search] at h
    | cons d ds ih =>
      intro p h
      simp only [search] at h
      split at h
      · next hc => cases h; exact hc.2
      · exact ih p h
  cases hd : dirOf cur with
  | none =>
    simp only [autoLocate, locate, hd, if_neg habs, hdot, List.nil_append, hs]
    cases hf : readable fn with
    | true => simp [hf]
    | false =>
      cases hse : search readable fn roots with
      | none => simp [hf]
      | some p => simp [hok roots p hse]
  | some d =>
    simp only [autoLocate, locate, hd, if_neg habs, hdot, hrel, Bool.false_or, List.nil_append]
    cases hn : readable (join d fn) with
    | true => simp [hn]
    | false =>
      simp only [Bool.false_eq_true, if_false, hs]
      cases hf : readable fn with
      | true => simp [hf]
      | false =>
        cases hse : search readable fn roots with
        | none => simp [hf]
        | some p => simp [hok roots p hse]

/-- **C189 is violated.** If the library is where `ZC_ROOT` or an include path says and nowhere else, an `import` finds it, but a loop over an array does not; if there is
another one in the installed directories, the loop takes that one. -/
theorem location_violated (readable : Path → Bool) (cur : Path) (extra roots : List Path) (fn p : Path) (hrel : Modules.relative fn = false)
    (habs : fn.toList.head? ≠ some '/') (hdot : readable (join "." fn) = readable fn) (hx : search readable fn extra = some p)
    (hn : ∀ d, dirOf cur = some d → readable (join d fn) = false) (hf : readable fn = false) :
    locate readable cur [] (extra ++ roots) fn = p ∧ autoLocate readable cur roots fn = search readable fn roots := by
  have hs : search readable fn (extra ++ roots) = some p := by
    induction extra with
    | nil => simp [search] at hx
    | cons d ds ih =>
      simp only [search] at hx
      simp only [List.cons_append, search]
      split at hx
      · next h => rw [if_pos h]; exact hx
      · next h => rw [if_neg h]; exact ih hx
  cases hd : dirOf cur with
  | none => simp [autoLocate, locate, hd, habs, hdot, hf, hs]
  | some d => simp [autoLocate, locate, hd, habs, hdot, hrel, hn d hd, hf, hs]

/-- With `ZC_ROOT=/opt/zenc`: nothing is found, or the file of another version. -/
example :
    let root := ["/opt/zenc"]
    let inst := ["/usr/local/share/zenc", "/usr/share/zenc"]
    let one : Path → Bool := fun p => p == "/opt/zenc/std/slice.zc"
    let two : Path → Bool := fun p => one p || p == "/usr/share/zenc/std/slice.zc"
    locate one "/src/a.zc" [] (root ++ inst) "std/slice.zc" = "/opt/zenc/std/slice.zc" ∧ autoLocate one "/src/a.zc" inst "std/slice.zc" = none ∧
      locate two "/src/a.zc" [] (root ++ inst) "std/slice.zc" = "/opt/zenc/std/slice.zc" ∧
      autoLocate two "/src/a.zc" inst "std/slice.zc" = some "/usr/share/zenc/std/slice.zc" ∧
      autoLocate (fun p => two p || p == "/src/std/slice.zc") "/src/a.zc" inst "std/slice.zc" = some "/src/std/slice.zc" := by decide +kernel

end Verif.AutoImport
