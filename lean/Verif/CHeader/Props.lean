import Verif.CHeader.Lines

/-! # What `include "file.h"` makes known -/

namespace Verif.CHeader

open Forth (isspace)
open Spec

variable {m : Macros} {fs : Str → Option Str}

/-! ## The tables only grow -/

/-- Everything known stays known. -/
structure Le (a b : St) : Prop where
  consts : ∀ n v, a.const? n = some v → b.const? n = some v
  externs : ∀ x ∈ a.externs, x ∈ b.externs
  aliases : ∀ x ∈ a.aliases, x ∈ b.aliases
  imported : ∀ x ∈ a.imported, x ∈ b.imported
  loaded : ∀ x ∈ a.loaded, x ∈ b.loaded

theorem Le.refl (a : St) : Le a a :=
  ⟨fun _ _ h => h, fun _ h => h, fun _ h => h, fun _ h => h, fun _ h => h⟩

theorem Le.trans {a b c : St} (h : Le a b) (k : Le b c) : Le a c :=
  ⟨fun n v e => k.consts n v (h.consts n v e), fun x e => k.externs x (h.externs x e),
    fun x e => k.aliases x (h.aliases x e), fun x e => k.imported x (h.imported x e),
    fun x e => k.loaded x (h.loaded x e)⟩

theorem extern_le (st : St) (n : Str) : Le st (st.extern n) := by
  unfold St.extern
  split
  · exact Le.refl _
  · exact ⟨fun _ _ h => h, fun _ h => List.mem_cons_of_mem _ h, fun _ h => h, fun _ h => h, fun _ h => h⟩

theorem extern_mem (st : St) (n x : Str) : x ∈ (st.extern n).externs ↔ x = n ∨ x ∈ st.externs := by
  unfold St.extern
  split
  · rename_i h
    constructor
    · exact Or.inr
    · rintro (rfl | h')
      · exact h
      · exact h'
  · simp

theorem extern_same (st : St) (n : Str) :
    (st.extern n).consts = st.consts ∧ (st.extern n).aliases = st.aliases ∧
      (st.extern n).imported = st.imported ∧ (st.extern n).loaded = st.loaded := by
  unfold St.extern
  split <;> exact ⟨rfl, rfl, rfl, rfl⟩

theorem alias_le (st : St) (n t : Str) : Le st (st.alias n t) :=
  ⟨fun _ _ h => h, fun _ h => h, fun _ h => List.mem_cons_of_mem _ h, fun _ h => h, fun _ h => h⟩

theorem macro_le (m : Macros) (st : St) (r : Str) : Le st (macroConst m st r) := by
  unfold macroConst
  split
  · exact Le.refl _
  · split
    · exact Le.refl _
    · rename_i n text _ _ v _
      split
      · exact Le.refl _
      · rename_i hn
        refine ⟨fun x w h => ?_, fun _ h => h, fun _ h => h, fun _ h => h, fun _ h => h⟩
        by_cases e : n = x
        · subst e
          rw [h] at hn
          exact absurd rfl hn
        · unfold St.const? at h ⊢
          rw [List.find?_cons_of_neg (by simpa using e)]
          exact h

theorem macro_same (m : Macros) (st : St) (r : Str) :
    (macroConst m st r).externs = st.externs ∧ (macroConst m st r).aliases = st.aliases ∧
      (macroConst m st r).imported = st.imported ∧ (macroConst m st r).loaded = st.loaded := by
  unfold macroConst
  split
  · exact ⟨rfl, rfl, rfl, rfl⟩
  · split
    · exact ⟨rfl, rfl, rfl, rfl⟩
    · split <;> exact ⟨rfl, rfl, rfl, rfl⟩

theorem decl_le (st : St) (l : Str) : Le st (declLine st l) := by
  unfold declLine
  simp only
  have h1 : Le st (match funcDecl l with | some n => st.extern n | none => st) := by
    split
    · exact extern_le _ _
    · exact Le.refl _
  split
  · exact h1.trans ((alias_le _ _ _).trans (extern_le _ _))
  · exact h1

theorem decl_externs (st : St) (l x : Str) :
    x ∈ (declLine st l).externs ↔
      x ∈ st.externs ∨ x ∈ (funcDecl l).toList ++ (structDecl l).toList.map (·.1) := by
  unfold declLine
  cases funcDecl l with
  | none =>
    cases structDecl l with
    | none => simp
    | some p => simp [extern_mem, St.alias, or_comm]
  | some n =>
    cases structDecl l with
    | none => simp [extern_mem, or_comm]
    | some p =>
      simp only [extern_mem, St.alias, Option.toList_some, List.map_cons, List.map_nil, List.mem_append,
        List.mem_singleton]
      constructor
      · rintro (h | h | h)
        · exact .inr (.inr h)
        · exact .inr (.inl h)
        · exact .inl h
      · rintro (h | h | h)
        · exact .inr (.inr h)
        · exact .inr (.inl h)
        · exact .inl h

theorem decl_aliases (st : St) (l : Str) :
    (declLine st l).aliases = (structDecl l).toList ++ st.aliases := by
  unfold declLine
  cases funcDecl l <;> cases structDecl l <;> simp [St.alias, extern_same]

theorem decl_same (st : St) (l : Str) :
    (declLine st l).consts = st.consts ∧ (declLine st l).imported = st.imported ∧
      (declLine st l).loaded = st.loaded := by
  unfold declLine
  cases funcDecl l <;> cases structDecl l <;> simp [St.alias, extern_same]

/-! ## One header -/

/-- What a line is to do: in a directive to include a header, `ok` of its path; otherwise its names. -/
def LineDone (dir : Str) (ok : Str → St → Prop) (st : St) (l : Str) : Prop :=
  match skip l with
  | '#' :: r => ∀ n, nested r = some n → ok (nestedPath dir n) st
  | _ => (∀ x ∈ (funcDecl l).toList ++ (structDecl l).toList.map (·.1), x ∈ st.externs) ∧
      ∀ x ∈ (structDecl l).toList, x ∈ st.aliases

theorem LineDone.mono {dir : Str} {ok : Str → St → Prop} {a b : St} (hok : ∀ p, ok p a → ok p b) (h : Le a b)
    {l : Str} (k : LineDone dir ok a l) : LineDone dir ok b l := by
  unfold LineDone at *
  split
  · rename_i r e
    rw [e] at k
    exact fun n hn => hok _ (k n hn)
  · rename_i hne
    split at k
    · rename_i r e
      exact absurd e (hne r)
    · exact ⟨fun x hx => h.externs x (k.1 x hx), fun x hx => h.aliases x (k.2 x hx)⟩

/-- The loop over the lines keeps what every step keeps, and does every line. -/
theorem scanLines_done {inc : Str → St → St} {dir : Str} {I : St → Prop} {R : St → St → Prop}
    {ok : Str → St → Prop}
    (hrefl : ∀ a, R a a) (htrans : ∀ {a b c}, R a b → R b c → R a c)
    (hle : ∀ {a b}, R a b → Le a b)
    (hok : ∀ {a b}, R a b → ∀ p, ok p a → ok p b)
    (hdecl : ∀ st l, I st → I (declLine st l) ∧ R st (declLine st l))
    (hmac : ∀ st r, I st → I (macroConst m st r) ∧ R st (macroConst m st r))
    (ls : List Str)
    (hinc : ∀ l ∈ ls, ∀ r n, skip l = '#' :: r → nested r = some n → ∀ st, I st →
      I (inc (nestedPath dir n) st) ∧ R st (inc (nestedPath dir n) st) ∧
        ok (nestedPath dir n) (inc (nestedPath dir n) st))
    (st : St) (hI : I st) :
    I (scanLines m inc dir ls st) ∧ R st (scanLines m inc dir ls st) ∧
      ∀ l ∈ ls, LineDone dir ok (scanLines m inc dir ls st) l := by
  induction ls generalizing st with
  | nil => exact ⟨hI, hrefl _, fun _ h => absurd h (by simp)⟩
  | cons l ls ih =>
    have hi := ih (fun l' hl' => hinc l' (List.mem_cons_of_mem _ hl'))
    have step : ∀ st', I st' → R st st' → LineDone dir ok st' l →
        I (scanLines m inc dir ls st') ∧ R st (scanLines m inc dir ls st') ∧
          ∀ l' ∈ l :: ls, LineDone dir ok (scanLines m inc dir ls st') l' := by
      intro st' h1 h2 h3
      obtain ⟨a, b, c⟩ := hi st' h1
      refine ⟨a, htrans h2 b, fun l' hl' => ?_⟩
      rcases List.mem_cons.1 hl' with rfl | hl'
      · exact h3.mono (hok b) (hle b)
      · exact c l' hl'
    show I (scanLines m inc dir ls _) ∧ R st (scanLines m inc dir ls _) ∧ _
    rw [scanLines]
    split
    · rename_i r e
      obtain ⟨m1, m2⟩ := hmac st r hI
      split
      · rename_i n hn
        obtain ⟨i1, i2, i3⟩ := hinc l (List.mem_cons_self ..) r n e hn _ m1
        refine step _ i1 (htrans m2 i2) ?_
        unfold LineDone
        rw [e]
        intro n' hn'
        rw [hn] at hn'
        cases hn'
        exact i3
      · rename_i hn
        refine step _ m1 m2 ?_
        unfold LineDone
        rw [e]
        intro n' hn'
        rw [hn] at hn'
        cases hn'
    · rename_i hne
      obtain ⟨d1, d2⟩ := hdecl st l hI
      refine step _ d1 d2 ?_
      unfold LineDone
      split
      · rename_i r e
        exact absurd e (hne r)
      · refine ⟨fun x hx => (decl_externs st l x).2 (.inr hx), fun x hx => ?_⟩
        rw [decl_aliases]
        exact List.mem_append_left _ hx

theorem scan_le (n : Nat) : ∀ path st, Le st (scan m fs n path st) := by
  induction n with
  | zero => exact fun _ _ => Le.refl _
  | succ n ih =>
    intro path st
    rw [scan]
    have mark : ∀ ld, (∀ x ∈ st.loaded, x ∈ ld) → Le st { st with imported := path :: st.imported, loaded := ld } :=
      fun ld h => ⟨fun _ _ h => h, fun _ h => h, fun _ h => h, fun _ h => List.mem_cons_of_mem _ h, h⟩
    split
    · exact Le.refl _
    · split
      · exact mark st.loaded fun _ h => h
      · exact (mark _ fun _ h => List.mem_cons_of_mem _ h).trans
          (scanLines_done (I := fun _ => True) (R := Le) (ok := fun _ _ => True) Le.refl Le.trans id
            (fun _ _ h => h) (fun st l _ => ⟨trivial, decl_le st l⟩) (fun st r _ => ⟨trivial, macro_le m st r⟩) _
            (fun _ _ _ _ _ _ st _ => ⟨trivial, ih _ st, trivial⟩) _ trivial).2.1

/-! ## Every header is read once -/

/-- No header is read twice: the headers read are distinct, whatever includes what. -/
theorem read_once (n : Nat) : ∀ path st, st.loaded.Nodup → (∀ x ∈ st.loaded, x ∈ st.imported) →
    (scan m fs n path st).loaded.Nodup ∧ ∀ x ∈ (scan m fs n path st).loaded, x ∈ (scan m fs n path st).imported := by
  induction n with
  | zero => exact fun _ _ h k => ⟨h, k⟩
  | succ n ih =>
    intro path st h k
    rw [scan]
    split
    · exact ⟨h, k⟩
    · rename_i hp
      split
      · exact ⟨h, fun x hx => List.mem_cons_of_mem _ (k x hx)⟩
      · have := scanLines_done (m := m) (inc := scan m fs n)
          (I := fun st => st.loaded.Nodup ∧ ∀ x ∈ st.loaded, x ∈ st.imported)
          (R := Le) (ok := fun _ _ => True) Le.refl Le.trans id
          (fun _ _ h => h)
          (fun st l h => ⟨by rw [(decl_same st l).2.2, (decl_same st l).2.1]; exact h, decl_le st l⟩)
          (fun st r h => ⟨by rw [(macro_same m st r).2.2.2, (macro_same m st r).2.2.1]; exact h, macro_le m st r⟩)
          (dir := dirOf path) (lines [] (by assumption))
          (fun _ _ _ _ _ _ st h => ⟨ih _ st h.1 h.2, scan_le n _ st, trivial⟩)
          { st with imported := path :: st.imported, loaded := path :: st.loaded }
          ⟨List.nodup_cons.2 ⟨fun hm => hp (k _ hm), h⟩, fun x hx => by
            rcases List.mem_cons.1 hx with rfl | hx
            · exact List.mem_cons_self ..
            · exact List.mem_cons_of_mem _ (k x hx)⟩
        exact this.1

/-! ## Every header that is included is read -/

/-- The lines of a header are done. -/
def Done (fs : Str → Option Str) (st : St) (g : Str) : Prop :=
  ∀ src, fs g = some src → ∀ l ∈ lines [] src, LineDone (dirOf g) (fun p st => fs p ≠ none → p ∈ st.loaded) st l

/-- The headers scanned so far were scanned to their end. -/
structure Good (fs : Str → Option Str) (st : St) : Prop where
  loaded : ∀ g ∈ st.imported, fs g ≠ none → g ∈ st.loaded
  done : ∀ g ∈ st.loaded, Done fs st g

theorem Done.mono {a b : St} (h : Le a b) {g : Str} (k : Done fs a g) : Done fs b g :=
  fun src hs l hl => (k src hs l hl).mono (fun _ hp hx => h.loaded _ (hp hx)) h

/-- How many of the headers of a list are not marked yet. -/
def todo (U : List Str) (st : St) : Nat := (U.filter (fun g => decide (g ∉ st.imported))).length

theorem todo_mono (U : List Str) {a b : St} (h : ∀ x ∈ a.imported, x ∈ b.imported) : todo U b ≤ todo U a := by
  unfold todo
  induction U with
  | nil => exact Nat.le_refl _
  | cons g U ih =>
    by_cases hb : g ∈ b.imported
    · rw [List.filter_cons_of_neg (by simpa using hb)]
      by_cases ha : g ∈ a.imported
      · rw [List.filter_cons_of_neg (by simpa using ha)]; exact ih
      · rw [List.filter_cons_of_pos (by simpa using ha)]; exact Nat.le_succ_of_le ih
    · have ha : g ∉ a.imported := fun h' => hb (h g h')
      rw [List.filter_cons_of_pos (by simpa using hb), List.filter_cons_of_pos (by simpa using ha)]
      exact Nat.succ_le_succ ih

theorem todo_lt (U : List Str) {a b : St} (h : ∀ x ∈ a.imported, x ∈ b.imported) {g : Str} (hg : g ∈ U)
    (ha : g ∉ a.imported) (hb : g ∈ b.imported) : todo U b < todo U a := by
  induction U with
  | nil => cases hg
  | cons k U ih =>
    have mono := todo_mono U h
    unfold todo at *
    by_cases e : k = g
    · subst e
      rw [List.filter_cons_of_neg (by simpa using hb), List.filter_cons_of_pos (by simpa using ha)]
      exact Nat.lt_succ_of_le mono
    · have := ih ((List.mem_cons.1 hg).resolve_left fun h => e h.symm)
      by_cases hb : k ∈ b.imported
      · rw [List.filter_cons_of_neg (by simpa using hb)]
        by_cases ha : k ∈ a.imported
        · rw [List.filter_cons_of_neg (by simpa using ha)]; exact this
        · rw [List.filter_cons_of_pos (by simpa using ha)]; exact Nat.lt_succ_of_lt this
      · have ha : k ∉ a.imported := fun h' => hb (h k h')
        rw [List.filter_cons_of_pos (by simpa using hb), List.filter_cons_of_pos (by simpa using ha)]
        exact Nat.succ_lt_succ this

/-- With levels for all the headers that are not marked, scanning reads the header and does all lines of
every header it reads. -/
theorem scan_all {U : List Str} (hU : ∀ g k, g ∈ U → Includes fs g k → fs k ≠ none → k ∈ U) (n : Nat) :
    ∀ path st, (fs path ≠ none → path ∈ U) → todo U st ≤ n →
      (∀ g ∈ st.imported, fs g ≠ none → g ∈ st.loaded) →
      (∀ g ∈ (scan m fs n path st).imported, fs g ≠ none → g ∈ (scan m fs n path st).loaded) ∧
      (fs path ≠ none → path ∈ (scan m fs n path st).loaded) ∧
      ∀ g ∈ (scan m fs n path st).loaded, g ∈ st.loaded ∨ Done fs (scan m fs n path st) g := by
  induction n with
  | zero =>
    intro path st hp ht hI
    refine ⟨hI, fun hx => ?_, fun g hg => .inl hg⟩
    refine hI _ ?_ hx
    by_cases hm : path ∈ st.imported
    · exact hm
    · have : path ∈ U.filter (fun g => decide (g ∉ st.imported)) := List.mem_filter.2 ⟨hp hx, by simpa using hm⟩
      rw [List.length_eq_zero_iff.1 (Nat.le_zero.1 ht)] at this
      cases this
  | succ n ih =>
    intro path st hp ht hI
    rw [scan]
    split
    · rename_i hm
      exact ⟨hI, fun hx => hI _ hm hx, fun g hg => .inl hg⟩
    · rename_i hm
      split
      · rename_i he
        refine ⟨fun g hg hx => ?_, fun hx => absurd he hx, fun g hg => .inl hg⟩
        rcases List.mem_cons.1 hg with rfl | hg
        · exact absurd he hx
        · exact hI g hg hx
      · rename_i src he
        have hx : fs path ≠ none := by rw [he]; simp
        generalize hst : ({ st with imported := path :: st.imported, loaded := path :: st.loaded } : St) = st1
        have hmarked : path ∈ st1.imported := by rw [← hst]; exact List.mem_cons_self ..
        have hold : ∀ x ∈ st.imported, x ∈ st1.imported := by
          rw [← hst]; exact fun x hx => List.mem_cons_of_mem _ hx
        have hload : st1.loaded = path :: st.loaded := by rw [← hst]
        have hI1 : ∀ g ∈ st1.imported, fs g ≠ none → g ∈ st1.loaded := by
          rw [← hst]
          intro g hg hx
          rcases List.mem_cons.1 hg with rfl | hg
          · exact List.mem_cons_self ..
          · exact List.mem_cons_of_mem _ (hI g hg hx)
        have hlt : todo U st1 ≤ n :=
          Nat.le_of_lt_succ (Nat.lt_of_lt_of_le (todo_lt U hold (hp hx) hm hmarked) ht)
        obtain ⟨a, b, c⟩ := scanLines_done (m := m) (inc := scan m fs n)
          (I := fun s => (∀ g ∈ s.imported, fs g ≠ none → g ∈ s.loaded) ∧ todo U s ≤ n)
          (R := fun a b => Le a b ∧ ∀ g ∈ b.loaded, g ∈ a.loaded ∨ Done fs b g)
          (ok := fun p s => fs p ≠ none → p ∈ s.loaded)
          (fun a => ⟨Le.refl a, fun g hg => .inl hg⟩)
          (fun h k => ⟨h.1.trans k.1, fun g hg => by
            rcases k.2 g hg with hg | hg
            · rcases h.2 g hg with hg | hg
              · exact .inl hg
              · exact .inr (hg.mono k.1)
            · exact .inr hg⟩)
          (fun h => h.1)
          (fun h p hp hx => h.1.loaded _ (hp hx))
          (fun st l h => ⟨⟨by rw [(decl_same st l).2.2, (decl_same st l).2.1]; exact h.1,
              Nat.le_trans (todo_mono U (by rw [(decl_same st l).2.1]; exact fun _ h => h)) h.2⟩,
            decl_le st l, fun g hg => .inl (by rw [(decl_same st l).2.2] at hg; exact hg)⟩)
          (fun st r h => ⟨⟨by rw [(macro_same m st r).2.2.2, (macro_same m st r).2.2.1]; exact h.1,
              Nat.le_trans (todo_mono U (by rw [(macro_same m st r).2.2.1]; exact fun _ h => h)) h.2⟩,
            macro_le m st r, fun g hg => .inl (by rw [(macro_same m st r).2.2.2] at hg; exact hg)⟩)
          (dir := dirOf path) (lines [] src)
          (fun l hl r n' hs hn s h => by
            have inc : Includes fs path (nestedPath (dirOf path) n') := ⟨src, l, r, n', he, hl, hs, hn, rfl⟩
            obtain ⟨p, q, t⟩ := ih (nestedPath (dirOf path) n') s (fun hx' => hU _ _ (hp hx) inc hx') h.2 h.1
            exact ⟨⟨p, Nat.le_trans (todo_mono U (scan_le n _ s).imported) h.2⟩, ⟨scan_le n _ s, t⟩, q⟩)
          st1 ⟨hI1, hlt⟩
        refine ⟨a.1, fun _ => b.1.loaded _ (by rw [hload]; exact List.mem_cons_self ..), fun g hg => ?_⟩
        rcases b.2 g hg with hg | hg
        · rw [hload] at hg
          rcases List.mem_cons.1 hg with rfl | hg
          · refine .inr fun src' hs' l hl => ?_
            rw [he] at hs'
            cases hs'
            exact c l hl
          · exact .inl hg
        · exact .inr hg

theorem include_good {U : List Str} (hlen : U.length ≤ 17)
    (hU : ∀ g k, g ∈ U → Includes fs g k → fs k ≠ none → k ∈ U) {path : Str} (hp : fs path ≠ none → path ∈ U)
    {st : St} (h : Good fs st) :
    Good fs (includeHeader m fs path st) ∧ (fs path ≠ none → path ∈ (includeHeader m fs path st).loaded) := by
  obtain ⟨a, b, c⟩ := scan_all (m := m) hU 17 path st hp
    (Nat.le_trans (List.length_filter_le _ _) hlen) h.loaded
  refine ⟨⟨a, fun g hg => ?_⟩, b⟩
  rcases c g hg with hg | hg
  · exact (h.done g hg).mono (scan_le 17 path st)
  · exact hg

/-- The compiler before its first header. -/
def start : St := ⟨[], [], [], [], []⟩

/-- The headers of a program, one after the other. -/
def includeAll (m : Macros) (fs : Str → Option Str) (roots : List Str) (st : St) : St :=
  roots.foldl (fun st p => includeHeader m fs p st) st

theorem includeAll_good {U : List Str} (hlen : U.length ≤ 17)
    (hU : ∀ g k, g ∈ U → Includes fs g k → fs k ≠ none → k ∈ U) (roots : List Str)
    (hr : ∀ p ∈ roots, fs p ≠ none → p ∈ U) (st : St) (h : Good fs st) :
    Good fs (includeAll m fs roots st) ∧ Le st (includeAll m fs roots st) ∧
      ∀ p ∈ roots, fs p ≠ none → p ∈ (includeAll m fs roots st).loaded := by
  induction roots generalizing st with
  | nil => exact ⟨h, Le.refl _, fun _ h => absurd h (by simp)⟩
  | cons p roots ih =>
    obtain ⟨g, l⟩ := include_good (m := m) hlen hU (hr p (List.mem_cons_self ..)) h
    obtain ⟨a, b, c⟩ := ih (fun q hq => hr q (List.mem_cons_of_mem _ hq)) _ g
    refine ⟨a, (scan_le 17 p st).trans b, fun q hq hx => ?_⟩
    rcases List.mem_cons.1 hq with rfl | hq
    · exact b.loaded _ (l hx)
    · exact c q hq hx

theorem reach_loaded {st : St} (h : Good fs st) {p g : Str} (hp : fs p ≠ none → p ∈ st.loaded)
    (hr : Reach fs p g) (hx : fs g ≠ none) : g ∈ st.loaded := by
  induction hr with
  | refl => exact hp hx
  | step _ hi ih =>
    obtain ⟨src, l, r, n, he, hl, hs, hn, rfl⟩ := hi
    have := h.done _ (ih (by rw [he]; simp)) src he l hl
    unfold LineDone at this
    rw [hs] at this
    exact this n hn hx

theorem skip_item {it : Item} (h : it.Ok) : ∀ r, skip it.text ≠ '#' :: r := by
  have key : ∀ c, (∃ r', skip it.text = c :: r') → c ≠ '#' → ∀ r, skip it.text ≠ '#' :: r := by
    rintro c ⟨r', e⟩ hc r h
    rw [e] at h
    exact hc (List.cons.inj h).1
  cases it with
  | proto p =>
    have h : p.Ok := h
    obtain ⟨c, r, ht, hc⟩ := h.type
    refine key c ⟨r ++ p.name ++ p.gap ++ '(' :: p.params ++ ')' :: p.tail ++ ';' :: p.last, ?_⟩
      (ident_ne hc (by decide))
    show skip p.text = _
    rw [skip_proto h, ht]
    simp only [List.cons_append]
  | tag u t i b1 b2 n b3 br rest =>
    have hi := h.1
    cases t
    · cases u
      · refine key 's' ?_ (by decide)
        simp only [Item.text, List.append_assoc]
        rw [skip_blank hi]
        exact ⟨_, skip_cons (by decide) _⟩
      · refine key 'u' ?_ (by decide)
        simp only [Item.text, List.append_assoc]
        rw [skip_blank hi]
        exact ⟨_, skip_cons (by decide) _⟩
    · refine key 't' ?_ (by decide)
      simp only [Item.text, List.append_assoc]
      rw [skip_blank hi]
      exact ⟨_, skip_cons (by decide) _⟩
  | close i b1 n b2 rest =>
    refine key '}' ?_ (by decide)
    simp only [Item.text, List.append_assoc]
    rw [skip_blank h.1]
    exact ⟨_, skip_cons (by decide) _⟩
  | field i t =>
    obtain ⟨hi, ⟨c, r, rfl, hc⟩, -⟩ := h
    refine key c ?_ (ident_ne hc (by decide))
    simp only [Item.text]
    rw [skip_blank hi]
    exact ⟨_, skip_cons (ident_not_space hc) _⟩
  | comment i t =>
    obtain ⟨hi, ⟨c, r, rfl, hc⟩, -⟩ := h
    refine key c ⟨r, ?_⟩ (by rcases hc with rfl | rfl <;> decide)
    simp only [Item.text]
    rw [skip_blank hi]
    exact skip_cons (by rcases hc with rfl | rfl <;> decide) _

theorem last_cons (a b : Str) (c : Char) : (a ++ c :: b).getLast? = (c :: b).getLast? := by
  rw [List.getLast?_append]
  cases h : (c :: b).getLast? with
  | none => simp at h
  | some x => rfl

theorem append_cons_ne (a b : Str) (c : Char) : a ++ c :: b ≠ [] := by simp

theorem item_line {it : Item} (h : it.Ok) : '\n' ∉ it.text ∧ it.text.getLast? ≠ some '\\' ∧ it.text ≠ [] := by
  have bl : ∀ {b : Str}, Blank b → '\n' ∉ b := fun hb hm => (hb _ hm).2 rfl
  have nm : ∀ {b : Str}, Name b → '\n' ∉ b := fun hb => name_not_mem hb (by decide)
  have blast : ∀ (c : Char) (b : Str), Blank b → c ≠ '\\' → (c :: b).getLast? ≠ some '\\' := by
    intro c b hb hc e
    rcases List.mem_cons.1 (List.mem_of_getLast? e) with h | h
    · exact hc h.symm
    · exact blank_not_mem hb (by decide) h
  cases it with
  | proto p =>
    have h : p.Ok := h
    refine ⟨?_, ?_, ?_⟩
    · simp only [Item.text, Proto.text, List.mem_append, List.mem_cons, not_or]
      exact ⟨⟨⟨⟨⟨⟨bl h.indent, h.flat.2.2⟩, nm h.name⟩, bl h.gap⟩, by decide, h.params.2⟩, by decide, h.tail.2⟩,
        by decide, bl h.last⟩
    · simp only [Item.text, Proto.text]
      rw [last_cons]
      exact blast _ _ h.last (by decide)
    · exact append_cons_ne _ _ _
  | tag u t i b1 b2 n b3 br rest =>
    obtain ⟨hi, h1, h1', h2, h2', hn, h3, hr, hr', hl⟩ := h
    refine ⟨?_, ?_, ?_⟩
    · simp only [Item.text, List.mem_append, List.mem_cons, not_or]
      refine ⟨⟨⟨⟨⟨⟨bl hi, ?_⟩, ?_⟩, bl h2⟩, nm hn⟩, bl h3⟩, ?_, hr⟩
      · cases t
        · simp
        · simp only [if_true, List.mem_append, not_or]
          exact ⟨by decide +kernel, bl h1⟩
      · cases u <;> decide +kernel
      · cases br <;> decide
    · simp only [Item.text]
      rw [last_cons]
      cases rest with
      | nil => cases br <;> decide
      | cons c rest => rw [List.getLast?_cons_cons]; exact hl
    · exact append_cons_ne _ _ _
  | close i b1 n b2 rest =>
    obtain ⟨hi, h1, hn, h2, hr, -, hl⟩ := h
    refine ⟨?_, ?_, ?_⟩
    · simp only [Item.text, List.mem_append, List.mem_cons, not_or]
      exact ⟨⟨⟨⟨bl hi, by decide, bl h1⟩, nm hn⟩, bl h2⟩, by decide, hr⟩
    · simp only [Item.text]
      rw [last_cons]
      cases rest with
      | nil => decide
      | cons c rest => rw [List.getLast?_cons_cons]; exact hl
    · exact append_cons_ne _ _ _
  | field i t =>
    obtain ⟨hi, ⟨c, r, rfl, hc⟩, -, hn, hl, -⟩ := h
    refine ⟨?_, ?_, append_cons_ne _ _ _⟩
    · simp only [Item.text, List.mem_append, not_or]
      exact ⟨bl hi, hn⟩
    · simp only [Item.text]
      rw [last_cons]
      exact hl
  | comment i t =>
    obtain ⟨hi, ⟨c, r, rfl, hc⟩, hn, hl⟩ := h
    refine ⟨?_, ?_, append_cons_ne _ _ _⟩
    · simp only [Item.text, List.mem_append, not_or]
      exact ⟨bl hi, hn⟩
    · simp only [Item.text]
      rw [last_cons]
      exact hl

/-- **What headers declare is known.**  Take any headers a program includes, at most seventeen of them with
those they include, in any graph, also with cycles.  Whatever lines they have besides: the functions and
types declared by a line of any of them are known when the headers are scanned, and its types as the C
types they are. -/
theorem declared_known {U : List Str} (hlen : U.length ≤ 17)
    (hU : ∀ g k, g ∈ U → Includes fs g k → fs k ≠ none → k ∈ U) {roots : List Str}
    (hr : ∀ p ∈ roots, fs p ≠ none → p ∈ U) {p g : Str} (hp : p ∈ roots) (hg : Reach fs p g)
    {ls : List Str} (hs : fs g = some (file ls)) (hl : ∀ l ∈ ls, '\n' ∉ l ∧ l.getLast? ≠ some '\\')
    {it : Item} (hit : it.Ok) (hm : it.text ∈ ls) :
    (∀ x ∈ it.names, x ∈ (includeAll m fs roots start).externs) ∧
      ∀ x ∈ it.types, x ∈ (includeAll m fs roots start).aliases := by
  have h0 : Good fs start := ⟨fun _ h => absurd h (by simp [start]), fun _ h => absurd h (by simp [start])⟩
  obtain ⟨good, -, hroots⟩ := includeAll_good (m := m) hlen hU roots hr start h0
  have hld := reach_loaded good (hroots p hp) hg (by rw [hs]; simp)
  have hd := good.done g hld _ hs it.text (by
    rw [lines_file hl]
    exact List.mem_filter.2 ⟨hm, by simpa using (item_line hit).2.2⟩)
  unfold LineDone at hd
  split at hd
  · rename_i r e
    exact absurd e (skip_item hit r)
  · obtain ⟨e1, e2⟩ := item_decl hit
    rw [e1, e2] at hd
    exact hd

/-! ## A header that is only declarations -/

theorem scanLines_items {inc : Str → St → St} {dir : Str} (items : List Item) (h : ∀ it ∈ items, it.Ok) (st : St) :
    let st' := scanLines m inc dir (items.map Item.text) st
    (∀ x, x ∈ st'.externs ↔ x ∈ st.externs ∨ x ∈ items.flatMap Item.names) ∧
      st'.aliases = (items.flatMap Item.types).reverse ++ st.aliases ∧ st'.consts = st.consts ∧
      st'.imported = st.imported ∧ st'.loaded = st.loaded := by
  induction items generalizing st with
  | nil => simp [scanLines]
  | cons it items ih =>
    have ho := h it (List.mem_cons_self ..)
    have e : scanLines m inc dir ((it :: items).map Item.text) st =
        scanLines m inc dir (items.map Item.text) (declLine st it.text) := by
      rw [List.map_cons, scanLines]
      split
      · rename_i r e
        exact absurd e (skip_item ho r)
      · rfl
    obtain ⟨e1, e2⟩ := item_decl ho
    obtain ⟨a, b, c, d, f⟩ := ih (fun i hi => h i (List.mem_cons_of_mem _ hi)) (declLine st it.text)
    simp only [e]
    refine ⟨fun x => ?_, ?_, ?_, ?_, ?_⟩
    · rw [a, decl_externs, e1, List.flatMap_cons, List.mem_append, or_assoc]
    · rw [b, decl_aliases, e2, List.flatMap_cons, List.reverse_append, List.append_assoc]
      congr 2
      cases it <;> rfl
    · rw [c, (decl_same st it.text).1]
    · rw [d, (decl_same st it.text).2.1]
    · rw [f, (decl_same st it.text).2.2]

/-- **Nothing else is known.**  A header that consists of declarations, members and comments, with empty
lines anywhere, makes known exactly the names of its declarations. -/
theorem header_exact {path : Str} {items : List Item} {ls : List Str} (h : ∀ it ∈ items, it.Ok)
    (hf : ls.filter (· ≠ []) = items.map Item.text) (hs : fs path = some (file ls)) {st : St}
    (hp : path ∉ st.imported) :
    let st' := includeHeader m fs path st
    (∀ x, x ∈ st'.externs ↔ x ∈ st.externs ∨ x ∈ items.flatMap Item.names) ∧
      st'.aliases = (items.flatMap Item.types).reverse ++ st.aliases ∧ st'.consts = st.consts := by
  have hlines : lines [] (file ls) = items.map Item.text := by
    rw [lines_file, hf]
    intro l hl
    by_cases e : l = []
    · subst e; simp
    · have : l ∈ items.map Item.text := by rw [← hf]; exact List.mem_filter.2 ⟨hl, by simpa using e⟩
      obtain ⟨it, hit, rfl⟩ := List.mem_map.1 this
      exact ⟨(item_line (h it hit)).1, (item_line (h it hit)).2.1⟩
  simp only [includeHeader]
  rw [scan, if_neg hp, hs]
  simp only [hlines]
  obtain ⟨a, b, c, -⟩ := scanLines_items (m := m) (inc := scan m fs 16) (dir := dirOf path) items h
    { st with imported := path :: st.imported, loaded := path :: st.loaded }
  exact ⟨a, b, c⟩

/-- A header is not scanned twice: a second `include` of the same path changes nothing. -/
theorem include_twice (path : Str) (st : St) :
    includeHeader m fs path (includeHeader m fs path st) = includeHeader m fs path st := by
  have : path ∈ (includeHeader m fs path st).imported := by
    unfold includeHeader
    rw [scan]
    split
    · assumption
    · split
      · exact List.mem_cons_self ..
      · exact (scanLines_done (m := m) (I := fun _ => True) (R := Le) (ok := fun _ _ => True) Le.refl Le.trans id
          (fun _ _ h => h) (fun st l _ => ⟨trivial, decl_le st l⟩) (fun st r _ => ⟨trivial, macro_le m st r⟩) _
          (fun _ _ _ _ _ _ st _ => ⟨trivial, scan_le _ _ st, trivial⟩) _ trivial).2.1.imported _
            (List.mem_cons_self ..)
  generalize includeHeader m fs path st = st' at *
  unfold includeHeader
  rw [scan, if_pos this]

end Verif.CHeader
