import Verif.LspScan.Model

/-!
# The files a language server finds at its start: theorems
-/

namespace Verif.LspScan
open Verif

/-! ## The ending of a name -/

theorem ext_suffix : ∀ (q : Path) (e : Path), ext q = some e → ∃ s, q = s ++ e
  | [], e, h => by simp [ext] at h
  | c :: r, e, h => by
    simp only [ext] at h
    split at h
    · rename_i e' he
      obtain ⟨s, hs⟩ := ext_suffix r e' he
      cases h
      exact ⟨c :: s, by rw [hs]; rfl⟩
    · split at h
      · cases h; exact ⟨[], rfl⟩
      · cases h

theorem ext_append (e : Path) (he : ext e = some e) : ∀ s : Path, ext (s ++ e) = some e
  | [] => he
  | c :: s => by
    show (match ext (s ++ e) with
      | some e => some e
      | none => if c = '.' then some (c :: (s ++ e)) else none) = some e
    rw [ext_append e he s]

theorem ext_zc (q : Path) : ext q = some ['.', 'z', 'c'] ↔ ∃ s, q = s ++ ".zc".toList := by
  constructor
  · intro h; exact ext_suffix q _ h
  · rintro ⟨s, rfl⟩
    exact ext_append ['.', 'z', 'c'] (by decide) s

theorem mem_file (fs : Fs) (q u : Path) (hk : fs.kind q = some .reg) :
    u ∈ file fs q ↔ Spec.Source fs q ∧ u = "file://".toList ++ q := by
  unfold file Spec.Source
  rw [← ext_zc]
  by_cases h : ext q = some ['.', 'z', 'c'] <;> cases hr : fs.readable q <;> simp [h, hk]

theorem shown_iff (n : Path) : Spec.Shown n ↔ ¬ n.head? = some '.' := by
  cases n with
  | nil => simp [Spec.Shown]
  | cons c r => simp [Spec.Shown]

/-! ## What is found -/

theorem join_short (d n : Path) (h : (d ++ ['/'] ++ n).length < 1024) : join d n = d ++ ['/'] ++ n := by
  unfold join
  rw [List.append_assoc] at h ⊢
  exact List.take_of_length_le (by simpa using Nat.le_of_lt_succ h)

/-- One directory, one level. -/
theorem mem_scan (fs : Fs) (k : Nat) (d u : Path) :
    u ∈ scan fs (k + 1) d ↔ ∃ ns, fs.entries d = some ns ∧ ∃ n ∈ ns, Spec.Shown n ∧
      ((fs.kind (join d n) = some .dir ∧ u ∈ scan fs k (join d n)) ∨
       (fs.kind (join d n) = some .reg ∧ u ∈ file fs (join d n))) := by
  rw [scan]
  cases he : fs.entries d with
  | none => simp
  | some ns =>
    simp only [List.mem_flatMap, Option.some.injEq, exists_eq_left']
    constructor
    · rintro ⟨n, hn, hu⟩
      refine ⟨n, hn, ?_⟩
      split at hu
      · cases hu
      · rename_i hd
        refine ⟨(shown_iff n).2 hd, ?_⟩
        split at hu
        · rename_i hk; exact .inl ⟨hk, hu⟩
        · rename_i hk; exact .inr ⟨hk, hu⟩
        · cases hu
    · rintro ⟨n, hn, hs, h⟩
      refine ⟨n, hn, ?_⟩
      rw [if_neg ((shown_iff n).1 hs)]
      rcases h with ⟨hk, hu⟩ | ⟨hk, hu⟩ <;> simpa [hk] using hu

/-- Whatever the workspace: if paths in it are shorter than 1024 characters, the server enters exactly the
sources that are below the root with fewer directories on the way than descriptors are left. -/
theorem found_partial (fs : Fs) : ∀ (fds : Nat) (d u : Path),
    (∀ q k, Spec.Below fs d q k → q.length < 1024) →
    (u ∈ scan fs fds d ↔
      ∃ q k, k < fds ∧ Spec.Below fs d q k ∧ Spec.Source fs q ∧ u = "file://".toList ++ q)
  | 0, d, u, _ => by simp [scan]
  | f + 1, d, u, hlen => by
    rw [mem_scan]
    constructor
    · rintro ⟨ns, he, n, hn, hs, h⟩
      have hj := join_short d n (hlen _ _ (.here he hn hs))
      rw [hj] at h
      rcases h with ⟨hk, hu⟩ | ⟨hk, hu⟩
      · obtain ⟨q, k, hlt, hb, hq⟩ := (found_partial fs f _ u
          (fun q k hb => hlen q (k + 1) (.down he hn hs hk hb))).1 hu
        exact ⟨q, k + 1, Nat.succ_lt_succ hlt, .down he hn hs hk hb, hq⟩
      · exact ⟨_, 0, Nat.succ_pos _, .here he hn hs, (mem_file fs _ u hk).1 hu⟩
    · rintro ⟨q, k, hlt, hb, hq⟩
      cases hb with
      | @here _ n ns he hn hs =>
        refine ⟨ns, he, n, hn, hs, .inr ?_⟩
        rw [join_short d n (hlen _ _ (.here he hn hs))]
        exact ⟨hq.1.1, (mem_file fs _ u hq.1.1).2 hq⟩
      | @down _ n ns _ k he hn hs hk hb =>
        refine ⟨ns, he, n, hn, hs, .inl ?_⟩
        rw [join_short d n (hlen _ _ (.here he hn hs))]
        exact ⟨hk, (found_partial fs f _ u
          (fun q k hb => hlen q (k + 1) (.down he hn hs hk hb))).2
            ⟨q, k, Nat.lt_of_succ_lt_succ hlt, hb, hq⟩⟩

/-! ## Once -/

/-- What is in a directory has the name of an entry in its path. -/
theorem below_name {fs : Fs} {d q : Path} {k : Nat} (h : Spec.Below fs d q k) :
    ∃ n t, q = d ++ ['/'] ++ n ++ t ∧ (t = [] ∨ ∃ r, t = '/' :: r) := by
  induction h with
  | @here d n ns _ _ _ => exact ⟨n, [], by simp, .inl rfl⟩
  | @down d n ns q k _ _ _ _ _ ih =>
    obtain ⟨m, t, hq, _⟩ := ih
    exact ⟨n, '/' :: (m ++ t), by simp [hq], .inr ⟨_, rfl⟩⟩

theorem name_unique : ∀ (n m t s : Path), '/' ∉ n → '/' ∉ m →
    (t = [] ∨ ∃ r, t = '/' :: r) → (s = [] ∨ ∃ r, s = '/' :: r) → n ++ t = m ++ s → n = m
  | [], [], _, _, _, _, _, _, _ => rfl
  | [], b :: m, t, s, _, hm, ht, _, h => by
    rcases ht with rfl | ⟨r, rfl⟩
    · cases h
    · cases h; exact absurd List.mem_cons_self hm
  | a :: n, [], t, s, hn, _, _, hs, h => by
    rcases hs with rfl | ⟨r, rfl⟩
    · cases h
    · cases h; exact absurd List.mem_cons_self hn
  | a :: n, b :: m, t, s, hn, hm, ht, hs, h => by
    simp only [List.cons_append, List.cons.injEq] at h
    rw [h.1, name_unique n m t s (fun x => hn (List.mem_cons_of_mem _ x))
      (fun x => hm (List.mem_cons_of_mem _ x)) ht hs h.2]

/-- Lists without repetition that share nothing. -/
theorem nodup_flatMap (f : Path → List Path) : ∀ ns : List Path, ns.Nodup →
    (∀ n ∈ ns, (f n).Nodup) → (∀ n ∈ ns, ∀ m ∈ ns, ∀ u, u ∈ f n → u ∈ f m → n = m) →
    (ns.flatMap f).Nodup
  | [], _, _, _ => List.nodup_nil
  | n :: r, hd, h1, h2 => by
    rw [List.nodup_cons] at hd
    rw [List.flatMap_cons, List.nodup_append]
    refine ⟨h1 n List.mem_cons_self, nodup_flatMap f r hd.2
      (fun m hm => h1 m (List.mem_cons_of_mem _ hm))
      (fun a ha b hb => h2 a (List.mem_cons_of_mem _ ha) b (List.mem_cons_of_mem _ hb)), ?_⟩
    rintro u hu v hv rfl
    obtain ⟨m, hm, hu'⟩ := List.mem_flatMap.1 hv
    exact hd.1 (h2 n List.mem_cons_self m (List.mem_cons_of_mem _ hm) u hu hu' ▸ hm)

/-- Whatever the workspace: if directories have every name once and names have no slash, no URI is entered
twice, as long as paths are shorter than 1024 characters. -/
theorem once_partial (fs : Fs)
    (hfs : ∀ d ns, fs.entries d = some ns → ns.Nodup ∧ ∀ n ∈ ns, '/' ∉ n) :
    ∀ (fds : Nat) (d : Path), (∀ q k, Spec.Below fs d q k → q.length < 1024) →
      (scan fs fds d).Nodup
  | 0, _, _ => List.nodup_nil
  | f + 1, d, hlen => by
    rw [scan]
    cases he : fs.entries d with
    | none => exact List.nodup_nil
    | some ns =>
      obtain ⟨hnd, hsl⟩ := hfs d ns he
      have key : ∀ n ∈ ns, ∀ u, u ∈ (if n.head? = some '.' then [] else
          match fs.kind (join d n) with
          | some .dir => scan fs f (join d n)
          | some .reg => file fs (join d n)
          | _ => []) → ∃ t, u = "file://".toList ++ (d ++ ['/'] ++ (n ++ t)) ∧
            (t = [] ∨ ∃ r, t = '/' :: r) := by
        intro n hn u hu
        split at hu
        · cases hu
        · rename_i hd
          have hs := (shown_iff n).2 hd
          rw [join_short d n (hlen _ _ (.here he hn hs))] at hu
          split at hu
          · rename_i hk
            obtain ⟨q, k, _, hb, _, rfl⟩ := (found_partial fs f _ u
              (fun q k hb => hlen q (k + 1) (.down he hn hs hk hb))).1 hu
            obtain ⟨m, t, rfl, _⟩ := below_name hb
            exact ⟨'/' :: (m ++ t), by simp, .inr ⟨_, rfl⟩⟩
          · rename_i hk
            obtain ⟨_, rfl⟩ := (mem_file fs _ u hk).1 hu
            exact ⟨[], by simp, .inl rfl⟩
          · cases hu
      refine nodup_flatMap _ ns hnd ?_ ?_
      · intro n hn
        split
        · exact List.nodup_nil
        · rename_i hd
          have hs := (shown_iff n).2 hd
          rw [join_short d n (hlen _ _ (.here he hn hs))]
          split
          · rename_i hk
            exact once_partial fs hfs f _ (fun q k hb => hlen q (k + 1) (.down he hn hs hk hb))
          · unfold file
            split
            · split
              · simp
              · exact List.nodup_nil
            · exact List.nodup_nil
          · exact List.nodup_nil
      · intro n hn m hm u hu hv
        obtain ⟨t, h1, ht⟩ := key n hn u hu
        obtain ⟨s, h2, hs⟩ := key m hm u hv
        have := List.append_cancel_left (List.append_cancel_left (h1.symm.trans h2))
        exact name_unique n m t s (hsl n hn) (hsl m hm) ht hs this

/-! ## The root and the URIs -/

theorem flatMap_plain : ∀ p : Path, (∀ c ∈ p, Spec.plain c = true) →
    p.flatMap (fun c => if Spec.plain c then [c] else
      ['%', Spec.hex (c.toNat / 16 % 16), Spec.hex (c.toNat % 16)]) = p
  | [], _ => rfl
  | c :: r, h => by
    rw [List.flatMap_cons, flatMap_plain r (fun x hx => h x (List.mem_cons_of_mem _ hx)),
      h c List.mem_cons_self]
    rfl

theorem clean_uri (p : Path) : clean ("file://".toList ++ p) = p := by
  unfold clean
  rw [if_pos (by simp)]
  exact List.drop_left' rfl

/-- A workspace whose path needs no `%` in a URI is the one that is scanned, however it is named. -/
theorem root_partial (p : Path) (hp : ∀ c ∈ p, Spec.plain c = true) :
    root none (some (Spec.uri p)) = p ∧ root (some (Spec.uri p)) none = p := by
  have h : clean (Spec.uri p) = p := by
    unfold Spec.uri; rw [flatMap_plain p hp, clean_uri]
  exact ⟨h, h⟩

/-- Whatever the workspace, for paths that need no `%` the whole way from the URI an editor sends to the
URIs it will use for the files: exactly those of the sources are entered. -/
theorem init_partial (fs : Fs) (fds : Nat) (p u : Path)
    (hp : ∀ c ∈ p, Spec.plain c = true)
    (hlen : ∀ q k, Spec.Below fs p q k → q.length < 1024 ∧ k < fds ∧ ∀ c ∈ q, Spec.plain c = true) :
    u ∈ init fs fds none (some (Spec.uri p)) ↔
      ∃ q k, Spec.Below fs p q k ∧ Spec.Source fs q ∧ u = Spec.uri q := by
  unfold init
  rw [(root_partial p hp).1, found_partial fs fds p u (fun q k hb => (hlen q k hb).1)]
  constructor
  · rintro ⟨q, k, _, hb, hs, hu⟩
    refine ⟨q, k, hb, hs, ?_⟩
    unfold Spec.uri; rw [flatMap_plain q (hlen q k hb).2.2]; exact hu
  · rintro ⟨q, k, hb, hs, hu⟩
    refine ⟨q, k, (hlen q k hb).2.1, hb, hs, ?_⟩
    unfold Spec.uri at hu; rw [flatMap_plain q (hlen q k hb).2.2] at hu; exact hu

/-- A workspace `/w` with `a.zc`, a directory `s` with `b.zc`, a hidden `.g`, and a text file. -/
def w : Fs where
  entries p := if p = "/w".toList then
      some ["a.zc".toList, "s".toList, ".g".toList, "t.txt".toList]
    else if p = "/w/s".toList then some ["b.zc".toList] else none
  kind p := if p = "/w/s".toList then some .dir
    else if p ∈ ["/w/a.zc".toList, "/w/s/b.zc".toList, "/w/t.txt".toList] then some .reg else none
  readable _ := true

/-- The theorem is about real workspaces. -/
example : init w 100 none (some "file:///w".toList) =
    ["file:///w/a.zc".toList, "file:///w/s/b.zc".toList] := by decide +kernel

example : Spec.uri "/w".toList = "file:///w".toList := by decide +kernel

/-- `w` meets the hypotheses of `init_partial`. -/
theorem w_meets : (∀ c ∈ "/w".toList, Spec.plain c = true) ∧
    ∀ q k, Spec.Below w "/w".toList q k →
      q.length < 1024 ∧ k < 100 ∧ ∀ c ∈ q, Spec.plain c = true := by
  refine ⟨by decide +kernel, ?_⟩
  intro q k h
  have e1 : w.entries "/w".toList =
    some ["a.zc".toList, "s".toList, ".g".toList, "t.txt".toList] := by decide +kernel
  have e2 : w.entries "/w/s".toList = some ["b.zc".toList] := by decide +kernel
  have e3 : w.kind ("/w".toList ++ ['/'] ++ "a.zc".toList) ≠ some .dir := by decide +kernel
  have e4 : w.kind ("/w".toList ++ ['/'] ++ ".g".toList) ≠ some .dir := by decide +kernel
  have e5 : w.kind ("/w".toList ++ ['/'] ++ "t.txt".toList) ≠ some .dir := by decide +kernel
  have e6 : w.kind ("/w/s".toList ++ ['/'] ++ "b.zc".toList) ≠ some .dir := by decide +kernel
  cases h with
  | here he hn _ =>
    rw [e1] at he; cases he
    simp only [List.mem_cons, List.not_mem_nil, or_false] at hn
    rcases hn with rfl | rfl | rfl | rfl <;> decide +kernel
  | down he hn _ hk hb =>
    rw [e1] at he; cases he
    simp only [List.mem_cons, List.not_mem_nil, or_false] at hn
    rcases hn with rfl | rfl | rfl | rfl
    · exact absurd hk e3
    · cases hb with
      | here he hn _ =>
        have he := e2.symm.trans he
        cases he
        simp only [List.mem_cons, List.not_mem_nil, or_false] at hn
        subst hn; decide +kernel
      | down he hn _ hk hb =>
        have he := e2.symm.trans he
        cases he
        simp only [List.mem_cons, List.not_mem_nil, or_false] at hn
        subst hn; exact absurd hk e6
    · exact absurd hk e4
    · exact absurd hk e5

/-- `w` meets the hypothesis of `once_partial` (with `w_meets` for the other). -/
example : ∀ d ns, w.entries d = some ns → ns.Nodup ∧ ∀ n ∈ ns, '/' ∉ n := by
  intro d ns h
  simp only [w] at h
  split at h
  · cases h; decide +kernel
  · split at h
    · cases h; decide +kernel
    · cases h

/-! ## Where the claim fails -/

theorem flatMap_length : ∀ p : Path, p.length ≤ (p.flatMap (fun c => if Spec.plain c then [c] else
      ['%', Spec.hex (c.toNat / 16 % 16), Spec.hex (c.toNat % 16)])).length
  | [] => Nat.le_refl _
  | c :: r => by
    have := flatMap_length r
    rw [List.flatMap_cons, List.length_append, List.length_cons]
    split <;> simp only [List.length_cons, List.length_nil] <;> omega

theorem flatMap_longer : ∀ p : Path, (∃ c ∈ p, Spec.plain c = false) →
    p.length < (p.flatMap (fun c => if Spec.plain c then [c] else
      ['%', Spec.hex (c.toNat / 16 % 16), Spec.hex (c.toNat % 16)])).length
  | [], h => by obtain ⟨c, hc, _⟩ := h; cases hc
  | c :: r, ⟨x, hx, hp⟩ => by
    rw [List.flatMap_cons, List.length_append, List.length_cons]
    cases hx with
    | head =>
      have := flatMap_length r
      rw [hp]; simp only [List.length_cons, List.length_nil, Bool.false_eq_true, if_false]; omega
    | tail _ hx =>
      have := flatMap_longer r ⟨x, hx, hp⟩
      split <;> simp only [List.length_cons, List.length_nil] <;> omega

/-- A workspace with a space (or another such character) in its path is never the one that is scanned,
when the editor gives its URI. -/
theorem root_violated (p : Path) (h : ∃ c ∈ p, Spec.plain c = false) :
    root none (some (Spec.uri p)) ≠ p := by
  intro e
  have e' : clean (Spec.uri p) = p := e
  unfold Spec.uri at e'
  rw [clean_uri] at e'
  have := flatMap_longer p h
  rw [e'] at this
  exact Nat.lt_irrefl _ this

/-- And a file with such a character is entered under a URI that is not its own, so that it is a second
file when the editor opens it. -/
theorem uri_violated (fs : Fs) (q : Path) (hs : Spec.Source fs q) (h : ∃ c ∈ q, Spec.plain c = false) :
    file fs q = ["file://".toList ++ q] ∧ Spec.uri q ∉ file fs q := by
  have hf : file fs q = ["file://".toList ++ q] := by
    unfold file; rw [if_pos ((ext_zc q).2 hs.2.2), if_pos hs.2.1]
  refine ⟨hf, ?_⟩
  rw [hf, List.mem_singleton]
  intro e
  have := flatMap_longer q h
  unfold Spec.uri at e
  rw [List.append_cancel_left e] at this
  exact Nat.lt_irrefl _ this

example : Spec.Source { w with kind := fun _ => some .reg } "/w/a b.zc".toList ∧
    ∃ c ∈ "/w/a b.zc".toList, Spec.plain c = false :=
  ⟨⟨rfl, rfl, "/w/a b".toList, by decide +kernel⟩, ' ', by decide +kernel, by decide +kernel⟩

/-- A path that ends where the room ends is joined to itself. -/
theorem join_full (d n : Path) (h : d.length = 1023) : join d n = d := by
  unfold join; rw [← h]; exact List.take_left' rfl

theorem sum_const (x : Nat) (f : Path → Nat) : ∀ ns : List Path, (∀ n ∈ ns, f n = x) →
    (ns.map f).sum = ns.length * x
  | [], _ => by simp
  | n :: r, h => by
    rw [List.map_cons, List.sum_cons, h n List.mem_cons_self,
      sum_const x f r (fun m hm => h m (List.mem_cons_of_mem _ hm)), List.length_cons, Nat.add_mul]
    omega

/-- A directory whose path has 1023 characters is taken for its own entries: with two of them the number
of times it is opened doubles with every descriptor, and nothing in it is found. -/
theorem deep_violated (fs : Fs) (d : Path) (ns : List Path) (hd : d.length = 1023)
    (he : fs.entries d = some ns) (hk : fs.kind d = some .dir) (hs : ∀ n ∈ ns, Spec.Shown n)
    (h2 : 2 ≤ ns.length) : ∀ fds, scan fs fds d = [] ∧ 2 ^ fds ≤ opened fs fds d + 1
  | 0 => ⟨rfl, by simp [opened]⟩
  | k + 1 => by
    obtain ⟨i1, i2⟩ := deep_violated fs d ns hd he hk hs h2 k
    constructor
    · rw [scan, he]
      refine List.flatMap_eq_nil_iff.2 (fun n hn => ?_)
      rw [if_neg ((shown_iff n).1 (hs n hn)), join_full d n hd, hk]
      exact i1
    · rw [opened, he]
      show 2 ^ (k + 1) ≤ 1 + _ + 1
      rw [sum_const (opened fs k d) _ ns (fun n hn => by
        rw [if_neg ((shown_iff n).1 (hs n hn)), join_full d n hd, hk])]
      have := Nat.mul_le_mul_right (opened fs k d) h2
      rw [Nat.pow_succ]
      omega

/-- There is such a directory. -/
example : ∃ (fs : Fs) (d : Path) (ns : List Path), d.length = 1023 ∧ fs.entries d = some ns ∧
    fs.kind d = some .dir ∧ (∀ n ∈ ns, Spec.Shown n) ∧ 2 ≤ ns.length :=
  ⟨⟨fun _ => some [['a'], ['b']], fun _ => some .dir, fun _ => true⟩, List.replicate 1023 'd',
    [['a'], ['b']], List.length_replicate, rfl, rfl,
    by intro n hn; rw [shown_iff]; revert n; decide, Nat.le_refl _⟩

end Verif.LspScan
