import Verif.Fs.Model

/-! # C65: files and directories -/

namespace Verif.Fs
open Verif Verif.Str Spec

theorem upToZero_ctext : ∀ (t : List Byte) (rest : Mem Byte), CText (t.map some ++ some 0 :: rest) (upToZero t)
  | [], rest => ⟨by simp [upToZero], rest, by simp [upToZero]⟩
  | c :: t, rest => by
      obtain ⟨h0, r, h⟩ := upToZero_ctext t rest
      by_cases hc : c = 0
      · subst hc
        exact ⟨by simp [upToZero], t.map some ++ some 0 :: rest, by simp [upToZero]⟩
      · have he : upToZero (c :: t) = c :: upToZero t := by
          unfold upToZero; rw [List.takeWhile_cons_of_pos (by simpa using hc)]
        rw [he]
        refine ⟨by simp only [List.mem_cons, not_or]; exact ⟨Ne.symm hc, h0⟩, r, ?_⟩
        rw [List.map_cons, List.cons_append, h, List.map_cons, List.cons_append]

theorem upToZero_clean {t : List Byte} (h : 0 ∉ t) : upToZero t = t := by
  unfold upToZero
  induction t with
  | nil => rfl
  | cons c t ih =>
      simp only [List.mem_cons, not_or] at h
      rw [List.takeWhile_cons_of_pos (by simpa using Ne.symm h.1), ih h.2]

theorem usize_nat {n : Nat} (h : n < 2 ^ 64) : usize (n : Int) = n := by unfold usize; omega

/-- C65: whatever a seekable stream delivers, reading it stays inside its buffer, and the result is the
text of the bytes up to the end found by seeking, before an error and before a zero byte. -/
theorem read_safe (f : Stream) (n : Nat) (hn : f.atEnd = n) (hl : n < 2 ^ 63) :
    ∃ s, readToString f = .ok s ∧ Text s (upToZero ((f.data.take f.good).take n)) := by
  have hlen : ((f.data.take f.good).take n).length ≤ n := by simp; omega
  generalize hg : (f.data.take f.good).take n = got at *
  have e1 : readToString f = new (got.map some ++ some 0 :: List.replicate (n - got.length) none) := by
    unfold readToString
    rw [hn]
    simp only [usize_nat (show n < 2 ^ 64 by omega), Nat.mod_eq_of_lt (show n + 1 < 2 ^ 64 by omega)]
    unfold fread
    simp only [hg]
    rw [if_pos (by simp [Mem.malloc]; omega)]
    simp only [Res.ok_bind]
    unfold Mem.store
    rw [if_pos (by simp [Mem.malloc]; omega)]
    simp only [Res.ok_bind]
    congr 1
    rw [List.set_append_right _ _ (by simp)]
    have : n + 1 - got.length = (n - got.length) + 1 := by omega
    rw [Mem.malloc, List.drop_replicate, this, List.replicate_succ, List.length_map, Nat.sub_self, List.set_cons_zero]
  rw [e1]
  exact (upToZero_ctext got _).new

/-- C65: a regular file without zero bytes is read exactly, whatever its length. -/
theorem read_partial (f : Stream) (h : Regular f) (h0 : 0 ∉ f.data) : ∃ s, readToString f = .ok s ∧ Text s f.data := by
  obtain ⟨h1, h2, h3⟩ := h
  obtain ⟨s, e, ht⟩ := read_safe f f.data.length h1 h3
  refine ⟨s, e, ?_⟩
  rw [List.take_of_length_le h2, List.take_length, upToZero_clean h0] at ht
  exact ht

example : ∃ s, readToString ⟨[104, 105, 10], 3, 100⟩ = .ok s ∧ Text s [104, 105, 10] :=
  read_partial _ ⟨rfl, by decide, by decide⟩ (by decide)

/-- C65 fails for a file with a zero byte: what follows it is lost. -/
theorem read_zero_byte_violated (a r : List Byte) (h0 : 0 ∉ a) (hl : (a ++ 0 :: r).length < 2 ^ 63) :
    ∃ s, readToString ⟨a ++ 0 :: r, ((a ++ 0 :: r).length : Nat), (a ++ 0 :: r).length⟩ = .ok s ∧ Text s a := by
  obtain ⟨s, e, ht⟩ := read_safe ⟨a ++ 0 :: r, ((a ++ 0 :: r).length : Nat), (a ++ 0 :: r).length⟩ _ rfl hl
  refine ⟨s, e, ?_⟩
  simp only [List.take_length] at ht
  have : upToZero (a ++ 0 :: r) = a := by
    unfold upToZero
    rw [List.takeWhile_append_of_pos]
    · simp
    · intro c hc
      have : c ≠ 0 := fun h => h0 (h ▸ hc)
      simpa using this
  rwa [this] at ht

/-- C65 fails for pipes, terminals and other streams that cannot seek: the buffer has no byte, and the
end mark alone is written outside it. -/
theorem read_unseekable_violated (data : List Byte) (good : Nat) : readToString ⟨data, -1, good⟩ = .ub := by
  unfold readToString
  have : (usize (-1) + 1) % 2 ^ 64 = 0 := by decide
  simp only [this, Mem.malloc, List.replicate_zero]
  unfold fread
  simp only
  split
  · rename_i h
    simp only [List.length_nil, Nat.le_zero] at h
    rw [List.length_eq_zero_iff.1 h]
    rfl
  · rfl

/-- C65 fails for files whose size is reported as zero, as those below `/proc`: they read as empty, and
the answer is `Ok`. -/
theorem read_size_zero_violated (data : List Byte) (good : Nat) :
    ∃ s, readToString ⟨data, 0, good⟩ = .ok s ∧ Text s [] := by
  obtain ⟨s, e, ht⟩ := read_safe ⟨data, 0, good⟩ 0 rfl (by decide)
  exact ⟨s, e, by simpa [upToZero] using ht⟩

/-- C65 fails for read errors: what was delivered before the error is returned as `Ok`. -/
theorem read_error_violated (data : List Byte) (k : Nat) (hl : data.length < 2 ^ 63) (h0 : 0 ∉ data) :
    ∃ s, readToString ⟨data, data.length, k⟩ = .ok s ∧ Text s (data.take k) := by
  obtain ⟨s, e, ht⟩ := read_safe ⟨data, data.length, k⟩ _ rfl hl
  refine ⟨s, e, ?_⟩
  rw [List.take_of_length_le (by simp; omega), upToZero_clean fun h => h0 (List.mem_of_mem_take h)] at ht
  exact ht

/-! ## writing -/

theorem load_text {m : Mem Byte} {t : List Byte} (h : CText m t) (i : Nat) (hi : i < t.length) :
    Mem.load m i = .ok t[i] := by
  obtain ⟨_, rest, rfl⟩ := h
  unfold Mem.load
  rw [List.getElem?_append_left (by simpa using hi)]
  simp [hi]

theorem collect {m : Mem Byte} {t : List Byte} (h : CText m t) : ∀ (n i : Nat) (acc : List Byte), i + n = t.length →
    (List.range' i n).foldlM (fun acc i => do let c ← Mem.load m i; Res.ok (acc ++ [c])) acc = .ok (acc ++ t.drop i)
  | 0, i, acc, hi => by
      simp only [List.range'_zero, List.foldlM_nil, Res.pure_eq]
      rw [List.drop_of_length_le (by omega), List.append_nil]
  | n + 1, i, acc, hi => by
      rw [List.range'_succ, List.foldlM_cons, load_text h i (by omega)]
      simp only [Res.ok_bind]
      rw [collect h n (i + 1) _ (by omega), List.append_assoc, List.singleton_append, List.getElem_cons_drop]

/-- C65: `write_string` puts the text at the position, keeps the rest of the file, and answers `Ok` if
and only if every byte was taken. -/
theorem write_exact {content : Mem Byte} {t : List Byte} (h : CText content t) (data : List Byte) (pos accepts : Nat) :
    writeString data pos content accepts =
      .ok (data.take pos ++ t.take accepts ++ data.drop (pos + min accepts t.length), decide (t.length ≤ accepts)) := by
  unfold writeString
  have := collect h t.length 0 [] (by omega)
  rw [List.nil_append, List.drop_zero, ← List.range_eq_range'] at this
  simp only [h.strlen, Res.ok_bind, this, List.length_take]
  congr 2
  rw [decide_eq_decide]
  omega

/-- C65: a text written to a new file and read back is the same text. -/
theorem round_trip_partial {content : Mem Byte} {t : List Byte} (h : CText content t) (accepts : Nat) (ha : t.length ≤ accepts)
    (hl : t.length < 2 ^ 63) :
    ∃ data s, writeString [] 0 content accepts = .ok (data, true) ∧
      readToString ⟨data, data.length, data.length⟩ = .ok s ∧ Text s t := by
  have e := write_exact h [] 0 accepts
  rw [List.take_of_length_le ha] at e
  simp only [List.take_nil, List.nil_append, List.drop_nil, List.append_nil, ha, decide_true] at e
  obtain ⟨s, e2, ht⟩ := read_partial ⟨t, t.length, t.length⟩ ⟨rfl, Nat.le_refl _, hl⟩ h.1
  exact ⟨t, s, e, e2, ht⟩

/-- C65: texts written one after the other are all there, in order. -/
theorem append_writes : ∀ (ts : List (Mem Byte × List Byte)) (data : List Byte), (∀ p ∈ ts, CText p.1 p.2) →
    ts.foldlM (fun d p => do let (d, _) ← writeString d d.length p.1 p.2.length; Res.ok d) data =
      .ok (data ++ (ts.map Prod.snd).flatten)
  | [], data, _ => by simp
  | p :: ts, data, h => by
      rw [List.foldlM_cons, write_exact (h p (by simp)), Res.ok_bind]
      simp only [Res.ok_bind, List.take_length]
      rw [append_writes ts _ fun q hq => h q (by simp [hq])]
      simp [List.drop_of_length_le]

/-! ## directories -/

theorem readEntry_ctext (buf : Mem Byte) (hb : buf.length = 256) (e : Entry) (h0 : 0 ∉ e.name) :
    ∃ buf', readEntry buf e = .ok (buf', decide (e.typed = true ∧ e.kind = .dir)) ∧ buf'.length = 256 ∧
      CText buf' (e.name.take 255) := by
  have hl : (strncpy buf e.name 255).length = 256 := by unfold strncpy; simp; omega
  refine ⟨(strncpy buf e.name 255).set 255 (some 0), ?_, by simpa using hl, fun h => h0 (List.mem_of_mem_take h), ?_⟩
  · unfold readEntry Mem.store
    rw [if_pos (by omega)]
    rfl
  · have hz : List.replicate (255 - e.name.length) (0 : Byte) = (List.replicate (255 - e.name.length) (0 : Byte)).take (255 - e.name.length) := by
      simp
    have hs : strncpy buf e.name 255 = ((e.name.take 255) ++ List.replicate (255 - e.name.length) 0).map some ++ buf.drop 255 := by
      unfold strncpy
      rw [List.take_append, ← hz]
    rw [hs]
    by_cases hn : e.name.length < 255
    · have : 255 - e.name.length = (254 - e.name.length) + 1 := by omega
      rw [List.take_of_length_le (by omega), this, List.replicate_succ]
      rw [List.set_append_right _ _ (by simp; omega)]
      refine ⟨_, by
        rw [List.map_append, List.append_assoc, List.map_cons, List.cons_append]⟩
    · have : 255 - e.name.length = 0 := by omega
      rw [this, List.replicate_zero, List.append_nil, List.set_append_right _ _ (by simp; omega)]
      obtain ⟨x, hx⟩ : ∃ x, buf.drop 255 = [x] := by
        have : (buf.drop 255).length = 1 := by simp [hb]
        exact List.length_eq_one_iff.1 this
      rw [hx]
      refine ⟨[], ?_⟩
      have h2 : 255 - (List.map some (List.take 255 e.name)).length = 0 := by simp; omega
      rw [h2]
      rfl

theorem listed_snoc {f : Entry → Bool} : ∀ {acc : List (Str × Bool)} {es : List Entry} {s : Str} {d : Bool} {e : Entry},
    Listed f acc es → Text s e.name → d = f e → Listed f (acc ++ [(s, d)]) (es ++ [e])
  | [], [], _, _, _, _, h1, h2 => ⟨h1, h2, trivial⟩
  | (_, _) :: _, _ :: _, _, _, _, h, h1, h2 => ⟨h.1, h.2.1, listed_snoc h.2.2 h1 h2⟩

theorem readDirLoop_spec : ∀ (es : List Entry) (buf : Mem Byte) (acc : List (Str × Bool)) (done : List Entry),
    buf.length = 256 → (∀ e ∈ es, 0 ∉ e.name ∧ e.name.length ≤ 255) →
    Listed (fun e => decide (e.typed = true ∧ e.kind = .dir)) acc done →
    ∃ r, readDirLoop es buf acc = .ok r ∧ Listed (fun e => decide (e.typed = true ∧ e.kind = .dir)) r (done ++ visible es)
  | [], buf, acc, done, _, _, h => ⟨acc, rfl, by simpa [visible] using h⟩
  | e :: es, buf, acc, done, hb, hn, h => by
      obtain ⟨hz, hl⟩ := hn e (by simp)
      obtain ⟨buf', e1, hb', hc⟩ := readEntry_ctext buf hb e hz
      rw [List.take_of_length_le hl] at hc
      have c1 : CText (cmem [46]) [46] := ⟨by decide, [], rfl⟩
      have c2 : CText (cmem [46, 46]) [46, 46] := ⟨by decide, [], rfl⟩
      rw [readDirLoop, e1, Res.ok_bind]
      simp only [hc.strcmp c1, hc.strcmp c2, Res.ok_bind]
      by_cases hd : e.name = [46] ∨ e.name = [46, 46]
      · rw [if_pos (by simpa using hd)]
        obtain ⟨r, e2, h2⟩ := readDirLoop_spec es buf' acc done hb' (fun x hx => hn x (by simp [hx])) h
        refine ⟨r, e2, ?_⟩
        have : visible (e :: es) = visible es := by
          unfold visible
          rw [List.filter_cons_of_neg]
          rcases hd with hd | hd <;> simp [hd]
        rwa [this]
      · rw [if_neg (by simpa using hd)]
        obtain ⟨s, e2, hs⟩ := hc.new
        rw [e2, Res.ok_bind]
        obtain ⟨r, e3, h3⟩ := readDirLoop_spec es buf' _ _ hb' (fun x hx => hn x (by simp [hx])) (listed_snoc h hs rfl)
        refine ⟨r, e3, ?_⟩
        have : visible (e :: es) = e :: visible es := by
          unfold visible
          rw [List.filter_cons_of_pos]
          simp only [not_or] at hd
          simp [hd.1, hd.2]
        rw [this]
        simpa using h3

/-- C65: `read_dir` lists every entry but `.` and `..`, with its name, in the order of the directory; the
directory flag is right for typed entries that are not links. -/
theorem readDir_partial (es : List Entry) (hn : ∀ e ∈ es, 0 ∉ e.name ∧ e.name.length ≤ 255)
    (ht : ∀ e ∈ visible es, e.typed = true ∧ (e.kind = .dir ∨ e.kind = .file)) :
    ∃ r, readDir es = .ok r ∧ Listed isDir r (visible es) := by
  obtain ⟨r, e, h⟩ := readDirLoop_spec es (Mem.malloc 256) [] [] List.length_replicate hn trivial
  refine ⟨r, e, ?_⟩
  rw [List.nil_append] at h
  have key : ∀ (r : List (Str × Bool)) (es : List Entry), (∀ e ∈ es, e.typed = true ∧ (e.kind = .dir ∨ e.kind = .file)) →
      Listed (fun e => decide (e.typed = true ∧ e.kind = .dir)) r es → Listed isDir r es := by
    intro r es
    induction es generalizing r with
    | nil => intro _ h; cases r with
      | nil => trivial
      | cons x xs => exact h.elim
    | cons e es ih =>
        intro ht h
        match r, h with
        | (s, d) :: r, ⟨h1, h2, h3⟩ =>
            refine ⟨h1, ?_, ih r (fun x hx => ht x (by simp [hx])) h3⟩
            obtain ⟨t1, t2⟩ := ht e (by simp)
            rw [h2]
            rcases t2 with t2 | t2 <;> simp [isDir, t1, t2]
  exact key r _ ht h

/-- a directory with `.`, `..`, a file and a directory -/
example : ∃ r, readDir [⟨[46], .dir, true⟩, ⟨[97], .file, true⟩, ⟨[46, 46], .dir, true⟩, ⟨[98], .dir, true⟩] = .ok r ∧
    Listed isDir r [⟨[97], .file, true⟩, ⟨[98], .dir, true⟩] :=
  readDir_partial _ (by decide) (by decide)

/-- C65 fails where the file system does not report types, and for links: the entry is a directory for
`metadata` and not for `read_dir`. -/
theorem readDir_flag_violated (name : List Byte) (h0 : 0 ∉ name) (hl : name.length ≤ 255) (hd : name ≠ [46] ∧ name ≠ [46, 46])
    (e : Entry) (he : e = ⟨name, .dir, false⟩ ∨ e = ⟨name, .linkToDir, true⟩) :
    isDir e = true ∧ ∃ s, readDir [e] = .ok [(s, false)] ∧ Text s name := by
  have hname : e.name = name := by rcases he with he | he <;> rw [he]
  have hflag : decide (e.typed = true ∧ e.kind = .dir) = false := by rcases he with he | he <;> rw [he] <;> simp
  refine ⟨by rcases he with he | he <;> rw [he] <;> rfl, ?_⟩
  obtain ⟨r, e1, h⟩ := readDirLoop_spec [e] (Mem.malloc 256) [] [] List.length_replicate
    (by intro x hx; rw [List.mem_singleton.1 hx, hname]; exact ⟨h0, hl⟩) trivial
  have hv : visible [e] = [e] := by simp [visible, hname, hd.1, hd.2]
  rw [hv, List.nil_append] at h
  match r, h with
  | [(s, d)], ⟨h1, h2, _⟩ => exact ⟨s, by rw [readDir, e1, h2]; simp only [hflag], hname ▸ h1⟩

/-! ## the current directory -/

/-- C65: a current directory of at most 1023 bytes is returned. -/
theorem currentDir_partial (path : List Byte) (h0 : 0 ∉ path) (hl : path.length ≤ 1023) :
    ∃ s, currentDir path = .ok (some s) ∧ Text s path := by
  obtain ⟨s, e, h⟩ := CText.new (m := path.map some ++ some 0 :: List.replicate (1023 - path.length) none) (t := path) ⟨h0, _, rfl⟩
  exact ⟨s, by rw [currentDir, if_pos (by omega), e]; rfl, h⟩

/-- C65 fails for longer ones. -/
theorem currentDir_violated (path : List Byte) (hl : 1024 ≤ path.length) : currentDir path = .ok none := by
  rw [currentDir, if_neg (by omega)]

end Verif.Fs
