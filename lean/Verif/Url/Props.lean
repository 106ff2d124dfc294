import Verif.Url.Model
import Verif.Str.Props

/-! # Properties of URL parsing (C19) -/

namespace Verif.Url
open Verif Verif.Str

theorem CText.cons {c : Byte} {m : Mem Byte} {t : List Byte} (h : CText m (c :: t)) :
    ∃ m', m = some c :: m' ∧ CText m' t ∧ c ≠ 0 := by
  obtain ⟨h0, rest, rfl⟩ := h
  simp only [List.mem_cons, not_or] at h0
  exact ⟨_, rfl, ⟨h0.2, rest, rfl⟩, Ne.symm h0.1⟩

theorem CText.nil {m : Mem Byte} (h : CText m []) : ∃ m', m = some 0 :: m' := by
  obtain ⟨_, rest, rfl⟩ := h
  exact ⟨rest, rfl⟩

theorem strchr_none {c : Byte} (hc : c ≠ 0) : ∀ {t : List Byte} {m : Mem Byte}, CText m t →
    c ∉ t → strchr m c = .ok none := by
  intro t
  induction t with
  | nil =>
      intro m h _
      obtain ⟨m', rfl⟩ := CText.nil h
      simp [strchr, Ne.symm hc]
  | cons x t ih =>
      intro m h hn
      obtain ⟨m', rfl, h', hx⟩ := CText.cons h
      simp only [List.mem_cons, not_or] at hn
      simp [strchr, Ne.symm hn.1, hx, ih h' hn.2]

theorem strchr_some {c : Byte} : ∀ {a b : List Byte} {m : Mem Byte}, CText m (a ++ c :: b) →
    c ∉ a → strchr m c = .ok (some a.length) := by
  intro a
  induction a with
  | nil =>
      intro b m h _
      obtain ⟨m', rfl, _, _⟩ := CText.cons h
      simp [strchr]
  | cons x a ih =>
      intro b m h hn
      obtain ⟨m', rfl, h', hx⟩ := CText.cons h
      simp only [List.mem_cons, not_or] at hn
      simp [strchr, Ne.symm hn.1, hx, ih h' hn.2]

theorem strncmp_prefix : ∀ {u t : List Byte} {m p : Mem Byte}, CText m t → CText p u →
    strncmpEq u.length m p = .ok (decide (u <+: t)) := by
  intro u
  induction u with
  | nil => intro t m p _ _; simp [strncmpEq]
  | cons x u ih =>
      intro t m p hm hp
      obtain ⟨p', rfl, hp', hx⟩ := CText.cons hp
      cases t with
      | nil =>
          obtain ⟨m', rfl⟩ := CText.nil hm
          simp [strncmpEq, Ne.symm hx]
      | cons y t =>
          obtain ⟨m', rfl, hm', hy⟩ := CText.cons hm
          simp only [List.length_cons, strncmpEq]
          by_cases hxy : y = x
          · subst hxy
            simp [hy, ih hm' hp']
          · simp [hxy, Ne.symm hxy]

theorem strstr_scheme : ∀ {s r : List Byte} {m : Mem Byte}, CText m (s ++ sSep ++ r) → 58 ∉ s →
    strstr 3 (cmem sSep) m = .ok (some s.length) := by
  intro s
  have hp : CText (cmem sSep) sSep := cmem_ctext sSep
  induction s with
  | nil =>
      intro r m h _
      have hs := strncmp_prefix h hp
      obtain ⟨m', rfl, _, _⟩ := CText.cons (c := 58) (t := 47 :: 47 :: r) h
      rw [show sSep.length = 3 from rfl] at hs
      rw [strstr, hs]
      simp
  | cons x s ih =>
      intro r m h hn
      have hs := strncmp_prefix h hp
      simp only [List.mem_cons, not_or] at hn
      obtain ⟨m', rfl, h', hx⟩ := CText.cons h
      have : ¬ sSep <+: x :: s ++ sSep ++ r := by
        intro hpre
        simp only [sSep, List.cons_append, List.cons_prefix_cons] at hpre
        exact hn.1 hpre.1
      rw [show sSep.length = 3 from rfl, decide_eq_false this] at hs
      rw [strstr, hs]
      simp [hx, ih h' hn.2]

theorem strstr_none : ∀ {t : List Byte} {m : Mem Byte}, CText m t → ¬ sSep <:+: t →
    strstr 3 (cmem sSep) m = .ok none := by
  intro t
  have hp : CText (cmem sSep) sSep := cmem_ctext sSep
  induction t with
  | nil =>
      intro m h _
      have hs := strncmp_prefix h hp
      obtain ⟨m', rfl⟩ := CText.nil h
      rw [show sSep.length = 3 from rfl] at hs
      rw [strstr, hs]
      simp [sSep]
  | cons x t ih =>
      intro m h hn
      have hs := strncmp_prefix h hp
      obtain ⟨m', rfl, h', hx⟩ := CText.cons h
      rw [List.infix_cons_iff, not_or] at hn
      rw [show sSep.length = 3 from rfl, decide_eq_false hn.1] at hs
      rw [strstr, hs]
      simp [hx, ih h' hn.2]

theorem copyN_text : ∀ {a b : List Byte} {m : Mem Byte}, CText m (a ++ b) →
    ∃ r, copyN a.length m = .ok r ∧ CText r a := by
  intro a
  induction a with
  | nil => intro b m _; exact ⟨[some 0], rfl, by simp, [], rfl⟩
  | cons x a ih =>
      intro b m h
      obtain ⟨m', rfl, h', hx⟩ := CText.cons h
      obtain ⟨r, hr, h0, rest, hrt⟩ := ih h'
      refine ⟨some x :: r, by simp [copyN, hr], ?_, rest, by rw [hrt]; rfl⟩
      simp [h0, Ne.symm hx]

theorem atoiDigits_eq : ∀ {p : List Byte} {m : Mem Byte} (v : Nat), CText m p →
    (∀ c ∈ p, isDig c = true) →
    atoiDigits m v = .ok (p.foldl (fun v c => 10 * v + (c.toNat - 48)) v) := by
  intro p
  induction p with
  | nil =>
      intro m v h _
      obtain ⟨m', rfl⟩ := CText.nil h
      simp [atoiDigits, show isDig 0 = false from rfl]
  | cons c p ih =>
      intro m v h hd
      obtain ⟨m', rfl, h', _⟩ := CText.cons h
      simp only [atoiDigits, hd c (by simp), if_true, List.foldl_cons]
      exact ih _ h' (fun x hx => hd x (by simp [hx]))

theorem atoi_eq {p : List Byte} {m : Mem Byte} (h : CText m p) (hne : p ≠ [])
    (hd : ∀ c ∈ p, isDig c = true) (hv : Spec.decVal p < 2 ^ 31) :
    atoi m = .ok (Spec.decVal p : Int) := by
  have hv' := atoiDigits_eq 0 h hd
  cases p with
  | nil => exact absurd rfl hne
  | cons c p =>
      have hc := hd c (by simp)
      obtain ⟨m', rfl, h', _⟩ := CText.cons h
      have h1 : isSpace c = false := by
        have : ∀ c : Fin 256, isDig (UInt8.ofNat c.val) = true →
            isSpace (UInt8.ofNat c.val) = false := by decide +kernel
        have := this ⟨c.toNat, c.toNat_lt⟩
        simp only [UInt8.ofNat_toNat] at this
        exact this hc
      have h2 : c ≠ 45 := by rintro rfl; exact absurd hc (by decide)
      have h3 : c ≠ 43 := by rintro rfl; exact absurd hc (by decide)
      simp only [atoi, h1, Bool.false_eq_true, if_false, atoiSign, h2, h3, or_self, hv',
        Res.ok_bind]
      unfold Spec.decVal at hv
      rw [if_pos hv]; rfl

theorem first_unique {d : Byte} : ∀ {a b c e : List Byte}, d ∉ a → d ∉ c → a ++ d :: b = c ++ d :: e →
    a = c ∧ b = e := by
  intro a
  induction a with
  | nil =>
      intro b c e _ hc h
      cases c with
      | nil => simp at h; exact ⟨rfl, h⟩
      | cons x c => simp at h; simp [h.1] at hc
  | cons x a ih =>
      intro b c e ha hc h
      cases c with
      | nil => simp at h; simp [h.1] at ha
      | cons y c =>
          simp only [List.cons_append, List.cons.injEq] at h
          simp only [List.mem_cons, not_or] at ha hc
          obtain ⟨h1, h2⟩ := ih ha.2 hc.2 h.2
          exact ⟨by rw [h.1, h1], h2⟩

theorem trim_id {t : List Byte} (h : ∀ c ∈ t, blank c = false) : Str.Spec.trim t = t := by
  unfold Str.Spec.trim
  have : ∀ l : List Byte, (∀ c ∈ l, blank c = false) → l.dropWhile blank = l := by
    intro l hl
    cases l with
    | nil => rfl
    | cons x l => rw [List.dropWhile_cons, hl x (by simp)]; simp
  rw [this t h, this t.reverse (by simpa using h), List.reverse_reverse]

theorem hostPort_none {s : Str} {h : List Byte} (hs : Text s h) (hlen : h.length < 2 ^ 63)
    (hc : 58 ∉ h) (dflt : Int) : ∃ w, hostPort s dflt = .ok (w, dflt) ∧ Text w h := by
  obtain ⟨w, ew, tw⟩ := hs.ctext.new
  refine ⟨w, ?_, tw⟩
  unfold hostPort
  obtain ⟨ps, ts, hsp, hps, hnd, hj, hcount⟩ := split_join s h hs hlen 58
  rw [hsp, Res.ok_bind]
  have hl : ts.length ≤ 1 := by
    by_cases hh : h = []
    · subst hh
      match ts, hj with
      | [], _ => simp
      | [_], _ => simp
      | a :: b :: r, hj => simp [Str.Spec.join] at hj
    · rw [hcount hh, List.count_eq_zero.2 hc]; omega
  match ps, ts, hps with
  | [], _, _ => simp [ew]
  | [a], _, _ => simp [ew]
  | a :: b :: ps, x :: y :: ts, _ => simp at hl

theorem hostPort_some {s : Str} {h p : List Byte} (hs : Text s (h ++ 58 :: p))
    (hlen : (h ++ 58 :: p).length < 2 ^ 63) (hc : 58 ∉ h) (hb : ∀ c ∈ h, blank c = false)
    (hne : p ≠ []) (hd : ∀ c ∈ p, isDig c = true) (hv : Spec.decVal p < 2 ^ 31) (dflt : Int) :
    ∃ w, hostPort s dflt = .ok (w, (Spec.decVal p : Int)) ∧ Text w h := by
  have hp58 : 58 ∉ p := fun hm => absurd (hd 58 hm) (by decide)
  obtain ⟨ps, ts, hsp, hps, hnd, hj, hcount⟩ := split_join s _ hs hlen 58
  have hl : ts.length = 2 := by
    rw [hcount (by simp), List.count_append, List.count_cons_self, List.count_eq_zero.2 hc,
      List.count_eq_zero.2 hp58]
  match ts, hl with
  | [x, y], _ =>
      match ps, hps with
      | [a, b], hps =>
          obtain ⟨ta, tb, _⟩ := hps
          simp only [Str.Spec.join] at hj
          obtain ⟨rfl, rfl⟩ := first_unique (hnd x (by simp)) hc hj
          obtain ⟨w, ew, tw⟩ := ta.trim (by simp at hlen; omega)
          rw [trim_id hb] at tw
          refine ⟨w, ?_, tw⟩
          unfold hostPort
          rw [hsp, Res.ok_bind]
          simp only [ew, Res.ok_bind, atoi_eq tb.ctext hne hd hv]

theorem pathQuery_some {m : Mem Byte} {r : List Byte} {q : Option (List Byte)}
    (hm : CText m (47 :: r ++ Spec.queryText q))
    (hr : 63 ∉ r) (hlen : (47 :: r ++ Spec.queryText q).length < 2 ^ 63) :
    ∃ a b, pathQuery (some m) = .ok (a, b) ∧ Text a (47 :: r) ∧ Text b (q.getD []) := by
  obtain ⟨x, ex, tx⟩ := (cmem_ctext [47]).new
  obtain ⟨y, ey, ty⟩ := (cmem_ctext []).new
  obtain ⟨w, ew, tw⟩ := hm.new
  have hld : Mem.load m 0 = .ok 47 := by
    rw [hm.load (i := 0) (by simp)]; simp
  unfold pathQuery
  simp only [ex, ey, Res.ok_bind, hld, if_true, ew, tw.find, tw.length]
  have hr' : 63 ∉ (47 :: r : List Byte) := by simpa using hr
  cases q with
  | none =>
      simp only [Spec.queryText, List.append_nil] at tw hlen ⊢
      have hnone : List.findIdx? (fun x => x == 63) (47 :: r) = none := by
        rw [List.findIdx?_eq_none_iff]
        intro c hc
        simp only [beq_eq_false_iff_ne, ne_eq]
        rintro rfl; exact hr' hc
      rw [hnone]
      obtain ⟨a, ea, ta⟩ := tw.substring hlen (a := 0) (n := (47 :: r).length) (by simp)
      refine ⟨a, y, by simp only [ea, Res.ok_bind], by simpa using ta, by simpa [Str.Spec.lit] using ty⟩
  | some q =>
      simp only [Spec.queryText] at tw hlen ⊢
      have hsome : List.findIdx? (fun x => x == 63) (47 :: r ++ 63 :: q) = some (r.length + 1) := by
        rw [List.findIdx?_eq_some_iff_getElem]
        refine ⟨by simp, by simp, fun j hj => ?_⟩
        rw [List.getElem_append_left (by simp; omega)]
        intro heq
        have := List.getElem_mem (l := 47 :: r) (n := j) (by simp; omega)
        rw [show (47 :: r)[j]'(by simp; omega) = 63 by simpa using heq] at this
        exact hr' this
      rw [hsome]
      obtain ⟨a, ea, ta⟩ := tw.substring hlen (a := 0) (n := r.length + 1) (by simp)
      obtain ⟨b, eb, tb⟩ := tw.substring hlen (a := r.length + 1 + 1)
        (n := (47 :: r ++ 63 :: q).length - (r.length + 1) - 1) (by simp; omega)
      refine ⟨a, b, by simp only [ea, eb, Res.ok_bind], ?_, ?_⟩
      · have : ((47 :: r ++ 63 :: q).drop 0).take (r.length + 1) = 47 :: r := by
          rw [List.drop_zero, show r.length + 1 = (47 :: r).length by simp, List.take_left]
        rw [this] at ta; exact ta
      · have : (47 :: r ++ 63 :: q).drop (r.length + 1 + 1) = q := by
          rw [show 47 :: r ++ 63 :: q = (47 :: r ++ [63]) ++ q by simp,
            show r.length + 1 + 1 = (47 :: r ++ [63]).length by simp, List.drop_left]
        rw [this, List.take_of_length_le (by simp)] at tb
        exact tb

theorem pathQuery_query {m : Mem Byte} {q : List Byte} (hm : CText m (63 :: q)) :
    ∃ a b, pathQuery (some m) = .ok (a, b) ∧ Text a [47] ∧ Text b q := by
  obtain ⟨x, ex, tx⟩ := (cmem_ctext [47]).new
  obtain ⟨y, ey, ty⟩ := (cmem_ctext []).new
  have hd : CText (m.drop 1) q := by simpa using hm.drop (k := 1) (by simp)
  obtain ⟨w, ew, tw⟩ := hd.new
  have hld : Mem.load m 0 = .ok 63 := by
    rw [hm.load (i := 0) (by simp)]; simp
  refine ⟨x, w, ?_, by simpa [Str.Spec.lit] using tx, tw⟩
  unfold pathQuery
  simp only [ex, ey, hld, ew, Res.ok_bind]
  rfl

theorem pathQuery_none : ∃ a b, pathQuery none = .ok (a, b) ∧ Text a [47] ∧ Text b [] := by
  obtain ⟨x, ex, tx⟩ := (cmem_ctext [47]).new
  obtain ⟨y, ey, ty⟩ := (cmem_ctext []).new
  refine ⟨x, y, ?_, by simpa [Str.Spec.lit] using tx, by simpa [Str.Spec.lit] using ty⟩
  unfold pathQuery
  simp [ex, ey]

/-- C19: parsing a URL written as `scheme://host[:port][/path][?query]` returns exactly its
pieces, with the default port and path where they are missing. -/
theorem url_parse_exact {raw : Str} (u : Spec.Parts) (h : Text raw (Spec.write u)) (ok : Spec.Ok u)
    (hlen : (Spec.write u).length < 2 ^ 63) :
    ∃ r, parse raw = .ok (some r) ∧ Text r.scheme u.scheme ∧ Text r.host u.host ∧
      r.port = Spec.port u ∧ Text r.path (Spec.path u) ∧ Text r.query (u.query.getD []) := by
  -- the text after the host part
  obtain ⟨auth, hauth⟩ : ∃ a, a = u.host ++ Spec.portText u.port :=
    ⟨_, rfl⟩
  obtain ⟨tail, htail⟩ : ∃ a, a = u.path ++ Spec.queryText u.query :=
    ⟨_, rfl⟩
  have hw : Spec.write u = u.scheme ++ sSep ++ (auth ++ tail) := by
    rw [hauth, htail]; simp [Spec.write]
  rw [hw] at h hlen
  have hct := h.ctext
  have hstr := strstr_scheme hct ok.scheme
  obtain ⟨sc, esc, tsc⟩ := h.substring hlen (a := 0) (n := u.scheme.length) (by simp)
  have hsc : ((u.scheme ++ sSep ++ (auth ++ tail)).drop 0).take u.scheme.length = u.scheme := by
    simp
  rw [hsc] at tsc
  have hrest : CText (raw.buf.drop (u.scheme.length + 3)) (auth ++ tail) := by
    have := hct.drop (k := (u.scheme ++ sSep).length) (by simp)
    rw [List.drop_left, show (u.scheme ++ sSep).length = u.scheme.length + 3 by simp [sSep]] at this
    exact this
  generalize hrdef : raw.buf.drop (u.scheme.length + 3) = rest at hrest
  have hhttps : eqStr sc (cmem sHttps) = .ok (decide (u.scheme = sHttps)) :=
    tsc.ctext.strcmp (cmem_ctext sHttps)
  have hauth47 : 47 ∉ auth := by
    rw [hauth]
    cases hp : u.port with
    | none => simp only [Spec.portText, List.append_nil]; intro hm; exact (ok.host _ hm).2.1 rfl
    | some p =>
        simp only [Spec.portText, List.mem_append, List.mem_cons, not_or]
        exact ⟨fun hm => (ok.host _ hm).2.1 rfl, by decide,
          fun hm => absurd ((ok.port p hp).2.1 _ hm) (by decide)⟩
  have hauth63 : 63 ∉ auth := by
    rw [hauth]
    cases hp : u.port with
    | none => simp only [Spec.portText, List.append_nil]; intro hm; exact (ok.host _ hm).2.2.1 rfl
    | some p =>
        simp only [Spec.portText, List.mem_append, List.mem_cons, not_or]
        exact ⟨fun hm => (ok.host _ hm).2.2.1 rfl, by decide,
          fun hm => absurd ((ok.port p hp).2.1 _ hm) (by decide)⟩
  have hhost58 : 58 ∉ u.host := fun hm => (ok.host _ hm).1 rfl
  -- where the host part ends
  have hend : ∃ sl q he, strchr rest 47 = .ok sl ∧ strchr rest 63 = .ok q ∧ hostEnd sl q = he ∧
      (he = none ∧ tail = [] ∨ he = some auth.length ∧ tail ≠ []) := by
    rcases ok.path with hpath | ⟨r, hpath⟩
    · cases hq : u.query with
      | none =>
          have ht : tail = [] := by rw [htail, hpath, hq]; rfl
          rw [ht, List.append_nil] at hrest
          exact ⟨none, none, none, strchr_none (by decide) hrest hauth47,
            strchr_none (by decide) hrest hauth63, rfl, .inl ⟨rfl, ht⟩⟩
      | some q =>
          have ht : tail = 63 :: q := by rw [htail, hpath, hq]; rfl
          rw [ht] at hrest
          have hq63 := strchr_some hrest hauth63
          by_cases h47 : 47 ∈ q
          · obtain ⟨a, b, hab, ha⟩ := List.eq_append_cons_of_mem h47
            rw [hab, show auth ++ 63 :: (a ++ 47 :: b) = (auth ++ 63 :: a) ++ 47 :: b by simp] at hrest
            refine ⟨_, _, _, strchr_some hrest (by
              simp only [List.mem_append, List.mem_cons, not_or]
              exact ⟨hauth47, by decide, ha⟩), hq63, rfl, .inr ⟨?_, by rw [ht]; simp⟩⟩
            simp only [hostEnd]
            rw [if_pos (by simp)]
          · exact ⟨_, _, _, strchr_none (by decide) hrest (by
              simp only [List.mem_append, List.mem_cons, not_or]
              exact ⟨hauth47, by decide, h47⟩), hq63, rfl, .inr ⟨rfl, by rw [ht]; simp⟩⟩
    · obtain ⟨t', ht⟩ : ∃ t', tail = 47 :: t' := ⟨_, by rw [htail, hpath, List.cons_append]⟩
      have hs : strchr rest 47 = .ok (some auth.length) := by
        rw [ht] at hrest
        exact strchr_some hrest hauth47
      cases hq : u.query with
      | none =>
          exact ⟨_, _, _, hs, strchr_none (by decide) hrest (by
            rw [htail, hq]
            simp only [Spec.queryText, List.append_nil, List.mem_append, not_or]
            exact ⟨hauth63, ok.pathQ⟩), rfl, .inr ⟨rfl, by rw [ht]; simp⟩⟩
      | some q =>
          have : auth ++ tail = (auth ++ u.path) ++ 63 :: q := by
            rw [htail, hq]; simp [Spec.queryText]
          rw [this] at hrest
          refine ⟨_, _, _, hs, strchr_some hrest (by
            simp only [List.mem_append, not_or]
            exact ⟨hauth63, ok.pathQ⟩), rfl, .inr ⟨?_, by rw [ht]; simp⟩⟩
          simp only [hostEnd]
          rw [if_neg (by simp)]
  obtain ⟨sl, qo, he, hsl, hqo, hhe, hcase⟩ := hend
  obtain ⟨buf, ebuf, tbuf⟩ := copyN_text hrest
  obtain ⟨hstrv, ehs, ths⟩ := tbuf.new
  -- host and port
  have hhp : ∃ w, hostPort hstrv (if decide (u.scheme = sHttps) then 443 else 80)
      = .ok (w, Spec.port u) ∧ Text w u.host := by
    have hal : auth.length < 2 ^ 63 := by simp at hlen; omega
    cases hp : u.port with
    | none =>
        rw [hp] at hauth
        simp only [Spec.portText, List.append_nil] at hauth
        rw [hauth] at ths hal
        obtain ⟨w, ew, tw⟩ := hostPort_none ths hal hhost58
          (if decide (u.scheme = sHttps) then 443 else 80)
        refine ⟨w, ?_, tw⟩
        rw [ew]; simp [Spec.port, hp]
    | some p =>
        rw [hp] at hauth
        simp only [Spec.portText] at hauth
        rw [hauth] at ths hal
        obtain ⟨h1, h2, h3⟩ := ok.port p hp
        obtain ⟨w, ew, tw⟩ := hostPort_some ths hal hhost58 (fun c hc => (ok.host c hc).2.2.2) h1 h2 h3
          (if decide (u.scheme = sHttps) then 443 else 80)
        refine ⟨w, ?_, tw⟩
        rw [ew]; simp [Spec.port, hp]
  obtain ⟨hw', ehp, thw⟩ := hhp
  -- path and query
  have hpq : ∃ a b, pathQuery (he.map fun e => rest.drop e) = .ok (a, b) ∧
      Text a (Spec.path u) ∧ Text b (u.query.getD []) := by
    rcases hcase with ⟨rfl, ht⟩ | ⟨rfl, ht⟩
    · obtain ⟨a, b, e, ta, tb⟩ := pathQuery_none
      have hpe : u.path = [] := by
        rw [htail] at ht; exact (List.append_eq_nil_iff.1 ht).1
      have hqe : u.query = none := by
        rw [htail] at ht
        have := (List.append_eq_nil_iff.1 ht).2
        cases hq : u.query with
        | none => rfl
        | some q => rw [hq] at this; simp [Spec.queryText] at this
      exact ⟨a, b, e, by simpa [Spec.path, hpe] using ta, by simpa [hqe] using tb⟩
    · have hdr : CText (rest.drop auth.length) tail := by
        have := hrest.drop (k := auth.length) (by simp)
        rwa [List.drop_left] at this
      rcases ok.path with hpath | ⟨r, hpath⟩
      · cases hq : u.query with
        | none => rw [htail, hpath, hq] at ht; exact absurd rfl ht
        | some q =>
            rw [htail, hpath, hq] at hdr
            obtain ⟨a, b, e, ta, tb⟩ := pathQuery_query hdr
            exact ⟨a, b, e, by simpa [Spec.path, hpath] using ta, by simpa using tb⟩
      · have hpq' := ok.pathQ
        rw [hpath] at hpq'
        simp only [List.mem_cons, not_or] at hpq'
        rw [htail, hpath] at hdr
        have hl : tail.length < 2 ^ 63 := by simp at hlen; omega
        rw [htail, hpath] at hl
        obtain ⟨a, b, e, ta, tb⟩ := pathQuery_some hdr hpq'.2 hl
        exact ⟨a, b, e, by simpa [Spec.path, hpath] using ta, tb⟩
  obtain ⟨pa, qu, epq, tpa, tqu⟩ := hpq
  refine ⟨⟨sc, hw', Spec.port u, pa, qu⟩, ?_, tsc, thw, rfl, tpa, tqu⟩
  have hlen' : hostLength he rest = .ok auth.length := by
    rcases hcase with ⟨rfl, ht⟩ | ⟨rfl, ht⟩
    · rw [ht, List.append_nil] at hrest
      exact hrest.strlen
    · rfl
  unfold parse
  simp only [hstr, Res.ok_bind, esc, hhttps, hrdef, hsl, hqo, hhe, hlen', ebuf, ehs, ehp, epq]

/-- a text without `://` is rejected -/
theorem url_no_scheme {raw : Str} {t : List Byte} (h : Text raw t) (hn : ¬ [58, 47, 47] <:+: t) :
    parse raw = .ok none := by
  unfold parse
  simp only [strstr_none h.ctext hn, Res.ok_bind]

/-- `http://a.b:8080/x?y` meets the hypotheses -/
def sample : Spec.Parts :=
  ⟨[104, 116, 116, 112], [97, 46, 98], some [56, 48, 56, 48], [47, 120], some [121]⟩

example : Spec.Ok sample ∧ Spec.port sample = 8080 := by
  refine ⟨⟨by decide, by decide, by decide, ?_, .inr ⟨[120], rfl⟩, by decide⟩, by decide⟩
  intro p hp
  simp only [sample, Option.some.injEq] at hp
  subst hp
  decide

example : ∃ raw, Text raw (Spec.write sample) :=
  (CText.new (m := cmem (Spec.write sample)) (cmem_ctext (Spec.write sample))).elim
    fun s h => ⟨s, h.2⟩

end Verif.Url
