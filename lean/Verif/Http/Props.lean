import Verif.Http.Model
import Verif.Url.Props

/-! # C62: HTTP requests and responses -/

namespace Verif.Http
open Verif Verif.Str Spec

/-! ## the buffer -/

theorem received_ctext {bs : List Byte} (h0 : 0 ∉ bs) (hl : bs.length ≤ 4095) : CText (received bs) bs := by
  refine ⟨h0, List.replicate (4095 - bs.length) none, ?_⟩
  unfold received
  rw [if_pos (by omega)]
  have : 4096 - bs.length = (4095 - bs.length) + 1 := by omega
  rw [this, List.replicate_succ, List.set_append_right _ _ (by simp)]
  simp

theorem received_full {bs : List Byte} (h0 : 0 ∉ bs) (hl : bs.length = 4096) : CText (received bs) (bs.take 4095) := by
  refine ⟨fun h => h0 (List.mem_of_mem_take h), [], ?_⟩
  unfold received
  rw [if_neg (by omega)]
  simp only [hl, Nat.sub_self, List.replicate_zero, List.append_nil]
  apply List.ext_getElem?
  intro i
  rw [List.getElem?_set]
  by_cases hi : 4095 = i
  · subst hi
    simp [hl]
  · rw [if_neg hi]
    by_cases h2 : i < 4095
    · rw [List.getElem?_append_left (by simp; omega)]
      simp [h2]
    · rw [List.getElem?_eq_none (by simp; omega), List.getElem?_eq_none (by simp; omega)]

/-! ## splitting -/

theorem split_first {s : Str} {a r : List Byte} {d : Byte} (h : Text s (a ++ d :: r))
    (hl : (a ++ d :: r).length < 2 ^ 63) (hd : d ∉ a) :
    ∃ p ps ts, split s d = .ok (p :: ps) ∧ Text p a ∧ Texts ps ts ∧ ts ≠ [] ∧ Str.Spec.join d ts = r ∧
      ∀ q ∈ ts, d ∉ q := by
  obtain ⟨ps, ts, h1, h2, h3, h4, h5⟩ := split_join s _ h hl d
  have hc := h5 (by simp)
  rw [List.count_append, List.count_cons_self] at hc
  match ps, ts, h2 with
  | [], [], _ => simp at hc
  | p :: ps, t :: ts, h2 =>
      cases ts with
      | nil => simp at hc
      | cons u us =>
          simp only [Str.Spec.join] at h4
          obtain ⟨e1, e2⟩ := Url.first_unique (h3 t (by simp)) hd h4
          refine ⟨p, ps, u :: us, h1, e1 ▸ h2.1, h2.2, by simp, e2, fun q hq => h3 q (by simp [hq])⟩

theorem split_whole {s : Str} {a : List Byte} {d : Byte} (h : Text s a) (hne : a ≠ [])
    (hl : a.length < 2 ^ 63) (hd : d ∉ a) : ∃ p, split s d = .ok [p] ∧ Text p a := by
  obtain ⟨ps, ts, h1, h2, h3, h4, h5⟩ := split_join s _ h hl d
  have hc := h5 hne
  rw [List.count_eq_zero.2 hd] at hc
  match ps, ts, h2 with
  | [], [], _ => simp at hc
  | [p], [t], h2 => exact ⟨p, h1, by rw [← h4]; exact h2.1⟩
  | _ :: _ :: _, _ :: _ :: _, _ => simp at hc

theorem texts_cons {ps : List Str} {t : List Byte} {ts : List (List Byte)} (h : Texts ps (t :: ts)) :
    ∃ p qs, ps = p :: qs ∧ Text p t ∧ Texts qs ts := by
  cases ps with
  | nil => exact h.elim
  | cons p qs => exact ⟨p, qs, rfl, h.1, h.2⟩

/-! ## requests -/

/-- C62: the handler gets the method and the path of a request of at most 4095 bytes. -/
theorem request_partial (m p v r : List Byte) (h0 : 0 ∉ m ++ 32 :: (p ++ 32 :: (v ++ 10 :: r)))
    (hl : (m ++ 32 :: (p ++ 32 :: (v ++ 10 :: r))).length ≤ 4095)
    (hm : ∀ c ∈ m, blank c = false) (hp : ∀ c ∈ p, blank c = false) (hv : 10 ∉ v) :
    ∃ q, readRequest (m ++ 32 :: (p ++ 32 :: (v ++ 10 :: r))) = .ok (some q) ∧
      Text q.method m ∧ Text q.path p := by
  have nb : ∀ {t : List Byte} (c : Byte), blank c = true → (∀ c ∈ t, blank c = false) → c ∉ t := by
    intro t c hc ht hm
    rw [ht c hm] at hc; cases hc
  obtain ⟨req, e1, t1⟩ := (received_ctext h0 hl).new
  have t1' : Text req ((m ++ 32 :: (p ++ 32 :: v)) ++ 10 :: r) := by simpa using t1
  have hl' : ((m ++ 32 :: (p ++ 32 :: v)) ++ 10 :: r).length ≤ 4095 := by simpa using hl
  obtain ⟨first, ls, _, e2, t2, _, _, _, _⟩ := split_first t1' (by omega) (by
    have a := nb 10 (by decide) hm
    have c := nb 10 (by decide) hp
    simp [a, c, hv])
  have hl2 : (m ++ 32 :: (p ++ 32 :: v)).length ≤ 4095 := by
    rw [List.length_append] at hl'; omega
  obtain ⟨pm, ps, ts, e3, t3, t4, hne, hj, hts⟩ := split_first t2 (by omega) (nb 32 (by decide) hm)
  cases ts with
  | nil => exact absurd rfl hne
  | cons u us =>
      obtain ⟨pp, qs, rfl, t5, t6⟩ := texts_cons t4
      have hu : u = p := by
        cases us with
        | nil =>
            simp only [Str.Spec.join] at hj
            exact absurd (show (32 : Byte) ∈ u by rw [hj]; simp) (hts u (by simp))
        | cons w ws =>
            simp only [Str.Spec.join] at hj
            exact (Url.first_unique (hts u (by simp)) (nb 32 (by decide) hp) hj).1
      subst hu
      have hlm : m.length < 2 ^ 63 := by simp at hl2; omega
      have hlp : u.length < 2 ^ 63 := by simp at hl2; omega
      obtain ⟨method, e5, t7⟩ := t3.trim hlm
      obtain ⟨path, e6, t8⟩ := t5.trim hlp
      rw [Url.trim_id hm] at t7
      rw [Url.trim_id hp] at t8
      refine ⟨⟨method, path, [], empty⟩, ?_, t7, t8⟩
      unfold readRequest
      rw [if_neg (by simp), e1, Res.ok_bind, e2, Res.ok_bind]
      simp only [e3, Res.ok_bind, e5, e6, new_nil]

example : ∃ q, readRequest (b "POST /a?b=1 HTTP/1.1\r\nHost: x\r\n\r\nhello") = .ok (some q) ∧
    Text q.method (b "POST") ∧ Text q.path (b "/a?b=1") :=
  request_partial (b "POST") (b "/a?b=1") (b "HTTP/1.1\r") (b "Host: x\r\n\r\nhello")
    (by decide +kernel) (by decide +kernel) (by decide +kernel) (by decide +kernel) (by decide +kernel)

/-- C62 fails: whatever the client sent, the handler's request has no headers and an empty
body. -/
theorem request_rest_violated {bs : List Byte} {q : Request} (h : readRequest bs = .ok (some q)) :
    q.headers = [] ∧ Text q.body [] := by
  unfold readRequest at h
  split at h
  · cases h
  · cases h1 : new (received bs) with
    | ok req =>
        rw [h1, Res.ok_bind] at h
        cases h2 : split req 10 with
        | ok lines =>
            rw [h2, Res.ok_bind] at h
            cases lines with
            | nil => cases h
            | cons first ls =>
                simp only at h
                cases h3 : split first 32 with
                | ok parts =>
                    rw [h3, Res.ok_bind] at h
                    match parts, h with
                    | m :: p :: ps, h =>
                        simp only at h
                        cases h4 : trim m with
                        | ok x =>
                            rw [h4, Res.ok_bind] at h
                            cases h5 : trim p with
                            | ok y =>
                                rw [h5, Res.ok_bind, new_nil, Res.ok_bind] at h
                                cases h
                                exact ⟨rfl, empty_text⟩
                            | panic => rw [h5] at h; cases h
                            | ub => rw [h5] at h; cases h
                        | panic => rw [h4] at h; cases h
                        | ub => rw [h4] at h; cases h
                | panic => rw [h3] at h; cases h
                | ub => rw [h3] at h; cases h
        | panic => rw [h2] at h; cases h
        | ub => rw [h2] at h; cases h
    | panic => rw [h1] at h; cases h
    | ub => rw [h1] at h; cases h

/-! ## writing responses -/

theorem cmem_clean {t : List Byte} (h : 0 ∉ t) : CText (cmem t) t := by
  have := cmem_ctext t
  have e : Str.Spec.lit t = t := by
    unfold Str.Spec.lit
    clear this
    induction t with
    | nil => rfl
    | cons c t ih =>
        simp only [List.mem_cons, not_or] at h
        rw [List.takeWhile_cons, if_pos (by simpa using Ne.symm h.1), ih h.2]
  rwa [e] at this

theorem writeHeaders_text : ∀ {hs : List (Str × Str)} {ts : List (List Byte × List Byte)} {s : Str} {t : List Byte},
    Headers hs ts → Text s t → ∃ w, writeHeaders hs s = .ok w ∧ Text w (t ++ ts.flatMap headerLine)
  | [], [], s, t, _, h => ⟨s, rfl, by simpa using h⟩
  | [], _ :: _, _, _, hh, _ => (hh.1 : False).elim
  | _ :: _, [], _, _, hh, _ => (hh.1 : False).elim
  | h :: hs, u :: us, s, t, hh, ht => by
      obtain ⟨⟨k1, k2⟩, v1, v2⟩ := hh
      obtain ⟨s1, e1, t1⟩ := ht.append k1
      obtain ⟨s2, e2, t2⟩ := t1.appendC (cmem_clean (t := b ": ") (by decide))
      obtain ⟨s3, e3, t3⟩ := t2.append v1
      obtain ⟨s4, e4, t4⟩ := t3.appendC (cmem_clean (t := b "\r\n") (by decide))
      obtain ⟨w, e5, t5⟩ := writeHeaders_text (hs := hs) (ts := us) ⟨k2, v2⟩ t4
      refine ⟨w, ?_, ?_⟩
      · rw [writeHeaders, e1, Res.ok_bind, e2, Res.ok_bind, e3, Res.ok_bind, e4, Res.ok_bind, e5]
      · have : b "\r\n" = crlf := by decide
        rw [this] at t5
        simpa [headerLine] using t5

theorem decimal_digits (n : Nat) : decimal n ≠ [] ∧ (∀ c ∈ decimal n, Url.isDig c = true) ∧
    Url.Spec.decVal (decimal n) = n := by
  have hd : ∀ k : Fin 10, Url.isDig (UInt8.ofNat (48 + k.val)) = true ∧ (UInt8.ofNat (48 + k.val)).toNat - 48 = k.val := by
    decide
  fun_induction decimal n with
  | case1 n h =>
      refine ⟨by simp, ?_, ?_⟩
      · simpa using (hd ⟨n, h⟩).1
      · simpa [Url.Spec.decVal] using (hd ⟨n, h⟩).2
  | case2 n h ih =>
      have hk := hd ⟨n % 10, by omega⟩
      refine ⟨by simp, ?_, ?_⟩
      · intro c hc
        rcases List.mem_append.1 hc with hc | hc
        · exact ih.2.1 c hc
        · rw [List.mem_singleton.1 hc]; exact hk.1
      · have h3 := ih.2.2
        unfold Url.Spec.decVal at h3 ⊢
        rw [List.foldl_append, h3, List.foldl_cons, List.foldl_nil, hk.2]
        simp only
        omega

theorem decimal_length : ∀ (k n : Nat), n < 10 ^ (k + 1) → (decimal n).length ≤ k + 1
  | 0, n, h => by rw [decimal, if_pos (by omega)]; simp
  | k + 1, n, h => by
      rw [decimal]
      split
      · simp
      · rw [List.length_append]
        have := decimal_length k (n / 10) (by rw [Nat.pow_succ] at h; omega)
        simp only [List.length_cons, List.length_nil]; omega

theorem decimal_take {n : Nat} (h : n < 2 ^ 64) : (decimal n).take 31 = decimal n :=
  List.take_of_length_le (Nat.le_trans (decimal_length 19 n (by omega)) (by decide))

theorem digits_no_zero {t : List Byte} (h : ∀ c ∈ t, Url.isDig c = true) : 0 ∉ t :=
  fun hm => absurd (h 0 hm) (by decide)

/-- The code and reason the server sends. -/
def sentCode (status : Int) : List Byte × List Byte :=
  if status = 200 then (b "200", b "OK")
  else if status = 404 then (b "404", b "Not Found")
  else (b "500", b "Internal Server Error")

theorem statusText_eq (status : Int) :
    b "HTTP/1.1 " ++ statusText status = b "HTTP/1.1 " ++ (sentCode status).1 ++ [32] ++ (sentCode status).2 ++ crlf := by
  unfold statusText sentCode
  split
  · decide
  · split <;> decide

theorem statusText_clean (status : Int) : 0 ∉ statusText status := by
  unfold statusText
  split
  · decide
  · split <;> decide

theorem writeResponse_text {r : Response} {ts : List (List Byte × List Byte)} {body : List Byte}
    (hh : Headers r.headers ts) (hb : Text r.body body) (hl : body.length < 2 ^ 64) :
    ∃ w, writeResponse r = .ok w ∧ Text w (message (sentCode r.status).1 (sentCode r.status).2
      (ts ++ [(b "Content-Length", decimal body.length)]) body) := by
  obtain ⟨s0, e0, t0⟩ := (cmem_clean (t := b "HTTP/1.1 ") (by decide)).new
  obtain ⟨s1, e1, t1⟩ := t0.appendC (cmem_clean (statusText_clean r.status))
  obtain ⟨s2, e2, t2⟩ := writeHeaders_text hh t1
  obtain ⟨s3, e3, t3⟩ := t2.appendC (cmem_clean (t := b "Content-Length: ") (by decide))
  obtain ⟨s4, e4, t4⟩ := t3.appendC (cmem_clean (digits_no_zero (decimal_digits body.length).2.1))
  obtain ⟨s5, e5, t5⟩ := t4.appendC (cmem_clean (t := b "\r\n") (by decide))
  obtain ⟨s6, e6, t6⟩ := t5.appendC (cmem_clean (t := b "\r\n") (by decide))
  obtain ⟨s7, e7, t7⟩ := t6.append hb
  refine ⟨s7, ?_, ?_⟩
  · rw [writeResponse, e0, Res.ok_bind, e1, Res.ok_bind, e2, Res.ok_bind, e3, Res.ok_bind, hb.length,
      decimal_take hl, e4, Res.ok_bind, e5, Res.ok_bind, e6, Res.ok_bind, e7]
  · have e : b "\r\n" = crlf := by decide
    have e' : b "Content-Length: " = b "Content-Length" ++ b ": " := by decide
    rw [statusText_eq, e, e'] at t7
    simpa [message, headerLine] using t7

theorem sentCode_code {n : Nat} (h : n = 200 ∨ n = 404 ∨ n = 500) : Code (sentCode n).1 n ∧ 13 ∉ (sentCode n).2 := by
  rcases h with rfl | rfl | rfl
  · exact ⟨⟨by decide, by decide, by decide, by decide⟩, by decide⟩
  · exact ⟨⟨by decide, by decide, by decide, by decide⟩, by decide⟩
  · exact ⟨⟨by decide, by decide, by decide, by decide⟩, by decide⟩

/-- C62: what the server writes for a response with status 200, 404 or 500 and headers without
carriage returns is an HTTP response with that status, those headers, the length of the body, and
the body. -/
theorem response_partial {r : Response} {n : Nat} {ts : List (List Byte × List Byte)} {body : List Byte}
    (hs : r.status = n) (hn : n = 200 ∨ n = 404 ∨ n = 500) (hh : Headers r.headers ts)
    (hc : ∀ h ∈ ts, 13 ∉ h.1 ∧ 13 ∉ h.2) (hb : Text r.body body) (hl : body.length < 2 ^ 64) :
    ∃ w t, writeResponse r = .ok w ∧ Text w t ∧ Reads t n ts body := by
  obtain ⟨w, e, t⟩ := writeResponse_text hh hb hl
  rw [hs] at t
  obtain ⟨c1, c2⟩ := sentCode_code hn
  exact ⟨w, _, e, t, _, _, _, c1, ⟨c2, hc⟩, rfl, decimal_digits _⟩

/-- C62 fails for every other status: 201, 301, 403 ... are all sent as 500. -/
theorem status_violated {r : Response} {ts : List (List Byte × List Byte)} {body : List Byte}
    (h1 : r.status ≠ 200) (h2 : r.status ≠ 404) (hh : Headers r.headers ts) (hb : Text r.body body)
    (hl : body.length < 2 ^ 64) : ∃ w rest, writeResponse r = .ok w ∧
      Text w (b "HTTP/1.1 500 Internal Server Error\r\n" ++ rest) := by
  obtain ⟨w, e, t⟩ := writeResponse_text hh hb hl
  have es : sentCode r.status = (b "500", b "Internal Server Error") := by simp [sentCode, h1, h2]
  rw [es] at t
  refine ⟨w, (ts ++ [(b "Content-Length", decimal body.length)]).flatMap headerLine ++ crlf ++ body, e, ?_⟩
  have : b "HTTP/1.1 500 Internal Server Error\r\n" = b "HTTP/1.1 " ++ b "500" ++ [32] ++ b "Internal Server Error" ++ crlf := by
    decide
  rw [this]
  simpa [message] using t

/-- C62 fails: a carriage return and line feed in a header's value go out as they are; one header is
read as two by the other side. -/
theorem header_injection_violated (k v k' v' : List Byte) :
    [(k, v ++ crlf ++ k' ++ b ": " ++ v')].flatMap headerLine = [(k, v), (k', v')].flatMap headerLine := by
  simp [headerLine]

/-! ## reading responses -/

theorem strstr_skip {n : Nat} {pat t : List Byte} {p m : Mem Byte} {x : Byte} (hn : pat.length = n)
    (hp : CText p pat) (hm : CText m (x :: t)) (hno : ¬ pat <+: x :: t) :
    ∃ m', CText m' t ∧ Url.strstr n p m = (Url.strstr n p m').bind fun r => .ok (r.map (· + 1)) := by
  have hs := Url.strncmp_prefix hm hp
  obtain ⟨m', rfl, h', hx⟩ := Url.CText.cons hm
  refine ⟨m', h', ?_⟩
  rw [hn, decide_eq_false hno] at hs
  rw [Url.strstr, hs]
  simp only [Res.ok_bind, Bool.false_eq_true, if_false, if_neg hx]
  rfl

/-- the empty line -/
def sep4 : List Byte := [13, 10, 13, 10]

theorem strstr_plain {p : Mem Byte} (hp : CText p sep4) : ∀ {a r : List Byte} {m : Mem Byte} {k : Nat},
    CText m (a ++ r) → 13 ∉ a → (∀ m', CText m' r → Url.strstr 4 p m' = .ok (some k)) →
    Url.strstr 4 p m = .ok (some (a.length + k))
  | [], r, m, k, hm, _, h => by simpa using h m hm
  | x :: a, r, m, k, hm, ha, h => by
      simp only [List.mem_cons, not_or] at ha
      obtain ⟨m', h', e⟩ := strstr_skip (x := x) (t := a ++ r) (n := 4) rfl hp hm
        (by rw [sep4, List.cons_prefix_cons]; exact fun h => ha.1 h.1)
      rw [e, strstr_plain hp h' ha.2 h]
      simp only [Res.bind, Option.map_some, List.length_cons]
      congr 2; omega

/-- A line end that is followed by something else is passed. -/
theorem strstr_crlf {p : Mem Byte} (hp : CText p sep4) {x : Byte} {r : List Byte} {m : Mem Byte} {k : Nat}
    (hx : x ≠ 13) (hm : CText m (crlf ++ x :: r)) (h : ∀ m', CText m' (x :: r) → Url.strstr 4 p m' = .ok (some k)) :
    Url.strstr 4 p m = .ok (some (2 + k)) := by
  obtain ⟨m1, h1, e1⟩ := strstr_skip (x := 13) (t := 10 :: x :: r) (n := 4) rfl hp hm (by
    simp only [sep4, List.cons_prefix_cons, true_and]
    exact fun h => hx h.1.symm)
  obtain ⟨m2, h2, e2⟩ := strstr_skip (x := 10) (t := x :: r) (n := 4) rfl hp h1 (by
    rw [sep4, List.cons_prefix_cons]
    exact fun h => absurd h.1 (by decide))
  rw [e1, e2, h m2 h2]
  simp only [Res.bind, Option.map_some]
  congr 2; omega

theorem strstr_end {p : Mem Byte} (hp : CText p sep4) {r : List Byte} {m : Mem Byte} (hm : CText m (crlf ++ crlf ++ r)) :
    Url.strstr 4 p m = .ok (some 0) := by
  have hs := Url.strncmp_prefix hm hp
  obtain ⟨m', rfl, _, _⟩ := Url.CText.cons (c := 13) (t := 10 :: 13 :: 10 :: r) hm
  have : sep4 <+: crlf ++ crlf ++ r := ⟨r, rfl⟩
  rw [show sep4.length = 4 from rfl, decide_eq_true this] at hs
  rw [Url.strstr, hs]
  rfl

/-- The empty line is found behind the headers. -/
theorem strstr_headers {p : Mem Byte} (hp : CText p sep4) : ∀ {hs : List (List Byte × List Byte)} {a body : List Byte}
    {m : Mem Byte}, 13 ∉ a → (∀ h ∈ hs, 13 ∉ h.1 ∧ 13 ∉ h.2) →
    CText m (a ++ (crlf ++ hs.flatMap headerLine ++ crlf ++ body)) →
    Url.strstr 4 p m = .ok (some (a.length + (hs.flatMap headerLine).length))
  | [], a, body, m, ha, _, hm =>
      strstr_plain hp hm ha (fun m' h' => strstr_end hp (by simpa using h'))
  | h :: hs, a, body, m, ha, hc, hm => by
      have hh := hc h (by simp)
      obtain ⟨x, l, hx⟩ : ∃ x l, h.1 ++ b ": " ++ h.2 = x :: l := by
        cases h1 : h.1 with
        | nil => exact ⟨58, 32 :: h.2, rfl⟩
        | cons x l => exact ⟨x, l ++ b ": " ++ h.2, rfl⟩
      have hl : 13 ∉ h.1 ++ b ": " ++ h.2 := by
        have : (13 : Byte) ∉ b ": " := by decide
        simp only [List.mem_append, not_or]
        exact ⟨⟨hh.1, this⟩, hh.2⟩
      have hx13 : x ≠ 13 := by
        rintro rfl
        rw [hx] at hl; simp at hl
      have e : crlf ++ (h :: hs).flatMap headerLine ++ crlf ++ body =
          crlf ++ x :: (l ++ (crlf ++ hs.flatMap headerLine ++ crlf ++ body)) := by
        rw [List.flatMap_cons, headerLine, hx]; simp
      rw [e] at hm
      have hrest : ∀ m', CText m' (x :: (l ++ (crlf ++ hs.flatMap headerLine ++ crlf ++ body))) →
          Url.strstr 4 p m' = .ok (some ((x :: l).length + (hs.flatMap headerLine).length)) :=
        fun m' h' => strstr_headers hp (by rw [← hx]; exact hl) (fun y hy => hc y (by simp [hy])) h'
      rw [strstr_plain hp hm ha (fun m' h' => strstr_crlf hp hx13 h' hrest)]
      rw [List.flatMap_cons, headerLine, hx, List.length_append, List.length_append]
      simp only [crlf, List.length_cons, List.length_nil]
      congr 2; omega

theorem findIdx_first {c : Byte} : ∀ {a r : List Byte}, c ∉ a → (a ++ c :: r).findIdx? (· == c) = some a.length
  | [], r, _ => by rw [List.nil_append, List.findIdx?_cons]; simp
  | x :: a, r, ha => by
      simp only [List.mem_cons, not_or] at ha
      have : (x == c) = false := by
        rw [Bool.eq_false_iff]; intro he; exact ha.1 (beq_iff_eq.1 he).symm
      rw [List.cons_append, List.findIdx?_cons, this, findIdx_first ha.2]
      rfl

theorem find_first {s : Str} {a r : List Byte} {c : Byte} (h : Text s (a ++ c :: r)) (ha : c ∉ a) :
    find s c = .ok (some a.length) := by
  rw [h.find, findIdx_first ha]

theorem statusOf_text {raw : Str} {v code r : List Byte} {n : Nat} (h : Text raw (v ++ 32 :: (code ++ 32 :: r)))
    (hv : 32 ∉ v) (hc : Code code n) (hl : (v ++ 32 :: (code ++ 32 :: r)).length < 2 ^ 63) :
    statusOf raw = .ok (n : Int) := by
  have h32 : 32 ∉ code := fun hm => absurd (hc.digits 32 hm) (by decide)
  have hlen : (v ++ 32 :: (code ++ 32 :: r)).length = v.length + 1 + (code ++ 32 :: r).length := by simp; omega
  obtain ⟨rest, e1, t1⟩ := h.substring hl (a := v.length + 1) (n := (code ++ 32 :: r).length) (by omega)
  have ed : ((v ++ 32 :: (code ++ 32 :: r)).drop (v.length + 1)).take (code ++ 32 :: r).length = code ++ 32 :: r := by
    have : v ++ 32 :: (code ++ 32 :: r) = (v ++ [32]) ++ (code ++ 32 :: r) := by simp
    rw [this, List.drop_left' (by simp), List.take_length]
  rw [ed] at t1
  obtain ⟨cs, e2, t2⟩ := t1.substring (by omega) (a := 0) (n := code.length) (by simp)
  rw [List.drop_zero, List.take_left'  rfl] at t2
  unfold statusOf
  rw [find_first h hv, Res.ok_bind]
  simp only
  rw [h.length, show (v ++ 32 :: (code ++ 32 :: r)).length - v.length - 1 = (code ++ 32 :: r).length by omega,
    e1, Res.ok_bind, find_first t1 h32, Res.ok_bind]
  simp only
  rw [e2, Res.ok_bind, Url.atoi_eq t2.ctext hc.ne hc.digits (by rw [hc.value]; exact hc.fits), hc.value]

/-- C62: `fetch` returns the status and the whole body of a response of at most 4095 bytes without
zero bytes that arrives at once. -/
theorem fetch_partial {code reason : List Byte} {n : Nat} {hs : List (List Byte × List Byte)} {body : List Byte}
    (hc : Code code n) (hh : Clean reason hs) (h0 : 0 ∉ message code reason hs body)
    (hl : (message code reason hs body).length ≤ 4095) (more : List (List Byte)) :
    ∃ res, fetchResponse (message code reason hs body :: more) = .ok res ∧ res.status = n ∧ Text res.body body := by
  obtain ⟨raw, e1, t1⟩ := (received_ctext h0 hl).new
  have hne : message code reason hs body ≠ [] := by
    unfold message; simp [b]
  obtain ⟨pre, hpre⟩ : ∃ p, p = b "HTTP/1.1 " ++ code ++ [32] ++ reason := ⟨_, rfl⟩
  have em : message code reason hs body = pre ++ (crlf ++ hs.flatMap headerLine ++ crlf ++ body) := by
    rw [hpre]; simp [message]
  have es : message code reason hs body = b "HTTP/1.1" ++ 32 :: (code ++ 32 :: (reason ++ (crlf ++ hs.flatMap headerLine ++ crlf ++ body))) := by
    have : b "HTTP/1.1 " = b "HTTP/1.1" ++ [32] := by decide
    rw [message, this]; simp
  have hst : statusOf raw = .ok (n : Int) := by
    rw [es] at t1 hl
    exact statusOf_text t1 (by decide) hc (by omega)
  have h13 : 13 ∉ pre := by
    have h1 : (13 : Byte) ∉ b "HTTP/1.1 " := by decide
    have h2 : (13 : Byte) ∉ code := fun hm => absurd (hc.digits 13 hm) (by decide)
    rw [hpre]
    simp only [List.mem_append, List.mem_singleton, not_or]
    exact ⟨⟨⟨h1, h2⟩, by decide⟩, hh.reason⟩
  have e4 : b "\r\n\r\n" = sep4 := by decide
  have hsep : Url.strstr 4 (cmem (b "\r\n\r\n")) raw.buf = .ok (some (pre.length + (hs.flatMap headerLine).length)) := by
    rw [e4]
    refine strstr_headers (cmem_clean (by decide)) h13 hh.headers (body := body) ?_
    rw [← em]; exact t1.ctext
  have hlen : (message code reason hs body).length = pre.length + (hs.flatMap headerLine).length + 4 + body.length := by
    rw [em]; simp [crlf]; omega
  obtain ⟨bd, e5, t5⟩ := t1.substring (by omega) (a := pre.length + (hs.flatMap headerLine).length + 4) (n := body.length) (by omega)
  have ed : (message code reason hs body).drop (pre.length + (hs.flatMap headerLine).length + 4) = body := by
    have : message code reason hs body = (pre ++ crlf ++ hs.flatMap headerLine ++ crlf) ++ body := by rw [em]; simp
    rw [this, List.drop_left' (by simp [crlf]; omega)]
  rw [ed, List.take_length] at t5
  refine ⟨⟨n, [], bd⟩, ?_, rfl, t5⟩
  rw [fetchResponse, readResponse, if_neg hne, e1, Res.ok_bind, hst, Res.ok_bind, newResponse, new_nil, Res.ok_bind, Res.ok_bind, hsep, Res.ok_bind]
  simp only
  rw [t1.length, show (message code reason hs body).length - (pre.length + (hs.flatMap headerLine).length + 4) = body.length by omega,
    e5, Res.ok_bind]

example : ∃ res, fetchResponse [b "HTTP/1.1 404 Not Found\r\nServer: x\r\n\r\nsorry"] = .ok res ∧ res.status = (404 : Nat) ∧
    Text res.body (b "sorry") := by
  have := fetch_partial (code := b "404") (reason := b "Not Found") (n := 404) (hs := [(b "Server", b "x")])
    (body := b "sorry") ⟨by decide, by decide, by decide, by decide⟩ ⟨by decide, by decide⟩ (by decide) (by decide) []
  have e : message (b "404") (b "Not Found") [(b "Server", b "x")] (b "sorry") =
    b "HTTP/1.1 404 Not Found\r\nServer: x\r\n\r\nsorry" := by decide
  rwa [e] at this

/-- C62 fails for a response that arrives in several segments: only the first one counts. -/
theorem segments_violated (first : List Byte) (more more' : List (List Byte)) :
    fetchResponse (first :: more) = fetchResponse (first :: more') := rfl

/-- C62 fails for a response with 4096 bytes: the last byte is lost. -/
theorem full_buffer_violated {bs : List Byte} (h0 : 0 ∉ bs) (hl : bs.length = 4096) :
    readResponse bs = readResponse (bs.take 4095) := by
  have hl' : (bs.take 4095).length = 4095 := by simp [hl]
  have e1 : new (received bs) = new (received (bs.take 4095)) := by
    obtain ⟨_, r1, e1⟩ := received_full h0 hl
    obtain ⟨_, r2, e2⟩ := received_ctext (bs := bs.take 4095) (fun h => h0 (List.mem_of_mem_take h)) (by omega)
    have l1 := congrArg List.length e1
    have l2 := congrArg List.length e2
    have hr : ∀ x, (received x).length = max x.length 4096 := by
      intro x
      unfold received
      simp only []
      split <;> simp <;> omega
    rw [hr] at l1 l2
    simp [hl] at l1 l2
    have z1 : r1 = [] := List.length_eq_zero_iff.1 (by omega)
    have z2 : r2 = [] := List.length_eq_zero_iff.1 (by omega)
    rw [e1, e2, z1, z2]
  unfold readResponse
  rw [if_neg (by intro h; rw [h] at hl; simp at hl), if_neg (by intro h; rw [h] at hl'; simp at hl'), e1]

/-- C62 fails: the headers of the response are never there. -/
theorem fetch_headers_violated {reads : List (List Byte)} {res : Response} (h : fetchResponse reads = .ok res) :
    res.headers = [] := by
  have h0 : ∀ s r, newResponse s = .ok r → r.headers = [] := by
    intro s r hr
    rw [newResponse, new_nil, Res.ok_bind] at hr
    cases hr; rfl
  cases reads with
  | nil => exact h0 _ _ h
  | cons bs more =>
      rw [fetchResponse, readResponse] at h
      split at h
      · exact h0 _ _ h
      · cases h1 : new (received bs) with
        | ok raw =>
            rw [h1, Res.ok_bind] at h
            cases h2 : statusOf raw with
            | ok st =>
                rw [h2, Res.ok_bind, newResponse, new_nil, Res.ok_bind, Res.ok_bind] at h
                cases h3 : Url.strstr 4 (cmem (b "\r\n\r\n")) raw.buf with
                | ok o =>
                    rw [h3, Res.ok_bind] at h
                    cases o with
                    | none => cases h; rfl
                    | some k =>
                        simp only at h
                        cases h4 : substring raw (k + 4) (length raw - (k + 4)) with
                        | ok w => rw [h4, Res.ok_bind] at h; cases h; rfl
                        | panic => rw [h4] at h; cases h
                        | ub => rw [h4] at h; cases h
                | panic => rw [h3] at h; cases h
                | ub => rw [h3] at h; cases h
            | panic => rw [h2] at h; cases h
            | ub => rw [h2] at h; cases h
        | panic => rw [h1] at h; cases h
        | ub => rw [h1] at h; cases h

/-! ## both sides together -/

/-- The target of a request: the path and the query. -/
def target (path query : List Byte) : List Byte := if query = [] then path else path ++ 63 :: query

theorem fetchRequest_text {u : Url.Url} {host path query : List Byte} (hh : Text u.host host) (hp : Text u.path path)
    (hq : Text u.query query) : ∃ w, fetchRequest u = .ok w ∧
      Text w (b "GET" ++ 32 :: (target path query ++ 32 :: (b "HTTP/1.1\r" ++ 10 :: (b "Host: " ++ host ++ b "\r\nConnection: close\r\n\r\n")))) := by
  obtain ⟨s0, e0, t0⟩ := (cmem_clean (t := b "GET ") (by decide)).new
  obtain ⟨s1, e1, t1⟩ := t0.append hp
  have hmid : ∃ s2, addQuery s1 u.query = .ok s2 ∧ Text s2 (b "GET " ++ target path query) := by
    unfold addQuery
    rw [hq.length]
    by_cases hn : query = []
    · subst hn
      refine ⟨s1, by simp, by simpa [target] using t1⟩
    · obtain ⟨s2, e2, t2⟩ := t1.appendC (cmem_clean (t := b "?") (by decide))
      obtain ⟨s3, e3, t3⟩ := t2.append hq
      refine ⟨s3, ?_, ?_⟩
      · rw [if_pos (by intro h; exact hn (List.length_eq_zero_iff.1 h)), e2, Res.ok_bind, e3]
      · have : b "?" = [63] := by decide
        rw [this] at t3
        simpa [target, hn] using t3
  obtain ⟨s2, e2, t2⟩ := hmid
  obtain ⟨s3, e3, t3⟩ := t2.appendC (cmem_clean (t := b " HTTP/1.1\r\nHost: ") (by decide))
  obtain ⟨s4, e4, t4⟩ := t3.append hh
  obtain ⟨s5, e5, t5⟩ := t4.appendC (cmem_clean (t := b "\r\nConnection: close\r\n\r\n") (by decide))
  refine ⟨s5, ?_, ?_⟩
  · rw [fetchRequest, e0, Res.ok_bind, e1, Res.ok_bind]
    simp only [e2, Res.ok_bind, e3, e4, e5]
  · have e : b "GET " = b "GET" ++ [32] := by decide
    have e' : b " HTTP/1.1\r\nHost: " = 32 :: (b "HTTP/1.1\r" ++ 10 :: b "Host: ") := by decide
    rw [e, e'] at t5
    simpa using t5

/-- C62: a request made by `fetch` reaches the handler of a `Server` with the method GET and the path
and query of the URL, and `fetch` returns the status and body of the handler's response: for requests
and responses of at most 4095 bytes that arrive at once, a path and query without blanks, status 200,
404 or 500, and headers without carriage returns. -/
theorem exchange_partial {u : Url.Url} {host path query : List Byte} (handler : Request → Response)
    (hh : Text u.host host) (hp : Text u.path path) (hq : Text u.query query)
    (hb : ∀ c ∈ target path query, blank c = false)
    (hl : host.length + (target path query).length ≤ 4000)
    (hr : ∀ q, Text q.method (b "GET") → Text q.path (target path query) → ∃ n : Nat, ∃ ts body,
      (handler q).status = n ∧ (n = 200 ∨ n = 404 ∨ n = 500) ∧ Headers (handler q).headers ts ∧
      (∀ h ∈ ts, 13 ∉ h.1 ∧ 13 ∉ h.2) ∧ Text (handler q).body body ∧
      (ts.flatMap headerLine).length + body.length ≤ 4000) :
    ∃ w sent q answer got res, fetchRequest u = .ok w ∧ Text w sent ∧
      readRequest sent = .ok (some q) ∧ Text q.method (b "GET") ∧ Text q.path (target path query) ∧
      serve handler sent = .ok (some answer) ∧ Text answer got ∧
      fetchResponse [got] = .ok res ∧ res.status = (handler q).status ∧
      ∃ body, Text (handler q).body body ∧ Text res.body body := by
  obtain ⟨w, e1, t1⟩ := fetchRequest_text hh hp hq
  obtain ⟨q, e2, t2, t3⟩ := request_partial (b "GET") (target path query) (b "HTTP/1.1\r")
    (b "Host: " ++ host ++ b "\r\nConnection: close\r\n\r\n") t1.2 (by
      have l1 : (b "GET").length = 3 := by decide
      have l2 : (b "HTTP/1.1\r").length = 9 := by decide
      have l3 : (b "Host: ").length = 6 := by decide
      have l4 : (b "\r\nConnection: close\r\n\r\n").length = 23 := by decide
      simp only [List.length_append, List.length_cons, l1, l2, l3, l4]
      omega) (by decide) hb (by decide)
  obtain ⟨n, ts, body, h1, h2, h3, h4, h5, h6⟩ := hr q t2 t3
  obtain ⟨a, e3, t4⟩ := writeResponse_text (r := handler q) h3 h5 (by omega)
  rw [h1] at t4
  obtain ⟨c1, c2⟩ := sentCode_code h2
  have hdl : (decimal body.length).length ≤ 20 := decimal_length 19 _ (by omega)
  have hsl : (sentCode n).1.length + (sentCode n).2.length ≤ 30 := by
    rcases h2 with rfl | rfl | rfl <;> decide
  obtain ⟨res, e4, s4, t5⟩ := fetch_partial (code := (sentCode n).1) (reason := (sentCode n).2) (n := n)
    (hs := ts ++ [(b "Content-Length", decimal body.length)]) (body := body) c1
    ⟨c2, by
      intro h hm
      rcases List.mem_append.1 hm with hm | hm
      · exact h4 h hm
      · rw [List.mem_singleton.1 hm]
        have : (13 : Byte) ∉ b "Content-Length" := by decide
        exact ⟨this, fun h => absurd ((decimal_digits _).2.1 13 h) (by decide)⟩⟩ t4.2 (by
      have l1 : (b "HTTP/1.1 ").length = 9 := by decide
      have l2 : (b "Content-Length").length = 14 := by decide
      have l3 : (b ": ").length = 2 := by decide
      simp only [message, List.length_append, List.flatMap_append, List.flatMap_cons, List.flatMap_nil, headerLine,
        l1, l2, l3, crlf, List.length_cons, List.length_nil]
      have : (ts.flatMap headerLine) = ts.flatMap fun h => h.1 ++ b ": " ++ h.2 ++ [13, 10] := rfl
      have h6' := h6
      rw [this] at h6'
      omega) []
  refine ⟨w, _, q, a, _, res, e1, t1, e2, t2, t3, ?_, t4, e4, by rw [s4, h1], body, h5, t5⟩
  rw [serve, e2, Res.ok_bind]
  simp only [e3, Res.ok_bind]

/-- A handler and a URL that meet the hypotheses. -/
example (u : Url.Url) (hh : Text u.host (b "h")) (hp : Text u.path (b "/x")) (hq : Text u.query (b "a=1")) :
    ∃ sent q res, readRequest sent = .ok (some q) ∧ Text q.path (b "/x?a=1") ∧ res.status = 404 ∧ Text res.body [] ∧
      ∃ got, fetchResponse [got] = .ok res := by
  obtain ⟨w, sent, q, answer, got, res, _, _, e1, _, t2, _, _, e2, e3, body, t3, t4⟩ :=
    exchange_partial (fun _ => ⟨404, [], empty⟩) hh hp hq (by decide) (by decide) (fun q _ _ =>
      ⟨404, [], [], rfl, by decide, ⟨trivial, trivial⟩, by simp, empty_text, by decide⟩)
  refine ⟨sent, q, res, e1, t2, e3, ?_, got, e2⟩
  have hz : body = [] := by
    have l1 := t3.length
    have l2 := empty_text.length
    have : (length empty) = body.length := l1
    rw [l2] at this
    exact List.length_eq_zero_iff.1 (by simpa using this.symm)
  rwa [hz] at t4

/-- C62 fails for zero bytes in a request or a response: everything behind the first one is lost. -/
theorem zero_byte_violated {a r : List Byte} (h0 : 0 ∉ a) (hl : (a ++ 0 :: r).length ≤ 4095) :
    ∃ raw, new (received (a ++ 0 :: r)) = .ok raw ∧ Text raw a := by
  refine CText.new (t := a) ⟨h0, (r.map some ++ some 0 :: List.replicate (4095 - (a ++ 0 :: r).length) none), ?_⟩
  unfold received
  rw [if_pos (by omega)]
  have : 4096 - (a ++ 0 :: r).length = (4095 - (a ++ 0 :: r).length) + 1 := by omega
  rw [this, List.replicate_succ, List.set_append_right _ _ (by simp)]
  simp

/-! ## header lines -/

/-- C62: a header line whose value contains no colon is read as its name and value. -/
theorem parse_header_partial {line : Str} {k v : List Byte} (lines : List Str) {hs : List (Str × Str)}
    (h : Text line (k ++ 58 :: v)) (hl : (k ++ 58 :: v).length < 2 ^ 63) (hk : 58 ∉ k) (hv : 58 ∉ v)
    (hr : parseHeaders lines = .ok hs) :
    ∃ key val, parseHeaders (line :: lines) = .ok ((key, val) :: hs) ∧ Text key (Str.Spec.trim k) ∧
      Text val (Str.Spec.trim v) := by
  obtain ⟨p, ps, ts, e1, t1, t2, hne, hj, hts⟩ := split_first h hl hk
  cases ts with
  | nil => exact absurd rfl hne
  | cons x us =>
      have hx : x = v := by
        cases us with
        | nil => exact hj
        | cons y ys =>
            simp only [Str.Spec.join] at hj
            exact absurd (show (58 : Byte) ∈ v by rw [← hj]; simp) hv
      subst hx
      obtain ⟨q, qs, rfl, t3, _⟩ := texts_cons t2
      simp at hl
      obtain ⟨key, e2, t4⟩ := t1.trim (by omega)
      obtain ⟨val, e3, t5⟩ := t3.trim (by omega)
      refine ⟨key, val, ?_, t4, t5⟩
      rw [parseHeaders, if_neg (by rw [h.length]; simp), e1, Res.ok_bind]
      simp only [e2, Res.ok_bind, e3, hr]

/-- C62 fails for a value with a colon, such as `Host: localhost:8080`: what follows the colon is
lost. -/
theorem parse_header_violated {line : Str} {k v r : List Byte} (lines : List Str) {hs : List (Str × Str)}
    (h : Text line (k ++ 58 :: (v ++ 58 :: r))) (hl : (k ++ 58 :: (v ++ 58 :: r)).length < 2 ^ 63)
    (hk : 58 ∉ k) (hv : 58 ∉ v) (hr : parseHeaders lines = .ok hs) :
    ∃ key val, parseHeaders (line :: lines) = .ok ((key, val) :: hs) ∧ Text val (Str.Spec.trim v) := by
  obtain ⟨p, ps, ts, e1, t1, t2, hne, hj, hts⟩ := split_first h hl hk
  cases ts with
  | nil => exact absurd rfl hne
  | cons x us =>
      have hx : x = v := by
        cases us with
        | nil =>
            simp only [Str.Spec.join] at hj
            exact absurd (show (58 : Byte) ∈ x by rw [hj]; simp) (hts x (by simp))
        | cons y ys =>
            simp only [Str.Spec.join] at hj
            exact (Url.first_unique (hts x (by simp)) hv hj).1
      subst hx
      obtain ⟨q, qs, rfl, t3, _⟩ := texts_cons t2
      simp at hl
      obtain ⟨key, e2, t4⟩ := t1.trim (by omega)
      obtain ⟨val, e3, t5⟩ := t3.trim (by omega)
      refine ⟨key, val, ?_, t5⟩
      rw [parseHeaders, if_neg (by rw [h.length]; simp), e1, Res.ok_bind]
      simp only [e2, Res.ok_bind, e3, hr]

end Verif.Http
