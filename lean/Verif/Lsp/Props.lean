import Verif.Lsp.Model

/-! # C40, C52: the language server reads every message and answers every request -/

namespace Verif.Lsp

open Spec

/-! ## Lines -/

theorem takeLine_line (h : List Byte) (r : List Byte) (n : Nat) (h10 : 10 ∉ h)
    (hn : h.length < n) : takeLine n (h ++ 10 :: r) = (h ++ [10], r) := by
  induction h generalizing n with
  | nil =>
    obtain ⟨n, rfl⟩ : ∃ k, n = k + 1 := ⟨n - 1, by simp at hn; omega⟩
    simp [takeLine]
  | cons c h ih =>
    obtain ⟨n, rfl⟩ : ∃ k, n = k + 1 := ⟨n - 1, by simp at hn; omega⟩
    have hc : c ≠ 10 := fun e => h10 (by simp [e])
    rw [List.cons_append, takeLine, if_neg hc,
      ih n (fun hm => h10 (List.mem_cons_of_mem _ hm)) (by simp at hn; omega)]
    rfl

theorem takeLine_length (n : Nat) (bs : List Byte) (hn : 0 < n) (hb : bs ≠ []) :
    (takeLine n bs).2.length < bs.length := by
  have weak : ∀ n (bs : List Byte), (takeLine n bs).2.length ≤ bs.length := by
    intro n
    induction n with
    | zero => intro bs; simp [takeLine]
    | succ n ih =>
      intro bs
      cases bs with
      | nil => simp [takeLine]
      | cons c bs =>
        rw [takeLine]
        split
        · simp
        · have := ih bs; simp only [List.length_cons]; omega
  obtain ⟨n, rfl⟩ : ∃ k, n = k + 1 := ⟨n - 1, by omega⟩
  cases bs with
  | nil => exact absurd rfl hb
  | cons c bs =>
    rw [takeLine]
    split
    · simp
    · have := weak n bs; simp only [List.length_cons]; omega

theorem fgets_line (h r : List Byte) (h10 : 10 ∉ h) (hn : h.length ≤ 509) :
    fgets (h ++ crlf ++ r) = some (h ++ crlf, r) := by
  have e : h ++ crlf ++ r = (h ++ [13]) ++ 10 :: r := by simp [crlf]
  have h10' : 10 ∉ h ++ [13] := by
    intro hm; rcases List.mem_append.mp hm with hm | hm
    · exact h10 hm
    · simp at hm
  unfold fgets
  split
  · rename_i h0; simp [crlf] at h0
  · rw [e, takeLine_line _ _ _ h10' (by simp; omega)]; simp [crlf]

theorem cstr_of (l : List Byte) (h : 0 ∉ l) : cstr l = l := by
  unfold cstr
  induction l with
  | nil => rfl
  | cons c l ih =>
    have hc : c ≠ 0 := fun e => h (by simp [e])
    rw [List.takeWhile_cons_of_pos (by simpa using hc),
      ih fun hm => h (List.mem_cons_of_mem _ hm)]

theorem nul_crlf {h : List Byte} (h0 : 0 ∉ h) : 0 ∉ h ++ crlf := by
  intro hm; rcases List.mem_append.mp hm with hm | hm
  · exact h0 hm
  · simp [crlf] at hm

theorem not_crlf {h : List Byte} (hne : h ≠ []) : h ++ crlf ≠ crlf := by
  intro e
  have := congrArg List.length e
  simp [crlf] at this
  exact hne this

theorem clen_length : clen.length = 16 := by decide

theorem not_prefix {h : List Byte} (hp : ¬ clen <+: h) : clen.isPrefixOf (h ++ crlf) = false := by
  rw [Bool.eq_false_iff]
  intro hq
  have hq : clen <+: h ++ crlf := List.isPrefixOf_iff_prefix.mp hq
  by_cases hl : clen.length ≤ h.length
  · exact hp (List.prefix_of_prefix_length_le hq (List.prefix_append _ _) hl)
  · have : (13 : Byte) ∈ clen := by
      obtain ⟨t, ht⟩ := hq
      have h1 : (h ++ crlf)[h.length]? = some 13 := by
        rw [List.getElem?_append_right (Nat.le_refl _)]; simp [crlf]
      rw [← ht, List.getElem?_append_left (by omega)] at h1
      exact List.mem_of_getElem? h1
    exact absurd this (by decide)

theorem header_other {h : List Byte} (ho : HeaderOk h) (len : Int) :
    header (h ++ crlf) len = .ok len := by
  obtain ⟨_, _, h0, _, hp⟩ := ho
  unfold header
  rw [cstr_of _ (nul_crlf h0), not_prefix hp]; rfl

theorem atoiDigits_eq (ds r : List Byte) (v : Nat) (hd : ∀ c ∈ ds, 48 ≤ c ∧ c ≤ 57)
    (hr : ∀ c t, r = c :: t → isDig c = false) :
    atoiDigits (ds ++ r) v = ds.foldl (fun v c => 10 * v + (c.toNat - 48)) v := by
  induction ds generalizing v with
  | nil =>
    cases r with
    | nil => rfl
    | cons c t => simp [atoiDigits, hr c t rfl]
  | cons c ds ih =>
    have hc := hd c List.mem_cons_self
    have : isDig c = true := by simp [isDig, hc]
    rw [List.cons_append, atoiDigits, if_pos this, ih _ fun x hx => hd x (List.mem_cons_of_mem _ hx)]
    rfl

theorem dig_facts : ∀ c : Byte, 48 ≤ c → c ≤ 57 → isSpace c = false ∧ c ≠ 45 ∧ c ≠ 43 ∧ c ≠ 0 ∧
    c ≠ 10 := by
  have key : ∀ c : Fin 256, 48 ≤ UInt8.ofFin c → UInt8.ofFin c ≤ 57 →
      isSpace (UInt8.ofFin c) = false ∧ UInt8.ofFin c ≠ 45 ∧ UInt8.ofFin c ≠ 43 ∧
      UInt8.ofFin c ≠ 0 ∧ UInt8.ofFin c ≠ 10 := by decide +kernel
  intro c h1 h2
  exact key c.toFin h1 h2

theorem atoi_digits (ds : List Byte) (hne : ds ≠ []) (hd : ∀ c ∈ ds, 48 ≤ c ∧ c ≤ 57)
    (hv : decVal ds < 2 ^ 31) : atoi (ds ++ crlf) = .ok (decVal ds : Int) := by
  cases ds with
  | nil => exact absurd rfl hne
  | cons c ds =>
    have hc := hd c List.mem_cons_self
    obtain ⟨s1, s2, s3, _, _⟩ := dig_facts c hc.1 hc.2
    have e := atoiDigits_eq (c :: ds) crlf 0 hd (by
      intro c t h; simp only [crlf, List.cons.injEq] at h; rw [← h.1]; decide)
    rw [List.cons_append, atoi, if_neg (by simp [s1]), atoiSign]
    simp only [s2, s3, or_self, if_false]
    rw [← List.cons_append, e]
    exact if_pos hv

/-! ## Headers -/

theorem headers_other (hs : List (List Byte)) (ho : ∀ h ∈ hs, HeaderOk h) (f : Nat)
    (r : List Byte) (len : Int) :
    headers (hs.length + f) ((hs.map (· ++ crlf)).flatten ++ r) len = headers f r len := by
  induction hs with
  | nil => simp
  | cons h hs ih =>
    have hh := ho h List.mem_cons_self
    obtain ⟨hne, h10, h0, hl, hp⟩ := hh
    rw [show (h :: hs).length + f = (hs.length + f) + 1 by simp; omega]
    simp only [List.map_cons, List.flatten_cons]
    rw [List.append_assoc, headers, fgets_line h _ h10 hl]
    simp only
    rw [cstr_of _ (nul_crlf h0), if_neg (not_crlf hne), header_other (ho h List.mem_cons_self)]
    exact ih fun x hx => ho x (List.mem_cons_of_mem _ hx)

theorem headers_end (f : Nat) (r : List Byte) (len : Int) :
    headers (f + 1) (crlf ++ r) len = .ok (len, r, false) := by
  have := fgets_line [] r (by simp) (by simp)
  rw [List.nil_append] at this
  rw [headers, this]
  simp only
  rw [if_pos (by decide)]

theorem headers_len (f : Nat) (ds r : List Byte) (len : Int) (hne : ds ≠ [])
    (hd : ∀ c ∈ ds, 48 ≤ c ∧ c ≤ 57) (hv : decVal ds < 2 ^ 31) (hl : ds.length ≤ 400) :
    headers (f + 1) (clen ++ ds ++ crlf ++ r) len = headers f r (decVal ds : Int) := by
  have h10 : 10 ∉ clen ++ ds := by
    intro hm
    rcases List.mem_append.mp hm with hm | hm
    · exact absurd hm (by decide)
    · have := hd _ hm; exact (dig_facts 10 this.1 this.2).2.2.2.2 rfl
  have h0 : 0 ∉ clen ++ ds := by
    intro hm
    rcases List.mem_append.mp hm with hm | hm
    · exact absurd hm (by decide)
    · have := hd _ hm; exact (dig_facts 0 this.1 this.2).2.2.2.1 rfl
  rw [headers, fgets_line _ r h10 (by rw [List.length_append, clen_length]; omega)]
  simp only
  rw [cstr_of _ (nul_crlf h0), if_neg (not_crlf (by simp [clen, ascii]))]
  have : header (clen ++ ds ++ crlf) len = .ok (decVal ds : Int) := by
    unfold header
    rw [cstr_of _ (nul_crlf h0), if_pos (List.isPrefixOf_iff_prefix.mpr ⟨ds ++ crlf, by simp⟩)]
    rw [List.append_assoc, List.drop_append_of_le_length (by rw [clen_length]; exact Nat.le_refl _),
      show clen.drop 16 = [] by decide, List.nil_append]
    exact atoi_digits ds hne hd hv
  rw [this]

theorem lines_le (hs : List (List Byte)) : hs.length ≤ (hs.map (· ++ crlf)).flatten.length := by
  induction hs with
  | nil => simp
  | cons h hs ih => simp [crlf] at *; omega

/-- Well-formed headers followed by anything: what the header loop finds. -/
theorem headers_wire (m : Msg) (r : List Byte) (hpre : ∀ h ∈ m.pre, HeaderOk h)
    (hpost : ∀ h ∈ m.post, HeaderOk h)
    (hdig : m.digits ≠ [] ∧ (∀ c ∈ m.digits, 48 ≤ c ∧ c ≤ 57) ∧ m.digits.length ≤ 400)
    (hv : decVal m.digits < 2 ^ 31) :
    headers ((m.wire ++ r).length + 1) (m.wire ++ r) 0 =
      .ok ((decVal m.digits : Int), m.body ++ r, false) := by
  have e : m.wire ++ r = (m.pre.map (· ++ crlf)).flatten ++ (clen ++ m.digits ++ crlf ++
      ((m.post.map (· ++ crlf)).flatten ++ (crlf ++ (m.body ++ r)))) := by
    simp [Msg.wire]
  have h1 := lines_le m.pre
  have h2 := lines_le m.post
  obtain ⟨k, hk⟩ : ∃ k, (m.wire ++ r).length + 1 = m.pre.length + ((m.post.length + (k + 1)) + 1) := by
    refine ⟨(m.wire ++ r).length + 1 - (m.pre.length + (m.post.length + 1) + 1), ?_⟩
    rw [e]
    simp only [List.length_append, clen_length, crlf, List.length_cons, List.length_nil] at *
    omega
  rw [hk, e, headers_other _ hpre, headers_len _ _ _ _ hdig.1 hdig.2.1 hv hdig.2.2,
    headers_other _ hpost, headers_end]

theorem serve_msg (f : Nat) (m : Msg) (hm : MsgOk m) (r : List Byte) (out : List (List Byte))
    (hr : serve f r = .ok out) : serve (f + 1) (m.wire ++ r) = .ok (m.body :: out) := by
  have hv : decVal m.digits < 2 ^ 31 := by
    have h1 := hm.len; have h2 := hm.max
    exact Nat.lt_of_le_of_lt (by rw [h1]; exact h2) (by decide)
  rw [serve, headers_wire m r hm.pre hm.post hm.digits hv]
  have hlen := hm.len; have hpos := hm.pos; have hmax := hm.max
  simp only
  rw [hlen, if_neg (by omega), if_neg (by unfold maxBody; omega), if_neg (by simp)]
  simp only [Int.toNat_natCast, List.drop_left, List.take_left]
  rw [hr, cstr_of _ hm.nul]

theorem serve_end (f : Nat) : serve (f + 1) [] = .ok [] := by
  simp [serve, headers, fgets]

/-- C40.  Whatever well-formed messages a client writes, the server processes exactly their
bodies, in order.  Excluded: bodies that are empty, above 10 MiB or with zero bytes, and
header lines above 509 bytes (see `lsp_large_violated`, `lsp_long_header_violated`). -/
theorem lsp_recovers_partial (ms : List Msg) (hm : ∀ m ∈ ms, MsgOk m) :
    lspMain (ms.map Msg.wire).flatten = .ok (ms.map Msg.body) := by
  have key : ∀ (ms : List Msg), (∀ m ∈ ms, MsgOk m) → ∀ f, ms.length < f →
      serve f (ms.map Msg.wire).flatten = .ok (ms.map Msg.body) := by
    intro ms
    induction ms with
    | nil => intro _ f hf; obtain ⟨f, rfl⟩ : ∃ k, f = k + 1 := ⟨f - 1, by simp at hf; omega⟩
             exact serve_end f
    | cons m ms ih =>
      intro hm f hf
      obtain ⟨f, rfl⟩ : ∃ k, f = k + 1 := ⟨f - 1, by simp at hf; omega⟩
      simp only [List.map_cons, List.flatten_cons]
      exact serve_msg f m (hm m List.mem_cons_self) _ _
        (ih (fun x hx => hm x (List.mem_cons_of_mem _ hx)) f (by simp at hf; omega))
  refine key ms hm _ ?_
  have : ∀ ms : List Msg, ms.length ≤ (ms.map Msg.wire).flatten.length := by
    intro ms
    induction ms with
    | nil => simp
    | cons m ms ih =>
      simp only [List.map_cons, List.flatten_cons, List.length_append, List.length_cons, Msg.wire,
        crlf] at *
      omega
  have := this ms
  omega

/-- C40.  The server's own responses are framed so that the same reader recovers them. -/
theorem lsp_reply_readable (ds str : List Byte) (hd : ds ≠ [] ∧
    (∀ c ∈ ds, 48 ≤ c ∧ c ≤ 57) ∧ ds.length ≤ 400) (hl : decVal ds = str.length)
    (h0 : 0 ∉ str) (h1 : str ≠ []) (h2 : str.length ≤ 10 * 1024 * 1024) :
    lspMain (reply ds str) = .ok [str] := by
  have := lsp_recovers_partial [⟨[], ds, [], str⟩] (by
    intro m hm
    simp only [List.mem_cons, List.not_mem_nil, or_false] at hm
    subst hm
    exact ⟨by simp, by simp, hd, hl, List.length_pos_iff.mpr h1, h2, h0⟩)
  simpa [Msg.wire, reply] using this

/-! ## Termination -/

theorem headers_finish (f : Nat) (bs : List Byte) (len : Int) (hf : bs.length < f) :
    headers f bs len = .ub ∨ ∃ l r e, headers f bs len = .ok (l, r, e) ∧
      (e = true → r = []) ∧ (e = false → r.length < bs.length) := by
  induction f generalizing bs len with
  | zero => omega
  | succ f ih =>
    rw [headers]
    cases hb : bs with
    | nil => exact Or.inr ⟨len, [], true, rfl, fun _ => rfl, by simp⟩
    | cons c t =>
      have hlt := takeLine_length 511 (c :: t) (by decide) (by simp)
      simp only [fgets]
      split
      · exact Or.inr ⟨_, _, _, rfl, by simp, fun _ => hlt⟩
      · split
        · rename_i len' _
          rcases ih (takeLine 511 (c :: t)).2 len' (by rw [hb] at hf; omega) with h | ⟨l, r, e, h1, h2, h3⟩
          · exact Or.inl h
          · exact Or.inr ⟨l, r, e, h1, h2, fun he => Nat.lt_trans (h3 he) hlt⟩
        · exact Or.inl rfl

/-- C40.  The server stops on every finite input, well formed or not. -/
theorem lsp_terminates (bs : List Byte) : lspMain bs ≠ .hang := by
  have key : ∀ f (bs : List Byte), bs.length < f → serve f bs ≠ .hang := by
    intro f
    induction f with
    | zero => intro bs h; omega
    | succ f ih =>
      intro bs hf
      rw [serve]
      rcases headers_finish (bs.length + 1) bs 0 (by omega) with h | ⟨l, r, e, h1, h2, h3⟩
      · rw [h]; simp
      · rw [h1]
        simp only
        split
        · split
          · simp
          · rename_i he
            exact ih r (by have := h3 (by simpa using he); omega)
        · split
          · simp
          · split
            · simp
            · rename_i hpos _ hlen
              have hr : r ≠ [] := by
                intro hr; rw [hr] at hlen; simp at hlen; omega
              have he : e = false := by
                cases e with
                | false => rfl
                | true => exact absurd (h2 rfl) hr
              have := h3 he
              have := ih (r.drop l.toNat) (by simp; omega)
              split <;> simp_all
  exact key _ _ (by omega)

/-- C40 fails for large messages: one above 10 MiB ends the server, it and everything after
it is dropped. -/
theorem lsp_large_violated (m : Msg) (r : List Byte) (hpre : ∀ h ∈ m.pre, HeaderOk h)
    (hpost : ∀ h ∈ m.post, HeaderOk h)
    (hdig : m.digits ≠ [] ∧ (∀ c ∈ m.digits, 48 ≤ c ∧ c ≤ 57) ∧ m.digits.length ≤ 400)
    (hlen : decVal m.digits = m.body.length) (hbig : 10 * 1024 * 1024 < m.body.length)
    (hv : m.body.length < 2 ^ 31) : lspMain (m.wire ++ r) = .ok [] := by
  unfold lspMain
  rw [serve, headers_wire m r hpre hpost hdig (by omega)]
  simp only
  rw [hlen, if_neg (by omega), if_pos (by unfold maxBody; omega)]

/-- C40 fails for a header line of 511 bytes: its line end is taken for the end of the
headers and the body is read two bytes early. -/
theorem lsp_long_header_violated :
    lspMain (Msg.wire ⟨[], [50], [List.replicate 511 65], [123, 125]⟩) = .ok [[13, 10]] := by
  decide +kernel

/-! ## C52: answers -/

/-- A request that the server is meant to answer: a number as id, a supported method and the
parameters the protocol prescribes.  Definition, hover and completion ask about a document
opened before. -/
inductive Request (docs : Docs) (j : J) (id : Int) : Prop
  | init : j.get "id" = some (.num id) → j.get "method" = some (.str "initialize") →
      Request docs j id
  | known (m u : String) : j.get "id" = some (.num id) → j.get "method" = some (.str m) →
      m ∈ ["textDocument/definition", "textDocument/hover", "textDocument/completion"] →
      uriOf j = some u → u ∈ docs → Request docs j id
  | any (m u : String) : j.get "id" = some (.num id) → j.get "method" = some (.str m) →
      m ∈ ["textDocument/documentSymbol", "textDocument/references",
        "textDocument/semanticTokens/full"] →
      uriOf j = some u → Request docs j id
  | rename (u n : String) (p : J) : j.get "id" = some (.num id) →
      j.get "method" = some (.str "textDocument/rename") → uriOf j = some u →
      j.get "params" = some p → p.get "newName" = some (.str n) → Request docs j id

theorem handle_request (docs : Docs) (j : J) (id : Int) (h : Request docs j id) :
    handle docs j = [.respond id] := by
  cases h with
  | init hi hm => simp [handle, hi, hm, J.valueint, J.valuestring]
  | known m u hi hm hmem hu hd =>
    simp only [List.mem_cons, List.not_mem_nil, or_false] at hmem
    rcases hmem with rfl | rfl | rfl <;>
      simp [handle, hi, hm, J.valueint, J.valuestring, hu, ifKnown, hd]
  | any m u hi hm hmem hu =>
    simp only [List.mem_cons, List.not_mem_nil, or_false] at hmem
    rcases hmem with rfl | rfl | rfl <;>
      simp [handle, hi, hm, J.valueint, J.valuestring, hu]
  | rename u n p hi hm hu hp hn =>
    simp [handle, hi, hm, J.valueint, J.valuestring, hu, hp, hn]

/-- A document notification with its text. -/
inductive Opens (j : J) (u t : String) : Prop
  | mk (m : String) : j.get "method" = some (.str m) →
      m = "textDocument/didOpen" ∨ m = "textDocument/didChange" →
      uriOf j = some u → textOf m j = some t → Opens j u t

theorem handle_opens (docs : Docs) (j : J) (u t : String) (h : Opens j u t) :
    handle docs j = [.check u t] := by
  obtain ⟨m, hm, hmm, hu, ht⟩ := h
  rcases hmm with rfl | rfl <;> simp [handle, hm, J.valuestring, hu, ht]

/-- Sessions made of supported messages: what the client sends and the ids it expects back,
in order. -/
inductive Talk : Docs → List J → List Int → Prop
  | nil {docs} : Talk docs [] []
  | req {docs j id js ids} : Request docs j id → Talk docs js ids →
      Talk docs (j :: js) (id :: ids)
  | opens {docs j u t js ids} : Opens j u t → Talk (u :: docs) js ids →
      Talk docs (j :: js) ids

/-- The ids answered. -/
def answered (as : List Act) : List Int :=
  as.filterMap fun a => match a with
    | .respond i => some i
    | .check _ _ => none

/-- C52.  In a session of supported messages every request is answered exactly once, with
its own id and in order.  Not covered: the requests of `signature_help_violated`,
`shutdown_violated` and `unknown_document_violated`. -/
theorem requests_answered_partial (docs : Docs) (js : List J) (ids : List Int)
    (h : Talk docs js ids) : answered (session docs js) = ids := by
  induction h with
  | nil => rfl
  | req hr _ ih =>
    rw [session, handle_request _ _ _ hr]
    simp only [List.foldl_cons, List.foldl_nil, answered, List.filterMap_append] at *
    rw [ih]; rfl
  | opens ho _ ih =>
    rw [session, handle_opens _ _ _ _ ho]
    simp only [List.foldl_cons, List.foldl_nil, answered, List.filterMap_append] at *
    rw [ih]; rfl

/-- C52 fails: a signature-help request is never answered, whatever it contains. -/
theorem signature_help_violated (docs : Docs) (j : J)
    (hm : j.get "method" = some (.str "textDocument/signatureHelp")) : handle docs j = [] := by
  simp [handle, hm, J.valuestring]

/-- C52 fails: `shutdown` is never answered. -/
theorem shutdown_violated (docs : Docs) (j : J)
    (hm : j.get "method" = some (.str "shutdown")) : handle docs j = [] := by
  simp [handle, hm, J.valuestring]

/-- C52 fails: hover in a document that was not opened is never answered. -/
theorem unknown_document_violated (docs : Docs) (j : J) (u : String)
    (hm : j.get "method" = some (.str "textDocument/hover")) (hu : uriOf j = some u)
    (hd : u ∉ docs) : handle docs j = [] := by
  simp [handle, hm, J.valuestring, hu, ifKnown, hd]

/-- C52 fails: of several content changes only the first is taken, so the server's text is
not the client's. -/
theorem did_change_violated (docs : Docs) (u a b : String) :
    handle docs (.obj [("method", .str "textDocument/didChange"), ("params", .obj
      [("textDocument", .obj [("uri", .str u)]), ("contentChanges", .arr
        [.obj [("text", .str a)], .obj [("text", .str b)]])])]) = [.check u a] := rfl

/-! ## Concrete cases -/

example : lspMain (Msg.wire ⟨[ascii ['X', ':', ' ', '1']], [48, 50], [], [123, 125]⟩ ++
    Msg.wire ⟨[], [51], [ascii ['Y']], [91, 49, 93]⟩) = .ok [[123, 125], [91, 49, 93]] := by
  decide +kernel

example : MsgOk ⟨[ascii ['X', ':', ' ', '1']], [48, 50], [], [123, 125]⟩ := by
  refine ⟨?_, by simp, ⟨by simp, by decide, by decide⟩, by decide, by decide, by decide, by decide⟩
  intro h hh
  simp only [List.mem_cons, List.not_mem_nil, or_false] at hh
  subst hh
  exact ⟨by decide, by decide, by decide, by decide, by decide⟩

example : Talk [] [.obj [("method", .str "textDocument/didOpen"), ("params", .obj
      [("textDocument", .obj [("uri", .str "f"), ("text", .str "x")])])],
    .obj [("id", .num 7), ("method", .str "textDocument/hover"), ("params", .obj
      [("textDocument", .obj [("uri", .str "f")])])]] [7] := by
  refine .opens (u := "f") (t := "x") ⟨_, rfl, Or.inl rfl, rfl, rfl⟩
    (.req (.known "textDocument/hover" "f" rfl rfl (by simp) rfl (by simp)) .nil)

end Verif.Lsp
