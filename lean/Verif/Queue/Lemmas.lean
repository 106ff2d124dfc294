import Verif.Queue.Model

/-! Helper lemmas for the queue model. -/

namespace Verif.Queue
open Verif

theorem loadBytes_ok (m : Mem UInt8) : ∀ (l : List UInt8) (off : Nat),
    (∀ b, b < l.length → m[off + b]? = some l[b]?) → loadBytes m off l.length = .ok l := by
  intro l
  induction l with
  | nil => intro off _; rfl
  | cons x xs ih =>
    intro off h
    have h0 := h 0 (by simp)
    have hx : Mem.load m off = .ok x := by rw [Mem.load_ok_iff]; simpa using h0
    have := ih (off + 1) (by
      intro b hb
      have := h (b + 1) (by simpa using hb)
      rw [Nat.add_assoc, Nat.add_comm 1 b, this]; simp)
    simp only [List.length_cons, loadBytes, hx, this, Res.ok_bind, Res.pure_eq]

theorem storeBytes_ok : ∀ (l : List UInt8) (m : Mem UInt8) (off : Nat),
    off + l.length ≤ m.length →
    ∃ m', storeBytes m off l = .ok m' ∧ m'.length = m.length ∧
      ∀ x, m'[x]? = if off ≤ x ∧ x < off + l.length then some l[x - off]? else m[x]? := by
  intro l
  induction l with
  | nil =>
    intro m off h
    refine ⟨m, rfl, rfl, fun x => ?_⟩
    have : ¬ (off ≤ x ∧ x < off + ([] : List UInt8).length) := by simp
    rw [if_neg this]
  | cons b bs ih =>
    intro m off h
    simp only [List.length_cons] at h
    have hs : Mem.store m off b = .ok (m.set off (some b)) := by
      unfold Mem.store; rw [if_pos (by omega)]
    obtain ⟨m', h1, h2, h3⟩ := ih (m.set off (some b)) (off + 1) (by simp; omega)
    refine ⟨m', by simp only [storeBytes, hs, Res.ok_bind, h1], by simpa using h2, fun x => ?_⟩
    rw [h3 x]
    simp only [List.length_cons]
    by_cases hx : x = off
    · subst hx
      rw [if_neg (by omega), if_pos (by omega)]
      have hlt : x < m.length := by omega
      simp [hlt]
    · by_cases hr : off + 1 ≤ x ∧ x < off + 1 + bs.length
      · rw [if_pos hr, if_pos (by omega)]
        have : x - off = (x - (off + 1)) + 1 := by omega
        rw [this]; simp
      · rw [if_neg hr, if_neg (by omega), List.getElem?_set_ne (by omega)]

theorem memcpy_get (dst src : Mem UInt8) (d s n : Nat) (h1 : d + n ≤ dst.length)
    (h2 : s + n ≤ src.length) :
    ∃ m', Mem.memcpy dst d src s n = .ok m' ∧ m'.length = dst.length ∧
      ∀ x, m'[x]? = if d ≤ x ∧ x < d + n then src[s + (x - d)]? else dst[x]? := by
  unfold Mem.memcpy
  by_cases hn : n = 0
  · refine ⟨dst, by simp [hn], rfl, fun x => ?_⟩
    rw [if_neg (by omega)]
  · simp only [hn, if_false, h1, h2, and_self, if_true]
    refine ⟨_, rfl, by simp; omega, fun x => ?_⟩
    by_cases hx : x < d
    · rw [if_neg (by omega), List.append_assoc, List.getElem?_append_left (by simp; omega)]
      rw [List.getElem?_take, if_pos hx]
    · rw [List.append_assoc, List.getElem?_append_right (by simp; omega)]
      have e : (dst.take d).length = d := by simp; omega
      rw [e]
      by_cases hx2 : x < d + n
      · rw [if_pos (by omega), List.getElem?_append_left (by simp; omega)]
        rw [List.getElem?_take, if_pos (by omega), List.getElem?_drop]
      · rw [if_neg (by omega), List.getElem?_append_right (by simp; omega), List.getElem?_drop]
        congr 1
        simp
        omega

/-- `i`-th element slot versus byte offsets -/
theorem slot_lt {es i m b : Nat} (hb : b < es) : i * es + b < m * es ↔ i < m := by
  constructor
  · intro h
    apply Nat.lt_of_not_le
    intro hle
    have := Nat.mul_le_mul_right es hle
    omega
  · intro h
    have := Nat.mul_le_mul_right es (Nat.succ_le_of_lt h)
    rw [Nat.succ_mul] at this
    omega

theorem slot_ge {es i m b : Nat} (hb : b < es) : m * es ≤ i * es + b ↔ m ≤ i := by
  have := slot_lt (i := i) (m := m) hb
  omega

/-- The `i`-th slot of the block holds the bytes of `e`. -/
def Slot {es : Nat} (m : Mem UInt8) (i : Nat) (e : Elem es) : Prop :=
  ∀ b, b < es → m[i * es + b]? = some (e.1[b]?)

theorem load_slot {es : Nat} (m : Mem UInt8) (i : Nat) (e : Elem es) (h : Slot m i e) :
    loadBytes m (i * es) es = .ok e.1 := by
  have := loadBytes_ok m e.1 (i * es) (by
    intro b hb; rw [e.2] at hb; exact h b hb)
  rwa [e.2] at this

theorem store_slot {es : Nat} (m : Mem UInt8) (i cap : Nat) (e : Elem es)
    (hl : m.length = cap * es) (hi : i < cap) :
    ∃ m', storeBytes m (i * es) e.1 = .ok m' ∧ m'.length = cap * es ∧ Slot m' i e ∧
      ∀ k (f : Elem es), k ≠ i → Slot m k f → Slot m' k f := by
  have hle : i * es + es ≤ m.length := by
    rw [hl]
    have := Nat.mul_le_mul_right es (Nat.succ_le_of_lt hi)
    rwa [Nat.succ_mul] at this
  obtain ⟨m', h1, h2, h3⟩ := storeBytes_ok e.1 m (i * es) (by rw [e.2]; exact hle)
  refine ⟨m', h1, by rw [h2, hl], ?_, ?_⟩
  · intro b hb
    rw [h3, if_pos (by rw [e.2]; omega)]
    congr 2
    omega
  · intro k f hk hs b hb
    rw [h3, if_neg ?_]
    · exact hs b hb
    · rw [e.2]
      intro ⟨g1, g2⟩
      have g1' := (slot_ge hb).1 g1
      have : k * es + b < (i + 1) * es := by rw [Nat.succ_mul]; exact g2
      have := (slot_lt hb).1 this
      omega

theorem copy_slots {es : Nat} (dst src : Mem UInt8) (d s n dc sc : Nat)
    (hd : dst.length = dc * es) (hs : src.length = sc * es) (h1 : d + n ≤ dc) (h2 : s + n ≤ sc) :
    ∃ m', Mem.memcpy dst (d * es) src (s * es) (es * n) = .ok m' ∧ m'.length = dc * es ∧
      (∀ k (f : Elem es), d ≤ k → k < d + n → Slot src (s + (k - d)) f → Slot m' k f) ∧
      (∀ k (f : Elem es), (k < d ∨ d + n ≤ k) → Slot dst k f → Slot m' k f) := by
  have e1 : d * es + es * n = (d + n) * es := by rw [Nat.add_mul, Nat.mul_comm es n]
  have e2 : s * es + es * n = (s + n) * es := by rw [Nat.add_mul, Nat.mul_comm es n]
  obtain ⟨m', g1, g2, g3⟩ := memcpy_get dst src (d * es) (s * es) (es * n)
    (by rw [e1, hd]; exact Nat.mul_le_mul_right es h1)
    (by rw [e2, hs]; exact Nat.mul_le_mul_right es h2)
  refine ⟨m', g1, by rw [g2, hd], ?_, ?_⟩
  · intro k f hk1 hk2 hf b hb
    rw [g3, if_pos ?_]
    · have := hf b hb
      rw [← this]
      congr 1
      have : k * es = d * es + (k - d) * es := by rw [← Nat.add_mul]; congr 1; omega
      rw [Nat.add_mul]
      omega
    · rw [e1]
      exact ⟨(slot_ge hb).2 hk1, (slot_lt hb).2 hk2⟩
  · intro k f hk hf b hb
    rw [g3, if_neg ?_]
    · exact hf b hb
    · rw [e1]
      intro ⟨a1, a2⟩
      have := (slot_ge hb).1 a1
      have := (slot_lt hb).1 a2
      omega

/-- Queue `q` holds `l` in a ring of capacity `g.1` with the oldest element at `g.2`. -/
structure Holds {es : Nat} (q : Queue) (l : List (Elem es)) (g : Nat × Nat) : Prop where
  cap : q.cap = g.1
  head : q.head = g.2
  count : q.count = l.length
  len : q.buf.length = q.cap * es
  le : l.length ≤ q.cap
  pos : 0 < q.cap → q.head < q.cap ∧ q.tail = (q.head + l.length) % q.cap
  zero : q.cap = 0 → q.head = 0 ∧ q.tail = 0
  slots : ∀ k (h : k < l.length), Slot q.buf ((q.head + k) % q.cap) l[k]

theorem holds_new {es : Nat} : Holds (es := es) new [] (0, 0) := by
  constructor <;> simp [new]

theorem holds_clear {es : Nat} {q : Queue} {l : List (Elem es)} {g} (h : Holds q l g) :
    Holds (es := es) (clear q) [] (g.1, 0) := by
  constructor
  · exact h.cap
  · rfl
  · rfl
  · exact h.len
  · simp
  · intro hp; exact ⟨hp, by simp [clear]⟩
  · intro _; exact ⟨rfl, rfl⟩
  · intro k hk; simp at hk

theorem tail_gt {cap head n : Nat} (hh : head < cap) (hn : n ≤ cap) (hpos : 0 < n) :
    ((head + n) % cap > head ↔ head + n < cap) ∧
    (head + n < cap → (head + n) % cap = head + n) ∧
    (¬ head + n < cap → (head + n) % cap = head + n - cap) := by
  have h2 : ¬ head + n < cap → (head + n) % cap = head + n - cap := by
    intro h
    rw [Nat.mod_eq_sub_mod (by omega)]
    exact Nat.mod_eq_of_lt (by omega)
  have h1 : head + n < cap → (head + n) % cap = head + n := Nat.mod_eq_of_lt
  refine ⟨?_, h1, h2⟩
  by_cases h : head + n < cap
  · rw [h1 h]; omega
  · rw [h2 h]; omega

theorem ring_idx {cap head k : Nat} (hh : head < cap) (hk : k < cap) :
    (head + k) % cap = if head + k < cap then head + k else head + k - cap := by
  split
  · exact Nat.mod_eq_of_lt ‹_›
  · rw [Nat.mod_eq_sub_mod (by omega)]
    exact Nat.mod_eq_of_lt (by omega)

/-- the two-part copy into a fresh block of capacity `nc` -/
theorem copy_ring {es : Nat} {q : Queue} {l : List (Elem es)} {g} (h : Holds q l g)
    (hpos : 0 < l.length) (nc : Nat) (hnc : l.length ≤ nc) (off2 : Nat)
    (hoff : off2 = (q.cap - q.head) * es ∨ q.head = 0) :
    ∃ m', (if q.tail > q.head then
        Mem.memcpy (Mem.malloc (es * nc)) 0 q.buf (q.head * es) (es * q.count)
      else do
        let newData ← Mem.memcpy (Mem.malloc (es * nc)) 0 q.buf (q.head * es) (es * (q.cap - q.head))
        Mem.memcpy newData off2 q.buf 0 (es * q.tail)) = .ok m' ∧ m'.length = nc * es ∧
      ∀ k (hk : k < l.length), Slot m' k l[k] := by
  have hcap : 0 < q.cap := by have := h.le; omega
  obtain ⟨hh, ht⟩ := h.pos hcap
  obtain ⟨t1, t2, t3⟩ := tail_gt hh h.le hpos
  rw [← ht] at t1 t2 t3
  have hm : (Mem.malloc (es * nc) : Mem UInt8).length = nc * es := by
    simp [Mem.malloc, Nat.mul_comm]
  by_cases hgt : q.tail > q.head
  · simp only [hgt, if_true]
    have hlt := t1.1 hgt
    obtain ⟨m', g1, g2, g3, _⟩ := copy_slots (es := es) (Mem.malloc (es * nc)) q.buf 0 q.head
      q.count nc q.cap hm h.len (by rw [h.count]; omega) (by rw [h.count]; omega)
    refine ⟨m', by simpa using g1, g2, fun k hk => ?_⟩
    apply g3 k _ (Nat.zero_le _) (by rw [h.count]; omega)
    have := h.slots k hk
    rw [Nat.mod_eq_of_lt (by omega)] at this
    simpa using this
  · simp only [hgt, if_false]
    have hge : ¬ q.head + l.length < q.cap := fun hc => hgt (t1.2 hc)
    have htl := t3 hge
    obtain ⟨m1, g1, g2, g3, g4⟩ := copy_slots (es := es) (Mem.malloc (es * nc)) q.buf 0 q.head
      (q.cap - q.head) nc q.cap hm h.len (by omega) (by omega)
    have g1' : Mem.memcpy (Mem.malloc (es * nc)) 0 q.buf (q.head * es) (es * (q.cap - q.head))
        = .ok m1 := by simpa using g1
    have key : ∀ k (hk : k < l.length), k < q.cap - q.head → Slot m1 k l[k] := by
      intro k hk hk2
      apply g3 k _ (Nat.zero_le _) (by omega)
      have := h.slots k hk
      rw [Nat.mod_eq_of_lt (by omega)] at this
      simpa using this
    simp only [g1', Res.ok_bind]
    by_cases hh0 : q.head = 0
    · -- nothing wrapped: the second copy is empty
      have hle := h.le
      have ht0 : q.tail = 0 := by omega
      refine ⟨m1, by simp [ht0, Mem.memcpy], g2, fun k hk => key k hk (by omega)⟩
    · have hoff2 : off2 = (q.cap - q.head) * es := by
        rcases hoff with h1 | h1
        · exact h1
        · exact absurd h1 hh0
      obtain ⟨m2, e1, e2, e3, e4⟩ := copy_slots (es := es) m1 q.buf (q.cap - q.head) 0 q.tail nc q.cap
        g2 h.len (by omega) (by omega)
      refine ⟨m2, by rw [hoff2]; simpa using e1, e2, fun k hk => ?_⟩
      by_cases hk2 : k < q.cap - q.head
      · exact e4 k _ (.inl hk2) (key k hk hk2)
      · apply e3 k _ (by omega) (by omega)
        have := h.slots k hk
        rw [ring_idx hh (by have := h.le; omega), if_neg (by omega)] at this
        have e : q.head + k - q.cap = 0 + (k - (q.cap - q.head)) := by omega
        rwa [e] at this

theorem grow_holds {es : Nat} {q : Queue} {l : List (Elem es)} {g} (h : Holds q l g)
    (hfull : l.length = q.cap) (hgood : es = 1 ∨ q.head = 0) :
    ∃ w, grow es q = .ok w ∧ Holds w l (if q.cap = 0 then 8 else q.cap * 2, 0) ∧
      l.length < w.cap := by
  generalize hnc : (if q.cap = 0 then 8 else q.cap * 2) = nc
  have hlt : l.length < nc := by rw [← hnc, hfull]; split <;> omega
  have fin : ∀ m : Mem UInt8, m.length = nc * es → (∀ k (hk : k < l.length), Slot m k l[k]) →
      Holds ⟨m, nc, 0, q.count, q.count⟩ l (nc, 0) := by
    intro m hm hs
    constructor
    · rfl
    · rfl
    · exact h.count
    · exact hm
    · simp; omega
    · intro _
      refine ⟨by simp; omega, ?_⟩
      simp only [Nat.zero_add]
      rw [Nat.mod_eq_of_lt hlt, h.count]
    · intro h0; simp at h0; omega
    · intro k hk
      simp only [Nat.zero_add]
      rw [Nat.mod_eq_of_lt (by omega)]
      exact hs k hk
  unfold grow growCopy
  simp only [hnc]
  by_cases hc : q.count > 0
  · obtain ⟨m', e1, e2, e3⟩ := copy_ring h (by rw [← h.count]; exact hc) nc (by omega)
      (q.cap - q.head) (by rcases hgood with h1 | h1 <;> simp [h1])
    rw [if_pos hc]
    rw [e1]
    exact ⟨_, rfl, fin m' e2 e3, hlt⟩
  · simp only [hc, if_false, Res.pure_eq, Res.ok_bind]
    refine ⟨_, rfl, fin _ (by simp [Mem.malloc, Nat.mul_comm]) ?_, hlt⟩
    intro k hk; rw [← h.count] at hk; omega

theorem push_core {es : Nat} {q : Queue} {l : List (Elem es)} {g} (h : Holds q l g)
    (hroom : l.length < q.cap) (a : Elem es) :
    ∃ w, (do let buf ← storeBytes q.buf (q.tail * es) a.1
             pure (⟨buf, q.cap, q.head, (q.tail + 1) % q.cap, q.count + 1⟩ : Queue)) = Res.ok w
      ∧ Holds w (l ++ [a]) g := by
  have hcap : 0 < q.cap := by omega
  obtain ⟨hh, ht⟩ := h.pos hcap
  obtain ⟨m', e1, e2, e3, e4⟩ := store_slot q.buf q.tail q.cap a h.len
    (by rw [ht]; exact Nat.mod_lt _ hcap)
  simp only [e1, Res.ok_bind, Res.pure_eq]
  refine ⟨_, rfl, ?_⟩
  constructor
  · exact h.cap
  · exact h.head
  · simp [h.count]
  · exact e2
  · simp; omega
  · intro _
    refine ⟨hh, ?_⟩
    simp only [ht, List.length_append, List.length_singleton]
    rw [Nat.mod_add_mod, Nat.add_assoc]
  · intro h0; simp at h0; omega
  · intro k hk
    simp only [List.length_append, List.length_singleton] at hk
    simp only
    by_cases hk2 : k < l.length
    · rw [List.getElem_append_left hk2]
      apply e4 _ _ _ (h.slots k hk2)
      rw [ht, ring_idx hh (by omega), ring_idx hh (by omega)]
      split <;> split <;> omega
    · have : k = l.length := by omega
      subst this
      rw [← ht]
      simpa using e3

theorem push_holds {es : Nat} {q : Queue} {l : List (Elem es)} {g} (h : Holds q l g)
    (a : Elem es) (hgood : l.length = g.1 → es = 1 ∨ g.2 = 0) :
    ∃ w, push es q a.1 = .ok w ∧
      Holds w (l ++ [a])
        (if l.length = g.1 then (if g.1 = 0 then 8 else g.1 * 2, 0) else g) := by
  unfold push
  by_cases hf : q.count = q.cap
  · have hf' : l.length = q.cap := by rw [← h.count]; exact hf
    have hg := hgood (by rw [← h.cap]; exact hf')
    rw [← h.head] at hg
    obtain ⟨w, e1, e2, e3⟩ := grow_holds h hf' hg
    simp only [hf, if_true, e1, Res.ok_bind]
    have := push_core e2 e3 a
    rw [if_pos (by rw [← h.cap]; exact hf'), ← h.cap]
    exact this
  · have hf' : l.length ≠ q.cap := by rw [← h.count]; exact hf
    simp only [hf, if_false, Res.pure_eq, Res.ok_bind]
    rw [if_neg (by rw [← h.cap]; exact hf')]
    exact push_core h (by have := h.le; omega) a

theorem pop_holds {es : Nat} {q : Queue} {l : List (Elem es)} {g} (h : Holds q l g) :
    ∃ w, pop es q = .ok (w, l.head?.map (·.1)) ∧
      Holds w l.tail (if l = [] then g else (g.1, (g.2 + 1) % g.1)) := by
  unfold pop
  cases l with
  | nil =>
    have : q.count = 0 := h.count
    simp only [this, if_true]
    exact ⟨q, rfl, h⟩
  | cons a t =>
    have hc : ¬ q.count = 0 := by rw [h.count]; simp
    have hcap : 0 < q.cap := by have := h.le; simp at this; omega
    obtain ⟨hh, ht⟩ := h.pos hcap
    have hs := h.slots 0 (by simp)
    rw [Nat.add_zero, Nat.mod_eq_of_lt hh] at hs
    simp only [hc, if_false, load_slot _ _ _ hs, Res.ok_bind, Res.pure_eq]
    refine ⟨_, rfl, ?_⟩
    simp only [List.tail_cons, if_neg (List.cons_ne_nil a t)]
    constructor
    · exact h.cap
    · simp [h.head, h.cap]
    · simp [h.count]
    · exact h.len
    · have := h.le; simp at this ⊢; omega
    · intro _
      refine ⟨Nat.mod_lt _ hcap, ?_⟩
      simp only [ht, List.length_cons]
      rw [Nat.mod_add_mod]; congr 1; omega
    · intro h0; simp at h0; omega
    · intro k hk
      have := h.slots (k + 1) (by simpa using hk)
      simp only [List.getElem_cons_succ] at this
      simp only
      rw [Nat.mod_add_mod]
      have e : q.head + 1 + k = q.head + (k + 1) := by omega
      rwa [e]

theorem clone_holds {es : Nat} {q : Queue} {l : List (Elem es)} {g} (h : Holds q l g)
    (hgood : g.1 = 0 ∨ l.length ≠ g.1) :
    ∃ w, clone es q = .ok w ∧ Holds w l (g.1, 0) := by
  have hle := h.le
  have hroom : q.cap = 0 ∨ l.length < q.cap := by
    rw [← h.cap] at hgood; omega
  have fin : ∀ m : Mem UInt8, m.length = q.cap * es → (∀ k (hk : k < l.length), Slot m k l[k]) →
      Holds ⟨m, q.cap, 0, q.count, q.count⟩ l (g.1, 0) := by
    intro m hm hs
    constructor
    · exact h.cap
    · rfl
    · exact h.count
    · exact hm
    · exact h.le
    · intro hp
      refine ⟨hp, ?_⟩
      simp only [Nat.zero_add]
      have hp' : 0 < q.cap := hp
      rw [Nat.mod_eq_of_lt (by omega), h.count]
    · intro h0
      have h0' : q.cap = 0 := h0
      refine ⟨rfl, ?_⟩
      simp only [h.count]; omega
    · intro k hk
      simp only [Nat.zero_add]
      rw [Nat.mod_eq_of_lt (by omega)]
      exact hs k hk
  unfold clone cloneCopy
  by_cases hc : q.count > 0
  · obtain ⟨m', e1, e2, e3⟩ := copy_ring h (by rw [← h.count]; exact hc) q.cap h.le
      ((q.cap - q.head) * es) (.inl rfl)
    rw [if_pos hc]
    rw [e1]
    exact ⟨_, rfl, fin m' e2 e3⟩
  · simp only [hc, if_false, Res.pure_eq, Res.ok_bind]
    refine ⟨_, rfl, fin _ (by simp [Mem.malloc, Nat.mul_comm]) ?_⟩
    intro k hk; rw [← h.count] at hk; omega

/-- All named queues hold the named lists. -/
def HoldsAll {es : Nat} (s : Nat → Queue) (t : Nat → List (Elem es)) (g : Nat → Nat × Nat) : Prop :=
  ∀ i, Holds (s i) (t i) (g i)

theorem HoldsAll.upd {es : Nat} {s : Nat → Queue} {t : Nat → List (Elem es)} {g}
    (h : HoldsAll s t g) (i : Nat) {v : Queue} {l : List (Elem es)} {r} (hv : Holds v l r) :
    HoldsAll (upd s i v) (upd t i l) (upd g i r) := by
  intro k
  unfold Queue.upd
  split
  · exact hv
  · exact h k

theorem upd_self {β : Type} (g : Nat → β) (i : Nat) : upd g i (g i) = g := by
  funext k; unfold upd; split
  · subst_vars; rfl
  · rfl

theorem step_refines {es : Nat} {s : Nat → Queue} {t : Nat → List (Elem es)} {g}
    (h : HoldsAll s t g) (op : Op es) (hg : Spec.Good t g op) :
    ∃ s', step es s op = .ok (s', (Spec.step t op).2) ∧
      HoldsAll s' (Spec.step t op).1 (Spec.ring t g op) := by
  cases op with
  | new i => exact ⟨_, rfl, h.upd i holds_new⟩
  | push i a =>
    obtain ⟨w, hw, hh⟩ := push_holds (h i) a hg
    refine ⟨_, by simp only [step, hw, Res.ok_bind, Res.pure_eq]; rfl, ?_⟩
    have := h.upd i hh
    simp only [Spec.ring]
    split
    · rename_i he; rw [if_pos he] at this; exact this
    · rename_i he; rw [if_neg he, upd_self] at this; exact this
  | pop i =>
    obtain ⟨w, hw, hh⟩ := pop_holds (h i)
    refine ⟨_, by simp only [step, hw, Res.ok_bind, Res.pure_eq]; rfl, ?_⟩
    have := h.upd i hh
    simp only [Spec.ring]
    split
    · rename_i he; rw [if_pos he, upd_self] at this; exact this
    · rename_i he; rw [if_neg he] at this; exact this
  | clear i => exact ⟨_, rfl, h.upd i (holds_clear (h i))⟩
  | free i => exact ⟨_, rfl, h.upd i holds_new⟩
  | clone i j =>
    obtain ⟨w, hw, hh⟩ := clone_holds (h i) hg
    exact ⟨_, by simp only [step, hw, Res.ok_bind, Res.pure_eq]; rfl, h.upd j hh⟩
  | length i => exact ⟨s, by simp [step, Spec.step, (h i).count], h⟩
  | isEmpty i =>
    refine ⟨s, ?_, h⟩
    simp only [step, Spec.step, (h i).count]
    cases t i <;> rfl

end Verif.Queue
