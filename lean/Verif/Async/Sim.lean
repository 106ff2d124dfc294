import Verif.Async.Lemmas

/-!
# The compiled program does what is expected

Each block on the heap has one owner: a thread (its arguments, its result), a caller between
`malloc` and `pthread_create`, or a thread in the middle of `await`.
-/

namespace Verif.Async
open Spec

section
variable {F B S : Type}

/-- The owner of a block. -/
inductive Owner where
  | args (i : Nat)
  | res (i : Nat)
  | call (i : Nat)
  | join (i : Nat)

/-- The thread the owner belongs to. -/
def Owner.tid : Owner → Nat
  | .args i => i
  | .res i => i
  | .call i => i
  | .join i => i

/-- The blocks a running thread has: its arguments, and a block for its result if there is one. -/
def Mem (P : Prog F B S) (hp : Nat → Option Cell) (own : Nat → Owner) (i : Nat) (th : Th F B) : Prop :=
  match th.fn with
  | none => th.res = none
  | some f =>
    ((∃ vs, hp th.args = some (.args vs)) ∧ own th.args = .args i) ∧
    if boxes (P.ret f) then ∃ p x, th.res = some p ∧ hp p = some (.box x) ∧ own p = .res i
    else th.res = none

/-- The word stands for the result. -/
def ResW (L : Nat) (P : Prog F B S) (hp : Nat → Option Cell) (own : Nat → Owner) (i : Nat) (th : Th F B)
    (f : F) (w : Word) (v : Val) : Prop :=
  if boxes (P.ret f) then
    ∃ p, th.res = some p ∧ w = .addr p ∧ hp p = some (.box (some v)) ∧ own p = .res i
  else th.res = none ∧ w = if zname (P.ret f) = "void" then .null else toLong L v

/-- A thread of the compiled program and a thread of the expected one. -/
def ThRel (L : Nat) (P : Prog F B S) (hp : Nat → Option Cell) (own : Nat → Owner) (joins : List Nat)
    (i : Nat) (th : Th F B) (st : Spec.Th F B) : Prop :=
  th.fn = st.fn ∧
  match th.phase with
  | .enter => ∃ f vs, th.fn = some f ∧ th.res = none ∧ hp th.args = some (.args vs) ∧
      own th.args = .args i ∧ st.st = .run (P.start f vs)
  | .body b => Mem P hp own i th ∧ st.st = .run b
  | .calling f a k => Mem P hp own i th ∧ ∃ b vs, P.next b = .spawn f vs k ∧ st.st = .run b ∧
      hp a = some (.args vs) ∧ own a = .call i
  | .joined p k => Mem P hp own i th ∧ ∃ v, hp p = some (.box (some v)) ∧ own p = .join i ∧
      st.st = .run (k v)
  | .loaded v p k => Mem P hp own i th ∧ (∃ x, hp p = some x) ∧ own p = .join i ∧ st.st = .run (k v)
  | .leave w => ∃ f v, th.fn = some f ∧ HasTy (P.ret f) v ∧ st.st = .done v ∧
      (∃ vs, hp th.args = some (.args vs)) ∧ own th.args = .args i ∧ ResW L P hp own i th f w v
  | .done w => ∃ v, st.st = .done v ∧ (th.fn = none → th.res = none) ∧
      ∀ f, th.fn = some f → HasTy (P.ret f) v ∧ (i ∉ joins → ResW L P hp own i th f w v)

/-- Why a block is still there. -/
def LiveAt (ths : List (Th F B)) (joins : List Nat) (p : Nat) : Owner → Prop
  | .args j => ∃ t, ths[j]? = some t ∧ t.fn ≠ none ∧ t.args = p ∧ ∀ w, t.phase ≠ .done w
  | .res j => ∃ t, ths[j]? = some t ∧ t.res = some p ∧ j ∉ joins
  | .call j => ∃ t f k, ths[j]? = some t ∧ t.phase = .calling f p k
  | .join j => ∃ t, ths[j]? = some t ∧ ((∃ k, t.phase = .joined p k) ∨ ∃ v k, t.phase = .loaded v p k)

/-- The relation between states. -/
structure Rel (L : Nat) (P : Prog F B S) (own : Nat → Owner) (c : Cfg F B S) (σ : Spec.Cfg F B S) :
    Prop where
  sh : c.sh = σ.sh
  joins : c.joins = σ.joins
  len : c.ths.length = σ.ths.length
  th : ∀ (i : Nat) (t : Th F B) (s : Spec.Th F B), c.ths[i]? = some t → σ.ths[i]? = some s →
    ThRel L P c.heap own c.joins i t s
  live : ∀ (p : Nat) (x : Cell), c.heap p = some x → LiveAt c.ths c.joins p (own p)
  joined : ∀ h, h ∈ c.joins → ∃ t w, c.ths[h]? = some t ∧ t.phase = .done w
  main : ∀ (i : Nat) (t : Th F B), c.ths[i]? = some t → (t.fn = none ↔ i = 0)
  some0 : 0 < c.ths.length

/-! ## Frames -/

theorem mem_frame {P : Prog F B S} {hp hp' : Nat → Option Cell} {own own' : Nat → Owner} {i : Nat}
    {th : Th F B} (h : Mem P hp own i th)
    (hf : ∀ p x, hp p = some x → (own p).tid = i → (∀ j, own p ≠ .call j) → (∀ j, own p ≠ .join j) →
      hp' p = some x ∧ own' p = own p) :
    Mem P hp' own' i th := by
  unfold Mem at *
  cases hfn : th.fn with
  | none => rw [hfn] at h; exact h
  | some f =>
    rw [hfn] at h
    obtain ⟨⟨⟨vs, ha⟩, ho⟩, hr⟩ := h
    have h1 := hf _ _ ha (by rw [ho]; rfl) (by rw [ho]; intro j e; cases e) (by rw [ho]; intro j e; cases e)
    refine ⟨⟨⟨vs, h1.1⟩, by rw [h1.2, ho]⟩, ?_⟩
    by_cases hb : boxes (P.ret f) = true
    · rw [if_pos hb] at hr ⊢
      obtain ⟨p, x, e1, e2, e3⟩ := hr
      have h2 := hf _ _ e2 (by rw [e3]; rfl) (by rw [e3]; intro j e; cases e) (by rw [e3]; intro j e; cases e)
      exact ⟨p, x, e1, h2.1, by rw [h2.2, e3]⟩
    · rw [if_neg hb] at hr ⊢
      exact hr

theorem resW_frame {L : Nat} {P : Prog F B S} {hp hp' : Nat → Option Cell} {own own' : Nat → Owner}
    {i : Nat} {th : Th F B} {f : F} {w : Word} {v : Val} (h : ResW L P hp own i th f w v)
    (hf : ∀ p x, hp p = some x → own p = .res i → hp' p = some x ∧ own' p = own p) :
    ResW L P hp' own' i th f w v := by
  unfold ResW at *
  by_cases hb : boxes (P.ret f) = true
  · rw [if_pos hb] at h ⊢
    obtain ⟨p, e1, e2, e3, e4⟩ := h
    have h2 := hf _ _ e3 e4
    exact ⟨p, e1, e2, h2.1, by rw [h2.2, e4]⟩
  · rw [if_neg hb] at h ⊢
    exact h

/-- A thread does not notice what happens to the blocks of others, or that others are joined. -/
theorem frame {L : Nat} {P : Prog F B S} {hp hp' : Nat → Option Cell} {own own' : Nat → Owner}
    {joins joins' : List Nat} {i : Nat} {th : Th F B} {st : Spec.Th F B}
    (h : ThRel L P hp own joins i th st)
    (hf : ∀ p x, hp p = some x → (own p).tid = i → hp' p = some x ∧ own' p = own p)
    (hj : ∀ x, x ∈ joins → x ∈ joins') :
    ThRel L P hp' own' joins' i th st := by
  unfold ThRel at *
  refine ⟨h.1, ?_⟩
  have h2 := h.2
  have hm : Mem P hp own i th → Mem P hp' own' i th :=
    fun hm => mem_frame hm (fun p x e1 e2 _ _ => hf p x e1 e2)
  have hr : ∀ f w v, ResW L P hp own i th f w v → ResW L P hp' own' i th f w v :=
    fun f w v hr => resW_frame hr (fun p x e1 e2 => hf p x e1 (by rw [e2]; rfl))
  cases hph : th.phase with
  | enter =>
    rw [hph] at h2
    obtain ⟨f, vs, e1, e2, e3, e4, e5⟩ := h2
    have := hf _ _ e3 (by rw [e4]; rfl)
    exact ⟨f, vs, e1, e2, this.1, by rw [this.2, e4], e5⟩
  | body b => rw [hph] at h2; exact ⟨hm h2.1, h2.2⟩
  | calling f a k =>
    rw [hph] at h2
    obtain ⟨h3, b, vs, e1, e2, e3, e4⟩ := h2
    have := hf _ _ e3 (by rw [e4]; rfl)
    exact ⟨hm h3, b, vs, e1, e2, this.1, by rw [this.2, e4]⟩
  | joined p k =>
    rw [hph] at h2
    obtain ⟨h3, v, e1, e2, e3⟩ := h2
    have := hf _ _ e1 (by rw [e2]; rfl)
    exact ⟨hm h3, v, this.1, by rw [this.2, e2], e3⟩
  | loaded v p k =>
    rw [hph] at h2
    obtain ⟨h3, ⟨x, e1⟩, e2, e3⟩ := h2
    have := hf _ _ e1 (by rw [e2]; rfl)
    exact ⟨hm h3, ⟨x, this.1⟩, by rw [this.2, e2], e3⟩
  | leave w =>
    rw [hph] at h2
    obtain ⟨f, v, e1, e2, e3, ⟨vs, e4⟩, e5, e6⟩ := h2
    have := hf _ _ e4 (by rw [e5]; rfl)
    exact ⟨f, v, e1, e2, e3, ⟨vs, this.1⟩, by rw [this.2, e5], hr _ _ _ e6⟩
  | done w =>
    rw [hph] at h2
    obtain ⟨v, e1, e2, e3⟩ := h2
    exact ⟨v, e1, e2, fun f ef => ⟨(e3 f ef).1, fun hn => hr _ _ _ ((e3 f ef).2 (fun hx => hn (hj _ hx)))⟩⟩

/-- The reasons of others stay. -/
theorem live_frame {ths : List (Th F B)} {joins joins' : List Nat} {p i : Nat} {th' : Th F B} {o : Owner}
    (h : LiveAt ths joins p o) (ho : o.tid ≠ i) (hj : ∀ x, x ≠ i → x ∈ joins' → x ∈ joins ∨ o ≠ .res x) :
    LiveAt (ths.set i th') joins' p o := by
  cases o with
  | args j =>
    have ho' : i ≠ j := fun e => ho e.symm
    obtain ⟨t, e, r⟩ := h
    exact ⟨t, by rw [List.getElem?_set_ne ho']; exact e, r⟩
  | res j =>
    have ho' : i ≠ j := fun e => ho e.symm
    obtain ⟨t, e, r, hn⟩ := h
    refine ⟨t, by rw [List.getElem?_set_ne ho']; exact e, r, fun hx => ?_⟩
    rcases hj j ho hx with h1 | h1
    · exact hn h1
    · exact h1 rfl
  | call j =>
    have ho' : i ≠ j := fun e => ho e.symm
    obtain ⟨t, f, k, e, r⟩ := h
    exact ⟨t, f, k, by rw [List.getElem?_set_ne ho']; exact e, r⟩
  | join j =>
    have ho' : i ≠ j := fun e => ho e.symm
    obtain ⟨t, e, r⟩ := h
    exact ⟨t, by rw [List.getElem?_set_ne ho']; exact e, r⟩

theorem get_set {α : Type} {l : List α} {i : Nat} {a x : α} (h : l[i]? = some x) : (l.set i a)[i]? = some a := by
  obtain ⟨hlt, _⟩ := List.getElem?_eq_some_iff.mp h
  rw [List.getElem?_set_self hlt]

/-- One thread moves; the futures joined stay the same. -/
theorem move {L : Nat} {P : Prog F B S} {own own' : Nat → Owner} {c : Cfg F B S} {σ : Spec.Cfg F B S}
    (R : Rel L P own c σ) {i : Nat} {th th' : Th F B} {st st' : Spec.Th F B} {hp' : Nat → Option Cell}
    {sh' : S} (hi : c.ths[i]? = some th) (hs : σ.ths[i]? = some st) (hfn : th'.fn = th.fn)
    (hrel : ThRel L P hp' own' c.joins i th' st')
    (hf : ∀ p x, c.heap p = some x → (own p).tid ≠ i → hp' p = some x ∧ own' p = own p)
    (hb : ∀ p x, hp' p = some x → (own' p).tid ≠ i → c.heap p = some x ∧ own' p = own p)
    (hl : ∀ p x, hp' p = some x → (own' p).tid = i → LiveAt (c.ths.set i th') c.joins p (own' p))
    (hd : ∀ w, th.phase ≠ .done w) :
    Rel L P own' ⟨sh', hp', c.ths.set i th', c.joins⟩ ⟨sh', σ.ths.set i st', σ.joins⟩ := by
  constructor
  · rfl
  · exact R.joins
  · simp [R.len]
  · intro j t s ht hs'
    simp only at ht hs'
    by_cases e : j = i
    · subst e
      rw [get_set hi] at ht; rw [get_set hs] at hs'
      cases ht; cases hs'
      exact hrel
    · rw [List.getElem?_set_ne (fun e' => e e'.symm)] at ht hs'
      exact frame (R.th j t s ht hs') (fun p x e1 e2 => hf p x e1 (by rw [e2]; exact e)) (fun _ h => h)
  · intro p x hx
    by_cases e : (own' p).tid = i
    · exact hl p x hx e
    · have := hb p x hx e
      simp only
      have h2 := R.live p x this.1
      rw [← this.2] at h2
      exact live_frame h2 e (fun x _ h => Or.inl h)
  · intro h hh
    obtain ⟨t, w, e1, e2⟩ := R.joined h hh
    have hne : i ≠ h := by
      intro e; subst e; rw [hi] at e1; cases e1; exact hd w e2
    exact ⟨t, w, by rw [List.getElem?_set_ne hne]; exact e1, e2⟩
  · intro j t ht
    simp only at ht
    by_cases e : j = i
    · subst e
      rw [get_set hi] at ht; cases ht
      rw [hfn]; exact R.main j th hi
    · rw [List.getElem?_set_ne (fun e' => e e'.symm)] at ht
      exact R.main j t ht
  · simpa using R.some0

/-- The own reasons stay as long as the thread has not returned. -/
theorem live_stay {ths : List (Th F B)} {joins joins' : List Nat} {p i : Nat} {th th' : Th F B} {o : Owner}
    (h : LiveAt ths joins p o) (ho : o.tid = i) (hi : ths[i]? = some th) (hj : i ∉ joins')
    (h1 : th'.fn = th.fn) (h2 : th'.args = th.args) (h3 : ∀ q, th.res = some q → th'.res = some q)
    (h4 : ∀ w, th'.phase ≠ .done w)
    (h5 : ∀ f k, th.phase = .calling f p k → ∃ f k, th'.phase = .calling f p k)
    (h6 : (∃ k, th.phase = .joined p k) ∨ (∃ v k, th.phase = .loaded v p k) →
      (∃ k, th'.phase = .joined p k) ∨ ∃ v k, th'.phase = .loaded v p k) :
    LiveAt (ths.set i th') joins' p o := by
  have hg := get_set (a := th') hi
  subst ho
  cases o with
  | args j =>
    obtain ⟨t, e, r1, r2, r3⟩ := h
    rw [show (Owner.args j).tid = j from rfl] at *
    rw [hi] at e; cases e
    exact ⟨th', hg, by rw [h1]; exact r1, by rw [h2]; exact r2, h4⟩
  | res j =>
    obtain ⟨t, e, r, hn⟩ := h
    rw [show (Owner.res j).tid = j from rfl] at *
    rw [hi] at e; cases e
    exact ⟨th', hg, h3 _ r, hj⟩
  | call j =>
    obtain ⟨t, f, k, e, r⟩ := h
    rw [show (Owner.call j).tid = j from rfl] at *
    rw [hi] at e; cases e
    obtain ⟨f', k', e'⟩ := h5 f k r
    exact ⟨th', f', k', hg, e'⟩
  | join j =>
    obtain ⟨t, e, r⟩ := h
    rw [show (Owner.join j).tid = j from rfl] at *
    rw [hi] at e; cases e
    exact ⟨th', hg, h6 r⟩

/-- Thread `i` joins thread `h`. -/
theorem moveJoin {L : Nat} {P : Prog F B S} {own own' : Nat → Owner} {c : Cfg F B S} {σ : Spec.Cfg F B S}
    (R : Rel L P own c σ) {i h : Nat} {th th' t : Th F B} {st st' : Spec.Th F B} {w : Word} {b : B}
    (hi : c.ths[i]? = some th) (hs : σ.ths[i]? = some st) (hp : th.phase = .body b)
    (ht : c.ths[h]? = some t) (hw : t.phase = .done w) (hne : h ≠ i)
    (hfn : th'.fn = th.fn) (ha : th'.args = th.args) (hr : th'.res = th.res)
    (hnd : ∀ w, th'.phase ≠ .done w)
    (hrel : ThRel L P c.heap own' (h :: c.joins) i th' st')
    (hres : ∀ p x, c.heap p = some x → own' p ≠ .res h)
    (hown : ∀ p x, c.heap p = some x → own' p = own p ∨
      (own p = .res h ∧ own' p = .join i ∧ ∃ k, th'.phase = .joined p k)) :
    Rel L P own' ⟨c.sh, c.heap, c.ths.set i th', h :: c.joins⟩ ⟨σ.sh, σ.ths.set i st', h :: σ.joins⟩ := by
  have hij : i ∉ h :: c.joins := by
    intro hm
    rcases List.mem_cons.mp hm with e | e
    · exact hne e.symm
    · obtain ⟨t', w', e1, e2⟩ := R.joined i e
      rw [hi] at e1; cases e1; rw [hp] at e2; cases e2
  constructor
  · exact R.sh
  · simp [R.joins]
  · simp [R.len]
  · intro j tj sj htj hsj
    simp only at htj hsj
    by_cases e : j = i
    · subst e
      rw [get_set hi] at htj; rw [get_set hs] at hsj
      cases htj; cases hsj
      exact hrel
    · rw [List.getElem?_set_ne (fun e' => e e'.symm)] at htj hsj
      by_cases eh : j = h
      · subst eh
        have h0 := R.th j tj sj htj hsj
        rw [ht] at htj; cases htj
        unfold ThRel at h0 ⊢
        rw [hw] at h0 ⊢
        refine ⟨h0.1, ?_⟩
        obtain ⟨v, e1, e2, e3⟩ := h0.2
        exact ⟨v, e1, e2, fun f ef => ⟨(e3 f ef).1, fun hn => absurd (List.mem_cons_self) hn⟩⟩
      · refine frame (R.th j tj sj htj hsj) (fun p x e1 e2 => ?_) (fun _ hx => List.mem_cons_of_mem _ hx)
        refine ⟨e1, ?_⟩
        rcases hown p x e1 with h1 | ⟨h1, _, _⟩
        · exact h1
        · rw [h1] at e2; exact absurd e2 (fun e3 => eh e3.symm)
  · intro p x hx
    simp only at hx ⊢
    rcases hown p x hx with h1 | ⟨_, h1, k, hk⟩
    · have hl := R.live p x hx
      rw [← h1] at hl
      by_cases e : (own' p).tid = i
      · refine live_stay hl e hi hij hfn ha (fun q hq => by rw [hr]; exact hq) hnd ?_ ?_
        · intro f k hc; rw [hp] at hc; cases hc
        · intro hc
          rcases hc with ⟨k, hc⟩ | ⟨v, k, hc⟩ <;> · rw [hp] at hc; cases hc
      · refine live_frame hl e (fun y _ hy => ?_)
        rcases List.mem_cons.mp hy with e1 | e1
        · right; rw [e1]; exact hres p x hx
        · left; exact e1
    · rw [h1]
      exact ⟨th', get_set hi, Or.inl ⟨k, hk⟩⟩
  · intro j hj
    simp only at hj ⊢
    have : ∃ t w, c.ths[j]? = some t ∧ t.phase = .done w := by
      rcases List.mem_cons.mp hj with e | e
      · rw [e]; exact ⟨t, w, ht, hw⟩
      · exact R.joined j e
    obtain ⟨t', w', e1, e2⟩ := this
    have hne' : i ≠ j := by
      intro e; subst e; rw [hi] at e1; cases e1; rw [hp] at e2; cases e2
    exact ⟨t', w', by rw [List.getElem?_set_ne hne']; exact e1, e2⟩
  · intro j t' ht'
    simp only at ht'
    by_cases e : j = i
    · subst e
      rw [get_set hi] at ht'; cases ht'
      rw [hfn]; exact R.main j th hi
    · rw [List.getElem?_set_ne (fun e' => e e'.symm)] at ht'
      exact R.main j t' ht'
  · simpa using R.some0

/-- Thread `i` starts a thread. -/
theorem moveNew {L : Nat} {P : Prog F B S} {own : Nat → Owner} {c : Cfg F B S} {σ : Spec.Cfg F B S}
    (R : Rel L P own c σ) {i a : Nat} {th : Th F B} {fn : Option F} {b : B} {f : F} {vs : List Val}
    {k : Nat → B}
    (hi : c.ths[i]? = some th) (hs : σ.ths[i]? = some ⟨fn, .run b⟩) (hp : th.phase = .calling f a k) :
    P.next b = .spawn f vs k → c.heap a = some (.args vs) →
    Rel L P (fun q => if q = a then .args c.ths.length else own q)
      ⟨c.sh, c.heap, c.ths.set i { th with phase := .body (k c.ths.length) } ++ [⟨some f, a, none, .enter⟩],
        c.joins⟩
      ⟨σ.sh, σ.ths.set i ⟨fn, .run (k σ.ths.length)⟩ ++ [⟨some f, .run (P.start f vs)⟩], σ.joins⟩ := by
  intro hsp hcell
  have hR := R.th i th _ hi hs
  unfold ThRel at hR
  rw [hp] at hR
  obtain ⟨hfn, hm, b', vs', e1, e2, e3, e4⟩ := hR
  have hlt : i < c.ths.length := (List.getElem?_eq_some_iff.mp hi).1
  have hother : ∀ p, own p ≠ .call i → p ≠ a := by
    intro p hpne e; rw [e] at hpne; exact hpne e4
  have hlen : (c.ths.set i { th with phase := .body (k c.ths.length) }).length = c.ths.length := by simp
  have hlenσ : (σ.ths.set i ⟨fn, .run (k σ.ths.length)⟩).length = c.ths.length := by simp [R.len]
  have hget : ∀ (j : Nat) (x : Th F B), j < c.ths.length →
      (c.ths.set i { th with phase := .body (k c.ths.length) })[j]? = some x →
      (c.ths.set i { th with phase := .body (k c.ths.length) } ++ [⟨some f, a, none, .enter⟩])[j]? = some x := by
    intro j x hj hx
    rw [List.getElem?_append_left (by rw [hlen]; exact hj)]; exact hx
  constructor
  · exact R.sh
  · exact R.joins
  · simp [R.len]
  · intro j tj sj htj hsj
    simp only at htj hsj
    by_cases hj : j < c.ths.length
    · rw [List.getElem?_append_left (by rw [hlen]; exact hj)] at htj
      rw [List.getElem?_append_left (by rw [hlenσ]; exact hj)] at hsj
      by_cases e : j = i
      · subst e
        rw [get_set hi] at htj; rw [get_set hs] at hsj
        cases htj; cases hsj
        unfold ThRel
        refine ⟨hfn, ?_, by simp [R.len]⟩
        refine mem_frame hm (fun p x h1 h2 h3 _ => ⟨h1, ?_⟩)
        rw [if_neg (hother p (h3 j))]
      · rw [List.getElem?_set_ne (fun e' => e e'.symm)] at htj hsj
        refine frame (R.th j tj sj htj hsj) (fun p x h1 h2 => ⟨h1, ?_⟩) (fun _ h => h)
        rw [if_neg (hother p (fun e' => by rw [e'] at h2; exact e h2.symm))]
    · have hj' : j = c.ths.length := by
        have := (List.getElem?_eq_some_iff.mp htj).1
        simp at this; omega
      subst hj'
      rw [List.getElem?_append_right (by rw [hlen]; exact Nat.le_refl _), hlen, Nat.sub_self] at htj
      rw [List.getElem?_append_right (by rw [hlenσ]; exact Nat.le_refl _), hlenσ, Nat.sub_self] at hsj
      cases htj; cases hsj
      unfold ThRel
      exact ⟨rfl, f, vs, rfl, rfl, hcell, by simp, rfl⟩
  · intro p x hx
    simp only at hx ⊢
    by_cases e : p = a
    · rw [if_pos e]
      refine ⟨⟨some f, a, none, .enter⟩, ?_, by simp, e.symm, by intro w hw; cases hw⟩
      rw [List.getElem?_append_right (by rw [hlen]; exact Nat.le_refl _), hlen, Nat.sub_self]; rfl
    · rw [if_neg e]
      have hl := R.live p x hx
      have hl' : LiveAt (c.ths.set i { th with phase := .body (k c.ths.length) }) c.joins p (own p) := by
        by_cases et : (own p).tid = i
        · refine live_stay hl et hi ?_ rfl rfl (fun _ h => h) (fun w hw => by cases hw) ?_ ?_
          · intro hin
            obtain ⟨t', w', e5, e6⟩ := R.joined i hin
            rw [hi] at e5; cases e5; rw [hp] at e6; cases e6
          · intro f' k' hc; rw [hp] at hc; cases hc; exact absurd rfl e
          · intro hc
            rcases hc with ⟨k', hc⟩ | ⟨v, k', hc⟩ <;> · rw [hp] at hc; cases hc
        · exact live_frame hl et (fun _ _ h => Or.inl h)
      cases ho : own p with
      | args j =>
        rw [ho] at hl'; obtain ⟨t, g, r⟩ := hl'
        exact ⟨t, hget j t (by have := (List.getElem?_eq_some_iff.mp g).1; simpa using this) g, r⟩
      | res j =>
        rw [ho] at hl'; obtain ⟨t, g, r⟩ := hl'
        exact ⟨t, hget j t (by have := (List.getElem?_eq_some_iff.mp g).1; simpa using this) g, r⟩
      | call j =>
        rw [ho] at hl'; obtain ⟨t, f', k', g, r⟩ := hl'
        exact ⟨t, f', k', hget j t (by have := (List.getElem?_eq_some_iff.mp g).1; simpa using this) g, r⟩
      | join j =>
        rw [ho] at hl'; obtain ⟨t, g, r⟩ := hl'
        exact ⟨t, hget j t (by have := (List.getElem?_eq_some_iff.mp g).1; simpa using this) g, r⟩
  · intro h hh
    simp only at hh ⊢
    obtain ⟨t, w, g1, g2⟩ := R.joined h hh
    have hne : i ≠ h := by
      intro e; subst e; rw [hi] at g1; cases g1; rw [hp] at g2; cases g2
    refine ⟨t, w, hget h t (List.getElem?_eq_some_iff.mp g1).1 ?_, g2⟩
    rw [List.getElem?_set_ne hne]; exact g1
  · intro j t ht
    simp only at ht
    by_cases hj : j < c.ths.length
    · rw [List.getElem?_append_left (by rw [hlen]; exact hj)] at ht
      by_cases e : j = i
      · subst e
        rw [get_set hi] at ht; cases ht
        exact R.main j th hi
      · rw [List.getElem?_set_ne (fun e' => e e'.symm)] at ht
        exact R.main j t ht
    · have hj' : j = c.ths.length := by
        have := (List.getElem?_eq_some_iff.mp ht).1
        simp at this; omega
      subst hj'
      rw [List.getElem?_append_right (by rw [hlen]; exact Nat.le_refl _), hlen, Nat.sub_self] at ht
      cases ht
      have := R.some0
      constructor
      · intro h; cases h
      · intro h; omega
  · have := R.some0; simp

end

end Verif.Async
