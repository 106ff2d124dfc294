import Verif.Derive.Props
import Verif.Json.Props

/-! # Derived JSON methods (C74) -/

namespace Verif.Derive

open Generics (Name Ty cText txt)
open DeclOrder (Prim)
open Json (Json Items Entries Table)
open Spec

variable {D : Type}

/-! ## Texts and keys -/

theorem hasSub_iff (w : Name) : ∀ t : Name, hasSub w t = true ↔ w <:+: t
  | [] => by simp [hasSub]
  | c :: t => by
    simp only [hasSub, Bool.or_eq_true, hasSub_iff w t, List.infix_cons_iff,
      List.isPrefixOf_iff_prefix]

theorem ident_lt {c : Char} (h : Generics.isIdent c = true) : c.toNat < 256 := by
  simp only [Generics.isIdent, Bool.or_eq_true, Bool.and_eq_true, decide_eq_true_eq, Char.le_def,
    UInt32.le_iff_toNat_le] at h
  rcases h with ((⟨_, h⟩ | ⟨_, h⟩) | ⟨_, h⟩) | h
  · exact Nat.lt_of_le_of_lt h (by decide)
  · exact Nat.lt_of_le_of_lt h (by decide)
  · exact Nat.lt_of_le_of_lt h (by decide)
  · subst h; decide

theorem byte_inj {c d : Char} (hc : c.toNat < 256) (hd : d.toNat < 256)
    (h : UInt8.ofNat c.toNat = UInt8.ofNat d.toNat) : c = d := by
  have h' := congrArg UInt8.toNat h
  simp only [UInt8.toNat_ofNat'] at h'
  rw [Nat.mod_eq_of_lt hc, Nat.mod_eq_of_lt hd] at h'
  exact Char.toNat_inj.1 h'

theorem key_inj : ∀ {m n : Name}, m.all Generics.isIdent = true → n.all Generics.isIdent = true →
    key m = key n → m = n
  | [], [], _, _, _ => rfl
  | [], _ :: _, _, _, h => by simp [key] at h
  | _ :: _, [], _, _, h => by simp [key] at h
  | c :: m, d :: n, hm, hn, h => by
    simp only [List.all_cons, Bool.and_eq_true] at hm hn
    simp only [key, List.map_cons, List.cons.injEq] at h
    rw [byte_inj (ident_lt hm.1) (ident_lt hn.1) h.1, key_inj hm.2 hn.2 h.2]

/-! ## Reading one field -/

/-- What `from_json` makes of the entry found for a field. -/
def readField (F : Flt D) (P : List (Decl D)) (ft : Name) (o : Option (Json D)) : Res (Val D) :=
  match jkind ft with
  | .int => match o with
    | some (.num d) => do
        let i ← toC F d
        .ok (.num (conv ft i))
    | _ => .ok (.num (conv ft 0))
  | .dbl => match o with
    | some (.num d) => .ok (.dbl d)
    | _ => .ok (.dbl (F.ofInt 0))
  | .bool => match o with
    | some (.bool b) => .ok (.bool b)
    | _ => .ok (.bool false)
  | .cstr => match o with
    | some (.str s) => .ok (.cstr (some s))
    | _ => .ok (.cstr (some []))
  | .string => match o with
    | some (.str s) => .ok (.string s)
    | _ => .ok (.string [])
  | .strs => match o with
    | some (.arr xs) => .ok (.strs (strings xs))
    | _ => .ok (.strs [])
  | .nested =>
    match find P ft with
    | some d => match d.fromJson, d.body with
      | true, .strct gs =>
        match o with
        | none => .ub
        | some j => (fromFields F P j gs).bind fun vs => .ok (.strct vs)
      | _, _ => .panic
    | none => .panic

theorem fromFields_nil (F : Flt D) (P : List (Decl D)) (j : Json D) :
    fromFields F P j [] = .ok .nil := by rw [fromFields.eq_def]

theorem fromFields_cons (F : Flt D) (P : List (Decl D)) (j : Json D) (f : Field)
    (fs : List Field) : fromFields F P j (f :: fs) = (do
      let v ← readField F P (cText f.ty) (jget j (key f.name))
      let vs ← fromFields F P j fs
      pure (.cons v vs)) := by
  rw [fromFields.eq_def]
  simp only [readField]
  congr 1
  cases jkind (cText f.ty) with
  | int => 
    simp only [getInt]
    split <;> simp_all
  | dbl => simp only [getFloat]; split <;> simp_all
  | bool => simp only [getBool]; split <;> simp_all
  | cstr => simp only [getString]; split <;> simp_all
  | string => simp only [getString]; split <;> simp_all
  | strs => simp only [getStrings]; split <;> simp_all
  | nested =>
    simp only
    cases find P (cText f.ty) with
    | none => rfl
    | some d =>
      simp only
      cases d.fromJson with
      | false => rfl
      | true =>
        cases d.body with
        | enm => rfl
        | strct gs =>
          simp only
          split <;> simp_all

/-! ## The way there and back -/

/-- A relation between a JSON value and what is read in its place: equal leaves, and every entry
of an object is there. -/
structure Keeps (R : Json D → Json D → Prop) : Prop where
  num : ∀ n w, R (.num n) w → w = .num n
  bool : ∀ b w, R (.bool b) w → w = .bool b
  str : ∀ s w, R (.str s) w → w = .str s
  strs : ∀ l w, R (.arr (items l)) w → w = .arr (items l)
  obj : ∀ es w, R (.obj es) w → ∃ gs, w = .obj gs ∧
    ∀ q v, es.get q = some v → ∃ w', gs.get q = some w' ∧ R v w'

theorem cut_self : ∀ {s : List UInt8}, 0 ∉ s → cut s = s
  | [], _ => rfl
  | c :: s, h => by
    simp only [List.mem_cons, not_or] at h
    have := cut_self h.2
    unfold cut at *
    rw [List.takeWhile_cons, if_pos (by simpa using Ne.symm h.1), this]

theorem strings_items : ∀ l : List (List UInt8), (∀ s ∈ l, 0 ∉ s) →
    strings (items (D := D) l) = l
  | [], _ => rfl
  | s :: l, h => by
    simp only [items, strings, cut_self (h s (by simp)), strings_items l (fun t ht => h t (by simp [ht]))]

theorem jkind_nested {P : List (Decl D)} (hP : JGood P) {d : Decl D} (hm : d ∈ P)
    (ht : d.toJson = true) : jkind d.name = .nested := by
  obtain ⟨h1, h2, h3, h4, h5⟩ := hP.name d hm ht
  have h6 := hP.vec d hm ht
  have h7 : d.name ≠ "char*".toList := fun h => h5 (by rw [h]; decide)
  unfold jkind
  rw [if_neg h1, if_neg h2, if_neg h3, if_neg h7, if_neg h4,
    if_neg (by rw [hasSub_iff, hasSub_iff]; exact h6)]

theorem conv_small {i : Int} (h0 : 0 ≤ i) (h1 : i < 2 ^ 31) (ft : Name) : conv ft i = i := by
  unfold conv
  have a : i % 2 ^ 32 = i := Int.emod_eq_of_lt h0 (by omega)
  have b : i % 2 ^ 64 = i := Int.emod_eq_of_lt h0 (by omega)
  rw [a, b]
  split
  · rfl
  · split <;> rfl

/-- A number that went through `double` and `int`. -/
theorem readInt (F : Flt D) (P : List (Decl D)) {ft : Name} (hk : jkind ft = .int) {i : Int}
    (h0 : -2 ^ 31 ≤ i) (h1 : i < 2 ^ 31) :
    readField F P ft (some (.num (F.ofInt i))) = .ok (.num (conv ft i)) := by
  unfold readField
  rw [hk]
  simp only [toC, F.round i h0 h1, h0, h1, and_self, if_true, Res.ok_bind]

mutual
theorem toVal_back (F : Flt D) (tb : Table D) {P : List (Decl D)} (hP : JGood P)
    {R : Json D → Json D → Prop} (hR : Keeps R) : ∀ (v : Val D) (t : Ty), JTyped P t v →
    ∃ j, toVal F tb P (cText t) (jkind (cText t)) v = .ok j ∧
      ∀ w, R j w → readField F P (cText t) (some w) = .ok v := by
  intro v t h
  have hs : ∀ (i : Int), jkind (cText t) = .int → -2 ^ 31 ≤ i → i < 2 ^ 31 →
      conv (cText t) i = i → ∃ j, toVal F tb P (cText t) (jkind (cText t)) (.num i) = .ok j ∧
        ∀ w, R j w → readField F P (cText t) (some w) = .ok (.num i) := by
    intro i hk h0 h1 hc
    refine ⟨.num (F.ofInt i), by rw [hk, toVal], ?_⟩
    intro w hw
    rw [hR.num _ _ hw, readInt F P hk h0 h1, hc]
  cases v with
  | strct vs =>
    rw [JTyped.eq_def] at h
    split at h <;> try contradiction
    next n vs' heq =>
    injection heq with heq
    subst heq
    obtain ⟨d, fs, hd, ht, hf, hb, hv⟩ := h
    obtain ⟨hm, hn⟩ := decl_mem hd
    subst hn
    obtain ⟨hnd, hid⟩ := hP.fields d hm ht fs hb
    obtain ⟨es, he, _, hback⟩ := toObj_back F tb hP hR vs fs .nil hv hnd hid
    refine ⟨.obj es, ?_, fun w hw => ?_⟩
    · rw [cText_name, jkind_nested hP hm ht, toVal, find_decl, hd]
      simp only [ht, hb, he]
      rfl
    · obtain ⟨gs, rfl, hg⟩ := hR.obj _ _ hw
      unfold readField
      rw [cText_name, jkind_nested hP hm ht]
      simp only [find_decl, hd, hf, hb]
      rw [hback (.obj gs) hg]
      rfl
  | num i =>
    rw [JTyped.eq_def] at h
    split at h <;> try contradiction
    all_goals
      next heq =>
      injection heq with heq
      subst heq
      first
        | exact hs _ (by decide) h.1 h.2 rfl
        | exact hs _ (by decide) (by omega) h.2 (conv_small h.1 h.2 _)
  | bool b =>
    rw [JTyped.eq_def] at h
    split at h <;> try contradiction
    next heq =>
    injection heq with heq
    subst heq
    refine ⟨.bool _, rfl, fun w hw => ?_⟩
    rw [hR.bool _ _ hw]; rfl
  | dbl d =>
    rw [JTyped.eq_def] at h
    split at h <;> try contradiction
    next heq =>
    injection heq with heq
    subst heq
    refine ⟨.num _, rfl, fun w hw => ?_⟩
    rw [hR.num _ _ hw]; rfl
  | cstr s =>
    rw [JTyped.eq_def] at h
    split at h <;> try contradiction
    next heq =>
    injection heq with heq
    subst heq
    cases s with
    | none => exact absurd rfl h
    | some s =>
      refine ⟨.str s, rfl, fun w hw => ?_⟩
      rw [hR.str _ _ hw]; rfl
  | string s =>
    rw [JTyped.eq_def] at h
    split at h <;> try contradiction
    next heq =>
    injection heq with heq
    subst heq
    obtain ⟨rfl, h⟩ := h
    refine ⟨.str (cut s), rfl, fun w hw => ?_⟩
    rw [hR.str _ _ hw, cut_self h]; rfl
  | strs l =>
    rw [JTyped.eq_def] at h
    split at h <;> try contradiction
    next heq =>
    injection heq with heq
    subst heq
    obtain ⟨rfl, rfl, h⟩ := h
    have hk : jkind (cText (.app "Vec".toList (.name "String".toList))) = .strs := by decide
    refine ⟨.arr (items l), by rw [hk, toVal], fun w hw => ?_⟩
    rw [hR.strs _ _ hw]
    unfold readField
    rw [hk]
    simp only [strings_items l h]
  | addr a =>
    rw [JTyped.eq_def] at h
    split at h <;> contradiction
  | enm i p =>
    rw [JTyped.eq_def] at h
    split at h <;> contradiction
  | arr vs =>
    rw [JTyped.eq_def] at h
    split at h <;> contradiction

theorem toObj_back (F : Flt D) (tb : Table D) {P : List (Decl D)} (hP : JGood P)
    {R : Json D → Json D → Prop} (hR : Keeps R) : ∀ (vs : Vals D) (fs : List Field)
    (es : Entries D), JTypedAll P (fs.map (·.ty)) vs → (fs.map (·.name)).Nodup →
    (∀ f ∈ fs, f.name.all Generics.isIdent = true) →
    ∃ es', toObj F tb P fs vs es = .ok es' ∧
      (∀ q, (∀ f ∈ fs, q ≠ key f.name) → es'.get q = es.get q) ∧
      ∀ J, (∀ q v, es'.get q = some v → ∃ w, jget J q = some w ∧ R v w) →
        fromFields F P J fs = .ok vs := by
  intro vs fs es hv hnd hid
  cases fs with
  | nil =>
    cases vs with
    | nil => exact ⟨es, rfl, fun _ _ => rfl, fun J _ => fromFields_nil F P J⟩
    | cons => simp [JTypedAll] at hv
  | cons f fs =>
    cases vs with
    | nil => simp [JTypedAll] at hv
    | cons v vs =>
      simp only [List.map_cons, JTypedAll] at hv
      simp only [List.map_cons, List.nodup_cons] at hnd
      obtain ⟨j, hj, hjb⟩ := toVal_back F tb hP hR v f.ty hv.1
      obtain ⟨es', he, hkeep, hback⟩ := toObj_back F tb hP hR vs fs
        (tb.put es (key f.name) j) hv.2 hnd.2 (fun g hg => hid g (by simp [hg]))
      refine ⟨es', ?_, ?_, ?_⟩
      · simp only [toObj, hj, Res.ok_bind, he]
      · intro q hq
        rw [hkeep q (fun g hg => hq g (by simp [hg])), tb.get_put,
          if_neg (hq f (by simp))]
      · intro J hJ
        have hk : es'.get (key f.name) = some j := by
          rw [hkeep, tb.get_put, if_pos rfl]
          intro g hg h
          have := key_inj (hid f (by simp)) (hid g (by simp [hg])) h
          exact hnd.1 (this ▸ List.mem_map_of_mem hg)
        obtain ⟨w, hw, hr⟩ := hJ _ _ hk
        rw [fromFields_cons, hw, hjb w hr, hback J hJ]
        rfl
end

theorem keeps_eq : Keeps (D := D) (· = ·) where
  num := fun _ _ h => h.symm
  bool := fun _ _ h => h.symm
  str := fun _ _ h => h.symm
  strs := fun _ _ h => h.symm
  obj := fun es _ h => ⟨es, h.symm, fun _ v hv => ⟨v, hv, rfl⟩⟩

theorem eqv_items : ∀ (l : List (List UInt8)) (ys : Items D),
    Json.Spec.Eqv.EqvItems (items l) ys → ys = items l
  | [], ys, h => by simpa [items, Json.Spec.Eqv.EqvItems] using h
  | s :: l, ys, h => by
    simp only [items, Json.Spec.Eqv.EqvItems] at h
    obtain ⟨y, ys', rfl, h1, h2⟩ := h
    simp only [Json.Spec.Eqv] at h1
    rw [h1, eqv_items l ys' h2, items]

theorem eqv_get : ∀ (es gs : Entries D), Json.Spec.Eqv.EqvEntries es gs → ∀ q v,
    es.get q = some v → ∃ w, gs.get q = some w ∧ Json.Spec.Eqv v w
  | .nil, _, _, _, _, h => by simp [Entries.get] at h
  | .cons k u es, gs, he, q, v, h => by
    simp only [Json.Spec.Eqv.EqvEntries] at he
    simp only [Entries.get] at h
    split at h
    · next hk =>
      injection h with h
      subst h hk
      exact he.1
    · exact eqv_get es gs he.2 q v h

theorem keeps_eqv : Keeps (D := D) Json.Spec.Eqv where
  num := fun _ _ h => by simpa [Json.Spec.Eqv] using h
  bool := fun _ _ h => by simpa [Json.Spec.Eqv] using h
  str := fun _ _ h => by simpa [Json.Spec.Eqv] using h
  strs := fun l w h => by
    simp only [Json.Spec.Eqv] at h
    obtain ⟨ys, rfl, h⟩ := h
    rw [eqv_items l ys h]
  obj := fun es w h => by
    simp only [Json.Spec.Eqv] at h
    obtain ⟨gs, rfl, _, h⟩ := h
    exact ⟨gs, rfl, eqv_get es gs h⟩

/-- C74 (partial): for every program whose structs have names not taken for other types and
fields with different names, and every value of a struct that derives both methods whose
integers fit an `int`, whose C strings are not NULL and whose `String`s have no NUL bytes,
`from_json(to_json(v))` is `v`, for nested structs and lists of strings too.
Missing from the full claim: larger integers (`json_i64_violated`, `json_u32_violated`), other
types of fields (`json_type_violated`), NULL (`json_null_violated`), NUL bytes
(`json_nul_violated`), names with `Vec` and `String` in them (`json_vec_name_violated`), long
names (`json_overflow_violated`). -/
theorem json_partial (F : Flt D) (tb : Table D) {P : List (Decl D)} (hP : JGood P) (n : Name)
    (vs : Vals D) (h : JTyped P (.name n) (.strct vs)) :
    ∃ j, toJson F tb P n (.strct vs) = .ok j ∧ fromJson F P n j = .ok (.strct vs) := by
  rw [JTyped] at h
  obtain ⟨d, fs, hd, ht, hf, hb, hv⟩ := h
  obtain ⟨hm, _⟩ := decl_mem hd
  obtain ⟨hnd, hid⟩ := hP.fields d hm ht fs hb
  obtain ⟨es, he, _, hback⟩ := toObj_back F tb hP keeps_eq vs fs .nil hv hnd hid
  refine ⟨.obj es, ?_, ?_⟩
  · simp [toJson, find_decl, hd, ht, hb, he]
  · simp [fromJson, find_decl, hd, hf, hb, hback (.obj es) (fun q v hq => ⟨v, hq, rfl⟩)]

/-- C74 (partial): the method does not depend on how the object is stored: any JSON value equal to
the one written gives the same struct. -/
theorem json_any_order (F : Flt D) (tb : Table D) {P : List (Decl D)} (hP : JGood P) (n : Name)
    (vs : Vals D) (h : JTyped P (.name n) (.strct vs)) :
    ∃ j, toJson F tb P n (.strct vs) = .ok j ∧
      ∀ w, Json.Spec.Eqv j w → fromJson F P n w = .ok (.strct vs) := by
  rw [JTyped] at h
  obtain ⟨d, fs, hd, ht, hf, hb, hv⟩ := h
  obtain ⟨hm, _⟩ := decl_mem hd
  obtain ⟨hnd, hid⟩ := hP.fields d hm ht fs hb
  obtain ⟨es, he, _, hback⟩ := toObj_back F tb hP keeps_eqv vs fs .nil hv hnd hid
  refine ⟨.obj es, ?_, ?_⟩
  · simp [toJson, find_decl, hd, ht, hb, he]
  · intro w hw
    obtain ⟨gs, rfl, hg⟩ := keeps_eqv.obj _ _ hw
    simp [fromJson, find_decl, hd, hf, hb, hback (.obj gs) hg]

/-! ## Through text -/

theorem into_ok {n : Nat} {t u : Name} (h : into n t = .ok u) : t.length < n ∧ u = t := by
  unfold into at h
  split at h
  · next hl => injection h with h; exact ⟨hl, h.symm⟩
  · cases h

theorem bind_ok {α β : Type} {x : Res α} {f : α → Res β} {b : β} (h : (x >>= f) = .ok b) :
    ∃ a, x = .ok a ∧ f a = .ok b := by
  cases x with
  | ok a => exact ⟨a, rfl, h⟩
  | panic => cases h
  | ub => cases h

theorem initLoop_names : ∀ (fs : List Field) (first : Bool) (room : Nat) (body t : Name),
    initLoop first room fs body = .ok t → ∀ f ∈ fs, f.name.length ≤ 61
  | [], _, _, _, _, _, f, hf => by cases hf
  | g :: fs, first, room, body, t, h, f, hf => by
    simp only [initLoop] at h
    obtain ⟨b1, _, h⟩ := bind_ok h
    obtain ⟨i, hi, h⟩ := bind_ok h
    obtain ⟨b2, _, h⟩ := bind_ok h
    simp only [List.mem_cons] at hf
    rcases hf with rfl | hf
    · have := (into_ok hi).1
      simp only [List.length_append] at this
      have h5 : (": _f_".toList).length = 5 := by decide
      omega
    · exact initLoop_names fs _ _ _ _ h f hf

theorem fromText_names {n t : Name} {fs : List Field} (h : fromText n fs = .ok t) :
    ∀ f ∈ fs, f.name.length ≤ 61 := by
  unfold fromText at h
  obtain ⟨_, _, h⟩ := bind_ok h
  obtain ⟨_, _, h⟩ := bind_ok h
  obtain ⟨_, h3, _⟩ := bind_ok h
  exact initLoop_names fs _ _ _ _ h3

theorem plain_key {n : Name} (h : n.all Generics.isIdent = true) (hl : n.length ≤ 61) :
    Json.Spec.PlainKey (key n) := by
  have hb : ∀ c : Char, Generics.isIdent c = false → c.toNat < 256 → UInt8.ofNat c.toNat ∉ key n := by
    intro c hc hc' hm
    unfold key at hm
    obtain ⟨d, hd, he⟩ := List.mem_map.1 hm
    have hid := List.all_eq_true.1 h d hd
    rw [byte_inj (ident_lt hid) hc' he] at hid
    rw [hc] at hid
    cases hid
  refine ⟨hb (Char.ofNat 0) (by decide) (by decide), hb '"' (by decide) (by decide),
    hb '\\' (by decide) (by decide), ?_⟩
  simp only [key, List.length_map]; omega

/-- What is known of the entries while the fields are set. -/
def Inv (io : Json.NumIO D) (es : Entries D) : Prop :=
  es.keys.Nodup ∧ ∀ q v, es.get q = some v → Json.Spec.PlainKey q ∧ Json.Spec.Good io v

theorem get_of_nodup : ∀ (es : Entries D) (k : List UInt8), k ∉ es.keys → es.get k = none :=
  Json.Entries.get_none

theorem get_mem : ∀ (es : Entries D) (k : List UInt8) (v : Json D), es.get k = some v → k ∈ es.keys
  | .nil, _, _, h => by simp [Entries.get] at h
  | .cons q w es, k, v, h => by
    simp only [Entries.get] at h
    simp only [Entries.keys, List.mem_cons]
    split at h
    · next hk => exact .inl hk.symm
    · exact .inr (get_mem es k v h)

theorem goodEntries (io : Json.NumIO D) : ∀ es : Entries D, Inv io es →
    Json.Spec.Good.GoodEntries io es
  | .nil, _ => by simp [Json.Spec.Good.GoodEntries]
  | .cons k v es, h => by
    obtain ⟨hn, hg⟩ := h
    simp only [Entries.keys, List.nodup_cons] at hn
    obtain ⟨h1, h2⟩ := hg k v (by simp [Entries.get])
    refine ⟨h1, h2, goodEntries io es ⟨hn.2, fun q w hq => hg q w ?_⟩⟩
    have : k ≠ q := fun he => hn.1 (he ▸ get_mem es q w hq)
    simp [Entries.get, this, hq]

theorem good_obj (io : Json.NumIO D) (es : Entries D) (h : Inv io es) :
    Json.Spec.Good io (.obj es) := by
  simp only [Json.Spec.Good]
  exact ⟨h.1, goodEntries io es h⟩

theorem good_items (io : Json.NumIO D) : ∀ l : List (List UInt8),
    (∀ s ∈ l, Json.Spec.PlainText s) → Json.Spec.Good.GoodItems io (items l)
  | [], _ => by simp [items, Json.Spec.Good.GoodItems]
  | s :: l, h => by
    have hs := h s (by simp)
    refine ⟨?_, good_items io l fun t ht => h t (by simp [ht])⟩
    rw [cut_self hs.1]
    exact hs

mutual
theorem toVal_good (io : Json.NumIO D) (F : Flt D) (tb : Table D)
    (htb : ∀ es k v, es.keys.Nodup → (tb.put es k v).keys.Nodup) {P : List (Decl D)}
    (hP : JGood P) : ∀ (v : Val D) (ft : Name) (k : JKind) (j : Json D), Writable io F v →
    toVal F tb P ft k v = .ok j → Json.Spec.Good io j := by
  intro v ft k j hw h
  cases v with
  | strct vs =>
    cases k with
    | nested =>
      rw [toVal] at h
      cases hd : find P ft with
      | none => simp [hd] at h
      | some d =>
        rw [hd] at h
        simp only at h
        split at h
        · next fs ht hb =>
          obtain ⟨es, he, h⟩ := bind_ok h
          cases h
          rw [find_decl] at hd
          have hm := (decl_mem hd).1
          exact good_obj io es (toObj_good io F tb htb hP vs fs .nil es (by simpa [Writable] using hw)
            (fun f hf => ⟨(hP.fields d hm ht fs hb).2 f hf, by
              obtain ⟨t, ht'⟩ := (hP.fits d hm ht fs hb).1
              exact fromText_names ht' f hf⟩)
            ⟨by simp [Entries.keys], by simp [Entries.get]⟩ he)
        · cases h
    | _ => simp [toVal] at h
  | num i => cases k <;> simp [toVal] at h; subst h; exact hw
  | dbl i => cases k <;> simp [toVal] at h; subst h; exact hw
  | bool b => cases k <;> simp [toVal] at h; subst h; simp [Json.Spec.Good]
  | cstr s =>
    cases s with
    | none => cases k <;> simp [toVal] at h
    | some s => cases k <;> simp [toVal] at h; subst h; exact hw s rfl
  | string s =>
    cases k <;> simp [toVal] at h
    subst h
    have : Json.Spec.PlainText s := hw
    rw [cut_self this.1]
    exact this
  | strs l => cases k <;> simp [toVal] at h; subst h; exact good_items io l hw
  | addr a => cases k <;> simp [toVal] at h
  | enm i p => cases k <;> simp [toVal] at h
  | arr vs => cases k <;> simp [toVal] at h

theorem toObj_good (io : Json.NumIO D) (F : Flt D) (tb : Table D)
    (htb : ∀ es k v, es.keys.Nodup → (tb.put es k v).keys.Nodup) {P : List (Decl D)}
    (hP : JGood P) : ∀ (vs : Vals D) (fs : List Field) (es es' : Entries D),
    Writable.Writables io F vs →
    (∀ f ∈ fs, f.name.all Generics.isIdent = true ∧ f.name.length ≤ 61) → Inv io es →
    toObj F tb P fs vs es = .ok es' → Inv io es' := by
  intro vs fs es es' hw hf hi h
  cases fs with
  | nil =>
    cases vs with
    | nil => cases h; exact hi
    | cons => simp [toObj] at h
  | cons f fs =>
    cases vs with
    | nil => simp [toObj] at h
    | cons v vs =>
      rw [toObj] at h
      obtain ⟨j, hj, h⟩ := bind_ok h
      have hg := toVal_good io F tb htb hP v _ _ j hw.1 hj
      obtain ⟨hid, hl⟩ := hf f (by simp)
      refine toObj_good io F tb htb hP vs fs _ es' hw.2 (fun g hg => hf g (by simp [hg]))
        ⟨htb _ _ _ hi.1, ?_⟩ h
      intro q w hq
      rw [tb.get_put] at hq
      split at hq
      · next he =>
        injection hq with hq
        subst hq he
        exact ⟨plain_key hid hl, hg⟩
      · exact hi.2 q w hq
end

/-- C74 (partial): when moreover the numbers are kept by `%.15g` and the strings are ones the
writer keeps (see C17), writing the JSON value as text, parsing the text and reading the struct
from it gives the struct back.  `htb`: the table has at most one slot for a key. -/
theorem json_text_partial (io : Json.NumIO D) (F : Flt D) (tb : Table D)
    (htb : ∀ es k v, es.keys.Nodup → (tb.put es k v).keys.Nodup) {P : List (Decl D)}
    (hP : JGood P) (n : Name) (vs : Vals D) (h : JTyped P (.name n) (.strct vs))
    (hw : Writable io F (.strct vs)) :
    ∃ j w, toJson F tb P n (.strct vs) = .ok j ∧
      Json.parse io tb (Json.stringify io j) = .ok (some w) ∧
      fromJson F P n w = .ok (.strct vs) := by
  obtain ⟨j, hj, hback⟩ := json_any_order F tb hP n vs h
  have hg : Json.Spec.Good io j := by
    rw [JTyped] at h
    obtain ⟨d, fs, hd, ht, hf, hb, hv⟩ := h
    have hm := (decl_mem hd).1
    simp only [toJson, find_decl, hd, ht, hb] at hj
    obtain ⟨es, he, hj⟩ := bind_ok hj
    cases hj
    exact good_obj io es (toObj_good io F tb htb hP vs fs .nil es (by simpa [Writable] using hw)
      (fun f hf => ⟨(hP.fields d hm ht fs hb).2 f hf, by
        obtain ⟨t, ht'⟩ := (hP.fits d hm ht fs hb).1
        exact fromText_names ht' f hf⟩)
      ⟨by simp [Entries.keys], by simp [Entries.get]⟩ he)
  obtain ⟨w, hp, he⟩ := Json.json_round_trip_partial io tb j hg
  exact ⟨j, w, hj, hp, hback w he⟩

/-! ## A case that meets the hypotheses -/

/-- `struct Tag { id: u32; words: Vec<String> }` and
`struct User { name: String; tag: Tag; on: bool; score: double; note: char*; big: i64 }`, both with
`@derive(ToJson, FromJson)`. -/
def users : List (Decl Int) :=
  [ ⟨"Tag".toList, .strct [⟨"id".toList, .prim .u32⟩,
      ⟨"words".toList, .app "Vec".toList (.name "String".toList)⟩], .none, true, true⟩,
    ⟨"User".toList, .strct [⟨"name".toList, .name "String".toList⟩, ⟨"tag".toList, .name "Tag".toList⟩,
      ⟨"on".toList, .prim .bool⟩, ⟨"score".toList, .prim .f64⟩,
      ⟨"note".toList, .ptr (.prim .char)⟩, ⟨"big".toList, .prim .i64⟩], .none, true, true⟩ ]

/-- A user. -/
def user (i : Int) : Vals Int :=
  .cons (.string [65, 66]) (.cons (.strct (.cons (.num 7) (.cons (.strs [[67], [], [68, 69]]) .nil)))
    (.cons (.bool true) (.cons (.dbl 12) (.cons (.cstr (some [34, 70])) (.cons (.num i) .nil)))))

/-- Whether a text was written. -/
def isOk {α : Type} : Res α → Bool
  | .ok _ => true
  | _ => false

theorem ok_of_isOk {α : Type} {r : Res α} (h : isOk r = true) : ∃ t, r = .ok t := by
  cases r with
  | ok t => exact ⟨t, rfl⟩
  | panic => cases h
  | ub => cases h

theorem users_good : JGood users where
  name := by decide
  vec := by
    intro d hd _
    rw [← hasSub_iff, ← hasSub_iff]
    simp only [users, List.mem_cons, List.not_mem_nil, or_false] at hd
    rcases hd with rfl | rfl <;> decide
  fields := by
    intro d hd _ fs hb
    simp only [users, List.mem_cons, List.not_mem_nil, or_false] at hd
    rcases hd with rfl | rfl <;> cases hb <;> decide
  fits := by
    intro d hd _ fs hb
    simp only [users, List.mem_cons, List.not_mem_nil, or_false] at hd
    rcases hd with rfl | rfl <;> cases hb <;>
      exact ⟨ok_of_isOk (by decide +kernel), ok_of_isOk (by decide +kernel)⟩

theorem user_typed (i : Int) (h0 : -2 ^ 31 ≤ i) (h1 : i < 2 ^ 31) :
    JTyped users (.name "User".toList) (.strct (user i)) := by
  rw [JTyped]
  refine ⟨_, _, rfl, rfl, rfl, rfl, ?_⟩
  refine ⟨⟨rfl, by decide⟩, ?_, trivial, trivial, fun h => (by cases h), ⟨h0, h1⟩, trivial⟩
  rw [JTyped]
  refine ⟨_, _, rfl, rfl, rfl, rfl, ⟨by decide, by decide⟩, ⟨rfl, rfl, by decide⟩, trivial⟩

example (i : Int) (h0 : -2 ^ 31 ≤ i) (h1 : i < 2 ^ 31) :
    ∃ j, toJson intFlt Json.lastTable users "User".toList (.strct (user i)) = .ok j ∧
      fromJson intFlt users "User".toList j = .ok (.strct (user i)) :=
  json_partial intFlt Json.lastTable users_good _ _ (user_typed i h0 h1)

theorem putLast_keys : ∀ (es : Entries Int) (k : List UInt8) (v : Json Int), es.keys.Nodup →
    (Json.putLast es k v).keys.Nodup ∧ ∀ q, q ∈ (Json.putLast es k v).keys ↔ q = k ∨ q ∈ es.keys
  | .nil, k, v, _ => by simp [Json.putLast, Entries.keys]
  | .cons q w es, k, v, h => by
    simp only [Entries.keys, List.nodup_cons] at h
    obtain ⟨h1, h2⟩ := putLast_keys es k v h.2
    unfold Json.putLast
    split
    · next hk =>
      subst hk
      simp only [Entries.keys, List.nodup_cons, List.mem_cons]
      exact ⟨h, fun q' => by simp⟩
    · next hk =>
      simp only [Entries.keys, List.nodup_cons, List.mem_cons, h2]
      refine ⟨⟨?_, h1⟩, fun q' => ?_⟩
      · rintro (rfl | hm)
        · exact hk rfl
        · exact h.1 hm
      · constructor
        · rintro (rfl | rfl | hm)
          · exact .inr (.inl rfl)
          · exact .inl rfl
          · exact .inr (.inr hm)
        · rintro (rfl | rfl | hm)
          · exact .inr (.inl rfl)
          · exact .inl rfl
          · exact .inr (.inr hm)

/-- Through text, with the decimal conversions of C17's example. -/
example (i : Int) (h0 : -2 ^ 31 ≤ i) (h1 : i < 2 ^ 31) :
    ∃ j w, toJson intFlt Json.lastTable users "User".toList (.strct (user i)) = .ok j ∧
      Json.parse Json.intIO Json.lastTable (Json.stringify Json.intIO j) = .ok (some w) ∧
      fromJson intFlt users "User".toList w = .ok (.strct (user i)) :=
  json_text_partial Json.intIO intFlt Json.lastTable
    (fun es k v h => (putLast_keys es k v h).1) users_good _ _ (user_typed i h0 h1) (by
      refine ⟨by show Json.Spec.PlainText _; unfold Json.Spec.PlainText; decide,
        ⟨Json.int_readable 7 (by decide), ?_, trivial⟩, trivial, Json.int_readable 12 (by decide),
        ?_, Json.int_readable i (by omega), trivial⟩
      · intro s hs
        simp only [List.mem_cons, List.not_mem_nil, or_false] at hs
        rcases hs with rfl | rfl | rfl <;> (unfold Json.Spec.PlainText; decide)
      · intro t ht
        cases ht
        unfold Json.Spec.PlainText; decide)

/-! ## Where the full claim fails -/

/-- `@derive(ToJson, FromJson) struct S { f: t }` -/
def jsingle (t : Ty) : Decl D := ⟨"S".toList, .strct [⟨"f".toList, t⟩], .none, true, true⟩

/-- The object `to_json` makes of it. -/
def jobj (tb : Table D) (j : Json D) : Json D := .obj (tb.put .nil (key "f".toList) j)

theorem jobj_get (tb : Table D) (j : Json D) : jget (jobj tb j) (key "f".toList) = some j := by
  unfold jobj jget
  simp only [tb.get_put, if_true]

theorem to_single (F : Flt D) (tb : Table D) (t : Ty) (v : Val D) (P : List (Decl D))
    (hP : find P "S".toList = some (jsingle t)) {j : Json D}
    (h : toVal F tb P (cText t) (jkind (cText t)) v = .ok j) :
    toJson F tb P "S".toList (box v) = .ok (jobj tb j) := by
  simp only [toJson, box, hP, jsingle, toObj, h, Res.ok_bind, jobj]
  rfl

theorem from_single (F : Flt D) (t : Ty) (P : List (Decl D))
    (hP : find P "S".toList = some (jsingle t)) (j : Json D) :
    fromJson F P "S".toList j = (do
      let v ← readField F P (cText t) (jget j (key "f".toList))
      .ok (box v)) := by
  simp only [fromJson, hP, jsingle, fromFields_cons, fromFields_nil]
  cases readField F P (cText t) (jget j (key "f".toList)) <;> rfl

/-- C74, violated: a signed 64 bit integer of `2^31` or more is written, but reading it is
undefined: it is cast to `int`. -/
theorem json_i64_violated (F : Flt D) (tb : Table D) (i : Int) (h0 : 2 ^ 31 ≤ i)
    (h1 : F.toInt (F.ofInt i) = some i) :
    ∃ j, toJson F tb [jsingle (.prim .i64)] "S".toList (box (.num i)) = .ok j ∧
      fromJson F [jsingle (.prim .i64)] "S".toList j = .ub := by
  refine ⟨_, to_single F tb (.prim .i64) (.num i) _ rfl (j := .num (F.ofInt i)) rfl, ?_⟩
  rw [from_single F (.prim .i64) _ rfl, jobj_get]
  have hk : jkind (cText (.prim .i64)) = .int := by decide
  simp only [readField, hk, toC, h1]
  rw [if_neg (by omega)]
  rfl

/-- C74, violated: the same for `u32` with the values an `int` does not have. -/
theorem json_u32_violated (F : Flt D) (tb : Table D) (i : Int) (h0 : 2 ^ 31 ≤ i)
    (h1 : F.toInt (F.ofInt i) = some i) :
    ∃ j, toJson F tb [jsingle (.prim .u32)] "S".toList (box (.num i)) = .ok j ∧
      fromJson F [jsingle (.prim .u32)] "S".toList j = .ub := by
  refine ⟨_, to_single F tb (.prim .u32) (.num i) _ rfl (j := .num (F.ofInt i)) rfl, ?_⟩
  rw [from_single F (.prim .u32) _ rfl, jobj_get]
  have hk : jkind (cText (.prim .u32)) = .int := by decide
  simp only [readField, hk, toC, h1]
  rw [if_neg (by omega)]
  rfl

/-- C74, violated: fields of type `i8`, `u8`, `i16`, `u16`, `f32`, `char`, `isize`, `string`, ... are
taken for structs, and the program does not compile. -/
theorem json_type_violated (F : Flt D) (tb : Table D) (p : Prim)
    (h : p ∉ [Prim.bool, .i32, .u32, .i64, .u64, .f64, .usize, .cint, .int]) (v : Val D)
    (j : Json D) :
    toJson F tb [jsingle (.prim p)] "S".toList (box v) = .panic ∧
      fromJson F [jsingle (.prim p)] "S".toList j = .panic := by
  have hk : jkind (cText (.prim p)) = .nested := by
    cases p <;> first | rfl | exact absurd (by decide) h
  have hf : find [jsingle (D := D) (.prim p)] (cText (.prim p)) = none := by
    cases p <;> rfl
  constructor
  · have : toVal F tb [jsingle (.prim p)] (cText (.prim p)) .nested v = .panic := by
      cases v <;> rw [toVal] <;> simp [hf]
    have hP : find [jsingle (D := D) (.prim p)] "S".toList = some (jsingle (.prim p)) := rfl
    unfold toJson box
    rw [hP]
    simp only [jsingle, toObj]
    rw [hk]
    rw [jsingle] at this
    rw [this]
    rfl
  · rw [from_single F (.prim p) _ rfl]
    simp only [readField, hk, hf]
    rfl

/-- C74, violated: `to_json` of a struct whose C string is NULL calls `strdup(NULL)`. -/
theorem json_null_violated (F : Flt D) (tb : Table D) :
    toJson F tb [jsingle (.ptr (.prim .char))] "S".toList (box (.cstr none)) = .ub := rfl

/-- C74, violated: a `String` is cut at its first NUL byte. -/
theorem json_nul_violated (F : Flt D) (tb : Table D) (s t : List UInt8) (h : 0 ∉ s) :
    ∃ j, toJson F tb [jsingle (.name "String".toList)] "S".toList (box (.string (s ++ 0 :: t))) =
      .ok j ∧ fromJson F [jsingle (.name "String".toList)] "S".toList j = .ok (box (.string s)) := by
  have hc : cut (s ++ 0 :: t) = s := by
    induction s with
    | nil => rfl
    | cons c s ih =>
      simp only [List.mem_cons, not_or] at h
      have := ih h.2
      unfold cut at *
      rw [List.cons_append, List.takeWhile_cons, if_pos (by simpa using Ne.symm h.1), this]
  refine ⟨_, to_single F tb (.name "String".toList) _ _ rfl (j := .str (cut (s ++ 0 :: t))) rfl, ?_⟩
  rw [from_single F (.name "String".toList) _ rfl, jobj_get, hc]
  rfl

/-- C74, violated: a struct called `VecOfString` that derives both methods is taken for
`Vec<String>` when it is the type of a field. -/
theorem json_vec_name_violated (F : Flt D) (tb : Table D) (vs : Vals D) :
    toJson F tb [⟨"VecOfString".toList, .strct [⟨"n".toList, .prim .int⟩], .none, true, true⟩,
      jsingle (.name "VecOfString".toList)] "S".toList (box (.strct vs)) = .panic := by
  have h : toVal F tb [⟨"VecOfString".toList, .strct [⟨"n".toList, .prim .int⟩], .none, true, true⟩,
      jsingle (.name "VecOfString".toList)] "VecOfString".toList .strs (.strct vs) = .panic := by
    rw [toVal] <;> simp
  show (do
    let es ← (do
      let j ← toVal F tb _ "VecOfString".toList .strs (.strct vs)
      _)
    _) = _
  rw [h]
  rfl

/-- C74, violated: an object without the key, or with a value of another kind, is no error: the
field is 0. -/
theorem json_missing_violated (F : Flt D) :
    fromJson F [jsingle (.prim .int)] "S".toList (.obj .nil) = .ok (box (.num 0)) ∧
    ∀ s tb, fromJson F [jsingle (.prim .int)] "S".toList (jobj tb (.str s)) = .ok (box (.num 0)) := by
  constructor
  · rw [from_single F (.prim .int) _ rfl]; rfl
  · intro s tb
    rw [from_single F (.prim .int) _ rfl, jobj_get]; rfl

/-- C74, violated: when the object of a nested struct is missing, the field is read without ever
having been given a value. -/
theorem json_missing_struct_violated (F : Flt D) :
    fromJson F [⟨"T".toList, .strct [], .none, true, true⟩, jsingle (.name "T".toList)] "S".toList
      (.obj .nil) = .ub := by
  rw [from_single F (.name "T".toList) _ rfl]; rfl

/-- C74, violated: a field with a name of 62 characters or more makes the compiler write past
the end of a buffer. -/
theorem json_overflow_violated (n : Name) (fs : List Field) (f : Field) (hf : f ∈ fs)
    (hl : 62 ≤ f.name.length) : ¬ ∃ t, fromText n fs = .ok t := by
  rintro ⟨t, h⟩
  have := fromText_names h f hf
  omega

end Verif.Derive
