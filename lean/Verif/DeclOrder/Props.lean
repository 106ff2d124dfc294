import Verif.DeclOrder.Topo

/-! # C60: types can be written in any order -/

namespace Verif.DeclOrder
open Spec

namespace Spec

/-- What the generated order can cope with: no field of type `const T` and no payload of type
`const T` or of an opaque alias of `T` for a type `T` of the program; vectors only of built-in
types, inside structs only, and not behind pointers; slices and aliases only of types that are
declared before them; tuples only of built-in types, types of headers and slices. -/
structure Simple (ext : List Name) (p : Program) : Prop where
  noSlice : ∀ n ∈ all p, ¬ "Slice_".toList <+: n.name
  fields : ∀ n ∈ all p, n.template = false → n.kind ≠ .enum → ∀ t ∈ n.fields, OkC t
  payloads : ∀ n ∈ all p, n.template = false → n.kind = .enum → ∀ t ∈ n.fields,
    OkZ (fun m => ∃ k ∈ all p, k.name = m) t
  vectors : ∀ v ∈ all p, v.kind = .vector → ∀ n ∈ all p, n.template = false → ∀ t ∈ n.fields,
    .ref v.name ∉ uses t ∧ (n.kind = .enum → .val v.name ∉ uses t)
  slices : ∀ t ∈ p.slices, ∀ u ∈ usesZ t, u.name ∈ ext
  sliceNodup : (p.slices.map sliceName).Nodup
  tuples : ∀ ts ∈ p.tuples, ∀ t ∈ ts, ∀ u ∈ usesZ t, u.name ∈ ext ∨ u.name ∈ p.slices.map sliceName
  tupleNodup : (p.tuples.map tupleName).Nodup
  aliases : ∀ a ∈ p.aliases, ∀ u ∈ usesZ a.2, u.name ∈ ext ∨ u.name ∈ p.slices.map sliceName ∨
    u.name ∈ p.tuples.map tupleName ∨
    ∃ k ∈ all p, k.name = u.name ∧ k.template = false ∧ k.kind ≠ .vector

end Spec

/-! ## the sort is a permutation -/

theorem range_get {α : Type} : ∀ (l pre : List α),
    (List.range' pre.length l.length).filterMap (fun i => (pre ++ l)[i]?) = l
  | [], _ => rfl
  | x :: l, pre => by
      rw [List.length_cons, List.range'_succ, List.filterMap_cons]
      have h := range_get l (pre ++ [x])
      rw [List.append_assoc] at h
      simp only [List.length_append, List.length_singleton, List.singleton_append] at h
      rw [h]
      simp

/-- C60: every type of the list is emitted exactly once, whatever the dependencies. -/
theorem sort_permutes (ns : List Node) : (topoSort ns).Perm ns := by
  have h := (topoOrder_perm ns).filterMap (fun i => ns[i]?)
  have h2 := range_get ns []
  rw [List.length_nil, ← List.range_eq_range'] at h2
  simp only [List.nil_append] at h2
  rw [h2] at h
  exact h

/-! ## the merged list -/

theorem mergeKids_spec : ∀ (ks m : List Node),
    (∀ a ∈ m ++ ks, ∀ b ∈ m ++ ks, a.name = b.name → a = b) → (∀ n ∈ m ++ ks, n.kind ≠ .trait) →
    (m.map Node.name).Nodup →
    ((mergeKids m ks).map Node.name).Nodup ∧ ∀ n, n ∈ mergeKids m ks ↔ n ∈ m ++ ks
  | [], m, _, _, hn => ⟨hn, fun n => by simp [mergeKids]⟩
  | k :: ks, m, hs, ht, hn => by
      rw [mergeKids, if_pos (ht k (by simp))]
      by_cases hany : m.any (fun c => sameKind c k && c.name = k.name) = true
      · rw [if_pos hany]
        rw [List.any_eq_true] at hany
        obtain ⟨c, hc, h⟩ := hany
        simp only [Bool.and_eq_true, decide_eq_true_eq] at h
        have hck : c = k := hs c (by simp [hc]) k (by simp) h.2
        obtain ⟨h1, h2⟩ := mergeKids_spec ks m
          (fun a ha b hb => hs a (by simp at ha ⊢; rcases ha with h | h <;> simp [h]) b
            (by simp at hb ⊢; rcases hb with h | h <;> simp [h]))
          (fun n hn => ht n (by simp at hn ⊢; rcases hn with h | h <;> simp [h])) hn
        refine ⟨h1, fun n => ?_⟩
        rw [h2]
        subst hck
        simp only [List.mem_append, List.mem_cons]
        constructor
        · rintro (h | h) <;> simp [h]
        · rintro (h | rfl | h)
          · exact .inl h
          · exact .inl hc
          · exact .inr h
      · rw [if_neg hany]
        have hfresh : k.name ∉ m.map Node.name := by
          intro h
          obtain ⟨c, hc, hcn⟩ := List.mem_map.1 h
          have hck : c = k := hs c (by simp [hc]) k (by simp) hcn
          apply hany
          rw [List.any_eq_true]
          exact ⟨c, hc, by simp [hck, sameKind]⟩
        have e : m ++ [k] ++ ks = m ++ k :: ks := by simp
        obtain ⟨h1, h2⟩ := mergeKids_spec ks (m ++ [k]) (by rw [e]; exact hs) (by rw [e]; exact ht)
          (by
            rw [List.map_append, List.nodup_append]
            refine ⟨hn, by simp, ?_⟩
            intro a ha b hb
            simp only [List.map_cons, List.map_nil, List.mem_singleton] at hb
            subst hb
            rintro rfl
            exact hfresh ha)
        refine ⟨h1, fun n => ?_⟩
        rw [h2, e]

section
variable {ext : List Name} {p : Program}

theorem merged_spec (hl : Layout ext p) :
    ((merged p).map Node.name).Nodup ∧ ∀ n, n ∈ merged p ↔ n ∈ all p :=
  mergeKids_spec p.kids _ hl.same hl.noTrait hl.nodup

theorem sorted_mem (hl : Layout ext p) (n : Node) : n ∈ topoSort (merged p) ↔ n ∈ all p := by
  rw [(sort_permutes _).mem_iff, (merged_spec hl).2]

theorem sorted_nodup (hl : Layout ext p) : ((topoSort (merged p)).map Node.name).Nodup :=
  (((sort_permutes _).map Node.name).nodup_iff).2 (merged_spec hl).1

theorem target (hl : Layout ext p) (hs : Simple ext p) {n : Node} (h : n ∈ all p) : Target n.name :=
  ⟨(hl.ident n h).1, (hl.ident n h).2, hs.noSlice n h⟩

/-- the test is exact on the types of the program -/
theorem depends_iff (hl : Layout ext p) (hs : Simple ext p) {n k : Node} (hn : n ∈ all p)
    (ht : n.template = false) (hk : k ∈ all p) : dependsOn n k.name = true ↔ contains n k.name := by
  have hm := target hl hs hk
  unfold dependsOn contains
  rw [List.any_eq_true]
  have hC : n.kind ≠ .enum → ((∃ s ∈ n.fields.map cText, textDepends s k.name = true) ↔
      ∃ t ∈ n.fields, .val k.name ∈ uses t) := by
    intro he
    have key : ∀ t ∈ n.fields, (textDepends (cText t) k.name = true ↔ .val k.name ∈ uses t) := by
      intro t h
      have := cText_depends hm t [] [] (hs.fields n hn ht he t h) Dims.nil Dims.nil
      rwa [List.append_nil] at this
    constructor
    · rintro ⟨s, h1, h2⟩
      obtain ⟨t, h3, rfl⟩ := List.mem_map.1 h1
      exact ⟨t, h3, (key t h3).1 h2⟩
    · rintro ⟨t, h1, h2⟩; exact ⟨_, List.mem_map.2 ⟨t, h1, rfl⟩, (key t h1).2 h2⟩
  have hZ : n.kind = .enum → ((∃ s ∈ n.fields.map zText, textDepends s k.name = true) ↔
      ∃ t ∈ n.fields, .val k.name ∈ uses t) := by
    intro he
    have key : ∀ t ∈ n.fields, (textDepends (zText t) k.name = true ↔ .val k.name ∈ uses t) := by
      intro t h
      exact zText_depends (B := fun m => ∃ k ∈ all p, k.name = m) hm ⟨k, hk, rfl⟩ t []
        (hs.payloads n hn ht he t h) Dims.nil
    constructor
    · rintro ⟨s, h1, h2⟩
      obtain ⟨t, h3, rfl⟩ := List.mem_map.1 h1
      exact ⟨t, h3, (key t h3).1 h2⟩
    · rintro ⟨t, h1, h2⟩; exact ⟨_, List.mem_map.2 ⟨t, h1, rfl⟩, (key t h1).2 h2⟩
  unfold texts
  cases hkind : n.kind with
  | struct => exact hC (by simp [hkind])
  | vector => exact hC (by simp [hkind])
  | enum => exact hZ hkind
  | trait => exact absurd hkind (hl.noTrait n hn)

/-- where a type contained by value comes from -/
theorem contained (hl : Layout ext p) (hs : Simple ext p) {A B : List Node} {n : Node}
    (h : topoSort (merged p) = A ++ n :: B) (ht : n.template = false) {m : Name} (hc : contains n m) :
    m ∈ ext ∨ m ∈ p.slices.map sliceName ∨ m ∈ p.tuples.map tupleName ∨
      ∃ k ∈ A, k.name = m ∧ k.template = false ∧ (k.incomplete = false ∨ k.kind = .enum) := by
  have hn : n ∈ all p := (sorted_mem hl n).1 (by rw [h]; simp)
  obtain ⟨rank, hr⟩ := hl.ranked
  rcases hr n hn ht m hc with h' | h' | h' | ⟨k, hk, hkm, hkt, hki, hlt⟩
  · exact .inl h'
  · exact .inr (.inl h')
  · exact .inr (.inr (.inl h'))
  refine .inr (.inr (.inr ⟨k, ?_, hkm, hkt, hki⟩))
  have hmem := (merged_spec hl).2
  generalize hns : merged p = ns at *
  -- indices
  unfold topoSort at h
  obtain ⟨l1, l2, h1, h2, h3⟩ := List.filterMap_eq_append_iff.1 h
  obtain ⟨a', i, b, h4, h5, h6, h7⟩ := List.filterMap_eq_cons_iff.1 h3
  rw [h4] at h1
  obtain ⟨j, hj⟩ : ∃ j, ns[j]? = some k := List.mem_iff_getElem?.1 ((hmem k).2 hk)
  let rk : Nat → Nat := fun i => match ns[i]? with | some n => rank n.name | none => 0
  let good : Nat → Prop := fun i => ∃ n, ns[i]? = some n ∧ n.template = false
  have hg : ∀ i, good i → i < ns.length ∧ ∀ j, Dep ns i j → good j ∧ rk j < rk i := by
    rintro i ⟨n, hi, hit⟩
    refine ⟨?_, ?_⟩
    · rcases Nat.lt_or_ge i ns.length with h | h
      · exact h
      · rw [List.getElem?_eq_none_iff.2 h] at hi; cases hi
    · rintro j ⟨_, n', m', e1, e2, _, _, e3⟩
      rw [hi] at e1; cases e1
      have hn' : n ∈ all p := (hmem n).1 (List.mem_of_getElem? hi)
      have hm' : m' ∈ all p := (hmem m').1 (List.mem_of_getElem? e2)
      have hcon := (depends_iff hl hs hn' hit hm').1 e3
      have hown := hl.own m' hm'
      rcases hr n hn' hit _ hcon with h' | h' | h' | ⟨k', hk', hkm', hkt', _, hlt'⟩
      · exact absurd h' hown.1
      · exact absurd h' hown.2.1
      · exact absurd h' hown.2.2
      · have : k' = m' := hl.same k' hk' m' hm' hkm'
        subst this
        refine ⟨⟨k', e2, hkt'⟩, ?_⟩
        simp only [rk, e2, hi]
        exact hlt'
  have hdep : Dep ns i j := by
    refine ⟨?_, n, k, h6, hj, hl.noTrait n hn, hl.noTrait k hk, ?_⟩
    · rintro rfl
      rw [h6] at hj; cases hj
      rw [hkm] at hlt; omega
    · rw [depends_iff hl hs hn ht hk, hkm]; exact hc
  have hin := topoOrder_front ns good rk hg (a := l1 ++ a') (b := b) (i := i) (by rw [h1]; simp)
    ⟨n, h6, ht⟩ j hdep
  rcases List.mem_append.1 hin with hin | hin
  · rw [← h2]
    exact List.mem_filterMap.2 ⟨j, hin, hj⟩
  · rw [h5 j hin] at hj; cases hj

/-! ## acceptance, piece by piece -/

/-- accepted behind `pre` -/
def Acc (ext : List Name) (pre ds : List CDecl) : Prop :=
  ∀ a d b, ds = a ++ d :: b → Legal ext (pre ++ a) d

theorem Acc.nil (pre : List CDecl) : Acc ext pre [] := fun a d b h => by simp at h

theorem Acc.append {pre xs ys : List CDecl} (h1 : Acc ext pre xs) (h2 : Acc ext (pre ++ xs) ys) :
    Acc ext pre (xs ++ ys) := by
  intro a d b h
  rcases List.append_eq_append_iff.1 h with ⟨c, h3, h4⟩ | ⟨c, h3, h4⟩
  · rw [h3, ← List.append_assoc]; exact h2 c d b h4
  · cases c with
    | nil =>
        simp only [List.nil_append] at h4
        have := h2 [] d b h4.symm
        simp only [List.append_nil] at h3
        rw [List.append_nil, h3] at this
        exact this
    | cons x c =>
        simp only [List.cons_append, List.cons.injEq] at h4
        obtain ⟨rfl, h4⟩ := h4
        exact h1 a d c h3

theorem Acc.single {pre : List CDecl} {d : CDecl} (h : Legal ext pre d) : Acc ext pre [d] := by
  intro a e b he
  cases a with
  | nil =>
      simp only [List.nil_append, List.cons.injEq] at he
      rw [← he.1, List.append_nil]; exact h
  | cons x a => simp at he

theorem Acc.flatMap {α : Type} {f : α → List CDecl} : ∀ (l : List α) (pre : List CDecl),
    (∀ a x b, l = a ++ x :: b → Acc ext (pre ++ a.flatMap f) (f x)) → Acc ext pre (l.flatMap f)
  | [], pre, _ => Acc.nil pre
  | x :: l, pre, h => by
      rw [List.flatMap_cons]
      refine Acc.append (by simpa using h [] x l rfl) (Acc.flatMap l _ ?_)
      intro a y b hl
      have := h (x :: a) y b (by rw [hl]; rfl)
      rw [List.flatMap_cons, ← List.append_assoc] at this
      exact this

theorem declares_append (a b : List CDecl) : declares (a ++ b) = declares a ++ declares b := by
  simp [declares]

theorem completes_append (a b : List CDecl) : completes (a ++ b) = completes a ++ completes b := by
  simp [completes]

theorem completes_flatMap {α : Type} (f : α → List CDecl) : ∀ l : List α,
    completes (l.flatMap f) = l.flatMap fun x => completes (f x)
  | [] => rfl
  | x :: l => by rw [List.flatMap_cons, completes_append, completes_flatMap f l]; rfl

theorem declares_flatMap {α : Type} (f : α → List CDecl) : ∀ l : List α,
    declares (l.flatMap f) = l.flatMap fun x => declares (f x)
  | [] => rfl
  | x :: l => by rw [List.flatMap_cons, declares_append, declares_flatMap f l]; rfl

theorem flatMap_single {α β : Type} (f : α → β) (l : List α) : (l.flatMap fun x => [f x]) = l.map f := by
  induction l <;> simp_all

theorem slices_complete (l : List Ty) : completes (l.flatMap emitSlice) = l.map sliceName := by
  rw [completes_flatMap]; exact flatMap_single _ _

theorem tuples_complete (l : List (List Ty)) : completes (l.flatMap emitTuple) = l.map tupleName := by
  rw [completes_flatMap]; exact flatMap_single _ _

theorem complete_declared {n : Name} {ds : List CDecl} (h : n ∈ completes ds) : n ∈ declares ds := by
  obtain ⟨d, hd, hn⟩ := List.mem_flatMap.1 h
  refine List.mem_flatMap.2 ⟨d, hd, ?_⟩
  cases d <;> simp_all

theorem nodup_split {α : Type} {f : α → Name} {l a b : List α} {x : α} (h : (l.map f).Nodup)
    (hl : l = a ++ x :: b) : f x ∉ a.map f := by
  rw [hl, List.map_append, List.nodup_append] at h
  exact fun hx => h.2.2 _ hx _ (by simp) rfl

theorem slice_not_tuple (t : Ty) (ts : List (List Ty)) : sliceName t ∉ ts.map tupleName := by
  intro h
  obtain ⟨x, _, hx⟩ := List.mem_map.1 h
  have := congrArg (List.head?) hx
  simp [sliceName, tupleName] at this

theorem tuple_not_slice (t : List Ty) (ts : List Ty) : tupleName t ∉ ts.map sliceName := by
  intro h
  obtain ⟨x, _, hx⟩ := List.mem_map.1 h
  have := congrArg (List.head?) hx
  simp [sliceName, tupleName] at this

theorem ref_of_weak {us : List Use} {m : Name} (h : .ref m ∈ us.map Use.weak) : ∃ u ∈ us, u.name = m := by
  obtain ⟨u, hu, he⟩ := List.mem_map.1 h
  refine ⟨u, hu, ?_⟩
  cases u <;> (simp only [Use.weak, Use.ref.injEq] at he; exact he)

/-- what a node adds to the complete types -/
theorem node_completes {n : Node} : completes (emitDef n) =
    if n.template = false ∧ (n.incomplete = false ∨ n.kind = .enum) ∧ n.kind ≠ .trait then [n.name] else [] := by
  unfold emitDef
  cases hk : n.kind <;> cases ht : n.template <;> cases hi : n.incomplete <;> rfl

theorem fwd_completes (l : List Node) : completes (l.flatMap emitFwd) = [] := by
  rw [completes_flatMap]
  refine List.flatMap_eq_nil_iff.2 fun n _ => ?_
  unfold emitFwd
  cases n.kind <;> cases n.template <;> rfl

theorem proto_completes (l : List Node) : completes (l.flatMap emitProto) = [] := by
  rw [completes_flatMap]
  refine List.flatMap_eq_nil_iff.2 fun n _ => ?_
  unfold emitProto
  cases n.kind <;> cases n.template <;> simp [completes]

theorem alias_completes (l : List (Name × Ty)) : completes (l.map emitAlias) = [] := by
  refine List.flatMap_eq_nil_iff.2 fun d hd => ?_
  obtain ⟨a, _, rfl⟩ := List.mem_map.1 hd
  rfl

theorem fwd_declares {l : List Node} {n : Node} (h : n ∈ l) (ht : n.template = false)
    (hk : n.kind = .struct ∨ n.kind = .enum) : n.name ∈ declares (l.flatMap emitFwd) := by
  rw [declares_flatMap]
  refine List.mem_flatMap.2 ⟨n, h, ?_⟩
  unfold emitFwd
  rcases hk with hk | hk <;> simp [ht, hk, declares]

/-- C60: the types of a program can be written in any order.  Whatever the order of the nodes in
the four lists the parser hands over, the C declarations are accepted by a C compiler — every
name is declared before it is mentioned, every member's type is complete, nothing is defined
twice — and every type of the program gets its definition. -/
theorem order_partial (hl : Layout ext p) (hs : Simple ext p) :
    Accepts ext (emit p) ∧
    ∀ n ∈ all p, n.template = false → (n.incomplete = false ∨ n.kind = .enum) → n.kind ≠ .vector →
      .defn n.name (n.fields.flatMap uses) ∈ emit p := by
  have hnt := hl.noTrait
  constructor
  · have hA : Acc ext [] (emit p) := by
      unfold emit
      dsimp only
      refine Acc.append ?_ (Acc.append ?_ (Acc.append ?_ (Acc.append ?_ (Acc.append ?_ ?_))))
      · -- slices
        refine Acc.flatMap _ _ fun a t b h => ?_
        have ht : t ∈ p.slices := by rw [h]; simp
        refine Acc.append (xs := [.fwd (sliceName t)]) (Acc.single trivial) (Acc.single ?_)
        refine ⟨?_, fun m hm => absurd hm no_val_weak, fun m hm => ?_⟩
        · rw [completes_append, List.nil_append, slices_complete]
          simpa [completes] using nodup_split hs.sliceNodup h
        · obtain ⟨u, hu, rfl⟩ := ref_of_weak hm
          exact .inl (hs.slices t ht u hu)
      · -- tuples
        refine Acc.flatMap _ _ fun a t b h => ?_
        have ht : t ∈ p.tuples := by rw [h]; simp
        refine Acc.append (xs := [.fwd (tupleName t)]) (Acc.single trivial) (Acc.single ?_)
        have hin : ∀ u ∈ t.flatMap usesZ, u.name ∈ ext ∨ u.name ∈ completes
            ([] ++ p.slices.flatMap emitSlice ++ a.flatMap emitTuple ++ [.fwd (tupleName t)]) := by
          intro u hu
          obtain ⟨x, hx, hux⟩ := List.mem_flatMap.1 hu
          rcases hs.tuples t ht x hx u hux with h' | h'
          · exact .inl h'
          · right
            simp only [completes_append, slices_complete, List.mem_append]
            exact .inl (.inl (.inr h'))
        refine ⟨?_, fun m hm => hin _ hm, fun m hm => ?_⟩
        · simp only [completes_append, slices_complete, tuples_complete, List.mem_append, not_or]
          refine ⟨⟨⟨by simp [completes], tuple_not_slice _ _⟩, nodup_split hs.tupleNodup h⟩, by simp [completes]⟩
        · rcases hin _ hm with h' | h'
          · exact .inl h'
          · exact .inr (complete_declared h')
      · -- typedefs
        refine Acc.flatMap _ _ fun a n b h => ?_
        unfold emitFwd
        split
        · exact Acc.nil _
        · split
          · exact Acc.single trivial
          · exact Acc.single trivial
          · exact Acc.nil _
          · exact Acc.nil _
      · -- prototypes
        refine Acc.flatMap _ _ fun a n b h => ?_
        have hn : n ∈ all p := (sorted_mem hl n).1 (by rw [h]; simp)
        unfold emitProto
        split
        · exact Acc.nil _
        rename_i htpl
        have ht : n.template = false := by simpa using htpl
        split
        · rename_i hk
          have e : (n.fields.map fun t => CDecl.proto (.ref n.name :: (uses t).map Use.weak))
              = n.fields.flatMap fun t => [CDecl.proto (.ref n.name :: (uses t).map Use.weak)] :=
            (flatMap_single _ _).symm
          rw [e]
          refine Acc.flatMap _ _ fun c t d hf => Acc.single ?_
          have htf : t ∈ n.fields := by rw [hf]; simp
          have hnode : ∀ k ∈ all p, k.template = false → (k.kind = .struct ∨ k.kind = .enum) →
              k.name ∈ declares ((topoSort (merged p)).flatMap emitFwd) := fun k hk1 hk2 hk3 =>
            fwd_declares ((sorted_mem hl k).2 hk1) hk2 hk3
          have hdecl : ∀ m, (m ∈ p.slices.map sliceName ∨ m ∈ p.tuples.map tupleName ∨
              ∃ k ∈ all p, k.name = m ∧ k.template = false ∧ k.kind ≠ .vector) →
              m ∈ declares ([] ++ p.slices.flatMap emitSlice ++ p.tuples.flatMap emitTuple ++
                (topoSort (merged p)).flatMap emitFwd ++ a.flatMap emitProto ++
                c.flatMap fun t => [CDecl.proto (.ref n.name :: (uses t).map Use.weak)]) := by
            intro m hm
            simp only [declares_append, List.mem_append]
            rcases hm with hm | hm | ⟨k, hk1, rfl, hk2, hk3⟩
            · rw [← slices_complete] at hm
              exact .inl (.inl (.inl (.inl (.inr (complete_declared hm)))))
            · rw [← tuples_complete] at hm
              exact .inl (.inl (.inl (.inr (complete_declared hm))))
            · refine .inl (.inl (.inr (hnode k hk1 hk2 ?_)))
              have := hnt k hk1
              cases hkk : k.kind <;> simp_all
          intro u hu
          rcases List.mem_cons.1 hu with rfl | hu
          · exact .inr (hdecl _ (.inr (.inr ⟨n, hn, rfl, ht, by simp [hk]⟩)))
          · obtain ⟨v, hv, hvu⟩ := List.mem_map.1 hu
            have hname : u.name = v.name := by subst hvu; cases v <;> rfl
            rw [hname]
            cases v with
            | val m =>
                obtain ⟨rank, hr⟩ := hl.ranked
                rcases hr n hn ht m ⟨t, htf, hv⟩ with h' | h' | h' | ⟨k, hk1, hk2, hk3, _, _⟩
                · exact .inl h'
                · exact .inr (hdecl _ (.inl h'))
                · exact .inr (hdecl _ (.inr (.inl h')))
                · refine .inr (hdecl _ (.inr (.inr ⟨k, hk1, hk2, hk3, ?_⟩)))
                  intro hv'
                  have := (hs.vectors k hk1 hv' n hn ht t htf).2 hk
                  rw [hk2] at this
                  exact this hv
            | ref m =>
                rcases hl.known n hn ht t htf m hv with h' | h' | h' | ⟨k, hk1, hk2, hk3⟩
                · exact .inl h'
                · exact .inr (hdecl _ (.inl h'))
                · exact .inr (hdecl _ (.inr (.inl h')))
                · refine .inr (hdecl _ (.inr (.inr ⟨k, hk1, hk2, hk3, ?_⟩)))
                  intro hv'
                  have := (hs.vectors k hk1 hv' n hn ht t htf).1
                  rw [hk2] at this
                  exact this hv
        · exact Acc.nil _
      · -- aliases
        have e : p.aliases.map emitAlias = p.aliases.flatMap fun a => [emitAlias a] := (flatMap_single _ _).symm
        rw [e]
        refine Acc.flatMap _ _ fun a x b h => Acc.single ?_
        have hx : x ∈ p.aliases := by rw [h]; simp
        intro u hu
        rcases hs.aliases x hx u hu with h' | h' | h' | ⟨k, hk1, hk2, hk3, hk4⟩
        · exact .inl h'
        · right
          simp only [declares_append, List.mem_append]
          rw [← slices_complete] at h'
          exact .inl (.inl (.inl (.inl (.inr (complete_declared h')))))
        · right
          simp only [declares_append, List.mem_append]
          rw [← tuples_complete] at h'
          exact .inl (.inl (.inl (.inr (complete_declared h'))))
        · right
          simp only [declares_append, List.mem_append]
          refine .inl (.inl (.inr ?_))
          rw [← hk2]
          refine fwd_declares ((sorted_mem hl k).2 hk1) hk3 ?_
          have := hnt k hk1
          cases hkk : k.kind <;> simp_all
      · -- definitions
        refine Acc.flatMap _ _ fun a n b h => ?_
        have hn : n ∈ all p := (sorted_mem hl n).1 (by rw [h]; simp)
        have hfresh := nodup_split (sorted_nodup hl) h
        have hcomp : completes ([] ++ p.slices.flatMap emitSlice ++ p.tuples.flatMap emitTuple ++
            (topoSort (merged p)).flatMap emitFwd ++ (topoSort (merged p)).flatMap emitProto ++
            p.aliases.map emitAlias ++ a.flatMap emitDef) =
            p.slices.map sliceName ++ p.tuples.map tupleName ++ completes (a.flatMap emitDef) := by
          simp only [completes_append, slices_complete, tuples_complete, fwd_completes, proto_completes,
            alias_completes, List.append_nil]
          rfl
        have hnew : n.name ∉ completes ([] ++ p.slices.flatMap emitSlice ++ p.tuples.flatMap emitTuple ++
            (topoSort (merged p)).flatMap emitFwd ++ (topoSort (merged p)).flatMap emitProto ++
            p.aliases.map emitAlias ++ a.flatMap emitDef) := by
          rw [hcomp]
          simp only [List.mem_append, not_or]
          refine ⟨⟨(hl.own n hn).2.1, (hl.own n hn).2.2⟩, ?_⟩
          rw [completes_flatMap]
          intro hc
          obtain ⟨k, hk, hkn⟩ := List.mem_flatMap.1 hc
          rw [node_completes] at hkn
          split at hkn
          · rw [List.mem_singleton] at hkn
            exact hfresh (List.mem_map.2 ⟨k, hk, hkn.symm⟩)
          · cases hkn
        have hleg : n.template = false → n.kind ≠ .vector → Legal ext
            ([] ++ p.slices.flatMap emitSlice ++ p.tuples.flatMap emitTuple ++
            (topoSort (merged p)).flatMap emitFwd ++ (topoSort (merged p)).flatMap emitProto ++
            p.aliases.map emitAlias ++ a.flatMap emitDef) (.defn n.name (n.fields.flatMap uses)) := by
          intro ht hkv
          refine ⟨hnew, fun m hm => ?_, fun m hm => ?_⟩
          · obtain ⟨t, htf, htm⟩ := List.mem_flatMap.1 hm
            rw [hcomp]
            simp only [List.mem_append]
            rcases contained hl hs h ht ⟨t, htf, htm⟩ with h' | h' | h' | ⟨k, hk1, hk2, hk3, hk4⟩
            · exact .inl h'
            · exact .inr (.inl (.inl h'))
            · exact .inr (.inl (.inr h'))
            · refine .inr (.inr ?_)
              rw [completes_flatMap]
              refine List.mem_flatMap.2 ⟨k, hk1, ?_⟩
              have hka : k ∈ all p := (sorted_mem hl k).1 (by rw [h]; simp [hk1])
              rw [node_completes, if_pos ⟨hk3, hk4, hnt k hka⟩, hk2]
              simp
          · obtain ⟨t, htf, htm⟩ := List.mem_flatMap.1 hm
            rcases hl.known n hn ht t htf m htm with h' | h' | h' | ⟨k, hk1, hk2, hk3⟩
            · exact .inl h'
            · right
              simp only [declares_append, List.mem_append]
              rw [← slices_complete] at h'
              exact .inl (.inl (.inl (.inl (.inl (.inr (complete_declared h'))))))
            · right
              simp only [declares_append, List.mem_append]
              rw [← tuples_complete] at h'
              exact .inl (.inl (.inl (.inl (.inr (complete_declared h')))))
            · right
              simp only [declares_append, List.mem_append]
              refine .inl (.inl (.inl (.inr ?_)))
              rw [← hk2]
              refine fwd_declares ((sorted_mem hl k).2 hk1) hk3 ?_
              have h1 := hnt k hk1
              have h2 : k.kind ≠ .vector := fun hv => by
                have := (hs.vectors k hk1 hv n hn ht t htf).1
                rw [hk2] at this
                exact this htm
              cases hkk : k.kind <;> simp_all
        unfold emitDef
        split
        · exact Acc.nil _
        rename_i htpl
        have ht : n.template = false := by simpa using htpl
        split
        · rename_i hk
          split
          · exact Acc.nil _
          · exact Acc.single (hleg ht (by simp [hk]))
        · split
          · exact Acc.nil _
          · exact Acc.single ⟨hnew, by simp, by simp⟩
        · rename_i hk
          exact Acc.single (hleg ht (by simp [hk]))
        · exact Acc.nil _
    intro a d b h
    have := hA a d b h
    rwa [List.nil_append] at this
  · intro n hn ht hi hv
    unfold emit
    dsimp only
    simp only [List.mem_append]
    refine .inr (.inr (.inr (.inr (.inr (List.mem_flatMap.2 ⟨n, (sorted_mem hl n).2 hn, ?_⟩)))))
    unfold emitDef
    have := hnt n hn
    cases hk : n.kind <;> simp_all

end

/-! ## a program, and what the order cannot cope with -/

/-- the part of `Layout` about the types mentioned, for concrete programs -/
def refsOk (ext : List Name) (p : Program) (rank : Name → Nat) : Bool :=
  (all p).all fun n => n.template || n.fields.all fun t => (uses t).all fun u =>
    ext.contains u.name || (p.slices.map sliceName).contains u.name ||
      (p.tuples.map tupleName).contains u.name ||
      (all p).any fun k => k.name = u.name && (!k.template && (u ≠ .val u.name ||
        ((!k.incomplete || k.kind = .enum) && decide (rank u.name < rank n.name))))

/-- `Layout` for concrete programs -/
theorem Layout.of {ext : List Name} {p : Program} (rank : Name → Nat)
    (same : ∀ a ∈ all p, ∀ b ∈ all p, a.name = b.name → a = b)
    (nodup : ((p.insts ++ p.structs ++ p.enums).map Node.name).Nodup)
    (rest : ∀ n ∈ all p, n.kind ≠ .trait ∧ (n.name ≠ [] ∧ ∀ c ∈ n.name, c.isAlphanum = true ∨ c = '_') ∧
      n.name ∉ reserved ∧ n.name ∉ ext ∧ n.name ∉ p.slices.map sliceName ∧
      n.name ∉ p.tuples.map tupleName)
    (refs : refsOk ext p rank = true) :
    Layout ext p := by
  have refs : ∀ n ∈ all p, n.template = false → ∀ t ∈ n.fields, ∀ u ∈ uses t,
      u.name ∈ ext ∨ u.name ∈ p.slices.map sliceName ∨ u.name ∈ p.tuples.map tupleName ∨
        ∃ k ∈ all p, k.name = u.name ∧ k.template = false ∧
          (u = .val u.name → (k.incomplete = false ∨ k.kind = .enum) ∧ rank u.name < rank n.name) := by
    intro n hn ht t htf u hu
    have h := List.all_eq_true.1 refs n hn
    rw [ht, Bool.false_or] at h
    have h := List.all_eq_true.1 (List.all_eq_true.1 h t htf) u hu
    simp only [Bool.or_eq_true, List.contains_iff_mem, List.any_eq_true, Bool.and_eq_true, decide_eq_true_eq,
      Bool.not_eq_true'] at h
    rcases h with ((h | h) | h) | ⟨k, h1, h2, h3, h4⟩
    · exact .inl h
    · exact .inr (.inl h)
    · exact .inr (.inr (.inl h))
    · refine .inr (.inr (.inr ⟨k, h1, h2, h3, fun hu => ?_⟩))
      rcases h4 with h4 | h4
      · exact absurd hu h4
      · exact h4
  exact
  { same := same
    nodup := nodup
    noTrait n h := (rest n h).1
    ident n h := ⟨(rest n h).2.1, (rest n h).2.2.1⟩
    own n h := (rest n h).2.2.2
    ranked := ⟨rank, fun n h ht m ⟨t, htf, hm⟩ => by
      rcases refs n h ht t htf _ hm with h' | h' | h' | ⟨k, h1, h2, h3, h4⟩
      · exact .inl h'
      · exact .inr (.inl h')
      · exact .inr (.inr (.inl h'))
      · exact .inr (.inr (.inr ⟨k, h1, h2, h3, (h4 rfl).1, (h4 rfl).2⟩))⟩
    known n h ht t htf m hm := by
      rcases refs n h ht t htf _ hm with h' | h' | h' | ⟨k, h1, h2, h3, _⟩
      · exact .inl h'
      · exact .inr (.inl h')
      · exact .inr (.inr (.inl h'))
      · exact .inr (.inr (.inr ⟨k, h1, h2, h3⟩)) }

/-- rank by position in a list -/
def rankIn (l : List String) (n : Name) : Nat := (l.map String.toList).idxOf n

/-- a struct -/
def struct (n : String) (fs : List Ty) : Node := ⟨.struct, n.toList, fs, false, false⟩
/-- an enum -/
def enum (n : String) (fs : List Ty) : Node := ⟨.enum, n.toList, fs, false, false⟩
/-- a type by its name -/
def ty (n : String) : Ty := .named false n.toList

/-- Written outermost first: `struct A { b: B; a: A*; cs: C[3]; s: [int] }`,
`struct B { c: C; f: FILE*; p: (int, [int]) }`, a template, and `enum C { X(D), Y(int) }`,
`enum D { Z(A*) }`. -/
def sample : Program where
  insts := []
  structs := [struct "A" [ty "B", .ptr (ty "A"), .arr (ty "C") 3, .slice (.prim .int)],
    struct "B" [.named true "C".toList, .ptr (ty "FILE"), ty "Tuple_int__Slice_int"],
    ⟨.struct, "Box".toList, [ty "T", ty "A"], true, false⟩]
  enums := [enum "C" [ty "D", .prim .int], enum "D" [.ptr (ty "A")]]
  kids := [struct "B" [.named true "C".toList, .ptr (ty "FILE"), ty "Tuple_int__Slice_int"]]
  slices := [.prim .int]
  tuples := [[.prim .int, .slice (.prim .int)]]
  aliases := [("Q".toList, .ptr (ty "A"))]

example : (topoSort (merged sample)).map (fun n => String.ofList n.name) = ["D", "C", "B", "A", "Box"] := by
  decide +kernel

example : Layout ["FILE".toList] sample ∧ Simple ["FILE".toList] sample := by
  constructor
  · exact Layout.of (rankIn ["D", "C", "B", "A"]) (by decide +kernel) (by decide +kernel) (by decide +kernel)
      (by decide +kernel)
  · constructor
    · decide +kernel
    · simp +decide [all, sample, struct, enum, OkC, ty, Ident]
    · simp +decide [all, sample, struct, enum, OkZ, ty, Ident]
    · decide +kernel
    · decide +kernel
    · decide +kernel
    · decide +kernel
    · decide +kernel
    · decide +kernel

/-- no vector, slice, tuple or alias in the program -/
def plain (structs enums : List Node) : Program := ⟨[], structs, enums, [], [], [], []⟩

/-- `struct A { b: const B }` in front of `struct B { x: int }` -/
def constField : Program := plain [struct "A" [.const (ty "B")], struct "B" [.prim .int]] []

/-- C60 fails for a `const` field: the dependency is not seen, `A` is defined in front of `B`. -/
theorem const_field_violated : Layout [] constField ∧ ¬ Accepts [] (emit constField) := by
  refine ⟨Layout.of (rankIn ["B", "A"]) (by decide +kernel) (by decide +kernel) (by decide +kernel)
    (by decide +kernel), fun h => ?_⟩
  have := h [.fwd "A".toList, .fwd "B".toList] (.defn "A".toList [.val "B".toList])
    [.defn "B".toList []] (by decide +kernel)
  exact absurd (this.2.1 "B".toList (by decide +kernel)) (by decide +kernel)

/-- `opaque type H = B`, `struct B { c: C }`, `enum E { X(H) }`, `enum C { Y(int) }` -/
def opaquePayload : Program :=
  plain [struct "B" [ty "C"]] [enum "E" [.alias "H".toList (ty "B")], enum "C" [.prim .int]]

/-- C60 fails for a payload that is an opaque alias of a struct: the test looks at the alias's
name, the definition contains the struct. -/
theorem opaque_payload_violated : Layout [] opaquePayload ∧ ¬ Accepts [] (emit opaquePayload) := by
  refine ⟨Layout.of (rankIn ["C", "B", "E"]) (by decide +kernel) (by decide +kernel) (by decide +kernel)
    (by decide +kernel), fun h => ?_⟩
  have e : emit opaquePayload = [.fwd "E".toList, .fwd "C".toList, .fwd "B".toList,
      .proto [.ref "E".toList, .ref "B".toList], .proto [.ref "C".toList]] ++
      .defn "E".toList [.val "B".toList] :: [.defn "C".toList [], .defn "B".toList [.val "C".toList]] := by
    decide +kernel
  have := h _ _ _ e
  exact absurd (this.2.1 "B".toList (by decide +kernel)) (by decide +kernel)

/-- `struct A { v: V* }` in front of a vector type `V` -/
def vectorPointer : Program :=
  plain [struct "A" [.ptr (ty "V")], ⟨.vector, "V".toList, [.prim .f32], false, false⟩] []

/-- C60 fails for a pointer to a vector type declared further down: a pointer makes no
dependency, and vectors have no forward declaration. -/
theorem vector_pointer_violated : Layout [] vectorPointer ∧ ¬ Accepts [] (emit vectorPointer) := by
  refine ⟨Layout.of (rankIn ["V", "A"]) (by decide +kernel) (by decide +kernel) (by decide +kernel)
    (by decide +kernel), fun h => ?_⟩
  have e : emit vectorPointer = [.fwd "A".toList] ++ .defn "A".toList [.ref "V".toList] ::
      [.defn "V".toList []] := by decide +kernel
  have := h _ _ _ e
  exact absurd (this.2.2 "V".toList (by decide +kernel)) (by decide +kernel)

/-- `struct P { x: int }` and a slice `[P]` -/
def structSlice : Program := { plain [struct "P" [.prim .int]] [] with slices := [ty "P"] }

/-- C60 fails for every slice of a struct: slices are printed in front of all typedefs. -/
theorem slice_violated : Layout [] structSlice ∧ ¬ Accepts [] (emit structSlice) := by
  refine ⟨Layout.of (rankIn ["P"]) (by decide +kernel) (by decide +kernel) (by decide +kernel)
    (by decide +kernel), fun h => ?_⟩
  have e : emit structSlice = [.fwd "Slice_P".toList] ++ .defn "Slice_P".toList [.ref "P".toList] ::
      [.fwd "P".toList, .defn "P".toList []] := by decide +kernel
  have := h _ _ _ e
  exact absurd (this.2.2 "P".toList (by decide +kernel)) (by decide +kernel)

/-- `struct P { x: int }` and a tuple `(P, int)` -/
def structTuple : Program := { plain [struct "P" [.prim .int]] [] with tuples := [[ty "P", .prim .int]] }

/-- C60 fails for every tuple with a struct in it: tuples are printed in front of all structs. -/
theorem tuple_violated : Layout [] structTuple ∧ ¬ Accepts [] (emit structTuple) := by
  refine ⟨Layout.of (rankIn ["P"]) (by decide +kernel) (by decide +kernel) (by decide +kernel)
    (by decide +kernel), fun h => ?_⟩
  have e : emit structTuple = [.fwd "Tuple_P__int".toList] ++
      .defn "Tuple_P__int".toList [.val "P".toList] ::
      [.fwd "P".toList, .defn "P".toList []] := by decide +kernel
  have := h _ _ _ e
  exact absurd (this.2.1 "P".toList (by decide +kernel)) (by decide +kernel)

/-- `opaque type A = int; opaque type B = A;`: the latest alias comes first in the list -/
def aliasChain : Program :=
  { plain [] [] with aliases := [("B".toList, .alias "A".toList (.prim .int)), ("A".toList, .prim .int)] }

/-- C60 fails for an opaque alias of an opaque alias: the aliases are printed latest first. -/
theorem alias_chain_violated : Layout [] aliasChain ∧ ¬ Accepts [] (emit aliasChain) := by
  refine ⟨Layout.of (rankIn []) (by decide +kernel) (by decide +kernel) (by decide +kernel)
    (by decide +kernel), fun h => ?_⟩
  have e : emit aliasChain = [] ++ .typedef [.val "A".toList] "B".toList ::
      [.typedef [] "A".toList] := by decide +kernel
  have := h _ _ _ e
  exact absurd (this (.val "A".toList) (by decide +kernel)) (by decide +kernel)

/-- A type that contains itself through others is still emitted (and refused by C): the nodes on
a cycle come last, in the order of the list. -/
example : (topoSort [struct "A" [ty "B"], struct "B" [ty "A"], struct "C" []]).map
    (fun n => String.ofList n.name) = ["C", "A", "B"] := by decide +kernel

end Verif.DeclOrder
