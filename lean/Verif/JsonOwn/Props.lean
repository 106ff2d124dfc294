import Verif.JsonOwn.Model

/-!
# C170: a JSON value owns its memory

What was built with `push` and `set` (different keys in every object) is in memory as written, and `free` gives back exactly the memory it uses, once.
-/

namespace Verif.JsonOwn
open Spec

/-! ## frame -/

mutual
theorem Spec.Rep.frame {h h' : Heap} : ∀ {j : Prog} {v : Val} {ls : List Nat}, Rep h j v ls → (∀ l ∈ ls, h'.get l = h.get l) → Rep h' j v ls
  | .plain, _, _, r, _ => r
  | .str, _, _, r, fr => by
    obtain ⟨l, rfl, g, rfl⟩ := r
    exact ⟨l, rfl, by rw [fr l (by simp)]; exact g, rfl⟩
  | .arr xs, _, _, r, fr => by
    obtain ⟨l, items, ls', rfl, g, ri, rfl⟩ := r
    exact ⟨l, items, ls', rfl, by rw [fr l (by simp)]; exact g, RepItems.frame ri (fun k hk => fr k (by simp [hk])), rfl⟩
  | .obj es, _, _, r, fr => by
    obtain ⟨l, ps, ls', rfl, g, ri, rfl⟩ := r
    exact ⟨l, ps, ls', rfl, by rw [fr l (by simp)]; exact g, RepFields.frame ri (fun k hk => fr k (by simp [hk])), rfl⟩
theorem Spec.RepItems.frame {h h' : Heap} : ∀ {xs : Progs} {items ls : List Nat}, RepItems h xs items ls → (∀ l ∈ ls, h'.get l = h.get l) →
    RepItems h' xs items ls
  | .nil, _, _, r, _ => r
  | .cons _ _, _, _, r, fr => by
    obtain ⟨p, its, v, l1, l2, rfl, g, rv, rr, rfl⟩ := r
    exact ⟨p, its, v, l1, l2, rfl, by rw [fr p (by simp)]; exact g, Rep.frame rv (fun k hk => fr k (by simp [hk])),
      RepItems.frame rr (fun k hk => fr k (by simp [hk])), rfl⟩
theorem Spec.RepFields.frame {h h' : Heap} : ∀ {es : Fields} {ps : List (Nat × Nat)} {ls : List Nat}, RepFields h es ps ls →
    (∀ l ∈ ls, h'.get l = h.get l) → RepFields h' es ps ls
  | .nil, _, _, r, _ => r
  | .cons _ _ _, _, _, r, fr => by
    obtain ⟨p, its, v, l1, l2, rfl, g, rv, rr, rfl⟩ := r
    exact ⟨p, its, v, l1, l2, rfl, by rw [fr p (by simp)]; exact g, Rep.frame rv (fun k hk => fr k (by simp [hk])),
      RepFields.frame rr (fun k hk => fr k (by simp [hk])), rfl⟩
end

/-! ## free -/

theorem Heap.eq {h h' : Heap} (a : ∀ l, h.get l = h'.get l) (b : h.next = h'.next) : h = h' := by
  cases h; cases h'
  simp only [Heap.mk.injEq]
  exact ⟨funext a, b⟩

theorem without_nil (h : Heap) : without h [] = h := Heap.eq (fun l => by simp [without]) rfl

theorem without_append (h : Heap) (a b : List Nat) : without (without h a) b = without h (a ++ b) :=
  Heap.eq (fun l => by
    simp only [without, List.mem_append]
    by_cases x : l ∈ a <;> by_cases y : l ∈ b <;> simp [x, y]) rfl

theorem without_congr (h : Heap) {a b : List Nat} (e : ∀ l, l ∈ a ↔ l ∈ b) : without h a = without h b :=
  Heap.eq (fun l => by simp only [without, e]) rfl

theorem dealloc_without {h : Heap} {l : Nat} (ls : List Nat) {b : Blk} (g : h.get l = some b) (n : l ∉ ls) :
    dealloc (without h ls) l = some (without h (l :: ls)) := by
  have gl : (without h ls).get l = some b := by simp [without, n, g]
  rw [dealloc, gl]
  simp only [Option.isSome_some, if_true, Option.some.injEq]
  refine Heap.eq (fun k => ?_) rfl
  simp only [without, List.mem_cons]
  by_cases x : k = l <;> by_cases y : k ∈ ls <;> simp [x, y]

theorem get_without {h : Heap} {ls : List Nat} {l : Nat} (n : l ∉ ls) : (without h ls).get l = h.get l := by
  simp [without, n]

theorem freeCell_ok {rec : Heap → Val → Option Heap} {h : Heap} {p : Nat} {v : Val} {l1 : List Nat} (g : h.get p = some (.cell v))
    (r : rec h v = some (without h l1)) (n : p ∉ l1) : freeCell rec h p = some (without h (p :: l1)) := by
  rw [freeCell, g]
  show (rec h v).bind (fun h => dealloc h p) = _
  rw [r]
  exact dealloc_without l1 g n

mutual
/-- `free` gives back exactly the blocks of the value. -/
theorem free_rep : ∀ {j : Prog} {h : Heap} {v : Val} {ls : List Nat}, Rep h j v ls → ls.Nodup → ∃ n, ∀ f, n ≤ f → free f h v = some (without h ls)
  | .plain, h, _, _, r, _ => by
    obtain ⟨rfl, rfl⟩ := r
    refine ⟨1, fun f hf => ?_⟩
    obtain ⟨g, rfl⟩ : ∃ g, f = g + 1 := ⟨f - 1, by omega⟩
    rw [without_nil, free]
  | .str, h, _, _, r, _ => by
    obtain ⟨l, rfl, g, rfl⟩ := r
    refine ⟨1, fun f hf => ?_⟩
    obtain ⟨k, rfl⟩ : ∃ g, f = g + 1 := ⟨f - 1, by omega⟩
    rw [free]
    have := dealloc_without (h := h) [] g (by simp)
    rwa [without_nil] at this
  | .arr xs, h, _, _, r, nd => by
    obtain ⟨l, items, ls', rfl, g, ri, rfl⟩ := r
    obtain ⟨n, hn⟩ := free_items ri (List.nodup_cons.mp nd).2
    refine ⟨n + 1, fun f hf => ?_⟩
    obtain ⟨k, rfl⟩ : ∃ g, f = g + 1 := ⟨f - 1, by omega⟩
    rw [free, g]
    show (items.foldlM (freeCell (free k)) h).bind (fun h => dealloc h l) = _
    rw [hn k (by omega)]
    exact dealloc_without ls' g (List.nodup_cons.mp nd).1
  | .obj es, h, _, _, r, nd => by
    obtain ⟨l, ps, ls', rfl, g, ri, rfl⟩ := r
    obtain ⟨n, hn⟩ := free_fields ri (List.nodup_cons.mp nd).2
    refine ⟨n + 1, fun f hf => ?_⟩
    obtain ⟨k, rfl⟩ : ∃ g, f = g + 1 := ⟨f - 1, by omega⟩
    rw [free, g]
    show ((ps.map (·.2)).foldlM (freeCell (free k)) h).bind (fun h => dealloc h l) = _
    rw [hn k (by omega)]
    exact dealloc_without ls' g (List.nodup_cons.mp nd).1
theorem free_items : ∀ {xs : Progs} {h : Heap} {items ls : List Nat}, RepItems h xs items ls → ls.Nodup →
    ∃ n, ∀ f, n ≤ f → items.foldlM (freeCell (free f)) h = some (without h ls)
  | .nil, h, _, _, r, _ => by
    obtain ⟨rfl, rfl⟩ := r
    exact ⟨0, fun f _ => by rw [without_nil]; rfl⟩
  | .cons _ _, h, _, _, r, nd => by
    obtain ⟨p, its, v, l1, l2, rfl, g, rv, rr, rfl⟩ := r
    have nd' := List.nodup_cons.mp nd
    have na := List.nodup_append.mp nd'.2
    obtain ⟨n1, h1⟩ := free_rep rv na.1
    have pl1 : p ∉ l1 := fun m => nd'.1 (by simp [m])
    have fr : RepItems (without h (p :: l1)) _ its l2 := RepItems.frame rr (fun k hk => get_without (by
      intro m
      rcases List.mem_cons.mp m with rfl | m
      · exact nd'.1 (by simp [hk])
      · exact na.2.2 k m k hk rfl))
    obtain ⟨n2, h2⟩ := free_items fr na.2.1
    refine ⟨n1 + n2, fun f hf => ?_⟩
    rw [List.foldlM_cons, freeCell_ok g (h1 f (by omega)) pl1]
    show its.foldlM (freeCell (free f)) (without h (p :: l1)) = _
    rw [h2 f (by omega), without_append]
    rfl
theorem free_fields : ∀ {es : Fields} {h : Heap} {ps : List (Nat × Nat)} {ls : List Nat}, RepFields h es ps ls → ls.Nodup →
    ∃ n, ∀ f, n ≤ f → (ps.map (·.2)).foldlM (freeCell (free f)) h = some (without h ls)
  | .nil, h, _, _, r, _ => by
    obtain ⟨rfl, rfl⟩ := r
    exact ⟨0, fun f _ => by rw [without_nil]; rfl⟩
  | .cons _ _ _, h, _, _, r, nd => by
    obtain ⟨p, its, v, l1, l2, rfl, g, rv, rr, rfl⟩ := r
    have nd' := List.nodup_cons.mp nd
    have na := List.nodup_append.mp nd'.2
    obtain ⟨n1, h1⟩ := free_rep rv na.1
    have pl1 : p ∉ l1 := fun m => nd'.1 (by simp [m])
    have fr : RepFields (without h (p :: l1)) _ its l2 := RepFields.frame rr (fun k hk => get_without (by
      intro m
      rcases List.mem_cons.mp m with rfl | m
      · exact nd'.1 (by simp [hk])
      · exact na.2.2 k m k hk rfl))
    obtain ⟨n2, h2⟩ := free_fields fr na.2.1
    refine ⟨n1 + n2, fun f hf => ?_⟩
    rw [List.map_cons, List.foldlM_cons, freeCell_ok g (h1 f (by omega)) pl1]
    show (its.map (·.2)).foldlM (freeCell (free f)) (without h (p :: l1)) = _
    rw [h2 f (by omega), without_append]
    rfl
end

/-! ## build -/

mutual
theorem Spec.Rep.live {h : Heap} : ∀ {j : Prog} {v : Val} {ls : List Nat}, Rep h j v ls → ∀ l ∈ ls, (h.get l).isSome
  | .plain, _, _, r, l, m => by obtain ⟨rfl, rfl⟩ := r; cases m
  | .str, _, _, r, l, m => by
    obtain ⟨k, rfl, g, rfl⟩ := r
    simp only [List.mem_cons, List.not_mem_nil, or_false] at m
    rw [m, g]; rfl
  | .arr _, _, _, r, l, m => by
    obtain ⟨k, items, ls', rfl, g, ri, rfl⟩ := r
    rcases List.mem_cons.mp m with e | m
    · rw [e, g]; rfl
    · exact RepItems.live ri l m
  | .obj _, _, _, r, l, m => by
    obtain ⟨k, items, ls', rfl, g, ri, rfl⟩ := r
    rcases List.mem_cons.mp m with e | m
    · rw [e, g]; rfl
    · exact RepFields.live ri l m
theorem Spec.RepItems.live {h : Heap} : ∀ {xs : Progs} {items ls : List Nat}, RepItems h xs items ls → ∀ l ∈ ls, (h.get l).isSome
  | .nil, _, _, r, l, m => by obtain ⟨rfl, rfl⟩ := r; cases m
  | .cons _ _, _, _, r, l, m => by
    obtain ⟨p, its, v, l1, l2, rfl, g, rv, rr, rfl⟩ := r
    rcases List.mem_cons.mp m with e | m
    · rw [e, g]; rfl
    · rcases List.mem_append.mp m with m | m
      · exact Rep.live rv l m
      · exact RepItems.live rr l m
theorem Spec.RepFields.live {h : Heap} : ∀ {es : Fields} {ps : List (Nat × Nat)} {ls : List Nat}, RepFields h es ps ls → ∀ l ∈ ls, (h.get l).isSome
  | .nil, _, _, r, l, m => by obtain ⟨rfl, rfl⟩ := r; cases m
  | .cons _ _ _, _, _, r, l, m => by
    obtain ⟨p, its, v, l1, l2, rfl, g, rv, rr, rfl⟩ := r
    rcases List.mem_cons.mp m with e | m
    · rw [e, g]; rfl
    · rcases List.mem_append.mp m with m | m
      · exact Rep.live rv l m
      · exact RepFields.live rr l m
end

/-- Lists of programs, one after the other. -/
def Progs.app : Progs → Progs → Progs
  | .nil, b => b
  | .cons x r, b => .cons x (r.app b)

def Fields.app : Fields → Fields → Fields
  | .nil, b => b
  | .cons k x r, b => .cons k x (r.app b)

theorem Progs.app_nil : ∀ a : Progs, a.app .nil = a
  | .nil => rfl
  | .cons x r => by rw [Progs.app, Progs.app_nil r]

theorem Progs.app_assoc : ∀ a b c : Progs, (a.app b).app c = a.app (b.app c)
  | .nil, _, _ => rfl
  | .cons x r, b, c => by simp only [Progs.app, Progs.app_assoc r b c]

theorem Fields.app_nil : ∀ a : Fields, a.app .nil = a
  | .nil => rfl
  | .cons k x r => by rw [Fields.app, Fields.app_nil r]

theorem Fields.app_assoc : ∀ a b c : Fields, (a.app b).app c = a.app (b.app c)
  | .nil, _, _ => rfl
  | .cons k x r, b, c => by simp only [Fields.app, Fields.app_assoc r b c]

theorem Fields.keys_app : ∀ a b : Fields, Fields.keys (a.app b) = Fields.keys a ++ Fields.keys b
  | .nil, _ => rfl
  | .cons k x r, b => by simp only [Fields.app, Fields.keys, Fields.keys_app r b, List.cons_append]

theorem Spec.RepItems.snoc {h : Heap} {j : Prog} {p : Nat} {w : Val} {l2 : List Nat} (g : h.get p = some (.cell w)) (rw' : Rep h j w l2) :
    ∀ {xs : Progs} {items ls : List Nat}, RepItems h xs items ls → RepItems h (xs.app (.cons j .nil)) (items ++ [p]) (ls ++ p :: l2)
  | .nil, _, _, r => by
    obtain ⟨rfl, rfl⟩ := r
    exact ⟨p, [], w, l2, [], rfl, g, rw', ⟨rfl, rfl⟩, by simp⟩
  | .cons _ _, _, _, r => by
    obtain ⟨q, its, v, a, b, rfl, gq, rv, rr, rfl⟩ := r
    exact ⟨q, its ++ [p], v, a, b ++ p :: l2, rfl, gq, rv, RepItems.snoc g rw' rr, by simp⟩

theorem Spec.RepFields.keys {h : Heap} : ∀ {es : Fields} {ps : List (Nat × Nat)} {ls : List Nat}, RepFields h es ps ls → ps.map (·.1) = Fields.keys es
  | .nil, _, _, r => by obtain ⟨rfl, rfl⟩ := r; rfl
  | .cons _ _ _, _, _, r => by
    obtain ⟨q, its, v, a, b, rfl, gq, rv, rr, rfl⟩ := r
    simp only [List.map_cons, Fields.keys, RepFields.keys rr]

theorem put_new {k p : Nat} : ∀ {ps : List (Nat × Nat)}, k ∉ ps.map (·.1) → put k p ps = ps ++ [(k, p)]
  | [], _ => rfl
  | (k', q) :: r, n => by
    simp only [List.map_cons, List.mem_cons, not_or] at n
    rw [put, if_neg (fun e => n.1 e.symm), put_new n.2, List.cons_append]

theorem Spec.RepFields.snoc {h : Heap} {j : Prog} {k p : Nat} {w : Val} {l2 : List Nat} (g : h.get p = some (.cell w)) (rw' : Rep h j w l2) :
    ∀ {es : Fields} {ps : List (Nat × Nat)} {ls : List Nat}, RepFields h es ps ls →
      RepFields h (es.app (.cons k j .nil)) (ps ++ [(k, p)]) (ls ++ p :: l2)
  | .nil, _, _, r => by
    obtain ⟨rfl, rfl⟩ := r
    exact ⟨p, [], w, l2, [], rfl, g, rw', ⟨rfl, rfl⟩, by simp⟩
  | .cons _ _ _, _, _, r => by
    obtain ⟨q, its, v, a, b, rfl, gq, rv, rr, rfl⟩ := r
    exact ⟨q, its ++ [(k, p)], v, a, b ++ p :: l2, rfl, gq, rv, RepFields.snoc g rw' rr, by simp⟩

theorem Spec.WF.lt {h : Heap} (wf : WF h) {l : Nat} (s : (h.get l).isSome) : l < h.next := by
  by_cases c : l < h.next
  · exact c
  · rw [wf l (by omega)] at s; cases s

theorem alloc_get {h : Heap} {b : Blk} {l : Nat} (lt : l < h.next) : (alloc h b).1.get l = h.get l := by
  simp only [alloc]
  rw [if_neg (by omega)]

theorem alloc_wf {h : Heap} (wf : WF h) (b : Blk) : WF (alloc h b).1 := fun l hl => by
  simp only [alloc] at hl ⊢
  rw [if_neg (by omega)]
  exact wf l (by omega)

/-- **C170 (push)**: pushing a value to an array adds it at the end; the array then owns the memory of both and one block more. -/
theorem push_ok {f : Nat} {h : Heap} {xs : Progs} {j : Prog} {v w : Val} {ls l2 : List Nat} (wf : WF h) (o : Owned h (.arr xs) v ls) (ow : Owned h j w l2)
    (dis : ∀ l ∈ ls, l ∉ l2) :
    ∃ h', push f h v w = some h' ∧ WF h' ∧ Owned h' (.arr (xs.app (.cons j .nil))) v (ls ++ h.next :: l2) ∧ h'.next = h.next + 1 ∧
      (∀ l, l ∉ ls → l ≠ h.next → h'.get l = h.get l) := by
  obtain ⟨l, items, ls', rfl, g, ri, rfl⟩ := o.1
  have lt : ∀ k ∈ l :: ls', k < h.next := fun k m => wf.lt (o.1.live k m)
  have lt2 : ∀ k ∈ l2, k < h.next := fun k m => wf.lt (ow.1.live k m)
  have nd := List.nodup_cons.mp o.2
  have lne : l ≠ h.next := by have := lt l (by simp); omega
  refine ⟨store (alloc h (.cell w)).1 l (.vec (items ++ [h.next])), ?_, ?_, ⟨?_, ?_⟩, rfl, ?_⟩
  · rw [push, alloc_get (lt l (by simp)), g]; rfl
  · intro k hk
    simp only [store, alloc] at hk ⊢
    have := lt l (by simp)
    rw [if_neg (by omega), if_neg (by omega)]
    exact wf k (by omega)
  · refine ⟨l, items ++ [h.next], ls' ++ h.next :: l2, rfl, by simp [store], ?_, by simp⟩
    refine RepItems.snoc (w := w) ?_ ?_ ?_
    · simp only [store, alloc]
      simp [lne.symm]
    · refine ow.1.frame (fun k m => ?_)
      simp only [store, alloc]
      rw [if_neg (fun e : k = l => dis l (by simp) (e ▸ m)), if_neg (by have := lt2 k m; omega)]
    · refine RepItems.frame ri (fun k m => ?_)
      simp only [store, alloc]
      rw [if_neg (fun e : k = l => nd.1 (e ▸ m)), if_neg (by have := lt k (by simp [m]); omega)]
  · rw [List.nodup_append]
    refine ⟨o.2, List.nodup_cons.mpr ⟨fun m => ?_, ow.2⟩, fun a ma b mb => ?_⟩
    · have := lt2 _ m; omega
    · rcases List.mem_cons.mp mb with rfl | mb
      · have := lt a ma; omega
      · exact fun e => dis a ma (e ▸ mb)
  · intro k hk kn
    simp only [store, alloc]
    rw [if_neg (fun e => hk (by simp [e])), if_neg kn]

/-- **C170 (set)**: setting a new key of an object adds the entry; the object then owns the memory of both and one block more. -/
theorem set_ok {f : Nat} {h : Heap} {es : Fields} {j : Prog} {v w : Val} {k : Nat} {ls l2 : List Nat} (wf : WF h) (o : Owned h (.obj es) v ls)
    (ow : Owned h j w l2) (dis : ∀ l ∈ ls, l ∉ l2) (new : k ∉ Fields.keys es) :
    ∃ h', set f h v k w = some h' ∧ WF h' ∧ Owned h' (.obj (es.app (.cons k j .nil))) v (ls ++ h.next :: l2) ∧ h'.next = h.next + 1 ∧
      (∀ l, l ∉ ls → l ≠ h.next → h'.get l = h.get l) := by
  obtain ⟨l, ps, ls', rfl, g, ri, rfl⟩ := o.1
  have lt : ∀ k ∈ l :: ls', k < h.next := fun k m => wf.lt (o.1.live k m)
  have lt2 : ∀ k ∈ l2, k < h.next := fun k m => wf.lt (ow.1.live k m)
  have nd := List.nodup_cons.mp o.2
  have lne : l ≠ h.next := by have := lt l (by simp); omega
  refine ⟨store (alloc h (.cell w)).1 l (.map (ps ++ [(k, h.next)])), ?_, ?_, ⟨?_, ?_⟩, rfl, ?_⟩
  · rw [set, alloc_get (lt l (by simp)), g]
    show some (store (alloc h (.cell w)).1 l (.map (put k h.next ps))) = _
    rw [put_new (by rw [ri.keys]; exact new)]
  · intro k hk
    simp only [store, alloc] at hk ⊢
    have := lt l (by simp)
    rw [if_neg (by omega), if_neg (by omega)]
    exact wf k (by omega)
  · refine ⟨l, ps ++ [(k, h.next)], ls' ++ h.next :: l2, rfl, by simp [store], ?_, by simp⟩
    refine RepFields.snoc (w := w) ?_ ?_ ?_
    · simp only [store, alloc]
      simp [lne.symm]
    · refine ow.1.frame (fun k m => ?_)
      simp only [store, alloc]
      rw [if_neg (fun e : k = l => dis l (by simp) (e ▸ m)), if_neg (by have := lt2 k m; omega)]
    · refine RepFields.frame ri (fun k m => ?_)
      simp only [store, alloc]
      rw [if_neg (fun e : k = l => nd.1 (e ▸ m)), if_neg (by have := lt k (by simp [m]); omega)]
  · rw [List.nodup_append]
    refine ⟨o.2, List.nodup_cons.mpr ⟨fun m => ?_, ow.2⟩, fun a ma b mb => ?_⟩
    · have := lt2 _ m; omega
    · rcases List.mem_cons.mp mb with rfl | mb
      · have := lt a ma; omega
      · exact fun e => dis a ma (e ▸ mb)
  · intro k hk kn
    simp only [store, alloc]
    rw [if_neg (fun e => hk (by simp [e])), if_neg kn]

mutual
/-- What a program builds: the value is in memory as written, in new blocks, and nothing else has changed. -/
theorem build_ok {f : Nat} : ∀ (b : Prog) {h : Heap}, WF h → Distinct b → ∃ h' v ls, build f b h = some (h', v) ∧ WF h' ∧ Owned h' b v ls ∧ h.next ≤ h'.next ∧
    (∀ l ∈ ls, h.next ≤ l) ∧ (∀ l, l ∉ ls → h'.get l = h.get l)
  | .plain, h, wf, _ => ⟨h, .plain, [], by rw [build], wf, ⟨⟨rfl, rfl⟩, List.nodup_nil⟩, Nat.le_refl _, by simp, fun _ _ => rfl⟩
  | .str, h, wf, _ => by
    refine ⟨(alloc h .chars).1, .str h.next, [h.next], by rw [build]; rfl, alloc_wf wf _, ⟨⟨h.next, rfl, by simp [alloc], rfl⟩, by simp⟩, by simp [alloc],
      by simp, fun l hl => ?_⟩
    simp only [alloc]
    rw [if_neg (by simpa using hl)]
  | .arr xs, h, wf, d => by
    rw [Distinct] at d
    have o : Owned (alloc h (.vec [])).1 (.arr .nil) (.arr h.next) [h.next] :=
      ⟨⟨h.next, [], [], rfl, by simp [alloc], ⟨rfl, rfl⟩, rfl⟩, by simp⟩
    obtain ⟨h', ls, e, wf', o', le, ge, sub, fr⟩ := pushes_ok xs (alloc_wf wf _) d o h.next (by simp [alloc]) (by simp)
    refine ⟨h', .arr h.next, ls, ?_, wf', o', by simp only [alloc] at le; omega, ge, fun l hl => ?_⟩
    · rw [build]
      show (pushes f xs (alloc h (.vec [])).1 (.arr h.next)).map _ = _
      rw [e]; rfl
    · have ne : l ≠ h.next := fun e => hl (sub l (by simp [e]))
      rw [fr l (by simpa using ne) hl]
      simp only [alloc]
      rw [if_neg ne]
  | .obj es, h, wf, d => by
    rw [Distinct] at d
    have o : Owned (alloc h (.map [])).1 (.obj .nil) (.obj h.next) [h.next] :=
      ⟨⟨h.next, [], [], rfl, by simp [alloc], ⟨rfl, rfl⟩, rfl⟩, by simp⟩
    obtain ⟨h', ls, e, wf', o', le, ge, sub, fr⟩ := sets_ok (es := .nil) es (alloc_wf wf _) d.2 d.1 o h.next (by simp [alloc]) (by simp)
    refine ⟨h', .obj h.next, ls, ?_, wf', o', by simp only [alloc] at le; omega, ge, fun l hl => ?_⟩
    · rw [build]
      show (sets f es (alloc h (.map [])).1 (.obj h.next)).map _ = _
      rw [e]; rfl
    · have ne : l ≠ h.next := fun e => hl (sub l (by simp [e]))
      rw [fr l (by simpa using ne) hl]
      simp only [alloc]
      rw [if_neg ne]
theorem pushes_ok {f : Nat} : ∀ (r : Progs) {h : Heap} {xs : Progs} {v : Val} {ls : List Nat}, WF h → DistinctAll r → Owned h (.arr xs) v ls →
    ∀ n, n ≤ h.next → (∀ l ∈ ls, n ≤ l) →
    ∃ h' ls', pushes f r h v = some h' ∧ WF h' ∧ Owned h' (.arr (xs.app r)) v ls' ∧ h.next ≤ h'.next ∧ (∀ l ∈ ls', n ≤ l) ∧
      (∀ l ∈ ls, l ∈ ls') ∧ (∀ l, l ∉ ls → l ∉ ls' → h'.get l = h.get l)
  | .nil, h, xs, v, ls, wf, _, o, n, _, ge => ⟨h, ls, by rw [pushes], wf, by rw [Progs.app_nil]; exact o, Nat.le_refl _, ge, fun _ m => m, fun _ _ _ => rfl⟩
  | .cons x r, h, xs, v, ls, wf, d, o, n, le, ge => by
    rw [DistinctAll] at d
    obtain ⟨h1, w, l1, e1, wf1, o1, le1, ge1, fr1⟩ := build_ok x wf d.1
    have lt : ∀ k ∈ ls, k < h.next := fun k m => wf.lt (o.1.live k m)
    have dis : ∀ l ∈ ls, l ∉ l1 := fun l m m1 => by have := lt l m; have := ge1 l m1; omega
    have oo : Owned h1 (.arr xs) v ls := ⟨o.1.frame (fun l m => fr1 l (dis l m)), o.2⟩
    obtain ⟨h2, e2, wf2, o2, nx2, fr2⟩ := push_ok wf1 oo o1 dis
    obtain ⟨h3, ls3, e3, wf3, o3, le3, ge3, sub3, fr3⟩ := pushes_ok r wf2 d.2 o2 n (by omega) (by
      intro l m
      rcases List.mem_append.mp m with m | m
      · exact ge l m
      · rcases List.mem_cons.mp m with rfl | m
        · omega
        · have := ge1 l m; omega)
    refine ⟨h3, ls3, ?_, wf3, ?_, by omega, ge3, fun l m => sub3 l (by simp [m]), fun l a b => ?_⟩
    · rw [pushes, e1]
      show (push f h1 v w).bind (fun h => pushes f r h v) = _
      rw [e2]; exact e3
    · rw [Progs.app_assoc] at o3; exact o3
    · by_cases m : l ∈ ls ++ h1.next :: l1
      · exact absurd (sub3 l m) b
      · simp only [List.mem_append, List.mem_cons, not_or] at m
        rw [fr3 l (by simp [m]) b, fr2 l m.1 m.2.1, fr1 l m.2.2]
theorem sets_ok {f : Nat} : ∀ (r : Fields) {h : Heap} {es : Fields} {v : Val} {ls : List Nat}, WF h → DistinctFields r → (Fields.keys (es.app r)).Nodup →
    Owned h (.obj es) v ls → ∀ n, n ≤ h.next → (∀ l ∈ ls, n ≤ l) →
    ∃ h' ls', sets f r h v = some h' ∧ WF h' ∧ Owned h' (.obj (es.app r)) v ls' ∧ h.next ≤ h'.next ∧ (∀ l ∈ ls', n ≤ l) ∧
      (∀ l ∈ ls, l ∈ ls') ∧ (∀ l, l ∉ ls → l ∉ ls' → h'.get l = h.get l)
  | .nil, h, es, v, ls, wf, _, _, o, n, _, ge => ⟨h, ls, by rw [sets], wf, by rw [Fields.app_nil]; exact o, Nat.le_refl _, ge, fun _ m => m, fun _ _ _ => rfl⟩
  | .cons k x r, h, es, v, ls, wf, d, nk, o, n, le, ge => by
    rw [DistinctFields] at d
    obtain ⟨h1, w, l1, e1, wf1, o1, le1, ge1, fr1⟩ := build_ok x wf d.1
    have lt : ∀ k ∈ ls, k < h.next := fun k m => wf.lt (o.1.live k m)
    have dis : ∀ l ∈ ls, l ∉ l1 := fun l m m1 => by have := lt l m; have := ge1 l m1; omega
    have oo : Owned h1 (.obj es) v ls := ⟨o.1.frame (fun l m => fr1 l (dis l m)), o.2⟩
    have hk : k ∉ Fields.keys es := by
      rw [Fields.keys_app] at nk
      exact fun m => (List.nodup_append.mp nk).2.2 k m k (by simp [Fields.keys]) rfl
    have nk' : (Fields.keys ((es.app (.cons k x .nil)).app r)).Nodup := by
      rw [Fields.app_assoc]; exact nk
    obtain ⟨h2, e2, wf2, o2, nx2, fr2⟩ := set_ok wf1 oo o1 dis hk
    obtain ⟨h3, ls3, e3, wf3, o3, le3, ge3, sub3, fr3⟩ := sets_ok r wf2 d.2 nk' o2 n (by omega) (by
      intro l m
      rcases List.mem_append.mp m with m | m
      · exact ge l m
      · rcases List.mem_cons.mp m with rfl | m
        · omega
        · have := ge1 l m; omega)
    refine ⟨h3, ls3, ?_, wf3, ?_, by omega, ge3, fun l m => sub3 l (by simp [m]), fun l a b => ?_⟩
    · rw [sets, e1]
      show (set f h1 v k w).bind (fun h => sets f r h v) = _
      rw [e2]; exact e3
    · rw [Fields.app_assoc] at o3; exact o3
    · by_cases m : l ∈ ls ++ h1.next :: l1
      · exact absurd (sub3 l m) b
      · simp only [List.mem_append, List.mem_cons, not_or] at m
        rw [fr3 l (by simp [m]) b, fr2 l m.1 m.2.1, fr1 l m.2.2]
end

/-- **C170 (free)**: what was built is in memory as written, and `free` gives back exactly the memory that building took: the heap is then as before. -/
theorem build_free_partial {h : Heap} (wf : WF h) (b : Prog) (d : Distinct b) (f : Nat) : ∃ h' v ls, build f b h = some (h', v) ∧ Owned h' b v ls ∧
    ∃ n, ∀ g, n ≤ g → ∃ h'', free g h' v = some h'' ∧ ∀ l, h''.get l = h.get l := by
  obtain ⟨h', v, ls, e, _, o, _, ge, fr⟩ := build_ok (f := f) b wf d
  obtain ⟨n, hn⟩ := free_rep o.1 o.2
  refine ⟨h', v, ls, e, o, n, fun g hg => ⟨_, hn g hg, fun l => ?_⟩⟩
  by_cases m : l ∈ ls
  · simp only [without, m, if_true]
    exact (wf l (ge l m)).symm
  · rw [get_without m, fr l m]

/-- **C170 (other kinds)**: pushing to a value that is no array changes nothing but that the pushed value is freed. -/
theorem push_other {h : Heap} {j : Prog} {v w : Val} {l2 : List Nat} (nv : ∀ l, v ≠ .arr l) (ow : Owned h j w l2) :
    ∃ n, ∀ f, n ≤ f → push f h v w = some (without h l2) := by
  obtain ⟨n, hn⟩ := free_rep ow.1 ow.2
  refine ⟨n, fun f hf => ?_⟩
  rw [← hn f hf]
  cases v with
  | arr l => exact absurd rfl (nv l)
  | _ => rfl

/-- **C170 (other kinds)**: likewise for `set` of a value that is no object. -/
theorem set_other {h : Heap} {j : Prog} {v w : Val} {k : Nat} {l2 : List Nat} (nv : ∀ l, v ≠ .obj l) (ow : Owned h j w l2) :
    ∃ n, ∀ f, n ≤ f → set f h v k w = some (without h l2) := by
  obtain ⟨n, hn⟩ := free_rep ow.1 ow.2
  refine ⟨n, fun f hf => ?_⟩
  rw [← hn f hf]
  cases v with
  | obj l => exact absurd rfl (nv l)
  | _ => rfl

/-! ## reading -/

/-- The elements of an array. -/
def Spec.Progs.list : Progs → List Prog
  | .nil => []
  | .cons x r => x :: Spec.Progs.list r

/-- The entries of an object. -/
def Spec.Fields.list : Fields → List (Nat × Prog)
  | .nil => []
  | .cons k x r => (k, x) :: Spec.Fields.list r

theorem Spec.RepItems.at {h : Heap} : ∀ {xs : Progs} {items ls : List Nat}, RepItems h xs items ls → items.length = (Progs.list xs).length ∧
    ∀ (i : Nat) j, (Progs.list xs)[i]? = some j → ∃ p w l, items[i]? = some p ∧ h.get p = some (.cell w) ∧ Rep h j w l ∧ ∀ k ∈ l, k ∈ ls
  | .nil, _, _, r => by
    obtain ⟨rfl, rfl⟩ := r
    exact ⟨rfl, fun i j e => by simp [Progs.list] at e⟩
  | .cons x r, _, _, rr => by
    obtain ⟨p, its, v, l1, l2, rfl, g, rv, rr, rfl⟩ := rr
    obtain ⟨a, b⟩ := Spec.RepItems.at rr
    refine ⟨by simp [Progs.list, a], fun i j e => ?_⟩
    cases i with
    | zero =>
      simp only [Progs.list, List.getElem?_cons_zero, Option.some.injEq] at e
      subst e
      exact ⟨p, v, l1, rfl, g, rv, fun k m => by simp [m]⟩
    | succ i =>
      simp only [Progs.list, List.getElem?_cons_succ] at e
      obtain ⟨q, w, l, c1, c2, c3, c4⟩ := b i j e
      exact ⟨q, w, l, by simpa using c1, c2, c3, fun k m => by simp [c4 k m]⟩

theorem Spec.RepFields.get {h : Heap} (key : Nat) : ∀ {es : Fields} {ps : List (Nat × Nat)} {ls : List Nat}, RepFields h es ps ls →
    ps.length = (Fields.list es).length ∧ ((Fields.list es).lookup key = none → ps.lookup key = none) ∧
    ∀ j, (Fields.list es).lookup key = some j → ∃ p w l, ps.lookup key = some p ∧ h.get p = some (.cell w) ∧ Rep h j w l ∧ ∀ k ∈ l, k ∈ ls
  | .nil, _, _, r => by
    obtain ⟨rfl, rfl⟩ := r
    exact ⟨rfl, fun _ => rfl, fun j e => by simp [Fields.list] at e⟩
  | .cons k x r, _, _, rr => by
    obtain ⟨p, its, v, l1, l2, rfl, g, rv, rr, rfl⟩ := rr
    obtain ⟨a, n, b⟩ := Spec.RepFields.get key rr
    refine ⟨by simp [Fields.list, a], fun e => ?_, fun j e => ?_⟩
    · simp only [Fields.list, List.lookup_cons] at e ⊢
      by_cases c : key == k
      · rw [c] at e; cases e
      · rw [Bool.not_eq_true] at c
        rw [c] at e ⊢; exact n e
    · simp only [Fields.list, List.lookup_cons] at e ⊢
      by_cases c : key == k
      · rw [c] at e ⊢
        simp only [Option.some.injEq] at e
        subst e
        exact ⟨p, v, l1, rfl, g, rv, fun k m => by simp [m]⟩
      · rw [Bool.not_eq_true] at c
        rw [c] at e ⊢
        obtain ⟨q, w, l, c1, c2, c3, c4⟩ := b j e
        exact ⟨q, w, l, c1, c2, c3, fun k m => by simp [c4 k m]⟩

/-- **C170 (at)**: the element with the index, in the memory of the array; none if there is none. -/
theorem at_ok {h : Heap} {xs : Progs} {v : Val} {ls : List Nat} (o : Owned h (.arr xs) v ls) (i : Nat) :
    (∀ j, (Progs.list xs)[i]? = some j → ∃ p w l, at' h v i = some p ∧ h.get p = some (.cell w) ∧ Rep h j w l ∧ ∀ k ∈ l, k ∈ ls) ∧
    ((Progs.list xs)[i]? = none → at' h v i = none) ∧ len h v = (Progs.list xs).length := by
  obtain ⟨l, items, ls', rfl, g, ri, rfl⟩ := o.1
  obtain ⟨a, b⟩ := ri.at
  refine ⟨fun j e => ?_, fun e => ?_, ?_⟩
  · obtain ⟨p, w, m, c1, c2, c3, c4⟩ := b i j e
    exact ⟨p, w, m, by simp only [at', g]; exact c1, c2, c3, fun k hk => by simp [c4 k hk]⟩
  · simp only [at', g]
    rw [List.getElem?_eq_none_iff] at e ⊢
    omega
  · simp only [len, g, a]

/-- **C170 (get)**: the value of the key, in the memory of the object; none if there is none. -/
theorem get_ok {h : Heap} {es : Fields} {v : Val} {ls : List Nat} (o : Owned h (.obj es) v ls) (key : Nat) :
    (∀ j, (Fields.list es).lookup key = some j → ∃ p w l, get h v key = some p ∧ h.get p = some (.cell w) ∧ Rep h j w l ∧ ∀ k ∈ l, k ∈ ls) ∧
    ((Fields.list es).lookup key = none → get h v key = none) ∧ len h v = (Fields.list es).length := by
  obtain ⟨l, ps, ls', rfl, g, ri, rfl⟩ := o.1
  obtain ⟨a, n, b⟩ := ri.get key
  refine ⟨fun j e => ?_, fun e => ?_, ?_⟩
  · obtain ⟨p, w, m, c1, c2, c3, c4⟩ := b j e
    exact ⟨p, w, m, by simp only [get, g]; exact c1, c2, c3, fun k hk => by simp [c4 k hk]⟩
  · simp only [get, g]
    exact n e
  · simp only [len, g, a]

/-! ## where it goes wrong -/

/-- **C170 fails**: `free` leaves the pointers in the value. A value that was freed is freed again by its destructor, and with a string, an array or an
object that is an error. (The example of docs/std/json.md:62-72 calls `obj.free()` for a variable that has a destructor.) -/
theorem free_twice_violated {h : Heap} {j : Prog} {v : Val} {ls : List Nat} (o : Owned h j v ls) (nj : j ≠ .plain) :
    ∃ n, ∀ f, n ≤ f → ∃ h', free f h v = some h' ∧ ∀ g, free g h' v = none := by
  obtain ⟨n, hn⟩ := free_rep o.1 o.2
  refine ⟨n, fun f hf => ⟨_, hn f hf, fun g => ?_⟩⟩
  cases g with
  | zero => rfl
  | succ g =>
    cases j with
    | plain => exact absurd rfl nj
    | str =>
      obtain ⟨l, rfl, _, rfl⟩ := o.1
      simp [free, dealloc, without]
    | arr xs =>
      obtain ⟨l, items, ls', rfl, _, _, rfl⟩ := o.1
      simp [free, without]
    | obj es =>
      obtain ⟨l, items, ls', rfl, _, _, rfl⟩ := o.1
      simp [free, without]

theorem put_old {h : Heap} {k q : Nat} {w : Val} {j : Prog} {l2 : List Nat} (g : h.get q = some (.cell w)) (rw' : Rep h j w l2) (nq : (q :: l2).Nodup) :
    ∀ {es : Fields} {ps : List (Nat × Nat)} {ls : List Nat}, RepFields h es ps ls → ls.Nodup → k ∈ Fields.keys es → (∀ l ∈ ls, l ∉ q :: l2) →
    ∃ es' ls' p, RepFields h es' (put k q ps) ls' ∧ ls'.Nodup ∧ p ∈ ls ∧ p ∉ ls' ∧ ∀ l ∈ ls', l ∈ ls ∨ l ∈ q :: l2
  | .nil, _, _, _, _, m, _ => by cases m
  | .cons k' x r, _, _, rr, nd, m, dis => by
    obtain ⟨p, its, v, l1, l3, rfl, gp, rv, rr, rfl⟩ := rr
    have nd' := List.nodup_cons.mp nd
    have na := List.nodup_append.mp nd'.2
    by_cases c : k' = k
    · refine ⟨.cons k' j r, q :: (l2 ++ l3), p, ?_, ?_, by simp, ?_, ?_⟩
      · rw [put, if_pos c]
        exact ⟨q, its, w, l2, l3, rfl, g, rw', rr, rfl⟩
      · rw [← List.cons_append, List.nodup_append]
        exact ⟨nq, na.2.1, fun a ma b mb e => dis b (by simp [mb]) (e ▸ ma)⟩
      · intro mp
        rw [← List.cons_append] at mp
        rcases List.mem_append.mp mp with mp | mp
        · exact dis p (by simp) mp
        · exact nd'.1 (by simp [mp])
      · intro l ml
        rw [← List.cons_append] at ml
        rcases List.mem_append.mp ml with ml | ml
        · exact .inr ml
        · exact .inl (by simp [ml])
    · have mr : k ∈ Fields.keys r := by
        simp only [Fields.keys, List.mem_cons] at m
        exact m.resolve_left (fun e => c e.symm)
      obtain ⟨es', ls', p', a1, a2, a3, a4, a5⟩ := put_old g rw' nq rr na.2.1 mr (fun l ml => dis l (by simp [ml]))
      have old : ∀ l, l = p ∨ l ∈ l1 → l ∉ ls' := fun l hl ml => by
        rcases a5 l ml with m3 | m3
        · rcases hl with rfl | hl
          · exact nd'.1 (by simp [m3])
          · exact na.2.2 l hl l m3 rfl
        · exact dis l (by rcases hl with rfl | hl <;> simp [*]) m3
      refine ⟨.cons k' x es', p :: (l1 ++ ls'), p', ?_, ?_, by simp [a3], ?_, ?_⟩
      · rw [put, if_neg c]
        exact ⟨p, put k q its, v, l1, ls', rfl, gp, rv, a1, rfl⟩
      · refine List.nodup_cons.mpr ⟨fun mp => ?_, List.nodup_append.mpr ⟨na.1, a2, fun a ma b mb e => old a (.inr ma) (e ▸ mb)⟩⟩
        rcases List.mem_append.mp mp with mp | mp
        · exact nd'.1 (by simp [mp])
        · exact old p (.inl rfl) mp
      · intro mp
        rcases List.mem_cons.mp mp with rfl | mp
        · exact nd'.1 (by simp [a3])
        · rcases List.mem_append.mp mp with mp | mp
          · exact na.2.2 p' mp p' a3 rfl
          · exact a4 mp
      · intro l ml
        rcases List.mem_cons.mp ml with rfl | ml
        · exact .inl (by simp)
        · rcases List.mem_append.mp ml with ml | ml
          · exact .inl (by simp [ml])
          · rcases a5 l ml with m3 | m3
            · exact .inl (by simp [m3])
            · exact .inr m3

/-- **C170 fails**: setting a key that the object has already loses the old value; its memory is in use even after the object was freed. -/
theorem set_twice_violated {f : Nat} {h : Heap} {es : Fields} {j : Prog} {v w : Val} {k : Nat} {ls l2 : List Nat} (wf : WF h)
    (o : Owned h (.obj es) v ls) (ow : Owned h j w l2) (dis : ∀ l ∈ ls, l ∉ l2) (old : k ∈ Fields.keys es) :
    ∃ h' p, set f h v k w = some h' ∧ p ∈ ls ∧ ∃ n, ∀ g, n ≤ g → ∃ h'', free g h' v = some h'' ∧ (h''.get p).isSome := by
  obtain ⟨l, ps, ls', rfl, g, ri, rfl⟩ := o.1
  have lt : ∀ k ∈ l :: ls', k < h.next := fun k m => wf.lt (o.1.live k m)
  have lt2 : ∀ k ∈ l2, k < h.next := fun k m => wf.lt (ow.1.live k m)
  have nd := List.nodup_cons.mp o.2
  have lne : l ≠ h.next := by have := lt l (by simp); omega
  let h' := store (alloc h (.cell w)).1 l (.map (put k h.next ps))
  have fr : ∀ k, k ≠ l → k < h.next → h'.get k = h.get k := fun k kl kn => by
    simp only [h', store, alloc]
    rw [if_neg kl, if_neg (by omega)]
  have nq : (h.next :: l2).Nodup := List.nodup_cons.mpr ⟨fun m => by have := lt2 _ m; omega, ow.2⟩
  obtain ⟨es', ls2, p, a1, a2, a3, a4, a5⟩ := put_old (h := h') (k := k) (q := h.next) (w := w) (l2 := l2) (j := j)
    (by simp [h', store, alloc, lne.symm]) (ow.1.frame (fun k m => fr k (fun e => dis l (by simp) (e ▸ m)) (lt2 k m))) nq
    (ri.frame (fun k m => fr k (fun e => nd.1 (e ▸ m)) (lt k (by simp [m])))) nd.2 old (fun l m mm => by
      rcases List.mem_cons.mp mm with rfl | mm
      · have := lt h.next (by simp [m]); omega
      · exact dis l (by simp [m]) mm)
  have pl : p ≠ l := fun e => nd.1 (e ▸ a3)
  have nl : l ∉ ls2 := fun m => by
    rcases a5 l m with m | m
    · exact nd.1 m
    · rcases List.mem_cons.mp m with e | m
      · exact lne e
      · exact dis l (by simp) m
  have R : Rep h' (.obj es') (.obj l) (l :: ls2) := ⟨l, _, ls2, rfl, by simp [h', store], a1, rfl⟩
  obtain ⟨n, hn⟩ := free_rep R (List.nodup_cons.mpr ⟨nl, a2⟩)
  refine ⟨h', p, ?_, by simp [a3], n, fun g hg => ⟨_, hn g hg, ?_⟩⟩
  · rw [set, alloc_get (lt l (by simp)), g]; rfl
  · rw [get_without (by simp [pl, a4]), fr p pl (lt p (by simp [a3]))]
    exact o.1.live p (by simp [a3])

/-! ## an example -/

/-- `{1: "...", 2: [null, "..."]}` -/
def sample : Prog := .obj (.cons 1 .str (.cons 2 (.arr (.cons .plain (.cons .str .nil))) .nil))

def empty : Heap := ⟨fun _ => none, 0⟩

theorem sample_distinct : Distinct sample ∧ WF empty := by
  refine ⟨?_, fun _ _ => rfl⟩
  simp [sample, Distinct, DistinctFields, DistinctAll, Fields.keys]

theorem sample_build : (build 9 sample empty).map (fun p => (p.2, p.1.next, (List.range 8).map p.1.get)) =
    some (.obj 0, 8, [some (.map [(1, 2), (2, 7)]), some .chars, some (.cell (.str 1)), some (.vec [4, 6]), some (.cell .plain), some .chars,
      some (.cell (.str 5)), some (.cell (.arr 3))]) := by decide +kernel

theorem sample_free : ((build 9 sample empty).bind fun p => free 9 p.1 p.2).map (fun h => (List.range 9).map h.get) =
    some [none, none, none, none, none, none, none, none, none] := by decide +kernel

end Verif.JsonOwn
