import Verif.Asm.Emit

/-!
# Properties of inline assembly

C109: the assembler gets the lines the programmer wrote, with the operands in place of their names.
C110: outputs, inputs and clobbers reach the C compiler as such.
C111: bare instructions become one line each.
C112: the buffers are large enough.
-/

namespace Verif.Asm

open Spec

/-! ## C109, C110: blocks of strings -/

/-- The characters of `whole` beside the holes are not braces. -/
theorem good_whole {b : Block} (h : Good b) :
    (∀ v, .hole v ∈ glue b.lines → v ∈ b.operands) ∧ (∀ c, .lit c ∈ glue b.lines → c ≠ '{') := by
  constructor
  · intro v hv
    obtain ⟨l, hl, hm⟩ := glue_hole _ _ hv
    exact h.holes l hl v hm
  · intro c hc
    rcases glue_lit _ _ hc with rfl | ⟨l, hl, hm⟩
    · decide
    · exact (h.lits l hl c hm).1

theorem node_ops (b : Block) : (nodeOf b).outs.map (·.2) ++ (nodeOf b).ins = b.operands := by
  simp [nodeOf, Block.operands]

theorem node_fit {b : Block} (h : Good b) : Fit (nodeOf b) := by
  refine ⟨?_, ?_, h.clobs⟩
  · intro o ho
    apply h.names
    rw [← node_ops]
    exact List.mem_append_left _ (List.mem_map.mpr ⟨o, ho, rfl⟩)
  · intro v hv
    apply h.names
    rw [← node_ops]
    exact List.mem_append_right _ hv

theorem expand_node {b : Block} (h : Good b) :
    expand (nodeOf b) (nodeOf b).code = some (render (nodeOf b) b.operands (glue b.lines)) := by
  have e : (nodeOf b).code = text (glue b.lines) := (text_glue _).symm
  rw [e]
  refine expand_text _ b.operands ?_ h.names _ (good_whole h).1 (good_whole h).2
  intro v hv
  have := index_some (nodeOf b) v (by rw [node_ops]; exact hv)
  rw [node_ops] at this
  exact this

/-- **C109, C110, partial.**  A block of string lines with outputs, or without any operands and
clobbers, is parsed, and the C statement that is emitted for it is one the compiler accepts: the
operands have the constraints of their modes in the order they were written, the clobbers are the
clobbers, and the assembler gets the lines, each ended by a newline, every character as it was written
and the register of the operand for every `{name}`.  Missing: inputs or clobbers without outputs
(`inputs_alone_violated`, `clobbers_alone_violated`), braces that are not placeholders
(`braces_violated`), digits right behind a placeholder (`digit_violated`). -/
theorem block_partial (b : Block) (k : Nat) (r : List Tok) (dial : Bool) (hg : Good b)
    (hk : Covers b k) (hs : b.outs ≠ [] ∨ (b.ins = [] ∧ b.clobs = [])) :
    ∃ n s a ps, parseAsm (tokens b k ++ r) = .ok (n, r) ∧ emit n = some s ∧ readC s = some a ∧
      a.vol = b.vol ∧ a.outs = (b.outs.map fun o => (o.1.constraint, o.2)) ∧
      a.ins = (b.ins.map fun v => ("r".toList, v)) ∧ a.clobs = b.clobs ∧
      assembled dial a = some ps ∧ Means b.operands (whole b) ps := by
  have hw := good_whole hg
  have hwhole : whole b = glue b.lines ++ [.lit '\n'] := (glue_whole _ hg.lines).symm
  have hmean : Means b.operands (whole b) (pieces b.operands (whole b)) := by
    apply means_pieces
    intro v hv
    rw [hwhole] at hv
    simp at hv
    exact hw.1 v hv
  by_cases ho : b.outs = []
  · obtain ⟨hi, hc⟩ := hs.resolve_left (fun h => h ho)
    have hops : b.operands = [] := by simp [Block.operands, ho, hi]
    have hx : extended (nodeOf b) = false := by simp [extended, nodeOf, ho, hi, hc]
    obtain ⟨s, h1, h2⟩ := read_basic (nodeOf b) (by simp [nodeOf, ho]) hi hc _ (expand_node hg)
    refine ⟨_, s, _, pieces b.operands (whole b), parse_tokens b k hk hg.first r, h1, h2, rfl, by simp [ho],
      by simp [hi], hc.symm, ?_, hmean⟩
    have hnh : ∀ F : List Frag, (∀ v, .hole v ∈ F → v ∈ b.operands) →
        (render (nodeOf b) b.operands F).map Piece.ch = pieces b.operands F := by
      intro F
      induction F with
      | nil => intro _; rfl
      | cons f F ih =>
        intro hF
        cases f with
        | lit c => simp [render, hx, pieces, ih (fun v hv => hF v (by simp [hv]))]
        | hole v =>
          have := hF v (by simp)
          rw [hops] at this
          cases this
    have hr : render (nodeOf b) b.operands (glue b.lines) ++ ['\n'] =
        render (nodeOf b) b.operands (whole b) := by
      rw [hwhole, render_append]; simp [render]
    simp only [assembled, Bool.false_eq_true, if_false, Option.some.injEq]
    rw [hr]
    apply hnh
    intro v hv
    rw [hwhole] at hv
    simp at hv
    exact hw.1 v hv
  · have hon : (nodeOf b).outs ≠ [] := by simpa [nodeOf] using ho
    have hx : extended (nodeOf b) = true := by simp [extended, hon]
    obtain ⟨s, h1, h2⟩ := read_outs (nodeOf b) (node_fit hg) hon _ (expand_node hg)
    refine ⟨_, s, _, pieces b.operands (whole b), parse_tokens b k hk hg.first r, h1, h2, rfl, ?_, rfl, rfl, ?_,
      hmean⟩
    · simp only [nodeOf, List.map_map]
      apply List.map_congr_left
      intro o _
      cases hm : o.1 <;> simp [conOf, Mode.word, Mode.constraint, hm]
    · have hr : render (nodeOf b) b.operands (glue b.lines) ++ ['\n'] =
          render (nodeOf b) b.operands (whole b) := by
        rw [hwhole, render_append]; simp [render]
      have hgcc := gcc_render dial (nodeOf b) b.operands hx (whole b)
        (by
          intro c hc
          rw [hwhole] at hc
          rcases List.mem_append.mp hc with hc | hc
          · exact hw.2 c hc
          · simp at hc; subst hc; decide)
        (apart_whole _ hg.apart) (by rw [hwhole]; simp)
      simp only [assembled, if_true, hr, hgcc]
      rw [if_pos]
      rw [List.all_eq_true]
      intro p hp
      cases p with
      | ch c => rfl
      | op i =>
        simp only [decide_eq_true_eq, List.length_map]
        have hlen : (nodeOf b).outs.length + (nodeOf b).ins.length = b.operands.length := by
          rw [← node_ops]; simp
        rw [hlen]
        have key : ∀ F : List Frag, (∀ v, .hole v ∈ F → v ∈ b.operands) →
            .op i ∈ pieces b.operands F → i < b.operands.length := by
          intro F
          induction F with
          | nil => intro _ h; simp [pieces] at h
          | cons f F ih =>
            intro hF h
            cases f with
            | lit c =>
              simp [pieces] at h
              exact ih (fun v hv => hF v (by simp [hv])) h
            | hole v =>
              simp only [pieces, List.mem_cons, Piece.op.injEq] at h
              rcases h with h | h
              · rw [h]
                exact List.findIdx_lt_length_of_exists ⟨v, hF v (by simp), by simp⟩
              · exact ih (fun v hv => hF v (by simp [hv])) h
        refine key (whole b) ?_ hp
        intro v hv
        rw [hwhole] at hv
        simp at hv
        exact hw.1 v hv

/-- The block of the README: `mov {x}, {result}` and `add $5, {result}`. -/
def sample : Block :=
  ⟨false,
   ["mov ".toList.map .lit ++ [.hole "x".toList] ++ ", ".toList.map .lit ++ [.hole "result".toList],
    "add $5, ".toList.map .lit ++ [.hole "result".toList]],
   [(.out, "result".toList)], ["x".toList], ["cc".toList]⟩

theorem sample_good : Good sample := by
  refine ⟨by simp [sample], by simp [sample], ?_, ?_, ?_, ?_, ?_⟩
  · intro v hv
    simp [Block.operands, sample] at hv
    rcases hv with rfl | rfl
    · exact ⟨by simp, by simp, by decide⟩
    · exact ⟨by simp, by simp, by decide⟩
  · intro l hl v hv
    simp [sample] at hl
    rcases hl with rfl | rfl <;> simp at hv <;> rcases hv with rfl | rfl <;>
      simp [Block.operands, sample]
  · intro l hl c hc
    simp [sample] at hl
    rcases hl with rfl | rfl <;> simp at hc <;> rcases hc with rfl | rfl | rfl | rfl | rfl | rfl | rfl <;>
      decide
  · intro l hl
    simp [sample] at hl
    rcases hl with rfl | rfl <;> simp [Apart] <;> decide
  · intro s hs c hc
    simp [sample] at hs
    subst hs
    simp at hc
    subst hc
    decide

/-- The README's block meets the hypotheses, and this is its text. -/
theorem sample_text : Good sample ∧ Covers sample 3 ∧ sample.outs ≠ [] ∧
    emit (nodeOf sample) = some ("    __asm__(\"mov %1, %0\\n\"\n        \"add $5, %0\\n\"\n        " ++
      ": \"=r\"(result)\n        : \"r\"(x)\n        : \"cc\");\n").toList := by
  refine ⟨sample_good, ⟨by omega, by omega, by omega⟩, by simp [sample], by decide +kernel⟩

/-- **C109, basic blocks.**  Without operands and clobbers the assembler gets the template as it was
written, braces and percent signs included, as long as no text between braces overruns the 64
characters for a name. -/
theorem basic_verbatim (n : Node) (dial : Bool) (ho : n.outs = []) (hi : n.ins = [])
    (hc : n.clobs = [])
    (hs : ∀ pre v post, n.code = pre ++ '{' :: (v ++ '}' :: post) → '}' ∉ v → v.length < 64) :
    ∃ s a, emit n = some s ∧ readC s = some a ∧ a.vol = n.vol ∧
      assembled dial a = some ((n.code ++ ['\n']).map .ch) := by
  obtain ⟨t, ht⟩ := expand_short n _ _ (Nat.le_refl _) hs
  have hx : extended n = false := by simp [extended, ho, hi, hc]
  have := expand_basic n hx _ _ _ (Nat.le_refl _) ht
  subst this
  obtain ⟨s, h1, h2⟩ := read_basic n ho hi hc _ ht
  exact ⟨s, _, h1, h2, rfl, rfl⟩

/-- A case: braces, quotes, a percent sign and two lines. -/
theorem basic_verbatim_sample :
    (emit ⟨"mov %eax, {k}\n.ascii \"x\"".toList, true, [], [], []⟩).bind readC =
      some ⟨true, "mov %eax, {k}\n.ascii \"x\"\n".toList, false, [], [], []⟩ := by
  decide +kernel

/-- **C110, violated.**  A block with inputs and no outputs is parsed, but the C statement that is
emitted is rejected by the compiler, whatever the block: the inputs stand where the outputs belong. -/
theorem inputs_alone_violated (b : Block) (k : Nat) (r : List Tok) (hg : Good b) (hk : Covers b k)
    (ho : b.outs = []) (hi : b.ins ≠ []) :
    ∃ n s, parseAsm (tokens b k ++ r) = .ok (n, r) ∧ emit n = some s ∧ readC s = none := by
  obtain ⟨s, h1, h2⟩ := read_ins (nodeOf b) (node_fit hg) (by simp [nodeOf, ho]) hi _ (expand_node hg)
  exact ⟨_, s, parse_tokens b k hk hg.first r, h1, h2⟩

/-- **C110, violated.**  The same for a block with clobbers only. -/
theorem clobbers_alone_violated (b : Block) (k : Nat) (r : List Tok) (hg : Good b)
    (hk : Covers b k) (ho : b.outs = []) (hi : b.ins = []) (hc : b.clobs ≠ []) :
    ∃ n s, parseAsm (tokens b k ++ r) = .ok (n, r) ∧ emit n = some s ∧ readC s = none := by
  obtain ⟨s, h1, h2⟩ := read_clobs (nodeOf b) (node_fit hg) (by simp [nodeOf, ho]) hi hc _
    (expand_node hg)
  exact ⟨_, s, parse_tokens b k hk hg.first r, h1, h2⟩

/-- `outb` of a value, and a memory fence. -/
def outBlock : Block :=
  ⟨true, ["push ".toList.map .lit ++ [.hole "x".toList]], [], ["x".toList], []⟩
def fenceBlock : Block := ⟨true, ["mfence".toList.map .lit], [], [], ["memory".toList]⟩

theorem outBlock_good : Good outBlock := by
  refine ⟨by simp [outBlock], by simp [outBlock], ?_, ?_, ?_, ?_, ?_⟩
  · intro v hv
    simp [Block.operands, outBlock] at hv
    subst hv
    exact ⟨by simp, by simp, by decide⟩
  · intro l hl v hv
    simp [outBlock] at hl
    subst hl
    simp at hv
    subst hv
    simp [Block.operands, outBlock]
  · intro l hl c hc
    simp [outBlock] at hl
    subst hl
    simp at hc
    rcases hc with rfl | rfl | rfl | rfl | rfl <;> decide
  · intro l hl
    simp [outBlock] at hl
    subst hl
    simp [Apart]
  · simp [outBlock]

theorem fenceBlock_good : Good fenceBlock := by
  refine ⟨by simp [fenceBlock], by simp [fenceBlock], ?_, ?_, ?_, ?_, ?_⟩
  · simp [Block.operands, fenceBlock]
  · intro l hl v hv
    simp [fenceBlock] at hl
    subst hl
    simp at hv
  · intro l hl c hc
    simp [fenceBlock] at hl
    subst hl
    simp at hc
    rcases hc with rfl | rfl | rfl | rfl | rfl | rfl <;> decide
  · intro l hl
    simp [fenceBlock] at hl
    subst hl
    simp [Apart]
  · intro s hs c hc
    simp [fenceBlock] at hs
    subst hs
    simp at hc
    rcases hc with rfl | rfl | rfl | rfl | rfl | rfl <;> decide

/-- Both meet the hypotheses; the texts. -/
theorem alone_samples :
    (Good outBlock ∧ Covers outBlock 2 ∧ emit (nodeOf outBlock) =
      some "    __asm__ __volatile__(\"push %0\\n\"\n        : \"r\"(x));\n".toList) ∧
    (Good fenceBlock ∧ Covers fenceBlock 3 ∧ emit (nodeOf fenceBlock) =
      some "    __asm__ __volatile__(\"mfence\\n\"\n        : \"memory\");\n".toList) := by
  refine ⟨⟨outBlock_good, ⟨by simp [outBlock], by omega, by simp [outBlock]⟩, by decide +kernel⟩,
    ⟨fenceBlock_good, ⟨by omega, by omega, by omega⟩, by decide +kernel⟩⟩

/-- **C110, violated.**  A block whose only section is `: in(x)` is accepted, whatever its lines and
names, and makes `x` an output: the variable the program wanted to pass is overwritten. -/
theorem in_first_violated (ls : List (List Char)) (v : List Char) (r : List Tok)
    (hl : ls.head? ≠ some []) (hv : Name v)
    (hs : ∀ pre w post, joined ls = pre ++ '{' :: (w ++ '}' :: post) → '}' ∉ w → w.length < 64) :
    ∃ n s a, parseAsm (⟨.lbrace, ['{']⟩ ::
        (ls.map (fun l => (⟨.str, '"' :: (l ++ ['"'])⟩ : Tok)) ++
          (colonTok :: (roleToks "in".toList v ++ (⟨.rbrace, ['}']⟩ :: r))))) = .ok (n, r) ∧
      emit n = some s ∧ readC s = some a ∧ a.outs = [("=r".toList, v)] ∧ a.ins = [] := by
  have hb := body_strings ls [] (ends_colon (roleToks "in".toList v ++ (⟨.rbrace, ['}']⟩ :: r)))
  rw [foldl_joined _ hl] at hb
  have ho := outputs_all [("in".toList, v)] [] (ends_rbrace r)
  simp only [List.map_cons, List.map_nil, separated, List.nil_append] at ho
  let n : Node := ⟨joined ls, false, [("in".toList, v)], [], []⟩
  have hp : sections (joined ls) false
      (colonTok :: (roleToks "in".toList v ++ (⟨.rbrace, ['}']⟩ :: r))) = .ok (n, r) := by
    rw [colonTok, sections, if_pos (atColon_colon _), List.tail_cons, ho]
    simp [atColon, n]
  obtain ⟨t, ht⟩ := expand_short n _ _ (Nat.le_refl _) hs
  obtain ⟨s, h1, h2⟩ := read_outs n ⟨by simp [n, hv], by simp [n], by simp [n]⟩ (by simp [n]) t
    ht
  refine ⟨n, s, _, ?_, h1, h2, ?_, rfl⟩
  · simp only [parseAsm, atVol, show (Kind.lbrace == Kind.vol) = false from rfl, Bool.false_eq_true,
      if_false, if_true, hb]
    exact hp
  · simp [n, conOf]

/-- A case: `asm { "push {x}" : in(x) }`. -/
theorem in_first_sample :
    (match parseAsm [⟨.lbrace, ['{']⟩, ⟨.str, "\"push {x}\"".toList⟩, colonTok, ⟨.ident, "in".toList⟩,
        ⟨.lparen, ['(']⟩, ⟨.ident, ['x']⟩, ⟨.rparen, [')']⟩, ⟨.rbrace, ['}']⟩] with
      | .ok (n, _) => emit n
      | _ => none) = some "    __asm__(\"push %0\\n\"\n        : \"=r\"(x)\n        : );\n".toList := by
  decide +kernel

/-- **C109, violated.**  Braces that are not placeholders: with outputs the text goes through the
compiler's own braces (as on x86), and the assembler gets it without them.  The block is
`vmovaps {x}, %zmm1{k1}` with `out(x)`. -/
theorem braces_violated :
    ∃ n s a, parseAsm [⟨.lbrace, ['{']⟩, ⟨.str, "\"vmovaps {x}, %zmm1{k1}\"".toList⟩, colonTok,
        ⟨.ident, "out".toList⟩, ⟨.lparen, ['(']⟩, ⟨.ident, ['x']⟩, ⟨.rparen, [')']⟩,
        ⟨.rbrace, ['}']⟩] = .ok (n, []) ∧ emit n = some s ∧ readC s = some a ∧
      assembled true a = some ("vmovaps ".toList.map .ch ++ [.op 0] ++ ", %zmm1k1\n".toList.map .ch) := by
  exact ⟨⟨"vmovaps {x}, %zmm1{k1}".toList, false, [("out".toList, ['x'])], [], []⟩,
    "    __asm__(\"vmovaps %0, %%zmm1{k1}\\n\"\n        : \"=r\"(x)\n        : );\n".toList,
    ⟨false, "vmovaps %0, %%zmm1{k1}\n".toList, true,
      [("=r".toList, ['x'])], [], []⟩,
    by decide +kernel, by decide +kernel, by decide +kernel, by decide +kernel⟩

/-- **C109, violated.**  A digit right behind a placeholder is taken as part of the operand's number:
`{x}1` with the operands `x` and `y` is the register of `y`. -/
theorem digit_violated :
    ∃ n s a, parseAsm [⟨.lbrace, ['{']⟩, ⟨.str, "\"inc {x}1\"".toList⟩, colonTok,
        ⟨.ident, "out".toList⟩, ⟨.lparen, ['(']⟩, ⟨.ident, ['x']⟩, ⟨.rparen, [')']⟩, ⟨.comma, [',']⟩,
        ⟨.ident, "out".toList⟩, ⟨.lparen, ['(']⟩, ⟨.ident, ['y']⟩, ⟨.rparen, [')']⟩,
        ⟨.rbrace, ['}']⟩] = .ok (n, []) ∧ emit n = some s ∧ readC s = some a ∧
      assembled false a = some ("inc ".toList.map .ch ++ [.op 1] ++ ['\n'].map .ch) := by
  exact ⟨⟨"inc {x}1".toList, false, [("out".toList, ['x']), ("out".toList, ['y'])], [], []⟩,
    "    __asm__(\"inc %01\\n\"\n        : \"=r\"(x), \"=r\"(y)\n        : );\n".toList,
    ⟨false, "inc %01\n".toList, true,
      [("=r".toList, ['x']), ("=r".toList, ['y'])], [], []⟩,
    by decide +kernel, by decide +kernel, by decide +kernel, by decide +kernel⟩

/-- **C109, violated.**  Escapes in a line are not read: the string `"nop\n"` gives the assembler a
backslash and an `n`. -/
theorem escape_violated :
    ∃ n s a, parseAsm [⟨.lbrace, ['{']⟩, ⟨.str, "\"nop\\n\"".toList⟩, ⟨.rbrace, ['}']⟩] = .ok (n, []) ∧
      emit n = some s ∧ readC s = some a ∧
      assembled true a = some (['n', 'o', 'p', '\\', 'n', '\n'].map .ch) := by
  exact ⟨⟨"nop\\n".toList, false, [], [], []⟩,
    "    __asm__(\"nop\\\\n\\n\");\n".toList,
    ⟨false, "nop\\n\n".toList, false, [], [], []⟩,
    by decide +kernel, by decide +kernel, by decide +kernel, by decide +kernel⟩

/-- **C109, violated.**  Of a string in triple quotes only one quote is taken off at either end. -/
theorem triple_violated (s : List Char) (r : List Tok) :
    parseAsm (⟨.lbrace, ['{']⟩ :: ⟨.str, "\"\"\"".toList ++ (s ++ "\"\"\"".toList)⟩ ::
      ⟨.rbrace, ['}']⟩ :: r) =
      .ok (⟨"\"\"".toList ++ (s ++ "\"\"".toList), false, [], [], []⟩, r) := by
  have h := strip ("\"\"".toList ++ (s ++ "\"\"".toList))
  have e : "\"\"\"".toList ++ (s ++ "\"\"\"".toList) =
      '"' :: ("\"\"".toList ++ (s ++ "\"\"".toList) ++ ['"']) := by simp
  rw [e]
  simp only [parseAsm, atVol, show (Kind.lbrace == Kind.vol) = false from rfl, Bool.false_eq_true,
    if_false, if_true, body, h, sections, atColon, show (Kind.rbrace == Kind.colon) = false from rfl]
  simp [addLine]

/-! ## C111: bare instructions -/

/-- **C111, partial.**  Bare instructions whose arguments have names only behind `%`, `$` or a comma,
ended by a semicolon or by the next instruction, become one line each, in order: the tokens of the
instruction, each behind a blank unless it follows `%` or `$`.  Missing: a name right behind the
mnemonic (`intel_violated`), a placeholder right behind it (`hole_violated`). -/
theorem bare_partial (vol : Bool) (is : List (Instr × Bool)) (b : Block) (k : Nat) (r : List Tok)
    (h : ∀ p ∈ is, p.1.Ok ∧ (p.2 = false → p.1.Closed)) (hk : Covers b k) :
    ∃ ls, Lines is ls ∧
      parseAsm ((if vol then [⟨.vol, "volatile".toList⟩] else []) ++
        (⟨.lbrace, ['{']⟩ :: (instrToks is ++ (sectionToks b k ++ (⟨.rbrace, ['}']⟩ :: r))))) =
      .ok (⟨joined ls, vol, b.outs.map fun o => (o.1.word, o.2), b.ins, b.clobs⟩, r) := by
  obtain ⟨ls, h1, h2, h3⟩ := body_instrs is _ (ends_sections b k r) h []
  rw [foldl_joined] at h3
  · refine ⟨ls, h1, ?_⟩
    have hs := sections_read (joined ls) vol b k hk r
    cases vol <;>
      simp [parseAsm, atVol, h3, hs, show (Kind.lbrace == Kind.vol) = false from rfl]
  · cases ls with
    | nil => simp
    | cons l ls =>
      have := h2 l (by simp)
      simpa using this

/-- The instructions of the project's test: `mov $1, %rax` and `add %rbx, %rax`. -/
def bareSample : List (Instr × Bool) :=
  [(⟨"mov".toList, [⟨.other, ['$']⟩, ⟨.other, ['1']⟩, ⟨.comma, [',']⟩, ⟨.other, ['%']⟩,
      ⟨.ident, "rax".toList⟩]⟩, false),
   (⟨"add".toList, [⟨.other, ['%']⟩, ⟨.ident, "rbx".toList⟩, ⟨.comma, [',']⟩, ⟨.other, ['%']⟩,
      ⟨.ident, "rax".toList⟩]⟩, true)]

/-- They meet the hypotheses; the text. -/
theorem bare_sample :
    (∀ p ∈ bareSample, p.1.Ok ∧ (p.2 = false → p.1.Closed)) ∧
    body .top [] (instrToks bareSample ++ [⟨.rbrace, ['}']⟩]) =
      .ok ("mov $1 , %rax\nadd %rbx , %rax".toList, [⟨.rbrace, ['}']⟩]) := by
  constructor
  · intro p hp
    simp [bareSample] at hp
    rcases hp with rfl | rfl <;> simp [Instr.Ok, ArgToks, Instr.Closed, opens]
  · rfl

theorem spaced_mem {ts : List (List Char)} {s : List Char} (h : Spaced ts s) (c : Char)
    (hc : c ∈ s) : c = ' ' ∨ ∃ t ∈ ts, c ∈ t := by
  induction h with
  | one t => exact .inr ⟨t, by simp, hc⟩
  | blank ts s t h ih =>
    rcases List.mem_append.mp hc with hc | hc
    · rcases ih hc with h | ⟨t', h1, h2⟩
      · exact .inl h
      · exact .inr ⟨t', by simp [h1], h2⟩
    · rcases List.mem_cons.mp hc with hc | hc
      · exact .inl hc
      · exact .inr ⟨t, by simp, hc⟩
  | tight ts s t h hl ih =>
    rcases List.mem_append.mp hc with hc | hc
    · rcases ih hc with h | ⟨t', h1, h2⟩
      · exact .inl h
      · exact .inr ⟨t', by simp [h1], h2⟩
    · exact .inr ⟨t, by simp, hc⟩

theorem joined_mem (ls : List (List Char)) (c : Char) (hc : c ∈ joined ls) :
    c = '\n' ∨ ∃ l ∈ ls, c ∈ l := by
  induction ls with
  | nil => simp [joined] at hc
  | cons x r ih =>
    cases r with
    | nil => exact .inr ⟨x, by simp, hc⟩
    | cons y r =>
      rw [joined] at hc
      rcases List.mem_append.mp hc with h | h
      · exact .inr ⟨x, by simp, h⟩
      · rcases List.mem_cons.mp h with h | h
        · exact .inl h
        · rcases ih h with h | ⟨l, hl, hm⟩
          · exact .inl h
          · exact .inr ⟨l, List.mem_cons_of_mem _ hl, hm⟩

theorem lines_mem {is : List (Instr × Bool)} {ls : List (List Char)} (h : Lines is ls) :
    ∀ l ∈ ls, ∃ p ∈ is, Spaced (p.1.name :: p.1.args.map (·.text)) l := by
  induction h with
  | nil => simp
  | cons i semi l hs hr ih =>
    intro l' hl
    rcases List.mem_cons.mp hl with rfl | hl
    · exact ⟨(i, semi), by simp, hs⟩
    · obtain ⟨p, hp, hq⟩ := ih l' hl
      exact ⟨p, by simp [hp], hq⟩

/-- **C111.**  Without operands, the assembler gets exactly those lines. -/
theorem bare_assembled (vol dial : Bool) (is : List (Instr × Bool)) (r : List Tok)
    (h : ∀ p ∈ is, p.1.Ok ∧ (p.2 = false → p.1.Closed))
    (hb : ∀ p ∈ is, '{' ∉ p.1.name ∧ ∀ t ∈ p.1.args, '{' ∉ t.text) :
    ∃ ls n s a, Lines is ls ∧
      parseAsm ((if vol then [⟨.vol, "volatile".toList⟩] else []) ++
        (⟨.lbrace, ['{']⟩ :: (instrToks is ++ (⟨.rbrace, ['}']⟩ :: r)))) = .ok (n, r) ∧
      emit n = some s ∧ readC s = some a ∧ a.vol = vol ∧
      assembled dial a = some ((joined ls ++ ['\n']).map .ch) := by
  obtain ⟨ls, h1, h2⟩ := bare_partial vol is ⟨vol, [], [], [], []⟩ 0 r h
    ⟨fun _ => rfl, fun _ => rfl, fun _ => rfl⟩
  obtain ⟨s, a, k1, k2, k3, k4⟩ := basic_verbatim ⟨joined ls, vol, [], [], []⟩ dial rfl rfl rfl (by
    intro pre v post hc _
    exfalso
    have hm : '{' ∈ joined ls := by
      simp only at hc
      rw [hc]; simp
    rcases joined_mem ls _ hm with h | ⟨l, hl, hm⟩
    · exact absurd h (by decide)
    · obtain ⟨p, hp, hq⟩ := lines_mem h1 l hl
      rcases spaced_mem hq _ hm with h | ⟨t, ht, hc⟩
      · exact absurd h (by decide)
      · rcases List.mem_cons.mp ht with rfl | ht
        · exact (hb p hp).1 hc
        · obtain ⟨u, hu, rfl⟩ := List.mem_map.mp ht
          exact (hb p hp).2 u hu hc)
  refine ⟨ls, _, s, a, h1, ?_, k1, k2, k3, k4⟩
  exact h2

/-- **C111, violated.**  A name right behind the mnemonic is taken for the next instruction, whatever
the two names: `jmp target` is two lines, and so is the start of `mov rax, rbx`. -/
theorem intel_violated (m v : List Char) (c : Char) (hm : m.getLast? = some c)
    (hc : c ≠ ' ' ∧ c ≠ '%' ∧ c ≠ '$' ∧ c ≠ ',') (r : List Tok) :
    parseAsm (⟨.lbrace, ['{']⟩ :: ⟨.ident, m⟩ :: ⟨.ident, v⟩ :: ⟨.rbrace, ['}']⟩ :: r) =
      .ok (⟨m ++ '\n' :: v, false, [], [], []⟩, r) := by
  have hl := lastChar_append [] m c hm hc.1
  rw [List.nil_append] at hl
  have hne : m ≠ [] := by intro e; rw [e] at hm; cases hm
  have h1 : addLine [] m = m := by simp [addLine]
  have h2 : addLine m v = m ++ '\n' :: v := by simp [addLine, hne]
  have hb : body .top [] (⟨.ident, m⟩ :: ⟨.ident, v⟩ :: ⟨.rbrace, ['}']⟩ :: r) =
      .ok (m ++ '\n' :: v, ⟨.rbrace, ['}']⟩ :: r) := by
    rw [body]
    simp only
    rw [h1, body]
    simp only
    rw [if_pos (by rw [hl]; exact hc.2), h2, body]
  simp only [parseAsm, atVol, show (Kind.lbrace == Kind.vol) = false from rfl, Bool.false_eq_true,
    if_false, if_true, hb, sections, atColon, show (Kind.rbrace == Kind.colon) = false from rfl]

theorem spaced_single {ts : List (List Char)} {s m : List Char} (h : Spaced ts s) (hm : ts = [m]) :
    s = m := by
  have nonempty : ∀ {ts s}, Spaced ts s → ts ≠ [] := by
    intro ts s h
    cases h <;> simp
  cases h with
  | one t => cases hm; rfl
  | blank ts s t h =>
    have := nonempty h
    cases ts with
    | nil => exact absurd rfl this
    | cons a as => simp at hm
  | tight ts s t h hl =>
    have := nonempty h
    cases ts with
    | nil => exact absurd rfl this
    | cons a as => simp at hm

theorem spaced_pair {ts : List (List Char)} {s m h : List Char} (hs : Spaced ts s) (ht : ts = [m, h])
    (hm : m.getLast? ≠ some '%' ∧ m.getLast? ≠ some '$') : s = m ++ ' ' :: h := by
  cases hs with
  | one t => cases ht
  | blank ts s t hs =>
    have e : ts ++ [t] = [m] ++ [h] := ht
    obtain ⟨e1, e2⟩ := List.append_inj' e rfl
    cases e2
    rw [spaced_single hs e1]
  | tight ts s t hs hl =>
    have e : ts ++ [t] = [m] ++ [h] := ht
    obtain ⟨e1, e2⟩ := List.append_inj' e rfl
    have := spaced_single hs e1
    rw [this] at hl
    rcases hl with hl | hl
    · exact absurd hl hm.1
    · exact absurd hl hm.2

/-- **C111, violated.**  A placeholder right behind the mnemonic is glued to it: `push {x}` becomes
`push{x}`, which is not the two words any more. -/
theorem hole_violated (m v : List Char) (hm : m.getLast? ≠ some '%' ∧ m.getLast? ≠ some '$')
    (r : List Tok) :
    body .top [] (⟨.ident, m⟩ :: ⟨.lbrace, ['{']⟩ :: ⟨.ident, v⟩ :: ⟨.rbrace, ['}']⟩ ::
        ⟨.rbrace, ['}']⟩ :: r) =
      .ok (m ++ '{' :: (v ++ ['}']), ⟨.rbrace, ['}']⟩ :: r) ∧
    ¬ Spaced [m, '{' :: (v ++ ['}'])] (m ++ '{' :: (v ++ ['}'])) := by
  constructor
  · simp [body, addLine]
  · intro h
    have := spaced_pair h rfl hm
    simp at this

/-- **C111, violated.**  A string behind a bare instruction is taken as its argument, quotes included. -/
theorem mixed_violated :
    body .top [] [⟨.ident, "nop".toList⟩, ⟨.str, "\"mfence\"".toList⟩, ⟨.rbrace, ['}']⟩] =
      .ok ("nop \"mfence\"".toList, [⟨.rbrace, ['}']⟩]) := rfl

/-- **C111, violated.**  A block that is not closed: if the file ends among the arguments of a bare
instruction, whatever it is, the compiler does not report it and never comes back. -/
theorem unclosed_violated (i : Instr) (h : i.Ok) :
    parseAsm (⟨.lbrace, ['{']⟩ :: ⟨.ident, i.name⟩ :: i.args) = .loop := by
  obtain ⟨k1, k2, k3⟩ := h
  obtain ⟨s', _, _, _, _, j5⟩ := body_args i.args [] i.name i.name [i.name] [] (.one _) k1 rfl k2 k3
  simp only [List.nil_append, List.append_nil] at j5
  simp [parseAsm, atVol, body, addLine, j5, show (Kind.lbrace == Kind.vol) = false from rfl]

/-- A string block that is not closed is reported. -/
theorem unclosed_strings (ls : List (List Char)) :
    parseAsm (⟨.lbrace, ['{']⟩ :: ls.map (fun l => (⟨.str, '"' :: (l ++ ['"'])⟩ : Tok))) = .err := by
  have key : ∀ (ls : List (List Char)) code,
      body .top code (ls.map (fun l => (⟨.str, '"' :: (l ++ ['"'])⟩ : Tok))) = .err := by
    intro ls
    induction ls with
    | nil => intro code; rfl
    | cons l r ih => intro code; rw [List.map_cons, body]; exact ih _
  simp [parseAsm, atVol, key, show (Kind.lbrace == Kind.vol) = false from rfl]

theorem body_suffix (pl : Place) (code : List Char) (ts : List Tok) {x r}
    (h : body pl code ts = .ok (x, r)) : r <:+ ts := by
  induction ts generalizing pl code with
  | nil => cases pl <;> simp [body] at h
  | cons t ts ih =>
    have hs := List.suffix_cons t ts
    cases pl with
    | top =>
      rw [body] at h
      split at h <;> first
        | (injection h with h; injection h with h1 h2; subst h2; exact List.suffix_refl _)
        | exact (ih _ _ h).trans hs
        | (simp at h; done)
    | args =>
      rw [body] at h
      split at h <;> first
        | (injection h with h; injection h with h1 h2; subst h2; exact List.suffix_refl _)
        | exact (ih _ _ h).trans hs
        | (split at h <;> exact (ih _ _ h).trans hs)
    | sub =>
      rw [body] at h
      split at h <;> exact (ih _ _ h).trans hs

theorem outputs_suffix (acc) (ts : List Tok) {x r} (h : outputs acc ts = .ok (x, r)) : r <:+ ts := by
  fun_induction outputs acc ts <;> first
    | (injection h with h; injection h with h1 h2; subst h2; exact List.suffix_refl _)
    | (rename_i ih; exact (ih h).trans (List.suffix_cons _ _))
    | (rename_i ih; exact ((ih h).trans (List.drop_suffix _ _)).trans (List.suffix_cons _ _))
    | (simp at h; done)

theorem inputs_suffix (acc) (ts : List Tok) {x r} (h : inputs acc ts = .ok (x, r)) : r <:+ ts := by
  fun_induction inputs acc ts <;> first
    | (injection h with h; injection h with h1 h2; subst h2; exact List.suffix_refl _)
    | (rename_i ih; exact (ih h).trans (List.suffix_cons _ _))
    | (rename_i ih; exact ((ih h).trans (List.drop_suffix _ _)).trans (List.suffix_cons _ _))
    | (simp at h; done)

theorem clobbers_suffix (acc) (ts : List Tok) {x r} (h : clobbers acc ts = .ok (x, r)) :
    r <:+ ts := by
  fun_induction clobbers acc ts <;> first
    | (injection h with h; injection h with h1 h2; subst h2; exact List.suffix_refl _)
    | (rename_i ih; exact (ih h).trans (List.suffix_cons _ _))
    | (rename_i ih; exact ((ih h).trans (List.drop_suffix _ _)).trans (List.suffix_cons _ _))
    | (simp at h; done)

/-- **C111, accepted blocks are closed.**  Whatever the tokens, a block that is accepted ends with a
closing brace, and the parse goes on behind it. -/
theorem accepted_closed {ts : List Tok} {n : Node} {r : List Tok}
    (h : parseAsm ts = .ok (n, r)) : ∃ t, t.kind = .rbrace ∧ t :: r <:+ ts := by
  unfold parseAsm at h
  have h0 : (if atVol ts then ts.tail else ts) <:+ ts := by
    split
    · exact List.tail_suffix _
    · exact List.suffix_refl _
  split at h
  · simp at h
  rename_i t0 r0 he
  rw [he] at h0
  split at h
  · split at h
    · simp at h
    · simp at h
    rename_i code r1 hb
    have h1 : r1 <:+ ts := ((body_suffix _ _ _ hb).trans (List.suffix_cons _ _)).trans h0
    unfold sections at h
    split at h
    · simp at h
    · simp at h
    rename_i os ts1 ho
    have h2 : ts1 <:+ ts := by
      split at ho
      · exact ((outputs_suffix _ _ ho).trans (List.tail_suffix _)).trans h1
      · injection ho with ho; injection ho with _ ho; subst ho; exact h1
    split at h
    · simp at h
    · simp at h
    rename_i is ts2 hi
    have h3 : ts2 <:+ ts := by
      split at hi
      · exact ((inputs_suffix _ _ hi).trans (List.tail_suffix _)).trans h2
      · injection hi with hi; injection hi with _ hi; subst hi; exact h2
    split at h
    · simp at h
    · simp at h
    rename_i cs ts3 hc
    have h4 : ts3 <:+ ts := by
      split at hc
      · exact ((clobbers_suffix _ _ hc).trans (List.tail_suffix _)).trans h3
      · injection hc with hc; injection hc with _ hc; subst hc; exact h3
    split at h
    · simp at h
    · rename_i t r2
      split at h
      · rename_i hk
        injection h with h
        injection h with _ h
        subst h
        exact ⟨t, hk, h4⟩
      · simp at h
  · simp at h

/-- **C110, operands are closed.**  An operand that is not `( name )` is refused. -/
theorem operand_refused (acc) (t : Tok) (ht : t.kind = .ident) (a b c : Tok) (r : List Tok)
    (h : ¬ (a.kind = .lparen ∧ b.kind = .ident ∧ c.kind = .rparen)) :
    outputs acc (t :: a :: b :: c :: r) = .err := by
  rw [outputs, ht]
  simp [paren, h]

/-- **C111, violated.**  A placeholder that is not closed among the arguments of an instruction makes
the compiler loop. -/
theorem unclosed_placeholder_violated (m : List Char) (xs : List Tok)
    (hx : ∀ t ∈ xs, t.kind ≠ .rbrace) :
    parseAsm (⟨.lbrace, ['{']⟩ :: ⟨.ident, m⟩ :: ⟨.lbrace, ['{']⟩ :: xs) = .loop := by
  have key : ∀ (xs : List Tok) code, (∀ t ∈ xs, t.kind ≠ .rbrace) → body .sub code xs = .loop := by
    intro xs
    induction xs with
    | nil => intro code _; rfl
    | cons t r ih =>
      intro code h
      rw [body]
      split
      · rename_i hk; exact absurd hk (h t (by simp))
      · exact ih _ (fun u hu => h u (by simp [hu]))
  simp [parseAsm, atVol, body, key xs _ hx, show (Kind.lbrace == Kind.vol) = false from rfl]

/-! ## C112: buffers -/

/-- **C112, the expanded template.**  With at most 100 operands and a template that is not empty, the
expanded template and its terminator fit the buffer of three times the length. -/
theorem expand_fits (n : Node) (h : n.outs.length + n.ins.length ≤ 100)
    (hn : ∀ v ∈ n.outs.map (·.2) ++ n.ins, v ≠ []) (hc : n.code ≠ []) (t : List Char)
    (ht : expand n n.code = some t) : t.length + 1 ≤ 3 * n.code.length := by
  have := expand_room n h hn _ _ _ (Nat.le_refl _) ht
  have : 0 < n.code.length := List.length_pos_iff.mpr hc
  omega

/-- **C112, violated.**  For an empty block the buffer has no room for the terminator. -/
theorem expand_empty_violated (r : List Tok) :
    ∃ n t, parseAsm (⟨.lbrace, ['{']⟩ :: ⟨.rbrace, ['}']⟩ :: r) = .ok (n, r) ∧
      expand n n.code = some t ∧ 3 * n.code.length < t.length + 1 := by
  refine ⟨_, [], rfl, ?_, by simp⟩
  rw [expand]

/-- **C112, violated.**  No length is refused: there is a block whose template does not fit the 4096
characters it is built in. -/
theorem template_violated :
    ∃ ts n, parseAsm ts = .ok (n, []) ∧ 4096 < n.code.length + 1 := by
  let b : Block := ⟨false, [List.replicate 4096 (.lit 'x')], [], [], []⟩
  have ht : text (List.replicate 4096 (.lit 'x')) = List.replicate 4096 'x' := by
    unfold text
    generalize 4096 = m
    induction m with
    | zero => rfl
    | succ m ih => rw [List.replicate_succ, List.flatMap_cons, ih]; rfl
  refine ⟨tokens b 0 ++ [], nodeOf b, parse_tokens b 0 ⟨fun _ => rfl, fun _ => rfl, fun _ => rfl⟩ ?_ [],
    ?_⟩
  · simp only [b, List.head?_cons]
    intro e
    have := congrArg (Option.map List.length) e
    rw [Option.map_some, Option.map_some, List.length_replicate] at this
    cases this
  · have e : (nodeOf b).code = List.replicate 4096 'x' := ht
    rw [e, List.length_replicate]
    omega

/-- **C112, violated.**  There is a block with more outputs than the 16 places for them. -/
theorem operands_violated :
    ∃ ts n, parseAsm ts = .ok (n, []) ∧ 16 < n.outs.length := by
  let b : Block := ⟨false, [[.lit 'x']], List.replicate 17 (.out, ['x']), [], []⟩
  refine ⟨tokens b 1 ++ [], nodeOf b, parse_tokens b 1 ⟨fun h => by omega, fun _ => rfl, fun _ => rfl⟩
    (by simp [b]) [], by simp [nodeOf, b]⟩

/-- **C112, violated.**  A text of 64 characters or more between braces overruns the buffer for the
name, whether or not it is an operand. -/
theorem name_violated (n : Node) (v r : List Char) (hb : '}' ∉ v) (h : 64 ≤ v.length) :
    expand n ('{' :: (v ++ '}' :: r)) = none := by
  rw [expand.eq_2, if_pos rfl, if_pos (by simp), takeWhile_name v r hb, if_pos h]

end Verif.Asm
