import Verif.Basic

/-!
# Texts the language server has dropped: model

What `textDocument/didOpen` and `didChange` do with the names of types: `lsp_check_file`
(/repo/src/lsp/lsp_analysis.c:59-142), `lsp_project_update_file` (/repo/src/lsp/lsp_project.c:145-186),
`register_type_usage` and `validate_types` (/repo/src/parser/parser_utils.c:4333-4367) and the reading
of the source line by `zwarn_at` (/repo/src/diagnostics/diagnostics.c:83-136).

The lexer works on the text inside the JSON message (lsp_project.c:174; the copy of lsp_project.c:171 is
not the one that is parsed), tokens point into it, and `cJSON_Delete` (/repo/src/lsp/json_rpc.c:288)
releases it when the message is done.  The parser's context lives as long as the server.

Simplified: a text is the list of its uses and declarations of type names, in order.  Structs, aliases,
traits and selective imports are all `decl`; names of generics and `Self`, which are not recorded, are
left out; parsing itself succeeds; all documents are parsed into the one context, so the sequence of
messages may be for one or for many documents.
-/

namespace Verif.LspStale
open Verif

/-- What a text has of types. -/
inductive Item where
  | use (n : String)
  | decl (n : String)
  deriving DecidableEq, Repr

/-- The text of a message. -/
abbrev Text := List Item

/-- The context: `pending_type_validations` (name, and the message its token points into; the newest
first), the declared names, and the number of the message. -/
structure State where
  pending : List (Nat × String)
  known : List String
  msg : Nat
  deriving DecidableEq, Repr

/-- The server at its start (lsp_project.c:15-36), in a workspace without files to scan. -/
def start : State := ⟨[], [], 0⟩

/-- `parse_program` on a text: `register_type_usage` (parser_utils.c:4333-4345), and the lists of
declarations, which are never emptied. -/
def parse (s : State) : Text → State
  | [] => s
  | .use n :: r => parse { s with pending := (s.msg, n) :: s.pending } r
  | .decl n :: r => parse { s with known := n :: s.known } r

/-- `validate_types` (parser_utils.c:4347-4367): the names that are warned about.  `zwarn_at` reads the
line of the token (diagnostics.c:112-124), which is gone unless it is of this message. -/
def validate (known : List String) (msg : Nat) : List (Nat × String) → Res (List String)
  | [] => .ok []
  | (g, n) :: r =>
    if n ∈ known then validate known msg r
    else if g = msg then (validate known msg r).bind (fun w => .ok (n :: w))
    else .ub

/-- One message (lsp_project.c:145-186); the list of pending names is kept. -/
def update (s : State) (t : Text) : Res (State × List String) :=
  (validate (parse s t).known (parse s t).msg (parse s t).pending).bind
    (fun w => .ok ({ parse s t with msg := (parse s t).msg + 1 }, w))

/-- A session: the warnings for each message. -/
def run (s : State) : List Text → Res (List (List String))
  | [] => .ok []
  | t :: r => (update s t).bind (fun x => (run x.1 r).bind (fun ws => .ok (x.2 :: ws)))

/-! ## What is meant -/

namespace Spec

/-- No text of `ts` declares `n`. -/
def Undeclared (ts : List Text) (n : String) : Prop := ∀ t ∈ ts, Item.decl n ∉ t

/-- When `t` arrives after the texts `pre`, one of those used a type that nothing up to now declares. -/
def Stale (pre : List Text) (t : Text) : Prop :=
  ∃ n, (∃ u ∈ pre, Item.use n ∈ u) ∧ Undeclared (pre ++ [t]) n

end Spec

end Verif.LspStale
