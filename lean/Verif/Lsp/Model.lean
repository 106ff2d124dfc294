import Verif.Basic
import Verif.Probe

/-!
# Language-server framing and dispatch

Transcription of `lsp_main` (/repo/src/lsp/lsp_main.c:9-67) on a finite input, and of the
dispatch in `handle_request` (/repo/src/lsp/json_rpc.c:53-289) on parsed JSON.

Standard input is the list of bytes still to come; reading past its end sets the end-of-file
flag.  `line` and `body` are C strings, seen by `strcmp`, `strncmp`, `atoi` and
`handle_request` only up to their first zero byte (`cstr`).
-/

namespace Verif.Lsp

abbrev Byte := UInt8

/-- A character array as a C string. -/
def cstr (l : List Byte) : List Byte := l.takeWhile (· ≠ 0)

/-- Bytes stored by `fgets` with room for `n` more characters (ISO C 7.21.7.2): up to and
including a newline. Returns the line, the rest of the input. -/
def takeLine : Nat → List Byte → List Byte × List Byte
  | 0, bs => ([], bs)
  | _ + 1, [] => ([], [])
  | n + 1, c :: bs =>
    if c = 10 then ([c], bs)
    else
      let p := takeLine n bs
      (c :: p.1, p.2)

/-- `fgets(line, 512, stdin)`; `none` at end of input. -/
def fgets (bs : List Byte) : Option (List Byte × List Byte) :=
  match bs with
  | [] => none
  | _ => some (takeLine 511 bs)

/-- `isspace` in the C locale. -/
def isSpace (c : Byte) : Bool := c = 32 || (9 ≤ c && c ≤ 13)

/-- `isdigit`. -/
def isDig (c : Byte) : Bool := 48 ≤ c && c ≤ 57

/-- Digits read by `atoi`. -/
def atoiDigits : List Byte → Nat → Nat
  | [], v => v
  | c :: r, v => if isDig c then atoiDigits r (10 * v + (c.toNat - 48)) else v

/-- Optional sign and digits; a value outside `int` is undefined (ISO C 7.22.1). -/
def atoiSign (s : List Byte) : Res Int :=
  match s with
  | [] => .ok 0
  | c :: r =>
    let v := if c = 45 ∨ c = 43 then atoiDigits r 0 else atoiDigits (c :: r) 0
    if v < 2 ^ 31 then .ok (if c = 45 then -(v : Int) else v) else .ub

/-- C `atoi` on a C string. -/
def atoi : List Byte → Res Int
  | [] => .ok 0
  | c :: r => if isSpace c then atoi r else atoiSign (c :: r)

/-- The bytes of an ASCII literal. -/
def ascii (cs : List Char) : List Byte := cs.map fun c => UInt8.ofNat c.toNat

/-- `"\r\n"` -/
def crlf : List Byte := [13, 10]

/-- `"Content-Length: "` (/repo/src/lsp/lsp_main.c:28) -/
def clen : List Byte :=
  ascii ['C','o','n','t','e','n','t','-','L','e','n','g','t','h',':',' ']

/-- Effect of one header line on `content_len` (/repo/src/lsp/lsp_main.c:28-31). -/
def header (line : List Byte) (len : Int) : Res Int :=
  if clen.isPrefixOf (cstr line) then atoi ((cstr line).drop 16) else .ok len

/-- Outcome of the header loop: declared length, rest of the input, whether the loop ended
because the input did. -/
abbrev Hdr := Int × List Byte × Bool

/-- The header loop (/repo/src/lsp/lsp_main.c:22-32).  `fuel` bounds the number of lines. -/
def headers : Nat → List Byte → Int → Run Hdr
  | 0, _, _ => .hang
  | f + 1, bs, len =>
    match fgets bs with
    | none => .ok (len, [], true)
    | some (line, rest) =>
      if cstr line = crlf then .ok (len, rest, false)
      else
        match header line len with
        | .ok len' => headers f rest len'
        | _ => .ub

/-- `10 * 1024 * 1024` -/
def maxBody : Int := 10 * 1024 * 1024

/-- The main loop (/repo/src/lsp/lsp_main.c:17-64): the list of strings passed to
`handle_request`, in order. -/
def serve : Nat → List Byte → Run (List (List Byte))
  | 0, _ => .hang
  | f + 1, bs =>
    match headers (bs.length + 1) bs 0 with
    | .hang => .hang
    | .ub => .ub
    | .ok (len, rest, eof) =>
      if len ≤ 0 then (if eof then .ok [] else serve f rest)
      else if len > maxBody then .ok []
      else if rest.length < len.toNat then .ok []
      else
        match serve f (rest.drop len.toNat) with
        | .ok r => .ok (cstr (rest.take len.toNat) :: r)
        | .hang => .hang
        | .ub => .ub

/-- A run of the server on a finite input. -/
def lspMain (bs : List Byte) : Run (List (List Byte)) := serve (bs.length + 1) bs

/-- What the server writes for one response (/repo/src/lsp/lsp_analysis.c:24-34,
/repo/src/lsp/json_rpc.c:135, 263): `%zu` prints decimal digits. -/
def reply (digits str : List Byte) : List Byte := clen ++ digits ++ crlf ++ crlf ++ str

/-! ## Dispatch -/

/-- Parsed JSON (cJSON nodes); numbers only as `valueint`. -/
inductive J where
  | null
  | num (n : Int)
  | str (s : String)
  | arr (xs : List J)
  | obj (fs : List (String × J))

/-- `cJSON_GetObjectItem` (/repo/src/lsp/cJSON.c: case-insensitive search of the members);
here keys are compared exactly, messages using other capitalisation are outside the model. -/
def J.get (j : J) (k : String) : Option J :=
  match j with
  | .obj fs => (fs.find? (fun p => p.1 == k)).map (·.2)
  | _ => none

/-- `item->valueint`: 0 for anything that is not a number. -/
def J.valueint : J → Int
  | .num n => n
  | _ => 0

/-- `item->valuestring`. -/
def J.valuestring : J → Option String
  | .str s => some s
  | _ => none

/-- `params.textDocument.uri` as found by `get_params` (/repo/src/lsp/json_rpc.c:19-38). -/
def uriOf (j : J) : Option String := do
  let p ← j.get "params"
  let d ← p.get "textDocument"
  let u ← d.get "uri"
  u.valuestring

/-- Text of a `didOpen`/`didChange` notification (/repo/src/lsp/json_rpc.c:145-165): the
`text` of the document, else of the *first* content change. -/
def textOf (method : String) (j : J) : Option String := do
  let p ← j.get "params"
  let d ← p.get "textDocument"
  match d.get "text" with
  | some t => t.valuestring
  | none =>
    if method = "textDocument/didChange" then
      match p.get "contentChanges" with
      | some (.arr (c :: _)) => (← c.get "text").valuestring
      | _ => none
    else none

/-- What the server does for one message. -/
inductive Act where
  /-- a response with this id -/
  | respond (id : Int)
  /-- the text of a document is stored and diagnostics are published for it -/
  | check (uri text : String)
  deriving DecidableEq, Repr

/-- Documents the server has an index for.  `lsp_project_get_file` answers for the documents
stored by `lsp_project_update_file` (/repo/src/lsp/lsp_project.c); the files found by scanning the
project directory are outside the model. -/
abbrev Docs := List String

/-- `lsp_goto_definition`, `lsp_hover`, `lsp_completion` return without a response for a
document they have no index for (/repo/src/lsp/lsp_analysis.c:148-151, 254-257, 414-417). -/
def ifKnown (docs : Docs) (uri : String) (id : Int) : List Act :=
  if uri ∈ docs then [.respond id] else []

/-- `handle_request` (/repo/src/lsp/json_rpc.c:53-289) on a parsed message; the content of
responses is not modelled.  `semanticTokens/full` answers when a document is given
(/repo/src/lsp/json_rpc.c:229-266, `lsp_semantic_tokens_full` never returns null for one). -/
def handle (docs : Docs) (j : J) : List Act :=
  let id := match j.get "id" with
    | some i => i.valueint
    | none => 0
  match (j.get "method").bind J.valuestring with
  | none => []
  | some m =>
    if m = "initialize" then [.respond id]
    else if m = "textDocument/didOpen" ∨ m = "textDocument/didChange" then
      match uriOf j, textOf m j with
      | some u, some t => [.check u t]
      | _, _ => []
    else if m = "textDocument/definition" then
      match uriOf j with
      | some u => ifKnown docs u id
      | none => []
    else if m = "textDocument/hover" then
      match uriOf j with
      | some u => ifKnown docs u id
      | none => []
    else if m = "textDocument/completion" then
      match uriOf j with
      | some u => ifKnown docs u id
      | none => []
    else if m = "textDocument/documentSymbol" then
      match uriOf j with
      | some _ => [.respond id]
      | none => []
    else if m = "textDocument/references" then
      match uriOf j with
      | some _ => [.respond id]
      | none => []
    else if m = "textDocument/signatureHelp" then
      -- `uri` is declared as NULL and never filled in (/repo/src/lsp/json_rpc.c:218-227)
      match (none : Option String) with
      | some _ => [.respond id]
      | none => []
    else if m = "textDocument/semanticTokens/full" then
      match uriOf j with
      | some _ => [.respond id]
      | none => []
    else if m = "textDocument/rename" then
      match uriOf j, (j.get "params").bind (J.get · "newName") |>.bind J.valuestring with
      | some _, some _ => [.respond id]
      | _, _ => []
    else []

/-- A session: messages in order, documents become known when checked. -/
def session (docs : Docs) : List J → List Act
  | [] => []
  | j :: js =>
    let as := handle docs j
    as ++ session (as.foldl (fun d a => match a with
      | .check u _ => u :: d
      | .respond _ => d) docs) js

namespace Spec

/-- Number written in decimal digits. -/
def decVal (ds : List Byte) : Nat := ds.foldl (fun v c => 10 * v + (c.toNat - 48)) 0

/-- A message as a client sends it: header lines before and after the length header, the
digits of the length, the body. -/
structure Msg where
  pre : List (List Byte)
  digits : List Byte
  post : List (List Byte)
  body : List Byte

/-- The bytes on the wire. -/
def Msg.wire (m : Msg) : List Byte :=
  (m.pre.map (· ++ crlf)).flatten ++ clen ++ m.digits ++ crlf ++
    (m.post.map (· ++ crlf)).flatten ++ crlf ++ m.body

/-- A header other than the length: not empty, printable (no newline, no zero byte), at most
509 bytes and of another name. -/
def HeaderOk (h : List Byte) : Prop :=
  h ≠ [] ∧ 10 ∉ h ∧ 0 ∉ h ∧ h.length ≤ 509 ∧ ¬ clen <+: h

/-- A message the server is meant to understand: other headers as above, the length
announced is the length of the body, which is between 1 byte and 10 MiB and has no zero
byte. -/
structure MsgOk (m : Msg) : Prop where
  pre : ∀ h ∈ m.pre, HeaderOk h
  post : ∀ h ∈ m.post, HeaderOk h
  digits : m.digits ≠ [] ∧ (∀ c ∈ m.digits, 48 ≤ c ∧ c ≤ 57) ∧ m.digits.length ≤ 400
  len : decVal m.digits = m.body.length
  pos : 0 < m.body.length
  max : m.body.length ≤ 10 * 1024 * 1024
  nul : 0 ∉ m.body

end Spec

end Verif.Lsp
