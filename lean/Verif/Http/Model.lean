import Verif.Url.Model
import Verif.Str.Lemmas

/-!
# Model of `std/net/http.zc`

The server's handling of one connection (`Server::start`), the client `fetch`, and the helper
`_parse_headers`.  The network is a parameter: what each `read` returned.

Simplified: a `write` hands over all bytes (std/net/tcp.zc:32-36 may write fewer, and the result
is ignored); name resolution and connecting succeed; the handler is a function from the request
to the response; strings are freed elsewhere (C50-C52).
-/

namespace Verif.Http
open Verif Verif.Str

/-- The bytes of a string literal of ASCII characters. -/
def b (s : String) : List Byte := s.toList.map fun c => UInt8.ofNat c.toNat

/-- `struct Request` (std/net/http.zc:36-41). -/
structure Request where
  method : Str
  path : Str
  headers : List (Str × Str)
  body : Str

/-- `struct Response` (std/net/http.zc:54-58). -/
structure Response where
  status : Int
  headers : List (Str × Str)
  body : Str

/-- The 4096-byte buffer after `read` returned the bytes `bs` and a zero byte was written
(std/net/http.zc:119-125, 246-262): at most 4096 bytes are read. -/
def received (bs : List Byte) : Mem Byte :=
  let buf := bs.map some ++ List.replicate (4096 - bs.length) none
  if bs.length < 4096 then buf.set bs.length (some 0) else buf.set 4095 (some 0)

/-- Reading the request (std/net/http.zc:118-139): `none` when no handler is called. -/
def readRequest (bs : List Byte) : Res (Option Request) :=
  if bs = [] then .ok none
  else do
    let req ← new (received bs)
    let lines ← split req 10
    match lines with
    | [] => .ok none
    | first :: _ => do
      let parts ← split first 32
      match parts with
      | m :: p :: _ => do
        let method ← trim m
        let path ← trim p
        let body ← new (cmem [])
        .ok (some ⟨method, path, [], body⟩)
      | _ => .ok none

/-- The status line (std/net/http.zc:146-150). -/
def statusText (status : Int) : List Byte :=
  if status = 200 then b "200 OK\r\n"
  else if status = 404 then b "404 Not Found\r\n"
  else b "500 Internal Server Error\r\n"

/-- The headers (std/net/http.zc:153-159). -/
def writeHeaders : List (Str × Str) → Str → Res Str
  | [], s => .ok s
  | h :: hs, s => do
    let s ← append s h.1
    let s ← appendC s (cmem (b ": "))
    let s ← append s h.2
    let s ← appendC s (cmem (b "\r\n"))
    writeHeaders hs s

/-- `%zu` -/
def decimal (n : Nat) : List Byte :=
  if n < 10 then [UInt8.ofNat (48 + n)] else decimal (n / 10) ++ [UInt8.ofNat (48 + n % 10)]

/-- The bytes of the response (std/net/http.zc:144-174); `snprintf` keeps 31 characters. -/
def writeResponse (r : Response) : Res Str := do
  let s ← new (cmem (b "HTTP/1.1 "))
  let s ← appendC s (cmem (statusText r.status))
  let s ← writeHeaders r.headers s
  let s ← appendC s (cmem (b "Content-Length: "))
  let s ← appendC s (cmem ((decimal (length r.body)).take 31))
  let s ← appendC s (cmem (b "\r\n"))
  let s ← appendC s (cmem (b "\r\n"))
  append s r.body

/-- One connection (std/net/http.zc:112-183). -/
def serve (handler : Request → Response) (bs : List Byte) : Res (Option Str) := do
  let q ← readRequest bs
  match q with
  | none => .ok none
  | some q => do
    let s ← writeResponse (handler q)
    .ok (some s)

/-- The query of the request `fetch` sends (std/net/http.zc:232-235). -/
def addQuery (s query : Str) : Res Str :=
  if length query ≠ 0 then do
    let s ← appendC s (cmem (b "?"))
    append s query
  else .ok s

/-- The request `fetch` sends (std/net/http.zc:228-241). -/
def fetchRequest (u : Url.Url) : Res Str := do
  let s ← new (cmem (b "GET "))
  let s ← append s u.path
  let s ← addQuery s u.query
  let s ← appendC s (cmem (b " HTTP/1.1\r\nHost: "))
  let s ← append s u.host
  appendC s (cmem (b "\r\nConnection: close\r\n\r\n"))

/-- `Response::new` (std/net/http.zc:61-67). -/
def newResponse (status : Int) : Res Response := do
  let body ← new (cmem [])
  .ok ⟨status, [], body⟩

/-- The status code of a response (std/net/http.zc:267-281). -/
def statusOf (raw : Str) : Res Int := do
  let fs ← find raw 32
  match fs with
  | none => .ok 0
  | some fs => do
    let rest ← substring raw (fs + 1) (length raw - fs - 1)
    let ss ← find rest 32
    match ss with
    | some ss => do
      let code ← substring rest 0 ss
      Url.atoi code.buf
    | none => Url.atoi rest.buf

/-- What `fetch` makes of the first `read` (std/net/http.zc:246-302). -/
def readResponse (bs : List Byte) : Res Response :=
  if bs = [] then newResponse 0
  else do
    let raw ← new (received bs)
    let status ← statusOf raw
    let res ← newResponse status
    let sep ← Url.strstr 4 (cmem (b "\r\n\r\n")) raw.buf
    match sep with
    | none => .ok res
    | some off => do
      let body ← substring raw (off + 4) (length raw - (off + 4))
      .ok { res with body := body }

/-- `fetch` (std/net/http.zc:244-302): the bytes come in several segments, one for each `read`
that could be made; only one is made. -/
def fetchResponse : List (List Byte) → Res Response
  | [] => newResponse 0
  | r :: _ => readResponse r

/-- `_parse_headers` (std/net/http.zc:14-34). -/
def parseHeaders : List Str → Res (List (Str × Str))
  | [] => .ok []
  | line :: lines =>
    if length line = 0 then .ok []
    else do
      let parts ← split line 58
      match parts with
      | k :: v :: _ => do
        let key ← trim k
        let val ← trim v
        let hs ← parseHeaders lines
        .ok ((key, val) :: hs)
      | _ => parseHeaders lines

namespace Spec

/-- carriage return, line feed -/
def crlf : List Byte := [13, 10]

/-- A header line (RFC 9112, 5). -/
def headerLine (h : List Byte × List Byte) : List Byte := h.1 ++ b ": " ++ h.2 ++ crlf

/-- A response: status line, header lines, an empty line and the body (RFC 9112, 2.1). -/
def message (code reason : List Byte) (hs : List (List Byte × List Byte)) (body : List Byte) : List Byte :=
  b "HTTP/1.1 " ++ code ++ [32] ++ reason ++ crlf ++ hs.flatMap headerLine ++ crlf ++ body

/-- Field names and values, and the reason, contain no carriage return. -/
structure Clean (reason : List Byte) (hs : List (List Byte × List Byte)) : Prop where
  reason : 13 ∉ reason
  headers : ∀ h ∈ hs, 13 ∉ h.1 ∧ 13 ∉ h.2

/-- A code: digits with a value that fits an `int`. -/
structure Code (code : List Byte) (n : Nat) : Prop where
  ne : code ≠ []
  digits : ∀ c ∈ code, Url.isDig c = true
  value : Url.Spec.decVal code = n
  fits : n < 2 ^ 31

/-- The header list as texts. -/
def Headers (hs : List (Str × Str)) (ts : List (List Byte × List Byte)) : Prop :=
  Texts (hs.map (·.1)) (ts.map (·.1)) ∧ Texts (hs.map (·.2)) (ts.map (·.2))

/-- A reading of bytes as a response: the bytes are the message, the last header is the length of
the body. -/
def Reads (bs : List Byte) (n : Nat) (hs : List (List Byte × List Byte)) (body : List Byte) : Prop :=
  ∃ code reason len, Code code n ∧ Clean reason hs ∧ bs = message code reason (hs ++ [(b "Content-Length", len)]) body ∧
    len ≠ [] ∧ (∀ c ∈ len, Url.isDig c = true) ∧ Url.Spec.decVal len = body.length

end Spec
end Verif.Http
