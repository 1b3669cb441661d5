import Verif.Inspect
import Verif.Backup
/-
Model of the HTTP side of the inspect package (inspect_handler.go, inspect_handler_client.go) and of the command line
(inspect_cli.go, cmd/bond-cli). Errors stand for their messages; JSON objects for their texts. The network, the multiplexer in
front of the handler and percent signs in addresses are left out; a panic of the handler ends the connection (net/http).
-/
namespace Bond

/-- a message in an answer: "table not found" of the lists, a message of `Query`, or that of a request that is no JSON object
(inspect_handler.go:48-59) -/
inductive HErr
  | noTable | query (e : IErr) | json
deriving DecidableEq, Repr

/-- body of a request (inspect_handler.go:89-91, 134-136, 179-186): nothing, or the object with the fields of `requestQuery`, of
which `requestIndexes` and `requestEntryFields` have one, or something that is not JSON -/
inductive HBody
  | empty | obj (r : IReq) | other

/-- a request as the handler sees it: the path of the address, the Accept header ("" if there is none) and the body
(inspect_handler.go:32-45, 63, 95) -/
structure HReq where
  path : List Char
  accept : String
  body : HBody

/-- body of an answer (inspect_handler.go:230-246): nothing, "404 page not found", an error object, or a result -/
inductive HOut
  | empty | text | error (e : HErr) | names (l : List String) | fields (l : List (String × GoKind)) | rows (l : List GoMap)
deriving DecidableEq, Repr

/-- an answer (inspect_handler.go:230-246) -/
structure HResp where
  status : Nat
  body : HOut
deriving DecidableEq, Repr

/-- what the handler does with a request: it answers, panics, or is still busy (inspect_handler.go:32-45) -/
inductive HRes
  | answer (r : HResp) | panic | running
deriving DecidableEq, Repr

/-- inspect_handler.go:10-15 -/
def tablesPath : List Char := "/tables".toList
/-- inspect_handler.go:10-15 -/
def indexesPath : List Char := "/indexes".toList
/-- inspect_handler.go:10-15 -/
def entryFieldsPath : List Char := "/entryFields".toList
/-- inspect_handler.go:10-15 -/
def queryPath : List Char := "/query".toList

/-- inspect_handler.go:19-23, 34-40: the regular expression `p$` matches the path -/
def endsIn (p path : List Char) : Bool := p.isSuffixOf path

/-- inspect_handler.go:63-66, 95-98 (138-143, 190-193) -/
def acceptOf (a : String) : String := if a == "" then "application/json" else a

/-- inspect_handler.go:61-87 `buildTablesHandler` -/
def tablesHandler (infos : List Info) (q : HReq) : HRes :=
  if acceptOf q.accept == "application/json" then .answer ⟨200, .names (inspectTables infos)⟩ else .answer ⟨406, .empty⟩

/-- inspect_handler.go:100-111 (145-156, 195-206): the body is decoded before the Accept header is looked at -/
def decodeBody (q : HReq) (k : IReq → HRes) : HRes :=
  match q.body with
  | .obj r => k r
  | _ => .answer ⟨500, .error .json⟩

/-- inspect_handler.go:93-132 `buildIndexesHandler` -/
def indexesHandler (infos : List Info) (q : HReq) : HRes :=
  decodeBody q (fun r =>
    if acceptOf q.accept == "application/json" then
      match inspectIndexes infos r.table with
      | none => .answer ⟨500, .error .noTable⟩
      | some l => .answer ⟨200, .names l⟩
    else .answer ⟨406, .empty⟩)

/-- inspect_handler.go:138-177 `buildEntryFieldsHandler` -/
def entryFieldsHandler (infos : List Info) (q : HReq) : HRes :=
  decodeBody q (fun r =>
    if acceptOf q.accept == "application/json" then
      match inspectFields infos r.table with
      | none => .answer ⟨500, .error .noTable⟩
      | some l => .answer ⟨200, .fields l⟩
    else .answer ⟨406, .empty⟩)

/-- inspect_handler.go:188-228 `buildQueryHandler`; the maps of the request are decoded from JSON, the rows encoded -/
def queryHandler (text : Bytes → Bytes) (infos : List Info) (oor : OutOfRange) (db : KV) (fuel : Nat) (q : HReq) : HRes :=
  decodeBody q (fun r =>
    if acceptOf q.accept == "application/json" then
      match inspectQuery infos oor db fuel { r with
          selector := jsonMap text r.selector, filter := r.filter.map (jsonMap text), after := r.after.map (jsonMap text) } with
      | .rows l => .answer ⟨200, .rows l⟩
      | .err e => .answer ⟨500, .error (.query e)⟩
      | .panic => .panic
      | .running => .running
    else .answer ⟨406, .empty⟩)

/-- inspect_handler.go:17-46 `NewInspectHandler` -/
def inspectHandler (text : Bytes → Bytes) (infos : List Info) (oor : OutOfRange) (db : KV) (fuel : Nat) (q : HReq) : HRes :=
  if endsIn tablesPath q.path then tablesHandler infos q
  else if endsIn indexesPath q.path then indexesHandler infos q
  else if endsIn entryFieldsPath q.path then entryFieldsHandler infos q
  else if endsIn queryPath q.path then queryHandler text infos oor db fuel q
  else .answer ⟨404, .text⟩

/-- what a call of the remote client returns: a result, "request failed with status ..." with the reason if the answer has one,
an answer that cannot be decoded, or an error of the connection; or it is still waiting (inspect_handler_client.go:40-177) -/
inductive RRes (α : Type)
  | ok (a : α) | failed (status : Nat) (reason : Option HErr) | undecodable | connection | running
deriving DecidableEq, Repr

/-- the remote client: its address from the host's end on, after `NewInspectRemote` (inspect_handler_client.go:12-38), and the
Accept header, if one of its headers is that -/
structure RClient where
  base : List Char
  accept : String

/-- inspect_handler_client.go:24-38 `NewInspectRemote`: one slash at the end is removed. `url` begins after the host. -/
def newInspectRemote (url : List Char) (accept : String) : RClient :=
  ⟨if endsIn ['/'] url then url.dropLast else url, accept⟩

/-- the path of an address: what comes before the query and the fragment (net/url, called at inspect_handler_client.go:43) -/
def pathOf (url : List Char) : List Char := url.takeWhile (fun c => c != '?' && c != '#')

/-- the request that is sent (inspect_handler_client.go:41-43, 75-78, 110-113, 152-155) -/
def RClient.request (c : RClient) (path : List Char) (b : HBody) : HReq := ⟨pathOf (c.base ++ path), c.accept, b⟩

/-- inspect_handler_client.go:44-65 (79-100, 114-135, 156-177): statuses from 400 on are errors; `decode` is the decoding of the
expected result -/
def RClient.receive {α : Type} (decode : HOut → Option α) : HRes → RRes α
  | .panic => .connection
  | .running => .running
  | .answer r =>
    if 399 < r.status then
      match r.body with
      | .error e => .failed r.status (some e)
      | _ => .failed r.status none
    else
      match decode r.body with
      | some a => .ok a
      | none => .undecodable

/-- decoding into []string (inspect_handler_client.go:58-62, 93-97) -/
def decodeNames : HOut → Option (List String)
  | .names l => some l
  | _ => none

/-- decoding into map[string]string (inspect_handler_client.go:128-132) -/
def decodeFields : HOut → Option (List (String × GoKind))
  | .fields l => some l
  | _ => none

/-- decoding into []map[string]interface{} (inspect_handler_client.go:170-174) -/
def decodeRows (text : Bytes → Bytes) : HOut → Option (List GoMap)
  | .rows l => some (l.map (jsonMap text))
  | _ => none

/-- a server: what it does with a request (inspect_handler.go:17-46) -/
abbrev Server := HReq → HRes

/-- inspect_handler_client.go:40-65 `Tables` -/
def RClient.tables (c : RClient) (s : Server) : RRes (List String) :=
  RClient.receive decodeNames (s (c.request tablesPath .empty))

/-- inspect_handler_client.go:67-100 `Indexes` -/
def RClient.indexes (c : RClient) (s : Server) (table : String) : RRes (List String) :=
  RClient.receive decodeNames (s (c.request indexesPath (.obj { table := table, index := "" })))

/-- inspect_handler_client.go:102-135 `EntryFields` -/
def RClient.entryFields (c : RClient) (s : Server) (table : String) : RRes (List (String × GoKind)) :=
  RClient.receive decodeFields (s (c.request entryFieldsPath (.obj { table := table, index := "" })))

/-- inspect_handler_client.go:137-177 `Query`; the context is not used -/
def RClient.query (c : RClient) (text : Bytes → Bytes) (s : Server) (r : IReq) : RRes (List GoMap) :=
  RClient.receive (decodeRows text) (s (c.request queryPath (.obj r)))

/-! ## the command line -/

/-- strings.Split with the separator "=" (inspect_cli.go:96) -/
def splitEq : List Char → List (List Char)
  | [] => [[]]
  | c :: s =>
    if c = '=' then [] :: splitEq s
    else
      match splitEq s with
      | [] => [[c]]
      | w :: ws => (c :: w) :: ws

/-- inspect_cli.go:92-102: the headers; `none` is the error "invalid header". As a list, of which the last with a name counts. -/
def cliHeaders : List (List Char) → Option (List (List Char × List Char))
  | [] => some []
  | s :: rest =>
    match splitEq s with
    | [k, v] => (cliHeaders rest).map ((k, v) :: ·)
    | _ => none

/-- inspect_cli.go:195-227: the arguments of `query`. A map that is not given is nil; the limit is 30 and the index is "primary"
if not given (inspect_cli.go:32-60). What is given is JSON; here are the maps it is decoded into. -/
def cliQuery (table : String) (index : Option String) (selector filter after : Option GoMap) (limit : Option UInt64) : IReq :=
  { table := table, index := index.getD "primary", selector := selector.getD [], filter := filter, limit := limit.getD 30,
    after := after }

/-- bond.TableID(id) of an int (cmd/bond-cli/dump.go:49-52, restore.go:25-28): its low byte -/
def tableIDOfInt (id : Int) : UInt8 := UInt8.ofNat (id % 256).toNat

/-- cmd/bond-cli/dump.go:44-54 the command `dump` after Open; the result of `Dump` is that of the command -/
def cliDump (snap : KV) (live : Nat → KV) (full : List Entry → Bool) (withIndex : Bool) (ids : List Int) : Except DErr DumpTree :=
  dump snap live full withIndex (ids.map tableIDOfInt)

/-- cmd/bond-cli/restore.go:20-30 the command `restore` after Open -/
def cliRestore (base : Bytes) (d : DumpTree) (ids : List Int) (withIndex : Bool) (db : KV) : Except DErr KV :=
  restore base d (ids.map tableIDOfInt) withIndex db

/-- cmd/bond-cli/bond-cli.go:11-25 `main`: the error is printed; the exit status is that of a main that returns, unless the error
carries a status of its own, which those of `dump` and `restore` do not -/
def cliExit {α : Type} : Except DErr α → Nat × Bool
  | .ok _ => (0, false)
  | .error _ => (0, true)

end Bond
