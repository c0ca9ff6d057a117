import Verif.Util
/-
Model of the socket scheduler in its default, consolidated-messages mode:
`InterfaceSocket.pool_update`, `pool_distribute`, `_pool_distribute_select`, `_requeue_disconnected`,
`dispatch_free_client`, `_dispatch_free_client_batch` (ipi/interfaces/sockets.py:1354-1778), together with the effect
of `Driver.dispatch_send(_batch)` and `Driver.dispatch_recv(_batch)` on requests and clients (sockets.py:571-861).

What the outside world does (a send succeeding or not, a reply arriving, a client dying, a timeout expiring, new clients
connecting) is given by explicit arguments over which the theorems quantify.
-/
namespace Verif.Pool

/-- Identity of a `ForceRequest` object. -/
abbrev Key := Nat

/-- Identity of a client (a `Driver` object). -/
abbrev Cid := Nat

/-- The flags of `Status` (sockets.py:102-108); all false is `Disconnected`. -/
structure CStatus where
  up : Bool := false
  ready : Bool := false
  needsInit : Bool := false
  hasData : Bool := false
  busy : Bool := false
  timeout : Bool := false
deriving DecidableEq, Repr

/-- `Status.Disconnected`. -/
def CStatus.disconnected : CStatus := {}

/-- `Status.Up | Status.HasData`, set when a job has been sent (sockets.py:632, 832). -/
def CStatus.sentJob : CStatus := { up := true, hasData := true }

/-- The `status` field of a request. Simplification: "Exit", set only when the forcefield stops, is left out. -/
inductive RStatus where
  | queued | running | done
deriving DecidableEq, Repr

/-- Attributes of `Driver` used by the scheduler (sockets.py:215-234). `sent` is a ghost: the structures the driver at
the other end has been sent and not yet answered for, in order. -/
structure Client where
  cid : Cid
  st : CStatus
  lastreq : Option Nat
  locked : Bool
  sent : List Key
deriving DecidableEq, Repr

/-- `match_mode`. -/
inductive Mode where
  | auto | any | lock
deriving DecidableEq, Repr

/-- The passes of `match_seq` (sockets.py:1568-1573). -/
inductive MatchId where
  | matchLast | noneLast | free | any
deriving DecidableEq, Repr

def Mode.seq : Mode → List MatchId
  | .auto => [.matchLast, .noneLast, .free, .any]
  | .any => [.any]
  | .lock => [.matchLast, .noneLast]

/-- Settings, and what is fixed about requests: `rid k` is the "id" field (replica index) of request `k`; `eval k` is what
a driver answers for the structure of request `k`. Simplification: `fc.lastreq is r["id"]` compares object identity;
requests of one bead carry the same integer object, so it is modelled by equality. -/
structure Cfg (V : Type) where
  batch : Nat
  mode : Mode
  rid : Key → Nat
  eval : Key → V

/-- Where the poll thread is: between polls (or before the collect phase), or in the collect loop. -/
inductive Phase where
  | idle | collecting
deriving DecidableEq, Repr

/-- State shared by the scheduler and the forcefield. -/
structure St (V : Type) where
  requests : List Key := []
  status : Key → RStatus := fun _ => .queued
  result : Key → Option V := fun _ => none
  clients : List Client := []
  prlist : List Key := []
  jobs : List (List Key × Cid) := []
  nextKey : Nat := 0
  nextCid : Nat := 0
  /-- answers of the next sends; when exhausted, sends succeed -/
  orc : List Bool := []
  phase : Phase := .idle

variable {V : Type}

/-- Exceptions escaping from the polling thread. -/
inductive Crash where
  /-- `tc.result()` with `tc = None` in `pool_update` (sockets.py:1401) -/
  | attributeError
  /-- an exception other than `Disconnected` raised by `dispatch_recv` (`InvalidSize`, `UnicodeDecodeError`, ...) -/
  | badReply
deriving DecidableEq, Repr

def updClient (cid : Cid) (f : Client → Client) (cs : List Client) : List Client :=
  cs.map fun c => if c.cid = cid then f c else c

def setStatus (ks : List Key) (v : RStatus) (f : Key → RStatus) : Key → RStatus :=
  fun k => if k ∈ ks then v else f k

/-- `_requeue_disconnected` (sockets.py:1662-1674). Simplification: `start` and `poll_iter` are not modelled. -/
def requeue (ks : List Key) (cid : Cid) (s : St V) : St V :=
  { s with
    status := setStatus ks .queued s.status
    clients := updClient cid (fun c => { c with st := .disconnected, sent := [] }) s.clients }

/-- The batch actually sent: padded with copies of the last request (sockets.py:796-798); a batch size of at most one is
the single-request path (sockets.py:571). -/
def pad (batch : Nat) (ks : List Key) : List Key :=
  ks ++ List.replicate (batch - ks.length) (ks.getLastD 0)

/-- Outcome of the next send. -/
def popSend (s : St V) : Bool × St V :=
  match s.orc with
  | [] => (true, s)
  | b :: t => (b, { s with orc := t })

/-- Mark the requests as running, take them off the pending list, send them, and record the job or put them back
(sockets.py:1715-1749 for one request, 1760-1778 for a batch). -/
def assign (cfg : Cfg V) (ks : List Key) (cid : Cid) (locked : Bool) (s : St V) : St V × Bool :=
  let s := { s with
    status := setStatus ks .running s.status
    prlist := ks.foldl List.erase s.prlist
    clients := updClient cid (fun c => { c with locked := locked }) s.clients }
  match popSend s with
  | (true, s) =>
    ({ s with
       clients := updClient cid (fun c => { c with st := .sentJob, sent := pad cfg.batch ks }) s.clients
       jobs := s.jobs ++ [(ks, cid)] }, true)
  | (false, s) => (requeue ks cid s, false)

/-- "makes sure that the client is REALLY free" (sockets.py:1681-1695). -/
def CStatus.isFree (st : CStatus) : Bool :=
  st.up && !st.hasData && (st.ready || st.needsInit || st.busy)

/-- Whether request `r` is skipped for client `fc` in this pass (sockets.py:1701-1716). -/
def skips (cfg : Cfg V) (mid : MatchId) (clients : List Client) (fc : Client) (r : Key) : Bool :=
  match mid with
  | .matchLast => fc.lastreq != some (cfg.rid r)
  | .noneLast =>
    fc.lastreq != none || (cfg.mode == .lock && clients.any (fun c => c.lastreq == some (cfg.rid r)))
  | .free => fc.locked
  | .any => false

/-- The first pending request not skipped. -/
def pick (cfg : Cfg V) (mid : MatchId) (clients : List Client) (fc : Client) (prlist : List Key) : Option Key :=
  prlist.find? fun r => !skips cfg mid clients fc r

/-- `dispatch_free_client` and `_dispatch_free_client_batch` (sockets.py:1676-1778). -/
def dispatchFree (cfg : Cfg V) (mid : MatchId) (cid : Cid) (s : St V) : St V × Bool :=
  match s.clients.find? (fun c => c.cid == cid) with
  | none => (s, false)
  | some fc =>
    if !fc.st.isFree then (s, false)
    else if cfg.batch > 1 then
      if s.prlist = [] then (s, false)
      else assign cfg (s.prlist.take cfg.batch) cid false s
    else
      match pick cfg mid s.clients fc s.prlist with
      | none => (s, false)
      | some r => assign cfg [r] cid (fc.lastreq == some (cfg.rid r)) s

/-- State of the dispatch loop: scheduler state, clients still free, whether something was dispatched this round. -/
structure Rd (V : Type) where
  s : St V
  freec : List Cid
  d : Bool

/-- `for fc in freec[:]` (sockets.py:1578-1583); the first argument is the copy. -/
def passClients (cfg : Cfg V) (mid : MatchId) : List Cid → Rd V → Rd V
  | [], rd => rd
  | fc :: rest, rd =>
    let (s', ok) := dispatchFree cfg mid fc rd.s
    let rd' : Rd V := if ok then ⟨s', rd.freec.erase fc, true⟩ else ⟨s', rd.freec, rd.d⟩
    if rd'.s.prlist = [] then rd' else passClients cfg mid rest rd'

/-- `for match_ids in match_seq` (sockets.py:1577). -/
def round (cfg : Cfg V) : List MatchId → Rd V → Rd V
  | [], rd => rd
  | mid :: mids, rd => round cfg mids (passClients cfg mid rd.freec rd)

/-- `[r for r in self.requests if r["status"] == "Queued"]`. -/
def pending (s : St V) : List Key := s.requests.filter fun k => s.status k == .queued

/-- The `while len(freec) > 0 and len(self.prlist) > 0` loop (sockets.py:1575-1589). The test `freec' < freec` is always true
when something was dispatched (`round_progress`); it is there for termination. -/
def dispatchLoop (cfg : Cfg V) (s : St V) (freec : List Cid) : St V × List Cid :=
  if freec = [] ∨ s.prlist = [] then (s, freec)
  else
    let rd := round cfg cfg.mode.seq ⟨s, freec, false⟩
    if cfg.mode = .lock then (rd.s, rd.freec)
    else
      let s' := if rd.freec = [] then rd.s else { rd.s with prlist := pending rd.s }
      if _h : rd.d = true ∧ rd.freec.length < freec.length then dispatchLoop cfg s' rd.freec
      else (s', rd.freec)
termination_by freec.length
decreasing_by exact _h.2

/-- Clients without a job (sockets.py:1561-1562). -/
def freeClients (s : St V) : List Cid :=
  (s.clients.map (·.cid)).filter fun c => !(s.jobs.map (·.2)).contains c

/-- Dispatch phase of `_pool_distribute_select` (sockets.py:1560-1597), and the early return of `pool_distribute`
(sockets.py:1462-1463). -/
def dispatchPhase (cfg : Cfg V) (s : St V) : St V :=
  if s.requests = [] ∧ s.jobs = [] then s
  else
    let freec := freeClients s
    let s := if s.prlist = [] ∨ freec.length > s.prlist.length then { s with prlist := pending s } else s
    let s := (dispatchLoop cfg s freec).1
    { s with phase := if s.jobs = [] then .idle else .collecting }

/-- What happens when the reply of a readable client is read: a complete reply (then the new status of the client is
probed), a disconnection, or another exception. -/
inductive RecvAns where
  | ok (st : CStatus)
  | dead
  | raises
deriving DecidableEq, Repr

/-- `dispatch_recv` / `dispatch_recv_batch` on a complete reply (sockets.py:645-668, 847-861): the driver answered for the
structures it was sent; the results are paired with the requests of the job in order. -/
def recvOk (cfg : Cfg V) (ks : List Key) (cid : Cid) (st : CStatus) (s : St V) : St V :=
  let reply := ((s.clients.find? (fun c => c.cid == cid)).map (·.sent)).getD [] |>.map cfg.eval
  let pairs := List.zip ks (reply.take ks.length)
  { s with
    result := fun k => (pairs.lookup k).orElse fun _ => s.result k
    status := setStatus (pairs.map (·.1)) .done s.status
    clients := updClient cid (fun c => { c with st := st, lastreq := some (cfg.rid (ks.getLastD 0)), sent := [] }) s.clients }

/-- One pass over the jobs with the readable clients (sockets.py:1612-1630): jobs that were received or whose client died are
dropped. `ans c = none` means client `c` is not readable. -/
def collectJobs (cfg : Cfg V) (ans : Cid → Option RecvAns) :
    List (List Key × Cid) → St V → Except Crash (St V × List (List Key × Cid))
  | [], s => .ok (s, [])
  | (ks, cid) :: js, s =>
    match ans cid with
    | none =>
      match collectJobs cfg ans js s with
      | .ok (s', kept) => .ok (s', (ks, cid) :: kept)
      | .error e => .error e
    | some (.ok st) => collectJobs cfg ans js (recvOk cfg ks cid st s)
    | some .dead => collectJobs cfg ans js (requeue ks cid s)
    | some .raises => .error .badReply

/-- Jobs past the time limit are put back and their client disconnected (sockets.py:1634-1660). -/
def dropExpired (expired : Cid → Bool) : List (List Key × Cid) → St V → St V × List (List Key × Cid)
  | [], s => (s, [])
  | (ks, cid) :: js, s =>
    if expired cid then dropExpired expired js (requeue ks cid s)
    else
      let (s', kept) := dropExpired expired js s
      (s', (ks, cid) :: kept)

/-- One iteration of the collect loop (sockets.py:1600-1660). -/
def collectIter (cfg : Cfg V) (ans : Cid → Option RecvAns) (expired : Cid → Bool) (s : St V) : Except Crash (St V) :=
  match collectJobs cfg ans s.jobs s with
  | .error e => .error e
  | .ok (s1, kept) =>
    let (s2, kept2) := dropExpired expired kept s1
    .ok { s2 with jobs := kept2, phase := if kept2 = [] then .idle else .collecting }

/-- `pool_update` (sockets.py:1374-1449): dead clients are removed; if there is a dead client and any job, `tc.result()` is
called on `None`. New clients are always accepted, whatever their status (`driver.status | Status.Up` is always true). -/
def poolUpdate (news : List CStatus) (s : St V) : Except Crash (St V) :=
  if (∃ c ∈ s.clients, c.st.up = false) ∧ s.jobs ≠ [] then .error .attributeError
  else
    .ok { s with
      clients := (s.clients.filter fun c => c.st.up) ++
        news.zipIdx.map fun (st, i) => ⟨s.nextCid + i, st, none, false, []⟩
      nextCid := s.nextCid + news.length }

/-- What can happen. `queue` and `release` come from the main thread (forcefields.py:186-214, 249-271), the others from the
polling thread in the order imposed by `phase`. -/
inductive Op where
  | queue
  | release (k : Key)
  | update (news : List CStatus)
  | dispatch (sends : List Bool)
  | collect (ans : Cid → Option RecvAns) (expired : Cid → Bool)
  /-- `select.select` raises; the collect loop is left (sockets.py:1604-1609) -/
  | selectError

/-- One step. Operations that are not enabled in the current phase leave the state unchanged. A request is released only
once its result is there (all callers wait for "Done"). -/
def step (cfg : Cfg V) (s : St V) : Op → Except Crash (St V)
  | .queue => .ok { s with
      requests := s.requests ++ [s.nextKey]
      status := setStatus [s.nextKey] .queued s.status
      nextKey := s.nextKey + 1 }
  | .release k => .ok (if s.status k = .done then { s with requests := s.requests.erase k } else s)
  | .update news => if s.phase = .idle then poolUpdate news s else .ok s
  | .dispatch sends => .ok (if s.phase = .idle then dispatchPhase cfg { s with orc := sends } else s)
  | .collect ans expired => if s.phase = .collecting then collectIter cfg ans expired s else .ok s
  | .selectError => .ok { s with phase := .idle }

def run (cfg : Cfg V) (s : St V) : List Op → Except Crash (St V)
  | [] => .ok s
  | op :: ops => match step cfg s op with
    | .ok s' => run cfg s' ops
    | .error e => .error e

end Verif.Pool
