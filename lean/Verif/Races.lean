import Verif.Locks
/-!
# Model of who reads and writes the memory that goroutines share

The goroutines of the proxy as in `Locks`, with what their functions read and write between taking and releasing locks.
A function is a program whose branches and loops are arbitrary choices, so that every run of the Go function has one of the traces of
its program.

Modelled: the fields and maps that are reached from more than one goroutine, one variable for each (`Var`).  Simplified: taking a lock
is one step, which waits until nobody holds it (readers: until no writer holds it); queries, channels and waits are left out, as any
goroutine may be slow anyway; locks that are taken for other variables only in between are left out where they do not matter.
Not modelled: variables that are only written before the goroutines start (`Startup`, constructors), the memory inside of libraries
(`ttlcache`, `sync.Map`, channels, `atomic.Bool`, Prometheus), objects handed from one goroutine to another (C132), and `Teardown`,
`Terminate` and `Close`, which only tests use.
-/
namespace Verif.Races
open Verif.Locks (Lock Hold)

/-- What goroutines share. -/
inductive Var
  /-- `ConnMap.userIDToConn`, `connIDToConn`, `sync3/connmap.go:18-22` -/
  | conns
  /-- `Conn.lastClientRequest`, `serverResponses`, `sync3/conn.go:50-59`, and the fields of its `ConnState`, `sync3/handler/connstate.go:24-59`,
  but for the next two -/
  | conn (i : Nat)
  /-- `Conn.lastPos`, `sync3/conn.go:60` -/
  | lastPos (i : Nat)
  /-- `ConnState.cancelLatestReq`, `sync3/handler/connstate.go:27` -/
  | cancelLatest (i : Nat)
  /-- `connStateLive.bufferFull`, `sync3/handler/connstate_live.go:27` -/
  | bufferFull (i : Nat)
  /-- `Conn.cancelOutstandingRequest`, `sync3/conn.go:64` -/
  | cancelOutstanding (i : Nat)
  /-- `TxnIDWaiter.queues`, `sync3/handler/txn_id_waiter.go:14` -/
  | queues (i : Nat)
  /-- `Dispatcher.userToReceiver`, `sync3/dispatcher.go:34` -/
  | receivers
  /-- the maps of the `JoinedRoomsTracker`, `sync3/tracker.go:16-20` -/
  | joined
  /-- `UserCache.roomToData`, `sync3/caches/user.go:193` -/
  | roomData (u : Nat)
  /-- `UserRoomData.Spaces` of a room: a map, which copies of the data share, `sync3/caches/user.go:41-68` -/
  | spaces (u room : Nat)
  /-- `UserCache.listeners`, `id`, `sync3/caches/user.go:195-197` -/
  | listeners (u : Nat)
  /-- `UserCache.ignoredUsers`, `sync3/caches/user.go:202` -/
  | ignored (u : Nat)
  /-- `GlobalCache.roomIDToMetadata` and what it points to, `sync3/caches/global.go:75` -/
  | rooms
  /-- `EnsurePoller.pendingPolls`, `sync3/handler/ensure_polling.go:35` -/
  | pendingPolls
  /-- `PubSub.chans`, `pubsub/pubsub.go:53` -/
  | chans
  /-- `deviceIDToSinceDebugOnly`, `sync3/extensions/todevice.go:19` -/
  | debugSince
  /-- `PollerMap.Pollers`, `executorRunning`, `sync2/poller.go:84-92` -/
  | pollers
  /-- `PendingTransactionIDs.pending`, `sync2/txnid.go:38-43`; the cache has its own lock, but entries are read, changed and written -/
  | pendingTxns
  /-- `Handler.typingHandler`, `sync2/handler2/handler.go:48` -/
  | typing
  /-- `Handler.unreadMap`, `sync2/handler2/handler.go:43` -/
  | unread
  deriving DecidableEq, Repr

/-- The kinds of goroutines. -/
inductive Role
  /-- handles the messages of the pollers, `sync3/handler/handler.go:119-129` -/
  | listener
  /-- runs the callbacks of the pollers, `sync2/poller.go:312-316` -/
  | executor
  /-- requests, timers, expiry of connections, pollers and what starts them -/
  | worker
  deriving DecidableEq, Repr

inductive Act
  | lock (l : Lock)
  | unlock (l : Lock)
  | rlock (l : Lock)
  | runlock (l : Lock)
  | read (v : Var)
  | write (v : Var)
  deriving DecidableEq, Repr

structure Thread where
  role : Role
  held : List Hold := []
  rest : List Act
  deriving DecidableEq, Repr

/-- Does somebody who has `h` keep others from doing `a`? -/
def blocks (h : Hold) (a : Act) : Bool :=
  match a, h with
  | .lock l, .w l' => l == l'
  | .lock l, .r l' => l == l'
  | .rlock l, .w l' => l == l'
  | _, _ => false

def after (a : Act) (held : List Hold) : List Hold :=
  match a with
  | .lock l => .w l :: held
  | .unlock l => held.erase (.w l)
  | .rlock l => .r l :: held
  | .runlock l => held.erase (.r l)
  | _ => held

/-- Goroutine `i` does its next operation. -/
def step (s : List Thread) (i : Nat) : Option (List Thread) :=
  match s[i]? with
  | none => none
  | some t =>
    match t.rest with
    | [] => none
    | a :: r =>
      if s.all fun t' => t'.held.all fun h => !blocks h a then some (s.set i { t with held := after a t.held, rest := r }) else none

def run (s : List Thread) : List Nat → Option (List Thread)
  | [] => some s
  | i :: is => (step s i).bind fun s' => run s' is

/-- The shape of a Go function, as in `Locks`. -/
inductive Prog
  | skip
  | read (v : Var)
  | write (v : Var)
  | locked (l : Lock) (p : Prog)
  | rlocked (l : Lock) (p : Prog)
  | seq (p q : Prog)
  | alt (p q : Prog)
  | star (p : Prog)
  | any (f : Nat → Prog)

inductive Trace : Prog → List Act → Prop where
  | skip : Trace .skip []
  | read : Trace (.read v) [.read v]
  | write : Trace (.write v) [.write v]
  | locked : Trace p t → Trace (.locked l p) (.lock l :: (t ++ [.unlock l]))
  | rlocked : Trace p t → Trace (.rlocked l p) (.rlock l :: (t ++ [.runlock l]))
  | seq : Trace p t → Trace q u → Trace (.seq p q) (t ++ u)
  | left : Trace p t → Trace (.alt p q) t
  | right : Trace q t → Trace (.alt p q) t
  | stop : Trace (.star p) []
  | again : Trace p t → Trace (.star p) u → Trace (.star p) (t ++ u)
  | any (n : Nat) : Trace (f n) t → Trace (.any f) t

infixr:60 " ;; " => Prog.seq

def Prog.opt (p : Prog) : Prog := .alt p .skip

/-- Reads and writes of a variable, as many as one likes. -/
def touch (v : Var) : Prog := .star (.alt (.read v) (.write v))

def reads (v : Var) : Prog := .star (.read v)

/-! ### The tracker, `sync3/tracker.go` -/

/-- `IsUserJoined`, `JoinedRoomsForUser`, `NumInvitedUsersForRoom`, `sync3/tracker.go:56-66,140-155,191-195`. -/
def trackerRead : Prog := .rlocked Locks.trackerMu (reads .joined)

/-- `UsersJoinedRoom`, `UserLeftRoom`, `UsersInvitedToRoom`, `ReloadMembershipsForRoom`, `sync3/tracker.go:79-138,178-188,199-232`. -/
def trackerWrite : Prog := .locked Locks.trackerMu (touch .joined)

/-- `JoinedUsersForRoom`, `sync3/tracker.go:159-176`: the filter is called with the lock held. -/
def joinedUsersForRoom (filter : Prog) : Prog := .rlocked Locks.trackerMu (.star (.alt (.read .joined) filter))

/-! ### The global cache, `sync3/caches/global.go` -/

/-- `LoadRooms`, `LoadRoomsFromMap`, `sync3/caches/global.go:96-140`. -/
def loadRooms : Prog := .rlocked Locks.globalsMu (reads .rooms)

/-- `OnEphemeralEvent`, `OnNewEvent`, `OnInvalidateRoom`, `sync3/caches/global.go:261-275,281-395`. -/
def globalWrite : Prog := .locked Locks.globalsMu (touch .rooms)

/-! ### Connections -/

/-- `Unsubscribe`, `Subscribe`, `sync3/caches/user.go:225-238`. -/
def subscribe (u : Nat) : Prog := .locked (Locks.listenersMu u) (touch (.listeners u))

/-- `ConnState.Destroy`, `sync3/handler/connstate.go:725-731`. Which user cache is left open. -/
def destroy (i : Nat) : Prog := (.any subscribe) ;; .read (.cancelLatest i) ;; (Prog.read (.cancelLatest i)).opt

/-- `onUpdate`, `sync3/handler/connstate_live.go:32-46`. -/
def onUpdate (i : Nat) : Prog := .read (.bufferFull i) ;; (.write (.bufferFull i) ;; destroy i).opt

/-- `Ingest`, `sync3/handler/txn_id_waiter.go:29-64`. -/
def ingest (i : Nat) : Prog :=
  .alt (onUpdate i) (.locked (Locks.waiterMu i) (.read (.queues i) ;; .alt (onUpdate i) (.read (.queues i) ;; .write (.queues i))))

/-- `PublishUpToNID`, `sync3/handler/txn_id_waiter.go:66-94`. -/
def publishUpTo (i : Nat) : Prog :=
  .locked (Locks.waiterMu i) (.read (.queues i) ;; (.write (.queues i) ;; .star (onUpdate i)).opt)

/-! ### User caches, `sync3/caches/user.go` -/

/-- `LoadRoomData`, `LoadRooms`, `sync3/caches/user.go:348-371`. -/
def loadRoomData (u : Nat) : Prog := .rlocked (Locks.roomDataMu u) (reads (.roomData u))

/-- What is between `roomToDataMu.Lock()` and `Unlock()`, `sync3/caches/user.go:308-315,418-428,559-561,578-580,609-611,633-635,657-659,
717-730,759-769`. -/
def storeRoomData (u : Nat) : Prog := .locked (Locks.roomDataMu u) (touch (.roomData u))

/-- `newRoomUpdate`, `sync3/caches/user.go:397-415`. -/
def newRoomUpdate (u : Nat) : Prog := loadRoomData u ;; loadRooms

/-- `emitOnRoomUpdate`, `emitOnUpdate`, `sync3/caches/user.go:522-544`. -/
def emit (u : Nat) : Prog := .rlocked (Locks.listenersMu u) (reads (.listeners u)) ;; .star (.any ingest)

/-- `OnUnreadCounts`, `OnEphemeralEvent`, `OnReceipt`, `OnInvite`, `OnLeftRoom`, `sync3/caches/user.go:499-520,546-569,621-695`. -/
def cacheUpdate (u : Nat) : Prog := (loadRoomData u ;; storeRoomData u).opt ;; (newRoomUpdate u).opt ;; emit u

/-- `OnSpaceUpdate`, `sync3/caches/user.go:571-591`: the map is changed between two critical sections. -/
def cacheSpace (u : Nat) : Prog :=
  .any fun r => loadRoomData u ;; .write (.spaces u r) ;; storeRoomData u ;; trackerRead ;; (newRoomUpdate u ;; emit u).opt

/-- `OnNewEvent`, `sync3/caches/user.go:593-619`. -/
def cacheEvent (u : Nat) : Prog := loadRoomData u ;; (cacheSpace u).opt ;; storeRoomData u ;; newRoomUpdate u ;; emit u

/-- `OnAccountData`, `sync3/caches/user.go:697-787`. -/
def cacheAccount (u : Nat) : Prog :=
  .star (.alt (storeRoomData u) (.locked (Locks.ignoredMu u) (.write (.ignored u)))) ;; .star (.alt (emit u) (newRoomUpdate u ;; emit u))

/-- `OnRegistered`, `sync3/caches/user.go:246-318`. -/
def cacheRegistered (u : Nat) : Prog := loadRooms ;; .star (.alt (cacheSpace u) (storeRoomData u))

/-! ### The dispatcher, `sync3/dispatcher.go` -/

/-- `ReceiverForUser`, `sync3/dispatcher.go:92-96`. -/
def receiverForUser : Prog := .rlocked Locks.receiversMu (.read .receivers)

/-- `Unregister`, `UnregisterBulk`, `sync3/dispatcher.go:58-80`. -/
def unregister : Prog := .locked Locks.receiversMu (touch .receivers)

/-- `Register`, `sync3/dispatcher.go:82-90`. -/
def register (u : Nat) : Prog := .locked Locks.receiversMu (touch .receivers ;; cacheRegistered u)

/-- `OnNewInitialRoomState`, `OnNewEvent`, `OnEphemeralEvent`, `OnReceipt`, `notifyListeners`, `sync3/dispatcher.go:120-294`: any of their
pieces in any order. -/
def dispatch : Prog :=
  .star <|
    .alt trackerRead <| .alt trackerWrite <| .alt (joinedUsersForRoom receiverForUser) <|
    .rlocked Locks.receiversMu (.star (.alt (.read .receivers) <| .alt globalWrite <| .any fun u => .alt (cacheEvent u) (cacheUpdate u)))

/-! ### The connection map, `sync3/connmap.go` -/

/-- `closeConn`, `sync3/connmap.go:224-247`. -/
def closeConn (i : Nat) : Prog := touch .conns ;; destroy i

/-- `getConn`, `sync3/connmap.go:119-135`, with `Alive`, `sync3/handler/connstate.go:733-735`. The cache of connections is a library's. -/
def getConn (i : Nat) : Prog := .read (.bufferFull i) ;; (closeConn i).opt

/-- `Conn`, `sync3/connmap.go:111-115`. -/
def conn (i : Nat) : Prog := .locked Locks.connMapMu (getConn i)

/-- `CreateConn`, `sync3/connmap.go:138-163`: of an earlier connection `j` with the same id, `lastPos` is read; the new one is not shared yet
when `SetCancelCallback` is called; `NewConnState` subscribes, `sync3/handler/connstate.go:94`. -/
def createConn (u j : Nat) : Prog :=
  .locked Locks.connMapMu ((getConn j ;; (.read (.lastPos j) ;; closeConn j).opt).opt ;; subscribe u ;; touch .conns)

/-- `UpdateMetrics`, `connIDsForDevice`, `CloseConnsForUsers`, `sync3/connmap.go:82-88,178-210`. -/
def connMapRead : Prog := .locked Locks.connMapMu (reads .conns)

/-- `closeConnExpires`, `sync3/connmap.go:212-222`. -/
def connExpires : Prog := .any fun i => .locked Locks.connMapMu (closeConn i)

/-- `ClearUpdateQueues`, `sync3/connmap.go:249-256`. -/
def clearUpdateQueues : Prog := .locked Locks.connMapMu (.star (.alt (.read .conns) (.any publishUpTo)))

/-! ### Messages of the pollers, `sync3/handler/handler.go:643-877` -/

/-- `OnInitialSyncComplete`, `OnExpiredToken`, `EnsurePolling`, `sync3/handler/ensure_polling.go:63-182,194-206`. -/
def ensure : Prog := .locked Locks.ensureMu (touch .pendingPolls)

/-- `getChan`, `pubsub/pubsub.go:67-76`. -/
def getChan : Prog := .locked Locks.pubsubMu (touch .chans)

/-- One message: `sync3/handler/handler.go:643-877`. -/
def message : Prog :=
  .alt ensure <| .alt dispatch <| .alt clearUpdateQueues <| .alt connMapRead <|
  .alt (.any fun u => .alt (cacheUpdate u) (cacheAccount u)) <|
  .alt (.star (connMapRead ;; .any fun i => conn i ;; ingest i)) <|
  .alt globalWrite <| .alt loadRooms <| .alt trackerWrite unregister

/-- The goroutine of `Listen`, `sync3/handler/handler.go:119-129`, `pubsub/pubsub.go:109-118`. -/
def listener : Prog := getChan ;; .star message

/-! ### Requests, `sync3/handler/handler.go:186-588` -/

/-- What is done to the new cache of a user, before and after it is stored, `sync3/handler/handler.go:525-588`. -/
def userCache (u : Nat) : Prog := .star (.alt (cacheUpdate u) (cacheAccount u)) ;; (register u ;; unregister.opt).opt

/-- `setupConnection`, `sync3/handler/handler.go:347-461`: an existing connection gets a new callback. -/
def setupConnection (u i : Nat) : Prog :=
  .alt (conn i ;; (Prog.write (.cancelLatest i)).opt)
    (.star (.alt ensure getChan) ;; (userCache u).opt ;; createConn u i ;; connMapRead)

/-- What `ConnState.OnIncomingRequest`, `sync3/handler/connstate.go:174-265`, and the extensions do: any of these, in any order.  Filters
look into the spaces of rooms, `sync3/request.go:556-562`. -/
def connState (u i : Nat) : Prog :=
  .star <|
    .alt (touch (.conn i)) <| .alt (.any fun r => .read (.spaces u r)) <|
    .alt trackerRead <| .alt loadRooms <| .alt (loadRoomData u) <| .alt (storeRoomData u) <|
    .alt (.rlocked (Locks.ignoredMu u) (.read (.ignored u))) (.locked Locks.toDeviceMu (touch .debugSince))

/-- `OnIncomingRequest`, `sync3/conn.go:137-250`. -/
def connRequest (u i : Nat) : Prog :=
  .locked (Locks.cancelMu i) (reads (.cancelOutstanding i)) ;;
  .locked (Locks.connMu i) (.locked (Locks.cancelMu i) (.write (.cancelOutstanding i)) ;; connState u i ;;
    (Prog.read (.lastPos i) ;; .write (.lastPos i)).opt)

/-- `serve`, `sync3/handler/handler.go:210-343`. -/
def serve (u i : Nat) : Prog := setupConnection u i ;; (connRequest u i).opt

/-! ### The pollers -/

/-- `EnsurePolling`, `ExpirePollers`, `NumPollers`, `DeviceIDs`, `sync2/poller.go:200-316`. -/
def pollerMap : Prog := .locked Locks.pollersMu (touch .pollers)

/-- `MissingTxnID`, `SeenTxnID`, `sync2/txnid.go:59-109`; the loader is `DeviceIDs`. -/
def pendingTxn : Prog := .locked Locks.pendingMu (touch .pendingTxns ;; pollerMap.opt ;; touch .pendingTxns)

/-- `OnTerminated`, `SetTyping`, `OnLeftRoom`, `sync2/handler2/handler.go:186-196,396-416,541-562`. -/
def typing : Prog := .locked Locks.typingMu (touch .typing ;; .star (.alt pollerMap getChan))

/-- The callbacks that the executor runs, `sync2/poller.go:318-415`, `sync2/handler2/handler.go:260-562`; `UpdateUnreadCounts` is
`sync2/handler2/handler.go:446-479`. -/
def executor : Prog := .star (.alt (touch .unread) <| .alt pendingTxn <| .alt typing getChan)

/-- The other goroutines: a request, delayed events (`sync3/handler/txn_id_waiter.go:63`), an expired connection, and those that poll or start
pollers, `sync2/handler2/handler.go:94-184,186-258,564-633`. -/
def worker : Prog :=
  .alt (.any fun u => .any fun i => serve u i) <| .alt (.any publishUpTo) <| .alt connExpires <|
  .star (.alt pollerMap <| .alt typing getChan)

def code : Role → Prog
  | .listener => listener
  | .executor => executor
  | .worker => worker

/-- A goroutine of the proxy that has not begun. -/
def IsCode (t : Thread) : Prop := t.held = [] ∧ Trace (code t.role) t.rest

end Verif.Races
