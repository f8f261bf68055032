/-
The locks of the proxy, and which goroutine takes which of them while holding which others.

Modelled: every mutex of the code (`/repo/pubsub/pubsub.go`, `/repo/sync2/poller.go`, `/repo/sync2/txnid.go`,
`/repo/sync2/handler2/handler.go`, `/repo/sync3/conn.go`, `/repo/sync3/connmap.go`, `/repo/sync3/dispatcher.go`,
`/repo/sync3/tracker.go`, `/repo/sync3/caches/*.go`, `/repo/sync3/handler/*.go`, `/repo/sync3/extensions/todevice.go`)
with the rules of Go's `sync.RWMutex`, the limit on database connections (`/repo/v3.go` 107-113), and for each function
that takes a lock the shape of its lock operations: what is taken, in which order, and what is called in between.
A function is a program whose branches and loops are arbitrary choices, so that every run of the Go function has one
of the traces of its program.

Not modelled: what the functions compute. The locks inside libraries (`ttlcache`, `sync.Map`, `context`, the
Prometheus client) and inside PostgreSQL. `ttlcache` runs its expiry callback in a goroutine of its own; this is an
assumption about that library. `Notify` with an unbuffered channel (`/repo/pubsub/pubsub.go` 86-92) is used by tests
only. `Teardown` and `Terminate` are used by tests only. `Startup` (`/repo/sync3/tracker.go` 35,
`/repo/sync3/caches/global.go` 232) runs before any of the goroutines. Panics: a panic between `Lock` and a deferred `Unlock`
releases the lock; a panic between `Lock` and an `Unlock` that is not deferred is not modelled.
-/

namespace Verif.Locks

/-- The mutexes of the code, one constructor for each field or variable that holds one. -/
inductive Kind where
  /-- `ConnMap.mu`, `/repo/sync3/connmap.go` 37. -/
  | connMap
  /-- `Conn.mu`, one per connection, `/repo/sync3/conn.go` 63. -/
  | conn
  /-- `Conn.cancelOutstandingRequestMu`, one per connection, `/repo/sync3/conn.go` 65. -/
  | cancel
  /-- `TxnIDWaiter.mu`, one per connection, `/repo/sync3/handler/txn_id_waiter.go` 46. -/
  | waiter
  /-- `Dispatcher.userToReceiverMu`, `/repo/sync3/dispatcher.go` 59. -/
  | receivers
  /-- `JoinedRoomsTracker.mu`, `/repo/sync3/tracker.go` 21. -/
  | tracker
  /-- `UserCache.roomToDataMu`, one per user cache, `/repo/sync3/caches/user.go` 308. -/
  | roomData
  /-- `UserCache.listenersMu`, one per user cache, `/repo/sync3/caches/user.go` 226. -/
  | listeners
  /-- `UserCache.ignoredUsersMu`, one per user cache, `/repo/sync3/caches/user.go` 753. -/
  | ignored
  /-- `GlobalCache.roomIDToMetadataMu`, `/repo/sync3/caches/global.go` 97. -/
  | globals
  /-- `EnsurePoller.mu`, `/repo/sync3/handler/ensure_polling.go` 66. -/
  | ensure
  /-- `PubSub.mu`, `/repo/pubsub/pubsub.go` 68. -/
  | pubsub
  /-- `mapMu`, `/repo/sync3/extensions/todevice.go` 69. -/
  | toDevice
  /-- `PollerMap.pollerMu`, `/repo/sync2/poller.go` 177. -/
  | pollers
  /-- `PendingTransactionIDs.mu`, `/repo/sync2/txnid.go` 78. -/
  | pending
  /-- `Handler.typingMu`, `/repo/sync2/handler2/handler.go` 188. -/
  | typing
deriving DecidableEq, Repr

/-- One mutex: its kind and which connection or user cache it belongs to. Mutexes of which there is one only have
number 0. -/
structure Lock where
  kind : Kind
  num : Nat
deriving DecidableEq, Repr

/-- One operation of a goroutine. `Lock` is split in two as in Go's `RWMutex`: `claim` keeps out other writers and all
new readers, `enter` waits for the readers that are still inside. A plain `Mutex` has no readers. `take` and `give`
fetch a database connection from the pool and hand it back (`/repo/v3.go` 107-113). `work` is anything that ends by
itself: computing, a query, a wait with a time limit such as the one of `/repo/sync3/handler/connstate_live.go` 36-38
or of `/repo/pubsub/pubsub.go` 81-85. `wait` is a wait without time limit for something other than a lock, such as
the ones of `/repo/sync3/handler/ensure_polling.go` 96, 120 and `/repo/sync2/poller.go` 482. -/
inductive Act where
  | claim (l : Lock)
  | enter (l : Lock)
  | unlock (l : Lock)
  | rlock (l : Lock)
  | runlock (l : Lock)
  | take
  | give
  | work
  | wait
deriving DecidableEq, Repr

/-- What a goroutine has: a mutex claimed or held for writing, a mutex held for reading, a database connection. -/
inductive Hold where
  | w (l : Lock)
  | r (l : Lock)
  | db
deriving DecidableEq, Repr

/-- A goroutine: what it holds and what it still does. `listener` marks the goroutine that handles the messages of the
pollers (`/repo/sync3/handler/handler.go` 119-129); `Listen` is called once (`/repo/v3.go` 160). -/
structure Thread where
  listener : Bool
  held : List Hold
  rest : List Act
deriving DecidableEq, Repr

/-- Does somebody who has `h` keep others from doing `a`? A claimed mutex keeps out writers and readers; a mutex held
for reading keeps the writer that claimed it from entering. -/
def blocks (h : Hold) (a : Act) : Bool :=
  match a, h with
  | .claim l, .w l' => l == l'
  | .rlock l, .w l' => l == l'
  | .enter l, .r l' => l == l'
  | _, _ => false

/-- What the goroutine holds after the operation. -/
def after (a : Act) (held : List Hold) : List Hold :=
  match a with
  | .claim l => .w l :: held
  | .enter _ => held
  | .unlock l => held.erase (.w l)
  | .rlock l => .r l :: held
  | .runlock l => held.erase (.r l)
  | .take => .db :: held
  | .give => held.erase .db
  | .work => held
  | .wait => held

/-- How many database connections are in use. -/
def used (s : List Thread) : Nat :=
  (s.map (fun t => t.held.count .db)).sum

/-- May the operation be done now? `pool` is `Opts.DBMaxConns`; `none` is the default 0, which sets no limit
(`/repo/v3.go` 107, `/repo/cmd/syncv3/main.go` 115). -/
def free (pool : Option Nat) (s : List Thread) (a : Act) : Bool :=
  (s.all fun t => t.held.all fun h => !blocks h a) &&
  match a, pool with
  | .take, some n => used s < n
  | _, _ => true

/-- Goroutine `i` does its next operation. -/
def step (pool : Option Nat) (s : List Thread) (i : Nat) : Option (List Thread) :=
  match s[i]? with
  | none => none
  | some t =>
    match t.rest with
    | [] => none
    | a :: r => if free pool s a then some (s.set i { t with held := after a t.held, rest := r }) else none

/-- The operations of the goroutines named in the list, one after the other. -/
def run (pool : Option Nat) (s : List Thread) : List Nat → Option (List Thread)
  | [] => some s
  | i :: is => (step pool s i).bind fun s' => run pool s' is

/-- The shape of a Go function: `locked l p` is `l.Lock(); p; l.Unlock()`, `rlocked l p` the same with `RLock`,
`query p` is a query or a transaction with `p` done while its connection is in use. `alt` and `star` are a branch and
a loop, `any` is a choice of one of infinitely many, for example of a connection. -/
inductive Prog where
  | skip
  | work
  | wait
  | locked (l : Lock) (p : Prog)
  | rlocked (l : Lock) (p : Prog)
  | query (p : Prog)
  | seq (p q : Prog)
  | alt (p q : Prog)
  | star (p : Prog)
  | any (f : Nat → Prog)

/-- The sequences of operations a program can do. -/
inductive Trace : Prog → List Act → Prop where
  | skip : Trace .skip []
  | work : Trace .work [.work]
  | wait : Trace .wait [.wait]
  | locked : Trace p t → Trace (.locked l p) (.claim l :: .enter l :: (t ++ [.unlock l]))
  | rlocked : Trace p t → Trace (.rlocked l p) (.rlock l :: (t ++ [.runlock l]))
  | query : Trace p t → Trace (.query p) (.take :: (t ++ [.give]))
  | seq : Trace p t → Trace q u → Trace (.seq p q) (t ++ u)
  | left : Trace p t → Trace (.alt p q) t
  | right : Trace q t → Trace (.alt p q) t
  | stop : Trace (.star p) []
  | again : Trace p t → Trace (.star p) u → Trace (.star p) (t ++ u)
  | any (n : Nat) : Trace (f n) t → Trace (.any f) t

infixr:60 " ;; " => Prog.seq

/-- A piece of code that may be skipped. -/
def Prog.opt (p : Prog) : Prog := .alt p .skip

/-- A query, or a transaction, that does nothing else. Inside `sqlutil.WithTransaction` the code uses the transaction,
not the pool (`/repo/sqlutil/sql.go` 22-52). -/
def db : Prog := .query .work

def connMapMu : Lock := ⟨.connMap, 0⟩
def receiversMu : Lock := ⟨.receivers, 0⟩
def trackerMu : Lock := ⟨.tracker, 0⟩
def globalsMu : Lock := ⟨.globals, 0⟩
def ensureMu : Lock := ⟨.ensure, 0⟩
def pubsubMu : Lock := ⟨.pubsub, 0⟩
def toDeviceMu : Lock := ⟨.toDevice, 0⟩
def pollersMu : Lock := ⟨.pollers, 0⟩
def pendingMu : Lock := ⟨.pending, 0⟩
def typingMu : Lock := ⟨.typing, 0⟩
def connMu (i : Nat) : Lock := ⟨.conn, i⟩
def cancelMu (i : Nat) : Lock := ⟨.cancel, i⟩
def waiterMu (i : Nat) : Lock := ⟨.waiter, i⟩
def roomDataMu (u : Nat) : Lock := ⟨.roomData, u⟩
def listenersMu (u : Nat) : Lock := ⟨.listeners, u⟩
def ignoredMu (u : Nat) : Lock := ⟨.ignored, u⟩

/-! ### The tracker, `/repo/sync3/tracker.go` -/

/-- `IsUserJoined`, `JoinedRoomsForUser`, `NumInvitedUsersForRoom`, `/repo/sync3/tracker.go` 56-66, 140-155, 191-195. -/
def trackerRead : Prog := .rlocked trackerMu .work

/-- `UsersJoinedRoom`, `UserLeftRoom`, `UsersInvitedToRoom`, `ReloadMembershipsForRoom`,
`/repo/sync3/tracker.go` 79-115, 120-138, 178-188, 199-232. -/
def trackerWrite : Prog := .locked trackerMu .work

/-- `JoinedUsersForRoom`, `/repo/sync3/tracker.go` 159-176: the filter is called with the lock held. -/
def joinedUsersForRoom (filter : Prog) : Prog := .rlocked trackerMu (.star filter)

/-! ### The global cache, `/repo/sync3/caches/global.go` -/

/-- `LoadRooms`, `LoadRoomsFromMap`, `/repo/sync3/caches/global.go` 96-119. -/
def globalLoadRooms : Prog := .rlocked globalsMu .work

/-- `LoadJoinedRooms`, `/repo/sync3/caches/global.go` 142-172: three queries, then the metadata. -/
def loadJoinedRooms : Prog := db ;; db.opt ;; db.opt ;; globalLoadRooms.opt

/-- `OnNewEvent`, `OnEphemeralEvent`, `/repo/sync3/caches/global.go` 261-274, 281-378. -/
def globalWrite : Prog := .locked globalsMu .work

/-- `OnInvalidateRoom`, `/repo/sync3/caches/global.go` 380-395: queries the database with the lock held. -/
def globalInvalidate : Prog := .locked globalsMu db.opt

/-! ### Connections, `/repo/sync3/handler/connstate.go`, `/repo/sync3/handler/connstate_live.go`,
`/repo/sync3/handler/txn_id_waiter.go` -/

/-- `ConnState.Destroy`, `/repo/sync3/handler/connstate.go` 725-731: `Unsubscribe` (`/repo/sync3/caches/user.go`
234-238). Which user cache is left open. -/
def destroy : Prog := .any fun u => .locked (listenersMu u) .work

/-- `connStateLive.onUpdate`, `/repo/sync3/handler/connstate_live.go` 32-46: sends, or gives up after a while and
destroys the connection. -/
def onUpdate : Prog := .work ;; destroy.opt

/-- `TxnIDWaiter.Ingest`, `/repo/sync3/handler/txn_id_waiter.go` 29-63. -/
def ingest (i : Nat) : Prog := .alt onUpdate (.locked (waiterMu i) onUpdate.opt)

/-- `TxnIDWaiter.PublishUpToNID`, `/repo/sync3/handler/txn_id_waiter.go` 66-95. -/
def publishUpTo (i : Nat) : Prog := .locked (waiterMu i) (.star onUpdate)

/-! ### User caches, `/repo/sync3/caches/user.go` -/

/-- `LoadRoomData`, `LoadRooms`, `/repo/sync3/caches/user.go` 348-371. -/
def loadRoomData (u : Nat) : Prog := .rlocked (roomDataMu u) .work

/-- The pieces of code between `roomToDataMu.Lock()` and `roomToDataMu.Unlock()`, `/repo/sync3/caches/user.go`
308-315, 418-428, 559-561, 578-580, 609-611, 633-635, 657-659, 717-731, 759-769. -/
def storeRoomData (u : Nat) : Prog := .locked (roomDataMu u) .work

/-- `newRoomUpdate`, `/repo/sync3/caches/user.go` 397-415. -/
def newRoomUpdate (u : Nat) : Prog := loadRoomData u ;; globalLoadRooms

/-- `emitOnRoomUpdate`, `emitOnUpdate`, `/repo/sync3/caches/user.go` 522-544: the listeners are copied under the lock
and called after it was released. `OnRoomUpdate` and `OnUpdate` are in `/repo/sync3/handler/connstate.go` 741-765. -/
def emit (u : Nat) : Prog := .rlocked (listenersMu u) .work ;; .star (.any fun i => (ingest i).opt)

/-- `OnUnreadCounts`, `/repo/sync3/caches/user.go` 546-569. -/
def cacheUnread (u : Nat) : Prog := loadRoomData u ;; storeRoomData u ;; newRoomUpdate u ;; emit u

/-- `OnSpaceUpdate`, `/repo/sync3/caches/user.go` 571-591. -/
def cacheSpace (u : Nat) : Prog :=
  loadRoomData u ;; storeRoomData u ;; trackerRead ;; (newRoomUpdate u ;; emit u).opt

/-- `OnNewEvent`, `/repo/sync3/caches/user.go` 593-619. -/
def cacheEvent (u : Nat) : Prog :=
  loadRoomData u ;; (cacheSpace u).opt ;; storeRoomData u ;; newRoomUpdate u ;; emit u

/-- `OnEphemeralEvent`, `OnReceipt`, `/repo/sync3/caches/user.go` 499-520. -/
def cacheEphemeral (u : Nat) : Prog := (newRoomUpdate u ;; emit u).opt

/-- `OnInvite`, `OnLeftRoom`, `/repo/sync3/caches/user.go` 621-695. -/
def cacheInvite (u : Nat) : Prog := (loadRoomData u ;; storeRoomData u ;; emit u).opt

/-- `OnAccountData`, `/repo/sync3/caches/user.go` 697-787. -/
def cacheAccount (u : Nat) : Prog :=
  .star (.alt (storeRoomData u) (.locked (ignoredMu u) .work)) ;; (storeRoomData u).opt ;;
  .star (.alt (emit u) (newRoomUpdate u ;; emit u))

/-- `OnRegistered`, `/repo/sync3/caches/user.go` 246-318. -/
def cacheRegistered (u : Nat) : Prog :=
  loadJoinedRooms ;; .star (.star (cacheSpace u) ;; storeRoomData u)

/-! ### The dispatcher, `/repo/sync3/dispatcher.go` -/

/-- `ReceiverForUser`, `/repo/sync3/dispatcher.go` 92-96. -/
def receiverForUser : Prog := .rlocked receiversMu .work

/-- `Unregister`, `UnregisterBulk`, `/repo/sync3/dispatcher.go` 58-80. -/
def unregister : Prog := .locked receiversMu .work

/-- `Register`, `/repo/sync3/dispatcher.go` 82-90: `OnRegistered` is called with the lock held. -/
def register (u : Nat) : Prog := .locked receiversMu (cacheRegistered u)

/-- Who is in the room and has a user cache, `/repo/sync3/dispatcher.go` 155-160, 200-205, 216-221, 243-248. -/
def roomReceivers : Prog := joinedUsersForRoom receiverForUser

/-- `notifyListeners`, `/repo/sync3/dispatcher.go` 267-294. -/
def notifyListeners : Prog := .rlocked receiversMu (globalWrite ;; .star (.any cacheEvent))

/-- `OnNewEvent`, `/repo/sync3/dispatcher.go` 170-214. -/
def dispatchEvent : Prog := (trackerWrite.opt ;; trackerRead).opt ;; roomReceivers ;; notifyListeners

/-- `OnNewInitialRoomState`, `/repo/sync3/dispatcher.go` 120-168. -/
def dispatchInitial : Prog :=
  joinedUsersForRoom .skip ;;
  .alt (.star dispatchEvent)
    (trackerWrite ;; trackerWrite ;; trackerRead ;; roomReceivers ;; .star notifyListeners)

/-- `OnEphemeralEvent`, `OnReceipt`, `/repo/sync3/dispatcher.go` 215-265. -/
def dispatchEphemeral : Prog :=
  roomReceivers ;; .rlocked receiversMu (globalWrite.opt ;; .star (.any cacheEphemeral))

/-! ### The connection map, `/repo/sync3/connmap.go` -/

/-- `Conn`, `getConn`, `/repo/sync3/connmap.go` 111-135: closes the connection if its buffer was full. -/
def getConn : Prog := .locked connMapMu destroy.opt

/-- `CreateConn`, `/repo/sync3/connmap.go` 138-163; `NewConnState` subscribes to the user cache
(`/repo/sync3/handler/connstate.go` 94). -/
def createConn (u : Nat) : Prog :=
  .locked connMapMu (destroy.opt ;; destroy.opt ;; .locked (listenersMu u) .work)

/-- `UpdateMetrics`, `connIDsForDevice`, `CloseConnsForUsers`, `/repo/sync3/connmap.go` 82-86, 178-188, 192-210. The
connections are removed from the `ttlcache`, which closes them in `connExpires`. -/
def connMapTouch : Prog := .locked connMapMu .work

/-- `closeConnExpires`, `/repo/sync3/connmap.go` 212-221. -/
def connExpires : Prog := .locked connMapMu destroy

/-- `ClearUpdateQueues`, `/repo/sync3/connmap.go` 249-256. -/
def clearUpdateQueues : Prog := .locked connMapMu (.star (.any publishUpTo))

/-! ### The messages of the pollers, `/repo/sync3/handler/handler.go` 643-877 -/

/-- `OnDeviceData`, `OnDeviceMessages`, `/repo/sync3/handler/handler.go` 705-729. -/
def onDeviceUpdate : Prog := .star (connMapTouch ;; .star (getConn ;; .star (.any ingest)))

/-- `OnExpiredToken`, `/repo/sync3/handler/handler.go` 816-819. -/
def onExpiredToken : Prog := .locked ensureMu .work ;; connMapTouch

/-- `OnInvalidateRoom`, `/repo/sync3/handler/handler.go` 829-877. -/
def onInvalidateRoom : Prog :=
  globalInvalidate ;; db ;; (trackerWrite ;; unregister ;; connMapTouch).opt

/-- One message of the pollers: `OnInitialSyncComplete`, `Accumulate`, `OnTransactionID`, `Initialise`,
`OnUnreadCounts`, `OnDeviceData`, `OnDeviceMessages`, `OnInvite`, `OnLeftRoom`, `OnReceipt`, `OnTyping`,
`OnAccountData`, `OnExpiredToken`, `OnStateRedaction`, `OnInvalidateRoom`,
`/repo/sync3/handler/handler.go` 643-877. -/
def message : Prog :=
  .alt (.locked ensureMu .work) <|
  .alt (db ;; .star dispatchEvent) <|
  .alt clearUpdateQueues <|
  .alt (db ;; dispatchInitial.opt) <|
  .alt (.any cacheUnread) <|
  .alt onDeviceUpdate <|
  .alt (db.opt ;; .any cacheInvite) <|
  .alt (.star (.any cacheEphemeral) ;; .star dispatchEphemeral) <|
  .alt (globalLoadRooms ;; dispatchEphemeral.opt) <|
  .alt (db ;; Prog.opt (.any cacheAccount)) <|
  .alt onExpiredToken <|
  .alt globalInvalidate onInvalidateRoom

/-- The goroutine started by `Listen`, `/repo/sync3/handler/handler.go` 119-129: it waits for a message, handles it and
begins again (`/repo/pubsub/pubsub.go` 111-120). -/
def listener : Prog := .star (.wait ;; .locked pubsubMu .work ;; message)

/-! ### Requests, `/repo/sync3/handler/handler.go` 186-588, `/repo/sync3/conn.go` 137-250 -/

/-- `Notify`, `/repo/pubsub/pubsub.go` 79-94, with a buffered channel. -/
def notify : Prog := .locked pubsubMu .work ;; .work

/-- `EnsurePoller.EnsurePolling`, `/repo/sync3/handler/ensure_polling.go` 63-128: the waits are done without lock. -/
def ensurePolling : Prog := .locked ensureMu .work ;; (notify.opt ;; .wait ;; .locked ensureMu .work).opt

/-- `userCache`, `/repo/sync3/handler/handler.go` 516-588. The unread counts are put in the cache while the rows are
being read, so with the database connection in use (`/repo/state/unread_table.go` 26-45). -/
def userCache (u : Nat) : Prog :=
  .query (.star (cacheUnread u)) ;; db ;; (cacheAccount u).opt ;; db ;; (cacheAccount u).opt ;; db ;;
  (cacheAccount u).opt ;; db ;; .star (cacheInvite u) ;; (register u ;; unregister.opt).opt

/-- `setupConnection`, `/repo/sync3/handler/handler.go` 347-461. -/
def setupConnection (u : Nat) : Prog :=
  db ;; db.opt ;; db.opt ;;
  .alt getConn (ensurePolling ;; (userCache u ;; createConn u ;; connMapTouch).opt)

/-- What `ConnState.OnIncomingRequest` (`/repo/sync3/handler/connstate.go` 174-265) and the extensions
(`/repo/sync3/extensions`) do with locks: any number of the operations below in any order. They are `IsUserJoined`
(409, 448, 491), `LoadJoinedRooms` (110), `LoadRooms` (566; `typing.go` 75), `LoadRoomData`, `LoadRooms` of the user
cache (121, 567), `Invites` (152), `ShouldIgnore` (`/repo/sync3/caches/user.go` 789-794), queries, the lock of
`todevice.go` 69 and 131, and waiting for updates until the time given by the client is over
(`/repo/sync3/handler/connstate_live.go` 64-93). -/
def connState (u : Nat) : Prog :=
  .star <|
    .alt trackerRead <| .alt loadJoinedRooms <| .alt globalLoadRooms <| .alt (loadRoomData u) <|
    .alt (storeRoomData u) <| .alt (.rlocked (ignoredMu u) .work) <| .alt db <|
    .alt (.locked toDeviceMu .work) .work

/-- `Conn.OnIncomingRequest`, `/repo/sync3/conn.go` 137-250: the handler is called with the lock of the connection
held. -/
def connRequest (u i : Nat) : Prog :=
  .locked (cancelMu i) .work ;; .locked (connMu i) (.locked (cancelMu i) .work ;; connState u)

/-- `serve`, `/repo/sync3/handler/handler.go` 210-343. -/
def serve (u i : Nat) : Prog := setupConnection u ;; (connRequest u i).opt

/-! ### The pollers, `/repo/sync2/poller.go`, `/repo/sync2/handler2/handler.go` -/

/-- `MissingTxnID`, `SeenTxnID`, `/repo/sync2/txnid.go` 62-109; the loader is `PollerMap.DeviceIDs`
(`/repo/sync2/handler2/handler.go` 76, `/repo/sync2/poller.go` 213-223). -/
def pendingTxn : Prog := .locked pendingMu (Prog.opt (.locked pollersMu .work))

/-- `OnTerminated`, `/repo/sync2/handler2/handler.go` 186-196: `updateMetrics` counts the pollers with the lock
held (`/repo/sync2/poller.go` 200-209). -/
def onTerminated : Prog := .locked typingMu (Prog.opt (.locked pollersMu .work))

/-- `SetTyping`, `OnLeftRoom`, `/repo/sync2/handler2/handler.go` 396-416, 541-562: the message is sent with the lock
held. -/
def setTyping : Prog := db.opt ;; .locked typingMu notify.opt

/-- The other callbacks of the pollers, `/repo/sync2/handler2/handler.go` 198-539: queries and messages. -/
def callback : Prog := .star (.alt db <| .alt notify <| .alt pendingTxn setTyping)

/-- `PollerMap.EnsurePolling`, `ExpirePollers`, `/repo/sync2/poller.go` 225-312, with what the callers do before and
after (`/repo/sync2/handler2/handler.go` 118-177, 564-596, 613-633). -/
def pollerMap : Prog :=
  db ;; .locked pollersMu .work ;; Prog.opt .wait ;; .star (db ;; notify) ;; Prog.opt (.locked pollersMu .work) ;;
  notify.opt

/-- The goroutine of a poller and the one of the executor, `/repo/sync2/poller.go` 314-415, 499-545: callbacks, and
waits for the executor or for work, with no lock held. -/
def poller : Prog := .star (.alt callback .wait) ;; onTerminated.opt

/-- What the goroutines other than the listener do: serve a request, publish delayed events (started by
`/repo/sync3/handler/txn_id_waiter.go` 62), close an expired connection, look after pollers, poll. -/
def worker : Prog :=
  .alt (.any fun u => .any fun i => serve u i) <|
  .alt (.any publishUpTo) <|
  .alt connExpires <|
  .alt pollerMap poller

/-- A goroutine of the proxy that has not begun. Goroutines that are started later are there from the start and have not
done anything yet. -/
def IsCode (t : Thread) : Prop :=
  t.held = [] ∧ Trace (if t.listener then listener else worker) t.rest

/-- The goroutine `i` waits for the goroutine `j`: its next operation is kept from being done by something `j` has. -/
def Waits (s : List Thread) (i j : Nat) : Prop :=
  ∃ t t' a r h, s[i]? = some t ∧ s[j]? = some t' ∧ t.rest = a :: r ∧ h ∈ t'.held ∧ blocks h a = true

/-- A goroutine that is done, or waits for something other than a lock while it holds nothing. -/
def Idle (t : Thread) : Prop :=
  t.held = [] ∧ (t.rest = [] ∨ ∃ r, t.rest = .wait :: r)

end Verif.Locks
