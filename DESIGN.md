# Design

Target: the Go source of a sliding-sync proxy in /repo (read only, treated as text; it was neither built nor run).
Deliverable: a Lean 4 model (`lean/Verif/*.lean`) with theorems for the properties in `properties.jsonl`; `MANIFEST.json` maps each property to theorem names.

## Method

* One model module per area (`Verif/<Area>.lean`), holding small computable functions transcribed from Go, each with a comment citing file and lines. Property theorems are in `Verif/<Area>Props.lean` (helper lemmas sit between, in the model file or `<Area>Lemmas.lean`).
* Go panics (index out of range, explicit `panic`, nil dereference) are explicit results, not totalised away. Errors are values.
* Maps: association as functions `K → Option V` where only lookup matters, or lists without duplicate keys where iteration matters; where Go map iteration order is observable the theorem is over every order.
* Concurrency: code under one mutex is one atomic step; what can interleave are the steps.
* SQL tables are lists of rows, and each statement is modelled by the function its text denotes under PostgreSQL semantics.
* A property the code violates is recorded by a theorem that proves the negation on a concrete witness (`*_violated`), and the part that holds by a `_partial` theorem (or an exact characterisation).



## Plan per property

The theorems of each property are listed in `MANIFEST.json`; what is missing from a partial one is said in its doc comment.

| id | status | module | what is modelled and how it is proved |
|---|---|---|---|
| C01 Range validation accepts exactly the well-formed disjoint windows | proved | Ranges | `valid : List (Int×Int) → Bool` transcribed; spec = well-formed and pairwise disjoint as sets of integers. Iff by induction on the list. |
| C02 Changing the windows of a list re-syncs exactly the new indices | partial | Ranges | `delta` = short circuit + sweep over points sorted by the Go comparator; panics are an explicit result. Invariant of the sweep. The code drops one-index ranges, so: negation witness + exact characterisation. |
| C03 Windowing a list never goes out of bounds and returns exactly the rooms at the visible indices | proved | Ranges | `sliceInto` with checked slicing (out-of-bounds = panic value). Spec: filter of the enumerated list. |
| C04 Moving a room is translated into one shift per affected window | proved | ListOps | `calculateMoveIndexes`, `closestInDirection`, `jumpedOver`; proved for all valid ranges. |
| C05 Replaying list operations keeps the client's windows equal to the server's list | partial | ListOps | `calculateListOps` on an abstract list interface plus a reference client that replays ops. Relational theorem; the out-of-range read and the `null` op are shown by witnesses and excluded by the weakest hypothesis. |
| C06 A room which becomes visible in a window is sent with its data | partial | ListOps | `subs` output of `calculateListOps`. Fails for deletions (witness); proved for add/move and for deletions outside the failing layout. |
| C07 Sorting a list only permutes it, orders it as requested, and is stable | proved | SortableRooms | Comparators over metadata records; merge sort as the stable sort; permutation, sortedness, stability. |
| C08 Room-to-index lookup always agrees with the list | partial | SortableRooms | State = list + finite map; invariant by induction over operations. |
| C09 A list contains exactly the rooms that match its filter and have not been left | partial | Lists | `setRoom` delta followed by `calculateListOps` list effects; invariant over update histories. |
| C10 Filters mean what the API says | partial | Filters | `include` transcribed with early returns; spec is the conjunction. room_types + spaces disagrees (witness), rest proved. |
| C11 Request parameters are sticky | proved | Request | `applyDelta` over finite maps with optional fields; per-field law and fold over histories. |
| C12 Room subscriptions: last write wins and unsubscribe wins over subscribe | partial | Request | subscription part of `applyDelta`; fold over histories. |
| C13 Combining two subscriptions gives each of them at least what it asked for | partial | Request | `combine` and `requiredStateMap` with `include`; monotonicity. Not monotone with [*,*] (witness), proved otherwise. |
| C14 Required-state selection follows the wildcard rules and never misses loaded state | proved | Request | `requiredStateMap`, `include`, `queryStateMap`; spec over raw tuples. |
| C15 Retrying a request returns the same response and has no further effect | partial | Conn | state machine with arbitrary handler results; invariant + theorem per step. |
| C16 Positions are unique, increasing and never invented by the client | proved | Conn | same machine; invariant: buffer is consecutive positions. |
| C17 No response is skipped | proved | Conn | same machine; least position > p. |
| C18 Failed requests are not committed | partial | Conn | same machine; error branch. |
| C19 Connections are isolated per user, device and connection id | partial | ConnMap | state machine with create/lookup/close/expire; delayed expiry callback is a separate step. Stale expiry is a defect (witness). |
| C20 The two indexes of joined users and joined rooms always agree | proved | Tracker | finite sets as predicates/lists; invariant over op lists. |
| C21 Join status is determined by the last membership event | proved | Tracker | refinement to last-writer-wins. |
| C22 Live events are delivered only to users allowed to see them | partial | Dispatcher | Dispatcher over Tracker emitting deliveries; theorem on every reachable state. |
| C23 Full room data is forced exactly when a user newly joins | proved | Dispatcher | same; ForceInitial flag. Bulk initial state path never targets a user. |
| C24 Live streaming neither repeats nor skips events relative to the initial data | partial | ConnLoad | load-position map and skip test; invariant over interleavings. |
| C25 Events sent by a device are held back until their transaction id is known, without loss, duplication or reordering | partial | TxnWaiter | queue state machine; invariants over op lists with ghost logs. |
| C26 A lazily loaded member is sent at most once per room | partial | LazyMember | set of strings with the composite key; key ambiguity handled explicitly. |
| C27 Rooms are built once with all the subscriptions that asked for them | partial | RoomsBuilder | `buildSubscriptions` modelled; partition theorem. |
| C28 A client can only subscribe to rooms it is joined to | proved | ConnLists | join checks in the two places. |
| C29 Following room predecessors terminates | partial | ConnLists | predecessor walk with fuel-free relational step; non-termination on a cycle is proved (negation), termination for acyclic. |
| C30 Callers of EnsurePolling are released and told the truth | partial | EnsurePoller | interleaving machine; witness for wrong answer after token expiry; safety part proved. |
| C31 Extensions apply only to the rooms in their scope | partial | Extensions | `roomInScope`; spec over sets. Wildcard only in first position: stated. |
| C32 Extension settings are sticky and disabled by default | proved | Extensions | `Core.ApplyDelta`; fold. |
| C33 Account data is attributed to the right scope | partial | Extensions | ProcessInitial room id construction and SelectMany; negation witness + partial. |
| C34 To-device messages are delivered at least once, in order, and deleted only after acknowledgement | partial | ToDevice | table + client protocol machine; at-least-once invariant. |
| C35 Cancelling a key request suppresses only unsent key requests | partial | ToDevice | `insertMessages`; suppression theorem, plus witness for cancel-then-request. |
| C36 Device list changes are not lost if a response is lost | proved | E2EE | two-bucket machine. |
| C37 One-time key counts and fallback key types reflect the last upstream value | partial | E2EE | `parseE2EEData` change detection + Upsert; witness of missed change; partial. |
| C38 Each event is stored once and keeps its position | proved | Store, StoreProps | insert with serial NIDs and conflict-ignore; invariant. |
| C39 Only genuinely new timeline events are accumulated | proved | Store, StoreProps | `filterToNew`; suffix law and idempotence. |
| C40 The current snapshot of a room is the result of applying its events in order | partial | Store, StoreSpec, StoreSim, StoreHist | snapshot fold; refinement to map semantics. |
| C41 Room state at a position is the state after that position | partial | Store, StoreState | unfiltered path; relation to fold; disagreements by witness. |
| C42 A user's visible timeline is bounded by their last membership period | proved | Visibility | `calculateVisibleEventNIDs`; spec via membership at each position. |
| C43 Snapshot clean-up never removes a snapshot still reachable | partial | StoreClean | deletion query as a list function; safety. |
| C44 Latest values are retained by the fixed-size buffers | proved | Circular | append/wrap-around; refinement to last-n. |
| C45 Receipts: packing is lossless per thread and private receipts stay private | proved | Receipts | pack/unpack; select. |
| C46 Account data: last write wins per user, room and type | proved | AccountData | dedupe + upsert; refinement. |
| C47 Bulk writes are chunked without loss | proved | SqlUtil | `chunkify`; concatenation and bounds. Non-termination when the row is wider than the limit is stated. |
| C48 A transaction is committed exactly when its function succeeds | partial | SqlUtil | `withTransaction` over an abstract transactional store. |
| C49 Transaction ids: the all-clear is given once, and only after every poller has reported | partial | PendingTxn | per-event device lists; invariant over ops (without TTL expiry of entries; expiry is an explicit op). |
| C50 The since token never moves past unprocessed data | proved | Poller | poll loop as state machine with crash steps; invariant. |
| C51 There is at most one live poller per device | proved | PollerMap | map + termination events; invariant. |
| C52 A failed write of account data is retried | partial | DedupAccount | dedupe cache + failing store; negation witness; partial without failures. |
| C53 Unread counts converge to the last upstream value | partial | Unread | dedupe + partial update; negation witness; partial. |
| C54 Device-data notifications are batched but never lost | proved | Ticker | set + emission; invariant. |
| C55 Typing updates for a room come from one poller at a time | partial | Typing | ownership map; invariant. |
| C56 Room names are computed without panicking and prefer explicit names | proved | RoomName | `calculateRoomName`; totality with explicit panics, precedence, disambiguation. |
| C57 Invites are retired by later memberships | proved | Invites | `removeSuperseded`; last-wins. |
| C58 Space membership follows the last relevant event | proved | Spaces | `handleSpaceUpdates`; refinement. |
| C59 Rooms never become unencrypted and metadata is not lost | proved | RoomsTable | `upsert` + delta; latch. |
| C60 A device in use is never expired | proved | Tokens | last-seen arithmetic over request times. |
| C61 A list's recency order follows only the events that list is interested in | proved | SortableRooms, Lists | recency timestamps per list with the lazy write-back as a free step; invariant over all histories. |
| C62 Combined subscriptions keep old rooms and heroes | partial | RoomsBuilder, Request | `Combine` and its fold in `BuildSubscriptions`; old rooms and heroes are dropped (witnesses), the rest proved. |
| C63 A changed list request leaves the client with the right rooms | partial | ConnLists | a changed list request replayed by the reference client; proved for every index outside one-index ranges (from C02). |
| C64 Changing the filters of a list changes its rooms | partial | ConnLists | filter and sort changes of a list; lists sent as a whole are not re-sent (witness). |
| C65 Account data of a room newly in the response is complete | partial | Extensions | account data of rooms that enter the response, over the updates of one response; the loaded mark is set too early (witness). |
| C66 Stored receipts follow deliveries and never go back | partial | ReceiptsStore | upsert of unpacked receipts; refinement to last delivery per user and thread; two witnesses. |
| C67 To-device messages of a response are handed over with success at most once | partial | Poller | the poll loop with failing stores; counting argument per stored token; witness. |
| C68 The receiver always has the last key counts and fallback key types | partial | Poller, E2EE | change detection of counts and fallback keys in the poller; exact for fallback keys, witness for counts. |
| C69 After a request for a device exactly one poller runs for it | partial | PollerMap | interleavings of requests, ends and panics; witnesses for a panic and for overlapping pollers. |
| C70 A calculated room name says something about the members | partial | RoomName | the calculated name mentions a member or the count; two witnesses. |
| C71 Only state events change recorded room metadata | partial | RoomsTable | `roomInfoDelta` over events with and without state key; witness with a message of a state type. |
| C72 A token that cannot be decrypted is skipped at start-up | partial | Tokens | `TokenForEachDevice` with its named result; exact outcome and witness. |
| C73 The space graph agrees with the current state of the rooms | partial | SideTables | space relations next to the event store over all histories; witness with an out-of-date state block. |
| C74 Cached room metadata follows the stored current state | partial | Metadata | store, redactions, queue of updates and cached metadata; invariant over all interleavings of storing and delivering. Simplified: the snapshot named by an initial state update is still there when it is delivered. |
| C75 At start-up every device is tried once and its outcome is reported | partial | StartPollers | worker machine with the shared error variable; permutation and measure arguments; witness interleavings. |
| C76 Redacted events are blanked for good and nothing else is touched | partial | Redact | the JSON column next to the event store, with JSON functions as parameters; histories; witnesses for order, other rooms and failing JSON. |
| C77 Member counts and heroes follow the members of the room | partial | Heroes | tracker, cached counts and heroes, reload and start-up against the stored members; witnesses. |
| C78 A caught-up client has the current name, avatar and counts of its rooms | partial | ClientMeta | one room and one connection: cached metadata, queued updates, held-back events, and the client replaying what it is sent; invariant for histories without held-back events, which others are reduced to by a simulation that puts the events held back into the queue; witnesses. |
| C79 A stored timeline has no unmarked holes | partial | StoreGap | stored timelines against the upstream timeline they are cut from; invariant over deliveries; witness of a slow poller. |
| C80 A transaction id reaches the device that sent the event, and no other | partial | Txns | event and transaction tables with deliveries per poller; exact description of what each device is sent; witnesses. |
| C81 Replaying every response keeps the client's windows equal to the server's list | partial | ListSync | The whole life of one list: `request` (assign, recreate, resort, SYNC/INVALIDATE operations), live updates (`resort` operations), the response, and the reference client's replay, composed from the models of `Lists`, `ConnLists`, `ListOps`. By induction over rounds: the client's windows equal the server's list and the list is in the requested order. Partial: batches with a DELETE directly after a DELETE of a lower index, get-all lists, unsupported sort orders and one-index windows are excluded; the first two with proved violations here. |
| C82 Updates queued for a connection are answered in order, without loss or starvation | partial | LiveLoop | Machine of small steps: producers (`onUpdate`, blocked, delivered, giving up), the request in the live loop (condition, `select`, inner loop, catch-up), time-outs and cancellation. Invariant over all interleavings; `work` decreases with every step of the request. Violation across two producers proved. |
| C83 A list without filters shows the rooms the user is in | partial | Leaving | The tracker, the flags `IsInvite` and `HasLeft` of the user cache and the lists of a connection are composed into one state machine. `C83_exact` gives, for any history, when a filterless list shows a room: iff `OnLeftRoom` was not called for it after the last `OnInvite`, as of the last update that reached the connection. `C83_listed_partial` relates this to memberships for the histories where it is right, by an invariant over all rooms. Five concrete histories show where it is wrong. |
| C84 Connections of a user do not disturb each other through a shared update | partial | SharedHeroes | The slice of heroes in a shared update is modelled as an array and a length, and the connections as goroutines with atomic steps. An invariant over schedules proves the claim if `DeepCopy` and `RemoveHero` are atomic, and for every schedule if the user is no hero; three schedules show a wrong name, a panic and a broken copy. |
| C85 Rooms that come into view do not show what the user may not see | partial | InitialRoom, InitialRoomProps, InitialRoomExamples | `getInitialRoomData` for one room as a function of the user's data, the lists' metadata, the visible timeline and the current room. Non-interference (`Independent`): for an invite the result does not depend on the current room. Composed with `Leaving` this gives `C85_private_partial` for whole histories; the violations are histories in which a user who is not in the room is sent its current name and state. `C85_no_panic` needs an invariant of the user cache (`IsInvite` only with an invite), `C85_timestamp` is the exact timestamp. |
| C86 The client's view of who is typing converges | partial | TypingExt, TypingExtProps | One room and one connection: the current typing event, the queue of updates with the typing event they carry, scope and membership. Proved: convergence for rooms that were sent by a request and stayed in scope, nothing invented, nothing out of scope. Violated when another room's update moves the room into view, when the extension is enabled later, in between (old events after new ones), and for invites, who see who is typing. |
| C87 Payloads on a pub/sub channel are handed over once and in order | partial | PubSub, PubSubProps | A channel with a buffer of any size, any number of notifying goroutines, one listener, the mutex, time-outs and Close as interleaved steps. Proved: each sent payload is handed over once and in order, the buffer is bounded, success means sent (and, without a buffer, handled), nothing is left after Close, no deadlock. Violated by the time-out (the error is ignored by every caller), by Notify after Close (panic), and without a buffer by callbacks that notify. |
| C88 The worker pool writes each poller's key data once and in order | proved | WorkerPool, WorkerPoolProps | n workers, a channel of n functions and any number of callers of OnE2EEData as interleaved steps. Invariant: the queued and running functions are those of the waiting callers, one each. Proved: exactly-once, per-caller order, bounds, progress. |
| C89 A timeline comes with a token from which nothing is missing | partial | PrevBatch, PrevBatchProps | One room whose events are their places upstream; parsing with the token on the first event, the filter to new events, the insert that ignores conflicts, the latest events and the token query (a relation, as it has no order). Invariant: stored timeline events are in upstream order and tokens sit on their own event. Proved: no gap if no poller lags; a timeline that starts at a gap has its token. Violated: no token inside the newest timeline, tokens dropped with known or unparsable events, gaps with lagging pollers, not the nearest, later than the leave. |
| C90 Migrations keep what the proxy knows | partial | Migrations, MigrationsProps | The migration to the device list table over any number of devices and changes, tied to the state of the E2EE model; the clean-ups of rooms without create event, of stuck and of dead invites as row filters. Proved: the upgrade succeeds and every device has the same state afterwards, exactly when it fails, that it is idempotent, and exactly which rows the clean-ups touch. Violated: going back drops pending changes; an invite after a leave is removed as dead. |
| C91 Sharing of request objects does not confuse retries or settings | partial | SharedReq, SharedReqProps | The connection of C15 over a heap of extension objects, shared between the remembered request and the sticky request, with failures before and after the settings are applied. Proved: the settings are those of C32 in spite of the sharing; exactly which retries are recognised; every further retry is. Violated: a request that enables an extension with default lists or rooms is not recognised when it is sent again; a failed request keeps its settings and can then be answered without being handled. |
| C92 A request is served as the owner of its access token | partial | Auth, AuthProps | State machine of the homeserver's tokens, the token rows, pollers, connections and requests with one step per access to shared state. Ownership is an invariant over all interleavings with arbitrary answers of `EnsurePolling`; refusal after revocation is a second invariant (`Gone`); `Stale` is the invariant under which a revoked token is still accepted, and the violations are concrete runs. |
| C93 A device that asks to be polled is polled, and its requests are answered | partial | PollStart, PollStartProps | State machine over C30's `EnsurePoller` model, both channels, the goroutines of `Handler.EnsurePolling`, the poller and its end. An invariant over all interleavings says what is on its way whenever somebody waits or is let through; two absorbing states are proved permanent for all continuations and reached by concrete runs. |
| C94 A user's cache has the last values | partial | UserCaches, UserCachesProps | State machine of the database, the message channel, caches under construction, `userCaches` and the dispatcher's receivers. Invariant: a cache that has made a query agrees with the database on every key of it without pending message, except for the recorded misses; wrong values are proved permanent. |
| C95 A connection gets every event of its user's rooms from its start | partial | UserCaches, UserCachesProps | Same state machine with connections and the events they get; `Stable` (registered and nobody about to undo it) is preserved by everything but an invalidation, and under it connections have all events; `Dropped` is preserved by everything, and under it connections get nothing. |
| C96 Invites and highlight counts shown for a room are the current ones | partial | InviteFlow | Upstream history of one user in one room as a list; pollers of devices and of other users deliver it piecewise to tables, tracker and cache. Invariant: a shown or stored invite is one that no poller of the user has gone past, and no join after it is stored. Counts: ghost position of the own pollers. |
| C97 A connection whose first load fails recovers | partial | FirstLoad | Connection with its load position, known rooms and lists without filters; requests whose load works or fails, and updates. Exact content of a list (what it had and the updates since) and of the known rooms once the position is set, by an induction principle over the small steps; completeness if the first load works; two violations otherwise, one of them for all continuations. |
| C98 A user's rooms are in the spaces the user is in | partial | UserSpaces | Global children and types, tracker and user cache as maps; events, state blocks, registration. The spaces of each room are related to the last membership, create and child events of the whole log. Invariant for a space the user stays in; safety by prefixes of the log; general theorems about what stays missing and what stays. |
| C99 The live timeline of a room has the room's own events, all of them | partial | OwnTimeline | The updates that the user cache makes for an event (its own, and the one for the child of a space), the waiter's queues keyed by the room of the event, and the timeline and load position of one room. Invariant: published ++ held = given, per room of the event; strictly ascending updates of a room are all appended. Two violations with witnesses, one for all continuations. |
| C100 A restart does not change the recency of rooms | partial | Recency | The two recency fields of the cache over histories of state blocks, timelines and restarts, with the start-up query; the spec is the stored events with a mark whether the cache was told. The exact entry per type for all histories; equality across a restart with agreeing clocks and no untold events; three violations. |
| C101 A new connection starts from exact and consistent positions | proved | StartPos, Store | `LatestEventNIDInRooms` with its fast and slow part over the store of C38–C41; exact from the invariant that `latest_nid` is the newest NID of the room; stable because later rows have greater NIDs. |
| C102 The state sent with a room is the state that was asked for | partial | RoomState | `LoadRoomState` composed of the required-state map, its query, the storage model and the lazy branch. Proved equal to the wanted part of the replayed state by composing C14 and C41; negations for `*` types with lazy loading and for batches with an erroring room. |
| C103 An invite is shown as what it says | partial | InviteData | `NewInviteData` as a fold over stripped events; loop invariant by induction from the end against a specification by filters; the name by composing with C56 and C70. |
| C104 Direct chats, tags and ignored users are those of the account data | partial | UserFlags | The flags of a user's cache as a state machine over account data, invites and restarts, with the tables they are loaded from; invariants by induction over operation lists against the last event of each kind; negations by short runs. |
| C105 A poller keeps its token until it is refused, and releases those who wait | partial | PollLoop | The loop around `poll` as a state machine over terminations, turns and panics, for any receiver and any answers; the specification is the list of what each poll led to. By induction the failure counter is the number of unanswered polls since the last answer, plus one if that was not processed; so the token is given up exactly after a refusal or that many polls. Not so: a counter that starts again with every answer never ends polls that cannot be processed, and a panic releases nobody. |
| C106 A client gets news only of rooms it has | partial | LiveRooms | `processLiveUpdate` for any number of lists and subscriptions, reduced to which rooms get into the response and how, on top of the model of `CalculateListOps` (C04-C06). Invariant over all histories of requests and updates: the client has or is sent full data of every room it sees. A step theorem says exactly which four reasons there are for news of a room the client does not see; each is shown to happen. |
| C107 The timestamp of a room is that of the latest bumping event the user may see | partial | Stamp | The events of a room with their timestamps, the caches' latest timestamps per type, the user's join timing in the user cache and in the connection, and what initial data and live updates put into the response, as steps. Proved by an invariant over all histories: the caches have the latest timestamp of each type and of all events (also after a restart), and a value in the response is that of a visible bumping event or of the join. The general claim is violated in three ways, each with a witness. |
| C108 A stored token can be read back, and an unreadable one is an error | partial | TokenText | Hex, splitting at spaces, and encrypt/decrypt over a cipher that is a parameter with one law. Proved: round trip, injectivity, what another key gives, and for any text exactly when the outcome is a token, an error or a panic. The last shows that a cut off text is a panic. |
| C109 A caught-up client has the current heroes of its unnamed rooms | partial | ClientHeroes | On the model of C78 (ClientMeta), whose view now has the heroes. Proved by the same invariant, one more field: who the heroes are and what they are called, for unnamed rooms that always have a hero; the whole heroes if avatars do not change. The other cases are violated, with witnesses. |
| C110 num_live counts the live events at the end of the timeline | partial | NumLive | The rooms of a response on top of the positions of C24 (`stepR_c`: the same steps). Invariant over all histories: the anchor is the number of updates taken, positions do not pass it, and the last `num_live` events of the timeline are the last live events of the response. |
| C111 A client is told why its request failed | partial | Serve | `ServeHTTP` down to the connection as one function of the request and the answers of the others; numbers are read from text. `outcome` lists all ways a request can go; each kind of reply is characterised exactly against a specification of readable requests, tokens and numbers. |
| C112 A refused request changes nothing | partial | Serve | The same model with the connection map: a request is followed by the state it leaves. |
| C113 The homeserver is asked for what the poller means | proved | SyncURL | The query as bytes, and a separate reader of queries (split, unescape). Escaping is proved to be undone by the reader and never to make a separator, so the reader finds exactly the parameters for every token. |
| C114 From the poller to the client no event is left out | partial | EndToEnd | The store, the message bus, the dispatcher with its tracker, the start positions, the visible range of a timeline and the live loop in one transition system; invariant by induction over arbitrary interleavings of pollers, the listener, requests and live updates: the queue holds exactly the events of the room after a position, the client's timeline is a suffix of what is at or before the load position. EndToEndBlocks extends this to state blocks and restarts: a state block with new events closes the connection of every member when its message is taken, and the message with the first state of a room comes before anybody is a member (EndToEndFirst). EndToEndJoined proves the claim for rooms joined after the connection was made: the dispatcher takes the user as joined exactly when the join has been handed on, nothing of the room is loaded or queued before, and the client's timeline is a stretch of the room's timeline from the join on. |
| C115 Who is told about a room's events is who joined it in the store | partial | EndToEndMembers | On the model of C114 (store, messages, dispatcher, restarts). Specification: the last stored row for the user's member event (`lastMember`). Invariant `MI`: what the tracker says, overwritten by what each waiting message will say when it is read from the database then (`later`), agrees with the last stored member event. Each stored section keeps it (`mi_poll`, with the refinement of the store, C40, and the fact that rows and snapshots named in a message do not change), taking a message moves a message's word into the tracker (`handle_joined`), a restart recomputes it (`mi_restart`). |
| C116 A caught-up client has the current state of its rooms | partial | EndToEndState | On the model of C114/C115 (pollers, store, messages, dispatcher, connection) the connection now records the state given with a room and the events given since. An invariant over all further steps says that the recorded state is the store's state at the position at which the room was loaded, under every key without later events, and that everything later is recorded as given since; with C114 the state event stored last under a key is either in one of the two or still on its way. With state blocks (EndToEndBlocks): either the message that closes the connection is under way or the invariant holds. For rooms joined after the connection was made (EndToEndJoinedState): all events of state blocks come before the join or the closing message is under way behind the one with the join; a room loaded with at least one event was loaded since the join, and then the invariant holds as before. |
| C117 To-device messages reach the client from the homeserver, none lost, each once while tokens are stored | partial | ToDeviceFlowProps | The poller model (C50) is run with a receiver that is the to-device table with its extension and client (C34), against a homeserver that deletes what was acknowledged by a token and answers with what follows it. An inductive relation gives all executions: messages sent, turns with any answer or failure, database errors, restarts of poller, proxy and client. The invariant is that the queue up to each token (in memory, stored, deleted at the homeserver) is a sublist of what was stored; a second invariant, when the token is always written, is equality. PollerState.lean shows that the receiver's state changes by the logged calls only. |
| C118 A changed timeline limit or required state is applied to the rooms the client already has | partial | ConnListsChangeProps | On the model of onIncomingListRequest: for an existing list with the same order and filters, a case analysis gives what the builder is asked for; with the theorem on SliceInto (C03) every joined room in the ranges is in a subscription with what changed. Lists for all rooms without ranges are a counterexample. |
| C119 No device list change is lost between the homeserver and the client | partial | DeviceListFlow | Composition of the poller (`Poller.poll`), the E2EE tables (`E2EE.upsert`, `E2EE.read`), the connection (`Conn.step`) and a client, with the homeserver's stream of changes. Invariant over all executions: what is in flight is in the sent bucket, what is in the sent bucket is in flight or was told, and new + in flight + told make up the last change. Four counterexamples, one for each hypothesis. |
| C120 Global account data reaches the client from the pollers | partial | AccountFlow | Composition of the duplicate suppression and the table (`DedupAccount`, `AccountData`), the pub/sub channel, the handler and cache, the connection's channel of updates, the extension, the connection (`Conn.step`) and a client. Invariant over all executions: for each type of the table, a payload names it, or the client has to connect, or what the client has followed by the responses, the request in progress and the updates on their way ends in the value of the table. Counterexamples for each hypothesis. |
| C121 Key counts and fallback key types reach the client from the homeserver | partial | KeyFlow | Composition of the E2EE model (C37: poller memory, row with change bits, reads) with a generic model of a client and its connection (ConnFlow: new, expired, repeated requests, buffer, lost responses). Invariant: what the client will have when all responses arrived is what is stored, unless the change bit is set or the client has to connect again; counts and fallback types are two instances of one proof. Three witnesses for the hypotheses. |
| C122 Messages of ignored users, and only they, are left out of the timelines | partial | Ignoring | A connection with its load positions as for C24, with senders and state keys, on top of the account data of the user (C104). Safety: invariant-free case analysis of every step, with the cache equal to the last list by C104. Completeness: invariant over executions (what the client has of a room is, from its first event on, everything but messages of users ignored at some time), by induction. |
| C123 A client that is up to date has the unread counts of its rooms | partial | UnreadFlow | The cache, the events held back, the channel, the copy in the lists, the response in progress and the client (ConnFlow), for one room. Invariant by induction over executions: what the client will have is the copy in the lists, and that is what the cache has, unless an update that is sure to be processed and has other counts is on its way. Four witnesses for the hypotheses. |
| C124 A client that is up to date has the read receipts of its user | partial | ReceiptFlow | The receipt tables and extension of C45/C66 (with maps read in any order) composed with the pub/sub channel, the channel of updates and the client (ConnFlow), for one room. Invariant by induction over executions: the last receipt of the user among those on their way is the one in the table, and if none is on its way the client will have it. Three witnesses for the hypotheses. |
| C125 A client that is up to date has the account data of the rooms it was sent | partial | RoomAccountFlow | The deduplicating handler, the table, the pub/sub channel, the caches, the update channel, the extension, the connection and the client as one transition system for one user and room; an invariant says that each value of the table is on its way or at the client (`C125_partial`, `C125_delivered_partial`); another that everything on the way was delivered (`C125_authentic`); runs of the code for the violations. |
| C126 A client is told only receipts that exist, and no private receipt of another user | proved | ReceiptPrivacyProps | The model of C124 (`ReceiptFlow`) without restrictions, with the delivered EDUs recorded. Invariant over all executions: every row, payload, queued update, buffered response and receipt the client has was delivered, and what is queued for or sent to the client is public or its own. |
| C127 A client gets only events of times its user was in the room | partial | EndToEndPrivacyProps | The transition system of C114, without its restrictions on the rooms that are loaded. Invariant over all executions: what the tracker will say of the user when the pending messages are handled implies that the user is in the room now; along the pending messages each event is given to the user only if the user was in the room when it was stored; what is queued and what the client has may be seen. Loads by `C42_timeline` and `C42_sound`. |
| C128 The calls of the pollers take effect one at a time | proved | ExecutorProps | Pollers, the unbuffered channel with its goroutine, the wait group and the two halves of a callback (transaction, publishing) as separate steps, together with the process of C114. Refinement to `EndToEnd.run` by induction over arbitrary interleavings; invariants relating what was asked, stored and returned; progress by a bound on the steps to the end of a call. |
| C129 The locks of the proxy never deadlock | partial | Locks, LocksProps, LocksExamples | All sixteen kinds of mutex with the rules of `sync.RWMutex` (a waiting writer keeps new readers out), the pool of database connections, and for every function that takes a lock the shape of its lock operations as a program with arbitrary branches and loops; a goroutine is any trace of such a program, a state any list of goroutines. The locks are ranked and every program is shown to take them in ascending order, with one exception that is harmless because one goroutine only writes the tracker; from this, by induction over traces and runs, no circle of waiting goroutines, and by induction over the remaining operations everybody can finish. Partial: the second part needs as many database connections as goroutines, or no limit; `C129_violated_pool` shows for every limit that the proxy can stop for good, `C129_needs_one_listener` that the single listener is needed. |
| C130 A client hears of every event of the rooms it follows | partial | LiveRoomsHeard | On the model of C106 (LiveRooms): case analysis of what an update does to each list; a room in a window before or after the update either stays in a window or makes an operation (by C04, the moves touch each window the room was in). Full data for events that ask for it: for rooms of lists; rooms only subscribed to are a proved violation. |
| C131 Profile changes do not change who is joined | partial | MemberColumn | Rows are made from events as `ensureFieldsSetOnEvent` does, with the mark of profile changes, and read by the loops of `AllJoinedMembers`, `ResetMetadataState` and `FetchMemberships`. The specification reads `content.membership` only. Proved by induction over the rows for any order of rooms and events; a membership that is itself written with the mark shows why the condition is needed. |
| C132 What a connection was given does not change under it | partial | Ownership | Maps and slices are objects in a heap; metadata and user data of a room hold addresses, so that a copied struct shares its maps, as in Go. Events, invalidations, space events, tags, other updates and loads are steps that allocate, write and hand over. Every address gets a kind by an invariant (of the global cache, the spaces of a room, fixed); steps write to the first two only. The contents handed over are compared with those of the caches at that time. For the spaces of a room the claim is false. |
| C133 Re-encoding the device data keeps them | partial | Reencode | The column with the device data by its type (JSON bytes, `JSONB`, CBOR bytes), with the libraries and the database as an abstract codec with round-trip laws, and the cast of text to `BYTEA` character by character. Proved over any rows: what is read as JSON before both upgrades is read as CBOR after them, exactly when they succeed, that the second is idempotent, and that going back from CBOR keeps the data. Going back to bytes is proved for data without a backslash and is violated otherwise. |
| C134 A response says in JSON what it is, and a request waits only while there is nothing to say | proved | Wire, WireProps | Responses with lists, operations, rooms and the five extensions are written as JSON field by field with the rules of `omitempty`, and read back as `UnmarshalJSON` does. Proved for every response: reading gives the response back; `HasData` (and the condition of the live loop) holds exactly if the JSON says something, by a specification on the JSON alone; and, on the machine of C82, a request that waits is answered exactly with something to say or gives up with nothing. |
| C135 A user is told once that they left a room, and the rest of the timeline is not disturbed by it | partial | Farewell | The two ways a leave reaches the user (dispatcher; `OnLeftRoom` of each of the user's pollers) as steps of a state machine; the number of times it is told is computed for every execution by induction, for any prior state. For the connection, a run with `AlwaysProcess` updates is related to the run without them (`ConnLoad`): same positions, same events of the log. |
| C136 At start-up every room gets its own data | proved | StartUp | The bulk queries and the loops over the rows of all rooms, with arbitrary orders for what SQL and Go leave open. The maps are described room by room by induction over the rows; the hypotheses on the tables are proved of every history of the store (`C136_store`), and the start of the one-room model `Heroes` is shown to be the same (`C136_heroes`). |
| C137 Lists are filtered by what rooms are now | partial | FilterFlow | The caches, the updates made of them, the waiter, the channel and the lists (Lists), for one connection and any rooms; proved by following the last update of a room through the queues to the lists. Violations by computed histories. |
| C138 A client that is up to date shows the rooms that match its filters now, each once and in the order of what they are now | partial | ListFlow | FilterFlow and ListSync composed: the copy of a room in the lists is its present data (C137), and what the client has in view is the list (C81), with an invariant over the histories that ties the response under way to the lists. Violations by computed histories. |
| C139 Answers of the homeserver are taken as what they say | partial | Upstream | A decoder for a universe of Go types with the rules of encoding/json, and the response types in it; proved by mutual induction over types and fields that what is written (Says, a separate relation) is read, and joined with the poll of Poller (C50). Violations for whole classes of worlds. |
| C140 The proxy runs as it is configured | partial | Config, ConfigProps | `main` is a function of the environment to the list of what the process does; the specification is the help text (required variables, defaults, limits, where TLS is on, what is served where). Incomplete environments open nothing; the options, the addresses and the transport are those of the environment; the chain of handlers and the answer to preflight requests are proved for all handlers. Partial: the debug pages are also served at the address for metrics, and a certificate has no effect on a socket; both are proved. |
| C141 Transaction ids are kept for an hour, and not for long after | proved | Retention, RetentionProps | The cleaner is a timer over a clock in nanoseconds, between insertions, failures and shutdown in any order. An invariant over all runs shows that a stored row stays the only one for its key until a millisecond before its time is over; another that, while cleanings are prompt, no row is older than that time, one interval and the lateness. |
| C142 Shared memory is not read while it is written | partial | Races, RacesProps | Programs with arbitrary branches for every function that accesses shared variables, on a machine of threads and locks. A type-like check of the programs (each access holds what protects the variable) is shown to imply the claim by an invariant over all schedules; traces built from choices give the races on the four variables that have no protection. |
| C143 What a user's cache learns about a room is not lost | partial | LostUpdates, LostUpdatesProps | Loads and stores of goroutines in any order, with the maps of spaces behind addresses. A simulation shows that orderly runs give what the updates give one after the other; an invariant on the addresses that spaces of known rooms are never lost; shuffles of two calls give the losses. |
| C144 Saying the same again changes nothing | partial | Repeat, RepeatProps | `handle` composes `applyDelta` with `onListRequest` for each list. Merging is idempotent for a list that is neither deleted nor has an empty sort order, so the second request is merged to the same parameters, `announced` compares equal subscriptions, and `onListRequest` with equal parameters has no operations. The same fact shows that a failed request is silent when sent again; two more witnesses show that deleted lists and empty sort orders do change when repeated. |
| C145 A room is stored with its create event, or not at all | partial | Store, StoreSpec, StoreSim, StoreCreateProps | By the simulation of the store by its specification (`run_spec`), it is enough that in the specification every state has the key of create events: an invariant, together with that every known event is of a room with a state. `stateAfter` then takes a snapshot with a create event, and replaces it only by another. Two witnesses for a homeserver that breaks the rules. |
| C146 A request is not kept waiting by an older one | partial | Supersede, SupersedeProps | The requests of one connection as threads over the connection's lock, the stored cancel function of `Conn`, the callback of `ConnState` and the set of cancelled contexts; every interleaving of the undivided steps. Invariant: the request that is served is the one whose cancel function is stored. Proved by induction over executions: whoever keeps a request waiting had not begun to be served when it came; if nobody was about to be served, the newest request can be served without any timeout; requests of an orderly client are told to stop when the connection is destroyed. Five executions show what the hypotheses exclude. |
| C147 What is meant for a device reaches it on each of its connections | partial | ManyConns, ManyConnsProps | Any number of connections over the device's tables of C34 and C36: each has its own position and record of what it was told. The invariant of C34 is shown for each connection with the messages received on any of them; device lists by an invariant that ties the two buckets to the last stored change. Proved: nothing is lost to the device as a whole, and a connection that is the only one with the extension misses no message. Three executions, two of them for any number of further requests, show what one of two connections misses. |
| C148 A connection gets its user's updates exactly as long as it can be used | proved | Lifecycle, LifecycleProps, ConnMap | The subscriptions of connections are added to the ConnMap model: Subscribe and Unsubscribe with the counter of the user's cache. An invariant over all histories says that the listeners are exactly the subscriptions of connections neither destroyed nor full, that subscription numbers are not reused, and that every connection made is in the cache, awaiting its callback or destroyed. C148_usable, C148_no_leak and C148_once follow from it; they speak of look-ups and of the listeners only. |
| C149 A client that lazily loads members knows the users it hears of | partial | LazyFlow, LazyFlowProps, LazyMember | The rooms' events, the connection's load positions, the cache of members that were sent (with its keys) and a client that keeps member events from required state and timeline. An invariant says that a member in the cache is one the client has; a second one, for rooms sent once and then followed, that the member events the client has are those at the load position. The current member event is specified as the last one of the user among the first events of the room. Rooms sent twice, clients that replace a room, and rooms sent with an empty timeline are witnesses of violations. |
| C150 Only idle devices are expired, and they stay expired | partial | IdleDevices, IdleDevicesProps, Tokens | The hourly run of ExpireOldPollers in its three steps (query, look-up of pollers under the lock, end of each poller) among requests, calls of EnsurePolling and pollers whose token is refused. The steps at the tokens form a history of the Tokens model, so that C60 applies at the query; what was not found is not marked until the next query. Pollers have numbers, so that a poller that was replaced is told apart. Witnesses: a request between query and end, and a device with a second token. |
| C151 No event is lost between the pollers of a user's devices | partial | Handover, HandoverProps | The pollers of a user's devices as a state machine over events, `EnsurePolling`, requests, answers, ends and restarts, one room being looked at. Invariant: every token is at most as far as the stored timelines reach. Linked to the stored timeline through C79. Two runs refute the full claim; a further invariant shows that what is lost stays lost. |
| C152 The transactions on a device's encryption data do not deadlock | partial | RowLocks, RowLocksProps | A transaction is the list of the rows it locks, in order; steps lock the next row if it is free, commit or roll back. Invariant: no row is locked twice. Circles are analysed by who can hold what an `Upsert` or `Select` needs. A two-step run is a deadlock. |
| C153 A position of an old database does not cost a message of the new one | partial | FreshStore, FreshStoreProps | The inboxes and clients of `ToDevice` for all devices, with the one map of seen device ids; dropping the database empties the inboxes and the map but leaves the clients their positions. Invariant: that of C34 for devices which heard from this database, and for the others that everything is still stored and the device id is not seen. |
| C154 A connection in use does not expire, an idle one does | partial | IdleConns, IdleConnsProps | The `ConnMap` model with a clock and a due time per key. Kept: invariant (item, alive, elapsed time) carried through all operations by induction over the run; idle: due time unchanged while the key is not used; refinement to the untimed `ConnMap`. The unbounded `timeout` gives the violation. |
| C155 The state of a room does not depend on the rooms it is loaded with | proved | StoreRoom, ManyRooms, ManyRoomsProps | The joint query as it is (join of all events with all snapshots named, index of each room's last event, replacement, sorting into rooms) over the `Store` model; equality with the single-room query from an invariant of the store that needs no condition on upstream data (`StoreRoom`: snapshots hold only rows of their room, rooms and rows name snapshots of their room, ids are distinct), for every order of the rooms map. |
| C156 A client that starts over again and again delays only itself | partial | SpamDelay, SpamDelayProps | The `ConnMap` model with each connection's last position and the time slept with the lock held. Invariant: an item of the cache is of the last connection made under its key and its position is the number of answers since; so a delay implies haste in the history. Unbounded witness for the lock. |
| C157 What is stored for one room does not touch the state of another | proved | StoreRoom, RoomIsolationProps | Over the `Store` model, with no condition on the events. `StoreRoom` proves by induction that rows, snapshots and the rooms table keep rooms apart; then the state of a room is a function of the rows and snapshots of that room alone, and a transaction for another room leaves those as they are. |
| C158 A poller starts with the token and the position of its device | partial | PollRequest, PollRequestProps | The two tables under identification, storing of positions and deletion, and the joined look-up with its check of the owner. Both tables are proved equal to functions of the history (first answer about a token since its last deletion; last position since the device is known); the look-up is characterised exactly. A deletion in between gives the witness of a request to poll without an answer. |

## Trusted base

* Lean 4.33.0 kernel. Axioms used by property theorems: at most `propext`, `Classical.choice`, `Quot.sound` (list below). No axioms are added; there is no `sorry`, `native_decide` or `bv_decide`.
* The correspondence between Go text and Lean definitions is by reading. It is not machine checked. Each definition says where it simplifies.
* Go integers are modelled by unbounded `Int`/`Nat`; overflow of 64-bit values is not modelled.
* PostgreSQL, the Go runtime, JSON libraries (`gjson`, `sjson`, `encoding/json`, `cbor`) and HTTP are trusted to behave as documented; only the logic built on them is modelled. A statement inside one transaction is atomic and isolated.
* Code under one mutex, and code run by the single executor goroutine of `PollerMap` (`sync2/poller.go:312-316`), is one atomic step. Data races (Go memory model) are not modelled beyond interleavings of the steps.
* `seeded/LOG.jsonl` records edits of definitions made in a scratch copy to see that theorems notice them.

### Axioms of each theorem

As printed by `#print axioms` for every theorem named in `MANIFEST.json` (names without the prefix `Verif.`).

* none: Circular.C44_zero, ConnLists.C118_violated_all, ConnLists.C63_inverted, InviteData.C103_violated_key, Migrations.C90_violated_reinvited, PendingTxn.C49_only_missing, Ranges.C02_delta_inverted_range, Recency.C100_violated_block, Recency.C100_violated_clock, Recency.C100_violated_gap, Request.C62_violated, SharedHeroes.C84_violated_copy, SharedHeroes.C84_violated_name, SharedHeroes.C84_violated_panic, Stamp.C107_violated_clock, Stamp.C107_violated_joined, Supersede.C146_violated_late, Supersede.C146_violated_three, Supersede.C146_violated_two, Tokens.C72_violated, TypingExt.C86_violated_back, TypingExt.C86_violated_enabled, TypingExt.C86_violated_invite, TypingExt.C86_violated_shift
* `propext`: Auth.C92_violated_refreshed, Auth.C92_violated_reinserted, Auth.C92_violated_window, ClientMeta.C109_violated_avatar, ClientMeta.C109_violated_left, ClientMeta.C78_violated_direct, ClientMeta.C78_violated_held, ClientMeta.C78_violated_not_direct, ClientMeta.C78_violated_race, ConnLists.C28_subs_complete, ConnLists.C29_exact, ConnLists.C29_violated_cycle, ConnLoad.C24_violated_delayed, ConnLoad.C24_violated_limit0, Dispatcher.C22_violated, E2EE.C37_violated_zero, Extensions.C33_violated, Extensions.C65_violated, FirstLoad.C97_violated_empty, FreshStore.C153_violated_lost, FreshStore.C153_violated_shared, Handover.C151_violated_race, Heroes.C77_violated_invites, Heroes.C77_violated_missed_leave, Heroes.C77_violated_name, Heroes.C77_violated_no_change, Heroes.C77_violated_refill, Heroes.C77_violated_restart, IdleDevices.C150_violated_raced, IdleDevices.C150_violated_two, InviteData.C103_violated_nobody, KeyFlow.C121_violated_failing, KeyFlow.C121_violated_late, KeyFlow.C121_violated_zero, LazyFlow.C149_violated_empty, LazyFlow.C149_violated_replaced, LazyFlow.C149_violated_stale, LiveLoop.C82_violated_hole, LiveRooms.C106_violated_counts, LiveRooms.C106_violated_earlier, LiveRooms.C106_violated_only, LiveRooms.C106_violated_passed, Locks.C129_needs_one_listener, LostUpdates.C143_violated_counts, LostUpdates.C143_violated_join, LostUpdates.C143_violated_space, LostUpdates.C143_violated_tags, ManyConns.C147_violated_messages, MemberColumn.C131_violated_mark, NumLive.C110_violated_again, NumLive.C110_violated_queued, OwnTimeline.C99_violated_foreign, PendingTxn.C49_violated, PollRequest.C158_violated, Poller.C67_violated, Poller.C68_violated, PollerMap.C69_violated, PollerMap.C69_violated_overlap, PollerMap.C69_violated_panic, PubSub.C87_violated_deadlock, PubSub.C87_violated_lost, PubSub.C87_violated_panic, ReceiptFlow.C124_violated_failing, ReceiptFlow.C124_violated_live, ReceiptFlow.C124_violated_read, Receipts.C66_violated, Repeat.C144_violated_sort, Request.C12_violated, Request.C13_state_partial, RoomName.C56_impersonation, RoomName.C70_violated_alone, RoomName.C70_violated_nobody, RoomsTable.C71_violated, RoomsTable.C71_violated_upgrade, RowLocks.C152_violated, SqlUtil.C48_nil_panic, SqlUtil.C48_violated_nil_panic, Stamp.C107_violated_first, StartPollers.C75_violated, Supersede.C146_violated_closed, Supersede.C146_violated_refused, SyncURL.C113_filter, ToDevice.C34_violated_resend, ToDevice.C35_others, ToDevice.C35_violated_ambiguous, ToDevice.C35_violated_batch, ToDevice.C35_violated_reorder, ToDevice.C35_violated_twice, ToDeviceFlow.C117_violated_twice, TxnWaiter.C25_release_violated, Txns.C80_violated_batch, Txns.C80_violated_leak, TypingExt.C86_out_of_scope, Unread.C53_violated, Unread.C53_violated_failure, Unread.C53_violated_key, UnreadFlow.C123_violated_failing, UnreadFlow.C123_violated_held, UnreadFlow.C123_violated_join, UnreadFlow.C123_violated_state, Upstream.C139_violated_device, Upstream.C139_violated_nobody, UserCaches.C95_violated_window, UserFlags.C104_violated_join, UserFlags.C104_violated_malformed, UserFlags.C104_violated_restart, UserFlags.C104_violated_scope, UserSpaces.C98_violated_kind, UserSpaces.C98_violated_self
* `Quot.sound`, `propext`: Auth.C92_detected, Auth.C92_owner, Auth.C92_refused_partial, Auth.C92_stale, Config.C140_chain, ConnLists.C28_active, ConnLists.C28_lists, ConnLists.C28_subs, ConnLists.C63_violated, ConnLists.C64_partial, ConnLists.C64_violated, ConnLoad.C24_not_skipped, ConnMap.C19_close_violated, DedupAccount.C52_success, DeviceListFlow.C119_authentic, Dispatcher.C23_initial_never_forces, E2EE.C36_incremental, E2EE.C36_initial, E2EE.C36_not_lost, E2EE.C36_upstream, E2EE.C37_fresh, E2EE.C37_reads, EndToEnd.C115_violated_invite, EndToEnd.C116_violated_block, EnsurePoller.C30_expiry_violated, EnsurePoller.C30_no_panic, EnsurePoller.C30_released_partial, EnsurePoller.C30_truth_partial, EnsurePoller.C30_truth_violated, EnsurePoller.C30_truth_violated_failure, EnsurePoller.C30_waiting, Executor.C128_atomic, Executor.C128_once, Executor.C128_returned, Executor.C128_returns, Executor.C128_serial, Extensions.C31_scope_partial, Extensions.C32_enabled, Extensions.C32_settings, Extensions.C33_global, Extensions.C33_live, Extensions.C65_complete_partial, Extensions.C65_once, Farewell.C135_count, Farewell.C135_undisturbed, Farewell.C135_violated_ban, Farewell.C135_violated_kick, Farewell.C135_violated_race, Handover.C151_alone, Handover.C151_covered_partial, Handover.C151_lost, Handover.C151_violated, IdleConns.C154_asks_partial, IdleConns.C154_idle, IdleConns.C154_kept, IdleConns.C154_refines, IdleConns.C154_violated, IdleConns.C154_violated_running, IdleDevices.C150_ends, IdleDevices.C150_found, IdleDevices.C150_spared, IdleDevices.C150_stays_partial, InitialRoom.C85_heroes, InitialRoom.C85_invite, InitialRoom.C85_invite_content, InitialRoom.C85_no_panic, InitialRoom.C85_pending, InitialRoom.C85_timestamp, InviteFlow.C96_accepted, InviteFlow.C96_left, InviteFlow.C96_not_both, Invites.C57_all, LazyFlow.C149_current_partial, LazyFlow.C149_known_partial, LazyFlow.C149_real, LazyMember.C26_addUser_partial, LazyMember.C26_once_partial, ListOps.C05_replay_violated, ListOps.C06_subs_violated, LiveLoop.C82_answer, LiveLoop.C82_dead, LiveLoop.C82_dropped, LiveLoop.C82_no_starvation, LiveLoop.C82_order, LiveLoop.C82_single, LiveRooms.C130_full_partial, LiveRooms.C130_violated_subscription, Locks.C129_no_circle, Locks.C129_violated_pool, Locks.C129_wait, ManyConns.C147_lists_partial, ManyConns.C147_violated_keys, ManyConns.C147_violated_lists, Migrations.C90_dead, Migrations.C90_up_again, Migrations.C90_up_fails, Migrations.C90_violated_down, Ownership.C132_violated_spaces, PendingTxn.C49_complete_partial, PendingTxn.C49_sound_partial, PollLoop.C105_terminated, PollLoop.C105_violated_panic, PollLoop.C105_violated_undone, PollRequest.C158_answered_partial, PollRequest.C158_exact, PollStart.C93_orphan, PollStart.C93_polled_partial, PollStart.C93_released_partial, PollStart.C93_stuck, PollStart.C93_violated_lockout, PollStart.C93_violated_orphan, PollStart.C93_violated_startup, Poller.C50_covered, Poller.C50_rooms, Poller.C50_turn, Poller.C67_acknowledged_partial, PollerMap.C51_ensure, PollerMap.C51_one_live, PollerMap.C69_ended, PollerMap.C69_released, PrevBatch.C89_gap, PrevBatch.C89_violated_far, PrevBatch.C89_violated_lagging, PrevBatch.C89_violated_left, PrevBatch.C89_violated_none, PrevBatch.C89_violated_overlap, PrevBatch.C89_violated_unparsed, PubSub.C87_drained, PubSub.C87_fifo, PubSub.C87_live, PubSub.C87_success, PubSub.C87_synchronous, Races.C142_violated_buffer_full, Races.C142_violated_callback, Races.C142_violated_last_pos, Races.C142_violated_spaces, Receipts.C45_live, Receipts.C45_live_private, Receipts.C45_response_private, Receipts.C45_round_trip, Receipts.C45_select_private, Receipts.C66_duplicate_rejected, Redact.C76_violated_broken, Redact.C76_violated_order, Redact.C76_violated_room, Reencode.C133_again, Reencode.C133_down_cbor, Reencode.C133_down_partial, Reencode.C133_up, Reencode.C133_up_iff, Reencode.C133_violated_down, Reencode.C133_violated_down_fails, Repeat.C144_violated_deleted, Request.C11_sticky, Request.C12_active_asked, Request.C12_subscription, Request.C13_assoc, Request.C13_comm, Request.C14_query, Retention.C141_gone, Retention.C141_kept, RoomName.C56_remove_hero, RoomsBuilder.C27_includes, RoomsTable.C59_encrypted, RowLocks.C152_pair, SharedHeroes.C84_locked_partial, SharedHeroes.C84_not_hero, SharedHeroes.C84_single, SharedReq.C91_violated_failed, SharedReq.C91_violated_retry, SpamDelay.C156_bound, SqlUtil.C47_diverges, SqlUtil.C48_atomic_partial, Stamp.C107_join, Stamp.C107_partial, StartPollers.C75_alike, StartPollers.C75_each_once, StartPollers.C75_success_partial, Store.C145_violated_foreign, Store.C145_violated_keyless, Store.C40_last, Store.C40_violated_separator, Store.C41_violated_initial, Store.C41_violated_message, Store.C41_violated_twice, Store.C43_violated, Store.C79_violated_slow, ToDevice.C35_seen_kept, TokenText.C108_exact, TokenText.C108_hex, TokenText.C108_injective, TokenText.C108_other_key, TokenText.C108_roundtrip, TokenText.C108_violated_panic, Tokens.C60_expired, Tokens.C60_not_expired, Tokens.C60_recorded, Tokens.C72_exact, Tokens.C72_partial, TxnWaiter.C25_all_published, TxnWaiter.C25_conserved, TxnWaiter.C25_release_partial, TxnWaiter.C25_release_prefix, Txns.C80_others_partial, Txns.C80_own_partial, Txns.C80_true, Typing.C55_partial, Typing.C55_violated, TypingExt.C86_real, Unread.C53_converges_partial, Upstream.C139_denied, Upstream.C139_nothing, Upstream.C139_refused, Upstream.C139_violated_poison, Upstream.C139_violated_position, UserCaches.C95_dropped, UserCaches.C95_goes_on, UserCaches.C95_violated_failed, UserCaches.C95_violated_invalidated, UserSpaces.C98_block_partial, UserSpaces.C98_missing, UserSpaces.C98_partial, UserSpaces.C98_registered, UserSpaces.C98_safe, UserSpaces.C98_stays, UserSpaces.C98_violated_join, UserSpaces.C98_violated_left, WorkerPool.C88_bounded, WorkerPool.C88_calls, WorkerPool.C88_writes
* `Classical.choice`, `Quot.sound`, `propext`: AccountData.C46_insert_total, AccountData.C46_last_write, AccountData.C46_select, AccountFlow.C120_authentic, AccountFlow.C120_delivered_partial, AccountFlow.C120_partial, AccountFlow.C120_violated_back, AccountFlow.C120_violated_late, AccountFlow.C120_violated_load, AccountFlow.C120_violated_off, AccountFlow.C120_violated_panic, AccountFlow.C120_violated_read, Circular.C44_contents, Circular.C44_last, ClientMeta.C109_avatar_partial, ClientMeta.C109_partial, ClientMeta.C78_avatar_partial, ClientMeta.C78_counts_partial, ClientMeta.C78_name_partial, Config.C140_cors, Config.C140_incomplete, Config.C140_options, Config.C140_pages_partial, Config.C140_served, Config.C140_transport_partial, Config.C140_violated_debug, Config.C140_violated_socket, Conn.C15_never_nil, Conn.C15_retry_idempotent, Conn.C16_positions, Conn.C17_least_newer, Conn.C17_not_dropped, Conn.C18_failure_not_committed, ConnLists.C118_changed_partial, ConnLists.C118_only, ConnLists.C118_unchanged, ConnLists.C29_partial, ConnLists.C29_violated_unknown, ConnLists.C63_first, ConnLists.C63_partial, ConnLoad.C24_monotone_partial, ConnLoad.C24_stream_partial, ConnMap.C19_close_device_partial, ConnMap.C19_close_no_others, ConnMap.C19_close_users_partial, ConnMap.C19_lookup_isolated, DedupAccount.C52_key, DedupAccount.C52_separate_partial, DedupAccount.C52_stored_partial, DedupAccount.C52_violated, DeviceListFlow.C119_caught_up_partial, DeviceListFlow.C119_partial, DeviceListFlow.C119_violated_changing, DeviceListFlow.C119_violated_failing, DeviceListFlow.C119_violated_late, DeviceListFlow.C119_violated_unstored, Dispatcher.C22_ephemeral, Dispatcher.C22_initial, Dispatcher.C22_membership_history, Dispatcher.C22_no_leak, Dispatcher.C22_recipients_partial, Dispatcher.C23_force_iff, Dispatcher.C23_forced_delivery, E2EE.C37_fallback, E2EE.C37_otk_partial, EndToEnd.C114_blocks_partial, EndToEnd.C114_end_to_end_partial, EndToEnd.C114_joined_later_partial, EndToEnd.C114_joined_later_up_to_date, EndToEnd.C114_up_to_date, EndToEnd.C114_violated_zero, EndToEnd.C115_tracker_partial, EndToEnd.C116_blocks_partial, EndToEnd.C116_blocks_up_to_date, EndToEnd.C116_joined_later_partial, EndToEnd.C116_joined_later_up_to_date, EndToEnd.C116_state_partial, EndToEnd.C116_up_to_date, EndToEnd.C127_joined, EndToEnd.C127_partial, EndToEnd.C127_violated_missed, EndToEnd.C127_violated_reload, Executor.C128_tracker, Extensions.C31_violated_mixed, Extensions.C31_visible, Extensions.C31_visible_total, Extensions.C33_exact, Extensions.C33_initial_partial, Farewell.C135_once_partial, Farewell.C135_stream_partial, Farewell.C135_violated_devices, FilterFlow.C137_copy_partial, FilterFlow.C137_listed_partial, FilterFlow.C137_loaded_partial, FilterFlow.C137_violated_direct, FilterFlow.C137_violated_held, FilterFlow.C137_violated_ignored, FilterFlow.C137_violated_upgrade, Filters.C10_complete, Filters.C10_exact, Filters.C10_include_partial, Filters.C10_violated, FirstLoad.C97_list, FirstLoad.C97_loaded_partial, FirstLoad.C97_stuck, FirstLoad.C97_violated_never, FreshStore.C153_from_start_partial, FreshStore.C153_kept_partial, Handover.C151_stored, Handover.C151_violated_stored, Heroes.C77_heroes, Heroes.C77_invited_partial, Heroes.C77_joined, Heroes.C77_members_partial, Heroes.C77_names_partial, IdleConns.C154_created, Ignoring.C122_never, Ignoring.C122_only_partial, InitialRoom.C85_private_partial, InitialRoom.C85_violated_ban, InitialRoom.C85_violated_leave, InitialRoom.C85_violated_list, InitialRoom.C85_violated_reject, InviteData.C103_exists, InviteData.C103_inviter, InviteData.C103_named, InviteData.C103_values_partial, InviteFlow.C96_count_partial, InviteFlow.C96_invite_partial, InviteFlow.C96_violated_ban, InviteFlow.C96_violated_count, InviteFlow.C96_violated_late, InviteFlow.C96_violated_lost, InviteFlow.C96_violated_race, Invites.C57_batch, Invites.C57_history, KeyFlow.C121_authentic, KeyFlow.C121_next_partial, KeyFlow.C121_partial, LazyMember.C26_violated_empty, LazyMember.C26_violated_key, Leaving.C83_exact, Leaving.C83_listed_partial, Leaving.C83_violated_ban, Leaving.C83_violated_leave, Leaving.C83_violated_message, Leaving.C83_violated_reject, Leaving.C83_violated_rejoin, Lifecycle.C148_no_leak, Lifecycle.C148_once, Lifecycle.C148_usable, ListFlow.C138_names_partial, ListFlow.C138_once_partial, ListFlow.C138_shown_partial, ListFlow.C138_violated_batch, ListFlow.C138_violated_direct, ListOps.C04_move_indexes, ListOps.C05_panic_iff, ListOps.C05_replay_partial, ListOps.C06_subs_partial, ListOps.C06_subs_shown, ListSync.C81_all_rooms, ListSync.C81_violated_batch, ListSync.C81_violated_getall, ListSync.C81_windows_partial, Lists.C09_created, Lists.C09_last_update_partial, Lists.C09_violated, Lists.C09_wellformed, Lists.C61_recency, LiveLoop.C82_answered, LiveRooms.C106_full, LiveRooms.C106_partial, LiveRooms.C106_update, LiveRooms.C130_heard, Locks.C129_finish_partial, LostUpdates.C143_calls_partial, LostUpdates.C143_orderly_partial, LostUpdates.C143_spaces, ManyConns.C147_alone, ManyConns.C147_messages_partial, ManyRooms.C155_alone, MemberColumn.C131_fetch, MemberColumn.C131_profile_change, MemberColumn.C131_reset, MemberColumn.C131_startup, Metadata.C74_encrypted, Metadata.C74_partial, Metadata.C74_text, Metadata.C74_violated_children, Metadata.C74_violated_redaction, Metadata.C74_violated_restart, Metadata.C74_violated_upgraded, Migrations.C90_bogus, Migrations.C90_stuck, Migrations.C90_up, NumLive.C110_partial, OwnTimeline.C99_immediate, OwnTimeline.C99_lost, OwnTimeline.C99_partial, OwnTimeline.C99_violated_lost, Ownership.C132_not_written, Ownership.C132_snapshot_partial, Ownership.C132_spaces_partial, PollLoop.C105_ends, PollLoop.C105_expires, PollLoop.C105_released_partial, PollRequest.C158_blocked, PollRequest.C158_recovers, Poller.C68_counts_partial, Poller.C68_fallback, PollerMap.C69_running_partial, PrevBatch.C89_no_gap_partial, Races.C142_exact, Races.C142_protected_partial, Races.C142_writers_partial, Ranges.C01_valid_iff, Ranges.C02_delta_exact, Ranges.C02_delta_partial, Ranges.C02_delta_violated, Ranges.C03_sliceInto, ReceiptFlow.C124_partial, ReceiptFlow.C126_authentic, ReceiptFlow.C126_private, Receipts.C66_insert, Recency.C100_bump_partial, Recency.C100_last_partial, Recency.C100_loaded, Recency.C100_recent_partial, Recency.C100_types, Redact.C76_first_kept, Redact.C76_flag, Redact.C76_no_error, Redact.C76_permanent, Redact.C76_redacted_partial, Redact.C76_untouched, Repeat.C144_same_partial, Repeat.C144_violated_failed, Request.C12_active_partial, Request.C12_announced, Request.C13_limit, Request.C13_violated, Request.C14_query_tight, Request.C14_selection, Request.C62_old_partial, Retention.C141_restarts, RoomAccountFlow.C125_authentic, RoomAccountFlow.C125_delivered_partial, RoomAccountFlow.C125_partial, RoomAccountFlow.C125_violated_before, RoomAccountFlow.C125_violated_failing, RoomAccountFlow.C125_violated_load, RoomAccountFlow.C125_violated_other, RoomAccountFlow.C125_violated_read, RoomAccountFlow.C125_violated_tag, RoomIsolation.C157_isolated, RoomIsolation.C157_own, RoomIsolation.C157_stored, RoomName.C56_disambiguated, RoomName.C56_exists, RoomName.C56_name, RoomName.C56_same_name, RoomName.C70_partial, RoomName.C70_violated, RoomState.C102_partial, RoomState.C102_usual_partial, RoomState.C102_violated_batch, RoomState.C102_violated_type, RoomsBuilder.C27_slices_partial, RoomsBuilder.C27_values, RoomsBuilder.C27_violated, RoomsTable.C59_recorded, RoomsTable.C59_step, RoomsTable.C71_partial, RowLocks.C152_no_circle_partial, RowLocks.C152_progress_partial, Serve.C111_client_error, Serve.C111_crash, Serve.C111_ok, Serve.C111_server_error, Serve.C111_unknown_pos, Serve.C111_unknown_token, Serve.C111_violated_crash, Serve.C112_own, Serve.C112_partial, Serve.C112_unknown, Serve.C112_violated_pos, Serve.C112_violated_timeout, SharedHeroes.C84_reads, SharedReq.C91_retry, SharedReq.C91_second, SharedReq.C91_settings, SideTables.C73_partial, SideTables.C73_violated, SortableRooms.C07_one_move, SortableRooms.C07_sort, SortableRooms.C08_index_partial, SortableRooms.C08_results, SortableRooms.C08_violated, Spaces.C58_children, Spaces.C58_no_error, Spaces.C58_relation, SpamDelay.C156_hasty, SpamDelay.C156_patient_partial, SpamDelay.C156_violated, SqlUtil.C47_chunks, StartPollers.C75_finishes, StartUp.C136_heroes, StartUp.C136_isolated, StartUp.C136_rooms, StartUp.C136_store, Store.C101_exact, Store.C101_last, Store.C101_only, Store.C101_stable, Store.C145_before_partial, Store.C145_current_partial, Store.C145_events_partial, Store.C145_served_partial, Store.C38_positions, Store.C38_stored, Store.C39_accumulated, Store.C39_known, Store.C39_replay, Store.C40_before, Store.C40_current, Store.C40_no_error, Store.C41_empty, Store.C41_filtered_partial, Store.C41_state_partial, Store.C43_before_no_block, Store.C43_before_partial, Store.C43_current, Store.C79_client_partial, Store.C79_marked, Store.C79_no_holes_partial, Store.run_rooms, Supersede.C146_closed_partial, Supersede.C146_older, Supersede.C146_prompt_partial, SyncURL.C113_injective, SyncURL.C113_query, Ticker.C54_delivered, Ticker.C54_exactly_once, Ticker.C54_never_lost, Ticker.C54_no_more, Ticker.C54_payload, ToDevice.C34_deleted, ToDevice.C34_eventually, ToDevice.C34_in_order, ToDevice.C34_kept, ToDevice.C34_never_lost, ToDevice.C34_response, ToDevice.C35_delivered_partial, ToDevice.C35_dropped_partial, ToDevice.C35_no_cancel, ToDevice.C35_removed_partial, ToDeviceFlow.C117_caught_up, ToDeviceFlow.C117_conserved, ToDeviceFlow.C117_message_partial, ToDeviceFlow.C117_partial, ToDeviceFlow.C117_stored_once, Tracker.C20_indexes_agree, Tracker.C21_invited_last_write, Tracker.C21_joined_last_write, Tracker.C21_transitions, TxnWaiter.C25_queued_iff, TxnWaiter.timers_drain, TypingExt.C86_converges_partial, UnreadFlow.C123_authentic, UnreadFlow.C123_partial, Upstream.C139_handed, Upstream.C139_owner, Upstream.C139_read, Upstream.C139_token_partial, Upstream.C139_violated_case, UserCaches.C94_fresh_partial, UserCaches.C94_violated, UserCaches.C94_wrong, UserCaches.C95_complete_partial, UserFlags.C104_direct_partial, UserFlags.C104_ignored_partial, UserFlags.C104_invited_partial, UserFlags.C104_tags, Visibility.C42_only_requested, Visibility.C42_range, Visibility.C42_sound, Visibility.C42_timeline, Wire.C134_data, Wire.C134_data_first, Wire.C134_round_trip, Wire.C134_waits, WorkerPool.C88_live

## What is modelled

Every definition cites the lines it models. Per module, from the head of the file:

| module | models |
|---|---|
| Util | Small general-purpose definitions: a structurally recursive stable sort (used for Go's `sort.Slice`/`sort.SliceStable`), and its laws. |
| Ranges | Model of `sync3/range.go` Go `int64` is modelled by `Int` (overflow not modelled). A Go panic is the result `none` of an `Option`-valued function. |
| RangesLemmas | Helper lemmas for the sweep line of `SliceRanges.Delta`. |
| RangesSweep | The invariant of the sweep line of `SliceRanges.Delta`. |
| RangesDelta | From the sweep invariant to a statement about ranges. |
| ListOps | Model of `sync3/ops.go` and the move logic of `sync3/request.go` `CalculateListOps` works on an abstract list; here the list is a plain list of rooms of an arbitrary type `α` (room IDs), and the effect of `list.Sort(reqList.Sort)` is a function argument `sort`. A panic (reading outside the list) is `none`. |
| ListOpsSpec | Specification used by the list-operation theorems (C04-C06). |
| ListOpsLemmas | Lemmas about the move indexes of `Verif.ListOps`. |
| ListOpsClient | Lemmas about the replaying client of `Verif.ListOps`. |
| ListOpsRun | Replaying the operations of one `CalculateListOps` call. |
| Conn | Model of `sync3/conn.go` One connection: positions, retransmits and the buffer of unacknowledged responses. The request handler is arbitrary: each request comes with the result the handler would give (`none` = error or recovered panic, `sync3/conn.go:93-122`). The mutex makes requests atomic (`sync3/conn.go:138-153`), so a connection is a state machine over requests. Waiting times and the injected low timeout (line 221) are not modelled. Simplified: the remembered request is the one sent; that its extension objects can be changed afterwards is in `SharedReq`. |
| ConnFlow | A client with a connection of the proxy: the connection with its buffer of responses (`Conn.step`, sync3/conn.go), new connections (sync3/handler/handler.go 347-461, sync3/connmap.go 138-163), expired ones, lost responses and what the client makes of those that arrive. What a response holds and how the client takes it in are parameters. A request takes several steps, so that other things can happen while it is in progress. One connection at a time. The body of a request is a number, as only equality matters. |
| ConnMap | Model of `sync3/connmap.go` The map of connections, the TTL cache and its expiry callbacks. The cache (`ReneKroon/ttlcache`) runs its expiry callback in a separate goroutine, so removing an item and running `closeConnExpires` for it are two steps; `pending` holds the callbacks not yet run. Expiry of an item by its TTL is an explicit operation which may happen at any time. `connIDToConn` (used only for a metric) and the spam delay are not modelled. `userIDToConn` maps a user to that user's connections in creation order; it is represented by one list of connections. |
| Lifecycle | Which connections listen to a user's cache `NewConnState` subscribes the connection to its user's cache (`sync3/handler/connstate.go:94`) and `Destroy` ends the subscription (`sync3/handler/connstate.go:725-732`). `Destroy` is called when the `ConnMap` closes a connection (`sync3/connmap.go:244`) and by the connection itself when its buffer is full (`sync3/handler/connstate_live.go:44-45`); both may happen to the same connection. The `ConnMap` is that of `ConnMap`, with callbacks that run at any later time. Each step of it is followed by the subscriptions it ends and makes; in the code they are made under the lock of the `ConnMap`, but for those that the buffer ends. A user's cache is never replaced (`sync3/handler/handler.go:525-575`). |
| Tracker | Model of `sync3/tracker.go` (`JoinedRoomsTracker`) Go maps from string to set are total functions to duplicate-free lists: an absent key, a nil set and an empty set behave alike in every method (reads and deletes on nil are no-ops and each method allocates before writing). The order of the list stands for Go's unspecified map order; no theorem depends on it. The mutex makes each method atomic. |
| Dispatcher | Model of `sync3/dispatcher.go` Receivers are identified by the user ID they are registered under; calls on receivers are recorded as deliveries in order. Each method is atomic (in the code registrations may be interleaved between computing the recipients and notifying them; `notifyListeners` looks receivers up again). Parsing of the event JSON is not modelled: an event is given by its parsed fields. |
| SortableRooms | Model of `sync3/sort.go` `sort.SliceStable` is modelled by a stable insertion sort (`Util.isort`); the standard library's algorithm gives the same result whenever the comparison is a strict weak order, which is proved. Go compares strings bytewise, which for UTF-8 is the code-point order used here. `finder.ReadOnlyRoom` is a total function: rooms of a list are always known (proved in `ListsProps`). |
| Filters | Model of `RequestFilters.Include` (`sync3/request.go:488-566`) `strings.ToLower` is a parameter `lower`, since nothing depends on how case is folded. The calculated room name (`internal.CalculateRoomName`, modelled in `RoomName`) is a field of the room. Nullable strings are `Option String`. |
| Lists | Model of `sync3/lists.go` with the per-list processing of a live update The room lists of one connection. An update is `SetRoom` (`sync3/lists.go:59-153`) followed by `resort` for every list delta (`sync3/handler/connstate_live.go:176-187, 423-459`). A panic is `none`. Simplifications: * The canonicalised name is recomputed from the calculated name on every update; the code keeps the previous one if `SameRoomName` holds, in which case the calculated name is the same (`RoomName.C56_same_name`). * `GetLastInterestedEventTimestamp` writes its fallback into the map while a list is being sorted (`sync3/room.go:90-107`). Here reading does not write, and the write is a separate operation `touch` that can happen at any time. * Fields that neither filters nor comparators read are left out. |
| Request | Model of the sticky request parameters, `sync3/request.go` Go maps are functions to `Option`; the loops over them treat every key independently, so the iteration order is not visible. A nil slice or pointer is `none`. `IncludeOldRooms` is itself a room subscription; its own `IncludeOldRooms` is never read (`sync3/handler/connstate.go:481-509`), so it has none here. Extensions are modelled in `Extensions`. |
| LazyMember | Model of `sync3/handler/lazy_member.go` and its two uses Strings are lists of characters (only concatenation and equality matter). The two Go maps used as sets are lists, of which only membership is read. |
| LazyFlow | What a client that lazily loads members knows of them With `["m.room.member", "$LAZY"]` a connection sends the member events of those users only that the client hears of: the senders in the first timeline of a room (`sync3/handler/connstate.go:569-597`, `sync3/caches/global.go:192-224`), the senders of live events (`sync3/handler/connstate_live.go:248-262`) and users who type (`sync3/handler/connstate.go:526-553`). The client keeps the member events it has, takes over those of the required state, and then those of the timeline. Positions are counted in the events of each room, in place of the global numbers of the events. The state at a position is that after all events up to it (C41 says when the store gives it). Loading state does not fail. Live updates that are always processed, which repeat an event, are left out. The cache of the members that were sent is that of `LazyMember`, with its keys. |
| TxnWaiter | Model of `sync3/handler/txn_id_waiter.go` The lock makes `Ingest` and `PublishUpToNID` atomic. `time.AfterFunc` timers all have the same delay, so they fire in the order in which they were started; a pending timer is an entry of `timers`. `published` records the calls of `publish`. |
| RoomsBuilder | Model of `sync3/handler/rooms_builder.go` `BuildSubscriptions` is written once over a combining operation that may change a heap, and used twice: with values (`Request.combine`), and with Go slices that share backing arrays, because `Combine` appends to a slice of one of the stored subscriptions. Iteration order: the loop over `roomToSubIDs` runs in an arbitrary order, given as `order`. The ids of a room are collected from a map but sorted in place by `subKey` before they are used, so they are ascending. The key string `fmt.Sprintf("%v", ids)` is the list of ids. The result is a set of pairs (its order is not used by the caller). |
| EnsurePoller | Model of `sync3/handler/ensure_polling.go` One `pendingPolls` entry (the entries of different devices do not interact). The mutex makes each critical section one step; waiting on a channel and what follows it is a separate step (`wake`), possible once the channel is closed. Closing a closed or nil channel panics, which is `none`. |
| ConnLoad | Model of the load positions of a connection, `sync3/handler/connstate.go` and `connstate_live.go` The database is the log of the events of the rooms the user is joined to; the position (NID) of an event is its number in the log, counted from 1, and the log only stores the room of each event. Rooms are numbered. Which rooms are (re-)loaded and whether an event is of interest (`hasUpdates`) is decided by the list code and is an arbitrary input here. Not modelled here: `AlwaysProcess` events (they bypass the positions, see `Farewell`), ignored senders, and changes of membership (the user is joined to all rooms of the log). |
| ConnLists | Model of `sync3/handler/connstate.go`: list requests, room subscriptions and old rooms `s.lists.AssignList` and `Sort` are modelled in `Lists`; here the room list before the request (`cur`, or the new list if there was none) and the list after re-creating and re-sorting it (`re`) are inputs. `FiltersChanged` compares the JSON encodings, modelled as inequality of the filters. |
| Extensions | Model of `sync3/extensions/extensions.go` and `account_data.go` One extension of a request; the extensions do not interact. A nil pointer or slice is `none`. |
| ToDevice | Model of `state/to_device_table.go` and `sync3/extensions/todevice.go` The inbox of one (user, device). A to-device message is its `type`, `sender` and the three fields of its content the code reads; the rest is `body`. Positions come from a sequence shared by all devices, so an insertion may skip numbers. Each transaction is one step: insertions for one device come from its poller and are not concurrent with each other. Database errors are not modelled. |
| E2EE | Model of `state/device_data_table.go`, `state/device_list_table.go`, `sync3/extensions/e2ee.go` and `parseE2EEData` of `sync2/poller.go` The data of one (user, device). Transactions are atomic steps. CBOR encoding is taken to be lossless. A Go map is an association list with distinct keys (`Nodup` is a hypothesis where it matters); the order is irrelevant. |
| KeyFlow | One-time key counts and unused fallback key types from the homeserver to the client: the poller (`E2EE.parse`, sync2/poller.go 709-772, with the v2 handler as receiver, sync2/handler2/handler.go 230-253), the row of `syncv3_device_data` (`E2EE.upsert`, `E2EE.read`), the extension, the connection with its buffer of responses and the client (`ConnFlow`). One device with one poller and one connection at a time. A request begins with a read of the tables if the extension is on (sync3/handler/connstate.go 226-237), may be woken up and read again while it has nothing (sync3/extensions/e2ee.go 43-55), and ends. The rest of a response is not modelled, device lists are as far as they decide whether a request is woken up (C119 is about them). |
| KeyFlowExamples | C121: how counts and fallback key types are missed, and a run that meets the hypotheses of the theorems. |
| Store | Model of `state/event_table.go`, `state/accumulator.go` and the state queries of `state/storage.go` The events, snapshots and rooms tables. A transaction is one step and is rolled back on error. An event is its id, type, state key and whether its JSON has a `state_key` (the column holds "" if not); the rest of the JSON is not modelled, and neither are redactions, invites, spaces and room info (see `Invites`, `Spaces`, `RoomsTable`). Rows are kept in ascending order of their number, which is how the queries return them. |
| StoreLemmas | Lemmas about the events, snapshots and rooms tables |
| StoreInv | Invariants of the events and snapshots tables |
| StoreSpec | What the store should do, and that it does The specification knows nothing of numbers and snapshots: it has the ids seen, for each room the current state as a function from keys to event ids, and for each timeline event the state before it. |
| StoreSim | The store refines its specification |
| StoreHist | The state of a room is its stored events in order of position (C40, C41) |
| StoreState | C41: the state of a room at a position |
| Visibility | Which part of a room's timeline a user may see (state/storage.go 712-967, 1150-1189 and state/event_table.go 420-440, 497-512). Simplifications: the events table is the list of its rows in ascending `event_nid`; membership rows are those of one user (the queries all fix `event_type = 'm.room.member' AND state_key = userID`). |
| Circular | `circularSlice` (state/storage.go 1203-1225), the buffer that keeps the most recent room members as heroes. |
| SqlUtil | `sqlutil/sql.go`: chunking of bulk writes and transactions. |
| AccountData | The account data table (state/account_data.go 41-89, state/storage.go 118-159). The serial `id` of a row is not modelled: no query orders or filters by it. |
| StoreClean | Removing snapshots (`state/storage.go:766-807`) and C43 |
| Receipts | Receipts: packing and unpacking of `m.receipt` events and the two tables (state/receipt_table.go), the live split into public and private (sync3/handler/handler.go 756-786, sync3/dispatcher.go 242-265) and the receipts extension (sync3/extensions/receipts.go 34-129). JSON encoding is not modelled: an EDU is its type and content. The content is a map from event id to two maps (`m.read`, `m.read.private`) from user id to receipt; here it is one list of entries with distinct keys (event, private?, user). Reading a Go map yields the entries in any order, so reading is a relation. |
| PendingTxn | Pending transaction ids (sync2/txnid.go), used by the v2 handler after storing a timeline (sync2/handler2/handler.go 333-367). Calls hold one mutex, so a concurrent history is a sequence of calls. |
| ReceiptsStore | C66: what the receipt tables hold after deliveries (state/receipt_table.go 62-163). |
| Poller | The v2 poller: the poll loop and the processing of a sync response (sync2/poller.go 491-955). The receiver (the v2 handler behind `PollerMap`) is a parameter: a state and a function giving the new state and the error returned. Every call made to it is logged together with the error. Events are identified by what the poller reads of them. Logging, metrics and the HTTP request itself are not modelled; what the upstream server answers, the clock and termination by others are inputs of each turn of the loop. |
| PollerMap | `PollerMap` (sync2/poller.go 83-310) and the life of a poller (sync2/poller.go 477-544). `EnsurePolling` holds the mutex up to the point where it waits, so each call is one step. Pollers terminate (by themselves, by `ExpirePollers` or by `Terminate`) and their goroutines end at any moment in between. The executor, metrics and the requests are not modelled here. |
| Assoc | Go maps as association lists, with get, set and delete. |
| Unread | Unread counts: sync2/handler2/handler.go 450-485 `UpdateUnreadCounts`, state/unread_table.go 26-76, and their readers: sync3/handler/handler.go 533-537 (when a user cache is made) and sync3/caches/user.go 546-560 `OnUnreadCounts`. The room and user of a count are a pair; all users are kept in one table and one cache. |
| DedupAccount | sync2/handler2/handler.go 487-525 `OnAccountData`: duplicate suppression in front of the account data table (`Verif.AccountData`). The hash function (632-636, FNV-1a) is a parameter. Calls are serialised by the executor of the poller map (sync2/poller.go 313-330), so a call is one step. |
| Typing | Which poller's typing notifications are used: sync2/handler2/handler.go 186-196 `OnTerminated`, 396-416 `SetTyping` and the last part of `OnLeftRoom` (541-562). All three hold `typingMu`, so each is one step. |
| Ticker | `DeviceDataTicker` (sync2/device_data_ticker.go 14-88). `sync.Map.Range` is modelled as its documentation says: it visits no key twice, visits every key that is present throughout, and may or may not see keys stored or deleted meanwhile. Visiting a key and deleting it are separate steps, between which anything may happen. Any number of `emitUpdate` calls may be active at once (with a period, `Run` makes one at a time; without, every `Remember` makes one). |
| RoomName | Room names and avatars: internal/roomname.go 103-254. A panic (slice bounds, index) is `none`. `strings.Join` is `String.intercalate`, `%d` of a Go `int` is `toString`; integer overflow is not modelled. Go maps iterate in any order: `Disambiguate` is a relation. |
| Invites | Model of `state/invites_table.go` The invites table, a map from user and room to the stripped state of the invite (uninterpreted), with its upsert, removal and `RemoveSupersededInvites`, which `Initialise` and `Accumulate` call in their transaction with the events of a room. A database error is not modelled: it leaves the table unchanged. |
| Spaces | Model of `state/spaces_table.go` The table of space relations and `HandleSpaceUpdates`. `Initialise` and `Accumulate` call it with events of one room (`accumulator.go:201-207,573-577` set the room id). The iteration over the Go map is in any order. The chunks of `BulkInsert` are one statement after another (`sqlutil.Chunkify` is in `SqlUtil`); that a statement may not touch a row twice is checked, `none` is that error. |
| RoomsTable | Model of `state/rooms_table.go` and `roomInfoDelta` of `state/accumulator.go` The rooms table and its upsert, whose SQL text and arguments are put together at run time: here the text is the list of columns with the numbers of their parameters, and executing it looks the arguments up. |
| Tokens | Model of `sync2/tokens_table.go`, `sync2/devices_table.go` and their use in `setupConnection` A request looks its token up, asks the homeserver if it is unknown and records that the token was used. These are two steps, so that requests overlap in any way. Times are in nanoseconds; the database rounds them to microseconds, which is not modelled. Hashing and encryption are not modelled either: a row is found by the token itself. Saturation of `time.Sub` at 292 years does not change a comparison with 24 hours. |
| IdleDevices | Expiry of the pollers of idle devices Every hour `ExpireOldPollers` (`sync2/handler2/handler.go:614-630`) asks the database for devices that have made no request for 30 days and has their pollers terminated (`sync2/poller.go:225-247`). The query, the look-up of the pollers under the lock of the `PollerMap`, and the end of each poller are steps of their own; requests fall in between. The tokens are those of `Tokens`; `EnsurePolling` is one step that starts a poller if none is alive. That a poller whose token is refused ends and deletes the token (`sync2/poller.go:549-585`) is a step. Writing does not fail. |
| Handover | Which pollers of a user fetch a room's events A user with several devices has a poller for each (`sync2/poller.go:248-310`). A poller started while the poller of another device runs first asks for everything but rooms (`sync2/client.go:174-177`), relying on the other one for what happened in the rooms up to the token it is given. One room which the user is in all the time is looked at; its upstream timeline is a sequence of events numbered from 0, and a sync token stands for the number of events before it. The homeserver answers a sync with the events after the token, or with the last ones only (and `limited`) if they are more than the limit asked for. Asking and processing the answer are steps of their own. The state of the room and other users are left out. |
| RowLocks | The row locks of the transactions on a device's encryption data `Upsert` (`state/device_data_table.go:110-153`) is run by the poller of a device, `Select` (lines 48-107) by its requests, each in a transaction. PostgreSQL keeps the locks on the rows a transaction wrote or selected `FOR UPDATE` until the transaction ends; a statement which needs a row locked by another transaction waits. Modelled is which rows a transaction locks, in which order. The rows are taken one after the other also within a statement, in any order. Reading without `FOR UPDATE` waits for nothing. Locks on indexes and the detection of deadlocks by PostgreSQL (which aborts one of the transactions) are not modelled, but for the step `abort`. |
| FreshStore | To-device messages when the database is started afresh Positions of to-device messages come from a sequence in the database, and a client acknowledges messages by sending back a position. If the database is dropped, positions start again from 1 while clients still hold the old ones. Therefore the first `since` of a device after the start of the process is ignored (`sync3/extensions/todevice.go:74-92`); which devices were seen is kept in a map by device id (`sync3/extensions/todevice.go:15-20`). Modelled are all devices of all users, each with its inbox and its client as in `ToDevice`; only what that module calls `known` is taken from the map. An admin who drops the database has to restart the process, which makes the tables (`state/to_device_table.go:44-69`). |
| IdleConns | Connections that expire when they are not used The `ConnMap` of `ConnMap` with a clock: an item of the TTL cache expires when it was neither set nor looked up for the lifetime of the cache (`sync3/connmap.go:31-39`, 30 minutes in `sync3/handler/handler.go:83`). The cache itself, `ReneKroon/ttlcache`, is not in the repository: assumed is that `Set` and a successful `Get` give an item a full lifetime, that `Get` does not return an item whose time is over, and that the callback of such an item runs in a goroutine of its own. The time at which the cache notices that an item is over is arbitrary (`sweep`), but a look-up of its key notices it. Times are in milliseconds. |
| StoreRoom | Rooms of rows and snapshots For any upstream data, without the conditions of `OkOp`: a snapshot holds rows of its own room only, and the snapshots named by the rooms table and by the rows of a room are of that room. |
| ManyRooms | The state of many rooms in one query `RoomStateAfterEventPosition` (`state/storage.go:516-706`) with a filter loads the state of all rooms of a request with one query. `Store.stateAfterFiltered` is the part of it that concerns one room; here is the query as it is, over all snapshots at once, whose rows are then sorted into rooms. The events and snapshots are those of `Store`. |
| PollRequest | The request to poll for a device The client side asks the poller side to poll for a device (`V3EnsurePolling`) with the hash of the access token. The poller side looks the token and the device's position up (`sync2/tokens_table.go:221-240`) and starts a poller with them. The tables are as in `Tokens`, with the columns that matter here: a token row has its hash as key, a device row its `since`. Database errors are not modelled. |
| SpamDelay | The delay for clients that start over `CreateConn` makes a client wait that starts over although the connection it has was used for at most one answer (`sync3/connmap.go:143-151`, `SpamProtectionInterval` of `sync3/conn.go:17`). It sleeps while it holds the lock of the `ConnMap`, which every request of every client needs (`sync3/connmap.go:110-115`, `138-142`). The model is the `ConnMap` of `ConnMap`, which is served one operation after the other in any order, with the time for which the lock was held by sleeping; other work under the lock is taken to need no time. The second delay of the code (`sync3/conn.go:202`) holds the lock of a single connection and is not modelled. |
| SideTables | The space relations next to the event store `Initialise` and `Accumulate` (`state/accumulator.go:182-321,346-566`) change the events, snapshots and rooms tables and, in the same transaction, the spaces table. The parts of an event read by `HandleSpaceUpdates` are given by its id. Redactions are not modelled here (see `Redact`). |
| Metadata | Model of the room metadata of `sync3/caches/global.go`, and of what feeds it The store (`state/accumulator.go`), redactions (`state/event_table.go:382-418`), the payloads sent by `sync2/handler2/handler.go:260-394`, the queue of `pubsub/pubsub.go` and the global cache. The fields modelled are the name, avatar, alias, encryption, upgrade, type, predecessor and children of a room; the member counts and heroes are in `Heroes`, timestamps are not modelled. |
| Heroes | Model of the member counts and heroes of `sync3/caches/global.go` One room: its member events in the store, the tracker (`Tracker`) as the dispatcher drives it (`sync3/dispatcher.go:120-204`), the cached counts and heroes, their reload after an invalidation (`state/storage.go:312-381`) and at start-up (`storage.go:994-1073`). Simplified: what is stored is delivered before the next section is stored (see `Metadata` for the queue), and member events have a state key that is not empty. |
| ClientMeta | Model of how the name, avatar and counts of a room reach a connection One room and one connection which follows it: the global cache, the updates on their way to the connection, the copy of the metadata in the lists of the connection (`sync3/lists.go:59-153`), the load position and what the client has been told (`sync3/handler/connstate_live.go:133-313`, `connstate.go:109-170,560-700`). Simplified: metadata is that after `RemoveHero` of the syncing user, and only the fields of `RoomName.Meta`; the client takes a field of a response if it is there and starts anew with `initial: true`; a response arrives; the subscription or list has `include_heroes` (`shouldIncludeHeroes`, `connstate_live.go:461-476`). `nm` is the name given by `CalculateRoomName(_, 5)`, which depends on the order of a map only in principle (C56). |
| StoreGap | C79: a stored event not marked as missing its predecessor directly follows the one before it `state/accumulator.go:346-372`, `state/event_table.go:420-440`. |
| Redact | Model of redactions in the store `Accumulate` with the JSON of the events (`state/accumulator.go:430-497,532-550`), `Redact` and `SelectCreateEvent` (`state/event_table.go:382-418,548-553`). The JSON is a parameter, with the functions the code applies to it. |
| Txns | Model of the transaction ids of events The v2 handler remembers the transaction ids of a timeline (`sync2/handler2/handler.go:260-300`), the events are stored (`state/event_table.go:162-198`), and the ids are set again on the events sent to a client (`sync3/caches/user.go:436-493`). |
| StartPollers | Model of starting the pollers at start-up `StartV2Pollers`, `sync2/handler2/handler.go:124-177`: workers take the tokens from a channel and share the variable `err`. |
| ListSync | One list of a connection, from the server's room list to the client's windows Composes `Lists` (the room lists of a connection), `ConnLists` (the operations a request causes), `ListOps` (the operations an update causes, and the client's replay) into the history of one list `key`: each round is a request and its response, in which the operations of the request are followed by those of the live updates processed for it (`OnIncomingRequest`, `sync3/handler/connstate.go:191-267`, `liveUpdate`, `sync3/handler/connstate_live.go:49-115`). What the connection does for its other lists in between are `other` events. Simplifications: * When updates are processed, and how many go into one response (time-outs, the cap of 100), is not modelled: the events of a round are any list. * Updates that do not reach `SetRoom` have no effect on lists and are left out. * A client that drops a list forgets its rooms (the client in `client/sync.js` never drops one). * A request that fails is not modelled; retries are the subject of C13. |
| ListSyncExamples | C81: an example that meets the hypotheses, and witnesses of the violations |
| LiveLoop | Model of `sync3/handler/connstate_live.go`: the buffer of updates of a connection and the live loop The updates of a connection are queued in a channel by several goroutines (the listener which feeds the user caches, and timers that release events held back for their transaction IDs, `sync3/handler/txn_id_waiter.go:62`) and taken from it by the request being answered (requests of a connection are serialised by `Conn`). All sides are modelled as a machine of small steps that interleave in any order. Simplifications: * What an update does to the response (`processUpdate`) and whether the response has data are parameters. * Time is not modelled: the producer may give up whenever it is waiting, and the request may time out or be cancelled whenever it is at the `select` of the loop. * `bufferFull` is read and written in one step with the rest of `onUpdate`. |
| Leaving | Rooms a user joins and leaves, from the dispatcher to the lists of a connection Composes what the dispatcher (`sync3/dispatcher.go`) tells the cache of one user, the flags `IsInvite` and `HasLeft` the cache keeps for each room (`sync3/caches/user.go`), the updates a connection gets (`OnRoomUpdate`, `sync3/handler/connstate.go:744-764`) and its lists (`Lists`). Simplifications: * Events are new to the connection and not from ignored users (`sync3/handler/connstate_live.go:139-160`); state blocks are not modelled. * The rest of the room data in an update is arbitrary. |
| LeavingExamples | C83: concrete histories |
| SharedHeroes | Model of one room update shared by the connections of a user `emitOnRoomUpdate` (`sync3/caches/user.go`) hands the same update to every connection of a user, and each connection processes it in its own goroutine. The metadata in it is one `*internal.RoomMetadata`. This is modelled as memory: `arr` is the array behind the slice `m.Heroes` and `len` its length. Every goroutine runs, one atomic step at a time, * `DeepCopy` (`internal/roomname.go:67-101`), called at `sync3/handler/connstate_live.go:360`, and `RemoveHero` on the copy; * then, for every of the name and the avatar that has changed, `RemoveHero` (`internal/roomname.go:135-142`) on the shared metadata and a read of its heroes (`sync3/handler/connstate_live.go:272-288`). Simplified: the search of `RemoveHero`, its `append` and the copying of the elements are atomic each. A panic is `none`. |
| InitialRoom | Model of `getInitialRoomData`: what a client is sent about a room that comes into view `sync3/handler/connstate.go:554-700`, for one room (the rooms of a call do not influence each other), and the part of the user cache it depends on: the invite data kept with the flag `IsInvite` (`sync3/caches/user.go`). Simplified: `CalculateRoomName(_, 5)` is a function `nm` of the metadata (`RoomName` has its definition, a relation because of map iteration); events are opaque strings. What the timeline is, is the subject of C42. |
| InitialRoomExamples | C85: concrete histories |
| TypingExt | Model of the typing extension of a connection `sync3/extensions/typing.go:31-94`, with what feeds it: `OnTyping` (`sync3/handler/handler.go:788-798`), the typing event in the global metadata (`sync3/caches/global.go:261-275`) and the updates of the user cache (`sync3/caches/user.go:499-513,397-415`). One room and one connection that has the extension. Simplified: that the room is in scope (`RoomInScope`, C31) and that it is in the response are inputs. An update arrives at a connection through a queue and carries the typing event as it was then. A response arrives. |
| PubSub | Model of a channel of the pub/sub `pubsub/pubsub.go`: `Notify` (78-94), `Close` (96-107), `Listen` (109-118), over a Go channel with a buffer of `n` payloads. Any number of goroutines notify, one listens. Every step another goroutine can see is an operation, in any order. Simplified: one channel name; the mutex of the `PubSub` is modelled. `Close` is called by one goroutine, so that its unlocked read of `closed` is not a race. Time-outs may happen at any time. Callbacks do not panic. |
| WorkerPool | Model of the worker pool and of `OnE2EEData` `internal/pool.go:44-67`: `n` workers and a Go channel with a buffer of `n` functions; `sync2/handler2/handler.go:230-253`: each call queues one function that writes to the database, and waits for it. The callers are the pollers, one call of each at a time. Simplified: the write, `Remember` and `wg.Done()` are one step. The pool is never stopped. Functions do not panic. |
| PrevBatch | Model of the `prev_batch` tokens A token is stored with the first event of the sync v2 timeline it came with (`state/accumulator.go:570-601`), and given to the client with a timeline by looking for a stored token at or after its first event (`state/event_table.go:538-546`, `state/storage.go:712-763,809-817`). One room. Events are their places in the upstream timeline, which also are their ids. A token is a place too: paging back from it gives all events before that place. Simplified: the room has a snapshot, so timelines are not skipped (`accumulator.go:389-425`). |
| Migrations | Model of the migrations that move or delete data `state/migrations`: `20240517104423_device_list_table.go`, `20230822180807_bogus_snapshot_cleanup.go`, `20231108122539_clear_stuck_invites.go` and `20231019153023_cleanup_dead_invites.sql`. Tables are lists of rows; each migration is one transaction, `none` if it fails and is rolled back. Go maps are association lists. Simplified: CBOR is lossless; inserting in chunks is inserting all rows (C47). The migrations that only change the encoding of the device data are in `Reencode.lean`. |
| SharedReq | Model of request objects shared between `sync3/conn.go` and the sticky request `Conn` keeps the last request as `lastClientRequest = *req`, a shallow copy: the extension objects are the ones of the request, and they are also the ones of the sticky request `ConnState.muxedReq` if the request was the first with that extension. `Request.ApplyDelta` writes to these objects, so it can change what the next request is compared to. Heap: each request has a block with one object for each of the five extensions. Simplified: the rest of the request is immutable (its maps and slices are only read); the `limit` and `since` of the to-device extension are left out. |
| Auth | Model of who a request is served as `setupConnection` and `identifyUnknownAccessToken` (`sync3/handler/handler.go:347-504`), the tokens table (`sync2/tokens_table.go`), the pollers as users of tokens (`sync2/poller.go`) and the homeserver that issues and revokes tokens. Each access to the database, the homeserver or a map is one step, so that requests, pollers and revocations interleave in any way. Simplified: a row is found by the token, not by its hash; connections are keyed by device and connection id (C19 has the string key); what `EnsurePolling` tells a caller is arbitrary (C30); tokens are not issued twice. |
| PollStart | Model of getting a device polled, from the request to the poller and back `EnsurePoller` (`sync3/handler/ensure_polling.go`), the two pub/sub channels, `Handler.EnsurePolling` and `OnExpiredToken` (`sync2/handler2/handler.go:198-209,564-596`) and the poller of the device in the `PollerMap` (`sync2/poller.go:225-310`, `sync2/poller.go:549-600`), for one device. Every access to shared state is one step. The counters at the end of the state are not in the code; they count what went wrong. Simplified: the channels are unbounded, and a notification that times out is a step in which it is not sent (C87 has the channels); that a sync ends is a step that may happen (a poller that panics in its first sync never gets there, C69); the pollers of the user's other devices decide only whether to wait, so that waiting is not modelled. |
| UserCaches | Model of how a user's cache comes to be, is fed and goes away `userCache` (`sync3/handler/handler.go:525-588`), the handlers of messages that look the cache up (`sync3/handler/handler.go:696-754,800-814`), `Register`, `Unregister` and `UnregisterBulk` of the dispatcher (`sync3/dispatcher.go:58-90`), `OnInvalidateRoom` (`sync3/handler/handler.go:829-877`) and the creation of connections (`sync3/handler/handler.go:439-457`), for one user. Each query, map operation or lock section is one step. Messages are handled by one goroutine, one at a time, which also hands on events and does invalidations. Simplified: a connection never expires by itself, and `CreateConn` never finds an existing one (C19); the value of a key is a number, 0 if there is none; database errors other than those of `OnRegistered` are not modelled (the request then fails and nothing was stored); retiring of invites by member events is not modelled (C57), nor that an invite sets the highlight count and the direct flag of its room, which are other keys (C53). |
| InviteFlow | Invites and highlight counts of a room, from several pollers to the user's cache One user and one room. What happens upstream is a list: member events of the user and changes of the highlight count. Pollers of the user's devices, and those of other users in the room, deliver it piecewise and at their own pace (`parseRoomsResponse`, `sync2/poller.go:784-955`); what they deliver goes to the tables (`sync2/handler2/handler.go:260-394,450-562`, `state/accumulator.go:346-566`, `state/invites_table.go:50-104`) and to the user's cache (`sync3/caches/user.go:546-569,593-695`). Simplifications: * Only member events of the user and the highlight count are modelled. Membership changes that are not changes (profiles) are not. * The database and the pub/sub do not fail, and messages arrive at once and in order (C87, C94). * A response of a poller that goes from one place of the list to another has the room in the section of the user's membership at the end. When the user is joined, or for pollers of other users, state and timeline have all member events that are not stored yet; events before the last stored one are not new (`filterToNewTimelineEvents`, C39). In the `leave` section only the events since the last response of this poller are there. * State that arrives in a block is dispatched event by event (`sync3/dispatcher.go:120-168` does the same to the user). |
| FirstLoad | Model of the first load of a connection and what happens if it fails `OnIncomingRequest` (`sync3/handler/connstate.go:174-189`), `load` (`connstate.go:109-171`), the creation of lists (`AssignList`, `sync3/lists.go:229-253`, called without overwriting, `connstate.go:272`) and live updates (`processGlobalUpdates`, `sync3/handler/connstate_live.go:335-381`; `resort` adds a room that is not on the list, `connstate_live.go:423-459`). Simplified: the lists have no filters and their order does not matter; the user joins rooms but does not leave them; every event of a joined room is queued for the connection once, in order. The position of an event is its number, from 1. How many updates a request processes is arbitrary (C82). |
| UserSpaces | Model of the spaces a user's cache has for each room `UserRoomData.Spaces` (`sync3/caches/user.go:61-62`): `OnRegistered` (`user.go:246-318`), `OnSpaceUpdate` (`user.go:571-591`) and `OnNewEvent` (`user.go:593-619`), with the children and the type of a room in the global cache (`OnNewEvent`, `sync3/caches/global.go:281-378`) and the dispatcher (`OnNewInitialRoomState` and `OnNewEvent`, `sync3/dispatcher.go:120-214`). Simplified: one user; the joined rooms read from the store at registration are those of the tracker (C95), and the global cache was made from the same events (C74). Go maps are association lists; the order in which `OnRegistered` goes through maps has no effect on what is in them. |
| OwnTimeline | Model of how live events reach the timelines of rooms An event goes from the user's cache (`OnNewEvent` and `OnSpaceUpdate`, `sync3/caches/user.go:571-619`) through the transaction id waiter (`sync3/handler/txn_id_waiter.go`) to the connection, which adds it to the timeline of the room of the update (`processLiveUpdate`, `sync3/handler/connstate_live.go:133-262`). The room of an update (`RoomID()`) and the room of its event (`EventData.RoomID`) are two things: the update that `OnSpaceUpdate` makes for the child has the event of the space. Simplified: the user is joined to the same rooms throughout, all rooms are on display, and the timelines start with the initial data up to a position; loading rooms again is C24, the queue of the connection is C82, and who gets an event is C22. |
| Recency | Model of the recency of a room in the global cache, live and after a restart While the proxy runs, each dispatched event sets `LastMessageTimestamp` and the entry of its type in `LatestEventsByType` (`GlobalCache.OnNewEvent`, `sync3/caches/global.go:368-377`). At start-up both are loaded from the events table (`MetadataForAllRooms`, `state/storage.go:208-244`, with `selectLatestEventByTypeInAllRooms`, `state/event_table.go:442-480`). New connections order their rooms by them (`ConnState.load`, `sync3/handler/connstate.go:124-148`). Simplified: one room, as rooms do not mix in any of this; new events only (C38, C39); the events of one state block have different type or state key; each notification is handled before the next thing happens. |
| StartPos | Model of the positions a new connection starts from `LoadJoinedRooms` (`sync3/caches/global.go:142-172`) reads the highest NID (`SelectHighestNID`, `state/event_table.go:148-157`) and then, with further queries, the newest NID of each room up to it (`LatestEventNIDInRooms`, `state/storage.go:1103-1138`, `state/event_table.go:357-380`, `state/rooms_table.go:93-109`). Each query sees the database of its own time. The database is that of the module `Store`. |
| RoomState | Model of the loading of required state (`sync3/caches/global.go:191-223`, `sync3/handler/connstate.go:566-640`) The request side is `RSM` (`Verif.Request`), the storage side `stateAfter` and `stateAfterFiltered` (`Verif.Store`). The events are rows of the events table. The senders of the loaded timelines are a parameter, as the set of senders is a Go map whose keys come in any order. |
| InviteData | Model of `NewInviteData` and what is shown of an invite (`sync3/caches/user.go:78-171`) A stripped event has the strings `gjson` reads (missing or not a string is `""`). Timestamps are natural numbers. The error log is left out. |
| UserFlags | Model of direct chats, tags and ignored users in a user's cache `OnAccountData` (`sync3/caches/user.go:697-760`), `OnInvite` (`user.go:621-634`) and the making of a cache from the tables (`sync3/handler/handler.go:525-573`), for one user. Simplified: what a poller stores is handled at once (C94 is about the time between); account data is stored and handled one event at a time (events of one message have different types, which touch different fields). The map `roomToData` is a function, as a missing entry reads as one without flags. Of the content there is what `gjson` reads. |
| PollLoop | Model of a poller's life: the loop around `poll` `Poll` (`sync2/poller.go:499-544`): the loop, what ends it, and what it does at its end. `poll` itself is in `Poller`. Simplified: `poll` panics (a step) only before it announces the first sync; its panic leaves the receiver in any state. The callbacks that run on the executor's goroutine (`sync2/poller.go:314-318`) are not recovered there, so a panic in one ends the process; a panic here is one in the poller's own goroutine. |
| LiveRooms | Model of which rooms the responses of a connection have data for `processLiveUpdate`, `processUpdatesForSubscriptions`, `processLiveUpdateForList` and `resort` (`sync3/handler/connstate_live.go:133-459`) for a connection with any number of lists and room subscriptions: which rooms an update puts into the response, with full data (`initial: true`) or with the news only. Simplified: * The lists of a connection are a list; Go's map order does not matter as the rooms to build are a set and `hasUpdates` is a disjunction. * What `SetRoom` finds for each list (`sync3/lists.go:59-153`), the order of the list after the update, and whether the unread counts changed are input. So is whether the user is joined. Updates that are not of a room change nothing here. * The lists, orders and windows after a request and the rooms it builds are input (`ConnLists` has them). * A room entry is only whether it has full data. |
| LiveRoomsHeard | C130: the client hears of every event of the rooms it follows |
| Stamp | Model of the timestamp sent with a room `timestamp` of a room in responses, by which clients sort: `getInitialRoomData` (`sync3/handler/connstate.go:645-676`) and `processLiveUpdate` (`sync3/handler/connstate_live.go:197-219`), from what the caches know: `OnNewEvent` (`sync3/caches/global.go:369-377`), `MetadataForAllRooms` (`state/storage.go:219-242`), the join timings (`state/storage.go:1161-1189`) put into the user's cache when it is made (`sync3/caches/user.go:303-316`) and into the connection when it is loaded (`sync3/handler/connstate.go:109-171`). For one room, one user and one connection. Simplified: positions and timestamps are naturals, 0 is the zero value; an update carries the metadata as it is after its event (`newRoomUpdate`), so the event and its update are one step; an invite is not modelled. `seen` is not in the code: the events the connection's metadata is of. |
| TokenText | Model of how access tokens are stored `encrypt` and `decrypt` of `sync2/tokens_table.go:58-103`: a stored token is the nonce in hex, a space, and the sealed token in hex. `encoding/hex` and `strings.Split` are modelled as their documentation says; the cipher (AES-GCM) is a parameter with the one law that opening what was sealed gives it back. A nonce of the wrong size makes `Open` panic, as in Go's `crypto/cipher`. |
| ClientHeroes | C109: a client that has caught up has the current heroes of an unnamed room |
| NumLive | Model of `num_live` The rooms of a response on top of the load positions of a connection (`ConnLoad`): the timeline of each room in the response that is being made and its `num_live` (`sync3/handler/connstate_live.go:187-262`, `sync3/room.go:25`). `num_live` is the number of events at the end of the timeline that have just happened; clients notify of those only. Simplified as in `ConnLoad`. `live` and `again` are not in the code: the events of the room sent as live updates for this response, and whether the room was built again after one. |
| Serve | Model of the reply to a request `ServeHTTP`, `serve`, `setupConnection`, `identifyUnknownAccessToken` and `parseIntFromQuery` (`sync3/handler/handler.go:186-504,879-892`), `ExtractAccessToken` (`internal/request.go:9-16`), `HandlerError` (`internal/errors.go:21-55`) and `Validate` (`sync3/request.go:42-50`): which checks a request goes through, in which order, what the client is told when one fails, and what the request has done by then to the connections. What the database, the homeserver, the poller and the connection answer is given with the request. Simplified: logging, tracing, the last-seen time and the delay before errors are left out; whether ranges are valid is given (C01); the connection answers with a response, `M_UNKNOWN_POS` or an error without status (C15 to C18, `sync3/conn.go:137-250`); expiry of connections is left out. |
| SyncURL | Model of the address of a sync request `createSyncURL` (`sync2/client.go:147-187`), with `url.QueryEscape` and the text `json.Marshal` makes of the filter. Texts are lists of bytes, as a since token may have any bytes. Left out: the address of the homeserver, which comes before the path. |
| SyncURLExamples | A case of C113, apart as it is heavy. |
| EndToEnd | Model of the whole way of an event: from a poller to the client The parts are those of the other modules: the store (`Store`), the positions a connection starts from (`StartPos`), what part of a timeline a user may see (`Visibility`) and the dispatcher with its tracker (`Dispatcher`, `Tracker`). Here they are put together: pollers store sections of sync responses and publish messages (`sync2/handler2/handler.go:260-394`), the request handler takes them one by one and gives the events to the dispatcher (`sync3/handler/handler.go:650-693,829-877`), which gives them to the user's connection (`sync3/handler/connstate.go:744-765`), whose requests read rooms from the store (`sync3/handler/connstate.go:109-171,554-583`) and take events from the queue (`sync3/handler/connstate_live.go:133-262`). For one user and one connection at a time. Simplified: pollers write one at a time (`sync2/poller.go:314-318`); messages are neither lost nor exchanged (C87), nor are queued updates (C82); the connection has a single queue, so there is no delay for transaction ids (C25, C99) and no update other than events; no sender is ignored; which rooms are loaded and whether an event is of interest is decided by the lists and is an arbitrary input (C06, C81). Loading the positions is one step (`C101_stable` says why it may be). An event is known by the number of its row; its membership is given by its id. |
| EndToEndBus | What is under way between the pollers and the connections (for C114) The events of the messages that are not taken yet are, room by room, the stored timeline events after the last one handed on. |
| EndToEndConn | The positions and the view of one room on a connection (for C114) |
| EndToEndMembers | C115: the dispatcher's members are those of the store |
| EndToEndMembersExamples | C115: examples, and memberships the dispatcher does not know |
| EndToEndState | C116: the state a client has of a room is the current one |
| EndToEndStateExamples | Examples for the state a client has |
| EndToEndFirst | The first message of a room The message with the first state of a room comes before all that makes anybody a member of the room for the request handler. |
| EndToEndBlocks | C114 and C116 with state blocks and restarts |
| EndToEndExamples | Examples for the way of an event to the client |
| EndToEndBlocksExamples | Examples for C114 and C116 with state blocks |
| EndToEndJoined | C114 for rooms that are joined after the connection was made |
| EndToEndJoinedState | C116 for rooms that are joined after the connection was made |
| EndToEndJoinedExamples | Examples for C114 and C116 with rooms joined after the connection was made |
| EndToEndPrivacy | C127: a client is given only events of rooms its user was in when they were stored |
| EndToEndPrivacyExamples | Examples and counterexamples for C127 |
| Executor | Model of the goroutine on which the calls of all pollers are made Pollers run side by side (`sync2/poller.go:262-312`); `Accumulate` and `Initialise` of the `PollerMap` put a function into a channel without a buffer and wait for it (`sync2/poller.go:323-340`), and one goroutine runs the functions (`sync2/poller.go:314-318`). A function stores a section of a response in one transaction (C48) and then publishes what it stored (`sync2/handler2/handler.go:294-316,378-393`), while the listener, requests and live updates (`EndToEnd`) go on. Between any two of these steps any other may happen; a poller is told from others by a number. The other calls that go through the channel (`sync2/poller.go:341-415`) are of the same form. Left out: `Terminate` (`sync2/poller.go:176-199`), which closes the channel and is for tests, and panics, which end the process. |
| ExecutorExamples | Examples for C128 |
| PollerState | What a response does to the receiver's state: it is the result of the logged calls, and nothing else. |
| ToDeviceFlow | To-device messages from the homeserver to the client: the homeserver's queue for the device, the poller (`Poller.poll`, sync2/poller.go 549-659) with the v2 handler as receiver (sync2/handler2/handler.go 222-228 and 436-448), the `syncv3_to_device_messages` table with the to-device extension and the client (`ToDevice.sysStep`). The homeserver follows the client-server specification: it deletes a message once a request was made with a token at or beyond it, and answers with messages following that token, in order, any number of them. One device, with one poller at a time. What the other calls of the receiver do to their tables is not modelled here; they only fail or not. |
| ToDeviceFlowExamples | Executions for C117, and the violation of exactly-once delivery. |
| DeviceListFlow | Device list changes from the homeserver to the client: the homeserver's stream of changes, the poller (`Poller.poll`, sync2/poller.go 549-659) with the v2 handler as receiver (sync2/handler2/handler.go 230-253), the two buckets of `syncv3_device_list_updates` (`E2EE.upsert`, `E2EE.read`), the connection with its buffer of responses (`Conn.step`) and the client. One device with one poller and one connection at a time. A request to the proxy takes several steps, so that polls and restarts can fall in between: it begins with a read of the tables if the extension is on (sync3/handler/connstate.go 226-237), may be woken up and read again while it has nothing (sync3/extensions/e2ee.go 43-55), and ends. The rest of a response is not modelled. What the other calls of the receiver do to their tables is not modelled; they only fail or not. |
| DeviceListFlowExamples | C119: how a change of a device list is lost, and a run that meets the hypotheses of the theorems. |
| AccountFlow | Global account data from the pollers to the client: the v2 handler with its duplicate suppression and the table (`Verif.DedupAccount`, sync2/handler2/handler.go 487-525), the pub/sub channel (pubsub/pubsub.go, in the process: v3.go 136), the v3 handler, which reads the table for the types named in a payload (sync3/handler/handler.go 800-814), the user cache, which hands the data on (sync3/caches/user.go 697-787), the channel of updates of the connection, the account data extension (sync3/extensions/account_data.go 44-135), the connection with its buffer of responses (`Conn.step`) and the client. One user with one connection at a time. A request takes several steps, so that deliveries fall in between. Updates of other kinds and the account data of rooms in the channel of the connection are not modelled (C33 and C65 are about rooms), nor is the rest of a response. A connection that is destroyed (its channel is full, sync3/handler/connstate_live.go 29-46) ends at once, with its request. The payload is on the channel as soon as the table has the data: the pollers' calls are serialised, and whoever comes between the two finds what it finds when the payload waits. |
| AccountFlowExamples | C120: where it fails, and that the hypotheses of its theorems can hold. |
| Ignoring | Model of ignored users in the timelines of a connection The ignored users come from the account data (`Verif.UserFlags`, `sync3/caches/user.go:746-758`), and messages by them are left out of the timelines: of initial data by `DiscardIgnoredMessages` (`state/storage.go:45-59`, called in `sync3/caches/user.go:338-345`), of live data at the start of `processLiveUpdate` (`sync3/handler/connstate_live.go:151-160`). The load positions are as in `Verif.ConnLoad` (C24), the position of an event is its number in the log, counted from 1. Simplified as there: which rooms are loaded and whether an event is of interest (`hasUpdates`) is an arbitrary input, the user is joined to all rooms, and no event is `AlwaysProcess`. Of an event there is the room, the sender and whether it has a state key; the live code reads these from `EventData`, which `newEventData` (`sync3/dispatcher.go:98-118`) takes from the same JSON. |
| UnreadFlow | Unread counts of a room from the cache of the user to the client: the cache (sync3/caches/user.go 546-569, 593-634), the events held back for a transaction id (sync3/handler/txn_id_waiter.go 30-93), the channel of updates of the connection, the copy of the counts in its lists (sync3/lists.go 59-68), what is put into a response (sync3/handler/connstate_live.go 133-308, sync3/handler/connstate.go 554-700), the connection with its buffer of responses and the client (`ConnFlow`). One room, which the user is in or invited to and does not leave, and one connection at a time. Updates of other rooms do not touch the counts of this one; they may bring it into view, which is a step of its own here. That the cache has the counts of the table is C94. Messages of ignored users are skipped in the same way as events the connection has already loaded, but have no counts of their own. Counts are in the JSON of a room also if they are 0 (sync3/room.go 18-19). A connection that is destroyed ends at once, with its request. |
| UnreadFlowExamples | C123: how a client is left with old counts, and a run that meets the hypotheses of the theorem. |
| ReceiptFlow | Read receipts of the user from the pollers to the client: the tables (`Verif.Receipts`, state/receipt_table.go), the v2 handler, which publishes the receipts that are new (sync2/handler2/handler.go 418-434), the pub/sub channel (in the process: v3.go 136), the v3 handler and dispatcher (sync3/handler/handler.go 756-786, sync3/dispatcher.go 242-265), the user cache, which hands them on (sync3/caches/user.go 515-520), the channel of updates of the connection, the receipts extension (sync3/extensions/receipts.go 34-129), the connection with its buffer of responses and the client (`ConnFlow`). One user, one room which the user has joined, and one connection at a time. A request takes several steps: it sends rooms, then extensions are processed (sync3/handler/connstate.go 226-237), then updates are taken from the channel. Which rooms are in view is an input of the steps, as is what is in scope of the extension (C31). Updates of other kinds and rooms do not touch the receipts of this one. A connection that is destroyed ends at once, with its request. |
| ReceiptFlowExamples | C124: how a client is not told a receipt of its user, and a run that meets the hypotheses of the theorem. |
| RoomAccountFlow | The account data of a room from the pollers to the client: the v2 handler with its duplicate suppression and the table (`Verif.DedupAccount`, sync2/handler2/handler.go 487-525), the pub/sub channel (in the process: v3.go 136), the v3 handler, which reads the table for the types named in a payload (sync3/handler/handler.go 800-814), the user cache, which hands the data on (sync3/caches/user.go 697-787), the channel of updates of the connection, the account data extension (sync3/extensions/account_data.go 44-135), the connection with its buffer of responses and the client (`ConnFlow`). One user, one room (whose id is not empty) and one connection at a time. A request takes several steps: it sends rooms, then extensions are processed (sync3/handler/connstate.go 226-237), then updates are taken from the channel, and for each one the rooms it makes the connection send are put into the response before the extension sees it (sync3/handler/connstate_live.go 117-131). Which rooms are sent when is an input of the steps (C106 is about that), as is what is in scope of the extension (C31). Other updates come at any time. A connection that is destroyed ends at once, with its request. |
| RoomAccountFlowExamples | C125: where it fails, and that the hypotheses of its theorems can hold. |
| ReceiptPrivacyExamples | C126: a run in which the client is told some receipts, and is not told the private receipt of another user. |
| Locks | ### The tracker, `/repo/sync3/tracker.go` |
| LocksExamples | ### A goroutine that runs while the others stand still |
| MemberColumn | Model of the membership column and its readers (`state/event_table.go`, `state/storage.go`) `ensureFieldsSetOnEvent` (`Invites.ensure`) stores `content.membership` in a column of its own, with `_` before it if the event only changes a profile. The queries at start-up (`AllJoinedMembers`), when a room is reset (`ResetMetadataState`) and when its state is redelivered (`FetchMemberships`) read that column instead of the event. Heroes are in `Heroes`. Simplified: the rows are those the SQL joins with the snapshots give, in the order of `event_nid`; `nid` and `event` are not kept. |
| Ownership | Model of the maps shared between the caches and the connections Updates and loads hand copies of `internal.RoomMetadata` and `caches.UserRoomData` to the connections, whose goroutines read them without a lock while the goroutine of the dispatcher goes on writing to the caches. In Go the copy of a struct shares its maps and slices. Modelled as memory: `heap` has the maps (and the array of the heroes) by address, the structs have addresses. Values are uninterpreted. Every step gives the addresses the goroutine of the dispatcher writes to. Simplified: fields that are copied by value are left out; what connections write to (the heroes in the update they share) is in `SharedHeroes`; one user. |
| Reencode | Model of the migrations that change the encoding of the device data `state/migrations/20230802121023_device_data_jsonb.go` (JSON in a `BYTEA` column becomes `JSONB`) and `20230814183302_cbor_device_data.go` (`JSONB` becomes CBOR in a `BYTEA` column), up and down. Simplified: a migration is one transaction, `none` if it fails (and changes nothing, C48); the libraries are a `Codec`. The rows have unique keys (`UNIQUE(user_id, device_id)`), so the order in which the Go map of them is gone through does not matter. |
| Wire | Model of responses as JSON, and of whether a response has data `sync3/response.go`, `sync3/room.go:11-27`, `sync3/avatar.go`, the responses of `sync3/extensions/*.go` and `Hero` of `internal/roomname.go:148-152`: which fields `encoding/json` writes (`omitempty`), how `UnmarshalJSON` reads them, and `HasData`. Simplified: Go maps are lists of pairs (`encoding/json` sorts them by key); nil slices and maps are empty ones, also where `rooms` and `lists` would be written as `null`; fields are read by their exact name; numbers are unbounded; text is Unicode. A `json.RawMessage` is any JSON value. |
| Farewell | Model of how a user is told that they left a room, were kicked or rejected an invite Two ways lead there. The leave event is stored from a timeline and dispatched (`sync3/dispatcher.go:170-214`, `UserCache.OnNewEvent`, `sync3/caches/user.go:593-619`), and each poller of the user hands it to `OnLeftRoom` in addition (`sync2/poller.go:889-916`, `sync3/caches/user.go:650-695`), whose update is dropped by connections unless it is `AlwaysProcess` (`sync3/handler/connstate.go:747-757`). The second part is what `AlwaysProcess` updates do to the timelines a client has, on top of the load positions of a connection (`ConnLoad`). Simplified: one user and one room; the user has a cache and a connection all the time; the queues between the parts are left out, and the events of a timeline that are new are all stored (no failures). Member events of others are like any other event. |
| StartUp | Model of the snapshot of all rooms taken at start-up (`GlobalSnapshot`, `state/storage.go:180-205`) Unlike the models of single rooms (`Metadata`, `Heroes`, `Recency`), this one has the queries as they are: each returns the rows of all rooms at once, and the loops sort them out by room. `AllJoinedMembers` (`storage.go:996-1073`) makes the members and heroes, `MetadataForAllRooms` (`storage.go:208-305`) the rest. Simplified: of the JSON of an event only the fields read are kept; loops over a map whose turns each write only the entry of their own key are written as a function of the key. The results of queries without `ORDER BY` and the loop over the heroes come in an arbitrary order (`Orders`). |
| StartUpStore | C136 on the tables the store makes |
| FilterFlow | Model of how changes of rooms reach the filters of a connection's lists One user, one connection, any number of rooms: what filters read in the caches, the updates made from them (`sync3/caches/user.go:397-415,546-787`), the wait for transaction ids (`sync3/handler/txn_id_waiter.go:29-100`), the channel of the connection, `load` (`sync3/handler/connstate.go:109-171`), the processing of updates (`sync3/handler/connstate_live.go:133-152, 335-381`) and the lists (`Lists`). Simplified: the metadata an event gives a room is a parameter (C71, C74), and so is whether the dispatcher passes the event to the user (C22); an `m.space.child` event is two steps, for the child and for the space; releasing several events is several steps; the buffer of the channel is not full. Missing entries of the caches read as empty ones, as `NewRoomMetadata` and `NewUserRoomData` are. |
| FilterFlowExamples | Histories for C137: where lists go wrong, and that the hypotheses can be met |
| ListFlow | Model of one list of a client, from the caches to what the client shows Composes `FilterFlow` (how changes of rooms reach the lists of a connection) with `ListSync` (the operations of a list and their replay by the client): one user, one connection, one list `key` of its requests, any number of rooms and of other lists. A request is answered in steps: the lists are set up (`sync3/handler/connstate.go:214`), updates are processed (`sync3/handler/connstate_live.go:48-131`), the count is added and the response is sent (`connstate.go:254-259`). Simplified: as in `FilterFlow` and `ListSync`. The client gets every response; retries are the subject of C15. |
| ListFlowExamples | Histories for C138: where the client goes wrong, and that the hypotheses can be met |
| Upstream | Model of how answers of the homeserver are read `DoSyncV2` and `WhoAmI` (`sync2/client.go:88-146`), the decoding of a sync response into Go structs (`encoding/json`, for the types of `sync2/client.go:189-251`), and what `identifyUnknownAccessToken` makes of an answer (`sync3/handler/handler.go:463-479`). A JSON text is given by its value, with the fields of objects in the order of the text and possibly repeated. The types of the response are a small universe of types with one decoder. Simplified: an array that is decoded into a slice a second time, under a repeated key, is decoded afresh (Go re-uses the elements of the first for `null`); a number is an integer or is not; a request that cannot be built (a bad address of the homeserver in the configuration, which makes `DoSyncV2` panic) is not modelled. |
| UpstreamExamples | Cases for C139, and answers that are taken for something else. |
| Config | Model of how the proxy is configured and served `main` (`cmd/syncv3/main.go:83-237`), the options that `Setup` takes of it (`v3.go:90-116`), the listeners, the choice of the transport (`v3.go:217-239`), the chain of handlers (`v3.go:68-74`) and `allowCORS` (`v3.go:76-87`). The environment gives a text for each variable, an empty one for those that are not set (`os.Getenv`). Simplified: `strconv.Atoi` is a parameter; what listens where is a list, in the order in which the goroutines are started; tracing, Sentry and the log level have no effect here, and configuring the first two does not fail; the database can be opened and migrated. |
| Retention | Model of how long transaction ids are kept `Cleaner` (`state/storage.go:1075-1101`), `TransactionsTable.Insert`, `Clean` and `Select` (`state/txn_table.go:37-74`). Times are in nanoseconds, as in Go; rows hold milliseconds. The clock of the process does not go back. A row's key is its user, device and event. Simplified: the removal of snapshots that the cleaner also does is in the module on snapshots. |
| Races | Model of who reads and writes the memory that goroutines share The goroutines of the proxy as in `Locks`, with what their functions read and write between taking and releasing locks. A function is a program whose branches and loops are arbitrary choices, so that every run of the Go function has one of the traces of its program. Modelled: the fields and maps that are reached from more than one goroutine, one variable for each (`Var`). Simplified: taking a lock is one step, which waits until nobody holds it (readers: until no writer holds it); queries, channels and waits are left out, as any goroutine may be slow anyway; locks that are taken for other variables only in between are left out where they do not matter. Not modelled: variables that are only written before the goroutines start (`Startup`, constructors), the memory inside of libraries (`ttlcache`, `sync.Map`, channels, `atomic.Bool`, Prometheus), objects handed from one goroutine to another (C132), and `Teardown`, `Terminate` and `Close`, which only tests use. |
| LostUpdates | Model of how the data of a user's rooms is changed by several goroutines The functions of `UserCache` that change `roomToData` (`sync3/caches/user.go:246-318,546-770`). Most of them load the data of a room with the lock for reading, change their copy, and store it with the lock for writing: in between, other goroutines may do the same. A cache is stored for others to find before it is registered (`sync3/handler/handler.go:575-585`), so that the request that registers it runs `OnRegistered` while the listener may handle messages for the user. Modelled: any number of goroutines; each load and each store is one step, steps come in any order. The map of the spaces of a room is shared by all copies of its data, so it is behind an address. Simplified: a copy is changed in the same step in which it is loaded, as only the map of spaces is visible to others; invites, tags and join timings are numbers, 0 for none; what is sent to connections is not modelled (C53, C95, C98). |
| Repeat | Model of what a request asks a connection for `onIncomingRequest` up to the rooms (`sync3/handler/connstate.go:194-226`): `ApplyDelta`, then `buildRoomSubscriptions` and `buildListSubscriptions`, from `Request` and `ConnLists`. The rooms of the lists, before and after re-creating and sorting them, are inputs, as in `ConnLists`. Not modelled here: extensions (C32), live updates, and the data of rooms. |
| Supersede | Requests of one connection that come while another is served A client may send a request while an older one of the same connection still waits for something to happen. `Conn.OnIncomingRequest` (`sync3/conn.go:137-150`) cancels the older one, so that the newer one is not kept waiting behind the lock of the connection. When a connection is closed, `ConnState.Destroy` (`sync3/handler/connstate.go:725-732`) cancels the request whose callback was set last. Modelled is who holds the lock, which cancel functions are stored where, and which requests are cancelled; each step is one that no other goroutine can divide. Not modelled: * what a request does while it has the lock; a request that runs ends when it is cancelled (`quit`), or for reasons of its own (`finish`: there is something to tell, its timeout has passed, its position is refused). `conn_id`s: each connection has a model of its own. * `Conn`'s two mutexes are fair to nobody: any of the requests that wait may get the lock. |
| ManyConns | Several connections of one device A client may have several connections, told apart by `conn_id` (`sync3/connmap.go:13-29`). To-device messages, device list changes and key counts are stored per device (`state/to_device_table.go:28-42`, `state/device_list_table.go:29-48`, `state/device_data_table.go:28-46`), and each connection with the extension reads, acknowledges and empties the same rows. The tables are those of `ToDevice` and `E2EE`. Each connection follows its own `next_batch`. Responses of the `e2ee` extension are not lost here; what happens to lost ones is in C36 and C119. |

## What is not modelled

* The HTTP layer: `v3.go`, `sync2/client.go`, routing and middlewares, parsing of requests and encoding of responses (`sync3/response.go`), `internal/request.go`.
* Metrics, tracing, logging, sentry and profiling code, which has no effect on the data.
* `pubsub` beyond in-order delivery: payloads are delivered in the order they are published, by one consumer.
* Migrations (`state/migrations`) and table creation.
* Timing: time-outs, ticker periods and TTLs appear as free steps; nothing is proved about when they happen.
* Encryption of tokens (`sync2/tokens_table.go`): a token can or cannot be decrypted.
* Whole-program composition: each property is proved of the part of the program named in its row, with the rest as arbitrary inputs.


## Disagreements between code and properties

Each is proved by the named theorem, on a concrete witness or in general; the text is that of its doc comment. They are defects of the code, or of its interplay with what upstream may send, relative to the property as stated in `properties.jsonl`.

* `Ranges.C02_delta_violated`: C02 is violated by the code: after `[0,20]`, asking for `[0,20],[21,21]` reports nothing as added, although index 21 is new.
* `ListOps.C05_replay_violated`: C05 is violated: a panic (two rooms, window [1,1], the second is deleted), and a `null` operation that makes the client throw (one room, window [1,2], it is deleted).
* `ListOps.C06_subs_violated`: C06 is violated: rooms 1,2,3 with window [0,1]; removing room 1 inserts room 3 into the window without listing it as a room to send.
* `SortableRooms.C08_violated`: C08 is violated by a list whose sort order (chosen by the client) is not supported: the index stays empty, a room in the list is reported absent, and adding it again duplicates it.
* `Lists.C09_violated`: C09 is violated when a list is created (or its filters change) after a room was left: the room was marked as left by its last update, but the new list holds it.
* `Filters.C10_violated`: C10 is violated when a filter has both `room_types` and `spaces`: a room outside the spaces is included.
* `Request.C12_violated`: C12 is violated at the connection: a request that both updates and removes an existing subscription leaves it active although the parameters no longer contain it.
* `Request.C13_violated`: C13 is violated with `[*,*]`: the combination of "all state" and "my own member event" no longer selects other member events.
* `ConnMap.C19_close_violated`: C19 is violated: an expired connection whose callback runs only after a new connection with the same identifiers was created unlinks the new connection, and closing all of the user's connections then leaves it open and reachable.
* `Dispatcher.C22_violated`: C22 is violated for a member event whose state key is the internal name of the global listener: after an invite of `-` a leave of `-` reaches the global listener twice.
* `ConnLoad.C24_violated_delayed`: C24 is violated when the queue is not in the order of positions, as happens when the transaction id waiter holds back the events of one room: events 1 and 2 of room 0 are delayed, event 3 of room 1 raises the anchor, then event 1 brings room 0 into the window. The load position goes back from 2 to 1 and event 2 is sent twice.
* `ConnLoad.C24_violated_limit0`: C24 is violated by a timeline limit of 0, which the server itself uses when only the required state of a list changes (`connstate.go:386-395`): the load position is reset to 0, so queued events are processed again, and event 2 is sent twice although the queue is in order.
* `TxnWaiter.C25_release_violated`: With events out of order (position 0 marks events that are always processed) a release does not publish everything up to its position.
* `LazyMember.C26_violated_empty`: C26 is violated for rooms without any sender in the initial timeline (for example with a timeline limit of 0): lazy loading was requested but members seen live are never sent.
* `LazyMember.C26_violated_key`: C26 is violated for room ids that contain the separator: the user `c` of room `a | b` is taken for the user `b | c` of room `a`.
* `RoomsBuilder.C27_violated`: C27 is violated when a required state slice has spare capacity (three entries decoded from JSON have capacity four): rooms `!a` and `!b` are in a common list and each in one more list; the two combined slices share the array of the common one, and `!a` is built with the entry of the list of `!b` instead of its own.
* `ConnLists.C29_violated_cycle`: C29 is violated by two rooms that name each other as predecessor: however many iterations, the loop is not finished.
* `ConnLists.C29_violated_unknown`: C29 is violated without any cycle: a predecessor the user is joined to but which the connection does not know (its join was not processed yet) is visited forever.
* `EnsurePoller.C30_expiry_violated`: Expiry alone does not release a waiting caller.
* `EnsurePoller.C30_truth_violated`: C30 is violated: caller 1 waits, the token expires, caller 2 closes caller 1's channel and starts afresh; caller 1 is told that the token is valid although no sync ever completed.
* `EnsurePoller.C30_truth_violated_failure`: The same can happen when the sync failed: the caller released by the failure is told the token is valid because another caller has replaced the entry.
* `Extensions.C31_violated_mixed`: C31 fails when the wildcard is mixed with names: behind a name it is ignored, and in front it hides the names after it.
* `Extensions.C33_violated`: C33 is violated: a response with one room out of scope reports the global account data as the data of a room with an empty id, even on an incremental request.
* `ToDevice.C34_violated_resend`: C34 is violated in its last clause: after a restart the unacknowledged position moves back, and a message the client has received, but not acknowledged, is deleted by a cancellation that is then never delivered.
* `ToDevice.C35_violated_ambiguous`: C35 is violated: the key does not separate its parts, so a user's cancellation removes the request of another user.
* `ToDevice.C35_violated_batch`: C35 is violated: the client has seen the request; a repeated request and the cancellation come in one batch and both are dropped.
* `ToDevice.C35_violated_reorder`: C35 is violated: in a batch a request that comes after the cancellation is dropped.
* `ToDevice.C35_violated_twice`: C35 is violated: the client has seen the request; its cancellation is repeated by the sender, which deletes the first cancellation and drops the second. (The `DELETE` does not look at the action.)
* `E2EE.C37_violated_zero`: C37 is violated: a map of the same size whose count is zero for a new algorithm is taken as unchanged.
* `Store.C40_violated_separator`: C40 fails for event types with the separator character. Two different keys have the same tuple, and the second event replaces the first.
* `Store.C41_violated_initial`: C41 fails at a position whose last event is part of the initial state. The current snapshot is used, so the state includes later events: here there are two names, one of them set at position 6 although the position is 2.
* `Store.C41_violated_message`: C41 fails with a filter for a last event without a state key whose type matches: a message is returned as state.
* `Store.C41_violated_twice`: C41 fails with a filter if the last event is part of the initial state: it is returned twice.
* `Store.C43_violated`: C43 is violated by state blocks for a known room: each makes a snapshot, the cleaner counts those among the latest ones of the room, and so removes the snapshot before the latest timeline event.
* `SqlUtil.C48_violated_nil_panic`: `panic(nil)` (or `runtime.Goexit`) in the function commits the half-done work and reports success.
* `PendingTxn.C49_violated`: The cache forgets after five minutes; then a late report, even of the same device, gives the all-clear again or after the transaction id was seen.
* `DedupAccount.C52_violated`: C52 is violated when storing fails: the entry is remembered as handled before it is stored, so when upstream sends it again it is dropped.
* `Unread.C53_violated`: A count left out is remembered as zero, so a later zero is taken for no change.
* `Unread.C53_violated_failure`: A failed write is not repeated when upstream sends the same counts again.
* `Unread.C53_violated_key`: Room id and user id are concatenated without separator.
* `Typing.C55_violated`: C55 is violated by pollers without device id (application services): such a poller never holds the room, so that the updates of others are passed on as well.
* `Request.C62_violated`: C62 is violated: combining a subscription that wants old rooms (or heroes) with a plain one drops that, and which one is dropped depends on the order.
* `ConnLists.C63_violated`: C63 is violated: adding the one-index range [1,1] sends nothing, so the client does not see the room.
* `ConnLists.C64_violated`: C64 is violated for a list sent as a whole: the rooms sent after a change of filters are those of the old list, whatever the new filters select.
* `Extensions.C65_violated`: C65 is violated: an account data update of the room that arrives first in the response marks the room as loaded, and the account data stored before is never sent.
* `Receipts.C66_violated`: It does: timestamps are not compared, so an old receipt from a poller that lags behind replaces a newer one.
* `Poller.C67_violated`: The since token is not stored, as the database fails, then a new poller is started: the messages are handed over twice.
* `Poller.C68_violated`: A response with a zero count for another algorithm, in place of a non-zero count, is taken for no change.
* `PollerMap.C69_violated`: C69 is violated after a panic: the device has a poller that no longer runs and that is not replaced.
* `PollerMap.C69_violated_overlap`: A poller that was terminated while processing a response goes on to process it while the next one is already running: terminating does not wait.
* `PollerMap.C69_violated_panic`: A panic in a poller ends its goroutine without marking it terminated: it is never replaced, and if it was in its first sync, the waiters wait for ever.
* `RoomName.C70_violated`: C70 is violated when the counts and the heroes disagree: a room with one member, and one hero, is named after the hero.
* `RoomName.C70_violated_alone`: Alone, with one hero: the name is that of the hero, as if they were there.
* `RoomName.C70_violated_nobody`: Others are there but there are no heroes: nobody is named.
* `RoomsTable.C71_violated`: A message event of type `m.room.encryption` marks the room as encrypted for good.
* `RoomsTable.C71_violated_upgrade`: A message event of type `m.room.tombstone` marks the room as upgraded to any room of the sender's choice.
* `Tokens.C72_violated`: One unreadable token, of the last device, and no poller is started, neither is the expiry of old ones.
* `SideTables.C73_violated`: C73 is false: the removed child is in the table again, although the state still has the event removing it.
* `Metadata.C74_violated_children`: C74 is false for the children of a space: the reload after an invalidation forgets them and its query does not return them.
* `Metadata.C74_violated_redaction`: C74 is false if a redaction names an event of another room: the stored event is redacted, the cache of its room is not told.
* `Metadata.C74_violated_restart`: C74 is false for upgrades across a restart: the upgrade of a tombstone that was replaced by one without a new room is back after a restart, although the live process dropped it.
* `Metadata.C74_violated_upgraded`: C74 is false for upgrades: a tombstone in a state block sent for a known room is not seen.
* `StartPollers.C75_violated`: C75 fails when calls return together: the workers share `err`, so a poller that started is reported as failed (its clients are turned away), and one that failed as started.
* `Redact.C76_violated_broken`: C76_no_error needs redacting to succeed: a redaction of an event whose JSON cannot be redacted makes the whole timeline fail, and the events delivered with it are not stored.
* `Redact.C76_violated_order`: C76 fails when the event comes after its redaction: it is stored, and shown, as it was.
* `Redact.C76_violated_room`: C76 fails for redactions naming an event of another room: a redaction in one room, whatever power its sender has in the other, blanks an event of the other.
* `Heroes.C77_violated_invites`: After a restart the tracker knows no invites, and the next change of a membership sets the invite count to zero.
* `Heroes.C77_violated_missed_leave`: When a leave was missed and the next event is an invite, the tracker keeps the user joined, and they go on to receive the events of the room.
* `Heroes.C77_violated_name`: With six heroes a new display name is not taken.
* `Heroes.C77_violated_no_change`: A first state block in which every member event has a `prev_content` with the same membership (for example, each member changed their name once) leaves the join count at zero.
* `Heroes.C77_violated_refill`: Places freed by heroes who leave are not filled with other members: a room with two members and one hero.
* `Heroes.C77_violated_restart`: After a restart a room with invited users only has neither heroes nor an invite count.
* `ClientMeta.C78_violated_direct`: A room becomes a direct chat: the avatar of the other member is not sent with later events.
* `ClientMeta.C78_violated_held`: The user sends a message, which is held back; somebody renames the room, and that is held back behind it; the message is released; a typing update, not held back, brings the new name into the lists without sending it; the rename is released and nothing seems to have changed. The client keeps the old name.
* `ClientMeta.C78_violated_not_direct`: A room is no longer a direct chat: the avatar of the other member is kept.
* `ClientMeta.C78_violated_race`: Two renames are stored when the connection is made, one of them has reached the caches: the second, back to the first name, is not sent.
* `Store.C79_violated_slow`: Two pollers: the first has the room up to `$1`, the second a limited sync of `$4`, `$5`; then the first delivers `$2`, which it asked for earlier. It is stored after `$5`, as if it followed it.
* `Txns.C80_violated_batch`: C80 fails when a timeline has a transaction id that is known already, as after a failed attempt to store the timeline or a restart before the since token was saved: the other transaction ids are lost and the sending device does not get them.
* `Txns.C80_violated_leak`: C80 fails when the sending device's poller is first: its transaction id stays in the stored event (the code deletes `unsigned.txn_id`) and other devices and other users are sent it.
* `ListSync.C81_violated_batch`: C81 is violated by two updates in one response: the third of five rooms leaves (DELETE 2), then the last room moves to the top (DELETE 3, INSERT 0). The client deletes index 3 of its old list before it closes the gap at 2, and loses a room that the server still has in the window. All requests meet the requirements.
* `ListSync.C81_violated_getall`: C81 is violated by a list for which all rooms were requested at first: such a list is not sorted on updates, nor when the client asks for windows instead. The next update sorts it and moves several rooms at once, while the operations describe the move of one.
* `LiveLoop.C82_violated_hole`: C82 is violated across producers: while the buffer is full two producers wait (the listener and a timer that releases an event held back for its transaction ID). One gives up and its update is dropped; the other one's is queued afterwards, and the request in flight processes it. That last response of the connection has a hole.
* `Leaving.C83_violated_ban`: C83 is violated by bans, for which `OnLeftRoom` is never called.
* `Leaving.C83_violated_leave`: C83 is violated by leaving: the update of `OnLeftRoom` has no event number, so the connection drops it, and the leave event itself was processed before the room was marked as left. The room stays in the list.
* `Leaving.C83_violated_message`: C83 is violated on lists created after that, too: the new list has the room, and the next message takes it out.
* `Leaving.C83_violated_reject`: C83 is violated by rejecting an invite that the timeline of another user also showed: the leave event resets `IsInvite`, so `OnLeftRoom` no longer sees that this was an invite.
* `Leaving.C83_violated_rejoin`: C83 is violated by joining again without an invite: `HasLeft` stays set, so the room the user is in is taken out of the list, by the join itself, and no later message brings it back.
* `SharedHeroes.C84_violated_copy`: C84 is violated: a removal between the allocation and the copying of `DeepCopy` leaves a hero without id in the copy that the lists of the other connection keep.
* `SharedHeroes.C84_violated_name`: C84 is violated: two connections of Alice both find Alice at position 0 and then both remove that position. Bob is missing from the heroes both of them send, and from the names they calculate.
* `SharedHeroes.C84_violated_panic`: C84 is violated: if the user is the last hero, the second removal panics.
* `InitialRoom.C85_violated_ban`: C85 is violated for banned users in the same way.
* `InitialRoom.C85_violated_leave`: C85 is violated by leaving: the room stays in the list, and when it comes into view the client gets the name and the state the room has by now.
* `InitialRoom.C85_violated_list`: C85 is violated for kicked users if the list is created again, for instance because its filters change: new lists do not leave out rooms that were left.
* `InitialRoom.C85_violated_reject`: C85 is violated by rejecting an invite that a timeline also showed, by a user who never was in the room.
* `TypingExt.C86_violated_back`: C86 is violated in between: after a request the client has the newest typing event, and then gets an older one that was still queued.
* `TypingExt.C86_violated_enabled`: C86 is violated when the extension is enabled after the room was sent.
* `TypingExt.C86_violated_invite`: C86 is violated for invites: a user who is only invited is told who is typing, because `ProcessInitial` looks at every room in the response.
* `TypingExt.C86_violated_shift`: C86 is violated when another room's update moves the room into a window: the room itself is sent, but its typing event is not, because only the room of the update is looked at.
* `PubSub.C87_violated_deadlock`: C87 is violated without a buffer if a callback itself calls `Notify`, on any channel: the caller holds the mutex and waits for the callback, the callback waits for the mutex.
* `PubSub.C87_violated_lost`: C87 is violated if a callback takes longer than the time-out while the buffer is full: the payload is lost. `Notify` returns an error, which none of its callers looks at.
* `PubSub.C87_violated_panic`: C87 is violated at shutdown: `Notify` panics if the channel is closed before or while it sends.
* `PrevBatch.C89_violated_far`: C89 is violated as to the nearest token: the query has no order, so that a later one may be given, from which the client pages through events it already has.
* `PrevBatch.C89_violated_lagging`: C89 is violated if a poller lags behind: one poller skipped from 0 to 5 and 6, then a slower one brings 1 to 4. The timeline starts with 6, its only token is 1, and paging back from there the client never gets 5.
* `PrevBatch.C89_violated_left`: C89 is violated for users who left: the timeline ends at their leaving, position 3, but the token may be of a later event.
* `PrevBatch.C89_violated_none`: C89 is violated by short timelines: there is no token for a timeline that starts inside the newest sync v2 timeline, although there are earlier events, so the client cannot page back.
* `PrevBatch.C89_violated_overlap`: C89 is violated if the first event of a timeline is known: the token is dropped with it, here between a first timeline and one that overlaps it.
* `PrevBatch.C89_violated_unparsed`: C89 is violated if the first event of a timeline cannot be parsed: the token is dropped, although the timeline is limited.
* `Migrations.C90_violated_down`: C90 is violated by going back: the changes that were to be sent to a device are dropped with the table (the code says so).
* `Migrations.C90_violated_reinvited`: C90 is violated by the clean-up of dead invites: a user who left and was then invited again, into a room no user of the proxy is in, so that the stored room does not have the invite, loses the invite.
* `SharedReq.C91_violated_failed`: C91 (and C18) is violated by a request that fails late: its extension settings stay, and as they are written into the remembered request, the request sent again can be taken for that one, and is answered from the buffer without being handled.
* `SharedReq.C91_violated_retry`: C91 (and C15) is violated by a request that enables an extension and leaves lists and rooms to their defaults: handling it fills the defaults into the remembered request, so that the same request sent again is taken for a different one and handled again.
* `Auth.C92_violated_refreshed`: C92 is violated for devices with two tokens: the old token is revoked, the poller polls with the new one and does not notice, and the old token still gives access to the device's connection.
* `Auth.C92_violated_reinserted`: C92 is violated by a request that asked the homeserver before the revocation and stores the token after the row was deleted: the row comes back.
* `Auth.C92_violated_window`: C92 is violated between a revocation and the next answer to the poller: the token is still accepted.
* `PollStart.C93_violated_lockout`: C93 is violated: a request that had its token accepted just before the poller found it revoked gets no answer, for ever, and neither does any later request of that device, also with a new, valid token. No notification is lost.
* `PollStart.C93_violated_orphan`: C93 is violated: the request is told that the device is polled, no poller runs, and none is ever started although requests with the valid token keep coming. No notification is lost and no row is missing.
* `PollStart.C93_violated_startup`: C93 is violated at start-up: the expiry of a poller reaches the request handler before the completion of its first sync, when there is no entry yet; the completion then counts as valid.
* `UserCaches.C94_violated`: C94 is violated: the message that the room was read finds no cache; the cache, whose counts were read before, is then stored with 3 unread messages, and stays so until the count changes.
* `UserCaches.C95_violated_failed`: C95 is violated when registering fails while another request uses the cache already.
* `UserCaches.C95_violated_invalidated`: C95 is violated when a room is invalidated while a request is about to make its connection: its cache is no longer registered, and the connection, which is not closed, never gets an event.
* `UserCaches.C95_violated_window`: C95 is violated when two requests of a user come at the same time: the second finds the cache stored but not yet registered and makes its connection; the next event does not reach the connection, later ones do.
* `InviteFlow.C96_violated_ban`: C96 is violated by a ban. A user who is invited to a room that no other user of the proxy is in is banned. The ban is in the `leave` section, but only a leave is looked for there, and without a snapshot the event is dropped: the invite stays.
* `InviteFlow.C96_violated_count`: C96 is violated for counts. A user with one highlight leaves, which resets the count that is shown, and comes back; when the next response has one highlight again, it is taken for a duplicate: none is shown.
* `InviteFlow.C96_violated_late`: C96 is violated. The poller of a second device is behind: after the first device has delivered the invite and that the user joined, the second delivers the invite. The room is an invite again. The second device then delivers the join too, but it is not a new event, so nothing takes the invite back: both have delivered everything, and the joined room stays an invite, also after a restart.
* `InviteFlow.C96_violated_lost`: C96 is violated the other way. The user leaves and is invited again between two polls; the response with the invite overtakes the timeline of another user with the leave. The leave is then taken for the end of the invite: it is not shown.
* `InviteFlow.C96_violated_race`: C96 is violated with one device. The answer to its poller with the invite is on its way when the user joins, and a poller of another user is the first to deliver the join.
* `FirstLoad.C97_violated_empty`: The first load fails; the request makes the list, with no rooms. The next request loads, but the list is there and is not filled: the user is in a room and the list stays empty until the room has an event.
* `FirstLoad.C97_violated_never`: The first load fails; while that request waits there is an event of a room, which sets the position. So the connection does not load any more, and has no rooms but those with events: also a list that is made later lacks the others, whatever is requested, for as long as there is no event of them.
* `UserSpaces.C98_violated_join`: A user joins a space while there is a cache: the rooms in it are not in the space for the user, whatever happens, until there is an event about the room in the space or a new cache. (The join is told to the cache; what was in the space before is not.)
* `UserSpaces.C98_violated_kind`: A room that is not a space counts as one if the event about the child comes while there is a cache, but not for a new cache.
* `UserSpaces.C98_violated_left`: A user leaves a space: the rooms in it stay in the space for the user, also when they are taken out of it.
* `UserSpaces.C98_violated_self`: A space that is in itself, and that fact is the first the cache hears of it: the entry is overwritten.
* `OwnTimeline.C99_violated_foreign`: The event that puts a room into a space is in the timeline of the room, although it is an event of the space.
* `OwnTimeline.C99_violated_lost`: A user's message is held back; meanwhile its room is put into a space, and this moves the position of the room past the message. So the message is never in the timeline, whatever happens next.
* `Recency.C100_violated_block`: The events of the first state block have no position in the cache, so those after the user's join do not count for bump event types; after a restart they do.
* `Recency.C100_violated_clock`: A later event with an earlier timestamp: the room has the time 50, and after a restart the time 100; a room with a time between these is above it before and below it after.
* `Recency.C100_violated_gap`: An event known from the state block after a gap counts only after the restart, although clocks agree.
* `RoomState.C102_violated_batch`: C102 fails for rooms loaded together with one whose state cannot be determined: the error for that room (which has events but no snapshot) leaves all rooms of the call without state.
* `RoomState.C102_violated_type`: C102 fails with lazy members and a `*` type: every state event keyed by a sender is sent, whatever its type. Asked for are the events with an empty state key and the members; Alice's pet is sent, too.
* `InviteData.C103_violated_key`: C103 fails for events with another state key: the last `m.room.name` event counts, whatever its state key.
* `InviteData.C103_violated_nobody`: C103 fails without the inviter's member event: the invite of a room without a name is shown as " and 1 others".
* `UserFlags.C104_violated_join`: C104 fails when the user accepts a direct invite: without `m.direct` the room is a direct chat until the cache is made anew.
* `UserFlags.C104_violated_malformed`: C104 fails for a malformed list of ignored users: the last list stays in force, but only until the cache is made anew.
* `UserFlags.C104_violated_restart`: C104 fails for an invite the user marks as direct: when the cache is made anew, the invite overrides `m.direct`.
* `UserFlags.C104_violated_scope`: C104 fails for `m.direct` in the account data of a room: it replaces the direct chats of the user until the cache is made anew.
* `PollLoop.C105_violated_panic`: If the poller panics in its first sync its loop has ended, but those who wait for the sync are never released.
* `PollLoop.C105_violated_undone`: However often in a row the answers cannot be processed, the poller never gives up: the count of failures starts again with each answer. Nobody who waits for its first sync is released.
* `LiveRooms.C106_violated_counts`: New unread counts are sent for any room of the user.
* `LiveRooms.C106_violated_earlier`: A message in a room outside of the window, that does not change its place, is sent if the response has an operation for the list: after a message in room 4 moved it to the front, also the message in room 3.
* `LiveRooms.C106_violated_only`: The only room of a list is sent when it is removed, though it is in no window.
* `LiveRooms.C106_violated_passed`: A room that passes over the window is sent.
* `Stamp.C107_violated_clock`: The code violates the property: a message from before the join has a later timestamp than the join, and sets the timestamp. The code compares timestamps where positions say what the user may see.
* `Stamp.C107_violated_first`: The code violates the property: if no types are requested and a response has two events of the room, the timestamp is that of the first one.
* `Stamp.C107_violated_joined`: The code violates the property: the user joined after the user's cache was made, so the cache has no join, and a message from before the join sets the timestamp.
* `TokenText.C108_violated_panic`: The code violates the property: a stored text that was cut off before the space, or within the nonce, makes the proxy panic instead of skipping the device.
* `ClientMeta.C109_violated_avatar`: A member changes their avatar: the new one is not sent.
* `ClientMeta.C109_violated_left`: The last other member leaves: the client still has them as hero, of a room now called "Empty Room".
* `NumLive.C110_violated_again`: The code violates the property: an event of a room is added to the response, then an event of another room moves the first room into a window of another list, so that it is built again. Its own event is no longer counted, though it is in the timeline.
* `NumLive.C110_violated_queued`: The code violates the property: the last event of a room is stored when the connection is made, and still comes as an update. It is counted although the timeline, which was sent before, does not have it: one live event, in an empty timeline.
* `Serve.C111_violated_crash`: The code violates the property: the header `Bearer ` with no token makes the handler panic, so that there is no reply.
* `Serve.C112_violated_pos`: The code violates the property: a request with a position that is not a number is refused; by then it has taken the place of the request which is cancelled when the connection is destroyed, so the request being answered is not cancelled.
* `Serve.C112_violated_timeout`: The code violates the property: a request without a position and with a timeout that is not a number is refused; by then the connection of the device has been replaced by a new one.
* `EndToEnd.C114_violated_zero`: Without a timeline, the room's position is forgotten (`state/storage.go:724-755`, `sync3/handler/connstate.go:587`: `LatestNID` is then 0). Updates of the room from before the load are then taken as new. If the first of them brings the room into a list with a timeline, the whole timeline is loaded, the position is set back to the update's (`sync3/handler/connstate_live.go:227-231`), and the next update is given a second time: the client has `$3` twice.
* `EndToEnd.C115_violated_invite`: An invite after a join leaves the user joined for the dispatcher (`dispatcher.go:186-203` takes a user out for a leave or a ban only), who is told about the events in the room from then on, though the user is not joined in the store; the handler itself decides otherwise when it is started again.
* `EndToEnd.C116_violated_block`: While the message that closes the connection is under way, the client does not have the state event of the state block, and the event is in no message and in no queue (`sync2/handler2/handler.go:383-386` publishes the room only); requests are answered with the old state until the message is taken.
* `ToDeviceFlow.C117_violated_twice`: C117 is violated in "once": the messages are inserted in one transaction and the token is written in another (sync2/poller.go 622-652; the failure of the latter is only logged, sync2/handler2/handler.go 222-228). If the token is not written, because of an error or a crash, the new poller asks again from the old token, the homeserver answers with the same messages, which are not recognised as the same: the client, which has acknowledged them, receives them again.
* `ConnLists.C118_violated_all`: C118 is violated for lists that ask for all rooms (`slow_get_all_rooms`): a change of the timeline limit or the required state goes by the ranges of the list (`connstate.go:402`), of which there are none, so nothing is sent although the client was sent every room of the list.
* `DeviceListFlow.C119_violated_changing`: The response with the change does not arrive and the client, rather than repeat its request, sends another one at the same position (it has scrolled). That one is handled at once, which discards what was sent (sync3/conn.go 205-224, state/device_list_table.go 107-111), and the response is queued behind the first. The proxy restarts before the client has either: the change is in no table any more.
* `DeviceListFlow.C119_violated_failing`: The request that has read the change fails afterwards, by a panic for instance (sync3/conn.go 224-234). The client repeats it, and is told nothing.
* `DeviceListFlow.C119_violated_late`: The response with the change is lost with the connection. The client connects again, but turns the extension on only in its second request: that is no initial one, so what was sent is discarded rather than repeated (sync3/handler/handler.go 624).
* `DeviceListFlow.C119_violated_unstored`: The first token is not written to the database, which is only logged (sync2/handler2/handler.go 222-228). After a restart the poller makes an initial sync, and homeservers report no changes in one.
* `AccountFlow.C120_violated_back`: A payload handled between the creation of a connection and the reading of the table waits as an update with the value of that time. If the value is replaced before the table is read, the first response has the new value and the next one the old value (until the payload of the new value has been handled).
* `AccountFlow.C120_violated_late`: The extension is off in the first request and on in later ones: global account data is sent only with the first response (sync3/extensions/account_data.go 122-123), so the client does not get what is stored.
* `AccountFlow.C120_violated_load`: The first response of a connection is made without global account data when the table cannot be read: the error is only logged (sync3/extensions/account_data.go 124-127), and as global account data is sent only with the first response, the client does not get what is stored.
* `AccountFlow.C120_violated_off`: The extension is off in the request that takes the update: it is not kept for when the extension is on again.
* `AccountFlow.C120_violated_panic`: A request panics after it has taken the update from the channel: the panic is recovered from (sync3/conn.go 96-113), the connection stays, and the update is gone.
* `AccountFlow.C120_violated_read`: The table cannot be read when the payload is handled: the error is only logged (sync3/handler/handler.go 808-812), and nobody is told later.
* `KeyFlow.C121_violated_failing`: The request that has read the new counts and fallback key types fails afterwards, by a panic for instance (sync3/conn.go 224-234). They are marked as sent (state/device_data_table.go 87-103), so the client, which repeats its request, is not told, until they change again or it connects anew.
* `KeyFlow.C121_violated_late`: The response with the new counts and fallback key types is lost with the connection. The client connects again, but turns the extension on only in its second request: that is no initial one, so only what changed is reported (sync3/extensions/e2ee.go 65-72).
* `KeyFlow.C121_violated_zero`: After counts for one algorithm the homeserver reports only a zero for another: the poller takes it for no change (sync2/poller.go 715-727, C37), so the client goes on with keys that are used up.
* `UnreadFlow.C123_violated_failing`: A request takes new counts from the channel, into the lists of its connection, and fails. They are not sent again until they change.
* `UnreadFlow.C123_violated_held`: A message of the user is held back for its transaction id (sync3/handler/txn_id_waiter.go 30-63). Meanwhile the user has read the room and the new counts overtake the message: they do not wait (sync3/handler/connstate.go 738-765). When the message is let go, it has the counts from before (sync3/caches/user.go 397-415), and these are put into the lists and sent: the client has unread messages again, until the counts change.
* `UnreadFlow.C123_violated_join`: The user joins a room after an invite. The event is in the database, but not yet in the user's cache, when a connection loads: it gets the room at a position after the event (sync3/handler/connstate.go 109-171) with the highlight of the invite, and sends it. The event is then skipped (sync3/handler/connstate_live.go 142-149), and with it the end of the highlight.
* `UnreadFlow.C123_violated_state`: The membership that ends an invite is in the state block of a response: the cache resets the highlight, but connections are not told of events of state blocks (sync3/handler/connstate.go 742-750).
* `ReceiptFlow.C124_violated_failing`: A request takes a receipt from the channel and fails.
* `ReceiptFlow.C124_violated_live`: An event brings a room into a window, or the user joins it: the room is sent, but receipts are loaded only for rooms that are in the response before updates are taken (sync3/handler/connstate.go 226-237); the extension adds nothing when the room is sent because of an update (sync3/extensions/receipts.go 34-37). The client shows the room as unread.
* `ReceiptFlow.C124_violated_read`: The tables cannot be read when the room is sent (sync3/extensions/receipts.go 95-110): the request goes on without receipts.
* `RoomAccountFlow.C125_violated_before`: The account data of a room changes, then a message brings the room into the window, all in one response: the room counts as loaded because of the change (sync3/extensions/account_data.go 60-65, 88-91), so the rest of its account data is not sent (C65).
* `RoomAccountFlow.C125_violated_failing`: A request panics after it has taken the update from the channel: the panic is recovered from (sync3/conn.go 96-113), the connection stays, and the update is gone.
* `RoomAccountFlow.C125_violated_load`: The table cannot be read when the room is sent: the error is only logged (sync3/extensions/account_data.go 110-112), and the account data does not come later.
* `RoomAccountFlow.C125_violated_other`: A room comes into the window of a list because another room has left it: the room is sent, but the extension only looks at the room of the update (sync3/extensions/account_data.go 54-75), so its account data is not.
* `RoomAccountFlow.C125_violated_read`: The table cannot be read when the payload is handled: the error is only logged (sync3/handler/handler.go 808-812), and nobody is told later.
* `RoomAccountFlow.C125_violated_tag`: A room comes into a list because of its account data, say a tag the list filters by: the response has the tag, but not the other account data of the room (sync3/extensions/account_data.go 50-53: an update with account data is passed on as it is).
* `EndToEnd.C127_violated_missed`: If the leave of the user was in a gap of the timeline (or in no poller's response) and the user is invited again, the user is still thought to be joined: neither `joined_rooms_tracker` nor `visibleEventNIDs` take an invite for a leave. So an invited user who has not joined reads the messages of the room.
* `EndToEnd.C127_violated_reload`: `OnInvalidateRoom` reads the members of the room from the database as it is when the message is received, not as it was when it was sent. Events stored in between are then given to users who joined after them: here a client is sent a message that was stored before its user joined.
* `Locks.C129_violated_pool`: C129 is violated if the number of database connections is limited (`Opts.DBMaxConns`, `/repo/v3.go` 107-113). For every limit `n`, `n` requests of users who have no user cache yet and one message that a room is to be read again can stop the whole proxy: each request has a connection, since `SelectAllNonZeroCountsForUser` calls back while its rows are open (`/repo/state/unread_table.go` 26-45), and the callback needs `roomIDToMetadataMu` (`/repo/sync3/caches/user.go` 407); `GlobalCache.OnInvalidateRoom` has `roomIDToMetadataMu` and needs a connection (`/repo/sync3/caches/global.go` 380-395). No goroutine can do anything any more, and none of them is done.
* `LiveRooms.C130_violated_subscription`: The user comes back to a room that the client has subscribed to and that is in no list: the join is sent as news, not with the full data. What happened in the meantime is not in the response.
* `MemberColumn.C131_violated_mark`: The mark is not kept apart from what it marks: a membership `_join`, which no room version knows, is stored like a changed profile of a joined user, and the user is counted as joined.
* `Ownership.C132_violated_spaces`: The spaces of a room are written to by the dispatcher's goroutine while the connections that were given the room may read them to filter their lists: in Go a fatal error, "concurrent map read and map write".
* `Reencode.C133_violated_down`: Going back from `JSONB` to bytes changes data in which a backslash is quoted: the cast takes one of the two for its own.
* `Reencode.C133_violated_down_fails`: Going back from `JSONB` to bytes fails if there is a quoted quote in the data.
* `Farewell.C135_violated_ban`: Someone banned while invited to a room the proxy does not know the members of is not told, and stays invited.
* `Farewell.C135_violated_devices`: With `n` pollers a kicked user is told `n + 1` times.
* `Farewell.C135_violated_kick`: Someone kicked from a room they had joined is told twice, by a single poller: the event is dispatched, and sent once more outside of the log.
* `Farewell.C135_violated_race`: A rejected invite is told twice if another poller in the room hands in the rejection before the user's own has handed in the invite.
* `FilterFlow.C137_violated_direct`: A room that becomes a direct chat is not put into the list of direct chats, although the connection has processed everything.
* `FilterFlow.C137_violated_held`: The user's own message waits for its transaction id; the user tags the room, and it is put into the list of favourites; the message is released, with what the room was before, and the room is taken out of the list.
* `FilterFlow.C137_violated_ignored`: A room becomes encrypted, then an ignored user sends a message. Both are queued when the room is sent to the client, with a timeline up to the message: the first is skipped for being old, the second for being ignored.
* `FilterFlow.C137_violated_upgrade`: A room is upgraded and then the user joins the new one: the old one stays in the list, which does not show upgraded rooms whose new room the user is in.
* `ListFlow.C138_violated_batch`: Two updates in one response: a room is tagged and leaves the list (DELETE 1), and the last room is renamed and moves to the top (DELETE 2, INSERT 0). The client then has no room at an index below the count.
* `ListFlow.C138_violated_direct`: A room that becomes a direct chat is not shown in the client's list of direct chats, although everything is processed and answered.
* `Upstream.C139_violated_case`: Keys are matched without regard to case: a key of the homeserver's own replaces the position.
* `Upstream.C139_violated_device`: A token without a device, as those of application services are, is taken as one of the device with the empty name: all such tokens of a user share it.
* `Upstream.C139_violated_nobody`: An answer without a user is taken as one that names the empty user: everyone whose token is answered like this is the same user with the same device.
* `Upstream.C139_violated_poison`: One part of a response that is not as expected makes all of it unreadable. If the homeserver insists, nothing of it is ever handed over, and after 1001 attempts the token is given up as if the homeserver had refused it.
* `Upstream.C139_violated_position`: An answer with status 200 and an empty object is taken for a response: the poller forgets its position, in the database too, and its next request is one for everything (`SyncURL`).
* `Config.C140_violated_debug`: With an address for metrics and none for debugging, the debug pages (profiles, the command line, memory) are served at the address for metrics: the import registers them with the default mux, which that listener serves.
* `Config.C140_violated_socket`: A certificate does not enable TLS if the proxy listens on a socket.
* `Races.C142_violated_buffer_full`: The listener and the timer of a delayed event both find the buffer of a connection full, and both set its flag: the timer holds the lock of the waiter, but what is not an event is passed on without it.
* `Races.C142_violated_callback`: Two requests on the same connection set its callback at the same time: neither holds a lock then.
* `Races.C142_violated_last_pos`: A request that comes again while an earlier one of the same connection is answered, without a position, reads the last position of the connection with the lock of the map of connections, while the earlier one writes it with the lock of the connection.
* `Races.C142_violated_spaces`: The spaces of a room are a map, which all copies of the user's data of the room share. `OnSpaceUpdate` writes it with no lock that those hold who read it: a request that filters rooms by their spaces holds the lock of its connection only. Go ends the process when it notices that a map is read and written at the same time.
* `LostUpdates.C143_violated_counts`: The request that registers the cache has loaded a room, to note that it is in a space, when the listener gets the unread counts of the room: the counts are overwritten with what was loaded, though they are there in either order of the two calls. Nothing sends them again until they change.
* `LostUpdates.C143_violated_join`: When the user joined a room is lost in the same way: the listener has loaded the room when `OnRegistered` notes it.
* `LostUpdates.C143_violated_space`: The other way round, for a room that the cache does not know: the counts are stored with an empty set of spaces, and the room is in no space for this cache, as long as it lives.
* `LostUpdates.C143_violated_tags`: Tags are changed in one critical section, and lost all the same.
* `Repeat.C144_violated_deleted`: A client that keeps sending that a list is deleted gets it back with every second request: the mark is looked at only for lists that exist.
* `Repeat.C144_violated_failed`: The other side of it: a request that fails (panics) after its parameters were merged is not remembered, so the client sends it again and it is handled again (C18). But then nothing in it is new: whatever it asked for, rooms and windows, is not sent, neither now nor later, although the client never got it. `isNew` may say anything here, as the lists may not have been made yet, but for lists that get all rooms.
* `Repeat.C144_violated_sort`: A client that sends an empty sort order gets a list by recency first; with the second request the list is no longer sorted by anything. For `unsorted`, all windows are sent again.
* `Store.C145_violated_foreign`: A homeserver that says of a create event it is of two rooms: the second room is stored, and served, without a create event, as the check is on the state block, but the state is made of the new events only.
* `Store.C145_violated_keyless`: A create event without state key at the start of a timeline: the room has events but no state, and when the state comes with that event and no other it is ignored ("no idea how this should be handled").
* `Supersede.C146_violated_closed`: `Destroy` cancels the request that came last, which need not be the one that is served.
* `Supersede.C146_violated_late`: A request has got its connection from the `ConnMap` when the connection is destroyed. Its callback is set too late: it is served, and waits until its timeout for updates of a connection that gets none any more.
* `Supersede.C146_violated_refused`: A request that is refused for its form, such as one whose position is no number, has set its callback before: `Destroy` cancels this one, and the request that is served goes on waiting.
* `Supersede.C146_violated_three`: While request 0 is served requests 1 and 2 come, one after the other. Both cancel request 0, and nobody cancels request 1: the newest request waits for the timeout of request 1, which the client has given up.
* `Supersede.C146_violated_two`: Request 0 has the lock but has not yet stored its cancel function when request 1 comes: request 1 cancels nothing, and waits for the timeout of request 0.
* `ManyConns.C147_violated_keys`: Key counts that one connection was told are not told to the other, which keeps the old ones as long as it is not made anew.
* `ManyConns.C147_violated_lists`: A device list change that one connection was told is not told to the other, whatever it asks.
* `ManyConns.C147_violated_messages`: A message that one connection has acknowledged is gone: the other, which follows all its positions, never gets it.
* `LazyFlow.C149_violated_empty`: C149 fails for a room that is sent with an empty timeline, for example because its last messages are of ignored users: the room is never taken to be loaded lazily, and no member event is sent with later messages.
* `LazyFlow.C149_violated_replaced`: C149 fails for a client that takes `initial: true` to replace what it has of the room: after the second one the sender of a live message is not known to it.
* `LazyFlow.C149_violated_stale`: C149 fails for a room that is sent twice. `b` is known and changes their profile while the room is out of view; the room comes back with a timeline without `b`; the message `b` then sends comes without the member event, and the client has the old one.
* `IdleDevices.C150_violated_raced`: C150 fails for a device that comes back while it is being expired: it makes a request after the query and before its poller is ended; the request is served by the poller, and then the poller is terminated and the token deleted.
* `IdleDevices.C150_violated_two`: C150 fails for an idle device with a second token, as a client that refreshes its token has: only the token of its poller is deleted, and with the other one a poller is started again.
* `Handover.C151_violated`: If the first device is logged out before its poller fetched what the second one left out, an event is lost: the timeline after it is not marked, and nothing that happens later, other than the first device coming back, fetches it.
* `Handover.C151_violated_race`: Both devices stay, but the second one's next answer is processed before the first one's: the later event is stored before the earlier.
* `Handover.C151_violated_stored`: The timelines of the run in which an event is lost, in the database: `$3` is stored as if it followed `$1`.
* `RowLocks.C152_violated`: Bob's devices changed and the client has not fetched it yet. They change again as the client makes a request: the poller updates the row on Bob, the request locks the row of the device; now each needs the row of the other.
* `FreshStore.C153_violated_lost`: One device: the response to its first request after the database was dropped is lost, and the client asks again with its old position.
* `FreshStore.C153_violated_shared`: Two users with devices of the same id: after the database was dropped, the request of the one makes the other's count as seen. The old position of the other deletes a message that was never sent.
* `IdleConns.C154_violated`: C154 is violated: there is no limit on the time a client may ask to wait. Whatever the lifetime, a client whose request waits longer, and that asks again at once, is told that its connection is gone.
* `IdleConns.C154_violated_running`: C154 is violated, as it happens: with the 30 minutes of the code a request that asks to wait for 31 minutes has its connection destroyed under it.
* `SpamDelay.C156_violated`: C156 is violated: a client that starts over again and again is made to wait with the lock of all connections held. Requests of one user alone keep the lock for as long as they like, and what another user asks is served after them.
* `PollRequest.C158_violated`: C158 is violated: a poller of the device finds the token refused and deletes it after the request has been identified and before the request to poll is read. No poller is started, and no answer is sent: those who wait for one go on waiting.
