{"id": "C01", "title": "Range validation accepts exactly the well-formed disjoint windows", "statement": "A request's list of ranges is accepted if and only if every range [a,b] has 0 <= a <= b and no index belongs to two different ranges.", "quantifier": "every finite list of integer pairs, of any length and magnitude", "why_tests_cant": "The check only compares end points pairwise; that this is enough to exclude every overlap is a statement about all integer ranges.", "anchors": ["sync3/range.go:Valid", "sync3/handler/handler.go:serve"]}
{"id": "C02", "title": "Changing the windows of a list re-syncs exactly the new indices", "statement": "When a client replaces valid ranges `old` by valid ranges `next`, the indices reported as added are exactly those in next but not in old, removed exactly those in old but not in next, unchanged exactly those in both, and the computation never panics.", "quantifier": "every pair of valid range lists (any number of ranges, any order)", "why_tests_cant": "A sweep-line over sorted end points has unboundedly many interleavings of opening and closing points; table tests cover a few dozen.", "anchors": ["sync3/range.go:Delta", "sync3/range.go:createRange", "sync3/range.go:sortPoints", "sync3/handler/connstate.go:onIncomingListRequest"]}
{"id": "C03", "title": "Windowing a list never goes out of bounds and returns exactly the rooms at the visible indices", "statement": "For valid ranges, slicing a room list into the ranges never indexes outside the list, and the returned rooms are, in order, exactly the rooms at list positions covered by the ranges.", "quantifier": "every room list and every valid list of ranges", "why_tests_cant": "Boundary conditions between list length and range ends must hold for every length.", "anchors": ["sync3/range.go:SliceInto", "sync3/sort.go:Subslice", "sync3/lists.go:ListsByVisibleRoomIDs"]}
{"id": "C04", "title": "Moving a room is translated into one shift per affected window", "statement": "For valid ranges and any move of a room from one index to another, the computed (delete index, insert index) pairs have both ends in one window, there is exactly one pair for every window touched by the move and none for the others, and the pair's ends are the end of the move if it lies in that window and else the window's bound in the direction of travel.", "quantifier": "all valid range lists and all from/to indices", "why_tests_cant": "Case analysis on relative positions of from, to and arbitrarily many windows.", "anchors": ["sync3/request.go:CalculateMoveIndexes", "sync3/request.go:jumpedOverRanges", "sync3/range.go:ClosestInDirection", "sync3/range.go:Inside"]}
{"id": "C05", "title": "Replaying list operations keeps the client's windows equal to the server's list", "statement": "If before an update the client's view of every index inside its windows equals the server's list, then after the room is added, removed or moved and the client applies the DELETE/INSERT operations sent, the client's view again equals the server's list at every index inside its windows and below the new count, and computing the operations does not panic.", "quantifier": "all lists of distinct rooms, all valid ranges, every add/remove/move of one room", "why_tests_cant": "The relation between ops and the final view must hold for every list length, window layout and pair of positions.", "anchors": ["sync3/ops.go:CalculateListOps", "sync3/request.go:WriteSwapOp", "sync3/request.go:WriteDeleteOp", "sync3/handler/connstate_live.go:processLiveUpdateForList"]}
{"id": "C06", "title": "A room which becomes visible in a window is sent with its data", "statement": "Whenever a list update makes a room visible at an index inside the client's windows and that room was not visible there before, the room is included in the set of rooms whose full data is sent with the update.", "quantifier": "all lists of distinct rooms, all valid ranges, every add/remove/move of one room", "why_tests_cant": "Depends on the position of the window ends relative to the list length for every layout.", "anchors": ["sync3/ops.go:CalculateListOps", "sync3/handler/connstate_live.go:processLiveUpdateForList"]}
{"id": "C07", "title": "Sorting a list only permutes it, orders it as requested, and is stable", "statement": "Sorting a room list by any supported sequence of sort orders yields a permutation of the list in which no later room precedes an earlier one under the lexicographic combination of the orders, keeping the relative order of rooms which compare equal; an unsupported sort order is reported as an error and leaves the list untouched.", "quantifier": "all room lists, all room metadata, all sequences of sort orders", "why_tests_cant": "Requires that every comparator and every lexicographic combination is a strict weak order on all metadata.", "anchors": ["sync3/sort.go:Sort", "sync3/sort.go:comparatorSortByNotificationLevel", "sync3/sort.go:comparatorSortByRecency"]}
{"id": "C08", "title": "Room-to-index lookup always agrees with the list", "statement": "After any sequence of add, remove and successful sort operations on a sorted list, looking up a room returns the unique position at which it occurs, and reports absence exactly for rooms not in the list; no room occurs twice.", "quantifier": "all sequences of operations on a list created by the server", "why_tests_cant": "An index map maintained incrementally can drift only after particular operation histories.", "anchors": ["sync3/sort.go:Add", "sync3/sort.go:Remove", "sync3/sort.go:IndexOf", "sync3/sort.go:NewSortableRooms"]}
{"id": "C09", "title": "A list contains exactly the rooms that match its filter and have not been left", "statement": "After any history of room updates, each list contains a room if and only if the last update for that room matched the list's filter and did not mark the room as left.", "quantifier": "all histories of room updates, filters and lists", "why_tests_cant": "Add, change and delete decisions are made incrementally from the previous membership of the list.", "anchors": ["sync3/lists.go:SetRoom", "sync3/lists.go:AssignList", "sync3/ops.go:CalculateListOps"]}
{"id": "C10", "title": "Filters mean what the API says", "statement": "A room is included by a filter if and only if it is not superseded by a joined successor room and every specified clause holds: encrypted, tombstoned, dm, invite flags equal; name contains the filter text; it has none of not_tags and at least one of tags; its type is not in not_room_types and is in room_types; and it is in one of the spaces.", "quantifier": "all filters and all rooms", "why_tests_cant": "Interaction of ten optional clauses with early returns.", "anchors": ["sync3/request.go:Include", "sync3/request.go:nullableStringExists"]}
{"id": "C11", "title": "Request parameters are sticky", "statement": "When a request omits a list or a field of a list, the value previously supplied on the connection stays in force; when it supplies the field the new value is used; a list disappears only when the request marks it deleted; a new list without a sort order is sorted by recency. The resulting parameters depend only on the sequence of requests.", "quantifier": "all sequences of requests on one connection, for every list name and field", "why_tests_cant": "Sticky merging is a fold over an unbounded request history.", "anchors": ["sync3/request.go:ApplyDelta"]}
{"id": "C12", "title": "Room subscriptions: last write wins and unsubscribe wins over subscribe", "statement": "After any sequence of requests a room is subscribed if and only if the last request that mentioned it subscribed to it and did not unsubscribe from it, and a room is announced as newly subscribed exactly when it becomes subscribed or its required state or timeline limit changed.", "quantifier": "all sequences of requests and all rooms", "why_tests_cant": "History-dependent merging of subscribe and unsubscribe sets.", "anchors": ["sync3/request.go:ApplyDelta", "sync3/handler/connstate.go:buildRoomSubscriptions"]}
{"id": "C13", "title": "Combining two subscriptions gives each of them at least what it asked for", "statement": "The combination of two room subscriptions has a timeline limit at least as large as each, and its required state selects every event that either of them selects; it is associative up to the state selected.", "quantifier": "all pairs of subscriptions, all state events", "why_tests_cant": "Union semantics must survive wildcards and the special state filters.", "anchors": ["sync3/request.go:Combine", "sync3/request.go:RequiredStateMap", "sync3/handler/rooms_builder.go:BuildSubscriptions"]}
{"id": "C14", "title": "Required-state selection follows the wildcard rules and never misses loaded state", "statement": "A state event is selected by required_state exactly when some entry matches its type and state key (with * matching anything and $ME the user), or, when [*,*] is present, when the remaining entries do not exclude it; and the database query derived from the request fetches every event that would be selected.", "quantifier": "all required_state lists, users and state events", "why_tests_cant": "Five interacting wildcard forms over arbitrary lists.", "anchors": ["sync3/request.go:RequiredStateMap", "internal/required_state_map.go:Include", "internal/required_state_map.go:QueryStateMap"]}
{"id": "C15", "title": "Retrying a request returns the same response and has no further effect", "statement": "Repeating the last successful request with the same position and body returns the response the client was given before, does not run the request handler again, and leaves the connection state unchanged.", "quantifier": "all connection histories reachable from a new connection and all handler behaviours", "why_tests_cant": "The buffer of unacknowledged responses depends on the whole request history.", "anchors": ["sync3/conn.go:OnIncomingRequest"]}
{"id": "C16", "title": "Positions are unique, increasing and never invented by the client", "statement": "Every new response gets a position one higher than the previous one; the buffered responses are always consecutive positions ending in the last one; and a request with a position that was neither issued and still buffered nor is the last one used is rejected as an expired session without running the handler or changing the connection.", "quantifier": "all request sequences, including arbitrary client-chosen positions, and all handler behaviours", "why_tests_cant": "Needs an invariant over arbitrary interleavings of retries, skips and forged positions.", "anchors": ["sync3/conn.go:OnIncomingRequest", "sync3/conn.go:isOutstanding"]}
{"id": "C17", "title": "No response is skipped", "statement": "The response returned for a request at position p is the buffered or newly produced response with the smallest position greater than p; a produced response is never discarded before the client has sent a request with a larger position.", "quantifier": "all request sequences and all handler behaviours", "why_tests_cant": "A lost response is only visible under particular orders of retries and body changes.", "anchors": ["sync3/conn.go:OnIncomingRequest"]}
{"id": "C18", "title": "Failed requests are not committed", "statement": "If the handler fails or panics, the client gets an error, the position does not advance, no response is buffered and the failed request is not treated as a retry: the same request sent again runs the handler again.", "quantifier": "all connection states and handler failures", "why_tests_cant": "Error paths at every possible state of the buffer.", "anchors": ["sync3/conn.go:OnIncomingRequest", "sync3/conn.go:tryRequest"]}
{"id": "C19", "title": "Connections are isolated per user, device and connection id", "statement": "A lookup for a (user, device, conn id) never returns a connection created for another triple whose identifiers contain no '|', never returns a closed connection, and closing the connections of a user or device closes all of those and no others.", "quantifier": "all histories of create, lookup, close and expiry events, including delayed expiry callbacks", "why_tests_cant": "Expiry callbacks run asynchronously, so histories of unbounded length and all interleavings matter.", "anchors": ["sync3/connmap.go:CreateConn", "sync3/connmap.go:getConn", "sync3/connmap.go:closeConn", "sync3/connmap.go:CloseConnsForUsers"]}
{"id": "C20", "title": "The two indexes of joined users and joined rooms always agree", "statement": "After any sequence of joins, leaves, invites and membership reloads, a room is among a user's joined rooms if and only if the user is among the room's joined users.", "quantifier": "all histories of membership operations for all users and rooms", "why_tests_cant": "Inverse maps updated separately can diverge after rare histories.", "anchors": ["sync3/tracker.go:UsersJoinedRoom", "sync3/tracker.go:UserLeftRoom", "sync3/tracker.go:ReloadMembershipsForRoom", "sync3/tracker.go:Startup"]}
{"id": "C21", "title": "Join status is determined by the last membership event", "statement": "A user is considered joined to a room if and only if the last operation concerning that user and room was a join (or a reload or startup listing them as joined), and is counted as invited only if invited and not joined, left or reloaded since.", "quantifier": "all histories of membership operations", "why_tests_cant": "Refinement of an incrementally maintained structure to last-writer-wins over unbounded histories.", "anchors": ["sync3/tracker.go:IsUserJoined", "sync3/tracker.go:UsersInvitedToRoom", "sync3/tracker.go:NumInvitedUsersForRoom"]}
{"id": "C22", "title": "Live events are delivered only to users allowed to see them", "statement": "An event dispatched live for a room is delivered, once, to the global listener first and then exactly to the registered users joined to the room at that moment, plus the target of a leave or ban only if they were joined or invited just before. A user who is not in the room never receives it.", "quantifier": "all histories of dispatched events, registrations and memberships", "why_tests_cant": "A leak requires a particular order of membership changes; security must hold in all of them.", "anchors": ["sync3/dispatcher.go:OnNewEvent", "sync3/dispatcher.go:notifyListeners", "sync3/dispatcher.go:OnNewInitialRoomState", "sync3/dispatcher.go:OnEphemeralEvent"]}
{"id": "C23", "title": "Full room data is forced exactly when a user newly joins", "statement": "A live event is marked to force full room data for a recipient if and only if it is that recipient's own join event and they were not joined before.", "quantifier": "all histories of dispatched events", "why_tests_cant": "Depends on the tracked membership history.", "anchors": ["sync3/dispatcher.go:OnNewEvent", "sync3/dispatcher.go:notifyListeners", "sync3/tracker.go:UsersJoinedRoom"]}
{"id": "C24", "title": "Live streaming neither repeats nor skips events relative to the initial data", "statement": "For each room of a connection, an event is processed live only if it is not older than the position up to which the room was loaded; load positions never decrease; and an event newer than the load position is never skipped for that reason.", "quantifier": "all sequences of live updates and initial loads", "why_tests_cant": "Race between loading a snapshot and streaming; needs an invariant over all interleavings.", "anchors": ["sync3/handler/connstate_live.go:processLiveUpdate", "sync3/handler/connstate.go:load", "sync3/handler/connstate.go:getInitialRoomData"]}
{"id": "C25", "title": "Events sent by a device are held back until their transaction id is known, without loss, duplication or reordering", "statement": "Every event given to the transaction-id waiter is published exactly once, or still queued; events of the same room are published in arrival order; an event is queued only if it was sent by this user without a transaction id or follows a queued event in the room; and releasing up to a position publishes every queued event of that room up to that position.", "quantifier": "all interleavings of incoming events and releases", "why_tests_cant": "Queue behaviour over unbounded event histories.", "anchors": ["sync3/handler/txn_id_waiter.go:Ingest", "sync3/handler/txn_id_waiter.go:PublishUpToNID"]}
{"id": "C26", "title": "A lazily loaded member is sent at most once per room", "statement": "For a room with lazy-loaded members, a sender's member event is reported as needing to be sent exactly the first time that user is seen in that room on the connection, and never for rooms without lazy loading.", "quantifier": "all sequences of lazy-loading calls; all room and user ids", "why_tests_cant": "History dependent, and depends on the composite key being unambiguous.", "anchors": ["sync3/handler/lazy_member.go:AddUser", "sync3/handler/lazy_member.go:Add", "sync3/handler/lazy_member.go:IsLazyLoading"]}
{"id": "C27", "title": "Rooms are built once with all the subscriptions that asked for them", "statement": "When several lists and subscriptions ask for rooms in one response, every requested room is built exactly once and its effective subscription is the combination of exactly the subscriptions that requested it, independent of map iteration order up to what is selected.", "quantifier": "all sequences of subscription additions", "why_tests_cant": "Grouping by sets of subscription ids over arbitrary many subscriptions.", "anchors": ["sync3/handler/rooms_builder.go:BuildSubscriptions", "sync3/handler/rooms_builder.go:AddRoomsToSubscription", "sync3/handler/rooms_builder.go:IncludesRoom"]}
{"id": "C28", "title": "A client can only subscribe to rooms it is joined to", "statement": "Room data is added to a response through a room subscription, or through a change of timeline limit or required state, only if the user is joined to the room when the request is processed.", "quantifier": "all requests and join states", "why_tests_cant": "A security property over every client-chosen room id.", "anchors": ["sync3/handler/connstate.go:buildRoomSubscriptions", "sync3/handler/connstate.go:onIncomingListRequest"]}
{"id": "C29", "title": "Following room predecessors terminates", "statement": "Building old rooms for an upgraded room always terminates, for every predecessor graph including cycles.", "quantifier": "all predecessor graphs", "why_tests_cant": "Termination on every graph cannot be tested.", "anchors": ["sync3/handler/connstate.go:buildRooms"]}
{"id": "C30", "title": "Callers of EnsurePolling are released and told the truth", "statement": "The poller bookkeeping never panics on closing channels; every caller waiting for a device's first sync is eventually released when that device's sync completes or its token expires; and a caller is told the token is valid only if the initial sync completed.", "quantifier": "all interleavings of EnsurePolling, sync-complete and token-expired events", "why_tests_cant": "Concurrency interleavings of arbitrary length.", "anchors": ["sync3/handler/ensure_polling.go:EnsurePolling", "sync3/handler/ensure_polling.go:OnInitialSyncComplete", "sync3/handler/ensure_polling.go:OnExpiredToken"]}
{"id": "C31", "title": "Extensions apply only to the rooms in their scope", "statement": "Live extension data for a room is sent if and only if the room is named by the extension's rooms list (or all subscriptions by wildcard), or is visible in a list named by the extension's lists (or any list by wildcard); a missing selector means all.", "quantifier": "all requests, lists, subscriptions and rooms", "why_tests_cant": "Every combination of explicit, wildcard and missing selectors.", "anchors": ["sync3/extensions/extensions.go:RoomInScope"]}
{"id": "C32", "title": "Extension settings are sticky and disabled by default", "statement": "An extension is enabled if and only if the last request that specified `enabled` set it to true; lists and rooms selectors keep their last specified value; missing selectors on an initial request mean everything.", "quantifier": "all sequences of requests", "why_tests_cant": "Fold over an unbounded history of partial updates.", "anchors": ["sync3/extensions/extensions.go:ApplyDelta", "sync3/extensions/extensions.go:InterpretAsInitial"]}
{"id": "C33", "title": "Account data is attributed to the right scope", "statement": "Account data reported for a room belongs to that room, and global account data is reported only in the global section.", "quantifier": "all users, rooms and lists in scope", "why_tests_cant": "Depends on slice construction for every number of rooms.", "anchors": ["sync3/extensions/account_data.go:ProcessInitial", "state/account_data.go:SelectMany"]}
{"id": "C34", "title": "To-device messages are delivered at least once, in order, and deleted only after acknowledgement", "statement": "Each to-device message stored for a device is returned, in storage order and without gaps, by successive requests that pass back the previous next_batch; it is deleted only once the client has sent a since value at or beyond it (or it is a key request that was cancelled before being sent).", "quantifier": "all interleavings of message arrival and client requests, all limits, including lost responses and retries", "why_tests_cant": "Delivery guarantees across crashes, retries and batch boundaries.", "anchors": ["sync3/extensions/todevice.go:ProcessInitial", "state/to_device_table.go:Messages", "state/to_device_table.go:DeleteMessagesUpToAndIncluding"]}
{"id": "C35", "title": "Cancelling a key request suppresses only unsent key requests", "statement": "Inserting a batch of to-device messages never drops a message that is not a key request or cancellation; a key request the client may already have seen is never removed, and its cancellation is then delivered; order of the remaining messages is preserved.", "quantifier": "all tables, batches and acknowledged positions", "why_tests_cant": "Set-based suppression over arbitrary batches.", "anchors": ["state/to_device_table.go:InsertMessages"]}
{"id": "C36", "title": "Device list changes are not lost if a response is lost", "statement": "Every recorded device list change is included in a response, and is included again when the client retries from the start, until a later incremental request acknowledges it.", "quantifier": "all interleavings of updates and reads", "why_tests_cant": "Two-bucket protocol over unbounded histories.", "anchors": ["state/device_list_table.go:SelectTx", "state/device_list_table.go:UpsertTx", "state/device_data_table.go:Select", "sync3/handler/handler.go:DeviceData"]}
{"id": "C37", "title": "One-time key counts and fallback key types reflect the last upstream value", "statement": "The stored one-time-key counts and fallback key types always equal the last value received from upstream for that device, and an incremental read reports them exactly if they were written since the last incremental read.", "quantifier": "all sequences of upstream responses and reads", "why_tests_cant": "Depends on change detection over every pair of successive maps.", "anchors": ["sync2/poller.go:parseE2EEData", "state/device_data_table.go:Upsert", "internal/device_data.go"]}
{"id": "C38", "title": "Each event is stored once and keeps its position", "statement": "Inserting events never changes the position of an already stored event, gives new events distinct positions larger than all earlier ones in timeline order, and stores no event id twice.", "quantifier": "all sequences of inserted batches, with arbitrary duplicates", "why_tests_cant": "Upsert semantics over arbitrary histories of overlapping batches.", "anchors": ["state/event_table.go:Insert", "state/accumulator.go:Accumulate"]}
{"id": "C39", "title": "Only genuinely new timeline events are accumulated", "statement": "Given a timeline from upstream, the events accumulated are the ones after the last already known event, in order and without duplicates; if all are known nothing is accumulated; replaying the same timeline accumulates nothing.", "quantifier": "all timelines and stored event sets", "why_tests_cant": "Idempotence for every partial overlap.", "anchors": ["state/accumulator.go:filterToNewTimelineEvents", "state/accumulator.go:parseAndDeduplicateTimelineEvents"]}
{"id": "C40", "title": "The current snapshot of a room is the result of applying its events in order", "statement": "After any sequence of accumulated timelines the room's current state has at most one event per (type, state key), namely the last accumulated state event with that key or else the one from the initial state; and each event's recorded before-state is the state just before it.", "quantifier": "all initial states and timelines", "why_tests_cant": "Incremental snapshots must equal a fold over unbounded history.", "anchors": ["state/accumulator.go:calculateNewSnapshot", "state/accumulator.go:Accumulate", "state/accumulator.go:Initialise"]}
{"id": "C41", "title": "Room state at a position is the state after that position", "statement": "The room state returned at an event position equals the state obtained by applying all state events up to and including that position.", "quantifier": "all room histories and positions", "why_tests_cant": "Requires relating before-snapshots, latest events and filters for all histories.", "anchors": ["state/storage.go:RoomStateAfterEventPosition"]}
{"id": "C42", "title": "A user's visible timeline is bounded by their last membership period", "statement": "The range of events shown to a user starts no earlier than their most recent join in the considered interval (or the start if they were joined already) and does not extend beyond the following leave; nothing is shown if they were not joined.", "quantifier": "all membership logs and positions", "why_tests_cant": "Interval computation over arbitrary membership histories.", "anchors": ["state/storage.go:calculateVisibleEventNIDs", "state/storage.go:visibleEventNIDsBetweenForRooms"]}
{"id": "C43", "title": "Snapshot clean-up never removes a snapshot still reachable", "statement": "Removing inaccessible snapshots keeps every snapshot that is the current snapshot of a room or the before-state of one of its latest events up to the maximum timeline limit.", "quantifier": "all databases", "why_tests_cant": "Safety of deletion for every database content.", "anchors": ["state/storage.go:RemoveInaccessibleStateSnapshots"]}
{"id": "C44", "title": "Latest values are retained by the fixed-size buffers", "statement": "The bounded buffer used to collect the most recent items holds exactly the last max values appended (or all if fewer).", "quantifier": "all capacities and append sequences", "why_tests_cant": "Wrap-around arithmetic for all sizes.", "anchors": ["state/storage.go:circularSlice"]}
{"id": "C45", "title": "Receipts: packing is lossless per thread and private receipts stay private", "statement": "Packing receipts into an event and unpacking gives back, for each (event, receipt kind, user), exactly one of the given receipts, preferring an unthreaded one; private receipts are only returned to their owner.", "quantifier": "all receipt sets", "why_tests_cant": "Clash resolution over arbitrary receipt sets.", "anchors": ["state/receipt_table.go:PackReceiptsIntoEDU", "state/receipt_table.go:UnpackReceiptsFromEDU", "state/receipt_table.go:SelectReceiptsForUser", "sync3/handler/handler.go:OnReceipt"]}
{"id": "C46", "title": "Account data: last write wins per user, room and type", "statement": "After any sequence of inserts, selecting account data returns for each (user, room, type) exactly the last inserted value, and only for the requested user and rooms.", "quantifier": "all insert histories", "why_tests_cant": "Batch deduplication followed by upsert across unbounded histories.", "anchors": ["state/account_data.go:Insert", "state/account_data.go:SelectMany"]}
{"id": "C47", "title": "Bulk writes are chunked without loss", "statement": "Splitting rows into chunks preserves every row in order, and no chunk exceeds the database parameter limit.", "quantifier": "all row counts and parameter counts up to the limit", "why_tests_cant": "Arithmetic over all sizes.", "anchors": ["sqlutil/sql.go:Chunkify"]}
{"id": "C48", "title": "A transaction is committed exactly when its function succeeds", "statement": "Changes made in a transaction are visible afterwards if and only if the function returned without error and did not panic; otherwise the database is unchanged.", "quantifier": "all transaction functions and outcomes", "why_tests_cant": "All failure points of an arbitrary function.", "anchors": ["sqlutil/sql.go:WithTransaction"]}
{"id": "C49", "title": "Transaction ids: the all-clear is given once, and only after every poller has reported", "statement": "For an event, the all-clear that no transaction id will arrive is given at most once, only after every device loaded for the sender has reported not having it, and never after a transaction id was seen.", "quantifier": "all interleavings of reports from devices", "why_tests_cant": "Interleavings of arbitrarily many devices.", "anchors": ["sync2/txnid.go:MissingTxnID", "sync2/txnid.go:SeenTxnID"]}
{"id": "C50", "title": "The since token never moves past unprocessed data", "statement": "A poller's persisted since token is advanced only after all sections of that response were handed over without a retryable error, so after a crash or restart every response not fully processed is fetched again.", "quantifier": "all sequences of upstream responses, failures and crash points", "why_tests_cant": "Crash points between every pair of steps.", "anchors": ["sync2/poller.go:poll", "sync2/poller.go:shouldRetry", "sync2/poller.go:parseRoomsResponse"]}
{"id": "C51", "title": "There is at most one live poller per device", "statement": "At any time at most one non-terminated poller exists for a device, and requests for polling an already polled device do not start another.", "quantifier": "all interleavings of EnsurePolling and termination", "why_tests_cant": "Concurrent histories.", "anchors": ["sync2/poller.go:EnsurePolling", "sync2/poller.go:ExpirePollers"]}
{"id": "C52", "title": "A failed write of account data is retried", "statement": "If storing account data fails, the data is stored when upstream delivers it again; it is not dropped.", "quantifier": "all sequences of deliveries and database failures", "why_tests_cant": "Requires a failure at a particular point followed by a retry.", "anchors": ["sync2/handler2/handler.go:OnAccountData"]}
{"id": "C53", "title": "Unread counts converge to the last upstream value", "statement": "After any sequence of unread-count updates the stored counts equal the last values supplied for each count.", "quantifier": "all sequences of partial updates", "why_tests_cant": "In-memory deduplication against partial updates over unbounded history.", "anchors": ["sync2/handler2/handler.go:UpdateUnreadCounts", "state/unread_table.go:UpdateUnreadCounters"]}
{"id": "C54", "title": "Device-data notifications are batched but never lost", "statement": "Every device remembered by the ticker is included in exactly one subsequent notification after it was remembered, and nothing else is notified.", "quantifier": "all interleavings of remember and tick", "why_tests_cant": "Concurrent histories.", "anchors": ["sync2/device_data_ticker.go:Remember", "sync2/device_data_ticker.go:emitUpdate"]}
{"id": "C55", "title": "Typing updates for a room come from one poller at a time", "statement": "A typing update for a room is accepted only from the device assigned to that room; a device is assigned when none is, and is released when its poller terminates.", "quantifier": "all interleavings of typing updates and terminations", "why_tests_cant": "Concurrent ownership hand-over.", "anchors": ["sync2/handler2/handler.go:SetTyping", "sync2/handler2/handler.go:OnTerminated"]}
{"id": "C56", "title": "Room names are computed without panicking and prefer explicit names", "statement": "Computing a room's display name never fails for any metadata; an explicit room name is used if present, otherwise the canonical alias, otherwise the heroes; two heroes with the same display name are disambiguated by user id.", "quantifier": "all room metadata and hero lists", "why_tests_cant": "Index arithmetic on arbitrary hero lists.", "anchors": ["internal/roomname.go:CalculateRoomName", "internal/roomname.go:disambiguate"]}
{"id": "C57", "title": "Invites are retired by later memberships", "statement": "After processing a batch of membership events, a user's stored invite for the room remains if and only if their last membership in the batch is an invite (or they have none in it).", "quantifier": "all batches and stored invites", "why_tests_cant": "Last-wins semantics in arbitrary batches.", "anchors": ["state/invites_table.go:RemoveSupersededInvites"]}
{"id": "C58", "title": "Space membership follows the last relevant event", "statement": "After any sequence of batches, a room is a child of a space if and only if the last event for that relation had a valid via list.", "quantifier": "all event histories", "why_tests_cant": "Last-writer-wins with insert and delete phases in each batch.", "anchors": ["state/spaces_table.go:HandleSpaceUpdates", "state/spaces_table.go:NewSpaceRelationFromEvent"]}
{"id": "C59", "title": "Rooms never become unencrypted and metadata is not lost", "statement": "Once a room is recorded as encrypted it stays so; its type, upgrade and predecessor are changed only by an update that specifies them.", "quantifier": "all sequences of upserts", "why_tests_cant": "Latch invariants over unbounded histories.", "anchors": ["state/rooms_table.go:Upsert", "state/accumulator.go:roomInfoDelta"]}
{"id": "C60", "title": "A device in use is never expired", "statement": "A device whose access token is used at least once in any window is not selected for expiry as long as the idle period exceeds the last-seen update granularity.", "quantifier": "all request times", "why_tests_cant": "Arithmetic over all timelines of requests.", "anchors": ["sync2/tokens_table.go:MaybeUpdateLastSeen", "sync2/devices_table.go:FindOldDevices"]}
{"id": "C61", "title": "A list's recency order follows only the events that list is interested in", "statement": "While a list exists, the timestamp by which it orders a known room by recency is the one of the last update that bumped the room in that list; other updates to the room never move it, and deleting or adding other lists does not matter.", "quantifier": "every history of room updates, list creations, re-sorts and deletions", "why_tests_cant": "The timestamp is kept per list in a map with a lazily written fallback; whether some interleaving of updates, new lists and sorts lets an uninteresting event leak in cannot be settled by examples.", "anchors": ["sync3/lists.go:SetRoom", "sync3/room.go:GetLastInterestedEventTimestamp", "sync3/lists.go:DeleteList"]}
{"id": "C62", "title": "Combined subscriptions keep old rooms and heroes", "statement": "When a room is covered by two subscriptions, the combined subscription includes old rooms (and heroes) if either of the two asks for them, regardless of the order in which they are combined.", "quantifier": "all pairs of subscriptions", "why_tests_cant": "The order in which subscriptions are combined depends on the numbering of subscriptions within a request; tests combine in one order only.", "anchors": ["sync3/request.go:601-628", "sync3/handler/rooms_builder.go:67-122", "sync3/handler/connstate.go:691"]}
{"id": "C63", "title": "A changed list request leaves the client with the right rooms", "statement": "If before a list request the client's map from index to room equals the window on the list, then after applying the INVALIDATE and SYNC operations of the response it equals the new window on the (possibly re-sorted or re-filtered) list; outside the windows it is empty.", "quantifier": "all lists, previous and next ranges, sort and filter changes", "why_tests_cant": "Every pair of range lists and list lengths; off-by-one clamping.", "anchors": ["sync3/handler/connstate.go:onIncomingListRequest", "sync3/handler/connstate.go:clampSliceRangeToListSize"]}
{"id": "C64", "title": "Changing the filters of a list changes its rooms", "statement": "After a request that changes the filters of a list, the rooms of the list and the rooms sent are those selected by the new filters.", "quantifier": "all lists and filter changes", "why_tests_cant": "Depends on every combination of list kind and change.", "anchors": ["sync3/handler/connstate.go:onIncomingListRequest", "sync3/lists.go:AssignList"]}
{"id": "C65", "title": "Account data of a room newly in the response is complete", "statement": "When an in-scope room of a live response receives an update, all account data stored for the user in that room is in the response.", "quantifier": "all databases, updates and orders of updates within a response", "why_tests_cant": "Depends on the order of updates inside one response.", "anchors": ["sync3/extensions/account_data.go:AppendLive"]}
{"id": "C66", "title": "Stored receipts follow deliveries and never go back", "statement": "After a delivery of receipts, each delivered receipt is the one held for its room, user and thread; the receipts reported as changed are exactly those whose event changed; nothing else changes; and a held receipt is never replaced by an older one.", "quantifier": "all tables, deliveries and map orders", "why_tests_cant": "Depends on map order, duplicates and pollers lagging behind each other.", "anchors": ["state/receipt_table.go:Insert", "state/receipt_table.go:bulkInsert"]}
{"id": "C67", "title": "To-device messages of a response are handed over with success at most once", "statement": "The to-device messages of one upstream response are handed to the receiver with success at most once, across retries and restarts.", "quantifier": "all receivers, failures and crash points", "why_tests_cant": "Needs a failure or crash between two particular statements.", "anchors": ["sync2/poller.go:poll", "sync2/poller.go:parseToDeviceMessages"]}
{"id": "C68", "title": "The receiver always has the last key counts and fallback key types", "statement": "After a processed response the one-time key counts and unused fallback key types last passed to the receiver are those of the last response that had them.", "quantifier": "all sequences of responses", "why_tests_cant": "Change detection over arbitrary histories of maps.", "anchors": ["sync2/poller.go:parseE2EEData"]}
{"id": "C69", "title": "After a request for a device exactly one poller runs for it", "statement": "After a request for polling a device, the device has a running poller and no other poller of the device is running.", "quantifier": "all interleavings of requests, terminations, goroutine ends and panics", "why_tests_cant": "Depends on panics and on when a goroutine ends.", "anchors": ["sync2/poller.go:EnsurePolling", "sync2/poller.go:Poll", "sync2/poller.go:Terminate"]}
{"id": "C70", "title": "A calculated room name says something about the members", "statement": "With no explicit name and alias, a user who is alone sees a name that begins with Empty Room, and a user who is not alone sees one that begins with the name of a member.", "quantifier": "all room metadata and limits", "why_tests_cant": "Corner cases of counts against heroes.", "anchors": ["internal/roomname.go:CalculateRoomName"]}
{"id": "C71", "title": "Only state events change recorded room metadata", "statement": "The recorded encryption, upgrade, type and predecessor of a room are those of the last state event with an empty state key which specifies them; a message event never changes them.", "quantifier": "all sequences of batches of events", "why_tests_cant": "The offending event is a message with the type of a state event, which no test sends.", "anchors": ["state/accumulator.go:roomInfoDelta", "state/rooms_table.go:Upsert"]}
{"id": "C72", "title": "A token that cannot be decrypted is skipped at start-up", "statement": "At start-up every device whose most recently used token can be decrypted gets exactly one poller with that token, whatever the other tokens are.", "quantifier": "all tables of tokens and devices, all sets of unreadable tokens", "why_tests_cant": "Depends on which position in the result the unreadable token has.", "anchors": ["sync2/tokens_table.go:TokenForEachDevice", "sync2/handler2/handler.go:StartV2Pollers"]}
{"id": "C73", "title": "The space graph agrees with the current state of the rooms", "statement": "After every sequence of timelines and state blocks, a parent/child relation is stored in the spaces table if and only if the current state of the room it comes from has the m.space.child or m.space.parent event with a via list.", "quantifier": "for every history of Accumulate and Initialise calls on any number of rooms, any contents, any chunking and any map iteration order", "why_tests_cant": "Tests check single calls of HandleSpaceUpdates; the agreement of two tables over all histories, including out-of-date state blocks, cannot be enumerated.", "anchors": ["state/accumulator.go:293-299", "state/accumulator.go:552-554", "state/spaces_table.go:125-166"]}
{"id": "C74", "title": "Cached room metadata follows the stored current state", "statement": "After any history of timelines, state blocks, redactions, typing notices and restarts, interleaved in any way with delivery of the announcements: whenever no announcement is waiting, every room with state is cached, and its cached name, avatar, alias, encryption, upgrade and space children are those given by the stored events of its current state.", "quantifier": "All lists of upstream sections, all event contents and redacted contents, all interleavings of storing and delivering, any number of restarts", "why_tests_cant": "The queue between store and cache, redactions that reload state and restarts interleave without bound; tests deliver each announcement at once and rarely re-send state blocks for a known room", "anchors": ["sync3/caches/global.go:281-395", "state/storage.go:208-381", "sync2/handler2/handler.go:260-394", "sync3/handler/handler.go:650-693"]}
{"id": "C75", "title": "At start-up every device is tried once and its outcome is reported", "statement": "The workers of StartV2Pollers try every device whose token can be decrypted exactly once, always finish if the calls return, and report for each device whether its own poller started.", "quantifier": "all interleavings of any number of workers, all token lists, all outcomes", "why_tests_cant": "The outcome is read from a variable shared by the workers; only particular interleavings of returns and reads show it.", "anchors": ["sync2/handler2/handler.go:124-177"]}
{"id": "C76", "title": "Redacted events are blanked for good and nothing else is touched", "statement": "When a new redaction event is accumulated, every stored event it names is rewritten by the redaction algorithm of the room's version, with the last redaction as redacted_because. The rewritten form is never undone by any later delivery. An event that no redaction names keeps the JSON it was first stored with. A redaction never makes a timeline fail, and the caches are told to reload exactly when an event of the current state was redacted.", "quantifier": "all histories of state blocks and timelines over all rooms, all JSON redaction functions", "why_tests_cant": "Tests redact one event in one room; the claim ranges over every order of deliveries by all pollers, several redactions of one event, and redactions naming events of other rooms.", "anchors": ["state/accumulator.go:430-497", "state/accumulator.go:532-550", "state/event_table.go:382-418", "state/event_table.go:548-553"]}
{"id": "C77", "title": "Member counts and heroes follow the members of the room", "statement": "After any history of member events, state blocks and restarts the cached join count is the number of joined users and the invite count the number of invited users; the heroes are different, at most six, all of them joined or invited; and if the room has at most six members they are all heroes, with their current names and avatars.", "quantifier": "all histories of member events allowed by Matrix, state blocks and restarts, all room sizes", "why_tests_cant": "Counts come from three places (tracker, storage, start-up) that must agree after every interleaving of joins, invites, leaves, renames, reloads and restarts; tests look at a few short histories.", "anchors": ["sync3/caches/global.go:336-369", "sync3/dispatcher.go:120-204", "sync3/tracker.go", "state/storage.go:312-432", "state/storage.go:994-1073"]}
{"id": "C78", "title": "A caught-up client has the current name, avatar and counts of its rooms", "statement": "For every sequence of events, other updates, loads, initial sends and processed updates on a connection, once the connection has no queued update for a room the client follows, the name, avatar, join count and invite count the client holds are the ones calculated from the current metadata of the room.", "quantifier": "all operation lists of one room and one connection, all metadata", "why_tests_cant": "Depends on the interleaving of the dispatcher, the transaction id waiter, the store reads and the live loop; a lost update shows only under particular orders.", "anchors": ["sync3/handler/connstate_live.go:133-385", "sync3/lists.go:59-153", "sync3/room.go:60-88", "sync3/avatar.go:20-33", "sync3/handler/txn_id_waiter.go:29-92", "internal/roomname.go:103-110,246-254"]}
{"id": "C79", "title": "A stored timeline has no unmarked holes", "statement": "For every history of polls by any number of pollers delivering segments of a room's upstream timeline in order, a stored timeline event that is not marked missing_previous is the direct upstream successor of the timeline event stored before it; so a timeline read for a client has no holes. Only the first event of a limited timeline is ever marked.", "quantifier": "all upstream timelines, all sequences of state blocks and timelines of any pollers, all visibility ranges and limits", "why_tests_cant": "Needs overlapping and limited syncs of several pollers in particular orders, and a comparison with the upstream order which the store does not keep.", "anchors": ["state/accumulator.go:346-372,570-655", "state/event_table.go:162-198,420-440", "state/storage.go:712-763"]}
{"id": "C80", "title": "A transaction id reaches the device that sent the event, and no other", "statement": "The transaction id upstream attaches to an event for the sending device is attached again whenever that event is sent to a connection of that device, whichever poller saw the event first. Connections of other devices and users are not sent it, and no transaction id is made up.", "quantifier": "all interleavings of deliveries to the pollers of all users and devices, all cleanings", "why_tests_cant": "Tests use one order of two pollers; the claim ranges over all orders, repeated deliveries and batches.", "anchors": ["sync2/handler2/handler.go:260-300", "state/txn_table.go:37-74", "state/event_table.go:162-198", "sync3/caches/user.go:436-493"]}
{"id": "C81", "title": "Replaying every response keeps the client's windows equal to the server's list", "statement": "Over any history of a connection (list requests that create the list, move its windows, change its sort order or filters or drop it, and live updates in between), after the client has replayed the operations of a response in order, each index inside its requested windows holds the room that the server's sorted list has at that index, and the server's list is in the requested order.", "quantifier": "all histories of rounds, each with any request for the list and any sequence of live updates and other operations on the connection's lists; all room data, filters, sort orders, ranges and map iteration orders", "why_tests_cant": "Existing tests replay a handful of fixed traces; drift of the client's copy needs a particular interleaving of window moves, re-sorts and room moves, and the defect shows only at indexes the test looks at.", "anchors": ["sync3/handler/connstate.go:269-441", "sync3/handler/connstate_live.go:423-459", "sync3/lists.go:59-153", "client/sync.js:302-457"]}
{"id": "C82", "title": "Updates queued for a connection are answered in order, without loss or starvation", "statement": "The updates handed to a connection by each producer are processed in order, each for exactly one response; an update is dropped only if the connection dies, which then answers at most the request in flight and sends nothing that comes after the dropped update. A request with data of its own also processes what was queued (unless it is the first one), so a client that keeps changing its request does not starve; one without data waits for data and then processes at most 100 updates. The buffer stays within its bound and a request never blocks on an empty channel.", "quantifier": "all interleavings of producers, requests, time-outs and cancellations; all effects of updates on responses; all buffer sizes", "why_tests_cant": "Time-outs, full buffers and concurrent producers are races a test cannot enumerate; a lost update shows only as a client that is silently out of date.", "anchors": ["sync3/handler/connstate_live.go:33-115", "sync3/handler/txn_id_waiter.go:29-92", "sync3/connmap.go:119-134"]}
{"id": "C83", "title": "A list without filters shows the rooms the user is in", "statement": "A room list without filters that a connection keeps shows a room iff the user is joined to it or invited to it, through every sequence of joins, leaves, kicks, bans, invites, rejections, messages and requests.", "quantifier": "all histories of memberships, events and list requests over any number of rooms", "why_tests_cant": "Whether a room is shown depends on the order in which the timeline of a leave, the leave itself and later joins are processed by the tracker, the user cache and the connection; integration tests follow one leave or one kick.", "anchors": ["sync3/caches/user.go:593-695", "sync3/handler/connstate.go:744-764", "sync3/lists.go:121-150", "sync3/dispatcher.go:170-214", "sync2/poller.go:889-916"]}
{"id": "C84", "title": "Connections of a user do not disturb each other through a shared update", "statement": "When several connections of a user process the same room update, whatever the interleaving of their goroutines, none of them panics and each of them calculates the room's name and avatar and stores its copy of the heroes from the heroes of the room without the user.", "quantifier": "all interleavings of any number of connections, all lists of heroes", "why_tests_cant": "A data race: the wrong result needs two requests of the same user to be inside the same two functions at once, which tests cannot schedule.", "anchors": ["sync3/handler/connstate_live.go:270-288,360-361", "internal/roomname.go:67-101,135-142", "sync3/caches/user.go:380-415"]}
{"id": "C85", "title": "Rooms that come into view do not show what the user may not see", "statement": "The data sent for a room that comes into view (name, avatar, counts, heroes, required state) depends on the current room only if the user is joined to it; for an invite only the invite state is used. Building the data never panics, and with bump event types its timestamp is never from before the join.", "quantifier": "all histories of memberships and list requests, all room data before and after, all user data, bump types and subscriptions", "why_tests_cant": "A leak shows only if the room changes after the user is gone and then comes into view again; non-interference compares two runs.", "anchors": ["sync3/handler/connstate.go:554-700", "sync3/caches/user.go:78-171,593-695", "sync3/lists.go:121-150,229-253"]}
{"id": "C86", "title": "The client's view of who is typing converges", "statement": "For a user joined to a room that a connection was sent and has in scope of the typing extension, once the connection has processed its updates the client holds the room's last typing event. The client is never told an event nobody sent, is told nothing for rooms out of scope, and users who are not joined are not told who is typing.", "quantifier": "for all interleavings of typing events, other updates of the room, requests, window changes caused by other rooms, membership changes and processing of queued updates", "why_tests_cant": "The typing event travels on two paths (a snapshot in queued updates, the current value on each request) that race with window changes; a test fixes one order.", "anchors": ["sync3/extensions/typing.go:31-94", "sync3/handler/handler.go:788-798", "sync3/caches/global.go:261-275", "sync3/caches/user.go:499-513"]}
{"id": "C87", "title": "Payloads on a pub/sub channel are handed over once and in order", "statement": "Every payload for which Notify succeeds is handed to the listener's callback exactly once, in the order sent, one at a time; the buffer never exceeds its size; without a buffer Notify returns only after the callback; after Close everything sent is still handed over; no goroutine waits for ever. No payload is lost, and Notify never panics.", "quantifier": "for all buffer sizes, any number of notifying goroutines, and all interleavings of sends, receives, callbacks, time-outs and Close", "why_tests_cant": "Losses and deadlocks need particular interleavings of several goroutines and a callback slower than the time-out.", "anchors": ["pubsub/pubsub.go:68-118"]}
{"id": "C88", "title": "The worker pool writes each poller's key data once and in order", "statement": "Each call of OnE2EEData runs its function exactly once and returns after it with its result; for each caller the writes are in the order of its calls; at most n functions run and at most n are queued; with at least one worker some goroutine can always go on.", "quantifier": "for all pool sizes, any number of callers, and all interleavings of queueing, workers and failures", "why_tests_cant": "Reordering or double execution needs many concurrent callers and particular schedules.", "anchors": ["internal/pool.go:44-67", "sync2/handler2/handler.go:230-253"]}
{"id": "C89", "title": "A timeline comes with a token from which nothing is missing", "statement": "The prev_batch token given with a timeline is such that paging back from it gives every event before the first event of the timeline. There is one whenever there are earlier events, it is the nearest, and it is not of an event after what the user may see.", "quantifier": "for all sequences of sync v2 timelines from any number of pollers, overlapping, limited or with events that cannot be parsed, all state blocks, limits and position ranges", "why_tests_cant": "A wrong token shows only when a client pages back across the boundary between two sync v2 timelines of different pollers.", "anchors": ["state/accumulator.go:570-601", "state/accumulator.go:606-655", "state/event_table.go:538-546", "state/storage.go:712-763"]}
{"id": "C90", "title": "Migrations keep what the proxy knows", "statement": "After upgrading to the device list table, the new code has for every device exactly the keys, the device list changes to send and those sent that the old code had; upgrading again changes nothing, and a failed upgrade changes nothing. The clean-up migrations remove exactly the rooms without a create event, the invites of users whose current membership is not an invite, and the invites and since tokens of users with an unread count in an unknown room; everything else stays.", "quantifier": "for all databases", "why_tests_cant": "Migrations are tested on one small database each; a row of an unusual device lost on the way is only noticed as missing encryption keys.", "anchors": ["state/migrations/20240517104423_device_list_table.go:46-175", "state/migrations/20230822180807_bogus_snapshot_cleanup.go:22-88", "state/migrations/20231108122539_clear_stuck_invites.go:24-78", "state/migrations/20231019153023_cleanup_dead_invites.sql:1-22"]}
{"id": "C91", "title": "Sharing of request objects does not confuse retries or settings", "statement": "The remembered last request and the sticky request share extension objects that are written to. In spite of this the settings of every extension are the requests applied one after the other; a request sent again after it was answered is recognised, gets the same response, is not handled again and changes nothing; a request that failed is handled when it is sent again, and leaves no settings behind.", "quantifier": "for all histories of a connection, all requests with any of the five extensions, and all handler results including panics before and after the settings are applied", "why_tests_cant": "Tests of retries use requests without extensions; sharing shows only for the first request with an extension, at a position that is retried.", "anchors": ["sync3/conn.go:137-250", "sync3/request.go:275-330", "sync3/extensions/extensions.go:84-112", "sync3/extensions/extensions.go:201-245"]}
{"id": "C92", "title": "A request is served as the owner of its access token", "statement": "A request gets a connection only of the user and device its access token was issued for, and a poller uses a token only for its own device. Once a token is revoked it is no longer accepted: the device's poller deletes its row, and from then on no request with it is served.", "quantifier": "for all interleavings of requests (in each of their database and homeserver steps), pollers, revocations, expiries and connection closes, with any number of users, devices and tokens", "why_tests_cant": "Mixing up devices or accepting revoked tokens needs particular interleavings of requests with revocations; a test tries few of them and only devices with one token.", "anchors": ["sync3/handler/handler.go:347-504", "sync2/tokens_table.go:117-260", "sync2/poller.go:225-310", "sync2/poller.go:586-600", "sync2/handler2/handler.go:198-209"]}
{"id": "C93", "title": "A device that asks to be polled is polled, and its requests are answered", "statement": "Every request that waits for its device to be polled is released; and whenever a request is let through, the device has a running poller or its end is about to be noticed.", "quantifier": "for all interleavings of requests, the two pub/sub channels, the goroutines that start pollers, pollers that find their token revoked or are expired, and start-up, with any number of requests and tokens of the device", "why_tests_cant": "The failures need a token to be revoked within particular windows of a request; afterwards the device is locked out or unpolled until a restart, which no single request shows.", "anchors": ["sync3/handler/ensure_polling.go:63-184", "sync2/handler2/handler.go:124-209", "sync2/handler2/handler.go:564-596", "sync2/poller.go:225-310", "sync2/poller.go:549-600"]}
{"id": "C94", "title": "A user's cache has the last values", "statement": "Once a user's cache exists and no message for a key (a room's unread counts, direct rooms, ignored users, a room's tags, an invite) is on its way, the cache has the stored value of the key.", "quantifier": "for all interleavings of the five queries of any number of requests, writes by pollers, messages, registrations that succeed or fail, and invalidations", "why_tests_cant": "A value is lost only if its message comes between the query and the moment the cache is stored.", "anchors": ["sync3/handler/handler.go:525-588", "sync3/handler/handler.go:696-754", "sync3/handler/handler.go:800-814"]}
{"id": "C95", "title": "A connection gets every event of its user's rooms from its start", "statement": "Every event handed on by the dispatcher after a connection was made reaches the connection.", "quantifier": "for all interleavings of requests of a user that make caches and connections, registrations that succeed or fail, events and invalidations", "why_tests_cant": "Needs two requests of a user at once, or a request just when a room is invalidated.", "anchors": ["sync3/handler/handler.go:439-457", "sync3/handler/handler.go:525-588", "sync3/dispatcher.go:58-90", "sync3/handler/handler.go:829-877"]}
{"id": "C96", "title": "Invites and highlight counts shown for a room are the current ones", "statement": "Once a poller of the user has delivered everything, a room is shown as an invite exactly if the user's last membership upstream is an invite, also after the cache is made anew; an invite has one highlight, and a room the user is in has the last highlight count upstream.", "quantifier": "all sequences of member events and highlight counts, delivered piecewise by any number of pollers of the user and of others, with reloads and restarts", "why_tests_cant": "the order in which responses of different pollers arrive is up to the network; tests deliver to one poller at a time", "anchors": ["sync2/poller.go:784-955", "sync3/caches/user.go:546-695", "state/invites_table.go:50-104", "sync2/handler2/handler.go:450-562"]}
{"id": "C97", "title": "A connection whose first load fails recovers", "statement": "If the rooms of a user cannot be loaded when a connection gets its first request, the connection loads them with a later request, and then its lists have all rooms the user is in, as if the load had not failed.", "quantifier": "all rooms joined before, all sequences of events and requests, with any of the loads failing", "why_tests_cant": "tests do not make the database fail for one request, and the lists look right to a client whose rooms all have new events", "anchors": ["sync3/handler/connstate.go:109-189", "sync3/handler/connstate_live.go:335-459", "sync3/lists.go:59-253"]}
{"id": "C98", "title": "A user's rooms are in the spaces the user is in", "statement": "For a user, a room is in a space exactly if the user is joined to the space, the space was created as one, and the last m.space.child event of the space for the room has a via list; the user's cache has this at all times, however the events came.", "quantifier": "all sequences of events and state blocks of all rooms, with caches made and dropped at any time", "why_tests_cant": "tests make the space before the first request; joining or leaving a space while connected and spaces that contain themselves are not tried", "anchors": ["sync3/caches/user.go:246-318", "sync3/caches/user.go:571-619", "sync3/caches/global.go:281-378", "sync3/dispatcher.go:120-292"]}
{"id": "C99", "title": "The live timeline of a room has the room's own events, all of them", "statement": "After a room's initial data up to a position, the live events sent to the client in that room's timeline are exactly the room's events after that position, each once and in order, except those held back for a transaction id, which follow later; no event of another room is among them and no event is lost.", "quantifier": "All sequences of events with ascending positions over any rooms and senders, with and without transaction ids, all releases by all-clears and timers at any time, with and without delay, and all initial positions.", "why_tests_cant": "It needs a space event about a room while a message of that room is held back, with the next position; tests with one room or one of the mechanisms do not show that the update for the child has the space's event and position.", "anchors": ["sync3/caches/user.go:571-619", "sync3/handler/txn_id_waiter.go:29-92", "sync3/handler/connstate_live.go:133-262"]}
{"id": "C100", "title": "A restart does not change the recency of rooms", "statement": "The time by which a room is ordered in the lists of a new connection (LastMessageTimestamp without bump event types, else the latest event of these types after the user's join) is the same before and after the proxy is restarted; per event type the cache has the time of the room's last event of that type.", "quantifier": "All histories of state blocks (first and later), timelines, events of other rooms and restarts, all timestamps, all lists of bump event types, all join positions.", "why_tests_cant": "Live fields and loaded fields come from different code paths; a difference needs disagreeing clocks, a state block after a gap, or a bump type whose last event came in the first state block, and then a restart.", "anchors": ["sync3/caches/global.go:368-377", "state/storage.go:208-244", "state/event_table.go:442-480", "sync3/handler/connstate.go:124-148"]}
{"id": "C101", "title": "A new connection starts from exact and consistent positions", "statement": "The starting position of each of a connection's rooms is the newest stored event of that room up to the connection's overall position; events stored between the queries do not change any of them, so that all positions belong to one moment.", "quantifier": "All histories of the store, all rooms asked for, all overall positions, and any further events stored between the first query and the later ones.", "why_tests_cant": "The fast path (a column of the rooms table) and the slow path (a query on the events table) agree only because of an invariant over all histories; the race between the queries needs a write in between.", "anchors": ["state/storage.go:1103-1138", "state/event_table.go:148-157", "state/event_table.go:357-380", "state/rooms_table.go:93-109", "sync3/caches/global.go:142-172"]}
{"id": "C102", "title": "The state sent with a room is the state that was asked for", "statement": "The required_state of a room in its initial data consists of exactly the current state events (at the load position) which required_state selects, plus, with lazy-loaded members, the member events of the senders in the timeline, each once, independently of the other rooms loaded in the same call.", "quantifier": "all database histories, load positions, required_state lists, timelines and sets of rooms loaded together", "why_tests_cant": "Combines the wildcard rules, the query derived from them, snapshots and the senders of the timeline; every combination cannot be sampled.", "anchors": ["sync3/caches/global.go:LoadRoomState", "sync3/handler/connstate.go:getInitialRoomData", "internal/required_state_map.go:QueryStateMap", "internal/required_state_map.go:Empty"]}
{"id": "C103", "title": "An invite is shown as what it says", "statement": "An invite is taken up exactly if the invite state has the user's own member event; name, avatar, alias, type and encryption shown are those of the state events in the invite state, direct flag and time those of the invite; and a room with no name or alias is named after the members whose own events are in the invite state, in the usual case the inviter.", "quantifier": "all invite states (lists of stripped events), users and rooms; all orders of map iteration", "why_tests_cant": "Invite state is made by other servers and can contain anything in any order.", "anchors": ["sync3/caches/user.go:NewInviteData", "sync3/caches/user.go:RoomMetadata", "internal/roomname.go:CalculateRoomName"]}
{"id": "C104", "title": "Direct chats, tags and ignored users are those of the account data", "statement": "In a user's cache, a room is a direct chat exactly if the user's last m.direct lists it (or, for an invite, as the invite says), the tags of a room are those of its last m.tag, and the ignored users are those of the last m.ignored_user_list, whenever the cache was made.", "quantifier": "all sequences of account data events of any scope, invites, retirements of invites and restarts", "why_tests_cant": "A flag may be right live and wrong after a restart, or the other way round, depending on the order of unrelated messages.", "anchors": ["sync3/caches/user.go:OnAccountData", "sync3/caches/user.go:OnInvite", "sync3/handler/handler.go:userCache", "state/account_data.go:SelectWithType"]}
{"id": "C105", "title": "A poller keeps its token until it is refused, and releases those who wait", "statement": "A poller gives its token up only if the homeserver refuses it or more than a thousand polls in a row fail, and then it does; its loop ends for no other reason than that or being terminated; and those who wait for its first sync are released exactly once, at the latest when the loop ends.", "quantifier": "all sequences of answers, processing errors, terminations and panics", "why_tests_cant": "A thousand failures in a row, or a termination at each point of the loop, are not what tests wait for.", "anchors": ["sync2/poller.go:Poll", "sync2/poller.go:poll"]}
{"id": "C106", "title": "A client gets news only of rooms it has", "statement": "Whenever a response has a room without its full data, the client was sent full data of the room before on the connection; and it has, or is sent, full data of each room it sees in a list or has subscribed to.", "quantifier": "all histories of requests and updates, any lists, windows, orders and subscriptions", "why_tests_cant": "Needs several updates in one response, or rooms moving past a window.", "anchors": ["sync3/handler/connstate_live.go:processLiveUpdate", "sync3/handler/connstate_live.go:processLiveUpdateForList", "sync3/handler/connstate_live.go:resort", "sync3/handler/connstate_live.go:processUpdatesForSubscriptions"]}
{"id": "C107", "title": "The timestamp of a room is that of the latest bumping event the user may see", "statement": "Whenever a room is put into a response, its timestamp is that of the latest event, from the user's join on, whose type is one of the bump event types of the request (of any type if none are requested), or of the user's join if there is no such event.", "quantifier": "For all rooms, event logs, restarts, times at which the user's cache and connection are made, sequences of live updates and rebuilt rooms in a response, and bump event types.", "why_tests_cant": "Tests look at single updates with growing timestamps; the failures need two events in one response, a join after the cache was made, or clocks that differ.", "anchors": ["sync3/handler/connstate.go:645-676", "sync3/handler/connstate_live.go:197-219", "sync3/caches/global.go:369-377", "sync3/caches/user.go:303-316", "state/storage.go:219-242"]}
{"id": "C108", "title": "A stored token can be read back, and an unreadable one is an error", "statement": "What encrypt stores for a token, decrypt gives back with the same key, for every token and nonce; two stored texts are equal only for equal tokens; and a text that cannot be read, whatever it is, gives an error so that the device is skipped.", "quantifier": "For all tokens, nonces, keys and stored texts, and every cipher whose opening undoes its sealing.", "why_tests_cant": "The round trip is tested on samples; texts in the database that were not written by encrypt are not.", "anchors": ["sync2/tokens_table.go:58-73", "sync2/tokens_table.go:78-103"]}
{"id": "C109", "title": "A caught-up client has the current heroes of its unnamed rooms", "statement": "A client that asked for heroes and has processed all updates has, for a room without name and alias, exactly the heroes the proxy knows, with their display names and avatars.", "quantifier": "For all histories of events, other updates, initial loads, rooms sent anew and requests, and all metadata.", "why_tests_cant": "Needs sequences of changes of names and members across responses; tests look at one change.", "anchors": ["sync3/handler/connstate.go:676-693", "sync3/handler/connstate_live.go:272-285", "sync3/lists.go:59-91", "internal/roomname.go:103-132", "sync3/room.go:12-28"]}
{"id": "C110", "title": "num_live counts the live events at the end of the timeline", "statement": "In every response, num_live of a room is the number of its events that have just happened, and those are the last num_live events of the timeline sent for the room.", "quantifier": "all histories of a connection: events stored, requests, updates taken from the queue (any event, any rooms built with any limits), responses", "why_tests_cant": "Needs a room to be built, to get live events and to be built again within one response, in any order; tests make one or two events per response.", "anchors": ["sync3/handler/connstate_live.go:187-262", "sync3/room.go:11-27", "sync3/handler/connstate.go:554-700"]}
{"id": "C111", "title": "A client is told why its request failed", "statement": "Every request gets a reply. It is a response if the request is readable, its token is known, its parameters are 64-bit numbers and the connection has a response; M_UNKNOWN_TOKEN exactly if the homeserver refuses the token or polling with it failed; M_UNKNOWN_POS exactly if there is no connection for the request or the connection does not know the position; a status of 500 or more only if something on the server's side failed, and another error status only if the client is at fault or has gone.", "quantifier": "all requests (method, body, header, query texts) and all answers of the database, the homeserver, the poller and the connection", "why_tests_cant": "The replies are decided by about a dozen checks in order, with texts of any form; tests make a few requests.", "anchors": ["sync3/handler/handler.go:186-342", "sync3/handler/handler.go:347-461", "sync3/handler/handler.go:463-504", "sync3/handler/handler.go:879-892", "internal/request.go:9-16", "internal/errors.go:21-55"]}
{"id": "C112", "title": "A refused request changes nothing", "statement": "A request that is refused, before it is given to a connection, leaves all connections as they were; and no request changes a connection of another device or connection id.", "quantifier": "all states of the connection map, all requests and all answers of the others", "why_tests_cant": "A refusal looks right in a test; what it has done before to a connection is seen only by another request.", "anchors": ["sync3/handler/handler.go:213-342", "sync3/handler/handler.go:347-461", "sync3/connmap.go:138-163", "sync3/handler/connstate.go:772-774"]}
{"id": "C113", "title": "The homeserver is asked for what the poller means", "statement": "Whatever bytes the since token has, a homeserver that decodes the query of a sync request reads exactly the timeout, that token (none if there is none), the presence setting and the filter; the filter asks for one timeline event per room if there is no token and for 50 otherwise, and matches no room exactly for a poller of to-device messages only.", "quantifier": "all byte strings as since tokens, first and later requests, both kinds of poller", "why_tests_cant": "Tokens are opaque to the proxy and may have any characters; tests use a few letters.", "anchors": ["sync2/client.go:147-187"]}
{"id": "C114", "title": "From the poller to the client no event is left out", "statement": "Take the whole way of an event: a poller stores a section of a sync response and publishes it, the request handler takes the message and gives its events to the dispatcher, which queues them for the connection, which loads rooms from the database and appends queued events to their timelines. However these steps are interleaved, the timeline a connection's client has of a room the user stays in is a contiguous stretch of the room's stored timeline, and every stored event behind it is still in a message or in the queue. So when these are empty the client has the end of the timeline.", "quantifier": "all sequences of steps of pollers, the message listener, new connections, restarts, requests and live updates; all rooms, users, events and timeline limits of at least one", "why_tests_cant": "The positions are compared in four places (the load of all rooms, the load of one room, the duplicate check and the append), each correct only relative to the others; a test fixes one interleaving of the database, the messages and the queue.", "anchors": ["sync2/handler2/handler.go:260-394", "sync3/handler/handler.go:650-693", "sync3/handler/handler.go:829-877", "sync3/handler/connstate.go:109-189", "sync3/handler/connstate_live.go:133-262", "sync3/dispatcher.go:120-214"]}
{"id": "C115", "title": "Who is told about a room's events is who joined it in the store", "statement": "However the pollers' responses, the messages between the pollers and the request handlers, connections and restarts are interleaved: when the request handler has taken all messages, a user whose last stored member event of a room is a join is among those the dispatcher tells about the room's events, and a user whose last stored member event is anything else, or who has none, is not.", "quantifier": "all sequences of stored timelines and state blocks, messages taken, connections, requests and restarts; all rooms and users", "why_tests_cant": "The dispatcher keeps its own copy of who is in which room, built from messages that name rows or snapshots of a database that has moved on by the time they are read; a test fixes one interleaving", "anchors": ["sync3/dispatcher.go:120-214", "sync3/dispatcher.go:296-299", "sync3/tracker.go:79-190", "sync2/handler2/handler.go:260-394", "sync3/handler/handler.go:650-693", "state/storage.go:996-1073"]}
{"id": "C116", "title": "A caught-up client has the current state of its rooms", "statement": "If a client asks for all state of a room, takes the state it is given with the room, and replaces it by the state events that come later in the timeline, then under every (type, state key) it has the state event stored last for the room, or that event is in a message not yet taken or in the queue of the connection. When all messages and updates are taken the client has exactly the current state.", "quantifier": "for all histories of pollers (any sections), messages, connections, requests and updates in any order, all rooms and all state keys", "why_tests_cant": "Needs an invariant that relates the store's snapshots, the position at which a room is loaded, the messages under way and the queue over unbounded interleavings; tests check single sequences.", "anchors": ["sync3/handler/connstate.go:554-700", "sync3/handler/connstate_live.go:133-262", "sync3/caches/global.go:191-223", "state/accumulator.go:346-566"]}
{"id": "C117", "title": "To-device messages reach the client from the homeserver, none lost, each once while tokens are stored", "statement": "Whatever requests fail, whatever answers are lost, whatever database errors occur and whenever the poller, the proxy or the client restart: every to-device message sent to a device was received by the client, or is stored beyond the client's position, or is still at the homeserver beyond the poller's tokens. While the token is always written, each message is stored once and in the homeserver's order; if moreover neither client nor proxy start again, what the client received, then what waits, then what follows the poller's token at the homeserver is exactly what was sent.", "quantifier": "all executions of homeserver, poller, table and client with failures and restarts at any point; any number of messages, any page sizes", "why_tests_cant": "The homeserver deletes messages on the next request, so a loss needs the right failure between two processes' writes; tests exercise single failures of single components", "anchors": ["sync2/poller.go:549-659", "sync2/poller.go:699-707", "sync2/handler2/handler.go:222-228", "sync2/handler2/handler.go:436-448", "state/to_device_table.go:78-222", "sync3/extensions/todevice.go:63-139"]}
{"id": "C118", "title": "A changed timeline limit or required state is applied to the rooms the client already has", "statement": "When a request changes only the timeline limit or the required state of a list, every room of the list which the client was sent and to which the user is joined is sent again with the new limit and the new required state; when neither changes, rooms are only sent with the SYNC operations for newly shown ranges; apart from those operations a timeline is asked for only if the limit changed and state only if the required state changed.", "quantifier": "all lists, ranges, requests and join states", "why_tests_cant": "The change is handled apart from the list operations, for every combination of ranges, sort, filter and limit changes; tests try one change on one list", "anchors": ["sync3/handler/connstate.go:385-418", "sync3/request.go:62-105", "sync3/request.go:575-585"]}
{"id": "C119", "title": "No device list change is lost between the homeserver and the client", "statement": "Every change of a user's device list that the homeserver reports after the poller's first sync is told to the client: as long as the client has not been told of the user's last change since it happened, the change is ahead of the poller's token, stored as new, or in the response on its way to the client (or in the sent bucket if the client has to connect again); and once nothing is on its way, what the client was told last of each user is the user's last change. And whatever fails, the client is told only of changes that happened.", "quantifier": "All interleavings of changes, polls, database errors, poller restarts, proxy restarts, client requests (with wake-ups, lost responses, reconnections), for any number of users and steps.", "why_tests_cant": "The loss needs a particular interleaving of a lost response, another request and a restart, spread over the poller, the database buckets and the buffer of the connection; tests exercise each piece alone.", "anchors": ["sync2/poller.go:549-772", "sync2/handler2/handler.go:222-253", "state/device_list_table.go:61-136", "state/device_data_table.go:48-153", "sync3/extensions/e2ee.go:43-91", "sync3/conn.go:137-250", "sync3/handler/handler.go:592-633"]}
{"id": "C120", "title": "Global account data reaches the client from the pollers", "statement": "A client that has caught up (no payload, update, request or response on its way) has, for each type, the global account data stored in the table, which is what the pollers delivered last; whatever fails, it has only what a poller delivered as this user's global account data; and having the value of the table it does not go back to an older one.", "quantifier": "All interleavings of deliveries of any pollers, payloads, requests with any bodies, updates taken, lost responses, expired connections, reconnections and restarts, for any number of types and steps.", "why_tests_cant": "The order of subscribing, reading the table and handling payloads matters, together with retries of requests and lost responses; tests check one order with everything arriving.", "anchors": ["sync2/handler2/handler.go:487-525", "state/account_data.go:41-89", "sync3/handler/handler.go:800-814", "sync3/caches/user.go:697-787", "sync3/extensions/account_data.go:44-135", "sync3/handler/connstate_live.go:48-131", "sync3/conn.go:137-250"]}
{"id": "C121", "title": "Key counts and fallback key types reach the client from the homeserver", "statement": "A client that has caught up (no request in progress, no response it has not had, nothing written since the last incremental read) has the one-time key counts and unused fallback key types the homeserver reported last; one request with the extension whose response arrives is enough to catch up; and what a client has was reported by the homeserver.", "quantifier": "All interleavings of homeserver responses, failed writes, poller restarts, client requests (repeated, changed, without the extension), wake-ups, lost responses, failing requests, reconnections, for any number of steps.", "why_tests_cant": "Whether a count marked as sent ever reaches the client depends on where in the sequence a response is lost and what the client does next; tests cover single requests.", "anchors": ["sync2/poller.go:709-772", "sync2/handler2/handler.go:230-253", "state/device_data_table.go:48-153", "sync3/extensions/e2ee.go:43-91", "sync3/conn.go:137-250", "sync3/handler/handler.go:592-633"]}
{"id": "C122", "title": "Messages of ignored users, and only they, are left out of the timelines", "statement": "Once the proxy has handled a user's m.ignored_user_list (with an object of users), no timeline it puts into a response for them, in the initial data of a room or in live data, has a message (an event without a state key) by a user on that list; state events by such users are still sent. Nothing else is lost by it: what the client has of a room from the first loaded event on is every event of the room that was taken from the queue, in order and without gaps or repeats, but for messages by users who were on the list at some time.", "quantifier": "For all logs of events, all account data of the user over time, all requests with any rooms and timeline limits, all interleavings of storing, loading, live delivery and changes of the list.", "why_tests_cant": "The filters sit in two places, on different representations of an event, and interact with the load positions: a skipped message moves no position, while a discarded one in initial data counts for the position and for prev_batch. Tests ignore a user once and look at one response.", "anchors": ["state/storage.go:45-59", "sync3/caches/user.go:325-347", "sync3/caches/user.go:746-794", "sync3/handler/connstate_live.go:133-251", "sync3/handler/connstate.go:554-583"]}
{"id": "C123", "title": "A client that is up to date has the unread counts of its rooms", "statement": "Once a connection has sent a room to its client, the client has got every response and no update for the connection is left, the notification and highlight counts that the client has for the room are those in the user's cache, whether the room is in view or not; and the counts it has are at any time counts that the cache has had.", "quantifier": "All sequences of unread counts, invites, joins, events (held back for a transaction id or not), typing and receipt updates, requests, lost and repeated responses, failing requests, expired connections and restarts, with any interleaving of updates and requests.", "why_tests_cant": "The counts reach a client in three ways (with the room, with an event, and alone if they changed) and are compared with a copy in the connection; whether an update in flight is overtaken, skipped or lost depends on interleavings a test does not choose.", "anchors": ["sync3/caches/user.go:397-415", "sync3/caches/user.go:546-569", "sync3/caches/user.go:593-647", "sync3/handler/txn_id_waiter.go:30-93", "sync3/lists.go:59-68", "sync3/handler/connstate_live.go:133-308", "sync3/handler/connstate.go:554-700"]}
{"id": "C124", "title": "A client that is up to date has the read receipts of its user", "statement": "Once a connection has sent a room to its client while the receipts extension is on and the room in its scope, and the room and extension stay so, a client that has got every response, with no payload or update left, has been told the current public and private (unthreaded) read receipts of its user for the room.", "quantifier": "All sequences of receipt deliveries by pollers (any users, threads, kinds and orders of Go maps), payloads handled at any time, requests, rooms sent by requests or updates, lost and repeated responses, failing requests, expired connections and restarts.", "why_tests_cant": "Receipts come in two ways (with a room, and live) and are merged in the response by unpacking and packing an event with unordered maps; what is lost depends on interleavings of deliveries with the steps of a request.", "anchors": ["state/receipt_table.go:62-163", "sync2/handler2/handler.go:418-434", "sync3/handler/handler.go:756-786", "sync3/dispatcher.go:242-265", "sync3/caches/user.go:515-520", "sync3/extensions/receipts.go:34-129", "sync3/handler/connstate.go:226-237"]}
{"id": "C125", "title": "A client that is up to date has the account data of the rooms it was sent", "statement": "Once a connection has sent a room while the account data extension was on and the room in its scope, a client that has received every response has all account data of its user for that room, whatever deliveries, requests, lost responses, reconnections and restarts interleave; and it has nothing as account data of the room that a poller did not deliver as that.", "quantifier": "all interleavings of deliveries, payloads, requests, updates, losses, expiries and restarts", "why_tests_cant": "Account data reaches the client by three paths (with the rooms of a request, with a room sent because of an update, and as an update) through several queues; tests run one path at a time.", "anchors": ["sync3/extensions/account_data.go:44-135", "sync2/handler2/handler.go:487-525", "sync3/handler/handler.go:800-814", "sync3/caches/user.go:697-787"]}
{"id": "C126", "title": "A client is told only receipts that exist, and no private receipt of another user", "statement": "Whatever fails or is lost on the way, every read receipt in a room that a client has been told was delivered by some poller for that room, with the same event, user, timestamp and thread and the same privacy; and a private receipt a client has been told is its own user's.", "quantifier": "all sequences of delivered receipt EDUs, messages, requests that succeed, fail or are repeated, lost responses, connections and restarts", "why_tests_cant": "A leak needs only one of several paths (two tables, two queries, a live split, merging into a response in progress, a buffered response) to mix up a flag; tests look at one path with two users.", "anchors": ["state/receipt_table.go:62-254", "sync3/handler/handler.go:756-786", "sync3/dispatcher.go:242-265", "sync3/extensions/receipts.go:34-133"]}
{"id": "C127", "title": "A client gets only events of times its user was in the room", "statement": "Take the whole way of an event as in C114. Every event in the timeline that a client has of a room, whether it was loaded from the database or came live, was stored while the user was in the room (the last member event of the user stored until then is a join), or is a member event of the user.", "quantifier": "all sequences of steps of pollers, the message listener, new connections, restarts, requests and live updates; all rooms, users, events, memberships, timeline limits and windows", "why_tests_cant": "What may be seen is decided twice: by member events in the database when a room is loaded, and by the tracker of joined users, which lags behind the database, when an event comes live. They agree only because of the order of the messages; a test shows one order.", "anchors": ["sync3/dispatcher.go:120-214", "sync3/handler/handler.go:650-693", "sync3/handler/handler.go:829-877", "state/storage.go:822-967", "sync3/handler/connstate.go:566-583", "sync3/handler/connstate_live.go:133-262"]}
{"id": "C128", "title": "The calls of the pollers take effect one at a time", "statement": "Pollers run side by side, but what they get of rooms is stored one section at a time: between storing a section and publishing it no other section is stored, so messages are published in the order in which the database numbered the events. Whatever the order in which pollers, the goroutine that makes their calls and the rest of the process take their steps, the database and the results are those of some serial order that keeps the order of each poller's calls; each call takes effect once, returns its own result after it took effect, and always returns.", "quantifier": "all interleavings of any number of pollers, the executor goroutine, the listener, requests, live updates and restarts at any moment", "why_tests_cant": "The race the executor prevents (an event numbered later is published earlier and the cache drops the other) needs two pollers to be delayed between the transaction and the message in the right way; a test sees one schedule.", "anchors": ["sync2/poller.go:97-127", "sync2/poller.go:262-268", "sync2/poller.go:314-340", "sync2/handler2/handler.go:294-316", "sync2/handler2/handler.go:371-394"]}
{"id": "C129", "title": "The locks of the proxy never deadlock", "statement": "Whatever requests are served, messages are handled and pollers run at the same time, there is never a circle of goroutines each of which waits for a mutex the next one has; nobody waits for an outside event while holding a mutex or a database connection; and from every state the goroutines can go on until each of them is done or waits for an outside event with nothing held. With a limit on database connections the last part does not hold: the proxy can stop for good.", "quantifier": "all numbers of goroutines, all paths through the functions that take locks, all interleavings, all numbers of connections, user caches and database connections", "why_tests_cant": "A deadlock needs several goroutines to be stopped at particular points at the same time; the lock orders tracker-receivers and receivers-tracker both occur in the code, and whether they can meet depends on who writes to the tracker, not on anything one run shows.", "anchors": ["sync3/dispatcher.go:82-90", "sync3/dispatcher.go:170-214", "sync3/dispatcher.go:267-294", "sync3/tracker.go:159-176", "sync3/caches/global.go:380-395", "sync3/caches/user.go:522-591", "state/unread_table.go:26-45", "sync3/connmap.go:111-163", "sync3/conn.go:137-150", "v3.go:107-113"]}
{"id": "C130", "title": "A client hears of every event of the rooms it follows", "statement": "An event which is not left out (already sent, or by an ignored user) and whose room the client follows before or after it (by a subscription, in a list of all rooms, or in a window of a list) is in the response, as news or with the full data of the room; with the full data if the event asks for it because the user has just joined.", "quantifier": "all connections with any lists, windows, orders and subscriptions, all updates", "why_tests_cant": "Depends on the room moving between windows, lists and places in the order in the same update, and on what is in the response already.", "anchors": ["sync3/handler/connstate_live.go:processLiveUpdate", "sync3/handler/connstate_live.go:processLiveUpdateForList", "sync3/handler/connstate_live.go:resort", "sync3/handler/connstate_live.go:processUpdatesForSubscriptions", "sync3/ops.go:CalculateListOps"]}
{"id": "C131", "title": "Profile changes do not change who is joined", "statement": "Whatever member events are stored, the readers of the membership column (the load of joined members at start-up, the reset of a room's metadata and the redelivery of memberships) find a user joined, invited or neither exactly as content.membership of their member event says, whether or not the event was marked as a mere profile change; the counts at start-up are those of a reset; and unsigned.prev_content makes no difference.", "quantifier": "for all lists of rooms and events, in any order, with and without prev_content", "why_tests_cant": "The mark depends on the previous content that the homeserver attaches; tests store a handful of joins, and the three readers each repeat the list of spellings, so a spelling forgotten in one of them shows only after a profile change followed by a restart or a state reset.", "anchors": ["state/event_table.go:46-87", "state/event_table.go:564-578", "internal/event.go:5-19", "state/storage.go:996-1073", "state/storage.go:312-360", "state/storage.go:395-432"]}
{"id": "C132", "title": "What a connection was given does not change under it", "statement": "The metadata and user data of a room handed to a connection, in an update or on a load, have at any later time the contents the caches had at that time, and the goroutine of the dispatcher never writes to a map or slice that a connection was given.", "quantifier": "for all sequences of events, invalidations, space events, tags, other updates and loads by connections, over all rooms", "why_tests_cant": "Go copies structs but shares their maps: a missing copy shows only if another goroutine writes at the very moment a list is filtered, and then as a fatal error of the whole process. Tests with the race detector need the two to meet.", "anchors": ["internal/roomname.go:67-101", "sync3/caches/global.go:281-395", "sync3/caches/user.go:348-415", "sync3/caches/user.go:571-591", "sync3/caches/user.go:697-787", "sync3/request.go:556-564", "sync3/handler/connstate.go:109-131"]}
{"id": "C133", "title": "Re-encoding the device data keeps them", "statement": "A successful upgrade of the device data, from JSON bytes over JSONB to CBOR, leaves every device with exactly the data it had; it succeeds exactly if every row is device data in JSON that the database accepts, and else changes nothing. Downgrades keep the data as well.", "quantifier": "for all tables of device data, of either column type, and all encodings that decode what they encoded", "why_tests_cant": "The migration tests use one or two rows with plain contents; a row that the cast or a library reads differently loses the pending changes and key counts of a device without an error.", "anchors": ["state/migrations/20230802121023_device_data_jsonb.go:17-97", "state/migrations/20230814183302_cbor_device_data.go:20-141", "v3.go:116-126"]}
{"id": "C134", "title": "A response says in JSON what it is, and a request waits only while there is nothing to say", "statement": "Reading the JSON of a response gives the response back: no operation, room, field or avatar change is lost or taken for another. A request that is not the first of its connection is answered at once exactly if the client would see something in its response (an operation, a room, a to-device message or any field of another extension); otherwise it waits, and is answered with something to say, or gives up with nothing to say.", "quantifier": "for all responses, with any number of lists, operations, rooms and extension data, and all interleavings of updates, requests, time-outs and cancellations", "why_tests_cant": "omitempty and HasData treat fields one by one; a field that is left out or not counted shows only for the value that is empty, as a client that waits for the whole timeout or returns at once in a loop.", "anchors": ["sync3/response.go:18-138", "sync3/room.go:11-27", "sync3/avatar.go:27-42", "sync3/extensions/extensions.go:250-276", "sync3/extensions/e2ee.go:25-41", "sync3/extensions/account_data.go:22-34", "sync3/extensions/todevice.go:45-52", "sync3/handler/connstate_live.go:65-115"]}
{"id": "C135", "title": "A user is told once that they left a room, and the rest of the timeline is not disturbed by it", "statement": "When a user leaves a room, rejects an invite or is kicked, the user's connection is told of the leave event exactly once, however many pollers hand it in and whichever hands it in first. Updates sent outside of the event log (AlwaysProcess) do not move load positions, and the events of the log that a client has of a room are the same as without them.", "quantifier": "all prior states of the room and the user; all interleavings of timelines and leave sections of any number of pollers; all executions of a connection with out-of-log updates at any time", "why_tests_cant": "the leave event reaches the user by two independent ways, and which of them is active depends on the tracker's knowledge, on pending invites and on the number of devices polling; tests use one device and one order", "anchors": ["sync3/caches/user.go:593-695", "sync2/poller.go:889-916", "sync3/dispatcher.go:170-214", "sync3/handler/connstate.go:747-757", "sync3/handler/connstate_live.go:133-245"]}
{"id": "C136", "title": "At start-up every room gets its own data", "statement": "The snapshot taken at start-up (all joined members and the metadata of all rooms, from queries that return the rows of all rooms at once) succeeds on any database the store has made, has exactly the rooms of the rooms table, and describes each room by the room's own rows: joined members, counts, the last six members as heroes (newest first), the last event of each type, the latest timestamp among them, name, alias and avatar of the current state, the columns of the rooms table and the children of a space. It does not depend on the order in which rows and map entries come, nor on other rooms.", "quantifier": "all databases made by any history of timelines and state blocks, any number of rooms and members, all orders of unordered queries and map iterations", "why_tests_cant": "the rows of all rooms are mixed, and the order of unordered queries and maps varies; tests have few rooms and one order", "anchors": ["state/storage.go:162-305", "state/storage.go:436-462", "state/storage.go:996-1073", "state/event_table.go:442-480", "state/spaces_table.go:108-120"]}
{"id": "C137", "title": "Lists are filtered by what rooms are now", "statement": "When a connection has processed the updates of a room, its lists hold the room exactly if the present data of the room (name, encryption, type, upgrade, tags, spaces, direct chat, invite) match the filters of the list.", "quantifier": "all histories of events, messages, account data, space changes, invites, leaves, held back events, sent rooms and changes of the lists, of any number of rooms and lists", "why_tests_cant": "A list that is not updated looks right until its filter depends on the one thing that changed without an update, or updates overtake each other; that takes a particular order of independent messages.", "anchors": ["sync3/lists.go:SetRoom", "sync3/handler/connstate_live.go:processGlobalUpdates", "sync3/handler/connstate_live.go:processLiveUpdate", "sync3/handler/txn_id_waiter.go:Ingest", "sync3/caches/user.go:newRoomUpdate", "sync3/caches/user.go:OnAccountData"]}
{"id": "C138", "title": "A client that is up to date shows the rooms that match its filters now, each once and in the order of what they are now", "statement": "After a response, a client that replayed every operation it got has a room at every index below the count, none twice; the rooms it shows are exactly the rooms that match the filters of its request by their present data, and in a list sorted by name they stand in the order of their present names.", "quantifier": "For all histories of room changes, invites, tags, direct chats, space changes, connections, requests and responses, all interleavings of the processing of updates, all filters, sort orders and ranges, any number of rooms", "why_tests_cant": "It joins the caches, the update queue, the waiter, the sorted lists, the list operations and the replay at the client; tests drive short fixed histories with one kind of change and compare the operations of single responses.", "anchors": ["sync3/handler/connstate.go:194-267", "sync3/handler/connstate.go:269-424", "sync3/handler/connstate_live.go:48-187", "sync3/handler/connstate_live.go:383-459", "sync3/lists.go:59-153", "sync3/lists.go:229-258", "sync3/caches/user.go:522-787"]}
{"id": "C139", "title": "Answers of the homeserver are taken as what they say", "statement": "A 200 answer of /sync is read as the value it is a writing of, whatever the order of its keys, its further keys and the empty parts it leaves out; it is then handed over entirely or not at all, and the poller moves only to a position the answer names. Answers that are no response change nothing; the token is given up only if the homeserver refused it. A token is stored for the user and device /whoami names, and a client is told its token is unknown exactly if the homeserver said so.", "quantifier": "For all JSON values, all answers and statuses, all states of the poller and all receivers", "why_tests_cant": "The tests use a fake homeserver that answers with what the proxy's own structs marshal to; answers of other shapes, other key orders, missing or ill-typed parts are not generated.", "anchors": ["sync2/client.go:88-146", "sync2/client.go:189-251", "sync2/poller.go:549-659", "sync3/handler/handler.go:463-479"]}
{"id": "C140", "title": "The proxy runs as it is configured", "statement": "With an incomplete environment (a required variable missing, or only one of certificate and key) the process opens nothing and says so. Otherwise it is set up with the values of the environment, or the documented defaults; 0 and unset limits mean no limit. Responses are served at the configured address, over TLS exactly if a certificate is configured; the debug pages and the metrics are served exactly at the addresses configured for them. Middleware runs in the order of the chain, and a preflight request is answered without reaching the handler.", "quantifier": "for all environments, all ways to read numbers, all chains of handlers and all requests", "why_tests_cant": "main is not tested at all: the integration tests call Setup and build their own server, so the defaults, the checks, the listeners and the choice of the transport never run under test.", "anchors": ["cmd/syncv3/main.go:61-237", "v3.go:68-87", "v3.go:90-116", "v3.go:220-239", "internal/util.go:23-25"]}
{"id": "C141", "title": "Transaction ids are kept for an hour, and not for long after", "statement": "A transaction id that is stored is found, unchanged, for an hour (to the millisecond), or for the time between two cleanings if that is longer, whatever else is stored and cleaned meanwhile. While the process keeps running and its cleanings succeed, no id is older than that time, one interval between cleanings and the lateness of the cleaner together; ids of an earlier process are gone after the first cleaning.", "quantifier": "for all interleavings of insertions, cleanings (also failing and late ones), the passing of time and shutdown, all intervals and all starting states", "why_tests_cant": "It takes hours of real time; the tests call Clean with a boundary of their own and never run Cleaner.", "anchors": ["state/storage.go:1075-1101", "state/txn_table.go:37-74", "cmd/syncv3/main.go:223"]}
{"id": "C142", "title": "Shared memory is not read while it is written", "statement": "Whatever goroutines share (the maps of connections, receivers, memberships, rooms, user caches, pollers, pending polls, channels and typing, the state of a connection, queued events, unread counts) is never accessed by one goroutine while another one is about to write it: every access holds the lock that protects the variable, in the right mode, or is made by the one goroutine that the variable belongs to.", "quantifier": "for any number of goroutines that run the code, all choices of branches, loops, users, rooms and connections, and all interleavings", "why_tests_cant": "The race detector sees only the interleavings of a run; the windows here are a few instructions wide, and the two accesses must come from different users of the same object.", "anchors": ["sync3/connmap.go:82-256", "sync3/conn.go:137-250", "sync3/handler/txn_id_waiter.go:29-94", "sync3/dispatcher.go:58-294", "sync3/tracker.go:56-232", "sync3/caches/user.go:225-794", "sync3/caches/global.go:96-395", "sync3/handler/ensure_polling.go:63-206", "sync2/poller.go:200-415", "sync2/txnid.go:59-109", "sync2/handler2/handler.go:186-562"]}
{"id": "C143", "title": "What a user's cache learns about a room is not lost", "statement": "The functions of a user's cache that change its rooms load a room, change their copy and store it. Whatever several goroutines do at the same time, the cache in the end says of each room what one gets when the updates are done one after the other: unread counts, invites, the direct flag, tags, spaces and join timings are those of the latest update.", "quantifier": "for any number of goroutines, all sequences of updates of any rooms, and all interleavings of loads and stores", "why_tests_cant": "An update is lost only if another goroutine is between loading and storing the same room, a few instructions; it takes a message that arrives while the first request of the user registers the cache. The race detector sees nothing, as each access holds the lock.", "anchors": ["sync3/caches/user.go:246-318", "sync3/caches/user.go:348-356", "sync3/caches/user.go:546-770", "sync3/handler/handler.go:575-585"]}
{"id": "C144", "title": "Saying the same again changes nothing", "statement": "A client may send the same parameters with every request: the parameters in force stay the same, no room subscription is treated as new or as ended, no list is removed, and no list gets operations or rooms, whatever was sent before. A request that failed on the way and is sent again gets what it asked for.", "quantifier": "for all histories of requests, all requests, all room lists before and after sorting", "why_tests_cant": "Idempotence over all histories and all combinations of optional parameters; the failures need a panic at a certain moment, or a client that repeats unusual parameters.", "anchors": ["sync3/request.go:314-482", "sync3/handler/connstate.go:194-222", "sync3/handler/connstate.go:269-441"]}
{"id": "C145", "title": "A room is stored with its create event, or not at all", "statement": "Whatever state blocks and timelines the pollers send, in whatever order: the current state of a room, the state recorded before each event, and the state served for a room at any position contain a create event of the room if there is a state, and no event is stored of a room that has no state. Stray events of rooms the proxy does not know are not stored.", "quantifier": "for all sequences of state blocks and timelines, all rooms, all positions", "why_tests_cant": "An invariant over all interleavings of pollers and stray events; tests check single orders.", "anchors": ["state/accumulator.go:182-321", "state/accumulator.go:346-566", "state/accumulator.go:657-682", "state/storage.go:534-611"]}
{"id": "C146", "title": "A request is not kept waiting by an older one", "statement": "When a client sends a request while an older request of the same connection is still waiting for updates, the older one is told to stop, so that the newer one is served without waiting for the timeout of another; and when a connection is closed, its requests are told to stop.", "quantifier": "all interleavings of any number of requests of a connection, with the connection being closed at any time", "why_tests_cant": "The outcome depends on how goroutines interleave between two mutexes: the window between taking the lock and storing the cancel function is a few instructions wide, and a third request is needed for the other cases. Tests send one request after the other.", "anchors": ["sync3/conn.go:137-150", "sync3/handler/connstate.go:725-732", "sync3/handler/handler.go:404-414", "sync3/handler/connstate_live.go:63-95"]}
{"id": "C147", "title": "What is meant for a device reaches it on each of its connections", "statement": "When a device has several connections (conn_ids) with the to_device or e2ee extension, each to-device message, device list change and key count stored for the device reaches every connection that asks; and in any case it reaches at least one of them.", "quantifier": "any number of connections of a device, all interleavings of their requests with the writes of the poller, any lost to-device responses", "why_tests_cant": "The rows are shared per device and acknowledged or emptied by whichever connection asks first; tests use one connection per device.", "anchors": ["sync3/extensions/todevice.go:63-139", "sync3/extensions/e2ee.go:52-91", "state/to_device_table.go:96-117", "state/device_list_table.go:101-136", "sync3/connmap.go:13-29"]}
{"id": "C148", "title": "A connection gets its user's updates exactly as long as it can be used", "statement": "A connection that a look-up returns listens to the cache of its user. Nothing else listens to a user's cache, except connections of that user whose closing callback has not run yet; so no subscription outlives its connection. No connection is given an update twice.", "quantifier": "for all histories of creating, looking up, expiring and closing connections, callbacks that run at any later time and in any order, and connections that destroy themselves because their buffer is full", "why_tests_cant": "A leaked or a missing subscription shows only after particular orders of replaced connections, late expiry callbacks and full buffers, and then as slowly growing memory or as a client that hears nothing.", "anchors": ["sync3/caches/user.go:225-238", "sync3/handler/connstate.go:94", "sync3/handler/connstate.go:725-732", "sync3/handler/connstate_live.go:32-47", "sync3/connmap.go:119-247"]}
{"id": "C149", "title": "A client that lazily loads members knows the users it hears of", "statement": "A client that asks for members lazily has, for the sender of every timeline event and for every user it is told is typing, the member event of that user that is current at that time. It has no member event that is not stored in the room.", "quantifier": "for all histories of stored events, rooms sent at any position with any limit, live updates and typing events, over any number of rooms and users", "why_tests_cant": "Whether a member event is sent depends on everything sent before on the connection; the failures need a profile change while a room is out of view, or a particular first timeline.", "anchors": ["sync3/handler/connstate.go:526-553", "sync3/handler/connstate.go:569-597", "sync3/handler/connstate_live.go:248-262", "sync3/caches/global.go:174-224", "sync3/handler/lazy_member.go:1-44"]}
{"id": "C150", "title": "Only idle devices are expired, and they stay expired", "statement": "The hourly clean-up ends the pollers of exactly the devices that have been idle, no device in use is affected, and a device that was expired is not polled again until it makes a request.", "quantifier": "for all interleavings of requests, polling requests, refused tokens and the steps of the clean-up, with any number of devices and tokens and any times", "why_tests_cant": "The clean-up runs hourly and looks back 30 days; the failures need a request in between its steps or a device with several tokens.", "anchors": ["sync2/handler2/handler.go:599-630", "sync2/poller.go:225-247", "sync2/devices_table.go:58-68", "sync2/handler2/handler.go:198-209", "sync2/tokens_table.go:221-262"]}
{"id": "C151", "title": "No event is lost between the pollers of a user's devices", "statement": "Whatever devices of a user come and go, a timeline that a poller hands to the accumulator and that is not limited starts no later than the timelines handed over before reach, so that no event is missing from the database without a mark; and an event that was missed is fetched later.", "quantifier": "for all sequences of events sent upstream, devices coming along (at startup or not), requests, failed requests, answers processed fully, partly or not at all, saved or unsaved tokens, pollers ended and restarts", "why_tests_cant": "The loss needs a second device whose first, room-less sync is answered between two polls of the first device which then is logged out; tests with two devices leave both polling.", "anchors": ["sync2/poller.go:256-310", "sync2/poller.go:549-659", "sync2/client.go:147-187"]}
{"id": "C152", "title": "The transactions on a device's encryption data do not deadlock", "statement": "However the transactions that store a device's encryption data and those that fetch it for requests interleave, they never wait for each other's row locks in a circle, so that each of them ends by itself.", "quantifier": "for all sets of transactions of any devices (any users with changed device lists, any contents of the buckets, in any order), with one poller per device, and all interleavings including roll-backs", "why_tests_cant": "A deadlock needs the poller's transaction to be between two statements when a request's transaction is, with a change for a user whose last change is still unread; PostgreSQL then silently aborts one of them after a second.", "anchors": ["state/device_data_table.go:48-107", "state/device_data_table.go:110-153", "state/device_list_table.go:60-136"]}
{"id": "C153", "title": "A position of an old database does not cost a message of the new one", "statement": "If the database is dropped while clients hold positions of to-device messages, no message that arrives in the new database is deleted before its device received it, and the first response of a device has the messages from the first on.", "quantifier": "for all devices of all users, all sequences of arriving messages, requests with received or lost responses, clients starting over, restarts and drops of the database", "why_tests_cant": "Tests of dropped databases use one device and receive every response; the loss needs a second user with the same device id, or a lost response.", "anchors": ["sync3/extensions/todevice.go:63-139", "state/to_device_table.go:78-117"]}
{"id": "C154", "title": "A connection in use does not expire, an idle one does", "statement": "A connection that is looked up at least once in each lifetime of the cache is found each time, whatever happens to other connections and whenever expiry callbacks run, unless it is replaced, closed or full; one not looked up for longer is not found. In particular a client that asks again as soon as it is answered keeps its connection.", "quantifier": "all lifetimes, interleavings of clock, requests of any clients, closings, late callbacks and sweeps, and all sequences of request timeouts", "why_tests_cant": "Needs the passing of half an hour, arbitrary interleavings of the expiry goroutine with requests, and timeouts no test uses.", "anchors": ["sync3/connmap.go:31-39", "sync3/connmap.go:110-163", "sync3/connmap.go:212-247", "sync3/handler/handler.go:83", "sync3/handler/handler.go:283-294", "sync3/handler/connstate_live.go:57-67"]}
{"id": "C155", "title": "The state of a room does not depend on the rooms it is loaded with", "statement": "Loading the required state of several rooms with one query over all their snapshots gives each room exactly what loading it alone gives, in the same order, and nothing for a room not asked for; no error or panic comes of asking for several.", "quantifier": "all databases made by runs of Initialise and Accumulate, sets of rooms, orders in which the rooms table map is walked, positions and filters", "why_tests_cant": "The join of events with snapshots, the sorting into rooms by index and the replacement by the room's last event interact only for particular combinations of rooms, positions and map orders.", "anchors": ["state/storage.go:516-706", "state/event_table.go:322-349", "state/rooms_table.go:93-109"]}
{"id": "C156", "title": "A client that starts over again and again delays only itself", "statement": "The artificial delay of a request without a position applies only to a client that had at most one answer since it last started over, and a request of another client does not wait for it.", "quantifier": "all interleavings of requests of any clients, answers, expiry, closings and late callbacks", "why_tests_cant": "Needs many simultaneous requests without a position and measures of time; which connection the delay looks at depends on expiry and callbacks.", "anchors": ["sync3/connmap.go:110-115", "sync3/connmap.go:138-163", "sync3/conn.go:17", "sync3/conn.go:236-243"]}
{"id": "C157", "title": "What is stored for one room does not touch the state of another", "statement": "Whatever upstream sends for other rooms (also events of this room, events twice, or types that confuse the snapshot key), the state of a room at any position stays exactly as it was, with and without a filter, and so does whether loading it fails; and the state of a room consists of stored events of that room only.", "quantifier": "all sequences of Initialise and Accumulate with arbitrary events, rooms, positions and filters", "why_tests_cant": "Events are stored in one table by number, snapshots name numbers without a room, and an event id may come for two rooms; that no combination of these lets one room's data into another's state is a statement about all histories.", "anchors": ["state/accumulator.go:182-321", "state/accumulator.go:346-566", "state/storage.go:516-706", "state/event_table.go:202-262"]}
{"id": "C158", "title": "A poller starts with the token and the position of its device", "statement": "When a client's request makes the poller side start a poller, the poller gets exactly the access token of that request and the position stored last for that device (the empty one for a new device, never another device's); a request to poll with a token of another user or device starts none; and every request to poll made with a valid token of the device is answered.", "quantifier": "all sequences of tokens being identified, positions being stored and tokens being deleted, by any requests and pollers in any order", "why_tests_cant": "It depends on how rows of two tables, written by different processes over months, are joined, and on a deletion falling between two steps of a request.", "anchors": ["sync2/tokens_table.go:174-240", "sync2/devices_table.go:36-48", "sync2/handler2/handler.go:198-211", "sync2/handler2/handler.go:564-596", "sync3/handler/handler.go:463-504"]}
