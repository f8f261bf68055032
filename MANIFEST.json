{
 "claims": [
  {
   "property": "C01",
   "status": "proved",
   "theorems": [
    "Verif.Ranges.C01_valid_iff"
   ],
   "note": "exact iff against pairwise disjoint integer sets"
  },
  {
   "property": "C02",
   "status": "partial",
   "theorems": [
    "Verif.Ranges.C02_delta_exact",
    "Verif.Ranges.C02_delta_partial",
    "Verif.Ranges.C02_delta_violated",
    "Verif.Ranges.C02_delta_inverted_range"
   ],
   "note": "the code drops one-index ranges: exact behaviour proved, full claim refuted by a witness, full claim proved without one-index ranges"
  },
  {
   "property": "C03",
   "status": "proved",
   "theorems": [
    "Verif.Ranges.C03_sliceInto"
   ],
   "note": ""
  },
  {
   "property": "C04",
   "status": "proved",
   "theorems": [
    "Verif.ListOps.C04_move_indexes"
   ],
   "note": "Exact description of CalculateMoveIndexes for every valid window list and all integer indices."
  },
  {
   "property": "C05",
   "status": "partial",
   "theorems": [
    "Verif.ListOps.C05_replay_partial",
    "Verif.ListOps.C05_panic_iff",
    "Verif.ListOps.C05_replay_violated"
   ],
   "note": "Holds (against the JS client shipped in the repo) for every layout except two; both exceptions are real defects: the computation panics exactly when the last of several rooms is removed and its index opens a window, and a null operation is sent when the only room is removed while index 0 is in no window."
  },
  {
   "property": "C06",
   "status": "partial",
   "theorems": [
    "Verif.ListOps.C06_subs_partial",
    "Verif.ListOps.C06_subs_violated",
    "Verif.ListOps.C06_subs_shown"
   ],
   "note": "Holds except when a removal from a window pulls the last room into the window from the index just after it; there the code forgets to send the room (witness proved)."
  },
  {
   "property": "C07",
   "status": "proved",
   "theorems": [
    "Verif.SortableRooms.C07_sort",
    "Verif.SortableRooms.C07_one_move"
   ],
   "note": "Sort fails exactly on unsupported orders; otherwise stable, sorted permutation; and only the changed room moves."
  },
  {
   "property": "C08",
   "status": "partial",
   "theorems": [
    "Verif.SortableRooms.C08_index_partial",
    "Verif.SortableRooms.C08_violated",
    "Verif.SortableRooms.C08_results"
   ],
   "note": "Holds for lists whose first sort uses supported orders. The full claim is false of the code: with an unsupported order the index stays empty and Add duplicates rooms."
  },
  {
   "property": "C09",
   "status": "partial",
   "theorems": [
    "Verif.Lists.C09_last_update_partial",
    "Verif.Lists.C09_created",
    "Verif.Lists.C09_wellformed",
    "Verif.Lists.C09_violated"
   ],
   "note": "Exact for updates made while the list exists; a list created later includes rooms already left (violated). Assumes supported sort orders at creation (else C08_violated) and histories without panics (C05)."
  },
  {
   "property": "C10",
   "status": "partial",
   "theorems": [
    "Verif.Filters.C10_exact",
    "Verif.Filters.C10_include_partial",
    "Verif.Filters.C10_complete",
    "Verif.Filters.C10_violated"
   ],
   "note": "Exact characterisation; the full claim is false when room_types and spaces are both given: spaces are then ignored."
  },
  {
   "property": "C11",
   "status": "proved",
   "theorems": [
    "Verif.Request.C11_sticky"
   ],
   "note": "All list parameters over any request sequence; a deleted list that is named again starts afresh."
  },
  {
   "property": "C12",
   "status": "partial",
   "theorems": [
    "Verif.Request.C12_subscription",
    "Verif.Request.C12_announced",
    "Verif.Request.C12_active_partial",
    "Verif.Request.C12_active_asked",
    "Verif.Request.C12_violated"
   ],
   "note": "Parameters and announcements are proved in full; at the connection a request that both subscribes to and unsubscribes from an already subscribed room leaves it active (C12_violated)."
  },
  {
   "property": "C13",
   "status": "partial",
   "theorems": [
    "Verif.Request.C13_limit",
    "Verif.Request.C13_assoc",
    "Verif.Request.C13_comm",
    "Verif.Request.C13_state_partial",
    "Verif.Request.C13_violated"
   ],
   "note": "Limits, associativity and commutativity in full; the superset claim holds without [*,*] and fails with it."
  },
  {
   "property": "C14",
   "status": "proved",
   "theorems": [
    "Verif.Request.C14_selection",
    "Verif.Request.C14_query",
    "Verif.Request.C14_query_tight"
   ],
   "note": ""
  },
  {
   "property": "C15",
   "status": "partial",
   "theorems": [
    "Verif.Conn.C15_retry_idempotent",
    "Verif.Conn.C15_never_nil",
    "Verif.SharedReq.C91_retry",
    "Verif.SharedReq.C91_violated_retry"
   ],
   "note": "Proved for the bodies as sent. In the code the remembered body can change while it is handled (it shares extension objects with the sticky request): C91 has exactly when, and there the retry gets the same response but is handled again."
  },
  {
   "property": "C16",
   "status": "proved",
   "theorems": [
    "Verif.Conn.C16_positions"
   ],
   "note": ""
  },
  {
   "property": "C17",
   "status": "proved",
   "theorems": [
    "Verif.Conn.C17_least_newer",
    "Verif.Conn.C17_not_dropped"
   ],
   "note": ""
  },
  {
   "property": "C18",
   "status": "partial",
   "theorems": [
    "Verif.Conn.C18_failure_not_committed",
    "Verif.SharedReq.C91_violated_failed"
   ],
   "note": "Proved for the bodies as sent. A request that fails after its extension settings were written into the remembered request can be taken for that request (C91)."
  },
  {
   "property": "C19",
   "status": "partial",
   "theorems": [
    "Verif.ConnMap.C19_lookup_isolated",
    "Verif.ConnMap.C19_close_device_partial",
    "Verif.ConnMap.C19_close_users_partial",
    "Verif.ConnMap.C19_close_no_others",
    "Verif.ConnMap.C19_close_violated"
   ],
   "note": "isolation and never-closed proved for all interleavings; closing exactly the targeted connections proved when expiry callbacks run promptly; refuted by a witness when a stale callback runs after re-creation"
  },
  {
   "property": "C20",
   "status": "proved",
   "theorems": [
    "Verif.Tracker.C20_indexes_agree"
   ],
   "note": ""
  },
  {
   "property": "C21",
   "status": "proved",
   "theorems": [
    "Verif.Tracker.C21_joined_last_write",
    "Verif.Tracker.C21_invited_last_write",
    "Verif.Tracker.C21_transitions"
   ],
   "note": ""
  },
  {
   "property": "C22",
   "status": "partial",
   "theorems": [
    "Verif.Dispatcher.C22_recipients_partial",
    "Verif.Dispatcher.C22_no_leak",
    "Verif.Dispatcher.C22_ephemeral",
    "Verif.Dispatcher.C22_initial",
    "Verif.Dispatcher.C22_membership_history",
    "Verif.Dispatcher.C22_violated"
   ],
   "note": "exact recipients for every reachable state except member events of the pseudo user '-', for which a double global delivery is shown; no leak to users outside the room holds without exception"
  },
  {
   "property": "C23",
   "status": "proved",
   "theorems": [
    "Verif.Dispatcher.C23_force_iff",
    "Verif.Dispatcher.C23_forced_delivery",
    "Verif.Dispatcher.C23_initial_never_forces"
   ],
   "note": ""
  },
  {
   "property": "C24",
   "status": "partial",
   "theorems": [
    "Verif.ConnLoad.C24_stream_partial",
    "Verif.ConnLoad.C24_monotone_partial",
    "Verif.ConnLoad.C24_not_skipped",
    "Verif.ConnLoad.C24_violated_delayed",
    "Verif.ConnLoad.C24_violated_limit0",
    "Verif.Farewell.C135_stream_partial"
   ],
   "note": "Proved for queues ordered by position and timeline limits of at least 1; both hypotheses are necessary (violations shown). With AlwaysProcess events, which are sent outside of the log: C135_stream_partial."
  },
  {
   "property": "C25",
   "status": "partial",
   "theorems": [
    "Verif.TxnWaiter.C25_conserved",
    "Verif.TxnWaiter.C25_all_published",
    "Verif.TxnWaiter.timers_drain",
    "Verif.TxnWaiter.C25_queued_iff",
    "Verif.TxnWaiter.C25_release_partial",
    "Verif.TxnWaiter.C25_release_prefix",
    "Verif.TxnWaiter.C25_release_violated"
   ],
   "note": "Each event is published exactly once, per-room in order. Release on the timer is exact only when the queue is in nid order; the violated theorem shows a queue out of order."
  },
  {
   "property": "C26",
   "status": "partial",
   "theorems": [
    "Verif.LazyMember.C26_once_partial",
    "Verif.LazyMember.C26_addUser_partial",
    "Verif.LazyMember.C26_violated_key",
    "Verif.LazyMember.C26_violated_empty"
   ],
   "note": "Holds when room ids do not contain the key separator; violated otherwise and for rooms whose first timeline has no senders."
  },
  {
   "property": "C27",
   "status": "partial",
   "theorems": [
    "Verif.RoomsBuilder.C27_values",
    "Verif.RoomsBuilder.C27_includes",
    "Verif.RoomsBuilder.C27_slices_partial",
    "Verif.RoomsBuilder.C27_violated"
   ],
   "note": "Proved for the values; with Go slice aliasing proved when the slices have no spare capacity, violated otherwise."
  },
  {
   "property": "C28",
   "status": "proved",
   "theorems": [
    "Verif.ConnLists.C28_lists",
    "Verif.ConnLists.C28_subs",
    "Verif.ConnLists.C28_subs_complete",
    "Verif.ConnLists.C28_active"
   ],
   "note": "Rooms of a list window are sent without a join check, as the statement allows; everything else only if joined."
  },
  {
   "property": "C29",
   "status": "partial",
   "theorems": [
    "Verif.ConnLists.C29_exact",
    "Verif.ConnLists.C29_partial",
    "Verif.ConnLists.C29_violated_cycle",
    "Verif.ConnLists.C29_violated_unknown"
   ],
   "note": "Exact termination condition proved; the claim itself is violated by cycles and by joined rooms unknown to the connection."
  },
  {
   "property": "C30",
   "status": "partial",
   "theorems": [
    "Verif.EnsurePoller.C30_no_panic",
    "Verif.EnsurePoller.C30_released_partial",
    "Verif.EnsurePoller.C30_waiting",
    "Verif.EnsurePoller.C30_truth_partial",
    "Verif.EnsurePoller.C30_truth_violated",
    "Verif.EnsurePoller.C30_truth_violated_failure",
    "Verif.EnsurePoller.C30_expiry_violated"
   ],
   "note": "Callers are released by completion, for every interleaving; truthfulness needs no overlap of a new caller with an expired entry; violations shown."
  },
  {
   "property": "C31",
   "status": "partial",
   "theorems": [
    "Verif.Extensions.C31_scope_partial",
    "Verif.Extensions.C31_violated_mixed",
    "Verif.Extensions.C31_visible",
    "Verif.Extensions.C31_visible_total"
   ],
   "note": "Exact for selectors whose wildcard stands alone; a wildcard mixed with names violates it (witness)."
  },
  {
   "property": "C32",
   "status": "proved",
   "theorems": [
    "Verif.Extensions.C32_settings",
    "Verif.Extensions.C32_enabled"
   ],
   "note": "All sequences of requests."
  },
  {
   "property": "C33",
   "status": "partial",
   "theorems": [
    "Verif.Extensions.C33_exact",
    "Verif.Extensions.C33_initial_partial",
    "Verif.Extensions.C33_global",
    "Verif.Extensions.C33_live",
    "Verif.Extensions.C33_violated"
   ],
   "note": "Violated when a room of the response is out of scope: global data is reported under an empty room id. Exact characterisation proved; live path proved."
  },
  {
   "property": "C34",
   "status": "partial",
   "theorems": [
    "Verif.ToDevice.C34_response",
    "Verif.ToDevice.C34_deleted",
    "Verif.ToDevice.C34_never_lost",
    "Verif.ToDevice.C34_kept",
    "Verif.ToDevice.C34_eventually",
    "Verif.ToDevice.C34_in_order",
    "Verif.ToDevice.C34_violated_resend"
   ],
   "note": "Order, gap-freedom, at-least-once and deletion proved for every interleaving; the clause 'cancelled before being sent' is violated when the unacknowledged position moves back (witness)."
  },
  {
   "property": "C35",
   "status": "partial",
   "theorems": [
    "Verif.ToDevice.C35_others",
    "Verif.ToDevice.C35_no_cancel",
    "Verif.ToDevice.C35_seen_kept",
    "Verif.ToDevice.C35_delivered_partial",
    "Verif.ToDevice.C35_violated_twice",
    "Verif.ToDevice.C35_violated_batch",
    "Verif.ToDevice.C35_violated_reorder",
    "Verif.ToDevice.C35_violated_ambiguous",
    "Verif.ToDevice.C35_removed_partial",
    "Verif.ToDevice.C35_dropped_partial"
   ],
   "note": "Violated in four ways (witnesses); other messages, order and seen rows proved for all inputs."
  },
  {
   "property": "C36",
   "status": "proved",
   "theorems": [
    "Verif.E2EE.C36_incremental",
    "Verif.E2EE.C36_initial",
    "Verif.E2EE.C36_not_lost",
    "Verif.E2EE.C36_upstream"
   ],
   "note": "All interleavings of device-list writes and reads; C36_upstream ties the rows to the responses of upstream."
  },
  {
   "property": "C37",
   "status": "partial",
   "theorems": [
    "Verif.E2EE.C37_reads",
    "Verif.E2EE.C37_fresh",
    "Verif.E2EE.C37_fallback",
    "Verif.E2EE.C37_otk_partial",
    "Verif.E2EE.C37_violated_zero"
   ],
   "note": "Reads and fallback types in full. Stored counts follow upstream except that the poller misses a same-size map in which an unlisted algorithm has count zero (witness)."
  },
  {
   "property": "C38",
   "status": "proved",
   "theorems": [
    "Verif.Store.C38_positions",
    "Verif.Store.C38_stored"
   ],
   "note": "All sequences of state blocks and timelines with arbitrary duplicates, no hypotheses."
  },
  {
   "property": "C39",
   "status": "proved",
   "theorems": [
    "Verif.Store.C39_accumulated",
    "Verif.Store.C39_known",
    "Verif.Store.C39_replay"
   ],
   "note": "All runs and timelines. The code deliberately accumulates nothing when nothing is known of the room and the timeline does not start with the create event; C39_accumulated characterises this."
  },
  {
   "property": "C40",
   "status": "partial",
   "theorems": [
    "Verif.Store.C40_current",
    "Verif.Store.C40_before",
    "Verif.Store.C40_no_error",
    "Verif.Store.C40_last",
    "Verif.Store.C40_violated_separator"
   ],
   "note": "For all runs with event types free of U+001F and no event twice in one state block; for types with U+001F the snapshot key is ambiguous (witness)."
  },
  {
   "property": "C41",
   "status": "partial",
   "theorems": [
    "Verif.Store.C41_state_partial",
    "Verif.Store.C41_filtered_partial",
    "Verif.Store.C41_empty",
    "Verif.Store.C41_violated_initial",
    "Verif.Store.C41_violated_message",
    "Verif.Store.C41_violated_twice"
   ],
   "note": "Proved when the last event up to the position has a before-state or is the last of the room; otherwise the current snapshot is used (witness). Filtered query: also needs the last event to be a state event or not match (witnesses)."
  },
  {
   "property": "C42",
   "status": "proved",
   "theorems": [
    "Verif.Visibility.C42_range",
    "Verif.Visibility.C42_sound",
    "Verif.Visibility.C42_only_requested",
    "Verif.Visibility.C42_timeline"
   ],
   "note": "Membership ranges and timeline cut as functions of the membership events in order; SQL selects as list filters."
  },
  {
   "property": "C43",
   "status": "partial",
   "theorems": [
    "Verif.Store.C43_current",
    "Verif.Store.C43_before_partial",
    "Verif.Store.C43_before_no_block",
    "Verif.Store.C43_violated"
   ],
   "note": "Current snapshots always survive and before-states survive when no state block intervenes; the full statement (KeepsLatest) is false, witness in C43_violated: snapshots made by later state blocks count towards the kept number."
  },
  {
   "property": "C44",
   "status": "proved",
   "theorems": [
    "Verif.Circular.C44_last",
    "Verif.Circular.C44_contents",
    "Verif.Circular.C44_zero"
   ],
   "note": "Capacity > 0; with capacity zero the insert panics (C44_zero)."
  },
  {
   "property": "C45",
   "status": "proved",
   "theorems": [
    "Verif.Receipts.C45_round_trip",
    "Verif.Receipts.C45_live",
    "Verif.Receipts.C45_live_private",
    "Verif.Receipts.C45_select_private",
    "Verif.Receipts.C45_response_private"
   ],
   "note": "Any order of reading the maps; JSON coding not modelled."
  },
  {
   "property": "C46",
   "status": "proved",
   "theorems": [
    "Verif.AccountData.C46_last_write",
    "Verif.AccountData.C46_select",
    "Verif.AccountData.C46_insert_total"
   ],
   "note": "Any map iteration order, any chunking."
  },
  {
   "property": "C47",
   "status": "proved",
   "theorems": [
    "Verif.SqlUtil.C47_chunks",
    "Verif.SqlUtil.C47_diverges"
   ],
   "note": "Diverges exactly when the parameters per item exceed the limit; no caller does."
  },
  {
   "property": "C48",
   "status": "partial",
   "theorems": [
    "Verif.SqlUtil.C48_violated_nil_panic",
    "Verif.SqlUtil.C48_atomic_partial",
    "Verif.SqlUtil.C48_nil_panic"
   ],
   "note": "The full statement CommitsExactlyOnSuccess is false for panic(nil) and Goexit (go 1.20), which commit; all other outcomes proved."
  },
  {
   "property": "C49",
   "status": "partial",
   "theorems": [
    "Verif.PendingTxn.C49_violated",
    "Verif.PendingTxn.C49_sound_partial",
    "Verif.PendingTxn.C49_complete_partial",
    "Verif.PendingTxn.C49_only_missing"
   ],
   "note": "Sound and complete between two expiries of the event's entry; across an expiry (five minutes) the full statement OnceAndNeverAfterSeen is false."
  },
  {
   "property": "C50",
   "status": "proved",
   "theorems": [
    "Verif.Poller.C50_rooms",
    "Verif.Poller.C50_turn",
    "Verif.Poller.C50_covered"
   ],
   "note": "Receiver arbitrary, crash possible at any moment."
  },
  {
   "property": "C51",
   "status": "proved",
   "theorems": [
    "Verif.PollerMap.C51_one_live",
    "Verif.PollerMap.C51_ensure"
   ],
   "note": "All interleavings of requests, terminations, ends and panics."
  },
  {
   "property": "C52",
   "status": "partial",
   "theorems": [
    "Verif.DedupAccount.C52_violated",
    "Verif.DedupAccount.C52_stored_partial",
    "Verif.DedupAccount.C52_success",
    "Verif.DedupAccount.C52_key",
    "Verif.DedupAccount.C52_separate_partial"
   ],
   "note": "False as stated: the hash is remembered before the write, so the retry is taken for a duplicate. Proved if a failed type is delivered again only after a restart."
  },
  {
   "property": "C53",
   "status": "partial",
   "theorems": [
    "Verif.Unread.C53_violated",
    "Verif.Unread.C53_violated_failure",
    "Verif.Unread.C53_violated_key",
    "Verif.Unread.C53_converges_partial"
   ],
   "note": "False as stated: an omitted count is remembered as zero; failed writes are not repeated; keys are concatenated. Proved without these."
  },
  {
   "property": "C54",
   "status": "proved",
   "theorems": [
    "Verif.Ticker.C54_never_lost",
    "Verif.Ticker.C54_delivered",
    "Verif.Ticker.C54_payload",
    "Verif.Ticker.C54_no_more",
    "Verif.Ticker.C54_exactly_once"
   ],
   "note": "sync.Map.Range modelled by its documented guarantees. Never lost for any number of emitters; the count for one emitter (the mode with a period)."
  },
  {
   "property": "C55",
   "status": "partial",
   "theorems": [
    "Verif.Typing.C55_violated",
    "Verif.Typing.C55_partial"
   ],
   "note": "False for pollers without device id, which are never seen as assigned. Proved for all others."
  },
  {
   "property": "C56",
   "status": "proved",
   "theorems": [
    "Verif.RoomName.C56_name",
    "Verif.RoomName.C56_exists",
    "Verif.RoomName.C56_disambiguated",
    "Verif.RoomName.C56_impersonation",
    "Verif.RoomName.C56_same_name",
    "Verif.RoomName.C56_remove_hero"
   ],
   "note": "Exact name for all metadata and every order of map iteration."
  },
  {
   "property": "C57",
   "status": "proved",
   "theorems": [
    "Verif.Invites.C57_batch",
    "Verif.Invites.C57_history",
    "Verif.Invites.C57_all"
   ],
   "note": "Invites, InvitesProps. For any table, batch and history of invites, leaves and batches. The membership is read from the JSON in the specification; the stored column with its _ prefix is modelled. Hypotheses: no event has the literal membership _invite (servers reject it) and the user id is not empty."
  },
  {
   "property": "C58",
   "status": "proved",
   "theorems": [
    "Verif.Spaces.C58_no_error",
    "Verif.Spaces.C58_relation",
    "Verif.Spaces.C58_children"
   ],
   "note": "Spaces, SpacesProps. For any sequence of batches, each of one room as the callers ensure, any order of the Go map and any chunking."
  },
  {
   "property": "C59",
   "status": "proved",
   "theorems": [
    "Verif.RoomsTable.C59_recorded",
    "Verif.RoomsTable.C59_encrypted",
    "Verif.RoomsTable.C59_step"
   ],
   "note": "RoomsTable, RoomsTableProps. The SQL is modelled with its parameter numbers."
  },
  {
   "property": "C60",
   "status": "proved",
   "theorems": [
    "Verif.Tokens.C60_recorded",
    "Verif.Tokens.C60_not_expired",
    "Verif.Tokens.C60_expired"
   ],
   "note": "Tokens, TokensProps. Overlapping requests, a clock that does not go back; a device is safe until the idle period less 24 hours after a use. Requests whose write of the time failed are not uses."
  },
  {
   "property": "C61",
   "status": "proved",
   "theorems": [
    "Verif.Lists.C61_recency"
   ],
   "note": "Holds for all histories with the lazy write-back as a free step."
  },
  {
   "property": "C62",
   "status": "partial",
   "theorems": [
    "Verif.Request.C62_old_partial",
    "Verif.Request.C62_violated"
   ],
   "note": "Combining drops include_old_rooms of the first subscription when the second has none, and always drops include_heroes."
  },
  {
   "property": "C63",
   "status": "partial",
   "theorems": [
    "Verif.ConnLists.C63_partial",
    "Verif.ConnLists.C63_first",
    "Verif.ConnLists.C63_violated",
    "Verif.ConnLists.C63_inverted"
   ],
   "note": "Proved for every index that is not a one-index range; violated there."
  },
  {
   "property": "C64",
   "status": "partial",
   "theorems": [
    "Verif.ConnLists.C64_partial",
    "Verif.ConnLists.C64_violated"
   ],
   "note": "Holds except for lists sent as a whole."
  },
  {
   "property": "C65",
   "status": "partial",
   "theorems": [
    "Verif.Extensions.C65_complete_partial",
    "Verif.Extensions.C65_violated",
    "Verif.Extensions.C65_once"
   ],
   "note": "Violated if an account data update of the room comes first in the response."
  },
  {
   "property": "C66",
   "status": "partial",
   "theorems": [
    "Verif.Receipts.C66_insert",
    "Verif.Receipts.C66_duplicate_rejected",
    "Verif.Receipts.C66_violated"
   ],
   "note": "Storage and reporting are exact for deliveries with one receipt per user and thread; one with two is rejected whole; never-going-back is false (timestamps are not compared)."
  },
  {
   "property": "C67",
   "status": "partial",
   "theorems": [
    "Verif.Poller.C67_acknowledged_partial",
    "Verif.Poller.C67_violated"
   ],
   "note": "False as stated: a failure to store the since token is only logged. Proved: at most once per stored token when storing works."
  },
  {
   "property": "C68",
   "status": "partial",
   "theorems": [
    "Verif.Poller.C68_fallback",
    "Verif.Poller.C68_violated",
    "Verif.Poller.C68_counts_partial"
   ],
   "note": "False as stated for counts: {b:5} then {a:0} is taken as no change. Fallback types in full; counts if no algorithm disappears."
  },
  {
   "property": "C69",
   "status": "partial",
   "theorems": [
    "Verif.PollerMap.C69_violated_panic",
    "Verif.PollerMap.C69_violated_overlap",
    "Verif.PollerMap.C69_violated",
    "Verif.PollerMap.C69_running_partial",
    "Verif.PollerMap.C69_released",
    "Verif.PollerMap.C69_ended"
   ],
   "note": "False as stated (panic leaves a dead poller in the map; a terminated poller may still be processing). Proved without panics and up to pollers about to end."
  },
  {
   "property": "C70",
   "status": "partial",
   "theorems": [
    "Verif.RoomName.C70_violated_alone",
    "Verif.RoomName.C70_violated_nobody",
    "Verif.RoomName.C70_violated",
    "Verif.RoomName.C70_partial"
   ],
   "note": "False as stated: alone with one hero, and others but no heroes. Proved otherwise."
  },
  {
   "property": "C71",
   "status": "partial",
   "theorems": [
    "Verif.RoomsTable.C71_violated",
    "Verif.RoomsTable.C71_violated_upgrade",
    "Verif.RoomsTable.C71_partial"
   ],
   "note": "The code compares the state key column with the empty string, which it also is for messages: a message of type m.room.encryption marks the room as encrypted for good. Proved for histories without such messages."
  },
  {
   "property": "C72",
   "status": "partial",
   "theorems": [
    "Verif.Tokens.C72_violated",
    "Verif.Tokens.C72_exact",
    "Verif.Tokens.C72_partial"
   ],
   "note": "The named result err keeps the failure of the last row, so one unreadable token of the last device stops all pollers from being started. Proved exactly what happens."
  },
  {
   "property": "C73",
   "status": "partial",
   "theorems": [
    "Verif.SideTables.C73_partial",
    "Verif.SideTables.C73_violated"
   ],
   "note": "Proved for histories whose state blocks bring only unknown space events or ones that are current; C73_violated: an out-of-date state block with one new event re-adds a removed child, because Initialise hands every block event to HandleSpaceUpdates, not only the new ones."
  },
  {
   "property": "C74",
   "status": "partial",
   "theorems": [
    "Verif.Metadata.C74_text",
    "Verif.Metadata.C74_encrypted",
    "Verif.Metadata.C74_partial",
    "Verif.Metadata.C74_violated_children",
    "Verif.Metadata.C74_violated_upgraded",
    "Verif.Metadata.C74_violated_restart",
    "Verif.Metadata.C74_violated_redaction"
   ],
   "note": "Proved in full for name, avatar, alias (C74_text) and encryption (C74_encrypted), across invalidations, redactions and restarts. False for space children and upgrades after an invalidation or restart (witnesses), for them only the part without invalidation and restart is proved (C74_partial). Redactions must name events of their own room (C74_violated_redaction)."
  },
  {
   "property": "C75",
   "status": "partial",
   "theorems": [
    "Verif.StartPollers.C75_each_once",
    "Verif.StartPollers.C75_finishes",
    "Verif.StartPollers.C75_success_partial",
    "Verif.StartPollers.C75_alike",
    "Verif.StartPollers.C75_violated"
   ],
   "note": "Proved for all interleavings and numbers of workers: each usable token is reported exactly once, the workers finish in four steps per token and never get stuck, and reports are right if no other call returns between a call's return and its report or if all calls end alike. Violated: the workers share err, so a report can carry another device's outcome. Steps are taken as atomic."
  },
  {
   "property": "C76",
   "status": "partial",
   "theorems": [
    "Verif.Redact.C76_redacted_partial",
    "Verif.Redact.C76_untouched",
    "Verif.Redact.C76_first_kept",
    "Verif.Redact.C76_permanent",
    "Verif.Redact.C76_flag",
    "Verif.Redact.C76_no_error",
    "Verif.Redact.C76_violated_order",
    "Verif.Redact.C76_violated_room",
    "Verif.Redact.C76_violated_broken"
   ],
   "note": "Proved for all histories: named stored events are redacted with the room's algorithm and the last redaction, stay redacted, others keep their first JSON, the reload flag is exact, and no timeline fails if redacting JSON cannot fail. Violated: a redaction delivered before its event is never applied; a redaction in one room blanks an event of another; an event that cannot be redacted makes the whole timeline fail."
  },
  {
   "property": "C77",
   "status": "partial",
   "theorems": [
    "Verif.Heroes.C77_joined",
    "Verif.Heroes.C77_invited_partial",
    "Verif.Heroes.C77_heroes",
    "Verif.Heroes.C77_members_partial",
    "Verif.Heroes.C77_names_partial",
    "Verif.Heroes.C77_violated_no_change",
    "Verif.Heroes.C77_violated_invites",
    "Verif.Heroes.C77_violated_name",
    "Verif.Heroes.C77_violated_refill",
    "Verif.Heroes.C77_violated_restart",
    "Verif.Heroes.C77_violated_missed_leave"
   ],
   "note": "Join count and safety of the heroes proved for all histories; invite count without invites pending at restarts; heroes complete in rooms that never had more than six members (names: five). Violations shown: first block without a change, invites after restart, rename with six heroes, places not refilled, invite-only room after restart, missed leave. Redaction of member events not modelled."
  },
  {
   "property": "C78",
   "status": "partial",
   "theorems": [
    "Verif.ClientMeta.C78_name_partial",
    "Verif.ClientMeta.C78_counts_partial",
    "Verif.ClientMeta.C78_avatar_partial",
    "Verif.ClientMeta.C78_violated_held",
    "Verif.ClientMeta.C78_violated_race",
    "Verif.ClientMeta.C78_violated_direct",
    "Verif.ClientMeta.C78_violated_not_direct"
   ],
   "note": "Proved for histories in which no other update (typing, receipt, unread count, account data) is made while an event is held back, with reads of the store not ahead of the caches, non-empty names, non-zero join counts and a constant direct chat flag; the client is caught up when nothing is queued or held back. Violated: a rename held back behind the user's own message is never sent if a typing update overtakes it; a rename between the store read and the cache; rooms becoming or ceasing to be direct chats."
  },
  {
   "property": "C79",
   "status": "partial",
   "theorems": [
    "Verif.Store.C79_no_holes_partial",
    "Verif.Store.C79_client_partial",
    "Verif.Store.C79_marked",
    "Verif.Store.C79_violated_slow"
   ],
   "note": "Proved when each timeline ends no earlier than those before it; violated by a poller that delivers late: its single old event is stored as the newest, unmarked. The live path, which appends events after a gap without telling the client, is not part of the claim."
  },
  {
   "property": "C80",
   "status": "partial",
   "theorems": [
    "Verif.Txns.C80_own_partial",
    "Verif.Txns.C80_others_partial",
    "Verif.Txns.C80_true",
    "Verif.Txns.C80_violated_leak",
    "Verif.Txns.C80_violated_batch"
   ],
   "note": "Proved: the sending device gets its id if the delivering timeline repeats no id known for the device; ids are never made up; others get exactly what the first storing poller was given. Violated: when the sending device's poller stores the event first its id is kept in the event (the code deletes unsigned.txn_id, not unsigned.transaction_id) and everyone gets it; one repeated id in a timeline loses the others."
  },
  {
   "property": "C81",
   "status": "partial",
   "theorems": [
    "Verif.ListSync.C81_windows_partial",
    "Verif.ListSync.C81_violated_batch",
    "Verif.ListSync.C81_violated_getall",
    "Verif.ListSync.C81_all_rooms"
   ],
   "note": "Proved for all histories whose lists are not get-all, have supported sort orders and whose new windows have more than one index, and whose responses have no DELETE directly after a DELETE of a lower index. Violated (two witnesses) without the conditions on get-all and on consecutive DELETEs."
  },
  {
   "property": "C82",
   "status": "partial",
   "theorems": [
    "Verif.LiveLoop.C82_order",
    "Verif.LiveLoop.C82_single",
    "Verif.LiveLoop.C82_dropped",
    "Verif.LiveLoop.C82_answer",
    "Verif.LiveLoop.C82_no_starvation",
    "Verif.LiveLoop.C82_answered",
    "Verif.LiveLoop.C82_dead",
    "Verif.LiveLoop.C82_violated_hole"
   ],
   "note": "All parts proved for all interleavings, except that across producers the last response of a dying connection may contain an update that comes after the dropped one (proved violation). Time is abstracted: a waiting producer may give up and a waiting request may time out at any moment."
  },
  {
   "property": "C83",
   "status": "partial",
   "theorems": [
    "Verif.Leaving.C83_exact",
    "Verif.Leaving.C83_listed_partial",
    "Verif.Leaving.C83_violated_leave",
    "Verif.Leaving.C83_violated_ban",
    "Verif.Leaving.C83_violated_reject",
    "Verif.Leaving.C83_violated_rejoin",
    "Verif.Leaving.C83_violated_message"
   ],
   "note": "False in the code: leaving, being banned and some rejections leave the room in the list, and joining again without an invite takes it out. Proved: exactly when the list shows a room, and that it is right for kicks, unseen rejections and joins after invites."
  },
  {
   "property": "C84",
   "status": "partial",
   "theorems": [
    "Verif.SharedHeroes.C84_locked_partial",
    "Verif.SharedHeroes.C84_single",
    "Verif.SharedHeroes.C84_not_hero",
    "Verif.SharedHeroes.C84_violated_name",
    "Verif.SharedHeroes.C84_violated_panic",
    "Verif.SharedHeroes.C84_violated_copy",
    "Verif.SharedHeroes.C84_reads"
   ],
   "note": "False in the code: the shared metadata is modified without a lock. Proved for a single connection, for users who are no hero, and for all interleavings if the two functions are atomic."
  },
  {
   "property": "C85",
   "status": "partial",
   "theorems": [
    "Verif.InitialRoom.C85_invite",
    "Verif.InitialRoom.C85_invite_content",
    "Verif.InitialRoom.C85_no_panic",
    "Verif.InitialRoom.C85_timestamp",
    "Verif.InitialRoom.C85_private_partial",
    "Verif.InitialRoom.C85_violated_leave",
    "Verif.InitialRoom.C85_violated_ban",
    "Verif.InitialRoom.C85_violated_reject",
    "Verif.InitialRoom.C85_violated_list",
    "Verif.InitialRoom.C85_heroes",
    "Verif.InitialRoom.C85_pending"
   ],
   "note": "False in the code for users who left, were banned, or rejected an invite a timeline showed: the room stays in their lists (C83) and its current name and state are sent. Proved for invites, for histories where the lists are right, and without conditions: no panic, exact timestamp."
  },
  {
   "property": "C86",
   "status": "partial",
   "theorems": [
    "Verif.TypingExt.C86_converges_partial",
    "Verif.TypingExt.C86_real",
    "Verif.TypingExt.C86_out_of_scope",
    "Verif.TypingExt.C86_violated_shift",
    "Verif.TypingExt.C86_violated_enabled",
    "Verif.TypingExt.C86_violated_back",
    "Verif.TypingExt.C86_violated_invite"
   ],
   "note": "Convergence proved for rooms sent by a request that stay in scope while the user is joined. Violated for rooms moved into view by another room's update, when the extension is enabled later, in between, and for invites."
  },
  {
   "property": "C87",
   "status": "partial",
   "theorems": [
    "Verif.PubSub.C87_fifo",
    "Verif.PubSub.C87_success",
    "Verif.PubSub.C87_synchronous",
    "Verif.PubSub.C87_drained",
    "Verif.PubSub.C87_live",
    "Verif.PubSub.C87_violated_lost",
    "Verif.PubSub.C87_violated_panic",
    "Verif.PubSub.C87_violated_deadlock"
   ],
   "note": "Order, exactly-once for successful calls, bounds, synchronisation, draining and progress are proved. Violated: a time-out loses the payload (callers ignore the error), Notify panics after Close, and without a buffer a callback that notifies deadlocks."
  },
  {
   "property": "C88",
   "status": "proved",
   "theorems": [
    "Verif.WorkerPool.C88_calls",
    "Verif.WorkerPool.C88_writes",
    "Verif.WorkerPool.C88_bounded",
    "Verif.WorkerPool.C88_live"
   ],
   "note": "The write, Remember and wg.Done are one step; functions do not panic."
  },
  {
   "property": "C89",
   "status": "partial",
   "theorems": [
    "Verif.PrevBatch.C89_no_gap_partial",
    "Verif.PrevBatch.C89_gap",
    "Verif.PrevBatch.C89_violated_none",
    "Verif.PrevBatch.C89_violated_overlap",
    "Verif.PrevBatch.C89_violated_unparsed",
    "Verif.PrevBatch.C89_violated_lagging",
    "Verif.PrevBatch.C89_violated_far",
    "Verif.PrevBatch.C89_violated_left"
   ],
   "note": "No gap is proved if no poller lags behind; timelines that start at a gap have their token for all histories. Violated: no token inside the newest timeline or after known or unparsable events, a gap with lagging pollers, not the nearest token, tokens after the leave."
  },
  {
   "property": "C90",
   "status": "partial",
   "theorems": [
    "Verif.Migrations.C90_up",
    "Verif.Migrations.C90_up_fails",
    "Verif.Migrations.C90_up_again",
    "Verif.Migrations.C90_bogus",
    "Verif.Migrations.C90_stuck",
    "Verif.Migrations.C90_dead",
    "Verif.Migrations.C90_violated_down",
    "Verif.Migrations.C90_violated_reinvited"
   ],
   "note": "The upgrade and the clean-ups as stated. Going back drops pending device list changes, and an invite that follows a leave the proxy has stored is removed as dead. The migrations that re-encode device data are C133. Not modelled: those that only change a column's type."
  },
  {
   "property": "C91",
   "status": "partial",
   "theorems": [
    "Verif.SharedReq.C91_settings",
    "Verif.SharedReq.C91_retry",
    "Verif.SharedReq.C91_second",
    "Verif.SharedReq.C91_violated_retry",
    "Verif.SharedReq.C91_violated_failed"
   ],
   "note": "Settings for all histories; the exact set of retries that are recognised. A request that enables an extension with default lists or rooms is handled a second time; a request that fails late leaves its settings, and may then be answered from the buffer."
  },
  {
   "property": "C92",
   "status": "partial",
   "theorems": [
    "Verif.Auth.C92_owner",
    "Verif.Auth.C92_detected",
    "Verif.Auth.C92_refused_partial",
    "Verif.Auth.C92_stale",
    "Verif.Auth.C92_violated_refreshed",
    "Verif.Auth.C92_violated_window",
    "Verif.Auth.C92_violated_reinserted"
   ],
   "note": "Ownership holds for all interleavings. Revocation: false in the code for tokens whose device is polled with another token (C92_stale says for how long they are accepted), until the poller notices, and with requests in flight; C92_refused_partial proves refusal once the row and the requests in flight are gone."
  },
  {
   "property": "C93",
   "status": "partial",
   "theorems": [
    "Verif.PollStart.C93_released_partial",
    "Verif.PollStart.C93_polled_partial",
    "Verif.PollStart.C93_stuck",
    "Verif.PollStart.C93_orphan",
    "Verif.PollStart.C93_violated_lockout",
    "Verif.PollStart.C93_violated_orphan",
    "Verif.PollStart.C93_violated_startup"
   ],
   "note": "False in the code: a request with a token revoked at the wrong moment locks its device out for ever (C93_stuck, C93_violated_lockout), and a device can be left without a poller while its requests are let through (C93_orphan, C93_violated_orphan, C93_violated_startup). The partial theorems prove both parts when no notification timed out, no row was missing, and (second part) no ending poller was reused and no expiry came before the first completion."
  },
  {
   "property": "C94",
   "status": "partial",
   "theorems": [
    "Verif.UserCaches.C94_fresh_partial",
    "Verif.UserCaches.C94_wrong",
    "Verif.UserCaches.C94_violated"
   ],
   "note": "False in the code: a message that comes after its query and before the cache is stored is lost, and the value stays wrong until it changes again (C94_wrong, C94_violated). Proved for all other keys."
  },
  {
   "property": "C95",
   "status": "partial",
   "theorems": [
    "Verif.UserCaches.C95_complete_partial",
    "Verif.UserCaches.C95_dropped",
    "Verif.UserCaches.C95_violated_window",
    "Verif.UserCaches.C95_violated_invalidated",
    "Verif.UserCaches.C95_violated_failed",
    "Verif.UserCaches.C95_goes_on"
   ],
   "note": "False in the code: a second request can make its connection before the cache is registered and misses events; a connection made on a cache dropped by an invalidation or a failed registration never gets an event (C95_dropped). Proved for connections made while the cache is registered, up to the next invalidation."
  },
  {
   "property": "C96",
   "status": "partial",
   "theorems": [
    "Verif.InviteFlow.C96_invite_partial",
    "Verif.InviteFlow.C96_count_partial",
    "Verif.InviteFlow.C96_accepted",
    "Verif.InviteFlow.C96_violated_late",
    "Verif.InviteFlow.C96_violated_race",
    "Verif.InviteFlow.C96_violated_ban",
    "Verif.InviteFlow.C96_violated_lost",
    "Verif.InviteFlow.C96_violated_count",
    "Verif.InviteFlow.C96_left",
    "Verif.InviteFlow.C96_not_both"
   ],
   "note": "Proved when no membership comes late (older than one delivered) and no one is banned while invited, and for counts when no count is repeated after the user was out of the room. Violated otherwise: late invites stick, bans leave invites, late leaves hide invites, repeated counts are dropped."
  },
  {
   "property": "C97",
   "status": "partial",
   "theorems": [
    "Verif.FirstLoad.C97_loaded_partial",
    "Verif.FirstLoad.C97_list",
    "Verif.FirstLoad.C97_stuck",
    "Verif.FirstLoad.C97_violated_empty",
    "Verif.FirstLoad.C97_violated_never"
   ],
   "note": "Proved if the first load works; otherwise the exact content of lists and of the known rooms. Violated after a failure: the lists that are there are not filled by a later load, and an update sets the position so that there is no later load at all."
  },
  {
   "property": "C98",
   "status": "partial",
   "theorems": [
    "Verif.UserSpaces.C98_registered",
    "Verif.UserSpaces.C98_partial",
    "Verif.UserSpaces.C98_block_partial",
    "Verif.UserSpaces.C98_safe",
    "Verif.UserSpaces.C98_missing",
    "Verif.UserSpaces.C98_stays",
    "Verif.UserSpaces.C98_violated_join",
    "Verif.UserSpaces.C98_violated_left",
    "Verif.UserSpaces.C98_violated_kind",
    "Verif.UserSpaces.C98_violated_self"
   ],
   "note": "Proved: right at registration, right from then on for spaces the user stays in, right for spaces learned with a block that has the join, and nothing made up. Violated: a space joined later lacks its rooms, a space left keeps them, rooms that are no spaces count until the cache is made anew, a space in itself."
  },
  {
   "property": "C99",
   "status": "partial",
   "theorems": [
    "Verif.OwnTimeline.C99_partial",
    "Verif.OwnTimeline.C99_immediate",
    "Verif.OwnTimeline.C99_lost",
    "Verif.OwnTimeline.C99_violated_foreign",
    "Verif.OwnTimeline.C99_violated_lost"
   ],
   "note": "Proved when no m.space.child event is about a room the user is in. The code violates the full claim: OnSpaceUpdate makes an update for the child that has the space's event. The event is added to the child's timeline (C99_violated_foreign). It also moves the child's position: a message of the child that was held back is then never sent (C99_violated_lost, for all continuations). Without holding back the exact timeline is proved: all own events and those of spaces (C99_immediate)."
  },
  {
   "property": "C100",
   "status": "partial",
   "theorems": [
    "Verif.Recency.C100_types",
    "Verif.Recency.C100_loaded",
    "Verif.Recency.C100_last_partial",
    "Verif.Recency.C100_recent_partial",
    "Verif.Recency.C100_bump_partial",
    "Verif.Recency.C100_violated_clock",
    "Verif.Recency.C100_violated_gap",
    "Verif.Recency.C100_violated_block"
   ],
   "note": "Proved when timestamps do not go back and the cache has been told of all events; for bump types when the last event of each came with a timeline or is not after the join. The code violates the full claim: at start-up the greatest time over the types is used, live the last one (C100_violated_clock); events of a state block after a gap count only after a restart (C100_violated_gap); those of the first block have position 0 until a restart (C100_violated_block)."
  },
  {
   "property": "C101",
   "status": "proved",
   "theorems": [
    "Verif.Store.C101_exact",
    "Verif.Store.C101_only",
    "Verif.Store.C101_stable",
    "Verif.Store.C101_last"
   ],
   "note": "Over the store of C38-C41 (the conditions OkOp are those of C40). Transactions are atomic and in order, as the poller map runs all of them in one goroutine."
  },
  {
   "property": "C102",
   "status": "partial",
   "theorems": [
    "Verif.RoomState.C102_partial",
    "Verif.RoomState.C102_usual_partial",
    "Verif.RoomState.C102_violated_type",
    "Verif.RoomState.C102_violated_batch"
   ],
   "note": "Proved for load positions inside the timeline of the room (last event has a before-state and is a state event or of a type not named in the request), all rooms of the call having a determinable state, and no non-member state event keyed by a sender when a * type is combined with lazy loading (C102_usual_partial: no * type, or [*,*] with only members restricted). Fails otherwise: other events keyed by a sender are sent (C102_violated_type), an error for one room leaves all rooms without state (C102_violated_batch), and the cases of C41_violated_*."
  },
  {
   "property": "C103",
   "status": "partial",
   "theorems": [
    "Verif.InviteData.C103_exists",
    "Verif.InviteData.C103_values_partial",
    "Verif.InviteData.C103_inviter",
    "Verif.InviteData.C103_named",
    "Verif.InviteData.C103_violated_nobody",
    "Verif.InviteData.C103_violated_key"
   ],
   "note": "Values proved if events of the types looked at have an empty state key (otherwise the last one counts whatever its key, C103_violated_key). Without a self-sent member event of another user an unnamed room is shown as ' and 1 others' (C103_violated_nobody)."
  },
  {
   "property": "C104",
   "status": "partial",
   "theorems": [
    "Verif.UserFlags.C104_tags",
    "Verif.UserFlags.C104_ignored_partial",
    "Verif.UserFlags.C104_direct_partial",
    "Verif.UserFlags.C104_invited_partial",
    "Verif.UserFlags.C104_violated_join",
    "Verif.UserFlags.C104_violated_restart",
    "Verif.UserFlags.C104_violated_scope",
    "Verif.UserFlags.C104_violated_malformed"
   ],
   "note": "Tags hold without proviso. Ignored users: if every list has an object of users (C104_violated_malformed). Direct chats: if the user was never invited to the room and no m.direct came for a room; for invites while no m.direct comes. A direct invite that is accepted is a direct chat only until the cache is made anew (C104_violated_join), an invite overrides m.direct then (C104_violated_restart), and m.direct in a room's account data replaces the global one (C104_violated_scope)."
  },
  {
   "property": "C105",
   "status": "partial",
   "theorems": [
    "Verif.PollLoop.C105_expires",
    "Verif.PollLoop.C105_ends",
    "Verif.PollLoop.C105_released_partial",
    "Verif.PollLoop.C105_violated_undone",
    "Verif.PollLoop.C105_violated_panic",
    "Verif.PollLoop.C105_terminated"
   ],
   "note": "Exactly when a token is given up, why a loop ends and when waiters are released. Violated by the code: failures to process an answer never add up, so such a poller goes on for ever with its waiters blocked; a panic skips the release."
  },
  {
   "property": "C106",
   "status": "partial",
   "theorems": [
    "Verif.LiveRooms.C106_update",
    "Verif.LiveRooms.C106_partial",
    "Verif.LiveRooms.C106_violated_earlier",
    "Verif.LiveRooms.C106_violated_passed",
    "Verif.LiveRooms.C106_violated_only",
    "Verif.LiveRooms.C106_violated_counts",
    "Verif.LiveRooms.C106_full"
   ],
   "note": "Proved for all histories but for four reasons why news of other rooms are sent, each a proved violation: the response already has operations for a list of the room; the room passed a window; the only room of a list was removed; its unread counts changed. What a request brings into view is assumed to be sent (C06, C63)."
  },
  {
   "property": "C107",
   "status": "partial",
   "theorems": [
    "Verif.Stamp.C107_partial",
    "Verif.Stamp.C107_join",
    "Verif.Stamp.C107_violated_first",
    "Verif.Stamp.C107_violated_joined",
    "Verif.Stamp.C107_violated_clock"
   ],
   "note": "Proved for timestamps that do not go back, a user who joined before the cache was made, and one live update per response if no types are requested. Outside this it is false: two events in one response, a join after the cache was made, and an event from before the join with a later timestamp."
  },
  {
   "property": "C108",
   "status": "partial",
   "theorems": [
    "Verif.TokenText.C108_roundtrip",
    "Verif.TokenText.C108_injective",
    "Verif.TokenText.C108_other_key",
    "Verif.TokenText.C108_hex",
    "Verif.TokenText.C108_exact",
    "Verif.TokenText.C108_violated_panic"
   ],
   "note": "Round trip and injectivity in full, and texts written with any key never panic. A text with no space or with a nonce of the wrong size makes decrypt panic (witness; C108_exact says exactly when)."
  },
  {
   "property": "C109",
   "status": "partial",
   "theorems": [
    "Verif.ClientMeta.C109_partial",
    "Verif.ClientMeta.C109_avatar_partial",
    "Verif.ClientMeta.C109_violated_avatar",
    "Verif.ClientMeta.C109_violated_left"
   ],
   "note": "Ids and display names for rooms that never lose their last hero while unnamed, avatars if they do not change, under the conditions of C78. Violated otherwise: a changed avatar of a member is not sent, and an empty list of heroes is left out of the response."
  },
  {
   "property": "C110",
   "status": "partial",
   "theorems": [
    "Verif.NumLive.C110_partial",
    "Verif.NumLive.C110_violated_again",
    "Verif.NumLive.C110_violated_queued"
   ],
   "note": "Partial because the code violates the claim in two cases, proved by witness: a room built again after a live event of the same response, and an event stored before the connection was made whose update comes later. C110_partial is the claim for every other history, for all timeline limits."
  },
  {
   "property": "C111",
   "status": "partial",
   "theorems": [
    "Verif.Serve.C111_crash",
    "Verif.Serve.C111_unknown_token",
    "Verif.Serve.C111_unknown_pos",
    "Verif.Serve.C111_server_error",
    "Verif.Serve.C111_client_error",
    "Verif.Serve.C111_ok",
    "Verif.Serve.C111_violated_crash"
   ],
   "note": "Exact characterisations of the replies. Partial because the code violates the first sentence: the header 'Bearer ' without a token makes the handler panic (C111_crash says this is the only case)."
  },
  {
   "property": "C112",
   "status": "partial",
   "theorems": [
    "Verif.Serve.C112_unknown",
    "Verif.Serve.C112_own",
    "Verif.Serve.C112_partial",
    "Verif.Serve.C112_violated_timeout",
    "Verif.Serve.C112_violated_pos"
   ],
   "note": "Partial because the code violates the claim: parameters that are not numbers are noticed only after the connection was replaced or its cancel function was. C112_partial is the claim for requests whose parameters are numbers."
  },
  {
   "property": "C113",
   "status": "proved",
   "theorems": [
    "Verif.SyncURL.C113_query",
    "Verif.SyncURL.C113_filter",
    "Verif.SyncURL.C113_injective"
   ],
   "note": "Round trip through an independent reader of queries. The JSON text of the filter is made by the model's marshal; reading JSON is not modelled."
  },
  {
   "property": "C114",
   "status": "partial",
   "theorems": [
    "Verif.EndToEnd.C114_end_to_end_partial",
    "Verif.EndToEnd.C114_up_to_date",
    "Verif.EndToEnd.C114_blocks_partial",
    "Verif.EndToEnd.C114_joined_later_partial",
    "Verif.EndToEnd.C114_joined_later_up_to_date",
    "Verif.EndToEnd.C114_violated_zero"
   ],
   "note": "One user, one connection at a time, an unbounded queue. C114_blocks_partial covers state blocks for the room and restarts, C114_joined_later_partial rooms joined after the connection was made; timeline limits of zero break the claim (C114_violated_zero). Not covered: leaving the room, ignored senders, the transaction id delay (C25, C99)."
  },
  {
   "property": "C115",
   "status": "partial",
   "theorems": [
    "Verif.EndToEnd.C115_tracker_partial",
    "Verif.EndToEnd.C115_violated_invite"
   ],
   "note": "Proved for the memberships join, leave and ban, and for users without member event. A user invited after a join (or with another membership) stays joined for the dispatcher until a restart: C115_violated_invite."
  },
  {
   "property": "C116",
   "status": "partial",
   "theorems": [
    "Verif.EndToEnd.C116_state_partial",
    "Verif.EndToEnd.C116_up_to_date",
    "Verif.EndToEnd.C116_blocks_partial",
    "Verif.EndToEnd.C116_blocks_up_to_date",
    "Verif.EndToEnd.C116_violated_block",
    "Verif.EndToEnd.C116_joined_later_partial",
    "Verif.EndToEnd.C116_joined_later_up_to_date"
   ],
   "note": "Under the conditions of C114; with state blocks for the room the claim holds but for the time until the message that closes the connection is taken (C116_violated_block), and fully once all messages are taken (C116_blocks_up_to_date). C116_joined_later_partial covers rooms joined after the connection was made, for clients that were given the room since the join (C116_needs_load)."
  },
  {
   "property": "C117",
   "status": "partial",
   "theorems": [
    "Verif.ToDeviceFlow.C117_partial",
    "Verif.ToDeviceFlow.C117_message_partial",
    "Verif.ToDeviceFlow.C117_caught_up",
    "Verif.ToDeviceFlow.C117_stored_once",
    "Verif.ToDeviceFlow.C117_conserved",
    "Verif.ToDeviceFlow.C117_violated_twice"
   ],
   "note": "Proved for messages other than key requests and their cancellations, which may be dropped (C35). 'Once' fails when the token is not written after the messages were stored (C117_violated_twice)."
  },
  {
   "property": "C118",
   "status": "partial",
   "theorems": [
    "Verif.ConnLists.C118_changed_partial",
    "Verif.ConnLists.C118_unchanged",
    "Verif.ConnLists.C118_violated_all",
    "Verif.ConnLists.C118_only"
   ],
   "note": "Proved for rooms within the ranges of the request. Violated for lists with slow_get_all_rooms, whose rooms are not in any range (C118_violated_all)."
  },
  {
   "property": "C119",
   "status": "partial",
   "theorems": [
    "Verif.DeviceListFlow.C119_partial",
    "Verif.DeviceListFlow.C119_caught_up_partial",
    "Verif.DeviceListFlow.C119_violated_changing",
    "Verif.DeviceListFlow.C119_violated_failing",
    "Verif.DeviceListFlow.C119_violated_late",
    "Verif.DeviceListFlow.C119_violated_unstored",
    "Verif.DeviceListFlow.C119_authentic"
   ],
   "note": "Proved for clients that repeat a request unchanged until they have the response and have the extension in the first request of a connection, when no request fails after reading the tables and token writes succeed. False without any one of these (C119_violated_*)."
  },
  {
   "property": "C120",
   "status": "partial",
   "theorems": [
    "Verif.AccountFlow.C120_partial",
    "Verif.AccountFlow.C120_delivered_partial",
    "Verif.AccountFlow.C120_authentic",
    "Verif.AccountFlow.C120_violated_load",
    "Verif.AccountFlow.C120_violated_late",
    "Verif.AccountFlow.C120_violated_read",
    "Verif.AccountFlow.C120_violated_panic",
    "Verif.AccountFlow.C120_violated_off",
    "Verif.AccountFlow.C120_violated_back"
   ],
   "note": "Proved for every execution in which the table can be read, no request panics and the extension is on in every request; each of these is needed (violated_load, _read, _panic, _late, _off). That the client has only delivered data is proved without restriction. The client can go back to an older value for a while (violated_back). Global account data only; C52's conditions for what reaches the table."
  },
  {
   "property": "C121",
   "status": "partial",
   "theorems": [
    "Verif.KeyFlow.C121_partial",
    "Verif.KeyFlow.C121_next_partial",
    "Verif.KeyFlow.C121_authentic",
    "Verif.KeyFlow.C121_violated_failing",
    "Verif.KeyFlow.C121_violated_late",
    "Verif.KeyFlow.C121_violated_zero"
   ],
   "note": "Proved for clients with the extension in the first request of a connection, when no later request fails after reading keys, with counts as in C37. False without any one of these (C121_violated_*). C121_authentic holds in all executions."
  },
  {
   "property": "C122",
   "status": "partial",
   "theorems": [
    "Verif.Ignoring.C122_never",
    "Verif.Ignoring.C122_only_partial"
   ],
   "note": "Safety holds in every execution. Completeness is for timeline limits of at least one and events taken in the order of their positions (C24 has the counterexamples), and not for AlwaysProcess events (see C135)."
  },
  {
   "property": "C123",
   "status": "partial",
   "theorems": [
    "Verif.UnreadFlow.C123_partial",
    "Verif.UnreadFlow.C123_authentic",
    "Verif.UnreadFlow.C123_violated_held",
    "Verif.UnreadFlow.C123_violated_join",
    "Verif.UnreadFlow.C123_violated_state",
    "Verif.UnreadFlow.C123_violated_failing"
   ],
   "note": "The code violates the full statement in four ways, each shown by an execution: an event released from being held back brings back the counts of its time; the join after an invite is skipped by a connection that has already loaded it; an invite ended by a state block; a failing request. Without these the client has the current counts (C123_partial). Nothing is made up in any execution (C123_authentic)."
  },
  {
   "property": "C124",
   "status": "partial",
   "theorems": [
    "Verif.ReceiptFlow.C124_partial",
    "Verif.ReceiptFlow.C124_violated_live",
    "Verif.ReceiptFlow.C124_violated_read",
    "Verif.ReceiptFlow.C124_violated_failing"
   ],
   "note": "The code violates the full statement: a room that is sent because of an update comes without receipts, a read error is passed over, and a failing request loses the receipts it took (one witness each). Without these the client is told every current receipt of its user (C124_partial)."
  },
  {
   "property": "C125",
   "status": "partial",
   "theorems": [
    "Verif.RoomAccountFlow.C125_partial",
    "Verif.RoomAccountFlow.C125_delivered_partial",
    "Verif.RoomAccountFlow.C125_authentic",
    "Verif.RoomAccountFlow.C125_violated_other",
    "Verif.RoomAccountFlow.C125_violated_tag",
    "Verif.RoomAccountFlow.C125_violated_before",
    "Verif.RoomAccountFlow.C125_violated_load",
    "Verif.RoomAccountFlow.C125_violated_read",
    "Verif.RoomAccountFlow.C125_violated_failing"
   ],
   "note": "Proved if the table can be read, later requests do not fail, and a room sent because of an update is sent because of an update of that room which is not account data, before account data of it in the same response. The code violates the rest: a room that enters the window because another one left gets no account data, a room that enters a list because of a tag gets the tag only, and failures are not made up for. Authenticity is proved without restriction."
  },
  {
   "property": "C126",
   "status": "proved",
   "theorems": [
    "Verif.ReceiptFlow.C126_private",
    "Verif.ReceiptFlow.C126_authentic"
   ],
   "note": "ReceiptFlow, ReceiptPrivacyProps, ReceiptPrivacyExamples. One user, one room and one connection at a time; receipts of all users. JSON encoding is not modelled (an EDU is its type and content)."
  },
  {
   "property": "C127",
   "status": "partial",
   "theorems": [
    "Verif.EndToEnd.C127_partial",
    "Verif.EndToEnd.C127_joined",
    "Verif.EndToEnd.C127_violated_missed",
    "Verif.EndToEnd.C127_violated_reload"
   ],
   "note": "Every event the client has of a room was stored while the last member event of the user was a join, or is a member event of the user, if no leave of the user was missed and the room's members are not read anew while events of the room stored before are still in messages. Both conditions are needed: C127_violated_missed, C127_violated_reload. C127_joined does without the first and says that no leave or ban was stored between the join and the event."
  },
  {
   "property": "C128",
   "status": "proved",
   "theorems": [
    "Verif.Executor.C128_atomic",
    "Verif.Executor.C128_serial",
    "Verif.Executor.C128_once",
    "Verif.Executor.C128_returned",
    "Verif.Executor.C128_returns",
    "Verif.Executor.C128_tracker"
   ],
   "note": "C128_atomic is a refinement: every interleaving is a run of the model of C114 in which storing and publishing is one step, so C114 to C116 and C127 hold for pollers that run side by side (C128_tracker is C115 for them). C128_serial and C128_once: serial order and results; C128_returns: a call ends after at most eight steps of the goroutine and the poller. Left out: Terminate, which closes the channel, and panics, which end the process."
  },
  {
   "property": "C129",
   "status": "partial",
   "theorems": [
    "Verif.Locks.C129_no_circle",
    "Verif.Locks.C129_finish_partial",
    "Verif.Locks.C129_wait",
    "Verif.Locks.C129_violated_pool",
    "Verif.Locks.C129_needs_one_listener"
   ],
   "note": "No circle of waiting goroutines for any run of the code with one listener, and everybody can finish if database connections are not limited or there are as many as goroutines. Violated with a limit on connections: a request holds one in the callback of SelectAllNonZeroCountsForUser while it waits for roomIDToMetadataMu, which GlobalCache.OnInvalidateRoom holds while it waits for a connection. What functions compute is not modelled, only the order of their lock operations; locks of libraries and of PostgreSQL are not modelled."
  },
  {
   "property": "C130",
   "status": "partial",
   "theorems": [
    "Verif.LiveRooms.C130_heard",
    "Verif.LiveRooms.C130_full_partial",
    "Verif.LiveRooms.C130_violated_subscription"
   ],
   "note": "That the room is in the response is proved in full. Full data for events that ask for it is proved for rooms of a list with a change; a room the client has only subscribed to is sent without it when the user comes back (C130_violated_subscription)."
  },
  {
   "property": "C131",
   "status": "partial",
   "theorems": [
    "Verif.MemberColumn.C131_fetch",
    "Verif.MemberColumn.C131_reset",
    "Verif.MemberColumn.C131_startup",
    "Verif.MemberColumn.C131_profile_change",
    "Verif.MemberColumn.C131_violated_mark"
   ],
   "note": "Proved for member events that name a user and whose membership is not itself written _join or _invite; for those the claim is false (C131_violated_mark), as the mark is not kept apart from what it marks."
  },
  {
   "property": "C132",
   "status": "partial",
   "theorems": [
    "Verif.Ownership.C132_not_written",
    "Verif.Ownership.C132_snapshot_partial",
    "Verif.Ownership.C132_spaces_partial",
    "Verif.Ownership.C132_violated_spaces"
   ],
   "note": "Proved for heroes, latest events, children of spaces and tags, for all executions. The set of spaces of a room is shared and written to without a lock (C132_violated_spaces); it changes only by a space event about the room."
  },
  {
   "property": "C133",
   "status": "partial",
   "theorems": [
    "Verif.Reencode.C133_up",
    "Verif.Reencode.C133_up_iff",
    "Verif.Reencode.C133_again",
    "Verif.Reencode.C133_down_cbor",
    "Verif.Reencode.C133_down_partial",
    "Verif.Reencode.C133_violated_down",
    "Verif.Reencode.C133_violated_down_fails"
   ],
   "note": "Upgrades and the downgrade from CBOR are proved in full. The downgrade from JSONB to bytes is proved for data without a backslash: the cast of text to BYTEA takes backslashes for escapes, so that data with an escaped character make it fail or are changed."
  },
  {
   "property": "C134",
   "status": "proved",
   "theorems": [
    "Verif.Wire.C134_round_trip",
    "Verif.Wire.C134_data",
    "Verif.Wire.C134_data_first",
    "Verif.Wire.C134_waits"
   ],
   "note": "The number of rooms of a list, positions and to-device tokens alone are not something to say, as the code has it. JSON itself is a data type; nil and empty slices and maps are not told apart."
  },
  {
   "property": "C135",
   "status": "partial",
   "theorems": [
    "Verif.Farewell.C135_count",
    "Verif.Farewell.C135_once_partial",
    "Verif.Farewell.C135_undisturbed",
    "Verif.Farewell.C135_stream_partial",
    "Verif.Farewell.C135_violated_kick",
    "Verif.Farewell.C135_violated_devices",
    "Verif.Farewell.C135_violated_race",
    "Verif.Farewell.C135_violated_ban"
   ],
   "note": "How often is computed exactly. Once holds for own leaves and rejections; a kicked user is told once more by each of their pollers, a rejection twice if the invite is handled late, and someone banned from an unknown room while invited is not told."
  },
  {
   "property": "C136",
   "status": "proved",
   "theorems": [
    "Verif.StartUp.C136_rooms",
    "Verif.StartUp.C136_isolated",
    "Verif.StartUp.C136_store",
    "Verif.StartUp.C136_heroes"
   ],
   "note": "For rooms without joined members the counts and heroes are left empty, as the statement of Describes says (C77_violated_restart). Histories are those C40 is proved for: event types without U+001F, no id twice in a state block."
  },
  {
   "property": "C137",
   "status": "partial",
   "theorems": [
    "Verif.FilterFlow.C137_copy_partial",
    "Verif.FilterFlow.C137_listed_partial",
    "Verif.FilterFlow.C137_loaded_partial",
    "Verif.FilterFlow.C137_violated_direct",
    "Verif.FilterFlow.C137_violated_held",
    "Verif.FilterFlow.C137_violated_ignored",
    "Verif.FilterFlow.C137_violated_upgrade"
   ],
   "note": "Proved for rooms that are neither left nor upgraded, if the last step that told of the room was in order, kept, and nothing changed after it without being told. False in the code: m.direct is not told; a message that waits for its transaction id brings back old tags; a change queued behind a room that is sent, followed by ignored messages, is skipped; an upgraded room stays listed when the new room is joined."
  },
  {
   "property": "C138",
   "status": "partial",
   "theorems": [
    "Verif.ListFlow.C138_once_partial",
    "Verif.ListFlow.C138_shown_partial",
    "Verif.ListFlow.C138_names_partial",
    "Verif.ListFlow.C138_violated_direct",
    "Verif.ListFlow.C138_violated_batch"
   ],
   "note": "Proved for all histories for rooms of which the connection has processed the last update (or which were loaded and did not change since), with responses that carry at most what C81 allows. Not so in the code: a change of m.direct is not told to the lists (C138_violated_direct), and two updates in one response can leave a hole at the client (C138_violated_batch)."
  },
  {
   "property": "C139",
   "status": "partial",
   "theorems": [
    "Verif.Upstream.C139_read",
    "Verif.Upstream.C139_handed",
    "Verif.Upstream.C139_refused",
    "Verif.Upstream.C139_nothing",
    "Verif.Upstream.C139_token_partial",
    "Verif.Upstream.C139_owner",
    "Verif.Upstream.C139_denied",
    "Verif.Upstream.C139_violated_position",
    "Verif.Upstream.C139_violated_poison",
    "Verif.Upstream.C139_violated_case",
    "Verif.Upstream.C139_violated_nobody",
    "Verif.Upstream.C139_violated_device"
   ],
   "note": "Proved for all conforming answers. Not so in the code for others: a 200 answer without next_batch erases the position, one ill-typed part makes the whole response unreadable until the token is given up, keys are matched without regard to case, and an answer of /whoami without a user or a device is taken to name empty ones."
  },
  {
   "property": "C140",
   "status": "partial",
   "theorems": [
    "Verif.Config.C140_incomplete",
    "Verif.Config.C140_options",
    "Verif.Config.C140_transport_partial",
    "Verif.Config.C140_pages_partial",
    "Verif.Config.C140_served",
    "Verif.Config.C140_chain",
    "Verif.Config.C140_cors",
    "Verif.Config.C140_violated_debug",
    "Verif.Config.C140_violated_socket"
   ],
   "note": "Partial: the code violates two clauses. All listeners without a handler of their own serve the default mux, so that the debug pages are also served at the address for metrics (C140_violated_debug); a certificate has no effect if the proxy listens on a socket (C140_violated_socket). strconv.Atoi is a parameter."
  },
  {
   "property": "C141",
   "status": "proved",
   "theorems": [
    "Verif.Retention.C141_kept",
    "Verif.Retention.C141_gone",
    "Verif.Retention.C141_restarts"
   ],
   "note": "The clock does not go back. C141_restarts shows that the condition of C141_gone is needed: the first cleaning is one interval after the start, so that a process that is always restarted within the hour removes nothing."
  },
  {
   "property": "C142",
   "status": "partial",
   "theorems": [
    "Verif.Races.C142_protected_partial",
    "Verif.Races.C142_writers_partial",
    "Verif.Races.C142_exact",
    "Verif.Races.C142_violated_spaces",
    "Verif.Races.C142_violated_last_pos",
    "Verif.Races.C142_violated_callback",
    "Verif.Races.C142_violated_buffer_full"
   ],
   "note": "Races are on exactly four kinds of variables (C142_exact): the spaces of a room, a map that OnSpaceUpdate writes while requests filter by it (Go ends the process when it notices); the last position of a connection, read by CreateConn; the callback of its latest request; and the flag that its buffer is full. Everything else is protected, in every interleaving. The first two have one writer at a time (C142_writers_partial). Functions are over-approximated by programs with arbitrary branches; that the four races happen is shown for these programs, with the paths given in the model."
  },
  {
   "property": "C143",
   "status": "partial",
   "theorems": [
    "Verif.LostUpdates.C143_orderly_partial",
    "Verif.LostUpdates.C143_calls_partial",
    "Verif.LostUpdates.C143_spaces",
    "Verif.LostUpdates.C143_violated_counts",
    "Verif.LostUpdates.C143_violated_space",
    "Verif.LostUpdates.C143_violated_join",
    "Verif.LostUpdates.C143_violated_tags"
   ],
   "note": "Proved when nobody is between loading and storing the same room: in particular once the cache is registered, as then only the listener changes it; and, in any interleaving, for the spaces of rooms that have an entry. While the first request of a user registers the cache, which others can find already, an update by the listener can be lost or can undo what is registered: unread counts, tags, spaces, join timings (violations)."
  },
  {
   "property": "C144",
   "status": "partial",
   "theorems": [
    "Verif.Repeat.C144_same_partial",
    "Verif.Repeat.C144_violated_failed",
    "Verif.Repeat.C144_violated_deleted",
    "Verif.Repeat.C144_violated_sort"
   ],
   "note": "Holds for requests in which no list is marked deleted or has an empty sort order; both exceptions change things when repeated. A request that panicked after its parameters were merged is silent when sent again. Extensions are not covered here."
  },
  {
   "property": "C145",
   "status": "partial",
   "theorems": [
    "Verif.Store.C145_current_partial",
    "Verif.Store.C145_before_partial",
    "Verif.Store.C145_events_partial",
    "Verif.Store.C145_served_partial",
    "Verif.Store.C145_violated_foreign",
    "Verif.Store.C145_violated_keyless"
   ],
   "note": "Holds if an event id belongs to one room and create events are state events. Two witnesses show what happens otherwise. The served state is that without a filter."
  },
  {
   "property": "C146",
   "status": "partial",
   "theorems": [
    "Verif.Supersede.C146_older",
    "Verif.Supersede.C146_prompt_partial",
    "Verif.Supersede.C146_closed_partial",
    "Verif.Supersede.C146_violated_two",
    "Verif.Supersede.C146_violated_three",
    "Verif.Supersede.C146_violated_late",
    "Verif.Supersede.C146_violated_closed",
    "Verif.Supersede.C146_violated_refused"
   ],
   "note": "Proved for every interleaving: a request is kept waiting only by requests that had not begun to be served when it came; if no other was about to be served, the newest request waits for no timeout; requests of an orderly client are told to stop when the connection is destroyed. The code violates the rest: a request that comes while another has the lock but has not stored its cancel function waits for its timeout, so does the last of three requests; Destroy cancels only the request that set its callback last, which may have been refused or not be the one that is served, and misses one that is between the look-up of the connection and its callback."
  },
  {
   "property": "C147",
   "status": "partial",
   "theorems": [
    "Verif.ManyConns.C147_messages_partial",
    "Verif.ManyConns.C147_alone",
    "Verif.ManyConns.C147_lists_partial",
    "Verif.ManyConns.C147_violated_messages",
    "Verif.ManyConns.C147_violated_lists",
    "Verif.ManyConns.C147_violated_keys"
   ],
   "note": "Proved for any number of connections: a message was received on one of them, or cancelled, or is still stored; the last change of a user's devices still waits or is what some connection was told last (responses of the e2ee extension are not lost here); a connection that alone has the extension misses no message. 'Each connection' is violated for messages, device lists and key counts."
  },
  {
   "property": "C148",
   "status": "proved",
   "theorems": [
    "Verif.Lifecycle.C148_usable",
    "Verif.Lifecycle.C148_no_leak",
    "Verif.Lifecycle.C148_once"
   ],
   "note": "Subscribe and Unsubscribe as they are, on top of the ConnMap model with late callbacks. Each step of the ConnMap and the subscriptions it makes or ends are one step, as both happen under its lock; the buffer that ends a subscription is a step of its own. Between the copy of the listeners that emit makes and the delivery a destroyed connection may still be handed one update, which is not modelled. User caches are taken never to be replaced."
  },
  {
   "property": "C149",
   "status": "partial",
   "theorems": [
    "Verif.LazyFlow.C149_known_partial",
    "Verif.LazyFlow.C149_current_partial",
    "Verif.LazyFlow.C149_real",
    "Verif.LazyFlow.C149_violated_stale",
    "Verif.LazyFlow.C149_violated_replaced",
    "Verif.LazyFlow.C149_violated_empty"
   ],
   "note": "Some member event is known if rooms are sent with a timeline whose senders are members and are not replaced; it is the current one if each room is sent once and then followed. Violated when a room is sent again (old profile), for clients that replace a room with initial: true (no member event), and for a room whose first timeline is empty. Loading state is taken to succeed and to give the state at the position (see C41); rooms have no space in their ids (see C26)."
  },
  {
   "property": "C150",
   "status": "partial",
   "theorems": [
    "Verif.IdleDevices.C150_spared",
    "Verif.IdleDevices.C150_ends",
    "Verif.IdleDevices.C150_stays_partial",
    "Verif.IdleDevices.C150_violated_raced",
    "Verif.IdleDevices.C150_violated_two",
    "Verif.IdleDevices.C150_found"
   ],
   "note": "A device used within the idle period less a day before the query is spared by the run; ending a poller affects no other device's; a device with one token stays expired until its next request. Violated for a request between the query and the end of the poller, and for a device with a second token, for which a poller is started again. Writes do not fail."
  },
  {
   "property": "C151",
   "status": "partial",
   "theorems": [
    "Verif.Handover.C151_covered_partial",
    "Verif.Handover.C151_stored",
    "Verif.Handover.C151_alone",
    "Verif.Handover.C151_lost",
    "Verif.Handover.C151_violated",
    "Verif.Handover.C151_violated_race",
    "Verif.Handover.C151_violated_stored"
   ],
   "note": "False as stated: a poller started beside another one skips the rooms up to its first token; if the other poller ends (or is slower), the events in between are missing without a mark, for good. Proved when what is skipped is already stored as the token is taken, which includes users whose devices do not overlap and devices known at startup. The homeserver's answers are an assumption (contiguous, limited if cut)."
  },
  {
   "property": "C152",
   "status": "partial",
   "theorems": [
    "Verif.RowLocks.C152_pair",
    "Verif.RowLocks.C152_no_circle_partial",
    "Verif.RowLocks.C152_progress_partial",
    "Verif.RowLocks.C152_violated"
   ],
   "note": "False as stated: Upsert locks device list rows before the row of the device, Select the other way round. Proved: every circle has an Upsert and a swapping Select of one device waiting for each other; there is none if no user's list changes again while a request is fetching the change before. Row locks are modelled as held until the end of the transaction; index locks and PostgreSQL's deadlock detection are not modelled."
  },
  {
   "property": "C153",
   "status": "partial",
   "theorems": [
    "Verif.FreshStore.C153_kept_partial",
    "Verif.FreshStore.C153_from_start_partial",
    "Verif.FreshStore.C153_violated_shared",
    "Verif.FreshStore.C153_violated_lost"
   ],
   "note": "False as stated: the devices seen since the start are remembered by device id without the user, and when a response is made, not when it is received. Proved for device ids that are not shared and when no response to a client with an old position is lost."
  },
  {
   "property": "C154",
   "status": "partial",
   "theorems": [
    "Verif.IdleConns.C154_kept",
    "Verif.IdleConns.C154_idle",
    "Verif.IdleConns.C154_created",
    "Verif.IdleConns.C154_refines",
    "Verif.IdleConns.C154_asks_partial",
    "Verif.IdleConns.C154_violated",
    "Verif.IdleConns.C154_violated_running"
   ],
   "note": "Kept while used, gone when idle, for all interleavings. Violated for a client whose request waits longer than the lifetime: the timeout of a request has no limit and the look-up at its start is the only use (C154_violated, C154_violated_running); C154_asks_partial bounds the wait. The TTL cache itself is a library outside /repo; what is assumed of it is stated in IdleConns.lean."
  },
  {
   "property": "C155",
   "status": "proved",
   "theorems": [
    "Verif.ManyRooms.C155_alone",
    "Verif.Store.run_rooms"
   ],
   "note": "Equality of the joint query with the query for one room (which C41 relates to the history), for all reachable databases, rooms and orders, whatever upstream sent: run_rooms shows that snapshots hold rows of their own room only and that the rooms table and the rows of a room name snapshots of it, without the conditions on upstream data of C40. The unfiltered query reads room by room and is that of Store."
  },
  {
   "property": "C156",
   "status": "partial",
   "theorems": [
    "Verif.SpamDelay.C156_hasty",
    "Verif.SpamDelay.C156_patient_partial",
    "Verif.SpamDelay.C156_bound",
    "Verif.SpamDelay.C156_violated"
   ],
   "note": "Who is delayed is characterised by the history of requests alone. The second half is violated: the sleep is made with the lock of the ConnMap held, so requests of one user can hold up all others for any time (C156_violated); nobody waits if no client is hasty (C156_patient_partial), and at most the interval per connection made (C156_bound). Only sleeping takes time in the model."
  },
  {
   "property": "C157",
   "status": "proved",
   "theorems": [
    "Verif.RoomIsolation.C157_isolated",
    "Verif.RoomIsolation.C157_own",
    "Verif.Store.run_rooms",
    "Verif.RoomIsolation.C157_stored"
   ],
   "note": "For all runs, without conditions on what upstream sends. Each Initialise or Accumulate is one atomic step, as its transaction makes it for a single writer; two pollers' transactions interleaving are the subject of other properties. The rooms' other data (receipts, account data, typing) is not in this model."
  },
  {
   "property": "C158",
   "status": "partial",
   "theorems": [
    "Verif.PollRequest.C158_exact",
    "Verif.PollRequest.C158_answered_partial",
    "Verif.PollRequest.C158_violated",
    "Verif.PollRequest.C158_blocked",
    "Verif.PollRequest.C158_recovers"
   ],
   "note": "Exactly when a poller is started and with what token and position, for all histories. Partial because the last sentence is violated: if the token is deleted between identification and the look-up, the poller side returns without an answer (C158_violated), and then all callers for the device wait and the pollers are not asked again (C158_blocked, over the EnsurePoller model of C30). Database errors and the decryption itself are not modelled (C108 has the text of tokens)."
  }
 ]
}