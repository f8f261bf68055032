import Verif.Util
import Verif.Ranges
import Verif.RangesLemmas
import Verif.RangesSweep
import Verif.RangesDelta
import Verif.RangesProps
import Verif.ListOps
import Verif.ListOpsSpec
import Verif.ListOpsLemmas
import Verif.ListOpsClient
import Verif.ListOpsRun
import Verif.ListOpsProps
import Verif.Conn
import Verif.ConnProps
import Verif.ConnFlow
import Verif.ConnFlowProps
import Verif.ConnMap
import Verif.ConnMapProps
import Verif.Lifecycle
import Verif.LifecycleProps
import Verif.Tracker
import Verif.TrackerProps
import Verif.Dispatcher
import Verif.DispatcherProps
import Verif.SortableRooms
import Verif.SortableRoomsProps
import Verif.Filters
import Verif.FiltersProps
import Verif.Lists
import Verif.ListsProps
import Verif.Request
import Verif.RequestProps
import Verif.LazyMember
import Verif.LazyMemberProps
import Verif.LazyFlow
import Verif.LazyFlowProps
import Verif.TxnWaiter
import Verif.TxnWaiterProps
import Verif.RoomsBuilder
import Verif.RoomsBuilderProps
import Verif.EnsurePoller
import Verif.EnsurePollerProps
import Verif.ConnLoad
import Verif.ConnLoadProps
import Verif.ConnLists
import Verif.ConnListsProps
import Verif.Extensions
import Verif.ExtensionsProps
import Verif.ToDevice
import Verif.ToDeviceProps
import Verif.E2EE
import Verif.E2EEProps
import Verif.KeyFlow
import Verif.KeyFlowProps
import Verif.KeyFlowExamples
import Verif.Store
import Verif.StoreLemmas
import Verif.StoreInv
import Verif.StoreSpec
import Verif.StoreSim
import Verif.StoreProps
import Verif.StoreHist
import Verif.StoreState
import Verif.Visibility
import Verif.VisibilityProps
import Verif.Circular
import Verif.CircularProps
import Verif.SqlUtil
import Verif.SqlUtilProps
import Verif.AccountData
import Verif.AccountDataProps
import Verif.StoreClean
import Verif.Receipts
import Verif.ReceiptsProps
import Verif.PendingTxn
import Verif.PendingTxnProps
import Verif.ReceiptsStore
import Verif.Poller
import Verif.PollerProps
import Verif.PollerMap
import Verif.PollerMapProps
import Verif.Assoc
import Verif.Unread
import Verif.UnreadProps
import Verif.DedupAccount
import Verif.DedupAccountProps
import Verif.Typing
import Verif.TypingProps
import Verif.Ticker
import Verif.TickerProps
import Verif.RoomName
import Verif.RoomNameProps
import Verif.Invites
import Verif.InvitesProps
import Verif.Spaces
import Verif.SpacesProps
import Verif.RoomsTable
import Verif.RoomsTableProps
import Verif.Tokens
import Verif.TokensProps
import Verif.IdleDevices
import Verif.IdleDevicesProps
import Verif.Handover
import Verif.HandoverProps
import Verif.RowLocks
import Verif.RowLocksProps
import Verif.FreshStore
import Verif.FreshStoreProps
import Verif.IdleConns
import Verif.IdleConnsProps
import Verif.StoreRoom
import Verif.ManyRooms
import Verif.ManyRoomsProps
import Verif.RoomIsolationProps
import Verif.PollRequest
import Verif.PollRequestProps
import Verif.SpamDelay
import Verif.SpamDelayProps
import Verif.SideTables
import Verif.SideTablesProps
import Verif.Metadata
import Verif.MetadataProps
import Verif.Heroes
import Verif.HeroesProps
import Verif.ClientMeta
import Verif.ClientMetaProps
import Verif.StoreGap
import Verif.Redact
import Verif.RedactProps
import Verif.Txns
import Verif.TxnsProps
import Verif.StartPollers
import Verif.StartPollersProps
import Verif.ListSync
import Verif.ListSyncProps
import Verif.ListSyncExamples
import Verif.LiveLoop
import Verif.LiveLoopProps
import Verif.Leaving
import Verif.LeavingProps
import Verif.LeavingExamples
import Verif.SharedHeroes
import Verif.SharedHeroesProps
import Verif.InitialRoom
import Verif.InitialRoomProps
import Verif.InitialRoomExamples
import Verif.TypingExt
import Verif.TypingExtProps
import Verif.PubSub
import Verif.PubSubProps
import Verif.WorkerPool
import Verif.WorkerPoolProps
import Verif.PrevBatch
import Verif.PrevBatchProps
import Verif.Migrations
import Verif.MigrationsProps
import Verif.SharedReq
import Verif.SharedReqProps
import Verif.Auth
import Verif.AuthProps
import Verif.PollStart
import Verif.PollStartProps
import Verif.UserCaches
import Verif.UserCachesProps
import Verif.InviteFlow
import Verif.InviteFlowProps
import Verif.FirstLoad
import Verif.FirstLoadProps
import Verif.UserSpaces
import Verif.UserSpacesProps
import Verif.OwnTimeline
import Verif.OwnTimelineProps
import Verif.Recency
import Verif.RecencyProps
import Verif.StartPos
import Verif.StartPosProps
import Verif.RoomState
import Verif.RoomStateProps
import Verif.InviteData
import Verif.InviteDataProps
import Verif.UserFlags
import Verif.UserFlagsProps
import Verif.PollLoop
import Verif.PollLoopProps
import Verif.LiveRooms
import Verif.LiveRoomsProps
import Verif.LiveRoomsHeard
import Verif.Stamp
import Verif.StampProps
import Verif.TokenText
import Verif.TokenTextProps
import Verif.ClientHeroes
import Verif.NumLive
import Verif.NumLiveProps
import Verif.Serve
import Verif.ServeProps
import Verif.SyncURL
import Verif.SyncURLProps
import Verif.SyncURLExamples
import Verif.EndToEnd
import Verif.EndToEndBus
import Verif.EndToEndConn
import Verif.EndToEndProps
import Verif.EndToEndMembers
import Verif.EndToEndMembersExamples
import Verif.EndToEndState
import Verif.EndToEndStateExamples
import Verif.EndToEndFirst
import Verif.EndToEndBlocks
import Verif.EndToEndExamples
import Verif.EndToEndBlocksExamples
import Verif.EndToEndJoined
import Verif.EndToEndJoinedState
import Verif.EndToEndJoinedExamples
import Verif.EndToEndPrivacy
import Verif.EndToEndPrivacyProps
import Verif.EndToEndPrivacyExamples
import Verif.Executor
import Verif.ExecutorProps
import Verif.ExecutorExamples
import Verif.PollerState
import Verif.ToDeviceFlow
import Verif.ToDeviceFlowProps
import Verif.ToDeviceFlowExamples
import Verif.ConnListsChangeProps
import Verif.DeviceListFlow
import Verif.DeviceListFlowProps
import Verif.DeviceListFlowExamples
import Verif.AccountFlow
import Verif.AccountFlowProps
import Verif.AccountFlowExamples
import Verif.Ignoring
import Verif.IgnoringProps
import Verif.UnreadFlow
import Verif.UnreadFlowProps
import Verif.UnreadFlowExamples
import Verif.ReceiptFlow
import Verif.ReceiptFlowProps
import Verif.ReceiptFlowExamples
import Verif.RoomAccountFlow
import Verif.RoomAccountFlowProps
import Verif.RoomAccountFlowExamples
import Verif.ReceiptPrivacyProps
import Verif.ReceiptPrivacyExamples
import Verif.DeviceListAuthProps
import Verif.Locks
import Verif.LocksProps
import Verif.LocksExamples
import Verif.MemberColumn
import Verif.MemberColumnProps
import Verif.Ownership
import Verif.OwnershipProps
import Verif.Reencode
import Verif.ReencodeProps
import Verif.Wire
import Verif.WireProps
import Verif.Farewell
import Verif.FarewellProps
import Verif.StartUp
import Verif.StartUpProps
import Verif.StartUpStore
import Verif.FilterFlow
import Verif.FilterFlowProps
import Verif.FilterFlowExamples
import Verif.ListFlow
import Verif.ListFlowProps
import Verif.ListFlowExamples
import Verif.Upstream
import Verif.UpstreamProps
import Verif.UpstreamExamples
import Verif.Config
import Verif.ConfigProps
import Verif.Retention
import Verif.RetentionProps
import Verif.Races
import Verif.RacesProps
import Verif.LostUpdates
import Verif.LostUpdatesProps
import Verif.Repeat
import Verif.RepeatProps
import Verif.StoreCreateProps
import Verif.Supersede
import Verif.SupersedeProps
import Verif.ManyConns
import Verif.ManyConnsProps
