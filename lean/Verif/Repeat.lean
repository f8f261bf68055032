import Verif.Request
import Verif.ConnLists
/-!
# Model of what a request asks a connection for

`onIncomingRequest` up to the rooms (`sync3/handler/connstate.go:194-226`): `ApplyDelta`, then `buildRoomSubscriptions` and
`buildListSubscriptions`, from `Request` and `ConnLists`. The rooms of the lists, before and after re-creating and sorting them, are
inputs, as in `ConnLists`. Not modelled here: extensions (C32), live updates, and the data of rooms.
-/
namespace Verif.Repeat
open Verif.Request Verif.ConnLists

/-- What the connection is asked for by a request. -/
structure Asked where
  /-- rooms whose subscription is new or changed, `delta.Subs` -/
  subs : String → Bool
  /-- rooms that are no longer subscribed to, `delta.Unsubs` -/
  unsubs : List String
  /-- lists that are removed -/
  gone : String → Bool
  /-- operations and rooms of the lists that are there; the inner `none` is a panic -/
  lists : String → Option (Option Result)

/-- `sync3/handler/connstate.go:194-222,426-441`. `isNew` says which lists `AssignList` creates, `cur` and `re` are the rooms of a list before
and after it is re-created and sorted. -/
def handle (joined : String → Bool) (isNew : String → Bool) (cur re : String → List String) (m next : Req) : Req × Asked :=
  let p := applyDelta m next
  (p.1,
   { subs := p.2.subs
     unsubs := p.2.unsubs
     gone := fun k => (m.lists k).isSome && (p.1.lists k).isNone
     lists := fun k => (p.1.lists k).map fun l => onListRequest joined (isNew k) (cur k) (re k) (m.lists k) l })

end Verif.Repeat
