import Verif.Assoc
import Verif.AccountData
/-!
sync2/handler2/handler.go 487-525 `OnAccountData`: duplicate suppression in front of the account data table
(`Verif.AccountData`). The hash function (632-636, FNV-1a) is a parameter. Calls are serialised by the executor of the
poller map (sync2/poller.go 313-330), so a call is one step.
-/
namespace Verif.DedupAccount
open Verif

/-- `fmt.Sprintf("%s|%s|%s", userID, roomID, evType)`. -/
def key (user room type : String) : String := user ++ "|" ++ room ++ "|" ++ type

/-- sync2/handler2/handler.go 491-505: the loop, for one event (type and whole JSON); the map and the events kept. -/
def keep (hash : String → Nat) (user room : String) (acc : List (String × Nat) × List (String × String))
    (e : String × String) : List (String × Nat) × List (String × String) :=
  if Assoc.get acc.1 (key user room e.1) = some (hash e.2) then acc
  else (Assoc.set acc.1 (key user room e.1) (hash e.2), acc.2 ++ [e])

structure State where
  mem : List (String × Nat) := []
  db : List AccountData.Row := []
deriving DecidableEq, Repr

inductive Op
  /-- a delivery; `fails` tells if the database fails when called -/
  | deliver (user room : String) (events : List (String × String)) (fails : Bool)
  | restart
deriving DecidableEq, Repr

/-- One call, with its result: `true` is success. -/
inductive Step (hash : String → Nat) (s : State) : Op → State → Bool → Prop
  /-- sync2/handler2/handler.go 506-508 -/
  | nothing {user room : String} {events : List (String × String)} {fails : Bool} :
      (events.foldl (keep hash user room) (s.mem, [])).2 = [] →
      Step hash s (.deliver user room events fails)
        { s with mem := (events.foldl (keep hash user room) (s.mem, [])).1 } true
  /-- sync2/handler2/handler.go 510-515: an error; the transaction is rolled back -/
  | failed {user room : String} {events : List (String × String)} :
      (events.foldl (keep hash user room) (s.mem, [])).2 ≠ [] →
      Step hash s (.deliver user room events true)
        { s with mem := (events.foldl (keep hash user room) (s.mem, [])).1 } false
  | stored {user room : String} {events : List (String × String)} {db' out : List AccountData.Row} :
      (events.foldl (keep hash user room) (s.mem, [])).2 ≠ [] →
      AccountData.InsertAccountData s.db user room (events.foldl (keep hash user room) (s.mem, [])).2 (some (db', out)) →
      Step hash s (.deliver user room events false)
        { mem := (events.foldl (keep hash user room) (s.mem, [])).1, db := db' } true
  | restart : Step hash s .restart { s with mem := [] } true

/-- Histories, with the results of the calls. -/
inductive Run (hash : String → Nat) : List (Op × Bool) → State → Prop
  | nil : Run hash [] {}
  | snoc {tr : List (Op × Bool)} {s s' : State} {op : Op} {ok : Bool} : Run hash tr s → Step hash s op s' ok →
      Run hash (tr ++ [(op, ok)]) s'

end Verif.DedupAccount
