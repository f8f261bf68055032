import Verif.FilterFlow
import Verif.ListSync
/-!
# Model of one list of a client, from the caches to what the client shows

Composes `FilterFlow` (how changes of rooms reach the lists of a connection) with `ListSync` (the operations of a list and their
replay by the client): one user, one connection, one list `key` of its requests, any number of rooms and of other lists.
A request is answered in steps: the lists are set up (`sync3/handler/connstate.go:214`), updates are processed
(`sync3/handler/connstate_live.go:48-131`), the count is added and the response is sent (`connstate.go:254-259`).

Simplified: as in `FilterFlow` and `ListSync`.  The client gets every response; retries are the subject of C15.
-/
namespace Verif.ListFlow
open Verif Verif.Request

structure W where
  st : FilterFlow.St := {}
  /-- the list of the merged request -/
  cur : Option RList := none
  /-- the operations of the response that is being made, if there is one -/
  out : Option (List ListSync.COp) := none
  /-- the client's rooms by index, and the count it was told last -/
  m : ListOps.CMap String := []
  count : Nat := 0

inductive Op
  | flow (o : FilterFlow.Op)
  /-- a request is taken; `next` is the list of the merged request -/
  | request (next : Option RList) (joined : String → Bool) (p1 p2 : List String → List String)
  /-- its response is sent, and read by the client -/
  | respond

variable (S : Lists.Strs) (key : String)

/-- What `resort` reads of the requested lists, `connstate_live.go:176-187`. -/
def reqs (cur : Option RList) (others : String → Lists.Req) (k : String) : Lists.Req :=
  if k = key then (cur.map ListSync.reqOf).getD (others k) else others k

def withReq (cur : Option RList) : FilterFlow.Op → FilterFlow.Op
  | .process req x visible => .process (reqs key cur req) x visible
  | o => o

/-- Steps that are made only while a request is answered. -/
def serving : FilterFlow.Op → Bool
  | .process _ _ _ => true
  | .list _ => true
  | _ => false

/-- The operations of the list that a step adds to the response, `connstate_live.go:176-187,383-420`; `all` are the rooms afterwards. -/
def added (cur : Option RList) (s : FilterFlow.St) (all : String → Option Lists.Room) : FilterFlow.Op → List (ListOps.Op String)
  | .process req x _ =>
    if !s.loaded then [] else
    match s.queue with
    | [] => []
    | e :: _ =>
      if FilterFlow.skipped s e then []
      else
        match Lists.getList s.lists key with
        | none => []
        | some l => ListSync.opsOf S key all (reqs key cur req key) l (Lists.mergeRoom s.lists (FilterFlow.room e.room e.f x))
  | _ => []

/-- `Count`, `sync3/lists.go:256-258`. -/
def size (l : Lists.State) : Nat := ((Lists.getList l key).map fun x => x.sr.ids.length).getD 0

/-- `none` is a panic of the server, or the client throws. -/
def step (w : W) : Op → Option W
  | .flow o =>
    if serving o && w.out.isNone then some w
    else (FilterFlow.step S w.st (withReq key w.cur o)).map fun s =>
      { w with st := s, out := w.out.map (· ++ (added S key w.cur w.st s.lists.all o).map .single) }
  | .request next joined p1 p2 =>
    -- requests are answered one at a time, `sync3/conn.go:137-141`
    if w.out.isSome then some w
    else (ListSync.listSub S key w.st.lists w.cur ⟨next, joined, p1, p2, []⟩).map fun x =>
      { w with st := { w.st with lists := x.1 }, cur := next, out := some (x.2.map .range) }
  | .respond =>
    match w.out with
    | none => some w
    | some ops => (ListSync.receive w.m w.cur ops).map fun m => { w with out := none, m := m, count := size key w.st.lists }

def run (w : W) : List Op → Option W
  | [] => some w
  | o :: os => (step S key w o).bind fun w' => run w' os

end Verif.ListFlow
