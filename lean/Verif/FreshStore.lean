import Verif.ToDevice
/-!
# To-device messages when the database is started afresh

Positions of to-device messages come from a sequence in the database, and a client acknowledges messages by sending back a position. If the
database is dropped, positions start again from 1 while clients still hold the old ones. Therefore the first `since` of a device after the
start of the process is ignored (`sync3/extensions/todevice.go:74-92`); which devices were seen is kept in a map by device id
(`sync3/extensions/todevice.go:15-20`). Modelled are all devices of all users, each with its inbox and its client as in `ToDevice`; only what
that module calls `known` is taken from the map. An admin who drops the database has to restart the process, which makes the tables
(`state/to_device_table.go:44-69`).
-/
namespace Verif.FreshStore
open Verif.ToDevice

/-- User and device id. -/
abbrev Dev := String × String

structure W where
  /-- the inbox of a device, with its client and what has happened to the messages since the database was made -/
  sys : Dev → Sys := fun _ => {}
  /-- the keys of `deviceIDToSinceDebugOnly` -/
  known : List String := []

inductive Act
  /-- messages arrive for a device; `skip` positions went to others -/
  | insert (d : Dev) (skip : Nat) (msgs : List Msg)
  /-- a request of a device, with the last position its client received; the response may be lost -/
  | poll (d : Dev) (limit : Nat) (received : Bool)
  /-- the client starts again without a position -/
  | forget (d : Dev)
  /-- the process starts again -/
  | restart
  /-- the database is dropped, and the process starts again -/
  | drop

/-- Changes what is kept for one device. -/
def W.put (w : W) (d : Dev) (s : Sys) : W := { w with sys := fun e => if e = d then s else w.sys e }

/-- `ProcessInitial`, `sync3/extensions/todevice.go:63-139`: whether the device was seen before is looked up by its id alone
(lines 68-72, 131-133). (`acked` is not part of the code: a position that is ignored acknowledges nothing.) -/
def poll (w : W) (d : Dev) (limit : Nat) (received : Bool) : W :=
  let s := w.sys d
  let s := { s with srv := { s.srv with known := w.known.contains d.2 } }
  let t := sysStep s (.poll limit received)
  { w.put d { t with acked := if w.known.contains d.2 then t.acked else s.acked } with known := d.2 :: w.known }

/-- One step. -/
def step (w : W) : Act → W
  | .insert d k ms => w.put d (sysStep (w.sys d) (.insert k ms))
  | .poll d l r => poll w d l r
  | .forget d => w.put d (sysStep (w.sys d) .forget)
  | .restart => { w with known := [] }
  | .drop => { sys := fun d => { cursor := (w.sys d).cursor }, known := [] }

def run (acts : List Act) : W := acts.foldl step {}

end Verif.FreshStore
