import Verif.Util
/-!
`circularSlice` (state/storage.go 1203-1225), the buffer that keeps the most recent room members as
heroes. -/
namespace Verif.Circular

/-- state/storage.go 1205-1209. -/
structure Buf (α : Type) where
  i : Nat := 0
  vals : List α := []
  max : Nat
deriving DecidableEq, Repr

/-- state/storage.go 1211-1225 `append`; `none` is the index-out-of-range panic of `s.vals[s.i] = val`. -/
def Buf.append {α} (s : Buf α) (val : α) : Option (Buf α) :=
  if s.vals.length < s.max then
    some { s with vals := s.vals ++ [val], i := s.i + 1 }
  else
    let i := if s.i = s.max then 0 else s.i
    if i < s.vals.length then some { s with vals := s.vals.set i val, i := i + 1 }
    else none

/-- Appending a whole sequence to a fresh `circularSlice{max: max}`. -/
def run {α} (max : Nat) (xs : List α) : Option (Buf α) :=
  xs.foldl (fun s x => s.bind (·.append x)) (some { max := max })

end Verif.Circular
