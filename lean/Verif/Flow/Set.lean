import Verif.Decomp.Model
import Verif.Sort.Model

/-!
Sets of files (`/repo/src/Flow/Set.cc`, `/repo/src/Flow/Cache.cc`): adding files, the trace numbers of a sort, the
names of the files written.
-/

namespace Verif.Flow

open Verif.Decomp

/-- What a set asks a file for: samples per trace, sample interval, number of traces. The interval is a finite
double, given here by its value in some ordered type of codes: only equality and order of intervals matter.
Used in `Set.cc` 65-85. -/
structure FileIn where
  ns : Nat
  inc : Int
  nt : Nat
deriving DecidableEq, Inhabited

/-- The key of `fmap` and `offmap`, `Set.cc` 78-79. -/
abbrev Key := Nat × Int

/-- The key of a file, `Set.cc` 78-79. -/
def FileIn.key (f : FileIn) : Key := (f.ns, f.inc)

/-- `FileDesc` on one process, `include/ExSeisDat/Flow/FileDesc.hh` 19-28. -/
structure Desc where
  file : FileIn
  ilst : List Nat
  olst : List Nat
deriving DecidableEq, Inhabited

/-- One entry of `fmap` together with the one of `offmap` for the same key. `Set.hh` 54-57. -/
structure Group where
  key : Key
  off : Nat
  descs : List Desc
deriving DecidableEq, Inhabited

/-- `std::iota` over `n` elements of type `size_t`. Used in `Set.cc` 76 and 83. -/
def iota (n start : Nat) : List Nat := (List.range n).map fun i => add64 start i

/-- The order of the keys of `fmap`: pairs compare by the first component, then by the second. `Set.hh` 54. -/
def keyLt (a b : Key) : Bool := decide (a.1 < b.1) || (decide (a.1 = b.1) && decide (a.2 < b.2))

/-- `fmap[key].emplace_back(f)` and the use of `offmap[key]`, `Set.cc` 78-84: the group of the key, made if there is
none, kept in key order as `std::map` does; `mk off` is the new descriptor and `nt` its number of traces. -/
def addTo (key : Key) (mk : Nat → Desc) (nt : Nat) : List Group → List Group
  | [] => [⟨key, add64 0 nt, [mk 0]⟩]
  | g :: gs =>
    if g.key = key then ⟨key, add64 g.off nt, g.descs ++ [mk g.off]⟩ :: gs
    else if keyLt key g.key then ⟨key, add64 0 nt, [mk 0]⟩ :: g :: gs
    else g :: addTo key mk nt gs

/-- `Set::add(std::unique_ptr<ReadInterface>)` on process `r` of `P`, `Set.cc` 65-85. -/
def add (P r : Nat) (gs : List Group) (f : FileIn) : Res (List Group) := do
  let dec ← blockDecomposition f.nt P r
  .ok (addTo f.key
    (fun off => ⟨f, iota dec.localSize dec.globalOffset, iota dec.localSize (add64 off dec.globalOffset)⟩) f.nt gs)

/-- Adding files one after the other, as `Set::add(std::string)` does for the names that match, `Set.cc` 87-109. -/
def addAll (P r : Nat) : List Group → List FileIn → Res (List Group)
  | gs, [] => .ok gs
  | gs, f :: fs => do
    let gs ← add P r gs f
    addAll P r gs fs

/-- The descriptors that `fmap` has for a key. `fmap[key]` of `Set.cc` 80, `Set.hh` 54; used in statements. -/
def descsOf (k : Key) (gs : List Group) : List Desc :=
  match gs.find? (fun g => g.key = k) with
  | some g => g.descs
  | none => []

/-- `std::to_string` of an unsigned number. Used in `Set.cc` 191. -/
def decimal (n : Nat) : List Char := (Nat.repr n).toList

/-- The name of the file that `startSingle` writes for a group, `Set.cc` 186-191; `num` is `std::to_string` on the
sample interval, which prints six decimals. -/
def groupName (outfix : List Char) (num : Int → List Char) (g : Group) : List Char :=
  if g.descs.length = 1 then outfix ++ ".segy".toList
  else outfix ++ decimal g.key.1 ++ ['_'] ++ num g.key.2 ++ ".segy".toList

/-- The names that `startSingle` writes to and returns, `Set.cc` 174-192, 267: none at all as soon as a group is
empty. (With a group that is empty the files of the groups before it have been written.) -/
def singleNames (outfix : List Char) (num : Int → List Char) (gs : List Group) : List (List Char) :=
  if gs.any (fun g => g.descs.isEmpty) then [] else gs.map (groupName outfix num)

/-! The numbers given to traces before a sort. -/

/-- The global trace numbers that `getCache` gives the traces of one process, `Cache.cc` 36-53, file by file:
`off` is the number of traces on the processes before, `loff` the number of this process's traces before the file. -/
def gtns (off : Nat) : Nat → List (List Nat) → List (List Nat)
  | _, [] => []
  | loff, ilst :: rest => ilst.map (fun i => add64 (add64 off loff) i) :: gtns off (loff + ilst.length) rest

/-- The local trace numbers of `getCache`, `Cache.cc` 48-50: `n` files, this one the `c`-th. -/
def ltns (n : Nat) : Nat → List (List Nat) → List (List Nat)
  | _, [] => []
  | c, ilst :: rest => ilst.map (fun i => add64 (mul64 i n) c) :: ltns n (c + 1) rest

/-- The lists `ilst` of the files of one group on process `r`: its shares, `Set.cc` 71-76. -/
def shares (P r : Nat) (nts : List Nat) : Res (List (List Nat)) :=
  match nts with
  | [] => .ok []
  | nt :: rest => do
    let dec ← blockDecomposition nt P r
    let l ← shares P r rest
    .ok (iota dec.localSize dec.globalOffset :: l)

/-- The global trace numbers on all processes, in rank order; `before` is the number of traces on the processes
before (`comm->offset(lnt)`, `Cache.cc` 36). -/
def allGtns : Nat → List (List (List Nat)) → List (List Nat)
  | _, [] => []
  | before, l :: rest => (gtns before 0 l).flatten :: allGtns (before + l.flatten.length) rest

/-- The function that `Set::sort` queues, on all processes together, `Set.cc` 590-603: if a process has fewer than three
traces (`comm->min`, 593) every process returns an empty list. `srt` is `PIOL::sort`, no result if it does not end. -/
def setSort {α : Type} (srt : List (List α) → Option (List (List Nat))) (parts : List (List α)) :
    Option (List (List Nat)) :=
  if parts.any (fun p => p.length < 3) then some (parts.map fun _ => []) else srt parts

/-- `calcFuncS` hands the list that the sort returned to the files of the process, one after the other,
`Set.cc` 422-426: `n` numbers are copied to a file with `n` traces, whether the list has them or not. -/
def deal : List Nat → List Nat → Res (List (List Nat))
  | [], _ => .ok []
  | n :: ns, l =>
    if l.length < n then .ub
    else do
      let rest ← deal ns (l.drop n)
      .ok (l.take n :: rest)

end Verif.Flow
