import Verif.Flow.Pipeline
import Verif.Flow.Set
import Mathlib.Logic.Function.Basic

/-!
# A set from its making to its end (`src/Flow/Set.cc`)

Any number of groups of files on one process, with the names of the files: several outputs of the same set, the output
that the destructor makes, and the temporary files of the gather operations. A trace is a value of an arbitrary type,
what an operation does to a trace or a gather is an arbitrary function.
-/

namespace Verif.Life
open Verif.Flow

/-- A file name. `Set.cc` 34-56. -/
abbrev Name := List Char

/-- A SEG-Y file as a set sees it: samples and interval, text header, traces. What of it survives writing and reading is
the subject of C20 to C25, C50 and C78; intervals are positive. `Set.cc` 65-85 and 196-265. -/
structure Seg (T : Type) where
  key : Key
  text : List Char
  traces : List T
deriving DecidableEq

/-- The files on disk. Not code of /repo. -/
abbrev FS (T : Type) := Name → Option (Seg T)

/-- `FileDesc`, `FileDesc.hh` 19-28: an open file and the output positions `olst` of its traces. The traces are those the
file had when it was opened: nothing may change it while it is open, see `writeSeg`. -/
structure Held (T : Type) where
  name : Name
  key : Key
  traces : List T
  pos : List Nat
deriving DecidableEq

/-- An operation of the queue, as in `Flow.Op`; a gather operation also determines samples and interval of what it
makes (`bOut->ns`, `bOut->inc`, `Set.cc` 356; here as they are read again). -/
inductive Op (T : Type) where
  | sort (key : T → Nat)
  | gather (k : Key → Key) (f : List T → List T)
  | single (f : T → T)

/-- A set: `fmap` in key order, the files that the cache of parameters keeps open (`CacheElem` holds the descriptors,
`CacheElem.hh` 20-56), `outfix`, `outmsg`, `func`. `Set.hh` 41-66. -/
structure S (T : Type) where
  groups : List (Key × List (Held T))
  kept : List Name
  outfix : Name
  outmsg : List Char
  func : List (Op T)

variable {T : Type}

/-- The part of an operation that concerns the traces: `Op::func`, `Op.hh` 20-22. -/
def Op.core : Op T → Flow.Op T
  | .sort k => .sort k
  | .gather _ f => .gather f
  | .single f => .single f

/-- Whether `opt.check(FuncOpt::Gather)`. `Set.cc` 300-310. -/
def Op.isGather : Op T → Bool
  | .gather _ _ => true
  | _ => false

/-- Traces of several files, one file after the other. `Set.cc` 209-211, `Cache.cc` 43-53. -/
def tracesOf (l : List (Held T)) : List T := l.flatMap Held.traces

/-- The output positions of several files. `Set.cc` 228-243. -/
def posOf (l : List (Held T)) : List Nat := l.flatMap Held.pos

/-- The names of all files that are open: those of the set and those of the cache. `Set.hh` 50-60. -/
def openNames (st : S T) : List Name := st.groups.flatMap (fun g => g.2.map Held.name) ++ st.kept

/-- `fmap[key].emplace_back(f)` with the positions from `offmap[key]`, `Set.cc` 78-84. `offmap[key]` is the number of
traces that the group has. -/
def insertFile (name : Name) (s : Seg T) : List (Key × List (Held T)) → List (Key × List (Held T))
  | [] => [(s.key, [⟨name, s.key, s.traces, List.range s.traces.length⟩])]
  | g :: gs =>
    if g.1 = s.key then
      (g.1, g.2 ++ [⟨name, s.key, s.traces, (List.range s.traces.length).map ((tracesOf g.2).length + ·)⟩]) :: gs
    else if keyLt s.key g.1 then (s.key, [⟨name, s.key, s.traces, List.range s.traces.length⟩]) :: g :: gs
    else g :: insertFile name s gs

/-- The expression `.*se?gy$` without regard to case, `Set.cc` 97-104 (for names without line breaks). -/
def isSegy (name : Name) : Bool :=
  let r := (name.map Char.toLower).reverse
  r.take 4 == ['y', 'g', 'e', 's'] || r.take 3 == ['y', 'g', 's']

/-- The message that `Set::add` puts in place, `Set.cc` 89. -/
def defaultMsg : List Char := "ExSeisPIOL: Set layer output\n".toList

/-- `Set::add(std::string)` with the name of one file, `Set.cc` 87-109: the program ends if there is no such file. Files are
opened with `MPI_MODE_UNIQUE_OPEN` (`DataMPIIO.cc` 226): a file that is open already must not be opened. -/
def add (fs : FS T) (st : S T) (name : Name) : Res (S T) :=
  match fs name with
  | none => .abort
  | some s =>
    if isSegy name then
      if name ∈ openNames st then .ub
      else .ok { st with groups := insertFile name s st.groups, outmsg := defaultMsg }
    else .ok { st with outmsg := defaultMsg }

/-- Several names, one after the other: `Set.cc` 287-290; the files that a pattern stands for, 101-106. -/
def addAll (fs : FS T) : S T → List Name → Res (S T)
  | st, [] => .ok st
  | st, n :: ns => do
    let st ← add fs st n
    addAll fs st ns

/-- Opening a file for writing, the writes, and closing it, `Set.cc` 196-265 and 325-385. The file is opened with
`MPI_MODE_UNIQUE_OPEN` (`DataMPIIO.cc` 229), which must not be done with an open file. -/
def writeSeg (st : S T) (name : Name) (s : Seg T) (fs : FS T) : Res (FS T) :=
  if name ∈ openNames st then .ub else .ok (Function.update fs name (some s))

/-- The name of the file that `startSingle` writes for a group, `Set.cc` 186-191; `num` is `std::to_string` on the
interval. -/
def outName (num : Int → List Char) (outfix : Name) (g : Key × List (Held T)) : Name :=
  if g.2.length = 1 then outfix ++ ".segy".toList
  else outfix ++ decimal g.1.1 ++ ['_'] ++ num g.1.2 ++ ".segy".toList

/-- What `startSingle` writes for a group, `Set.cc` 196-265: the leading single-trace operations, then every trace at its
position. -/
def outSeg (ops : List (Op T)) (st : S T) (g : Key × List (Held T)) : Seg T :=
  ⟨g.1, st.outmsg, written (posOf g.2) (blockSingle (ops.map Op.core) (tracesOf g.2))⟩

/-- The loop of `startSingle` over the groups, `Set.cc` 174-266. -/
def writeGroups (num : Int → List Char) (outfix : Name) (ops : List (Op T)) (st : S T) :
    List (Key × List (Held T)) → FS T → Res (FS T)
  | [], fs => .ok fs
  | g :: gs, fs => do
    let fs ← writeSeg st (outName num outfix g) (outSeg ops st g) fs
    writeGroups num outfix ops st gs fs

/-- `Set::startSingle`, `Set.cc` 171-268: the files and the names returned. -/
def startSingle (num : Int → List Char) (outfix : Name) (ops : List (Op T)) (st : S T) (fs : FS T) :
    Res (FS T × List Name) := do
  let fs ← writeGroups num outfix ops st st.groups fs
  .ok (fs, st.groups.map (outName num outfix))

/-- The positions returned by a sort, handed to the files of a group, `Set.cc` 422-426. -/
def dealTo : List Nat → List (Held T) → List (Held T)
  | _, [] => []
  | l, f :: fs => { f with pos := l.take f.traces.length } :: dealTo (l.drop f.traces.length) fs

/-- A sort of one group, `Set.cc` 401-426. -/
def sortGroup (key : T → Nat) (g : Key × List (Held T)) : Res (Key × List (Held T)) := do
  let pos ← sortStep key (localNumbers g.2.length 0 (g.2.map Held.traces)) (tracesOf g.2)
  .ok (g.1, dealTo pos g.2)

/-- A sort of all groups, `Set.cc` 436-450, one operation at a time (the code finishes all sorts of a group before the next
group). -/
def sortGroups (key : T → Nat) : List (Key × List (Held T)) → Res (List (Key × List (Held T)))
  | [] => .ok []
  | g :: gs => do
    let g ← sortGroup key g
    let gs ← sortGroups key gs
    .ok (g :: gs)

/-- `Set::startSubset` for one operation, `Set.cc` 401-450: without a group `flist` is empty and its front is asked for
(449). The cache keeps the files open from now on, `Cache.cc` 56-58. -/
def startSubset (key : T → Nat) (st : S T) : Res (S T) :=
  if st.groups = [] then .ub
  else do
    let gs ← sortGroups key st.groups
    .ok { st with groups := gs, kept := st.kept ++ st.groups.flatMap fun g => g.2.map Held.name }

/-- Samples and interval of what `calcFunc` makes of a gather, `Set.cc` 140-169: from the gather operations that are
carried out, see `Flow.blockGather`. -/
def outKey : List (Op T) → Key → Key
  | .gather k _ :: .single _ :: _, x => k x
  | .gather k _ :: _ :: rest, x => outKey rest (k x)
  | _, x => x

/-- The loop of `startGather` over the files, `Set.cc` 293-385. No text is written to the output. Samples and interval are set with the
first gather (356-357); a file without gathers leaves them 0 (and, not modelled, the length of a file that was there
before). -/
def gatherFiles (blank : T) (sizes : List T → List Nat) (gname : Name) (ops : List (Op T)) (st : S T) :
    List (Held T) → FS T → Res (FS T)
  | [], fs => .ok fs
  | f :: l, fs => do
    let ns := sizes f.traces
    let out ← gatherLoop blank (ops.map Op.core) f.traces 0
      (List.replicate (gatherCount (ops.map Op.core)) ns).flatten
    let fs ← writeSeg st gname ⟨if ns = [] then (0, 0) else outKey ops f.key, [], out⟩ fs
    gatherFiles blank sizes gname ops st l fs

/-- The first part of `startGather`, `Set.cc` 273-291: with several files the set is written and made anew from what was
written. `drop` is `Set.hh` 74-81. -/
def join (num : Int → List Char) (fs : FS T) (st : S T) : Res (FS T × S T) :=
  if 1 < (st.groups.flatMap Prod.snd).length then do
    let (fs, names) ← startSingle num "temp".toList [.single id] st fs
    let st ← addAll fs { st with groups := [] } names
    .ok (fs, st)
  else .ok (fs, st)

/-- `Set::startGather`, `Set.cc` 270-398: the files, the set, and the name returned. There is always an operation after the
gather operations: the one that `output` adds. The files are taken in key order: if there are several, they have been added in this
order by `join`. -/
def startGather (num : Int → List Char) (blank : T) (sizes : List T → List Nat) (ops : List (Op T)) (st : S T) (fs : FS T) :
    Res (FS T × S T × Name) := do
  let (fs, st) ← join num fs st
  let gname := if (ops.drop 1).all Op.isGather then st.outfix ++ ".segy".toList else "gtemp.segy".toList
  let files := st.groups.flatMap Prod.snd
  let fs ← gatherFiles blank sizes gname ops st files fs
  if (ops.drop 1).all Op.isGather then .ok (fs, st, if files = [] then [] else gname)
  else do
    let st ← add fs { st with groups := [] } (if files = [] then [] else gname)
    .ok (fs, st, [])

/-- What `calcFunc` passes over, `Set.cc` 471-493. -/
inductive Skip where
  | none
  | gathers
  | singles

/-- `Set::calcFunc` over the queue, `Set.cc` 452-500: the files, the set, and the names returned. The names of the recursive
call are dropped (497-500). -/
def run (num : Int → List Char) (blank : T) (sizes : List T → List Nat) :
    Skip → List (Op T) → S T → FS T → Res (FS T × S T × List Name)
  | _, [], st, fs => .ok (fs, st, [])
  | _, .sort key :: rest, st, fs => do
    let st ← startSubset key st
    let r ← run num blank sizes .none rest st fs
    .ok (r.1, r.2.1, [])
  | .gathers, .gather _ _ :: rest, st, fs => run num blank sizes .gathers rest st fs
  | _, .gather k g :: rest, st, fs => do
    let (fs, st, gname) ← startGather num blank sizes (.gather k g :: rest) st fs
    if gname ≠ [] then .ok (fs, st, [gname])
    else do
      let r ← run num blank sizes .gathers rest st fs
      .ok (r.1, r.2.1, [])
  | .singles, .single _ :: rest, st, fs => run num blank sizes .singles rest st fs
  | _, .single f :: rest, st, fs => do
    let (fs, names) ← startSingle num st.outfix (.single f :: rest) st fs
    if names ≠ [] then .ok (fs, st, names)
    else do
      let r ← run num blank sizes .singles rest st fs
      .ok (r.1, r.2.1, [])

/-- `Set::output`, `Set.cc` 502-515. The queue is cleared at the end (512); it is not looked at in between. -/
def output (num : Int → List Char) (blank : T) (sizes : List T → List Nat) (oname : Name) (st : S T) (fs : FS T) :
    Res (FS T × S T × List Name) :=
  run num blank sizes .none (st.func ++ [.single id]) { st with outfix := oname, func := [] } fs

/-- The destructor, `Set.cc` 58-63. -/
def finish (num : Int → List Char) (blank : T) (sizes : List T → List Nat) (st : S T) (fs : FS T) : Res (FS T) :=
  if st.outfix = [] then .ok fs
  else do
    let r ← output num blank sizes st.outfix st fs
    .ok r.1

/-- What a program does with a set: `sort`, `toAngle`, `taper`, `AGC`, `temporalFilter` queue an operation (`Set.cc` 572-713, 750-795), `output`,
`text` (715-718), `add` with one name. -/
inductive Call (T : Type) where
  | queue (o : Op T)
  | output (name : Name)
  | text (msg : List Char)
  | add (name : Name)

/-- The calls of a program, one after the other. `Flow_C_bindings.cc` 36-92, `examples/exampleSort.c` 14-16. -/
def calls (num : Int → List Char) (blank : T) (sizes : List T → List Nat) : List (Call T) → S T → FS T → Res (S T × FS T)
  | [], st, fs => .ok (st, fs)
  | .queue o :: l, st, fs => calls num blank sizes l { st with func := st.func ++ [o] } fs
  | .output n :: l, st, fs => do
    let r ← output num blank sizes n st fs
    calls num blank sizes l r.2.1 r.1
  | .text m :: l, st, fs => calls num blank sizes l { st with outmsg := m } fs
  | .add n :: l, st, fs => do
    let st ← add fs st n
    calls num blank sizes l st fs

/-- The life of a set: made from the files of a pattern and a prefix for the output, `Set.cc` 34-47 (empty in
`Set.hh` 168-181 and `PIOL_Set_new`, `Flow_C_bindings.cc` 17-23), the calls, and its end (25-28). -/
def life (num : Int → List Char) (blank : T) (sizes : List T → List Nat) (files : List Name) (outfix : Name)
    (prog : List (Call T)) (fs : FS T) : Res (FS T) := do
  let st ← addAll fs ⟨[], [], outfix, defaultMsg, []⟩ files
  let r ← calls num blank sizes prog st fs
  finish num blank sizes r.1 r.2

end Verif.Life
