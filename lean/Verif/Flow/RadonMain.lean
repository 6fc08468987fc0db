import Verif.Flow.RadonTool
import Verif.Flow.SortMain
import Verif.Util.FourDOut
import Verif.Util.CreateTool

/-!
# The program that makes angle gathers (`util/radon.cc`)

From the arguments and the bytes of the files on disk to the files on disk. The gathers and velocities are those of
`Flow/RadonTool.lean`, here read from and written to the bytes.
-/

namespace Verif.RadonMain
open Verif.Rules Verif.Params Verif.Files Verif.Decomp Verif.Endian Verif.FP Verif.Scalar Verif.CCreate Verif.Flow Verif.Util
open Verif.Options
open Verif.Signal (readAt)
open Verif.ConcatTool (World Kind kind kinds outName openAll)
open Verif.SortMain (writeGroups)
open Verif.Life (Name isSegy defaultMsg)
open Verif.FourDOut (Put putAll)

/-! ### The options -/

/-- The variables set by the options, `util/radon.cc` 19-24. The one of `-a` is named `oInc` there; it is the number of traces of an
output gather (`src/Flow/Set.cc` 606-610). -/
structure Opts where
  radon : Name := []
  angle : Name := []
  velocity : Name := []
  vBin : Nat := 20
  oGSz : Nat := 60
deriving DecidableEq

/-- The string of options, `util/radon.cc` 17. -/
def radonSpec : Spec := fun c => if c = 'i' ∨ c = 'o' ∨ c = 'v' ∨ c = 'b' ∨ c = 'a' then some true else none

/-- One option, `util/radon.cc` 27-52: unknown ones only give a message. -/
def radonOption (o : Opts) (a : Char × Name) : Res Opts :=
  if a.1 = 'i' then .ok { o with radon := a.2 }
  else if a.1 = 'v' then .ok { o with velocity := a.2 }
  else if a.1 = 'o' then .ok { o with angle := a.2 }
  else if a.1 = 'b' then do
    let n ← stoul a.2
    .ok { o with vBin := n }
  else if a.1 = 'a' then do
    let n ← stoul a.2
    .ok { o with oGSz := n }
  else .ok o

/-- All options, `util/radon.cc` 17-52. -/
def radonParse (argv : List Name) : Res Opts := (getopt radonSpec argv).foldlM radonOption {}

/-! ### Numbers -/

/-- The angle between two output traces, one degree: `std::atan(1) * 4.0 / 180` in double precision with `std::atan(1)` rounded
correctly, `include/ExSeisDat/Flow/Set.hh` 284 (`util/radon.cc` 66 passes nothing else). -/
def oneDegree : ℚ := 5030569068109113 / 2 ^ 58

/-- `Floating_point(z * in->inc) / state->vInc`, `src/Flow/Set.cc` 638-640. -/
def timeAt (inc vInc : ℚ) (z : Nat) : ℚ := rnd (rnd ((z : ℚ) * inc) / vInc)

/-- The same as a `size_t`, `src/Flow/Set.cc` 638. -/
def velIndex (inc vInc : ℚ) (z : Nat) : Nat := (trunc (timeAt inc vInc z)).toNat

/-- All the conversions to `size_t` of `src/Flow/Set.cc` 637-640 are defined. Division by zero gives an infinity or NaN. -/
def timesOk (inc vInc : ℚ) (ns : Nat) : Bool :=
  vInc ≠ 0 ∧ ∀ z ∈ List.range ns, -1 < timeAt inc vInc z ∧ timeAt inc vInc z < 2 ^ 64

/-! ### Reading -/

/-- Inline and crossline of a row, `src/gather.cc` 34-44 and `src/ReadSEGYModel.cc` 32-56; the items are those of
`Meta.h` 104 and 107. -/
def linesAt (p : Param ℚ) (i : Nat) : Res (Int × Int) := do
  let il ← getPrm iconv i 26 p
  let xl ← getPrm iconv i 27 p
  .ok (il.toInt, xl.toInt)

/-- The lines of the traces that process `r` of `P` reads, `src/gather.cc` 94-108. -/
def lineShare (P ns nt : Nat) (d : Disk) (r : Nat) : Res (List (Int × Int)) := do
  let dec ← blockDecomposition nt P r
  let rule ← ctor [26, 27] true false false
  let q ← readTrace dbl iconv false ns nt dec.globalOffset dec.localSize none (some (mk 0 rule dec.localSize)) 0 d
  match q.2 with
  | some p => collect (linesAt p) (List.range dec.localSize)
  | none => .ub

/-- The constructor of the model, `src/ReadSEGYModel.cc` 21-58 (see `modelCoords` also for files of less than two traces). -/
def modelParams (vi : Info) (vd : Disk) : Res (Coord × Coord) :=
  if vi.nt < 2 then .abort
  else do
    let rule ← ctor [] true true false
    let q ← readList dbl iconv false vi.ns [0, 1, vi.nt - 1] none (some (mk 0 rule 3)) 0 vd
    match q.2 with
    | some p => do
      let h0 ← linesAt p 0
      let h1 ← linesAt p 1
      let h2 ← linesAt p 2
      modelCoords vi.nt fun k => if k = 0 then h0 else if k = 1 then h1 else h2
    | none => .ub

/-- `RadonGatherState::makeState`, `src/Flow/RadonGatherState.cc` 15-34, with `readModel`, `src/ReadSEGYModel.cc` 83-100: `nums` are
the gathers of this process, `gs` all gathers of the file. `dist v j` is `llround(v / cos(j * oInc))`, see `Flow.Radon`. -/
def stateOf (dist : Flt → Nat → Int) (o : Opts) (inc : ℚ) (vi : Info) (vd : Disk) (gs : List (GInfo (Int × Int)))
    (nums : List Nat) : Res (Radon Flt) := do
  let c ← modelParams vi vd
  let infos ← collect (readAt gs) nums
  let offs := infos.map fun g => modelOffset c g.key
  let q ← readList dbl iconv (vi.format = 1#16) vi.ns offs (some (.fill (4 * (offs.length * vi.ns)) 0#8)) none 0 vd
  match q.1 with
  | some t =>
    .ok (Radon.mk (floats t (offs.length * vi.ns)) (infos.map fun g => g.key.1) (infos.map fun g => g.key.2) vi.ns o.vBin o.oGSz
      (velIndex inc vi.inc) dist)
  | none => .ub

/-! ### Gathers -/

/-- The lines of the output traces, `src/Flow/Set.cc` 653-660, from row `j`. -/
def setLines : List (Int × Int) → Nat → Param ℚ → Res (Param ℚ)
  | [], _, p => .ok p
  | k :: ks, j, p => do
    let p ← setPrm iconv j 26 (BitVec.ofInt 64 k.1) p
    let p ← setPrm iconv j 27 (BitVec.ofInt 64 k.2) p
    setLines ks (j + 1) p

/-- One gather of a process, `src/Flow/Set.cc` 331-363 and 619-660: `ig` is its number on this process, `rd` where it is in the
input, `wr` where its result goes. `vInc` is the interval of the velocities. -/
def treatAt (st : Radon Flt) (vInc : ℚ) (i : Info) (d : Disk) (ig : Nat) (rd wr : Piece) : Res (Put ℚ) := do
  let rule ← ctor [26, 27] true false false
  let q ← readTrace dbl iconv (i.format = 1#16) i.ns i.nt rd.start rd.count (some (.fill (4 * (rd.count * i.ns)) 0#8))
    (some (mk 0 rule rd.count)) 0 d
  match q.1 with
  | none => .ub
  | some t =>
    if rd.count ≠ 0 ∧ st.oGSz ≠ 0 ∧ timesOk i.inc vInc i.ns = false then .ub
    else do
      let (out, keys) ← toAngle (0 : Flt) st ig rd.count i.ns (floats t (rd.count * i.ns))
      let p ← setLines keys 0 (mk 0 rule st.oGSz)
      .ok ⟨wr.start, st.oGSz, bytesOf out, p⟩

/-- The calls that the writer of a process gets in its rounds, `src/Flow/Set.cc` 355-363 and 378-383. -/
def roundCalls (ns : Nat) (calls : List (Nat × Nat)) : W :=
  calls.foldl (fun w c => ((w.writeNs ns).writeInc oneDegree).writeTrace c.1 c.2) W.new

/-- What process `r` writes and its writer at the end, `src/Flow/Set.cc` 295-385; `nums` are the gathers of every process, `most` is
the largest number of them (328). -/
def rankAt (dist : Flt → Nat → Int) (o : Opts) (P : Nat) (i : Info) (d : Disk) (vi : Info) (vd : Disk)
    (gs : List (GInfo (Int × Int))) (nums : Nat → List Nat) (most r : Nat) : Res (List (Put ℚ) × W) := do
  let st ← stateOf dist o i.inc vi vd gs (nums r)
  let rd := pieces P (gs.map GInfo.count) nums r
  let wr := pieces P (gs.map fun _ => o.oGSz) nums r
  let qs ← collect (fun q : (Piece × Piece) × Nat => treatAt st vi.inc i d q.2 q.1.1 q.1.2) (rd.zip wr).zipIdx
  .ok (qs, roundCalls i.ns (qs.map (fun q => (q.pos, q.n)) ++ List.replicate (sub64 most (nums r).length) (0, 0)))

/-- The body of the loop of `startGather` over the files, `src/Flow/Set.cc` 293-385, on all processes with the closing of the
output: `d` is the input, `vd` the velocity model, `out` the output before. `sched` gives the order in which the pieces reach the
file. `past` is as in `getGathers`. -/
def radonFile (past : Option (Int × Int)) (sched : List (Put ℚ) → List (Put ℚ)) (dist : Flt → Nat → Int) (o : Opts) (P : Nat)
    (d vd out : Disk) : Res Disk := do
  let i ← openRead d
  let parts ← collect (lineShare P i.ns i.nt d) (List.range P)
  let gs ← getGathers past parts
  let all ← collect (gNums P gs.length 1) (List.range P)
  let vi ← openRead vd
  let rs ← collect (rankAt dist o P i d vi vd gs (fun r => all.getD r []) ((all.map List.length).foldl max 0)) (List.range P)
  let out ← putAll dbl i.ns (sched (rs.flatMap Prod.fst)) out
  close (rs.map Prod.snd) out

/-! ### The program -/

/-- The file in between, `src/Flow/Set.cc` 322. -/
def gname : Name := "gtemp.segy".toList

/-- A file that is not there: its size is zero (`src/DataMPIIO.cc` 323-329 and 352-365). -/
def empty : Disk := ⟨0, fun _ => 0#8⟩

/-- One file of the set, `src/Flow/Set.cc` 293-385: `ins` are open. All files are opened with `MPI_MODE_UNIQUE_OPEN`
(`src/DataMPIIO.cc` 221-232), also those that are read: opening one that is open is undefined. -/
def radonStep (past : Option (Int × Int)) (sched : List (Put ℚ) → List (Put ℚ)) (dist : Flt → Nat → Int) (o : Opts) (P : Nat)
    (ins : List Name) (w : World) (n : Name) : Res World :=
  if o.velocity ∈ ins ∨ gname ∈ ins then .ub
  else match w n with
    | none => .abort
    | some d => do
      let out ← radonFile past sched dist o P d ((w o.velocity).getD empty) ((w gname).getD empty)
      .ok (Function.update w gname (some out))

/-- The first part of `startGather`, `src/Flow/Set.cc` 273-291: several files are joined first, and the set is made anew from what was
written. The names of the files, and what is on disk. -/
def joinFirst (idx : List Nat → List Nat) (schedc : List Chunk → List Chunk) (P : Nat) (code : ℚ → Int) (ins : List Name)
    (ds : List Disk) (infos : List Info) (w : World) : Res (List Name × World) :=
  if 1 < ins.length then do
    let w ← writeGroups (fun k out => concatenate dbl iconv 0 idx schedc P code (defaultMsg.map Char.toNat) ds (k.1, code k.2) out)
      "temp".toList ins infos (kinds infos) w
    let names := (kinds infos).map fun k => outName "temp".toList k (infos.filter fun i => kind i = k).length
    if names.Nodup then .ok (names, w) else .ub
  else .ok (ins, w)

/-- The rest of `startGather` for the files `ins`, `src/Flow/Set.cc` 293-396, and the writing of the set made anew from the file in
between, when it is destroyed (58-63, 171-268). Without a file the set is made anew from the empty name, which matches nothing
(393-395 and 90-95: the program ends). -/
def gatherFiles (past : Option (Int × Int)) (sched : List (Put ℚ) → List (Put ℚ)) (dist : Flt → Nat → Int) (idx : List Nat → List Nat)
    (schedc : List Chunk → List Chunk) (P : Nat) (code : ℚ → Int) (o : Opts) (ins : List Name) (w : World) : Res World := do
  if ins = [] then .abort
  else do
    let w ← ins.foldlM (radonStep past sched dist o P ins) w
    let out := o.angle ++ ".segy".toList
    if out = gname then .ub
    else match w gname with
      | none => .abort
      | some g => do
        let i ← openRead g
        let d ← concatenate dbl iconv 0 idx schedc P code (defaultMsg.map Char.toNat) [g] (i.ns, code i.inc)
          ((w out).getD empty)
        .ok (Function.update w out (some d))

/-- `main`, `util/radon.cc` 14-74, with `radonToAngle` and the writing in the destructor of the set (`src/Flow/Set.cc` 58-63, 270-397,
606-662). `glob` gives the names that match a pattern (90-95: the program ends if there are none). -/
def radonMain (past : Option (Int × Int)) (sched : List (Put ℚ) → List (Put ℚ)) (dist : Flt → Nat → Int) (idx : List Nat → List Nat)
    (schedc : List Chunk → List Chunk) (P : Nat) (code : ℚ → Int) (glob : Name → List Name) (argv : List Name) (w : World) :
    Res World := do
  let o ← radonParse argv
  if o.radon = [] ∨ o.angle = [] ∨ o.velocity = [] then .abort
  else if glob o.radon = [] then .abort
  else do
    let ins := (glob o.radon).filter isSegy
    let ds ← openAll w ins
    let infos ← collect openRead ds
    let x ← joinFirst idx schedc P code ins ds infos w
    gatherFiles past sched dist idx schedc P code o x.1 x.2

end Verif.RadonMain
