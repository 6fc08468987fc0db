import Verif.Ops.MinMax
import Verif.File.Writer
import Verif.Decomp.Model
import Mathlib.Data.List.Sort

/-!
# Smallest and largest items of parameters (`src/minmax.cc`) and the traces that have them (`util/minmax.cc`)

Floating point values are elements of a linear order `F` (finite doubles).
-/

namespace Verif.Extremes
open Verif.Rules Verif.Params Verif.Files Verif.Ops Verif.Decomp Verif.Endian

variable {F : Type} [LinearOrder F]

/-- The two items of a parameter structure for one trace, `src/minmax.cc` 34-41. -/
def pairOf (cv : Conv F F) (m1 m2 : Nat) (p : Param F) : Res (F × F) := do
  let a ← getPrm cv 0 m1 p
  let b ← getPrm cv 0 m2 p
  .ok (a, b)

/-- The items of traces `i` to `i + n`, each copied to a structure of its own, `src/minmax.cc` 25-30. -/
def pairs (ops : FloatOps F) (cv : Conv F F) (zero : F) (m1 m2 : Nat) (p : Param F) (i : Nat) : Nat → Res (List (F × F))
  | 0 => .ok []
  | n + 1 => do
    let q ← cpyPrm ops i p 0 (mk zero p.rule 1) true
    let v ← pairOf cv m1 m2 q
    let vs ← pairs ops cv zero m1 m2 p (i + 1) n
    .ok (v :: vs)

/-- One process of `getMinMax`, `src/minmax.cc` 16-43. Without traces the items of an object of the default rule are
taken instead (`T temp`, `minmax.h` 89-92); they are sent but not used. -/
def share (ops : FloatOps F) (cv : Conv F F) (zero : F) (m1 m2 : Nat) (s : Nat × Nat × Param F) :
    Res (Nat × List (F × F)) :=
  if s.2.1 = 0 then do
    let r ← ctor [] true true false
    let _ ← pairOf cv m1 m2 (mk zero r 1)
    .ok (s.1, [])
  else do
    let vs ← pairs ops cv zero m1 m2 s.2.2 0 s.2.1
    .ok (s.1, vs)

/-- All processes of `getMinMax`. `src/minmax.cc` 16-43. -/
def shares (ops : FloatOps F) (cv : Conv F F) (zero : F) (m1 m2 : Nat) :
    List (Nat × Nat × Param F) → Res (List (Nat × List (F × F)))
  | [] => .ok []
  | s :: l => do
    let a ← share ops cv zero m1 m2 s
    let b ← shares ops cv zero m1 m2 l
    .ok (a :: b)

/-- `getMinMax` of two items, `src/minmax.cc` 16-43, on all processes: for each its offset, its number of traces and
its parameters. Smallest and largest first item, smallest and largest second item. -/
def metaMinMax (ops : FloatOps F) (cv : Conv F F) (zero : F) (m1 m2 : Nat) (ps : List (Nat × Nat × Param F)) :
    Res (List (Elem F)) := do
  let vs ← shares ops cv zero m1 m2 ps
  let r := getMinMax zero Prod.fst Prod.snd vs
  .ok [r.1.1, r.1.2, r.2.1, r.2.2]

/-- What process `r` of `P` reads, `util/minmax.cc` 25-35. -/
def readShare (ops : FloatOps F) (cvt : Conv F (BitVec 64)) (zero : F) (P ns nt : Nat) (d : Disk) (r : Nat) :
    Res (Nat × Nat × Param F) := do
  let dec ← blockDecomposition nt P r
  let rule ← ctor [] true true false
  let q ← readTrace ops cvt false ns nt dec.globalOffset dec.localSize none (some (mk zero rule dec.localSize)) 0 d
  match q.2 with
  | some p => .ok (dec.globalOffset, dec.localSize, p)
  | none => .ub

/-- What processes read. `util/minmax.cc` 25-35. -/
def readShares (ops : FloatOps F) (cvt : Conv F (BitVec 64)) (zero : F) (P ns nt : Nat) (d : Disk) :
    List Nat → Res (List (Nat × Nat × Param F))
  | [] => .ok []
  | r :: l => do
    let a ← readShare ops cvt zero P ns nt d r
    let b ← readShares ops cvt zero P ns nt d l
    .ok (a :: b)

/-- `PIOL_META_tn`, `Meta.h` 41. -/
def tn : Nat := 5

/-- The loop over the twelve rows, `util/minmax.cc` 69-78, from row `i`: the parameters of the trace are looked up in
the list without repetitions, and the number is stored over the item `tn`. -/
def fill (ops : FloatOps F) (cvt : Conv F (BitVec 64)) (tprm : Param F) (uniq : List Nat) (o : Param F) (i : Nat) :
    List Nat → Res (Param F)
  | [] => .ok o
  | k :: ks =>
    match uniq.findIdx? (· == k) with
    | none => fill ops cvt tprm uniq o (i + 1) ks
    | some j => do
      let o ← cpyPrm ops j tprm i o false
      let o ← setPrm cvt i tn (BitVec.ofNat 64 k) o
      fill ops cvt tprm uniq o (i + 1) ks

/-- The trace numbers of the twelve extremes, `util/minmax.cc` 37-45 and 53-55. -/
def extremes (ops : FloatOps F) (cv : Conv F F) (zero : F) (ps : List (Nat × Nat × Param F)) : Res (List Nat) := do
  let s ← metaMinMax ops cv zero 20 21 ps
  let r ← metaMinMax ops cv zero 22 23 ps
  let c ← metaMinMax ops cv zero 24 25 ps
  .ok ((s ++ r ++ c).map Elem.num)

/-- The list sorted and without repetitions, `util/minmax.cc` 57-59. -/
def distinct (l : List Nat) : List Nat := nodups (l.insertionSort (· ≤ ·))

/-- The parameters the first process writes, `util/minmax.cc` 52-78 (`extremes` are found by all processes). -/
def rows (ops : FloatOps F) (cvt : Conv F (BitVec 64)) (zero : F) (ns : Nat) (d : Disk) (nums : List Nat) :
    Res (Param F) := do
  let rule ← ctor [] true true false
  let q ← readList ops cvt false ns (distinct nums) none (some (mk zero rule (distinct nums).length)) 0 d
  match q.2 with
  | some tprm => fill ops cvt tprm (distinct nums) (mk zero rule nums.length) 0 nums
  | none => .ub

/-- `calcMin`, `util/minmax.cc` 22-85, up to the parameters written: `nt` and `ns` are the numbers of traces and samples
of the input `d`, `P` the number of processes. -/
def calcMin (ops : FloatOps F) (cv : Conv F F) (cvt : Conv F (BitVec 64)) (zero : F) (P ns nt : Nat) (d : Disk) :
    Res (Param F) := do
  let ps ← readShares ops cvt zero P ns nt d (List.range P)
  let nums ← extremes ops cv zero ps
  rows ops cvt zero ns d nums

/-- The number of traces process `r` writes: twelve on the first, none on the others. `util/minmax.cc` 47. -/
def rowsOn (r : Nat) : Nat := if r = 0 then 12 else 0

/-- The samples written: the number one in each trace (bits of the `float`, little-endian host). `util/minmax.cc` 68, 74, 84. -/
def ones : Arr Byte := ⟨48, fun x => if x % 4 = 3 then 0x3f#8 else if x % 4 = 2 then 0x80#8 else 0#8⟩

/-- The writing, `util/minmax.cc` 80-84, and the closing of the file at the end: `out` is the file before, `inc` the
increment of the input. Only the first process writes traces. -/
def writeRows (ops : FloatOps F) (P : Nat) (inc : ℚ) (o : Param F) (out : Disk) : Res Disk := do
  let (d, _) ← writeTraceT ops 1 (.start 0) 12 (some ones) (some o) 0 out
  let ws := (List.range P).map fun r =>
    (((W.new.writeNt (rowsOn r)).writeNs 1).writeInc inc).writeTrace 0 (rowsOn r)
  close ws d

end Verif.Extremes
