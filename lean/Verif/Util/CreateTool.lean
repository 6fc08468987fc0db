import Verif.Util.CopyTool
import Verif.Scalar.Model
/-!
# Creating a file

`examples/exampleCreateFile.c`, `examples/exampleCreateFile.cc`, `examples/example1.c` and
`examples/example1.cc`: the same calls with other numbers.  Memory is taken to be
enough.
-/
namespace Verif.CCreate
open Verif.Rules Verif.Params Verif.Files Verif.Layout Verif.Endian Verif.FP Verif.Scalar

/-- The value of `(float)n`: 24 significant bits, ties to even.
Not code of /repo: IEEE-754. -/
def single (n : Nat) : Nat :=
  if n < 2 ^ 24 then n
  else
    let u := 2 ^ (Nat.log2 n - 23)
    let q := n / u
    let r := n % u
    if u < 2 * r ∨ (2 * r = u ∧ q % 2 = 1) then (q + 1) * u else q * u

/-- Conversions of a `double` or `float` argument of `setPrm`, `param_utils.hh:61-86`:
towards zero to the integer types (beyond their range undefined, here cut off). -/
def dconv : Conv ℚ ℚ :=
  ⟨id, fun v => BitVec.ofInt 64 (trunc v), fun v => BitVec.ofInt 16 (trunc v), fun v => BitVec.ofInt 64 (trunc v),
    id, fun v => v.toInt, fun v => v.toInt, fun v => v.toNat, 0⟩

/-- Conversions of an integer argument, `param_utils.hh:61-86`. -/
def iconv : Conv ℚ (BitVec 64) :=
  ⟨fun v => rnd v.toInt, id, BitVec.setWidth 16, id, fun v => BitVec.ofInt 64 (trunc v), id, BitVec.signExtend 64, id, 0⟩

/-- A value for an item: floating point or integer.  `exampleCreateFile.c:40-48`. -/
abbrev Value := ℚ ⊕ BitVec 64

/-- The calls of `setPrm` for row `i`, in order, `exampleCreateFile.c:40-48`, through
`PIOL_C_bindings.cc:188-202`; `exampleCreateFile.cc:43-51`. -/
def setItems (i : Nat) : List (Nat × Value) → Param ℚ → Res (Param ℚ)
  | [], p => .ok p
  | (m, .inl x) :: l, p => do
    let p ← setPrm dconv i m x p
    setItems i l p
  | (m, .inr v) :: l, p => do
    let p ← setPrm iconv i m v p
    setItems i l p

/-- What all versions set to the sum of a number and `k`, in double precision. The numbers of
the items are those of `Meta.h:86-101`; `exampleCreateFile.c:40-45`, `exampleCreateFile.cc:43-48`,
`example1.c:86-93`, `example1.cc:63-68`. -/
def places : List (Nat × Nat) := [(20, 1600), (21, 2400), (22, 100000), (23, 3000000), (24, 10000), (25, 4000)]

/-- Row for trace `g` in the C versions, `exampleCreateFile.c:39-48`, `example1.c:84-98`. -/
def rowC (g : Nat) : List (Nat × Value) :=
  (places.map fun q => (q.1, .inl (rnd ((q.2 + single g : Nat) : ℚ)))) ++
    [(26, .inr (BitVec.ofNat 64 (2400 + g))), (27, .inr (BitVec.ofNat 64 (1600 + g))), (5, .inr (BitVec.ofNat 64 g))]

/-- Row for trace `g` in the C++ versions, `exampleCreateFile.cc:42-51`, `example1.cc:62-71`: the line
numbers are sums in single precision. -/
def rowCC (g : Nat) : List (Nat × Value) :=
  (places.map fun q => (q.1, .inl (rnd ((q.2 + single g : Nat) : ℚ)))) ++
    [(26, .inl (single (2400 + single g) : Nat)), (27, .inl (single (1600 + single g) : Nat)), (5, .inr (BitVec.ofNat 64 g))]

/-- The loop over the rows, `exampleCreateFile.c:38-49`, `exampleCreateFile.cc:41-52`. -/
def fillRows (row : Nat → List (Nat × Value)) (off : Nat) (p : Param ℚ) (j : Nat) : Nat → Res (Param ℚ)
  | 0 => .ok p
  | n + 1 => do
    let p ← setItems j (row (add64 off j)) p
    fillRows row off p (j + 1) n

/-- The loop over the samples, `exampleCreateFile.c:54-56`, `exampleCreateFile.cc:57-59`; `bits n` are the bits of
`(float)n`. -/
def fillSamples (bits : Nat → BitVec 32) (first : Nat) (t : Arr Byte) (j : Nat) : Nat → Res (Arr Byte)
  | 0 => .ok t
  | n + 1 => do
    let t ← storeF t j (bits (add64 first j))
    fillSamples bits first t (j + 1) n

/-- "Test file\n", `exampleCreateFile.c:34`. -/
def testText : List Nat := [84, 101, 115, 116, 32, 102, 105, 108, 101, 10]

/-- The writer after the header calls, `exampleCreateFile.c:31-34`, `exampleCreateFile.cc:34-37`. -/
def headerCalls (nt ns : Nat) (inc : ℚ) : W :=
  (((W.new.writeNs ns).writeNt nt).writeInc inc).writeText testText

/-- The share of a process in the C version, `exampleCreateFile.c:37-59`, `example1.c:80-109`. -/
def blockC (bits : Nat → BitVec 32) (ns wns : Nat) (c : Decomp.Dec) (out : Disk) : Res Disk := do
  let rule ← ctor [] true true false
  let p ← fillRows rowC c.globalOffset (mk 0 rule c.localSize) 0 c.localSize
  if mul64 c.localSize ns = 0 then .abort
  else do
    let t ← fillSamples bits (mul64 c.globalOffset ns) ⟨4 * mul64 c.localSize ns, fun _ => 0#8⟩ 0 (mul64 c.localSize ns)
    CCopy.cWriteTrace dbl wns c.globalOffset c.localSize (some t) (some p) out

/-- The share of a process in the C++ version, `exampleCreateFile.cc:40-60`, `example1.cc:60-80`: the headers, then (`true`) the
samples. -/
def blockCC (bits : Nat → BitVec 32) (ns wns : Nat) (c : Decomp.Dec × Bool) (out : Disk) : Res Disk := do
  let rule ← ctor [] true true false
  let p ← fillRows rowCC c.1.globalOffset (mk 0 rule c.1.localSize) 0 c.1.localSize
  if c.2 then do
    let t ← fillSamples bits (mul64 c.1.globalOffset ns) ⟨4 * mul64 c.1.localSize ns, fun _ => 0#8⟩ 0
      (mul64 c.1.localSize ns)
    let (out, _) ← writeTraceT dbl wns (.start c.1.globalOffset) c.1.localSize (some t) none 0 out
    .ok out
  else do
    let (out, _) ← writeTraceT dbl wns (.start c.1.globalOffset) c.1.localSize none (some p) 0 out
    .ok out

/-- Shares one after the other, in the order in which they take place. `exampleCreateFile.c:59`,
`exampleCreateFile.cc:53-60`. -/
def runBlocks {α : Type} (f : α → Disk → Res Disk) : List α → Disk → Res Disk
  | [], out => .ok out
  | c :: l, out => do
    let out ← f c out
    runBlocks f l out

/-- `createFile` of the C version on `P` processes, `exampleCreateFile.c:13-68`; the interval is a `size_t`.
Also `example1.c:53-117`, where it is a `double`, hence the argument `inc`.  `sched` is the order in which the
processes write. -/
def createC (bits : Nat → BitVec 32) (sched : List Decomp.Dec → List Decomp.Dec) (P nt ns : Nat) (inc : ℚ) (out : Disk) :
    Res Disk := do
  let decs ← Flow.collect (Decomp.blockDecomposition nt P) (List.range P)
  let w := headerCalls nt ns inc
  let out ← runBlocks (blockC bits ns w.ns) (sched decs) out
  close (decs.map fun c => w.writeTrace c.globalOffset c.localSize) out

/-- `createFile` of the C++ version on `P` processes, `exampleCreateFile.cc:21-61`; `example1.cc:38-81`. -/
def createCC (bits : Nat → BitVec 32) (sched : List (Decomp.Dec × Bool) → List (Decomp.Dec × Bool)) (P nt ns : Nat)
    (inc : ℚ) (out : Disk) : Res Disk := do
  let decs ← Flow.collect (Decomp.blockDecomposition nt P) (List.range P)
  let w := headerCalls nt ns inc
  let out ← runBlocks (blockCC bits ns w.ns) (sched (decs.flatMap fun c => [(c, false), (c, true)])) out
  close (decs.map fun c => (w.writeTrace c.globalOffset c.localSize).writeTrace c.globalOffset c.localSize) out

/-- `main` of `exampleCreateFile.c:71-82`: `.01` becomes the `size_t` 0. -/
def mainC (bits : Nat → BitVec 32) (sched : List Decomp.Dec → List Decomp.Dec) (P : Nat) (out : Disk) : Res Disk :=
  createC bits sched P 8000 4000 ((trunc (rnd (1 / 100))).toNat : ℚ) out

/-- `main` of `exampleCreateFile.cc:64-75`. -/
def mainCC (bits : Nat → BitVec 32) (sched : List (Decomp.Dec × Bool) → List (Decomp.Dec × Bool)) (P : Nat) (out : Disk) :
    Res Disk :=
  createCC bits sched P 8000 4000 (rnd (1 / 100)) out

/-- `main` of `example1.c:16-122` with an output named. -/
def example1C (bits : Nat → BitVec 32) (sched : List Decomp.Dec → List Decomp.Dec) (P : Nat) (out : Disk) : Res Disk :=
  createC bits sched P 40000 1000 4 out

/-- `main` of `example1.cc:21-82` with an output named. -/
def example1CC (bits : Nat → BitVec 32) (sched : List (Decomp.Dec × Bool) → List (Decomp.Dec × Bool)) (P : Nat) (out : Disk) :
    Res Disk :=
  createCC bits sched P 40000 1000 4 out

end Verif.CCreate
