import Verif.Arr
import Verif.Rule.Model
import Verif.Endian.Model
/-!
# Trace parameters and trace headers

`src/Param.cc`, `include/ExSeisDat/PIOL/param_utils.hh`, `src/param_utils.cc`,
`insertParam` / `extractParam` of `src/segy_utils.cc`.

`F` stands for `Floating_point` (double).  The three places where its
arithmetic matters are collected in `FloatOps`; the instance for doubles is in
`Verif/Scalar`.  Element indices are unbounded (the arrays are in memory, so an
index inside an array does not wrap).
-/
namespace Verif.Params
open Verif.Rules Verif.Endian

/-- `struct Param`, `Param.h:57-79`.  The rule is a shared pointer; it is not
changed by anybody else while a call runs. -/
structure Param (F : Type) where
  rule : Rule
  sz : Nat
  f : Arr F
  i : Arr (BitVec 64)
  s : Arr (BitVec 16)
  t : Arr (BitVec 64)
  c : Arr Byte

/-- `Param::Param(rule, sz)`, `Param.cc:12-21`; elements are value initialised. -/
def mk {F : Type} (zero : F) (r : Rule) (sz : Nat) : Param F :=
  { rule := r, sz := sz
    f := .fill (sz * r.cnt .float) zero
    i := .fill (sz * r.cnt .long) 0#64
    s := .fill (sz * r.cnt .short) 0#16
    t := .fill (sz * r.cnt .index) 0#64
    c := .fill (sz * (if r.cnt .copy ≠ 0 then 240 else 0)) 0#8 }

/-- Conversions between a type `T` and the four slot types (implicit
conversions in `getPrm`/`setPrm`). `param_utils.hh` 28-86. -/
structure Conv (F T : Type) where
  toF : T → F
  toI : T → BitVec 64
  toS : T → BitVec 16
  toT : T → BitVec 64
  ofF : F → T
  ofI : BitVec 64 → T
  ofS : BitVec 16 → T
  ofT : BitVec 64 → T
  zero : T

/-- `getPrm<T>`, `param_utils.hh:28-50`.  For an absent item `getEntry` yields a
null pointer, which is dereferenced. -/
def getPrm {F T : Type} (cv : Conv F T) (i : Nat) (m : Nat) (p : Param F) : Res T :=
  match (getEntry p.rule m).2 with
  | none => .ub
  | some e =>
    match e.kind with
    | .float => do .ok (cv.ofF (← p.f.get (p.rule.cnt .float * i + e.num)))
    | .long => do .ok (cv.ofI (← p.i.get (p.rule.cnt .long * i + e.num)))
    | .short => do .ok (cv.ofS (← p.s.get (p.rule.cnt .short * i + e.num)))
    | .index => do .ok (cv.ofT (← p.t.get (p.rule.cnt .index * i + e.num)))
    | .copy => .ok cv.zero

/-- `setPrm<T>`, `param_utils.hh:61-86`. -/
def setPrm {F T : Type} (cv : Conv F T) (i : Nat) (m : Nat) (v : T) (p : Param F) : Res (Param F) :=
  match (getEntry p.rule m).2 with
  | none => .ub
  | some e =>
    match e.kind with
    | .float => do .ok { p with f := ← p.f.set (p.rule.cnt .float * i + e.num) (cv.toF v) }
    | .long => do .ok { p with i := ← p.i.set (p.rule.cnt .long * i + e.num) (cv.toI v) }
    | .short => do .ok { p with s := ← p.s.set (p.rule.cnt .short * i + e.num) (cv.toS v) }
    | .index => do .ok { p with t := ← p.t.set (p.rule.cnt .index * i + e.num) (cv.toT v) }
    | .copy => .ok p

/-- Floating point steps of header conversion: `find_scalar`,
`int32_t(std::lround(f / parse_scalar(s)))`, `parse_scalar(s) * double(n)`.
`segy_utils.cc` 67-78, 114-119, 169-180. -/
structure FloatOps (F : Type) where
  findScalar : F → Res (BitVec 16)
  encode : F → BitVec 16 → Res (BitVec 32)
  decode : BitVec 16 → BitVec 32 → F

/-- The local map `scal` of `insertParam`. `segy_utils.cc` 47-50. -/
abbrev Scal := List (Nat × BitVec 16)

/-- `scal.find(tr) != scal.end() ? scal[tr] : 1`. `segy_utils.cc` 67-68. -/
def Scal.at (s : Scal) (tr : Nat) : BitVec 16 := ((s.find? (·.1 == tr)).map (·.2)).getD 1#16
/-- `scal[tr] = v`. `segy_utils.cc` 76. -/
def Scal.put (s : Scal) (tr : Nat) (v : BitVec 16) : Scal := (tr, v) :: s.filter (fun p => !(p.1 == tr))

/-- `segy_utils.cc:76-78`. -/
def joinScal (a b : BitVec 16) : BitVec 16 :=
  if a.toInt > 1 ∨ b.toInt > 1 then (if a.toInt < b.toInt then b else a)
  else (if b.toInt < a.toInt then b else a)

/-- `t->loc - start - 1LU`. `segy_utils.cc` 57, 111, 122, 160 and 165-167. -/
def relLoc (loc start : Nat) : Nat := sub64 (sub64 loc start) 1

/-- State of the per-trace entry loop of `insertParam`. `segy_utils.cc` 43-52. -/
structure Ins where
  buf : Arr Byte
  scal : Scal
  rule : List Entry

/-- One entry, `segy_utils.cc:56-103`.  `base` is the address of `md`. -/
def insEntry {F : Type} (ops : FloatOps F) (p : Param F) (row start base : Nat) (st : Ins) :
    Option Entry → Res Ins
  | none => .ub
  | some e =>
    match e.kind with
    | .float => do
      let v ← p.f.get (row * p.rule.cnt .float + e.num)
      let s2 ← ops.findScalar v
      .ok { st with rule := st.rule ++ [e], scal := st.scal.put e.scalLoc (joinScal (st.scal.at e.scalLoc) s2) }
    | .short => do
      let v ← p.s.get (row * p.rule.cnt .short + e.num)
      .ok { st with buf := ← st.buf.writes (base + relLoc e.loc start) (toBESigned 2 v) }
    | .long => do
      let v ← p.i.get (row * p.rule.cnt .long + e.num)
      .ok { st with buf := ← st.buf.writes (base + relLoc e.loc start) (toBESigned 4 (v.setWidth 32)) }
    | _ => .ok st

/-- The loop over `translate`, `segy_utils.cc:54-104`. -/
def insEntries {F : Type} (ops : FloatOps F) (p : Param F) (row start base : Nat) (st : Ins) :
    Map → Res Ins
  | [] => .ok st
  | (_, e) :: l => do
    let st ← insEntry ops p row start base st e
    insEntries ops p row start base st l

/-- `segy_utils.cc:107-112`. -/
def insScals (start base : Nat) (buf : Arr Byte) : Scal → Res (Arr Byte)
  | [] => .ok buf
  | (tr, v) :: l => do
    let buf ← buf.writes (base + relLoc tr start) (toBESigned 2 v)
    insScals start base buf l

/-- `segy_utils.cc:114-123`. -/
def insFloats {F : Type} (ops : FloatOps F) (p : Param F) (row start base : Nat) (scal : Scal)
    (buf : Arr Byte) : List Entry → Res (Arr Byte)
  | [] => .ok buf
  | e :: l => do
    let v ← p.f.get (row * p.rule.cnt .float + e.num)
    let n ← ops.encode v (scal.at e.scalLoc)
    let buf ← buf.writes (base + relLoc e.loc start) (toBESigned 4 n)
    insFloats ops p row start base scal buf l

/-- Body of the trace loop after `md` is set, `segy_utils.cc:45-123`. -/
def insTrace {F : Type} (ops : FloatOps F) (p : Param F) (row start base : Nat) (buf : Arr Byte) :
    Res (Arr Byte) := do
  let st ← insEntries ops p row start base ⟨buf, [], []⟩ p.rule.map
  let b ← insScals start base st.buf st.scal
  insFloats ops p row start base st.scal b st.rule

/-- The trace loop, `segy_utils.cc:42-124`, from trace `i` for `n` traces.  Each
iteration calls `extent()`, which may update the (shared) rule; `start` is the
value read before. -/
def insLoop {F : Type} (ops : FloatOps F) (p : Param F) (start stride skip : Nat) (r : Rule)
    (buf : Arr Byte) (i : Nat) : Nat → Res (Arr Byte × Rule)
  | 0 => .ok (buf, r)
  | n + 1 => do
    let (r, ext) ← extent r
    let buf ← insTrace ops p (i + skip) start ((ext + stride) * i) buf
    insLoop ops p start stride skip r buf (i + 1) n

/-- Raw header copies into the buffer, `segy_utils.cc:33-38`. -/
def copyIn {F : Type} (p : Param F) (stride skip : Nat) (buf : Arr Byte) (i : Nat) :
    Nat → Res (Arr Byte)
  | 0 => .ok buf
  | n + 1 => do
    let buf ← p.c.copy ((i + skip) * 240) buf (i * (stride + 240)) 240
    copyIn p stride skip buf (i + 1) n

/-- Raw header copies, `segy_utils.cc:26-40`. -/
def rawIn {F : Type} (p : Param F) (sz stride skip : Nat) (buf : Arr Byte) : Res (Arr Byte) :=
  if p.rule.cnt .copy ≠ 0 then
    if stride = 0 then p.c.copy (skip * 240) buf 0 (sz * 240)
    else copyIn p stride skip buf 0 sz
  else .ok buf

/-- `insertParam`, `segy_utils.cc:16-125` (`prm` not null): the buffer and the
rule afterwards. -/
def insertParam {F : Type} (ops : FloatOps F) (sz : Nat) (p : Param F) (buf : Arr Byte)
    (stride skip : Nat) : Res (Arr Byte × Rule) :=
  if sz = 0 then .ok (buf, p.rule)
  else do
    let buf ← rawIn p sz stride skip buf
    insLoop ops p p.rule.start stride skip p.rule buf 0 sz

/-- `md[k]` with wrapping address. `segy_utils.cc` 170-194. -/
def rd (buf : Arr Byte) (a : Nat) : Res Byte := buf.get (a % 2 ^ 64)

/-- `from_big_endian<int16_t>(md[k], md[k+1])`. `segy_utils.cc` 170-171 and 186. -/
def rd16 (buf : Arr Byte) (a : Nat) : Res (BitVec 16) := do
  .ok (fromBE16 (← rd buf a) (← rd buf (a + 1)))

/-- `from_big_endian<int32_t>(md[k], .., md[k+3])`. `segy_utils.cc` 173-174 and 193-194. -/
def rd32 (buf : Arr Byte) (a : Nat) : Res (BitVec 32) := do
  .ok (fromBE32 (← rd buf a) (← rd buf (a + 1)) (← rd buf (a + 2)) (← rd buf (a + 3)))

/-- One entry, `segy_utils.cc:159-200`. -/
def extEntry {F : Type} (ops : FloatOps F) (buf : Arr Byte) (row start base : Nat) (p : Param F) :
    Option Entry → Res (Param F)
  | none => .ub
  | some e =>
    match e.kind with
    | .float => do
      let s ← rd16 buf (base + relLoc e.scalLoc start)
      let n ← rd32 buf (base + relLoc e.loc start)
      .ok { p with f := ← p.f.set (row * p.rule.cnt .float + e.num) (ops.decode s n) }
    | .short => do
      let v ← rd16 buf (base + relLoc e.loc start)
      .ok { p with s := ← p.s.set (row * p.rule.cnt .short + e.num) v }
    | .long => do
      let v ← rd32 buf (base + relLoc e.loc start)
      .ok { p with i := ← p.i.set (row * p.rule.cnt .long + e.num) (v.signExtend 64) }
    | _ => .ok p

/-- The loop over `translate`, `segy_utils.cc:157-201`. -/
def extEntries {F : Type} (ops : FloatOps F) (buf : Arr Byte) (row start base : Nat) (p : Param F) :
    Map → Res (Param F)
  | [] => .ok p
  | (_, e) :: l => do
    let p ← extEntry ops buf row start base p e
    extEntries ops buf row start base p l

/-- The trace loop, `segy_utils.cc:152-202`; `boff` is the address of `buf`
inside the array it points into. -/
def extLoop {F : Type} (ops : FloatOps F) (buf : Arr Byte) (boff stride skip : Nat) (p : Param F)
    (i : Nat) : Nat → Res (Param F)
  | 0 => .ok p
  | n + 1 => do
    let (r, ext) ← extent p.rule
    let p ← extEntries ops buf (i + skip) r.start (boff + (ext + stride) * i) { p with rule := r } r.map
    extLoop ops buf boff stride skip p (i + 1) n

/-- Raw header copies out of the buffer, `segy_utils.cc:143-149`. -/
def copyOut {F : Type} (buf : Arr Byte) (boff stride skip : Nat) (p : Param F) (i : Nat) :
    Nat → Res (Param F)
  | 0 => .ok p
  | n + 1 => do
    let c ← buf.copy (boff + i * (stride + 240)) p.c ((i + skip) * 240) 240
    copyOut buf boff stride skip { p with c := c } (i + 1) n

/-- Raw header copies, `segy_utils.cc:136-150`. -/
def rawOut {F : Type} (buf : Arr Byte) (boff sz stride skip : Nat) (p : Param F) : Res (Param F) :=
  if p.rule.cnt .copy ≠ 0 then
    if stride = 0 then do
      .ok { p with c := ← buf.copy boff p.c (skip * 240) (sz * 240) }
    else copyOut buf boff stride skip p 0 sz
  else .ok p

/-- `extractParam`, `segy_utils.cc:127-203` (`prm` not null), reading from
`&buf[boff]`. -/
def extractParam {F : Type} (ops : FloatOps F) (sz : Nat) (buf : Arr Byte) (boff : Nat)
    (p : Param F) (stride skip : Nat) : Res (Param F) :=
  if sz = 0 then .ok p
  else do
    let p ← rawOut buf boff sz stride skip p
    extLoop ops buf boff stride skip p 0 sz

/-- `dst[d+a] = src[s+a]` for `a < n`. `param_utils.cc` 32-46. -/
def copyRow {α : Type} (src : Arr α) (s : Nat) (dst : Arr α) (d : Nat) (n : Nat) : Res (Arr α) :=
  src.copy s dst d n

/-- One entry of the loop `param_utils.cc:51-84`. -/
def cpyEntry {F : Type} (j k : Nat) (src : Param F) (dst : Param F) (m : Nat) :
    Option Entry → Res (Param F)
  | sent =>
    match find dst.rule.map m with
    | none => .ok dst
    | some none => .ub
    | some (some dent) =>
      match sent with
      | none => .ub
      | some sent =>
        if dent.kind = sent.kind then
          match sent.kind with
          | .float => do
            let v ← src.f.get (src.rule.cnt .float * j + sent.num)
            .ok { dst with f := ← dst.f.set (dst.rule.cnt .float * k + dent.num) v }
          | .long => do
            let v ← src.i.get (src.rule.cnt .long * j + sent.num)
            .ok { dst with i := ← dst.i.set (dst.rule.cnt .long * k + dent.num) v }
          | .short => do
            let v ← src.s.get (src.rule.cnt .short * j + sent.num)
            .ok { dst with s := ← dst.s.set (dst.rule.cnt .short * k + dent.num) v }
          | .index => do
            let v ← src.t.get (src.rule.cnt .index * j + sent.num)
            .ok { dst with t := ← dst.t.set (dst.rule.cnt .index * k + dent.num) v }
          | .copy => .ok dst
        else .ok dst

/-- The loop over the source's entries. `param_utils.cc` 50-87. -/
def cpyEntries {F : Type} (j k : Nat) (src : Param F) (dst : Param F) : Map → Res (Param F)
  | [] => .ok dst
  | (m, e) :: l => do
    let dst ← cpyEntry j k src dst m e
    cpyEntries j k src dst l

/-- `param_utils.cc:24-27`. -/
def cpyRaw {F : Type} (ops : FloatOps F) (j : Nat) (src : Param F) (k : Nat) (dst : Param F) :
    Res (Param F) :=
  if src.rule.cnt .copy ≠ 0 then extractParam ops 1 src.c (j * 240) dst 0 k else .ok dst

/-- `param_utils.cc:29-46`. -/
def cpyRows {F : Type} (j : Nat) (src : Param F) (k : Nat) (dst : Param F) : Res (Param F) := do
  let r := src.rule
  let f ← copyRow src.f (j * r.cnt .float) dst.f (k * r.cnt .float) (r.cnt .float)
  let i ← copyRow src.i (j * r.cnt .long) dst.i (k * r.cnt .long) (r.cnt .long)
  let s ← copyRow src.s (j * r.cnt .short) dst.s (k * r.cnt .short) (r.cnt .short)
  let t ← copyRow src.t (j * r.cnt .index) dst.t (k * r.cnt .index) (r.cnt .index)
  .ok { dst with f := f, i := i, s := s, t := t }

/-- `cpyPrm`, `param_utils.cc:13-89` (neither pointer null).  `same` tells
whether both share one rule object. -/
def cpyPrm {F : Type} (ops : FloatOps F) (j : Nat) (src : Param F) (k : Nat) (dst : Param F)
    (same : Bool) : Res (Param F) := do
  let dst ← cpyRaw ops j src k dst
  if same then cpyRows j src k dst else cpyEntries j k src dst src.rule.map

end Verif.Params
