import Verif.Basic

/-!
# The cache of parameters (`src/Flow/Cache.cc`, `include/ExSeisDat/Flow/Cache.hh`, `CacheElem.hh`)

Files are values of a type `D` (the code compares pointers to descriptors), `R` are rules, `α` the parameters read,
`S` samples.
-/

namespace Verif.Flow

variable {D R α S : Type} [DecidableEq D]

/-- `TraceBlock`, as far as the cache fills it (`Cache.cc` 56-69). Parameters carry the rule they were read with
(`Param::r`). -/
structure Block (R α S : Type) where
  prm : Option (R × α)
  trc : List S

/-- `CacheElem`, `CacheElem.hh` 20-38. -/
structure CElem (D R α S : Type) where
  desc : List D
  block : Option (Block R α S)

/-- The parameters read for a list of files, `Cache.cc` 30-54: the rule must be there (`Param::Param`, `src/Param.cc` 12-21,
dereferences it), and the list must have a file (`desc[0]`, `Cache.cc` 68). `load` is the reading. -/
def readAll (load : R → List D → α) (rule : Option R) (desc : List D) : Res (R × α) :=
  match rule, desc with
  | none, _ => .ub
  | some _, [] => .ub
  | some r, d => .ok (r, load r d)

/-- What `getCache` gives: the cache, the block, and whether files were read. `Cache.cc` 22-75. -/
structure Got (D R α S : Type) where
  cache : List (CElem D R α S)
  block : Block R α S
  io : Bool

/-- `Cache::getCache`, `Cache.cc` 22-75: the first element for the files is used if it has parameters. -/
def getCache (load : R → List D → α) (rule : Option R) (desc : List D) :
    List (CElem D R α S) → Res (Got D R α S)
  | [] => do
    let p ← readAll load rule desc
    let b : Block R α S := ⟨some p, []⟩
    .ok ⟨[⟨desc, some b⟩], b, true⟩
  | e :: c =>
    if e.desc = desc then
      match e.block with
      | some b =>
        match b.prm with
        | some _ => .ok ⟨e :: c, b, false⟩
        | none => do
          let p ← readAll load rule desc
          let b : Block R α S := ⟨some p, b.trc⟩
          .ok ⟨⟨desc, some b⟩ :: c, b, true⟩
      | none => do
        let p ← readAll load rule desc
        let b : Block R α S := ⟨some p, []⟩
        .ok ⟨⟨desc, some b⟩ :: c, b, true⟩
    else do
      let g ← getCache load rule desc c
      .ok ⟨e :: g.cache, g.block, g.io⟩

/-- `Cache::cachePrm`, `Cache.hh` 58-62. -/
def cachePrm (load : R → List D → α) (rule : R) (desc : List D) (c : List (CElem D R α S)) : Res (Got D R α S) :=
  getCache load (some rule) desc c

/-- `Cache::cacheTrc`, `Cache.hh` 69-72: there is no rule. -/
def cacheTrc (load : R → List D → α) (desc : List D) (c : List (CElem D R α S)) : Res (Got D R α S) :=
  getCache load none desc c

/-- `CacheElem::checkPrm`, `CacheElem.hh` 63-66: `desc == desc_ && !block && block->prm`. -/
def CElem.checkPrm (e : CElem D R α S) (desc : List D) : Res Bool :=
  if e.desc = desc then
    match e.block with
    | some _ => .ok false
    | none => .ub
  else .ok false

/-- `CacheElem::checkTrc`, `CacheElem.hh` 72-75: `desc == desc_ && !block && !block->trc.empty()`. -/
def CElem.checkTrc (e : CElem D R α S) (desc : List D) : Res Bool :=
  if e.desc = desc then
    match e.block with
    | some _ => .ok false
    | none => .ub
  else .ok false

/-- `std::find_if` with a predicate that may fail: the element found, none at the end. Used in `Cache.cc` 82-84. -/
def findRes {A : Type} (p : A → Res Bool) : List A → Res (Option A)
  | [] => .ok none
  | a :: l => do
    let b ← p a
    if b then .ok (some a) else findRes p l

/-- `Cache::checkPrm`, `Cache.hh` 78-85. -/
def checkPrm (desc : List D) (c : List (CElem D R α S)) : Res Bool := do
  let e ← findRes (fun e => e.checkPrm desc) c
  .ok e.isSome

/-- `Cache::checkTrc`, `Cache.hh` 91-98. -/
def checkTrc (desc : List D) (c : List (CElem D R α S)) : Res Bool := do
  let e ← findRes (fun e => e.checkTrc desc) c
  .ok e.isSome

/-- `Cache::flush`, `Cache.hh` 103-109: `erase` of the end iterator is undefined. -/
def flush (desc : List D) : List (CElem D R α S) → Res (List (CElem D R α S))
  | [] => .ub
  | e :: c =>
    if e.desc = desc then .ok c
    else do
      let c' ← flush desc c
      .ok (e :: c')

/-- `Cache::getOutputTrace`, `Cache.cc` 77-112: the positions returned. `pick` is what lines 85-107 do with the element
found. -/
def getOutputTrace (pick : CElem D R α S → List Nat) (desc : List D) (c : List (CElem D R α S)) : Res (List Nat) := do
  let e ← findRes (fun e => e.checkPrm desc) c
  match e with
  | some e => .ok (pick e)
  | none => .ok []

/-- A call of the cache's interface. `Cache.cc` 22-113, `Cache.hh`. -/
inductive CCall (D R : Type) where
  | prm (rule : R) (desc : List D)
  | trc (desc : List D)
  | flush (desc : List D)

/-- The cache after a call. `Cache.cc` 22-113. -/
def CCall.step (load : R → List D → α) (c : List (CElem D R α S)) : CCall D R → Res (List (CElem D R α S))
  | .prm r d => do
    let g ← cachePrm load r d c
    .ok g.cache
  | .trc d => do
    let g ← cacheTrc load d c
    .ok g.cache
  | .flush d => Flow.flush d c

/-- The cache after a sequence of calls on a new one (`Cache.hh` 36). -/
def cacheAfter (load : R → List D → α) : List (CElem D R α S) → List (CCall D R) → Res (List (CElem D R α S))
  | c, [] => .ok c
  | c, o :: os => do
    let c ← o.step load c
    cacheAfter load c os

end Verif.Flow
