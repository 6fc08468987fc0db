import Verif.Basic
/-!
# Rules: which trace metadata is held, and where

`src/Rule.cc`, `include/ExSeisDat/PIOL/{Rule,RuleEntry,SEGYRuleEntry}.hh`.

`Meta` and `Tr` are `size_t` typedefs, here `Nat`.  `std::unordered_map` is an
association list; its order is arbitrary, so statements that hold for every list
hold for every iteration order.  A null pointer in the map is `none`.
-/
namespace Verif.Rules

/-- `RuleEntry::MdType`, `RuleEntry.hh:17-28`. -/
inductive Kind where
  | long | short | float | index | copy
  deriving DecidableEq, Repr

/-- A `RuleEntry` with its derived classes, `SEGYRuleEntry.hh`.  `scalLoc` is
meaningful for `float` entries only and 0 otherwise. -/
structure Entry where
  kind : Kind
  num : Nat
  loc : Nat
  scalLoc : Nat
  deriving DecidableEq, Repr

/-- `RuleEntry::min`, `SEGYRuleEntry.hh:29,54,79,108,143`. -/
def Entry.min (e : Entry) : Nat :=
  match e.kind with
  | .long => e.loc
  | .short => e.loc
  | .float => Nat.min e.scalLoc e.loc
  | .index => 0
  | .copy => 0

/-- `RuleEntry::max`, `SEGYRuleEntry.hh:35,59,84,114,151`. -/
def Entry.max (e : Entry) : Nat :=
  match e.kind with
  | .long => e.loc + 4
  | .short => e.loc + 2
  | .float => Nat.max (e.scalLoc + 2) (e.loc + 4)
  | .index => 0
  | .copy => 240

/-- The map `translate`: `none` is a null pointer. `Rule.hh` 91. -/
abbrev Map := List (Nat × Option Entry)

/-- `translate.find`. `Rule.cc` 110, 261, 315, 383. -/
def find (l : Map) (m : Nat) : Option (Option Entry) := (l.find? (·.1 == m)).map (·.2)
/-- `translate.erase`. `Rule.cc` 347. -/
def erase (l : Map) (m : Nat) : Map := l.filter (fun p => !(p.1 == m))
/-- `translate[m] = e` (insert or overwrite). `Rule.cc` 266, 278, 290, 302, 308. -/
def put (l : Map) (m : Nat) (e : Option Entry) : Map := (m, e) :: erase l m

/-- `struct Rule`, `Rule.hh:51-91`.  `cnt k` is `numLong`, `numShort`,
`numFloat`, `numIndex`, `numCopy`. -/
structure Rule where
  map : Map
  cnt : Kind → Nat
  start : Nat
  stop : Nat
  badextent : Bool
  fullextent : Bool

/-- `cnt` with one entry changed. `Rule.cc` 323-343. -/
def upd (c : Kind → Nat) (k : Kind) (v : Nat) : Kind → Nat := fun k' => if k' = k then v else c k'

/-- `n--` on `size_t`. `Rule.cc` 323-343. -/
def dec (n : Nat) : Nat := if n = 0 then 2 ^ 64 - 1 else n - 1

/-- Renumbering loop of `rmRule`, `Rule.cc:348-352`; a null pointer is
dereferenced. -/
def renumber (k : Kind) (n : Nat) : Map → Res Map
  | [] => .ok []
  | (_, none) :: _ => .ub
  | (m, some e) :: l => do
    let l' ← renumber k n l
    .ok ((m, some (if e.kind = k ∧ e.num > n then { e with num := e.num - 1 } else e)) :: l')

/-- `Rule::rmRule`, `Rule.cc:313-356`. -/
def rmRule (r : Rule) (m : Nat) : Res Rule :=
  match find r.map m with
  | none => .ok r
  | some none => .ub
  | some (some e) => do
    let l ← renumber e.kind e.num (erase r.map m)
    .ok { r with map := l, cnt := upd r.cnt e.kind (dec (r.cnt e.kind)), badextent := !r.fullextent }

/-- The removal that precedes each add, e.g. `Rule.cc:261-264`. -/
def rmIfPresent (r : Rule) (m : Nat) : Res Rule :=
  match find r.map m with
  | none => .ok r
  | some _ => rmRule r m

/-- Insertion of a new entry numbered with the post-incremented counter. `Rule.cc` 266, 278, 290, 302. -/
def addEntry (r : Rule) (m : Nat) (k : Kind) (loc scal : Nat) : Rule :=
  { r with map := put r.map m (some ⟨k, r.cnt k, loc, scal⟩), cnt := upd r.cnt k (r.cnt k + 1) }

/-- `Rule::addLong`, `Rule.cc:259-269`. -/
def addLong (r : Rule) (m loc : Nat) : Res Rule := do
  let r ← rmIfPresent r m
  .ok { addEntry r m .long loc 0 with badextent := !r.fullextent }
/-- `Rule::addShort`, `Rule.cc:271-281`. -/
def addShort (r : Rule) (m loc : Nat) : Res Rule := do
  let r ← rmIfPresent r m
  .ok { addEntry r m .short loc 0 with badextent := !r.fullextent }
/-- `Rule::addSEGYFloat`, `Rule.cc:283-293`. -/
def addFloat (r : Rule) (m loc scal : Nat) : Res Rule := do
  let r ← rmIfPresent r m
  .ok { addEntry r m .float loc scal with badextent := !r.fullextent }
/-- `Rule::addIndex`, `Rule.cc:295-303`. -/
def addIndex (r : Rule) (m : Nat) : Res Rule := do
  let r ← rmIfPresent r m
  .ok (addEntry r m .index 0 0)

/-- `PIOL_META_COPY`, `Meta.h`. (Line 26.) -/
def COPY : Nat := 0

/-- `Rule::addCopy`, `Rule.cc:305-311`. -/
def addCopy (r : Rule) : Rule :=
  if r.cnt .copy = 0 then
    { r with map := put r.map COPY (some ⟨.copy, 0, 0, 0⟩), cnt := upd r.cnt .copy 1 }
  else r

/-- The `switch` of `Rule::addRule(Meta)`, `Rule.cc:114-229`, with the values
of `Meta.h` and `Tr.h`. -/
def known (m : Nat) : Option (Kind × Nat × Nat) :=
  match m with
  | 18 => some (.float, 61, 69)   -- WtrDepSrc
  | 19 => some (.float, 65, 69)   -- WtrDepRcv
  | 20 => some (.float, 73, 71)   -- xSrc
  | 21 => some (.float, 77, 71)   -- ySrc
  | 22 => some (.float, 81, 71)   -- xRcv
  | 23 => some (.float, 85, 71)   -- yRcv
  | 24 => some (.float, 181, 71)  -- xCmp
  | 25 => some (.float, 185, 71)  -- yCmp
  | 26 => some (.long, 189, 0)    -- il
  | 27 => some (.long, 193, 0)    -- xl
  | 14 => some (.long, 37, 0)     -- Offset (CDist)
  | 5 => some (.long, 5, 0)       -- tn (SeqFNum)
  | 0 => some (.copy, 0, 0)       -- COPY
  | 3 => some (.long, 1, 0)       -- tnl (SeqNum)
  | 4 => some (.long, 13, 0)      -- tnr (TORF)
  | 6 => some (.long, 25, 0)      -- tne (SeqNumEns)
  | 10 => some (.long, 17, 0)     -- SrcNum (ENSrcNum)
  | 9 => some (.short, 29, 0)     -- Tic
  | 12 => some (.short, 31, 0)    -- VStack
  | 13 => some (.short, 33, 0)    -- HStack
  | 15 => some (.float, 41, 69)   -- RGElev (RcvElv)
  | 16 => some (.float, 45, 69)   -- SSElev (SurfElvSrc)
  | 17 => some (.float, 49, 69)   -- SDElev (SrcDpthSurf)
  | 7 => some (.short, 115, 0)    -- ns
  | 8 => some (.short, 117, 0)    -- inc
  | 11 => some (.float, 197, 201) -- ShotNum
  | 29 => some (.short, 203, 0)   -- TraceUnit (ValMeas)
  | 28 => some (.short, 211, 0)   -- TransUnit
  | _ => none

/-- The add call made for a kind. `Rule.cc` 384-410. -/
def addKind (r : Rule) (m : Nat) (k : Kind) (loc scal : Nat) : Res Rule :=
  match k with
  | .long => addLong r m loc
  | .short => addShort r m loc
  | .float => addFloat r m loc scal
  | .index => addIndex r m
  | .copy => .ok (addCopy r)

/-- `Rule::addRule(Meta)`, `Rule.cc:108-233`. -/
def addRule (r : Rule) (m : Nat) : Res (Rule × Bool) :=
  match find r.map m with
  | some _ => .ok (r, false)
  | none =>
    match known m with
    | none => .ok (r, false)
    | some (k, loc, scal) => do
      let r ← addKind r m k loc scal
      .ok (r, true)

/-- `Rule::addRule(const Rule&)`, `Rule.cc:380-415`, over the entries of the
argument; a null entry is dereferenced only if the key is absent here. -/
def addRules (r : Rule) : Map → Res Rule
  | [] => .ok r
  | (m, e) :: l =>
    match find r.map m with
    | some _ => addRules r l
    | none =>
      match e with
      | none => .ub
      | some e => do
        let r ← addKind r m e.kind e.loc e.scalLoc
        addRules r l

/-- Loop of `Rule::extent`, `Rule.cc:244-249`. -/
def extentLoop (s e : Nat) : Map → Res (Nat × Nat)
  | [] => .ok (s, e)
  | (_, none) :: _ => .ub
  | (_, some x) :: l =>
    if x.kind ≠ .index then extentLoop (Nat.min s x.min) (Nat.max e x.max) l
    else extentLoop s e l

/-- `Rule::extent`, `Rule.cc:235-256`: new state and result. -/
def extent (r : Rule) : Res (Rule × Nat) :=
  if r.fullextent then .ok (r, 240)
  else if r.badextent then do
    let (s, e) ← extentLoop 240 0 r.map
    .ok ({ r with start := s, stop := e, badextent := false }, sub64 e s)
  else .ok (r, sub64 r.stop r.start)

/-- `Rule::getEntry`, `Rule.cc:358-361`: `operator[]` inserts a null pointer
for an absent key.  Result: the entry, `none` for the null pointer. -/
def getEntry (r : Rule) (m : Nat) : Rule × Option Entry :=
  match find r.map m with
  | some e => (r, e)
  | none => ({ r with map := put r.map m none }, none)

/-- `PIOL_META_gtn`, `Meta.h` 32. -/
def gtn : Nat := 2
/-- `PIOL_META_ltn`, `Meta.h` 29. -/
def ltn : Nat := 1

/-- `default_metas`, `Rule.cc:13-16`. -/
def defaultMetas : List Nat := [20, 21, 22, 23, 24, 25, 14, 26, 27, 5]
/-- `extra_metas`, `Rule.cc:19-23`. -/
def extraMetas : List Nat := [3, 4, 6, 10, 9, 12, 13, 15, 16, 17, 7, 8, 11, 29, 28]

/-- `addRule` for each element of a list. `Rule.cc` 69-83. -/
def addAll (r : Rule) : List Nat → Res Rule
  | [] => .ok r
  | m :: ms => do
    let (r, _) ← addRule r m
    addAll r ms

/-- End of both constructors, `Rule.cc:48-57` and `84-93`. -/
def finish (r : Rule) (full : Bool) : Res Rule :=
  if full then .ok { r with start := 0, stop := 240, badextent := false }
  else do
    let (r, _) ← extent { r with badextent := true }
    .ok r

/-- `Rule::Rule(mlist, full, defaults, extras)`, `Rule.cc:60-94`. -/
def ctor (mlist : List Nat) (full defaults extras : Bool) : Res Rule := do
  let r : Rule := ⟨[], fun _ => 0, 0, 0, false, full⟩
  let r ← addIndex r gtn
  let r ← addIndex r ltn
  let r ← addAll r mlist
  let r ← addAll r (if defaults then defaultMetas else [])
  let r ← addAll r (if extras then extraMetas else [])
  finish r full

/-- Counting loop of the map constructor, `Rule.cc:27-45`. -/
def countKinds : Map → Res (Kind → Nat)
  | [] => .ok fun _ => 0
  | (_, none) :: _ => .ub
  | (_, some e) :: l => do
    let c ← countKinds l
    .ok (upd c e.kind (c e.kind + 1))

/-- `Rule::Rule(RuleMap, full)`, `Rule.cc:25-58`. -/
def ctorMap (l : Map) (full : Bool) : Res Rule := do
  let c ← countKinds l
  finish ⟨l, c, 0, 0, false, full⟩ full

/-- Calls on a rule. The functions of `Rule.hh` 101-194. -/
inductive Op where
  | addLong (m loc : Nat)
  | addShort (m loc : Nat)
  | addFloat (m loc scal : Nat)
  | addIndex (m : Nat)
  | addCopy
  | rmRule (m : Nat)
  | addRule (m : Nat)
  | addRules (other : Map)
  | getEntry (m : Nat)
  | extent

/-- What a call returns. The functions of `Rule.hh` 101-194. -/
inductive Out where
  | unit
  | bool (b : Bool)
  | size (n : Nat)
  | entry (e : Option Entry)
  deriving DecidableEq

/-- One call. The functions of `Rule.hh` 101-194. -/
def step (r : Rule) : Op → Res (Rule × Out)
  | .addLong m loc => do .ok (← addLong r m loc, .unit)
  | .addShort m loc => do .ok (← addShort r m loc, .unit)
  | .addFloat m loc scal => do .ok (← addFloat r m loc scal, .unit)
  | .addIndex m => do .ok (← addIndex r m, .unit)
  | .addCopy => .ok (addCopy r, .unit)
  | .rmRule m => do .ok (← rmRule r m, .unit)
  | .addRule m => do
    let (r, b) ← addRule r m
    .ok (r, .bool b)
  | .addRules l => do .ok (← addRules r l, .bool true)
  | .getEntry m => let (r, e) := getEntry r m; .ok (r, .entry e)
  | .extent => do
    let (r, n) ← extent r
    .ok (r, .size n)

/-- A sequence of calls, with their results. The functions of `Rule.hh` 101-194. -/
def run (r : Rule) : List Op → Res (Rule × List Out)
  | [] => .ok (r, [])
  | op :: ops => do
    let (r, o) ← step r op
    let (r, os) ← run r ops
    .ok (r, o :: os)

end Verif.Rules
