import Verif.HashTableModel

/-!
# Slot reservation back-ends and `parallel_insert`

`parallel_insert` reserves slots with one of three algorithms (insert.py:456-498): the XLA rounds (`HashTable.place`), the
Triton kernel on GPUs (`insert_triton.py`) and the bucket-owner kernel on TPUs (`insert_pallas.py`).

## Triton kernel

One program per lane, all running concurrently over the shared occupancy words.  The kernel is modelled as a transition
system whose atomic steps are the plain read of an occupancy word, one `atomic_or`, and the loop control.  A schedule is an
arbitrary list of pairs (lane, choice); the plain read returns an arbitrary value the word has held since the kernel
started, selected by `choice` (so stale reads, as allowed by the GPU memory model, are included), whereas `atomic_or` acts on
the latest value.
-/

namespace HashTable

open Jax SortGroup Dedupe

variable {α : Type u} [BEq α]

/-- `_full_mask_u32` (insert_triton.py:51-54, insert_pallas.py:34-37). -/
def fullMask (bs : Nat) : Nat := if bs ≥ 32 then 0xFFFFFFFF else 2 ^ bs - 1

/-- Program counter and local variables of one program (insert_triton.py:76-135): at the outer loop head, at the inner
loop head, or finished. -/
inductive TLane
  | head (probe bucket : Nat)
  | inner (probe bucket attempt view : Nat)
  | done (bucket slot : Nat) (inserted : Bool)
  deriving Inhabited

/-- Values held so far by every occupancy word (latest first), and the programs. -/
structure TState where
  hist : Nat → List Nat
  lanes : List TLane

/-- Latest value of an occupancy word. -/
def TState.cur (s : TState) (b : Nat) : Nat := (s.hist b).headD 0

/-- Add a value to the history of a word. -/
def pushHist (h : Nat → List Nat) (b v : Nat) : Nat → List Nat := fun b' => if b' = b then v :: h b else h b'

/-- One atomic step of program `i`. `free`, `lsb`, `claimed` are lines 100-109, the slot `31 - clz(lsb)` is the index of the
only bit of `lsb`. -/
def tStep (T : Table α) (steps : List Nat) (mpb : Nat) (s : TState) (ic : Nat × Nat) : TState :=
  match s.lanes[ic.1]? with
  | some (.head probe b) =>
    if probe < mpb then                                                                          -- 81-86
      { s with lanes := s.lanes.set ic.1 (.inner probe b 0 ((s.hist b).getD ic.2 (s.cur b))) }   -- 92
    else { s with lanes := s.lanes.set ic.1 (.done b 0 false) }
  | some (.inner probe b att view) =>
    if att < T.bs then                                                                           -- 94-96
      let free := (view ^^^ 0xFFFFFFFF) &&& fullMask T.bs
      if free ≠ 0 then
        let lsb := free &&& ((2 ^ 32 - free) % 2 ^ 32)
        let old := s.cur b
        { hist := pushHist s.hist b (old ||| lsb)                                                -- 106
          lanes := s.lanes.set ic.1
            (if old &&& lsb = 0 then .done b (Nat.log2 lsb) true                                 -- 107, 114-116
             else .inner probe b (att + 1) (old ||| lsb)) }                                      -- 109-112, 118
      else { s with lanes := s.lanes.set ic.1 (.inner probe b T.bs view) }                       -- 118
    else { s with lanes := s.lanes.set ic.1 (.head (probe + 1) (next T b (steps.getD ic.1 0))) } -- 126-128
  | _ => s

/-- A schedule. -/
def tRun (T : Table α) (steps : List Nat) (mpb : Nat) (s : TState) (sched : List (Nat × Nat)) : TState :=
  sched.foldl (tStep T steps mpb) s

/-- Initial state (insert_triton.py:75-78, 130-134): an inactive program ends at once. -/
def tInit (T : Table α) (starts : List Nat) (active : List Bool) : TState where
  hist := fun b => [T.occ.getD b 0]
  lanes := tab active.length fun i =>
    if active.getD i false then .head 0 (starts.getD i 0) else .done (starts.getD i 0) 0 false

/-- Number of steps within which every program ends, whatever the others do (`tri_done_of_steps`). -/
def tFuel (T : Table α) (mpb : Nat) : Nat := (mpb + 1) * (T.bs + 3)

/-- A schedule that lets the programs finish one after the other. -/
def finishSched (T : Table α) (mpb n : Nat) : List (Nat × Nat) :=
  (List.range n).flatMap fun i => List.replicate (tFuel T mpb) (i, 0)

/-- Whether program `i` has ended. -/
def TState.isDone (s : TState) (i : Nat) : Prop := ∃ b sl ins, s.lanes[i]? = some (.done b sl ins)

/-- Output refs of a program (insert_triton.py:137-139). -/
def TLane.out : TLane → Pos × Bool
  | .done b sl ins => (⟨b, sl⟩, ins)
  | .head _ b => (⟨b, 0⟩, false)
  | .inner _ b _ _ => (⟨b, 0⟩, false)

/-- `jax.lax.population_count` of a 32-bit word. -/
def popcount32 (w : Nat) : Nat := (List.range 32).countP fun i => w.testBit i

/-- Result of a reservation. -/
structure Reserved where
  fill : List Nat
  occ : List Nat
  pos : List Pos
  ok : List Bool

/-- `reserve_slots_triton` (insert_triton.py:62-226) under the schedule `sched`, followed by `finishSched` so that every
program ends (nothing happens in it if `sched` already ran every program to its end), and the fill levels computed from the
occupancy words (insert.py:297-312). `max_probe_buckets` is at most `_capacity` (line 155). -/
def tritonReserve (T : Table α) (steps starts : List Nat) (active : List Bool) (mpb : Nat) (sched : List (Nat × Nat)) :
    Reserved :=
  let m := min mpb T.cap
  let s := tRun T steps m (tRun T steps m (tInit T starts active) sched) (finishSched T m active.length)
  let occ := tab T.occ.length fun b => s.cur b
  let pos := s.lanes.map fun l => l.out.1
  let ok := s.lanes.map fun l => l.out.2
  { fill := scatterSet T.fill (tab ok.length fun i => if ok.getD i false then (pos.getD i default).bucket else T.fill.length)
      (pos.map fun p => popcount32 (rd occ p.bucket &&& fullMask T.bs))
    occ := occ, pos := pos, ok := ok }

/-! ## Bucket-owner kernel (TPU) -/

/-- Mutable refs of `bucket_owner_kernel` (insert_pallas.py:43-55). -/
structure PKernel where
  fill : List Nat
  occ : List Nat
  outSlot : List Nat
  outIns : List Bool

/-- One iteration of the unrolled `for offset in range(bucket_size)` (insert_pallas.py:73-84); `kf.2` is the local
`fill`. -/
def pOffset (bs pid glen : Nat) (kf : PKernel × Nat) (offset : Nat) : PKernel × Nat :=
  if offset < glen ∧ kf.2 < bs then
    ({ kf.1 with outSlot := kf.1.outSlot.set (pid + offset) kf.2, outIns := kf.1.outIns.set (pid + offset) true }, kf.2 + 1)
  else kf

/-- One program of the kernel (insert_pallas.py:56-93). -/
def pProgram (cap bs : Nat) (sortedBucket : List Nat) (groupStart : List Bool) (groupLen : List Nat) (k : PKernel)
    (pid : Nat) : PKernel :=
  let b := sortedBucket.getD pid 0
  if groupStart.getD pid false = true ∧ b < cap then
    let r := (List.range bs).foldl (pOffset bs pid (groupLen.getD pid 0)) (k, min (k.fill.getD b 0) bs)
    { r.1 with fill := r.1.fill.set b r.2,
               occ := r.1.occ.set b (if r.2 ≥ bs then fullMask bs else (2 ^ r.2 % 2 ^ 32 + 2 ^ 32 - 1) % 2 ^ 32) }
  else k

/-- State of the rounds loop (insert_pallas.py:139-141). -/
structure PState where
  fill : List Nat
  occ : List Nat
  cur : List Nat
  res : List Pos
  ins : List Bool
  pending : List Bool

/-- `bucket_key` of a lane (insert_pallas.py:145). -/
def pKey (cap : Nat) (s : PState) (i : Nat) : Nat := if s.pending.getD i false then s.cur.getD i 0 else cap

/-- `sorted_batch_idx` (insert_pallas.py:148-153). -/
def pSorted (cap n : Nat) (s : PState) : List Nat := stableSort (leBy (pKey cap s)) (List.range n)

/-- The `pallas_call` of one round (insert_pallas.py:155-199); programs run in grid order. -/
def pKernel (cap bs n : Nat) (s : PState) : PKernel :=
  let sorted := pSorted cap n s
  let starts := groupStarts (sameAll [leBy (pKey cap s)]) sorted
  let gid := groupIds starts
  let groupLen := tab n fun p => if starts.getD p false then gid.countP (· == gid.getD p 0) else 0    -- 158-163
  (List.range n).foldl (pProgram cap bs (tab n fun p => pKey cap s (sorted.getD p 0)) starts groupLen)
    { fill := s.fill, occ := s.occ, outSlot := List.replicate n 0, outIns := List.replicate n false }

/-- One round (insert_pallas.py:143-231). -/
def pRound (T : Table α) (steps : List Nat) (n : Nat) (s : PState) : PState :=
  let sorted := pSorted T.cap n s
  let k := pKernel T.cap T.bs n s
  let insR := scatterSet (List.replicate n false) sorted k.outIns                                     -- 201-205
  let slotR := scatterSet (List.replicate n 0) sorted k.outSlot                                       -- 206-210
  let bucketR := scatterSet (List.replicate n 0) sorted (tab n fun p => pKey T.cap s (sorted.getD p 0))
  let newly := tab n fun i => s.pending.getD i false && insR.getD i false                             -- 217
  let pending := tab n fun i => s.pending.getD i false && !insR.getD i false                          -- 222
  { fill := k.fill, occ := k.occ
    res := tab n fun i => if newly.getD i false then ⟨bucketR.getD i 0, slotR.getD i 0⟩ else s.res.getD i default
    ins := tab n fun i => s.ins.getD i false || newly.getD i false
    pending := pending
    cur := tab n fun i => if pending.getD i false then next T (s.cur.getD i 0) (steps.getD i 0) else s.cur.getD i 0 }

/-- The rounds loop (insert_pallas.py:139-141, 233-247). -/
def pLoop (T : Table α) (steps : List Nat) (n : Nat) : Nat → PState → PState
  | 0, s => s
  | rounds + 1, s => if s.pending.any id then pLoop T steps n rounds (pRound T steps n s) else s

/-- `reserve_slots_pallas` (insert_pallas.py:97-277).  (For an empty batch the loop does not run.) -/
def pallasReserve (T : Table α) (steps starts : List Nat) (active : List Bool) (mpb : Nat) : Reserved :=
  let n := active.length
  let s := pLoop T steps n (min mpb T.cap)
    { fill := T.fill, occ := T.occ, cur := starts, res := tab n fun i => ⟨starts.getD i 0, 0⟩,
      ins := List.replicate n false, pending := active }
  { fill := s.fill, occ := s.occ, pos := s.res, ok := s.ins }

/-! ## Dispatch -/

/-- Which reservation `parallel_insert` uses (insert.py:456-466).  `mpb` is `max_probe_buckets`: `_capacity` unless the
environment variable sets it; a Triton run also has a schedule. -/
inductive Backend
  | xla
  | triton (mpb : Nat) (sched : List (Nat × Nat))
  | pallas (mpb : Nat)

/-- Table update shared by the two kernels' wrappers (insert.py:280-296, 313-320 and 346-370). -/
def applyReserved (H : Hasher α) (T : Table α) (xs : List α) (r : Reserved) : Table α × List Pos × List Bool :=
  let idx := tab r.ok.length fun i =>
    if r.ok.getD i false then flat T (r.pos.getD i default).bucket (r.pos.getD i default).slot else T.fps.length
  ({ T with
      table := scatterSet T.table idx xs
      fps := scatterSet T.fps idx (xs.map H.fp)
      fill := r.fill
      occ := r.occ
      size := (T.size + r.ok.countP id) % 2 ^ 32 },
   r.pos.map (fun p => { p with slot := p.slot % 256 }), r.ok)

/-- Reservation by back-end (insert.py:456-498): the kernels are used only for at most 32 slots per bucket. -/
def placeBy (be : Backend) (H : Hasher α) (T : Table α) (xs : List α) (pos0 : List Pos) (upd : List Bool) :
    Table α × List Pos × List Bool :=
  match be with
  | .xla => place H T xs pos0 upd
  | .triton mpb sched =>
    if T.bs ≤ 32 then
      applyReserved H T xs (tritonReserve T (xs.map (step H T)) (pos0.map (·.bucket)) upd mpb sched)
    else place H T xs pos0 upd
  | .pallas mpb =>
    if T.bs ≤ 32 then applyReserved H T xs (pallasReserve T (xs.map (step H T)) (pos0.map (·.bucket)) upd mpb)
    else place H T xs pos0 upd

/-- Result of `parallel_insert`. -/
structure PResult (α : Type u) where
  table : Table α
  inserted : List Bool
  unique : List Bool
  idx : List Nat

/-- `_process_insert` of `_hashtable_parallel_insert_jit` (insert.py:396-535).  `dd` is the result of the
in-batch de-duplication (lines 397-437). -/
def parallelInsertWith (be : Backend) (H : Hasher α) (T : Table α) (xs : List α) (filled : List Bool) (dd : List Bool × List Nat) :
    PResult α :=
  let n := xs.length
  let lanes := lookupLanes H T xs (tab n fun i => !dd.1.getD i false) filled          -- 443-452
  let found := lanes.map (·.found)
  let upd := tab n fun i => !found.getD i false && dd.1.getD i false                   -- 454
  let pos0 := lanes.map fun l => ({ bucket := l.bucket, slot := l.slot } : Pos)
  let r := placeBy be H T xs pos0 upd                                                       -- 491-498
  let prov := tab n fun i =>                                                           -- 500-522
    if found.getD i false || !r.2.2.getD i false then pos0.getD i default else r.2.1.getD i default
  { table := r.1, inserted := r.2.2, unique := dd.1,
    idx := tab n fun i => let p := prov.getD (dd.2.getD i 0) default; flat T p.bucket p.slot }  -- 524-535

/-- `parallel_insert(inputs, filled, unique_key)` with an array mask (`filled = None` and a scalar `True` are the
all-true mask; a scalar `False` is a no-op, see `parallelInsertEmpty`). -/
def parallelInsert {K : Type v} [KeyTop K] (be : Backend) (mode : Mode) (H : Hasher α) (T : Table α) (xs : List α)
    (filled : List Bool) (key : Option (List K)) : PResult α :=
  parallelInsertWith be H T xs filled (dedupe mode H.toEnc xs filled key)

/-- `_empty_insert` (insert.py:537-543): scalar `filled = False`. -/
def parallelInsertEmpty (T : Table α) (xs : List α) : PResult α :=
  { table := T, inserted := xs.map fun _ => false, unique := xs.map fun _ => false, idx := xs.map fun _ => 0 }

end HashTable
