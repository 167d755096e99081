import Verif.NArr

/-!
# The `jax.numpy` functions used by the dataclass operations, on `NArr`

These are models of library functions (trusted to be numpy's), not of code in `/repo`; each is used at the lines cited in
`SoAModel`.  `none` is an exception.  dtypes are left out.
-/

namespace NArr

variable {α : Type} [Inhabited α]

instance : Inhabited (NArr α) := ⟨⟨[], [default]⟩⟩

/-- Axis normalisation: `-nd ≤ axis < nd`. -/
def normAxis (axis : Int) (nd : Nat) : Option Nat :=
  if 0 ≤ axis ∧ axis < nd then some axis.toNat
  else if axis < 0 ∧ 0 ≤ axis + nd then some (axis + nd).toNat
  else none

/-- Trailing dimensions equal or 1. -/
def bcastDims : List Nat → List Nat → Bool
  | [], [] => true
  | d :: s, e :: t => (d == e || d == 1) && bcastDims s t
  | _, _ => false

/-- Source index of a broadcast: trailing alignment, axes of length 1 repeat. -/
def bcastSrc (s i : List Nat) : List Nat :=
  List.zipWith (fun d k => if d = 1 then 0 else k) s (i.drop (i.length - s.length))

/-- `jnp.broadcast_to`. -/
def broadcastTo (a : NArr α) (t : List Nat) : Option (NArr α) :=
  if a.shape.length ≤ t.length ∧ bcastDims a.shape (t.drop (t.length - a.shape.length)) = true then
    some (ofFn t fun i => a.get (bcastSrc a.shape i))
  else none

/-! ## Indexing -/

/-- Basic index: an integer or a slice. -/
inductive Basic where
  | int (i : Int)
  | slice (start stop step : Option Int)

/-- `x[index]`: a tuple of basic indices (one: `x[3]`, `x[2:5]`), a tuple of integer arrays of one shape `s` (one: `x[arr]`), a boolean mask. -/
inductive Index where
  | basic (l : List Basic)
  | adv (s : List Nat) (cols : List (List Int))
  | mask (s : List Nat) (bits : List Bool)

/-- `range(d)[start:stop:step]` (Python's `slice.indices`). -/
def sliceList (d : Nat) (start stop step : Option Int) : Option (List Nat) :=
  let st := step.getD 1
  if st = 0 then none
  else
    let lower : Int := if st < 0 then -1 else 0
    let upper : Int := if st < 0 then (d : Int) - 1 else d
    let clampEnd (x : Int) : Int := if x < 0 then max (x + d) lower else min x upper
    let a := (start.map clampEnd).getD (if st < 0 then upper else lower)
    let b := (stop.map clampEnd).getD (if st < 0 then lower else upper)
    let n := if st < 0 then ((a - b + (-st) - 1) / (-st)).toNat else ((b - a + st - 1) / st).toNat
    some ((List.range n).map fun (k : Nat) => (a + (k : Int) * st).toNat)

/-- Negative indices count from the end. -/
def wrapIdx (d : Nat) (i : Int) : Int := if i < 0 then i + d else i

/-- What an index selects: the shape of the selection, the number of leading axes it consumes, and for every position of the
selection the index tuple into these axes (possibly out of range). -/
structure Resolved where
  out : List Nat
  m : Nat
  src : List Nat → List Int

def resolveBasic : List Basic → List Nat → Option Resolved
  | [], _ => some ⟨[], 0, fun _ => []⟩
  | .int i :: bs, d :: s => (resolveBasic bs s).map fun r => ⟨r.out, r.m + 1, fun j => wrapIdx d i :: r.src j⟩
  | .slice a b st :: bs, d :: s =>
    (sliceList d a b st).bind fun l => (resolveBasic bs s).map fun r =>
      ⟨l.length :: r.out, r.m + 1, fun j => (l.getD (j.headD 0) 0 : Int) :: r.src j.tail⟩
  | _ :: _, [] => none

/-- Positions of the true entries of a mask. -/
def truePositions (s : List Nat) (bits : List Bool) : List (List Nat) :=
  (((indices s).zip bits).filter fun p => p.2).map fun p => p.1

def resolve : Index → List Nat → Option Resolved
  | .basic l, shape => resolveBasic l shape
  | .adv s cols, shape =>
    if cols.length ≤ shape.length then
      some ⟨s, cols.length, fun j =>
        (List.range cols.length).map fun c => wrapIdx (shape.getD c 0) ((cols.getD c []).getD (ravel s j) 0)⟩
    else none
  | .mask s bits, shape =>
    if s.length ≤ shape.length ∧ shape.take s.length = s ∧ bits.length = size s then
      some ⟨[(truePositions s bits).length], s.length, fun j => ((truePositions s bits).getD (j.headD 0) []).map Int.ofNat⟩
    else none

/-- Gathers clamp out-of-range indices. -/
def clampIdx : List Nat → List Int → List Nat
  | d :: s, i :: is => (max 0 (min i ((d : Int) - 1))).toNat :: clampIdx s is
  | _, _ => []

/-- `a[index]`. -/
def index (a : NArr α) (I : Index) : Option (NArr α) :=
  (resolve I a.shape).map fun R =>
    ofFn (R.out ++ a.shape.drop R.m) fun k => a.get (clampIdx a.shape (R.src (k.take R.out.length)) ++ k.drop R.out.length)

/-- Scatters drop out-of-range indices. -/
def inRange : List Nat → List Int → Bool
  | _, [] => true
  | d :: s, i :: is => decide (0 ≤ i ∧ i < d) && inRange s is
  | [], _ :: _ => false

/-- One update of a scatter: rows `t` become row `k` of `w`. -/
def setRow (a : NArr α) (t : List Int) (k : List Nat) (w : NArr α) : NArr α :=
  if inRange a.shape t then
    ofFn a.shape fun i => if i.take t.length = t.map Int.toNat then w.get (k ++ i.drop t.length) else a.get i
  else a

/-- `a.at[index].set(w)`; the updates are applied in the order `ord`: which of several updates of one row survives is not specified. -/
def atSet (ord : List (List Nat)) (a : NArr α) (I : Index) (w : NArr α) : Option (NArr α) :=
  (resolve I a.shape).bind fun R => (broadcastTo w (R.out ++ a.shape.drop R.m)).map fun w' =>
    ord.foldl (fun acc k => setRow acc (R.src k) k w') a

/-! ## Joining and splitting -/

/-- Which part of a concatenation a position falls into, and where. -/
def locate : List Nat → Nat → Nat × Nat
  | [], i => (0, i)
  | d :: ds, i => if i < d then (0, i) else ((locate ds (i - d)).1 + 1, (locate ds (i - d)).2)

/-- `jnp.concatenate`. -/
def concatenate (as : List (NArr α)) (axis : Int) : Option (NArr α) :=
  match as with
  | [] => none
  | a :: _ => (normAxis axis a.shape.length).bind fun ax =>
    if as.all fun b => b.shape.length == a.shape.length && b.shape.eraseIdx ax == a.shape.eraseIdx ax then
      let dims := as.map fun b => b.shape.getD ax 0
      some (ofFn (a.shape.set ax dims.sum) fun i =>
        let p := locate dims (i.getD ax 0)
        (as.getD p.1 default).get (i.set ax p.2))
    else none

/-- `jnp.expand_dims`. -/
def expandDims (a : NArr α) (axis : Int) : Option (NArr α) :=
  (normAxis axis (a.shape.length + 1)).map fun ax => ⟨a.shape.take ax ++ 1 :: a.shape.drop ax, a.data⟩

/-- `jnp.stack`. -/
def stack (as : List (NArr α)) (axis : Int) : Option (NArr α) :=
  match as with
  | [] => none
  | a :: _ => (normAxis axis (a.shape.length + 1)).bind fun ax =>
    if as.all fun b => b.shape == a.shape then
      some (ofFn (a.shape.take ax ++ as.length :: a.shape.drop ax) fun i => (as.getD (i.getD ax 0) default).get (i.eraseIdx ax))
    else none

/-- What `jnp.take` does with an index that is out of range: `mode="fill"` (the default), `mode="clip"`, `mode="wrap"`. -/
inductive TakeMode where
  | fill
  | clip
  | wrap
  deriving DecidableEq

/-- The position read for the index `i` on a nonempty axis of length `d`; `none`: the fill value is put there.  Negative indices count
from the end with `fill` only; `clip` replaces them by 0. -/
def TakeMode.pos : TakeMode → Nat → Int → Option Nat
  | .fill, d, i => if 0 ≤ wrapIdx d i ∧ wrapIdx d i < d then some (wrapIdx d i).toNat else none
  | .clip, d, i => some (min i.toNat (d - 1))
  | .wrap, d, i => some (i % (d : Int)).toNat

/-- `jnp.take(a, inds, axis, mode=mode, fill_value=oob)` with an index array of shape `s`.  On an axis of length 0 it raises, except that
with an empty index array it returns `a`. -/
def takeMode (mode : TakeMode) (oob : α) (a : NArr α) (s : List Nat) (inds : List Int) (axis : Int) : Option (NArr α) :=
  (normAxis axis a.shape.length).bind fun ax =>
    if a.shape.getD ax 0 = 0 then (if size s = 0 then some a else none)
    else some (ofFn (a.shape.take ax ++ s ++ a.shape.drop (ax + 1)) fun i =>
      match mode.pos (a.shape.getD ax 0) (inds.getD (ravel s ((i.drop ax).take s.length)) 0) with
      | some v => a.get (i.take ax ++ v :: i.drop (ax + s.length))
      | none => oob)

/-- `jnp.take(a, inds, axis)`: the default mode. -/
def take (oob : α) (a : NArr α) (s : List Nat) (inds : List Int) (axis : Int) : Option (NArr α) := takeMode .fill oob a s inds axis

/-- The part `lo ≤ position < hi` along an axis. -/
def sliceAxis (a : NArr α) (ax lo hi : Nat) : NArr α :=
  ofFn (a.shape.set ax (hi - lo)) fun i => a.get (i.set ax (i.getD ax 0 + lo))

/-- The two forms of `indices_or_sections`. -/
inductive Sections where
  | sections (n : Nat)
  | at (points : List Nat)

/-- Increasing and at most `hi`. -/
def increasing : Nat → List Nat → Nat → Bool
  | lo, [], hi => decide (lo ≤ hi)
  | lo, p :: ps, hi => decide (lo ≤ p) && increasing p ps hi

/-- The bounds of the parts. -/
def partBounds : Nat → List Nat → Nat → List (Nat × Nat)
  | lo, [], hi => [(lo, hi)]
  | lo, p :: ps, hi => (lo, p) :: partBounds p ps hi

/-- `jnp.split`; split points that are not increasing within the axis are not modelled (`none`). -/
def split (a : NArr α) (how : Sections) (axis : Int) : Option (List (NArr α)) :=
  (normAxis axis a.shape.length).bind fun ax =>
    let d := a.shape.getD ax 0
    match how with
    | .sections n =>
      if n = 0 then none
      else if d % n ≠ 0 then none
      else some ((List.range n).map fun k => sliceAxis a ax (k * (d / n)) ((k + 1) * (d / n)))
    | .at ps => if increasing 0 ps d then some ((partBounds 0 ps d).map fun p => sliceAxis a ax p.1 p.2) else none

/-- `jnp.pad(a, widths, mode="constant", constant_values=v)`. -/
def padConst (v : α) (a : NArr α) (widths : List (Nat × Nat)) : Option (NArr α) :=
  if widths.length = a.shape.length then
    some (ofFn (List.zipWith (fun d (w : Nat × Nat) => d + w.1 + w.2) a.shape widths) fun i =>
      let src := List.zipWith (fun (k : Nat) (w : Nat × Nat) => (k : Int) - (w.1 : Int)) i widths
      if inRange a.shape src then a.get (src.map Int.toNat) else v)
  else none

/-- `jnp.where` on arrays of one shape. -/
def whereSame (c : NArr Bool) (a b : NArr α) : NArr α := ofFn a.shape fun i => if c.get i then a.get i else b.get i

/-! ## Shapes -/

/-- `jnp.reshape` (with a shape without -1). -/
def reshape (a : NArr α) (s : List Nat) : Option (NArr α) := if size s = size a.shape then some ⟨s, a.data⟩ else none

/-- Every axis of `0 … nd-1` occurs exactly once. -/
def isPerm (axes : List Nat) (nd : Nat) : Bool := axes.length == nd && (List.range nd).all fun i => axes.contains i

/-- `jnp.transpose(a, axes)`. -/
def transpose (a : NArr α) (axes : List Int) : Option (NArr α) :=
  (axes.mapM fun ax => normAxis ax a.shape.length).bind fun p =>
    if isPerm p a.shape.length then
      some (ofFn (p.map fun ax => a.shape.getD ax 0) fun i => a.get ((List.range a.shape.length).map fun ax => i.getD (p.idxOf ax) 0))
    else none

/-- `jnp.swapaxes`. -/
def swapaxes (a : NArr α) (ax1 ax2 : Int) : Option (NArr α) :=
  (normAxis ax1 a.shape.length).bind fun p => (normAxis ax2 a.shape.length).map fun q =>
    ofFn ((a.shape.set p (a.shape.getD q 0)).set q (a.shape.getD p 0)) fun i => a.get ((i.set p (i.getD q 0)).set q (i.getD p 0))

end NArr
