import Verif.BgpqConfigModel
import Verif.BgpqProps

/-!
# C99: settings that change while the program runs

`insert`, `delete_mins`, `merge_buffer` and `merge_sort_split` are `jax.jit` functions (_delete.py:200, _insert.py:22, 195, _merge.py:58).  Their Python code,
which reads the environment, runs when they are traced; the trace is kept and used by all later calls with arguments of the same shapes.  A trace that raises
is not kept, but the traces of inner functions that were finished before are.  Here: all queues of one value class and key dtype in one process, and an
environment that may differ from call to call.  `XTRUCTURE_BGPQ_MERGE_BACKEND` is read on import (_constants.py:25-28).
-/

namespace Bgpq

open MergeModel BgpqSpec

/-- Number of nodes and batch size of a queue: what determines the shapes of its arrays. -/
abbrev QShape := Nat × Nat

/-- The kept traces: of `merge_sort_split` by the lengths of the arrays, of `merge_buffer`, `insert` and `delete_mins` by the shape of the queue.
A trace of `insert` is given by its strategies for two rows and for the buffer, one of `delete_mins` by those for a row with the buffer and for two rows. -/
structure Traces where
  split : Nat → Nat → Option Strat
  buffer : QShape → Option Strat
  insert : QShape → Option (Strat × Strat)
  delete : QShape → Option (Strat × Strat)

/-- A new process. -/
def Traces.empty : Traces := ⟨fun _ _ => none, fun _ => none, fun _ => none, fun _ => none⟩

/-- `f` with another value at `a`. -/
def update {A : Type} {B : Type u} [DecidableEq A] (f : A → B) (a : A) (b : B) : A → B := fun x => if x = a then b else f x

variable {K : Type u} [KeyPad K] {E : Type v}

/-- The setup with another environment; what was read on import stays. -/
def Setup.at (c : Setup K E) (env : Env) : Setup K E :=
  { c with env := fun name => if name = "XTRUCTURE_BGPQ_MERGE_BACKEND" then c.env name else env name }

/-- `merge_sort_split` (_merge.py:58-106) is met while tracing. -/
def traceSplit (c : Setup K E) (t : Traces) (n m : Nat) : Traces × Except CfgErr Strat :=
  match t.split n m with
  | some s => (t, .ok s)
  | none =>
    match c.resolve .sortsplit n m with
    | .error e => (t, .error e)
    | .ok s => ({ t with split := update t.split n (update (t.split n) m (some s)) }, .ok s)

/-- `_bgpq_merge_buffer_jit` (_insert.py:22-70) is met while tracing. -/
def traceBuffer (c : Setup K E) (t : Traces) (q : QShape) : Traces × Except CfgErr Strat :=
  match t.buffer q with
  | some s => (t, .ok s)
  | none =>
    match c.resolve .buffer q.2 (q.2 - 1) with
    | .error e => (t, .error e)
    | .ok s => ({ t with buffer := update t.buffer q (some s) }, .ok s)

/-- A call of `insert` (_insert.py:195-221) or `delete_mins` (_delete.py:200-225): the kept trace, or a new one (in the order in which the code meets the merges). -/
def traceOp (c : Setup K E) (t : Traces) (q : QShape) : Op K (List (List E)) → Traces × Except CfgErr (Strat × Strat)
  | .insert _ =>
    match t.insert q with
    | some p => (t, .ok p)
    | none =>
      match traceSplit c t q.2 q.2 with
      | (t1, .error e) => (t1, .error e)
      | (t1, .ok s) =>
        match traceBuffer c t1 q with
        | (t2, .error e) => (t2, .error e)
        | (t2, .ok b) => ({ t2 with insert := update t2.insert q (some (s, b)) }, .ok (s, b))
  | .deleteMins =>
    match t.delete q with
    | some p => (t, .ok p)
    | none =>
      match traceSplit c t q.2 (q.2 - 1) with
      | (t1, .error e) => (t1, .error e)
      | (t1, .ok b) =>
        match traceSplit c t1 q.2 q.2 with
        | (t2, .error e) => (t2, .error e)
        | (t2, .ok s) => ({ t2 with delete := update t2.delete q (some (b, s)) }, .ok (b, s))

/-- Running a trace. -/
def exec (c : Setup K E) (p : Strat × Strat) (h : Heap K (List (List E))) : Op K (List (List E)) → Option (Heap K (List (List E)) × Out K (List (List E)))
  | .insert block =>
    let h' := insertWith (p.1.merge c.minV c.maxV c.zero c.sizes) (p.2.merge c.minV c.maxV c.zero c.sizes) h block
    some (h', ⟨none, h'.size⟩)
  | .deleteMins =>
    (deleteMinsWith (fun a b => if b.length = h.batchSize then p.2.merge c.minV c.maxV c.zero c.sizes a b else p.1.merge c.minV c.maxV c.zero c.sizes a b) h).map
      fun x => (x.1, ⟨some x.2, x.1.size⟩)

/-- What a caller sees of one call. -/
inductive Outcome (K : Type u) (V : Type v) where
  | raised (e : CfgErr)
  | returned (o : Out K V)
  | hangs

/-- A call on the queue named `q`, with the environment at that time. -/
structure Item (K : Type u) (E : Type v) where
  env : Env
  q : Nat
  op : Op K (List (List E))

/-- A program that calls queues of shapes `sh`, and goes on after an exception (the queue it had is still there). -/
def runItems (c : Setup K E) (sh : Nat → QShape) : Traces → (Nat → Heap K (List (List E))) → List (Item K E) → List (Outcome K (List (List E)))
  | _, _, [] => []
  | t, hs, i :: is =>
    match traceOp (c.at i.env) t (sh i.q) i.op with
    | (t', .error e) => .raised e :: runItems c sh t' hs is
    | (t', .ok p) =>
      match exec c p (hs i.q) i.op with
      | none => [.hangs]
      | some x => .returned x.2 :: runItems c sh t' (update hs i.q x.1) is

/-- Which calls raise.  This depends on shapes and environments, not on what the queues hold. -/
def verdicts (c : Setup K E) (sh : Nat → QShape) : Traces → List (Item K E) → List (Option CfgErr)
  | _, [] => []
  | t, i :: is =>
    match traceOp (c.at i.env) t (sh i.q) i.op with
    | (t', .error e) => some e :: verdicts c sh t' is
    | (t', .ok _) => none :: verdicts c sh t' is

end Bgpq
