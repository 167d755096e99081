import Verif.HTScalar
import Verif.DedupeSort
import Verif.BgpqConfigModel

/-!
# Settings of the hash table: environment variables and device (C83)

`Py`, `Env`, `Device` are those of `BgpqConfigModel`.  Two variables are read when the module is imported (`env0`), the others when `parallel_insert` is traced
(`env`); kept traces: `HTCache`.
-/

namespace HashTable

open Jax SortGroup Dedupe DedupeSpec
open Bgpq (Py Env Device CfgErr)

section Parse

variable (py : Py) (env : Env)

/-- `_parse_bool_env` (hash_utils.py:18-27). -/
def parseBoolEnv (name : String) (default : Bool) : Except CfgErr Bool :=
  match env name with
  | none => .ok default
  | some v =>
    let v := py.lower (py.strip v)
    if v ∈ ["1", "true", "yes", "y", "on"] then .ok true
    else if v ∈ ["0", "false", "no", "n", "off"] then .ok false
    else .error .value

/-- `_parse_int_env` (hash_utils.py:30-43). -/
def parseIntEnv (name : String) (default : Nat) : Except CfgErr Nat :=
  match env name with
  | none => .ok default
  | some v =>
    let v := py.lower (py.strip v)
    if v ∈ ["", "none", "auto"] then .ok default
    else match py.int v with
      | none => .error .value
      | some n => if n ≤ 0 then .error .value else .ok n.toNat

/-- `_parse_optional_int` (insert_triton.py:31-43). -/
def parseOptionalInt (v : Option String) : Except CfgErr (Option Nat) :=
  match v with
  | none => .ok none
  | some v =>
    let v := py.lower (py.strip v)
    if v ∈ ["", "none", "auto"] then .ok none
    else match py.int v with
      | none => .error .value
      | some n => if n ≤ 0 then .error .value else .ok (some n.toNat)

/-- `_SORT_BACKEND` (hash_utils.py:50-56). -/
inductive SortBackend where
  | stableArgsort
  | laxUnstable
  | laxStable
  deriving DecidableEq

/-- hash_utils.py:50-56. -/
def sortBackend : Except CfgErr SortBackend :=
  let v := py.lower (py.strip ((env "XTRUCTURE_HASHTABLE_SORT_BACKEND").getD "stable_argsort"))
  if v = "stable_argsort" then .ok .stableArgsort
  else if v = "lax_unstable" then .ok .laxUnstable
  else if v = "lax_stable" then .ok .laxStable
  else .error .value

/-- `HASHTABLE_DEDUPE_MODE` (hash_utils.py:46-48, 65-77). -/
def dedupeMode : Except CfgErr Mode :=
  let raw := py.lower (py.strip ((env "XTRUCTURE_HASHTABLE_DEDUPE_MODE").getD "safe"))
  let v := if raw = "fast" then "safe" else raw
  if v = "approx" then .ok .approx
  else if v = "safe" then .ok .safe
  else if v = "exact" then .ok .exact
  else .error .value

/-- Importing `hash_utils` (hash_utils.py:46-77). -/
def importSettings : Except CfgErr (SortBackend × Mode) := do
  let s ← sortBackend py env
  let m ← dedupeMode py env
  .ok (s, m)

/-- A probe limit: the number of buckets unless a number is given (`_parse_max_probe_buckets`, insert_pallas.py:20-26; the same code in insert_triton.py:220-230). -/
def probeEnv (name : String) (cap : Nat) : Except CfgErr Nat :=
  match env name with
  | none => .ok cap
  | some v => if py.lower (py.strip v) ∈ ["", "none", "auto"] then .ok cap else parseIntEnv py env name cap

/-- `reserve_slots_triton` before the kernel runs (insert_triton.py:20-27, 217-240). -/
def tritonMaxProbe (cap : Nat) : Except CfgErr Nat := do
  let _ ← parseIntEnv py env "XTRUCTURE_HASHTABLE_TRITON_INSERT_MAX_PROBE_BUCKETS" 256
  let m ← probeEnv py env "XTRUCTURE_HASHTABLE_TRITON_INSERT_MAX_PROBE_BUCKETS" cap
  let _ ← parseOptionalInt py (env "XTRUCTURE_HASHTABLE_TRITON_INSERT_NUM_WARPS")
  let _ ← parseOptionalInt py (env "XTRUCTURE_HASHTABLE_TRITON_INSERT_NUM_STAGES")
  .ok m

/-- `_parse_max_probe_buckets` (insert_pallas.py:20-26). -/
def pallasMaxProbe (cap : Nat) : Except CfgErr Nat := probeEnv py env "XTRUCTURE_HASHTABLE_PALLAS_INSERT_MAX_PROBE_BUCKETS" cap

/-- Which reservation is used, with its probe limit. -/
inductive Kern where
  | xla
  | triton (mpb : Nat)
  | pallas (mpb : Nat)
  deriving DecidableEq

/-- The dispatch of `_process_insert` (insert.py:456-498); `and` does not evaluate what follows a false operand. -/
def chooseKern (dev : Device) (bs cap : Nat) : Except CfgErr Kern := do
  let useTriton ← if dev = .gpu ∧ bs ≤ 32 then parseBoolEnv py env "XTRUCTURE_HASHTABLE_TRITON_INSERT" true else .ok false
  let usePallas ← if dev = .tpu ∧ bs ≤ 32 then parseBoolEnv py env "XTRUCTURE_HASHTABLE_PALLAS_INSERT" true else .ok false
  if useTriton then do
    let m ← tritonMaxProbe py env cap
    .ok (.triton m)
  else if usePallas then do
    let m ← pallasMaxProbe py env cap
    .ok (.pallas m)
  else .ok .xla

end Parse

/-- `lax.sort((h1, h2, indices), num_keys=2)` compares the two keys lexicographically (hash_utils.py:384-394). -/
def pairLe (filled : List Bool) (h1 h2 : List Nat) (i j : Nat) : Bool :=
  decide (masked filled h1 i < masked filled h1 j) || (masked filled h1 i == masked filled h1 j && decide (masked filled h2 i ≤ masked filled h2 j))

/-- `sorted_indices` (hash_utils.py:368-394); an unstable sort returns some order `perm`. -/
def sortLanes (sb : SortBackend) (filled : List Bool) (h1 h2 : List Nat) (n : Nat) (perm : List Nat) : List Nat :=
  match sb with
  | .stableArgsort => sortPasses (pairLes filled h1 h2) (List.range n)
  | .laxStable => stableSort (pairLe filled h1 h2) (List.range n)
  | .laxUnstable => perm

variable {α : Type u} [DecidableEq α] {K : Type v} [KeyTop K]

/-- `_compute_unique_mask_from_hash_pairs` under a sort backend (hash_utils.py:315-503), as called by `parallel_insert`. -/
def dedupeBy (sb : SortBackend) (mode : Mode) (E : Enc α) (xs : List α) (filled : List Bool) (key : Option (List K)) (perm : List Nat) :
    List Bool × List Nat :=
  dedupePairsFrom mode xs.length E.wc (xs.map E.h1) (xs.map E.h2) (xs.map E.words) filled key
    (sortLanes sb filled (xs.map E.h1) (xs.map E.h2) xs.length perm)

/-- What the machine chooses during one call: the schedule of the Triton programs, and the order an unstable sort gives to a batch under a mask. -/
structure Choice where
  sched : List (Nat × Nat)
  perm : List Nat

/-- Back-end of a reservation. -/
def Kern.backend (ch : Choice) : Kern → Backend
  | .xla => .xla
  | .triton m => .triton m ch.sched
  | .pallas m => .pallas m

/-- The settings: environment at import and at tracing, device. -/
structure HSetup where
  py : Py
  env0 : Env
  env : Env
  dev : Device

/-- `parallel_insert` of a table with `cap` buckets of `bs` slots: what the settings select, or the exception (of the import, or of tracing: a scalar `filled` does
not prevent tracing, insert.py:545-550). -/
def HSetup.select (c : HSetup) (bs cap : Nat) : Except CfgErr ((SortBackend × Mode) × Kern) := do
  let i ← importSettings c.py c.env0
  let k ← chooseKern c.py c.env c.dev bs cap
  .ok (i, k)

/-- `parallel_insert(inputs, filled, unique_key)` under selected settings (insert.py:373-552). -/
def parallelInsertSel (s : (SortBackend × Mode) × Kern) (ch : Choice) (H : Hasher α) (T : Table α) (xs : List α) (f : Filled) (key : Option (List K)) : PResult α :=
  let go := fun filled => parallelInsertWith (s.2.backend ch) H T xs filled (dedupeBy s.1.1 s.1.2 H.toEnc xs filled key ch.perm)
  match f with
  | .absent => go (xs.map fun _ => true)
  | .scalar true => go (xs.map fun _ => true)
  | .scalar false => parallelInsertEmpty T xs
  | .mask l => go l

/-- Calls of the API. -/
inductive Call (α : Type u) (K : Type v) where
  | insert (x : α)
  | parallelInsert (xs : List α) (filled : Filled) (key : Option (List K))
  | lookup (x : α)
  | lookupParallel (xs : List α) (filled : Filled)

/-- What a call returns (without slot indices), and the size afterwards. -/
structure Ret where
  flags : List Bool
  unique : List Bool
  size : Nat
  deriving DecidableEq

/-- One call.  Only `parallel_insert` looks at the settings after the import. -/
def call (c : HSetup) (H : Hasher α) (T : Table α) (ch : Choice) (o : Call α K) : Except CfgErr (Table α × Ret) :=
  match importSettings c.py c.env0 with
  | .error e => .error e
  | .ok _ =>
    match o with
    | .insert x => .ok ((insert H T x).1, ⟨[(insert H T x).2.1], [], (insert H T x).1.size⟩)
    | .parallelInsert xs f key =>
      match c.select T.bs T.cap with
      | .error e => .error e
      | .ok s =>
        let r := parallelInsertSel s ch H T xs f key
        .ok (r.table, ⟨r.inserted, r.unique, r.table.size⟩)
    | .lookup x => .ok (T, ⟨[(lookup H T x).2], [], T.size⟩)
    | .lookupParallel xs f => .ok (T, ⟨(lookupParallelArg H T xs f).map Prod.snd, [], T.size⟩)

/-- A history of calls, each with the choices of the machine. -/
def calls (c : HSetup) (H : Hasher α) (T : Table α) : List (Call α K × Choice) → Except CfgErr (Table α × List Ret)
  | [] => .ok (T, [])
  | (o, ch) :: os =>
    match call c H T ch o with
    | .error e => .error e
    | .ok r =>
      match calls c H r.1 os with
      | .error e => .error e
      | .ok rs => .ok (rs.1, r.2 :: rs.2)

end HashTable
