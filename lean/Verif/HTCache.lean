import Verif.HTConfig

/-!
# C99: settings of the hash table that change while the program runs

`parallel_insert` is a `jax.jit` function (insert.py:382): its Python code, which reads the environment, runs when it is traced, and later calls with
arguments of the same shapes use the kept trace.  A trace is determined by the environment it was made under, so that is what is remembered here.  The key
under which traces are kept is left open (`key`): any function of the table's shape and the call.  The other calls read the environment on import only.
-/

namespace HashTable

open Jax SortGroup Dedupe DedupeSpec
open Bgpq (Py Env Device CfgErr)

variable {α : Type u} [DecidableEq α] {K : Type v} [KeyTop K] {Key : Type} [DecidableEq Key]

/-- Kept traces of `parallel_insert`, by the environments they were made under. -/
abbrev HTraces (Key : Type) := Key → Option Env

/-- The setup with another environment at tracing time. -/
def HSetup.at (c : HSetup) (env : Env) : HSetup := { c with env }

/-- One call of a program: the environment at that time, the call, and what the machine chooses. -/
structure HItem (α : Type u) (K : Type v) where
  env : Env
  op : Call α K
  ch : Choice

/-- One call, with the kept traces (insert.py:382-552, table.py:81-124).  A trace that raises is not kept. -/
def callKept (c : HSetup) (key : Nat → Nat → Call α K → Key) (t : HTraces Key) (H : Hasher α) (T : Table α) (i : HItem α K) :
    HTraces Key × Except CfgErr (Table α × Ret) :=
  match i.op with
  | .parallelInsert .. =>
    match t (key T.cap T.bs i.op) with
    | some env => (t, call (c.at env) H T i.ch i.op)
    | none =>
      match call (c.at i.env) H T i.ch i.op with
      | .error e => (t, .error e)
      | .ok r => (fun k => if k = key T.cap T.bs i.op then some i.env else t k, .ok r)
  | _ => (t, call c H T i.ch i.op)

/-- A program that goes on after an exception. -/
def callsKept (c : HSetup) (key : Nat → Nat → Call α K → Key) (H : Hasher α) : HTraces Key → Table α → List (HItem α K) → List (Except CfgErr Ret)
  | _, _, [] => []
  | t, T, i :: is =>
    match callKept c key t H T i with
    | (t', .error e) => .error e :: callsKept c key H t' T is
    | (t', .ok r) => .ok r.2 :: callsKept c key H t' r.1 is

/-- The calls that returned. -/
def returnedCalls : List (HItem α K) → List (Except CfgErr Ret) → List (Call α K)
  | i :: is, .ok _ :: rs => i.op :: returnedCalls is rs
  | _ :: is, .error _ :: rs => returnedCalls is rs
  | _, _ => []

/-- What they returned. -/
def returnedRets : List (Except CfgErr Ret) → List Ret
  | .ok r :: rs => r :: returnedRets rs
  | .error _ :: rs => returnedRets rs
  | [] => []

theorem call_import {c : HSetup} {env : Env} {H : Hasher α} {T : Table α} {ch : Choice} {o : Call α K} (h : ∀ xs f key, o ≠ .parallelInsert xs f key) :
    call (c.at env) H T ch o = call c H T ch o := by
  cases o with
  | parallelInsert xs f key => exact absurd rfl (h xs f key)
  | insert x => rfl
  | lookup x => rfl
  | lookupParallel xs f => rfl

omit [DecidableEq α] in
/-- The import is accepted if some environment is. -/
theorem Accepts.import {c : HSetup} {bs : Nat} (h : c.Accepts bs) : ∃ s, importSettings c.py c.env0 = .ok s := by
  rcases select_spec c bs 0 with ⟨s, _, ei, _⟩ | ⟨_, hn⟩
  · exact ⟨s.1, ei⟩
  · exact absurd h hn

/-- A refused call: only `parallel_insert`, and only under settings that are not accepted. -/
theorem call_error {c : HSetup} {H : Hasher α} {T : Table α} {ch : Choice} {o : Call α K} {e : CfgErr} (h : call c H T ch o = .error e) :
    ¬ c.Accepts T.bs ∧ e = .value := by
  rcases select_spec c T.bs T.cap with ⟨s, es, ei, _⟩ | ⟨es, ha⟩
  · unfold call at h
    rw [ei] at h
    cases o with
    | parallelInsert xs f key => simp only [es] at h; cases h
    | insert x => cases h
    | lookup x => cases h
    | lookupParallel xs f => cases h
  · refine ⟨ha, ?_⟩
    have hsel : c.select T.bs T.cap = (importSettings c.py c.env0).bind fun i => (chooseKern c.py c.env c.dev T.bs T.cap).bind fun k => .ok (i, k) := rfl
    rw [hsel] at es
    unfold call at h
    cases hi : importSettings c.py c.env0 with
    | error e' =>
      rw [hi] at h es
      cases h
      simp only [Except.bind] at es
      exact Except.error.inj es
    | ok i =>
      rw [hi] at h
      cases o with
      | parallelInsert xs f key =>
        simp only at h
        rw [hsel, es] at h
        cases h
        rfl
      | insert x => cases h
      | lookup x => cases h
      | lookupParallel xs f => cases h

theorem call_accepts {c : HSetup} {H : Hasher α} {T : Table α} {ch : Choice} {xs : List α} {f : Filled} {key : Option (List K)} {r : Table α × Ret}
    (h : call c H T ch (.parallelInsert xs f key) = .ok r) : c.Accepts T.bs := by
  rcases select_spec c T.bs T.cap with ⟨s, es, ei, ha, _⟩ | ⟨es, ha⟩
  · exact ha
  · unfold call at h
    cases hi : importSettings c.py c.env0 with
    | error e => rw [hi] at h; cases h
    | ok i => rw [hi] at h; simp only [es] at h; cases h

/-- From any reachable table, with any kept traces made under environments of `Env'`. -/
theorem kept_behaves {c : HSetup} {key : Nat → Nat → Call α K → Key} {H : Hasher α} (Env' : Env → Prop) {cap bs mp : Nat}
    (hc : ∀ env, Env' env → (c.at env).Accepts bs → (c.at env).Faithful cap bs) (U : List α) (hU : U.length ≤ cap * bs)
    (himp : ∃ env, Env' env ∧ (c.at env).Accepts bs) (is : List (HItem α K)) (hE : ∀ i ∈ is, Env' i.env)
    (hoff : ∀ i ∈ is, ∀ x, i.op.offers x → x ∈ U) (hfit : ∀ i ∈ is, ∀ env, Env' env → i.op.Fits (c.at env) H cap bs mp i.ch)
    (t : HTraces Key) (ht : ∀ k env, t k = some env → Env' env ∧ (c.at env).Accepts bs) {T : Table α} (hr : Reachable K H T)
    (hT : T.cap = cap ∧ T.bs = bs ∧ T.maxProbes = mp) (S : α → Prop) (hS : ∀ x, (∃ i, Stored T x i) ↔ S x) (hSU : ∀ x, S x → x ∈ U) :
    (callsKept c key H t T is).length = is.length ∧
    BehavesAll S (returnedCalls is (callsKept c key H t T is)) (returnedRets (callsKept c key H t T is)) := by
  induction is generalizing t T S with
  | nil => exact ⟨rfl, rfl⟩
  | cons i is ih =>
    obtain ⟨rfl, rfl, rfl⟩ := hT
    have hE' : ∀ j ∈ is, Env' j.env := fun j hj => hE j (by simp [hj])
    have hoff' : ∀ j ∈ is, ∀ x, j.op.offers x → x ∈ U := fun j hj => hoff j (by simp [hj])
    have hfit' : ∀ j ∈ is, ∀ env, Env' env → j.op.Fits (c.at env) H T.cap T.bs T.maxProbes j.ch := fun j hj => hfit j (by simp [hj])
    -- every step: raise and keep, or behave under some environment of `Env'`
    have hstep : ∃ t' res, callKept c key t H T i = (t', res) ∧ (∀ k env, t' k = some env → Env' env ∧ (c.at env).Accepts T.bs) ∧
        ((∃ e, res = .error e) ∨ ∃ env, Env' env ∧ (c.at env).Accepts T.bs ∧ res = call (c.at env) H T i.ch i.op) := by
      unfold callKept
      cases hop : i.op with
      | parallelInsert xs f ky =>
        simp only
        cases hk : t (key T.cap T.bs (.parallelInsert xs f ky)) with
        | some env => exact ⟨t, _, rfl, ht, Or.inr ⟨env, (ht _ _ hk).1, (ht _ _ hk).2, rfl⟩⟩
        | none =>
          cases hcall : call (c.at i.env) H T i.ch (.parallelInsert xs f ky) with
          | error e => exact ⟨t, _, rfl, ht, Or.inl ⟨e, rfl⟩⟩
          | ok r =>
            have hacc := call_accepts hcall
            refine ⟨_, _, rfl, ?_, Or.inr ⟨i.env, hE i (by simp), hacc, hcall.symm⟩⟩
            intro k env hke
            by_cases hkk : k = key T.cap T.bs (.parallelInsert xs f ky)
            · rw [if_pos hkk] at hke; cases hke; exact ⟨hE i (by simp), hacc⟩
            · rw [if_neg hkk] at hke; exact ht k env hke
      | insert x =>
        obtain ⟨env, h1, h2⟩ := himp
        exact ⟨t, _, rfl, ht, Or.inr ⟨env, h1, h2, (call_import (env := env) (by intro _ _ _ h; cases h)).symm⟩⟩
      | lookup x =>
        obtain ⟨env, h1, h2⟩ := himp
        exact ⟨t, _, rfl, ht, Or.inr ⟨env, h1, h2, (call_import (env := env) (by intro _ _ _ h; cases h)).symm⟩⟩
      | lookupParallel xs f =>
        obtain ⟨env, h1, h2⟩ := himp
        exact ⟨t, _, rfl, ht, Or.inr ⟨env, h1, h2, (call_import (env := env) (by intro _ _ _ h; cases h)).symm⟩⟩
    obtain ⟨t', res, e, ht', hres⟩ := hstep
    unfold callsKept
    rw [e]
    rcases hres with ⟨er, rfl⟩ | ⟨env, hEe, hacc, rfl⟩
    · simp only [List.length_cons, returnedCalls, returnedRets]
      obtain ⟨h1, h2⟩ := ih hE' hoff' hfit' t' ht' hr ⟨rfl, rfl, rfl⟩ S hS hSU
      exact ⟨by rw [h1], h2⟩
    · obtain ⟨T1, r, e1, hr1, ⟨s1, s2, s3⟩, hb, hsz, hcont⟩ := call_behaves hr (hc env hEe hacc) U hU (fun x h => hSU x ((hS x).1 h)) i.op
        (hoff i (by simp)) i.ch (hfit i (by simp) env hEe)
      rw [e1]
      simp only [List.length_cons, returnedCalls, returnedRets]
      obtain ⟨h1, h2⟩ := ih hE' hoff' hfit' t' ht' hr1 ⟨s1, s2, s3⟩ (fun x => S x ∨ i.op.offers x)
        (fun x => by rw [hcont x, hS x]) (fun x h => h.elim (hSU x) (hoff i (by simp) x))
      refine ⟨by rw [h1], r, _, rfl, (Behaves.congr hS i.op r).1 hb, ?_, h2⟩
      intro D hD hDx
      rw [hsz, ← storedItems_length hr1]
      have h1 : ∀ x, x ∈ storedItems T1 ↔ x ∈ D := by
        intro x; rw [mem_storedItems, hcont, hDx, hS]
      apply Nat.le_antisymm
      · exact (List.subperm_of_subset (storedItems_nodup hr1) fun x hx => (h1 x).1 hx).length_le
      · exact (List.subperm_of_subset hD fun x hx => (h1 x).2 hx).length_le

/-- **C99.**  A new table in a process whose environment changes from call to call: the calls that return give the answers of the set of the items offered by
them, whatever traces are used; the others change nothing.  (`Env'`: the environments that occur; those that are accepted leave the probe limits alone.) -/
theorem table_changing_settings (c : HSetup) (key : Nat → Nat → Call α K → Key) (H : Hasher α) (d : α) {capacity bs mult : Nat} {mp : Option Nat}
    (hv : ValidParams capacity bs mult mp) (Env' : Env → Prop)
    (hc : ∀ env, Env' env → (c.at env).Accepts bs → (c.at env).Faithful (internalCap capacity bs mult) bs)
    (himp : ∃ env, Env' env ∧ (c.at env).Accepts bs) (U : List α) (hU : U.length ≤ internalCap capacity bs mult * bs) (is : List (HItem α K))
    (hE : ∀ i ∈ is, Env' i.env) (hoff : ∀ i ∈ is, ∀ x, i.op.offers x → x ∈ U)
    (hfit : ∀ i ∈ is, ∀ env, Env' env → i.op.Fits (c.at env) H (internalCap capacity bs mult) bs (build d capacity bs mult mp).maxProbes i.ch) :
    let rs := callsKept c key H (fun _ => none) (build d capacity bs mult mp) is
    rs.length = is.length ∧ BehavesAll (fun _ => False) (returnedCalls is rs) (returnedRets rs) :=
  kept_behaves Env' hc U hU himp is hE hoff hfit _ (fun _ _ h => by cases h) ⟨d, capacity, bs, mult, mp, [], hv, rfl⟩ ⟨rfl, rfl, rfl⟩ _
    (fun x => iff_of_false (build_no_stored d x) id) (fun _ h => h.elim)

/-- **C99.**  Which calls raise: a call under accepted settings never does; after a `parallel_insert` has returned, calls with the same key use its
environment, whatever the environment now is. -/
theorem kept_settings (c : HSetup) (key : Nat → Nat → Call α K → Key) (t : HTraces Key) (H : Hasher α) (T : Table α) (i : HItem α K)
    (ht : ∀ k env, t k = some env → (c.at env).Accepts T.bs) :
    ((c.at i.env).Accepts T.bs → ∃ r, (callKept c key t H T i).2 = .ok r) ∧
    (∀ env', t (key T.cap T.bs i.op) = some env' → ∀ env, callKept c key t H T { i with env := env } = callKept c key t H T i) ∧
    (∀ xs f ky, i.op = .parallelInsert xs f ky → ∀ r, (callKept c key t H T i).2 = .ok r → ∃ env, (callKept c key t H T i).1 (key T.cap T.bs i.op) = some env) ∧
    ∀ k env, t k = some env → (callKept c key t H T i).1 k = some env := by
  have hret : ∀ env, (c.at env).Accepts T.bs → ∃ r, call (c.at env) H T i.ch i.op = .ok r := by
    intro env ha
    cases h : call (c.at env) H T i.ch i.op with
    | ok r => exact ⟨r, rfl⟩
    | error e => exact absurd ha (call_error h).1
  refine ⟨fun ha => ?_, fun env' hk env => ?_, fun xs f ky hop r hr => ?_, fun k env hk => ?_⟩
  · have hr := hret i.env ha
    unfold callKept
    cases hop : i.op with
    | parallelInsert xs f ky =>
      simp only
      cases hk : t (key T.cap T.bs (.parallelInsert xs f ky)) with
      | some env =>
        have := hret env (ht _ _ hk)
        rw [hop] at this
        exact this
      | none =>
        rw [hop] at hr
        obtain ⟨r, hr⟩ := hr
        simp only [hr]
        exact ⟨r, rfl⟩
    | insert x => rw [hop, call_import (by intro _ _ _ h; cases h)] at hr; exact hr
    | lookup x => rw [hop, call_import (by intro _ _ _ h; cases h)] at hr; exact hr
    | lookupParallel xs f => rw [hop, call_import (by intro _ _ _ h; cases h)] at hr; exact hr
  · unfold callKept
    cases hop : i.op with
    | parallelInsert xs f ky =>
      rw [hop] at hk
      simp only [hk]
    | insert x => rfl
    | lookup x => rfl
    | lookupParallel xs f => rfl
  · unfold callKept at hr ⊢
    rw [hop] at hr ⊢
    simp only at hr ⊢
    cases hk : t (key T.cap T.bs (.parallelInsert xs f ky)) with
    | some env => exact ⟨env, hk⟩
    | none =>
      rw [hk] at hr
      simp only at hr ⊢
      cases hcall : call (c.at i.env) H T i.ch (.parallelInsert xs f ky) with
      | error e => rw [hcall] at hr; cases hr
      | ok r => exact ⟨i.env, if_pos rfl⟩
  · unfold callKept
    cases hop : i.op with
    | parallelInsert xs f ky =>
      simp only
      cases hkk : t (key T.cap T.bs (.parallelInsert xs f ky)) with
      | some env' => exact hk
      | none =>
        simp only
        cases hcall : call (c.at i.env) H T i.ch (.parallelInsert xs f ky) with
        | error e => exact hk
        | ok r =>
          show (if _ then _ else _) = _
          by_cases h : k = key T.cap T.bs (.parallelInsert xs f ky)
          · subst h; rw [hkk] at hk; cases hk
          · rw [if_neg h]; exact hk
    | insert x => exact hk
    | lookup x => exact hk
    | lookupParallel xs f => exact hk

/-! ## A process in which the settings change -/

/-- Nothing set; a number of warps that is not a number; a probe limit. -/
def envPlain : Env := fun _ => none
def envBadWarps : Env := set1 "XTRUCTURE_HASHTABLE_TRITON_INSERT_NUM_WARPS" "many"
def envProbes (n : String) : Env := set1 "XTRUCTURE_HASHTABLE_TRITON_INSERT_MAX_PROBE_BUCKETS" n

/-- Traces are kept by the shape of the table and the length of the batch. -/
def demoKey (cap bs : Nat) : Call Nat (Option Nat) → Nat × Nat × Nat
  | .parallelInsert xs _ _ => (cap, bs, xs.length)
  | _ => (cap, bs, 0)

def oks (rs : List (Except CfgErr Ret)) : List (Option Ret) := rs.map fun r => match r with | .ok x => some x | .error _ => none

def pairSched : Choice := ⟨[(0, 0), (0, 0), (1, 0), (1, 0), (1, 0), (1, 0)], [0, 1]⟩

/-- **C99, finding.**  A setting that is refused at first is neither refused nor followed after a call has returned; a probe limit set after the first call of
a batch length has no effect on that length, one set before it has. -/
theorem changed_settings :
    oks (callsKept (plainSetup .gpu) demoKey exHasher (fun _ => none) (build 0 8 2 2 none) [⟨envBadWarps, .parallelInsert [2] .absent none, demoChoice⟩,
      ⟨envPlain, .parallelInsert [2] .absent none, demoChoice⟩, ⟨envBadWarps, .parallelInsert [3] .absent none, demoChoice⟩,
      ⟨envBadWarps, .parallelInsert [4, 5] .absent none, demoChoice⟩, ⟨envBadWarps, .lookup 3, demoChoice⟩]) =
      [none, some ⟨[true], [true], 1⟩, some ⟨[true], [true], 2⟩, none, some ⟨[true], [], 2⟩] ∧
    oks (callsKept (plainSetup .gpu) demoKey exHasher (fun _ => none) (build 0 1 1 2 none)
      [⟨envPlain, .parallelInsert [4, 8] (.mask [false, false]) none, pairSched⟩, ⟨envProbes "1", .parallelInsert [4, 8] (.mask [true, true]) none, pairSched⟩]) =
      [some ⟨[false, false], [false, false], 0⟩, some ⟨[true, true], [true, true], 2⟩] ∧
    oks (callsKept (plainSetup .gpu) demoKey exHasher (fun _ => none) (build 0 1 1 2 none)
      [⟨envProbes "1", .parallelInsert [4, 8] (.mask [true, true]) none, pairSched⟩]) = [some ⟨[true, false], [true, true], 1⟩] := by
  decide +kernel

/-- The hypotheses of `table_changing_settings` for the first of these processes. -/
example : let Env' : Env → Prop := fun e => e = envPlain ∨ e = envBadWarps
    (∀ env, Env' env → ((plainSetup .gpu).at env).Accepts 2 → ((plainSetup .gpu).at env).Faithful (internalCap 8 2 2) 2) ∧
    (∃ env, Env' env ∧ ((plainSetup .gpu).at env).Accepts 2) ∧ ¬ ((plainSetup .gpu).at envBadWarps).Accepts 2 ∧
    ∀ env, Env' env → (Call.parallelInsert [2] .absent none : Call Nat (Option Nat)).Fits ((plainSetup .gpu).at env) exHasher (internalCap 8 2 2) 2
      (build 0 8 2 2 none).maxProbes demoChoice := by
  have hA : ((plainSetup .gpu).at envPlain).Accepts 2 := no_settings_accepted demoPy .gpu rfl rfl 2
  have hu : ((plainSetup .gpu).at envBadWarps).UsesTriton 2 := ⟨rfl, by decide, fun v h => (by cases h)⟩
  have hu' : ((plainSetup .gpu).at envPlain).UsesTriton 2 := ⟨rfl, by decide, fun v h => (by cases h)⟩
  have hN : ¬ ((plainSetup .gpu).at envBadWarps).Accepts 2 := by
    intro h
    rcases (h.tritonKernel hu).2.1 "many" rfl with h | ⟨n, h, _⟩
    · revert h; decide +kernel
    · have : demoPy.int (word demoPy "many") = none := by rfl
      rw [show ((plainSetup .gpu).at envBadWarps).py = demoPy from rfl, this] at h
      cases h
  refine ⟨?_, ⟨_, Or.inl rfl, hA⟩, hN, ?_⟩
  · rintro env (rfl | rfl) h
    · exact ⟨h, fun _ v h => (by cases h), fun h => (by cases h.1)⟩
    · exact absurd h hN
  · rintro env (rfl | rfl)
    · exact ⟨by simp, Or.inl (fun i hi => by match i, hi with | 0, _ => rfl), fun h => absurd hu' h, fun h => absurd h (by decide +kernel)⟩
    · exact ⟨by simp, Or.inl (fun i hi => by match i, hi with | 0, _ => rfl), fun h => absurd hu h, fun h => absurd h (by decide +kernel)⟩

end HashTable
