import Verif.HTConfigModel
import Verif.HTConfluence

/-!
# C83: settings of the hash table never change what it holds

Specification: the table is a set.  `Behaves S o r` says what call `o` on a table holding the set `S` returns; `BehavesAll` follows a history of calls.
-/

namespace HashTable

open Jax SortGroup Dedupe DedupeSpec
open Bgpq (Py Env Device CfgErr)

variable {α : Type u} [DecidableEq α] {K : Type v} [KeyTop K]

/-! ## Specification -/

/-- `filled` as a mask. -/
def Filled.toMask (xs : List α) : Filled → List Bool
  | .absent => xs.map fun _ => true
  | .scalar b => xs.map fun _ => b
  | .mask l => l

/-- The call offers `x` to the table. -/
def Call.offers : Call α K → α → Prop
  | .insert y, x => y = x
  | .parallelInsert xs f _, x => ∃ l : Nat, xs[l]? = some x ∧ f.takesPart l
  | .lookup _, _ => False
  | .lookupParallel _ _, _ => False

/-- What a call returns on a table holding the items of `S` (`IsBest` is the specification of C23: the lane with the least key, lowest lane first). -/
def Behaves (S : α → Prop) : Call α K → Ret → Prop
  | .insert x, r => ∃ b, r.flags = [b] ∧ r.unique = [] ∧ (b = true ↔ ¬ S x)
  | .parallelInsert xs f key, r => r.flags.length = xs.length ∧ r.unique.length = xs.length ∧ ∀ (l : Nat) (x : α), xs[l]? = some x →
      (r.unique[l]? = some true ↔ f.takesPart l ∧ IsBest xs (f.toMask xs) key l l) ∧
      (r.flags[l]? = some true ↔ f.takesPart l ∧ IsBest xs (f.toMask xs) key l l ∧ ¬ S x)
  | .lookup x, r => ∃ b, r.flags = [b] ∧ r.unique = [] ∧ (b = true ↔ S x)
  | .lookupParallel xs f, r => r.flags.length = xs.length ∧ r.unique = [] ∧ ∀ (l : Nat) (x : α), xs[l]? = some x →
      (r.flags[l]? = some true ↔ f.takesPart l ∧ S x)

/-- The answers to a history of calls, starting with the items of `S`; sizes are numbers of items. -/
def BehavesAll (S : α → Prop) : List (Call α K) → List Ret → Prop
  | [], rs => rs = []
  | o :: os, rs => ∃ r rs', rs = r :: rs' ∧ Behaves S o r ∧
      (∀ D : List α, D.Nodup → (∀ x, x ∈ D ↔ S x ∨ o.offers x) → r.size = D.length) ∧
      BehavesAll (fun x => S x ∨ o.offers x) os rs'

/-! ### Settings -/

/-- The word given for a variable. -/
def word (py : Py) (v : String) : String := py.lower (py.strip v)

def BoolOk (py : Py) (env : Env) (name : String) : Prop :=
  ∀ v, env name = some v → word py v ∈ ["1", "true", "yes", "y", "on"] ∨ word py v ∈ ["0", "false", "no", "n", "off"]

def Enabled (py : Py) (env : Env) (name : String) : Prop := ∀ v, env name = some v → word py v ∈ ["1", "true", "yes", "y", "on"]

def IntOk (py : Py) (env : Env) (name : String) : Prop :=
  ∀ v, env name = some v → word py v ∈ ["", "none", "auto"] ∨ ∃ n : Int, py.int (word py v) = some n ∧ 0 < n

/-- The probe limit is left alone, or no less than the number of buckets. -/
def Unlimited (py : Py) (env : Env) (name : String) (cap : Nat) : Prop :=
  ∀ v, env name = some v → word py v ∈ ["", "none", "auto"] ∨ ∃ n : Int, py.int (word py v) = some n ∧ (cap : Int) ≤ n

def HSetup.sortWord (c : HSetup) : String := word c.py ((c.env0 "XTRUCTURE_HASHTABLE_SORT_BACKEND").getD "stable_argsort")
def HSetup.modeWord (c : HSetup) : String := word c.py ((c.env0 "XTRUCTURE_HASHTABLE_DEDUPE_MODE").getD "safe")

/-- The Triton kernel is used: on a GPU, for buckets of at most 32 slots, unless switched off. -/
def HSetup.UsesTriton (c : HSetup) (bs : Nat) : Prop := c.dev = .gpu ∧ bs ≤ 32 ∧ Enabled c.py c.env "XTRUCTURE_HASHTABLE_TRITON_INSERT"

/-- The bucket-owner kernel is used. -/
def HSetup.UsesPallas (c : HSetup) (bs : Nat) : Prop := c.dev = .tpu ∧ bs ≤ 32 ∧ Enabled c.py c.env "XTRUCTURE_HASHTABLE_PALLAS_INSERT"

/-- The settings are among the documented ones. -/
structure HSetup.Accepts (c : HSetup) (bs : Nat) : Prop where
  sort : c.sortWord ∈ ["stable_argsort", "lax_unstable", "lax_stable"]
  mode : c.modeWord ∈ ["approx", "safe", "exact", "fast"]
  triton : c.dev = .gpu → bs ≤ 32 → BoolOk c.py c.env "XTRUCTURE_HASHTABLE_TRITON_INSERT"
  tritonKernel : c.UsesTriton bs → IntOk c.py c.env "XTRUCTURE_HASHTABLE_TRITON_INSERT_MAX_PROBE_BUCKETS" ∧
    IntOk c.py c.env "XTRUCTURE_HASHTABLE_TRITON_INSERT_NUM_WARPS" ∧ IntOk c.py c.env "XTRUCTURE_HASHTABLE_TRITON_INSERT_NUM_STAGES"
  pallas : c.dev = .tpu → bs ≤ 32 → BoolOk c.py c.env "XTRUCTURE_HASHTABLE_PALLAS_INSERT"
  pallasKernel : c.UsesPallas bs → IntOk c.py c.env "XTRUCTURE_HASHTABLE_PALLAS_INSERT_MAX_PROBE_BUCKETS"

/-- The de-duplication the mode word asks for. -/
def HSetup.asked (c : HSetup) : Mode := if c.modeWord = "approx" then .approx else if c.modeWord = "exact" then .exact else .safe

/-- Settings promised not to matter: accepted, probe limits left alone. -/
structure HSetup.Faithful (c : HSetup) (cap bs : Nat) : Prop where
  accepts : c.Accepts bs
  triton : c.UsesTriton bs → Unlimited c.py c.env "XTRUCTURE_HASHTABLE_TRITON_INSERT_MAX_PROBE_BUCKETS" cap
  pallas : c.UsesPallas bs → Unlimited c.py c.env "XTRUCTURE_HASHTABLE_PALLAS_INSERT_MAX_PROBE_BUCKETS" cap

/-- What is asked of a call: a batch is not empty; `GuardFor` the de-duplication mode (C23: every lane filled, or finite keys, or no filled lane encodes to the sentinel; no hash collision in mode `approx`); on the XLA path `max_probes` is large enough for the batch
(C22); and an unstable sort sorts. -/
def Call.Fits (c : HSetup) (H : Hasher α) (cap bs maxProbes : Nat) (ch : Choice) : Call α K → Prop
  | .parallelInsert xs f key => xs ≠ [] ∧ GuardFor c.asked H.toEnc xs (f.toMask xs) key ∧
      (¬ c.UsesTriton bs → ¬ c.UsesPallas bs → xs.length * (cap * (bs + 1)) ≤ maxProbes) ∧
      (c.sortWord = "lax_unstable" → ch.perm.Perm (List.range xs.length) ∧
        ch.perm.Pairwise fun i j => pairLe (f.toMask xs) (xs.map H.h1) (xs.map H.h2) i j = true)
  | _ => True

/-! ## Parsing -/

section Parse

variable {py : Py} {env : Env}

theorem parseBoolEnv_spec (name : String) :
    (parseBoolEnv py env name true = .ok true ∧ BoolOk py env name ∧ Enabled py env name) ∨
    (parseBoolEnv py env name true = .ok false ∧ BoolOk py env name ∧ ¬ Enabled py env name) ∨
    (parseBoolEnv py env name true = .error .value ∧ ¬ BoolOk py env name ∧ ¬ Enabled py env name) := by
  unfold parseBoolEnv BoolOk Enabled word
  cases he : env name with
  | none => exact Or.inl ⟨rfl, fun v h => (by cases h), fun v h => (by cases h)⟩
  | some v =>
    simp only
    by_cases h1 : py.lower (py.strip v) ∈ ["1", "true", "yes", "y", "on"]
    · exact Or.inl ⟨if_pos h1, fun w h => by cases h; exact Or.inl h1, fun w h => by cases h; exact h1⟩
    · rw [if_neg h1]
      by_cases h2 : py.lower (py.strip v) ∈ ["0", "false", "no", "n", "off"]
      · exact Or.inr (Or.inl ⟨if_pos h2, fun w h => by cases h; exact Or.inr h2, fun h => h1 (h v rfl)⟩)
      · exact Or.inr (Or.inr ⟨if_neg h2, fun h => (h v rfl).elim h1 h2, fun h => h1 (h v rfl)⟩)

theorem parseIntEnv_spec (name : String) (default : Nat) :
    (∃ m, parseIntEnv py env name default = .ok m ∧ IntOk py env name) ∨ (parseIntEnv py env name default = .error .value ∧ ¬ IntOk py env name) := by
  unfold parseIntEnv IntOk word
  cases he : env name with
  | none => exact Or.inl ⟨default, rfl, fun v h => (by cases h)⟩
  | some v =>
    simp only
    by_cases h1 : py.lower (py.strip v) ∈ ["", "none", "auto"]
    · exact Or.inl ⟨default, if_pos h1, fun w h => by cases h; exact Or.inl h1⟩
    · rw [if_neg h1]
      cases hn : py.int (py.lower (py.strip v)) with
      | none =>
        refine Or.inr ⟨rfl, fun h => ?_⟩
        rcases h v rfl with h | ⟨n, h, _⟩
        · exact h1 h
        · rw [hn] at h; cases h
      | some n =>
        simp only
        by_cases h0 : n ≤ 0
        · refine Or.inr ⟨if_pos h0, fun h => ?_⟩
          rcases h v rfl with h | ⟨k, h, hk⟩
          · exact h1 h
          · rw [hn] at h; cases h; omega
        · exact Or.inl ⟨n.toNat, if_neg h0, fun w h => by cases h; exact Or.inr ⟨n, hn, by omega⟩⟩

theorem parseIntEnv_large {name : String} {default cap m : Nat} (h : parseIntEnv py env name default = .ok m) (hd : cap ≤ default)
    (hu : Unlimited py env name cap) : cap ≤ m := by
  unfold parseIntEnv at h
  cases he : env name with
  | none => rw [he] at h; cases h; exact hd
  | some v =>
    rw [he] at h
    simp only at h
    by_cases h1 : py.lower (py.strip v) ∈ ["", "none", "auto"]
    · rw [if_pos h1] at h; cases h; exact hd
    · rw [if_neg h1] at h
      rcases hu v he with h2 | ⟨n, hn, hc⟩
      · exact absurd h2 h1
      · unfold word at hn
        rw [hn] at h
        simp only at h
        by_cases h0 : n ≤ 0
        · rw [if_pos h0] at h; cases h
        · rw [if_neg h0] at h; cases h; omega

theorem parseOptionalInt_spec (name : String) :
    (∃ m, parseOptionalInt py (env name) = .ok m ∧ IntOk py env name) ∨ (parseOptionalInt py (env name) = .error .value ∧ ¬ IntOk py env name) := by
  unfold parseOptionalInt IntOk word
  cases he : env name with
  | none => exact Or.inl ⟨none, rfl, fun v h => (by cases h)⟩
  | some v =>
    simp only
    by_cases h1 : py.lower (py.strip v) ∈ ["", "none", "auto"]
    · exact Or.inl ⟨none, if_pos h1, fun w h => by cases h; exact Or.inl h1⟩
    · rw [if_neg h1]
      cases hn : py.int (py.lower (py.strip v)) with
      | none =>
        refine Or.inr ⟨rfl, fun h => ?_⟩
        rcases h v rfl with h | ⟨n, h, _⟩
        · exact h1 h
        · rw [hn] at h; cases h
      | some n =>
        simp only
        by_cases h0 : n ≤ 0
        · refine Or.inr ⟨if_pos h0, fun h => ?_⟩
          rcases h v rfl with h | ⟨k, h, hk⟩
          · exact h1 h
          · rw [hn] at h; cases h; omega
        · exact Or.inl ⟨some n.toNat, if_neg h0, fun w h => by cases h; exact Or.inr ⟨n, hn, by omega⟩⟩

/-- Both ways of reading the probe limit come down to `parseIntEnv`. -/
theorem probe_eq (name : String) (cap : Nat) : probeEnv py env name cap = parseIntEnv py env name cap := by
  unfold probeEnv
  unfold parseIntEnv
  cases he : env name with
  | none => rfl
  | some v =>
    simp only
    by_cases h1 : py.lower (py.strip v) ∈ ["", "none", "auto"]
    · rw [if_pos h1, if_pos h1]
    · rw [if_neg h1]

theorem tritonMaxProbe_spec (cap : Nat) :
    (∃ m, tritonMaxProbe py env cap = .ok m ∧ (IntOk py env "XTRUCTURE_HASHTABLE_TRITON_INSERT_MAX_PROBE_BUCKETS" ∧
      IntOk py env "XTRUCTURE_HASHTABLE_TRITON_INSERT_NUM_WARPS" ∧ IntOk py env "XTRUCTURE_HASHTABLE_TRITON_INSERT_NUM_STAGES") ∧
      (Unlimited py env "XTRUCTURE_HASHTABLE_TRITON_INSERT_MAX_PROBE_BUCKETS" cap → cap ≤ m)) ∨
    (tritonMaxProbe py env cap = .error .value ∧ ¬ (IntOk py env "XTRUCTURE_HASHTABLE_TRITON_INSERT_MAX_PROBE_BUCKETS" ∧
      IntOk py env "XTRUCTURE_HASHTABLE_TRITON_INSERT_NUM_WARPS" ∧ IntOk py env "XTRUCTURE_HASHTABLE_TRITON_INSERT_NUM_STAGES")) := by
  have hu : tritonMaxProbe py env cap =
      (parseIntEnv py env "XTRUCTURE_HASHTABLE_TRITON_INSERT_MAX_PROBE_BUCKETS" 256).bind fun _ =>
      (parseIntEnv py env "XTRUCTURE_HASHTABLE_TRITON_INSERT_MAX_PROBE_BUCKETS" cap).bind fun m =>
      (parseOptionalInt py (env "XTRUCTURE_HASHTABLE_TRITON_INSERT_NUM_WARPS")).bind fun _ =>
      (parseOptionalInt py (env "XTRUCTURE_HASHTABLE_TRITON_INSERT_NUM_STAGES")).bind fun _ => .ok m := by
    rw [← probe_eq _ cap]; rfl
  rw [hu]
  rcases parseIntEnv_spec (py := py) (env := env) "XTRUCTURE_HASHTABLE_TRITON_INSERT_MAX_PROBE_BUCKETS" 256 with ⟨m0, e0, h0⟩ | ⟨e0, h0⟩
  · rcases parseIntEnv_spec (py := py) (env := env) "XTRUCTURE_HASHTABLE_TRITON_INSERT_MAX_PROBE_BUCKETS" cap with ⟨m1, e1, _⟩ | ⟨_, h1⟩
    · rcases parseOptionalInt_spec (py := py) (env := env) "XTRUCTURE_HASHTABLE_TRITON_INSERT_NUM_WARPS" with ⟨m2, e2, h2⟩ | ⟨e2, h2⟩
      · rcases parseOptionalInt_spec (py := py) (env := env) "XTRUCTURE_HASHTABLE_TRITON_INSERT_NUM_STAGES" with ⟨m3, e3, h3⟩ | ⟨e3, h3⟩
        · exact Or.inl ⟨m1, by rw [e0, e1, e2, e3]; rfl, ⟨h0, h2, h3⟩, fun h => parseIntEnv_large e1 (Nat.le_refl _) h⟩
        · exact Or.inr ⟨by rw [e0, e1, e2, e3]; rfl, fun h => h3 h.2.2⟩
      · exact Or.inr ⟨by rw [e0, e1, e2]; rfl, fun h => h2 h.2.1⟩
    · exact absurd h0 h1
  · exact Or.inr ⟨by rw [e0]; rfl, fun h => h0 h.1⟩

theorem pallasMaxProbe_spec (cap : Nat) :
    (∃ m, pallasMaxProbe py env cap = .ok m ∧ IntOk py env "XTRUCTURE_HASHTABLE_PALLAS_INSERT_MAX_PROBE_BUCKETS" ∧
      (Unlimited py env "XTRUCTURE_HASHTABLE_PALLAS_INSERT_MAX_PROBE_BUCKETS" cap → cap ≤ m)) ∨
    (pallasMaxProbe py env cap = .error .value ∧ ¬ IntOk py env "XTRUCTURE_HASHTABLE_PALLAS_INSERT_MAX_PROBE_BUCKETS") := by
  have hu : pallasMaxProbe py env cap = parseIntEnv py env "XTRUCTURE_HASHTABLE_PALLAS_INSERT_MAX_PROBE_BUCKETS" cap := by
    rw [← probe_eq]; rfl
  rw [hu]
  rcases parseIntEnv_spec (py := py) (env := env) "XTRUCTURE_HASHTABLE_PALLAS_INSERT_MAX_PROBE_BUCKETS" cap with ⟨m1, e1, h1⟩ | ⟨e1, h1⟩
  · exact Or.inl ⟨m1, e1, h1, fun h => parseIntEnv_large e1 (Nat.le_refl _) h⟩
  · exact Or.inr ⟨e1, h1⟩

end Parse

theorem sortBackend_spec (c : HSetup) :
    (∃ s, sortBackend c.py c.env0 = .ok s ∧ c.sortWord ∈ ["stable_argsort", "lax_unstable", "lax_stable"] ∧ (s = .laxUnstable ↔ c.sortWord = "lax_unstable")) ∨
    (sortBackend c.py c.env0 = .error .value ∧ c.sortWord ∉ ["stable_argsort", "lax_unstable", "lax_stable"]) := by
  have : sortBackend c.py c.env0 = if c.sortWord = "stable_argsort" then .ok .stableArgsort else if c.sortWord = "lax_unstable" then .ok .laxUnstable
    else if c.sortWord = "lax_stable" then .ok .laxStable else .error .value := rfl
  rw [this]
  by_cases h1 : c.sortWord = "stable_argsort"
  · exact Or.inl ⟨_, if_pos h1, by simp [h1], by simp [h1]⟩
  · rw [if_neg h1]
    by_cases h2 : c.sortWord = "lax_unstable"
    · exact Or.inl ⟨_, if_pos h2, by simp [h2], by simp [h2]⟩
    · rw [if_neg h2]
      by_cases h3 : c.sortWord = "lax_stable"
      · exact Or.inl ⟨_, if_pos h3, by simp [h3], by simp [h3]⟩
      · exact Or.inr ⟨if_neg h3, by simp [h1, h2, h3]⟩

theorem dedupeMode_spec (c : HSetup) :
    (∃ m, dedupeMode c.py c.env0 = .ok m ∧ c.modeWord ∈ ["approx", "safe", "exact", "fast"] ∧ m = c.asked) ∨
    (dedupeMode c.py c.env0 = .error .value ∧ c.modeWord ∉ ["approx", "safe", "exact", "fast"]) := by
  have : dedupeMode c.py c.env0 = (fun v => if v = "approx" then .ok .approx else if v = "safe" then .ok .safe
    else if v = "exact" then .ok .exact else .error .value) (if c.modeWord = "fast" then "safe" else c.modeWord) := rfl
  rw [this]
  by_cases h0 : c.modeWord = "fast"
  · exact Or.inl ⟨.safe, by simp [h0], by simp [h0], by simp [HSetup.asked, h0]⟩
  · rw [if_neg h0]
    simp only
    by_cases h1 : c.modeWord = "approx"
    · exact Or.inl ⟨_, if_pos h1, by simp [h1], by simp [HSetup.asked, h1]⟩
    · rw [if_neg h1]
      by_cases h2 : c.modeWord = "safe"
      · exact Or.inl ⟨_, if_pos h2, by simp [h2], by simp [HSetup.asked, h2]⟩
      · rw [if_neg h2]
        by_cases h3 : c.modeWord = "exact"
        · exact Or.inl ⟨_, if_pos h3, by simp [h3], by simp [HSetup.asked, h3]⟩
        · exact Or.inr ⟨if_neg h3, by simp [h0, h1, h2, h3]⟩

theorem chooseKern_eq (py : Py) (env : Env) (dev : Device) (bs cap : Nat) : chooseKern py env dev bs cap =
    (if dev = .gpu ∧ bs ≤ 32 then parseBoolEnv py env "XTRUCTURE_HASHTABLE_TRITON_INSERT" true else .ok false).bind fun t =>
    (if dev = .tpu ∧ bs ≤ 32 then parseBoolEnv py env "XTRUCTURE_HASHTABLE_PALLAS_INSERT" true else .ok false).bind fun p =>
    if t = true then (tritonMaxProbe py env cap).bind fun m => .ok (.triton m)
    else if p = true then (pallasMaxProbe py env cap).bind fun m => .ok (.pallas m)
    else .ok .xla := by
  unfold chooseKern
  by_cases h1 : dev = .gpu ∧ bs ≤ 32 <;> by_cases h2 : dev = .tpu ∧ bs ≤ 32 <;> simp only [h1, h2, if_true, if_false] <;> rfl

/-- What accepted settings select. -/
theorem select_spec (c : HSetup) (bs cap : Nat) :
    (∃ s, c.select bs cap = .ok s ∧ importSettings c.py c.env0 = .ok s.1 ∧ c.Accepts bs ∧ (s.1.1 = .laxUnstable ↔ c.sortWord = "lax_unstable") ∧
      s.1.2 = c.asked ∧
      (c.UsesTriton bs → ∃ m, s.2 = .triton m ∧ (Unlimited c.py c.env "XTRUCTURE_HASHTABLE_TRITON_INSERT_MAX_PROBE_BUCKETS" cap → cap ≤ m)) ∧
      (c.UsesPallas bs → ∃ m, s.2 = .pallas m ∧ (Unlimited c.py c.env "XTRUCTURE_HASHTABLE_PALLAS_INSERT_MAX_PROBE_BUCKETS" cap → cap ≤ m)) ∧
      (¬ c.UsesTriton bs → ¬ c.UsesPallas bs → s.2 = .xla)) ∨
    (c.select bs cap = .error .value ∧ ¬ c.Accepts bs) := by
  have hsel : c.select bs cap = (importSettings c.py c.env0).bind fun i => (chooseKern c.py c.env c.dev bs cap).bind fun k => .ok (i, k) := rfl
  have himp : importSettings c.py c.env0 = (sortBackend c.py c.env0).bind fun s => (dedupeMode c.py c.env0).bind fun m => .ok (s, m) := rfl
  rcases sortBackend_spec c with ⟨s, es, hs, hs'⟩ | ⟨es, hs⟩
  · rcases dedupeMode_spec c with ⟨m, em, hm, hm'⟩ | ⟨em, hm⟩
    · have ei : importSettings c.py c.env0 = .ok (s, m) := by rw [himp, es, em]; rfl
      have hker : chooseKern c.py c.env c.dev bs cap =
          (if c.dev = .gpu ∧ bs ≤ 32 then parseBoolEnv c.py c.env "XTRUCTURE_HASHTABLE_TRITON_INSERT" true else .ok false).bind fun t =>
          (if c.dev = .tpu ∧ bs ≤ 32 then parseBoolEnv c.py c.env "XTRUCTURE_HASHTABLE_PALLAS_INSERT" true else .ok false).bind fun p =>
          if t = true then (tritonMaxProbe c.py c.env cap).bind fun m => .ok (.triton m)
          else if p = true then (pallasMaxProbe c.py c.env cap).bind fun m => .ok (.pallas m)
          else .ok .xla := chooseKern_eq _ _ _ _ _
      rw [hsel, ei]
      simp only [Except.bind]
      rw [hker]
      by_cases hg : c.dev = .gpu ∧ bs ≤ 32
      · have hnt : ¬ (c.dev = .tpu ∧ bs ≤ 32) := by rw [hg.1]; rintro ⟨h, _⟩; cases h
        have hnp : ¬ c.UsesPallas bs := fun h => hnt ⟨h.1, h.2.1⟩
        rw [if_pos hg, if_neg hnt]
        rcases parseBoolEnv_spec (py := c.py) (env := c.env) "XTRUCTURE_HASHTABLE_TRITON_INSERT" with ⟨eb, h1, h2⟩ | ⟨eb, h1, h2⟩ | ⟨eb, h1, h2⟩
        · have hut : c.UsesTriton bs := ⟨hg.1, hg.2, h2⟩
          rcases tritonMaxProbe_spec (py := c.py) (env := c.env) cap with ⟨k, ek, h3, h4⟩ | ⟨ek, h3⟩
          · refine Or.inl ⟨((s, m), .triton k), by rw [eb, ek]; rfl, rfl, ⟨hs, hm, fun _ _ => h1, fun _ => h3, fun h a => absurd ⟨h, a⟩ hnt,
              fun h => absurd h hnp⟩, hs', hm', fun _ => ⟨k, rfl, h4⟩, fun h => absurd h hnp, fun h => absurd hut h⟩
          · exact Or.inr ⟨by rw [eb, ek]; rfl, fun h => h3 (h.tritonKernel hut)⟩
        · have hut : ¬ c.UsesTriton bs := fun h => h2 h.2.2
          exact Or.inl ⟨((s, m), .xla), by rw [eb]; rfl, rfl, ⟨hs, hm, fun _ _ => h1, fun h => absurd h hut, fun h a => absurd ⟨h, a⟩ hnt,
              fun h => absurd h hnp⟩, hs', hm', fun h => absurd h hut, fun h => absurd h hnp, fun _ _ => rfl⟩
        · exact Or.inr ⟨by rw [eb]; rfl, fun h => h1 (h.triton hg.1 hg.2)⟩
      · have hut : ¬ c.UsesTriton bs := fun h => hg ⟨h.1, h.2.1⟩
        rw [if_neg hg]
        by_cases ht : c.dev = .tpu ∧ bs ≤ 32
        · rw [if_pos ht]
          rcases parseBoolEnv_spec (py := c.py) (env := c.env) "XTRUCTURE_HASHTABLE_PALLAS_INSERT" with ⟨eb, h1, h2⟩ | ⟨eb, h1, h2⟩ | ⟨eb, h1, h2⟩
          · have hup : c.UsesPallas bs := ⟨ht.1, ht.2, h2⟩
            rcases pallasMaxProbe_spec (py := c.py) (env := c.env) cap with ⟨k, ek, h3, h4⟩ | ⟨ek, h3⟩
            · refine Or.inl ⟨((s, m), .pallas k), by rw [eb, ek]; rfl, rfl, ⟨hs, hm, fun a b => absurd ⟨a, b⟩ hg, fun h => absurd h hut, fun _ _ => h1,
                fun _ => h3⟩, hs', hm', fun h => absurd h hut, fun _ => ⟨k, rfl, h4⟩, fun _ h => absurd hup h⟩
            · exact Or.inr ⟨by rw [eb, ek]; rfl, fun h => h3 (h.pallasKernel hup)⟩
          · have hup : ¬ c.UsesPallas bs := fun h => h2 h.2.2
            exact Or.inl ⟨((s, m), .xla), by rw [eb]; rfl, rfl, ⟨hs, hm, fun a b => absurd ⟨a, b⟩ hg, fun h => absurd h hut, fun _ _ => h1,
                fun h => absurd h hup⟩, hs', hm', fun h => absurd h hut, fun h => absurd h hup, fun _ _ => rfl⟩
          · exact Or.inr ⟨by rw [eb]; rfl, fun h => h1 (h.pallas ht.1 ht.2)⟩
        · have hup : ¬ c.UsesPallas bs := fun h => ht ⟨h.1, h.2.1⟩
          rw [if_neg ht]
          exact Or.inl ⟨((s, m), .xla), rfl, rfl, ⟨hs, hm, fun a b => absurd ⟨a, b⟩ hg, fun h => absurd h hut, fun a b => absurd ⟨a, b⟩ ht,
              fun h => absurd h hup⟩, hs', hm', fun h => absurd h hut, fun h => absurd h hup, fun _ _ => rfl⟩
    · exact Or.inr ⟨by rw [hsel, himp, es, em]; rfl, fun h => hm h.mode⟩
  · exact Or.inr ⟨by rw [hsel, himp, es]; rfl, fun h => hs h.sort⟩

/-- **C83 (1).**  The settings accepted by `parallel_insert` are exactly the documented ones; all others raise `ValueError`. -/
theorem select_ok_iff (c : HSetup) (bs cap : Nat) :
    ((∃ s, c.select bs cap = .ok s) ↔ c.Accepts bs) ∧ (¬ c.Accepts bs → c.select bs cap = .error .value) := by
  rcases select_spec c bs cap with ⟨s, e, _, ha, _⟩ | ⟨e, ha⟩
  · exact ⟨iff_of_true ⟨s, e⟩ ha, fun h => absurd ha h⟩
  · exact ⟨iff_of_false (fun ⟨s, h⟩ => by rw [e] at h; cases h) ha, fun _ => e⟩

/-- Without any setting everything is accepted, on every device (`py` must leave the two default words alone). -/
theorem no_settings_accepted (py : Py) (dev : Device) (h1 : word py "safe" = "safe") (h2 : word py "stable_argsort" = "stable_argsort") (bs : Nat) :
    (HSetup.mk py (fun _ => none) (fun _ => none) dev).Accepts bs where
  sort := by unfold HSetup.sortWord; simp only [Option.getD_none]; rw [h2]; simp
  mode := by unfold HSetup.modeWord; simp only [Option.getD_none]; rw [h1]; simp
  triton := fun _ _ v h => by cases h
  tritonKernel := fun _ => ⟨fun v h => (by cases h), fun v h => (by cases h), fun v h => (by cases h)⟩
  pallas := fun _ _ v h => by cases h
  pallasKernel := fun _ v h => by cases h

/-! ## De-duplication -/

theorem pairLe_iff {filled : List Bool} {h1 h2 : List Nat} {i j : Nat} : pairLe filled h1 h2 i j = true ↔
    masked filled h1 i < masked filled h1 j ∨ (masked filled h1 i = masked filled h1 j ∧ masked filled h2 i ≤ masked filled h2 j) := by
  unfold pairLe
  simp [Bool.or_eq_true, Bool.and_eq_true]

theorem pairLe_lex {filled : List Bool} {h1 h2 : List Nat} {i j : Nat} (h : pairLe filled h1 h2 i j = true) :
    Lex (fun _ _ => True) (pairLes filled h1 h2) i j := by
  have h := pairLe_iff.1 h
  refine ⟨?_, fun h' => ⟨?_, fun _ => trivial⟩⟩
  · simp only [leBy, decide_eq_true_eq]; omega
  · simp only [leBy, decide_eq_true_eq] at h' ⊢; omega

/-- Every sort backend gives the same de-duplication. -/
theorem dedupeBy_eq (sb : SortBackend) (mode : Mode) (E : Enc α) (xs : List α) (filled : List Bool) (key : Option (List K))
    (hg : mode = .safe → GuardFor .safe E xs filled key) (perm : List Nat) (hperm : sb = .laxUnstable → perm.Perm (List.range xs.length) ∧
      perm.Pairwise fun i j => pairLe filled (xs.map E.h1) (xs.map E.h2) i j = true) :
    dedupeBy sb mode E xs filled key perm = dedupe mode E xs filled key := by
  cases sb with
  | stableArgsort => rfl
  | laxStable =>
    refine dedupe_any_sort mode E xs filled key hg (stableSort_perm _ _) ?_
    refine (stableSort_refine (R := fun _ _ => True) ?_ ?_ _ (List.pairwise_of_forall fun _ _ => trivial)).imp fun h => pairLe_lex h.1
    · intro a b c h1 h2
      rw [pairLe_iff] at *
      omega
    · intro a b
      rw [Bool.or_eq_true, pairLe_iff, pairLe_iff]
      omega
  | laxUnstable =>
    obtain ⟨h1, h2⟩ := hperm rfl
    exact dedupe_any_sort mode E xs filled key hg h1 (h2.imp fun h => pairLe_lex h)

theorem dedupe_length (mode : Mode) (E : Enc α) (xs : List α) (filled : List Bool) (key : Option (List K)) :
    (dedupe mode E xs filled key).1.length = xs.length := by
  have hrows : ∀ m, (dedupeRows m xs.length E.wc (xs.map E.words) filled key).1.length = xs.length := by
    intro m
    unfold dedupeRows
    simp only
    split
    · exact (finish_lengths ..).1
    · split
      · exact (finish_lengths ..).1
      · exact (finish_lengths ..).1
  unfold dedupe dedupePairs dedupePairsFrom
  cases mode with
  | exact => exact hrows _
  | approx => exact (finish_lengths ..).1
  | safe =>
    simp only
    split
    · exact hrows _
    · exact (finish_lengths ..).1

/-! ## One call -/

/-- A batch under a mask, whatever exact de-duplication and thorough back-end. -/
theorem batch_behaves {H : Hasher α} {T : Table α} (hr : Reachable K H T) (U : List α) (hU : U.length ≤ T.cap * T.bs)
    (hst : ∀ x, (∃ i, Stored T x i) → x ∈ U) (be : Backend) {mode : Mode} (xs : List α) (filled : List Bool) (key : Option (List K))
    (hg : GuardFor mode H.toEnc xs filled key) (ht : Thorough H T (.parallelInsert be mode xs filled key))
    (hoff : ∀ (l : Nat) (x : α), xs[l]? = some x → filled[l]? = some true → x ∈ U) :
    let r := parallelInsert be mode H T xs filled key
    r.inserted.length = xs.length ∧ r.unique.length = xs.length ∧
    (∀ (l : Nat) (x : α), xs[l]? = some x →
      (r.unique[l]? = some true ↔ filled[l]? = some true ∧ IsBest xs filled key l l) ∧
      (r.inserted[l]? = some true ↔ filled[l]? = some true ∧ IsBest xs filled key l l ∧ ¬ ∃ i, Stored T x i)) ∧
    ∀ x, (∃ i, Stored r.table x i) ↔ (∃ i, Stored T x i) ∨ ∃ l : Nat, xs[l]? = some x ∧ filled[l]? = some true := by
  intro r
  obtain ⟨h1, h2, h3⟩ := parallel_insert_union hr be mode xs filled key
  obtain ⟨hp, hsort⟩ := dedupe_default_sorted H.toEnc xs filled
  have huq : ∀ l : Nat, l < xs.length → (r.unique[l]? = some true ↔ filled[l]? = some true ∧ IsBest xs filled key l l) := fun l hl =>
    (dedupe_exact_partial H.toEnc xs filled key hg hp hsort l hl).2
  have hlen : r.inserted.length = xs.length := (pi_spec be hr.inv (dedupe_sel mode H xs filled key)).1.placed.len
  have hcont : ∀ x, (∃ i, Stored r.table x i) ↔ (∃ i, Stored T x i) ∨ ∃ l : Nat, xs[l]? = some x ∧ filled[l]? = some true := by
    intro x
    constructor
    · intro h
      exact run_stored_offered hr (.parallelInsert be mode xs filled key) x h
    · rintro (h | h)
      · exact run_keeps hr (.parallelInsert be mode xs filled key) h
      · exact run_stores_offered hr U hU hst (.parallelInsert be mode xs filled key) (fun y ⟨l, hy, hf⟩ => hoff l y hy hf) hg ht x h
  refine ⟨hlen, dedupe_length _ _ _ _ _, fun l x hx => ?_, hcont⟩
  have hl : l < xs.length := (List.getElem?_eq_some_iff.1 hx).1
  refine ⟨huq l hl, ?_, ?_⟩
  · intro h
    obtain ⟨a, b, c⟩ := h2 l h
    exact ⟨a, ((huq l hl).1 b).2, c x hx⟩
  · rintro ⟨hf, hb, hn⟩
    rcases (h1 x).1 ((hcont x).2 (Or.inr ⟨l, hx, hf⟩)) with h | ⟨k, hk, hkx⟩
    · exact absurd h hn
    · obtain ⟨kf, ku, _⟩ := h2 k hk
      have hkl : k < xs.length := (List.getElem?_eq_some_iff.1 hkx).1
      have hkb := ((huq k hkl).1 ku).2
      obtain ⟨_, _, _, m1⟩ := hb
      obtain ⟨_, _, _, m2⟩ := hkb
      obtain ⟨a1, a2⟩ := m1 k hkl kf (by rw [hkx, hx])
      obtain ⟨b1, b2⟩ := m2 l hl hf (by rw [hkx, hx])
      have : l = k := Nat.le_antisymm (a2 b1) (b2 a1)
      subst this
      exact hk

omit [DecidableEq α] in
theorem takesPart_iff (f : Filled) {xs : List α} {l : Nat} {x : α} (hx : xs[l]? = some x) : (f.toMask xs)[l]? = some true ↔ f.takesPart l := by
  cases f with
  | absent => exact iff_of_true (allTrue_getElem? xs hx) trivial
  | scalar b =>
    show (xs.map fun _ => b)[l]? = some true ↔ b = true
    rw [List.getElem?_map, hx]; simp
  | mask m => exact Iff.rfl

/-- What `parallel_insert` does under selected settings, for every form of `filled` but a scalar `False`. -/
theorem parallelInsertSel_eq (s : (SortBackend × Mode) × Kern) (ch : Choice) (H : Hasher α) (T : Table α) (xs : List α) (f : Filled) (hf : f ≠ .scalar false)
    (key : Option (List K)) (hg : s.1.2 = .safe → GuardFor .safe H.toEnc xs (f.toMask xs) key) (hperm : s.1.1 = .laxUnstable → ch.perm.Perm (List.range xs.length) ∧
      ch.perm.Pairwise fun i j => pairLe (f.toMask xs) (xs.map H.h1) (xs.map H.h2) i j = true) :
    parallelInsertSel s ch H T xs f key = parallelInsert (s.2.backend ch) s.1.2 H T xs (f.toMask xs) key := by
  have : parallelInsertSel s ch H T xs f key =
      parallelInsertWith (s.2.backend ch) H T xs (f.toMask xs) (dedupeBy s.1.1 s.1.2 H.toEnc xs (f.toMask xs) key ch.perm) := by
    match f, hf with
    | .absent, _ => rfl
    | .scalar true, _ => rfl
    | .scalar false, hf => exact absurd rfl hf
    | .mask l, _ => rfl
  rw [this, dedupeBy_eq _ _ _ _ _ _ hg _ hperm]
  rfl

/-- One call on a table with room. -/
theorem call_behaves {c : HSetup} {H : Hasher α} {T : Table α} (hr : Reachable K H T) (hc : c.Faithful T.cap T.bs) (U : List α)
    (hU : U.length ≤ T.cap * T.bs) (hst : ∀ x, (∃ i, Stored T x i) → x ∈ U) (o : Call α K) (hoff : ∀ x, o.offers x → x ∈ U) (ch : Choice)
    (hfit : o.Fits c H T.cap T.bs T.maxProbes ch) :
    ∃ T' r, call c H T ch o = .ok (T', r) ∧ Reachable K H T' ∧ (T'.cap = T.cap ∧ T'.bs = T.bs ∧ T'.maxProbes = T.maxProbes) ∧
      Behaves (fun x => ∃ i, Stored T x i) o r ∧ r.size = T'.size ∧ ∀ x, (∃ i, Stored T' x i) ↔ (∃ i, Stored T x i) ∨ o.offers x := by
  rcases select_spec c T.bs T.cap with ⟨s, es, ei, _, hsort, hmode, htr, hpa, hxla⟩ | ⟨_, ha⟩
  · cases o with
    | insert x =>
      have hcont : ∀ y, (∃ i, Stored (insert H T x).1 y i) ↔ (∃ i, Stored T y i) ∨ x = y := by
        intro y
        constructor
        · exact run_stored_offered hr (.insert x : Op α K) y
        · rintro (h | h)
          · exact run_keeps hr (.insert x : Op α K) h
          · exact run_stores_offered hr U hU hst (.insert x : Op α K) hoff trivial trivial y h
      refine ⟨(insert H T x).1, ⟨[(insert H T x).2.1], [], (insert H T x).1.size⟩, by unfold call; rw [ei], hr.run (.insert x), run_shape hr (.insert x),
        ⟨_, rfl, rfl, ?_⟩, rfl, hcont⟩
      constructor
      · rintro h ⟨i, hi⟩
        rw [(insert_reports hr x).1 i hi] at h
        cases h
      · intro h
        by_cases hf : ∃ i, i < T.cap * T.bs ∧ ¬ Occupied T i
        · exact ((insert_reports hr x).2.1 h hf).1
        · have hfull : ∀ i, i < T.cap * T.bs → Occupied T i := fun i hi => Classical.byContradiction fun hc => hf ⟨i, hi, hc⟩
          have e := ((insert_reports hr x).2.2 h hfull).1
          have := (hcont x).2 (Or.inr rfl)
          rw [e] at this
          exact absurd this h
    | parallelInsert xs f key =>
      obtain ⟨_, hg, hbig, hperm⟩ := hfit
      have ecall : call c H T ch (.parallelInsert xs f key) = .ok ((parallelInsertSel s ch H T xs f key).table,
          ⟨(parallelInsertSel s ch H T xs f key).inserted, (parallelInsertSel s ch H T xs f key).unique, (parallelInsertSel s ch H T xs f key).table.size⟩) := by
        unfold call; rw [ei, es]
      refine ⟨_, _, ecall, ?_⟩
      by_cases hf : f = .scalar false
      · subst hf
        have hno : ∀ l : Nat, (xs.map fun _ => false)[l]? ≠ some true := by
          intro l h
          rw [List.getElem?_map] at h
          cases hx : xs[l]? with
          | none => rw [hx] at h; cases h
          | some x => rw [hx] at h; cases h
        refine ⟨hr, ⟨rfl, rfl, rfl⟩, ⟨by simp [parallelInsertSel, parallelInsertEmpty], by simp [parallelInsertSel, parallelInsertEmpty], ?_⟩, rfl, ?_⟩
        · intro l x hx
          exact ⟨⟨fun h => absurd h (hno l), fun h => (by cases h.1)⟩, ⟨fun h => absurd h (hno l), fun h => (by cases h.1)⟩⟩
        · intro x
          exact ⟨Or.inl, fun h => h.elim id fun ⟨l, _, h⟩ => (by cases h)⟩
      · rw [parallelInsertSel_eq s ch H T xs f hf key (fun h => h ▸ hmode ▸ hg) (fun h => hperm (hsort.1 h))]
        have ht : Thorough H T (.parallelInsert (s.2.backend ch) s.1.2 xs (f.toMask xs) key) := by
          by_cases ut : c.UsesTriton T.bs
          · obtain ⟨m, hm, hk⟩ := htr ut
            rw [hm]
            exact ⟨ut.2.1, hk (hc.triton ut)⟩
          · by_cases up : c.UsesPallas T.bs
            · obtain ⟨m, hm, hk⟩ := hpa up
              rw [hm]
              exact ⟨up.2.1, hk (hc.pallas up)⟩
            · rw [hxla ut up]
              exact hbig ut up
        obtain ⟨b1, b2, b3, b4⟩ := batch_behaves hr U hU hst (s.2.backend ch) xs (f.toMask xs) key (hmode ▸ hg) ht
          (fun l x hx hl => hoff x ⟨l, hx, (takesPart_iff f hx).1 hl⟩)
        refine ⟨hr.run (.parallelInsert (s.2.backend ch) s.1.2 xs (f.toMask xs) key), run_shape hr (.parallelInsert (s.2.backend ch) s.1.2 xs (f.toMask xs) key),
          ⟨b1, b2, ?_⟩, rfl, ?_⟩
        · intro l x hx
          have := b3 l x hx
          rw [takesPart_iff f hx] at this
          exact this
        · intro x
          rw [b4 x]
          constructor
          · rintro (h | ⟨l, hx, hl⟩)
            · exact Or.inl h
            · exact Or.inr ⟨l, hx, (takesPart_iff f hx).1 hl⟩
          · rintro (h | ⟨l, hx, hl⟩)
            · exact Or.inl h
            · exact Or.inr ⟨l, hx, (takesPart_iff f hx).2 hl⟩
    | lookup x =>
      exact ⟨T, ⟨[(lookup H T x).2], [], T.size⟩, by unfold call; rw [ei], hr, ⟨rfl, rfl, rfl⟩, ⟨_, rfl, rfl, (lookup_exact hr x).1⟩, rfl,
        fun y => ⟨Or.inl, fun h => h.elim id False.elim⟩⟩
    | lookupParallel xs f =>
      refine ⟨T, ⟨(lookupParallelArg H T xs f).map Prod.snd, [], T.size⟩, by unfold call; rw [ei], hr, ⟨rfl, rfl, rfl⟩, ⟨?_, rfl, ?_⟩, rfl,
        fun y => ⟨Or.inl, fun h => h.elim id False.elim⟩⟩
      · rw [List.length_map]
        match f with
        | .absent => simp [lookupParallelArg, lookupParallel, lookupLanes_length]
        | .scalar true => simp [lookupParallelArg, lookupParallel, lookupLanes_length]
        | .scalar false => simp [lookupParallelArg, lookupEmpty]
        | .mask m => simp [lookupParallelArg, lookupParallel, lookupLanes_length]
      · intro l x hx
        obtain ⟨i, fd, h1, h2, h3⟩ := lookup_parallel_filled H T xs f l x hx
        rw [List.getElem?_map, h1]
        show some fd = some true ↔ _
        by_cases hp : f.takesPart l
        · rw [(h2 hp).1]
          constructor
          · intro h
            exact ⟨hp, (lookup_exact hr x).1.1 (Option.some.inj h)⟩
          · rintro ⟨_, h⟩
            rw [(lookup_exact hr x).1.2 h]
        · rw [h3 hp]
          exact ⟨fun h => (by cases h), fun h => absurd h.1 hp⟩
  · exact absurd hc.accepts ha

/-! ## Histories -/

theorem Behaves.congr {S S' : α → Prop} (h : ∀ x, S x ↔ S' x) (o : Call α K) (r : Ret) : Behaves S o r ↔ Behaves S' o r := by
  have : S = S' := funext fun x => propext (h x)
  rw [this]

/-- From any reachable table. -/
theorem calls_behave {c : HSetup} {H : Hasher α} {T : Table α} (hr : Reachable K H T) (hc : c.Faithful T.cap T.bs) (U : List α)
    (hU : U.length ≤ T.cap * T.bs) (S : α → Prop) (hS : ∀ x, (∃ i, Stored T x i) ↔ S x) (hSU : ∀ x, S x → x ∈ U) (os : List (Call α K × Choice))
    (hoff : ∀ o ∈ os, ∀ x, o.1.offers x → x ∈ U) (hfit : ∀ o ∈ os, o.1.Fits c H T.cap T.bs T.maxProbes o.2) :
    ∃ T' rs, calls c H T os = .ok (T', rs) ∧ BehavesAll S (os.map Prod.fst) rs := by
  induction os generalizing T S with
  | nil => exact ⟨T, [], rfl, rfl⟩
  | cons p os ih =>
    obtain ⟨o, ch⟩ := p
    obtain ⟨T1, r, e, hr1, ⟨s1, s2, s3⟩, hb, hsz, hcont⟩ := call_behaves hr hc U hU (fun x h => hSU x ((hS x).1 h)) o (hoff (o, ch) (by simp)) ch (hfit (o, ch) (by simp))
    obtain ⟨T2, rs, e2, hbs⟩ := ih hr1 (by rw [s1, s2]; exact hc) (by rw [s1, s2]; exact hU) (fun x => S x ∨ o.offers x)
      (fun x => by rw [hcont x, hS x]) (fun x h => h.elim (hSU x) (hoff (o, ch) (by simp) x)) (fun q hq => hoff q (by simp [hq]))
      (fun q hq => by rw [s1, s2, s3]; exact hfit q (by simp [hq]))
    refine ⟨T2, r :: rs, by unfold calls; rw [e]; simp only; rw [e2], ?_⟩
    refine ⟨r, rs, rfl, (Behaves.congr hS o r).1 hb, ?_, hbs⟩
    intro D hD hDx
    rw [hsz, ← storedItems_length hr1]
    have h1 : ∀ x, x ∈ storedItems T1 ↔ x ∈ D := by
      intro x; rw [mem_storedItems, hcont, hDx, hS]
    apply Nat.le_antisymm
    · exact (List.subperm_of_subset (storedItems_nodup hr1) fun x hx => (h1 x).1 hx).length_le
    · exact (List.subperm_of_subset hD fun x hx => (h1 x).2 hx).length_le

/-- **C83 (2).**  Under any accepted settings that do not cut the probing short, on any device, for any schedule of the GPU
programs and any order given by an unstable sort: a new table behaves as a set of the items offered to it, as long as these have room. -/
theorem table_is_a_set (c : HSetup) (H : Hasher α) (d : α) {capacity bs mult : Nat} {mp : Option Nat} (hv : ValidParams capacity bs mult mp)
    (hc : c.Faithful (internalCap capacity bs mult) bs) (U : List α) (hU : U.length ≤ internalCap capacity bs mult * bs) (os : List (Call α K × Choice))
    (hoff : ∀ o ∈ os, ∀ x, o.1.offers x → x ∈ U)
    (hfit : ∀ o ∈ os, o.1.Fits c H (internalCap capacity bs mult) bs (build d capacity bs mult mp).maxProbes o.2) :
    ∃ T rs, calls c H (build d capacity bs mult mp) os = .ok (T, rs) ∧ BehavesAll (fun _ => False) (os.map Prod.fst) rs :=
  calls_behave (T := build d capacity bs mult mp) ⟨d, capacity, bs, mult, mp, [], hv, rfl⟩ hc U hU (fun _ => False)
    (fun x => iff_of_false (build_no_stored d x) id) (fun _ h => h.elim) os hoff hfit

/-! ## The specification determines the answers -/

theorem bools_ext {l m : List Bool} (hl : l.length = m.length) (h : ∀ i, i < l.length → (l[i]? = some true ↔ m[i]? = some true)) : l = m := by
  apply List.ext_getElem hl
  intro i h1 h2
  have := h i h1
  rw [List.getElem?_eq_getElem h1, List.getElem?_eq_getElem h2] at this
  simp only [Option.some.injEq] at this
  exact Bool.eq_iff_iff.2 this

theorem Behaves.unique {S : α → Prop} {o : Call α K} {r r' : Ret} (h : Behaves S o r) (h' : Behaves S o r') : r.flags = r'.flags ∧ r.unique = r'.unique := by
  cases o with
  | insert x =>
    obtain ⟨b, e1, e2, e3⟩ := h
    obtain ⟨b', e1', e2', e3'⟩ := h'
    rw [e1, e2, e1', e2', Bool.eq_iff_iff.2 (e3.trans e3'.symm)]
    exact ⟨rfl, rfl⟩
  | parallelInsert xs f key =>
    obtain ⟨a1, a2, a3⟩ := h
    obtain ⟨b1, b2, b3⟩ := h'
    constructor
    · apply bools_ext (by omega)
      intro i hi
      have hx : xs[i]? = some (xs[i]'(by omega)) := List.getElem?_eq_getElem (by omega)
      exact (a3 i _ hx).2.trans (b3 i _ hx).2.symm
    · apply bools_ext (by omega)
      intro i hi
      have hx : xs[i]? = some (xs[i]'(by omega)) := List.getElem?_eq_getElem (by omega)
      exact (a3 i _ hx).1.trans (b3 i _ hx).1.symm
  | lookup x =>
    obtain ⟨b, e1, e2, e3⟩ := h
    obtain ⟨b', e1', e2', e3'⟩ := h'
    rw [e1, e2, e1', e2', Bool.eq_iff_iff.2 (e3.trans e3'.symm)]
    exact ⟨rfl, rfl⟩
  | lookupParallel xs f =>
    obtain ⟨a1, a2, a3⟩ := h
    obtain ⟨b1, b2, b3⟩ := h'
    refine ⟨?_, by rw [a2, b2]⟩
    apply bools_ext (by omega)
    intro i hi
    have hx : xs[i]? = some (xs[i]'(by omega)) := List.getElem?_eq_getElem (by omega)
    exact (a3 i _ hx).trans (b3 i _ hx).symm

omit [KeyTop K] in
theorem offers_finite (o : Call α K) : ∃ L : List α, ∀ x, x ∈ L ↔ o.offers x := by
  classical
  cases o with
  | insert y => exact ⟨[y], fun x => by simp [Call.offers, eq_comm]⟩
  | parallelInsert xs f key =>
    refine ⟨((List.range xs.length).filter fun l => decide (f.takesPart l)).filterMap fun l => xs[l]?, fun x => ?_⟩
    rw [List.mem_filterMap]
    constructor
    · rintro ⟨l, hl, hx⟩
      exact ⟨l, hx, of_decide_eq_true (List.mem_filter.1 hl).2⟩
    · rintro ⟨l, hx, hf⟩
      exact ⟨l, List.mem_filter.2 ⟨List.mem_range.2 (List.getElem?_eq_some_iff.1 hx).1, decide_eq_true hf⟩, hx⟩
  | lookup x => exact ⟨[], fun x => by simp [Call.offers]⟩
  | lookupParallel xs f => exact ⟨[], fun x => by simp [Call.offers]⟩

theorem exists_nodup (L : List α) : ∃ D : List α, D.Nodup ∧ ∀ x, x ∈ D ↔ x ∈ L := by
  induction L with
  | nil => exact ⟨[], by simp, fun x => Iff.rfl⟩
  | cons a L ih =>
    obtain ⟨D, h1, h2⟩ := ih
    by_cases h : a ∈ D
    · refine ⟨D, h1, fun x => ?_⟩
      rw [List.mem_cons, h2]
      constructor
      · exact Or.inr
      · rintro (rfl | hx)
        · exact (h2 x).1 h
        · exact hx
    · exact ⟨a :: D, List.nodup_cons.2 ⟨h, h1⟩, fun x => by rw [List.mem_cons, List.mem_cons, h2]⟩

/-- The specification leaves no freedom. -/
theorem BehavesAll.unique {S : α → Prop} (hS : ∃ L : List α, ∀ x, x ∈ L ↔ S x) (os : List (Call α K)) {rs rs' : List Ret} (h : BehavesAll S os rs)
    (h' : BehavesAll S os rs') : rs = rs' := by
  induction os generalizing S rs rs' with
  | nil => rw [show rs = [] from h, show rs' = [] from h']
  | cons o os ih =>
    obtain ⟨r, t, e, hb, hs, ht⟩ := h
    obtain ⟨r', t', e', hb', hs', ht'⟩ := h'
    obtain ⟨L, hL⟩ := hS
    obtain ⟨M, hM⟩ := offers_finite o
    have hfin : ∀ x, x ∈ L ++ M ↔ S x ∨ o.offers x := fun x => by rw [List.mem_append, hL, hM]
    obtain ⟨D, hD, hDx⟩ := exists_nodup (L ++ M)
    have hDS : ∀ x, x ∈ D ↔ S x ∨ o.offers x := fun x => (hDx x).trans (hfin x)
    have hsz : r.size = r'.size := (hs D hD hDS).trans (hs' D hD hDS).symm
    obtain ⟨hf, hu⟩ := hb.unique hb'
    have hr : r = r' := by
      cases r; cases r'
      simp only at hsz hf hu
      subst hsz hf hu
      rfl
    rw [e, e', hr, ih ⟨_, hfin⟩ ht ht']

/-- **C83 (3).**  The settings, the device, the schedules and sort orders, the hash functions and the shape of the table do not show: the same calls get the same
answers and sizes. -/
theorem settings_agree (c c' : HSetup) (H H' : Hasher α) (d d' : α) {capacity bs mult capacity' bs' mult' : Nat} {mp mp' : Option Nat}
    (hv : ValidParams capacity bs mult mp) (hv' : ValidParams capacity' bs' mult' mp') (hc : c.Faithful (internalCap capacity bs mult) bs)
    (hc' : c'.Faithful (internalCap capacity' bs' mult') bs') (U : List α) (hU : U.length ≤ internalCap capacity bs mult * bs)
    (hU' : U.length ≤ internalCap capacity' bs' mult' * bs') (os os' : List (Call α K × Choice)) (hsame : os.map Prod.fst = os'.map Prod.fst)
    (hoff : ∀ o ∈ os, ∀ x, o.1.offers x → x ∈ U)
    (hfit : ∀ o ∈ os, o.1.Fits c H (internalCap capacity bs mult) bs (build d capacity bs mult mp).maxProbes o.2)
    (hfit' : ∀ o ∈ os', o.1.Fits c' H' (internalCap capacity' bs' mult') bs' (build d' capacity' bs' mult' mp').maxProbes o.2) :
    ∃ T T' rs, calls c H (build d capacity bs mult mp) os = .ok (T, rs) ∧ calls c' H' (build d' capacity' bs' mult' mp') os' = .ok (T', rs) := by
  have hoff' : ∀ o ∈ os', ∀ x, o.1.offers x → x ∈ U := by
    intro o ho x hx
    have : o.1 ∈ os.map Prod.fst := by rw [hsame]; exact List.mem_map.2 ⟨o, ho, rfl⟩
    obtain ⟨q, hq, e⟩ := List.mem_map.1 this
    exact hoff q hq x (by rw [e]; exact hx)
  obtain ⟨T, rs, e, hb⟩ := table_is_a_set c H d hv hc U hU os hoff hfit
  obtain ⟨T', rs', e', hb'⟩ := table_is_a_set c' H' d' hv' hc' U hU' os' hoff' hfit'
  rw [← hsame] at hb'
  have := hb.unique ⟨[], fun x => by simp⟩ _ hb'
  subst this
  exact ⟨T, T', rs, e, e'⟩

/-! ## Concrete settings -/

/-- `int` of a few strings. -/
def demoPy : Py where
  strip s := s
  lower s := s
  int s := if s = "1" then some 1 else if s = "64" then some 64 else if s = "0" then some 0 else none

/-- A setting of one variable. -/
def set1 (name value : String) : Env := fun n => if n = name then some value else none

/-- Unstable sort; the GPU kernel with probe limit `lim`. -/
def demoSetup (lim : String) (dev : Device) : HSetup :=
  { py := demoPy, env0 := set1 "XTRUCTURE_HASHTABLE_SORT_BACKEND" "lax_unstable", env := set1 "XTRUCTURE_HASHTABLE_TRITON_INSERT_MAX_PROBE_BUCKETS" lim, dev }

def plainSetup (dev : Device) : HSetup := { py := demoPy, env0 := fun _ => none, env := fun _ => none, dev }

def approxSetup : HSetup := { py := demoPy, env0 := set1 "XTRUCTURE_HASHTABLE_DEDUPE_MODE" "approx", env := fun _ => none, dev := .gpu }

/-- A history: a batch with a duplicate and a masked lane, a single insert, look-ups. -/
def demoCalls (ch : Choice) : List (Call Nat (Option Nat) × Choice) :=
  [(.parallelInsert [4, 1, 4, 8] (.mask [true, true, true, false]) (some [some 3, some 1, some 2, some 0]), ch), (.insert 8, ch), (.insert 4, ch),
   (.lookupParallel [8, 1, 5] .absent, ch)]

/-- Programs of the GPU kernel one after the other; lanes 0 and 2 (equal items) in reverse order. -/
def demoChoice : Choice := { sched := [(1, 0), (2, 0), (0, 0), (1, 0), (2, 0), (0, 0), (2, 0), (1, 0)], perm := [2, 0, 1, 3] }

/-- What was returned. -/
def demoRets (r : Except CfgErr (Table Nat × List Ret)) : Option (List Ret) :=
  match r with
  | .ok x => some x.2
  | .error _ => none

/-- The hypotheses of `table_is_a_set` hold for a GPU with an explicit probe limit and an unstable sort... -/
example : (demoSetup "64" .gpu).Faithful (internalCap 8 2 2) 2 ∧ (demoSetup "64" .gpu).UsesTriton 2 ∧ (demoSetup "64" .gpu).sortWord = "lax_unstable" ∧
    ∀ o ∈ demoCalls demoChoice, o.1.Fits (demoSetup "64" .gpu) exHasher (internalCap 8 2 2) 2 (build 0 8 2 2 none).maxProbes o.2 := by
  have hw : (demoSetup "64" .gpu).env "XTRUCTURE_HASHTABLE_TRITON_INSERT_MAX_PROBE_BUCKETS" = some "64" := rfl
  have hlim : Unlimited (demoSetup "64" .gpu).py (demoSetup "64" .gpu).env "XTRUCTURE_HASHTABLE_TRITON_INSERT_MAX_PROBE_BUCKETS" (internalCap 8 2 2) := by
    intro v h
    rw [hw] at h; cases h
    exact Or.inr ⟨64, rfl, by decide +kernel⟩
  have hut : (demoSetup "64" .gpu).UsesTriton 2 := ⟨rfl, by decide, fun v h => (by cases h)⟩
  refine ⟨⟨⟨?_, ?_, fun _ _ v h => (by cases h), fun _ => ⟨?_, fun v h => (by cases h), fun v h => (by cases h)⟩, fun h => (by cases h), fun h => (by cases h.1)⟩,
    fun _ => hlim, fun h => (by cases h.1)⟩, hut, rfl, ?_⟩
  · decide +kernel
  · decide +kernel
  · intro v h
    rw [hw] at h; cases h
    exact Or.inr ⟨64, rfl, by decide⟩
  · intro o ho
    simp only [demoCalls, List.mem_cons, List.not_mem_nil, or_false] at ho
    rcases ho with rfl | rfl | rfl | rfl
    · have hon : ∀ P : Nat → Prop, P 4 → P 1 → P 8 → OnFilled [4, 1, 4, 8] (Filled.toMask [4, 1, 4, 8] (.mask [true, true, true, false])) P := by
        intro P h4 h1 h8 i x hx _
        have hi : i < 4 := (List.getElem?_eq_some_iff.1 hx).1
        match i, hi with
        | 0, _ => cases hx; exact h4
        | 1, _ => cases hx; exact h1
        | 2, _ => cases hx; exact h4
        | 3, _ => cases hx; exact h8
      have ea : (demoSetup "64" .gpu).asked = .safe := by decide +kernel
      refine ⟨by simp, ?_, fun h => absurd hut h, fun _ => ?_⟩
      · rw [ea]
        exact Guard.for (mode := .safe) (Or.inr ⟨hon _ (by decide +kernel) (by decide +kernel) (by decide +kernel),
          Or.inr ⟨hon _ (by decide +kernel) (by decide +kernel) (by decide +kernel), fun h => absurd h (by decide +kernel)⟩⟩) _
      · exact ⟨by decide +kernel, by decide +kernel⟩
    · trivial
    · trivial
    · trivial

/-- ... and it answers like the CPU without any settings. -/
example : demoRets (calls (demoSetup "64" .gpu) exHasher (build 0 8 2 2 none) (demoCalls demoChoice)) =
      some [⟨[false, true, true, false], [false, true, true, false], 2⟩, ⟨[true], [], 3⟩, ⟨[false], [], 3⟩, ⟨[true, true, false], [], 3⟩] ∧
    demoRets (calls (plainSetup .cpu) exHasher (build 0 8 2 2 (some 96)) (demoCalls demoChoice)) =
      some [⟨[false, true, true, false], [false, true, true, false], 2⟩, ⟨[true], [], 3⟩, ⟨[false], [], 3⟩, ⟨[true, true, false], [], 3⟩] := by
  decide +kernel

/-- **C83 (4).**  A probe limit does change what the table holds: two one-slot buckets, the limit 1, and two items of the same bucket; the second is neither inserted
nor found afterwards, although its slot is free. -/
theorem probe_limit_matters :
    let os : List (Call Nat (Option Nat) × Choice) := [(.parallelInsert [4, 8] .absent none, ⟨[(0, 0), (0, 0), (1, 0), (1, 0), (1, 0), (1, 0)], [0, 1]⟩),
      (.lookup 8, ⟨[], []⟩)]
    demoRets (calls (demoSetup "1" .gpu) exHasher (build 0 1 1 2 none) os) = some [⟨[true, false], [true, true], 1⟩, ⟨[false], [], 1⟩] ∧
    demoRets (calls (demoSetup "64" .gpu) exHasher (build 0 1 1 2 none) os) = some [⟨[true, true], [true, true], 2⟩, ⟨[true], [], 2⟩] ∧
    (build 0 1 1 2 none : Table Nat).cap = 2 := by
  decide +kernel

/-- **C83 (5).**  Mode `approx` drops an item whose two hashes equal those of another one in the batch. -/
theorem approx_matters :
    let os : List (Call Nat (Option Nat) × Choice) := [(.parallelInsert [4, 8] .absent none, ⟨[(0, 0), (1, 0), (0, 0), (1, 0)], []⟩), (.lookup 8, ⟨[], []⟩)]
    demoRets (calls approxSetup exHasher (build 0 8 2 2 none) os) = some [⟨[true, false], [true, false], 1⟩, ⟨[false], [], 1⟩] ∧
    demoRets (calls (plainSetup .gpu) exHasher (build 0 8 2 2 none) os) = some [⟨[true, true], [true, true], 2⟩, ⟨[true], [], 2⟩] := by
  decide +kernel

/-- A wrong word is refused by the import or by the first `parallel_insert`, not by the other calls. -/
theorem bad_words_refused :
    demoRets (calls { plainSetup .gpu with env0 := set1 "XTRUCTURE_HASHTABLE_SORT_BACKEND" "quick" } exHasher (build 0 8 2 2 none)
      [(.lookup 1, demoChoice)] (K := Option Nat)) = none ∧
    demoRets (calls { plainSetup .gpu with env := set1 "XTRUCTURE_HASHTABLE_TRITON_INSERT_NUM_WARPS" "many" } exHasher (build 0 8 2 2 none)
      [(.insert 1, demoChoice), (.lookup 1, demoChoice)] (K := Option Nat)) = some [⟨[true], [], 1⟩, ⟨[true], [], 1⟩] ∧
    demoRets (calls { plainSetup .gpu with env := set1 "XTRUCTURE_HASHTABLE_TRITON_INSERT_NUM_WARPS" "many" } exHasher (build 0 8 2 2 none)
      [(.insert 1, demoChoice), (.parallelInsert [2] .absent none, demoChoice)] (K := Option Nat)) = none := by
  decide +kernel

end HashTable
