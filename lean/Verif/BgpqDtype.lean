import Verif.BgpqDtypeModel
import Verif.BgpqProps

/-!
# C93: keys of another dtype than `key_dtype`
-/

set_option linter.unusedSectionVars false

namespace Bgpq

open MergeModel BgpqSpec

/-! ## Which dtypes are accepted -/

/-- Calls as seen by the dtypes. -/
inductive OpDt where
  | insert (keys : KDt)
  | deleteMins

def stepDt (h : HeapDt) : OpDt → Option HeapDt
  | .insert blk => insertDt h blk
  | .deleteMins => deleteDt h

theorem insertDt_ok (q b : KDt) : insertDt (buildDt q) b = if q.join b = q then some (buildDt q) else none := by
  cases q <;> cases b <;> rfl

theorem deleteDt_ok (q : KDt) : deleteDt (buildDt q) = some (buildDt q) := by
  cases q <;> rfl

/-- The promotion of key dtypes is a join: commutative, associative, idempotent (so the order in which the code
merges blocks does not matter for the dtype). -/
theorem join_laws : (∀ a b : KDt, a.join b = b.join a) ∧ (∀ a b c : KDt, (a.join b).join c = a.join (b.join c)) ∧ ∀ a : KDt, a.join a = a := by
  refine ⟨?_, ?_, ?_⟩
  · intro a b; cases a <;> cases b <;> rfl
  · intro a b c; cases a <;> cases b <;> cases c <;> rfl
  · intro a; cases a <;> rfl

/-- **C93**, which calls raise.  In every history on a queue of any `key_dtype` (calls that raise leave the
queue as it was), `delete_mins` never raises, and an insert raises exactly if promoting the dtype of the keys with
`key_dtype` does not give `key_dtype`; the dtypes of the queue never change. -/
theorem key_dtype_accepted (q : KDt) (ops : List OpDt) :
    let h := ops.foldl (fun h op => (stepDt h op).getD h) (buildDt q)
    h = buildDt q ∧ (stepDt h .deleteMins).isSome = true ∧
      ∀ b, (stepDt h (.insert b)).isSome = true ↔ q.join b = q := by
  have hst : ops.foldl (fun h op => (stepDt h op).getD h) (buildDt q) = buildDt q := by
    induction ops with
    | nil => rfl
    | cons op ops ih =>
      rw [List.foldl_cons]
      have : (stepDt (buildDt q) op).getD (buildDt q) = buildDt q := by
        cases op with
        | insert b =>
          show (insertDt (buildDt q) b).getD _ = _
          rw [insertDt_ok]
          split <;> rfl
        | deleteMins => show (deleteDt (buildDt q)).getD _ = _; rw [deleteDt_ok]; rfl
      rw [this]; exact ih
  refine ⟨hst, ?_, ?_⟩
  · rw [hst]; show (deleteDt _).isSome = true; rw [deleteDt_ok]; rfl
  · intro b
    rw [hst]; show (insertDt _ b).isSome = true ↔ _; rw [insertDt_ok]
    split <;> rename_i h <;> simp [h]

/-- **C93**, the default queue (`key_dtype = float16`): `float16`, integer and boolean keys are accepted;
`float32`, `bfloat16` and `float64` keys raise. -/
theorem default_queue_accepts (b : KDt) :
    (insertDt (buildDt .f16) b).isSome = true ↔ b = .f16 ∨ b = .int ∨ b = .bool := by
  cases b <;> decide

/-- A `float32` queue accepts every narrower float. -/
theorem f32_queue_accepts (b : KDt) : (insertDt (buildDt .f32) b).isSome = true ↔ b ≠ .f64 := by
  cases b <;> decide

/-! ## What an accepted insert stores -/

section

variable {K : Type u} [KeyInf K] {K' : Type w} [KeyLE K'] {V : Type v}

/-- A conversion that keeps the order (it may map different keys to the same one). -/
def Monotone' (conv : K' → K) : Prop := ∀ a b, KeyCmp.le a b = true → KeyCmp.le (conv a) (conv b) = true

/-- Sorting in the block's dtype is as good as sorting after the conversion: the rows that follow are the
same as for a block converted (and put in the exact order) by the caller. -/
theorem insertConv_eq {conv : K' → K} (hm : Monotone' conv) (h : Heap K V) (block : List (K' × V)) :
    insertConv conv h block = insert h ((sortKeyVal block).map fun p => (conv p.1, p.2)) := by
  have hsort : sortKeyVal ((sortKeyVal block).map fun p => (conv p.1, p.2)) =
      (sortKeyVal block).map fun p => (conv p.1, p.2) := by
    rw [sortKeyVal_eq]
    apply List.mergeSort_of_pairwise
    rw [List.pairwise_map]
    exact (sortKeyVal_sorted block).imp (fun hxy => hm _ _ hxy)
  unfold insertConv insert
  rw [hsort]

/-- Queues reachable when blocks come in any mixture of accepted dtypes: each insert has its own key
type and order-preserving conversion. -/
inductive ConvReachable (total batch : Nat) (dflt : V) : Heap K V → Prop
  | build : ConvReachable total batch dflt (build total batch dflt)
  | insert {K' : Type w} [KeyLE K'] {conv : K' → K} {h : Heap K V} {block : List (K' × V)} :
      Monotone' conv → ConvReachable total batch dflt h → block.length = batch →
      ConvReachable total batch dflt (insertConv conv h block)
  | delete {h h' r} : ConvReachable total batch dflt h → deleteMins h = some (h', r) →
      ConvReachable total batch dflt h'

theorem ConvReachable.reachable {total batch : Nat} {dflt : V} {h : Heap K V}
    (hr : ConvReachable.{u, w, v} total batch dflt h) : Reachable total batch dflt h := by
  induction hr with
  | build => exact .build
  | insert hm _ hl ih =>
    rw [insertConv_eq hm]
    exact .insert ih (by rw [List.length_map, (sortKeyVal_perm _).length_eq]; exact hl)
  | delete _ hd ih => exact .delete ih hd

/-- **C93**, values.  In every history of inserts of blocks in any mixture of accepted dtypes and deletes: with
room, an insert stores exactly the pairs of the block whose *converted* key is finite, under the converted keys;
`size` counts them; `delete_mins` returns the smallest in converted order. -/
theorem converted_keys_stored {total batch : Nat} (ht : 0 < total) (hb : 0 < batch) {dflt : V}
    (hcap : (build total batch dflt : Heap K V).maxSize + batch ≤ 2 ^ 32) {h : Heap K V}
    (hr : ConvReachable.{u, w, v} total batch dflt h) :
    h.size = (contents h).length ∧
    (∀ (conv : K' → K) (block : List (K' × V)), Monotone' conv → block.length = batch →
      (contents h).length + (items (block.map fun p => (conv p.1, p.2))).length < h.maxSize + batch →
      (contents (insertConv conv h block)).Perm
        (contents h ++ items (block.map fun p => (conv p.1, p.2)))) ∧
    ∃ h' r, deleteMins h = some (h', r) ∧ r.length = batch ∧ SortedKeys r ∧
      (items r ++ contents h').Perm (contents h) ∧
      ∀ x ∈ r, ∀ y ∈ contents h', KeyCmp.le x.1 y.1 = true := by
  have hr' := hr.reachable
  refine ⟨bgpq_size_correct ht hb hcap hr', ?_, ?_⟩
  · intro conv block hm hl hroom
    have hp : (items ((sortKeyVal block).map fun p => (conv p.1, p.2))).Perm
        (items (block.map fun p => (conv p.1, p.2))) :=
      ((sortKeyVal_perm block).map _).filter _
    rw [insertConv_eq hm]
    refine ((bgpq_conserves ht hb hcap hr').1 _ ?_ ?_).trans (hp.append_left _)
    · rw [List.length_map, (sortKeyVal_perm _).length_eq]; exact hl
    · rw [hp.length_eq]; exact hroom
  · obtain ⟨h', r, d1, d2, d3, d4, _⟩ := delete_mins_returns_smallest ht hb hcap hr'
    obtain ⟨h2, r2, e1, e2⟩ := (bgpq_conserves ht hb hcap hr').2
    rw [d1] at e1
    simp only [Option.some.injEq, Prod.mk.injEq] at e1
    obtain ⟨rfl, rfl⟩ := e1
    exact ⟨h', r, d1, d2, d3, e2, d4⟩

end

/-! ## Integer keys in a `float16` queue -/

/-- Unsigned integer keys with their order. -/
instance : KeyLE Nat where
  le a b := decide (a ≤ b)
  trans := by intro a b c; simp; omega
  total := by intro a b; simp; omega

/-- Rounding to a multiple of `q`, ties to even. -/
def rne (q n : Nat) : Nat :=
  if q < 2 * (n % q) ∨ (q = 2 * (n % q) ∧ n / q % 2 = 1) then (n / q + 1) * q else n / q * q

/-- Conversion of an unsigned integer to `float16` (11 significant bits, ties to even, `inf` from 65520 on), with a
finite `float16` integer given by its value (IEEE 754 binary16; part of the trusted base). -/
def toF16 (n : Nat) : Option Nat :=
  let r := rne (2 ^ (n.log2 - 10)) n
  if r < 65536 then some r else none

theorem rne_mono (q : Nat) {a b : Nat} (hq : 0 < q) (h : a ≤ b) : rne q a ≤ rne q b := by
  have ha := Nat.div_add_mod a q
  have hb := Nat.div_add_mod b q
  have hra := Nat.mod_lt a hq
  have hrb := Nat.mod_lt b hq
  have hd : a / q ≤ b / q := Nat.div_le_div_right h
  unfold rne
  by_cases he : a / q = b / q
  · rw [he] at ha ⊢
    have hmod : a % q ≤ b % q := by omega
    by_cases hc : q < 2 * (a % q) ∨ (q = 2 * (a % q) ∧ b / q % 2 = 1)
    · rw [if_pos hc, if_pos (by omega)]
      exact Nat.le_refl _
    · rw [if_neg hc]
      split
      · exact Nat.mul_le_mul_right _ (by omega)
      · exact Nat.le_refl _
  · have hlt : a / q + 1 ≤ b / q := by omega
    have h1 : (a / q + 1) * q ≤ b / q * q := Nat.mul_le_mul_right _ hlt
    have h2 : b / q * q ≤ (b / q + 1) * q := Nat.mul_le_mul_right _ (by omega)
    have h3 : a / q * q ≤ (a / q + 1) * q := Nat.mul_le_mul_right _ (by omega)
    split <;> split <;> omega

/-- A multiple of `q` bounds its own rounding. -/
theorem rne_mul (q m : Nat) (hq : 0 < q) : rne q (m * q) = m * q := by
  unfold rne
  rw [Nat.mul_mod_left, Nat.mul_div_cancel _ hq, if_neg (by omega)]

theorem rnd_mono {a b : Nat} (h : a ≤ b) :
    rne (2 ^ (a.log2 - 10)) a ≤ rne (2 ^ (b.log2 - 10)) b := by
  by_cases he : a.log2 - 10 = b.log2 - 10
  · rw [he]; exact rne_mono _ (Nat.pow_pos (by omega)) h
  · -- different steps: a power of two lies between
    have hb0 : b ≠ 0 := by
      intro h0
      have : a = 0 := by omega
      rw [h0, this] at he; exact he rfl
    have hlog : a.log2 ≤ b.log2 := by
      by_cases ha0 : a = 0
      · have h00 : Nat.log2 0 = 0 := by decide
        rw [ha0, h00]; exact Nat.zero_le _
      · rw [Nat.le_log2 hb0]
        exact Nat.le_trans (Nat.log2_self_le ha0) h
    have hlt : a.log2 < b.log2 := by omega
    have hb10 : 10 < b.log2 := by omega
    -- the power of two `2 ^ b.log2`
    have e1 : 2 ^ b.log2 = 2 ^ 10 * 2 ^ (b.log2 - 10) := by
      rw [← Nat.pow_add]; congr 1; omega
    have e2 : 2 ^ b.log2 = 2 ^ (b.log2 - (a.log2 - 10)) * 2 ^ (a.log2 - 10) := by
      rw [← Nat.pow_add]; congr 1; omega
    have ha : a ≤ 2 ^ b.log2 := by
      have := Nat.lt_log2_self (n := a)
      have := Nat.pow_le_pow_right (n := 2) (by omega) (show a.log2 + 1 ≤ b.log2 by omega)
      omega
    have hb : 2 ^ b.log2 ≤ b := Nat.log2_self_le hb0
    have l1 : rne (2 ^ (a.log2 - 10)) a ≤ 2 ^ b.log2 := by
      have := rne_mono (2 ^ (a.log2 - 10)) (Nat.pow_pos (by omega)) ha
      rw [e2, rne_mul _ _ (Nat.pow_pos (by omega)), ← e2] at this
      exact this
    have l2 : 2 ^ b.log2 ≤ rne (2 ^ (b.log2 - 10)) b := by
      have := rne_mono (2 ^ (b.log2 - 10)) (Nat.pow_pos (by omega)) hb
      rw [e1, rne_mul _ _ (Nat.pow_pos (by omega)), ← e1] at this
      exact this
    omega

/-- Non-vacuity of `Monotone'`: the conversion of integers to `float16` keeps the order. -/
theorem toF16_mono : Monotone' toF16 := by
  intro a b h
  have hab : a ≤ b := by simpa [KeyCmp.le] using h
  have hr := rnd_mono hab
  unfold toF16
  dsimp only
  by_cases hb : rne (2 ^ (b.log2 - 10)) b < 65536
  · rw [if_pos hb, if_pos (by omega)]
    show decide (_ ≤ _) = true
    simpa using hr
  · rw [if_neg hb]
    show KeyCmp.le _ (none : Option Nat) = true
    exact KeyTop.le_inf _

/-- Integers up to 2048 are converted exactly. -/
theorem toF16_exact {n : Nat} (h : n ≤ 2048) : toF16 n = some n := by
  unfold toF16
  by_cases h0 : n = 2048
  · subst h0; decide +kernel
  · have hl : n.log2 - 10 = 0 := by
      by_cases hz : n = 0
      · subst hz; decide
      · have := Nat.log2_self_le hz
        false_or_by_contra
        have : 2 ^ 11 ≤ 2 ^ n.log2 := Nat.pow_le_pow_right (by omega) (by omega)
        omega
    rw [hl]
    have : rne (2 ^ 0) n = n := by
      have := rne_mul 1 n (by omega)
      rw [Nat.mul_one] at this; exact this
    dsimp only
    rw [this, if_pos (by omega)]

/-- Integers from 65520 on become `inf`. -/
theorem toF16_inf {n : Nat} (h : 65520 ≤ n) : toF16 n = none := by
  have h1 := toF16_mono 65520 n (by show decide _ = true; simpa using h)
  have h2 : toF16 65520 = none := by decide +kernel
  rw [h2] at h1
  cases hn : toF16 n with
  | none => rfl
  | some k => rw [hn] at h1; cases h1

/-- **C93 is false**: a queue with the default `key_dtype` accepts integer keys and silently drops every
item whose key is 65520 or more, in every reachable state with room. -/
theorem large_int_keys_lost {V : Type v} {total batch : Nat} (ht : 0 < total) (hb : 0 < batch) {dflt : V}
    (hcap : (build total batch dflt : Heap (Option Nat) V).maxSize + batch ≤ 2 ^ 32)
    {h : Heap (Option Nat) V} (hr : ConvReachable.{0, 0, v} total batch dflt h)
    (hroom : (contents h).length < h.maxSize + batch)
    (block : List (Nat × V)) (hl : block.length = batch) (hbig : ∀ x ∈ block, 65520 ≤ x.1) :
    (insertDt (buildDt .f16) .int).isSome = true ∧
    (contents (insertConv toF16 h block)).Perm (contents h) ∧
    (insertConv toF16 h block).size = h.size := by
  have hit : items (block.map fun p => (toF16 p.1, p.2)) = [] := by
    rw [items_eq, List.filter_eq_nil_iff]
    intro x hx
    obtain ⟨p, hp, rfl⟩ := List.mem_map.1 hx
    show ¬ (toF16 p.1).isSome = true
    rw [toF16_inf (hbig p hp)]; simp
  have hp := (converted_keys_stored (K' := Nat) ht hb hcap hr).2.1 toF16 block toF16_mono hl
    (by rw [hit]; simpa using hroom)
  rw [hit, List.append_nil] at hp
  refine ⟨by decide, hp, ?_⟩
  have h1 := (converted_keys_stored (K' := Nat) ht hb hcap
    (ConvReachable.insert toF16_mono hr hl)).1
  have h2 := (converted_keys_stored (K' := Nat) ht hb hcap hr).1
  rw [h1, h2, hp.length_eq]

/-- **C93 is false**, order: the smaller of two different integer keys need not come out first.  With
`batch_size` 1, the keys 2049 and 2048 become the same `float16` key. -/
theorem int_key_order_false :
    ¬ ∀ (h h' : Heap (Option Nat) Nat) (r : List (Option Nat × Nat)) (a b : Nat),
      h = insertConv toF16 (insertConv toF16 (build 4 1 0) [(a, a)]) [(b, b)] → b < a →
      deleteMins h = some (h', r) → r.map Prod.snd = [b] := by
  intro hall
  have : ((deleteMins (insertConv toF16 (insertConv toF16
      (build 4 1 0 : Heap (Option Nat) Nat) [(2049, 2049)]) [(2048, 2048)])).map
      fun p => p.2.map Prod.snd) = some [2049] := by decide +kernel
  cases hd : deleteMins (insertConv toF16 (insertConv toF16
      (build 4 1 0 : Heap (Option Nat) Nat) [(2049, 2049)]) [(2048, 2048)]) with
  | none => rw [hd] at this; simp at this
  | some p =>
    rw [hd] at this
    simp only [Option.map_some, Option.some.injEq] at this
    have h2 := hall _ p.1 p.2 2049 2048 rfl (by omega) hd
    rw [this] at h2
    simp at h2

/-- Non-vacuity: a reachable queue with integer keys, one of them too large. -/
example :
    let h : Heap (Option Nat) Nat := insertConv toF16 (build 6 2 0) [(70000, 1), (3, 2)]
    ConvReachable.{0, 0, 0} 6 2 0 h ∧ contents h = [(some 3, 2)] ∧ h.size = 1 ∧ h.maxSize = 6 := by
  intro h
  exact ⟨.insert toF16_mono .build (by decide), by decide +kernel, by decide +kernel, by decide +kernel⟩

end Bgpq
