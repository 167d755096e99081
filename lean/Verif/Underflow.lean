import Verif.QueueProps

/-!
# C94: asking a stack or a queue for more items than it holds

`pop(k)`, `dequeue(k)` do not check that `k` items are there: the `uint32` counters wrap.  The theorems of this
file say exactly what every later call does: the container remembers a *debt* and the next items put into it are
swallowed until the debt is paid; from then on it works normally.
-/

namespace DebtSpec

/-- What a stack or queue with a debt is: its live items (bottom/oldest first) and the number of items it was asked
for beyond what it held.  A container with a debt has no live items. -/
structure D (α : Type u) where
  live : List α
  debt : Nat

/-- Putting items in: the first `debt` of them are swallowed. -/
def put (s : D α) (xs : List α) : D α :=
  { live := s.live ++ xs.drop s.debt, debt := s.debt - xs.length }

/-- The `size` reported: a `uint32`. -/
def size (s : D α) : Nat := if s.debt = 0 then s.live.length else 2 ^ 32 - s.debt

/-- Taking `k` items off: more than there are adds to the debt. -/
def owed (s : D α) (k : Nat) : Nat := s.debt + (k - s.live.length)

end DebtSpec

namespace StackSpec

open StackModel (Op Out)
open DebtSpec

/-- One call on a stack with debt; the output is given only where it is determined (`none`: items that were not
there were asked for). -/
def dstep (s : D α) : Op α → D α × Option (Out α)
  | .push1 x => (put s [x], some .unit)
  | .push xs => (put s xs, some .unit)
  | .pop k => ({ live := s.live.take (s.live.length - k), debt := owed s k },
      if k ≤ s.live.length then some (.items (some (s.live.drop (s.live.length - k)))) else none)
  | .peek k => (s, if k ≤ s.live.length then some (.items (some (s.live.drop (s.live.length - k)))) else none)
  | .get i => (s, if i < s.live.length then some (.item s.live[i]?) else none)
  | .size => (s, some (.nat (DebtSpec.size s)))

def drun (s : D α) : List (Op α) → D α × List (Option (Out α))
  | [] => (s, [])
  | op :: ops =>
    let (s1, o) := dstep s op
    let (s2, os) := drun s1 ops
    (s2, o :: os)

/-- The calls considered: the capacity is not exceeded, a batch is not longer than the capacity, and the debt stays
within the `int32` range. -/
def dok (cap : Nat) (s : D α) : Op α → Prop
  | .push1 _ => s.live.length + 1 ≤ cap
  | .push xs => s.live.length + xs.length ≤ cap
  | .pop k => owed s k ≤ 2 ^ 31
  | _ => True

def DOk (cap : Nat) (s : D α) : List (Op α) → Prop
  | [] => True
  | op :: ops => dok cap s op ∧ DOk cap (dstep s op).1 ops

end StackSpec

/-- The outputs agree wherever the specification determines them. -/
def Agree {β : Type u} : List (Option β) → List β → Prop
  | [], [] => True
  | o :: os, r :: rs => (∀ v, o = some v → r = v) ∧ Agree os rs
  | _, _ => False

namespace StackModel

open Jax DebtSpec

structure DSim (s : Stack α) (a : D α) : Prop where
  size : s.size = DebtSpec.size a
  none : 0 < a.debt → a.live = []
  debt : a.debt ≤ 2 ^ 31
  fits : a.live.length ≤ s.store.length
  capb : s.store.length < 2 ^ 31
  store : ∀ j, j < a.live.length → s.store[j]? = a.live[j]?

theorem DSim.sim {s : Stack α} {a : D α} (h : DSim s a) (h0 : a.debt = 0) : Sim s a.live :=
  ⟨by rw [h.size, DebtSpec.size, if_pos h0], by have := h.fits; have := h.capb; omega, h.capb,
    fun j _ hj => h.store j hj⟩

theorem Sim.dsim {s : Stack α} {l : List α} (h : Sim s l) (hf : l.length ≤ s.store.length) :
    DSim s ⟨l, 0⟩ :=
  ⟨by rw [h.size]; rfl, fun h0 => absurd h0 (by simp), by simp, hf, h.capb,
    fun j hj => h.store j (by simp only at hj; omega) hj⟩

theorem u32_neg {n : Nat} (h0 : 0 < n) (h : n ≤ 2 ^ 32) : u32 (-(n : Int)) = 2 ^ 32 - n := by
  unfold u32; omega

theorem size_debt {a : D α} (hn : 0 < a.debt → a.live = []) (hd : a.debt ≤ 2 ^ 31) (hl : a.live.length < 2 ^ 31) :
    u32 ((a.live.length : Int) - (a.debt : Int)) = DebtSpec.size a := by
  unfold DebtSpec.size
  by_cases h0 : a.debt = 0
  · rw [if_pos h0, h0]
    unfold u32; omega
  · rw [if_neg h0, hn (by omega)]
    unfold u32
    simp only [List.length_nil]
    omega

/-- `size` moves by the number of items, in `uint32`. -/
theorem size_put {a : D α} (hn : 0 < a.debt → a.live = []) (hd : a.debt ≤ 2 ^ 31) (xs : List α)
    (hl : a.live.length + xs.length < 2 ^ 31) :
    u32 ((DebtSpec.size a : Int) + (xs.length : Int)) = DebtSpec.size (put a xs) := by
  unfold DebtSpec.size put u32
  by_cases h0 : a.debt = 0
  · simp only [h0, if_true, Nat.zero_sub, List.drop_zero, List.length_append]
    omega
  · simp only [h0, if_false, hn (by omega), List.nil_append, List.length_drop]
    split <;> omega

theorem size_take {a : D α} (hn : 0 < a.debt → a.live = []) (k : Nat)
    (hl : a.live.length < 2 ^ 31) (ho : owed a k ≤ 2 ^ 31) :
    u32 ((DebtSpec.size a : Int) - (k : Int)) =
      if owed a k = 0 then a.live.length - k else 2 ^ 32 - owed a k := by
  unfold owed at *
  unfold DebtSpec.size u32
  by_cases h0 : a.debt = 0
  · simp only [h0, if_true]
    split <;> omega
  · simp only [h0, if_false, hn (by omega), List.length_nil] at *
    split <;> omega

/-- Scatter of a batch that starts at a negative index: as long as it is not longer than the array, the entries aimed
at non-negative positions arrive there (the others go to the end of the array). -/
theorem scatter_from_negative {α : Type u} (xs : List α) (m : Nat) (vs : List α) (hv : vs.length ≤ xs.length)
    (j : Nat) (hj : m + j < vs.length) :
    (scatter xs ((List.range vs.length).map fun (k : Nat) => (k : Int) - (m : Int)) vs)[j]? = vs[m + j]? := by
  -- generalised over the start
  have gen : ∀ (ws : List α) (ys : List α) (b : Nat), ys.length = xs.length → b + ws.length ≤ xs.length →
      (scatter ys ((List.range' b ws.length).map fun (k : Nat) => (k : Int) - (m : Int)) ws)[j]? =
        if b ≤ m + j ∧ m + j < b + ws.length then ws[m + j - b]? else
          (scatter ys ((List.range' b ws.length).map fun (k : Nat) => (k : Int) - (m : Int)) ws)[j]? := by
    intro ws
    induction ws with
    | nil => intro ys b _ _; rw [if_neg (by simp)]
    | cons w ws ih =>
      intro ys b hys hb
      by_cases hc : b ≤ m + j ∧ m + j < b + (w :: ws).length
      · rw [if_pos hc]
        simp only [List.length_cons] at hb hc
        simp only [List.length_cons, List.range'_succ, List.map_cons, scatter]
        rw [ih _ (b + 1) (by rw [scatter1_length]; exact hys) (by omega)]
        by_cases he : b = m + j
        · rw [if_neg (by omega)]
          -- the later entries of the batch do not touch position `j`
          have keep : ∀ (us : List α) (zs : List α) (c : Nat), zs.length = xs.length → b < c →
              c + us.length ≤ xs.length → zs[j]? = some w →
              (scatter zs ((List.range' c us.length).map fun (k : Nat) => (k : Int) - (m : Int)) us)[j]? = some w := by
            intro us
            induction us with
            | nil => intro zs c _ _ _ hz; simpa [scatter] using hz
            | cons u us ihu =>
              intro zs c hz hc' hcl hw
              simp only [List.length_cons] at hcl
              simp only [List.length_cons, List.range'_succ, List.map_cons, scatter]
              apply ihu _ (c + 1) (by rw [scatter1_length]; exact hz) (by omega) (by omega)
              rw [← hw]
              have hn : normIdx zs.length ((c : Int) - (m : Int)) = if (c : Int) - (m : Int) < 0 then
                  (c : Int) - (m : Int) + zs.length else (c : Int) - (m : Int) := rfl
              simp only [scatter1]
              generalize normIdx zs.length ((c : Int) - (m : Int)) = v at hn
              have hv' : v.toNat ≠ j := by
                split at hn <;> omega
              split
              · rw [List.getElem?_set_ne hv']
              · rfl
          have : (scatter1 ys ((b : Int) - (m : Int)) w)[j]? = some w := by
            have hn : normIdx ys.length ((b : Int) - (m : Int)) = (j : Int) := by
              unfold normIdx; rw [if_neg (by omega)]; omega
            simp only [scatter1, hn]
            rw [if_pos (by omega)]
            simp only [Int.toNat_natCast]
            rw [List.getElem?_set_self (by omega)]
          rw [keep ws _ (b + 1) (by rw [scatter1_length]; exact hys) (by omega) (by omega) this, he]
          simp
        · rw [if_pos (by omega)]
          have : m + j - b = (m + j - (b + 1)) + 1 := by omega
          rw [this, List.getElem?_cons_succ]
      · rw [if_neg hc]
  have := gen vs xs 0 rfl (by omega)
  rw [if_pos (by omega)] at this
  rw [List.range_eq_range', this]
  simp

theorem dsim_push1 {s : Stack α} {a : D α} (h : DSim s a) (x : α) (hc : a.live.length + 1 ≤ s.store.length) :
    DSim (push1 s x) (put a [x]) := by
  have hcb := h.capb
  have hd := h.debt
  by_cases h0 : a.debt = 0
  · have hs := sim_push1 (h.sim h0) x (by omega)
    have : put a [x] = ⟨a.live ++ [x], 0⟩ := by unfold put; rw [h0]; rfl
    rw [this]
    exact hs.dsim (by simpa [push1] using hc)
  · have hn := h.none (by omega)
    have hlive : (put a [x]).live = [] := by
      unfold put; rw [hn, List.drop_eq_nil_of_le (by simp; omega)]; rfl
    refine ⟨?_, fun _ => hlive, by simp [put]; omega, by rw [hlive]; simp, by simpa [push1] using hcb, ?_⟩
    · have := size_put h.none hd [x] (by rw [hn]; simp)
      rw [← this, ← h.size]; rfl
    · intro j hj; rw [hlive] at hj; simp at hj

theorem dsim_pushN {s : Stack α} {a : D α} (h : DSim s a) (xs : List α)
    (hc : a.live.length + xs.length ≤ s.store.length) : DSim (pushN s xs) (put a xs) := by
  have hcb := h.capb
  have hd := h.debt
  by_cases h0 : a.debt = 0
  · have hs := sim_pushN (h.sim h0) xs (by omega)
    have : put a xs = ⟨a.live ++ xs, 0⟩ := by unfold put; rw [h0]; simp
    rw [this]
    exact hs.dsim (by simpa [pushN] using hc)
  · have hn := h.none (by omega)
    have hlive : (put a xs).live = xs.drop a.debt := by unfold put; rw [hn]; rfl
    refine ⟨?_, ?_, by simp [put]; omega, by rw [hlive, List.length_drop]; simp [pushN]; omega,
      by simpa [pushN] using hcb, ?_⟩
    · have := size_put h.none hd xs (by omega)
      rw [← this, ← h.size]; rfl
    · intro hp
      simp only [put] at hp
      rw [hlive, List.drop_eq_nil_of_le (by omega)]
    · intro j hj
      rw [hlive, List.length_drop] at hj
      rw [hlive, List.getElem?_drop]
      have hsz : s.size = 2 ^ 32 - a.debt := by rw [h.size, DebtSpec.size, if_neg h0]
      have hidx : ((List.range xs.length).map fun (k : Nat) => i32 ((s.size : Int) + (k : Int)))
          = (List.range xs.length).map fun (k : Nat) => (k : Int) - (a.debt : Int) := by
        apply List.map_congr_left
        intro k hk
        have hk := List.mem_range.1 hk
        have : i32 ((s.size : Int) + (k : Int)) = i32 ((k : Int) - (a.debt : Int)) := by
          rw [hsz]
          unfold i32
          have : (((2 ^ 32 - a.debt : Nat) : Int) + (k : Int)) = ((k : Int) - (a.debt : Int)) + (2 ^ 32 : Nat) := by omega
          rw [this, Int.add_bmod_right]
        rw [this, i32_of_range (by omega) (by omega)]
      show (scatter s.store _ xs)[j]? = _
      rw [hidx, scatter_from_negative s.store a.debt xs (by omega) j (by omega)]

theorem dsim_pop {s : Stack α} {a : D α} (h : DSim s a) (k : Nat) (ho : owed a k ≤ 2 ^ 31) :
    DSim (pop s k).1 ⟨a.live.take (a.live.length - k), owed a k⟩ := by
  have hcb := h.capb
  have hf := h.fits
  have hsz := size_take h.none k (by omega) ho
  refine ⟨?_, ?_, ho, ?_, hcb, ?_⟩
  · show u32 ((s.size : Int) - (k : Int)) = _
    rw [h.size, hsz]
    simp only [DebtSpec.size, List.length_take]
    split <;> omega
  · intro hp
    simp only [owed] at hp
    by_cases h0 : a.debt = 0
    · show a.live.take _ = []
      rw [show a.live.length - k = 0 by omega]; rfl
    · show a.live.take _ = []
      rw [h.none (by omega)]; simp
  · show (a.live.take _).length ≤ s.store.length
    rw [List.length_take]; omega
  · intro j hj
    simp only [List.length_take] at hj
    show s.store[j]? = (a.live.take _)[j]?
    rw [List.getElem?_take_of_lt (by omega)]
    exact h.store j (by omega)

theorem dsim_top {s : Stack α} {a : D α} (h : DSim s a) (k : Nat) (hk : k ≤ a.live.length) :
    topItems s k = some (a.live.drop (a.live.length - k)) := by
  by_cases h0 : a.debt = 0
  · exact topItems_eq (h.sim h0) k hk h.fits
  · rw [h.none (by omega)] at hk ⊢
    simp only [List.length_nil, Nat.le_zero] at hk
    subst hk
    rfl

theorem dsim_step {s : Stack α} {a : D α} (h : DSim s a) (op : Op α)
    (hop : StackSpec.dok s.store.length a op) :
    DSim (step s op).1 (StackSpec.dstep a op).1 ∧ ∀ v, (StackSpec.dstep a op).2 = some v → (step s op).2 = v := by
  cases op with
  | push1 x => exact ⟨dsim_push1 h x hop, fun v hv => by simp only [StackSpec.dstep, Option.some.injEq] at hv; rw [← hv]; rfl⟩
  | push xs => exact ⟨dsim_pushN h xs hop, fun v hv => by simp only [StackSpec.dstep, Option.some.injEq] at hv; rw [← hv]; rfl⟩
  | pop k =>
    refine ⟨dsim_pop h k hop, fun v hv => ?_⟩
    simp only [StackSpec.dstep] at hv
    by_cases hk : k ≤ a.live.length
    · rw [if_pos hk] at hv
      simp only [Option.some.injEq] at hv
      rw [← hv]
      simp [step, pop, dsim_top h k hk]
    · rw [if_neg hk] at hv; cases hv
  | peek k =>
    refine ⟨h, fun v hv => ?_⟩
    simp only [StackSpec.dstep] at hv
    by_cases hk : k ≤ a.live.length
    · rw [if_pos hk] at hv
      simp only [Option.some.injEq] at hv
      rw [← hv]
      simp [step, peek, dsim_top h k hk]
    · rw [if_neg hk] at hv; cases hv
  | get i =>
    refine ⟨h, fun v hv => ?_⟩
    simp only [StackSpec.dstep] at hv
    by_cases hk : i < a.live.length
    · rw [if_pos hk] at hv
      simp only [Option.some.injEq] at hv
      rw [← hv]
      have hf := h.fits
      simp only [step, getitem]
      rw [gather_nat_of_lt _ _ (by omega), h.store _ hk]
    · rw [if_neg hk] at hv; cases hv
  | size =>
    refine ⟨h, fun v hv => ?_⟩
    simp only [StackSpec.dstep, Option.some.injEq] at hv
    rw [← hv]
    simp [step, h.size]

theorem dsim_run {s : Stack α} {a : D α} (h : DSim s a) (ops : List (Op α))
    (hops : StackSpec.DOk s.store.length a ops) :
    DSim (run s ops).1 (StackSpec.drun a ops).1 ∧ Agree (StackSpec.drun a ops).2 (run s ops).2 := by
  induction ops generalizing s a with
  | nil => exact ⟨h, trivial⟩
  | cons op ops ih =>
    obtain ⟨h1, h2⟩ := dsim_step h op hops.1
    obtain ⟨h3, h4⟩ := ih h1 (by rw [step_store_length]; exact hops.2)
    exact ⟨h3, h2, h4⟩

/-- **C94, stacks.**  Every history that may pop, peek and index beyond what the stack holds, on a stack that is not
overfilled: the outputs are those of the specification with a debt, wherever items that exist are asked for. -/
theorem stack_debt (d : α) (cap : Nat) (hcap : cap < 2 ^ 31) (ops : List (Op α))
    (hops : StackSpec.DOk cap ⟨[], 0⟩ ops) :
    Agree (StackSpec.drun ⟨[], 0⟩ ops).2 (run (build d cap) ops).2 := by
  have h : DSim (build d cap) (⟨[], 0⟩ : D α) := (sim_build d cap hcap).dsim (by simp)
  exact (dsim_run h ops (by simpa [build] using hops)).2

/-- **C94 is false for stacks**: pop `m ≥ 1` items too many after any history, then push `m` items: none of them
is there (`size` is 0), although the push was within the capacity. -/
theorem stack_underflow_swallows (d : α) (cap : Nat) (hcap : cap < 2 ^ 31) (ops : List (Op α))
    (hops : StackSpec.DOk cap ⟨[], 0⟩ ops) (hd : (StackSpec.drun (⟨[], 0⟩ : D α) ops).1.debt = 0)
    (m : Nat) (hm : 0 < m) (xs : List α) (hx : xs.length = m) (hmc : m ≤ cap) :
    let s := (run (build d cap) ops).1
    (pushN (pop s (s.size + m)).1 xs).size = 0 ∧ (pop s (s.size + m)).1.size = 2 ^ 32 - m := by
  intro s
  have h0 : DSim (build d cap) (⟨[], 0⟩ : D α) := (sim_build d cap hcap).dsim (by simp)
  have h := (dsim_run h0 ops (by simpa [build] using hops)).1
  generalize ha : (StackSpec.drun (⟨[], 0⟩ : D α) ops).1 = a at *
  have hlen : s.store.length = cap := by
    show (run (build d cap) ops).1.store.length = cap
    rw [run_store_length]; simp [build]
  have hsz : s.size = a.live.length := by
    show (run (build d cap) ops).1.size = _
    rw [h.size, DebtSpec.size, if_pos hd]
  have how : owed a (s.size + m) = m := by unfold owed; omega
  have h1 : DSim (pop s (s.size + m)).1 ⟨a.live.take (a.live.length - (s.size + m)), owed a (s.size + m)⟩ :=
    dsim_pop h (s.size + m) (by rw [how]; omega)
  rw [how, show a.live.length - (s.size + m) = 0 by omega] at h1
  have h2 := dsim_pushN h1 xs (by
    show (List.take 0 a.live).length + xs.length ≤ s.store.length
    simp; omega)
  constructor
  · rw [h2.size]
    simp [DebtSpec.size, put, hx]
  · rw [h1.size]
    simp only [DebtSpec.size]
    rw [if_neg (by omega)]

/-- Non-vacuity of `stack_debt`: a stack of capacity 3 popped three times too many, filled again: the first
three items pushed are swallowed, the fourth is there. -/
example : StackSpec.DOk 3 (⟨[], 0⟩ : D Nat) [.push1 1, .pop 4, .size, .push [5, 6], .push [7, 8], .size, .pop 1] ∧
    (StackSpec.drun (⟨[], 0⟩ : D Nat) [.push1 1, .pop 4, .size, .push [5, 6], .push [7, 8], .size, .pop 1]).2 =
      [some .unit, none, some (.nat (2 ^ 32 - 3)), some .unit, some .unit, some (.nat 1), some (.items (some [8]))] ∧
    (run (build 0 3) [.push1 1, .pop 4, .size, .push [5, 6], .push [7, 8], .size, .pop 1]).2 =
      [.unit, .items (some [1, 0, 0, 1]), .nat (2 ^ 32 - 3), .unit, .unit, .nat 1, .items (some [8])] := by
  refine ⟨?_, by decide +kernel, by decide +kernel⟩
  simp [StackSpec.DOk, StackSpec.dok, StackSpec.dstep, put, owed]

end StackModel

namespace QueueSpec

open QueueModel (Op Out)
open DebtSpec

/-- A queue with debt also knows how many items were enqueued since the last `clear`. -/
structure DQ (α : Type u) extends D α where
  used : Nat

def dempty : DQ α := { live := [], debt := 0, used := 0 }

def dstep (q : DQ α) : Op α → DQ α × Option (Out α)
  | .enqueue1 x => ({ toD := put q.toD [x], used := q.used + 1 }, some .unit)
  | .enqueue xs => ({ toD := put q.toD xs, used := q.used + xs.length }, some .unit)
  | .dequeue k => ({ live := q.live.drop k, debt := owed q.toD k, used := q.used },
      if k ≤ q.live.length then some (.items (some (q.live.take k))) else none)
  | .peek k => (q, if k ≤ q.live.length then some (.items (some (q.live.take k))) else none)
  | .clear => (dempty, some .unit)
  | .get _ i => (q, if i < q.live.length then some (.item q.live[i]?) else none)
  | .size => (q, some (.nat (DebtSpec.size q.toD)))

def drun (q : DQ α) : List (Op α) → DQ α × List (Option (Out α))
  | [] => (q, [])
  | op :: ops =>
    let (q1, o) := dstep q op
    let (q2, os) := drun q1 ops
    (q2, o :: os)

/-- The calls considered: at most `cap` items enqueued since the last `clear`, debt within range. -/
def dok (cap : Nat) (q : DQ α) : Op α → Prop
  | .enqueue1 _ => q.used + 1 ≤ cap
  | .enqueue xs => q.used + xs.length ≤ cap
  | .dequeue k => owed q.toD k ≤ 2 ^ 31
  | _ => True

def DOk (cap : Nat) (q : DQ α) : List (Op α) → Prop
  | [] => True
  | op :: ops => dok cap q op ∧ DOk cap (dstep q op).1 ops

end QueueSpec

namespace QueueModel

open Jax DebtSpec
open QueueSpec (DQ)

structure DSim (q : Queue α) (a : DQ α) : Prop where
  tail : q.tail = a.used
  head : q.head + a.live.length = q.tail + a.debt
  none : 0 < a.debt → a.live = []
  debt : a.debt ≤ 2 ^ 31
  used : a.used ≤ q.store.length
  capb : q.store.length < 2 ^ 31
  items : ∀ j, j < a.live.length → q.store[q.head + j]? = a.live[j]?

theorem DSim.sim {q : Queue α} {a : DQ α} (h : DSim q a) (h0 : a.debt = 0) : Sim q ⟨a.live, a.used⟩ :=
  ⟨h.tail, by have := h.head; simp only; omega, h.used, h.capb, h.items⟩

theorem Sim.dsim {q : Queue α} {a : QueueSpec.Q α} (h : Sim q a) : DSim q { live := a.live, debt := 0, used := a.used } :=
  ⟨h.tail, by have := h.head; simp only; omega, fun h0 => absurd h0 (by simp), by simp, h.used, h.capb, h.items⟩

theorem dsim_enqueue1 {q : Queue α} {a : DQ α} (h : DSim q a) (x : α) (hc : a.used + 1 ≤ q.store.length) :
    DSim (enqueue1 q x) { toD := put a.toD [x], used := a.used + 1 } := by
  have hcb := h.capb
  have ht := h.tail
  have hh := h.head
  have hd := h.debt
  by_cases h0 : a.debt = 0
  · have hs := (sim_enqueue1 (h.sim h0) x hc).dsim
    have : put a.toD [x] = ⟨a.live ++ [x], 0⟩ := by unfold put; rw [h0]; rfl
    rw [this]
    exact hs
  · have hn := h.none (by omega)
    have hlive : (put a.toD [x]).live = [] := by
      unfold put; rw [hn, List.drop_eq_nil_of_le (by simp; omega)]; rfl
    have htail : u32 ((q.tail : Int) + 1) = q.tail + 1 := by
      rw [show ((q.tail : Int) + 1) = ((q.tail + 1 : Nat) : Int) by omega, u32_of_lt (by omega)]
    rw [hn] at hh
    simp only [List.length_nil] at hh
    refine ⟨?_, ?_, fun _ => hlive, ?_, by simpa [enqueue1] using hc, by simpa [enqueue1] using hcb, ?_⟩
    · show u32 ((q.tail : Int) + 1) = a.used + 1; rw [htail, ht]
    · show q.head + (put a.toD [x]).live.length = u32 ((q.tail : Int) + 1) + (put a.toD [x]).debt
      rw [hlive, htail]; simp [put]; omega
    · simp [put]; omega
    · intro j hj
      rw [hlive] at hj; simp at hj

theorem dsim_enqueueN {q : Queue α} {a : DQ α} (h : DSim q a) (xs : List α)
    (hc : a.used + xs.length ≤ q.store.length) :
    DSim (enqueueN q xs) { toD := put a.toD xs, used := a.used + xs.length } := by
  have hcb := h.capb
  have ht := h.tail
  have hh := h.head
  have hd := h.debt
  by_cases h0 : a.debt = 0
  · have hs := (sim_enqueueN (h.sim h0) xs hc).dsim
    have : put a.toD xs = ⟨a.live ++ xs, 0⟩ := by unfold put; rw [h0]; simp
    rw [this]
    exact hs
  · have hn := h.none (by omega)
    have hlive : (put a.toD xs).live = xs.drop a.debt := by unfold put; rw [hn]; rfl
    have htail : u32 ((q.tail : Int) + (xs.length : Int)) = q.tail + xs.length := by
      rw [show ((q.tail : Int) + xs.length) = ((q.tail + xs.length : Nat) : Int) by omega,
        u32_of_lt (by omega)]
    have hidx : ((List.range xs.length).map fun (k : Nat) => i32 ((q.tail : Int) + (k : Int)))
        = (List.range' q.tail xs.length).map Int.ofNat := by
      rw [List.range'_eq_map_range, List.map_map]
      apply List.map_congr_left
      intro k hk
      have hk := List.mem_range.1 hk
      rw [i32_of_range (by omega) (by omega)]
      simp
    rw [hn] at hh
    simp only [List.length_nil] at hh
    refine ⟨?_, ?_, ?_, ?_, by simpa [enqueueN] using hc, by simpa [enqueueN] using hcb, ?_⟩
    · show u32 ((q.tail : Int) + (xs.length : Int)) = a.used + xs.length; rw [htail, ht]
    · show q.head + (put a.toD xs).live.length = u32 ((q.tail : Int) + (xs.length : Int)) + (put a.toD xs).debt
      rw [hlive, htail, List.length_drop]; simp [put]; omega
    · intro hp
      simp only [put] at hp
      show (put a.toD xs).live = []
      rw [hlive, List.drop_eq_nil_of_le (by omega)]
    · simp [put]; omega
    · intro j hj
      have hj' : j < (put a.toD xs).live.length := hj
      rw [hlive, List.length_drop] at hj'
      show (scatter q.store _ xs)[q.head + j]? = (put a.toD xs).live[j]?
      rw [hlive, hidx, scatter_consecutive, if_pos (by omega), if_pos (by omega), List.getElem?_drop]
      congr 1; omega

theorem dsim_dequeue {q : Queue α} {a : DQ α} (h : DSim q a) (k : Nat) (ho : owed a.toD k ≤ 2 ^ 31) :
    DSim (dequeue q k).1 { live := a.live.drop k, debt := owed a.toD k, used := a.used } := by
  have hcb := h.capb
  have ht := h.tail
  have hh := h.head
  have hu := h.used
  unfold owed at ho
  have hle : q.head + k < 2 ^ 32 := by omega
  have hhd : u32 ((q.head : Int) + (k : Int)) = q.head + k := by
    rw [show ((q.head : Int) + k) = ((q.head + k : Nat) : Int) by omega, u32_of_lt hle]
  refine ⟨ht, ?_, ?_, ho, hu, hcb, ?_⟩
  · show u32 ((q.head : Int) + (k : Int)) + (a.live.drop k).length = q.tail + owed a.toD k
    rw [hhd, List.length_drop]
    unfold owed
    omega
  · intro hp
    simp only [owed] at hp
    show a.live.drop k = []
    by_cases h0 : a.debt = 0
    · exact List.drop_eq_nil_of_le (by omega)
    · rw [h.none (by omega)]; simp
  · intro j hj
    simp only [List.length_drop] at hj
    show q.store[u32 ((q.head : Int) + (k : Int)) + j]? = (a.live.drop k)[j]?
    rw [hhd, List.getElem?_drop, Nat.add_assoc]
    exact h.items _ (by omega)

theorem dsim_front {q : Queue α} {a : DQ α} (h : DSim q a) (k : Nat) (hk : k ≤ a.live.length) :
    frontItems q k = some (a.live.take k) := by
  by_cases h0 : a.debt = 0
  · exact frontItems_eq (h.sim h0) k hk
  · rw [h.none (by omega)] at hk ⊢
    simp only [List.length_nil, Nat.le_zero] at hk
    subst hk
    rfl

theorem dsim_step {q : Queue α} {a : DQ α} (h : DSim q a) (op : Op α)
    (hop : QueueSpec.dok q.store.length a op) :
    DSim (step q op).1 (QueueSpec.dstep a op).1 ∧ ∀ v, (QueueSpec.dstep a op).2 = some v → (step q op).2 = v := by
  have hcb := h.capb
  have hu := h.used
  have ht := h.tail
  have hh := h.head
  cases op with
  | enqueue1 x => exact ⟨dsim_enqueue1 h x hop, fun v hv => by simp only [QueueSpec.dstep, Option.some.injEq] at hv; rw [← hv]; rfl⟩
  | enqueue xs => exact ⟨dsim_enqueueN h xs hop, fun v hv => by simp only [QueueSpec.dstep, Option.some.injEq] at hv; rw [← hv]; rfl⟩
  | dequeue k =>
    refine ⟨dsim_dequeue h k hop, fun v hv => ?_⟩
    simp only [QueueSpec.dstep] at hv
    by_cases hk : k ≤ a.live.length
    · rw [if_pos hk] at hv
      simp only [Option.some.injEq] at hv
      rw [← hv]
      simp [step, dequeue, dsim_front h k hk]
    · rw [if_neg hk] at hv; cases hv
  | peek k =>
    refine ⟨h, fun v hv => ?_⟩
    simp only [QueueSpec.dstep] at hv
    by_cases hk : k ≤ a.live.length
    · rw [if_pos hk] at hv
      simp only [Option.some.injEq] at hv
      rw [← hv]
      simp [step, peek, dsim_front h k hk]
    · rw [if_neg hk] at hv; cases hv
  | clear =>
    refine ⟨⟨rfl, rfl, fun _ => rfl, by simp [QueueSpec.dstep, QueueSpec.dempty], Nat.zero_le _, hcb, ?_⟩, fun v hv => ?_⟩
    · intro j hj; simp [QueueSpec.dstep, QueueSpec.dempty] at hj
    · simp only [QueueSpec.dstep, Option.some.injEq] at hv
      rw [← hv]; rfl
  | get sg i =>
    refine ⟨h, fun v hv => ?_⟩
    simp only [QueueSpec.dstep] at hv
    by_cases hk : i < a.live.length
    · rw [if_pos hk] at hv
      simp only [Option.some.injEq] at hv
      rw [← hv]
      have h0 : a.debt = 0 := by
        rcases Nat.eq_zero_or_pos a.debt with e | e
        · exact e
        · rw [h.none e] at hk; simp at hk
      simp only [step, getitem]
      cases sg
      · rw [if_neg (by simp), show ((q.head : Int) + (i : Int)) = ((q.head + i : Nat) : Int) by omega,
          u32_of_lt (by omega), gatherU_of_lt _ _ (by omega), h.items _ hk]
      · rw [if_pos rfl, i32_of_range (by omega) (by omega),
          show ((q.head : Int) + (i : Int)) = ((q.head + i : Nat) : Int) by omega,
          gather_nat_of_lt _ _ (by omega), h.items _ hk]
    · rw [if_neg hk] at hv; cases hv
  | size =>
    refine ⟨h, fun v hv => ?_⟩
    simp only [QueueSpec.dstep, Option.some.injEq] at hv
    rw [← hv]
    simp only [step, size]
    rw [show ((q.tail : Int) - (q.head : Int)) = (a.live.length : Int) - (a.debt : Int) by omega,
      StackModel.size_debt h.none h.debt (by
        rcases Nat.eq_zero_or_pos a.debt with e | e
        · omega
        · rw [h.none e]; simp)]

theorem dsim_run {q : Queue α} {a : DQ α} (h : DSim q a) (ops : List (Op α))
    (hops : QueueSpec.DOk q.store.length a ops) :
    DSim (run q ops).1 (QueueSpec.drun a ops).1 ∧ Agree (QueueSpec.drun a ops).2 (run q ops).2 := by
  induction ops generalizing q a with
  | nil => exact ⟨h, trivial⟩
  | cons op ops ih =>
    obtain ⟨h1, h2⟩ := dsim_step h op hops.1
    obtain ⟨h3, h4⟩ := ih h1 (by rw [step_store_length]; exact hops.2)
    exact ⟨h3, h2, h4⟩

/-- **C94, queues.**  Every history that may dequeue, peek and index beyond what the queue holds: the outputs are those
of the specification with a debt, wherever items that exist are asked for; `clear` pays the debt. -/
theorem queue_debt (d : α) (cap : Nat) (hcap : cap < 2 ^ 31) (ops : List (Op α))
    (hops : QueueSpec.DOk cap QueueSpec.dempty ops) :
    Agree (QueueSpec.drun QueueSpec.dempty ops).2 (run (build d cap) ops).2 := by
  have h : DSim (build d cap) (QueueSpec.dempty : DQ α) := (sim_build d cap hcap).dsim
  exact (dsim_run h ops (by simpa [build] using hops)).2

/-- **C94 is false for queues**: dequeue `m ≥ 1` items too many after any history, then enqueue `m` items for which
there is room: none of them is there (`size` is 0). -/
theorem queue_underflow_swallows (d : α) (cap : Nat) (hcap : cap < 2 ^ 31) (ops : List (Op α))
    (hops : QueueSpec.DOk cap QueueSpec.dempty ops) (hd : (QueueSpec.drun (QueueSpec.dempty : DQ α) ops).1.debt = 0)
    (m : Nat) (hm : 0 < m) (xs : List α) (hx : xs.length = m)
    (hroom : (QueueSpec.drun (QueueSpec.dempty : DQ α) ops).1.used + m ≤ cap) :
    let q := (run (build d cap) ops).1
    size (enqueueN (dequeue q (size q + m)).1 xs) = 0 ∧ size (dequeue q (size q + m)).1 = 2 ^ 32 - m := by
  intro q
  have h0 : DSim (build d cap) (QueueSpec.dempty : DQ α) := (sim_build d cap hcap).dsim
  have h := (dsim_run h0 ops (by simpa [build] using hops)).1
  generalize ha : (QueueSpec.drun (QueueSpec.dempty : DQ α) ops).1 = a at *
  have sz : ∀ {q' : Queue α} {a' : DQ α}, DSim q' a' → size q' = DebtSpec.size a'.toD := by
    intro q' a' h'
    exact (dsim_step h' .size trivial).2 (.nat (DebtSpec.size a'.toD)) rfl |> fun e => by
      simpa [step] using e
  have hlen : q.store.length = cap := by
    have : ∀ (ops : List (Op α)) (q0 : Queue α), (run q0 ops).1.store.length = q0.store.length := by
      intro ops
      induction ops with
      | nil => intro q0; rfl
      | cons op ops ih => intro q0; simp only [run]; rw [ih, step_store_length]
    show (run (build d cap) ops).1.store.length = cap
    rw [this]; simp [build]
  have hsz : size q = a.live.length := by
    show size (run (build d cap) ops).1 = _
    rw [sz h, DebtSpec.size, if_pos hd]
  have how : owed a.toD (size q + m) = m := by unfold owed; omega
  have h1 := dsim_dequeue h (size q + m) (by rw [how]; omega)
  rw [how, List.drop_eq_nil_of_le (by omega)] at h1
  have h2 := dsim_enqueueN h1 xs (by
    show a.used + xs.length ≤ q.store.length
    omega)
  constructor
  · rw [sz h2]
    simp [DebtSpec.size, put, hx]
  · rw [sz h1]
    simp only [DebtSpec.size]
    rw [if_neg (by omega)]

/-- Non-vacuity of `queue_debt`. -/
example : QueueSpec.DOk 4 (QueueSpec.dempty : DQ Nat) [.enqueue1 1, .dequeue 2, .size, .enqueue [5, 6], .size, .dequeue 1, .clear, .size] ∧
    (QueueSpec.drun (QueueSpec.dempty : DQ Nat) [.enqueue1 1, .dequeue 2, .size, .enqueue [5, 6], .size, .dequeue 1, .clear, .size]).2 =
      [some .unit, none, some (.nat (2 ^ 32 - 1)), some .unit, some (.nat 1), some (.items (some [6])), some .unit, some (.nat 0)] ∧
    (run (build 0 4) [.enqueue1 1, .dequeue 2, .size, .enqueue [5, 6], .size, .dequeue 1, .clear, .size]).2 =
      [.unit, .items (some [1, 0]), .nat (2 ^ 32 - 1), .unit, .nat 1, .items (some [6]), .unit, .nat 0] := by
  refine ⟨?_, by decide +kernel, by decide +kernel⟩
  simp [QueueSpec.DOk, QueueSpec.dok, QueueSpec.dstep, QueueSpec.dempty, put, owed]

end QueueModel
