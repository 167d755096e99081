import Verif.QueueModel
import Verif.StackProps

/-!
# Queue: properties C03, C04, C05
-/

namespace QueueSpec

open QueueModel (Op Out)

/-- The specification: the list of live items, oldest first, and the number of items enqueued since
the last `clear` (used only to say which histories are admissible). -/
structure Q (α : Type u) where
  live : List α
  used : Nat

def step (q : Q α) : Op α → Q α × Out α
  | .enqueue1 x => ({ live := q.live ++ [x], used := q.used + 1 }, .unit)
  | .enqueue xs => ({ live := q.live ++ xs, used := q.used + xs.length }, .unit)
  | .dequeue k => ({ q with live := q.live.drop k }, .items (some (q.live.take k)))
  | .peek k => (q, .items (some (q.live.take k)))
  | .clear => ({ live := [], used := 0 }, .unit)
  | .get _ i => (q, .item q.live[i]?)
  | .size => (q, .nat q.live.length)

def run (q : Q α) : List (Op α) → Q α × List (Out α)
  | [] => (q, [])
  | op :: ops =>
    let (q1, o) := step q op
    let (q2, os) := run q1 ops
    (q2, o :: os)

/-- The empty queue. -/
def empty : Q α := { live := [], used := 0 }

/-- Admissible call: at most `cap` items enqueued since the last `clear`, and no read of an item
that is not live. -/
def ok (cap : Nat) (q : Q α) : Op α → Prop
  | .enqueue1 _ => q.used + 1 ≤ cap
  | .enqueue xs => q.used + xs.length ≤ cap
  | .dequeue k => k ≤ q.live.length
  | .peek k => k ≤ q.live.length
  | .clear => True
  | .get _ i => i < q.live.length
  | .size => True

def Ok (cap : Nat) (q : Q α) : List (Op α) → Prop
  | [] => True
  | op :: ops => ok cap q op ∧ Ok cap (step q op).1 ops

/-- What the documentation promises: an enqueue is fine whenever the items currently held plus the
new ones fit in `max_size` ("the maximum number of elements the queue can hold"). -/
def okDoc (cap : Nat) (q : Q α) : Op α → Prop
  | .enqueue1 _ => q.live.length + 1 ≤ cap
  | .enqueue xs => q.live.length + xs.length ≤ cap
  | .dequeue k => k ≤ q.live.length
  | .peek k => k ≤ q.live.length
  | .clear => True
  | .get _ i => i < q.live.length
  | .size => True

def OkDoc (cap : Nat) (q : Q α) : List (Op α) → Prop
  | [] => True
  | op :: ops => okDoc cap q op ∧ OkDoc cap (step q op).1 ops

end QueueSpec

namespace QueueModel

open Jax

/-- Simulation relation used by the proofs. -/
structure Sim (q : Queue α) (a : QueueSpec.Q α) : Prop where
  tail : q.tail = a.used
  head : q.head + a.live.length = q.tail
  used : a.used ≤ q.store.length
  capb : q.store.length < 2 ^ 31
  items : ∀ j, j < a.live.length → q.store[q.head + j]? = a.live[j]?

theorem sim_build (d : α) (cap : Nat) (hcap : cap < 2 ^ 31) :
    Sim (build d cap) (QueueSpec.empty : QueueSpec.Q α) :=
  ⟨rfl, rfl, by simp [QueueSpec.empty], by simpa [build] using hcap, by simp [QueueSpec.empty]⟩

theorem step_store_length (q : Queue α) (op : Op α) :
    (step q op).1.store.length = q.store.length := by
  cases op <;> simp [step, enqueue1, enqueueN, dequeue, clear]

theorem sim_enqueue1 {q : Queue α} {a : QueueSpec.Q α} (h : Sim q a) (x : α)
    (hc : a.used + 1 ≤ q.store.length) :
    Sim (enqueue1 q x) { live := a.live ++ [x], used := a.used + 1 } := by
  obtain ⟨h1, h2, h3, h4, h5⟩ := h
  have htail : u32 ((q.tail : Int) + 1) = q.tail + 1 := by
    rw [show ((q.tail : Int) + 1) = ((q.tail + 1 : Nat) : Int) by omega, u32_of_lt (by omega)]
  refine ⟨by simp only [enqueue1, htail]; omega, ?_, by simpa [enqueue1] using hc,
    by simpa [enqueue1] using h4, ?_⟩
  · simp [enqueue1, htail]; omega
  · intro j hj
    simp only [List.length_append, List.length_singleton] at hj
    simp only [enqueue1, scatterU1]
    rw [if_pos (by omega)]
    by_cases hjl : j < a.live.length
    · rw [List.getElem?_set_ne (by omega), List.getElem?_append_left hjl]; exact h5 j hjl
    · have : j = a.live.length := by omega
      subst this
      rw [show q.head + a.live.length = q.tail by omega, List.getElem?_set_self (by omega)]
      simp

theorem sim_enqueueN {q : Queue α} {a : QueueSpec.Q α} (h : Sim q a) (xs : List α)
    (hc : a.used + xs.length ≤ q.store.length) :
    Sim (enqueueN q xs) { live := a.live ++ xs, used := a.used + xs.length } := by
  obtain ⟨h1, h2, h3, h4, h5⟩ := h
  have htail : u32 ((q.tail : Int) + (xs.length : Int)) = q.tail + xs.length := by
    rw [show ((q.tail : Int) + xs.length) = ((q.tail + xs.length : Nat) : Int) by omega,
      u32_of_lt (by omega)]
  have hidx : ((List.range xs.length).map fun (k : Nat) => i32 ((q.tail : Int) + (k : Int)))
      = (List.range' q.tail xs.length).map Int.ofNat := by
    rw [List.range'_eq_map_range, List.map_map]
    apply List.map_congr_left
    intro k hk
    have hk := List.mem_range.1 hk
    rw [i32_of_range (by omega) (by omega)]
    simp
  refine ⟨by simp only [enqueueN, htail]; omega, ?_, by simpa [enqueueN] using hc,
    by simpa [enqueueN] using h4, ?_⟩
  · simp [enqueueN, htail]; omega
  · intro j hj
    simp only [List.length_append] at hj
    simp only [enqueueN]
    rw [hidx, scatter_consecutive, if_pos (by omega)]
    by_cases hjl : j < a.live.length
    · rw [if_neg (by omega), List.getElem?_append_left hjl]; exact h5 j hjl
    · rw [if_pos (by omega), List.getElem?_append_right (by omega)]
      congr 1; omega

theorem frontItems_eq {q : Queue α} {a : QueueSpec.Q α} (h : Sim q a) (k : Nat)
    (hk : k ≤ a.live.length) : frontItems q k = some (a.live.take k) := by
  obtain ⟨h1, h2, h3, h4, h5⟩ := h
  unfold frontItems
  split
  · subst k
    have h50 := h5 0 (by omega)
    rw [Nat.add_zero] at h50
    rw [gatherU_of_lt _ _ (by omega), h50, List.getElem?_eq_getElem (by omega)]
    rw [show (1 : Nat) = 0 + 1 by rfl, List.take_succ_eq_append_getElem (by omega)]
    simp
  · apply StackModel.mapM_some_getElem?
    · simp; omega
    · intro j hj
      simp only [List.length_map, List.length_range] at hj
      rw [List.getElem_map, List.getElem_range, i32_of_range (by omega) (by omega),
        show ((q.head : Int) + (j : Int)) = ((q.head + j : Nat) : Int) by omega,
        gather_nat_of_lt _ _ (by omega), h5 _ (by omega), List.getElem?_take_of_lt hj]

theorem sim_step {q : Queue α} {a : QueueSpec.Q α} {cap : Nat} (hcap : q.store.length = cap)
    (h : Sim q a) (op : Op α) (hop : QueueSpec.ok cap a op) :
    Sim (step q op).1 (QueueSpec.step a op).1 ∧ (step q op).2 = (QueueSpec.step a op).2 := by
  subst hcap
  have h4 := h.capb
  have h3 := h.used
  have h2 := h.head
  have h1 := h.tail
  cases op with
  | enqueue1 x => exact ⟨sim_enqueue1 h x hop, rfl⟩
  | enqueue xs => exact ⟨sim_enqueueN h xs hop, rfl⟩
  | dequeue k =>
    simp only [QueueSpec.ok] at hop
    refine ⟨?_, by simp [step, dequeue, QueueSpec.step, frontItems_eq h k hop]⟩
    have hh : u32 ((q.head : Int) + (k : Int)) = q.head + k := by
      rw [show ((q.head : Int) + k) = ((q.head + k : Nat) : Int) by omega, u32_of_lt (by omega)]
    refine ⟨h1, ?_, h3, h4, ?_⟩
    · simp [step, dequeue, QueueSpec.step, hh]; omega
    · intro j hj
      simp only [QueueSpec.step, List.length_drop] at hj
      simp only [step, dequeue, QueueSpec.step, hh, List.getElem?_drop]
      rw [Nat.add_assoc]; exact h.items _ (by omega)
  | peek k =>
    simp only [QueueSpec.ok] at hop
    exact ⟨h, by simp [step, peek, QueueSpec.step, frontItems_eq h k hop]⟩
  | clear =>
    exact ⟨⟨rfl, rfl, Nat.zero_le _, h4, by simp [QueueSpec.step]⟩, rfl⟩
  | get sg i =>
    simp only [QueueSpec.ok] at hop
    refine ⟨h, ?_⟩
    simp only [step, getitem, QueueSpec.step]
    cases sg
    · rw [if_neg (by simp), show ((q.head : Int) + (i : Int)) = ((q.head + i : Nat) : Int) by omega,
        u32_of_lt (by omega), gatherU_of_lt _ _ (by omega), h.items _ hop]
    · rw [if_pos rfl, i32_of_range (by omega) (by omega),
        show ((q.head : Int) + (i : Int)) = ((q.head + i : Nat) : Int) by omega,
        gather_nat_of_lt _ _ (by omega), h.items _ hop]
  | size =>
    refine ⟨h, ?_⟩
    simp only [step, size, QueueSpec.step]
    rw [show ((q.tail : Int) - (q.head : Int)) = ((a.live.length : Nat) : Int) by omega,
      u32_of_lt (by omega)]

theorem run_eq_spec {q : Queue α} {a : QueueSpec.Q α} {cap : Nat} (hcap : q.store.length = cap)
    (h : Sim q a) (ops : List (Op α)) (hops : QueueSpec.Ok cap a ops) :
    (run q ops).2 = (QueueSpec.run a ops).2 := by
  induction ops generalizing q a with
  | nil => rfl
  | cons op ops ih =>
    obtain ⟨h1, h2⟩ := sim_step hcap h op hops.1
    simp only [run, QueueSpec.run, h2]
    rw [ih (by rw [step_store_length]; exact hcap) h1 hops.2]

/-- **C03.** Every admissible history on a freshly built queue gives exactly the outputs of the
FIFO list specification. -/
theorem queue_fifo (d : α) (cap : Nat) (hcap : cap < 2 ^ 31) (ops : List (Op α))
    (hops : QueueSpec.Ok cap QueueSpec.empty ops) :
    (run (build d cap) ops).2 = (QueueSpec.run QueueSpec.empty ops).2 :=
  run_eq_spec (by simp [build]) (sim_build d cap hcap) ops hops

/-- Non-vacuity of `queue_fifo`. -/
example : QueueSpec.Ok 4 (QueueSpec.empty : QueueSpec.Q Nat)
    [.enqueue [1, 2, 3], .dequeue 2, .enqueue1 4, .peek 2, .get true 1, .get false 1, .size, .clear,
     .enqueue [5, 6, 7, 8], .dequeue 4] := by
  simp [QueueSpec.Ok, QueueSpec.ok, QueueSpec.step, QueueSpec.empty]

example : (run (build 0 4) [.enqueue [1, 2, 3], .dequeue 2, .enqueue1 4, .peek 2, .get true 1, .get false 1, .size]).2
    = [.unit, .items (some [1, 2]), .unit, .items (some [3, 4]), .item (some 4), .item (some 4), .nat 2] := by
  decide

/-- **C04, negation.** The documented capacity is not what the code provides: slots are never
reclaimed before `clear`, so a queue that never holds more than `max_size` items loses one.  Here
`max_size = 2` and at most one item is ever held. -/
theorem queue_not_full_loses_items :
    ¬ ∀ (cap : Nat) (_ : cap < 2 ^ 31) (ops : List (Op Nat)),
      QueueSpec.OkDoc cap QueueSpec.empty ops →
      (run (build 0 cap) ops).2 = (QueueSpec.run QueueSpec.empty ops).2 := by
  intro h
  have := h 2 (by omega)
    [.enqueue1 1, .dequeue 1, .enqueue1 2, .dequeue 1, .enqueue1 3, .dequeue 1]
    (by simp [QueueSpec.OkDoc, QueueSpec.okDoc, QueueSpec.step, QueueSpec.empty])
  revert this
  decide

/-- **C04, partial.**  Enqueueing `xs` on the queue reached by an admissible history keeps every
live item and appends `xs`, *provided* the items enqueued since the last `clear` (not the items
currently held) number at most `max_size`.  Missing: the documented condition
"items currently held ≤ max_size", which is false of the code (`queue_not_full_loses_items`). -/
theorem queue_accepts_items_partial (d : α) (cap : Nat) (hcap : cap < 2 ^ 31) (ops : List (Op α))
    (xs : List α) (hops : QueueSpec.Ok cap QueueSpec.empty ops)
    (hroom : (QueueSpec.run QueueSpec.empty ops).1.used + xs.length ≤ cap) :
    let q := (run (build d cap) ops).1
    let live := (QueueSpec.run QueueSpec.empty ops).1.live
    (dequeue (enqueueN q xs) (live.length + xs.length)).2 = some (live ++ xs) := by
  intro q live
  have key : ∀ (ops : List (Op α)) (q : Queue α) (a : QueueSpec.Q α), q.store.length = cap →
      Sim q a → QueueSpec.Ok cap a ops →
      Sim (run q ops).1 (QueueSpec.run a ops).1 ∧ (run q ops).1.store.length = cap := by
    intro ops
    induction ops with
    | nil => intro q a hl h _; exact ⟨h, hl⟩
    | cons op ops ih =>
      intro q a hl h ho
      exact ih (step q op).1 (QueueSpec.step a op).1
        (by rw [step_store_length]; exact hl) (sim_step hl h op ho.1).1 ho.2
  obtain ⟨hs, hl⟩ := key ops _ _ (by simp [build]) (sim_build d cap hcap) hops
  have hs' := sim_enqueueN hs xs (by omega)
  have := frontItems_eq hs' (live.length + xs.length) (by simp [live])
  simp only [dequeue]
  rw [this]
  simp only [live]
  rw [List.take_of_length_le (by simp)]

/-- Non-vacuity of `queue_accepts_items_partial`. -/
example : QueueSpec.Ok 4 (QueueSpec.empty : QueueSpec.Q Nat) [.enqueue [1, 2], .dequeue 1] ∧
    (QueueSpec.run (QueueSpec.empty : QueueSpec.Q Nat) [.enqueue [1, 2], .dequeue 1]).1.used
      + [7, 8].length ≤ 4 := by
  simp [QueueSpec.Ok, QueueSpec.ok, QueueSpec.step, QueueSpec.run, QueueSpec.empty]

/-- **C05.** After `clear()`, whatever happened before (even an overflowing history), every
admissible history gives exactly the outputs it gives on a freshly built queue, which are those of
the FIFO specification started empty. -/
theorem queue_clear_fresh (d : α) (cap : Nat) (hcap : cap < 2 ^ 31) (before after : List (Op α))
    (hafter : QueueSpec.Ok cap QueueSpec.empty after) :
    (run (clear (run (build d cap) before).1) after).2 = (run (build d cap) after).2 ∧
    (run (clear (run (build d cap) before).1) after).2
      = (QueueSpec.run QueueSpec.empty after).2 := by
  have hlen : ∀ (ops : List (Op α)) (q : Queue α), (run q ops).1.store.length = q.store.length := by
    intro ops
    induction ops with
    | nil => intro q; rfl
    | cons op ops ih => intro q; simp only [run]; rw [ih, step_store_length]
  have hl : (run (build d cap) before).1.store.length = cap := by rw [hlen]; simp [build]
  have hsim : Sim (clear (run (build d cap) before).1) (QueueSpec.empty : QueueSpec.Q α) :=
    ⟨rfl, rfl, Nat.zero_le _, by simp [clear, hl, hcap], by simp [QueueSpec.empty]⟩
  have h2 := run_eq_spec (by simpa [clear] using hl) hsim after hafter
  exact ⟨h2.trans (queue_fifo d cap hcap after hafter).symm, h2⟩

/-- Non-vacuity of `queue_clear_fresh`: an overflowing `before` and a non-trivial `after`. -/
example : QueueSpec.Ok 2 (QueueSpec.empty : QueueSpec.Q Nat) [.enqueue [4, 5], .dequeue 1, .size] ∧
    (run (clear (run (build 0 2) [.enqueue [1, 2, 3], .dequeue 5]).1)
      [.enqueue [4, 5], .dequeue 1, .size]).2 = [.unit, .items (some [4]), .nat 1] := by
  refine ⟨by simp [QueueSpec.Ok, QueueSpec.ok, QueueSpec.step, QueueSpec.empty], by decide⟩

end QueueModel
