import Verif.StackModel

/-!
# Stack: properties C01, C02
-/

namespace StackSpec

open StackModel (Op Out)

/-- The specification: an ordinary list used as a stack, bottom first. -/
def step (l : List α) : Op α → List α × Out α
  | .push1 x => (l ++ [x], .unit)
  | .push xs => (l ++ xs, .unit)
  | .pop k => (l.take (l.length - k), .items (some (l.drop (l.length - k))))
  | .peek k => (l, .items (some (l.drop (l.length - k))))
  | .get i => (l, .item l[i]?)
  | .size => (l, .nat l.length)

def run (l : List α) : List (Op α) → List α × List (Out α)
  | [] => (l, [])
  | op :: ops =>
    let (l1, o) := step l op
    let (l2, os) := run l1 ops
    (l2, o :: os)

/-- The call neither overflows a capacity of `cap` items nor asks for items that are not there. -/
def ok (cap : Nat) (l : List α) : Op α → Prop
  | .push1 _ => l.length + 1 ≤ cap
  | .push xs => l.length + xs.length ≤ cap
  | .pop k => k ≤ l.length
  | .peek k => k ≤ l.length
  | .get i => i < l.length
  | .size => True

/-- Every call of the history is admissible when it is made. -/
def Ok (cap : Nat) (l : List α) : List (Op α) → Prop
  | [] => True
  | op :: ops => ok cap l op ∧ Ok cap (step l op).1 ops

end StackSpec

namespace StackModel

open Jax

/-- Simulation relation used by the proofs: `size` is the length of the abstract stack and the
store holds its first `store.length` items. -/
structure Sim (s : Stack α) (l : List α) : Prop where
  size : s.size = l.length
  bound : l.length < 2 ^ 31
  capb : s.store.length < 2 ^ 31
  store : ∀ j, j < s.store.length → j < l.length → s.store[j]? = l[j]?

theorem sim_push1 {s : Stack α} {l : List α} (h : Sim s l) (x : α) (hb : l.length + 1 < 2 ^ 31) :
    Sim (push1 s x) (l ++ [x]) := by
  obtain ⟨h1, h2, h3, h4⟩ := h
  refine ⟨?_, by simpa using hb, by simpa [push1] using h3, ?_⟩
  · simp only [push1, h1, List.length_append, List.length_singleton]
    rw [show ((l.length : Int) + 1) = ((l.length + 1 : Nat) : Int) by omega, u32_of_lt (by omega)]
  · intro j hj hjl
    simp only [push1, scatterU1_length, List.length_append, List.length_singleton] at hj hjl
    simp only [push1, scatterU1, h1]
    by_cases hjs : j = l.length
    · subst hjs; rw [if_pos hj]; simp [hj]
    · have hlt : j < l.length := by omega
      rw [List.getElem?_append_left hlt]
      split
      · rw [List.getElem?_set_ne (by omega)]; exact h4 j hj hlt
      · exact h4 j hj hlt

theorem sim_pushN {s : Stack α} {l : List α} (h : Sim s l) (xs : List α)
    (hb : l.length + xs.length < 2 ^ 31) : Sim (pushN s xs) (l ++ xs) := by
  obtain ⟨h1, h2, h3, h4⟩ := h
  have hidx : ((List.range xs.length).map fun (k : Nat) => i32 ((s.size : Int) + (k : Int)))
      = (List.range' l.length xs.length).map Int.ofNat := by
    rw [List.range'_eq_map_range, List.map_map]
    apply List.map_congr_left
    intro k hk
    have hk := List.mem_range.1 hk
    rw [i32_of_range (by omega) (by omega), h1]
    simp
  refine ⟨?_, by simpa using hb, by simpa [pushN] using h3, ?_⟩
  · simp only [pushN, h1, List.length_append]
    rw [show ((l.length : Int) + xs.length) = ((l.length + xs.length : Nat) : Int) by omega,
      u32_of_lt (by omega)]
  · intro j hj hjl
    simp only [pushN, scatter_length, List.length_append] at hj hjl
    simp only [pushN]
    rw [hidx, scatter_consecutive, if_pos hj]
    by_cases hlt : j < l.length
    · rw [if_neg (by omega), List.getElem?_append_left hlt]; exact h4 j hj hlt
    · rw [if_pos (by omega), List.getElem?_append_right (by omega)]

theorem mapM_some_getElem? {f : β → Option α} {is : List β} {r : List α}
    (hl : is.length = r.length) (h : ∀ j (hj : j < is.length), f is[j] = r[j]?) :
    is.mapM f = some r := by
  induction is generalizing r with
  | nil =>
    cases r with
    | nil => rfl
    | cons _ _ => simp at hl
  | cons i is ih =>
    cases r with
    | nil => simp at hl
    | cons x r =>
      have h0 := h 0 (by simp)
      have := ih (r := r) (by simpa using hl) (fun j hj => by
        have := h (j + 1) (by simpa using hj); simpa using this)
      simp at h0
      simp [List.mapM_cons, h0, this]

/-- What a pop/peek of `k` live items reads: item by item the abstract top, for every item whose
position is below the capacity. -/
theorem topItems_eq {s : Stack α} {l : List α} (h : Sim s l) (k : Nat) (hk : k ≤ l.length)
    (hcap : l.length ≤ s.store.length) : topItems s k = some (l.drop (l.length - k)) := by
  obtain ⟨h1, h2, h3, h4⟩ := h
  unfold topItems
  split
  · subst k
    rw [h1, show ((l.length : Int) - 1) = ((l.length - 1 : Nat) : Int) by omega,
      u32_of_lt (by omega), gatherU_of_lt _ _ (by omega), h4 _ (by omega) (by omega)]
    rw [List.getElem?_eq_getElem (by omega)]
    simp only [Option.map_some, Option.some.injEq]
    rw [List.drop_eq_getElem_cons (by omega), List.drop_eq_nil_of_le (by omega)]
  · apply mapM_some_getElem?
    · simp; omega
    · intro j hj
      simp only [List.length_map, List.length_range] at hj
      rw [List.getElem_map, List.getElem_range, i32_of_range (by omega) (by omega), h1,
        show ((l.length : Int) - ((k - j : Nat) : Int)) = ((l.length - k + j : Nat) : Int) by omega,
        gather_nat_of_lt _ _ (by omega), h4 _ (by omega) (by omega)]
      simp

theorem sim_pop {s : Stack α} {l : List α} (h : Sim s l) (k : Nat) (hk : k ≤ l.length) :
    Sim (pop s k).1 (l.take (l.length - k)) := by
  obtain ⟨h1, h2, h3, h4⟩ := h
  refine ⟨?_, by simp; omega, h3, ?_⟩
  · simp only [pop, h1, List.length_take]
    rw [show ((l.length : Int) - k) = ((l.length - k : Nat) : Int) by omega, u32_of_lt (by omega)]
    omega
  · intro j hj hjl
    simp only [List.length_take] at hjl
    rw [List.getElem?_take_of_lt (by omega)]
    exact h4 j hj (by omega)

theorem sim_build (d : α) (cap : Nat) (hcap : cap < 2 ^ 31) : Sim (build d cap) ([] : List α) :=
  ⟨rfl, by simp, by simpa [build] using hcap, by simp⟩

theorem step_store_length (s : Stack α) (op : Op α) :
    (step s op).1.store.length = s.store.length := by
  cases op <;> simp [step, push1, pushN, pop]

/-- One admissible step keeps the simulation and gives the specified output. -/
theorem sim_step {s : Stack α} {l : List α} {cap : Nat} (hcap : s.store.length = cap)
    (h : Sim s l) (hl : l.length ≤ cap) (op : Op α) (hop : StackSpec.ok cap l op) :
    Sim (step s op).1 (StackSpec.step l op).1 ∧ (step s op).2 = (StackSpec.step l op).2 ∧
      (StackSpec.step l op).1.length ≤ cap := by
  have h3 := h.capb
  cases op with
  | push1 x => exact ⟨sim_push1 h x (by simp only [StackSpec.ok] at hop; omega), rfl, by
      simpa [StackSpec.step, StackSpec.ok] using hop⟩
  | push xs => exact ⟨sim_pushN h xs (by simp only [StackSpec.ok] at hop; omega), rfl, by
      simpa [StackSpec.step, StackSpec.ok] using hop⟩
  | pop k =>
    simp only [StackSpec.ok] at hop
    refine ⟨sim_pop h k hop, ?_, by simp [StackSpec.step]; omega⟩
    simp [step, pop, StackSpec.step, topItems_eq h k hop (by omega)]
  | peek k =>
    simp only [StackSpec.ok] at hop
    exact ⟨h, by simp [step, peek, StackSpec.step, topItems_eq h k hop (by omega)], hl⟩
  | get i =>
    simp only [StackSpec.ok] at hop
    refine ⟨h, ?_, hl⟩
    simp only [step, getitem, StackSpec.step]
    rw [gather_nat_of_lt _ _ (by omega), h.store _ (by omega) hop]
  | size => exact ⟨h, by simp [step, StackSpec.step, h.size], hl⟩

theorem run_eq_spec {s : Stack α} {l : List α} {cap : Nat} (hcap : s.store.length = cap)
    (h : Sim s l) (hl : l.length ≤ cap) (ops : List (Op α)) (hops : StackSpec.Ok cap l ops) :
    (run s ops).2 = (StackSpec.run l ops).2 := by
  induction ops generalizing s l with
  | nil => rfl
  | cons op ops ih =>
    obtain ⟨h1, h2, h3⟩ := sim_step hcap h hl op hops.1
    simp only [run, StackSpec.run, h2]
    rw [ih (by rw [step_store_length]; exact hcap) h1 h3 hops.2]

/-- **C01.** Every admissible history of API calls on a freshly built stack gives exactly the
outputs of the list specification (`pop`, `peek`, indexing and `size` alike). -/
theorem stack_lifo (d : α) (cap : Nat) (hcap : cap < 2 ^ 31) (ops : List (Op α))
    (hops : StackSpec.Ok cap [] ops) :
    (run (build d cap) ops).2 = (StackSpec.run [] ops).2 :=
  run_eq_spec (by simp [build]) (sim_build d cap hcap) (by simp) ops hops

/-- Non-vacuity of `stack_lifo`: an admissible history with batch push, pops, peek, index. -/
example : StackSpec.Ok 3 ([] : List Nat)
    [.push [1, 2], .push1 3, .peek 2, .pop 2, .push1 9, .get 1, .size, .pop 1] := by
  simp [StackSpec.Ok, StackSpec.ok, StackSpec.step]

example : (run (build 0 3) [.push [1, 2], .push1 3, .peek 2, .pop 2, .push1 9, .pop 1]).2 =
    [.unit, .unit, .items (some [2, 3]), .items (some [2, 3]), .unit, .items (some [9])] := by
  decide

/-- Histories that may overflow the capacity but never underflow; the number of live items stays
below `2 ^ 31` (the `int32` index range). -/
def StackSpec.okOverflow (l : List α) : Op α → Prop
  | .push1 _ => l.length + 1 < 2 ^ 31
  | .push xs => l.length + xs.length < 2 ^ 31
  | .pop k => k ≤ l.length
  | .peek k => k ≤ l.length
  | .get _ => True
  | .size => True

def StackSpec.OkOverflow (l : List α) : List (Op α) → Prop
  | [] => True
  | op :: ops => okOverflow l op ∧ OkOverflow (StackSpec.step l op).1 ops

theorem sim_step_overflow {s : Stack α} {l : List α} (h : Sim s l) (op : Op α)
    (hop : StackSpec.okOverflow l op) : Sim (step s op).1 (StackSpec.step l op).1 := by
  cases op with
  | push1 x => exact sim_push1 h x hop
  | push xs => exact sim_pushN h xs hop
  | pop k => exact sim_pop h k hop
  | peek k => exact h
  | get i => exact h
  | size => exact h

theorem sim_run_overflow {s : Stack α} {l : List α} (h : Sim s l) (ops : List (Op α))
    (hops : StackSpec.OkOverflow l ops) : Sim (run s ops).1 (StackSpec.run l ops).1 := by
  induction ops generalizing s l with
  | nil => exact h
  | cons op ops ih => exact ih (sim_step_overflow h op hops.1) hops.2

theorem run_store_length (s : Stack α) (ops : List (Op α)) :
    (run s ops).1.store.length = s.store.length := by
  induction ops generalizing s with
  | nil => rfl
  | cons op ops ih => simp only [run]; rw [ih, step_store_length]

/-- **C02.** After any history without underflow, overflowing or not, `size` counts all live items
and `stack[i]` is the `i`-th live item for every position below the capacity; and as soon as the
live items fit again (`l.length ≤ cap`), every later admissible history gives exactly the outputs
of the list specification. -/
theorem stack_overflow_safe (d : α) (cap : Nat) (hcap : cap < 2 ^ 31) (ops : List (Op α))
    (hops : StackSpec.OkOverflow [] ops) :
    let s := (run (build d cap) ops).1
    let l := (StackSpec.run [] ops).1
    s.size = l.length ∧
    (∀ i, i < cap → i < l.length → getitem s i = l[i]?) ∧
    (l.length ≤ cap → ∀ ops', StackSpec.Ok cap l ops' →
      (run s ops').2 = (StackSpec.run l ops').2) := by
  intro s l
  have h : Sim s l := sim_run_overflow (sim_build d cap hcap) ops hops
  have hlen : s.store.length = cap := by
    show (run (build d cap) ops).1.store.length = cap
    rw [run_store_length]; simp [build]
  refine ⟨h.size, ?_, ?_⟩
  · intro i hi hil
    simp only [getitem]
    rw [gather_nat_of_lt _ _ (by omega), h.store i (by omega) hil]
  · intro hl ops' hops'
    exact run_eq_spec hlen h hl ops' hops'

/-- Non-vacuity of `stack_overflow_safe`: a history that overflows a capacity of 2 and recovers. -/
example : StackSpec.OkOverflow ([] : List Nat) [.push [1, 2, 3, 4], .pop 3] ∧
    (StackSpec.run ([] : List Nat) [.push [1, 2, 3, 4], .pop 3]).1 = [1] := by
  simp [StackSpec.OkOverflow, StackSpec.okOverflow, StackSpec.step, StackSpec.run]

/-- Finding (documents the loss, not a proof obligation): items pushed beyond the capacity are
silently lost; popping them returns the clamped last slot instead. -/
theorem stack_overflow_pop_wrong :
    (run (build 0 1) [.push1 7, .push1 8, .size, .pop 1]).2
      = [.unit, .unit, .nat 2, .items (some [7])] := by decide

/-- Finding: popping an empty stack wraps the `uint32` size. -/
theorem stack_underflow_wraps :
    (run (build 0 1) [.pop 1, .size]).2 = [.items (some [0]), .nat (2 ^ 32 - 1)] := by decide

end StackModel
