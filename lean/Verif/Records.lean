import Verif.RecordModel

/-!
# Stacks and queues of dataclass instances behave as lists of records
-/

namespace Records

open Agg NArr SoA

variable {α : Type} [Inhabited α]

/-! ## Reading and writing records of a batched instance -/

theorem recs_length (n : Nat) (x : Tree α) : (recs n x).length = n := by simp [recs]

theorem recs_getElem? (n : Nat) (x : Tree α) (k : Nat) : (recs n x)[k]? = if k < n then some (item [k] x) else none := by
  unfold recs
  rw [List.getElem?_map]
  by_cases h : k < n
  · rw [if_pos h, List.getElem?_range h]; rfl
  · rw [if_neg h, List.getElem?_eq_none (by simpa using h)]; rfl

theorem item_nil {c : Cls α} {z : Tree α} (h : Conf [] c z) : item [] z = z := by
  unfold item
  exact treeMap_id fun a ha => sub_nil (conf_leaves h a ha).1

theorem clamp_one (n : Nat) (i : Int) (hn : 0 < n) :
    NArr.clampIdx [n] [wrapIdx n i] = [Jax.clampIdx n (Jax.normIdx n i)] := by
  have : NArr.clampIdx [n] [wrapIdx n i] = [(max 0 (min (wrapIdx n i) ((n : Int) - 1))).toNat] := rfl
  rw [this]
  congr 1
  have hw : wrapIdx n i = Jax.normIdx n i := rfl
  rw [hw]
  unfold Jax.clampIdx
  generalize Jax.normIdx n i = w
  omega

theorem gather_recs {n : Nat} (hn : 0 < n) (x : Tree α) (i : Int) :
    Jax.gather (recs n x) i = some (item [Jax.clampIdx n (Jax.normIdx n i)] x) := by
  unfold Jax.gather
  rw [recs_length, recs_getElem?, if_pos (by unfold Jax.clampIdx; omega)]

theorem gatherU_recs {n : Nat} (x : Tree α) (i : Nat) : Jax.gatherU (recs n x) i = Jax.gather (recs n x) (i : Int) := by
  unfold Jax.gather Jax.gatherU
  rw [Jax.normIdx_nat]

/-- `val_store[i]`. -/
theorem get_one {n : Nat} (hn : 0 < n) {c : Cls α} {x : Tree α} (h : Conf [n] c x) (i : Int) :
    ∃ z, SoA.getitem x (.basic [.int i]) = some z ∧ Conf [] c z ∧ Jax.gather (recs n x) i = some z := by
  obtain ⟨z, hz, hc, hi⟩ := getitem_records h (I := .basic [.int i]) (R := ⟨[], 1, fun _ => [wrapIdx n i]⟩) rfl
  refine ⟨z, hz, hc, ?_⟩
  rw [gather_recs hn]
  have := hi [] trivial (by
    simp only
    rw [clamp_one n i hn]
    exact ⟨by unfold Jax.clampIdx; omega, trivial⟩)
  simp only at this
  rw [clamp_one n i hn, item_nil hc] at this
  rw [this]

/-- `val_store[indices]`. -/
theorem get_many {n : Nat} (hn : 0 < n) {c : Cls α} {x : Tree α} (h : Conf [n] c x) (k : Nat) (v : List Int) (hv : v.length = k) :
    ∃ z, SoA.getitem x (.adv [k] [v]) = some z ∧ Conf [k] c z ∧ v.mapM (Jax.gather (recs n x)) = some (recs k z) := by
  obtain ⟨z, hz, hc, hi⟩ := getitem_records h (I := .adv [k] [v]) (R := ⟨[k], 1, fun j => [wrapIdx n (v.getD (ravel [k] j) 0)]⟩)
    (by simp [resolve])
  refine ⟨z, hz, hc, ?_⟩
  apply StackModel.mapM_some_getElem?
  · rw [recs_length, hv]
  · intro j hj
    rw [gather_recs hn, recs_getElem?, if_pos (by omega)]
    have hr : ravel [k] [j] = j := by simp [ravel, NArr.size]
    have := hi [j] ⟨by omega, trivial⟩ (by
      simp only
      rw [clamp_one n _ hn]
      exact ⟨by unfold Jax.clampIdx; omega, trivial⟩)
    simp only at this
    rw [clamp_one n _ hn, hr] at this
    rw [this]
    congr 4
    rw [List.getD_eq_getElem?_getD, List.getElem?_eq_getElem hj]
    rfl

/-- `val_store.at[i].set(item)` for a number `i` that is not negative. -/
theorem set_one {n : Nat} {c : Cls α} {x v : Tree α} (h : Conf [n] c x) (hv : Conf [] c v) (ord : List String → List (List Nat))
    (ho : ∀ p, (ord p).Perm (indices [])) (p : Nat) :
    Conf [n] c (atSet ord (.basic [.int p]) [] x v) ∧
      recs n (atSet ord (.basic [.int p]) [] x v) = Jax.scatterU1 (recs n x) p v := by
  have hw : wrapIdx n (p : Int) = (p : Int) := by unfold wrapIdx; rw [if_neg (by omega)]
  obtain ⟨hc, hr⟩ := at_set_records (I := .basic [.int p]) (R := ⟨[], 1, fun _ => [(p : Int)]⟩) h hv
    (by simp [resolve, resolveBasic, hw]) (Bcast.refl _) ho
  refine ⟨hc, ?_⟩
  apply List.ext_getElem?
  intro t
  rw [recs_getElem?]
  unfold Jax.scatterU1
  rw [recs_length]
  by_cases ht : t < n
  · rw [if_pos ht]
    have h1 := hr [t] [] ⟨ht, trivial⟩ trivial
    simp only [List.append_nil] at h1
    by_cases hp : p < n
    · rw [if_pos hp]
      by_cases hpt : p = t
      · subst hpt
        rw [List.getElem?_set_self (by rw [recs_length]; exact hp)]
        have := h1.2 [] trivial rfl (fun k' hk' _ => by cases k' with | nil => rfl | cons => exact hk'.elim)
        rw [this]
        have hb : bcastSrc [] ([] : List Nat) = [] := rfl
        rw [hb, item_nil hv]
      · rw [List.getElem?_set_ne hpt, recs_getElem?, if_pos ht]
        rw [h1.1 fun k _ => by simp; omega]
    · rw [if_neg hp, recs_getElem?, if_pos ht]
      rw [h1.1 fun k _ => by simp; omega]
  · rw [if_neg ht]
    symm
    apply List.getElem?_eq_none
    have hl : (recs n x).length = n := recs_length n x
    by_cases hp : p < n
    · rw [if_pos hp, List.length_set]; omega
    · rw [if_neg hp]; omega

theorem consecutive_i32 (p k : Nat) (hb : p + k ≤ 2 ^ 31) :
    ((List.range k).map fun (j : Nat) => Jax.i32 ((p : Int) + (j : Int))) = (List.range' p k).map Int.ofNat := by
  rw [List.range'_eq_map_range, List.map_map]
  apply List.map_congr_left
  intro j hj
  have hj := List.mem_range.1 hj
  rw [Jax.i32_of_range (by omega) (by omega)]
  simp

/-- `val_store.at[start + arange(k)].set(items)`. -/
theorem set_many {n : Nat} {c : Cls α} {x v : Tree α} (h : Conf [n] c x) (k : Nat) (hv : Conf [k] c v) (ord : List String → List (List Nat))
    (ho : ∀ p, (ord p).Perm (indices [k])) (p : Nat) (hb : p + k ≤ 2 ^ 31) :
    let idx := (List.range k).map fun (j : Nat) => Jax.i32 ((p : Int) + (j : Int))
    Conf [n] c (atSet ord (.adv [k] [idx]) [] x v) ∧
      recs n (atSet ord (.adv [k] [idx]) [] x v) = Jax.scatter (recs n x) idx (recs k v) := by
  intro idx
  obtain ⟨hc, hr⟩ := at_set_records (I := .adv [k] [idx]) (R := ⟨[k], 1, fun j => [wrapIdx n (idx.getD (ravel [k] j) 0)]⟩) h hv
    (by simp [resolve]) (Bcast.refl _) ho
  have hsrc : ∀ j, j < k → wrapIdx n (idx.getD (ravel [k] [j]) 0) = ((p + j : Nat) : Int) := fun j hj => by
    have hr : ravel [k] [j] = j := by simp [ravel, NArr.size]
    have : idx.getD j 0 = ((p + j : Nat) : Int) := by
      show (((List.range k).map fun (j : Nat) => Jax.i32 ((p : Int) + (j : Int)))).getD j 0 = _
      rw [consecutive_i32 p k hb, List.getD_eq_getElem?_getD, List.getElem?_map, List.getElem?_range' hj]
      simp
    rw [hr, this]
    unfold wrapIdx
    rw [if_neg (by omega)]
  refine ⟨hc, ?_⟩
  apply List.ext_getElem?
  intro t
  have hidx : idx = (List.range' p (recs k v).length).map Int.ofNat := by rw [recs_length]; exact consecutive_i32 p k hb
  conv => rhs; rw [hidx]
  rw [Jax.scatter_consecutive, recs_getElem?, recs_length, recs_length]
  by_cases ht : t < n
  · rw [if_pos ht, if_pos ht]
    have h1 := hr [t] [] ⟨ht, trivial⟩ trivial
    simp only [List.append_nil] at h1
    by_cases hin : p ≤ t ∧ t < p + k
    · rw [if_pos hin, recs_getElem?, if_pos (by omega)]
      have hbs : bcastSrc [k] [t - p] = [t - p] := by
        show [if k = 1 then 0 else t - p] = [t - p]
        by_cases hk1 : k = 1
        · rw [if_pos hk1]; congr 1; omega
        · rw [if_neg hk1]
      have := h1.2 [t - p] ⟨by omega, trivial⟩ (by
        rw [hsrc _ (by omega)]
        simp only [List.map_cons, List.map_nil]
        congr 1
        show ((p + (t - p) : Nat) : Int) = (t : Int)
        omega) (fun k' hk' he => by
          cases k' with
          | nil => exact hk'.elim
          | cons q k' =>
            cases k' with
            | cons => exact hk'.2.elim
            | nil =>
              have hq : q < k := hk'.1
              rw [hsrc _ hq] at he
              have : ((p + q : Nat) : Int) = (t : Int) := by simpa using he
              have : q = t - p := by omega
              rw [this])
      rw [this, hbs]
    · rw [if_neg hin, recs_getElem?, if_pos ht]
      rw [h1.1 fun k' hk' => by
        cases k' with
        | nil => exact hk'.elim
        | cons q k' =>
          cases k' with
          | cons => exact hk'.2.elim
          | nil =>
            have hq : q < k := hk'.1
            rw [hsrc _ hq]
            intro he
            have : ((p + q : Nat) : Int) = (t : Int) := by simpa using he
            omega]
  · rw [if_neg ht, if_neg ht]

/-! ## Specification

The list specifications are `StackSpec` and `QueueSpec` (C01–C05), for items that are whole records. -/

/-- The instance returned holds exactly the records `l`: one single instance for a call that asks for one item, else an instance with one
batch axis. -/
def Holds (c : Cls α) (k : Nat) (r : Option (Tree α)) (l : List (Tree α)) : Prop :=
  ∃ z, r = some z ∧ if k = 1 then Conf [] c z ∧ l = [z] else Conf [k] c z ∧ l = recs k z

/-- The item a call pushes, as records. -/
def pushed (c : Cls α) (x : Tree α) : List (Tree α) :=
  match batchShape c x with
  | some (.tup [k]) => recs k x
  | _ => [x]

/-- A call on the instance level as a call on the level of lists of records. -/
def SOp.records (c : Cls α) : SOp α → StackModel.Op (Tree α)
  | .push x => .push (pushed c x)
  | .pop k => .pop k
  | .peek k => .peek k
  | .get i => .get i
  | .size => .size

/-- What is pushed is a record or a batch (one axis) of records of the class. -/
def SOp.Ok (c : Cls α) : SOp α → Prop
  | .push x => Conf [] c x ∨ ∃ k, Conf [k] c x
  | _ => True

/-- The result of a call agrees with the result of the list specification. -/
def SOp.Agrees (c : Cls α) : SOp α → Out α → StackModel.Out (Tree α) → Prop
  | .push _, .unit, .unit => True
  | .pop k, .inst r, .items (some l) => Holds c k r l
  | .peek k, .inst r, .items (some l) => Holds c k r l
  | .get _, .inst r, .item (some z) => r = some z ∧ Conf [] c z
  | .size, .nat n, .nat m => n = m
  | _, _, _ => False

/-- All results of a history agree. -/
def SOp.AgreeAll (c : Cls α) : List (SOp α) → List (Out α) → List (StackModel.Out (Tree α)) → Prop
  | [], [], [] => True
  | op :: ops, o :: os, o' :: os' => op.Agrees c o o' ∧ SOp.AgreeAll c ops os os'
  | _, _, _ => False

def QOp.records (c : Cls α) : QOp α → QueueModel.Op (Tree α)
  | .enqueue x => .enqueue (pushed c x)
  | .dequeue k => .dequeue k
  | .peek k => .peek k
  | .clear => .clear
  | .get sg i => .get sg i
  | .size => .size

def QOp.Ok (c : Cls α) : QOp α → Prop
  | .enqueue x => Conf [] c x ∨ ∃ k, Conf [k] c x
  | _ => True

def QOp.Agrees (c : Cls α) : QOp α → Out α → QueueModel.Out (Tree α) → Prop
  | .enqueue _, .unit, .unit => True
  | .dequeue k, .inst r, .items (some l) => Holds c k r l
  | .peek k, .inst r, .items (some l) => Holds c k r l
  | .clear, .unit, .unit => True
  | .get _ _, .inst r, .item (some z) => r = some z ∧ Conf [] c z
  | .size, .nat n, .nat m => n = m
  | _, _, _ => False

def QOp.AgreeAll (c : Cls α) : List (QOp α) → List (Out α) → List (QueueModel.Out (Tree α)) → Prop
  | [], [], [] => True
  | op :: ops, o :: os, o' :: os' => op.Agrees c o o' ∧ QOp.AgreeAll c ops os os'
  | _, _, _ => False

/-! ## Stack -/

/-- The stack of records a stack of instances stands for. -/
def RStack.abs (s : RStack α) : StackModel.Stack (Tree α) := ⟨s.size, recs s.maxSize s.store⟩

theorem top_abs {s : RStack α} {c : Cls α} (hn : 0 < s.maxSize) (h : Conf [s.maxSize] c s.store) (k : Nat) :
    ∃ l, StackModel.topItems s.abs k = some l ∧ Holds c k (s.top k) l := by
  by_cases hk : k = 1
  · subst hk
    obtain ⟨z, h1, h2, h3⟩ := get_one hn h (Jax.u32 (s.size - 1) : Nat)
    refine ⟨[z], ?_, z, ?_, ?_⟩
    · unfold StackModel.topItems
      rw [if_pos rfl]
      show (Jax.gatherU (recs s.maxSize s.store) (Jax.u32 (s.size - 1))).map _ = _
      rw [gatherU_recs, h3]; rfl
    · unfold RStack.top; rw [if_pos rfl]; exact h1
    · rw [if_pos rfl]; exact ⟨h2, rfl⟩
  · obtain ⟨z, h1, h2, h3⟩ := get_many hn h k ((List.range k).map fun (j : Nat) => Jax.i32 ((s.size : Int) - ((k - j : Nat) : Int))) (by simp)
    refine ⟨recs k z, ?_, z, ?_, ?_⟩
    · unfold StackModel.topItems
      rw [if_neg hk]
      exact h3
    · unfold RStack.top; rw [if_neg hk]; exact h1
    · rw [if_neg hk]; exact ⟨h2, rfl⟩

/-- A push of `k` items keeps the indices within `int32`. -/
def noWrap (c : Cls α) (s : RStack α) : SOp α → Prop
  | .push x => s.size + (pushed c x).length ≤ 2 ^ 31
  | _ => True

theorem push_one_list (s : StackModel.Stack (Tree α)) (x : Tree α) (h : s.size + 1 ≤ 2 ^ 31) : StackModel.pushN s [x] = StackModel.push1 s x := by
  have hst : Jax.scatter s.store ((List.range [x].length).map fun (k : Nat) => Jax.i32 ((s.size : Int) + (k : Int))) [x] =
      Jax.scatterU1 s.store s.size x := by
    show Jax.scatter1 s.store (Jax.i32 ((s.size : Int) + ((0 : Nat) : Int))) x = _
    rw [Jax.i32_of_range (by omega) (by omega)]
    have : ((s.size : Int) + ((0 : Nat) : Int)) = (s.size : Int) := by omega
    rw [this, Jax.scatter1_nat]
    rfl
  have h1 : (([x].length : Nat) : Int) = 1 := rfl
  unfold StackModel.pushN StackModel.push1
  rw [hst, h1]

theorem step_abs {s : RStack α} {c : Cls α} {ord : Order} (hne : c ≠ .nil) (hc : c.HasFields) (ho : ord.Valid) (hn : 0 < s.maxSize)
    (h : Conf [s.maxSize] c s.store) (op : SOp α) (hop : op.Ok c) (hw : noWrap c s op) :
    ∃ s' o, s.step c ord op = some (s', o) ∧ s'.maxSize = s.maxSize ∧ Conf [s'.maxSize] c s'.store ∧
      (StackModel.step s.abs (op.records c)).1 = s'.abs ∧ op.Agrees c o (StackModel.step s.abs (op.records c)).2 := by
  cases op with
  | push x =>
    rcases hop with hx | ⟨k, hx⟩
    · have hb := batchShape_of_conf hne hc hx
      have hp : pushed c x = [x] := by unfold pushed; rw [hb]
      obtain ⟨h1, h2⟩ := set_one h hx (ord []) (ho []) s.size
      refine ⟨{ s with size := Jax.u32 (s.size + 1), store := atSet (ord []) (.basic [.int s.size]) [] s.store x }, .unit, ?_, rfl, h1, ?_, trivial⟩
      · simp only [RStack.step, RStack.push, hb, Option.map_some]
      · show StackModel.pushN s.abs (pushed c x) = _
        simp only [noWrap, hp, List.length_singleton] at hw
        rw [hp, push_one_list _ _ hw]
        unfold StackModel.push1 RStack.abs
        simp only
        rw [h2]
    · have hb := batchShape_of_conf hne hc hx
      have hp : pushed c x = recs k x := by unfold pushed; rw [hb]
      simp only [noWrap, hp, recs_length] at hw
      obtain ⟨h1, h2⟩ := set_many h k hx (ord [k]) (ho [k]) s.size hw
      refine ⟨{ s with
        size := Jax.u32 (s.size + k)
        store := atSet (ord [k]) (.adv [k] [(List.range k).map fun (j : Nat) => Jax.i32 ((s.size : Int) + (j : Int))]) [] s.store x },
        .unit, ?_, rfl, h1, ?_, trivial⟩
      · simp only [RStack.step, RStack.push, hb, Option.map_some]
      · show StackModel.pushN s.abs (pushed c x) = _
        rw [hp]
        unfold StackModel.pushN RStack.abs
        simp only
        rw [recs_length, h2]
  | pop k =>
    obtain ⟨l, h1, h2⟩ := top_abs hn h k
    refine ⟨_, _, rfl, rfl, h, rfl, ?_⟩
    show SOp.Agrees c (.pop k) (.inst (s.top k)) (.items (StackModel.topItems s.abs k))
    rw [h1]
    exact h2
  | peek k =>
    obtain ⟨l, h1, h2⟩ := top_abs hn h k
    refine ⟨_, _, rfl, rfl, h, rfl, ?_⟩
    show SOp.Agrees c (.peek k) (.inst (s.top k)) (.items (StackModel.topItems s.abs k))
    rw [h1]
    exact h2
  | get i =>
    obtain ⟨z, h1, h2, h3⟩ := get_one hn h (i : Int)
    refine ⟨_, _, rfl, rfl, h, rfl, ?_⟩
    show SOp.Agrees c (.get i) (.inst (SoA.getitem s.store (.basic [.int i]))) (.item (Jax.gather (recs s.maxSize s.store) i))
    rw [h3]
    exact ⟨h1, h2⟩
  | size => exact ⟨_, _, rfl, rfl, h, rfl, rfl⟩

/-- The pushes of a history keep the indices within `int32`, for the list of records `l` before it. -/
theorem ok_noWrap {c : Cls α} {s : RStack α} {l : List (Tree α)} {cap : Nat} (hcap : cap < 2 ^ 31) (hs : StackModel.Sim s.abs l) {op : SOp α}
    (h : StackSpec.ok cap l (op.records c)) : noWrap c s op := by
  cases op with
  | push x =>
    have h1 : s.size = l.length := hs.size
    have h2 : l.length + (pushed c x).length ≤ cap := h
    show s.size + _ ≤ _
    omega
  | pop | peek | get | size => trivial

theorem okOverflow_noWrap {c : Cls α} {s : RStack α} {l : List (Tree α)} (hs : StackModel.Sim s.abs l) {op : SOp α}
    (h : StackModel.StackSpec.okOverflow l (op.records c)) : noWrap c s op := by
  cases op with
  | push x =>
    have h1 : s.size = l.length := hs.size
    have h2 : l.length + (pushed c x).length < 2 ^ 31 := h
    show s.size + _ ≤ _
    omega
  | pop | peek | get | size => trivial

theorem run_abs {s : RStack α} {c : Cls α} {ord : Order} {cap : Nat} (hne : c ≠ .nil) (hc : c.HasFields) (ho : ord.Valid) (hn : 0 < cap)
    (hcap : cap < 2 ^ 31) (hm : s.maxSize = cap)
    (h : Conf [s.maxSize] c s.store) {l : List (Tree α)} (hs : StackModel.Sim s.abs l) (hl : l.length ≤ cap) (ops : List (SOp α))
    (hops : ∀ op ∈ ops, op.Ok c) (hok : StackSpec.Ok cap l (ops.map (·.records c))) :
    ∃ s' outs, s.run c ord ops = some (s', outs) ∧
      SOp.AgreeAll c ops outs (StackSpec.run l (ops.map (·.records c))).2 := by
  induction ops generalizing s l with
  | nil => exact ⟨s, [], rfl, trivial⟩
  | cons op ops ih =>
    obtain ⟨s1, o, h1, h2, h3, h4, h5⟩ := step_abs hne hc ho (by omega) h op (hops op (by simp)) (ok_noWrap hcap hs hok.1)
    have hlen : s.abs.store.length = cap := by show (recs s.maxSize s.store).length = cap; rw [recs_length, hm]
    obtain ⟨g1, g2, g3⟩ := StackModel.sim_step hlen hs hl (op.records c) hok.1
    rw [h4] at g1
    obtain ⟨s', outs, k1, k2⟩ := ih (by rw [h2, hm]) h3 g1 g3 (fun op h => hops op (by simp [h])) hok.2
    refine ⟨s', o :: outs, ?_, ?_⟩
    · simp only [RStack.run, h1, Option.bind_some, k1, Option.map_some]
    · simp only [List.map_cons, StackSpec.run]
      refine ⟨?_, k2⟩
      rw [← g2]
      exact h5

/-- **C88, stack.**  For every value class (fields of any shapes, nested classes), every capacity and every history of calls on a freshly
built stack of that class that stays within the capacity: no call raises, and every result agrees with an ordinary list of whole records:
`pop` and `peek` return the records on top, all fields of a record together. -/
theorem record_stack_lifo {c : Cls α} {ord : Order} (hne : c ≠ .nil) (hc : c.HasFields) (ho : ord.Valid) {cap : Nat} (hn : 0 < cap)
    (hcap : cap < 2 ^ 31) {s : RStack α} (hs : RStack.build c cap = some s) (ops : List (SOp α)) (hops : ∀ op ∈ ops, op.Ok c)
    (hok : StackSpec.Ok cap [] (ops.map (·.records c))) :
    ∃ s' outs, s.run c ord ops = some (s', outs) ∧ SOp.AgreeAll c ops outs (StackSpec.run [] (ops.map (·.records c))).2 := by
  unfold RStack.build at hs
  cases hd : defaultInst c [cap] with
  | none => rw [hd] at hs; cases hs
  | some x =>
    rw [hd] at hs
    cases hs
    have hx := default_conf_of_eq hd
    exact run_abs hne hc ho hn hcap rfl hx ⟨rfl, by simp, by simpa [RStack.abs, recs_length] using hcap, by simp⟩ (by simp) ops hops hok

theorem run_abs_overflow {s : RStack α} {c : Cls α} {ord : Order} {cap : Nat} (hne : c ≠ .nil) (hc : c.HasFields) (ho : ord.Valid) (hn : 0 < cap)
    (hm : s.maxSize = cap) (h : Conf [s.maxSize] c s.store) {l : List (Tree α)} (hs : StackModel.Sim s.abs l) (ops : List (SOp α))
    (hops : ∀ op ∈ ops, op.Ok c) (hok : StackModel.StackSpec.OkOverflow l (ops.map (·.records c))) :
    ∃ s' outs, s.run c ord ops = some (s', outs) ∧ s'.maxSize = cap ∧ Conf [s'.maxSize] c s'.store ∧
      StackModel.Sim s'.abs (StackSpec.run l (ops.map (·.records c))).1 := by
  induction ops generalizing s l with
  | nil => exact ⟨s, [], rfl, hm, h, hs⟩
  | cons op ops ih =>
    obtain ⟨s1, o, h1, h2, h3, h4, h5⟩ := step_abs hne hc ho (by omega) h op (hops op (by simp)) (okOverflow_noWrap hs hok.1)
    have g1 := StackModel.sim_step_overflow hs (op.records c) hok.1
    rw [h4] at g1
    obtain ⟨s', outs, k1, k2, k3, k4⟩ := ih (by rw [h2, hm]) h3 g1 (fun op h => hops op (by simp [h])) hok.2
    exact ⟨s', o :: outs, by simp only [RStack.run, h1, Option.bind_some, k1, Option.map_some], k2, k3, k4⟩

/-- **C88, stack that overflowed.**  Whatever a history without underflow pushed, even beyond the capacity: `size` counts the live records,
`stack[i]` is the `i`-th live record for every position below the capacity, and once the live records fit again every further history
within the capacity agrees with the list of records. -/
theorem record_stack_overflow_safe {c : Cls α} {ord : Order} (hne : c ≠ .nil) (hc : c.HasFields) (ho : ord.Valid) {cap : Nat} (hn : 0 < cap)
    (hcap : cap < 2 ^ 31) {s : RStack α} (hs : RStack.build c cap = some s) (ops : List (SOp α)) (hops : ∀ op ∈ ops, op.Ok c)
    (hok : StackModel.StackSpec.OkOverflow [] (ops.map (·.records c))) :
    ∃ s' outs, s.run c ord ops = some (s', outs) ∧ s'.size = (StackSpec.run [] (ops.map (·.records c))).1.length ∧
      (∀ i z, i < cap → (StackSpec.run [] (ops.map (·.records c))).1[i]? = some z → SoA.getitem s'.store (.basic [.int i]) = some z) ∧
      ((StackSpec.run [] (ops.map (·.records c))).1.length ≤ cap → ∀ ops', (∀ op ∈ ops', op.Ok c) →
        StackSpec.Ok cap (StackSpec.run [] (ops.map (·.records c))).1 (ops'.map (·.records c)) →
        ∃ s'' outs', s'.run c ord ops' = some (s'', outs') ∧
          SOp.AgreeAll c ops' outs' (StackSpec.run (StackSpec.run [] (ops.map (·.records c))).1 (ops'.map (·.records c))).2) := by
  unfold RStack.build at hs
  cases hd : defaultInst c [cap] with
  | none => rw [hd] at hs; cases hs
  | some x =>
    rw [hd] at hs
    cases hs
    have hx := default_conf_of_eq hd
    obtain ⟨s', outs, h1, h2, h3, h4⟩ := run_abs_overflow hne hc ho hn (s := ⟨cap, 0, x⟩) rfl hx
      (l := []) ⟨rfl, by simp, by simpa [RStack.abs, recs_length] using hcap, by simp⟩ ops hops hok
    refine ⟨s', outs, h1, h4.size, fun i z hi hz => ?_, fun hl ops' hops' hok' => run_abs hne hc ho hn hcap h2 h3 h4 hl ops' hops' hok'⟩
    obtain ⟨w, k1, k2, k3⟩ := get_one (by omega) h3 (i : Int)
    rw [Jax.gather_nat_of_lt _ _ (by rw [recs_length]; omega)] at k3
    have := h4.store i (by show i < (recs _ _).length; rw [recs_length]; omega) (by
      rcases Nat.lt_or_ge i (StackSpec.run [] (ops.map (·.records c))).1.length with h | h
      · exact h
      · rw [List.getElem?_eq_none h] at hz; cases hz)
    rw [hz] at this
    have hw : some w = some z := k3.symm.trans this
    rw [k1, hw]

/-! ## Queue -/

/-- The queue of records a queue of instances stands for. -/
def RQueue.abs (q : RQueue α) : QueueModel.Queue (Tree α) := ⟨recs q.maxSize q.store, q.head, q.tail⟩

theorem front_abs {q : RQueue α} {c : Cls α} (hn : 0 < q.maxSize) (h : Conf [q.maxSize] c q.store) (k : Nat) :
    ∃ l, QueueModel.frontItems q.abs k = some l ∧ Holds c k (q.front k) l := by
  by_cases hk : k = 1
  · subst hk
    obtain ⟨z, h1, h2, h3⟩ := get_one hn h (q.head : Nat)
    refine ⟨[z], ?_, z, ?_, ?_⟩
    · unfold QueueModel.frontItems
      rw [if_pos rfl]
      show (Jax.gatherU (recs q.maxSize q.store) q.head).map _ = _
      rw [gatherU_recs, h3]; rfl
    · unfold RQueue.front; rw [if_pos rfl]; exact h1
    · rw [if_pos rfl]; exact ⟨h2, rfl⟩
  · obtain ⟨z, h1, h2, h3⟩ := get_many hn h k ((List.range k).map fun (j : Nat) => Jax.i32 ((q.head : Int) + (j : Int))) (by simp)
    refine ⟨recs k z, ?_, z, ?_, ?_⟩
    · unfold QueueModel.frontItems
      rw [if_neg hk]
      exact h3
    · unfold RQueue.front; rw [if_neg hk]; exact h1
    · rw [if_neg hk]; exact ⟨h2, rfl⟩

def noWrapQ (c : Cls α) (q : RQueue α) : QOp α → Prop
  | .enqueue x => q.tail + (pushed c x).length ≤ 2 ^ 31
  | _ => True

theorem enqueue_one_list (q : QueueModel.Queue (Tree α)) (x : Tree α) (h : q.tail + 1 ≤ 2 ^ 31) :
    QueueModel.enqueueN q [x] = QueueModel.enqueue1 q x := by
  have hst : Jax.scatter q.store ((List.range [x].length).map fun (k : Nat) => Jax.i32 ((q.tail : Int) + (k : Int))) [x] =
      Jax.scatterU1 q.store q.tail x := by
    show Jax.scatter1 q.store (Jax.i32 ((q.tail : Int) + ((0 : Nat) : Int))) x = _
    rw [Jax.i32_of_range (by omega) (by omega)]
    have : ((q.tail : Int) + ((0 : Nat) : Int)) = (q.tail : Int) := by omega
    rw [this, Jax.scatter1_nat]
    rfl
  have h1 : (([x].length : Nat) : Int) = 1 := rfl
  unfold QueueModel.enqueueN QueueModel.enqueue1
  rw [hst, h1]

theorem queue_step_abs {q : RQueue α} {c : Cls α} {ord : Order} (hne : c ≠ .nil) (hc : c.HasFields) (ho : ord.Valid) (hn : 0 < q.maxSize)
    (h : Conf [q.maxSize] c q.store) (op : QOp α) (hop : op.Ok c) (hw : noWrapQ c q op) :
    ∃ q' o, q.step c ord op = some (q', o) ∧ q'.maxSize = q.maxSize ∧ Conf [q'.maxSize] c q'.store ∧
      (QueueModel.step q.abs (op.records c)).1 = q'.abs ∧ op.Agrees c o (QueueModel.step q.abs (op.records c)).2 := by
  cases op with
  | enqueue x =>
    rcases hop with hx | ⟨k, hx⟩
    · have hb := batchShape_of_conf hne hc hx
      have hp : pushed c x = [x] := by unfold pushed; rw [hb]
      obtain ⟨h1, h2⟩ := set_one h hx (ord []) (ho []) q.tail
      refine ⟨{ q with store := atSet (ord []) (.basic [.int q.tail]) [] q.store x, tail := Jax.u32 ((q.tail : Int) + 1) }, .unit, ?_, rfl, h1, ?_, trivial⟩
      · simp only [RQueue.step, RQueue.enqueue, hb, Option.map_some]
      · show QueueModel.enqueueN q.abs (pushed c x) = _
        simp only [noWrapQ, hp, List.length_singleton] at hw
        rw [hp, enqueue_one_list _ _ hw]
        unfold QueueModel.enqueue1 RQueue.abs
        simp only
        rw [h2]
    · have hb := batchShape_of_conf hne hc hx
      have hp : pushed c x = recs k x := by unfold pushed; rw [hb]
      simp only [noWrapQ, hp, recs_length] at hw
      obtain ⟨h1, h2⟩ := set_many h k hx (ord [k]) (ho [k]) q.tail hw
      refine ⟨{ q with
        store := atSet (ord [k]) (.adv [k] [(List.range k).map fun (j : Nat) => Jax.i32 ((q.tail : Int) + (j : Int))]) [] q.store x
        tail := Jax.u32 ((q.tail : Int) + (k : Int)) },
        .unit, ?_, rfl, h1, ?_, trivial⟩
      · simp only [RQueue.step, RQueue.enqueue, hb, Option.map_some]
      · show QueueModel.enqueueN q.abs (pushed c x) = _
        rw [hp]
        unfold QueueModel.enqueueN RQueue.abs
        simp only
        rw [recs_length, h2]
  | dequeue k =>
    obtain ⟨l, h1, h2⟩ := front_abs hn h k
    refine ⟨_, _, rfl, rfl, h, rfl, ?_⟩
    show QOp.Agrees c (.dequeue k) (.inst (q.front k)) (.items (QueueModel.frontItems q.abs k))
    rw [h1]
    exact h2
  | peek k =>
    obtain ⟨l, h1, h2⟩ := front_abs hn h k
    refine ⟨_, _, rfl, rfl, h, rfl, ?_⟩
    show QOp.Agrees c (.peek k) (.inst (q.front k)) (.items (QueueModel.frontItems q.abs k))
    rw [h1]
    exact h2
  | clear => exact ⟨_, _, rfl, rfl, h, rfl, trivial⟩
  | get sg i =>
    refine ⟨_, _, rfl, rfl, h, rfl, ?_⟩
    show QOp.Agrees c (.get sg i) (.inst (q.get sg i)) (.item (QueueModel.getitem q.abs sg i))
    cases sg with
    | true =>
      obtain ⟨z, h1, h2, h3⟩ := get_one hn h (Jax.i32 ((q.head : Int) + i))
      have h4 : QueueModel.getitem q.abs true i = some z := by
        unfold QueueModel.getitem
        rw [if_pos rfl]
        exact h3
      have h5 : q.get true i = some z := by
        unfold RQueue.get
        rw [if_pos rfl]
        exact h1
      rw [h4, h5]
      exact ⟨rfl, h2⟩
    | false =>
      obtain ⟨z, h1, h2, h3⟩ := get_one hn h ((Jax.u32 ((q.head : Int) + i) : Nat) : Int)
      have h4 : QueueModel.getitem q.abs false i = some z := by
        unfold QueueModel.getitem
        rw [if_neg (by simp)]
        have := gatherU_recs (n := q.maxSize) q.store (Jax.u32 ((q.head : Int) + i))
        exact this.trans h3
      have h5 : q.get false i = some z := by
        unfold RQueue.get
        rw [if_neg (by simp)]
        exact h1
      rw [h4, h5]
      exact ⟨rfl, h2⟩
  | size => exact ⟨_, _, rfl, rfl, h, rfl, rfl⟩

theorem queue_run_abs {q : RQueue α} {c : Cls α} {ord : Order} {cap : Nat} (hne : c ≠ .nil) (hc : c.HasFields) (ho : ord.Valid) (hn : 0 < cap)
    (hm : q.maxSize = cap) (h : Conf [q.maxSize] c q.store) {a : QueueSpec.Q (Tree α)} (hs : QueueModel.Sim q.abs a) (ops : List (QOp α))
    (hops : ∀ op ∈ ops, op.Ok c) (hok : QueueSpec.Ok cap a (ops.map (·.records c))) :
    ∃ q' outs, q.run c ord ops = some (q', outs) ∧ q'.maxSize = cap ∧ Conf [q'.maxSize] c q'.store ∧
      QOp.AgreeAll c ops outs (QueueSpec.run a (ops.map (·.records c))).2 := by
  induction ops generalizing q a with
  | nil => exact ⟨q, [], rfl, hm, h, trivial⟩
  | cons op ops ih =>
    have hlen : q.abs.store.length = cap := by show (recs q.maxSize q.store).length = cap; rw [recs_length, hm]
    have hw : noWrapQ c q op := by
      cases op with
      | enqueue x =>
        have h1 : q.tail = a.used := hs.tail
        have h2 : a.used + (pushed c x).length ≤ cap := hok.1
        have h3 := hs.capb
        show q.tail + _ ≤ _
        omega
      | dequeue | peek | clear | get | size => trivial
    obtain ⟨q1, o, h1, h2, h3, h4, h5⟩ := queue_step_abs hne hc ho (by omega) h op (hops op (by simp)) hw
    obtain ⟨g1, g2⟩ := QueueModel.sim_step hlen hs (op.records c) hok.1
    rw [h4] at g1
    obtain ⟨q', outs, k1, k2, k3, k4⟩ := ih (by rw [h2, hm]) h3 g1 (fun op h => hops op (by simp [h])) hok.2
    refine ⟨q', o :: outs, ?_, k2, k3, ?_⟩
    · simp only [RQueue.run, h1, Option.bind_some, k1, Option.map_some]
    · simp only [List.map_cons, QueueSpec.run]
      refine ⟨?_, k4⟩
      rw [← g2]
      exact h5

/-- **C88, queue.**  For every value class and capacity and every history on a freshly built queue with at most `cap` records enqueued since
the last `clear`: no call raises, and every result agrees with an ordinary first-in-first-out list of whole records. -/
theorem record_queue_fifo {c : Cls α} {ord : Order} (hne : c ≠ .nil) (hc : c.HasFields) (ho : ord.Valid) {cap : Nat} (hn : 0 < cap)
    (hcap : cap < 2 ^ 31) {q : RQueue α} (hq : RQueue.build c cap = some q) (ops : List (QOp α)) (hops : ∀ op ∈ ops, op.Ok c)
    (hok : QueueSpec.Ok cap QueueSpec.empty (ops.map (·.records c))) :
    ∃ q' outs, q.run c ord ops = some (q', outs) ∧
      QOp.AgreeAll c ops outs (QueueSpec.run QueueSpec.empty (ops.map (·.records c))).2 := by
  unfold RQueue.build at hq
  cases hd : defaultInst c [cap] with
  | none => rw [hd] at hq; cases hq
  | some x =>
    rw [hd] at hq
    cases hq
    have hx := default_conf_of_eq hd
    obtain ⟨q', outs, h1, _, _, h2⟩ := queue_run_abs hne hc ho hn (q := ⟨cap, x, 0, 0⟩) rfl hx (a := QueueSpec.empty)
      ⟨rfl, rfl, Nat.zero_le _, by simpa [RQueue.abs, recs_length] using hcap, by simp [QueueSpec.empty]⟩ ops hops hok
    exact ⟨q', outs, h1, h2⟩

theorem atSet_conf {n : Nat} {c : Cls α} {x v : Tree α} {k : Nat} {idx : List Int} (h : Conf [n] c x) (hv : Conf [k] c v)
    (ord : List String → List (List Nat)) (ho : ∀ p, (ord p).Perm (indices [k])) : Conf [n] c (atSet ord (.adv [k] [idx]) [] x v) :=
  (at_set_records (I := .adv [k] [idx]) (R := ⟨[k], 1, fun j => [wrapIdx n (idx.getD (ravel [k] j) 0)]⟩) h hv
    (by simp [resolve]) (Bcast.refl _) ho).1

theorem queue_run_total {q : RQueue α} {c : Cls α} {ord : Order} (hne : c ≠ .nil) (hc : c.HasFields) (ho : ord.Valid)
    (h : Conf [q.maxSize] c q.store) (ops : List (QOp α)) (hops : ∀ op ∈ ops, op.Ok c) :
    ∃ q' outs, q.run c ord ops = some (q', outs) ∧ q'.maxSize = q.maxSize ∧ Conf [q'.maxSize] c q'.store := by
  induction ops generalizing q with
  | nil => exact ⟨q, [], rfl, rfl, h⟩
  | cons op ops ih =>
    have key : ∃ q1 o, q.step c ord op = some (q1, o) ∧ q1.maxSize = q.maxSize ∧ Conf [q1.maxSize] c q1.store := by
      cases op with
      | enqueue x =>
        rcases hops (.enqueue x) (by simp) with hx | ⟨k, hx⟩
        · have hb := batchShape_of_conf hne hc hx
          refine ⟨{ q with store := atSet (ord []) (.basic [.int q.tail]) [] q.store x, tail := Jax.u32 ((q.tail : Int) + 1) }, .unit, ?_, rfl,
            (set_one h hx (ord []) (ho []) q.tail).1⟩
          simp only [RQueue.step, RQueue.enqueue, hb, Option.map_some]
        · have hb := batchShape_of_conf hne hc hx
          refine ⟨{ q with
            store := atSet (ord [k]) (.adv [k] [(List.range k).map fun (j : Nat) => Jax.i32 ((q.tail : Int) + (j : Int))]) [] q.store x
            tail := Jax.u32 ((q.tail : Int) + (k : Int)) }, .unit, ?_, rfl, atSet_conf h hx (ord [k]) (ho [k])⟩
          simp only [RQueue.step, RQueue.enqueue, hb, Option.map_some]
      | dequeue | peek | clear | get | size => exact ⟨_, _, rfl, rfl, h⟩
    obtain ⟨q1, o, h1, h2, h3⟩ := key
    obtain ⟨q', outs, k1, k2, k3⟩ := ih h3 (fun op h => hops op (by simp [h]))
    exact ⟨q', o :: outs, by simp only [RQueue.run, h1, Option.bind_some, k1, Option.map_some], by rw [k2, h2], k3⟩

/-- **C88, queue after `clear`.**  After any history at all (overflows, reads of missing records) followed by `clear()`, every history within
the capacity agrees with an empty list of records. -/
theorem record_queue_clear {c : Cls α} {ord : Order} (hne : c ≠ .nil) (hc : c.HasFields) (ho : ord.Valid) {cap : Nat} (hn : 0 < cap)
    (hcap : cap < 2 ^ 31) {q : RQueue α} (hq : RQueue.build c cap = some q) (before ops : List (QOp α)) (hbefore : ∀ op ∈ before, op.Ok c)
    (hops : ∀ op ∈ ops, op.Ok c) (hok : QueueSpec.Ok cap QueueSpec.empty (ops.map (·.records c))) :
    ∃ q₁ o₁ q' outs, q.run c ord before = some (q₁, o₁) ∧ q₁.clear.run c ord ops = some (q', outs) ∧
      QOp.AgreeAll c ops outs (QueueSpec.run QueueSpec.empty (ops.map (·.records c))).2 := by
  unfold RQueue.build at hq
  cases hd : defaultInst c [cap] with
  | none => rw [hd] at hq; cases hq
  | some x =>
    rw [hd] at hq
    cases hq
    have hx := default_conf_of_eq hd
    obtain ⟨q₁, o₁, h1, h2, h3⟩ := queue_run_total (q := ⟨cap, x, 0, 0⟩) (ord := ord) hne hc ho hx before hbefore
    have h2' : q₁.maxSize = cap := h2
    obtain ⟨q', outs, k1, _, _, k2⟩ := queue_run_abs (q := q₁.clear) hne hc ho hn h2' h3 (a := QueueSpec.empty)
      ⟨rfl, rfl, Nat.zero_le _, by simpa [RQueue.abs, RQueue.clear, recs_length, h2'] using hcap, by simp [QueueSpec.empty]⟩ ops hops hok
    exact ⟨q₁, o₁, q', outs, h1, k1, k2⟩

/-- Pushing or enqueueing a batch with two or more axes raises. -/
theorem record_push_axes {c : Cls α} {ord : Order} (hne : c ≠ .nil) (hc : c.HasFields) {a b : Nat} {t : List Nat} {x : Tree α}
    (hx : Conf (a :: b :: t) c x) (s : RStack α) (q : RQueue α) : s.push c ord x = none ∧ q.enqueue c ord x = none := by
  have hb := batchShape_of_conf hne hc hx
  unfold RStack.push RQueue.enqueue
  rw [hb]
  exact ⟨rfl, rfl⟩

/-! ## The hypotheses are met -/

/-- A single record of `demoSetC` (fields `a` : scalar, `v` : pair). -/
def demoOne : Tree Nat := .leaf "a" ⟨[], [7]⟩ (.leaf "v" ⟨[2], [8, 9]⟩ .nil)

def demoOrd : Order := fun s _ => indices s

example : demoOrd.Valid ∧ (∀ op ∈ ([.push demoSetX, .push demoOne, .pop 2, .peek 1, .get 0, .size] : List (SOp Nat)), op.Ok demoSetC) ∧
    StackSpec.Ok 3 [] (([.push demoSetX, .push demoOne, .pop 2, .peek 1, .get 0, .size] : List (SOp Nat)).map (·.records demoSetC)) := by
  have h1 : pushed demoSetC demoSetX = [.leaf "a" ⟨[], [1]⟩ (.leaf "v" ⟨[2], [3, 4]⟩ .nil), .leaf "a" ⟨[], [2]⟩ (.leaf "v" ⟨[2], [5, 6]⟩ .nil)] := by
    decide +kernel
  have h2 : pushed demoSetC demoOne = [demoOne] := by decide +kernel
  refine ⟨fun s p => List.Perm.refl _, ?_, ?_⟩
  · intro op hop
    simp only [List.mem_cons, List.not_mem_nil, or_false] at hop
    rcases hop with h | h | h | h | h | h <;> subst h
    · exact Or.inr ⟨2, rfl, ⟨rfl, rfl⟩, rfl, ⟨rfl, rfl⟩, trivial⟩
    · exact Or.inl ⟨rfl, ⟨rfl, rfl⟩, rfl, ⟨rfl, rfl⟩, trivial⟩
    all_goals trivial
  · simp [SOp.records, h1, h2, StackSpec.Ok, StackSpec.ok, StackSpec.step]

/-- The stack of the example: the batch of two, then the single record, are popped together as one batch. -/
example : ((RStack.build demoSetC 3).bind fun s => (s.run demoSetC demoOrd [.push demoSetX, .push demoOne, .pop 2, .peek 1, .get 0, .size]).map fun r =>
      r.2.map fun | .inst z => z | _ => none) =
    some [none, none, some (.leaf "a" ⟨[2], [2, 7]⟩ (.leaf "v" ⟨[2, 2], [5, 6, 8, 9]⟩ .nil)), some (.leaf "a" ⟨[], [1]⟩ (.leaf "v" ⟨[2], [3, 4]⟩ .nil)),
      some (.leaf "a" ⟨[], [1]⟩ (.leaf "v" ⟨[2], [3, 4]⟩ .nil)), none] := by
  decide +kernel

example : (∀ op ∈ ([.enqueue demoSetX, .enqueue demoOne, .dequeue 2, .peek 1, .get true 0, .size] : List (QOp Nat)), op.Ok demoSetC) ∧
    QueueSpec.Ok 3 QueueSpec.empty (([.enqueue demoSetX, .enqueue demoOne, .dequeue 2, .peek 1, .get true 0, .size] : List (QOp Nat)).map (·.records demoSetC)) ∧
    ((RQueue.build demoSetC 3).bind fun q => (q.run demoSetC demoOrd [.enqueue demoSetX, .enqueue demoOne, .dequeue 2, .peek 1]).map fun r =>
      r.2.map fun | .inst z => z | _ => none) = some [none, none, some demoSetX, some demoOne] := by
  have h1 : pushed demoSetC demoSetX = [.leaf "a" ⟨[], [1]⟩ (.leaf "v" ⟨[2], [3, 4]⟩ .nil), .leaf "a" ⟨[], [2]⟩ (.leaf "v" ⟨[2], [5, 6]⟩ .nil)] := by
    decide +kernel
  have h2 : pushed demoSetC demoOne = [demoOne] := by decide +kernel
  refine ⟨?_, ?_, by decide +kernel⟩
  · intro op hop
    simp only [List.mem_cons, List.not_mem_nil, or_false] at hop
    rcases hop with h | h | h | h | h | h <;> subst h
    · exact Or.inr ⟨2, rfl, ⟨rfl, rfl⟩, rfl, ⟨rfl, rfl⟩, trivial⟩
    · exact Or.inl ⟨rfl, ⟨rfl, rfl⟩, rfl, ⟨rfl, rfl⟩, trivial⟩
    all_goals trivial
  · simp [QOp.records, h1, h2, QueueSpec.Ok, QueueSpec.ok, QueueSpec.step, QueueSpec.empty]

end Records
