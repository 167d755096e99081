import Verif.StoreTypes
import Verif.DedupeInt
import Verif.Records

/-!
# C110: `Stack` and `Queue` given items of other dtypes

As in `RecordModel`, with dtypes: the store has the dtypes of the class, the items pushed may have others.
-/

namespace StoreTypes

open SoA NArr Agg WhereTypes Records

/-! ## Model -/

variable {F : Type} [Floats F]

/-- `x[index]` (indexing.py:8-25): every field keeps its dtype. -/
def getitemD (x : Inst (DArr F)) (I : Index) : Option (Inst (DArr F)) := treeMapM (fun a => (a.arr.index I).map fun z => ⟨a.dtype, z⟩) x

/-- Observable result of a call. -/
inductive TOut (F : Type) where
  | unit
  | inst (r : Option (Inst (DArr F)))
  | nat (n : Nat)

/-- `Stack` (stack.py:64-78) with dtypes. -/
structure TStack (F : Type) where
  maxSize : Nat
  size : Nat
  store : Inst (DArr F)

/-- `_stack_push_jit` (stack.py:18-35). -/
def TStack.push (c : Cls (Ent F)) (ord : Order) (s : TStack F) (items : Inst (DArr F)) : Option (TStack F) :=
  match batchShape c (arrs items) with
  | some (.tup []) => some { s with size := Jax.u32 (s.size + 1), store := atSetD (ord []) (.basic [.int s.size]) [] s.store items }
  | some (.tup [k]) =>
    some { s with
      size := Jax.u32 (s.size + k)
      store := atSetD (ord [k]) (.adv [k] [(List.range k).map fun (j : Nat) => Jax.i32 ((s.size : Int) + (j : Int))]) [] s.store items }
  | _ => none

/-- The reads of `_stack_pop_jit` and `_stack_peek_jit` (stack.py:41-45, 51-55). -/
def TStack.top (s : TStack F) (k : Nat) : Option (Inst (DArr F)) :=
  if k = 1 then getitemD s.store (.basic [.int (Jax.u32 (s.size - 1))])
  else getitemD s.store (.adv [k] [(List.range k).map fun (j : Nat) => Jax.i32 ((s.size : Int) - ((k - j : Nat) : Int))])

inductive TSOp (F : Type) where
  | push (items : Inst (DArr F))
  | pop (k : Nat)
  | peek (k : Nat)
  | get (i : Nat)
  | size

/-- One API call (stack.py:18-61, 95-138); `none`: `push` raises. -/
def TStack.step (c : Cls (Ent F)) (ord : Order) (s : TStack F) : TSOp F → Option (TStack F × TOut F)
  | .push x => (s.push c ord x).map fun s' => (s', .unit)
  | .pop k => some ({ s with size := Jax.u32 (s.size - k) }, .inst (s.top k))
  | .peek k => some (s, .inst (s.top k))
  | .get i => some (s, .inst (getitemD s.store (.basic [.int i])))
  | .size => some (s, .nat s.size)

/-- A history of calls; it ends at the first exception of a `push`. -/
def TStack.run (c : Cls (Ent F)) (ord : Order) (s : TStack F) : List (TSOp F) → Option (TStack F × List (TOut F))
  | [] => some (s, [])
  | op :: ops => (s.step c ord op).bind fun p => (p.1.run c ord ops).map fun q => (q.1, p.2 :: q.2)

/-- `Queue` (queue.py:67-83) with dtypes. -/
structure TQueue (F : Type) where
  maxSize : Nat
  store : Inst (DArr F)
  head : Nat
  tail : Nat

/-- `_queue_enqueue_jit` (queue.py:19-31). -/
def TQueue.enqueue (c : Cls (Ent F)) (ord : Order) (q : TQueue F) (items : Inst (DArr F)) : Option (TQueue F) :=
  match batchShape c (arrs items) with
  | some (.tup []) => some { q with store := atSetD (ord []) (.basic [.int q.tail]) [] q.store items, tail := Jax.u32 ((q.tail : Int) + 1) }
  | some (.tup [k]) =>
    some { q with
      store := atSetD (ord [k]) (.adv [k] [(List.range k).map fun (j : Nat) => Jax.i32 ((q.tail : Int) + (j : Int))]) [] q.store items
      tail := Jax.u32 ((q.tail : Int) + (k : Int)) }
  | _ => none

/-- The reads of `_queue_dequeue_jit` and `_queue_peek_jit` (queue.py:36-41, 48-52). -/
def TQueue.front (q : TQueue F) (k : Nat) : Option (Inst (DArr F)) :=
  if k = 1 then getitemD q.store (.basic [.int q.head])
  else getitemD q.store (.adv [k] [(List.range k).map fun (j : Nat) => Jax.i32 ((q.head : Int) + (j : Int))])

inductive TQOp (F : Type) where
  | enqueue (items : Inst (DArr F))
  | dequeue (k : Nat)
  | peek (k : Nat)
  | clear
  | get (signed : Bool) (i : Nat)
  | size

/-- One API call (queue.py:19-64, 85-124); `none`: `enqueue` raises. -/
def TQueue.step (c : Cls (Ent F)) (ord : Order) (q : TQueue F) : TQOp F → Option (TQueue F × TOut F)
  | .enqueue x => (q.enqueue c ord x).map fun q' => (q', .unit)
  | .dequeue k => some ({ q with head := Jax.u32 ((q.head : Int) + (k : Int)) }, .inst (q.front k))
  | .peek k => some (q, .inst (q.front k))
  | .clear => some ({ q with head := 0, tail := 0 }, .unit)
  | .get sg i => some (q, .inst (getitemD q.store (.basic [.int (if sg then Jax.i32 ((q.head : Int) + i) else Jax.u32 ((q.head : Int) + i))])))
  | .size => some (q, .nat (Jax.u32 ((q.tail : Int) - (q.head : Int))))

/-- A history of calls; it ends at the first exception of an `enqueue`. -/
def TQueue.run (c : Cls (Ent F)) (ord : Order) (q : TQueue F) : List (TQOp F) → Option (TQueue F × List (TOut F))
  | [] => some (q, [])
  | op :: ops => (q.step c ord op).bind fun p => (p.1.run c ord ops).map fun r => (r.1, p.2 :: r.2)

/-! ## Specification

The specifications are those of stacks and queues of records (`Records.record_stack_lifo`, `Records.record_queue_fifo`) for the items converted to the dtypes of the
class. -/

/-- The result without dtypes. -/
def TOut.erase : TOut F → Out (Ent F)
  | .unit => .unit
  | .inst r => .inst (r.map arrs)
  | .nat n => .nat n

/-- An instance that is returned has the dtypes `D`. -/
def TOut.Has (D : Inst Dt) : TOut F → Prop
  | .inst (some z) => dts z = D
  | _ => True

/-- The call with the item converted to the dtypes `D`. -/
def TSOp.conv (D : Inst Dt) : TSOp F → SOp (Ent F)
  | .push x => .push (arrs (castTo D x))
  | .pop k => .pop k
  | .peek k => .peek k
  | .get i => .get i
  | .size => .size

def TQOp.conv (D : Inst Dt) : TQOp F → QOp (Ent F)
  | .enqueue x => .enqueue (arrs (castTo D x))
  | .dequeue k => .dequeue k
  | .peek k => .peek k
  | .clear => .clear
  | .get sg i => .get sg i
  | .size => .size

/-- What is pushed is an item or a batch (one axis) of items of the class, and gives no floats to an integer field. -/
def ItemOk [FloatLaws F] (c : Cls (Ent F)) (D : Inst Dt) (x : Inst (DArr F)) : Prop :=
  (Conf [] c (arrs x) ∨ ∃ k, Conf [k] c (arrs x)) ∧ Good x ∧ NoLoss D x

def TSOp.Ok [FloatLaws F] (c : Cls (Ent F)) (D : Inst Dt) : TSOp F → Prop
  | .push x => ItemOk c D x
  | _ => True

def TQOp.Ok [FloatLaws F] (c : Cls (Ent F)) (D : Inst Dt) : TQOp F → Prop
  | .enqueue x => ItemOk c D x
  | _ => True

/-! ## Proofs -/

/-- Without dtypes. -/
def TStack.erase (s : TStack F) : RStack (Ent F) := ⟨s.maxSize, s.size, arrs s.store⟩
def TQueue.erase (q : TQueue F) : RQueue (Ent F) := ⟨q.maxSize, arrs q.store, q.head, q.tail⟩

theorem getitemD_spec (x : Inst (DArr F)) (I : Index) :
    (getitemD x I).map arrs = SoA.getitem (arrs x) I ∧ ∀ z, getitemD x I = some z → dts z = dts x := by
  have := treeMapM_typed (x := x) (f := fun a : DArr F => (a.arr.index I).map fun z => (⟨a.dtype, z⟩ : DArr F)) (g := fun a : DArr F => a.arr.index I)
    (t := DArr.dtype) fun v _ => rfl
  refine ⟨?_, this.2⟩
  unfold SoA.getitem arrs
  rw [treeMapM_treeMap]
  exact this.1

theorem has_getitemD (x : Inst (DArr F)) (I : Index) : (TOut.inst (getitemD x I)).Has (dts x) := by
  cases h : getitemD x I with
  | none => trivial
  | some z => exact (getitemD_spec x I).2 z h

theorem erase_getitemD (x : Inst (DArr F)) (I : Index) : (TOut.inst (getitemD x I)).erase = .inst (SoA.getitem (arrs x) I) := by
  show Out.inst ((getitemD x I).map arrs) = _
  rw [(getitemD_spec x I).1]

theorem castTo_conf {P : List Nat → NArr (Ent F) → Prop} (hP : ∀ r d (a : DArr F), P r a.arr → P r (a.astype d).arr) :
    ∀ (D : Inst Dt) (x : Inst (DArr F)) (e : List Nat) (c : Cls (Ent F)), ConfP P e c (arrs x) → ConfP P e c (arrs (castTo D x))
  | .nil, x, _, _, h => by cases x <;> exact h
  | .leaf _ _ _, .nil, _, _, h => h
  | .leaf _ _ _, .nested _ _ _, _, _, h => h
  | .leaf _ d r, .leaf m w r', e, c, h => by
    cases c with
    | nil => exact h
    | nested => exact h
    | leaf n ish df cr => exact ⟨h.1, hP _ d w h.2.1, castTo_conf hP r r' e cr h.2.2⟩
  | .nested _ _ _, .nil, _, _, h => h
  | .nested _ _ _, .leaf _ _ _, _, _, h => h
  | .nested _ D r, .nested m v r', e, c, h => by
    cases c with
    | nil => exact h
    | leaf => exact h
    | nested n ish cs cr => exact ⟨h.1, castTo_conf hP D v _ cs h.2.1, castTo_conf hP r r' e cr h.2.2⟩

theorem cast_conf {b : List Nat} {c : Cls (Ent F)} {x : Inst (DArr F)} (D : Inst Dt) (h : Conf b c (arrs x)) : Conf b c (arrs (castTo D x)) :=
  castTo_conf (fun _ _ _ h => ⟨mapA_wf h.1, h.2⟩) D x [] c h

theorem inOrder_one (ord : Order) (ho : ord.Valid) (x : Inst (DArr F)) (i : Int) : InOrder (ord []) (.basic [.int i]) x := by
  intro a _ R hR p k hk
  have h1 : k ∈ indices [] := (ho [] p).mem_iff.1 hk
  have h2 : R.out = [] := by
    cases hs : a.arr.shape with
    | nil => rw [hs] at hR; cases hR
    | cons d s => rw [hs] at hR; cases hR; rfl
  rw [h2]
  exact mem_indices.1 h1

theorem inOrder_many (ord : Order) (ho : ord.Valid) (x : Inst (DArr F)) (k : Nat) (l : List Int) : InOrder (ord [k]) (.adv [k] [l]) x := by
  intro a _ R hR p j hj
  have h1 : j ∈ indices [k] := (ho [k] p).mem_iff.1 hj
  have h2 : R.out = [k] := by
    unfold resolve at hR
    simp only at hR
    split at hR
    · cases hR; rfl
    · cases hR
  rw [h2]
  exact mem_indices.1 h1

section Stack

variable [FloatLaws F]

theorem stack_step {c : Cls (Ent F)} {ord : Order} (hne : c ≠ .nil) (hc : c.HasFields) (ho : ord.Valid) {s : TStack F} (hs : Good s.store) (op : TSOp F)
    (hop : op.Ok c (dts s.store)) :
    RStack.step c ord s.erase (op.conv (dts s.store)) = (s.step c ord op).map (fun p => (p.1.erase, p.2.erase)) ∧
      ∀ p, s.step c ord op = some p → dts p.1.store = dts s.store ∧ Good p.1.store ∧ p.2.Has (dts s.store) := by
  cases op with
  | push x =>
    obtain ⟨hx | ⟨k, hx⟩, hg, hn⟩ := hop
    · have h1 := batchShape_of_conf hne hc hx
      have h2 := batchShape_of_conf hne hc (cast_conf (dts s.store) hx)
      have h3 := at_set_converts (ord []) (.basic [.int s.size]) s.store x [] hs hg hn (inOrder_one ord ho _ _)
      simp only [TStack.step, TStack.push, RStack.step, RStack.push, TSOp.conv, h1, h2, Option.map_some, TOut.erase, TStack.erase, h3.1]
      exact ⟨trivial, fun p hp => by cases hp; exact ⟨at_set_keeps_dtypes .., h3.2, trivial⟩⟩
    · have h1 := batchShape_of_conf hne hc hx
      have h2 := batchShape_of_conf hne hc (cast_conf (dts s.store) hx)
      have h3 := at_set_converts (ord [k]) (.adv [k] [(List.range k).map fun (j : Nat) => Jax.i32 ((s.size : Int) + (j : Int))]) s.store x [] hs hg hn
        (inOrder_many ord ho _ _ _)
      simp only [TStack.step, TStack.push, RStack.step, RStack.push, TSOp.conv, h1, h2, Option.map_some, TOut.erase, TStack.erase, h3.1]
      exact ⟨trivial, fun p hp => by cases hp; exact ⟨at_set_keeps_dtypes .., h3.2, trivial⟩⟩
  | pop k =>
    constructor
    · simp only [TStack.step, RStack.step, TSOp.conv, Option.map_some, RStack.pop, RStack.top, TStack.top, TStack.erase]
      by_cases hk : k = 1
      · rw [if_pos hk, if_pos hk, erase_getitemD]
      · rw [if_neg hk, if_neg hk, erase_getitemD]
    · intro p hp
      cases hp
      refine ⟨rfl, hs, ?_⟩
      unfold TStack.top
      by_cases hk : k = 1
      · rw [if_pos hk]; exact has_getitemD _ _
      · rw [if_neg hk]; exact has_getitemD _ _
  | peek k =>
    constructor
    · simp only [TStack.step, RStack.step, TSOp.conv, Option.map_some, RStack.top, TStack.top, TStack.erase]
      by_cases hk : k = 1
      · rw [if_pos hk, if_pos hk, erase_getitemD]
      · rw [if_neg hk, if_neg hk, erase_getitemD]
    · intro p hp
      cases hp
      refine ⟨rfl, hs, ?_⟩
      unfold TStack.top
      by_cases hk : k = 1
      · rw [if_pos hk]; exact has_getitemD _ _
      · rw [if_neg hk]; exact has_getitemD _ _
  | get i =>
    constructor
    · simp only [TStack.step, RStack.step, TSOp.conv, Option.map_some, TStack.erase, erase_getitemD]
    · intro p hp
      cases hp
      exact ⟨rfl, hs, has_getitemD _ _⟩
  | size => exact ⟨rfl, fun p hp => by cases hp; exact ⟨rfl, hs, trivial⟩⟩

theorem stack_run {c : Cls (Ent F)} {ord : Order} (hne : c ≠ .nil) (hc : c.HasFields) (ho : ord.Valid) {D : Inst Dt} (ops : List (TSOp F)) :
    ∀ {s : TStack F}, Good s.store → dts s.store = D → (∀ op ∈ ops, op.Ok c D) →
    RStack.run c ord s.erase (ops.map (·.conv D)) = (s.run c ord ops).map (fun p => (p.1.erase, p.2.map TOut.erase)) ∧
      ∀ p, s.run c ord ops = some p → dts p.1.store = D ∧ ∀ o ∈ p.2, o.Has D := by
  induction ops with
  | nil => intro s _ hD _; exact ⟨rfl, fun p hp => by cases hp; exact ⟨hD, fun o ho => (by cases ho)⟩⟩
  | cons op ops ih =>
    intro s hs hD hops
    obtain ⟨h1, h2⟩ := stack_step hne hc ho hs op (by rw [hD]; exact hops op (by simp))
    rw [hD] at h1 h2
    simp only [List.map_cons, RStack.run, TStack.run, h1]
    cases hst : s.step c ord op with
    | none => exact ⟨rfl, fun p hp => by cases hp⟩
    | some p =>
      obtain ⟨h3, h4, h5⟩ := h2 p hst
      obtain ⟨h6, h7⟩ := ih h4 h3 fun op h => hops op (by simp [h])
      simp only [Option.map_some, Option.bind_some, h6]
      cases hr : p.1.run c ord ops with
      | none => exact ⟨rfl, fun q hq => by cases hq⟩
      | some q =>
        refine ⟨rfl, fun q' hq' => ?_⟩
        cases hq'
        refine ⟨(h7 q hr).1, fun o ho => ?_⟩
        rcases List.mem_cons.1 ho with rfl | ho
        · exact h5
        · exact (h7 q hr).2 o ho

/-- **A stack given items of other dtypes** (no floats for an integer field) is the stack of the items converted to the dtypes of the class: last in, first out, and
everything it returns has the dtypes of the class. -/
theorem typed_stack_lifo {c : Cls (Ent F)} {ord : Order} (hne : c ≠ .nil) (hc : c.HasFields) (ho : ord.Valid) {cap : Nat} (hn : 0 < cap) (hcap : cap < 2 ^ 31)
    {x : Inst (DArr F)} (hx : defaultInst c [cap] = some (arrs x)) (hg : Good x) (ops : List (TSOp F)) (hops : ∀ op ∈ ops, op.Ok c (dts x))
    (hok : StackSpec.Ok cap [] (ops.map fun op => (op.conv (dts x)).records c)) :
    ∃ s' outs, TStack.run c ord ⟨cap, 0, x⟩ ops = some (s', outs) ∧ dts s'.store = dts x ∧ (∀ o ∈ outs, o.Has (dts x)) ∧
      SOp.AgreeAll c (ops.map (·.conv (dts x))) (outs.map TOut.erase) (StackSpec.run [] (ops.map fun op => (op.conv (dts x)).records c)).2 := by
  have hb : RStack.build c cap = some (TStack.erase ⟨cap, 0, x⟩) := by unfold RStack.build; rw [hx]; rfl
  have hok' : ∀ op ∈ ops.map (·.conv (dts x)), SOp.Ok c op := by
    intro op h
    obtain ⟨o, ho, rfl⟩ := List.mem_map.1 h
    cases o with
    | push v =>
      rcases (hops _ ho).1 with h | ⟨k, h⟩
      · exact .inl (cast_conf _ h)
      · exact .inr ⟨k, cast_conf _ h⟩
    | _ => trivial
  obtain ⟨s', outs, h1, h2⟩ := record_stack_lifo hne hc ho hn hcap hb (ops.map (·.conv (dts x))) hok' (by rw [List.map_map]; exact hok)
  obtain ⟨h3, h4⟩ := stack_run hne hc ho (D := dts x) ops (s := ⟨cap, 0, x⟩) hg rfl hops
  rw [h1] at h3
  cases hr : TStack.run c ord ⟨cap, 0, x⟩ ops with
  | none => rw [hr] at h3; cases h3
  | some p =>
    rw [hr] at h3
    cases h3
    rw [List.map_map] at h2
    exact ⟨p.1, p.2, rfl, (h4 p hr).1, (h4 p hr).2, h2⟩

theorem queue_step {c : Cls (Ent F)} {ord : Order} (hne : c ≠ .nil) (hc : c.HasFields) (ho : ord.Valid) {s : TQueue F} (hs : Good s.store) (op : TQOp F)
    (hop : op.Ok c (dts s.store)) :
    RQueue.step c ord s.erase (op.conv (dts s.store)) = (s.step c ord op).map (fun p => (p.1.erase, p.2.erase)) ∧
      ∀ p, s.step c ord op = some p → dts p.1.store = dts s.store ∧ Good p.1.store ∧ p.2.Has (dts s.store) := by
  cases op with
  | enqueue x =>
    obtain ⟨hx | ⟨k, hx⟩, hg, hn⟩ := hop
    · have h1 := batchShape_of_conf hne hc hx
      have h2 := batchShape_of_conf hne hc (cast_conf (dts s.store) hx)
      have h3 := at_set_converts (ord []) (.basic [.int s.tail]) s.store x [] hs hg hn (inOrder_one ord ho _ _)
      simp only [TQueue.step, TQueue.enqueue, RQueue.step, RQueue.enqueue, TQOp.conv, h1, h2, Option.map_some, TOut.erase, TQueue.erase, h3.1]
      exact ⟨trivial, fun p hp => by cases hp; exact ⟨at_set_keeps_dtypes .., h3.2, trivial⟩⟩
    · have h1 := batchShape_of_conf hne hc hx
      have h2 := batchShape_of_conf hne hc (cast_conf (dts s.store) hx)
      have h3 := at_set_converts (ord [k]) (.adv [k] [(List.range k).map fun (j : Nat) => Jax.i32 ((s.tail : Int) + (j : Int))]) s.store x [] hs hg hn
        (inOrder_many ord ho _ _ _)
      simp only [TQueue.step, TQueue.enqueue, RQueue.step, RQueue.enqueue, TQOp.conv, h1, h2, Option.map_some, TOut.erase, TQueue.erase, h3.1]
      exact ⟨trivial, fun p hp => by cases hp; exact ⟨at_set_keeps_dtypes .., h3.2, trivial⟩⟩
  | dequeue k =>
    constructor
    · simp only [TQueue.step, RQueue.step, TQOp.conv, Option.map_some, RQueue.dequeue, RQueue.front, TQueue.front, TQueue.erase]
      by_cases hk : k = 1
      · rw [if_pos hk, if_pos hk, erase_getitemD]
      · rw [if_neg hk, if_neg hk, erase_getitemD]
    · intro p hp
      cases hp
      refine ⟨rfl, hs, ?_⟩
      unfold TQueue.front
      by_cases hk : k = 1
      · rw [if_pos hk]; exact has_getitemD _ _
      · rw [if_neg hk]; exact has_getitemD _ _
  | peek k =>
    constructor
    · simp only [TQueue.step, RQueue.step, TQOp.conv, Option.map_some, RQueue.front, TQueue.front, TQueue.erase]
      by_cases hk : k = 1
      · rw [if_pos hk, if_pos hk, erase_getitemD]
      · rw [if_neg hk, if_neg hk, erase_getitemD]
    · intro p hp
      cases hp
      refine ⟨rfl, hs, ?_⟩
      unfold TQueue.front
      by_cases hk : k = 1
      · rw [if_pos hk]; exact has_getitemD _ _
      · rw [if_neg hk]; exact has_getitemD _ _
  | clear => exact ⟨rfl, fun p hp => by cases hp; exact ⟨rfl, hs, trivial⟩⟩
  | get sg i =>
    constructor
    · simp only [TQueue.step, RQueue.step, RQueue.get, TQOp.conv, Option.map_some, TQueue.erase, erase_getitemD]
    · intro p hp
      cases hp
      exact ⟨rfl, hs, has_getitemD _ _⟩
  | size => exact ⟨rfl, fun p hp => by cases hp; exact ⟨rfl, hs, trivial⟩⟩

theorem queue_run {c : Cls (Ent F)} {ord : Order} (hne : c ≠ .nil) (hc : c.HasFields) (ho : ord.Valid) {D : Inst Dt} (ops : List (TQOp F)) :
    ∀ {s : TQueue F}, Good s.store → dts s.store = D → (∀ op ∈ ops, op.Ok c D) →
    RQueue.run c ord s.erase (ops.map (·.conv D)) = (s.run c ord ops).map (fun p => (p.1.erase, p.2.map TOut.erase)) ∧
      ∀ p, s.run c ord ops = some p → dts p.1.store = D ∧ ∀ o ∈ p.2, o.Has D := by
  induction ops with
  | nil => intro s _ hD _; exact ⟨rfl, fun p hp => by cases hp; exact ⟨hD, fun o ho => (by cases ho)⟩⟩
  | cons op ops ih =>
    intro s hs hD hops
    obtain ⟨h1, h2⟩ := queue_step hne hc ho hs op (by rw [hD]; exact hops op (by simp))
    rw [hD] at h1 h2
    simp only [List.map_cons, RQueue.run, TQueue.run, h1]
    cases hst : s.step c ord op with
    | none => exact ⟨rfl, fun p hp => by cases hp⟩
    | some p =>
      obtain ⟨h3, h4, h5⟩ := h2 p hst
      obtain ⟨h6, h7⟩ := ih h4 h3 fun op h => hops op (by simp [h])
      simp only [Option.map_some, Option.bind_some, h6]
      cases hr : p.1.run c ord ops with
      | none => exact ⟨rfl, fun q hq => by cases hq⟩
      | some q =>
        refine ⟨rfl, fun q' hq' => ?_⟩
        cases hq'
        refine ⟨(h7 q hr).1, fun o ho => ?_⟩
        rcases List.mem_cons.1 ho with rfl | ho
        · exact h5
        · exact (h7 q hr).2 o ho

/-- **A queue given items of other dtypes** (no floats for an integer field) is the queue of the items converted to the dtypes of the class. -/
theorem typed_queue_fifo {c : Cls (Ent F)} {ord : Order} (hne : c ≠ .nil) (hc : c.HasFields) (ho : ord.Valid) {cap : Nat} (hn : 0 < cap) (hcap : cap < 2 ^ 31)
    {x : Inst (DArr F)} (hx : defaultInst c [cap] = some (arrs x)) (hg : Good x) (ops : List (TQOp F)) (hops : ∀ op ∈ ops, op.Ok c (dts x))
    (hok : QueueSpec.Ok cap QueueSpec.empty (ops.map fun op => (op.conv (dts x)).records c)) :
    ∃ q' outs, TQueue.run c ord ⟨cap, x, 0, 0⟩ ops = some (q', outs) ∧ dts q'.store = dts x ∧ (∀ o ∈ outs, o.Has (dts x)) ∧
      QOp.AgreeAll c (ops.map (·.conv (dts x))) (outs.map TOut.erase)
        (QueueSpec.run QueueSpec.empty (ops.map fun op => (op.conv (dts x)).records c)).2 := by
  have hb : RQueue.build c cap = some (TQueue.erase ⟨cap, x, 0, 0⟩) := by unfold RQueue.build; rw [hx]; rfl
  have hok' : ∀ op ∈ ops.map (·.conv (dts x)), QOp.Ok c op := by
    intro op h
    obtain ⟨o, ho, rfl⟩ := List.mem_map.1 h
    cases o with
    | enqueue v =>
      rcases (hops _ ho).1 with h | ⟨k, h⟩
      · exact .inl (cast_conf _ h)
      · exact .inr ⟨k, cast_conf _ h⟩
    | _ => trivial
  obtain ⟨s', outs, h1, h2⟩ := record_queue_fifo hne hc ho hn hcap hb (ops.map (·.conv (dts x))) hok' (by rw [List.map_map]; exact hok)
  obtain ⟨h3, h4⟩ := queue_run hne hc ho (D := dts x) ops (s := ⟨cap, x, 0, 0⟩) hg rfl hops
  rw [h1] at h3
  cases hr : TQueue.run c ord ⟨cap, x, 0, 0⟩ ops with
  | none => rw [hr] at h3; cases h3
  | some p =>
    rw [hr] at h3
    cases h3
    rw [List.map_map] at h2
    exact ⟨p.1, p.2, rfl, (h4 p hr).1, (h4 p hr).2, h2⟩

end Stack

/-! ## An integer field given floats -/

/-- **Pushing an item with a `float32` where the class has an `int32` damages items already on the stack**: the whole field goes to `float32` and back, so an integer
`float32` cannot hold comes back as another one (whatever is pushed). -/
theorem push_float_damages (n m : Int) (y : F) (hm : wrap .i32 m = m) :
    ∃ s' : TStack F, TStack.push (.leaf "a" [] (fun _ => ⟨[], [.int 0]⟩) .nil) (fun s _ => indices s) ⟨2, 1, .leaf "a" ⟨.i32, ⟨[2], [.int n, .int m]⟩⟩ .nil⟩
        (.leaf "a" ⟨.f32, ⟨[], [.flt y]⟩⟩ .nil) = some s' ∧ s'.size = 2 ∧
      s'.store = .leaf "a" ⟨.i32, ⟨[2], [.int (Floats.toInt .i32 (Floats.ofInt (F := F) .f32 n)), .int (Floats.toInt .i32 y)]⟩⟩ .nil :=
  ⟨_, rfl, rfl, rfl⟩

/-! ## Concrete floats: integral ones, rounded to nearest even as in `DedupeInt` (no infinities) -/

section Fixpoints

open Dedupe

theorem roundNat_dvd {p n : Nat} (h : 2 ^ p ≤ n) : 2 ^ (n.log2 + 1 - p) ∣ roundNat p n := by
  unfold roundNat
  rw [if_neg (by omega)]
  exact Nat.dvd_mul_left _ _

theorem roundNat_of_dvd {p n : Nat} (h : 2 ^ (n.log2 + 1 - p) ∣ n) : roundNat p n = n := by
  unfold roundNat
  split
  · rfl
  · have h0 := Nat.mod_eq_zero_of_dvd h
    have hp := Nat.two_pow_pos (n.log2 + 1 - p)
    simp only [h0]
    rw [if_neg (by omega)]
    exact Nat.div_mul_cancel h

theorem roundNat_widen {p q n : Nat} (hq : p ≤ q) (h : roundNat p n = n) : roundNat q n = n := by
  by_cases hn : n < 2 ^ q
  · exact roundNat_small hn
  · have hpn : 2 ^ p ≤ n := Nat.le_trans (Nat.pow_le_pow_right (by omega) hq) (by omega)
    have h1 := roundNat_dvd hpn
    rw [h] at h1
    exact roundNat_of_dvd (Nat.dvd_trans (Nat.pow_dvd_pow 2 (by omega)) h1)

theorem roundNat_idem {p : Nat} (hp : 1 ≤ p) (n : Nat) : roundNat p (roundNat p n) = roundNat p n := by
  by_cases hn : n < 2 ^ p
  · rw [roundNat_small hn, roundNat_small hn]
  · have hn : 2 ^ p ≤ n := by omega
    have hd := roundNat_dvd hn
    have hb := roundNat_bounds hp hn
    generalize roundNat p n = r at *
    have hr : r ≠ 0 := by have := Nat.two_pow_pos n.log2; omega
    apply roundNat_of_dvd
    by_cases e : r = 2 ^ (n.log2 + 1)
    · subst e
      rw [Nat.log2_two_pow]
      exact Nat.pow_dvd_pow 2 (by omega)
    · have hl : r.log2 = n.log2 := by
        have h1 := (Nat.le_log2 hr).2 hb.1
        have h2 := (Nat.log2_lt hr).2 (by omega : r < 2 ^ (n.log2 + 1))
        omega
      rw [hl]; exact hd

theorem roundInt_fix {p : Nat} {n : Int} : roundInt p n = n ↔ roundNat p n.natAbs = n.natAbs := by
  unfold roundInt
  split
  · rw [show n.toNat = n.natAbs by omega]; omega
  · rw [show (-n).toNat = n.natAbs by omega]; omega

theorem roundInt_natAbs {p : Nat} {n : Int} : (roundInt p n).natAbs = roundNat p n.natAbs := by
  unfold roundInt
  split
  · rw [show n.toNat = n.natAbs by omega]; omega
  · rw [show (-n).toNat = n.natAbs by omega]; omega

end Fixpoints

/-- An integral float. -/
structure Fl where
  n : Int

/-- Bits of the significand. -/
def prec : Dt → Nat
  | .f16 => 11
  | .bf16 => 8
  | _ => 24

instance : Floats Fl where
  ofInt d n := ⟨Dedupe.roundInt (prec d) n⟩
  cast d x := ⟨Dedupe.roundInt (prec d) x.n⟩
  toInt d x := wrap d x.n

instance : FloatLaws Fl where
  rep d x := Dedupe.roundInt (prec d) x.n = x.n
  widen e t s x he ht h := by
    have : prec e ≤ prec t := by revert he ht; cases e <;> cases t <;> decide
    show Fl.mk (Dedupe.roundInt (prec s) (Dedupe.roundInt (prec t) x.n)) = _
    rw [roundInt_fix.2 (roundNat_widen this (roundInt_fix.1 h))]
    rfl
  rep_cast d x h := by show Fl.mk (Dedupe.roundInt (prec d) x.n) = x; rw [h]
  rep_ofInt d n _ := by
    show Dedupe.roundInt (prec d) (Dedupe.roundInt (prec d) n) = Dedupe.roundInt (prec d) n
    rw [roundInt_fix, roundInt_natAbs]
    exact roundNat_idem (by cases d <;> decide) _
  rep_of_cast d x _ := by
    show Dedupe.roundInt (prec d) (Dedupe.roundInt (prec d) x.n) = Dedupe.roundInt (prec d) x.n
    rw [roundInt_fix, roundInt_natAbs]
    exact roundNat_idem (by cases d <;> decide) _
  toInt_holds d x h := wrap_holds h x.n
  bit e n he hn := by
    show wrap .bool (Dedupe.roundInt (prec e) n) = n
    rcases hn with rfl | rfl
    · rw [Dedupe.roundInt_exact (by cases e <;> decide) (by simp)]; rfl
    · rw [Dedupe.roundInt_exact (by cases e <;> decide) (by simp; exact Nat.one_le_two_pow)]; rfl

/-- The damage, concretely: 16777217 comes back as 16777216. -/
theorem push_float_damages_ex : Floats.toInt .i32 (Floats.ofInt (F := Fl) .f32 16777217) = 16777216 := by decide +kernel

/-- A class with an `int32` and a `float32` field, given an `int8` and an `int32`, then a `uint32` (out of the range of `int32`) and a `float16`: accepted by the
theorems, converted and returned in order. -/
def exC : Cls (Ent Fl) := .leaf "a" [] (fun _ => ⟨[], [.int 0]⟩) (.leaf "b" [] (fun _ => ⟨[], [.flt ⟨0⟩]⟩) .nil)
def exX : Inst (DArr Fl) := .leaf "a" ⟨.i32, ⟨[3], [.int 0, .int 0, .int 0]⟩⟩ (.leaf "b" ⟨.f32, ⟨[3], [.flt ⟨0⟩, .flt ⟨0⟩, .flt ⟨0⟩]⟩⟩ .nil)
def exItem : Inst (DArr Fl) := .leaf "a" ⟨.i8, ⟨[], [.int (-5)]⟩⟩ (.leaf "b" ⟨.i32, ⟨[], [.int 16777217]⟩⟩ .nil)
def exItems : Inst (DArr Fl) := .leaf "a" ⟨.u32, ⟨[2], [.int 4294967295, .int 7]⟩⟩ (.leaf "b" ⟨.f16, ⟨[2], [.flt ⟨2048⟩, .flt ⟨3⟩]⟩⟩ .nil)
def exOps : List (TSOp Fl) := [.push exItem, .push exItems, .pop 2, .peek 1]

theorem exX_default : defaultInst exC [3] = some (arrs exX) := rfl
theorem exX_good : Good exX := by
  intro a ha
  rcases ha with _ | ⟨_, _ | ⟨_, ha⟩⟩
  · refine ⟨rfl, fun e he => ?_⟩
    rcases he with _ | ⟨_, _ | ⟨_, _ | ⟨_, h⟩⟩⟩ <;> first | exact ⟨rfl, by simp [WhereTypes.Holds]⟩ | cases h
  · refine ⟨rfl, fun e he => ?_⟩
    rcases he with _ | ⟨_, _ | ⟨_, _ | ⟨_, h⟩⟩⟩ <;> first | exact ⟨rfl, rfl⟩ | cases h
  · cases ha
theorem exItem_ok : ItemOk exC (dts exX) exItem := by
  refine ⟨.inl ⟨rfl, ⟨rfl, rfl⟩, rfl, ⟨rfl, rfl⟩, trivial⟩, ?_, by decide, by decide, trivial⟩
  intro a ha
  rcases ha with _ | ⟨_, _ | ⟨_, ha⟩⟩
  · refine ⟨rfl, fun e he => ?_⟩
    rcases he with _ | ⟨_, h⟩ <;> first | exact ⟨rfl, by simp [WhereTypes.Holds]⟩ | cases h
  · refine ⟨rfl, fun e he => ?_⟩
    rcases he with _ | ⟨_, h⟩ <;> first | exact ⟨rfl, by simp [WhereTypes.Holds]⟩ | cases h
  · cases ha
theorem exItems_ok : ItemOk exC (dts exX) exItems := by
  refine ⟨.inr ⟨2, rfl, ⟨rfl, rfl⟩, rfl, ⟨rfl, rfl⟩, trivial⟩, ?_, by decide, by decide, trivial⟩
  intro a ha
  rcases ha with _ | ⟨_, _ | ⟨_, ha⟩⟩
  · refine ⟨rfl, fun e he => ?_⟩
    rcases he with _ | ⟨_, _ | ⟨_, h⟩⟩ <;> first | exact ⟨rfl, by simp [WhereTypes.Holds]⟩ | cases h
  · refine ⟨rfl, fun e he => ?_⟩
    rcases he with _ | ⟨_, _ | ⟨_, h⟩⟩ <;> first | exact ⟨rfl, by show Dedupe.roundInt _ _ = _; decide +kernel⟩ | cases h
  · cases ha

example : ∃ s' outs, TStack.run exC (fun s _ => indices s) ⟨3, 0, exX⟩ exOps = some (s', outs) ∧ dts s'.store = dts exX ∧ ∀ o ∈ outs, o.Has (dts exX) := by
  obtain ⟨s', outs, h1, h2, h3, _⟩ := typed_stack_lifo (c := exC) (ord := fun s _ => indices s) (fun h => (by cases h)) trivial (fun s _ => .refl _) (cap := 3) (by decide)
    (by decide) exX_default exX_good exOps (fun op h => by
      rcases h with _ | ⟨_, _ | ⟨_, _ | ⟨_, _ | ⟨_, h⟩⟩⟩⟩
      · exact exItem_ok
      · exact exItems_ok
      · trivial
      · trivial
      · cases h) (by
        obtain ⟨a, h1⟩ : ∃ a, pushed exC (arrs (castTo (dts exX) exItem)) = [a] := ⟨_, rfl⟩
        obtain ⟨b, b', h2⟩ : ∃ b b', pushed exC (arrs (castTo (dts exX) exItems)) = [b, b'] := ⟨_, _, rfl⟩
        simp [exOps, TSOp.conv, SOp.records, h1, h2, StackSpec.Ok, StackSpec.ok, StackSpec.step])
  exact ⟨s', outs, h1, h2, h3⟩

example : (TStack.run exC (fun s _ => indices s) ⟨3, 0, exX⟩ exOps).map (·.2) = some [.unit, .unit,
    .inst (some (.leaf "a" ⟨.i32, ⟨[2], [.int (-1), .int 7]⟩⟩ (.leaf "b" ⟨.f32, ⟨[2], [.flt ⟨2048⟩, .flt ⟨3⟩]⟩⟩ .nil))),
    .inst (some (.leaf "a" ⟨.i32, ⟨[], [.int (-5)]⟩⟩ (.leaf "b" ⟨.f32, ⟨[], [.flt ⟨16777216⟩]⟩⟩ .nil)))] := by rfl

/-- A queue with the same items: the hypotheses of `typed_queue_fifo`. -/
example : ∃ q' outs, TQueue.run exC (fun s _ => indices s) ⟨3, exX, 0, 0⟩ [.enqueue exItem, .enqueue exItems, .dequeue 2, .clear, .enqueue exItem, .peek 1] = some (q', outs) ∧
    dts q'.store = dts exX ∧ ∀ o ∈ outs, o.Has (dts exX) := by
  obtain ⟨q', outs, h1, h2, h3, _⟩ := typed_queue_fifo (c := exC) (ord := fun s _ => indices s) (fun h => (by cases h)) trivial (fun s _ => .refl _) (cap := 3) (by decide)
    (by decide) exX_default exX_good [.enqueue exItem, .enqueue exItems, .dequeue 2, .clear, .enqueue exItem, .peek 1] (fun op h => by
      rcases h with _ | ⟨_, _ | ⟨_, _ | ⟨_, _ | ⟨_, _ | ⟨_, _ | ⟨_, h⟩⟩⟩⟩⟩⟩
      · exact exItem_ok
      · exact exItems_ok
      · trivial
      · trivial
      · exact exItem_ok
      · trivial
      · cases h) (by
        obtain ⟨a, h1⟩ : ∃ a, pushed exC (arrs (castTo (dts exX) exItem)) = [a] := ⟨_, rfl⟩
        obtain ⟨b, b', h2⟩ : ∃ b b', pushed exC (arrs (castTo (dts exX) exItems)) = [b, b'] := ⟨_, _, rfl⟩
        simp [TQOp.conv, QOp.records, h1, h2, QueueSpec.Ok, QueueSpec.ok, QueueSpec.step, QueueSpec.empty])
  exact ⟨q', outs, h1, h2, h3⟩

end StoreTypes
