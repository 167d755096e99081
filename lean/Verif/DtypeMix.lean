import Verif.HashFloat
import Verif.WhereTypes
import Verif.HTProps

/-!
# C108: items whose fields have another dtype than the class declares

`State(board=jnp.array([1, 2]))` is an instance with an `int32` field even if the class declares `uint8`: nothing converts it.  Such an
instance compares with the promoted dtype (ops.py:41), is hashed by the bytes of its own dtype (hash.py:198-229) and is converted to the declared
dtype when it is written into a table (`.at[…].set`, insert.py:91-93).  Integer and `bool` fields only; no `jax_enable_x64`.
-/

namespace DtypeMix

open HashModel (Leaf Stream W leafWords uint32ed hashPair)
open WhereTypes (Dt wrap)
open WhereTypes.Dt (promote)
open HashTable (Hasher Table)

/-! ## Model -/

/-- The bits of an array of integers of dtype `d` (`int*`/`uint*`: two's complement). -/
def enc : Dt → List Int → Leaf
  | .bool, vs => .bool (vs.map fun v => decide (v ≠ 0))
  | .u8, vs | .i8, vs => .w8 (vs.map (BitVec.ofInt 8))
  | .u16, vs | .i16, vs => .w16 (vs.map (BitVec.ofInt 16))
  | _, vs => .w32 (vs.map (BitVec.ofInt 32))

/-- `jnp.all(x == y)` for two arrays of one shape (ops.py:41): both are converted to the promoted dtype first. -/
def eqField (a b : Dt × List Int) : Bool := a.2.map (wrap (promote a.1 b.1)) == b.2.map (wrap (promote a.1 b.1))

/-- `__eq__` (ops.py:22-42): all fields. -/
def eqInst : List (Dt × List Int) → List (Dt × List Int) → Bool
  | [], [] => true
  | a :: x, b :: y => eqField a b && eqInst x y
  | _, _ => false

/-- An instance of a class of integer and `bool` fields of the given sizes; every field has a dtype of its own and values of it. -/
structure Inst (lens : List Nat) where
  fields : List (Dt × List Int)
  sizes : fields.map (·.2.length) = lens
  ok : ∀ f ∈ fields, f.1.isInt = true ∧ ∀ v ∈ f.2, wrap f.1 v = v

instance (lens : List Nat) : BEq (Inst lens) := ⟨fun x y => eqInst x.fields y.fields⟩

/-- The declared dtypes. -/
structure Decl (lens : List Nat) where
  ds : List Dt
  size : ds.length = lens.length
  int : ∀ d ∈ ds, d.isInt = true

variable {lens : List Nat}

/-- The leaves as the hash sees them. -/
def Inst.leaves (x : Inst lens) : List Leaf := x.fields.map fun f => enc f.1 f.2

theorem wrap_wrap (d : Dt) (v : Int) : wrap d (wrap d v) = wrap d v := by
  cases d <;> simp only [wrap] <;> omega

theorem store_sizes : ∀ (ds : List Dt) (fs : List (Dt × List Int)), ds.length = fs.length →
    (List.zipWith (fun d f => (d, f.2.map (wrap d))) ds fs).map (·.2.length) = fs.map (·.2.length)
  | [], [], _ => rfl
  | d :: ds, f :: fs, h => by
    have := store_sizes ds fs (by simpa using h)
    simp [this]

/-- What `.at[i].set(x)` writes (insert.py:91-93): every field converted to the dtype of the table. -/
def Decl.store (D : Decl lens) (x : Inst lens) : Inst lens where
  fields := List.zipWith (fun d f => (d, f.2.map (wrap d))) D.ds x.fields
  sizes := (store_sizes D.ds x.fields (by rw [D.size, ← List.length_map (f := fun f : Dt × List Int => f.2.length), x.sizes])).trans x.sizes
  ok := by
    intro f hf
    obtain ⟨i, hi, rfl⟩ := List.mem_iff_getElem.1 hf
    rw [List.getElem_zipWith]
    refine ⟨D.int _ (List.getElem_mem _), fun v hv => ?_⟩
    obtain ⟨w, _, rfl⟩ := List.mem_map.1 hv
    exact wrap_wrap _ _

/-- A code for the surrogate `words` below. -/
def intNat (v : Int) : Nat := if 0 ≤ v then 2 * v.toNat else 2 * (-v).toNat + 1

theorem intNat_inj {v w : Int} (h : intNat v = intNat w) : v = w := by
  unfold intNat at h
  by_cases h1 : 0 ≤ v <;> by_cases h2 : 0 ≤ w
  · rw [if_pos h1, if_pos h2] at h; omega
  · rw [if_pos h1, if_neg h2] at h; omega
  · rw [if_neg h1, if_pos h2] at h; omega
  · rw [if_neg h1, if_neg h2] at h; omega

def dtNat : Dt → Nat
  | .bool => 0 | .u8 => 1 | .u16 => 2 | .u32 => 3 | .i8 => 4 | .i16 => 5 | .i32 => 6 | .f16 => 7 | .bf16 => 8 | .f32 => 9

theorem dtNat_inj {d d' : Dt} (h : dtNat d = dtNat d') : d = d' := by
  cases d <;> cases d' <;> first | rfl | exact absurd h (by decide)

/-- `hash_pair` and the fingerprint, as the table uses them for single items (hash_utils.py:539-594).  `words` is not `uint32ed` but any code of the instance: only the batch
operations, which are not used here, read it. -/
def typedHasher (m : Stream) (seed : W) (lens : List Nat) : Hasher (Inst lens) where
  wc := lens.length + lens.sum
  words := fun x => x.fields.flatMap fun f => dtNat f.1 :: f.2.map intNat
  h1 := fun x => (hashPair m x.leaves seed).1.toNat
  h2 := fun x => (hashPair m x.leaves seed).2.toNat
  words_length := fun x => by
    have h : ∀ fs : List (Dt × List Int), (fs.flatMap fun f => dtNat f.1 :: f.2.map intNat).length =
        (fs.map (·.2.length)).length + (fs.map (·.2.length)).sum := by
      intro fs
      induction fs with
      | nil => rfl
      | cons f fs ih => rw [List.flatMap_cons, List.length_append, ih]; simp; omega
    rw [h, x.sizes]
  words_inj := fun x y h => by
    obtain ⟨fs, hs, ok⟩ := x
    obtain ⟨gs, gs', ok'⟩ := y
    have : fs = gs := by
      have hl : fs.map (·.2.length) = gs.map (·.2.length) := hs.trans gs'.symm
      simp only at h
      clear ok ok' gs' hs
      induction fs generalizing gs with
      | nil => cases gs with
        | nil => rfl
        | cons => simp at hl
      | cons f fs ih => cases gs with
        | nil => simp at hl
        | cons g gs =>
          simp only [List.map_cons, List.cons.injEq] at hl
          rw [List.flatMap_cons, List.flatMap_cons] at h
          have hh := List.append_inj h (by simp [hl.1])
          simp only [List.cons.injEq] at hh
          rw [ih gs hh.2 hl.2]
          congr 1
          exact Prod.ext (dtNat_inj hh.1.1) ((List.map_inj_right fun a b => intNat_inj).1 hh.1.2)
    subst this
    rfl
  mix := fun a b => (HashModel.mixFingerprint (BitVec.ofNat 32 a) (BitVec.ofNat 32 b) 0).toNat

/-- `_hashtable_insert_jit` (insert.py:81-131) with the conversion `st` of `.at[…].set`. -/
def insertC {α : Type u} [BEq α] (st : α → α) (H : Hasher α) (T : Table α) (x : α) : Table α × Bool × Nat :=
  let r := HashTable.lookupBucket H T x
  let b := r.1.1
  let s := r.1.2
  let can := !r.2 && decide (HashTable.rd T.fill b ≤ s)
  let T' := if can then
      { T with
        table := Jax.scatterU1 T.table (HashTable.flat T b s) (st x)
        fps := Jax.scatterU1 T.fps (HashTable.flat T b s) (H.fp x)
        fill := Jax.scatterU1 T.fill b (HashTable.rd T.fill b + 1)
        size := (T.size + 1) % 2 ^ 32
        occ := if T.bs ≤ 32 then Jax.scatterU1 T.occ b (HashTable.rd T.occ b ||| (2 ^ s % 2 ^ 32)) else T.occ }
    else T
  (T', can, HashTable.flat T b s)

/-- A history of single insertions. -/
def inserts (D : Decl lens) (m : Stream) (seed : W) (T : Table (Inst lens)) (xs : List (Inst lens)) : Table (Inst lens) :=
  xs.foldl (fun T x => (insertC D.store (typedHasher m seed lens) T x).1) T

/-! ## Equal up to a view -/

section View

variable {α : Type u} {β : Type v} [BEq α] [BEq β] (f : α → β) {HA : Hasher α} {HB : Hasher β}

/-- The table with its items seen through `f`. -/
def view (T : Table α) : Table β := { T with table := T.table.map f }

/-- `f` keeps the hashes of `x`. -/
structure Same (HA : Hasher α) (HB : Hasher β) (x : α) : Prop where
  h1 : HB.h1 (f x) = HA.h1 x
  h2 : HB.h2 (f x) = HA.h2 x
  mix : ∀ a b, HB.mix a b = HA.mix a b

variable {f}

theorem Same.fp {x : α} (h : Same f HA HB x) : HB.fp (f x) = HA.fp x := by
  unfold Hasher.fp
  rw [h.h1, h.h2, h.mix]

theorem gather_view {T : Table α} {x : α} (he : ∀ y ∈ T.table, (y == x) = (f y == f x)) (i : Nat) :
    (Jax.gatherU (T.table.map f) i == some (f x)) = (Jax.gatherU T.table i == some x) := by
  unfold Jax.gatherU
  rw [List.length_map, List.getElem?_map]
  cases h : T.table[Jax.clampIdx T.table.length i]? with
  | none => rfl
  | some y => exact (he y (List.mem_of_getElem? h)).symm

theorem scan_view {T : Table α} {x : α} (h : Same f HA HB x) (he : ∀ y ∈ T.table, (y == x) = (f y == f x)) (b : Nat) :
    HashTable.scanBucket HB (view f T) (f x) b = HashTable.scanBucket HA T x b := by
  have hm : HashTable.fpMatches HB (view f T) (f x) b = HashTable.fpMatches HA T x b := by
    unfold HashTable.fpMatches
    rw [h.fp]
    rfl
  unfold HashTable.scanBucket
  rw [hm]
  have hg : ∀ i, (Jax.gatherU (view f T).table i == some (f x)) = (Jax.gatherU T.table i == some x) := gather_view he
  simp only [hg]
  rfl

theorem lookup_view {T : Table α} {x : α} (h : Same f HA HB x) (he : ∀ y ∈ T.table, (y == x) = (f y == f x)) :
    HashTable.lookupBucket HB (view f T) (f x) = HashTable.lookupBucket HA T x := by
  have hst : HashTable.start HB (view f T) (f x) = HashTable.start HA T x := by
    unfold HashTable.start
    rw [h.h1]
    rfl
  have hstep : HashTable.step HB (view f T) (f x) = HashTable.step HA T x := by
    unfold HashTable.step
    rw [h.h2]
    rfl
  have hl : ∀ (fuel b s : Nat) (found : Bool) (p : Nat),
      HashTable.lookupLoop HB (view f T) (f x) fuel b s found p = HashTable.lookupLoop HA T x fuel b s found p := by
    intro fuel
    induction fuel with
    | zero => intros; rfl
    | succ fuel ih =>
      intro b s found p
      unfold HashTable.lookupLoop
      rw [scan_view h he, hstep]
      simp only [ih]
      rfl
  unfold HashTable.lookupBucket
  rw [hst]
  exact hl _ _ _ _ _

theorem insert_view {st : α → α} {T : Table α} {x : α} (h : Same f HA HB x) (he : ∀ y ∈ T.table, (y == x) = (f y == f x)) (hst : f (st x) = f x) :
    view f (insertC st HA T x).1 = (HashTable.insert HB (view f T) (f x)).1 ∧
    (insertC st HA T x).2 = (HashTable.insert HB (view f T) (f x)).2 := by
  have hl := lookup_view h he
  unfold HashTable.insert
  dsimp only
  rw [hl, h.fp]
  unfold insertC
  dsimp only
  generalize HashTable.lookupBucket HA T x = r
  obtain ⟨⟨b, s⟩, found⟩ := r
  refine ⟨?_, rfl⟩
  have hsc : ∀ (i : Nat), (Jax.scatterU1 T.table i (st x)).map f = Jax.scatterU1 (T.table.map f) i (f x) := by
    intro i
    unfold Jax.scatterU1
    rw [List.length_map]
    by_cases hi : i < T.table.length
    · rw [if_pos hi, if_pos hi, List.map_set, hst]
    · rw [if_neg hi, if_neg hi]
  by_cases hc : (!found && decide (HashTable.rd T.fill b ≤ s)) = true
  · rw [if_pos hc, if_pos (show (!found && decide (HashTable.rd (view f T).fill b ≤ s)) = true from hc)]
    unfold view
    dsimp only
    rw [hsc]
    rfl
  · rw [if_neg hc, if_neg (show ¬ (!found && decide (HashTable.rd (view f T).fill b ≤ s)) = true from hc)]

end View

/-! ## Values -/

/-- The value, as numbers. -/
def Vals (lens : List Nat) := { v : List (List Int) // v.map List.length = lens }

instance : DecidableEq (Vals lens) := inferInstanceAs (DecidableEq (Subtype _))

def Inst.vals (x : Inst lens) : Vals lens := ⟨x.fields.map (·.2), by rw [List.map_map]; exact x.sizes⟩

/-- Every value can be represented in the declared dtype of its field. -/
def Fits (D : Decl lens) (x : Inst lens) : Prop := ∀ p ∈ D.ds.zip x.fields, ∀ v ∈ p.2.2, wrap p.1 v = v

/-- The fields have the declared dtypes. -/
def Typed (D : Decl lens) (x : Inst lens) : Prop := x.fields.map (·.1) = D.ds

/-- Comparison in the promoted dtype is exact on numbers that the declared dtype `d` can hold. -/
theorem wrap_eq_iff {d d' : Dt} (hd : d.isInt = true) (hd' : d'.isInt = true) {y x : Int} (hy : wrap d y = y) (hx' : wrap d' x = x) (hx : wrap d x = x) :
    wrap (promote d d') y = wrap (promote d d') x ↔ y = x := by
  refine ⟨fun h => ?_, fun h => by rw [h]⟩
  cases d <;> first | cases hd | skip
  all_goals cases d' <;> first | cases hd' | skip
  all_goals simp only [promote, wrap] at h hx hx' hy
  all_goals omega

theorem map_wrap_eq_iff {d d' : Dt} (hd : d.isInt = true) (hd' : d'.isInt = true) : ∀ {ys xs : List Int}, (∀ y ∈ ys, wrap d y = y) → (∀ x ∈ xs, wrap d' x = x) →
    (∀ x ∈ xs, wrap d x = x) → (ys.map (wrap (promote d d')) = xs.map (wrap (promote d d')) ↔ ys = xs)
  | [], [], _, _, _ => by simp
  | [], _ :: _, _, _, _ => by simp
  | _ :: _, [], _, _, _ => by simp
  | y :: ys, x :: xs, h1, h2, h3 => by
    have ih := map_wrap_eq_iff hd hd' (ys := ys) (xs := xs) (fun z hz => h1 z (List.mem_cons_of_mem _ hz)) (fun z hz => h2 z (List.mem_cons_of_mem _ hz))
      fun z hz => h3 z (List.mem_cons_of_mem _ hz)
    have h0 := wrap_eq_iff hd hd' (h1 y List.mem_cons_self) (h2 x List.mem_cons_self) (h3 x List.mem_cons_self)
    simp only [List.map_cons, List.cons.injEq, ih, h0]

theorem eqInst_vals : ∀ (ds : List Dt) (ys xs : List (Dt × List Int)), ys.map (·.1) = ds → xs.length = ys.length →
    (∀ f ∈ ys, f.1.isInt = true ∧ ∀ v ∈ f.2, wrap f.1 v = v) → (∀ f ∈ xs, f.1.isInt = true ∧ ∀ v ∈ f.2, wrap f.1 v = v) →
    (∀ p ∈ ds.zip xs, ∀ v ∈ p.2.2, wrap p.1 v = v) → (eqInst ys xs = true ↔ ys.map (·.2) = xs.map (·.2))
  | _, [], [], _, _, _, _, _ => by simp [eqInst]
  | _, [], _ :: _, _, h, _, _, _ => by simp at h
  | _, _ :: _, [], _, h, _, _, _ => by simp at h
  | [], _ :: _, _ :: _, h, _, _, _, _ => by simp at h
  | d :: ds, y :: ys, x :: xs, ht, hl, hy, hx, hf => by
    rw [List.map_cons, List.cons.injEq] at ht
    have ih := eqInst_vals ds ys xs ht.2 (by simpa using hl) (fun f h => hy f (List.mem_cons_of_mem _ h)) (fun f h => hx f (List.mem_cons_of_mem _ h))
      fun q hq => hf q (List.mem_cons_of_mem _ hq)
    have hy0 := hy y List.mem_cons_self
    have hx0 := hx x List.mem_cons_self
    have hf0 : ∀ v ∈ x.2, wrap d v = v := hf (d, x) List.mem_cons_self
    rw [← ht.1] at hf0
    have h0 := map_wrap_eq_iff hy0.1 hx0.1 hy0.2 hx0.2 hf0
    rw [eqInst, Bool.and_eq_true, ih, List.map_cons, List.map_cons, List.cons.injEq]
    unfold eqField
    rw [beq_iff_eq, h0]

theorem Inst.length_eq (x y : Inst lens) : x.fields.length = y.fields.length := by
  have h := congrArg List.length (x.sizes.trans y.sizes.symm)
  simpa using h

/-- **C108 (1).**  An item in the declared dtypes equals an item whose values those dtypes can hold exactly if the values agree, whatever dtypes the
latter has. -/
theorem compare_by_value {D : Decl lens} {y x : Inst lens} (hy : Typed D y) (hx : Fits D x) : (y == x) = true ↔ y.vals = x.vals := by
  refine Iff.trans ?_ (Subtype.ext_iff (a1 := y.vals) (a2 := x.vals)).symm
  exact eqInst_vals D.ds y.fields x.fields hy (Inst.length_eq x y) y.ok x.ok hx

theorem beq_vals {D : Decl lens} {y x : Inst lens} (hy : Typed D y) (hx : Fits D x) : (y == x) = (y.vals == x.vals) := by
  rw [Bool.eq_iff_iff, compare_by_value hy hx, beq_iff_eq]

theorem store_typed (D : Decl lens) (x : Inst lens) : Typed D (D.store x) := by
  have hl : D.ds.length = x.fields.length := by rw [D.size, ← List.length_map (f := fun f : Dt × List Int => f.2.length), x.sizes]
  unfold Typed Decl.store
  simp only
  rw [List.map_zipWith]
  generalize D.ds = ds at hl
  generalize x.fields = fs at hl
  induction ds generalizing fs with
  | nil => rfl
  | cons d ds ih => cases fs with
    | nil => simp at hl
    | cons f fs => simp at hl; simp [ih fs hl]

theorem store_vals {D : Decl lens} {x : Inst lens} (hx : Fits D x) : (D.store x).vals = x.vals := by
  have hl : D.ds.length = x.fields.length := by rw [D.size, ← List.length_map (f := fun f : Dt × List Int => f.2.length), x.sizes]
  apply Subtype.ext
  unfold Fits at hx
  unfold Inst.vals Decl.store
  simp only
  rw [List.map_zipWith]
  generalize D.ds = ds at hl hx
  generalize x.fields = fs at hl hx
  induction ds generalizing fs with
  | nil => cases fs with
    | nil => rfl
    | cons => simp at hl
  | cons d ds ih => cases fs with
    | nil => simp at hl
    | cons f fs =>
      simp at hl
      rw [List.zipWith_cons_cons, List.map_cons, ih fs hl fun q hq => hx q (List.mem_cons_of_mem _ hq)]
      congr 1
      have h0 : ∀ v ∈ f.2, wrap d v = v := hx (d, f) List.mem_cons_self
      exact (List.map_congr_left h0).trans (List.map_id _)

/-- The hash of values laid out as `lv` says. -/
def valHasher (m : Stream) (seed : W) (lens : List Nat) (lv : List (List Int) → List Leaf) : Hasher (Vals lens) where
  wc := lens.length + lens.sum
  words := fun v => v.1.flatMap fun f => 0 :: f.map intNat
  h1 := fun v => (hashPair m (lv v.1) seed).1.toNat
  h2 := fun v => (hashPair m (lv v.1) seed).2.toNat
  words_length := fun x => by
    have h : ∀ fs : List (List Int), (fs.flatMap fun f => 0 :: f.map intNat).length = (fs.map List.length).length + (fs.map List.length).sum := by
      intro fs
      induction fs with
      | nil => rfl
      | cons f fs ih => rw [List.flatMap_cons, List.length_append, ih]; simp; omega
    rw [h, x.2]
  words_inj := fun x y h => by
    obtain ⟨fs, hs⟩ := x
    obtain ⟨gs, gs'⟩ := y
    apply Subtype.ext
    have hl : fs.map List.length = gs.map List.length := hs.trans gs'.symm
    simp only at h
    show fs = gs
    clear gs' hs
    induction fs generalizing gs with
    | nil => cases gs with
      | nil => rfl
      | cons => simp at hl
    | cons f fs ih => cases gs with
      | nil => simp at hl
      | cons g gs =>
        simp only [List.map_cons, List.cons.injEq] at hl
        rw [List.flatMap_cons, List.flatMap_cons] at h
        have hh := List.append_inj h (by simp [hl.1])
        simp only [List.cons.injEq, true_and] at hh
        rw [ih gs hh.2 hl.2, (List.map_inj_right fun a b => intNat_inj).1 hh.1]
  mix := fun a b => (HashModel.mixFingerprint (BitVec.ofNat 32 a) (BitVec.ofNat 32 b) 0).toNat

theorem scatterU1_mem {α : Type u} {l : List α} {i : Nat} {v y : α} (h : y ∈ Jax.scatterU1 l i v) : y ∈ l ∨ y = v := by
  unfold Jax.scatterU1 at h
  by_cases hi : i < l.length
  · rw [if_pos hi] at h; exact List.mem_or_eq_of_mem_set h
  · rw [if_neg hi] at h; exact Or.inl h

theorem insertC_typed {D : Decl lens} {H : Hasher (Inst lens)} {T : Table (Inst lens)} (hT : ∀ y ∈ T.table, Typed D y) (x : Inst lens) :
    ∀ y ∈ (insertC D.store H T x).1.table, Typed D y := by
  unfold insertC
  dsimp only
  generalize HashTable.lookupBucket H T x = r
  intro y hy
  by_cases hc : (!r.2 && decide (HashTable.rd T.fill r.1.1 ≤ r.1.2)) = true
  · rw [if_pos hc] at hy
    rcases scatterU1_mem hy with h | rfl
    · exact hT y h
    · exact store_typed D x
  · rw [if_neg hc] at hy
    exact hT y hy

theorem inserts_typed {D : Decl lens} {m : Stream} {seed : W} (xs : List (Inst lens)) {T : Table (Inst lens)} (hT : ∀ y ∈ T.table, Typed D y) :
    ∀ y ∈ (inserts D m seed T xs).table, Typed D y := by
  induction xs generalizing T with
  | nil => exact hT
  | cons x xs ih => exact ih (insertC_typed hT x)

/-- Items of which the hash sees the values only. -/
def Coherent (D : Decl lens) (m : Stream) (seed : W) (lv : List (List Int) → List Leaf) (x : Inst lens) : Prop :=
  Fits D x ∧ hashPair m (lv x.vals.1) seed = hashPair m x.leaves seed

theorem Coherent.same {D : Decl lens} {m : Stream} {seed : W} {lv : List (List Int) → List Leaf} {x : Inst lens} (h : Coherent D m seed lv x) :
    Same Inst.vals (typedHasher m seed lens) (valHasher m seed lens lv) x where
  h1 := congrArg (fun p => p.1.toNat) h.2
  h2 := congrArg (fun p => p.2.toNat) h.2
  mix := fun _ _ => rfl

/-- The table of items behaves as the table of their values. -/
theorem inserts_view {D : Decl lens} {m : Stream} {seed : W} {lv : List (List Int) → List Leaf} (xs : List (Inst lens)) :
    ∀ {T : Table (Inst lens)}, (∀ y ∈ T.table, Typed D y) → (∀ x ∈ xs, Coherent D m seed lv x) →
    view Inst.vals (inserts D m seed T xs) =
      HashTable.exec (K := Option Nat) (valHasher m seed lens lv) (view Inst.vals T) (xs.map fun x => .insert x.vals) := by
  induction xs with
  | nil => intros; rfl
  | cons x xs ih =>
    intro T hT hx
    have h0 := hx x List.mem_cons_self
    have h1 := insert_view (HA := typedHasher m seed lens) (HB := valHasher m seed lens lv) (st := D.store) h0.same
      (fun y hy => beq_vals (hT y hy) h0.1) (store_vals h0.1)
    have h2 := ih (insertC_typed (H := typedHasher m seed lens) hT x) fun z hz => hx z (List.mem_cons_of_mem _ hz)
    show view Inst.vals (inserts D m seed _ xs) = _
    rw [h2, h1.1]
    rfl

/-! ## Spec -/

/-- The number stored at index `i`, if that slot is occupied. -/
def At (T : Table (Inst lens)) (i : Nat) (v : Vals lens) : Prop :=
  HashTable.Occupied T i ∧ ∃ y, HashTable.getitem T i = some y ∧ y.vals = v

/-- A table of declared dtypes `D` treats the items of `P` as an ordinary set of values: after any insertions of such items
* an item is found exactly if its value is stored, and at the index reported;
* an item reported as inserted is found at its index, holding its value in the declared dtypes, after any further insertions;
* no value is stored twice, and `size` is the number of stored values. -/
def Behaves (D : Decl lens) (m : Stream) (seed : W) (P : Inst lens → Prop) : Prop :=
  ∀ (d : Inst lens) (capacity bs mult : Nat) (mp : Option Nat), Typed D d → HashTable.ValidParams capacity bs mult mp →
    ∀ xs : List (Inst lens), (∀ x ∈ xs, P x) → ∀ T, T = inserts D m seed (HashTable.build d capacity bs mult mp) xs →
      (∀ x, P x → ((HashTable.lookup (typedHasher m seed lens) T x).2 = true ↔ ∃ i, At T i x.vals) ∧
        ((HashTable.lookup (typedHasher m seed lens) T x).2 = true → At T (HashTable.lookup (typedHasher m seed lens) T x).1 x.vals)) ∧
      (∀ x, P x → ∀ T' i, insertC D.store (typedHasher m seed lens) T x = (T', true, i) → ∀ zs : List (Inst lens), (∀ z ∈ zs, P z) →
        HashTable.lookup (typedHasher m seed lens) (inserts D m seed T' zs) x = (i, true) ∧
        ∃ y, HashTable.getitem (inserts D m seed T' zs) i = some y ∧ Typed D y ∧ y.vals = x.vals) ∧
      (∀ i j v, At T i v → At T j v → i = j) ∧ T.size = HashTable.occupiedCount T

theorem getitem_view (T : Table (Inst lens)) (i : Nat) : HashTable.getitem (view Inst.vals T) i = (HashTable.getitem T i).map Inst.vals := by
  unfold HashTable.getitem view Jax.gatherU
  rw [List.length_map, List.getElem?_map]

theorem stored_view (T : Table (Inst lens)) (i : Nat) (v : Vals lens) : HashTable.Stored (view Inst.vals T) v i ↔ At T i v := by
  unfold HashTable.Stored At
  rw [getitem_view, Option.map_eq_some_iff]
  rfl

theorem behaves_of_coherent {D : Decl lens} {m : Stream} {seed : W} {lv : List (List Int) → List Leaf} {P : Inst lens → Prop}
    (hP : ∀ x, P x → Coherent D m seed lv x) : Behaves D m seed P := by
  intro d capacity bs mult mp hd hv xs hxs T hT
  have hb : ∀ y ∈ (HashTable.build d capacity bs mult mp).table, Typed D y := fun y hy => by
    rw [List.eq_of_mem_replicate hy]; exact hd
  have hTt : ∀ y ∈ T.table, Typed D y := by rw [hT]; exact inserts_typed xs hb
  have hview : view Inst.vals T = HashTable.exec (K := Option Nat) (valHasher m seed lens lv) (HashTable.build d.vals capacity bs mult mp)
      (xs.map fun x => .insert x.vals) := by
    rw [hT, inserts_view xs hb fun x hx => hP x (hxs x hx)]
    congr 1
    unfold view HashTable.build
    simp
  have hr : HashTable.Reachable (Option Nat) (valHasher m seed lens lv) (view Inst.vals T) := ⟨d.vals, capacity, bs, mult, mp, _, hv, hview⟩
  have hlk : ∀ (T : Table (Inst lens)), (∀ y ∈ T.table, Typed D y) → ∀ x, P x →
      HashTable.lookup (valHasher m seed lens lv) (view Inst.vals T) x.vals = HashTable.lookup (typedHasher m seed lens) T x := by
    intro T hT x hx
    unfold HashTable.lookup
    rw [lookup_view (HA := typedHasher m seed lens) (hP x hx).same fun y hy => beq_vals (hT y hy) (hP x hx).1]
    rfl
  refine ⟨fun x hx => ?_, fun x hx T' i hins zs hzs => ?_, fun i j v hi hj => ?_, ?_⟩
  · have h := HashTable.lookup_exact hr x.vals
    rw [hlk T hTt x hx] at h
    refine ⟨h.1.trans ⟨fun ⟨i, hi⟩ => ⟨i, (stored_view T i _).1 hi⟩, fun ⟨i, hi⟩ => ⟨i, (stored_view T i _).2 hi⟩⟩, fun hf => (stored_view T _ _).1 (h.2 hf).1⟩
  · have h1 := insert_view (HA := typedHasher m seed lens) (HB := valHasher m seed lens lv) (st := D.store) (hP x hx).same
      (fun y hy => beq_vals (hTt y hy) (hP x hx).1) (store_vals (hP x hx).1)
    have hT't : ∀ y ∈ T'.table, Typed D y := by
      have := insertC_typed (H := typedHasher m seed lens) hTt x
      rw [hins] at this
      exact this
    rw [hins] at h1
    have h2 := HashTable.inserted_is_found hr x.vals (by rw [← h1.2]) (zs.map fun z => .insert z.vals)
    rw [← h1.1, ← h1.2, ← inserts_view zs hT't fun z hz => hP z (hzs z hz)] at h2
    have hzt := inserts_typed (D := D) (m := m) (seed := seed) zs hT't
    rw [hlk _ hzt x hx, getitem_view, Option.map_eq_some_iff] at h2
    obtain ⟨h3, y, hy, hyv⟩ := h2
    refine ⟨h3, y, hy, ?_, hyv⟩
    exact hzt y (List.mem_of_getElem? hy)
  · have h := (HashTable.stored_once hr).1 i j hi.1 hj.1 ?_
    · exact h
    · obtain ⟨_, y, hy, hyv⟩ := hi
      obtain ⟨_, z, hz, hzv⟩ := hj
      rw [getitem_view, getitem_view, hy, hz, Option.map_some, Option.map_some, hyv, hzv]
  · exact (HashTable.stored_once hr).2

/-! ## When it does -/

theorem hashPair_congr {m : Stream} {x y : List Leaf} {seed : W} (h : x.map leafWords = y.map leafWords) : hashPair m x seed = hashPair m y seed := by
  unfold hashPair
  have hu : uint32ed x = uint32ed y := by
    unfold uint32ed
    rw [List.flatMap_def, List.flatMap_def, h]
  rw [h, hu]

/-- **C108 (2).**  If all items are given in the same dtypes `ds'`, any integer dtypes, and the declared dtypes can hold their values, the table behaves. -/
theorem same_dtypes (D : Decl lens) (m : Stream) (seed : W) (ds' : List Dt) :
    Behaves D m seed fun x => x.fields.map (·.1) = ds' ∧ Fits D x := by
  refine behaves_of_coherent (lv := fun v => List.zipWith enc ds' v) fun x hx => ⟨hx.2, ?_⟩
  obtain ⟨rfl, _⟩ := hx
  congr 1
  unfold Inst.vals Inst.leaves
  simp only
  rw [List.zipWith_map_left, List.zipWith_map_right, List.zipWith_self]

theorem ofInt_setWidth {w : Nat} (hw : w ≤ 32) {v : Int} (h0 : 0 ≤ v) (h : v < 2 ^ w) : (BitVec.ofInt w v).setWidth 32 = BitVec.ofInt 32 v := by
  obtain ⟨n, rfl⟩ := Int.eq_ofNat_of_zero_le h0
  have hn : n < 2 ^ w := by exact_mod_cast h
  have h2 : 2 ^ w ≤ 2 ^ 32 := Nat.pow_le_pow_right (by decide) hw
  apply BitVec.eq_of_toNat_eq
  rw [BitVec.toNat_setWidth]
  show (BitVec.ofInt w (n : Int)).toNat % 2 ^ 32 = (BitVec.ofInt 32 (n : Int)).toNat
  rw [BitVec.ofInt_natCast, BitVec.ofInt_natCast, BitVec.toNat_ofNat, BitVec.toNat_ofNat, Nat.mod_eq_of_lt hn]

/-- One element is one word: the number itself if it is not negative. -/
theorem one_word {d : Dt} (hd : d.isInt = true) {v : Int} (hv : wrap d v = v) (h0 : 0 ≤ v) : leafWords (enc d [v]) = [BitVec.ofInt 32 v] := by
  have q8 : ∀ b : BitVec 8, leafWords (.w8 [b]) = [b.setWidth 32] := fun b => by
    simp [leafWords, HashModel.wordsOfBytes, HashModel.quads8]
  have q16 : ∀ b : BitVec 16, leafWords (.w16 [b]) = [b.setWidth 32] := fun b => by
    simp [leafWords, HashModel.packUint16, HashModel.pairs16]
  cases d <;> first | cases hd | skip
  all_goals simp only [wrap] at hv
  · have : v = 0 ∨ v = 1 := by omega
    rcases this with rfl | rfl <;> decide
  · show leafWords (.w8 [_]) = _
    rw [q8, ofInt_setWidth (by decide) h0 (by omega)]
  · show leafWords (.w16 [_]) = _
    rw [q16, ofInt_setWidth (by decide) h0 (by omega)]
  · rfl
  · show leafWords (.w8 [_]) = _
    rw [q8, ofInt_setWidth (by decide) h0 (by omega)]
  · show leafWords (.w16 [_]) = _
    rw [q16, ofInt_setWidth (by decide) h0 (by omega)]
  · rfl

/-- **C108 (3).**  If every field is one number and none is negative, the dtypes of the items do not matter and may change from call to call. -/
theorem scalar_fields (D : Decl lens) (m : Stream) (seed : W) :
    Behaves D m seed fun x => Fits D x ∧ ∀ f ∈ x.fields, ∃ v, f.2 = [v] ∧ 0 ≤ v := by
  refine behaves_of_coherent (lv := fun v => v.map (enc .i32)) fun x hx => ⟨hx.1, ?_⟩
  apply hashPair_congr
  unfold Inst.vals Inst.leaves
  simp only [List.map_map]
  refine List.map_congr_left fun f hf => ?_
  obtain ⟨v, hv, h0⟩ := hx.2 f hf
  have hok := x.ok f hf
  rw [hv] at hok
  show leafWords (enc .i32 f.2) = leafWords (enc f.1 f.2)
  rw [hv, one_word hok.1 (hok.2 v List.mem_cons_self) h0]
  rfl

/-! ## When it does not -/

/-- The word of one negative number of a signed dtype. -/
theorem neg_word {d : Dt} (hd : d.signed = true) {v : Int} (hv : wrap d v = v) (h0 : v < 0) :
    ∃ n : Nat, leafWords (enc d [v]) = [BitVec.ofNat 32 n] ∧ n < 2 ^ 32 ∧
      (n : Int) = v + (if d = .i8 then 2 ^ 8 else if d = .i16 then 2 ^ 16 else 2 ^ 32) := by
  have q8 : ∀ b : BitVec 8, leafWords (.w8 [b]) = [b.setWidth 32] := fun b => by
    simp [leafWords, HashModel.wordsOfBytes, HashModel.quads8]
  have q16 : ∀ b : BitVec 16, leafWords (.w16 [b]) = [b.setWidth 32] := fun b => by
    simp [leafWords, HashModel.packUint16, HashModel.pairs16]
  have key : ∀ (w : Nat), w ≤ 32 → -(2 ^ w : Int) ≤ v → (BitVec.ofInt w v).setWidth 32 = BitVec.ofNat 32 (v + 2 ^ w).toNat := by
    intro w hw hlo
    have h2 : 2 ^ w ≤ 2 ^ 32 := Nat.pow_le_pow_right (by decide) hw
    apply BitVec.eq_of_toNat_eq
    rw [BitVec.toNat_setWidth, BitVec.toNat_ofInt, BitVec.toNat_ofNat]
    have hm : v % ((2 ^ w : Nat) : Int) = v + 2 ^ w := by
      rw [show v = (v + ((2 ^ w : Nat) : Int)) - ((2 ^ w : Nat) : Int) by omega, Int.sub_emod_right]
      push_cast
      rw [Int.emod_eq_of_lt] <;> omega
    rw [hm]
  cases d <;> first | cases hd | skip
  all_goals simp only [wrap] at hv
  · refine ⟨(v + 2 ^ 8).toNat, ?_, by omega, ?_⟩
    · show leafWords (.w8 [_]) = _
      rw [q8, key 8 (by decide) (by omega)]
    · rw [if_pos rfl]; omega
  · refine ⟨(v + 2 ^ 16).toNat, ?_, by omega, ?_⟩
    · show leafWords (.w16 [_]) = _
      rw [q16, key 16 (by decide) (by omega)]
    · rw [if_neg (by decide), if_pos rfl]; omega
  · refine ⟨(v + 2 ^ 32).toNat, ?_, by omega, ?_⟩
    · have := key 32 (by decide) (by omega)
      rw [BitVec.setWidth_eq] at this
      show [BitVec.ofInt 32 v] = _
      rw [this]
    · rw [if_neg (by decide), if_neg (by decide)]; omega

/-- **C108 (4).**  A negative number in a field of one element, given in signed dtypes of different width: the two instances are equal, and their hashes
differ for every seed, whatever the other fields are. -/
theorem negative_hash_differs {d d' : Dt} (hd : d.signed = true) (hd' : d'.signed = true) (hne : d ≠ d') {v : Int} (hv : wrap d v = v) (hv' : wrap d' v = v) (h0 : v < 0)
    (pre suf : List (Dt × List Int)) (m : Stream) (seed : W) :
    eqInst (pre ++ (d, [v]) :: suf) (pre ++ (d', [v]) :: suf) = true ∧
    HashModel.hash m ((pre ++ (d, [v]) :: suf).map fun f => enc f.1 f.2) seed ≠ HashModel.hash m ((pre ++ (d', [v]) :: suf).map fun f => enc f.1 f.2) seed := by
  have hrefl : ∀ l, eqInst l l = true := by
    intro l
    induction l with
    | nil => rfl
    | cons a l ih => rw [eqInst, ih]; simp [eqField]
  constructor
  · induction pre with
    | nil =>
      show eqInst ((d, [v]) :: suf) ((d', [v]) :: suf) = true
      rw [eqInst, hrefl]; simp [eqField]
    | cons a pre ih =>
      show eqInst (a :: (pre ++ _)) (a :: (pre ++ _)) = true
      rw [eqInst, ih]; simp [eqField]
  · obtain ⟨n, hn, hl, hc⟩ := neg_word hd hv h0
    obtain ⟨n', hn', hl', hc'⟩ := neg_word hd' hv' h0
    have hnn : n ≠ n' := by
      intro e
      subst e
      rw [hc] at hc'
      cases d <;> first | cases hd | skip
      all_goals cases d' <;> first | exact hne rfl | cases hd'
      all_goals simp at hc'
    have hw : BitVec.ofNat 32 n ≠ BitVec.ofNat 32 n' := by
      intro e
      have := congrArg BitVec.toNat e
      rw [BitVec.toNat_ofNat, BitVec.toNat_ofNat, Nat.mod_eq_of_lt hl, Nat.mod_eq_of_lt hl'] at this
      exact hnn this
    have hu : ∀ (e : Dt) (w : W), leafWords (enc e [v]) = [w] → uint32ed ((pre ++ (e, [v]) :: suf).map fun f => enc f.1 f.2) =
        uint32ed (pre.map fun f => enc f.1 f.2) ++ w :: uint32ed (suf.map fun f => enc f.1 f.2) := by
      intro e w h
      unfold uint32ed
      rw [List.map_append, List.map_cons, List.flatMap_append, List.flatMap_cons, h]
      rfl
    rw [(HashModel.hash_entry_points_agree_partial m _ seed (Or.inr (by rw [hu d _ hn]; simp))).1,
      (HashModel.hash_entry_points_agree_partial m _ seed (Or.inr (by rw [hu d' _ hn']; simp))).1, hu d _ hn, hu d' _ hn']
    exact HashModel.hash_detects_single_word _ _ _ _ seed hw

/-- Some number of `x` is none of the declared dtype, and the dtypes are not `uint32` on one side and signed on the other. -/
def Misfit (D : Decl lens) (x : Inst lens) : Prop :=
  ∃ p ∈ D.ds.zip x.fields, (∃ v ∈ p.2.2, wrap p.1 v ≠ v) ∧ ¬ (p.1 = .u32 ∧ p.2.1.signed = true) ∧ ¬ (p.1.signed = true ∧ p.2.1 = .u32)

theorem promote_keeps {d d' : Dt} (hd : d.isInt = true) (hd' : d'.isInt = true) (h1 : ¬ (d = .u32 ∧ d'.signed = true)) (h2 : ¬ (d.signed = true ∧ d' = .u32)) :
    (∀ {v : Int}, wrap d' v = v → wrap (promote d d') v = v) ∧ ∀ {v : Int}, wrap d v = v → wrap (promote d d') v = v := by
  cases d <;> first | cases hd | skip
  all_goals cases d' <;> first | exact (h1 ⟨rfl, rfl⟩).elim | exact (h2 ⟨rfl, rfl⟩).elim | cases hd'
  all_goals
    refine ⟨fun {v} h => ?_, fun {v} h => ?_⟩ <;> simp only [promote, wrap] at h ⊢ <;> omega

theorem misfit_unequal {D : Decl lens} {x y : Inst lens} (hy : Typed D y) (hx : Misfit D x) : (y == x) = false := by
  show eqInst y.fields x.fields = false
  obtain ⟨p, hp, ⟨v, hv, hne⟩, h1, h2⟩ := hx
  have hl := Inst.length_eq x y
  have hyo := y.ok
  have hxo := x.ok
  unfold Typed at hy
  generalize D.ds = ds at hp hy
  generalize x.fields = xs at hp hl hxo
  generalize y.fields = ys at hy hl hyo
  induction ds generalizing xs ys with
  | nil => cases hp
  | cons d ds ih => cases xs with
    | nil => cases hp
    | cons f xs => cases ys with
      | nil => cases hy
      | cons g ys =>
        rw [List.map_cons, List.cons.injEq] at hy
        rw [eqInst]
        rcases List.mem_cons.1 hp with h | h
        · have : eqField g f = false := by
            subst h
            obtain ⟨rfl, _⟩ := hy
            have hg := hyo g List.mem_cons_self
            have hf := hxo f List.mem_cons_self
            unfold eqField
            rw [beq_eq_false_iff_ne]
            intro he
            have hk := promote_keeps hg.1 hf.1 h1 h2
            have hm : v ∈ f.2.map (wrap (promote g.1 f.1)) := List.mem_map.2 ⟨v, hv, hk.1 (hf.2 v hv)⟩
            rw [← he] at hm
            obtain ⟨w, hw, hwv⟩ := List.mem_map.1 hm
            rw [hk.2 (hg.2 w hw)] at hwv
            subst hwv
            exact hne (hg.2 w hw)
          rw [this]; rfl
        · rw [ih xs h (fun z hz => hxo z (List.mem_cons_of_mem _ hz)) ys hy.2 (by simpa using hl) fun z hz => hyo z (List.mem_cons_of_mem _ hz), Bool.and_false]

/-- **C108 (5).**  An item with a number that the declared dtype cannot hold is never found, not even right after it was inserted, and is inserted again
as long as its first bucket has room. -/
theorem misfit_never_found {D : Decl lens} {m : Stream} {seed : W} {d x : Inst lens} {capacity bs mult : Nat} {mp : Option Nat} (hd : Typed D d)
    (hx : Misfit D x) (xs : List (Inst lens)) {T : Table (Inst lens)} (hT : T = inserts D m seed (HashTable.build d capacity bs mult mp) xs) :
    (HashTable.lookup (typedHasher m seed lens) T x).2 = false ∧
    (0 < T.maxProbes → T.bs ≤ 255 → HashTable.rd T.fill (HashTable.start (typedHasher m seed lens) T x) < T.bs →
      (insertC D.store (typedHasher m seed lens) T x).2.1 = true) := by
  have hb : ∀ y ∈ (HashTable.build d capacity bs mult mp).table, Typed D y := fun y hy => by
    rw [List.eq_of_mem_replicate hy]; exact hd
  have hTt : ∀ y ∈ T.table, Typed D y := by rw [hT]; exact inserts_typed xs hb
  have hs : ∀ b, (HashTable.scanBucket (typedHasher m seed lens) T x b).1 = false := by
    intro b
    apply HashTable.scan_noneB
    intro s _ _
    cases hg : Jax.gatherU T.table (HashTable.flat T b s) with
    | none => rfl
    | some y => exact misfit_unequal (hTt y (List.mem_of_getElem? hg)) hx
  refine ⟨HashTable.lookupLoop_none _ _ _ hs _ _ _ _, fun hmp hbs hroom => ?_⟩
  have hl : HashTable.limit T (HashTable.start (typedHasher m seed lens) T x) =
      HashTable.rd T.fill (HashTable.start (typedHasher m seed lens) T x) := Nat.mod_eq_of_lt (by omega)
  have hbk := HashTable.lookup_stop (typedHasher m seed lens) T x hmp (hs _) (by rw [hl]; omega)
  unfold insertC
  dsimp only
  rw [hbk]
  dsimp only
  rw [hl]
  simp

/-! ## Examples -/

/-- A class that declares a `uint8` array of two elements. -/
def two : Decl [2] := ⟨[.u8], rfl, by decide⟩

/-- The values 1 and 2 in dtype `d`. -/
def oneTwo (d : Dt) (h : d.isInt = true ∧ ∀ v ∈ [(1 : Int), 2], wrap d v = v) : Inst [2] := ⟨[(d, [1, 2])], rfl, fun f hf => by
  rw [List.mem_singleton.1 hf]; exact h⟩

/-- **C108 (6).**  With dtypes that change from call to call a table holds a value twice: `[1, 2]` is inserted as `uint8`; given as `int32` it equals the stored item and is not found;
inserted, it takes a second slot, and is then found in either dtype at a different index. -/
theorem mixed_dtypes_stored_twice :
    let H := typedHasher (.auto 4096) 42 [2]
    let a := oneTwo .u8 (by decide)
    let b := oneTwo .i32 (by decide)
    let T := (insertC two.store H (HashTable.build a 8 4 2 none) a).1
    let T' := (insertC two.store H T b).1
    (a == b) = true ∧ a.vals = b.vals ∧ Fits two b ∧ (HashTable.lookup H T a).2 = true ∧ (HashTable.lookup H T b).2 = false ∧
    T'.size = 2 ∧ (HashTable.lookup H T' a).2 = true ∧ (HashTable.lookup H T' b).2 = true ∧
    (HashTable.lookup H T' a).1 ≠ (HashTable.lookup H T' b).1 := by
  unfold Fits
  decide +kernel

/-- `uint32` against a signed dtype: compared modulo `2^32`, so 4294967295 equals -1. -/
theorem unsigned_equals_negative : eqInst [(.u32, [4294967295])] [(.i32, [-1])] = true ∧ eqInst [(.u32, [4294967295])] [(.i8, [-1])] = true := by
  decide

/-- Non-vacuity: one class, several dtypes; a misfit. -/
example : (∃ x : Inst [1, 1], Fits ⟨[.u8, .i32], rfl, by decide⟩ x ∧ x.fields = [(.i32, [200]), (.u16, [7])] ∧ ∀ f ∈ x.fields, ∃ v, f.2 = [v] ∧ 0 ≤ v) ∧
    (∃ x : Inst [2], Misfit two x ∧ x.fields = [(.i32, [1, 300])]) ∧ HashTable.ValidParams 8 4 2 none ∧ Typed two (oneTwo .u8 (by decide)) := by
  refine ⟨⟨⟨[(.i32, [200]), (.u16, [7])], rfl, by decide⟩, by unfold Fits; decide, rfl, fun f hf => ?_⟩, ⟨⟨[(.i32, [1, 300])], rfl, by decide⟩, ?_, rfl⟩,
    ⟨by decide, by decide, by decide +kernel, fun m h => by cases h⟩, rfl⟩
  · rcases List.mem_cons.1 hf with rfl | hf
    · exact ⟨200, rfl, by decide⟩
    · rw [List.mem_singleton.1 hf]; exact ⟨7, rfl, by decide⟩
  · exact ⟨(.u8, .i32, [1, 300]), List.mem_cons_self, ⟨300, by decide, by decide⟩, by decide, by decide⟩

end DtypeMix
