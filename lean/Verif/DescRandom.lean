import Verif.DescPolicy

/-!
# C57 random instances, C58 unpacking to the declared dtypes
-/

namespace Desc

open Io (DType Arr)

/-! ## C57 -/

/-- What is assumed of the generator: arrays of the requested size, entries of the requested type. -/
structure Rng.Ok {K : Type} (g : Rng K) : Prop where
  bits : ∀ k w s, (g.bits k w s).length = Bitpack.size s ∧ ∀ v ∈ g.bits k w s, 0 ≤ v ∧ v < 2 ^ w
  uniform : ∀ k t s, (g.uniform k t s).length = Bitpack.size s
  bernoulli : ∀ k s, (g.bernoulli k s).length = Bitpack.size s ∧ ∀ v ∈ g.bernoulli k s, 0 ≤ v ∧ v ≤ 1

/-- dtypes that exist: at least one bit. -/
def DtypeOk : DType → Prop
  | .uint w => 1 ≤ w
  | .int w => 1 ≤ w
  | _ => True

def Cls.DtypesOk : Cls → Prop
  | .nil => True
  | .leaf _ d rest => DtypeOk d.dtype ∧ rest.DtypesOk
  | .nested _ _ _ _ sub rest => sub.DtypesOk ∧ rest.DtypesOk

/-- Every entry of every array at any depth is a value of the declared dtype. -/
def EntriesOk : Cls → Val → Prop
  | .nil, .nil => True
  | .leaf _ d rest, .arr _ a r => (∀ v ∈ a.data, InDtype d.dtype v) ∧ EntriesOk rest r
  | .nested _ _ _ _ sub rest, .obj _ _ x r => EntriesOk sub x ∧ EntriesOk rest r
  | _, _ => False

theorem randomArr_ok {K : Type} {g : Rng K} (hg : g.Ok) (k : K) {t : DType} (ht : DtypeOk t) (s : List Nat) :
    (randomArr g k t s).dtype = t ∧ (randomArr g k t s).shape = s ∧ (randomArr g k t s).data.length = Bitpack.size s ∧
      ∀ v ∈ (randomArr g k t s).data, InDtype t v := by
  cases t with
  | bool => exact ⟨rfl, rfl, (hg.bernoulli k s).1, (hg.bernoulli k s).2⟩
  | uint w => exact ⟨rfl, rfl, (hg.bits k w s).1, (hg.bits k w s).2⟩
  | int w =>
    refine ⟨rfl, rfl, ?_, ?_⟩
    · simp only [randomArr, List.length_map]; exact (hg.bits k w s).1
    · intro v hv
      simp only [randomArr, List.mem_map] at hv
      obtain ⟨u, hu, rfl⟩ := hv
      obtain ⟨h0, h1⟩ := (hg.bits k w s).2 u hu
      have hw : 1 ≤ w := ht
      have hp : (2 : Int) ^ w = 2 * 2 ^ (w - 1) := by
        rw [← Int.pow_succ']
        congr 1
        omega
      show -2 ^ (w - 1) ≤ viewSigned w u ∧ viewSigned w u < 2 ^ (w - 1)
      unfold viewSigned
      by_cases hl : u < 2 ^ (w - 1)
      · rw [if_pos hl]; constructor <;> omega
      · rw [if_neg hl]; constructor <;> omega
  | float w => exact ⟨rfl, rfl, hg.uniform k _ s, fun _ _ => trivial⟩
  | ext n => exact ⟨rfl, rfl, hg.uniform k _ s, fun _ _ => trivial⟩

theorem randomFields_ok {K : Type} {g : Rng K} (hg : g.Ok) : ∀ (c : Cls) (b : List Nat) (k : K) (n i : Nat), c.NoValidator → c.DtypesOk →
    ∃ x, randomFields g c b k n i = .ok x ∧ Shaped b c x ∧ EntriesOk c x
  | .nil, b, k, n, i, _, _ => ⟨.nil, rfl, trivial, trivial⟩
  | .leaf nm d rest, b, k, n, i, hv, hd => by
    obtain ⟨r, hr, hs, he⟩ := randomFields_ok hg rest b k n (i + 1) hv.2 hd.2
    obtain ⟨h1, h2, h3, h4⟩ := randomArr_ok hg (g.split k n i) hd.1 (b ++ d.ish)
    refine ⟨.arr nm (randomArr g (g.split k n i) d.dtype (b ++ d.ish)) r, ?_, ⟨rfl, h1, h2, by rw [h2]; exact h3, hs⟩, h4, he⟩
    rw [randomFields, hr]
  | .nested nm ish cid v sub rest, b, k, n, i, hv, hd => by
    obtain ⟨x, hx, hsx, hex⟩ := randomFields_ok hg sub (b ++ ish) (g.split k n i) sub.width 0 hv.1 hd.1
    obtain ⟨r, hr, hs, he⟩ := randomFields_ok hg rest b k n (i + 1) hv.2 hd.2
    refine ⟨.obj nm cid x r, ?_, ⟨rfl, rfl, hsx, hs⟩, hex, he⟩
    rw [randomFields, hx]
    dsimp only
    rw [construct_shaped hv.1 hsx]
    dsimp only
    rw [hr]

/-- **C57.**  `random(shape, key)` returns, for every key and every shape, an instance with that batch shape, the declared dtypes and entries of the
declared dtypes; it passes validation. -/
theorem random_spec_partial {K : Type} {g : Rng K} (hg : g.Ok) (v : Bool) {c : Cls} (hv : c.NoValidator) (hd : c.DtypesOk) (b : List Nat) (k : K) :
    ∃ x, random g v c b k = .ok x ∧ Shaped b c x ∧ EntriesOk c x := by
  obtain ⟨x, hx, hs, he⟩ := randomFields_ok hg c b k c.width 0 hv hd
  refine ⟨x, ?_, hs, he⟩
  rw [random, hx]
  exact construct_shaped hv hs

/-- The paths of the array fields, as the indices of the fields on the way and the number of fields of their classes. -/
def leafPaths : Cls → Nat → Nat → List (Nat × Nat) → List (List (Nat × Nat))
  | .nil, _, _, _ => []
  | .leaf _ _ rest, n, i, pre => (pre ++ [(n, i)]) :: leafPaths rest n (i + 1) pre
  | .nested _ _ _ _ sub rest, n, i, pre => leafPaths sub sub.width 0 (pre ++ [(n, i)]) ++ leafPaths rest n (i + 1) pre

/-- The key reached from `k` by a sequence of splits. -/
def Rng.follow {K : Type} (g : Rng K) (k : K) (p : List (Nat × Nat)) : K := p.foldl (fun k q => g.split k q.1 q.2) k

/-- The arrays of an instance, in order. -/
def arrays : Val → List Arr
  | .nil => []
  | .arr _ a r => a :: arrays r
  | .obj _ _ x r => arrays x ++ arrays r
  | .other _ r => arrays r

/-- The array fields of a class, with their full shapes below a batch. -/
def fieldShapes : Cls → List Nat → List (DType × List Nat)
  | .nil, _ => []
  | .leaf _ d rest, b => (d.dtype, b ++ d.ish) :: fieldShapes rest b
  | .nested _ ish _ _ sub rest, b => fieldShapes sub (b ++ ish) ++ fieldShapes rest b

theorem construct_eq {v : Bool} {c : Cls} {x y : Val} (h : construct v c x = .ok y) : y = x := by
  unfold construct at h
  split at h
  · split at h
    · cases h
    · cases h; rfl
  · cases h; rfl

theorem leafPaths_length : ∀ (c : Cls) (b : List Nat) (n i : Nat) (pre : List (Nat × Nat)), (leafPaths c n i pre).length = (fieldShapes c b).length
  | .nil, _, _, _, _ => rfl
  | .leaf _ _ rest, b, n, i, pre => by simp only [leafPaths, fieldShapes, List.length_cons, leafPaths_length rest b]
  | .nested _ ish _ _ sub rest, b, n, i, pre => by
    simp only [leafPaths, fieldShapes, List.length_append, leafPaths_length rest b, leafPaths_length sub (b ++ ish)]

theorem randomFields_arrays {K : Type} {g : Rng K} (k0 : K) : ∀ (c : Cls) (b : List Nat) (pre : List (Nat × Nat)) (n i : Nat) (x : Val),
    randomFields g c b (g.follow k0 pre) n i = .ok x →
    arrays x = List.zipWith (fun p (f : DType × List Nat) => randomArr g (g.follow k0 p) f.1 f.2) (leafPaths c n i pre) (fieldShapes c b)
  | .nil, b, pre, n, i, x, h => by cases h; rfl
  | .leaf nm d rest, b, pre, n, i, x, h => by
    rw [randomFields] at h
    rcases hr : randomFields g rest b (g.follow k0 pre) n (i + 1) with e | r
    · rw [hr] at h; cases h
    · rw [hr] at h
      cases h
      simp only [arrays, leafPaths, fieldShapes, List.zipWith_cons_cons, randomFields_arrays k0 rest b pre n (i + 1) r hr]
      simp only [Rng.follow, List.foldl_append, List.foldl_cons, List.foldl_nil]
  | .nested nm ish cid v sub rest, b, pre, n, i, x, h => by
    rw [randomFields] at h
    have hk : g.split (g.follow k0 pre) n i = g.follow k0 (pre ++ [(n, i)]) := by
      simp only [Rng.follow, List.foldl_append, List.foldl_cons, List.foldl_nil]
    rw [hk] at h
    rcases hs : randomFields g sub (b ++ ish) (g.follow k0 (pre ++ [(n, i)])) sub.width 0 with e | y
    · rw [hs] at h; cases h
    · rw [hs] at h
      dsimp only at h
      rcases hc : construct v sub y with e | y'
      · rw [hc] at h; cases h
      · rw [hc] at h
        dsimp only at h
        have := construct_eq hc
        subst this
        rcases hr : randomFields g rest b (g.follow k0 pre) n (i + 1) with e | r
        · rw [hr] at h; cases h
        · rw [hr] at h
          cases h
          simp only [arrays, leafPaths, fieldShapes]
          rw [randomFields_arrays k0 sub (b ++ ish) (pre ++ [(n, i)]) sub.width 0 y' hs, randomFields_arrays k0 rest b pre n (i + 1) r hr,
            List.zipWith_append (leafPaths_length _ _ _ _ _)]

theorem leafPaths_prefix : ∀ (c : Cls) (n i : Nat) (pre p : List (Nat × Nat)), p ∈ leafPaths c n i pre → ∃ j q, i ≤ j ∧ p = pre ++ (n, j) :: q
  | .nil, _, _, _, _, h => by cases h
  | .leaf _ _ rest, n, i, pre, p, h => by
    rcases List.mem_cons.1 h with rfl | h
    · exact ⟨i, [], Nat.le_refl _, rfl⟩
    · obtain ⟨j, q, hj, rfl⟩ := leafPaths_prefix rest n (i + 1) pre p h
      exact ⟨j, q, by omega, rfl⟩
  | .nested _ _ _ _ sub rest, n, i, pre, p, h => by
    rcases List.mem_append.1 h with h | h
    · obtain ⟨j, q, _, rfl⟩ := leafPaths_prefix sub sub.width 0 (pre ++ [(n, i)]) p h
      exact ⟨i, (sub.width, j) :: q, Nat.le_refl _, by simp⟩
    · obtain ⟨j, q, hj, rfl⟩ := leafPaths_prefix rest n (i + 1) pre p h
      exact ⟨j, q, by omega, rfl⟩

theorem leafPaths_nodup : ∀ (c : Cls) (n i : Nat) (pre : List (Nat × Nat)), (leafPaths c n i pre).Nodup
  | .nil, _, _, _ => List.nodup_nil
  | .leaf _ _ rest, n, i, pre => by
    rw [leafPaths, List.nodup_cons]
    refine ⟨fun h => ?_, leafPaths_nodup rest n (i + 1) pre⟩
    obtain ⟨j, q, hj, he⟩ := leafPaths_prefix rest n (i + 1) pre _ h
    have := List.append_cancel_left he
    simp only [List.cons.injEq, Prod.mk.injEq] at this
    omega
  | .nested _ _ _ _ sub rest, n, i, pre => by
    rw [leafPaths, List.nodup_append]
    refine ⟨leafPaths_nodup sub _ _ _, leafPaths_nodup rest _ _ _, ?_⟩
    intro p hp p' hp' he
    subst he
    obtain ⟨j, q, _, h1⟩ := leafPaths_prefix sub _ _ _ _ hp
    obtain ⟨j', q', hj', h2⟩ := leafPaths_prefix rest _ _ _ _ hp'
    rw [h1, List.append_assoc] at h2
    have := List.append_cancel_left h2
    simp only [List.singleton_append, List.cons.injEq, Prod.mk.injEq] at this
    omega

/-- **C57.**  No two array fields of an instance share a key: each field is drawn with the key reached from the given one by the splits along
its own path, and these paths are pairwise different. -/
theorem random_keys {K : Type} {g : Rng K} {v : Bool} {c : Cls} {b : List Nat} {k : K} {x : Val} (h : random g v c b k = .ok x) :
    ∃ paths : List (List (Nat × Nat)), paths.Nodup ∧ paths.length = (fieldShapes c b).length ∧
      arrays x = List.zipWith (fun p (f : DType × List Nat) => randomArr g (g.follow k p) f.1 f.2) paths (fieldShapes c b) := by
  unfold random at h
  rcases hx : randomFields g c b k c.width 0 with e | y
  · rw [hx] at h; cases h
  · rw [hx] at h
    dsimp only at h
    have := construct_eq h
    subst this
    exact ⟨leafPaths c c.width 0 [], leafPaths_nodup _ _ _ _, leafPaths_length _ _ _ _ _, randomFields_arrays k c b [] c.width 0 x hx⟩

/-- Every entry is within the declared number of bits. -/
def BitsOk : Cls → Val → Prop
  | .nil, .nil => True
  | .leaf _ d rest, .arr _ a r => (∀ b, d.bits = some b → ∀ v ∈ a.data, 0 ≤ v ∧ v < 2 ^ b) ∧ BitsOk rest r
  | .nested _ _ _ _ sub rest, .obj _ _ x r => BitsOk sub x ∧ BitsOk rest r
  | _, _ => False

/-- A generator whose bits are all ones (any generator that can produce a large value would do). -/
def ones : Rng Unit := ⟨fun _ _ _ => (), fun _ w s => List.replicate (Bitpack.size s) (2 ^ w - 1), fun _ _ s => List.replicate (Bitpack.size s) 0,
  fun _ s => List.replicate (Bitpack.size s) 1⟩

/-- **`random` ignores `bits`**: entries range over the whole dtype, so that packing a random instance loses information. -/
theorem random_bits_false : ∃ (g : Rng Unit) (c : Cls) (x : Val), g.Ok ∧ c.Packable ∧ random g true c [] () = .ok x ∧ ¬ BitsOk c x := by
  refine ⟨ones, packCls, .arr "a" ⟨.uint 8, [2], [255, 255]⟩ (.obj "in" 1 (.arr "x" ⟨.uint 8, [2], [255, 255]⟩ .nil) .nil), ?_, ?_, by rfl, ?_⟩
  · refine ⟨fun k w s => ⟨List.length_replicate, fun v hv => ?_⟩, fun k t s => List.length_replicate, fun k s => ⟨List.length_replicate, fun v hv => ?_⟩⟩
    · have := List.eq_of_mem_replicate hv
      have hp : (0 : Int) < 2 ^ w := Int.pow_pos (by decide)
      omega
    · have := List.eq_of_mem_replicate hv
      omega
  · refine ⟨?_, rfl, ⟨?_, trivial⟩, trivial⟩ <;> simp [bitsFD]
  · rintro ⟨h, _⟩
    have := (h 3 rfl 255 (by simp)).2
    omega

/-! ## C58 -/

/-- The value survives packing in `bits` bits and the conversion back to the dtype: it is within `0 .. 2^bits - 1` (and of the dtype), or it is an
integer of a dtype that has at most `bits` bits. -/
def Recoverable (t : DType) (bits : Nat) (v : Int) : Prop :=
  InDtype t v ∧ (match t with
    | .bool => True
    | .uint w => v < 2 ^ bits ∧ 1 ≤ w
    | .int w => 1 ≤ w ∧ ((0 ≤ v ∧ v < 2 ^ bits) ∨ w ≤ bits)
    | _ => False)

theorem cast_red {t : DType} {bits : Nat} {v : Int} (hb : 1 ≤ bits) (h : Recoverable t bits v) : Io.cast t (Agg.red bits v) = some v := by
  obtain ⟨hd, hr⟩ := h
  have hpb : (0 : Int) < 2 ^ bits := Int.pow_pos (by decide)
  have hred : 0 ≤ v → v < 2 ^ bits → Agg.red bits v = v.toNat := by
    intro h0 h1
    unfold Agg.red
    rw [Int.emod_eq_of_lt h0 h1]
  cases t with
  | bool =>
    obtain ⟨h0, h1⟩ := hd
    have h2 : (2 : Int) ≤ 2 ^ bits := by
      obtain ⟨m, rfl⟩ : ∃ m, bits = m + 1 := ⟨bits - 1, by omega⟩
      have : (0 : Int) < 2 ^ m := Int.pow_pos (by decide)
      rw [Int.pow_succ]
      omega
    rw [hred h0 (by omega)]
    unfold Io.cast
    rcases (show v = 0 ∨ v = 1 by omega) with rfl | rfl <;> rfl
  | uint w =>
    obtain ⟨h0, h1⟩ := hd
    rw [hred h0 hr.1]
    show some ((v.toNat % 2 ^ w : Nat) : Int) = some v
    congr 1
    have h2 : v.toNat < 2 ^ w := by
      have : ((2 ^ w : Nat) : Int) = 2 ^ w := by push_cast; rfl
      omega
    rw [Nat.mod_eq_of_lt h2]
    omega
  | int w =>
    obtain ⟨hw, hr⟩ := hr
    obtain ⟨h0, h1⟩ := hd
    have hp : (2 : Int) ^ w = 2 * 2 ^ (w - 1) := by
      rw [← Int.pow_succ']
      congr 1
      omega
    show some ((((Agg.red bits v : Nat) : Int) + 2 ^ (w - 1)) % 2 ^ w - 2 ^ (w - 1)) = some v
    congr 1
    have hv : ∃ m : Int, ((Agg.red bits v : Nat) : Int) = v + 2 ^ w * m := by
      by_cases hn : 0 ≤ v ∧ v < 2 ^ bits
      · rw [hred hn.1 hn.2]
        exact ⟨0, by omega⟩
      · have hle : w ≤ bits := hr.resolve_left hn
        unfold Agg.red
        rw [Int.toNat_of_nonneg (Int.emod_nonneg _ (by omega))]
        refine ⟨2 ^ (bits - w) * (-(v / 2 ^ bits)), ?_⟩
        have h3 := Int.emod_add_mul_ediv v (2 ^ bits)
        have h4 : (2 : Int) ^ bits = 2 ^ w * 2 ^ (bits - w) := by
          rw [← Int.pow_add]
          congr 1
          omega
        rw [← Int.mul_assoc, ← h4, Int.mul_neg]
        omega
    obtain ⟨m, hm⟩ := hv
    rw [hm, show v + 2 ^ w * m + 2 ^ (w - 1) = v + 2 ^ (w - 1) + 2 ^ w * m by omega, Int.add_mul_emod_self_left,
      Int.emod_eq_of_lt (by omega) (by omega)]
    omega
  | float w => exact hr.elim
  | ext n => exact hr.elim

/-- Every value of the instance is recoverable. -/
def AllRecoverable : Cls → Agg.Inst (List Int) → Prop
  | .nil, .nil => True
  | .leaf _ d rest, .leaf _ v r => (∀ b, d.bits = some b → ∀ x ∈ v, Recoverable d.dtype b x) ∧ AllRecoverable rest r
  | .nested _ _ _ _ sub rest, .nested _ x r => AllRecoverable sub x ∧ AllRecoverable rest r
  | _, _ => False

theorem mapM_cast {t : DType} {bits : Nat} (hb : 1 ≤ bits) : ∀ v : List Int, (∀ x ∈ v, Recoverable t bits x) →
    (v.map (Agg.red bits)).mapM (Io.cast t) = some v
  | [], _ => rfl
  | x :: v, h => by
    rw [List.map_cons, List.mapM_cons, cast_red hb (h x List.mem_cons_self), mapM_cast hb v fun y hy => h y (List.mem_cons_of_mem _ hy)]
    rfl

theorem toDeclared_reduced {flatN : Nat} : ∀ (c : Cls) (x : Agg.Inst (List Int)), c.MadeAll → c.Packable → Agg.Conforms flatN (aggCls c) x →
    AllRecoverable c x → toDeclared c (Agg.reduced (aggCls c) x) = some x
  | .nil, .nil, _, _, _, _ => rfl
  | .leaf n d rest, .leaf n' v r, hm, hp, hc, hr => by
    obtain ⟨b, hb⟩ := Option.ne_none_iff_exists'.1 hp.1
    have h1 := ((made_facts hm.1).2.1 b hb).1
    obtain ⟨rfl, _, hc⟩ := hc
    simp only [aggCls, Agg.reduced, toDeclared, hb, Option.getD_some]
    rw [mapM_cast h1 v (hr.1 b hb), Option.bind_some, toDeclared_reduced rest r hm.2 hp.2 hc hr.2]
    rfl
  | .nested n ish cid w sub rest, .nested n' y r, hm, hp, hc, hr => by
    obtain ⟨rfl, hc1, hc2⟩ := hc
    simp only [aggCls, Agg.reduced, toDeclared]
    rw [toDeclared_reduced sub y hm.1 hp.2.1 hc1 hr.1, Option.bind_some, toDeclared_reduced rest r hm.2 hp.2.2 hc2 hr.2]
    rfl
  | .nil, .leaf _ _ _, _, _, hc, _ => hc.elim
  | .nil, .nested _ _ _, _, _, hc, _ => hc.elim
  | .leaf _ _ _, .nil, _, _, hc, _ => hc.elim
  | .leaf _ _ _, .nested _ _ _, _, _, hc, _ => hc.elim
  | .nested _ _ _ _ _ _, .nil, _, _, hc, _ => hc.elim
  | .nested _ _ _ _ _ _, .leaf _ _ _, _, _, hc, _ => hc.elim

/-- **C58.**  `x.packed.as_original()` (and `unpack(dtype_policy="declared")`) gives back `x`, for every batch and either packing kernel, when
every value survives its bit width: it lies in `0 .. 2^bits - 1`, or its signed dtype has at most `bits` bits. -/
theorem as_original_roundtrip {kernel : List Nat → Bitpack.Tables → List Nat} (hk : Agg.IsPackKernel kernel) {c : Cls} (hm : c.MadeAll)
    (hn : c.NamesOk) (hp : c.Packable) (hsz : (aggCls c).bitCount ≤ 2 ^ 32) {flatN : Nat} {x : Agg.Inst (List Int)}
    (hc : Agg.Conforms flatN (aggCls c) x) (hr : AllRecoverable c x) :
    ∃ p, Agg.packed kernel (aggCls c) flatN x = some p ∧ asOriginal c p = some x := by
  obtain ⟨p, hpk, hu⟩ := Agg.aggregate_roundtrip hk (packable_wf hm hp hn) hsz hc
  refine ⟨p, hpk, ?_⟩
  unfold asOriginal
  rw [hu, Option.bind_some]
  exact toDeclared_reduced c x hm hp hc hr

/-- Integer and boolean dtypes. -/
def IntDtype : DType → Prop
  | .bool => True
  | .uint w => 1 ≤ w
  | .int w => 1 ≤ w
  | _ => False

theorem recoverable_of_cast {t : DType} {bits : Nat} {v : Int} (ht : IntDtype t) (hd : InDtype t v)
    (h : Io.cast t (Agg.red bits v) = some v) : Recoverable t bits v := by
  have hpb : (0 : Int) < 2 ^ bits := Int.pow_pos (by decide)
  have hr0 : ((Agg.red bits v : Nat) : Int) = v % 2 ^ bits := by
    unfold Agg.red
    rw [Int.toNat_of_nonneg (Int.emod_nonneg _ (by omega))]
  have hr1 : ((Agg.red bits v : Nat) : Int) < 2 ^ bits := by rw [hr0]; exact Int.emod_lt_of_pos _ hpb
  refine ⟨hd, ?_⟩
  cases t with
  | bool => trivial
  | uint w =>
    have h : some ((Agg.red bits v % 2 ^ w : Nat) : Int) = some v := h
    have h2 := Nat.mod_le (Agg.red bits v) (2 ^ w)
    simp only [Option.some.injEq] at h
    exact ⟨by omega, ht⟩
  | int w =>
    have hw : 1 ≤ w := ht
    refine ⟨hw, ?_⟩
    by_cases hle : w ≤ bits
    · exact Or.inr hle
    · left
      have h : some ((((Agg.red bits v : Nat) : Int) + 2 ^ (w - 1)) % 2 ^ w - 2 ^ (w - 1)) = some v := h
      simp only [Option.some.injEq] at h
      have hp : (2 : Int) ^ w = 2 * 2 ^ (w - 1) := by
        rw [← Int.pow_succ']
        congr 1
        omega
      have hlt : (2 : Int) ^ bits ≤ 2 ^ (w - 1) := by
        have h4 : (2 : Int) ^ (w - 1) = 2 ^ bits * 2 ^ (w - 1 - bits) := by
          rw [← Int.pow_add]
          congr 1
          omega
        have h5 : (0 : Int) < 2 ^ (w - 1 - bits) := Int.pow_pos (by decide)
        have h6 := Int.mul_le_mul_of_nonneg_left (show (1 : Int) ≤ 2 ^ (w - 1 - bits) by omega) (show (0 : Int) ≤ 2 ^ bits by omega)
        omega
      rw [Int.emod_eq_of_lt (by omega) (by omega)] at h
      constructor <;> omega
  | float w => exact ht.elim
  | ext n => exact ht.elim

/-- All array fields have integer or boolean dtypes. -/
def Cls.IntDtypes : Cls → Prop
  | .nil => True
  | .leaf _ d rest => IntDtype d.dtype ∧ rest.IntDtypes
  | .nested _ _ _ _ sub rest => sub.IntDtypes ∧ rest.IntDtypes

/-- Every value is a value of the dtype of its field. -/
def InDtypes : Cls → Agg.Inst (List Int) → Prop
  | .nil, .nil => True
  | .leaf _ d rest, .leaf _ v r => (∀ x ∈ v, InDtype d.dtype x) ∧ InDtypes rest r
  | .nested _ _ _ _ sub rest, .nested _ x r => InDtypes sub x ∧ InDtypes rest r
  | _, _ => False

theorem cast_of_mapM {t : DType} {bits : Nat} : ∀ v : List Int, (v.map (Agg.red bits)).mapM (Io.cast t) = some v →
    ∀ x ∈ v, Io.cast t (Agg.red bits x) = some x
  | [], _, _, hx => by cases hx
  | y :: v, h, x, hx => by
    rw [List.map_cons, List.mapM_cons] at h
    rcases hy : Io.cast t (Agg.red bits y) with _ | z
    · rw [hy] at h; cases h
    · rw [hy] at h
      rcases hv : (v.map (Agg.red bits)).mapM (Io.cast t) with _ | zs
      · rw [hv] at h; cases h
      · rw [hv] at h
        simp only [Option.bind_eq_bind, Option.bind_some, Option.pure_def, Option.some.injEq, List.cons.injEq] at h
        obtain ⟨rfl, rfl⟩ := h
        rcases List.mem_cons.1 hx with rfl | hx
        · exact hy
        · exact cast_of_mapM _ hv x hx

theorem recoverable_of_declared {flatN : Nat} : ∀ (c : Cls) (x : Agg.Inst (List Int)), c.IntDtypes → InDtypes c x → Agg.Conforms flatN (aggCls c) x →
    toDeclared c (Agg.reduced (aggCls c) x) = some x → AllRecoverable c x
  | .nil, .nil, _, _, _, _ => trivial
  | .leaf n d rest, .leaf n' v r, hi, hd, hc, h => by
    obtain ⟨rfl, _, hc⟩ := hc
    simp only [aggCls, Agg.reduced, toDeclared] at h
    rcases h1 : (v.map (Agg.red (d.bits.getD 0))).mapM (Io.cast d.dtype) with _ | v'
    · rw [h1] at h; cases h
    · rw [h1, Option.bind_some] at h
      rcases h2 : toDeclared rest (Agg.reduced (aggCls rest) r) with _ | r'
      · rw [h2] at h; cases h
      · rw [h2] at h
        simp only [Option.map_some, Option.some.injEq, Agg.Inst.leaf.injEq, true_and] at h
        obtain ⟨rfl, rfl⟩ := h
        refine ⟨fun b hb x hx => ?_, recoverable_of_declared rest r' hi.2 hd.2 hc h2⟩
        rw [hb, Option.getD_some] at h1
        exact recoverable_of_cast hi.1 (hd.1 x hx) (cast_of_mapM v' h1 x hx)
  | .nested n ish cid w sub rest, .nested n' y r, hi, hd, hc, h => by
    obtain ⟨rfl, hc1, hc2⟩ := hc
    simp only [aggCls, Agg.reduced, toDeclared] at h
    rcases h1 : toDeclared sub (Agg.reduced (aggCls sub) y) with _ | y'
    · rw [h1] at h; cases h
    · rw [h1, Option.bind_some] at h
      rcases h2 : toDeclared rest (Agg.reduced (aggCls rest) r) with _ | r'
      · rw [h2] at h; cases h
      · rw [h2] at h
        simp only [Option.map_some, Option.some.injEq, Agg.Inst.nested.injEq, true_and] at h
        obtain ⟨rfl, rfl⟩ := h
        exact ⟨recoverable_of_declared sub y' hi.1 hd.1 hc1 h1, recoverable_of_declared rest r' hi.2 hd.2 hc2 h2⟩
  | .nil, .leaf _ _ _, _, _, hc, _ => hc.elim
  | .nil, .nested _ _ _, _, _, hc, _ => hc.elim
  | .leaf _ _ _, .nil, _, _, hc, _ => hc.elim
  | .leaf _ _ _, .nested _ _ _, _, _, hc, _ => hc.elim
  | .nested _ _ _ _ _ _, .nil, _, _, hc, _ => hc.elim
  | .nested _ _ _ _ _ _, .leaf _ _ _, _, _, hc, _ => hc.elim

/-- **C58.**  For classes of integer and boolean fields this is exact: `x.packed.as_original()` equals `x` if and only if every value survives. -/
theorem as_original_iff {kernel : List Nat → Bitpack.Tables → List Nat} (hk : Agg.IsPackKernel kernel) {c : Cls} (hm : c.MadeAll)
    (hn : c.NamesOk) (hp : c.Packable) (hi : c.IntDtypes) (hsz : (aggCls c).bitCount ≤ 2 ^ 32) {flatN : Nat} {x : Agg.Inst (List Int)}
    (hc : Agg.Conforms flatN (aggCls c) x) (hd : InDtypes c x) {p : List Agg.PackedRow} (h : Agg.packed kernel (aggCls c) flatN x = some p) :
    asOriginal c p = some x ↔ AllRecoverable c x := by
  obtain ⟨p', hpk, hu⟩ := Agg.aggregate_roundtrip hk (packable_wf hm hp hn) hsz hc
  rw [h] at hpk
  cases hpk
  unfold asOriginal
  rw [hu, Option.bind_some]
  exact ⟨recoverable_of_declared c x hi hd hc, toDeclared_reduced c x hm hp hc⟩

/-- **A negative value of a signed field with fewer bits than its dtype does not come back** (nor does a random one): the sign is lost. -/
theorem as_original_sign_false : ∃ (c : Cls) (x : Agg.Inst (List Int)) (p : List Agg.PackedRow), c.MadeAll ∧ c.Packable ∧ Agg.Conforms 1 (aggCls c) x ∧
    (∀ d, c = .leaf "a" d .nil → d.dtype = .int 8 ∧ d.bits = some 4) ∧ Agg.packed Bitpack.packXla (aggCls c) 1 x = some p ∧
    asOriginal c p = some (.leaf "a" [13] .nil) ∧ x = .leaf "a" [-3] .nil := by
  refine ⟨.leaf "a" ⟨.int 8, [], some (.int 0), some 4, none, none, none, none, none⟩ .nil, .leaf "a" [-3] .nil, [⟨[], [13]⟩],
    ⟨⟨.int 8, [], none, some 4, none, none, none, none, none, rfl⟩, trivial⟩, ⟨by simp, trivial⟩, ⟨rfl, rfl, trivial⟩, ?_, by decide +kernel, by decide +kernel, rfl⟩
  intro d hd
  cases hd
  exact ⟨rfl, rfl⟩

/-- Non-trivial case: an `int8` field with 8 bits (negative values survive) and a nested 3-bit field, two records. -/
def declCls : Cls :=
  .leaf "a" ⟨.int 8, [2], some (.int 0), some 8, none, none, none, none, none⟩ (.nested "in" [] 1 false (.leaf "x" ⟨.uint 8, [], some (.int 255), some 3, none, none, none, none, none⟩ .nil) .nil)
def declInst : Agg.Inst (List Int) := .leaf "a" [-128, 5, 127, -1] (.nested "in" (.leaf "x" [7, 0] .nil) .nil)

example : declCls.MadeAll ∧ declCls.NamesOk ∧ declCls.Packable ∧ Agg.Conforms 2 (aggCls declCls) declInst := by
  refine ⟨⟨⟨.int 8, [2], none, some 8, none, none, none, none, none, rfl⟩, ⟨⟨.uint 8, [], none, some 3, none, none, none, none, none, rfl⟩, trivial⟩, trivial⟩,
    ⟨by decide, by decide, ⟨by decide, trivial⟩, trivial⟩, ⟨by simp, rfl, ⟨by simp, trivial⟩, trivial⟩, ⟨rfl, rfl, rfl, ⟨rfl, rfl, trivial⟩, trivial⟩⟩
example : AllRecoverable declCls declInst := by
  refine ⟨?_, ⟨?_, trivial⟩, trivial⟩
  · intro b hb x hx
    cases hb
    simp only [List.mem_cons, List.not_mem_nil, or_false] at hx
    rcases hx with rfl | rfl | rfl | rfl <;> (unfold Recoverable InDtype; decide)
  · intro b hb x hx
    cases hb
    simp only [List.mem_cons, List.not_mem_nil, or_false] at hx
    rcases hx with rfl | rfl <;> (unfold Recoverable InDtype; decide)
example : declCls.IntDtypes := ⟨by simp [IntDtype], ⟨by simp [IntDtype], trivial⟩, trivial⟩
example : packCls.NoValidator ∧ packCls.DtypesOk := by
  refine ⟨⟨rfl, ⟨rfl, trivial⟩, trivial⟩, ?_, ⟨?_, trivial⟩, trivial⟩ <;> simp [bitsFD, u8, DtypeOk]

end Desc
