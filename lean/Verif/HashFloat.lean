import Verif.HashWords
import Verif.HTScan

/-!
# C73: `==` and the hash of instances with float fields

`__eq__` compares float elements with IEEE equality (ops.py:41-42), whereas hashes are computed from the bit patterns
(hash.py:198-229).  So `-0.0` and `0.0` are equal but hash differently, and a NaN is not even equal to itself.
Simplification: denormals are compared exactly (no flush-to-zero).
-/

namespace HashModel

/-- Element type of a leaf, as far as `==` is concerned: an integer or `bool` type, or a float format. -/
inductive Ty | plain | f16 | bf16 | f32 | f64
  deriving DecidableEq

/-- `±0`: all bits but the sign are zero. -/
def isZero {w : Nat} (v : BitVec w) : Bool := v <<< 1 == 0#w

/-- NaN: without the sign bit larger than the pattern of `+inf`. -/
def isNaN {w : Nat} (inf v : BitVec w) : Bool := decide ((inf <<< 1).toNat < (v <<< 1).toNat)

/-- IEEE equality. -/
def feq {w : Nat} (inf a b : BitVec w) : Bool :=
  !isNaN inf a && !isNaN inf b && (a == b || (isZero a && isZero b))

/-- `jnp.all(x == y)` for arrays of the same shape. -/
def allEq {β : Type u} (f : β → β → Bool) : List β → List β → Bool
  | [], [] => true
  | a :: l, b :: l' => f a b && allEq f l l'
  | _, _ => false

/-- `jnp.all(x == y)` for one field (ops.py:41). -/
def leafEq : Ty → Leaf → Leaf → Bool
  | .f16, .w16 a, .w16 b => allEq (feq 0x7C00#16) a b
  | .bf16, .w16 a, .w16 b => allEq (feq 0x7F80#16) a b
  | .f32, .w32 a, .w32 b => allEq (feq 0x7F800000#32) a b
  | .f64, .w64 a, .w64 b => allEq (feq 0x7FF0000000000000#64) a b
  | _, a, b => a == b

/-- `__eq__` (ops.py:22-42) of two instances of a class with the given element types. -/
def instEq : List Ty → List Leaf → List Leaf → Bool
  | [], [], [] => true
  | t :: ts, a :: x, b :: y => leafEq t a b && instEq ts x y
  | _, _, _ => false

/-- The field has a float zero. -/
def leafZero : Ty → Leaf → Bool
  | .f16, .w16 a => a.any isZero
  | .bf16, .w16 a => a.any isZero
  | .f32, .w32 a => a.any isZero
  | .f64, .w64 a => a.any isZero
  | _, _ => false

/-- The field has a NaN. -/
def leafNaN : Ty → Leaf → Bool
  | .f16, .w16 a => a.any (isNaN 0x7C00#16)
  | .bf16, .w16 a => a.any (isNaN 0x7F80#16)
  | .f32, .w32 a => a.any (isNaN 0x7F800000#32)
  | .f64, .w64 a => a.any (isNaN 0x7FF0000000000000#64)
  | _, _ => false

/-- Some field has a float zero / a NaN. -/
def hasZero (tys : List Ty) (x : List Leaf) : Bool := (tys.zip x).any fun p => leafZero p.1 p.2
def hasNaN (tys : List Ty) (x : List Leaf) : Bool := (tys.zip x).any fun p => leafNaN p.1 p.2

/-- `b` is `a` with one float zero replaced by the negative zero. -/
inductive Negated : Ty → Leaf → Leaf → Prop
  | f16 (l r) : Negated .f16 (.w16 (l ++ 0x0000#16 :: r)) (.w16 (l ++ 0x8000#16 :: r))
  | bf16 (l r) : Negated .bf16 (.w16 (l ++ 0x0000#16 :: r)) (.w16 (l ++ 0x8000#16 :: r))
  | f32 (l r) : Negated .f32 (.w32 (l ++ 0x00000000#32 :: r)) (.w32 (l ++ 0x80000000#32 :: r))
  | f64 (l r) : Negated .f64 (.w64 (l ++ 0x0#64 :: r)) (.w64 (l ++ 0x8000000000000000#64 :: r))

/-! ### Without zeros equality is equality of the bits -/

theorem allEq_eq {w : Nat} (inf : BitVec w) : ∀ (a b : List (BitVec w)), allEq (feq inf) a b = true →
    a.any isZero = false → a = b
  | [], [], _, _ => rfl
  | [], _ :: _, h, _ => by cases h
  | _ :: _, [], h, _ => by cases h
  | a :: l, b :: l', h, hz => by
    rw [allEq, Bool.and_eq_true] at h
    rw [List.any_cons, Bool.or_eq_false_iff] at hz
    have h1 := h.1
    unfold feq at h1
    rw [hz.1, Bool.false_and, Bool.or_false, Bool.and_eq_true] at h1
    rw [eq_of_beq h1.2, allEq_eq inf l l' h.2 hz.2]

theorem leafEq_eq (t : Ty) (a b : Leaf) (h : leafEq t a b = true) (hz : leafZero t a = false) : a = b := by
  cases t <;> cases a <;> cases b <;>
    first
      | exact eq_of_beq h
      | exact congrArg _ (allEq_eq _ _ _ h hz)

/-- Equal instances of which one has no float zero are the same bits. -/
theorem instEq_eq : ∀ (tys : List Ty) (x y : List Leaf), instEq tys x y = true → hasZero tys x = false → x = y
  | [], [], [], _, _ => rfl
  | t :: ts, a :: x, b :: y, h, hz => by
    rw [instEq, Bool.and_eq_true] at h
    unfold hasZero at hz
    rw [List.zip_cons_cons, List.any_cons, Bool.or_eq_false_iff] at hz
    rw [leafEq_eq t a b h.1 hz.1, instEq_eq ts x y h.2 hz.2]
  | [], [], _ :: _, h, _ => by cases h
  | [], _ :: _, _, h, _ => by cases h
  | _ :: _, [], _, h, _ => by cases h
  | _ :: _, _ :: _, [], h, _ => by cases h

/-- **C73, what holds.**  Equal instances have the same hash, hash pair, words and bytes (for every seed and streaming
mode) if one of them has no float zero; in particular for every class without float fields. -/
theorem equal_hash_equal_partial (tys : List Ty) (x y : List Leaf) (h : instEq tys x y = true)
    (hz : hasZero tys x = false) (m : Stream) (seed : W) :
    hash m x seed = hash m y seed ∧ hashPair m x seed = hashPair m y seed ∧ uint32ed x = uint32ed y ∧ bytes x = bytes y := by
  rw [instEq_eq tys x y h hz]; exact ⟨rfl, rfl, rfl, rfl⟩

/-! ### Reflexivity -/

theorem allEq_refl {w : Nat} (inf : BitVec w) (a : List (BitVec w)) :
    allEq (feq inf) a a = !(a.any (isNaN inf)) := by
  induction a with
  | nil => rfl
  | cons v l ih =>
    rw [allEq, ih, List.any_cons]
    unfold feq
    simp only [beq_self_eq_true, Bool.true_or, Bool.and_true, Bool.and_self, Bool.not_or]

theorem leafEq_refl (t : Ty) (a : Leaf) : leafEq t a a = !leafNaN t a := by
  cases t <;> cases a <;>
    first
      | exact allEq_refl _ _
      | exact beq_self_eq_true _

/-- An instance equals itself exactly if it has no NaN. -/
theorem instEq_refl_iff : ∀ (tys : List Ty) (x : List Leaf), tys.length = x.length →
    instEq tys x x = !hasNaN tys x
  | [], [], _ => rfl
  | t :: ts, a :: x, h => by
    unfold hasNaN
    rw [instEq, leafEq_refl, instEq_refl_iff ts x (Nat.succ.inj h), List.zip_cons_cons, List.any_cons, Bool.not_or]
    rfl

/-- An instance with a NaN equals no instance. -/
theorem nan_equals_nothing : ∀ (tys : List Ty) (x y : List Leaf), hasNaN tys x = true → instEq tys y x = false
  | [], _, _, h => by cases h
  | _ :: _, [], _, h => by cases h
  | _ :: _, _ :: _, [], _ => rfl
  | t :: ts, a :: x, b :: y, h => by
    unfold hasNaN at h
    rw [List.zip_cons_cons, List.any_cons, Bool.or_eq_true] at h
    rw [instEq]
    rcases h with h | h
    · have : leafEq t b a = false := by
        have hl : ∀ {w : Nat} (inf : BitVec w) (l l' : List (BitVec w)), l'.any (isNaN inf) = true →
            allEq (feq inf) l l' = false := by
          intro w inf l
          induction l with
          | nil => intro l' h; cases l' with
            | nil => cases h
            | cons _ _ => rfl
          | cons v l ih =>
            intro l' h
            cases l' with
            | nil => rfl
            | cons v' l' =>
              rw [allEq]
              rw [List.any_cons, Bool.or_eq_true] at h
              rcases h with h | h
              · unfold feq; rw [h]; simp
              · rw [ih l' h, Bool.and_false]
        cases t <;> cases a <;> first
          | cases h
          | (cases b <;> first | rfl | exact hl _ _ _ h)
      rw [this]; rfl
    · rw [nan_equals_nothing ts x y h, Bool.and_false]

/-! ### Negative zero -/

theorem allEq_neg {w : Nat} (inf z : BitVec w) (l r : List (BitVec w)) (h : feq inf 0#w z = true)
    (hl : (l ++ 0#w :: r).any (isNaN inf) = false) : allEq (feq inf) (l ++ 0#w :: r) (l ++ z :: r) = true := by
  induction l with
  | nil =>
    rw [List.nil_append, List.any_cons, Bool.or_eq_false_iff] at hl
    rw [List.nil_append, List.nil_append, allEq, h, allEq_refl, hl.2]; rfl
  | cons v l ih =>
    rw [List.cons_append, List.any_cons, Bool.or_eq_false_iff] at hl
    rw [List.cons_append, List.cons_append, allEq, ih hl.2]
    unfold feq
    rw [hl.1]; simp

theorem negated_eq {t : Ty} {a b : Leaf} (h : Negated t a b) (hn : leafNaN t a = false) : leafEq t a b = true := by
  cases h with
  | f16 l r => exact allEq_neg _ _ l r (by decide) hn
  | bf16 l r => exact allEq_neg _ _ l r (by decide) hn
  | f32 l r => exact allEq_neg _ _ l r (by decide) hn
  | f64 l r => exact allEq_neg _ _ l r (by decide) hn

theorem pairs16_change (v v' : BitVec 16) (hne : v ≠ v') : ∀ (l r : List (BitVec 16)), (l.length + 1 + r.length) % 2 = 0 →
    ∃ (p s : List W) (w w' : W), pairs16 (l ++ v :: r) = p ++ w :: s ∧ pairs16 (l ++ v' :: r) = p ++ w' :: s ∧ w ≠ w'
  | [], [], h => by simp at h
  | [], c :: r, _ => by
    refine ⟨[], pairs16 r, _, _, rfl, rfl, ?_⟩
    intro hc
    exact hne ((pair_halves v c).1.symm.trans ((congrArg _ hc).trans (pair_halves v' c).1))
  | [a], r, _ => by
    refine ⟨[], pairs16 r, _, _, rfl, rfl, ?_⟩
    intro hc
    exact hne ((pair_halves a v).2.symm.trans ((congrArg (fun z : W => (z >>> 16).setWidth 16) hc).trans (pair_halves a v').2))
  | a :: b :: l, r, h => by
    obtain ⟨p, s, w, w', h1, h2, h3⟩ := pairs16_change v v' hne l r (by simp only [List.length_cons] at h; omega)
    exact ⟨_ :: p, s, w, w', congrArg (_ :: ·) h1, congrArg (_ :: ·) h2, h3⟩

theorem packUint16_change (v v' : BitVec 16) (hne : v ≠ v') (l r : List (BitVec 16)) :
    ∃ (p s : List W) (w w' : W), packUint16 (l ++ v :: r) = p ++ w :: s ∧ packUint16 (l ++ v' :: r) = p ++ w' :: s ∧
      w ≠ w' := by
  unfold packUint16
  have e : (l ++ v' :: r).length = (l ++ v :: r).length := by simp
  rw [e, List.append_assoc, List.append_assoc, List.cons_append, List.cons_append]
  apply pairs16_change v v' hne
  simp only [List.length_append, List.length_cons, List.length_replicate]
  omega

/-- Negating a zero changes exactly one word. -/
theorem negated_words {t : Ty} {a b : Leaf} (h : Negated t a b) :
    ∃ (p s : List W) (w w' : W), leafWords a = p ++ w :: s ∧ leafWords b = p ++ w' :: s ∧ w ≠ w' := by
  cases h with
  | f16 l r => exact packUint16_change _ _ (by decide) l r
  | bf16 l r => exact packUint16_change _ _ (by decide) l r
  | f32 l r => exact ⟨l, r, _, _, rfl, rfl, by decide⟩
  | f64 l r =>
    refine ⟨splitUint64 l ++ [0], splitUint64 r, 0, 0x80000000, ?_, ?_, by decide⟩
    · show splitUint64 (l ++ _) = _
      simp [splitUint64]
    · show splitUint64 (l ++ _) = _
      simp [splitUint64]

theorem instEq_append (ts ts' : List Ty) (x x' y y' : List Leaf) (h : instEq ts x y = true) (h' : instEq ts' x' y' = true) :
    instEq (ts ++ ts') (x ++ x') (y ++ y') = true := by
  induction ts generalizing x y with
  | nil =>
    cases x with
    | nil => cases y with
      | nil => exact h'
      | cons _ _ => cases h
    | cons _ _ => cases h
  | cons t ts ih =>
    cases x with
    | nil => cases h
    | cons a x =>
      cases y with
      | nil => cases h
      | cons b y =>
        rw [instEq, Bool.and_eq_true] at h
        show (leafEq t a b && instEq (ts ++ ts') (x ++ x') (y ++ y')) = true
        rw [h.1, ih x y h.2]; rfl

/-- **C73, the full claim is false.**  Take any instance without NaN that has a float zero anywhere (any class, any field,
any of the four float formats), and negate that zero.  The two instances are equal, and their hashes differ for every seed
and every streaming mode; so do the first components of their hash pairs. -/
theorem neg_zero_hash_false (ts ts' : List Ty) (t : Ty) (pre suf : List Leaf) (a b : Leaf) (h : Negated t a b)
    (h1 : ts.length = pre.length) (h2 : ts'.length = suf.length) (hn : hasNaN (ts ++ t :: ts') (pre ++ a :: suf) = false)
    (m : Stream) (seed : W) :
    instEq (ts ++ t :: ts') (pre ++ a :: suf) (pre ++ b :: suf) = true ∧
    hash m (pre ++ a :: suf) seed ≠ hash m (pre ++ b :: suf) seed ∧
    (hashPair m (pre ++ a :: suf) seed).1 ≠ (hashPair m (pre ++ b :: suf) seed).1 := by
  have hh : hash m (pre ++ a :: suf) seed ≠ hash m (pre ++ b :: suf) seed := by
    obtain ⟨p, s, w, w', e1, e2, hne⟩ := negated_words h
    have u1 : uint32ed (pre ++ a :: suf) = (uint32ed pre ++ p) ++ w :: (s ++ uint32ed suf) := by
      unfold uint32ed
      rw [List.flatMap_append, List.flatMap_cons, e1]; simp
    have u2 : uint32ed (pre ++ b :: suf) = (uint32ed pre ++ p) ++ w' :: (s ++ uint32ed suf) := by
      unfold uint32ed
      rw [List.flatMap_append, List.flatMap_cons, e2]; simp
    have k1 := (hash_entry_points_agree_partial m (pre ++ a :: suf) seed (Or.inr (by rw [u1]; simp))).1
    have k2 := (hash_entry_points_agree_partial m (pre ++ b :: suf) seed (Or.inr (by rw [u2]; simp))).1
    rw [k1, k2, u1, u2]
    exact hash_detects_single_word _ _ w w' seed hne
  unfold hasNaN at hn
  rw [List.zip_append h1, List.any_append, Bool.or_eq_false_iff, List.zip_cons_cons, List.any_cons,
    Bool.or_eq_false_iff] at hn
  refine ⟨?_, hh, ?_⟩
  · apply instEq_append
    · rw [instEq_refl_iff _ _ h1]
      unfold hasNaN
      rw [hn.1]; rfl
    · rw [instEq, negated_eq h hn.2.1, instEq_refl_iff _ _ h2]
      unfold hasNaN
      rw [hn.2.2]; rfl
  · rw [← (hash_eq_pair_first m _ seed).1, ← (hash_eq_pair_first m _ seed).1]
    exact hh

/-! ### Consequences for the hash table -/

/-- Instances of a class with the given leaf layout and element types, compared with `__eq__`. -/
structure FInst (tys : List Ty) (layout : List (Kind × Nat)) where
  val : Inst layout

instance (tys : List Ty) (layout : List (Kind × Nat)) : BEq (FInst tys layout) := ⟨fun x y => instEq tys x.val.1 y.val.1⟩

/-- `classHasher` for these. -/
def floatHasher (m : Stream) (tys : List Ty) (layout : List (Kind × Nat)) (seed : W) : HashTable.Hasher (FInst tys layout) where
  wc := (classHasher m layout seed).wc
  words := fun x => (classHasher m layout seed).words x.val
  h1 := fun x => (classHasher m layout seed).h1 x.val
  h2 := fun x => (classHasher m layout seed).h2 x.val
  words_length := fun x => (classHasher m layout seed).words_length x.val
  words_inj := fun x y h => by
    cases x; cases y
    exact congrArg _ ((classHasher m layout seed).words_inj _ _ h)
  mix := (classHasher m layout seed).mix

/-- An item that equals nothing is never found, in any table. -/
theorem unequal_never_found {α : Type u} [BEq α] (H : HashTable.Hasher α) (T : HashTable.Table α) (x : α)
    (hx : ∀ y : α, (y == x) = false) : (HashTable.lookup H T x).2 = false := by
  unfold HashTable.lookup HashTable.lookupBucket
  apply HashTable.lookupLoop_none
  intro b
  apply HashTable.scan_noneB
  intro s _ _
  cases Jax.gatherU T.table (HashTable.flat T b s) with
  | none => rfl
  | some y => exact hx y

/-- **C73, NaN.**  An instance with a NaN is never found, in any table (even right after it was inserted), and inserting it
again succeeds and takes another slot as long as its start bucket has room. -/
theorem nan_never_found (m : Stream) (tys : List Ty) (layout : List (Kind × Nat)) (seed : W)
    (T : HashTable.Table (FInst tys layout)) (x : FInst tys layout) (hx : hasNaN tys x.val.1 = true) :
    (HashTable.lookup (floatHasher m tys layout seed) T x).2 = false ∧
    (0 < T.maxProbes → T.bs ≤ 255 →
      HashTable.rd T.fill (HashTable.start (floatHasher m tys layout seed) T x) < T.bs →
      (HashTable.insert (floatHasher m tys layout seed) T x).2.1 = true) := by
  have hne : ∀ y : FInst tys layout, (y == x) = false := fun y => nan_equals_nothing tys x.val.1 y.val.1 hx
  refine ⟨unequal_never_found _ T x hne, ?_⟩
  intro hmp hbs hroom
  have hs : ∀ b, (HashTable.scanBucket (floatHasher m tys layout seed) T x b).1 = false := by
    intro b
    apply HashTable.scan_noneB
    intro s _ _
    cases Jax.gatherU T.table (HashTable.flat T b s) with
    | none => rfl
    | some y => exact hne y
  have hl : HashTable.limit T (HashTable.start (floatHasher m tys layout seed) T x) =
      HashTable.rd T.fill (HashTable.start (floatHasher m tys layout seed) T x) := Nat.mod_eq_of_lt (by omega)
  have hb := HashTable.lookup_stop (floatHasher m tys layout seed) T x hmp (hs _) (by rw [hl]; omega)
  unfold HashTable.insert
  dsimp only
  rw [hb]
  dsimp only
  rw [hl]
  simp

/-- One `float32` scalar. -/
def oneF32 (v : W) : FInst [.f32] [(.b32, 1)] := ⟨⟨[.w32 [v]], rfl⟩⟩

/-- **C73 in a table**: `0.0` is stored, `-0.0 == 0.0`, and `-0.0` is not found and is inserted as a new item. -/
theorem neg_zero_not_found :
    let H := floatHasher (.auto 4096) [.f32] [(.b32, 1)] 42
    let T := (HashTable.insert H (HashTable.build (oneF32 0xFFFFFFFF) 8 4 2 none) (oneF32 0)).1
    (oneF32 0x80000000 == oneF32 0) = true ∧ (HashTable.lookup H T (oneF32 0)).2 = true ∧
    (HashTable.lookup H T (oneF32 0x80000000)).2 = false ∧
    (HashTable.insert H T (oneF32 0x80000000)).2.1 = true ∧ (HashTable.insert H T (oneF32 0x80000000)).1.size = 2 := by
  decide +kernel

/-- Non-vacuity: an instance with an `int` field, a float field with a zero and no NaN; one with a NaN. -/
example : Negated .f32 (.w32 [1, 0]) (.w32 [1, 0x80000000]) ∧
    hasNaN ([.plain] ++ .f32 :: []) ([.w8 [3]] ++ .w32 [1, 0] :: []) = false ∧
    hasNaN [.f32] [.w32 [0x7FC00000]] = true ∧ hasZero [.f32] [.w32 [0x3F800000]] = false ∧
    instEq [.f32] [.w32 [0x3F800000]] [.w32 [0x3F800000]] = true ∧
    instEq [.plain] [.w32 [0]] [.w32 [0x80000000]] = false ∧
    instEq [.f16, .f64] [.w16 [0], .w64 [0x7FF0000000000000]] [.w16 [0x8000], .w64 [0x7FF0000000000000]] = true :=
  ⟨Negated.f32 [1] [], by decide +kernel⟩

end HashModel
