import Verif.UniqueInverse
import Verif.AggProps

/-!
# Where `unique_mask` merges distinct items (limits of C42), and aggregate-packed classes (C44)
-/

namespace Unique

open Jax SortGroup Dedupe

/-! ## The four 32-bit hashes ignore an even number of top-bit flips -/

/-- Flip the top bit of a 32-bit word (for a `float32`: change its sign). -/
def flipTop (f : Bool) (x : Nat) : Nat := if f then x ^^^ 2 ^ 31 else x

@[simp] theorem flip_false (x : Nat) : flipTop false x = x := rfl

theorem add_top (y : Nat) : (y + 2 ^ 31) % 2 ^ 32 = (y % 2 ^ 32) ^^^ 2 ^ 31 := by
  apply Nat.eq_of_testBit_eq
  intro i
  rw [Nat.testBit_mod_two_pow, Nat.testBit_xor, Nat.testBit_mod_two_pow, Nat.add_comm y]
  rcases Nat.lt_trichotomy i 31 with h | h | h
  · rw [Nat.testBit_two_pow_add_gt h, Nat.testBit_two_pow_of_ne (by omega)]; simp
  · subst h; rw [Nat.testBit_two_pow_add_eq, Nat.testBit_two_pow_self]; simp
  · rw [Nat.testBit_two_pow_of_ne (by omega)]
    have : ¬ i < 32 := by omega
    simp [this]

theorem flip_lt {f : Bool} {x : Nat} (h : x < 2 ^ 32) : flipTop f x < 2 ^ 32 := by
  unfold flipTop
  split
  · exact Nat.xor_lt_two_pow h (by decide)
  · exact h

theorem flip_mod (f : Bool) (y : Nat) : flipTop f (y % 2 ^ 32) = (y + f.toNat * 2 ^ 31) % 2 ^ 32 := by
  cases f
  · simp [flipTop]
  · simp only [flipTop, if_true, Bool.toNat_true, Nat.one_mul]; rw [add_top]

theorem flip_eq {f : Bool} {x : Nat} (h : x < 2 ^ 32) : flipTop f x = (x + f.toNat * 2 ^ 31) % 2 ^ 32 := by
  rw [← flip_mod, Nat.mod_eq_of_lt h]

theorem flip_xor {f g : Bool} {x y : Nat} : flipTop f x ^^^ flipTop g y = flipTop (f ^^ g) (x ^^^ y) := by
  cases f <;> cases g <;> simp only [flipTop, if_true, if_false, Bool.false_eq_true, Bool.xor_false, Bool.xor_true,
    Bool.not_false, Bool.not_true, Bool.false_xor, Bool.true_xor]
  · rw [Nat.xor_assoc]
  · rw [Nat.xor_assoc, Nat.xor_comm (2 ^ 31) y, ← Nat.xor_assoc]
  · rw [Nat.xor_assoc, Nat.xor_comm (2 ^ 31), Nat.xor_assoc, Nat.xor_self, Nat.xor_zero]

/-- `h * c + col` with odd `c`. -/
theorem flip_mul_add {f g : Bool} {h col : Nat} (c : Nat) (hh : h < 2 ^ 32) (hc : col < 2 ^ 32) :
    (flipTop f h * (2 * c + 1) + flipTop g col) % 2 ^ 32 = flipTop (f ^^ g) ((h * (2 * c + 1) + col) % 2 ^ 32) := by
  rw [flip_eq hh, flip_eq hc, flip_mod, Nat.add_mod, Nat.mod_mul_mod, ← Nat.add_mod, Nat.add_mod_mod]
  have e : (h + f.toNat * 2 ^ 31) * (2 * c + 1) + (col + g.toNat * 2 ^ 31) =
      h * (2 * c + 1) + col + (f ^^ g).toNat * 2 ^ 31 + 2 ^ 32 * (f.toNat * c + (f && g).toNat) := by
    rw [Nat.add_mul]
    generalize h * (2 * c + 1) = t
    cases f <;> cases g <;>
      simp only [Bool.toNat_true, Bool.toNat_false, Bool.xor_false, Bool.xor_true, Bool.not_true, Bool.not_false, Bool.and_false,
        Bool.and_true] <;> omega
  rw [e, Nat.add_mul_mod_self_left]

/-- `(h ^ col) * c` with odd `c`. -/
theorem flip_xor_mul {f g : Bool} {h col : Nat} (c : Nat) (hh : h < 2 ^ 32) (hc : col < 2 ^ 32) :
    ((flipTop f h ^^^ flipTop g col) * (2 * c + 1)) % 2 ^ 32 = flipTop (f ^^ g) (((h ^^^ col) * (2 * c + 1)) % 2 ^ 32) := by
  rw [flip_xor]
  have := flip_mul_add (f := f ^^ g) (g := false) (h := h ^^^ col) (col := 0) c (Nat.xor_lt_two_pow hh hc) (by decide)
  simpa [flipTop] using this

/-- `(h ^ col) * c` with even `c`. -/
theorem flip_xor_mul_even {f g : Bool} {h col : Nat} (c : Nat) (hh : h < 2 ^ 32) (hc : col < 2 ^ 32) :
    ((flipTop f h ^^^ flipTop g col) * (2 * c)) % 2 ^ 32 = ((h ^^^ col) * (2 * c)) % 2 ^ 32 := by
  rw [flip_xor, flip_eq (Nat.xor_lt_two_pow hh hc), Nat.mod_mul_mod]
  have e : ((h ^^^ col) + (f ^^ g).toNat * 2 ^ 31) * (2 * c) = (h ^^^ col) * (2 * c) + 2 ^ 32 * ((f ^^ g).toNat * c) := by
    rw [Nat.add_mul]
    generalize (h ^^^ col) * (2 * c) = t
    cases f <;> cases g <;> simp only [Bool.xor_false, Bool.xor_true, Bool.not_true, Bool.not_false, Bool.toNat_true,
      Bool.toNat_false] <;> omega
  rw [e, Nat.add_mul_mod_self_left]

/-- The row with the top bits of the columns marked in `fl` flipped. -/
def flipRow (fl : List Bool) (row : List Nat) : List Nat := List.zipWith flipTop fl row

/-- Relation between the hash states of a row and of the flipped row. -/
def Rel (d e : Bool) (h h' : Nat × Nat × Nat × Nat) : Prop :=
  (h.1 < 2 ^ 32 ∧ h.2.1 < 2 ^ 32 ∧ h.2.2.1 < 2 ^ 32 ∧ h.2.2.2 < 2 ^ 32) ∧
  h' = (flipTop d h.1, flipTop d h.2.1, flipTop d h.2.2.1, flipTop e h.2.2.2)

theorem rel_step {d e f : Bool} {h h' : Nat × Nat × Nat × Nat} {col : Nat} (hc : col < 2 ^ 32) (hr : Rel d e h h') :
    Rel (d ^^ f) false (step32 h col) (step32 h' (flipTop f col)) := by
  obtain ⟨⟨h1, h2, h3, h4⟩, rfl⟩ := hr
  have hp : (0 : Nat) < 2 ^ 32 := by decide
  refine ⟨⟨Nat.mod_lt _ hp, Nat.mod_lt _ hp, Nat.mod_lt _ hp, Nat.mod_lt _ hp⟩, ?_⟩
  simp only [step32]
  have a1 := flip_mul_add (f := d) (g := f) (h := h.1) (col := col) 0x4F1BBCD8 h1 hc
  have a2 := flip_mul_add (f := d) (g := f) (h := h.2.1) (col := col) 0x42F5E535 h2 hc
  have a3 := flip_xor_mul (f := d) (g := f) (h := h.2.2.1) (col := col) 0x6159571A h3 hc
  have a4 := flip_xor_mul_even (f := e) (g := f) (h := h.2.2.2) (col := col) 0x13C6EF37 h4 hc
  simp only [Nat.reduceMul, Nat.reduceAdd] at a1 a2 a3 a4
  rw [a1, a2, a3, a4, flip_false]

theorem rel_fold {fl : List Bool} {row : List Nat} (hl : fl.length = row.length) (hw : ∀ x ∈ row, x < 2 ^ 32) {d : Bool}
    {h h' : Nat × Nat × Nat × Nat} (hr : Rel d false h h') :
    Rel (fl.foldl (· ^^ ·) d) false (row.foldl step32 h) ((flipRow fl row).foldl step32 h') := by
  induction fl generalizing row d h h' with
  | nil =>
    have : row = [] := List.length_eq_zero_iff.1 (by simpa using hl.symm)
    subst this; exact hr
  | cons f fl ih =>
    cases row with
    | nil => simp at hl
    | cons x row =>
      exact ih (by simpa using hl) (fun y hy => hw y (by simp [hy])) (rel_step (hw x (by simp)) hr)

/-- Two rows of more than four words that differ by flipping the top bit of an even number of words have the same wide hash
(without x64). -/
theorem wide_flip_collide {fl : List Bool} {row : List Nat} (hl : fl.length = row.length) (h4 : 4 < row.length)
    (hw : ∀ x ∈ row, x < 2 ^ 32) (heven : fl.foldl (· ^^ ·) false = false) :
    wide false (flipRow fl row) = wide false row := by
  match fl, row, hl, h4, hw, heven with
  | [], row, hl, h4, hw, heven => rw [← hl] at h4; simp at h4
  | [f], row, hl, h4, hw, heven => rw [← hl] at h4; simp at h4
  | f :: g :: fl, [], hl, h4, hw, heven => simp at h4
  | f :: g :: fl, [x], hl, h4, hw, heven => simp at h4
  | f :: g :: fl, x :: y :: row, hl, h4, hw, heven =>
    have hlen : (flipRow (f :: g :: fl) (x :: y :: row)).length = (x :: y :: row).length := by
      simp only [flipRow, List.length_zipWith]; omega
    have hx := hw x (by simp)
    have hy := hw y (by simp)
    have r0 : Rel f f (x, x, x, x) (flipTop f x, flipTop f x, flipTop f x, flipTop f x) := ⟨⟨hx, hx, hx, hx⟩, rfl⟩
    have r1 := rel_step (f := g) hy r0
    have r2 := rel_fold (fl := fl) (row := row) (by simpa using hl) (fun z hz => hw z (by simp [hz])) r1
    have he : fl.foldl (· ^^ ·) (f ^^ g) = false := by simpa using heven
    rw [he] at r2
    obtain ⟨_, r3⟩ := r2
    unfold wide
    have h4' : ¬ (x :: y :: row).length ≤ (if false = true then 2 else 4) := by
      rw [if_neg (by decide)]; omega
    rw [hlen, if_neg h4', if_neg h4']
    simp only [Bool.false_eq_true, if_false]
    have e1 : (flipRow (f :: g :: fl) (x :: y :: row)).getD 0 0 = flipTop f x := rfl
    have e2 : (flipRow (f :: g :: fl) (x :: y :: row)).tail.foldl step32 (flipTop f x, flipTop f x, flipTop f x, flipTop f x) =
        (flipRow fl row).foldl step32 (step32 (flipTop f x, flipTop f x, flipTop f x, flipTop f x) (flipTop g y)) := rfl
    rw [e1, e2, r3]
    simp only [flip_false]
    rfl

/-- C42 fails for wide items: every item of more than four words has a distinct partner such that, in the batch of these two
items (all valid, no key), `unique_mask` marks only the first. -/
theorem unique_mask_drops_distinct {k : Nat} (row : List Nat) (hl : row.length = k) (h4 : 4 < k) (hw : ∀ x ∈ row, x < 2 ^ 32) :
    ∃ row' : List Nat, row'.length = k ∧ (∀ x ∈ row', x < 2 ^ 32) ∧ row' ≠ row ∧
      ∃ r, uniqueMask (K := Option Nat) false 2 k [row, row'] none none none none = some r ∧
        r.mask.getD 0 false = true ∧ r.mask.getD 1 false = false := by
  match row, hl, hw with
  | [], hl, hw => simp at hl; omega
  | [x], hl, hw => simp at hl; omega
  | x :: y :: rest, hl, hw =>
    have hfl : (true :: true :: List.replicate rest.length false).length = (x :: y :: rest).length := by simp
    have hrest : flipRow (List.replicate rest.length false) rest = rest := by
      unfold flipRow
      clear hl hw hfl
      induction rest with
      | nil => rfl
      | cons a rest ih => simp only [List.length_cons, List.replicate_succ, List.zipWith_cons_cons, ih]; rfl
    have hrow : flipRow (true :: true :: List.replicate rest.length false) (x :: y :: rest) = flipTop true x :: flipTop true y :: rest := by
      show flipTop true x :: flipTop true y :: flipRow (List.replicate rest.length false) rest = _
      rw [hrest]
    have hev : (true :: true :: List.replicate rest.length false).foldl (· ^^ ·) false = false := by
      simp only [List.foldl_cons, Bool.false_xor, Bool.true_xor, Bool.not_true]
      generalize rest.length = m
      induction m with
      | zero => rfl
      | succ m ih => simpa [List.replicate_succ] using ih
    have hcol := wide_flip_collide hfl (by omega) hw hev
    rw [hrow] at hcol
    have hlen' : (flipTop true x :: flipTop true y :: rest).length = k := by simpa using hl
    refine ⟨flipTop true x :: flipTop true y :: rest, hlen', ?_, ?_, ?_⟩
    · intro z hz
      simp only [List.mem_cons] at hz
      rcases hz with rfl | rfl | hz
      · exact flip_lt (hw x (by simp))
      · exact flip_lt (hw y (by simp))
      · exact hw z (by simp [hz])
    · intro h
      have h1 : flipTop true x = x := (List.cons.inj h).1
      have := congrArg (fun z => z ^^^ x) h1
      simp only [flipTop, if_true, Nat.xor_self] at this
      rw [Nat.xor_comm, ← Nat.xor_assoc, Nat.xor_self, Nat.zero_xor] at this
      exact absurd this (by decide)
    · have hkey : ∀ ks : List (Option Nat), none = some ks → ks.length = 2 := fun ks h => by cases h
      obtain ⟨r, hr⟩ := uniqueMask_total (x64 := false) (n := 2) (k := k)
        (rows := [x :: y :: rest, flipTop true x :: flipTop true y :: rest])
        (key := (none : Option (List (Option Nat)))) (filled := none) (size := none) (fill := none) (by omega) hkey
      obtain ⟨_, hm⟩ := mask_iff (by omega) hkey hr
      have hrows : ∀ i, i < 2 → (([x :: y :: rest, flipTop true x :: flipTop true y :: rest] : List (List Nat)).getD i []).length = k := by
        intro i hi
        have : i = 0 ∨ i = 1 := by omega
        rcases this with rfl | rfl
        · exact hl
        · exact hlen'
      refine ⟨r, hr, ?_, ?_⟩
      · rw [hm 0 (by omega)]
        exact ⟨rfl, fun j hj _ => by simp only [tie]; omega⟩
      · cases h1 : r.mask.getD 1 false with
        | false => rfl
        | true =>
          exfalso
          obtain ⟨_, h2⟩ := (hm 1 (by omega)).1 h1
          have hsame : sameAll (hashLes false k [x :: y :: rest, flipTop true x :: flipTop true y :: rest]
              (effective none (none : Option (List (Option Nat))))) 0 1 = true := by
            rw [same_iff hrows (by omega) (by omega)]
            exact hcol.symm
          have := h2 0 (by omega) hsame
          simp only [tie] at this
          omega

/-- Concrete case: records of five `float32` fields that differ in the signs of the first two, `(1, 1, 0, 0, 0)` and
`(-1, -1, 0, 0, 0)`. -/
example : (uniqueMask (K := Option Nat) false 2 5 [[0x3F800000, 0x3F800000, 0, 0, 0], [0xBF800000, 0xBF800000, 0, 0, 0]]
    none none none none).map (·.mask) = some [true, false] := by decide +kernel

/-- C42 fails without `key` when an unfilled entry precedes an item whose words are all ones: the valid item is dropped. -/
theorem unique_mask_sentinel_false :
    (uniqueMask (K := Option Nat) false 2 1 [[0], [0xFFFFFFFF]] none (some [false, true]) none none).map (·.mask) =
      some [false, false] := by decide +kernel

/-- Non-trivial case of C42/C43: duplicates with different keys, a masked entry and an entry of infinite key. -/
example : (uniqueMask (K := Option Nat) false 6 2 [[1, 2], [3, 4], [1, 2], [3, 4], [5, 6], [1, 2]]
    (some [some 9, some 4, some 3, some 4, none, some 3]) (some [true, false, true, true, true, true]) none none).map
    (fun r => (r.mask, r.index, r.inverse)) =
    some ([false, false, true, true, false, false], [2, 3], [0, 1, 0, 1, 1, 0]) := by decide +kernel

/-! ## Aggregate-packed classes (C44) -/

open Agg in
/-- Items `r` and `r'` of a batch have the same contents in every field. -/
def SameItem (c : Cls) (inst : Inst (List Nat)) (r r' : Nat) : Prop :=
  ∀ s v, (s, v) ∈ flat c inst [] 0 → row s.nvalues r v = row s.nvalues r' v

open Agg in
/-- **C44** (partial: layouts without tail bytes).  If the packed layout has no tail bytes, the default keys of two items of a batch are
equal iff the items are equal (values reduced to their declared widths). -/
theorem packed_keys_separate_partial {kernel : List Nat → Bitpack.Tables → List Nat} (hk : IsPackKernel kernel) {c : Cls} (hw : c.Wf)
    (hsz : c.bitCount ≤ 2 ^ 32) (htail : (layout c.bitCount).2.2 = 0) {flatN : Nat} {inst : Inst (List Int)}
    (hc : Conforms flatN c inst) :
    ∃ p, packed kernel c flatN inst = some p ∧ ∀ r r', r < flatN → r' < flatN →
      ((p.map packedKey).getD r [] = (p.map packedKey).getD r' [] ↔ SameItem c (reduced c inst) r r') := by
  refine ⟨_, packed_eq hk hw hc, fun r r' hr hr' => ?_⟩
  have htb : (layout (totalBits c)).2.2 = 0 := by rw [totalBits, walk_total, Nat.zero_add]; exact htail
  have hkey : ∀ r, r < flatN → ((((List.range flatN).map fun r =>
      splitRow (layout (totalBits c)).1 (layout (totalBits c)).2.2 (rowWords c inst r))).map packedKey).getD r [] = rowWords c inst r := by
    intro r hr
    rw [List.map_map, List.getD_eq_getElem?_getD, List.getElem?_map, List.getElem?_range hr]
    simp only [Option.map_some, Option.getD_some, Function.comp]
    unfold splitRow packedKey
    rw [if_pos htb]
  rw [hkey r hr, hkey r' hr']
  constructor
  · intro h s v hs
    rw [flat_reduced c inst [] 0 hc, List.mem_map] at hs
    obtain ⟨⟨s', v'⟩, hs', he⟩ := hs
    simp only [Prod.mk.injEq] at he
    obtain ⟨rfl, rfl⟩ := he
    have h1 := decodeField_all hw hc hsz hr hs'
    have h2 := decodeField_all hw hc hsz hr' hs'
    rw [← h, h1] at h2
    exact h2
  · intro h
    apply words_ext (by rw [rowWords_length, rowWords_length]) (rowWords_lt c inst r) (rowWords_lt c inst r')
    intro q hq
    rw [rowWords_length] at hq
    have e : cells (flat c (reduced c inst) [] 0) r = cells (flat c (reduced c inst) [] 0) r' := by
      unfold cells
      have : ∀ l : List (Bitpack.Leaf × List Nat), (∀ p ∈ l, row p.1.nvalues r p.2 = row p.1.nvalues r' p.2) →
          (l.flatMap fun p => (List.range p.1.nvalues).map fun i =>
            (p.1.offset + i * p.1.bits, p.1.bits, (row p.1.nvalues r p.2).getD i 0)) =
          (l.flatMap fun p => (List.range p.1.nvalues).map fun i =>
            (p.1.offset + i * p.1.bits, p.1.bits, (row p.1.nvalues r' p.2).getD i 0)) := by
        intro l hl
        induction l with
        | nil => rfl
        | cons a l ih =>
          rw [List.flatMap_cons, List.flatMap_cons, ih (fun p hp => hl p (by simp [hp])), hl a (by simp)]
      exact this _ (fun p hp => h p.1 p.2 hp)
    apply Bool.eq_iff_iff.2
    rw [rowWords_bit hw hc hr hq, rowWords_bit hw hc hr' hq, e]

/-- C44 fails for layouts with tail bytes: a class of 40 bits per item; items 0 and 1 differ (field `b` is 1 and 2), but `b` is stored in
the tail byte, so `unique_mask` with the default key marks only item 0. -/
theorem packed_tail_ignored_false :
    let c := Agg.Cls.leaf "a" 32 [] (.leaf "b" 8 [] .nil)
    let inst := Agg.Inst.leaf "a" [(7 : Int), 7] (.leaf "b" [1, 2] .nil)
    c.bitCount = 40 ∧ Agg.Conforms 2 c inst ∧ ¬ SameItem c (Agg.reduced c inst) 0 1 ∧
    ((Agg.packed Bitpack.packXla c 2 inst).bind fun p =>
      (uniqueMask (K := Option Nat) false 2 1 (p.map packedKey) none none none none).map (·.mask)) = some [true, false] := by
  refine ⟨by decide +kernel, ?_, ?_, by decide +kernel⟩
  · simp [Agg.Conforms, Bitpack.size]
  · intro h
    have := h ⟨["b"], 8, 1, 32⟩ [1, 2] (by decide +kernel)
    exact absurd this (by decide +kernel)

/-- A packed class of at most 16 bits has no stored words at all, and `unique_mask` raises for every non-empty batch. -/
theorem packed_small_raises {c : Agg.Cls} (h : (Agg.layout c.bitCount).2.1 = 0) {n : Nat} (hn : 0 < n) (x64 : Bool) (rows : List (List Nat))
    (filled : Option (List Bool)) (size fill : Option Nat) :
    uniqueMask (K := Option Nat) x64 n (Agg.layout c.bitCount).2.1 rows none filled size fill = none := by
  rw [h]
  unfold uniqueMask
  rw [if_neg (by omega), if_neg (by simp), if_pos (by cases x64 <;> rfl)]

example : (Agg.layout (Agg.Cls.leaf "a" 4 [3] .nil).bitCount).2.1 = 0 := by decide +kernel

end Unique
