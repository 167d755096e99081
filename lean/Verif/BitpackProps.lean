import Verif.BitpackBytes

/-!
# C33, C34, C35, C36: bit packing round-trips

Specification: the packed bytes form a little-endian bit stream in which value number `i` occupies bits
`i * bits … (i + 1) * bits - 1`; a value is stored modulo `2 ^ bits` (for `bits = 1`: as "is non-zero").
-/

namespace Bitpack

open SortGroup

/-- What is stored for an input value: the value modulo `2 ^ bits`; for one bit, whether it is non-zero. -/
def stored (bits : Nat) (z : Int) : Nat := if bits = 1 then (if z = 0 then 0 else 1) else (z % 2 ^ bits).toNat

theorem stored_of_range {bits : Nat} {z : Int} (h0 : 0 ≤ z) (h : z < 2 ^ bits) : stored bits z = z.toNat := by
  unfold stored
  split
  · subst bits
    split
    · subst z; rfl
    · omega
  · rw [Int.emod_eq_of_lt h0 h]

theorem stored_lt (bits : Nat) (z : Int) : stored bits z < 2 ^ bits := by
  unfold stored
  split
  · subst bits; split <;> decide
  · have h := Int.emod_lt_of_pos z (show (0 : Int) < 2 ^ bits from Int.pow_pos (by decide))
    have h2 := Int.emod_nonneg z (show (2 ^ bits : Int) ≠ 0 from Int.ne_of_gt (Int.pow_pos (by decide)))
    have h3 : ((2 ^ bits : Nat) : Int) = 2 ^ bits := by simp
    omega

theorem stored_zero (bits : Nat) : stored bits 0 = 0 := by unfold stored; simp

theorem int_pow_dvd {a b : Nat} (h : a ≤ b) : (2 ^ a : Int) ∣ 2 ^ b :=
  ⟨2 ^ (b - a), by rw [← Int.pow_add]; congr 1; omega⟩

theorem toNat_mod_pow {z : Int} (h : 0 ≤ z) (bits : Nat) : z.toNat % 2 ^ bits = (z % 2 ^ bits).toNat := by
  obtain ⟨n, rfl⟩ := Int.eq_ofNat_of_zero_le h
  have h3 : ((2 ^ bits : Nat) : Int) = 2 ^ bits := by simp
  rw [← h3, ← Int.natCast_emod]
  rfl

theorem toU32_mod (z : Int) {bits : Nat} (h : bits ≤ 32) : toU32 z % 2 ^ bits = (z % 2 ^ bits).toNat := by
  unfold toU32
  have hp : (0 : Int) < 2 ^ bits := Int.pow_pos (by decide)
  have h1 : z % 2 ^ 32 % 2 ^ bits = z % 2 ^ bits := Int.emod_emod_of_dvd z (int_pow_dvd h)
  have h2 := Int.emod_nonneg z (show (2 ^ 32 : Int) ≠ 0 by decide)
  rw [← h1, toNat_mod_pow h2]

theorem toU32_testBit (z : Int) {bits k : Nat} (hb1 : bits ≠ 1) (h : bits ≤ 32) (hk : k < bits) :
    (toU32 z).testBit k = (stored bits z).testBit k := by
  unfold stored
  rw [if_neg hb1, ← toU32_mod z h, Nat.testBit_mod_two_pow, decide_eq_true hk, Bool.true_and]

theorem toU32_zero : toU32 0 = 0 := rfl

theorem getD_map_toU32 (l : List Int) (i : Nat) : (l.map toU32).getD i 0 = toU32 (l.getD i 0) := by
  rw [List.getD_eq_getElem?_getD, List.getElem?_map, List.getD_eq_getElem?_getD]
  cases l[i]? with
  | none => rfl
  | some x => rfl

theorem getD_ge {α : Type u} (l : List α) {i : Nat} (d : α) (h : l.length ≤ i) : l.getD i d = d := by
  rw [List.getD_eq_getElem?_getD, List.getElem?_eq_none h]; rfl

/-! ## Packing -/

theorem packbits_bit (bs : List Bool) (q : Nat) : byteBit (packbits bs) q = bs.getD q false := by
  unfold byteBit packbits
  rw [List.getD_eq_getElem?_getD, tab_getElem?]
  split
  · rename_i h
    rw [Option.getD_some, foldl_or_testBit, Nat.zero_testBit, Bool.false_or, Bool.eq_iff_iff, List.any_eq_true]
    have hq : 8 * (q / 8) + q % 8 = q := Nat.div_add_mod q 8
    constructor
    · rintro ⟨t, ht, hb⟩
      rw [List.mem_range] at ht
      rw [Nat.testBit_shiftLeft] at hb
      simp only [Bool.and_eq_true, decide_eq_true_eq] at hb
      cases hc : bs.getD (8 * (q / 8) + t) false with
      | false => rw [hc] at hb; simp at hb
      | true =>
        rw [hc] at hb
        have : q % 8 = t := by
          have h2 := hb.2
          simp only [Bool.toNat_true] at h2
          rcases Nat.eq_zero_or_pos (q % 8 - t) with h3 | h3
          · omega
          · rw [testBit_ge (n := 1) (by decide) h3] at h2; cases h2
        rw [← hq, this]; exact hc
    · intro hb
      refine ⟨q % 8, List.mem_range.2 (Nat.mod_lt _ (by decide)), ?_⟩
      rw [hq, hb, Nat.testBit_shiftLeft]; simp
  · rename_i h
    rw [Option.getD_none, Nat.zero_testBit, getD_ge _ _ (by omega)]

theorem packbits_lt (bs : List Bool) : ∀ b ∈ packbits bs, b < 256 := by
  intro b hb
  obtain ⟨j, _, rfl⟩ := List.mem_map.1 hb
  refine foldl_or_lt _ _ _ 8 (by decide) ?_
  intro t ht
  rw [List.mem_range] at ht
  have h1 : (bs.getD (8 * j + t) false).toNat ≤ 1 := by cases bs.getD (8 * j + t) false <;> decide
  have h2 : 2 ^ t ≤ 2 ^ 7 := Nat.pow_le_pow_right (by decide) (by omega)
  rw [Nat.shiftLeft_eq]
  have := Nat.mul_le_mul h1 h2
  omega

/-- One byte of the 2- and 4-bit path. -/
theorem subbyte_bit {bits : Nat} (hb : bits = 2 ∨ bits = 4) (g : List Int) (t : Nat) (ht : t < 8) :
    (g.zipIdx.foldl (fun acc p => acc ||| ((((p.1 % 256).toNat &&& (2 ^ bits - 1)) <<< (p.2 * bits)) % 256)) 0).testBit t =
      (stored bits (g.getD (t / bits) 0)).testBit (t % bits) := by
  have hb0 : 0 < bits := by omega
  have hval : ∀ (z : Int) (k : Nat), ((z % 256).toNat &&& (2 ^ bits - 1)).testBit k = (stored bits z).testBit k := by
    intro z k
    rw [Nat.and_two_pow_sub_one_eq_mod]
    unfold stored
    rw [if_neg (by omega)]
    congr 1
    have h2 := Int.emod_nonneg z (show (256 : Int) ≠ 0 by decide)
    have hp : (0 : Int) < 2 ^ bits := Int.pow_pos (by decide)
    have h3 : z % 256 % 2 ^ bits = z % 2 ^ bits :=
      Int.emod_emod_of_dvd z (int_pow_dvd (by omega : bits ≤ 8))
    rw [← h3, toNat_mod_pow h2]
  rw [foldl_or_testBit, Nat.zero_testBit, Bool.false_or, Bool.eq_iff_iff, List.any_eq_true]
  have hdm := Nat.div_add_mod t bits
  have hml := Nat.mod_lt t hb0
  constructor
  · rintro ⟨⟨z, i⟩, hm, h⟩
    rw [List.mem_zipIdx_iff_getElem?] at hm
    simp only at hm h
    rw [show (256 : Nat) = 2 ^ 8 from rfl, Nat.testBit_mod_two_pow, Nat.testBit_shiftLeft, hval] at h
    simp only [Bool.and_eq_true, decide_eq_true_eq] at h
    obtain ⟨_, h2, h3⟩ := h
    have h4 : t - i * bits < bits := by
      rcases Nat.lt_or_ge (t - i * bits) bits with h4 | h4
      · exact h4
      · rw [testBit_ge (stored_lt bits z) h4] at h3; cases h3
    have e1 : t / bits = i := by
      rw [Nat.div_eq_of_lt_le]
      · exact h2
      · rw [Nat.add_mul]; omega
    rw [e1] at hdm ⊢
    rw [List.getD_eq_getElem?_getD, hm, Option.getD_some, show t % bits = t - i * bits by rw [Nat.mul_comm i]; omega]
    exact h3
  · intro h
    cases hg : g[t / bits]? with
    | none =>
      rw [List.getD_eq_getElem?_getD, hg, Option.getD_none, stored_zero, Nat.zero_testBit] at h
      cases h
    | some z =>
      refine ⟨(z, t / bits), ?_, ?_⟩
      · rw [List.mem_zipIdx_iff_getElem?]; exact hg
      · rw [show (256 : Nat) = 2 ^ 8 from rfl, Nat.testBit_mod_two_pow, Nat.testBit_shiftLeft, hval,
          show t - t / bits * bits = t % bits by rw [Nat.mul_comm]; omega]
        rw [List.getD_eq_getElem?_getD, hg, Option.getD_some] at h
        rw [h, decide_eq_true ht, decide_eq_true (show t ≥ t / bits * bits by rw [Nat.mul_comm]; omega)]; rfl

/-- **C34.**  `to_uint8` returns exactly `packed_num_bytes` bytes. -/
theorem toUint8_length (vals : List Int) {bits : Nat} (h1 : 1 ≤ bits) (h32 : bits ≤ 32) :
    (toUint8 vals bits).length = packedNumBytes vals.length bits := by
  obtain ⟨hL1, hL2, hv, hby, hbw, hbw2, _⟩ := block_facts h1
  unfold toUint8
  split
  · subst bits
    rw [packedNumBytes_eq _ (by decide) (by decide)]
    simp only [packbits, tab_length, List.length_map]
    show _ = ceilDiv vals.length 8 * 1
    unfold ceilDiv; omega
  · split
    · subst bits
      rw [packedNumBytes_eq _ (by decide) (by decide)]
      rw [List.length_map]
      show _ = ceilDiv vals.length 1 * 1
      unfold ceilDiv; omega
    · split
      · rename_i h
        rw [List.length_map, rows_length]
        rcases h with h | h <;> subst h
        · rw [padTo_length 0 (by decide), packedNumBytes_eq _ (by decide) (by decide)]
          show ceilDiv vals.length 4 * 4 / 4 = ceilDiv vals.length 4 * 1
          omega
        · rw [padTo_length 0 (by decide), packedNumBytes_eq _ (by decide) (by decide)]
          show ceilDiv vals.length 2 * 2 / 2 = ceilDiv vals.length 2 * 1
          omega
      · rw [flatMap_const_length (k := blockBytes bits), rows_length, padTo_length 0 hv, Nat.mul_div_cancel _ hv,
          packedNumBytes_eq _ h1 h32]
        intro g _
        rw [List.length_take, bytesOfWords_length, blockTables, packXla_length]
        omega

theorem toUint8_lt (vals : List Int) (bits : Nat) : ∀ b ∈ toUint8 vals bits, b < 256 := by
  unfold toUint8
  split
  · exact packbits_lt _
  · split
    · intro b hb
      obtain ⟨z, _, rfl⟩ := List.mem_map.1 hb
      have := Int.emod_lt_of_pos z (show (0 : Int) < 256 by decide)
      omega
    · split
      · intro b hb
        obtain ⟨g, _, rfl⟩ := List.mem_map.1 hb
        exact foldl_or_lt _ _ _ 8 (by decide) fun c _ => Nat.mod_lt _ (by decide)
      · intro b hb
        obtain ⟨g, _, hb⟩ := List.mem_flatMap.1 hb
        exact bytesOfWords_lt _ b (List.mem_of_mem_take hb)

/-- **Layout of the packed stream.**  For every width 1..32 and every array: bit `q` of the bytes returned by `to_uint8` is
bit `q % bits` of value number `q / bits` (as stored), and zero after the last value. -/
theorem toUint8_bit (vals : List Int) {bits : Nat} (h1 : 1 ≤ bits) (h32 : bits ≤ 32) (q : Nat) :
    byteBit (toUint8 vals bits) q = (stored bits (vals.getD (q / bits) 0)).testBit (q % bits) := by
  obtain ⟨hL1, hL2, hv, hby, hbw, hbw2, _⟩ := block_facts h1
  unfold toUint8
  split
  · subst bits
    rw [packbits_bit, Nat.div_one, Nat.mod_one, List.getD_eq_getElem?_getD, List.getElem?_map, List.getD_eq_getElem?_getD]
    cases vals[q]? with
    | none => simp [stored]
    | some z =>
      simp only [Option.map_some, Option.getD_some, stored, if_true]
      by_cases hz : z = 0
      · simp [hz]
      · simp [hz]
  · split
    · subst bits
      unfold byteBit stored
      rw [List.getD_eq_getElem?_getD, List.getElem?_map, List.getD_eq_getElem?_getD]
      cases vals[q / 8]? with
      | none => rfl
      | some z => rfl
    · split
      · rename_i hne h8 h24
        have h8b : 8 / bits * bits = 8 := by rcases h24 with h | h <;> subst h <;> rfl
        have hvp : 0 < 8 / bits := by rcases h24 with h | h <;> subst h <;> decide
        unfold byteBit
        rw [List.getD_eq_getElem?_getD, List.getElem?_map]
        have hidx : q / bits = q / 8 * (8 / bits) + q % 8 / bits := by
          rcases h24 with h | h <;> subst h
          · show q / 2 = q / 8 * 4 + q % 8 / 2; omega
          · show q / 4 = q / 8 * 2 + q % 8 / 4; omega
        have hmod : q % bits = q % 8 % bits := by rcases h24 with h | h <;> subst h <;> omega
        have hdl : q % 8 / bits < 8 / bits := by
          rcases h24 with h | h <;> subst h
          · show q % 8 / 2 < 4; omega
          · show q % 8 / 4 < 2; omega
        by_cases hr : q / 8 < (padTo 0 (8 / bits) vals).length / (8 / bits)
        · rw [rows_getElem? _ _ _ hr, Option.map_some, Option.getD_some, subbyte_bit h24 _ _ (by omega),
            row_getD _ _ _ _ _ hdl, padTo_getD_int, ← hidx, ← hmod]
        · rw [List.getElem?_eq_none (by rw [rows_length]; omega), Option.map_none, Option.getD_none, Nat.zero_testBit,
            getD_ge, stored_zero, Nat.zero_testBit]
          rw [padTo_length 0 hvp, Nat.mul_div_cancel _ hvp] at hr
          have h5 := (ceilDiv_mul_ge vals.length hvp).1
          have h6 := Nat.mul_le_mul_right (8 / bits) (Nat.le_of_not_lt hr)
          rw [hidx]; exact Nat.le_trans (Nat.le_trans h5 h6) (Nat.le_add_right _ _)
      · rename_i hne h8 h24
        unfold byteBit
        have hlen : ∀ g : List Int, ((bytesOfWords (packXla (g.map toU32) (blockTables bits))).take
            (blockBytes bits)).length = blockBytes bits := by
          intro g
          rw [List.length_take, bytesOfWords_length, blockTables, packXla_length]
          omega
        rw [flatMap_const_getD hby _ (fun g _ => hlen g)]
        -- coordinates inside the block
        have hq1 : q / 8 / blockBytes bits = q / (blockVals bits * bits) := by
          rw [Nat.div_div_eq_div_mul, Nat.mul_comm 8, hL2, hL1]
        have hLpos : 0 < blockVals bits * bits := Nat.mul_pos hv h1
        have hq2 : q / 8 % blockBytes bits = q % (blockVals bits * bits) / 8 := by
          rw [hL1, ← hL2]
          exact (Nat.mod_mul_left_div_self q 8 (blockBytes bits)).symm
        have hq3 : q % 8 = q % (blockVals bits * bits) % 8 := by
          rw [hL1, ← hL2, Nat.mod_mul_left_mod]
        have hidx : q / bits = q / (blockVals bits * bits) * blockVals bits + q % (blockVals bits * bits) / bits := by
          rw [Nat.mod_mul_left_div_self, Nat.mul_comm (blockVals bits) bits, ← Nat.div_div_eq_div_mul]
          rw [Nat.mul_comm]; exact (Nat.div_add_mod (q / bits) (blockVals bits)).symm
        have hmod : q % bits = q % (blockVals bits * bits) % bits := (Nat.mod_mul_left_mod _ _ _).symm
        have hlt := Nat.mod_lt q hLpos
        have hdl : q % (blockVals bits * bits) / bits < blockVals bits := (Nat.div_lt_iff_lt_mul h1).2 hlt
        by_cases hr : q / (blockVals bits * bits) < (padTo 0 (blockVals bits) vals).length / blockVals bits
        · rw [hq1, rows_getElem? _ _ _ hr]
          simp only
          have htake : ∀ (l : List Nat), (l.take (blockBytes bits)).getD (q / 8 % blockBytes bits) 0 =
              l.getD (q / 8 % blockBytes bits) 0 := by
            intro l
            rw [List.getD_eq_getElem?_getD, List.getElem?_take, if_pos (Nat.mod_lt _ hby), List.getD_eq_getElem?_getD]
          rw [htake, hq2, hq3]
          have := bytesOfWords_bit (packXla ((((padTo 0 (blockVals bits) vals).drop
            (q / (blockVals bits * bits) * blockVals bits)).take (blockVals bits)).map toU32) (blockTables bits))
            (q % (blockVals bits * bits))
          unfold byteBit at this
          rw [this, blockTables, packUniform_bit _ _ h1 h32 (by omega) hlt, getD_map_toU32, row_getD _ _ _ _ _ hdl,
            padTo_getD_int, ← hidx, ← hmod]
          exact toU32_testBit _ hne h32 (Nat.mod_lt _ h1)
        · rw [hq1, List.getElem?_eq_none (by rw [rows_length]; omega)]
          simp only [Nat.zero_testBit]
          rw [getD_ge, stored_zero, Nat.zero_testBit]
          rw [padTo_length 0 hv, Nat.mul_div_cancel _ hv] at hr
          have h5 := (ceilDiv_mul_ge vals.length hv).1
          have h6 := Nat.mul_le_mul_right (blockVals bits) (Nat.le_of_not_lt hr)
          rw [hidx]; exact Nat.le_trans (Nat.le_trans h5 h6) (Nat.le_add_right _ _)

/-! ## Unpacking -/

/-- **Reading the packed stream.**  For every width and every byte stream long enough, value `i` returned by `from_uint8` is
the number whose bits are `i * bits … (i + 1) * bits - 1` of the stream. -/
theorem fromUint8_bit (bytes : List Nat) (hlt : ∀ b ∈ bytes, b < 256) {n bits : Nat} (h1 : 1 ≤ bits) (h32 : bits ≤ 32)
    (hlen : n * bits ≤ 8 * bytes.length) :
    (fromUint8 bytes n bits).length = n ∧
    ∀ i k, i < n → ((fromUint8 bytes n bits).getD i 0).testBit k = (decide (k < bits) && byteBit bytes (i * bits + k)) := by
  obtain ⟨hL1, hL2, hv, hby, hbw, hbw2, h8⟩ := block_facts h1
  unfold fromUint8
  split
  · subst n; exact ⟨rfl, fun i k h => absurd h (by omega)⟩
  split
  · subst bits
    refine ⟨by simp [unpackbits], ?_⟩
    intro i k hi
    rw [List.getD_eq_getElem?_getD, List.getElem?_map, unpackbits, tab_getElem?, if_pos hi, Option.map_some, Option.getD_some]
    unfold byteBit
    rcases Nat.eq_zero_or_pos k with hk | hk
    · subst hk
      rw [Nat.mul_one, Nat.add_zero]
      cases (bytes.getD (i / 8) 0).testBit (i % 8) <;> simp
    · rw [decide_eq_false (show ¬ k < 1 by omega), Bool.false_and]
      apply testBit_ge (n := 1) ?_ hk
      cases (bytes.getD (i / 8) 0).testBit (i % 8) <;> decide
  split
  · subst bits
    refine ⟨by rw [List.length_take]; omega, ?_⟩
    intro i k hi
    rw [List.getD_eq_getElem?_getD, List.getElem?_take, if_pos hi, ← List.getD_eq_getElem?_getD]
    unfold byteBit
    by_cases hk : k < 8
    · rw [show (i * 8 + k) / 8 = i by omega, show (i * 8 + k) % 8 = k by omega, decide_eq_true hk, Bool.true_and]
    · rw [decide_eq_false hk, Bool.false_and]
      apply testBit_ge (n := 8) ?_ (by omega)
      rw [List.getD_eq_getElem?_getD]
      cases h : bytes[i]? with
      | none => decide
      | some b => exact hlt b (List.mem_of_getElem? h)
  split
  · rename_i h24
    have hvp : 0 < 8 / bits := by rcases h24 with h | h <;> subst h <;> decide
    have hcl : ∀ b ∈ bytes, ((List.range (8 / bits)).map fun t => (b >>> (t * bits)) &&& (2 ^ bits - 1)).length = 8 / bits := by
      intro b _; simp
    have h8b : 8 / bits * bits = 8 := by rcases h24 with h | h <;> subst h <;> rfl
    have hnl : n ≤ bytes.length * (8 / bits) := by
      apply Nat.le_of_mul_le_mul_right _ h1
      rw [Nat.mul_assoc, h8b]; omega
    refine ⟨?_, ?_⟩
    · rw [List.length_take, flatMap_const_length bytes hcl]
      omega
    · intro i k hi
      rw [List.getD_eq_getElem?_getD, List.getElem?_take, if_pos hi, ← List.getD_eq_getElem?_getD,
        flatMap_const_getD hvp bytes hcl]
      have hib : i / (8 / bits) < bytes.length := (Nat.div_lt_iff_lt_mul hvp).2 (by omega)
      rw [List.getElem?_eq_getElem hib]
      simp only
      rw [List.getD_eq_getElem?_getD, List.getElem?_map, List.getElem?_range (Nat.mod_lt _ hvp), Option.map_some,
        Option.getD_some, Nat.testBit_and, Nat.testBit_shiftRight, Nat.testBit_two_pow_sub_one, Bool.and_comm]
      by_cases hk : k < bits
      · rw [decide_eq_true hk, Bool.true_and, Bool.true_and]
        unfold byteBit
        have e1 : (i * bits + k) / 8 = i / (8 / bits) := by
          rcases h24 with h | h <;> subst h
          · show (i * 2 + k) / 8 = i / 4; omega
          · show (i * 4 + k) / 8 = i / 2; omega
        have e2 : (i * bits + k) % 8 = i % (8 / bits) * bits + k := by
          rcases h24 with h | h <;> subst h
          · show (i * 2 + k) % 8 = i % 4 * 2 + k; omega
          · show (i * 4 + k) % 8 = i % 2 * 4 + k; omega
        rw [e1, e2, List.getD_eq_getElem?_getD, List.getElem?_eq_getElem hib]; rfl
      · rw [decide_eq_false hk, Bool.false_and, Bool.false_and]
  · rename_i hn0 hne h8' h24
    have hcl : ∀ g ∈ rows (blockBytes bits) (padTo 0 (blockBytes bits) bytes),
        ((List.range (blockVals bits)).map fun i => decode (wordsOfBytes g) bits (i * bits % 2 ^ 32)).length =
          blockVals bits := by intro g _; simp
    have hrows : (rows (blockBytes bits) (padTo 0 (blockBytes bits) bytes)).length =
        ceilDiv bytes.length (blockBytes bits) := by
      rw [rows_length, padTo_length 0 hby, Nat.mul_div_cancel _ hby]
    have hnl : n ≤ ceilDiv bytes.length (blockBytes bits) * blockVals bits := by
      apply Nat.le_of_mul_le_mul_right _ h1
      rw [Nat.mul_assoc, hL1, ← hL2]
      have := (ceilDiv_mul_ge bytes.length hby).1
      rw [← Nat.mul_assoc]; omega
    refine ⟨?_, ?_⟩
    · rw [List.length_take, flatMap_const_length _ hcl, hrows]
      omega
    · intro i k hi
      rw [List.getD_eq_getElem?_getD, List.getElem?_take, if_pos hi, ← List.getD_eq_getElem?_getD,
        flatMap_const_getD hv _ hcl]
      have hib : i / blockVals bits < (padTo 0 (blockBytes bits) bytes).length / blockBytes bits := by
        rw [← rows_length, hrows]
        exact (Nat.div_lt_iff_lt_mul hv).2 (by omega)
      rw [rows_getElem? _ _ _ hib]
      simp only
      have hiv := Nat.mod_lt i hv
      rw [List.getD_eq_getElem?_getD, List.getElem?_map, List.getElem?_range hiv, Option.map_some, Option.getD_some]
      have hgm : ((padTo 0 (blockBytes bits) bytes).drop (i / blockVals bits * blockBytes bits)).take (blockBytes bits) ∈
          rows (blockBytes bits) (padTo 0 (blockBytes bits) bytes) :=
        List.mem_of_getElem? (rows_getElem? _ _ _ hib)
      generalize hg : ((padTo 0 (blockBytes bits) bytes).drop (i / blockVals bits * blockBytes bits)).take
        (blockBytes bits) = g at hgm
      have hglen := mem_rows_length hgm
      have hglt : ∀ b ∈ g, b < 256 := by
        intro b hb
        have := mem_of_mem_rows hgm hb
        unfold padTo at this
        rcases List.mem_append.1 this with h | h
        · exact hlt b h
        · rw [List.eq_of_mem_replicate h]; decide
      obtain ⟨w1, w2, w3⟩ := wordsOfBytes_spec g hglt
      have hpos : i % blockVals bits * bits + bits ≤ blockBytes bits * 8 := by
        rw [hL2, ← hL1]
        have := Nat.mul_le_mul_right bits hiv
        rw [Nat.succ_mul] at this
        exact this
      have hsmall : i % blockVals bits * bits < 2 ^ 32 := by
        have : i % blockVals bits * bits ≤ 8 * 32 := Nat.mul_le_mul (by omega) h32
        omega
      rw [Nat.mod_eq_of_lt hsmall, decode_testBit w2 h32 (by omega), w3]
      by_cases hk : k < bits
      · rw [decide_eq_true hk, Bool.true_and, Bool.true_and]
        unfold byteBit
        have e0 : i * bits + k = 8 * (i / blockVals bits * blockBytes bits) + (i % blockVals bits * bits + k) := by
          have := Nat.div_add_mod i (blockVals bits)
          calc i * bits + k = (blockVals bits * (i / blockVals bits) + i % blockVals bits) * bits + k := by rw [this]
            _ = i / blockVals bits * (blockVals bits * bits) + i % blockVals bits * bits + k := by
                rw [Nat.add_mul, Nat.mul_comm (blockVals bits), Nat.mul_assoc]
            _ = _ := by rw [hL1, ← hL2, ← Nat.mul_assoc]; omega
        generalize hp : i % blockVals bits * bits + k = p at *
        have hp8 : p < blockBytes bits * 8 := by omega
        rw [e0, Nat.mul_add_div (by decide), Nat.mul_add_mod, ← hg, row_getD _ _ _ _ _ (by omega), padTo_getD]
      · rw [decide_eq_false hk, Bool.false_and, Bool.false_and]

/-- **C33, C35.**  For every width 1..32 and every integer array, packing and unpacking returns every value as stored:
unchanged if it is in range, reduced modulo `2 ^ bits` (for one bit: as "is non-zero") otherwise — an out-of-range value
never disturbs the others. -/
theorem bitpack_roundtrip (vals : List Int) {bits : Nat} (h1 : 1 ≤ bits) (h32 : bits ≤ 32) :
    fromUint8 (toUint8 vals bits) vals.length bits = vals.map (stored bits) := by
  have hlen : vals.length * bits ≤ 8 * (toUint8 vals bits).length := by
    rw [toUint8_length vals h1 h32]; exact packedNumBytes_ge _ h1 h32
  obtain ⟨hl, hb⟩ := fromUint8_bit (toUint8 vals bits) (toUint8_lt vals bits) h1 h32 hlen
  apply List.ext_getElem?
  intro i
  by_cases hi : i < vals.length
  · have e : (fromUint8 (toUint8 vals bits) vals.length bits).getD i 0 = stored bits (vals.getD i 0) := by
      apply Nat.eq_of_testBit_eq
      intro k
      rw [hb i k hi, toUint8_bit vals h1 h32]
      by_cases hk : k < bits
      · rw [decide_eq_true hk, Bool.true_and, Nat.mul_comm, Nat.mul_add_div h1, Nat.mul_add_mod, Nat.div_eq_of_lt hk,
          Nat.mod_eq_of_lt hk, Nat.add_zero]
      · rw [decide_eq_false hk, Bool.false_and, testBit_ge (stored_lt _ _) (by omega)]
    rw [List.getD_eq_getElem?_getD, List.getElem?_eq_getElem (by omega)] at e
    rw [List.getElem?_eq_getElem (by omega), List.getElem?_map, List.getElem?_eq_getElem hi, Option.map_some]
    rw [List.getD_eq_getElem?_getD, List.getElem?_eq_getElem hi] at e
    exact congrArg some e
  · rw [List.getElem?_eq_none (by omega), List.getElem?_eq_none (by simp; omega)]

/-- **C33.**  In-range arrays round-trip exactly, for every width and length. -/
theorem bitpack_roundtrip_exact (vals : List Nat) {bits : Nat} (h1 : 1 ≤ bits) (h32 : bits ≤ 32)
    (hr : ∀ v ∈ vals, v < 2 ^ bits) :
    fromUint8 (toUint8 (vals.map Int.ofNat) bits) vals.length bits = vals := by
  have := bitpack_roundtrip (vals.map Int.ofNat) h1 h32
  rw [List.length_map] at this
  rw [this, List.map_map]
  conv => rhs; rw [← List.map_id vals]
  apply List.map_congr_left
  intro v hv
  have h2 : ((2 ^ bits : Nat) : Int) = 2 ^ bits := by simp
  have := hr v hv
  show stored bits (v : Int) = v
  rw [stored_of_range (Int.natCast_nonneg v) (by rw [← h2]; exact Int.ofNat_lt.2 this)]
  rfl

/-- **C34.**  The packed length is `packed_num_bytes(n, bits)`: the least whole number of `lcm(bits, 8)`-bit blocks that
holds `n * bits` bits. -/
theorem packed_length_exact (vals : List Int) {bits : Nat} (h1 : 1 ≤ bits) (h32 : bits ≤ 32) :
    (toUint8 vals bits).length = packedNumBytes vals.length bits ∧
    (∃ m, 8 * packedNumBytes vals.length bits = m * Nat.lcm bits 8 ∧ vals.length * bits ≤ m * Nat.lcm bits 8 ∧
      ∀ m', vals.length * bits ≤ m' * Nat.lcm bits 8 → m ≤ m') := by
  refine ⟨toUint8_length vals h1 h32, ceilDiv vals.length (blockVals bits), ?_, ?_, ?_⟩
  · rw [packedNumBytes_bits _ h1 h32, Nat.mul_assoc, (block_facts h1).1]
  · rw [← (block_facts h1).1, ← Nat.mul_assoc]
    exact Nat.mul_le_mul_right _ (ceilDiv_mul_ge _ (block_facts h1).2.2.1).1
  · intro m' hm
    rw [← (block_facts h1).1, ← Nat.mul_assoc] at hm
    have h2 := Nat.le_of_mul_le_mul_right hm h1
    have h3 := (ceilDiv_mul_ge vals.length (block_facts h1).2.2.1).2
    have h4 : ceilDiv vals.length (blockVals bits) * blockVals bits < (m' + 1) * blockVals bits := by
      rw [Nat.add_mul]; omega
    exact Nat.lt_succ_iff.1 (Nat.lt_of_mul_lt_mul_right h4)

/-- When the width divides 8 or is a multiple of 8 the length is `ceil(n * bits / 8)`. -/
theorem packed_length_aligned (n : Nat) {bits : Nat} (h : bits ∣ 8 ∨ 8 ∣ bits) (h1 : 1 ≤ bits) (h32 : bits ≤ 32) :
    packedNumBytes n bits = (n * bits + 7) / 8 := by
  have : bits = 1 ∨ bits = 2 ∨ bits = 4 ∨ bits = 8 ∨ bits = 16 ∨ bits = 24 ∨ bits = 32 := by
    rcases h with h | h
    · have := Nat.le_of_dvd (by decide) h
      have : bits = 1 ∨ bits = 2 ∨ bits = 3 ∨ bits = 4 ∨ bits = 5 ∨ bits = 6 ∨ bits = 7 ∨ bits = 8 := by omega
      rcases this with h' | h' | h' | h' | h' | h' | h' | h' <;> subst h' <;> first | omega | (revert h; decide)
    · obtain ⟨c, rfl⟩ := h; omega
  rw [packedNumBytes_eq n h1 h32]
  rcases this with h' | h' | h' | h' | h' | h' | h' <;> subst h'
  · show (n + 8 - 1) / 8 * 1 = _; omega
  · show (n + 4 - 1) / 4 * 1 = _; omega
  · show (n + 2 - 1) / 2 * 1 = _; omega
  · show (n + 1 - 1) / 1 * 1 = _; omega
  · show (n + 1 - 1) / 1 * 2 = _; omega
  · show (n + 1 - 1) / 1 * 3 = _; omega
  · show (n + 1 - 1) / 1 * 4 = _; omega

/-- The unaligned widths are block-padded: one 3-bit value takes 3 bytes, not 1. -/
example : packedNumBytes 1 3 = 3 ∧ toUint8 [5] 3 = [5, 0, 0] := by decide +kernel

/-- Non-vacuity: an unaligned width crossing word boundaries, with a negative and an oversized value. -/
example : toUint8 [1, -1, 5000, 4095, 7] 12 = [1, 240, 255, 136, 243, 255, 7, 0, 0] ∧
    fromUint8 [1, 240, 255, 136, 243, 255, 7, 0, 0] 5 12 = [1, 4095, 904, 4095, 7] := by decide +kernel

end Bitpack
