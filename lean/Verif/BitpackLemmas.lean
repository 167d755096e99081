import Verif.BitpackModel

/-! # Bit-level lemmas for packing -/

namespace Bitpack

open SortGroup

/-! ## Specification: bit `q` of a byte / word stream (little-endian bit order) -/

/-- Bit `q` of a byte stream. -/
def byteBit (bytes : List Nat) (q : Nat) : Bool := (bytes.getD (q / 8) 0).testBit (q % 8)

/-- Bit `q` of a stream of 32-bit words. -/
def wordBit (words : List Nat) (q : Nat) : Bool := (words.getD (q / 32) 0).testBit (q % 32)

/-! ## Helpers -/

theorem mask_testBit {bits k : Nat} (h : bits ≤ 32) : (mask bits).testBit k = decide (k < bits) := by
  unfold mask
  split
  · rename_i h0; subst h0; simp
  · split
    · have : bits = 32 := by omega
      subst this
      show Nat.testBit (2 ^ 32 - 1) k = _
      rw [Nat.testBit_two_pow_sub_one]
    · rw [Nat.testBit_two_pow_sub_one]

theorem mask_lt {bits : Nat} : mask bits < 2 ^ 32 := by
  unfold mask
  split
  · decide
  · split
    · decide
    · have : 2 ^ bits ≤ 2 ^ 32 := Nat.pow_le_pow_right (by decide) (by omega)
      have := Nat.two_pow_pos bits
      omega

theorem testBit_ge {v n k : Nat} (h : v < 2 ^ n) (hk : n ≤ k) : v.testBit k = false :=
  Nat.testBit_lt_two_pow (Nat.lt_of_lt_of_le h (Nat.pow_le_pow_right (by decide) hk))

theorem foldl_or_testBit {α : Type u} (f : α → Nat) (l : List α) (a b : Nat) :
    (l.foldl (fun acc c => acc ||| f c) a).testBit b = (a.testBit b || l.any fun c => (f c).testBit b) := by
  induction l generalizing a with
  | nil => simp
  | cons c l ih => rw [List.foldl_cons, ih, Nat.testBit_or, List.any_cons, Bool.or_assoc]

theorem foldl_or_lt {α : Type u} (f : α → Nat) (l : List α) (a n : Nat) (ha : a < 2 ^ n) (hf : ∀ c ∈ l, f c < 2 ^ n) :
    l.foldl (fun acc c => acc ||| f c) a < 2 ^ n := by
  induction l generalizing a with
  | nil => exact ha
  | cons c l ih =>
    rw [List.foldl_cons]
    exact ih _ (Nat.or_lt_two_pow ha (hf c (by simp))) fun c hc => hf c (by simp [hc])

theorem getD_append_zero (l : List Nat) (i : Nat) : (l ++ [0]).getD i 0 = l.getD i 0 := by
  rw [List.getD_eq_getElem?_getD, List.getD_eq_getElem?_getD, List.getElem?_append]
  split
  · rfl
  · rename_i h
    rw [List.getElem?_eq_none (by omega : l.length ≤ i)]
    rcases Nat.eq_zero_or_pos (i - l.length) with h0 | h0
    · rw [h0]; rfl
    · rw [List.getElem?_eq_none (by simp only [List.length_singleton]; omega)]

/-! ## Table entries -/

theorem mem_valueContribs {vi start bits w : Nat} {c : Contrib} :
    (w, c) ∈ valueContribs vi start bits ↔
      max start (32 * w) < min (start + bits) (32 * w + 32) ∧
      c = { vi := vi, vb := max start (32 * w) - start, wb := max start (32 * w) - 32 * w,
            nb := min (start + bits) (32 * w + 32) - max start (32 * w) } := by
  unfold valueContribs
  simp only [List.mem_filterMap, List.mem_range]
  constructor
  · rintro ⟨d, hd, he⟩
    split at he
    · cases he
    · have he := Option.some.inj he
      have h1 := congrArg Prod.fst he
      have h2 := congrArg Prod.snd he
      simp only at h1 h2
      subst h1
      exact ⟨by omega, h2.symm⟩
  · rintro ⟨h, rfl⟩
    refine ⟨w - start / 32, by omega, ?_⟩
    have : start / 32 + (w - start / 32) = w := by omega
    rw [this, if_neg (by omega)]

/-- Position and width of each value of the stream, in order. -/
def slots (specs : List Leaf) : List (Nat × Nat) :=
  specs.flatMap fun s => (List.range s.nvalues).map fun i => (s.offset + i * s.bits, s.bits)

theorem mem_allContribs {specs : List Leaf} {voff w : Nat} {c : Contrib} :
    (w, c) ∈ allContribs voff specs ↔
      ∃ (v st bi : Nat), (slots specs)[v]? = some (st, bi) ∧ (w, c) ∈ valueContribs (voff + v) st bi := by
  induction specs generalizing voff with
  | nil => simp [allContribs, slots]
  | cons s ss ih =>
    have hsl : slots (s :: ss) = ((List.range s.nvalues).map fun i => (s.offset + i * s.bits, s.bits)) ++ slots ss := by
      simp [slots]
    simp only [allContribs, List.mem_append, ih, hsl, leafContribs, List.mem_flatMap, List.mem_range]
    constructor
    · rintro (⟨i, hi, hm⟩ | ⟨v, st, bi, hv, hm⟩)
      · refine ⟨i, _, _, ?_, hm⟩
        rw [List.getElem?_append_left (by simpa using hi)]
        simp [hi]
      · refine ⟨s.nvalues + v, st, bi, ?_, ?_⟩
        · rw [List.getElem?_append_right (by simp)]
          simpa using hv
        · rw [← Nat.add_assoc]; exact hm
    · rintro ⟨v, st, bi, hv, hm⟩
      rw [List.getElem?_append] at hv
      split at hv
      · rename_i hl
        simp only [List.length_map, List.length_range] at hl
        simp [hl] at hv
        refine Or.inl ⟨v, hl, ?_⟩
        rw [hv.1, hv.2]; exact hm
      · rename_i hl
        simp only [List.length_map, List.length_range, Nat.not_lt] at hl hv
        refine Or.inr ⟨v - s.nvalues, st, bi, hv, ?_⟩
        rwa [Nat.add_assoc, Nat.add_sub_cancel' hl]

theorem slots_length (specs : List Leaf) : (slots specs).length = (specs.map (·.nvalues)).sum := by
  induction specs with
  | nil => rfl
  | cons s ss ih =>
    simp only [slots, List.flatMap_cons, List.length_append, List.length_map, List.length_range, List.map_cons,
      List.sum_cons] at *
    rw [ih]

/-- Bits of one part. -/
theorem part_testBit {vals : List Nat} {total v st bi w b : Nat} {c : Contrib} (hb : b < 32) (hbi : bi ≤ 32)
    (hc : (w, c) ∈ valueContribs v st bi) :
    (part vals total c).testBit b = true ↔
      (st ≤ 32 * w + b ∧ 32 * w + b < st + bi ∧ (vals.getD v 0).testBit (32 * w + b - st) = true) := by
  rw [mem_valueContribs] at hc
  obtain ⟨h1, rfl⟩ := hc
  unfold part
  simp only [Int.toNat_natCast, ge_iff_le, Int.natCast_nonneg, if_true]
  rw [getD_append_zero, Nat.testBit_mod_two_pow, Nat.testBit_shiftLeft, Nat.testBit_and, Nat.testBit_shiftRight,
    mask_testBit (by omega)]
  rw [Nat.mod_eq_of_lt (by omega : max st (32 * w) - 32 * w < 256), Nat.mod_eq_of_lt (by omega : max st (32 * w) - st < 256)]
  simp only [Bool.and_eq_true, decide_eq_true_eq]
  constructor
  · rintro ⟨_, h2, h3, h4⟩
    have : max st (32 * w) - st + (b - (max st (32 * w) - 32 * w)) = 32 * w + b - st := by omega
    rw [this] at h3
    exact ⟨by omega, by omega, h3⟩
  · rintro ⟨h2, h3, h4⟩
    have : max st (32 * w) - st + (b - (max st (32 * w) - 32 * w)) = 32 * w + b - st := by omega
    rw [this]
    exact ⟨hb, by omega, h4, by omega⟩

theorem part_lt (vals : List Nat) (total : Nat) (c : Contrib) : part vals total c < 2 ^ 32 :=
  Nat.mod_lt _ (by decide)

theorem part_unused (vals : List Nat) (total : Nat) : part vals total { vi := -1, vb := 0, wb := 0, nb := 0 } = 0 := by
  unfold part mask; simp

theorem packWord_lt (vals : List Nat) (total : Nat) (row : List Contrib) : packWord vals total row < 2 ^ 32 :=
  foldl_or_lt _ _ _ _ (by decide) fun c _ => part_lt vals total c

theorem foldl_max_ge (l : List Nat) (a : Nat) : a ≤ l.foldl max a ∧ ∀ x ∈ l, x ≤ l.foldl max a := by
  induction l generalizing a with
  | nil => simp
  | cons y l ih =>
    rw [List.foldl_cons]
    obtain ⟨h1, h2⟩ := ih (max a y)
    refine ⟨by omega, ?_⟩
    intro x hx
    rcases List.mem_cons.1 hx with rfl | hx
    · omega
    · exact h2 x hx

theorem packXla_length (vals : List Nat) (specs : List Leaf) (len : Nat) :
    (packXla vals (buildTables specs len)).length = len := by
  unfold packXla
  split
  · rename_i h; simp [buildTables] at h ⊢; omega
  · split
    · simp [buildTables]
    · simp [buildTables]

/-- A word of the packed stream is the disjunction of the contributions to it (also when there is none). -/
theorem packXla_getD (vals : List Nat) (specs : List Leaf) {len w : Nat} (hw : w < len) :
    (packXla vals (buildTables specs len)).getD w 0 =
      packWord vals (specs.map (·.nvalues)).sum (((allContribs 0 specs).filter fun e => e.1 == w).map fun e => e.2) := by
  have hrow : ∀ mc, packWord vals (specs.map (·.nvalues)).sum
      ((((allContribs 0 specs).filter fun e => e.1 == w).map fun e => e.2) ++
        List.replicate (mc - (((allContribs 0 specs).filter fun e => e.1 == w).map fun e => e.2).length)
          { vi := -1, vb := 0, wb := 0, nb := 0 }) =
      packWord vals (specs.map (·.nvalues)).sum (((allContribs 0 specs).filter fun e => e.1 == w).map fun e => e.2) := by
    intro mc
    unfold packWord
    rw [List.foldl_append]
    generalize List.foldl _ 0 _ = x
    generalize mc - _ = k
    induction k with
    | zero => rfl
    | succ k ih => rw [List.replicate_succ, List.foldl_cons, part_unused, Nat.or_zero]; exact ih
  unfold packXla
  split
  · rename_i h; simp [buildTables] at h; omega
  · split
    · rename_i h
      have : ((allContribs 0 specs).filter fun e => e.1 == w) = [] := by
        have h2 := (foldl_max_ge ((tab len fun w =>
          ((allContribs 0 specs).filter fun e => e.1 == w).map fun e => e.2).map List.length) 0).2
          (((allContribs 0 specs).filter fun e => e.1 == w).map fun e => e.2).length
          (List.mem_map.2 ⟨_, List.mem_map.2 ⟨w, List.mem_range.2 hw, rfl⟩, rfl⟩)
        have h3 : List.foldl max 0 ((tab len fun w =>
          ((allContribs 0 specs).filter fun e => e.1 == w).map fun e => e.2).map List.length) = 0 := h
        rw [h3] at h2
        simpa using h2
      rw [this]
      simp [packWord, List.getD_eq_getElem?_getD, buildTables, hw]
    · rw [List.getD_eq_getElem?_getD, List.getElem?_map]
      simp only [buildTables, List.getElem?_map, tab_getElem?, hw, if_true, Option.map_some, Option.getD_some]
      exact hrow _

theorem packXla_bit (vals : List Nat) (specs : List Leaf) {len w b : Nat} (hw : w < len) (hb : b < 32)
    (hbits : ∀ s ∈ specs, s.bits ≤ 32) :
    ((packXla vals (buildTables specs len)).getD w 0).testBit b = true ↔
      ∃ (v st bi : Nat), (slots specs)[v]? = some (st, bi) ∧ st ≤ 32 * w + b ∧ 32 * w + b < st + bi ∧
        (vals.getD v 0).testBit (32 * w + b - st) = true := by
  have hslot : ∀ (v st bi : Nat), (slots specs)[v]? = some (st, bi) → bi ≤ 32 := by
    intro v st bi h
    have := List.mem_of_getElem? h
    simp only [slots, List.mem_flatMap, List.mem_map, List.mem_range] at this
    obtain ⟨s, hs, i, _, he⟩ := this
    cases he
    exact hbits s hs
  rw [packXla_getD vals specs hw, packWord, foldl_or_testBit, Nat.zero_testBit, Bool.false_or, List.any_eq_true]
  constructor
  · rintro ⟨c, hc, ht⟩
    simp only [List.mem_map, List.mem_filter, beq_iff_eq] at hc
    obtain ⟨⟨w', c'⟩, ⟨hm, hw'⟩, hc'⟩ := hc
    simp only at hw' hc'
    subst hw' hc'
    obtain ⟨v, st, bi, hv, hvc⟩ := mem_allContribs.1 hm
    rw [Nat.zero_add] at hvc
    obtain ⟨h1, h2, h3⟩ := (part_testBit hb (hslot v st bi hv) hvc).1 ht
    exact ⟨v, st, bi, hv, h1, h2, h3⟩
  · rintro ⟨v, st, bi, hv, h1, h2, h3⟩
    obtain ⟨c, hm⟩ : ∃ c, (w, c) ∈ valueContribs v st bi := ⟨_, mem_valueContribs.2 ⟨by omega, rfl⟩⟩
    have ha : (w, c) ∈ allContribs 0 specs := mem_allContribs.2 ⟨v, st, bi, hv, by rwa [Nat.zero_add]⟩
    exact ⟨c, List.mem_map.2 ⟨(w, c), List.mem_filter.2 ⟨ha, by simp⟩, rfl⟩,
      (part_testBit hb (hslot v st bi hv) hm).2 ⟨h1, h2, h3⟩⟩

theorem packXla_wordBit (vals : List Nat) (specs : List Leaf) {len q : Nat} (hq : q < 32 * len)
    (hbits : ∀ s ∈ specs, s.bits ≤ 32) :
    wordBit (packXla vals (buildTables specs len)) q = true ↔
      ∃ (v st bi : Nat), (slots specs)[v]? = some (st, bi) ∧ st ≤ q ∧ q < st + bi ∧ (vals.getD v 0).testBit (q - st) = true := by
  unfold wordBit
  rw [packXla_bit vals specs (by omega) (by omega) hbits]
  have : 32 * (q / 32) + q % 32 = q := by omega
  rw [this]

theorem packXla_lt (vals : List Nat) (specs : List Leaf) (len : Nat) :
    ∀ w ∈ packXla vals (buildTables specs len), w < 2 ^ 32 := by
  unfold packXla
  split
  · simp
  · split
    · intro w hw; rw [List.eq_of_mem_replicate hw]; decide
    · intro w hw
      obtain ⟨r, _, rfl⟩ := List.mem_map.1 hw
      exact packWord_lt _ _ _

/-! ## Decoding -/

theorem decode_testBit {words : List Nat} {bits pos k : Nat} (hlt : ∀ w ∈ words, w < 2 ^ 32) (hbits : bits ≤ 32)
    (hpos : pos + bits ≤ 32 * words.length) :
    (decode words bits pos).testBit k = (decide (k < bits) && wordBit words (pos + k)) := by
  have hidx : pos >>> 5 = pos / 32 := Nat.shiftRight_eq_div_pow pos 5
  have hsh : pos &&& 31 = pos % 32 := Nat.and_two_pow_sub_one_eq_mod pos 5
  unfold decode
  simp only [hidx, hsh, Nat.testBit_and, mask_testBit hbits]
  by_cases hk : k < bits
  rotate_left
  · simp [hk]
  simp only [hk, decide_true, Bool.and_true, Bool.true_and]
  have hget : ∀ i, i ≤ words.length → (words ++ [0]).getD i 0xFFFFFFFF = words.getD i 0 := by
    intro i hi
    rw [List.getD_eq_getElem?_getD, List.getD_eq_getElem?_getD, List.getElem?_append]
    split
    · rename_i h; rw [List.getElem?_eq_getElem h]; rfl
    · have : i = words.length := by omega
      subst this; simp
  have hwlt : ∀ i, words.getD i 0 < 2 ^ 32 := by
    intro i
    rw [List.getD_eq_getElem?_getD]
    cases h : words[i]? with
    | none => decide
    | some x => exact hlt x (List.mem_of_getElem? h)
  rw [hget _ (by omega), hget _ (by omega), Nat.testBit_or, Nat.testBit_shiftRight]
  unfold wordBit
  by_cases h0 : pos % 32 = 0
  · rw [if_pos h0, Nat.zero_testBit, Bool.or_false, h0]
    rw [show (pos + k) / 32 = pos / 32 by omega, show (pos + k) % 32 = k by omega, Nat.zero_add]
  · rw [if_neg h0, Nat.testBit_mod_two_pow, Nat.testBit_shiftLeft]
    by_cases hc : pos % 32 + k < 32
    · rw [show (pos + k) / 32 = pos / 32 by omega, show (pos + k) % 32 = pos % 32 + k by omega]
      rw [show decide (k ≥ 32 - pos % 32) = false from decide_eq_false (by omega)]
      simp
    · rw [testBit_ge (hwlt _) (by omega), show (pos + k) / 32 = pos / 32 + 1 by omega,
        show (pos + k) % 32 = k - (32 - pos % 32) by omega, decide_eq_true (show k < 32 by omega),
        decide_eq_true (show k ≥ 32 - pos % 32 by omega)]
      simp

theorem decode_lt {words : List Nat} {bits pos : Nat} (hbits : bits ≤ 32) : decode words bits pos < 2 ^ bits := by
  unfold decode
  apply Nat.and_lt_two_pow
  unfold mask
  split
  · exact Nat.two_pow_pos _
  · split
    · have : bits = 32 := by omega
      subst this; decide
    · have := Nat.two_pow_pos bits; omega

end Bitpack
