import Verif.AggProps

/-!
# C40, every index: what `unpack_field` returns for indices outside the field

The docstring (aggregate_bitpack/__init__.py:391-405) asks for indices `0..nvalues-1`; nothing checks them.  A record is packed as one string of bits
(`recordBits`).  `unpack_field` reads `bits` bits at the position `bit_offset + bits * i` of that string, whatever `i` is.
-/

namespace Agg

open SortGroup Bitpack

/-! ## Specification -/

/-- The record number `r` of a batch as a string of bits: the fields in declaration order, nested classes in place, the values of a field in row-major order,
each value with its lowest `bits` bits (two's complement), lowest bit first. -/
def recordBits (r : Nat) : Cls → Inst (List Int) → List Bool
  | .leaf _ b sh rest, .leaf _ v irest =>
    ((row (size sh) r v).flatMap fun z => (List.range b).map fun k => decide (z / 2 ^ k % 2 = 1)) ++ recordBits r rest irest
  | .nested _ sub rest, .nested _ isub irest => recordBits r sub isub ++ recordBits r rest irest
  | _, _ => []

/-- The number with the given bits, lowest first. -/
def bitsVal : List Bool → Nat
  | [] => 0
  | b :: bs => b.toNat + 2 * bitsVal bs

/-- What stands at bit `q` of a record: its own bits, then zeros up to the end of the word after the last one, then ones. -/
def bitAt (bs : List Bool) (q : Nat) : Bool := if q < bs.length then bs.getD q false else decide (32 * ((bs.length + 31) / 32 + 1) ≤ q)

/-- Reading `b` bits at position `pos` of a record: all ones before its beginning. -/
def readAt (bs : List Bool) (b : Nat) (pos : Int) : Nat :=
  if pos < 0 then 2 ^ b - 1 else bitsVal ((List.range b).map fun k => bitAt bs (pos.toNat + k))

/-! ## Proof -/

theorem bitsVal_testBit (bs : List Bool) (k : Nat) : (bitsVal bs).testBit k = bs.getD k false := by
  induction bs generalizing k with
  | nil => simp [bitsVal]
  | cons b bs ih =>
    cases k with
    | zero => cases b <;> simp [bitsVal, Nat.testBit_zero, Nat.add_mod]
    | succ k =>
      rw [Nat.testBit_succ, show (bitsVal (b :: bs)) / 2 = bitsVal bs by cases b <;> simp [bitsVal] <;> omega, ih]
      simp

/-- The bits behind `decode`. -/
def extBit (words : List Nat) (q : Nat) : Bool := ((words ++ [0]).getD (q / 32) 0xFFFFFFFF).testBit (q % 32)

theorem decode_bits {words : List Nat} {bits pos k : Nat} (hlt : ∀ w ∈ words, w < 2 ^ 32) (hbits : bits ≤ 32) :
    (decode words bits pos).testBit k = (decide (k < bits) && extBit words (pos + k)) := by
  have hidx : pos >>> 5 = pos / 32 := Nat.shiftRight_eq_div_pow pos 5
  have hsh : pos &&& 31 = pos % 32 := Nat.and_two_pow_sub_one_eq_mod pos 5
  unfold decode
  simp only [hidx, hsh, Nat.testBit_and, mask_testBit hbits]
  by_cases hk : k < bits
  rotate_left
  · simp [hk]
  simp only [hk, decide_true, Bool.and_true, Bool.true_and]
  have hwlt : ∀ i, (words ++ [0]).getD i 0xFFFFFFFF < 2 ^ 32 := by
    intro i
    rw [List.getD_eq_getElem?_getD]
    cases h : (words ++ [0])[i]? with
    | none => decide
    | some x =>
      rcases List.mem_append.1 (List.mem_of_getElem? h) with h1 | h1
      · exact hlt x h1
      · rw [List.mem_singleton.1 h1]; decide
  rw [Nat.testBit_or, Nat.testBit_shiftRight]
  unfold extBit
  by_cases h0 : pos % 32 = 0
  · rw [if_pos h0, Nat.zero_testBit, Bool.or_false, h0]
    rw [show (pos + k) / 32 = pos / 32 by omega, show (pos + k) % 32 = k by omega, Nat.zero_add]
  · rw [if_neg h0, Nat.testBit_mod_two_pow, Nat.testBit_shiftLeft]
    by_cases hc : pos % 32 + k < 32
    · rw [show (pos + k) / 32 = pos / 32 by omega, show (pos + k) % 32 = pos % 32 + k by omega]
      rw [show decide (k ≥ 32 - pos % 32) = false from decide_eq_false (by omega)]
      simp
    · rw [testBit_ge (hwlt _) (by omega), show (pos + k) / 32 = pos / 32 + 1 by omega,
        show (pos + k) % 32 = k - (32 - pos % 32) by omega, decide_eq_true (show k < 32 by omega),
        decide_eq_true (show k ≥ 32 - pos % 32 by omega)]
      simp

/-- The bits of the leaves of row `r`. -/
def flBits (r : Nat) (fl : List (Leaf × List Int)) : List Bool :=
  fl.flatMap fun p => (row p.1.nvalues r p.2).flatMap fun z => (List.range p.1.bits).map fun k => decide (z / 2 ^ k % 2 = 1)

theorem recordBits_eq {flatN : Nat} (r : Nat) : ∀ (c : Cls) (i : Inst (List Int)) (pre : List String) (off : Nat), Conforms flatN c i →
    recordBits r c i = flBits r (flat c i pre off)
  | .nil, .nil, _, _, _ => rfl
  | .leaf n b sh rest, .leaf n' v irest, pre, off, h => by
    rw [recordBits, recordBits_eq r rest irest pre (off + size sh * b) h.2.2]
    rfl
  | .nested n sub rest, .nested n' isub irest, pre, off, h => by
    rw [recordBits, recordBits_eq r sub isub (pre ++ [n]) off h.2.1, recordBits_eq r rest irest pre (walk sub (pre ++ [n]) off).2 h.2.2]
    simp only [flBits, flat, List.flatMap_append]
  | .nil, .leaf _ _ _, _, _, h => h.elim
  | .nil, .nested _ _ _, _, _, h => h.elim
  | .leaf _ _ _ _, .nil, _, _, h => h.elim
  | .leaf _ _ _ _, .nested _ _ _, _, _, h => h.elim
  | .nested _ _ _, .nil, _, _, h => h.elim
  | .nested _ _ _, .leaf _ _ _, _, _, h => h.elim

theorem flatMap_block {α : Type} (f : α → List Bool) (b : Nat) (l : List α) (hf : ∀ x, (f x).length = b) :
    (l.flatMap f).length = l.length * b ∧
    ∀ (i : Nat) (x : α) (k : Nat), l[i]? = some x → k < b → (l.flatMap f)[i * b + k]? = (f x)[k]? := by
  induction l with
  | nil => exact ⟨by simp, fun i x k h _ => by simp at h⟩
  | cons y l ih =>
    refine ⟨by rw [List.flatMap_cons, List.length_append, hf, ih.1, List.length_cons, Nat.succ_mul]; omega, ?_⟩
    intro i x k hi hk
    rw [List.flatMap_cons]
    cases i with
    | zero =>
      rw [List.getElem?_cons_zero] at hi
      cases hi
      rw [Nat.zero_mul, Nat.zero_add, List.getElem?_append_left (by rw [hf]; exact hk)]
    | succ i =>
      rw [List.getElem?_cons_succ] at hi
      rw [List.getElem?_append_right (by rw [hf, Nat.succ_mul]; omega), hf, Nat.succ_mul, show i * b + b + k - b = i * b + k by omega]
      exact ih.2 i x k hi hk

theorem red_testBit (b k : Nat) (z : Int) (hk : k < b) : (red b z).testBit k = decide (z / 2 ^ k % 2 = 1) := by
  unfold red
  have h0 : 0 ≤ z % 2 ^ b := Int.emod_nonneg _ (Int.ne_of_gt (Int.pow_pos (by decide)))
  rw [Nat.testBit_eq_decide_div_mod_eq]
  congr 1
  apply propext
  have e : (((z % 2 ^ b).toNat / 2 ^ k % 2 : Nat) : Int) = z / 2 ^ k % 2 := by
    rw [Int.natCast_emod, Int.natCast_ediv, Int.toNat_of_nonneg h0, Int.natCast_pow]
    obtain ⟨d, rfl⟩ : ∃ d, b = k + 1 + d := ⟨b - k - 1, by omega⟩
    have hdm := Int.mul_ediv_add_emod z (2 ^ (k + 1 + d))
    have e1 : z / 2 ^ k = z % 2 ^ (k + 1 + d) / 2 ^ k + 2 * (2 ^ d * (z / 2 ^ (k + 1 + d))) := by
      conv => lhs; rw [← hdm]
      rw [show (2 : Int) ^ (k + 1 + d) * (z / 2 ^ (k + 1 + d)) + z % 2 ^ (k + 1 + d) =
          z % 2 ^ (k + 1 + d) + 2 * (2 ^ d * (z / 2 ^ (k + 1 + d))) * 2 ^ k by
        rw [Int.pow_add, Int.pow_succ]
        generalize (2 : Int) ^ k = A
        generalize (2 : Int) ^ d = B
        generalize z / (A * 2 * B) = C
        rw [Int.add_comm]
        congr 1
        simp only [Int.mul_assoc, Int.mul_comm, Int.mul_left_comm]]
      rw [Int.add_mul_ediv_right _ _ (Int.ne_of_gt (Int.pow_pos (by decide)))]
    rw [e1]
    show _ / (2:Int) ^ k % 2 = _
    omega
  omega

theorem flBits_spec {flatN r : Nat} (hr : r < flatN) (fl : List (Leaf × List Int)) (hl : ∀ p ∈ fl, p.2.length = flatN * p.1.nvalues) {x y : Nat}
    (h : Contig x (fl.map Prod.fst) y) :
    (flBits r fl).length = y - x ∧ ∀ p ∈ fl, ∀ i < p.1.nvalues, ∀ k < p.1.bits,
      (flBits r fl)[p.1.offset + i * p.1.bits + k - x]? = some ((red p.1.bits ((row p.1.nvalues r p.2).getD i 0)).testBit k) ∧ x ≤ p.1.offset := by
  induction fl generalizing x with
  | nil => cases h; exact ⟨by simp [flBits], fun p hp => by cases hp⟩
  | cons a fl ih =>
    obtain ⟨e, h'⟩ := h
    have hle := h'.le
    obtain ⟨i1, i2⟩ := ih (fun p hp => hl p (by simp [hp])) h'
    have hrl := row_length (hl a (by simp)) hr
    obtain ⟨b1, b2⟩ := flatMap_block (fun z : Int => (List.range a.1.bits).map fun k => decide (z / 2 ^ k % 2 = 1)) a.1.bits (row a.1.nvalues r a.2)
      (fun z => by simp)
    rw [hrl] at b1
    have hsplit : flBits r (a :: fl) = ((row a.1.nvalues r a.2).flatMap fun z => (List.range a.1.bits).map fun k => decide (z / 2 ^ k % 2 = 1)) ++
        flBits r fl := rfl
    refine ⟨by rw [hsplit, List.length_append, b1, i1]; omega, ?_⟩
    intro p hp i hi k hk
    rcases List.mem_cons.1 hp with rfl | hp
    · refine ⟨?_, by omega⟩
      have hlt : i * p.1.bits + k < p.1.nvalues * p.1.bits := by
        have := Nat.mul_le_mul_right p.1.bits (show i + 1 ≤ p.1.nvalues from hi)
        rw [Nat.succ_mul] at this
        omega
      rw [hsplit, e, show x + i * p.1.bits + k - x = i * p.1.bits + k by omega, List.getElem?_append_left (by rw [b1]; exact hlt)]
      have hget : (row p.1.nvalues r p.2)[i]? = some ((row p.1.nvalues r p.2).getD i 0) := by
        rw [List.getD_eq_getElem?_getD, List.getElem?_eq_getElem (by omega), Option.getD_some]
      rw [b2 i _ k hget hk, List.getElem?_map, List.getElem?_range hk, Option.map_some, red_testBit _ _ _ hk]
    · obtain ⟨j1, j2⟩ := i2 p hp i hi k hk
      refine ⟨?_, by omega⟩
      rw [hsplit, List.getElem?_append_right (by rw [b1]; omega), b1,
        show p.1.offset + i * p.1.bits + k - x - a.1.nvalues * a.1.bits = p.1.offset + i * p.1.bits + k - (x + a.1.nvalues * a.1.bits) by omega]
      exact j1

theorem recordBits_length {c : Cls} (hw : c.Wf) {flatN : Nat} {inst : Inst (List Int)} (hc : Conforms flatN c inst) {r : Nat} (hr : r < flatN) :
    (recordBits r c inst).length = c.bitCount := by
  rw [recordBits_eq r c inst [] 0 hc, (flBits_spec hr _ (fun p hp => (flat_conf c inst [] 0 hc hw p hp).1) (flat_contig hc)).1, totalBits, walk_total]
  omega

/-- Value number `i` of a field stands at `offset + i * bits` of the record. -/
theorem recordBits_value {c : Cls} (hw : c.Wf) {flatN : Nat} {inst : Inst (List Int)} (hc : Conforms flatN c inst) {r : Nat} (hr : r < flatN)
    {s : Leaf} {v : List Int} (hs : (s, v) ∈ flat c inst [] 0) {i k : Nat} (hi : i < s.nvalues) (hk : k < s.bits) :
    (recordBits r c inst)[s.offset + i * s.bits + k]? = some ((red s.bits ((row s.nvalues r v).getD i 0)).testBit k) := by
  rw [recordBits_eq r c inst [] 0 hc]
  exact ((flBits_spec hr _ (fun p hp => (flat_conf c inst [] 0 hc hw p hp).1) (flat_contig hc)).2 _ hs i hi k hk).1

theorem rowWords_record {c : Cls} (hw : c.Wf) {flatN : Nat} {inst : Inst (List Int)} (hc : Conforms flatN c inst) {r : Nat} (hr : r < flatN) (q : Nat) :
    extBit (rowWords c inst r) q = bitAt (recordBits r c inst) q := by
  have hlen := recordBits_length hw hc hr
  have htot : totalBits c = c.bitCount := by rw [totalBits, walk_total]; omega
  obtain ⟨f1, f2, _⟩ := layout_facts (totalBits c)
  have hwl := rowWords_length c inst r
  have hin : q / 32 < (rowWords c inst r).length → extBit (rowWords c inst r) q = wordBit (rowWords c inst r) q := by
    intro h
    unfold extBit wordBit
    congr 1
    rw [List.getD_eq_getElem?_getD, List.getElem?_append_left h, List.getD_eq_getElem?_getD, List.getElem?_eq_getElem h]; rfl
  unfold bitAt
  rw [hlen]
  by_cases hq : q < c.bitCount
  · rw [if_pos hq, hin (by omega)]
    have hcon := flat_contig (reduced_conf c inst hc)
    obtain ⟨x, hx, h1, h2⟩ := cells_cover (r := r) hcon (fun p hp => (flat_conf c _ [] 0 (reduced_conf c inst hc) hw p hp).2.1) (Nat.zero_le q) (by omega)
    obtain ⟨p, hp, i, hi, rfl⟩ := mem_cells.1 hx
    rw [flat_reduced c inst [] 0 hc] at hp
    obtain ⟨⟨s, v⟩, hsv, rfl⟩ := List.mem_map.1 hp
    simp only at h1 h2 hi
    have hv := recordBits_value hw hc hr hsv hi (k := q - (s.offset + i * s.bits)) (by omega)
    rw [show s.offset + i * s.bits + (q - (s.offset + i * s.bits)) = q by omega] at hv
    rw [List.getD_eq_getElem?_getD, hv, Option.getD_some, Bool.eq_iff_iff, rowWords_bit hw hc hr (by omega)]
    simp only [row_map, getD_map_red] at hx
    constructor
    · rintro ⟨y, hy, g1, g2, g3⟩
      have := cells_unique (q := q) hcon y hy _ hx g1 g2 h1 h2
      subst this
      exact g3
    · intro h
      exact ⟨_, hx, h1, h2, h⟩
  · rw [if_neg hq]
    by_cases hq2 : q / 32 < (rowWords c inst r).length
    · rw [hin hq2, rowWords_high hw hc hr q (by omega)]
      exact (decide_eq_false (by omega)).symm
    · unfold extBit
      rw [List.getD_eq_getElem?_getD, List.getElem?_append_right (by omega)]
      by_cases hq3 : q / 32 = (rowWords c inst r).length
      · rw [hq3, Nat.sub_self]
        simp only [List.getElem?_cons_zero, Option.getD_some, Nat.zero_testBit]
        exact (decide_eq_false (by omega)).symm
      · rw [List.getElem?_eq_none (by simp; omega), Option.getD_none]
        rw [show (0xFFFFFFFF : Nat) = 2 ^ 32 - 1 from rfl, Nat.testBit_two_pow_sub_one, decide_eq_true (by omega : q % 32 < 32)]
        exact (decide_eq_true (by omega)).symm

theorem decode_readAt {c : Cls} (hw : c.Wf) {flatN : Nat} {inst : Inst (List Int)} (hc : Conforms flatN c inst) {r : Nat} (hr : r < flatN)
    (hsz : c.bitCount ≤ 2 ^ 30) {s : Leaf} (hb : s.bits ≤ 32) {i : Int} (hlo : -2 ^ 31 ≤ (s.offset : Int) + s.bits * i)
    (hhi : (s.offset : Int) + s.bits * i < 2 ^ 31) :
    decode (rowWords c inst r) s.bits ((s.offset + toU32 i * s.bits) % 2 ^ 32) = readAt (recordBits r c inst) s.bits (s.offset + s.bits * i) := by
  have hmod : (((s.offset + toU32 i * s.bits) % 2 ^ 32 : Nat) : Int) = ((s.offset : Int) + s.bits * i) % 2 ^ 32 := by
    have hu : ((toU32 i : Nat) : Int) = i % 2 ^ 32 := by unfold toU32; omega
    rw [Int.natCast_emod, Int.natCast_add, Int.natCast_mul, hu, Int.natCast_pow, show ((2 : Nat) : Int) = 2 from rfl]
    rw [Int.add_emod, Int.mul_emod, Int.emod_emod, ← Int.mul_emod, ← Int.add_emod, Int.mul_comm]
  have hlt := rowWords_lt c inst r
  generalize hp : (s.offset + toU32 i * s.bits) % 2 ^ 32 = pos at hmod ⊢
  generalize hP : (s.offset : Int) + s.bits * i = P at hlo hhi hmod ⊢
  apply Nat.eq_of_testBit_eq
  intro k
  rw [decode_bits hlt hb, rowWords_record hw hc hr]
  unfold readAt
  have hlen := recordBits_length hw hc hr
  by_cases hneg : P < 0
  · rw [if_pos hneg, Nat.testBit_two_pow_sub_one]
    by_cases hk : k < s.bits
    · rw [decide_eq_true hk, Bool.true_and]
      unfold bitAt
      rw [if_neg (by omega), decide_eq_true (by omega)]
    · rw [decide_eq_false hk, Bool.false_and]
  · rw [if_neg hneg, bitsVal_testBit, List.getD_eq_getElem?_getD, List.getElem?_map]
    by_cases hk : k < s.bits
    · rw [decide_eq_true hk, Bool.true_and, List.getElem?_range hk, Option.map_some, Option.getD_some, show pos = P.toNat by omega]
    · rw [decide_eq_false hk, Bool.false_and, List.getElem?_eq_none (by simp; omega)]
      rfl

theorem specs_bits {c : Cls} (hw : c.Wf) {flatN : Nat} {inst : Inst (List Int)} (hc : Conforms flatN c inst) {s : Leaf} (hs : s ∈ specs c) :
    1 ≤ s.bits ∧ s.bits ≤ 32 := by
  rw [specs, ← flat_fst c inst [] 0 hc] at hs
  obtain ⟨⟨s1, v⟩, hsv, rfl⟩ := List.mem_map.1 hs
  obtain ⟨_, h1, h2, _⟩ := flat_conf c inst [] 0 hc hw _ hsv
  exact ⟨h1, h2⟩

/-- **C40, every index.**  For every class of at most 2^30 bits per record, every batch, field and argument `indices` (list, slice or nothing): for each record
and each selected index `i`, negative or beyond the field, `unpack_field` returns the number read at bit `bit_offset + bits * i` of the record: of the fields before and
after if it falls on them, 0 in the padding, the largest number before the record and far behind it. -/
theorem unpack_field_exact {kernel : List Nat → Tables → List Nat} (hk : IsPackKernel kernel) {c : Cls} (hw : c.Wf)
    (hsz : c.bitCount ≤ 2 ^ 30) {flatN : Nat} {inst : Inst (List Int)} (hc : Conforms flatN c inst) {p : List PackedRow}
    (hp : packed kernel c flatN inst = some p) {s : Leaf} (hs : s ∈ specs c) {idx : Indices}
    (hidx : ∀ i ∈ normalize s.nvalues idx, -2 ^ 31 ≤ (s.offset : Int) + s.bits * i ∧ (s.offset : Int) + s.bits * i < 2 ^ 31) :
    unpackField c p s.path idx = some ((List.range flatN).map fun r =>
      (normalize s.nvalues idx).map fun i => readAt (recordBits r c inst) s.bits (s.offset + s.bits * i)) := by
  rw [packed_eq hk hw hc] at hp
  cases hp
  unfold unpackField
  simp only
  rw [find_unique (ss := specs c) (walk_unique c [] 0 hw) hs, Option.map_some, List.map_map]
  congr 1
  apply List.map_congr_left
  intro r hr
  have hr := List.mem_range.1 hr
  show decodeField (joinRow _ _ (splitRow _ _ _)) s _ = _
  rw [join_rowWords hw hc hr]
  unfold decodeField
  apply List.map_congr_left
  intro i hi
  exact decode_readAt hw hc hr hsz (specs_bits hw hc hs).2 (hidx i hi).1 (hidx i hi).2

/-- Reading at the place of a value gives the value. -/
theorem readAt_value {c : Cls} (hw : c.Wf) {flatN : Nat} {inst : Inst (List Int)} (hc : Conforms flatN c inst) {r : Nat} (hr : r < flatN)
    {s : Leaf} {v : List Int} (hs : (s, v) ∈ flat c inst [] 0) {i : Nat} (hi : i < s.nvalues) :
    readAt (recordBits r c inst) s.bits (s.offset + s.bits * i) = red s.bits ((row s.nvalues r v).getD i 0) := by
  unfold readAt
  rw [if_neg (by have := Int.mul_nonneg (Int.natCast_nonneg s.bits) (Int.natCast_nonneg i); omega)]
  apply Nat.eq_of_testBit_eq
  intro k
  rw [bitsVal_testBit, List.getD_eq_getElem?_getD, List.getElem?_map]
  by_cases hk : k < s.bits
  · have hv := recordBits_value hw hc hr hs hi hk
    obtain ⟨hlt, _⟩ := List.getElem?_eq_some_iff.1 hv
    have hpos : ((s.offset : Int) + s.bits * i).toNat = s.offset + i * s.bits := by
      rw [← Int.natCast_mul, ← Int.natCast_add, Int.toNat_natCast, Nat.mul_comm]
    rw [List.getElem?_range hk, Option.map_some, Option.getD_some, hpos]
    unfold bitAt
    rw [if_pos hlt, List.getD_eq_getElem?_getD, hv, Option.getD_some]
  · rw [List.getElem?_eq_none (by simp; omega), testBit_ge (red_lt _ _) (by omega)]
    rfl

/-- **C40 is false for negative indices on the first field of every class**: they yield the largest number of the field's width in every record, whatever the field
holds. -/
theorem unpack_field_first_negative {kernel : List Nat → Tables → List Nat} (hk : IsPackKernel kernel) {c : Cls} (hw : c.Wf)
    (hsz : c.bitCount ≤ 2 ^ 30) {flatN : Nat} {inst : Inst (List Int)} (hc : Conforms flatN c inst) {p : List PackedRow}
    (hp : packed kernel c flatN inst = some p) {s : Leaf} (hs : s ∈ specs c) (h0 : s.offset = 0) {n : Nat} (hn : 0 < n) (hn2 : n < 2 ^ 26) :
    unpackField c p s.path (.list [-n]) = some (List.replicate flatN [2 ^ s.bits - 1]) := by
  obtain ⟨b1, b2⟩ := specs_bits hw hc hs
  have hm : (s.bits : Int) * (-n) = -((s.bits * n : Nat) : Int) := by rw [Int.mul_neg, ← Int.natCast_mul]
  have hle : s.bits * n ≤ 32 * n := Nat.mul_le_mul_right n b2
  have hge : 1 * n ≤ s.bits * n := Nat.mul_le_mul_right n b1
  rw [unpack_field_exact hk hw hsz hc hp hs (by
    intro i hi
    have := List.mem_singleton.1 hi
    subst this
    rw [hm]
    omega)]
  congr 1
  simp only [normalize, List.map_cons, List.map_nil]
  rw [List.eq_replicate_iff]
  refine ⟨by simp, ?_⟩
  intro l hl
  obtain ⟨r, _, rfl⟩ := List.mem_map.1 hl
  unfold readAt
  rw [if_pos (by rw [hm]; omega)]

/-- **C40 is false past the end**: the index `nvalues` (and, one by one, those after it) yields the values of the next field, if it has the same width. -/
theorem unpack_field_reads_next {kernel : List Nat → Tables → List Nat} (hk : IsPackKernel kernel) {c : Cls} (hw : c.Wf)
    (hsz : c.bitCount ≤ 2 ^ 30) {flatN : Nat} {inst : Inst (List Int)} (hc : Conforms flatN c inst) {p : List PackedRow}
    (hp : packed kernel c flatN inst = some p) {s t : Leaf} (hs : s ∈ specs c) (ht : t ∈ specs c) (hb : t.bits = s.bits)
    (hnext : t.offset = s.offset + s.nvalues * s.bits) :
    unpackField c p s.path (.slice (some s.nvalues) (some ((s.nvalues + t.nvalues : Nat) : Int)) none) = unpackField c p t.path .all := by
  have htot : ∀ x ∈ specs c, x.offset + x.nvalues * x.bits ≤ c.bitCount := by
    have : ∀ (ss : List Leaf) (x y : Nat), Contig x ss y → ∀ s ∈ ss, s.offset + s.nvalues * s.bits ≤ y := by
      intro ss
      induction ss with
      | nil => intro x y _ s hs; cases hs
      | cons a ss ih =>
        intro x y h s hs
        rcases List.mem_cons.1 hs with rfl | hs
        · have := h.2.le; have := h.1; omega
        · exact ih _ _ h.2 s hs
    intro x hx
    have h := this (specs c) 0 _ (walk_contig c [] 0) x hx
    rw [walk_total] at h
    omega
  have h1 := htot t ht
  have hpos : ∀ i : Nat, i < t.nvalues → i * t.bits < t.nvalues * t.bits := fun i hi =>
    Nat.mul_lt_mul_of_pos_right hi (specs_bits hw hc ht).1
  have hn1 : normalize s.nvalues (.slice (some s.nvalues) (some ((s.nvalues + t.nvalues : Nat) : Int)) none) =
      (List.range t.nvalues).map fun k : Nat => (s.nvalues : Int) + k := by
    simp only [normalize, arange, Option.getD_some, Option.getD_none, Int.mul_one]
    rw [if_pos (by decide)]
    congr 2
    omega
  have hn2 : normalize t.nvalues .all = (List.range t.nvalues).map fun k : Nat => (k : Int) := rfl
  have hcast : ∀ i : Nat, (s.offset : Int) + s.bits * ((s.nvalues : Int) + i) = (t.offset : Int) + t.bits * (i : Int) := by
    intro i
    rw [hb, hnext, Int.natCast_add, Int.natCast_mul, Int.mul_add, Int.mul_comm (s.nvalues : Int)]
    omega
  have hin : ∀ i : Nat, i < t.nvalues → -2 ^ 31 ≤ (t.offset : Int) + t.bits * (i : Int) ∧ (t.offset : Int) + t.bits * (i : Int) < 2 ^ 31 := by
    intro i hi
    have := hpos i hi
    rw [← Int.natCast_mul, Nat.mul_comm]
    omega
  rw [unpack_field_exact hk hw hsz hc hp hs, unpack_field_exact hk hw hsz hc hp ht]
  · rw [hn1, hn2]
    congr 1
    apply List.map_congr_left
    intro r _
    rw [List.map_map, List.map_map]
    apply List.map_congr_left
    intro i _
    simp only [Function.comp_apply]
    rw [hcast, hb]
  · rw [hn2]
    intro i hi
    obtain ⟨k, hk, rfl⟩ := List.mem_map.1 hi
    exact hin k (List.mem_range.1 hk)
  · rw [hn1]
    intro i hi
    obtain ⟨k, hk, rfl⟩ := List.mem_map.1 hi
    rw [hcast]
    exact hin k (List.mem_range.1 hk)

/-- **C40 is false for slices counted from the end**: `slice(-n, None)` returns `nvalues + n` numbers for each record, not the last `n`. -/
theorem unpack_field_tail_slice_length {c : Cls} {p : List PackedRow} {s : Leaf} {n : Nat} {rows : List (List Nat)} (hw : c.Wf) (hs : s ∈ specs c)
    (h : unpackField c p s.path (.slice (some (-n)) none none) = some rows) :
    rows.length = p.length ∧ ∀ l ∈ rows, l.length = s.nvalues + n := by
  unfold unpackField at h
  simp only at h
  rw [find_unique (ss := specs c) (walk_unique c [] 0 hw) hs, Option.map_some] at h
  cases h
  refine ⟨by simp, ?_⟩
  intro l hl
  obtain ⟨r, _, rfl⟩ := List.mem_map.1 hl
  unfold decodeField
  rw [List.length_map]
  simp only [normalize, arange, Option.getD_some, Option.getD_none]
  rw [if_pos (by decide), List.length_map, List.length_range]
  omega

/-- A slice with a negative step, a start of at most the last index and a stop of at least -1 selects the indices from the start down to just above the stop, in that
order, as Python does (Python only reads a stop of -1 as the last index). -/
theorem slice_down {n : Nat} {a b s : Int} (ha : a < n) (hb : -1 ≤ b) (hs : s < 0) :
    (∀ i, i ∈ normalize n (.slice (some a) (some b) (some s)) ↔ b < i ∧ i ≤ a ∧ (a - i) % (-s) = 0) ∧
      (∀ i ∈ normalize n (.slice (some a) (some b) (some s)), 0 ≤ i ∧ i < n) ∧
      (normalize n (.slice (some a) (some b) (some s))).Pairwise (fun i j => j < i) := by
  have hmem : ∀ i, i ∈ normalize n (.slice (some a) (some b) (some s)) ↔ b < i ∧ i ≤ a ∧ (a - i) % (-s) = 0 := by
    intro i
    simp only [normalize, Option.getD_some, arange, if_neg (show ¬ s > 0 by omega), List.mem_map, List.mem_range]
    have hs' : 0 < -s := by omega
    generalize ht : -s = t at *
    have es : s = -t := by omega
    subst es
    constructor
    · rintro ⟨k, hk, rfl⟩
      have hk2 : (k : Int) < (a - b + t - 1) / t := by omega
      have h1 := Int.mul_ediv_self_le (x := a - b + t - 1) (k := t) (by omega)
      have h2 : t * ((k : Int) + 1) ≤ t * ((a - b + t - 1) / t) := Int.mul_le_mul_of_nonneg_left (by omega) (by omega)
      have h3 : t * ((k : Int) + 1) = k * t + t := by rw [Int.mul_add, Int.mul_one, Int.mul_comm]
      have h4 : (0 : Int) ≤ k * t := Int.mul_nonneg (by omega) (by omega)
      have h5 : (k : Int) * -t = -(k * t) := Int.mul_neg _ _
      refine ⟨by omega, by omega, ?_⟩
      rw [show a - (a + (k : Int) * -t) = k * t by omega]
      exact Int.mul_emod_left _ _
    · rintro ⟨h1, h2, h3⟩
      have h4 := Int.mul_ediv_add_emod (a - i) t
      rw [h3, Int.add_zero] at h4
      have h5 : 0 ≤ (a - i) / t := Int.ediv_nonneg (by omega) (by omega)
      refine ⟨((a - i) / t).toNat, ?_, ?_⟩
      · have : (a - i) / t + 1 ≤ (a - b + t - 1) / t := by
          rw [Int.le_ediv_iff_mul_le hs', Int.add_mul, Int.mul_comm, h4]; omega
        omega
      · rw [Int.toNat_of_nonneg h5, Int.mul_neg, Int.mul_comm, h4]; omega
  refine ⟨hmem, fun i hi => ?_, ?_⟩
  · have := (hmem i).1 hi
    omega
  · simp only [normalize, Option.getD_some, arange]
    rw [List.pairwise_map]
    refine List.pairwise_lt_range.imp ?_
    intro i j hij
    have : ((i : Int) + 1) * -s ≤ (j : Int) * -s := Int.mul_le_mul_of_nonneg_right (by omega) (by omega)
    simp only [Int.add_mul, Int.mul_neg, Int.one_mul] at this
    omega

/-- Hence `unpack_field(…, indices=slice(a, b, s))` with a negative step and ends inside the field returns the numbers stored at these indices, in decreasing order of index;
`unpack_field_exact` covers the rest.  **C40 is false for reversing slices**: with a negative step and no ends, `slice(None, None, -1)`, every record yields an empty list
instead of the reversed field. -/
theorem unpack_field_reversed_empty {c : Cls} {p : List PackedRow} {s : Leaf} {st : Int} (hw : c.Wf) (hs : s ∈ specs c) (hst : st < 0) :
    unpackField c p s.path (.slice none none (some st)) = some (p.map fun _ => []) := by
  unfold unpackField
  simp only
  rw [find_unique (ss := specs c) (walk_unique c [] 0 hw) hs, Option.map_some]
  congr 1
  apply List.map_congr_left
  intro r _
  unfold decodeField
  have : normalize s.nvalues (.slice none none (some st)) = [] := by
    simp only [normalize, arange, Option.getD_some, Option.getD_none]
    rw [if_neg (by omega)]
    have : (0 - (s.nvalues : Int) + -st - 1) / -st ≤ 0 := by
      have : (0 - (s.nvalues : Int) + -st - 1) / -st < 1 := Int.ediv_lt_of_lt_mul (by omega) (by omega)
      omega
    rw [show ((0 - (s.nvalues : Int) + -st - 1) / -st).toNat = 0 by omega]
    rfl
  rw [this, List.map_nil]

example : normalize 6 (.slice (some 5) (some 0) (some (-2))) = [5, 3, 1] ∧ normalize 6 (.slice (some 4) (some (-1)) (some (-1))) = [4, 3, 2, 1, 0] ∧
    normalize 6 (.slice (some 5) (some 1) (some (-2))) = [5, 3] := by decide

/-- Two records of a class with two 3-bit fields and a byte between words: index -1 of the first field is 7 in both, index 3 reads the next field, `slice(-1, None)` has four
entries; 40 is far behind the record. -/
def outCls : Cls := .leaf "a" 3 [3] (.leaf "b" 3 [2] (.leaf "f" 8 [] .nil))
def outInst : Inst (List Int) := .leaf "a" [1, 2, 3, 4, 5, 6] (.leaf "b" [0, 7, 5, 2] (.leaf "f" [200, -1] .nil))

example : outCls.Wf ∧ outCls.bitCount = 23 ∧ Conforms 2 outCls outInst := by
  simp [outCls, outInst, Cls.Wf, Cls.names, Cls.bitCount, Conforms, size]

example : (packed packXla outCls 2 outInst).bind (fun p => unpackField outCls p ["a"] (.list [-1, 0, 2, 3, 4, 40])) =
      some [[7, 1, 3, 0, 7, 7], [7, 4, 6, 5, 2, 7]] ∧
    (packed packXla outCls 2 outInst).bind (fun p => unpackField outCls p ["b"] (.list [-1])) = some [[3], [6]] ∧
    (packed packXla outCls 2 outInst).bind (fun p => unpackField outCls p ["a"] (.slice (some (-1)) none none)) = some [[7, 1, 2, 3], [7, 4, 5, 6]] ∧
    readAt (recordBits 1 outCls outInst) 3 (9 + 3 * (-1)) = 6 ∧ readAt (recordBits 1 outCls outInst) 3 (0 + 3 * 40) = 7 ∧
    readAt (recordBits 1 outCls outInst) 3 (0 + 3 * 10) = 0 := by decide +kernel

end Agg
