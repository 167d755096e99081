import Verif.AggLemmas
import Verif.BitpackKernels

/-!
# C37–C40: aggregate bit packing
-/

namespace Agg

open SortGroup Bitpack

/-- A word kernel computing the same words as `pack_words_all_xla`. -/
def IsPackKernel (kernel : List Nat → Tables → List Nat) : Prop := ∀ vals t, kernel vals t = packXla vals t

/-- Both kernels of the code qualify: XLA trivially, Pallas for every tile size, garbage in the output buffer and program
order (C41). -/
theorem xla_isPackKernel : IsPackKernel packXla := fun _ _ => rfl

theorem pallas_isPackKernel {tile : Nat} (ht : 0 < tile) (init order : Tables → List Nat)
    (hi : ∀ t, (init t).length = t.rows.length) (ho : ∀ t, ∀ b < packGrid t tile, b ∈ order t) :
    IsPackKernel fun vals t => packPallas vals t tile (init t) (order t) :=
  fun vals t => pack_kernels_agree vals t ht (init t) (hi t) (order t) (ho t)

/-- The words of row `r`. -/
def rowWords (c : Cls) (inst : Inst (List Int)) (r : Nat) : List Nat :=
  packXla (stream ((flat c inst [] 0).map Prod.fst) ((flat c inst [] 0).map Prod.snd) r)
    (buildTables ((flat c inst [] 0).map Prod.fst) (layout (totalBits c)).1)

theorem packed_eq {kernel : List Nat → Tables → List Nat} (hk : IsPackKernel kernel) {c : Cls} (hw : c.Wf) {flatN : Nat}
    {inst : Inst (List Int)} (hc : Conforms flatN c inst) :
    packed kernel c flatN inst = some ((List.range flatN).map fun r =>
      splitRow (layout (totalBits c)).1 (layout (totalBits c)).2.2 (rowWords c inst r)) := by
  have hfst : (flat c inst [] 0).map Prod.fst = specs c := flat_fst c inst [] 0 hc
  have hg : gather inst (specs c) = some ((flat c inst [] 0).map Prod.snd) := by
    rw [← hfst]
    apply gather_eq
    intro p hp
    obtain ⟨_, _, _, q, h1, _, h2⟩ := flat_conf c inst [] 0 hc hw p hp
    rw [List.nil_append] at h1
    rw [h1, h2]
  unfold packed
  simp only [hg, Option.map_some]
  congr 1
  apply List.map_congr_left
  intro r hr
  congr 1
  unfold rowWords
  rw [hfst]
  split
  · rename_i h0
    -- no values at all: no words
    have ht : totalBits c = 0 := by
      have hcon := walk_contig c [] 0
      have : ∀ (ss : List Leaf) (x y : Nat), Contig x ss y → (ss.map (·.nvalues)).sum = 0 → y = x := by
        intro ss
        induction ss with
        | nil => intro x y h _; exact h
        | cons s ss ih =>
          intro x y h hs
          simp only [List.map_cons, List.sum_cons] at hs
          have := ih _ _ h.2 (by omega)
          rw [this, show s.nvalues = 0 by omega]; simp
      exact this _ _ _ hcon h0
    rw [ht]
    have : ∀ l : List Nat, l.length = 0 → List.replicate (layout 0).1 0 = l := by
      intro l hl
      rw [List.length_eq_zero_iff.1 hl]; rfl
    exact this _ (packXla_length _ _ _)
  · exact hk _ _

theorem rowWords_length (c : Cls) (inst : Inst (List Int)) (r : Nat) :
    (rowWords c inst r).length = (layout (totalBits c)).1 := packXla_length _ _ _

theorem rowWords_lt (c : Cls) (inst : Inst (List Int)) (r : Nat) : ∀ w ∈ rowWords c inst r, w < 2 ^ 32 := packXla_lt _ _ _

theorem flat_contig {α : Type} {c : Cls} {flatN : Nat} {inst : Inst (List α)} (hc : Conforms flatN c inst) :
    Contig 0 ((flat c inst [] 0).map Prod.fst) (totalBits c) := by
  rw [flat_fst c inst [] 0 hc]; exact walk_contig c [] 0

theorem rowWords_bit {c : Cls} (hw : c.Wf) {flatN : Nat} {inst : Inst (List Int)} (hc : Conforms flatN c inst) {r q : Nat}
    (hr : r < flatN) (hq : q < 32 * (layout (totalBits c)).1) :
    wordBit (rowWords c inst r) q = true ↔
      ∃ x ∈ cells (flat c (reduced c inst) [] 0) r, x.1 ≤ q ∧ q < x.1 + x.2.1 ∧ x.2.2.testBit (q - x.1) = true := by
  rw [flat_reduced c inst [] 0 hc]
  exact words_bit hr _ (fun p hp => (flat_conf c inst [] 0 hc hw p hp).1)
    (fun p hp => (flat_conf c inst [] 0 hc hw p hp).2.2.1) hq

theorem rowWords_high {c : Cls} (hw : c.Wf) {flatN : Nat} {inst : Inst (List Int)} (hc : Conforms flatN c inst) {r : Nat}
    (hr : r < flatN) (q : Nat) (hq : totalBits c ≤ q) : wordBit (rowWords c inst r) q = false := by
  by_cases hq2 : q < 32 * (layout (totalBits c)).1
  · cases hb : wordBit (rowWords c inst r) q with
    | false => rfl
    | true =>
      obtain ⟨x, hx, h1, h2, _⟩ := (rowWords_bit hw hc hr hq2).1 hb
      have := cells_range (flat_contig (reduced_conf c inst hc)) x hx
      omega
  · unfold wordBit
    rw [getD_ge, Nat.zero_testBit]
    rw [rowWords_length]; omega

theorem join_rowWords {c : Cls} (hw : c.Wf) {flatN : Nat} {inst : Inst (List Int)} (hc : Conforms flatN c inst) {r : Nat}
    (hr : r < flatN) :
    joinRow (layout (totalBits c)).2.1 (layout (totalBits c)).2.2
      (splitRow (layout (totalBits c)).1 (layout (totalBits c)).2.2 (rowWords c inst r)) = rowWords c inst r :=
  join_split (rowWords_length c inst r) (rowWords_lt c inst r) fun q hq => rowWords_high hw hc hr q hq

/-- Decoding one value of one field of one row. -/
theorem decode_value {c : Cls} (hw : c.Wf) {flatN : Nat} {inst : Inst (List Int)} (hc : Conforms flatN c inst)
    (hsz : c.bitCount ≤ 2 ^ 32) {r : Nat} (hr : r < flatN) {s : Leaf} {v : List Int} (hs : (s, v) ∈ flat c inst [] 0)
    {i : Nat} (hi : i < s.nvalues) :
    decode (rowWords c inst r) s.bits ((s.offset + toU32 (Int.ofNat i) * s.bits) % 2 ^ 32) =
      (row s.nvalues r (v.map (red s.bits))).getD i 0 := by
  obtain ⟨hlen, hb1, hb32, _⟩ := flat_conf c inst [] 0 hc hw _ hs
  simp only at hlen hb1 hb32
  have hcell : (s.offset + i * s.bits, s.bits, (row s.nvalues r (v.map (red s.bits))).getD i 0) ∈
      cells (flat c (reduced c inst) [] 0) r := by
    rw [mem_cells, flat_reduced c inst [] 0 hc]
    exact ⟨(s, v.map (red s.bits)), List.mem_map.2 ⟨(s, v), hs, rfl⟩, i, hi, rfl⟩
  have hcon := flat_contig (reduced_conf c inst hc)
  have hrange := cells_range hcon _ hcell
  simp only at hrange
  have htot : totalBits c = c.bitCount := by rw [totalBits, walk_total]; omega
  obtain ⟨f1, _⟩ := layout_facts (totalBits c)
  have hi32 : i < 2 ^ 32 := by
    have := Nat.mul_le_mul_left i hb1
    omega
  have hu : toU32 (Int.ofNat i) = i := by
    show ((i : Int) % 2 ^ 32).toNat = i
    omega
  have hmod : (s.offset + toU32 (Int.ofNat i) * s.bits) % 2 ^ 32 = s.offset + i * s.bits := by
    rw [hu]; exact Nat.mod_eq_of_lt (by omega)
  rw [hmod]
  apply Nat.eq_of_testBit_eq
  intro k
  rw [decode_testBit (rowWords_lt c inst r) hb32 (by rw [rowWords_length]; omega)]
  by_cases hk : k < s.bits
  · rw [decide_eq_true hk, Bool.true_and, Bool.eq_iff_iff, rowWords_bit hw hc hr (by omega)]
    constructor
    · rintro ⟨x, hx, h1, h2, h3⟩
      have := cells_unique (q := s.offset + i * s.bits + k) hcon x hx _ hcell h1 h2 (by simp only; omega) (by simp only; omega)
      subst this
      simp only at h3
      rw [show s.offset + i * s.bits + k - (s.offset + i * s.bits) = k by omega] at h3
      exact h3
    · intro h
      refine ⟨_, hcell, by simp only; omega, by simp only; omega, ?_⟩
      simp only
      rw [show s.offset + i * s.bits + k - (s.offset + i * s.bits) = k by omega]
      exact h
  · rw [decide_eq_false hk, Bool.false_and, row_map, getD_map_red, testBit_ge (red_lt _ _) (by omega)]

theorem range_rows {α : Type} {n flatN : Nat} {v : List α} (hv : v.length = flatN * n) :
    (List.range flatN).flatMap (fun r => row n r v) = v := by
  rcases Nat.eq_zero_or_pos n with h0 | hn
  · subst h0
    have : v = [] := List.length_eq_zero_iff.1 (by rw [hv]; simp)
    subst this
    simp [row]
  · have h : rows n v = (List.range flatN).map fun r => row n r v := by
      unfold rows row
      rw [hv, Nat.mul_div_cancel _ hn]
    rw [List.flatMap_def, ← h]
    exact rows_flatten n hn v (by rw [hv]; exact Nat.mul_mod_left _ _)

theorem decodeField_all {c : Cls} (hw : c.Wf) {flatN : Nat} {inst : Inst (List Int)} (hc : Conforms flatN c inst)
    (hsz : c.bitCount ≤ 2 ^ 32) {r : Nat} (hr : r < flatN) {s : Leaf} {v : List Int} (hs : (s, v) ∈ flat c inst [] 0) :
    decodeField (rowWords c inst r) s (allIdx s.nvalues) = row s.nvalues r (v.map (red s.bits)) := by
  obtain ⟨hlen, _⟩ := flat_conf c inst [] 0 hc hw _ hs
  have hrl : (row s.nvalues r (v.map (red s.bits))).length = s.nvalues :=
    row_length (flatN := flatN) (by rw [List.length_map]; exact hlen) hr
  unfold decodeField allIdx
  rw [List.map_map]
  apply List.ext_getElem?
  intro i
  by_cases hi : i < s.nvalues
  · rw [List.getElem?_map, List.getElem?_range hi, Option.map_some]
    have := decode_value hw hc hsz hr hs hi
    rw [List.getD_eq_getElem?_getD, List.getElem?_eq_getElem (by omega), Option.getD_some] at this
    rw [List.getElem?_eq_getElem (by omega)]
    exact congrArg some this
  · rw [List.getElem?_eq_none (by simp; omega), List.getElem?_eq_none (by omega)]

/-- **C37.**  For every class (any nesting, any widths 1..32, any alignment to 32-bit words), every batch size and every
contents: packing all fields into words and tail and unpacking gives back the instance with every value reduced modulo
`2 ^ bits` — whichever kernel computes the words. -/
theorem aggregate_roundtrip {kernel : List Nat → Tables → List Nat} (hk : IsPackKernel kernel) {c : Cls} (hw : c.Wf)
    (hsz : c.bitCount ≤ 2 ^ 32) {flatN : Nat} {inst : Inst (List Int)} (hc : Conforms flatN c inst) :
    ∃ p, packed kernel c flatN inst = some p ∧ unpacked c p = some (reduced c inst) := by
  refine ⟨_, packed_eq hk hw hc, ?_⟩
  unfold unpacked
  refine buildView_eq (flatN := flatN) _ c (reduced c inst) [] 0 (reduced_conf c inst hc) ?_
  intro p hp
  rw [flat_reduced c inst [] 0 hc] at hp
  obtain ⟨⟨s, v⟩, hs, rfl⟩ := List.mem_map.1 hp
  simp only
  have hmem : s ∈ specs c := by
    rw [specs, ← flat_fst c inst [] 0 hc]; exact List.mem_map.2 ⟨(s, v), hs, rfl⟩
  rw [lookup_unique (ss := specs c) (walk_unique c [] 0 hw) _ hmem]
  congr 1
  unfold decodeLeaf
  simp only
  rw [List.flatMap_map]
  obtain ⟨hlen, _⟩ := flat_conf c inst [] 0 hc hw _ hs
  have hv : (v.map (red s.bits)).length = flatN * s.nvalues := by rw [List.length_map]; exact hlen
  conv => rhs; rw [← range_rows hv]
  rw [List.flatMap_def, List.flatMap_def]
  congr 1
  apply List.map_congr_left
  intro r hr
  have hr := List.mem_range.1 hr
  rw [join_rowWords hw hc hr, decodeField_all hw hc hsz hr hs]

/-- Every value fits its field. -/
def InRange : Cls → Inst (List Nat) → Prop
  | .leaf _ b _ rest, .leaf _ v irest => (∀ x ∈ v, x < 2 ^ b) ∧ InRange rest irest
  | .nested _ sub rest, .nested _ isub irest => InRange sub isub ∧ InRange rest irest
  | _, _ => True

/-- The same instance with its values read as integers. -/
def Inst.ints : Inst (List Nat) → Inst (List Int)
  | .nil => .nil
  | .leaf n v rest => .leaf n (v.map Int.ofNat) rest.ints
  | .nested n sub rest => .nested n sub.ints rest.ints

theorem red_ofNat {b x : Nat} (h : x < 2 ^ b) : red b (Int.ofNat x) = x := by
  unfold red
  have h3 : ((2 ^ b : Nat) : Int) = 2 ^ b := by simp
  show ((x : Int) % 2 ^ b).toNat = x
  rw [← h3, ← Int.natCast_emod, Nat.mod_eq_of_lt h]
  rfl

theorem reduced_ints {flatN : Nat} : ∀ (c : Cls) (i : Inst (List Nat)), Conforms flatN c i → InRange c i →
    Conforms flatN c i.ints ∧ reduced c i.ints = i
  | .nil, .nil, _, _ => ⟨trivial, rfl⟩
  | .leaf n b sh rest, .leaf n' v irest, h, hr => by
    obtain ⟨a1, a2⟩ := reduced_ints rest irest h.2.2 hr.2
    refine ⟨⟨h.1, by rw [List.length_map]; exact h.2.1, a1⟩, ?_⟩
    simp only [Inst.ints, reduced, a2, List.map_map]
    congr 1
    conv => rhs; rw [← List.map_id v]
    apply List.map_congr_left
    intro x hx
    exact red_ofNat (hr.1 x hx)
  | .nested n sub rest, .nested n' isub irest, h, hr => by
    obtain ⟨a1, a2⟩ := reduced_ints rest irest h.2.2 hr.2
    obtain ⟨b1, b2⟩ := reduced_ints sub isub h.2.1 hr.1
    exact ⟨⟨h.1, b1, a1⟩, by simp only [Inst.ints, reduced, a2, b2]⟩
  | .nil, .leaf _ _ _, h, _ => h.elim
  | .nil, .nested _ _ _, h, _ => h.elim
  | .leaf _ _ _ _, .nil, h, _ => h.elim
  | .leaf _ _ _ _, .nested _ _ _, h, _ => h.elim
  | .nested _ _ _, .nil, h, _ => h.elim
  | .nested _ _ _, .leaf _ _ _, h, _ => h.elim

/-- **C37.**  In-range instances come back unchanged. -/
theorem aggregate_roundtrip_exact {kernel : List Nat → Tables → List Nat} (hk : IsPackKernel kernel) {c : Cls} (hw : c.Wf)
    (hsz : c.bitCount ≤ 2 ^ 32) {flatN : Nat} {inst : Inst (List Nat)} (hc : Conforms flatN c inst) (hr : InRange c inst) :
    ∃ p, packed kernel c flatN inst.ints = some p ∧ unpacked c p = some inst := by
  obtain ⟨h1, h2⟩ := reduced_ints c inst hc hr
  obtain ⟨p, hp, hu⟩ := aggregate_roundtrip hk hw hsz h1
  rw [h2] at hu
  exact ⟨p, hp, hu⟩

/-! ## C38 -/

theorem splitRow_sizes {total : Nat} {ws : List Nat} (hl : ws.length = (layout total).1) (hw : ∀ w ∈ ws, w < 2 ^ 32) :
    let p := splitRow (layout total).1 (layout total).2.2 ws
    p.words.length = (layout total).2.1 ∧ p.tail.length = (layout total).2.2 ∧ (∀ w ∈ p.words, w < 2 ^ 32) ∧
      ∀ b ∈ p.tail, b < 256 := by
  obtain ⟨f1, f2, f3, f4, f5⟩ := layout_facts total
  generalize (layout total).1 = wa at *
  generalize (layout total).2.1 = st at *
  generalize (layout total).2.2 = tb at *
  simp only [splitRow]
  by_cases h0 : tb = 0
  · rw [if_pos h0]
    exact ⟨by simp only; rw [hl, f4 h0], by simp [h0], hw, by simp⟩
  · rw [if_neg h0]
    obtain ⟨g1, g2⟩ := f5 h0
    refine ⟨?_, by simp, ?_, ?_⟩
    · simp only
      split
      · rw [List.length_dropLast]; omega
      · simp; omega
    · simp only
      intro w hm
      split at hm
      · exact hw w (List.dropLast_subset _ hm)
      · cases hm
    · simp only
      intro b hb
      obtain ⟨k, _, rfl⟩ := List.mem_map.1 hb
      exact Nat.and_lt_two_pow _ (by decide : 0xFF < 2 ^ 8)

theorem contig_disjoint {ss : List Leaf} {x y : Nat} (h : Contig x ss y) {q : Nat} :
    (∀ s ∈ ss, x ≤ s.offset ∧ s.offset + s.nvalues * s.bits ≤ y) ∧
    ∀ s ∈ ss, ∀ s' ∈ ss, s.offset ≤ q → q < s.offset + s.nvalues * s.bits → s'.offset ≤ q →
      q < s'.offset + s'.nvalues * s'.bits → s = s' := by
  induction ss generalizing x with
  | nil => exact ⟨fun s hs => (by cases hs), fun s hs => (by cases hs)⟩
  | cons a ss ih =>
    obtain ⟨h1, h2⟩ := h
    obtain ⟨i1, i2⟩ := ih h2
    have hle := Contig.le h2
    refine ⟨?_, ?_⟩
    · intro s hs
      rcases List.mem_cons.1 hs with rfl | hs
      · omega
      · have := i1 s hs; omega
    · intro s hs s' hs' a1 a2 b1 b2
      rcases List.mem_cons.1 hs with e | h3 <;> rcases List.mem_cons.1 hs' with e' | h4
      · rw [e, e']
      · subst e; have := i1 s' h4; omega
      · subst e'; have := i1 s h3; omega
      · exact i2 s h3 s' h4 a1 a2 b1 b2

/-- **C38.**  For every class and instance: the storage of one record is the documented number of words and tail bytes, holds
all `bitCount` bits, has at most two tail bytes and less than 16 unused bits; the bit range of every value lies inside the
total and no two values share a bit. -/
theorem aggregate_layout {kernel : List Nat → Tables → List Nat} (hk : IsPackKernel kernel) {c : Cls} (hw : c.Wf) {flatN : Nat}
    {inst : Inst (List Int)} (hc : Conforms flatN c inst) :
    (∃ p, packed kernel c flatN inst = some p ∧ p.length = flatN ∧
      ∀ r ∈ p, (c.bitCount ≤ 32 * r.words.length + 8 * r.tail.length ∧
        32 * r.words.length + 8 * r.tail.length < c.bitCount + 16 ∧ r.tail.length ≤ 2 ∧
        r.words.length = (layout c.bitCount).2.1 ∧ r.tail.length = (layout c.bitCount).2.2) ∧
        (∀ w ∈ r.words, w < 2 ^ 32) ∧ ∀ b ∈ r.tail, b < 256) ∧
    (∀ s ∈ specs c, s.offset + s.nvalues * s.bits ≤ c.bitCount) ∧
    ∀ s ∈ specs c, ∀ s' ∈ specs c, ∀ (i i' q : Nat), i < s.nvalues → i' < s'.nvalues →
      s.offset + i * s.bits ≤ q → q < s.offset + i * s.bits + s.bits →
      s'.offset + i' * s'.bits ≤ q → q < s'.offset + i' * s'.bits + s'.bits → s = s' ∧ i = i' := by
  have htot : totalBits c = c.bitCount := by rw [totalBits, walk_total]; omega
  refine ⟨⟨_, packed_eq hk hw hc, by simp, ?_⟩, ?_, ?_⟩
  · intro p hp
    obtain ⟨r, _, rfl⟩ := List.mem_map.1 hp
    obtain ⟨h1, h2, h3, h4⟩ := splitRow_sizes (rowWords_length c inst r) (rowWords_lt c inst r)
    rw [htot] at h1 h2
    refine ⟨?_, h3, h4⟩
    rw [htot, h1, h2]
    refine ⟨?_, ?_, (layout_facts _).2.2.1, rfl, rfl⟩
    · obtain ⟨f1, f2, f3, f4, f5⟩ := layout_facts c.bitCount
      by_cases h0 : (layout c.bitCount).2.2 = 0
      · have := f4 h0; omega
      · exact (f5 h0).2
    · generalize c.bitCount = total
      unfold layout ceilDiv
      simp only
      by_cases h0 : total = 0
      · subst h0; decide
      · rw [if_neg h0]
        by_cases hr : total % 32 = 0
        · simp only [hr, if_true]
          rw [if_neg (by omega)]
          simp only
          omega
        · rw [if_neg hr]
          by_cases ht : (total % 32 + 8 - 1) / 8 = 1 ∨ (total % 32 + 8 - 1) / 8 = 2
          · rw [if_pos ht]; simp only; omega
          · rw [if_neg ht]; simp only; omega
  · intro s hs
    have := (contig_disjoint (q := 0) (walk_contig c [] 0)).1 s hs
    rw [← htot]; exact this.2
  · intro s hs s' hs' i i' q hi hi' a1 a2 b1 b2
    have e1 := Nat.mul_le_mul_right s.bits hi
    have e2 := Nat.mul_le_mul_right s'.bits hi'
    rw [Nat.succ_mul] at e1 e2
    have he : s = s' := (contig_disjoint (q := q) (walk_contig c [] 0)).2 s hs s' hs' (by omega) (by omega) (by omega) (by omega)
    subst he
    refine ⟨rfl, ?_⟩
    have idx : ∀ i, s.offset + i * s.bits ≤ q → q < s.offset + i * s.bits + s.bits → (q - s.offset) / s.bits = i := by
      intro i u v
      apply Nat.div_eq_of_lt_le
      · omega
      · rw [Nat.succ_mul]; omega
    rw [← idx i a1 a2, ← idx i' b1 b2]

/-! ## C39 -/

/-- **C39.**  Two instances of one class and batch size have equal packed words and tails iff all their fields are equal
modulo `2 ^ bits`; for in-range instances: iff they are equal. -/
theorem packed_eq_iff {kernel : List Nat → Tables → List Nat} (hk : IsPackKernel kernel) {c : Cls} (hw : c.Wf)
    (hsz : c.bitCount ≤ 2 ^ 32) {flatN : Nat} {x y : Inst (List Int)} (hx : Conforms flatN c x) (hy : Conforms flatN c y) :
    packed kernel c flatN x = packed kernel c flatN y ↔ reduced c x = reduced c y := by
  constructor
  · intro h
    obtain ⟨p, hp, hu⟩ := aggregate_roundtrip hk hw hsz hx
    obtain ⟨p', hp', hu'⟩ := aggregate_roundtrip hk hw hsz hy
    rw [h, hp'] at hp
    cases hp
    rw [hu] at hu'
    exact Option.some.inj hu'
  · intro h
    rw [packed_eq hk hw hx, packed_eq hk hw hy]
    congr 1
    apply List.map_congr_left
    intro r hr
    have hr := List.mem_range.1 hr
    congr 1
    apply words_ext (by rw [rowWords_length, rowWords_length]) (rowWords_lt c x r) (rowWords_lt c y r)
    intro q hq
    rw [rowWords_length] at hq
    rw [Bool.eq_iff_iff, rowWords_bit hw hx hr hq, rowWords_bit hw hy hr hq, h]

theorem packed_eq_iff_exact {kernel : List Nat → Tables → List Nat} (hk : IsPackKernel kernel) {c : Cls} (hw : c.Wf)
    (hsz : c.bitCount ≤ 2 ^ 32) {flatN : Nat} {x y : Inst (List Nat)} (hx : Conforms flatN c x) (hy : Conforms flatN c y)
    (rx : InRange c x) (ry : InRange c y) :
    packed kernel c flatN x.ints = packed kernel c flatN y.ints ↔ x = y := by
  obtain ⟨h1, h2⟩ := reduced_ints c x hx rx
  obtain ⟨h3, h4⟩ := reduced_ints c y hy ry
  rw [packed_eq_iff hk hw hsz h1 h3, h2, h4]

/-! ## C40 -/

/-- **C40, indices in range.**  For every class, instance and leaf field: `unpack_field(path, indices)` returns, for every
batch element `r`, the entries `unpacked.<path>[r].flatten()[i]` for the given indices, whenever the normalised indices are
in range. -/
theorem unpack_field_spec_partial {kernel : List Nat → Tables → List Nat} (hk : IsPackKernel kernel) {c : Cls} (hw : c.Wf)
    (hsz : c.bitCount ≤ 2 ^ 32) {flatN : Nat} {inst : Inst (List Int)} (hc : Conforms flatN c inst) {p : List PackedRow}
    (hp : packed kernel c flatN inst = some p) {s : Leaf} (hs : s ∈ specs c) :
    ∃ u d, unpacked c p = some u ∧ u.get s.path = some d ∧ d.length = flatN * s.nvalues ∧
      ∀ idx, (∀ i ∈ normalize s.nvalues idx, 0 ≤ i ∧ i < s.nvalues) →
        unpackField c p s.path idx = some ((List.range flatN).map fun r =>
          (normalize s.nvalues idx).map fun i => d.getD (r * s.nvalues + i.toNat) 0) := by
  obtain ⟨p', hp', hu⟩ := aggregate_roundtrip hk hw hsz hc
  rw [hp] at hp'; cases hp'
  rw [packed_eq hk hw hc] at hp
  cases hp
  have hs' := hs
  rw [specs, ← flat_fst c inst [] 0 hc] at hs'
  obtain ⟨⟨s1, v⟩, hsv, he⟩ := List.mem_map.1 hs'
  simp only at he
  subst he
  obtain ⟨hlen, _⟩ := flat_conf c inst [] 0 hc hw _ hsv
  simp only at hlen
  have hred : (s1, v.map (red s1.bits)) ∈ flat c (reduced c inst) [] 0 := by
    rw [flat_reduced c inst [] 0 hc]; exact List.mem_map.2 ⟨(s1, v), hsv, rfl⟩
  obtain ⟨_, _, _, q, hq1, _, hq2⟩ := flat_conf c (reduced c inst) [] 0 (reduced_conf c inst hc) hw _ hred
  rw [List.nil_append] at hq1
  simp only at hq1 hq2
  refine ⟨_, _, hu, by rw [hq1]; exact hq2, by rw [List.length_map]; exact hlen, ?_⟩
  intro idx hidx
  unfold unpackField
  simp only
  rw [find_unique (ss := specs c) (walk_unique c [] 0 hw) hs, Option.map_some, List.map_map]
  congr 1
  apply List.map_congr_left
  intro r hr
  have hr := List.mem_range.1 hr
  show decodeField (joinRow _ _ (splitRow _ _ _)) s1 _ = _
  rw [join_rowWords hw hc hr]
  unfold decodeField
  apply List.map_congr_left
  intro i hi
  obtain ⟨i0, i1⟩ := hidx i hi
  obtain ⟨k, rfl⟩ := Int.eq_ofNat_of_zero_le i0
  have hk : k < s1.nvalues := by omega
  have := decode_value hw hc hsz hr hsv hk
  rw [show (Int.ofNat k) = (k : Int) from rfl] at this
  rw [this, Int.toNat_natCast]
  unfold row
  exact row_getD _ _ _ _ _ hk

/-- Slices with `0 ≤ start`, `stop ≤ nvalues` and positive step select in-range indices, the ones Python selects. -/
theorem slice_in_range {n : Nat} {a b s : Int} (h0 : 0 ≤ a) (hb : b ≤ n) (hs : 0 < s) :
    ∀ i ∈ normalize n (.slice (some a) (some b) (some s)), a ≤ i ∧ i < b ∧ (i - a) % s = 0 ∧ 0 ≤ i ∧ i < n := by
  intro i hi
  simp only [normalize, Option.getD_some, arange, if_pos hs, List.mem_map, List.mem_range] at hi
  obtain ⟨k, hk, rfl⟩ := hi
  have hk2 : (k : Int) < (b - a + s - 1) / s := by omega
  have h1 := Int.mul_ediv_self_le (x := b - a + s - 1) (k := s) (by omega)
  have h2 : s * ((k : Int) + 1) ≤ s * ((b - a + s - 1) / s) := Int.mul_le_mul_of_nonneg_left (by omega) (by omega)
  have h3 : s * ((k : Int) + 1) = k * s + s := by rw [Int.mul_add, Int.mul_one, Int.mul_comm]
  have h4 : (0 : Int) ≤ k * s := Int.mul_nonneg (by omega) (by omega)
  refine ⟨by omega, by omega, ?_, by omega, by omega⟩
  rw [show a + (k : Int) * s - a = k * s by omega]
  exact Int.mul_emod_left _ _

theorem slice_complete {n : Nat} {a b s : Int} (hs : 0 < s) :
    ∀ i, a ≤ i → i < b → (i - a) % s = 0 → i ∈ normalize n (.slice (some a) (some b) (some s)) := by
  intro i h1 h2 h3
  simp only [normalize, Option.getD_some, arange, if_pos hs, List.mem_map, List.mem_range]
  have h4 := Int.mul_ediv_add_emod (i - a) s
  rw [h3, Int.add_zero] at h4
  have h5 : 0 ≤ (i - a) / s := Int.ediv_nonneg (by omega) (by omega)
  refine ⟨((i - a) / s).toNat, ?_, ?_⟩
  · have : (i - a) / s + 1 ≤ (b - a + s - 1) / s := by
      rw [Int.le_ediv_iff_mul_le hs, Int.add_mul, Int.mul_comm, h4]; omega
    omega
  · rw [Int.toNat_of_nonneg h5, Int.mul_comm, h4]; omega

/-- Python's slice ends: below 0 they count from the end, then they are clamped to `0 … n`. -/
def pyEnd (n : Nat) (x : Int) : Int := if x < 0 then max 0 (x + n) else min x n

/-- Python's selection `range(n)[a:b:s]` for a positive step (`slice.indices`). -/
def PySlice (n : Nat) (a b s : Option Int) : List Nat :=
  let start : Int := (a.map (pyEnd n)).getD 0
  let stop : Int := (b.map (pyEnd n)).getD n
  (List.range n).filter fun i => decide (start ≤ i ∧ (i : Int) < stop ∧ ((i : Int) - start) % (s.getD 1) = 0)

theorem sorted_ext {l l' : List Int} (h : l.Pairwise (· < ·)) (h' : l'.Pairwise (· < ·)) (he : ∀ i, i ∈ l ↔ i ∈ l') : l = l' := by
  induction l generalizing l' with
  | nil =>
    cases l' with
    | nil => rfl
    | cons b l' => exact absurd ((he b).2 (by simp)) (by simp)
  | cons a l ih =>
    cases l' with
    | nil => exact absurd ((he a).1 (by simp)) (by simp)
    | cons b l' =>
      rw [List.pairwise_cons] at h h'
      have hab : a = b := by
        have h1 := (he a).1 (by simp)
        have h2 := (he b).2 (by simp)
        rcases List.mem_cons.1 h1 with h1 | h1
        · exact h1
        · rcases List.mem_cons.1 h2 with h2 | h2
          · exact h2.symm
          · have := h.1 b h2; have := h'.1 a h1; omega
      subst hab
      rw [ih h.2 h'.2]
      intro i
      constructor
      · intro hi
        rcases List.mem_cons.1 ((he i).1 (by simp [hi])) with h1 | h1
        · have := h.1 i hi; omega
        · exact h1
      · intro hi
        rcases List.mem_cons.1 ((he i).2 (by simp [hi])) with h1 | h1
        · have := h'.1 i hi; omega
        · exact h1

/-- `unpack_field(…, indices=slice(a, b, s))` selects what Python selects, for absent ends, ends in `0 … nvalues` and a positive step. -/
theorem slice_selects {n : Nat} {a b s : Option Int} (ha : ∀ x, a = some x → 0 ≤ x) (hb : ∀ x, b = some x → 0 ≤ x ∧ x ≤ n)
    (hs : ∀ x, s = some x → 0 < x) : normalize n (.slice a b s) = (PySlice n a b s).map Int.ofNat := by
  have hs' : 0 < s.getD 1 := by
    cases s with
    | none => decide
    | some x => exact hs x rfl
  have e : normalize n (.slice a b s) = normalize n (.slice (some (a.getD 0)) (some (b.getD n)) (some (s.getD 1))) := rfl
  have ha' : 0 ≤ a.getD 0 := by
    cases a with
    | none => decide
    | some x => exact ha x rfl
  have hb' : b.getD n ≤ n := by
    cases b with
    | none => simp
    | some x => exact (hb x rfl).2
  apply sorted_ext
  · unfold normalize arange
    simp only [if_pos hs']
    rw [List.pairwise_map]
    refine List.pairwise_lt_range.imp ?_
    intro i j hij
    have : ((i : Int) + 1) * s.getD 1 ≤ (j : Int) * s.getD 1 := Int.mul_le_mul_of_nonneg_right (by omega) (by omega)
    rw [Int.add_mul] at this
    omega
  · rw [List.pairwise_map]
    unfold PySlice
    refine (List.pairwise_lt_range.filter _).imp ?_
    intro i j hij
    exact Int.ofNat_lt.2 hij
  · intro i
    have hstart : ∀ j : Nat, (j : Int) < n → (((a.map (pyEnd n)).getD 0 ≤ (j : Int) ∧ ((j : Int) - (a.map (pyEnd n)).getD 0) % (s.getD 1) = 0) ↔
        (a.getD 0 ≤ j ∧ ((j : Int) - a.getD 0) % (s.getD 1) = 0)) := by
      intro j hj
      cases a with
      | none => exact Iff.rfl
      | some x =>
        have := ha x rfl
        simp only [Option.map_some, Option.getD_some, pyEnd]
        rw [if_neg (by omega)]
        by_cases hx : x ≤ n
        · rw [Int.min_eq_left hx]
        · constructor
          · intro h; omega
          · intro h; omega
    have hstop : (b.map (pyEnd n)).getD n = b.getD n := by
      cases b with
      | none => rfl
      | some x =>
        have := hb x rfl
        simp only [Option.map_some, Option.getD_some, pyEnd]
        rw [if_neg (by omega)]
        omega
    constructor
    · intro hi
      rw [e] at hi
      obtain ⟨h1, h2, h3, h4, h5⟩ := slice_in_range ha' hb' hs' i hi
      refine List.mem_map.2 ⟨i.toNat, ?_, by show ((i.toNat : Nat) : Int) = i; omega⟩
      unfold PySlice
      rw [List.mem_filter]
      refine ⟨List.mem_range.2 (by omega), decide_eq_true ?_⟩
      have ei : ((i.toNat : Nat) : Int) = i := by omega
      have := (hstart i.toNat (by omega)).2 (by rw [ei]; exact ⟨h1, h3⟩)
      refine ⟨this.1, ?_, this.2⟩
      rw [hstop]; omega
    · intro hi
      obtain ⟨j, hj, rfl⟩ := List.mem_map.1 hi
      unfold PySlice at hj
      rw [List.mem_filter, List.mem_range] at hj
      obtain ⟨hj, hd⟩ := hj
      obtain ⟨d1, d2, d3⟩ := of_decide_eq_true hd
      have := (hstart j (by omega)).1 ⟨d1, d3⟩
      rw [e]
      refine slice_complete hs' _ this.1 ?_ this.2
      rw [hstop] at d2
      exact d2

/-- **C40, slices.**  `unpack_field(path, indices=slice(a, b, s))` is, for every batch element, what Python's slice of the flattened
field selects. -/
theorem unpack_field_slice_partial {kernel : List Nat → Tables → List Nat} (hk : IsPackKernel kernel) {c : Cls} (hw : c.Wf)
    (hsz : c.bitCount ≤ 2 ^ 32) {flatN : Nat} {inst : Inst (List Int)} (hc : Conforms flatN c inst) {p : List PackedRow}
    (hp : packed kernel c flatN inst = some p) {s : Leaf} (hs : s ∈ specs c) {a b st : Option Int} (ha : ∀ x, a = some x → 0 ≤ x)
    (hb : ∀ x, b = some x → 0 ≤ x ∧ x ≤ s.nvalues) (hst : ∀ x, st = some x → 0 < x) :
    ∃ u d, unpacked c p = some u ∧ u.get s.path = some d ∧ d.length = flatN * s.nvalues ∧
      unpackField c p s.path (.slice a b st) = some ((List.range flatN).map fun r =>
        (PySlice s.nvalues a b st).map fun i => d.getD (r * s.nvalues + i) 0) := by
  obtain ⟨u, d, h1, h2, h3, h4⟩ := unpack_field_spec_partial hk hw hsz hc hp hs
  refine ⟨u, d, h1, h2, h3, ?_⟩
  rw [h4, slice_selects ha hb hst]
  · congr 1
    apply List.map_congr_left
    intro r _
    rw [List.map_map]
    rfl
  · rw [slice_selects ha hb hst]
    intro i hi
    obtain ⟨j, hj, rfl⟩ := List.mem_map.1 hi
    have := List.mem_range.1 (List.mem_filter.1 hj).1
    exact ⟨Int.natCast_nonneg _, Int.ofNat_lt.2 this⟩

/-- **C40, everything.**  Without `indices` every value of the field is returned, in order. -/
theorem unpack_field_all {kernel : List Nat → Tables → List Nat} (hk : IsPackKernel kernel) {c : Cls} (hw : c.Wf)
    (hsz : c.bitCount ≤ 2 ^ 32) {flatN : Nat} {inst : Inst (List Int)} (hc : Conforms flatN c inst) {p : List PackedRow}
    (hp : packed kernel c flatN inst = some p) {s : Leaf} (hs : s ∈ specs c) :
    ∃ u d, unpacked c p = some u ∧ u.get s.path = some d ∧ d.length = flatN * s.nvalues ∧
      unpackField c p s.path .all = some ((List.range flatN).map fun r =>
        (List.range s.nvalues).map fun i => d.getD (r * s.nvalues + i) 0) := by
  obtain ⟨u, d, h1, h2, h3, h4⟩ := unpack_field_spec_partial hk hw hsz hc hp hs
  refine ⟨u, d, h1, h2, h3, ?_⟩
  rw [h4]
  · congr 1
    apply List.map_congr_left
    intro r _
    simp only [normalize, allIdx, List.map_map]
    rfl
  · intro i hi
    simp only [normalize, allIdx] at hi
    obtain ⟨j, hj, rfl⟩ := List.mem_map.1 hi
    have := List.mem_range.1 hj
    exact ⟨Int.natCast_nonneg _, Int.ofNat_lt.2 this⟩

example : PySlice 10 (some 1) (some 8) (some 3) = [1, 4, 7] ∧ PySlice 4 none none none = [0, 1, 2, 3] ∧
    PySlice 5 (some (-2)) none none = [3, 4] := by decide +kernel

/-- The class and instance used below: a 3-bit field `a` of shape (3,), a nested 20-bit field, a 1-bit field. -/
def demoCls : Cls := .leaf "a" 3 [3] (.nested "in" (.leaf "b" 20 [2] .nil) (.leaf "f" 1 [] .nil))
def demoInst : Inst (List Int) :=
  .leaf "a" [1, 2, 3, 4, 5, 6] (.nested "in" (.leaf "b" [100000, 200000, 3, -1] .nil) (.leaf "f" [1, 0] .nil))

example : demoCls.Wf ∧ demoCls.bitCount = 50 ∧ Conforms 2 demoCls demoInst := by
  simp [demoCls, demoInst, Cls.Wf, Cls.names, Cls.bitCount, Conforms, size]

example : (packed packXla demoCls 2 demoInst).bind (unpacked demoCls) = some (reduced demoCls demoInst) ∧
    reduced demoCls demoInst = .leaf "a" [1, 2, 3, 4, 5, 6]
      (.nested "in" (.leaf "b" [100000, 200000, 3, 1048575] .nil) (.leaf "f" [1, 0] .nil)) ∧
    layout 50 = (2, 2, 0) ∧ layout 40 = (2, 1, 1) := by decide +kernel

/-- **C40 fails outside the range.**  A negative index does not count from the end (it reads the bits of the field before),
and a slice end beyond the field is not clamped (it reads the next field): `unpack_field("in.b", indices=[-1])` is not
`unpacked.in.b.flatten()[-1]`. -/
theorem unpack_field_negative_index_false :
    (packed packXla demoCls 2 demoInst).bind (fun p => unpackField demoCls p ["in", "b"] (.list [-1])) ≠
      some [[200000], [1048575]] := by decide +kernel

theorem unpack_field_slice_clamp_false :
    (packed packXla demoCls 2 demoInst).bind (fun p => unpackField demoCls p ["a"] (.slice (some 1) (some 5) none)) ≠
      some [[2, 3], [5, 6]] := by decide +kernel

end Agg
