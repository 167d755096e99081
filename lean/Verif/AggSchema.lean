import Verif.AggSchemaModel

/-!
# C86: `bitpack_schema()` tells where everything is
-/

namespace Desc

open Io (DType Arr Key)

/-! ## Specification -/

/-- The leaves of a class, depth first in declaration order: path of field names and descriptor. -/
def Cls.leaves : Cls → List (List String × FD)
  | .nil => []
  | .leaf n d rest => ([n], d) :: rest.leaves
  | .nested n _ _ _ sub rest => (sub.leaves.map fun l => (n :: l.1, l.2)) ++ rest.leaves

/-- Field names contain no dot (every Python identifier). -/
def Cls.NoDots : Cls → Prop
  | .nil => True
  | .leaf n _ rest => '.' ∉ n.toList ∧ rest.NoDots
  | .nested n _ _ _ sub rest => '.' ∉ n.toList ∧ sub.NoDots ∧ rest.NoDots

/-- Bit `q` of a stored record: the words first, 32 bits each, then the tail bytes. -/
def storedBit (r : Agg.PackedRow) (q : Nat) : Bool :=
  if q < 32 * r.words.length then (r.words.getD (q / 32) 0).testBit (q % 32)
  else (r.tail.getD ((q - 32 * r.words.length) / 8) 0).testBit ((q - 32 * r.words.length) % 8)

/-- Bit `k` of an integer in two's complement. -/
def intBit (z : Int) (k : Nat) : Bool := decide (z / 2 ^ k % 2 = 1)

/-! ## The specs -/

/-- The spec seen by the packing code. -/
def Spec.toLeaf (s : Spec) : Bitpack.Leaf := { path := s.path, bits := s.bits, nvalues := s.nvalues, offset := s.bitOffset }

theorem specWalk_agg : ∀ (c : Cls) (pre : List String) (off : Nat),
    (specWalk c pre off).1.map Spec.toLeaf = (Agg.walk (aggCls c) pre off).1 ∧ (specWalk c pre off).2 = (Agg.walk (aggCls c) pre off).2
  | .nil, _, _ => ⟨rfl, rfl⟩
  | .leaf n d rest, pre, off => by
    obtain ⟨h1, h2⟩ := specWalk_agg rest pre (off + Bitpack.size d.ish * d.bits.getD 0)
    simp only [specWalk, aggCls, Agg.walk, List.map_cons, h1, h2, Spec.toLeaf, and_self]
  | .nested n ish i v sub rest, pre, off => by
    obtain ⟨h1, h2⟩ := specWalk_agg sub (pre ++ [n]) off
    obtain ⟨h3, h4⟩ := specWalk_agg rest pre (Agg.walk (aggCls sub) (pre ++ [n]) off).2
    simp only [specWalk, aggCls, Agg.walk, List.map_append, h1, h2, h3, h4, and_self]

theorem specWalk_leaves : ∀ (c : Cls) (pre : List String) (off : Nat),
    (specWalk c pre off).1.map (fun s => (s.path, s.bits, s.unpackedShape, s.nvalues, s.bitLen, s.unpackDtype, s.declaredDtype)) =
      c.leaves.map fun l => (pre ++ l.1, l.2.bits.getD 0, l.2.ish, Bitpack.size l.2.ish, Bitpack.size l.2.ish * l.2.bits.getD 0,
        unpackDtype (l.2.bits.getD 0), l.2.dtype)
  | .nil, _, _ => rfl
  | .leaf n d rest, pre, off => by
    simp only [specWalk, Cls.leaves, List.map_cons, specWalk_leaves rest]
  | .nested n ish i v sub rest, pre, off => by
    simp only [specWalk, Cls.leaves, List.map_append, specWalk_leaves sub, specWalk_leaves rest, List.map_map]
    congr 1
    apply List.map_congr_left
    intro l _
    simp

theorem specWalk_offsets : ∀ (c : Cls) (pre : List String) (off : Nat),
    (∀ (l l' : List Spec) (s : Spec), (specWalk c pre off).1 = l ++ s :: l' → s.bitOffset = off + (l.map Spec.bitLen).sum) ∧
      (specWalk c pre off).2 = off + ((specWalk c pre off).1.map Spec.bitLen).sum
  | .nil, _, _ => ⟨fun l l' s h => by simp [specWalk] at h, rfl⟩
  | .leaf n d rest, pre, off => by
    obtain ⟨h1, h2⟩ := specWalk_offsets rest pre (off + Bitpack.size d.ish * d.bits.getD 0)
    simp only [specWalk, List.map_cons, List.sum_cons]
    refine ⟨fun l l' s h => ?_, by rw [h2]; omega⟩
    cases l with
    | nil =>
      rw [List.nil_append] at h
      rw [← (List.cons.inj h).1]; rfl
    | cons a l =>
      rw [List.cons_append] at h
      obtain ⟨ha, hl⟩ := List.cons.inj h
      rw [h1 l l' s hl, List.map_cons, List.sum_cons, ← ha]
      simp only
      omega
  | .nested n ish i v sub rest, pre, off => by
    obtain ⟨h1, h2⟩ := specWalk_offsets sub (pre ++ [n]) off
    obtain ⟨h3, h4⟩ := specWalk_offsets rest pre (specWalk sub (pre ++ [n]) off).2
    simp only [specWalk, List.map_append, List.sum_append]
    refine ⟨fun l l' s h => ?_, by rw [h4, h2]; omega⟩
    rcases List.append_eq_append_iff.1 h with ⟨a', ha1, ha2⟩ | ⟨a', ha1, ha2⟩
    · rw [h3 a' l' s ha2, ha1, List.map_append, List.sum_append, h2]; omega
    · cases a' with
      | nil =>
        simp only [List.nil_append, List.append_nil] at ha1 ha2
        rw [h3 [] l' s (by rw [List.nil_append]; exact ha2.symm), h2, ha1]
        simp
      | cons b a' =>
        rw [List.cons_append] at ha2
        obtain ⟨e1, e2⟩ := List.cons.inj ha2
        exact h1 l a' s (by rw [ha1, e1])

/-- **C86, fields.**  The schema lists the leaves of the class (nested classes included) in declaration order, each with its declared width, shape
and dtype; a field starts where the ones before it end; the totals are the sums. -/
theorem schema_fields (c : Cls) :
    ((schema c).fields.map fun f => (f.path, f.bits, f.unpackedShape, f.declaredDtype)) =
      (c.leaves.map fun l => (joinDots l.1, l.2.bits.getD 0, l.2.ish, l.2.dtype)) ∧
    (∀ f ∈ (schema c).fields, f.nvalues = Bitpack.size f.unpackedShape ∧ f.bitLen = f.nvalues * f.bits ∧
      f.unpackedDtypeDefault = if f.bits = 1 then DType.bool else if f.bits ≤ 8 then .uint 8 else .uint 32) ∧
    (∀ (l l' : List SchemaField) (f : SchemaField), (schema c).fields = l ++ f :: l' → f.bitOffset = (l.map SchemaField.bitLen).sum) ∧
    (schema c).totalBits = ((schema c).fields.map SchemaField.bitLen).sum ∧
    8 * (schema c).payloadBytes < (schema c).totalBits + 8 ∧ (schema c).totalBits ≤ 8 * (schema c).payloadBytes := by
  have hl := specWalk_leaves c [] 0
  obtain ⟨ho, ht⟩ := specWalk_offsets c [] 0
  refine ⟨?_, ?_, ?_, ?_, ?_, ?_⟩
  · have := congrArg (List.map fun t : List String × Nat × List Nat × Nat × Nat × DType × DType => (joinDots t.1, t.2.1, t.2.2.1, t.2.2.2.2.2.2)) hl
    simp only [List.map_map] at this
    simp only [schema, List.map_map]
    exact this
  · intro f hf
    simp only [schema] at hf
    obtain ⟨s, hs, rfl⟩ := List.mem_map.1 hf
    have h2 := List.mem_map_of_mem (f := fun s : Spec => (s.path, s.bits, s.unpackedShape, s.nvalues, s.bitLen, s.unpackDtype, s.declaredDtype)) hs
    rw [hl] at h2
    obtain ⟨l, _, e⟩ := List.mem_map.1 h2
    simp only [Prod.mk.injEq] at e
    obtain ⟨_, e2, e3, e4, e5, e6, _⟩ := e
    simp only
    rw [← e2, ← e3, ← e4, ← e5, ← e6]
    exact ⟨rfl, rfl, rfl⟩
  · intro l l' f hf
    simp only [schema] at hf
    obtain ⟨m, m', hm, h1, h2⟩ := List.map_eq_append_iff.1 hf
    obtain ⟨s, m'', rfl, h3, h4⟩ := List.map_eq_cons_iff.1 h2
    have := ho m m'' s hm
    rw [← h3, ← h1, List.map_map]
    simp only
    rw [this, Nat.zero_add]
    rfl
  · simp only [schema, List.map_map]
    rw [ht, Nat.zero_add]
    rfl
  · simp only [schema, Bitpack.ceilDiv]; omega
  · simp only [schema, Bitpack.ceilDiv]; omega

/-! ## Sizes -/

theorem total_eq (c : Cls) : (specWalk c [] 0).2 = (aggCls c).bitCount := by
  rw [(specWalk_agg c [] 0).2, Agg.walk_total]; omega

theorem schema_sizes_eq (c : Cls) : (schema c).storageBytes = (Agg.layout (aggCls c).bitCount).2.1 * 4 + (Agg.layout (aggCls c).bitCount).2.2 ∧
    (schema c).wordsLen = (Agg.layout (aggCls c).bitCount).2.1 ∧ (schema c).tailBytes = (Agg.layout (aggCls c).bitCount).2.2 ∧
    (schema c).payloadBytes = ((aggCls c).bitCount + 8 - 1) / 8 := by
  rw [← total_eq]; exact ⟨rfl, rfl, rfl, rfl⟩

/-- **C86, sizes.**  Every record of a packed instance has `words_len` words and `tail_bytes` tail bytes, `storage_bytes` bytes in all; that is
`payload_bytes`, or one byte more. -/
theorem schema_sizes {kernel : List Nat → Bitpack.Tables → List Nat} (hk : Agg.IsPackKernel kernel) {c : Cls} (hm : c.MadeAll)
    (hn : c.NamesOk) (hp : c.Packable) {flatN : Nat} {x : Agg.Inst (List Int)} (hc : Agg.Conforms flatN (aggCls c) x) :
    ∃ p, Agg.packed kernel (aggCls c) flatN x = some p ∧ p.length = flatN ∧
      (∀ r ∈ p, r.words.length = (schema c).wordsLen ∧ r.tail.length = (schema c).tailBytes ∧
        4 * r.words.length + r.tail.length = (schema c).storageBytes) ∧
      (schema c).payloadBytes ≤ (schema c).storageBytes ∧ (schema c).storageBytes ≤ (schema c).payloadBytes + 1 := by
  obtain ⟨⟨p, h1, h2, h3⟩, _⟩ := Agg.aggregate_layout hk (packable_wf hm hp hn) hc
  obtain ⟨e1, e2, e3, e4⟩ := schema_sizes_eq c
  refine ⟨p, h1, h2, fun r hr => ?_, ?_, ?_⟩
  · obtain ⟨⟨_, _, _, a, b⟩, _⟩ := h3 r hr
    rw [a, b, e1, e2, e3]
    exact ⟨rfl, rfl, by omega⟩
  · rw [e1, e4]
    obtain ⟨f1, f2, f3, f4, f5⟩ := Agg.layout_facts (aggCls c).bitCount
    by_cases h0 : (Agg.layout (aggCls c).bitCount).2.2 = 0
    · have := f4 h0; omega
    · have := f5 h0; omega
  · rw [e1, e4]
    unfold Agg.layout Bitpack.ceilDiv
    simp only
    generalize (aggCls c).bitCount = t
    by_cases h0 : t = 0
    · subst h0; decide
    · rw [if_neg h0]
      by_cases hr : t % 32 = 0
      · rw [if_pos hr, if_neg (by omega)]
        simp only
        omega
      · rw [if_neg hr]
        by_cases h12 : (t % 32 + 8 - 1) / 8 = 1 ∨ (t % 32 + 8 - 1) / 8 = 2
        · rw [if_pos h12]
          simp only
          omega
        · rw [if_neg h12]
          simp only
          omega

/-! ## Bits -/

theorem storedBit_split {total : Nat} {ws : List Nat} (hl : ws.length = (Agg.layout total).1) {q : Nat} (hq : q < total) :
    storedBit (Agg.splitRow (Agg.layout total).1 (Agg.layout total).2.2 ws) q = Bitpack.wordBit ws q := by
  obtain ⟨f1, f2, f3, f4, f5⟩ := Agg.layout_facts total
  generalize (Agg.layout total).1 = wa at *
  generalize (Agg.layout total).2.1 = st at *
  generalize (Agg.layout total).2.2 = tb at *
  unfold Agg.splitRow Bitpack.wordBit
  by_cases h0 : tb = 0
  · rw [if_pos h0]
    unfold storedBit
    rw [if_pos (by simp only; omega)]
  · rw [if_neg h0]
    obtain ⟨g1, g2⟩ := f5 h0
    have hwl : (if wa > 1 then ws.dropLast else []) = ws.dropLast := by
      by_cases h1 : wa > 1
      · rw [if_pos h1]
      · rw [if_neg h1]
        symm
        apply List.length_eq_zero_iff.1
        rw [List.length_dropLast]; omega
    rw [hwl]
    have hdl : ws.dropLast.length = st := by rw [List.length_dropLast]; omega
    unfold storedBit
    simp only [hdl]
    by_cases hs : q < 32 * st
    · rw [if_pos hs]
      congr 1
      rw [List.getD_eq_getElem?_getD, List.getD_eq_getElem?_getD, List.getElem?_dropLast, if_pos (by omega)]
    · rw [if_neg hs]
      have hd : q / 32 = st := by omega
      have hj : (q - 32 * st) / 8 < tb := by omega
      rw [hd]
      have hlast : ws.getD st 0 = ws.getLastD 0 := by
        rw [List.getLastD_eq_getLast?, List.getLast?_eq_getElem?, List.getD_eq_getElem?_getD, hl, g1]
        simp
      rw [hlast, SortGroup.tab_getD _ _ hj]
      rw [Nat.testBit_and, Nat.testBit_shiftRight]
      have h255 : Nat.testBit 0xFF ((q - 32 * st) % 8) = true := by
        have : (q - 32 * st) % 8 < 8 := by omega
        generalize (q - 32 * st) % 8 = z at this
        match z, this with
        | 0, _ => rfl
        | 1, _ => rfl
        | 2, _ => rfl
        | 3, _ => rfl
        | 4, _ => rfl
        | 5, _ => rfl
        | 6, _ => rfl
        | 7, _ => rfl
      rw [h255, Bool.and_true]
      congr 1
      omega

theorem red_testBit {b k : Nat} (hk : k < b) (z : Int) : (Agg.red b z).testBit k = intBit z k := by
  unfold Agg.red intBit
  rw [Nat.testBit_eq_decide_div_mod_eq]
  have hb : (0 : Int) < 2 ^ b := Int.pow_pos (by decide)
  have hk0 : (0 : Int) < 2 ^ k := Int.pow_pos (by decide)
  have he : (2 : Int) ^ b = 2 ^ k * (2 * 2 ^ (b - k - 1)) := by
    rw [← Int.mul_assoc, ← Int.pow_succ, ← Int.pow_add]
    congr 1; omega
  have h0 : 0 ≤ z % 2 ^ b := Int.emod_nonneg _ (by omega)
  have h1 : z / 2 ^ k = z % 2 ^ b / 2 ^ k + 2 * (2 ^ (b - k - 1) * (z / 2 ^ b)) := by
    conv => lhs; rw [← Int.emod_add_mul_ediv z (2 ^ b)]
    conv => lhs; rw [he, Int.mul_assoc, Int.add_mul_ediv_left _ _ (by omega)]
    rw [← he, Int.mul_assoc]
  have h2 : z / 2 ^ k % 2 = z % 2 ^ b / 2 ^ k % 2 := by rw [h1]; omega
  have h3 : (((z % 2 ^ b).toNat / 2 ^ k % 2 : Nat) : Int) = z % 2 ^ b / 2 ^ k % 2 := by
    rw [Int.natCast_emod, Int.natCast_ediv, Int.toNat_of_nonneg h0]
    congr 2
  rw [h2, ← h3]
  congr 1
  rw [eq_iff_iff]
  omega

/-- Every leaf of the class is a leaf of the instance, and the spec with its path is the one of the schema. -/
theorem spec_flat {c : Cls} {flatN : Nat} {x : Agg.Inst (List Int)} (hc : Agg.Conforms flatN (aggCls c) x) {s : Spec} (hs : s ∈ (specWalk c [] 0).1) :
    ∃ v, (s.toLeaf, v) ∈ Agg.flat (aggCls c) x [] 0 := by
  have h1 : s.toLeaf ∈ (Agg.walk (aggCls c) [] 0).1 := by rw [← (specWalk_agg c [] 0).1]; exact List.mem_map_of_mem hs
  rw [← Agg.flat_fst (aggCls c) x [] 0 hc] at h1
  obtain ⟨⟨l, v⟩, h2, h3⟩ := List.mem_map.1 h1
  simp only at h3
  subst h3
  exact ⟨v, h2⟩

/-- **C86, bits.**  Entry by entry: the leaf of the instance named by a field of the schema has `nvalues` entries per record, and bit `k` of entry `i`
of record `r` is bit `bit_offset + i · bits + k` of the stored record (words, then tail); negative integers in two's complement. -/
theorem schema_bits {kernel : List Nat → Bitpack.Tables → List Nat} (hk : Agg.IsPackKernel kernel) {c : Cls} (hm : c.MadeAll)
    (hn : c.NamesOk) (hp : c.Packable) {flatN : Nat} {x : Agg.Inst (List Int)} (hc : Agg.Conforms flatN (aggCls c) x)
    {p : List Agg.PackedRow} (hpk : Agg.packed kernel (aggCls c) flatN x = some p) {j : Nat} {f : SchemaField} {l : List String × FD}
    (hf : (schema c).fields[j]? = some f) (hl : c.leaves[j]? = some l) :
    ∃ v : List Int, x.get l.1 = some v ∧ v.length = flatN * f.nvalues ∧
      ∀ (r i k : Nat) (w : Agg.PackedRow) (z : Int), p[r]? = some w → i < f.nvalues → k < f.bits → v[r * f.nvalues + i]? = some z →
        storedBit w (f.bitOffset + i * f.bits + k) = intBit z k := by
  have hw := packable_wf hm hp hn
  simp only [schema, List.getElem?_map] at hf
  obtain ⟨s, hs, rfl⟩ := Option.map_eq_some_iff.1 hf
  have hlp : s.path = l.1 := by
    have := congrArg (fun t : List (List String × Nat × List Nat × Nat × Nat × DType × DType) => (t[j]?).map Prod.fst) (specWalk_leaves c [] 0)
    simp only [List.getElem?_map, hs, hl, Option.map_some, Option.some.injEq] at this
    simpa using this
  obtain ⟨v, hv⟩ := spec_flat hc (List.mem_of_getElem? hs)
  obtain ⟨hlen, hb1, hb32, q, hq1, _, hq2⟩ := Agg.flat_conf (aggCls c) x [] 0 hc hw _ hv
  simp only [Spec.toLeaf, List.nil_append] at hlen hb1 hb32 hq1 hq2
  refine ⟨v, by rw [← hlp, hq1]; exact hq2, hlen, fun r i k w z hr hi hk' hz => ?_⟩
  simp only at hi hk' hz ⊢
  rw [Agg.packed_eq hk hw hc] at hpk
  cases hpk
  rw [List.getElem?_map] at hr
  obtain ⟨r', hr', rfl⟩ := Option.map_eq_some_iff.1 hr
  have hrr := List.getElem?_eq_some_iff.1 hr'
  obtain ⟨hr1, hr2⟩ := hrr
  rw [List.getElem_range] at hr2
  subst hr2
  rw [List.length_range] at hr1
  have hcell : (s.bitOffset + i * s.bits, s.bits, (Agg.row s.nvalues r (v.map (Agg.red s.bits))).getD i 0) ∈
      Agg.cells (Agg.flat (aggCls c) (Agg.reduced (aggCls c) x) [] 0) r := by
    rw [Agg.mem_cells, Agg.flat_reduced (aggCls c) x [] 0 hc]
    exact ⟨(s.toLeaf, v.map (Agg.red s.bits)), List.mem_map.2 ⟨(s.toLeaf, v), hv, rfl⟩, i, hi, rfl⟩
  have hcon := Agg.flat_contig (Agg.reduced_conf (aggCls c) x hc)
  have hrange := Agg.cells_range hcon _ hcell
  simp only at hrange
  obtain ⟨f1, _⟩ := Agg.layout_facts (Agg.totalBits (aggCls c))
  rw [storedBit_split (Agg.rowWords_length _ _ _) (by omega)]
  have hval : (Agg.row s.nvalues r (v.map (Agg.red s.bits))).getD i 0 = Agg.red s.bits z := by
    rw [Agg.row_map, Agg.getD_map_red]
    congr 1
    unfold Agg.row
    rw [Bitpack.row_getD _ _ _ _ _ hi, List.getD_eq_getElem?_getD, hz]
    rfl
  rw [← red_testBit hk', Bool.eq_iff_iff, Agg.rowWords_bit hw hc hr1 (by omega), ← hval]
  constructor
  · rintro ⟨y, hy, h1, h2, h3⟩
    have := Agg.cells_unique (q := s.bitOffset + i * s.bits + k) hcon y hy _ hcell h1 h2 (by simp only; omega) (by simp only; omega)
    subst this
    simp only at h3
    rw [show s.bitOffset + i * s.bits + k - (s.bitOffset + i * s.bits) = k by omega] at h3
    exact h3
  · intro h
    refine ⟨_, hcell, by simp only; omega, by simp only; omega, ?_⟩
    simp only
    rw [show s.bitOffset + i * s.bits + k - (s.bitOffset + i * s.bits) = k by omega]
    exact h

/-! ## `unpack_field` by name -/

theorem splitDots_ne (s : Key) : splitDots s ≠ [] := by
  cases s with
  | nil => simp [splitDots]
  | cons c cs =>
    unfold splitDots
    by_cases h : c = '.'
    · rw [if_pos h]; simp
    · rw [if_neg h]; split <;> simp

theorem splitDots_word {w : List Char} (hw : '.' ∉ w) : splitDots w = [w] := by
  induction w with
  | nil => rfl
  | cons c cs ih =>
    simp only [List.mem_cons, not_or] at hw
    unfold splitDots
    rw [if_neg (fun e => hw.1 e.symm), ih hw.2]

theorem splitDots_cons {w t : List Char} (hw : '.' ∉ w) : splitDots (w ++ '.' :: t) = w :: splitDots t := by
  induction w with
  | nil => rw [List.nil_append, splitDots, if_pos rfl]
  | cons c cs ih =>
    simp only [List.mem_cons, not_or] at hw
    rw [List.cons_append, splitDots, if_neg (fun e => hw.1 e.symm), ih hw.2]

/-- Splitting undoes joining, for names without dots. -/
theorem split_join : ∀ (p : List String), p ≠ [] → (∀ n ∈ p, '.' ∉ n.toList) → (splitDots (joinDots p)).map String.ofList = p
  | [], h, _ => absurd rfl h
  | [n], _, hd => by
    rw [joinDots, splitDots_word (hd n (by simp))]
    simp
  | n :: m :: ns, _, hd => by
    have ih := split_join (m :: ns) (by simp) fun k hk => hd k (List.mem_cons_of_mem _ hk)
    rw [joinDots, splitDots_cons (hd n (by simp)), List.map_cons, ih]
    · simp
    · simp

theorem leaves_path : ∀ (c : Cls), c.NoDots → ∀ l ∈ c.leaves, l.1 ≠ [] ∧ ∀ n ∈ l.1, '.' ∉ n.toList
  | .nil, _, l, h => by cases h
  | .leaf n d rest, hd, l, h => by
    rcases List.mem_cons.1 h with rfl | h
    · exact ⟨by simp, by simpa using hd.1⟩
    · exact leaves_path rest hd.2 l h
  | .nested n ish i v sub rest, hd, l, h => by
    rcases List.mem_append.1 h with h | h
    · obtain ⟨l', hl', rfl⟩ := List.mem_map.1 h
      obtain ⟨_, h2⟩ := leaves_path sub hd.2.1 l' hl'
      refine ⟨by simp, fun m hm => ?_⟩
      rcases List.mem_cons.1 hm with rfl | hm
      · exact hd.1
      · exact h2 m hm
    · exact leaves_path rest hd.2.2 l h

theorem leaves_head : ∀ (c : Cls), ∀ l ∈ c.leaves, ∃ n ps, l.1 = n :: ps ∧ n ∈ c.names
  | .nil, l, h => by cases h
  | .leaf n d rest, l, h => by
    rcases List.mem_cons.1 h with rfl | h
    · exact ⟨n, [], rfl, by simp [Cls.names]⟩
    · obtain ⟨m, ps, h1, h2⟩ := leaves_head rest l h
      exact ⟨m, ps, h1, by simp [Cls.names, h2]⟩
  | .nested n ish i v sub rest, l, h => by
    rcases List.mem_append.1 h with h | h
    · obtain ⟨l', hl', rfl⟩ := List.mem_map.1 h
      exact ⟨n, l'.1, rfl, by simp [Cls.names]⟩
    · obtain ⟨m, ps, h1, h2⟩ := leaves_head rest l h
      exact ⟨m, ps, h1, by simp [Cls.names, h2]⟩

/-- No two leaves have the same path. -/
theorem leaves_nodup : ∀ (c : Cls), c.NamesOk → (c.leaves.map Prod.fst).Nodup
  | .nil, _ => List.nodup_nil
  | .leaf n d rest, hn => by
    simp only [Cls.leaves, List.map_cons, List.nodup_cons]
    refine ⟨fun h => ?_, leaves_nodup rest hn.2⟩
    obtain ⟨l, hl, e⟩ := List.mem_map.1 h
    obtain ⟨m, ps, h1, h2⟩ := leaves_head rest l hl
    rw [e] at h1
    exact hn.1 ((List.cons.inj h1).1 ▸ h2)
  | .nested n ish i v sub rest, hn => by
    simp only [Cls.leaves, List.map_append, List.map_map]
    rw [List.nodup_append]
    refine ⟨?_, leaves_nodup rest hn.2.2, ?_⟩
    · have := leaves_nodup sub hn.2.1
      have h2 : (sub.leaves.map (Prod.fst ∘ fun l => (n :: l.1, l.2))) = (sub.leaves.map Prod.fst).map (n :: ·) := by
        rw [List.map_map]; rfl
      rw [h2]
      exact List.Pairwise.map _ (fun a b h e => h (List.cons.inj e).2) this
    · intro a ha b hb e
      obtain ⟨l, hl, rfl⟩ := List.mem_map.1 ha
      obtain ⟨l', hl', rfl⟩ := List.mem_map.1 hb
      obtain ⟨m, ps, h1, h2⟩ := leaves_head rest l' hl'
      simp only [Function.comp] at e
      rw [h1] at e
      exact hn.1 ((List.cons.inj e).1 ▸ h2)

theorem find_nodup {α β : Type} [BEq β] [LawfulBEq β] (g : α → β) : ∀ (l : List α), (l.map g).Nodup → ∀ s ∈ l, l.find? (fun t => g t == g s) = some s
  | [], _, s, h => by cases h
  | a :: l, hn, s, h => by
    rw [List.find?_cons]
    rcases List.mem_cons.1 h with rfl | h
    · simp
    · simp only [List.map_cons, List.nodup_cons] at hn
      have : (g a == g s) = false := by
        rw [beq_eq_false_iff_ne]
        intro e
        exact hn.1 (e ▸ List.mem_map_of_mem h)
      rw [this]
      exact find_nodup g l hn.2 s h

theorem specWalk_paths (c : Cls) : (specWalk c [] 0).1.map Spec.path = c.leaves.map Prod.fst := by
  have := congrArg (List.map Prod.fst) (specWalk_leaves c [] 0)
  simp only [List.map_map] at this
  exact this

theorem resolve_name {c : Cls} (hd : c.NoDots) {l : List String × FD} (hl : l ∈ c.leaves) {name : FieldName}
    (hname : name = .str (joinDots l.1) ∨ name = .path l.1) :
    name.toPath = l.1 := by
  obtain ⟨h1, h2⟩ := leaves_path c hd l hl
  rcases hname with rfl | rfl
  · exact split_join l.1 h1 h2
  · rfl

/-- The spec of a leaf. -/
theorem spec_of_leaf {c : Cls} {l : List String × FD} (hl : l ∈ c.leaves) :
    ∃ s ∈ (specWalk c [] 0).1, s.path = l.1 ∧ s.bits = l.2.bits.getD 0 ∧ s.unpackedShape = l.2.ish ∧ s.nvalues = Bitpack.size l.2.ish ∧
      s.unpackDtype = unpackDtype (l.2.bits.getD 0) ∧ s.declaredDtype = l.2.dtype := by
  obtain ⟨j, hj⟩ := List.mem_iff_getElem?.1 hl
  have := congrArg (fun t : List (List String × Nat × List Nat × Nat × Nat × DType × DType) => t[j]?) (specWalk_leaves c [] 0)
  simp only [List.getElem?_map, hj, Option.map_some] at this
  obtain ⟨s, hs, e⟩ := Option.map_eq_some_iff.1 this
  simp only [Prod.mk.injEq, List.nil_append] at e
  obtain ⟨e1, e2, e3, e4, _, e6, e7⟩ := e
  exact ⟨s, List.mem_of_getElem? hs, e1, e2, e3, e4, e6, e7⟩

/-- `unpack_field` on the name of a leaf, in terms of the rows decoded. -/
theorem unpackFieldNamed_leaf {c : Cls} (hm : c.MadeAll) (hn : c.NamesOk) (hp : c.Packable) (hd : c.NoDots) {l : List String × FD} (hl : l ∈ c.leaves)
    {name : FieldName} (hname : name = .str (joinDots l.1) ∨ name = .path l.1) (batch : List Nat) (p : List Agg.PackedRow) (idx : Agg.Indices) :
    ∃ rows, Agg.unpackField (aggCls c) p l.1 idx = some rows ∧
      (unpackFieldNamed c batch p name idx .default =
        .ok (some ⟨unpackDtype (l.2.bits.getD 0), batch ++ (match idx with
          | .all => l.2.ish
          | idx => [(Agg.normalize (Bitpack.size l.2.ish) idx).length]), rows.flatten.map Int.ofNat⟩)) ∧
      unpackFieldNamed c batch p name idx .declared =
        .ok ((rows.flatten.mapM (Io.cast l.2.dtype)).map fun v => ⟨l.2.dtype, batch ++ (match idx with
          | .all => l.2.ish
          | idx => [(Agg.normalize (Bitpack.size l.2.ish) idx).length]), v⟩) := by
  obtain ⟨s, hs, e1, e2, e3, e4, e6, e7⟩ := spec_of_leaf hl
  have hw := packable_wf hm hp hn
  have hfind : (specWalk c [] 0).1.find? (fun t => t.path == l.1) = some s := by
    rw [← e1]
    exact find_nodup Spec.path _ (by rw [specWalk_paths]; exact leaves_nodup c hn) s hs
  have hleaf : s.toLeaf ∈ Agg.specs (aggCls c) := by
    rw [Agg.specs, ← (specWalk_agg c [] 0).1]; exact List.mem_map_of_mem hs
  have hfl : (Agg.specs (aggCls c)).find? (fun t => t.path == l.1) = some s.toLeaf := by
    rw [← e1]
    exact Agg.find_unique (Agg.walk_unique (aggCls c) [] 0 hw) hleaf
  refine ⟨p.map fun r => Agg.decodeField (Agg.joinRow (Agg.layout (specWalk c [] 0).2).2.1 (Agg.layout (specWalk c [] 0).2).2.2 r) s.toLeaf
    (Agg.normalize s.nvalues idx), ?_, ?_, ?_⟩
  · unfold Agg.unpackField
    rw [(specWalk_agg c [] 0).2]
    simp only
    rw [hfl]
    rfl
  · unfold unpackFieldNamed
    simp only
    rw [resolve_name hd hl hname, hfind]
    simp only
    rw [e3, e6, e4]
    cases idx <;> rfl
  · unfold unpackFieldNamed
    simp only
    rw [resolve_name hd hl hname, hfind]
    simp only
    rw [e3, e7, e4]
    cases idx <;> rfl

theorem flatten_rows {n flatN : Nat} {d : List Nat} (hd : d.length = flatN * n) :
    ((List.range flatN).map fun r => (List.range n).map fun i => d.getD (r * n + i) 0).flatten = d := by
  conv => rhs; rw [← Agg.range_rows hd]
  rw [List.flatMap_def]
  congr 1
  apply List.map_congr_left
  intro r hr
  have hr := List.mem_range.1 hr
  apply List.ext_getElem?
  intro i
  have hl := Agg.row_length hd hr
  by_cases hi : i < n
  · rw [List.getElem?_map, List.getElem?_range hi, Option.map_some, ← Bitpack.row_getD n d r i 0 hi]
    show some ((Agg.row n r d).getD i 0) = _
    rw [List.getD_eq_getElem?_getD, List.getElem?_eq_getElem (by omega)]
    rfl
  · rw [List.getElem?_eq_none (by simp; omega), List.getElem?_eq_none (by omega)]

/-- The leaf of `unpack(dtype_policy="declared")` is the leaf of `.unpacked`, converted. -/
theorem toDeclared_get {flatN : Nat} : ∀ (c : Cls) (u : Agg.Inst (List Nat)) (o : Agg.Inst (List Int)), c.NamesOk → Agg.Conforms flatN (aggCls c) u →
    toDeclared c u = some o → ∀ l ∈ c.leaves, ∀ d, u.get l.1 = some d → ∃ w, o.get l.1 = some w ∧ d.mapM (Io.cast l.2.dtype) = some w
  | .nil, _, _, _, _, _, l, hl => by cases hl
  | .leaf n fd rest, .leaf n' v r, o, hn, hc, h, l, hl => by
    obtain ⟨rfl, _, hc⟩ := hc
    simp only [toDeclared] at h
    obtain ⟨v', hv, h⟩ := Option.bind_eq_some_iff.1 h
    obtain ⟨r', hr, rfl⟩ := Option.map_eq_some_iff.1 h
    intro d hd
    rcases List.mem_cons.1 hl with rfl | hl
    · simp only [Agg.Inst.get, if_true, Option.some.injEq] at hd ⊢
      subst hd
      exact ⟨v', rfl, hv⟩
    · obtain ⟨m, ps, h1, h2⟩ := leaves_head rest l hl
      have hne : l.1 ≠ [n'] := by
        intro e
        rw [h1] at e
        exact hn.1 ((List.cons.inj e).1 ▸ h2)
      simp only [Agg.Inst.get, if_neg hne] at hd ⊢
      exact toDeclared_get rest r r' hn.2 hc hr l hl d hd
  | .nested n ish i v sub rest, .nested n' y r, o, hn, hc, h, l, hl => by
    obtain ⟨rfl, hcs, hc⟩ := hc
    simp only [toDeclared] at h
    obtain ⟨y', hy, h⟩ := Option.bind_eq_some_iff.1 h
    obtain ⟨r', hr, rfl⟩ := Option.map_eq_some_iff.1 h
    intro d hd
    rcases List.mem_append.1 hl with hl | hl
    · obtain ⟨l', hl', rfl⟩ := List.mem_map.1 hl
      simp only [Agg.Inst.get, if_true] at hd ⊢
      exact toDeclared_get sub y y' hn.2.1 hcs hy l' hl' d hd
    · obtain ⟨m, ps, h1, h2⟩ := leaves_head rest l hl
      have hne : m ≠ n' := fun e => hn.1 (e ▸ h2)
      have ih := toDeclared_get rest r r' hn.2.2 hc hr l hl d
      rw [h1] at hd ih ⊢
      simp only [Agg.Inst.get, if_neg hne] at hd ⊢
      exact ih hd
  | .leaf _ _ _, .nil, _, _, hc, _, _, _ => hc.elim
  | .leaf _ _ _, .nested _ _ _, _, _, hc, _, _, _ => hc.elim
  | .nested _ _ _ _ _ _, .nil, _, _, hc, _, _, _ => hc.elim
  | .nested _ _ _ _ _ _, .leaf _ _ _, _, _, hc, _, _, _ => hc.elim

/-- **C86, `unpack_field`.**  For every leaf, given by its path or by the string the schema shows: without indices the result is the leaf of
`.unpacked`, with its dtype and shape; with `dtype_policy="declared"` it is the leaf of `as_original()`. -/
theorem unpack_field_named {kernel : List Nat → Bitpack.Tables → List Nat} (hk : Agg.IsPackKernel kernel) {c : Cls} (hm : c.MadeAll)
    (hn : c.NamesOk) (hp : c.Packable) (hd : c.NoDots) (hsz : (aggCls c).bitCount ≤ 2 ^ 32) {flatN : Nat} {x : Agg.Inst (List Int)}
    (hc : Agg.Conforms flatN (aggCls c) x) {p : List Agg.PackedRow} (hpk : Agg.packed kernel (aggCls c) flatN x = some p) (batch : List Nat)
    {l : List String × FD} (hl : l ∈ c.leaves) {name : FieldName} (hname : name = .str (joinDots l.1) ∨ name = .path l.1) :
    ∃ u d, Agg.unpacked (aggCls c) p = some u ∧ u.get l.1 = some d ∧
      unpackFieldNamed c batch p name .all .default = .ok (some ⟨unpackDtype (l.2.bits.getD 0), batch ++ l.2.ish, d.map Int.ofNat⟩) ∧
      ∀ o, asOriginal c p = some o → ∃ w, o.get l.1 = some w ∧
        unpackFieldNamed c batch p name .all .declared = .ok (some ⟨l.2.dtype, batch ++ l.2.ish, w⟩) := by
  have hw := packable_wf hm hp hn
  obtain ⟨s, hs, e1, e2, e3, e4, e6, e7⟩ := spec_of_leaf hl
  have hleaf : s.toLeaf ∈ Agg.specs (aggCls c) := by
    rw [Agg.specs, ← (specWalk_agg c [] 0).1]; exact List.mem_map_of_mem hs
  obtain ⟨u, d, hu, hg, hlen, hall⟩ := Agg.unpack_field_all hk hw hsz hc hpk hleaf
  obtain ⟨rows, hr1, hr2, hr3⟩ := unpackFieldNamed_leaf hm hn hp hd hl hname batch p .all
  simp only [Spec.toLeaf] at hg hlen hall
  rw [e1] at hg hall
  rw [hr1] at hall
  have hrows : rows.flatten = d := by
    rw [Option.some.inj hall]
    exact flatten_rows hlen
  rw [hrows] at hr2 hr3
  refine ⟨u, d, hu, hg, hr2, fun o ho => ?_⟩
  have hcu : Agg.Conforms flatN (aggCls c) u := by
    obtain ⟨p', hp', hu'⟩ := Agg.aggregate_roundtrip hk hw hsz hc
    rw [hpk] at hp'
    cases hp'
    rw [hu] at hu'
    rw [Option.some.inj hu']
    exact Agg.reduced_conf _ _ hc
  unfold asOriginal at ho
  rw [hu, Option.bind_some] at ho
  obtain ⟨w, hw1, hw2⟩ := toDeclared_get c u o hn hcu ho l hl d hg
  exact ⟨w, hw1, by rw [hr3, hw2]; rfl⟩

/-- **C86, errors.**  A string that is not in the schema raises `KeyError`, whatever the class and instance; a policy other than the two raises
`ValueError`; nothing else raises. -/
theorem unpack_field_errors {c : Cls} (hd : c.NoDots) (batch : List Nat) (p : List Agg.PackedRow) (str : Key) (idx : Agg.Indices) (policy : Policy)
    (e : FieldErr) :
    unpackFieldNamed c batch p (.str str) idx policy = .error e ↔
      (policy = .other ∧ e = .value) ∨ (policy ≠ .other ∧ (∀ f ∈ (schema c).fields, f.path ≠ str) ∧ e = .key) := by
  have hjoin : ∀ s : Key, joinDots ((splitDots s).map String.ofList) = s := by
    intro s
    induction s with
    | nil => rfl
    | cons a t ih =>
      unfold splitDots
      by_cases ha : a = '.'
      · rw [if_pos ha]
        rcases h : splitDots t with _ | ⟨w, ws⟩
        · exact absurd h (splitDots_ne t)
        · rw [h] at ih
          simp only [List.map_cons] at ih ⊢
          rw [joinDots, ih, ha]
          · rfl
          · simp
      · rw [if_neg ha]
        rcases h : splitDots t with _ | ⟨w, ws⟩
        · exact absurd h (splitDots_ne t)
        · rw [h] at ih
          simp only [List.map_cons] at ih ⊢
          rcases ws with _ | ⟨w2, ws⟩
          · simp only [List.map_nil, joinDots, String.toList_ofList] at ih ⊢
            rw [ih]
          · simp only [List.map_cons] at ih ⊢
            rw [joinDots] at ih ⊢
            · simp only [String.toList_ofList] at ih ⊢
              rw [← ih]
              rfl
            · simp
            · simp
  have hkey : (specWalk c [] 0).1.find? (fun s => s.path == FieldName.toPath (.str str)) = none ↔ ∀ f ∈ (schema c).fields, f.path ≠ str := by
    rw [List.find?_eq_none]
    simp only [schema, List.mem_map, forall_exists_index, and_imp, FieldName.toPath]
    constructor
    · rintro h f s hs rfl hp
      simp only at hp
      refine h s hs (beq_iff_eq.2 ?_)
      have hl : s.path ∈ c.leaves.map Prod.fst := by rw [← specWalk_paths]; exact List.mem_map_of_mem hs
      obtain ⟨l, hl, he⟩ := List.mem_map.1 hl
      obtain ⟨h1, h2⟩ := leaves_path c hd l hl
      rw [← hp, ← he, split_join l.1 h1 h2]
    · intro h s hs hp
      refine h _ s hs rfl ?_
      simp only
      rw [beq_iff_eq.1 hp, hjoin]
  cases policy with
  | other => simp [unpackFieldNamed]; exact eq_comm
  | default =>
    unfold unpackFieldNamed
    simp only
    cases hf : (specWalk c [] 0).1.find? (fun s => s.path == FieldName.toPath (.str str)) with
    | none =>
      refine ⟨fun h => Or.inr ⟨(by simp), hkey.1 hf, (Except.error.inj h).symm⟩, fun h => ?_⟩
      rcases h with ⟨h, _⟩ | ⟨_, _, rfl⟩
      · cases h
      · rfl
    | some s =>
      refine ⟨fun h => (by cases h), fun h => ?_⟩
      rcases h with ⟨h, _⟩ | ⟨_, h, _⟩
      · cases h
      · rw [hkey.2 h] at hf; cases hf
  | declared =>
    unfold unpackFieldNamed
    simp only
    cases hf : (specWalk c [] 0).1.find? (fun s => s.path == FieldName.toPath (.str str)) with
    | none =>
      refine ⟨fun h => Or.inr ⟨(by simp), hkey.1 hf, (Except.error.inj h).symm⟩, fun h => ?_⟩
      rcases h with ⟨h, _⟩ | ⟨_, _, rfl⟩
      · cases h
      · rfl
    | some s =>
      refine ⟨fun h => (by cases h), fun h => ?_⟩
      rcases h with ⟨h, _⟩ | ⟨_, h, _⟩
      · cases h
      · rw [hkey.2 h] at hf; cases hf

/-- Non-vacuity: `declCls` (an `int8` vector of 8 bits, and a 3-bit field of a nested class), two records. -/
example : declCls.NoDots ∧ (aggCls declCls).bitCount = 19 := ⟨⟨by decide +kernel, by decide +kernel, ⟨by decide +kernel, trivial⟩, trivial⟩, by decide +kernel⟩
example : schema declCls = ⟨19, 3, 4, 1, 1, 0, [⟨['a'], 8, 0, 16, 2, [2], .uint 8, .int 8⟩, ⟨['i', 'n', '.', 'x'], 3, 16, 3, 1, [], .uint 8, .uint 8⟩]⟩ := by
  decide +kernel
example : (Agg.packed Bitpack.packXla (aggCls declCls) 2 declInst).map (fun p => unpackFieldNamed declCls [2] p (.str ['i', 'n', '.', 'x']) .all .declared) =
    some (.ok (some ⟨.uint 8, [2], [7, 0]⟩)) := by rfl
example : splitDots ['i', 'n', '.', 'x'] = [['i', 'n'], ['x']] := by decide +kernel

end Desc
