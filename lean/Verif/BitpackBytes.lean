import Verif.BitpackLemmas


/-! # Byte streams, blocks, `to_uint8` / `from_uint8` at the bit level -/

namespace Bitpack

open SortGroup

/-! ## Generic list facts -/

theorem flatMap_const_getElem? {α : Type u} {β : Type v} {f : α → List β} {k : Nat} (hk : 0 < k) (l : List α)
    (h : ∀ x ∈ l, (f x).length = k) (j : Nat) :
    (l.flatMap f)[j]? = (l[j / k]?).bind fun x => (f x)[j % k]? := by
  induction l generalizing j with
  | nil => simp
  | cons a l ih =>
    have ha := h a (by simp)
    rw [List.flatMap_cons, List.getElem?_append]
    split
    · rename_i hj
      rw [ha] at hj
      rw [Nat.div_eq_of_lt hj, Nat.mod_eq_of_lt hj]; rfl
    · rename_i hj
      rw [ha] at hj ⊢
      rw [ih (fun x hx => h x (by simp [hx]))]
      have h1 : j / k = (j - k) / k + 1 := by
        rw [Nat.div_eq_sub_div hk (by omega)]
      have h2 : j % k = (j - k) % k := by
        rw [Nat.mod_eq_sub_mod (by omega)]
      rw [h1, h2, List.getElem?_cons_succ]

theorem flatMap_const_length {α : Type u} {β : Type v} {f : α → List β} {k : Nat} (l : List α)
    (h : ∀ x ∈ l, (f x).length = k) : (l.flatMap f).length = l.length * k := by
  induction l with
  | nil => simp
  | cons a l ih =>
    rw [List.flatMap_cons, List.length_append, h a (by simp), ih (fun x hx => h x (by simp [hx])), List.length_cons,
      Nat.add_mul]
    omega

theorem rows_length {α : Type u} (k : Nat) (l : List α) : (rows k l).length = l.length / k := by simp [rows]

theorem rows_getElem? {α : Type u} (k : Nat) (l : List α) (r : Nat) (hr : r < l.length / k) :
    (rows k l)[r]? = some ((l.drop (r * k)).take k) := by
  simp [rows, hr]

theorem mem_rows_length {α : Type u} {k : Nat} {l g : List α} (hg : g ∈ rows k l) : g.length = k := by
  obtain ⟨r, hr, rfl⟩ := List.mem_map.1 hg
  rw [List.mem_range] at hr
  rw [List.length_take, List.length_drop]
  have : (r + 1) * k ≤ l.length := Nat.le_trans (Nat.mul_le_mul_right k hr) (Nat.div_mul_le_self _ _)
  rw [Nat.add_mul] at this
  omega

theorem mem_of_mem_rows {α : Type u} {k : Nat} {l g : List α} (hg : g ∈ rows k l) {x : α} (hx : x ∈ g) : x ∈ l := by
  obtain ⟨r, hr, rfl⟩ := List.mem_map.1 hg
  exact List.mem_of_mem_drop (List.mem_of_mem_take hx)

theorem row_getD {α : Type u} (k : Nat) (l : List α) (r i : Nat) (d : α) (hi : i < k) :
    ((l.drop (r * k)).take k).getD i d = l.getD (r * k + i) d := by
  rw [List.getD_eq_getElem?_getD, List.getD_eq_getElem?_getD, List.getElem?_take, if_pos hi, List.getElem?_drop]

theorem div_lt_of_dvd {k j n : Nat} (hk : 0 < k) (h : n % k = 0) (hj : j < n) : j / k < n / k := by
  rw [Nat.div_lt_iff_lt_mul hk, Nat.div_mul_cancel (Nat.dvd_of_mod_eq_zero h)]
  exact hj

theorem rows_flatten {α : Type u} (k : Nat) (hk : 0 < k) (l : List α) (h : l.length % k = 0) : (rows k l).flatten = l := by
  apply List.ext_getElem?
  intro j
  have := flatMap_const_getElem? (f := fun x : List α => x) hk (rows k l) (fun x hx => mem_rows_length hx) j
  rw [List.flatMap_def, List.map_id'] at this
  rw [this]
  by_cases hj : j < l.length
  · rw [rows_getElem? k l _ (div_lt_of_dvd hk h hj), Option.bind_some, List.getElem?_take, if_pos (Nat.mod_lt _ hk),
      List.getElem?_drop, Nat.div_add_mod']
  · rw [List.getElem?_eq_none (by omega : l.length ≤ j), List.getElem?_eq_none]
    · rfl
    · rw [rows_length]; exact Nat.div_le_div_right (by omega)

/-- Reading a `flatMap` of constant-length blocks. -/
theorem flatMap_const_getD {α : Type u} {f : α → List Nat} {k : Nat} (hk : 0 < k) (l : List α)
    (h : ∀ x ∈ l, (f x).length = k) (j : Nat) :
    (l.flatMap f).getD j 0 = match l[j / k]? with
      | some x => (f x).getD (j % k) 0
      | none => 0 := by
  rw [List.getD_eq_getElem?_getD, flatMap_const_getElem? hk l h]
  cases l[j / k]? with
  | none => rfl
  | some x => rw [Option.bind_some, ← List.getD_eq_getElem?_getD]

theorem padTo_getD (k : Nat) (l : List Nat) (i : Nat) : (padTo 0 k l).getD i 0 = l.getD i 0 := by
  unfold padTo
  rw [List.getD_eq_getElem?_getD, List.getD_eq_getElem?_getD, List.getElem?_append]
  split
  · rfl
  · rename_i h
    rw [List.getElem?_eq_none (by omega : l.length ≤ i), List.getElem?_replicate]
    split <;> rfl

theorem padTo_getD_int (k : Nat) (l : List Int) (i : Nat) : (padTo 0 k l).getD i 0 = l.getD i 0 := by
  unfold padTo
  rw [List.getD_eq_getElem?_getD, List.getD_eq_getElem?_getD, List.getElem?_append]
  split
  · rfl
  · rename_i h
    rw [List.getElem?_eq_none (by omega : l.length ≤ i), List.getElem?_replicate]
    split <;> rfl

theorem padTo_length {α : Type u} (z : α) {k : Nat} (hk : 0 < k) (l : List α) :
    (padTo z k l).length = ceilDiv l.length k * k := by
  unfold padTo ceilDiv
  rw [List.length_append, List.length_replicate]
  have h1 := Nat.div_add_mod l.length k
  have h2 := Nat.mod_lt l.length hk
  by_cases h0 : l.length % k = 0
  · rw [h0, Nat.sub_zero, Nat.mod_self]
    have : (l.length + k - 1) / k = l.length / k := by
      rw [Nat.div_eq_of_lt_le]
      · rw [Nat.mul_comm]; omega
      · rw [Nat.add_mul, Nat.mul_comm]; omega
    rw [this, Nat.mul_comm]; omega
  · rw [Nat.mod_eq_of_lt (by omega : k - l.length % k < k)]
    have : (l.length + k - 1) / k = l.length / k + 1 := by
      rw [Nat.div_eq_of_lt_le]
      · rw [Nat.add_mul, Nat.mul_comm (l.length / k)]; omega
      · rw [Nat.add_mul, Nat.add_mul, Nat.mul_comm (l.length / k)]; omega
    rw [this, Nat.add_mul, Nat.mul_comm]; omega

theorem ceilDiv_mul_ge (n : Nat) {k : Nat} (hk : 0 < k) : n ≤ ceilDiv n k * k ∧ ceilDiv n k * k < n + k := by
  unfold ceilDiv
  have h1 := Nat.div_add_mod (n + k - 1) k
  have h2 := Nat.mod_lt (n + k - 1) hk
  rw [Nat.mul_comm]
  omega

/-! ## Block sizes -/

theorem block_facts {bits : Nat} (h1 : 1 ≤ bits) :
    blockVals bits * bits = Nat.lcm bits 8 ∧ blockBytes bits * 8 = Nat.lcm bits 8 ∧ 0 < blockVals bits ∧
    0 < blockBytes bits ∧ blockBytes bits ≤ 4 * blockWords bits ∧ blockVals bits * bits ≤ 32 * blockWords bits ∧
    blockVals bits ≤ 8 := by
  have hL : 0 < Nat.lcm bits 8 := Nat.lcm_pos h1 (by decide)
  have a1 : blockVals bits * bits = Nat.lcm bits 8 := Nat.div_mul_cancel (Nat.dvd_lcm_left bits 8)
  have a2 : blockBytes bits * 8 = Nat.lcm bits 8 := Nat.div_mul_cancel (Nat.dvd_lcm_right bits 8)
  have a3 : Nat.lcm bits 8 ≤ bits * 8 := Nat.le_of_dvd (by omega) (Nat.lcm_dvd_mul bits 8)
  have a4 : blockWords bits = (Nat.lcm bits 8 + 31) / 32 := rfl
  refine ⟨a1, a2, ?_, by omega, by omega, by omega, ?_⟩
  · rcases Nat.eq_zero_or_pos (blockVals bits) with h0 | h0
    · rw [h0] at a1; omega
    · exact h0
  · rw [← a1, Nat.mul_comm] at a3
    exact Nat.le_of_mul_le_mul_left a3 h1

theorem packedNumBytes_eq (n : Nat) {bits : Nat} (h1 : 1 ≤ bits) (h32 : bits ≤ 32) :
    packedNumBytes n bits = ceilDiv n (blockVals bits) * blockBytes bits := by
  unfold packedNumBytes ceilDiv blockVals blockBytes
  split
  · rename_i h0
    subst h0
    have := (block_facts h1).2.2.1
    unfold blockVals at this
    rw [Nat.div_eq_of_lt (by omega), Nat.zero_mul]
  · split
    · subst bits; show n = (n + 1 - 1) / 1 * 1; omega
    · split
      · subst bits; show _ = (n + 8 - 1) / 8 * 1; omega
      · split
        · rename_i h; rcases h with h | h <;> subst h
          · show (n + 4 - 1) / 4 = (n + 4 - 1) / 4 * 1; omega
          · show (n + 2 - 1) / 2 = (n + 2 - 1) / 2 * 1; omega
        · rfl

theorem packedNumBytes_bits (n : Nat) {bits : Nat} (h1 : 1 ≤ bits) (h32 : bits ≤ 32) :
    8 * packedNumBytes n bits = ceilDiv n (blockVals bits) * blockVals bits * bits := by
  rw [packedNumBytes_eq n h1 h32, Nat.mul_assoc _ _ bits, (block_facts h1).1, ← (block_facts h1).2.1, Nat.mul_comm 8,
    Nat.mul_assoc]

theorem packedNumBytes_ge (n : Nat) {bits : Nat} (h1 : 1 ≤ bits) (h32 : bits ≤ 32) : n * bits ≤ 8 * packedNumBytes n bits := by
  rw [packedNumBytes_bits n h1 h32]
  exact Nat.mul_le_mul_right _ (ceilDiv_mul_ge n (block_facts h1).2.2.1).1

/-! ## Bits of byte and word views -/

theorem byteBit_word (w q : Nat) (hq : q < 32) :
    (([w % 256, (w >>> 8) % 256, (w >>> 16) % 256, (w >>> 24) % 256] : List Nat).getD (q / 8) 0).testBit (q % 8) =
      w.testBit q := by
  have h : ∀ s, ((w >>> s) % 256).testBit (q % 8) = w.testBit (s + q % 8) := by
    intro s
    rw [show (256 : Nat) = 2 ^ 8 from rfl, Nat.testBit_mod_two_pow, Nat.testBit_shiftRight,
      decide_eq_true (show q % 8 < 8 by omega), Bool.true_and]
  have hc : q / 8 = 0 ∨ q / 8 = 1 ∨ q / 8 = 2 ∨ q / 8 = 3 := by omega
  rcases hc with hc | hc | hc | hc <;> rw [hc]
  · have := h 0
    rw [Nat.shiftRight_zero] at this
    show (w % 256).testBit _ = _
    rw [this]; congr 1; omega
  · show ((w >>> 8) % 256).testBit _ = _
    rw [h]; congr 1; omega
  · show ((w >>> 16) % 256).testBit _ = _
    rw [h]; congr 1; omega
  · show ((w >>> 24) % 256).testBit _ = _
    rw [h]; congr 1; omega

theorem bytesOfWords_length (ws : List Nat) : (bytesOfWords ws).length = 4 * ws.length := by
  unfold bytesOfWords
  rw [flatMap_const_length (k := 4) ws (fun x _ => rfl), Nat.mul_comm]

theorem bytesOfWords_lt (ws : List Nat) : ∀ b ∈ bytesOfWords ws, b < 256 := by
  intro b hb
  simp only [bytesOfWords, List.mem_flatMap, List.mem_cons, List.not_mem_nil, or_false] at hb
  obtain ⟨w, _, h⟩ := hb
  omega

theorem bytesOfWords_bit (ws : List Nat) (q : Nat) : byteBit (bytesOfWords ws) q = wordBit ws q := by
  unfold byteBit wordBit bytesOfWords
  rw [flatMap_const_getD (k := 4) (by decide) ws (fun x _ => rfl), List.getD_eq_getElem?_getD, Nat.div_div_eq_div_mul]
  show _ = (ws[q / 32]?.getD 0).testBit _
  cases ws[q / 32]? with
  | none => simp
  | some w =>
    simp only [Option.getD_some]
    have := byteBit_word w (q % 32) (by omega)
    rw [show q % 32 / 8 = q / 8 % 4 by omega, show q % 32 % 8 = q % 8 by omega] at this
    exact this

theorem quad_bit {a b c d : Nat} (ha : a < 256) (hb : b < 256) (hc : c < 256) (_ : d < 256) (q : Nat) (hq : q < 32) :
    (a ||| (b <<< 8) ||| (c <<< 16) ||| (d <<< 24)).testBit q = (([a, b, c, d] : List Nat).getD (q / 8) 0).testBit (q % 8) := by
  have hz : ∀ v k, v < 256 → 8 ≤ k → v.testBit k = false := fun v k hv hk => testBit_ge (n := 8) hv hk
  simp only [Nat.testBit_or, Nat.testBit_shiftLeft]
  have hcs : q / 8 = 0 ∨ q / 8 = 1 ∨ q / 8 = 2 ∨ q / 8 = 3 := by omega
  rcases hcs with h | h | h | h <;> rw [h]
  · rw [decide_eq_false (show ¬ q ≥ 8 by omega), decide_eq_false (show ¬ q ≥ 16 by omega),
      decide_eq_false (show ¬ q ≥ 24 by omega), show q % 8 = q by omega]
    simp
  · rw [hz a q ha (by omega), decide_eq_true (show q ≥ 8 by omega), decide_eq_false (show ¬ q ≥ 16 by omega),
      decide_eq_false (show ¬ q ≥ 24 by omega), show q % 8 = q - 8 by omega]
    simp
  · rw [hz a q ha (by omega), hz b (q - 8) hb (by omega), decide_eq_true (show q ≥ 16 by omega),
      decide_eq_false (show ¬ q ≥ 24 by omega), show q % 8 = q - 16 by omega]
    simp
  · rw [hz a q ha (by omega), hz b (q - 8) hb (by omega), hz c (q - 16) hc (by omega),
      decide_eq_true (show q ≥ 24 by omega), show q % 8 = q - 24 by omega]
    simp

theorem quad_lt {a b c d : Nat} (ha : a < 256) (hb : b < 256) (hc : c < 256) (hd : d < 256) :
    a ||| (b <<< 8) ||| (c <<< 16) ||| (d <<< 24) < 2 ^ 32 := by
  have h : ∀ v s, v < 256 → s ≤ 24 → v <<< s < 2 ^ 32 := by
    intro v s hv hs
    rw [Nat.shiftLeft_eq]
    calc v * 2 ^ s < 2 ^ 8 * 2 ^ s := Nat.mul_lt_mul_of_pos_right hv (Nat.two_pow_pos s)
      _ = 2 ^ (8 + s) := (Nat.pow_add 2 8 s).symm
      _ ≤ 2 ^ 32 := Nat.pow_le_pow_right (by decide) (by omega)
  exact Nat.or_lt_two_pow (Nat.or_lt_two_pow (Nat.or_lt_two_pow (by omega) (h b 8 hb (by decide)))
    (h c 16 hc (by decide))) (h d 24 hd (by decide))

theorem wordsOfQuads_spec : ∀ (l : List Nat), (∀ b ∈ l, b < 256) → l.length % 4 = 0 →
    (wordsOfQuads l).length * 4 = l.length ∧ (∀ w ∈ wordsOfQuads l, w < 2 ^ 32) ∧
    ∀ q, wordBit (wordsOfQuads l) q = byteBit l q
  | [], _, _ => ⟨rfl, by simp [wordsOfQuads], fun q => by simp [wordsOfQuads, wordBit, byteBit]⟩
  | [_], _, h => by simp at h
  | [_, _], _, h => by simp at h
  | [_, _, _], _, h => by simp at h
  | a :: b :: c :: d :: r, hlt, h => by
    have ha := hlt a (by simp)
    have hb := hlt b (by simp)
    have hc := hlt c (by simp)
    have hd := hlt d (by simp)
    obtain ⟨h1, h2, h3⟩ := wordsOfQuads_spec r (fun x hx => hlt x (by simp [hx]))
      (by simp only [List.length_cons] at h; omega)
    simp only [wordsOfQuads]
    refine ⟨by simp only [List.length_cons]; omega, ?_, ?_⟩
    · intro w hw
      rcases List.mem_cons.1 hw with rfl | hw
      · exact quad_lt ha hb hc hd
      · exact h2 w hw
    · intro q
      by_cases hq : q < 32
      · unfold wordBit byteBit
        rw [show q / 32 = 0 by omega, show q % 32 = q by omega, List.getD_cons_zero, quad_bit ha hb hc hd q hq]
        have hcs : q / 8 = 0 ∨ q / 8 = 1 ∨ q / 8 = 2 ∨ q / 8 = 3 := by omega
        rcases hcs with h | h | h | h <;> rw [h] <;> rfl
      · have := h3 (q - 32)
        unfold wordBit byteBit at this ⊢
        rw [show q / 32 = (q - 32) / 32 + 1 by omega, show q % 32 = (q - 32) % 32 by omega,
          show q / 8 = (q - 32) / 8 + 1 + 1 + 1 + 1 by omega, show q % 8 = (q - 32) % 8 by omega]
        simp only [List.getD_cons_succ]
        exact this

theorem wordsOfBytes_eq (bs : List Nat) : wordsOfBytes bs = wordsOfQuads (padTo 0 4 bs) := rfl

theorem wordsOfBytes_spec (bs : List Nat) (h : ∀ b ∈ bs, b < 256) :
    bs.length ≤ 4 * (wordsOfBytes bs).length ∧ (∀ w ∈ wordsOfBytes bs, w < 2 ^ 32) ∧
    ∀ q, wordBit (wordsOfBytes bs) q = byteBit bs q := by
  rw [wordsOfBytes_eq]
  have hl := padTo_length 0 (k := 4) (by decide) bs
  have hge := (ceilDiv_mul_ge bs.length (k := 4) (by decide)).1
  obtain ⟨h1, h2, h3⟩ := wordsOfQuads_spec (padTo 0 4 bs) (by
    intro b hb
    unfold padTo at hb
    rcases List.mem_append.1 hb with hb | hb
    · exact h b hb
    · rw [List.eq_of_mem_replicate hb]; decide) (by rw [hl]; omega)
  refine ⟨by omega, h2, fun q => ?_⟩
  rw [h3]
  unfold byteBit
  rw [padTo_getD]

/-! ## A uniform leaf -/

theorem packUniform_bit (vals : List Nat) {bits n len q : Nat} (p : List String) (h1 : 1 ≤ bits) (h32 : bits ≤ 32)
    (hq : q < 32 * len) (hn : q < n * bits) :
    wordBit (packXla vals (buildTables [⟨p, bits, n, 0⟩] len)) q = (vals.getD (q / bits) 0).testBit (q % bits) := by
  have hs : ∀ (v st bi : Nat), (slots [⟨p, bits, n, 0⟩])[v]? = some (st, bi) ↔ v < n ∧ st = v * bits ∧ bi = bits := by
    intro v st bi
    simp only [slots, List.flatMap_cons, List.flatMap_nil, List.append_nil, List.getElem?_map, Nat.zero_add]
    by_cases hv : v < n
    · simp [hv, eq_comm]
    · simp [hv]
  rw [Bool.eq_iff_iff, packXla_wordBit vals _ hq (by simpa using h32)]
  have hdm := Nat.div_add_mod q bits
  have hml := Nat.mod_lt q h1
  constructor
  · rintro ⟨v, st, bi, hv, h2, h3, h4⟩
    obtain ⟨_, rfl, rfl⟩ := (hs v st bi).1 hv
    have e1 : q / bi = v := by
      rw [Nat.div_eq_of_lt_le]
      · exact h2
      · rw [Nat.add_mul]; omega
    rw [e1] at hdm ⊢
    rw [show q % bi = q - v * bi by rw [Nat.mul_comm v]; omega]
    exact h4
  · intro h
    refine ⟨q / bits, q / bits * bits, bits, (hs _ _ _).2 ⟨?_, rfl, rfl⟩, ?_, ?_, ?_⟩
    · exact (Nat.div_lt_iff_lt_mul h1).2 hn
    · rw [Nat.mul_comm]; omega
    · rw [Nat.mul_comm]; omega
    · rw [show q - q / bits * bits = q % bits by rw [Nat.mul_comm]; omega]
      exact h

end Bitpack
