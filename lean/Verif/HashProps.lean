import Verif.HashModel
import Mathlib.Logic.Function.Defs

/-!
# C30, C31, C32: hashing and the word view
-/

namespace HashModel

/-! ## C31: the avalanche mix is a bijection -/

/-- Explicit inverse of `avalanche32`. -/
def unavalanche32 (h : W) : W :=
  let h := h ^^^ (h >>> 16)
  let h := h * 0xA89ED915#32
  let h := h ^^^ (h >>> 13) ^^^ (h >>> 26)
  let h := h * 0xB6C92F47#32
  h ^^^ (h >>> 16)

theorem xorshift16 (h : W) : (h ^^^ (h >>> 16)) ^^^ ((h ^^^ (h >>> 16)) >>> 16) = h := by
  rw [BitVec.ushiftRight_xor_distrib, ← BitVec.shiftRight_add]
  have : h >>> (16 + 16) = 0#32 := BitVec.ushiftRight_eq_zero (by decide)
  rw [this]
  simp [BitVec.xor_assoc]

theorem xorshift13_left (h : W) :
    let g := h ^^^ (h >>> 13)
    g ^^^ (g >>> 13) ^^^ (g >>> 26) = h := by
  simp only [BitVec.ushiftRight_xor_distrib, ← BitVec.shiftRight_add]
  have : h >>> (13 + 26) = 0#32 := BitVec.ushiftRight_eq_zero (by decide)
  rw [this]
  generalize h >>> 13 = a
  simp only [Nat.reduceAdd]
  generalize h >>> 26 = b
  apply BitVec.eq_of_getElem_eq
  intro i hi
  simp only [BitVec.getElem_xor, BitVec.getElem_zero]
  cases h[i] <;> cases a[i] <;> cases b[i] <;> rfl

theorem unavalanche_avalanche (h : W) : unavalanche32 (avalanche32 h) = h := by
  unfold unavalanche32 avalanche32
  have e1 : (0xC2B2AE3D#32 * 0xA89ED915#32 : W) = 1#32 := by decide
  have e2 : (0x85EBCA77#32 * 0xB6C92F47#32 : W) = 1#32 := by decide
  simp only [xorshift16, BitVec.mul_assoc, e1, BitVec.mul_one, xorshift13_left, e2]

theorem xorshift13_right (h : W) :
    let g := h ^^^ (h >>> 13) ^^^ (h >>> 26)
    g ^^^ (g >>> 13) = h := by
  simp only [BitVec.ushiftRight_xor_distrib, ← BitVec.shiftRight_add]
  have : h >>> (26 + 13) = 0#32 := BitVec.ushiftRight_eq_zero (by decide)
  rw [this]
  generalize h >>> 13 = a
  simp only [Nat.reduceAdd]
  generalize h >>> 26 = b
  apply BitVec.eq_of_getElem_eq
  intro i hi
  simp only [BitVec.getElem_xor, BitVec.getElem_zero]
  cases h[i] <;> cases a[i] <;> cases b[i] <;> rfl

theorem avalanche_unavalanche (h : W) : avalanche32 (unavalanche32 h) = h := by
  unfold unavalanche32 avalanche32
  have e1 : (0xA89ED915#32 * 0xC2B2AE3D#32 : W) = 1#32 := by decide
  have e2 : (0xB6C92F47#32 * 0x85EBCA77#32 : W) = 1#32 := by decide
  simp only [xorshift16, BitVec.mul_assoc, e1, BitVec.mul_one, xorshift13_right, e2]

/-- **C31.**  The avalanche mix is a bijection of the 32-bit words: different words have different mixes, and every word is
the mix of some word. -/
theorem avalanche32_bijective : Function.Bijective avalanche32 :=
  ⟨fun a b h => by rw [← unavalanche_avalanche a, ← unavalanche_avalanche b, h],
   fun b => ⟨unavalanche32 b, avalanche_unavalanche b⟩⟩

theorem avalanche_inj {a b : W} (h : avalanche32 a = avalanche32 b) : a = b := avalanche32_bijective.1 h

theorem xorshift15 {a b : W} (h : a ^^^ (a >>> 15) = b ^^^ (b >>> 15)) : a = b := by
  have key : ∀ h : W, (h ^^^ (h >>> 15)) ^^^ ((h ^^^ (h >>> 15)) >>> 15) ^^^ ((h ^^^ (h >>> 15)) >>> 30) = h := by
    intro h
    simp only [BitVec.ushiftRight_xor_distrib, ← BitVec.shiftRight_add]
    have : h >>> (15 + 30) = 0#32 := BitVec.ushiftRight_eq_zero (by decide)
    rw [this]
    generalize h >>> 15 = a
    simp only [Nat.reduceAdd]
    generalize h >>> 30 = b
    apply BitVec.eq_of_getElem_eq
    intro i hi
    simp only [BitVec.getElem_xor, BitVec.getElem_zero]
    cases h[i] <;> cases a[i] <;> cases b[i] <;> rfl
  rw [← key a, ← key b, h]

theorem xor_right_inj {a b c : W} (h : a ^^^ c = b ^^^ c) : a = b := by
  have := congrArg (· ^^^ c) h
  simpa [BitVec.xor_assoc] using this

/-- C31 (fingerprints): for a fixed second hash the fingerprint is an injective function of the first hash. -/
theorem fingerprint_injective (p q s n : W) (h : mixFingerprint p s n = mixFingerprint q s n) : p = q := by
  unfold mixFingerprint at h
  have h1 := xorshift15 h
  have h2 := congrArg (· * 0x1D69E2A5#32) h1
  have e : (0x7FEB352D#32 * 0x1D69E2A5#32 : W) = 1#32 := by decide
  simp only [BitVec.mul_assoc, e, BitVec.mul_one] at h2
  have h3 : ∀ a b : W, a ^^^ (a >>> 16) = b ^^^ (b >>> 16) → a = b := fun a b hab => by
    rw [← xorshift16 a, ← xorshift16 b, hab]
  have h4 := h3 _ _ h2
  have h5 : p ^^^ 0x9E3779B9#32 = q ^^^ 0x9E3779B9#32 := by
    rw [BitVec.add_assoc, BitVec.add_assoc] at h4
    exact (BitVec.add_left_inj _).1 h4
  exact xor_right_inj h5

/-! ## C30: all hashing entry points agree -/

theorem xorReduce_foldl (l : List W) (a : W) : l.foldl (· ^^^ ·) a = a ^^^ xorReduce l := by
  unfold xorReduce
  induction l generalizing a with
  | nil => simp
  | cons x l ih => rw [List.foldl_cons, List.foldl_cons, ih, ih (0 ^^^ x)]; simp [BitVec.xor_assoc]

theorem xorReduce_append (a b : List W) : xorReduce (a ++ b) = xorReduce a ^^^ xorReduce b := by
  rw [xorReduce, List.foldl_append, xorReduce_foldl]; rfl

theorem lanes_append (seed : W) (off : Nat) (a b : List W) :
    lanes seed off (a ++ b) = lanes seed off a ++ lanes seed (off + a.length) b := by
  unfold lanes; rw [List.zipIdx_append, List.map_append]

theorem lanes1_append (seed : W) (off : Nat) (a b : List W) :
    lanes1 seed off (a ++ b) = lanes1 seed off a ++ lanes1 seed (off + a.length) b := by
  unfold lanes1; rw [List.zipIdx_append, List.map_append]

theorem streamLoop_eq (seed : W) (leaves : List (List W)) (pre : List W) :
    leaves.foldl (streamLoop seed) (xorReduce (lanes seed 0 pre), pre.length) =
      (xorReduce (lanes seed 0 (pre ++ leaves.flatten)), (pre ++ leaves.flatten).length) := by
  induction leaves generalizing pre with
  | nil => simp
  | cons l ls ih =>
    have : streamLoop seed (xorReduce (lanes seed 0 pre), pre.length) l =
        (xorReduce (lanes seed 0 (pre ++ l)), (pre ++ l).length) := by
      unfold streamLoop
      split
      · have : l = [] := List.length_eq_zero_iff.1 ‹_›
        simp [this]
      · rw [lanes_append, xorReduce_append]; simp
    rw [List.foldl_cons, this, ih]; simp

theorem streamLoopPair_eq (seed : W) (leaves : List (List W)) (pre : List W) :
    leaves.foldl (streamLoopPair seed) (xorReduce (lanes seed 0 pre), xorReduce (lanes1 seed 0 pre), pre.length) =
      (xorReduce (lanes seed 0 (pre ++ leaves.flatten)), xorReduce (lanes1 seed 0 (pre ++ leaves.flatten)),
        (pre ++ leaves.flatten).length) := by
  induction leaves generalizing pre with
  | nil => simp
  | cons l ls ih =>
    have : streamLoopPair seed (xorReduce (lanes seed 0 pre), xorReduce (lanes1 seed 0 pre), pre.length) l =
        (xorReduce (lanes seed 0 (pre ++ l)), xorReduce (lanes1 seed 0 (pre ++ l)), (pre ++ l).length) := by
      unfold streamLoopPair
      split
      · have : l = [] := List.length_eq_zero_iff.1 ‹_›
        simp [this]
      · rw [lanes_append, xorReduce_append, lanes1_append, xorReduce_append]; simp
    rw [List.foldl_cons, this, ih]; simp

theorem flatten_leafWords (x : List Leaf) : (x.map leafWords).flatten = uint32ed x := by
  rw [uint32ed, List.flatMap_def]

/-- Streaming over the leaves, unless they hold no word at all, is hashing the concatenation. -/
theorem hashStreaming_eq (leaves : List (List W)) (seed : W) (h : leaves = [] ∨ leaves.flatten ≠ []) :
    hashStreaming leaves seed = hashFast leaves.flatten seed := by
  unfold hashStreaming hashFast
  rcases h with rfl | h
  · rfl
  · have h1 : leaves.length ≠ 0 := by rintro h0; rw [List.length_eq_zero_iff.1 h0] at h; exact h rfl
    have h2 : leaves.flatten.length ≠ 0 := fun h0 => h (List.length_eq_zero_iff.1 h0)
    have := streamLoop_eq seed leaves []
    rw [if_neg h1, if_neg h2]
    simp only [List.nil_append] at this
    rw [show ((0 : W), 0) = (xorReduce (lanes seed 0 []), ([] : List W).length) from rfl, this]

theorem hashPairStreaming_eq (leaves : List (List W)) (seed : W) (h : leaves = [] ∨ leaves.flatten ≠ []) :
    hashPairStreaming leaves seed = hashFastPair leaves.flatten seed := by
  unfold hashPairStreaming hashFastPair
  rcases h with rfl | h
  · rfl
  · have h1 : leaves.length ≠ 0 := by rintro h0; rw [List.length_eq_zero_iff.1 h0] at h; exact h rfl
    have h2 : leaves.flatten.length ≠ 0 := fun h0 => h (List.length_eq_zero_iff.1 h0)
    have := streamLoopPair_eq seed leaves []
    rw [if_neg h1, if_neg h2]
    simp only [List.nil_append] at this
    rw [show ((0 : W), (0 : W), 0) = (xorReduce (lanes seed 0 []), xorReduce (lanes1 seed 0 []), ([] : List W).length)
      from rfl, this]

/-- **C30 (first of the pair).**  In every streaming mode, `hash` is the first component of `hash_pair`, and the same holds
of the versions that also return the words — for every instance and seed. -/
theorem hash_eq_pair_first (m : Stream) (x : List Leaf) (seed : W) :
    hash m x seed = (hashPair m x seed).1 ∧
    (hashWithUint32ed x seed).1 = (hashPairWithUint32ed x seed).1.1 := by
  have hf : ∀ ws, hashFast ws seed = (hashFastPair ws seed).1 := by
    intro ws; unfold hashFast hashFastPair; split <;> rfl
  refine ⟨?_, hf _⟩
  unfold hash hashPair
  split
  · unfold hashStreaming hashPairStreaming
    split
    · rfl
    · simp only
      have : ∀ (ls : List (List W)) (a c : W) (n : Nat),
          (ls.foldl (streamLoop seed) (a, n)).1 = (ls.foldl (streamLoopPair seed) (a, c, n)).1 ∧
          (ls.foldl (streamLoop seed) (a, n)).2 = (ls.foldl (streamLoopPair seed) (a, c, n)).2.2 := by
        intro ls
        induction ls with
        | nil => intro a c n; exact ⟨rfl, rfl⟩
        | cons l ls ih =>
          intro a c n
          simp only [List.foldl_cons, streamLoop, streamLoopPair]
          split
          · exact ih a c n
          · exact ih _ _ _
      rw [(this _ 0 0 0).1, (this _ 0 0 0).2]
  · exact hf _

/-- **C30.**  Every hashing entry point gives the same hashes as hashing the concatenated words, in every streaming mode, for
every instance with at least one word of data (or no leaf at all) and every seed. -/
theorem hash_entry_points_agree_partial (m : Stream) (x : List Leaf) (seed : W) (h : x = [] ∨ uint32ed x ≠ []) :
    hash m x seed = hashFast (uint32ed x) seed ∧ hashPair m x seed = hashFastPair (uint32ed x) seed ∧
    hashWithUint32ed x seed = (hash m x seed, uint32ed x) ∧
    hashPairWithUint32ed x seed = (hashPair m x seed, uint32ed x) := by
  have h' : x.map leafWords = [] ∨ (x.map leafWords).flatten ≠ [] := by
    rw [flatten_leafWords]
    rcases h with rfl | h
    · exact Or.inl rfl
    · exact Or.inr h
  have e1 : hash m x seed = hashFast (uint32ed x) seed := by
    unfold hash
    split
    · rw [hashStreaming_eq _ _ h', flatten_leafWords]
    · rfl
  have e2 : hashPair m x seed = hashFastPair (uint32ed x) seed := by
    unfold hashPair
    split
    · rw [hashPairStreaming_eq _ _ h', flatten_leafWords]
    · rfl
  refine ⟨e1, e2, ?_, ?_⟩
  · rw [e1]; rfl
  · rw [e2]; rfl

/-- C30 is false for an instance whose leaves are all empty when streaming is forced on: the two paths disagree for every
seed.  With `hash_entry_points_agree_partial` this is an exact characterisation. -/
theorem hash_entry_points_disagree_empty (x : List Leaf) (seed : W) (h1 : x ≠ []) (h2 : uint32ed x = []) :
    hash .on x seed ≠ (hashWithUint32ed x seed).1 := by
  have hs : ∀ (ls : List (List W)), ls.flatten = [] → ls.foldl (streamLoop seed) (0, 0) = (0, 0) := by
    intro ls
    induction ls with
    | nil => intro _; rfl
    | cons l ls ih =>
      intro h
      simp only [List.flatten_cons, List.append_eq_nil_iff] at h
      rw [List.foldl_cons, h.1]
      exact ih h.2
  intro h
  have h3 : (x.map leafWords).length ≠ 0 := by simpa using h1
  simp only [hash, Stream.streams, if_true, hashStreaming, if_neg h3, hashWithUint32ed, h2, hashFast, List.length_nil] at h
  rw [hs _ (by rw [flatten_leafWords]; exact h2)] at h
  have := avalanche_inj h
  simp only [Nat.zero_shiftLeft] at this
  have h4 : (0 : W) = 0x9E3779B1#32 := by
    apply xor_right_inj (c := seed)
    rw [BitVec.xor_comm 0x9E3779B1#32 seed, ← this]; simp
  exact absurd h4 (by decide)

/-- Non-vacuity: a two-leaf instance with five words of data; and an instance with two empty leaves. -/
example : uint32ed [.w8 [1, 2, 3, 4, 5], .w32 [7], .w64 [0x100000002]] = [0x04030201, 5, 7, 2, 1] ∧
    uint32ed [.w8 [], .w32 []] = [] := by decide +kernel

/-! ### Words that differ in one place have different hashes -/

theorem lanes_cons (seed : W) (off : Nat) (w : W) (ws : List W) :
    lanes seed off (w :: ws) = avalanche32 (w ^^^ salt off ^^^ seed) :: lanes seed (off + 1) ws := rfl

theorem xorReduce_cons (w : W) (ws : List W) : xorReduce (w :: ws) = w ^^^ xorReduce ws := by
  rw [show w :: ws = [w] ++ ws from rfl, xorReduce_append]; simp [xorReduce]

/-- Changing exactly one word changes the hash, whatever the seed: in particular the hash of a one-word class is injective
(no two items collide). -/
theorem hash_detects_single_word (pre suf : List W) (w w' seed : W) (hne : w ≠ w') :
    hashFast (pre ++ w :: suf) seed ≠ hashFast (pre ++ w' :: suf) seed := by
  intro h
  unfold hashFast at h
  rw [if_neg (by simp), if_neg (by simp)] at h
  have h1 := avalanche_inj h
  simp only [List.length_append, List.length_cons] at h1
  have h2 := xor_right_inj (xor_right_inj h1)
  rw [lanes_append, lanes_append, xorReduce_append, xorReduce_append, lanes_cons, lanes_cons, xorReduce_cons,
    xorReduce_cons] at h2
  have h3 : ∀ a b c d : W, a ^^^ (b ^^^ d) = a ^^^ (c ^^^ d) → b = c := by
    intro a b c d h
    apply xor_right_inj (c := d)
    apply xor_right_inj (c := a)
    rw [BitVec.xor_comm _ a, BitVec.xor_comm _ a, h]
  have h4 := avalanche_inj (h3 _ _ _ _ h2)
  exact hne (xor_right_inj (xor_right_inj h4))

end HashModel
