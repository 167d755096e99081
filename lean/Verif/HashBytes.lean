import Verif.HashWords

/-!
# C32: `bytes` and `uint32ed`

The words of every field are the little-endian view of its bytes, zero-padded to whole words, for every element type; so `bytes` determines the instance too.
-/

namespace HashModel

theorem word_of_halves (v w : BitVec 16) :
    (v.setWidth 8).setWidth 32 ||| ((v >>> 8).setWidth 8).setWidth 32 <<< 8 |||
      (w.setWidth 8).setWidth 32 <<< 16 ||| ((w >>> 8).setWidth 8).setWidth 32 <<< 24 = v.setWidth 32 ||| (w.setWidth 32 <<< 16) := by
  apply BitVec.eq_of_getLsbD_eq
  intro i hi
  have : i = 0 ∨ i = 1 ∨ i = 2 ∨ i = 3 ∨ i = 4 ∨ i = 5 ∨ i = 6 ∨ i = 7 ∨ i = 8 ∨ i = 9 ∨ i = 10 ∨ i = 11 ∨ i = 12 ∨
    i = 13 ∨ i = 14 ∨ i = 15 ∨ i = 16 ∨ i = 17 ∨ i = 18 ∨ i = 19 ∨ i = 20 ∨ i = 21 ∨ i = 22 ∨ i = 23 ∨ i = 24 ∨ i = 25 ∨
    i = 26 ∨ i = 27 ∨ i = 28 ∨ i = 29 ∨ i = 30 ∨ i = 31 := by omega
  rcases this with h | h | h | h | h | h | h | h | h | h | h | h | h | h | h | h | h | h | h | h | h | h | h | h | h | h | h |
    h | h | h | h | h <;> subst h <;> simp

theorem low_word (v : BitVec 64) :
    (v.setWidth 8).setWidth 32 ||| ((v >>> 8).setWidth 8).setWidth 32 <<< 8 |||
      ((v >>> 16).setWidth 8).setWidth 32 <<< 16 ||| ((v >>> 24).setWidth 8).setWidth 32 <<< 24 = (v &&& 0xFFFFFFFF#64).setWidth 32 := by
  apply BitVec.eq_of_getLsbD_eq
  intro i hi
  have : i = 0 ∨ i = 1 ∨ i = 2 ∨ i = 3 ∨ i = 4 ∨ i = 5 ∨ i = 6 ∨ i = 7 ∨ i = 8 ∨ i = 9 ∨ i = 10 ∨ i = 11 ∨ i = 12 ∨
    i = 13 ∨ i = 14 ∨ i = 15 ∨ i = 16 ∨ i = 17 ∨ i = 18 ∨ i = 19 ∨ i = 20 ∨ i = 21 ∨ i = 22 ∨ i = 23 ∨ i = 24 ∨ i = 25 ∨
    i = 26 ∨ i = 27 ∨ i = 28 ∨ i = 29 ∨ i = 30 ∨ i = 31 := by omega
  rcases this with h | h | h | h | h | h | h | h | h | h | h | h | h | h | h | h | h | h | h | h | h | h | h | h | h | h | h |
    h | h | h | h | h <;> subst h <;> simp

theorem high_word (v : BitVec 64) :
    ((v >>> 32).setWidth 8).setWidth 32 ||| ((v >>> 40).setWidth 8).setWidth 32 <<< 8 |||
      ((v >>> 48).setWidth 8).setWidth 32 <<< 16 ||| ((v >>> 56).setWidth 8).setWidth 32 <<< 24 = (v >>> 32).setWidth 32 := by
  apply BitVec.eq_of_getLsbD_eq
  intro i hi
  have : i = 0 ∨ i = 1 ∨ i = 2 ∨ i = 3 ∨ i = 4 ∨ i = 5 ∨ i = 6 ∨ i = 7 ∨ i = 8 ∨ i = 9 ∨ i = 10 ∨ i = 11 ∨ i = 12 ∨
    i = 13 ∨ i = 14 ∨ i = 15 ∨ i = 16 ∨ i = 17 ∨ i = 18 ∨ i = 19 ∨ i = 20 ∨ i = 21 ∨ i = 22 ∨ i = 23 ∨ i = 24 ∨ i = 25 ∨
    i = 26 ∨ i = 27 ∨ i = 28 ∨ i = 29 ∨ i = 30 ∨ i = 31 := by omega
  rcases this with h | h | h | h | h | h | h | h | h | h | h | h | h | h | h | h | h | h | h | h | h | h | h | h | h | h | h |
    h | h | h | h | h <;> subst h <;> simp

/-- Appending a whole word of bytes in front. -/
theorem wordsOfBytes_cons4 (a b c d : BitVec 8) (l : List (BitVec 8)) :
    wordsOfBytes (a :: b :: c :: d :: l) =
      (a.setWidth 32 ||| (b.setWidth 32 <<< 8) ||| (c.setWidth 32 <<< 16) ||| (d.setWidth 32 <<< 24)) :: wordsOfBytes l := by
  unfold wordsOfBytes
  simp only [List.length_cons, List.cons_append, quads8]
  rw [show (l.length + 1 + 1 + 1 + 1) % 4 = l.length % 4 by omega]

theorem packUint16_cons2 (v w : BitVec 16) (l : List (BitVec 16)) :
    packUint16 (v :: w :: l) = (v.setWidth 32 ||| (w.setWidth 32 <<< 16)) :: packUint16 l := by
  unfold packUint16
  simp only [List.length_cons, List.cons_append, pairs16]
  rw [show (l.length + 1 + 1) % 2 = l.length % 2 by omega]

theorem words_of_bytes16 : ∀ l : List (BitVec 16), wordsOfBytes (leafBytes (.w16 l)) = packUint16 l
  | [] => rfl
  | [v] => by
    show [_] = [_]
    have := word_of_halves v 0
    simpa using this
  | v :: w :: l => by
    have e : leafBytes (.w16 (v :: w :: l)) =
        v.setWidth 8 :: (v >>> 8).setWidth 8 :: w.setWidth 8 :: (w >>> 8).setWidth 8 :: leafBytes (.w16 l) := rfl
    rw [e, wordsOfBytes_cons4, packUint16_cons2, word_of_halves, words_of_bytes16 l]

/-- **C32 (bytes).**  The words of a field are the little-endian view of its bytes, padded with zero bytes to a whole word. -/
theorem words_of_bytes (a : Leaf) : leafWords a = wordsOfBytes (leafBytes a) := by
  cases a with
  | bool l => rfl
  | w8 l => rfl
  | w16 l => exact (words_of_bytes16 l).symm
  | w32 l =>
    induction l with
    | nil => rfl
    | cons v l ih =>
      have e : leafBytes (.w32 (v :: l)) =
          v.setWidth 8 :: (v >>> 8).setWidth 8 :: (v >>> 16).setWidth 8 :: (v >>> 24).setWidth 8 :: leafBytes (.w32 l) := rfl
      rw [e, wordsOfBytes_cons4, word_of_bytes32, ← ih]
      rfl
  | w64 l =>
    induction l with
    | nil => rfl
    | cons v l ih =>
      have e : leafBytes (.w64 (v :: l)) =
          (v >>> 0).setWidth 8 :: (v >>> 8).setWidth 8 :: (v >>> 16).setWidth 8 :: (v >>> 24).setWidth 8 ::
          (v >>> 32).setWidth 8 :: (v >>> 40).setWidth 8 :: (v >>> 48).setWidth 8 :: (v >>> 56).setWidth 8 :: leafBytes (.w64 l) := rfl
      rw [e, wordsOfBytes_cons4, wordsOfBytes_cons4, high_word, ← ih, BitVec.ushiftRight_zero, low_word]
      rfl

theorem leafBytes_length (a b : Leaf) (h : a.layout = b.layout) : (leafBytes a).length = (leafBytes b).length := by
  have flat : ∀ {n : Nat} (f : BitVec n → List (BitVec 8)) (k : Nat), (∀ v, (f v).length = k) → ∀ l : List (BitVec n), (l.flatMap f).length = k * l.length := by
    intro n f k hf l
    induction l with
    | nil => rfl
    | cons v l ih => rw [List.flatMap_cons, List.length_append, ih, hf, List.length_cons, Nat.mul_succ, Nat.add_comm]
  cases a <;> cases b <;> simp only [Leaf.layout, Prod.mk.injEq, reduceCtorEq, true_and, false_and] at h
  · simpa [leafBytes] using h
  · exact h
  · unfold leafBytes; rw [flat _ 2 (fun _ => rfl), flat _ 2 (fun _ => rfl), h]
  · unfold leafBytes; rw [flat _ 4 (fun _ => rfl), flat _ 4 (fun _ => rfl), h]
  · unfold leafBytes; rw [flat _ 8 (fun _ => by simp), flat _ 8 (fun _ => by simp), h]

/-- **C32 (bytes).**  Two instances of the same class with equal `bytes` have equal leaves, element by element. -/
theorem bytes_injective : ∀ (x y : List Leaf), x.map Leaf.layout = y.map Leaf.layout → bytes x = bytes y → x = y
  | [], [], _, _ => rfl
  | a :: x, b :: y, hl, h => by
    simp only [List.map_cons, List.cons.injEq] at hl
    simp only [bytes, List.flatMap_cons] at h
    obtain ⟨h1, h2⟩ := List.append_inj h (leafBytes_length a b hl.1)
    have hw : leafWords a = leafWords b := by rw [words_of_bytes, words_of_bytes, h1]
    rw [leafWords_inj a b hl.1 hw, bytes_injective x y hl.2 h2]
  | [], _ :: _, hl, _ => by simp at hl
  | _ :: _, [], hl, _ => by simp at hl

/-- Non-vacuity. -/
example : bytes [.bool [true, false], .w16 [0xBEEF, 1], .w64 [0x1122334455667788]] =
    [1, 0, 0xEF, 0xBE, 1, 0, 0x88, 0x77, 0x66, 0x55, 0x44, 0x33, 0x22, 0x11] := by decide +kernel

end HashModel
