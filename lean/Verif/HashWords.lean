import Verif.HashProps
import Verif.HTProps

/-!
# C32: the word view of an instance is injective; concrete hashers
-/

namespace HashModel

theorem quad_bytes (a b c d : BitVec 8) :
    let w : W := a.setWidth 32 ||| (b.setWidth 32 <<< 8) ||| (c.setWidth 32 <<< 16) ||| (d.setWidth 32 <<< 24)
    w.setWidth 8 = a ∧ (w >>> 8).setWidth 8 = b ∧ (w >>> 16).setWidth 8 = c ∧ (w >>> 24).setWidth 8 = d := by
  refine ⟨?_, ?_, ?_, ?_⟩ <;>
  · apply BitVec.eq_of_getLsbD_eq
    intro i hi
    rcases i with _ | _ | _ | _ | _ | _ | _ | _ | i
    all_goals first | omega | simp

theorem pair_halves (a b : BitVec 16) :
    let w : W := a.setWidth 32 ||| (b.setWidth 32 <<< 16)
    w.setWidth 16 = a ∧ (w >>> 16).setWidth 16 = b := by
  refine ⟨?_, ?_⟩ <;>
  · apply BitVec.eq_of_getLsbD_eq
    intro i hi
    rcases i with _ | _ | _ | _ | _ | _ | _ | _ | _ | _ | _ | _ | _ | _ | _ | _ | i
    all_goals first | omega | simp

theorem split64 (u v : BitVec 64) (h1 : (u &&& 0xFFFFFFFF#64).setWidth 32 = (v &&& 0xFFFFFFFF#64).setWidth 32)
    (h2 : (u >>> 32).setWidth 32 = (v >>> 32).setWidth 32) : u = v := by
  have e : ∀ x : BitVec 64, (x &&& 0xFFFFFFFF#64).setWidth 32 = x.setWidth 32 := by
    intro x
    apply BitVec.eq_of_toNat_eq
    simp only [BitVec.toNat_setWidth, BitVec.toNat_and]
    rw [show (4294967295#64).toNat = 2 ^ 32 - 1 from rfl, Nat.and_two_pow_sub_one_eq_mod, Nat.mod_mod]
  rw [e, e] at h1
  apply BitVec.eq_of_toNat_eq
  have g1 := congrArg BitVec.toNat h1
  have g2 := congrArg BitVec.toNat h2
  simp only [BitVec.toNat_setWidth, BitVec.toNat_ushiftRight, Nat.shiftRight_eq_div_pow] at g1 g2
  have := u.isLt
  have := v.isLt
  omega


theorem quads8_inj : ∀ (l l' : List (BitVec 8)), l.length = l'.length → l.length % 4 = 0 → quads8 l = quads8 l' → l = l'
  | [], [], _, _, _ => rfl
  | a :: b :: c :: d :: r, a' :: b' :: c' :: d' :: r', hl, h4, h => by
    simp only [quads8, List.cons.injEq] at h
    obtain ⟨g1, g2, g3, g4⟩ := quad_bytes a b c d
    obtain ⟨k1, k2, k3, k4⟩ := quad_bytes a' b' c' d'
    have hr := quads8_inj r r' (by simpa using hl) (by simp only [List.length_cons] at h4; omega) h.2
    rw [h.1] at g1 g2 g3 g4
    rw [← g1, ← g2, ← g3, ← g4, k1, k2, k3, k4, hr]
  | [], _ :: _, hl, _, _ => by simp at hl
  | _ :: _, [], hl, _, _ => by simp at hl
  | [_], _ :: _, _, h4, _ => by simp at h4
  | [_, _], _ :: _, _, h4, _ => by simp at h4
  | [_, _, _], _ :: _, _, h4, _ => by simp at h4
  | _ :: _ :: _ :: _ :: _, [_], hl, _, _ => by simp at hl
  | _ :: _ :: _ :: _ :: _, [_, _], hl, _, _ => by simp at hl
  | _ :: _ :: _ :: _ :: _, [_, _, _], hl, _, _ => by simp at hl

theorem pairs16_inj : ∀ (l l' : List (BitVec 16)), l.length = l'.length → l.length % 2 = 0 → pairs16 l = pairs16 l' → l = l'
  | [], [], _, _, _ => rfl
  | a :: b :: r, a' :: b' :: r', hl, h2, h => by
    simp only [pairs16, List.cons.injEq] at h
    obtain ⟨g1, g2⟩ := pair_halves a b
    obtain ⟨k1, k2⟩ := pair_halves a' b'
    have hr := pairs16_inj r r' (by simpa using hl) (by simp only [List.length_cons] at h2; omega) h.2
    rw [h.1] at g1 g2
    rw [← g1, ← g2, k1, k2, hr]
  | [], _ :: _, hl, _, _ => by simp at hl
  | _ :: _, [], hl, _, _ => by simp at hl
  | [_], _ :: _, _, h2, _ => by simp at h2
  | _ :: _ :: _, [_], hl, _, _ => by simp at hl

theorem wordsOfBytes_inj (l l' : List (BitVec 8)) (hl : l.length = l'.length) (h : wordsOfBytes l = wordsOfBytes l') :
    l = l' := by
  unfold wordsOfBytes at h
  rw [← hl] at h
  have := quads8_inj _ _ (by simp [hl]) (by simp only [List.length_append, List.length_replicate]; omega) h
  exact List.append_cancel_right this

theorem packUint16_inj (l l' : List (BitVec 16)) (hl : l.length = l'.length) (h : packUint16 l = packUint16 l') : l = l' := by
  unfold packUint16 at h
  rw [← hl] at h
  have := pairs16_inj _ _ (by simp [hl]) (by simp only [List.length_append, List.length_replicate]; omega) h
  exact List.append_cancel_right this

theorem splitUint64_inj : ∀ (l l' : List (BitVec 64)), l.length = l'.length → splitUint64 l = splitUint64 l' → l = l'
  | [], [], _, _ => rfl
  | u :: r, v :: r', hl, h => by
    simp only [splitUint64, List.flatMap_cons, List.cons_append, List.nil_append, List.cons.injEq] at h
    rw [split64 u v h.1 h.2.1, splitUint64_inj r r' (by simpa using hl) h.2.2]
  | [], _ :: _, hl, _ => by simp at hl
  | _ :: _, [], hl, _ => by simp at hl

theorem quads8_length : ∀ (l : List (BitVec 8)), (quads8 l).length = l.length / 4
  | [] => by simp [quads8]
  | [_] => by simp [quads8]
  | [_, _] => by simp [quads8]
  | [_, _, _] => by simp [quads8]
  | _ :: _ :: _ :: _ :: r => by
    simp only [quads8, List.length_cons, quads8_length r]; omega

theorem pairs16_length : ∀ (l : List (BitVec 16)), (pairs16 l).length = l.length / 2
  | [] => rfl
  | [_] => by simp [pairs16]
  | _ :: _ :: r => by
    simp only [pairs16, List.length_cons, pairs16_length r]; omega

/-- Number of words of a leaf: a specification in terms of its layout only. -/
def layoutWords : Kind × Nat → Nat
  | (.bool, n) => (n + 3) / 4
  | (.b8, n) => (n + 3) / 4
  | (.b16, n) => (n + 1) / 2
  | (.b32, n) => n
  | (.b64, n) => 2 * n

theorem leafWords_length (x : Leaf) : (leafWords x).length = layoutWords x.layout := by
  cases x with
  | bool l => simp only [leafWords, wordsOfBytes, quads8_length, Leaf.layout, layoutWords]; simp; omega
  | w8 l => simp only [leafWords, wordsOfBytes, quads8_length, Leaf.layout, layoutWords]; simp; omega
  | w16 l => simp only [leafWords, packUint16, pairs16_length, Leaf.layout, layoutWords]; simp; omega
  | w32 l => rfl
  | w64 l =>
    simp only [leafWords, splitUint64, Leaf.layout, layoutWords]
    induction l with
    | nil => rfl
    | cons a l ih => simp only [List.flatMap_cons, List.length_append, List.length_cons, ih, List.length_nil]; omega

theorem leafWords_inj (x y : Leaf) (hl : x.layout = y.layout) (h : leafWords x = leafWords y) : x = y := by
  cases x <;> cases y <;> simp only [Leaf.layout, Prod.mk.injEq, reduceCtorEq, false_and, true_and] at hl
  · rename_i l l'
    have := wordsOfBytes_inj _ _ (by simpa using hl) h
    congr 1
    refine (List.map_inj_right ?_).1 this
    intro a b hab
    revert hab
    cases a <;> cases b <;> decide
  · exact congrArg _ (wordsOfBytes_inj _ _ hl h)
  · exact congrArg _ (packUint16_inj _ _ hl h)
  · exact congrArg _ h
  · exact congrArg _ (splitUint64_inj _ _ hl h)

/-- Total number of words is fixed by the class layout. -/
theorem uint32ed_length (x : List Leaf) : (uint32ed x).length = ((x.map Leaf.layout).map layoutWords).sum := by
  unfold uint32ed
  induction x with
  | nil => rfl
  | cons a x ih => simp [leafWords_length, ih]

/-- **C32.**  Two instances of the same class (same element types and sizes of all leaves) with equal `uint32ed` words have
equal leaves, element by element. -/
theorem uint32ed_injective : ∀ (x y : List Leaf), x.map Leaf.layout = y.map Leaf.layout → uint32ed x = uint32ed y → x = y
  | [], [], _, _ => rfl
  | a :: x, b :: y, hl, h => by
    simp only [List.map_cons, List.cons.injEq] at hl
    simp only [uint32ed, List.flatMap_cons] at h
    have hlen : (leafWords a).length = (leafWords b).length := by rw [leafWords_length, leafWords_length, hl.1]
    obtain ⟨h1, h2⟩ := List.append_inj h hlen
    rw [leafWords_inj a b hl.1 h1, uint32ed_injective x y hl.2 h2]
  | [], _ :: _, hl, _ => by simp at hl
  | _ :: _, [], hl, _ => by simp at hl

/-! ### The words are the little-endian view of the bytes -/

theorem quads8_append : ∀ (a b : List (BitVec 8)), a.length % 4 = 0 → quads8 (a ++ b) = quads8 a ++ quads8 b
  | [], _, _ => rfl
  | x :: y :: z :: w :: r, b, h => by
    simp only [List.cons_append, quads8]
    rw [quads8_append r b (by simp only [List.length_cons] at h; omega)]
  | [_], _, h => by simp at h
  | [_, _], _, h => by simp at h
  | [_, _, _], _, h => by simp at h

theorem word_of_bytes32 (v : BitVec 32) :
    (v.setWidth 8).setWidth 32 ||| ((v >>> 8).setWidth 8).setWidth 32 <<< 8 |||
      ((v >>> 16).setWidth 8).setWidth 32 <<< 16 ||| ((v >>> 24).setWidth 8).setWidth 32 <<< 24 = v := by
  apply BitVec.eq_of_getLsbD_eq
  intro i hi
  have : i = 0 ∨ i = 1 ∨ i = 2 ∨ i = 3 ∨ i = 4 ∨ i = 5 ∨ i = 6 ∨ i = 7 ∨ i = 8 ∨ i = 9 ∨ i = 10 ∨ i = 11 ∨ i = 12 ∨
    i = 13 ∨ i = 14 ∨ i = 15 ∨ i = 16 ∨ i = 17 ∨ i = 18 ∨ i = 19 ∨ i = 20 ∨ i = 21 ∨ i = 22 ∨ i = 23 ∨ i = 24 ∨ i = 25 ∨
    i = 26 ∨ i = 27 ∨ i = 28 ∨ i = 29 ∨ i = 30 ∨ i = 31 := by omega
  rcases this with h | h | h | h | h | h | h | h | h | h | h | h | h | h | h | h | h | h | h | h | h | h | h | h | h | h | h |
    h | h | h | h | h <;> subst h <;> simp

/-- For 32-bit leaves the words are exactly the little-endian view of the bytes. -/
theorem words_of_bytes_w32 (l : List (BitVec 32)) : quads8 (leafBytes (.w32 l)) = leafWords (.w32 l) := by
  induction l with
  | nil => rfl
  | cons v l ih =>
    show quads8 (_ :: _ :: _ :: _ :: _) = _
    rw [quads8]
    rw [word_of_bytes32]
    exact congrArg _ ih

/-- **C32 (aggregate-packed word view).**  With a fixed number of words and at most four tail bytes, `words_all` determines
words and tail. -/
theorem wordsAll_injective (w w' : List W) (t t' : List (BitVec 8)) (hw : w.length = w'.length) (ht : t.length = t'.length)
    (h4 : t.length ≤ 4) (h : wordsAll w t = wordsAll w' t') : w = w' ∧ t = t' := by
  have key : ∀ (t t' : List (BitVec 8)), t.length = t'.length → t.length ≤ 4 →
      (t.zipIdx.foldl (fun (acc : W) (p : BitVec 8 × Nat) => acc ||| (p.1.setWidth 32 <<< (8 * p.2))) 0) =
      (t'.zipIdx.foldl (fun (acc : W) (p : BitVec 8 × Nat) => acc ||| (p.1.setWidth 32 <<< (8 * p.2))) 0) → t = t' := by
    have zero : ∀ a : W, 0#32 ||| a = a := fun a => by simp
    have pad : ∀ a : W, a = a ||| (0#8).setWidth 32 <<< 8 := fun a => by simp
    have pad2 : ∀ a : W, a = a ||| (0#8).setWidth 32 <<< 16 := fun a => by simp
    have pad3 : ∀ a : W, a = a ||| (0#8).setWidth 32 <<< 24 := fun a => by simp
    intro t t' hl h4 h
    have conv : ∀ t : List (BitVec 8), t.length ≤ 4 → t ≠ [] →
        quads8 (t ++ List.replicate (4 - t.length) 0) =
          [t.zipIdx.foldl (fun (acc : W) (p : BitVec 8 × Nat) => acc ||| (p.1.setWidth 32 <<< (8 * p.2))) 0] := by
      intro t ht hne
      rcases t with _ | ⟨a, _ | ⟨b, _ | ⟨c, _ | ⟨d, _ | ⟨e, t⟩⟩⟩⟩⟩
      · exact absurd rfl hne
      · simp [quads8]
      · simp [quads8]
      · simp [quads8]
      · simp [quads8]
      · simp at ht
    by_cases hne : t = []
    · rw [hne] at hl ⊢
      exact (List.length_eq_zero_iff.1 hl.symm).symm
    · have hne' : t' ≠ [] := fun h0 => hne (List.length_eq_zero_iff.1 (by rw [hl, h0]; rfl))
      have e := (conv t h4 hne).trans ((congrArg (fun z => [z]) h).trans (conv t' (by omega) hne').symm)
      rw [← hl] at e
      exact List.append_cancel_right (quads8_inj _ _ (by simp [hl]) (by simp; omega) e)
  unfold wordsAll at h
  rw [← ht, ← hw] at h
  split at h
  · rename_i h0
    exact ⟨h, by rw [List.length_eq_zero_iff.1 h0, List.length_eq_zero_iff.1 (ht.symm.trans h0)]⟩
  · simp only at h
    split at h
    · obtain ⟨h1, h2⟩ := List.append_inj h hw
      exact ⟨h1, key t t' ht h4 (List.cons.inj h2).1⟩
    · rename_i h0
      have h0 : w.length = 0 := Classical.not_not.1 h0
      refine ⟨by rw [List.length_eq_zero_iff.1 h0, List.length_eq_zero_iff.1 (hw.symm.trans h0)], key t t' ht h4 (List.cons.inj h).1⟩

/-! ### The hash table's `Hasher` for a real class -/

/-- Instances of a class with the given leaf layout. -/
def Inst (layout : List (Kind × Nat)) := { x : List Leaf // x.map Leaf.layout = layout }

instance (layout : List (Kind × Nat)) : DecidableEq (Inst layout) := inferInstanceAs (DecidableEq (Subtype _))

/-- The hasher the hash table uses for a class and a seed (hash_utils.py:539-594): `hash_pair` and the fingerprint of it. -/
def classHasher (m : Stream) (layout : List (Kind × Nat)) (seed : W) : HashTable.Hasher (Inst layout) where
  wc := (layout.map layoutWords).sum
  words := fun x => (uint32ed x.1).map BitVec.toNat
  h1 := fun x => (hashPair m x.1 seed).1.toNat
  h2 := fun x => (hashPair m x.1 seed).2.toNat
  words_length := fun x => by rw [List.length_map, uint32ed_length, x.2]
  words_inj := fun x y h => by
    apply Subtype.ext
    apply uint32ed_injective _ _ (by rw [x.2, y.2])
    exact (List.map_inj_right fun a b hab => BitVec.eq_of_toNat_eq hab).1 h
  mix := fun a b => (mixFingerprint (BitVec.ofNat 32 a) (BitVec.ofNat 32 b) 0).toNat

/-- The hash table theorems apply to real classes: e.g. C17 for an arbitrary class, hashed as in `hash.py`. -/
theorem class_lookup_exact {K : Type v} [KeyTop K] (m : Stream) (layout : List (Kind × Nat)) (seed : W)
    {T : HashTable.Table (Inst layout)} (hr : HashTable.Reachable K (classHasher m layout seed) T) (x : Inst layout) :
    (HashTable.lookup (classHasher m layout seed) T x).2 = true ↔ ∃ i, HashTable.Stored T x i :=
  (HashTable.lookup_exact hr x).1

/-- Non-vacuity. -/
example : uint32ed [.bool [true, false, true], .w16 [0xBEEF, 1, 2]] = [0x010001, 0x1BEEF, 2] ∧
    wordsAll [7] [1, 2] = [7, 0x201] := by decide +kernel

end HashModel
